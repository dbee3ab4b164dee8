import Verif.Inout.CmdLineSpec
import Mathlib.Data.List.Induction
import Mathlib.Tactic.SplitIfs

/-!
# Lemmas about reading command lines
-/

namespace Verif.CmdLine

namespace CmdLineProof

theorem find_first {α} (p : α → Bool) (l : List α) (o : α) :
    l.find? p = some o ↔ ∃ pre post, l = pre ++ o :: post ∧ p o = true ∧ ∀ x ∈ pre, p x = false := by
  rw [List.find?_eq_some_iff_append]
  constructor
  · rintro ⟨h, as, bs, rfl, h2⟩
    exact ⟨as, bs, rfl, h, fun x hx => by simpa using h2 x hx⟩
  · rintro ⟨as, bs, rfl, h, h2⟩
    exact ⟨h, as, bs, rfl, fun x hx => by simpa using h2 x hx⟩

theorem findShort_iff (opts c o) : findShort opts c = some o ↔ ShortOpt opts c o := by
  unfold findShort ShortOpt
  rw [find_first]
  constructor
  · rintro ⟨pre, post, h1, h2, h3⟩
    refine ⟨pre, post, h1, (by simpa using h2 : some c = o.short).symm, fun x hx e => ?_⟩
    have := h3 x hx
    rw [e] at this
    simp at this
  · rintro ⟨pre, post, h1, h2, h3⟩
    refine ⟨pre, post, h1, by simp [h2], fun x hx => ?_⟩
    have := h3 x hx
    simp only [beq_eq_false_iff_ne]
    exact fun e => this e.symm

theorem takeWhile_name {n : Str} (h : '=' ∉ n) : n.takeWhile (· ≠ '=') = n := by
  have := List.takeWhile_append_of_pos (p := (· ≠ '=')) (l₁ := n) (l₂ := []) (fun x hx => by
    simp only [decide_eq_true_eq]
    rintro rfl
    exact h hx)
  simpa using this

theorem takeWhile_nameVal {n v : Str} (h : '=' ∉ n) : (n ++ '=' :: v).takeWhile (· ≠ '=') = n := by
  rw [List.takeWhile_append_of_pos]
  · simp
  · intro x hx
    simp only [decide_eq_true_eq]
    rintro rfl
    exact h hx

theorem findLong_iff (opts n o) (a : Str) (h : (a.drop 2).takeWhile (· ≠ '=') = n) : findLong opts a = some o ↔ LongOpt opts n o := by
  unfold findLong LongOpt
  rw [h]
  dsimp only
  have key : ∀ x : Opt, (x.long.take n.length == n && x.long.length == n.length) = true ↔ x.long = n := by
    intro x
    simp only [Bool.and_eq_true, beq_iff_eq]
    constructor
    · rintro ⟨h1, h2⟩
      rwa [← h2, List.take_length] at h1
    · rintro rfl
      exact ⟨List.take_length, rfl⟩
  rw [find_first]
  constructor
  · rintro ⟨pre, post, h1, h2, h3⟩
    refine ⟨pre, post, h1, (key o).1 h2, fun x hx e => ?_⟩
    have := h3 x hx
    rw [(key x).2 e] at this
    cases this
  · rintro ⟨pre, post, h1, h2, h3⟩
    refine ⟨pre, post, h1, (key o).2 h2, fun x hx => ?_⟩
    have := h3 x hx
    rw [Bool.eq_false_iff]
    exact fun e => this ((key x).1 e)

theorem afterEq_none {s : Str} : afterEq s = none ↔ '=' ∉ s := by
  induction s with
  | nil => simp [afterEq]
  | cons c cs ih =>
    rw [afterEq]
    split
    · next h => simp [h]
    · next h => simp [ih, Ne.symm h]

theorem afterEq_some {s v : Str} : afterEq s = some v ↔ ∃ n, '=' ∉ n ∧ s = n ++ '=' :: v := by
  induction s with
  | nil => simp [afterEq]
  | cons c cs ih =>
    rw [afterEq]
    split
    · next h =>
      subst h
      constructor
      · intro h; cases h; exact ⟨[], by simp, rfl⟩
      · rintro ⟨n, hn, h⟩
        cases n with
        | nil => simp at h; simp [h]
        | cons d n => simp at h; simp [← h.1] at hn
    · next h =>
      rw [ih]
      constructor
      · rintro ⟨n, hn, rfl⟩
        exact ⟨c :: n, by simp [hn, Ne.symm h], rfl⟩
      · rintro ⟨n, hn, e⟩
        cases n with
        | nil => simp at e; exact absurd e.1 h
        | cons d n => simp at e hn; exact ⟨n, hn.2, e.2⟩

theorem isOpt_iff {a : Str} : isOpt a = true ↔ ∃ c s, a = '-' :: c :: s := by
  unfold isOpt
  split
  · next c s => simp
  · next h => simp only [Bool.false_eq_true, false_iff]; rintro ⟨c, s, rfl⟩; exact h c s rfl

theorem skip_end (ps : List Str) : skip ps ps.length = ps.length := by
  rw [skip]
  split
  · rfl
  · next h => simp at h

theorem skip_arg (ps : List Str) (a rest) (h : isOpt a = false) :
    skip (ps ++ a :: rest) ps.length = skip (ps ++ a :: rest) (ps.length + 1) := by
  rw [skip]
  split
  · next h => simp at h
  · next b hb =>
    simp at hb
    subst hb
    rw [if_neg (by simp [h])]

theorem skip_opt (ps : List Str) (a rest) (h : isOpt a = true) :
    skip (ps ++ a :: rest) ps.length = ps.length := by
  rw [skip]
  split
  · rfl
  · next b hb =>
    simp at hb
    subst hb
    rw [if_pos h]

/-- The state after the arguments `ps`, before `rest`. -/
@[reducible] def stt (ps rest : List Str) (ac : Int) (k : Nat) : CL := ⟨ps ++ rest, ac, ps.length, k⟩

variable {opts : List Opt} {ps rest : List Str} {ac : Int} {k : Nat}

theorem getOpt_end : getOpt opts (stt ps [] ac k) = .done (stt ps [] ac k) := by
  unfold getOpt
  simp [skip_end]

theorem getOpt_arg {a : Str} (h : isOpt a = false) :
    getOpt opts (stt ps (a :: rest) ac k) = getOpt opts (stt (ps ++ [a]) rest ac k) := by
  unfold getOpt
  simp only [skip_arg _ _ _ h, List.append_assoc, List.cons_append, List.nil_append, List.length_append, List.length_cons, List.length_nil]

theorem getOpt_stop : getOpt opts (stt ps (['-', '-'] :: rest) ac k) = .done ⟨ps ++ rest, ac - 1, (ps ++ rest).length, k⟩ := by
  unfold getOpt
  simp only [skip_opt ps ['-', '-'] rest rfl]
  simp [shift, List.eraseIdx_append_of_length_le]

theorem shift_stt (a : Str) : shift (stt ps (a :: rest) ac k) = stt ps rest (ac - 1) k := by
  simp [shift, List.eraseIdx_append_of_length_le]

theorem getOpt_long {n : Str} (h : n ≠ []) : getOpt opts (stt ps (('-' :: '-' :: n) :: rest) ac k) =
    longOption opts (stt ps (('-' :: '-' :: n) :: rest) ac k) ('-' :: '-' :: n) := by
  unfold getOpt
  simp only [skip_opt ps ('-' :: '-' :: n) rest rfl]
  simp [h]

theorem getOpt_short {c : Char} {cs : Str} (h : c ≠ '-') : getOpt opts (stt ps (('-' :: c :: cs) :: rest) ac k) =
    shortOption opts (stt ps (('-' :: c :: cs) :: rest) ac (if k = 0 then 1 else k)) ('-' :: c :: cs) := by
  unfold getOpt
  simp only [skip_opt ps ('-' :: c :: cs) rest rfl]
  simp only [List.getElem?_append_right (Nat.le_refl _), Nat.sub_self, List.getElem?_cons_zero]
  rw [if_neg (by simp [h]), if_neg (by simp [h])]
  split <;> simp_all

/-- One option within a group. -/
theorem shortOption_flag {s : Str} {c : Char} {o : Opt} (hc : s[k]? = some c) (ho : findShort opts c = some o)
    (ht : o.type ≠ .reqArg) : shortOption opts (stt ps (s :: rest) ac k) s =
    .opt o (noVal o) (if s.drop (k + 1) = [] then stt ps rest (ac - 1) 0 else stt ps (s :: rest) ac (k + 1)) := by
  unfold shortOption
  simp only [hc, ho]
  have hs : shift { argv := ps ++ s :: rest, argc := ac, argi := ps.length, sc := 0 } = stt ps rest (ac - 1) 0 := shift_stt s
  cases e : o.type with
  | reqArg => exact absurd e ht
  | noArg =>
    simp only [noVal, e]
    split
    · rw [hs]; try rfl
    · rfl
  | optArg =>
    simp only [noVal, e]
    split
    · rw [hs]; try rfl
    · rfl

theorem getAll_step {n st o v st'} (h : getOpt opts st = .opt o v st') : getAll opts (n + 1) st =
    (match getAll opts n st' with
      | none => none
      | some (.error e) => some (.error e)
      | some (.ok (os, st)) => some (.ok ((o, v) :: os, st))) := by
  rw [getAll, h]
  rfl

theorem getAll_ok {n st o v st' os fin} (h : getOpt opts st = .opt o v st') (h2 : getAll opts n st' = some (.ok (os, fin))) :
    getAll opts (n + 1) st = some (.ok ((o, v) :: os, fin)) := by
  rw [getAll_step h, h2]

theorem getAll_inv {n st r} (h : getAll opts n st = some (.ok r)) : ∃ m, n = m + 1 ∧
    (getOpt opts st = .done r.2 ∧ r.1 = [] ∨
      ∃ o v st' os, getOpt opts st = .opt o v st' ∧ getAll opts m st' = some (.ok (os, r.2)) ∧ r.1 = (o, v) :: os) := by
  cases n with
  | zero => simp [getAll] at h
  | succ m =>
    refine ⟨m, rfl, ?_⟩
    rw [getAll] at h
    split at h
    · simp at h
    · next st' e =>
      simp only [Option.some.injEq, Except.ok.injEq] at h
      subst h
      exact .inl ⟨e, rfl⟩
    · next o v st' e =>
      right
      split at h
      · cases h
      · simp at h
      · next os fin e2 =>
        simp only [Option.some.injEq, Except.ok.injEq] at h
        subst h
        exact ⟨o, v, st', os, e, e2, rfl⟩

/-- The final state after the arguments `ps'`. -/
def Final (fin : CL) (ps : List Str) (n : Int) : Prop := fin.argv = ps ∧ fin.argi = ps.length ∧ fin.argc - ps.length = n

theorem flags_complete {s : Str} {cs : Str} {fs os fin} (hf : Flags opts cs fs) (hs : ∃ c s', s = '-' :: c :: s' ∧ c ≠ '-')
    (hk : k ≠ 0) (hd : s.drop k = cs) (hne : cs ≠ []) (n : Nat) (hr : getAll opts n (stt ps rest (ac - 1) 0) = some (.ok (os, fin))) :
    ∃ m, getAll opts m (stt ps (s :: rest) ac k) = some (.ok (fs ++ os, fin)) := by
  induction hf generalizing k with
  | nil => exact absurd rfl hne
  | @cons c cs o fs hso ht hf ih =>
    obtain ⟨c0, s', rfl, h0⟩ := hs
    have hc : ('-' :: c0 :: s')[k]? = some c := by
      have := congrArg (·[0]?) hd
      simpa using this
    have hd' : ('-' :: c0 :: s').drop (k + 1) = cs := by
      have := congrArg (List.drop 1) hd
      simpa using this
    have hg : getOpt opts (stt ps (('-' :: c0 :: s') :: rest) ac k) = _ := getOpt_short h0
    rw [if_neg hk, shortOption_flag hc ((findShort_iff _ _ _).2 hso) ht] at hg
    by_cases hcs : cs = []
    · subst hcs
      cases hf
      rw [if_pos hd'] at hg
      exact ⟨n + 1, getAll_ok hg hr⟩
    · rw [if_neg (by rw [hd']; exact hcs)] at hg
      obtain ⟨m, hm⟩ := ih (k := k + 1) (by omega) hd' hcs
      exact ⟨m + 1, getAll_ok hg hm⟩

theorem getOpt_reqAttached {c : Char} {v : Str} {o : Opt} (hc : c ≠ '-') (ho : ShortOpt opts c o) (ht : o.type = .reqArg) (hv : v ≠ []) :
    getOpt opts (stt ps (('-' :: c :: v) :: rest) ac 0) = .opt o (some v) (stt ps rest (ac - 1) 0) := by
  rw [getOpt_short hc]
  unfold shortOption
  simp only [if_pos, List.getElem?_cons_succ, List.getElem?_cons_zero, (findShort_iff _ _ _).2 ho, ht, ne_eq, not_true_eq_false, if_false]
  rw [if_pos (by simpa using hv)]
  have hs : shift { argv := ps ++ ('-' :: c :: v) :: rest, argc := ac, argi := ps.length, sc := 0 } = stt ps rest (ac - 1) 0 := shift_stt _
  rw [hs]
  rfl

theorem getOpt_reqSeparate {c : Char} {v : Str} {o : Opt} (hc : c ≠ '-') (ho : ShortOpt opts c o) (ht : o.type = .reqArg) :
    getOpt opts (stt ps (['-', c] :: v :: rest) ac 0) = .opt o (some v) (stt ps rest (ac - 1 - 1) 0) := by
  rw [getOpt_short hc]
  unfold shortOption
  simp only [if_pos, List.getElem?_cons_succ, List.getElem?_cons_zero, (findShort_iff _ _ _).2 ho, ht, ne_eq, not_true_eq_false, if_false]
  rw [if_neg (by simp)]
  rw [shift_stt]
  simp only [List.getElem?_append_right (Nat.le_refl _), Nat.sub_self, List.getElem?_cons_zero]
  have hs : shift { argv := ps ++ v :: rest, argc := ac - 1, argi := ps.length, sc := 0 } = stt ps rest (ac - 1 - 1) 0 := shift_stt _
  rw [hs]

theorem getOpt_longNo {n : Str} {o : Opt} (hn : n ≠ []) (he : '=' ∉ n) (ho : LongOpt opts n o) (ht : o.type ≠ .reqArg) :
    getOpt opts (stt ps (('-' :: '-' :: n) :: rest) ac 0) = .opt o (noVal o) (stt ps rest (ac - 1) 0) := by
  rw [getOpt_long hn]
  unfold longOption
  rw [(findLong_iff opts n o _ (by simpa using takeWhile_name he)).2 ho]
  have : afterEq ('-' :: '-' :: n) = none := afterEq_none.2 (by simp [he])
  simp only [this, shift_stt]
  cases e : o.type <;> simp_all [noVal]

theorem getOpt_longVal {n v : Str} {o : Opt} (he : '=' ∉ n) (ho : LongOpt opts n o) (ht : o.type ≠ .noArg) :
    getOpt opts (stt ps (('-' :: '-' :: n ++ '=' :: v) :: rest) ac 0) = .opt o (some v) (stt ps rest (ac - 1) 0) := by
  rw [List.cons_append, List.cons_append, getOpt_long (by simp)]
  unfold longOption
  rw [(findLong_iff opts n o _ (by simpa using takeWhile_nameVal he)).2 ho]
  have : afterEq ('-' :: '-' :: (n ++ '=' :: v)) = some v := afterEq_some.2 ⟨'-' :: '-' :: n, by simp [he], rfl⟩
  simp only [this, shift_stt]
  cases e : o.type <;> simp_all

theorem complete {as os qs} (h : Parses opts as os qs) (ps : List Str) (ac : Int) :
    ∃ n fin, getAll opts n (stt ps as ac 0) = some (.ok (os, fin)) ∧ Final fin (ps ++ qs) (ac - (ps ++ as).length) := by
  induction h generalizing ps ac with
  | nil => exact ⟨1, _, by rw [getAll, getOpt_end], by simp, by simp, by simp⟩
  | @arg a as os qs ha _ ih =>
    obtain ⟨n, fin, h1, h2⟩ := ih (ps ++ [a]) ac
    refine ⟨n, fin, ?_, by simpa using h2⟩
    cases n with
    | zero => simp [getAll] at h1
    | succ n =>
      rw [getAll] at h1 ⊢
      rw [getOpt_arg (by rw [Bool.eq_false_iff]; intro h; obtain ⟨c, s, e⟩ := isOpt_iff.1 h; exact ha c s e)]
      exact h1
  | stop as => exact ⟨1, _, by rw [getAll, getOpt_stop], rfl, rfl, by simp; omega⟩
  | @long n o as os qs hn he ho ht _ ih =>
    obtain ⟨m, fin, h1, h2, h3, h4⟩ := ih ps (ac - 1)
    exact ⟨m + 1, fin, getAll_ok (getOpt_longNo hn he ho ht) h1, h2, h3, by simp at h4 ⊢; omega⟩
  | @longVal n v o as os qs he ho ht _ ih =>
    obtain ⟨m, fin, h1, h2, h3, h4⟩ := ih ps (ac - 1)
    exact ⟨m + 1, fin, getAll_ok (getOpt_longVal he ho ht) h1, h2, h3, by simp at h4 ⊢; omega⟩
  | @flags c cs fs as os qs hc hf _ ih =>
    obtain ⟨m, fin, h1, h2, h3, h4⟩ := ih ps (ac - 1)
    obtain ⟨m', hm'⟩ := flags_complete (s := '-' :: c :: cs) (k := 1) hf ⟨c, cs, rfl, hc⟩ (by omega) rfl (by simp) m h1
    refine ⟨m', fin, ?_, h2, h3, by simp at h4 ⊢; omega⟩
    cases m' with
    | zero => simp [getAll] at hm'
    | succ m' =>
      rw [getAll] at hm' ⊢
      rw [getOpt_short hc] at hm' ⊢
      exact hm'
  | @attached c v o as os qs hc hv ho ht _ ih =>
    obtain ⟨m, fin, h1, h2, h3, h4⟩ := ih ps (ac - 1)
    exact ⟨m + 1, fin, getAll_ok (getOpt_reqAttached hc ho ht hv) h1, h2, h3, by simp at h4 ⊢; omega⟩
  | @separate c v o as os qs hc ho ht _ ih =>
    obtain ⟨m, fin, h1, h2, h3, h4⟩ := ih ps (ac - 1 - 1)
    exact ⟨m + 1, fin, getAll_ok (getOpt_reqSeparate hc ho ht) h1, h2, h3, by simp at h4 ⊢; omega⟩

/-- What the first letter of a group, or the only short option, can be. -/
theorem short_cases {c : Char} {cs : Str} (hc : c ≠ '-') (hk : ('-' :: c :: cs).drop (if k = 0 then 1 else k) ≠ []) :
    (∃ e, getOpt opts (stt ps (('-' :: c :: cs) :: rest) ac k) = .error e) ∨
    (∃ d o, ('-' :: c :: cs)[if k = 0 then 1 else k]? = some d ∧ ShortOpt opts d o ∧ o.type ≠ .reqArg ∧
      getOpt opts (stt ps (('-' :: c :: cs) :: rest) ac k) =
        .opt o (noVal o) (if ('-' :: c :: cs).drop ((if k = 0 then 1 else k) + 1) = [] then stt ps rest (ac - 1) 0
          else stt ps (('-' :: c :: cs) :: rest) ac ((if k = 0 then 1 else k) + 1))) ∨
    ((if k = 0 then 1 else k) = 1 ∧ ∃ o, ShortOpt opts c o ∧ o.type = .reqArg ∧ cs ≠ [] ∧
      getOpt opts (stt ps (('-' :: c :: cs) :: rest) ac k) = .opt o (some cs) (stt ps rest (ac - 1) 0)) ∨
    ((if k = 0 then 1 else k) = 1 ∧ ∃ o v rest', ShortOpt opts c o ∧ o.type = .reqArg ∧ cs = [] ∧ rest = v :: rest' ∧
      getOpt opts (stt ps (('-' :: c :: cs) :: rest) ac k) = .opt o (some v) (stt ps rest' (ac - 1 - 1) 0)) := by
  have hg : getOpt opts (stt ps (('-' :: c :: cs) :: rest) ac k) = _ := getOpt_short hc
  generalize hkk : (if k = 0 then 1 else k) = j at *
  obtain ⟨d, hd⟩ : ∃ d, ('-' :: c :: cs)[j]? = some d := by
    cases h : ('-' :: c :: cs)[j]? with
    | some d => exact ⟨d, rfl⟩
    | none =>
      rw [List.getElem?_eq_none_iff] at h
      exact absurd (List.drop_eq_nil_of_le h) hk
  cases ho : findShort opts d with
  | none =>
    left
    refine ⟨.unknown, ?_⟩
    rw [hg]
    unfold shortOption
    simp only [hd, ho]
  | some o =>
    by_cases ht : o.type = .reqArg
    · by_cases hj : j = 1
      · have hgk : getOpt opts (stt ps (('-' :: c :: cs) :: rest) ac k) = getOpt opts (stt ps (('-' :: c :: cs) :: rest) ac 0) := by
          rw [hg, getOpt_short hc, hj]
          simp
        subst hj
        simp at hd
        subst hd
        rw [findShort_iff] at ho
        by_cases hv : cs = []
        · subst hv
          cases rest with
          | nil =>
            left
            refine ⟨.argMissing, ?_⟩
            rw [hg]
            unfold shortOption
            simp only [List.getElem?_cons_succ, List.getElem?_cons_zero, (findShort_iff _ _ _).2 ho, ht, ne_eq, not_true_eq_false, if_false]
            rw [if_neg (by simp)]
            rw [shift_stt]
            simp
          | cons v rest' =>
            right; right; right
            exact ⟨rfl, o, v, rest', ho, ht, rfl, rfl, by rw [hgk]; exact getOpt_reqSeparate hc ho ht⟩
        · right; right; left
          exact ⟨rfl, o, ho, ht, hv, by rw [hgk]; exact getOpt_reqAttached hc ho ht hv⟩
      · left
        refine ⟨.aggregated, ?_⟩
        rw [hg]
        unfold shortOption
        simp only [hd, ho, ht]
        rw [if_pos hj]
    · right; left
      refine ⟨d, o, hd, (findShort_iff _ _ _).1 ho, ht, ?_⟩
      rw [hg, shortOption_flag hd ho ht]

theorem long_cases {n : Str} (hn : n ≠ []) :
    (∃ e, getOpt opts (stt ps (('-' :: '-' :: n) :: rest) ac 0) = .error e) ∨
    (∃ o, '=' ∉ n ∧ LongOpt opts n o ∧ o.type ≠ .reqArg ∧
      getOpt opts (stt ps (('-' :: '-' :: n) :: rest) ac 0) = .opt o (noVal o) (stt ps rest (ac - 1) 0)) ∨
    (∃ m v o, '=' ∉ m ∧ n = m ++ '=' :: v ∧ LongOpt opts m o ∧ o.type ≠ .noArg ∧
      getOpt opts (stt ps (('-' :: '-' :: n) :: rest) ac 0) = .opt o (some v) (stt ps rest (ac - 1) 0)) := by
  have hg : getOpt opts (stt ps (('-' :: '-' :: n) :: rest) ac 0) = _ := getOpt_long hn
  cases ho : findLong opts ('-' :: '-' :: n) with
  | none => exact .inl ⟨.unknown, by rw [hg]; unfold longOption; simp only [ho]⟩
  | some o =>
    cases he : afterEq n with
    | none =>
      have he' : afterEq ('-' :: '-' :: n) = none := by rw [afterEq, if_neg (by decide), afterEq, if_neg (by decide), he]
      rw [afterEq_none] at he
      rw [findLong_iff opts n o _ (by simpa using takeWhile_name he)] at ho
      by_cases ht : o.type = .reqArg
      · left
        refine ⟨.argMissing, ?_⟩
        rw [hg]
        unfold longOption
        simp only [(findLong_iff opts n o ('-' :: '-' :: n) (by simpa using takeWhile_name he)).2 ho, he', ht]
      · exact .inr (.inl ⟨o, he, ho, ht, getOpt_longNo hn he ho ht⟩)
    | some v =>
      have he' : afterEq ('-' :: '-' :: n) = some v := by rw [afterEq, if_neg (by decide), afterEq, if_neg (by decide), he]
      obtain ⟨m, hm, rfl⟩ := afterEq_some.1 he
      have hfl := findLong_iff opts m o ('-' :: '-' :: (m ++ '=' :: v)) (by simpa using takeWhile_nameVal hm)
      by_cases ht : o.type = .noArg
      · left
        refine ⟨.noArgAllowed, ?_⟩
        rw [hg]
        unfold longOption
        simp only [ho, he', ht]
      · exact .inr (.inr ⟨m, v, o, hm, rfl, hfl.1 ho, ht, getOpt_longVal hm (hfl.1 ho) ht⟩)

/-- What an argument can be. -/
theorem arg_cases (a : Str) : isOpt a = false ∨ a = ['-', '-'] ∨ (∃ n, n ≠ [] ∧ a = '-' :: '-' :: n) ∨
    ∃ c cs, c ≠ '-' ∧ a = '-' :: c :: cs := by
  cases h : isOpt a with
  | false => exact .inl rfl
  | true =>
    obtain ⟨c, s, rfl⟩ := isOpt_iff.1 h
    by_cases hc : c = '-'
    · subst hc
      by_cases hs : s = []
      · subst hs; exact .inr (.inl rfl)
      · exact .inr (.inr (.inl ⟨s, hs, rfl⟩))
    · exact .inr (.inr (.inr ⟨c, s, hc, rfl⟩))

theorem drop_cons_of_get {s : Str} {j : Nat} {d : Char} (h : s[j]? = some d) : s.drop j = d :: s.drop (j + 1) := by
  obtain ⟨hl, rfl⟩ := List.getElem?_eq_some_iff.1 h
  exact List.drop_eq_getElem_cons hl

theorem sound (n : Nat) : (∀ rest ps ac os fin, getAll opts n (stt ps rest ac 0) = some (.ok (os, fin)) →
      ∃ qs, Parses opts rest os qs ∧ Final fin (ps ++ qs) (ac - (ps ++ rest).length)) ∧
    (∀ c cs rest ps ac k os fin, c ≠ '-' → 2 ≤ k → ('-' :: c :: cs).drop k ≠ [] →
      getAll opts n (stt ps (('-' :: c :: cs) :: rest) ac k) = some (.ok (os, fin)) →
      ∃ fs os' qs, os = fs ++ os' ∧ Flags opts (('-' :: c :: cs).drop k) fs ∧ Parses opts rest os' qs ∧
        Final fin (ps ++ qs) (ac - 1 - (ps ++ rest).length)) := by
  induction n with
  | zero => simp [getAll]
  | succ n ih =>
    refine ⟨fun rest => ?_, ?_⟩
    · induction rest with
      | nil =>
        intro ps ac os fin h
        rw [getAll, getOpt_end] at h
        simp only [Option.some.injEq, Except.ok.injEq, Prod.mk.injEq] at h
        obtain ⟨rfl, rfl⟩ := h
        exact ⟨[], .nil, by simp [Final]⟩
      | cons a rest ihr =>
        intro ps ac os fin h
        rcases arg_cases a with ha | rfl | ⟨m, hm, rfl⟩ | ⟨c, cs, hc, rfl⟩
        · have h' : getAll opts (n + 1) (stt (ps ++ [a]) rest ac 0) = some (.ok (os, fin)) := by
            rw [getAll] at h ⊢
            rwa [getOpt_arg ha] at h
          obtain ⟨qs, h1, h2⟩ := ihr _ _ _ _ h'
          refine ⟨a :: qs, .arg (fun c s e => ?_) h1, by simpa using h2⟩
          rw [isOpt_iff.2 ⟨c, s, e⟩] at ha
          cases ha
        · rw [getAll, getOpt_stop] at h
          simp only [Option.some.injEq, Except.ok.injEq, Prod.mk.injEq] at h
          obtain ⟨rfl, rfl⟩ := h
          refine ⟨rest, .stop _, rfl, rfl, ?_⟩
          simp
          omega
        · obtain ⟨m', hm', h⟩ := getAll_inv h
          cases hm'
          rcases long_cases (opts := opts) (ps := ps) (rest := rest) (ac := ac) hm with ⟨e, he⟩ | ⟨o, h1, h2, h3, he⟩ | ⟨m, v, o, h1, rfl, h2, h3, he⟩
          · rw [he] at h
            simp at h
          · rw [he] at h
            rcases h with ⟨h, -⟩ | ⟨o', v', st', os', h, hr, ho⟩
            · cases h
            · cases h
              obtain ⟨qs, q1, q2, q3, q4⟩ := ih.1 _ _ _ _ _ hr
              dsimp only at ho
              subst ho
              exact ⟨qs, .long hm h1 h2 h3 q1, q2, q3, by simp at q4 ⊢; omega⟩
          · rw [he] at h
            rcases h with ⟨h, -⟩ | ⟨o', v', st', os', h, hr, ho⟩
            · cases h
            · cases h
              obtain ⟨qs, q1, q2, q3, q4⟩ := ih.1 _ _ _ _ _ hr
              dsimp only at ho
              subst ho
              exact ⟨qs, .longVal h1 h2 h3 q1, q2, q3, by simp at q4 ⊢; omega⟩
        · obtain ⟨m', hm', h⟩ := getAll_inv h
          cases hm'
          rcases short_cases (opts := opts) (ps := ps) (rest := rest) (ac := ac) (k := 0) (cs := cs) hc (by simp) with
            ⟨e, he⟩ | ⟨d, o, hd, h1, h2, he⟩ | ⟨-, o, h1, h2, h3, he⟩ | ⟨-, o, v, rest', h1, h2, rfl, rfl, he⟩
          · rw [he] at h
            simp at h
          · rw [he] at h
            rcases h with ⟨h, -⟩ | ⟨o', v', st', os', h, hr, ho⟩
            · cases h
            · cases h
              dsimp only at ho
              subst ho
              simp at hd
              subst hd
              rw [if_pos rfl] at hr
              by_cases hcs : cs = []
              · rw [if_pos (by simpa using hcs)] at hr
                subst hcs
                obtain ⟨qs, q1, q2, q3, q4⟩ := ih.1 _ _ _ _ _ hr
                exact ⟨qs, .flags hc (.cons h1 h2 .nil) q1, q2, q3, by simp at q4 ⊢; omega⟩
              · rw [if_neg (by simpa using hcs)] at hr
                obtain ⟨fs, os'', qs, rfl, q0, q1, q2, q3, q4⟩ := ih.2 _ _ _ _ _ _ _ _ hc (by simp) (by simpa using hcs) hr
                exact ⟨qs, .flags hc (.cons h1 h2 (by simpa using q0)) q1, q2, q3, by simp at q4 ⊢; omega⟩
          · rw [he] at h
            rcases h with ⟨h, -⟩ | ⟨o', v', st', os', h, hr, ho⟩
            · cases h
            · cases h
              obtain ⟨qs, q1, q2, q3, q4⟩ := ih.1 _ _ _ _ _ hr
              dsimp only at ho
              subst ho
              exact ⟨qs, .attached hc h3 h1 h2 q1, q2, q3, by simp at q4 ⊢; omega⟩
          · rw [he] at h
            rcases h with ⟨h, -⟩ | ⟨o', v', st', os', h, hr, ho⟩
            · cases h
            · cases h
              obtain ⟨qs, q1, q2, q3, q4⟩ := ih.1 _ _ _ _ _ hr
              dsimp only at ho
              subst ho
              exact ⟨qs, .separate hc h1 h2 q1, q2, q3, by simp at q4 ⊢; omega⟩
    · intro c cs rest ps ac k os fin hc hk hd h
      obtain ⟨m', hm', h⟩ := getAll_inv h
      cases hm'
      have hk0 : (if k = 0 then 1 else k) = k := if_neg (by omega)
      have hsc := short_cases (opts := opts) (ps := ps) (rest := rest) (ac := ac) (k := k) (cs := cs) hc (by rw [hk0]; exact hd)
      rw [hk0] at hsc
      rcases hsc with ⟨e, he⟩ | ⟨d, o, hd, h1, h2, he⟩ | ⟨h1, -⟩ | ⟨h1, -⟩
      · rw [he] at h
        simp at h
      · rw [he] at h
        rcases h with ⟨h, -⟩ | ⟨o', v', st', os', h, hr, ho⟩
        · cases h
        · cases h
          dsimp only at ho
          subst ho
          rw [drop_cons_of_get hd]
          split at hr
          · next hcs =>
            obtain ⟨qs, q1, q2⟩ := ih.1 _ _ _ _ _ hr
            exact ⟨[(o, noVal o)], os', qs, rfl, by rw [hcs]; exact .cons h1 h2 .nil, q1, q2⟩
          · next hcs =>
            obtain ⟨fs, os'', qs, rfl, q0, q1, q2⟩ := ih.2 _ _ _ _ _ _ _ _ hc (by omega) hcs hr
            exact ⟨_ :: fs, os'', qs, rfl, .cons h1 h2 q0, q1, q2⟩
      · omega
      · omega

theorem total_step {st o v st'} (h : getOpt opts st = .opt o v st') (h2 : ∃ n r, getAll opts n st' = some r) :
    ∃ n r, getAll opts n st = some r := by
  obtain ⟨n, r, h2⟩ := h2
  refine ⟨n + 1, ?_⟩
  rw [getAll_step h, h2]
  rcases r with e | ⟨os, fin⟩
  · exact ⟨_, rfl⟩
  · exact ⟨_, rfl⟩

theorem total_error {st e} (h : getOpt opts st = .error e) : ∃ n r, getAll opts n st = some r :=
  ⟨1, .error e, by rw [getAll, h]⟩

theorem total (m : Nat) : ∀ rest : List Str, rest.length = m → ∀ ps ac, ∃ n r, getAll opts n (stt ps rest ac 0) = some r := by
  induction m using Nat.strongRecOn with
  | _ m ih =>
    intro rest hl ps ac
    cases rest with
    | nil => exact ⟨1, _, by rw [getAll, getOpt_end]⟩
    | cons a rest =>
      simp at hl
      have ihr := fun ps ac => ih rest.length (by omega) rest rfl ps ac
      rcases arg_cases a with ha | rfl | ⟨m, hm, rfl⟩ | ⟨c, cs, hc, rfl⟩
      · obtain ⟨n, r, h⟩ := ihr (ps ++ [a]) ac
        refine ⟨n, r, ?_⟩
        cases n with
        | zero => simp [getAll] at h
        | succ n =>
          rw [getAll] at h ⊢
          rwa [getOpt_arg ha]
      · exact ⟨1, _, by rw [getAll, getOpt_stop]⟩
      · rcases long_cases (opts := opts) (ps := ps) (rest := rest) (ac := ac) hm with ⟨e, he⟩ | ⟨o, h1, h2, h3, he⟩ | ⟨m, v, o, h1, rfl, h2, h3, he⟩
        · exact total_error he
        · exact total_step he (ihr _ _)
        · exact total_step he (ihr _ _)
      · have key : ∀ j k, ('-' :: c :: cs).length - (if k = 0 then 1 else k) = j → ('-' :: c :: cs).drop (if k = 0 then 1 else k) ≠ [] →
            ∃ n r, getAll opts n (stt ps (('-' :: c :: cs) :: rest) ac k) = some r := by
          intro j
          induction j using Nat.strongRecOn with
          | _ j ihj =>
            intro k hj hne
            rcases short_cases (opts := opts) (ps := ps) (rest := rest) (ac := ac) (k := k) (cs := cs) hc hne with
              ⟨e, he⟩ | ⟨d, o, hd, h1, h2, he⟩ | ⟨-, o, h1, h2, h3, he⟩ | ⟨-, o, v, rest', h1, h2, rfl, rfl, he⟩
            · exact total_error he
            · refine total_step he ?_
              have hlt := (List.getElem?_eq_some_iff.1 hd).1
              by_cases hcs : ('-' :: c :: cs).drop ((if k = 0 then 1 else k) + 1) = []
              · rw [if_pos hcs]; exact ihr _ _
              · rw [if_neg hcs]
                exact ihj _ (by rw [if_neg (by omega)]; omega) _ rfl (by rw [if_neg (by omega)]; exact hcs)
            · exact total_step he (ihr _ _)
            · exact total_step he (ih rest'.length (by simp at hl; omega) rest' rfl _ _)
        exact key _ 0 rfl (by simp)

theorem mono {n m : Nat} {st r} (h : getAll opts n st = some r) (hm : n ≤ m) : getAll opts m st = some r := by
  induction n generalizing m st r with
  | zero => simp [getAll] at h
  | succ n ih =>
    obtain ⟨m, rfl⟩ : ∃ m', m = m' + 1 := ⟨m - 1, by omega⟩
    rw [getAll] at h ⊢
    cases hg : getOpt opts st with
    | error e => rw [hg] at h; exact h
    | done st' => rw [hg] at h; exact h
    | opt o v st' =>
      rw [hg] at h
      dsimp only at h ⊢
      cases hr : getAll opts n st' with
      | none => rw [hr] at h; cases h
      | some r' =>
        rw [ih hr (by omega)]
        rw [hr] at h
        exact h

/-! ## Integers -/

theorem isDigit_iff {c : Char} : isDigit c = true ↔ ∃ d, d < 10 ∧ c = Char.ofNat (48 + d) := by
  unfold isDigit
  simp only [Bool.and_eq_true, decide_eq_true_eq]
  constructor
  · rintro ⟨h1, h2⟩
    have h1' : 48 ≤ c.toNat := by simpa [Char.le_def, UInt32.le_iff_toNat_le] using h1
    have h2' : c.toNat ≤ 57 := by simpa [Char.le_def, UInt32.le_iff_toNat_le] using h2
    refine ⟨c.toNat - 48, by omega, ?_⟩
    rw [show 48 + (c.toNat - 48) = c.toNat by omega, Char.ofNat_toNat]
  · rintro ⟨d, hd, rfl⟩
    revert d
    decide

theorem digitVal_ofNat {d : Nat} (h : d < 10) : digitVal (Char.ofNat (48 + d)) = d := by
  revert d
  decide

theorem dec_iff (ds : Str) (n : Nat) : Dec ds n ↔ (∀ c ∈ ds, isDigit c = true) ∧ digitsVal ds = n := by
  constructor
  · intro h
    induction h with
    | nil => simp [digitsVal]
    | @snoc ds n d _ hd ih =>
      refine ⟨fun c hc => ?_, ?_⟩
      · rcases List.mem_append.1 hc with hc | hc
        · exact ih.1 c hc
        · simp at hc
          exact isDigit_iff.2 ⟨d, hd, hc⟩
      · have h2 := ih.2
        unfold digitsVal at h2 ⊢
        rw [List.foldl_append, h2]
        simp only [List.foldl_cons, List.foldl_nil, digitVal_ofNat hd]
  · rintro ⟨h, rfl⟩
    induction ds using List.reverseRecOn with
    | nil => exact .nil
    | append_singleton ds c ih =>
      obtain ⟨d, hd, rfl⟩ := isDigit_iff.1 (h c (by simp))
      have := Dec.snoc d (ih fun c hc => h c (by simp [hc])) hd
      unfold digitsVal at this ⊢
      rw [List.foldl_append]
      simpa only [List.foldl_cons, List.foldl_nil, digitVal_ofNat hd] using this

theorem isSpace_iff {c : Char} : isSpace c = true ↔ c ∈ [' ', '\t', '\n', '\x0b', '\x0c', '\r'] := by
  simp [isSpace, or_assoc]

theorem dropWhile_append_all {p : Char → Bool} {a b : Str} (ha : ∀ c ∈ a, p c = true) (hb : ∀ c, b.head? = some c → p c = false) :
    (a ++ b).dropWhile p = b := by
  induction a with
  | nil =>
    cases b with
    | nil => rfl
    | cons c b => simp [hb c rfl]
  | cons c a ih =>
    rw [List.cons_append, List.dropWhile_cons_of_pos (ha c (by simp))]
    exact ih fun d hd => ha d (by simp [hd])

theorem takeWhile_all {p : Char → Bool} {a : Str} (ha : ∀ c ∈ a, p c = true) : a.takeWhile p = a ∧ a.dropWhile p = [] := by
  induction a with
  | nil => simp
  | cons c a ih =>
    have := ih fun d hd => ha d (by simp [hd])
    simp [ha c (by simp), this]

theorem mem_takeWhile {p : Char → Bool} {a : Str} {c : Char} (h : c ∈ a.takeWhile p) : p c = true := by
  induction a with
  | nil => simp at h
  | cons d a ih =>
    by_cases hd : p d
    · rw [List.takeWhile_cons_of_pos hd] at h
      rcases List.mem_cons.1 h with rfl | h
      · exact hd
      · exact ih h
    · rw [List.takeWhile_cons_of_neg hd] at h
      simp at h

/-- `strtol` after the white space and the sign. -/
def strtolTail (s : Str) (neg : Bool) (s2 : Str) : Int × Bool × Str :=
  let ds := s2.takeWhile isDigit
  if ds = [] then (0, false, s)
  else
    let n : Int := if neg then - (digitsVal ds : Int) else digitsVal ds
    if n < - 2 ^ 63 then (- 2 ^ 63, true, s2.dropWhile isDigit)
    else if n > 2 ^ 63 - 1 then (2 ^ 63 - 1, true, s2.dropWhile isDigit)
    else (n, false, s2.dropWhile isDigit)

theorem strtol_neg {s r : Str} (h : s.dropWhile isSpace = '-' :: r) : strtol s = strtolTail s true r := by
  unfold strtol strtolTail
  rw [h]
  rfl

theorem strtol_pos {s r : Str} (h : s.dropWhile isSpace = '+' :: r) : strtol s = strtolTail s false r := by
  unfold strtol strtolTail
  rw [h]
  rfl

theorem strtol_plain {s r : Str} (h : s.dropWhile isSpace = r) (h1 : ∀ t, r ≠ '-' :: t) (h2 : ∀ t, r ≠ '+' :: t) :
    strtol s = strtolTail s false r := by
  unfold strtol strtolTail
  have e : splitSign r = (false, r) := by
    unfold splitSign
    split
    · next t => exact absurd rfl (h1 t)
    · next t => exact absurd rfl (h2 t)
    · rfl
  rw [h]
  dsimp only
  rw [e]

/-- What the tail accepts. -/
def accept (r : Int × Bool × Str) : Option Int := if r.2.1 || r.2.2 ≠ [] then none else some r.1

theorem accept_tail {s s2 : Str} {neg : Bool} (hs : s ≠ []) (n : Int) : accept (strtolTail s neg s2) = some n ↔
    s2 ≠ [] ∧ (∃ m, Dec s2 m ∧ n = if neg then - (m : Int) else m) ∧ - 2 ^ 63 ≤ n ∧ n ≤ 2 ^ 63 - 1 := by
  unfold accept strtolTail
  dsimp only
  by_cases hd : s2.takeWhile isDigit = []
  · rw [if_pos hd]
    simp only [hs, ne_eq, not_false_eq_true, decide_true, Bool.or_true, if_true]
    simp only [reduceCtorEq, false_iff]
    rintro ⟨h, ⟨m, hm, -⟩, -⟩
    have := takeWhile_all ((dec_iff _ _).1 hm).1
    exact h (this.1.symm.trans hd)
  · rw [if_neg hd]
    by_cases hr : s2.dropWhile isDigit = []
    · have e : s2.takeWhile isDigit = s2 := by
        have := List.takeWhile_append_dropWhile (p := isDigit) (l := s2)
        rwa [hr, List.append_nil] at this
      have hall : ∀ c ∈ s2, isDigit c = true := by
        intro c hc
        rw [← e] at hc
        exact mem_takeWhile hc
      rw [hr, e]
      rw [e] at hd
      have hdec : ∀ m, Dec s2 m ↔ m = digitsVal s2 := by
        intro m
        rw [dec_iff]
        exact ⟨fun h => h.2.symm, fun h => ⟨hall, h.symm⟩⟩
      simp only [hdec, exists_eq_left, ne_eq, hd, not_false_eq_true, true_and]
      generalize hv : (if neg = true then - (digitsVal s2 : Int) else (digitsVal s2 : Int)) = v
      by_cases h1 : v < - 2 ^ 63
      · rw [if_pos h1, if_pos (by simp)]
        refine ⟨fun h => (by cases h), fun h => ?_⟩
        omega
      · by_cases h2 : v > 2 ^ 63 - 1
        · rw [if_neg h1, if_pos h2, if_pos (by simp)]
          refine ⟨fun h => (by cases h), fun h => ?_⟩
          omega
        · rw [if_neg h1, if_neg h2, if_neg (by simp)]
          constructor
          · intro h
            cases h
            exact ⟨rfl, by omega, by omega⟩
          · exact fun h => congrArg some h.1.symm
    · have : ∀ x : Int × Bool, (if (x.2 || decide (s2.dropWhile isDigit ≠ [])) = true then none else some x.1) = (none : Option Int) := by
        intro x; simp [hr]
      constructor
      · intro h
        split_ifs at h <;> simp_all
      · rintro ⟨h, ⟨m, hm, -⟩, -⟩
        exact absurd (takeWhile_all ((dec_iff _ _).1 hm).1).2 hr

theorem getInt_accept (s : Str) : getInt s = accept (strtol s) := rfl

theorem spaces (s : Str) : ∃ ws, s = ws ++ s.dropWhile isSpace ∧ (∀ c ∈ ws, isSpace c = true) :=
  ⟨s.takeWhile isSpace, (List.takeWhile_append_dropWhile).symm, fun _ hc => mem_takeWhile hc⟩

theorem dec_head {ds : Str} {m : Nat} (h : Dec ds m) {c : Char} (hc : ds.head? = some c) : isDigit c = true :=
  ((dec_iff _ _).1 h).1 c (List.mem_of_head? hc)

theorem getInt_iff {s : Str} (hs : s ≠ []) (n : Int) : getInt s = some n ↔ IntText s n ∧ - 2 ^ 63 ≤ n ∧ n ≤ 2 ^ 63 - 1 := by
  rw [getInt_accept]
  obtain ⟨ws, hws, hsp⟩ := spaces s
  have hsp' : ∀ c ∈ ws, c ∈ [' ', '\t', '\n', '\x0b', '\x0c', '\r'] := fun c hc => isSpace_iff.1 (hsp c hc)
  constructor
  · intro h
    by_cases h1 : ∃ t, s.dropWhile isSpace = '-' :: t
    · obtain ⟨t, ht⟩ := h1
      rw [strtol_neg ht, accept_tail hs] at h
      obtain ⟨h1, ⟨m, hm, e⟩, h2⟩ := h
      exact ⟨⟨ws, ['-'], t, m, by rw [ht] at hws; simpa using hws, hsp', h1, hm, .inr ⟨rfl, by simpa using e⟩⟩, h2⟩
    · by_cases h2 : ∃ t, s.dropWhile isSpace = '+' :: t
      · obtain ⟨t, ht⟩ := h2
        rw [strtol_pos ht, accept_tail hs] at h
        obtain ⟨h1, ⟨m, hm, e⟩, h2⟩ := h
        exact ⟨⟨ws, ['+'], t, m, by rw [ht] at hws; simpa using hws, hsp', h1, hm, .inl ⟨.inr rfl, by simpa using e⟩⟩, h2⟩
      · rw [strtol_plain rfl (fun t e => h1 ⟨t, e⟩) (fun t e => h2 ⟨t, e⟩), accept_tail hs] at h
        obtain ⟨h1, ⟨m, hm, e⟩, h2⟩ := h
        exact ⟨⟨ws, [], _, m, by simpa using hws, hsp', h1, hm, .inl ⟨.inl rfl, by simpa using e⟩⟩, h2⟩
  · rintro ⟨⟨ws, sign, ds, m, rfl, h1, h2, h3, h4⟩, h5⟩
    have hw : ∀ c ∈ ws, isSpace c = true := fun c hc => isSpace_iff.2 (h1 c hc)
    have dig : ∀ c, isDigit c = true → isSpace c = false ∧ c ≠ '-' ∧ c ≠ '+' := by
      intro c hc
      obtain ⟨d, hd, rfl⟩ := isDigit_iff.1 hc
      revert d
      decide
    rcases h4 with ⟨rfl | rfl, e⟩ | ⟨rfl, e⟩
    · have hd : (ws ++ [] ++ ds).dropWhile isSpace = ds := by
        rw [List.append_nil]
        exact dropWhile_append_all hw fun c hc => (dig c (dec_head h3 hc)).1
      rw [strtol_plain hd (fun t e => (dig '-' (dec_head h3 (by rw [e]; rfl))).2.1 rfl)
        (fun t e => (dig '+' (dec_head h3 (by rw [e]; rfl))).2.2 rfl), accept_tail hs]
      exact ⟨h2, ⟨m, h3, by simpa using e⟩, h5⟩
    · have hd : (ws ++ ['+'] ++ ds).dropWhile isSpace = '+' :: ds := by
        rw [List.append_assoc]
        exact dropWhile_append_all hw fun c hc => by cases hc; decide
      rw [strtol_pos hd, accept_tail hs]
      exact ⟨h2, ⟨m, h3, by simpa using e⟩, h5⟩
    · have hd : (ws ++ ['-'] ++ ds).dropWhile isSpace = '-' :: ds := by
        rw [List.append_assoc]
        exact dropWhile_append_all hw fun c hc => by cases hc; decide
      rw [strtol_neg hd, accept_tail hs]
      exact ⟨h2, ⟨m, h3, by simpa using e⟩, h5⟩

/-! ## The help text -/

/-- What the search has found. -/
def Found (len : Nat) (str : Str) : Option Nat × Bool × Nat → Prop
  | (_, true, _) => str.length < len ∧ '\n' ∉ str
  | (some j, false, _) => j < len ∧ '\n' ∉ str.take j ∧ (str[j]? = some ' ' ∨ str[j]? = some '\n')
  | (none, false, i) => i = len ∧ len ≤ str.length ∧ '\n' ∉ str.take i ∧ ' ' ∉ str.take i

theorem search_found (len : Nat) (cs pre : Str) (b : Option Nat) (hi : pre.length ≤ len) (hn : '\n' ∉ pre)
    (hb : ∀ j, b = some j → j < pre.length ∧ pre[j]? = some ' ') (hb' : b = none → ' ' ∉ pre) :
    Found len (pre ++ cs) (search len cs pre.length b) := by
  induction cs generalizing pre b with
  | nil =>
    rw [search]
    by_cases h : pre.length < len
    · simp only [h, decide_true, Found, List.append_nil, hn, not_false_eq_true, and_self]
    · have h' : pre.length = len := by omega
      simp only [h, decide_false]
      cases b with
      | none => simp [Found, h', hn, hb' rfl, List.take_of_length_le]
      | some j =>
        have := hb j rfl
        refine ⟨by omega, fun hm => hn (List.mem_of_mem_take (by simpa using hm)), .inl (by simpa using this.2)⟩
  | cons c cs ih =>
    rw [search]
    have e : pre ++ c :: cs = (pre ++ [c]) ++ cs := by simp
    split
    · next hlt =>
      split
      · next hc =>
        subst hc
        have := ih (pre ++ [' ']) (some pre.length) (by simp; omega) (by simp [hn]) (by simp) (by simp)
        rw [e]
        simpa using this
      · next hc =>
        split
        · next hc2 =>
          subst hc2
          refine ⟨hlt, by simpa using hn, .inr (by simp)⟩
        · next hc2 =>
          have := ih (pre ++ [c]) b (by simp; omega) (by simp [hn, Ne.symm hc2]) (fun j hj => by
            have := hb j hj
            refine ⟨by simp; omega, ?_⟩
            rw [List.getElem?_append_left this.1]
            exact this.2) (fun h => by simp [hb' h, Ne.symm hc])
          rw [e]
          simpa using this
    · next hlt =>
      have h' : pre.length = len := by omega
      cases b with
      | none =>
        have e2 : (pre ++ c :: cs).take pre.length = pre := by simp
        exact ⟨h', by simp; omega, by rw [e2]; exact hn, by rw [e2]; exact hb' rfl⟩
      | some j =>
        have := hb j rfl
        refine ⟨by omega, fun hm => hn ?_, .inl (by rw [List.getElem?_append_left this.1]; exact this.2)⟩
        rw [List.take_append_of_le_length (by omega)] at hm
        exact List.mem_of_mem_take hm

/-- One line: it is short, and only a blank or a newline after it is dropped. -/
theorem printStart_spec {len : Nat} (hl : 0 < len) (str : Str) : (printStart str len).1.length ≤ len ∧ '\n' ∉ (printStart str len).1 ∧
    ∃ sep, (sep = [] ∨ sep = [' '] ∨ sep = ['\n']) ∧ str = (printStart str len).1 ++ sep ++ ((printStart str len).2.getD []) ∧
      (sep = [] → (printStart str len).2 = none ∨ ((printStart str len).1.length = len ∧ ' ' ∉ (printStart str len).1)) := by
  have h := search_found len str [] none (by simp) (by simp) (by simp) (by simp)
  rw [List.nil_append, List.length_nil] at h
  unfold printStart
  generalize search len str 0 none = r at h
  obtain ⟨b, f, i⟩ := r
  cases f with
  | true => exact ⟨Nat.le_of_lt h.1, h.2, [], .inl rfl, by simp, fun _ => .inl rfl⟩
  | false =>
    cases b with
    | some j =>
      obtain ⟨h1, h2, h3⟩ := h
      dsimp only
      refine ⟨by simp; omega, h2, ?_⟩
      have hr : (if str.drop (j + 1) = [] then none else some (str.drop (j + 1))).getD [] = str.drop (j + 1) := by
        split
        · next h => rw [h]; rfl
        · rfl
      rcases h3 with h3 | h3
      · refine ⟨[' '], .inr (.inl rfl), ?_, by simp⟩
        rw [hr, List.append_assoc, List.singleton_append, ← drop_cons_of_get h3, List.take_append_drop]
      · refine ⟨['\n'], .inr (.inr rfl), ?_, by simp⟩
        rw [hr, List.append_assoc, List.singleton_append, ← drop_cons_of_get h3, List.take_append_drop]
    | none =>
      obtain ⟨h1, h2, h3, h4⟩ := h
      subst h1
      dsimp only
      exact ⟨by simp; omega, h3, [], .inl rfl, by simp, fun _ => .inr ⟨by simp; omega, h4⟩⟩

theorem printStart_shorter {len : Nat} (hl : 0 < len) (str rest : Str) (h : (printStart str len).2 = some rest) : rest.length < str.length := by
  obtain ⟨-, -, sep, h1, h2, h3⟩ := printStart_spec hl str
  rw [h] at h2 h3
  have hlen := congrArg List.length h2
  simp only [List.length_append, Option.getD_some] at hlen
  rcases h1 with rfl | rfl | rfl
  · rcases h3 rfl with h | h
    · cases h
    · omega
  · simp at hlen; omega
  · simp at hlen; omega

end CmdLineProof
end Verif.CmdLine
