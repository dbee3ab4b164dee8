import Verif.Inout.IncludeSpec
import Mathlib.Data.List.Basic

namespace Verif.Incl

variable {fs : FS} {tptp : Option Str} {skip : List Str}

theorem findBase_drop (full : Str) : ∀ (cs : Str) (i e : Nat), cs = full.drop i → findBase cs (full.drop e) = full.drop (endPos cs i e)
  | [], _, _, _ => rfl
  | c :: cs, i, e, h => by
    have hcs : cs = full.drop (i + 1) := by
      rw [← List.drop_drop, ← h]; rfl
    rw [findBase, endPos]
    by_cases hc : c = '/'
    · rw [if_pos hc, if_pos hc]
      conv_lhs => rw [show findBase cs cs = findBase cs (full.drop (i + 1)) by rw [← hcs]]
      exact findBase_drop full cs (i + 1) (i + 1) hcs
    · rw [if_neg hc, if_neg hc]
      exact findBase_drop full cs (i + 1) e hcs

theorem dir_base (n : Str) : dirName n ++ baseName n = n := by
  have h := findBase_drop n n 0 0 rfl
  rw [List.drop_zero] at h
  rw [baseName, h, dirName, List.take_append_drop]

theorem endPos_spec (full : Str) : ∀ (cs : Str) (i e : Nat), cs = full.drop i → e ≤ i → '/' ∉ (full.take i).drop e →
    (full.take e = [] ∨ (full.take e).getLast? = some '/') →
    '/' ∉ full.drop (endPos cs i e) ∧ (full.take (endPos cs i e) = [] ∨ (full.take (endPos cs i e)).getLast? = some '/')
  | [], i, e, h, hle, h1, h2 => by
    refine ⟨?_, h2⟩
    have : full.take i = full := List.take_of_length_le (by
      have := congrArg List.length h
      simp at this
      omega)
    rw [this] at h1
    exact h1
  | c :: cs, i, e, h, hle, h1, h2 => by
    have hcs : cs = full.drop (i + 1) := by
      rw [← List.drop_drop, ← h]; rfl
    have hi : i < full.length := by
      have := congrArg List.length h
      simp at this
      omega
    have hg : full[i] = c := by
      rw [List.drop_eq_getElem_cons hi] at h
      exact ((List.cons.inj h).1).symm
    have ht : full.take (i + 1) = full.take i ++ [c] := by
      rw [List.take_add_one, List.getElem?_eq_getElem hi, hg]; rfl
    rw [endPos]
    by_cases hc : c = '/'
    · rw [if_pos hc]
      refine endPos_spec full cs (i + 1) (i + 1) hcs (Nat.le_refl _) ?_ (.inr ?_)
      · rw [List.drop_eq_nil_of_le (by rw [List.length_take]; omega)]; simp
      · rw [ht, hc]; simp
    · rw [if_neg hc]
      refine endPos_spec full cs (i + 1) e hcs (by omega) ?_ h2
      rw [ht, List.drop_append_of_le_length (by simp; omega)]
      intro hm
      rcases List.mem_append.1 hm with hm | hm
      · exact h1 hm
      · exact hc (List.mem_singleton.1 hm).symm

theorem base_noslash (n : Str) : '/' ∉ baseName n ∧ (dirName n = [] ∨ (dirName n).getLast? = some '/') := by
  have h := endPos_spec n n 0 0 rfl (Nat.le_refl _) (by simp) (.inl (by simp))
  have hb : baseName n = n.drop (endPos n 0 0) := by
    have h := findBase_drop n n 0 0 rfl
    rw [List.drop_zero] at h
    exact h
  rw [hb]
  exact h

theorem dirOf_append {dir : Str} (hd : IsDir dir) (n : Str) : DirOf (dir ++ n) (dir ++ dirName n) := by
  obtain ⟨h1, h2⟩ := base_noslash n
  refine ⟨baseName n, by rw [List.append_assoc, dir_base], h1, ?_⟩
  rcases h2 with h2 | h2
  · rw [h2, List.append_nil]; exact hd
  · right
    rw [List.getLast?_append, h2]; rfl

theorem dirOf_unique {p d d' : Str} (h : DirOf p d) (h' : DirOf p d') : d = d' := by
  obtain ⟨b, rfl, hb, hd⟩ := h
  obtain ⟨b', e, hb', hd'⟩ := h'
  have key : ∀ {a b a' b' : Str}, a ++ b = a' ++ b' → '/' ∉ b → (a' = [] ∨ a'.getLast? = some '/') → a'.length ≤ a.length := by
    intro a b a' b' e hb hd'
    by_contra hlt
    have hlt : a.length < a'.length := Nat.lt_of_not_le hlt
    rcases hd' with h0 | h0
    · rw [h0] at hlt; simp at hlt
    · have hpre : a <+: a' := by
        refine List.prefix_of_prefix_length_le (l₃ := a' ++ b') ⟨b, e⟩ ⟨b', rfl⟩ (Nat.le_of_lt hlt)
      obtain ⟨x, rfl⟩ := hpre
      have hx : x ≠ [] := by rintro rfl; simp at hlt
      rw [List.getLast?_append, Option.or_eq_some_iff] at h0
      rcases h0 with h0 | ⟨h0, -⟩
      · have hm : '/' ∈ x := List.mem_of_getLast? h0
        rw [List.append_assoc] at e
        have := List.append_cancel_left e
        exact hb (this ▸ List.mem_append_left _ hm)
      · exact hx (List.getLast?_eq_none_iff.1 h0)
  have l1 := key e hb hd'
  have l2 := key e.symm hb' hd
  exact (List.append_inj e (by omega)).1

theorem dirOf_isDir {p d : Str} (h : DirOf p d) : IsDir d := h.choose_spec.2.2

theorem openFile_iff {dir f d : Str} {c : List Stmt} (hd : IsDir dir) (ht : ∀ T, tptp = some T → IsDir T) :
    openFile fs tptp dir f = some (d, c) ↔ ∃ p, Locates fs tptp dir f p ∧ fs p = some c ∧ DirOf p d := by
  have e1 : dir ++ dirName f ++ baseName f = dir ++ f := by rw [List.append_assoc, dir_base]
  unfold openFile
  by_cases ha : f.head? = some '/'
  · rw [if_pos ha]
    have hdf : DirOf f (dirName f) := dirOf_append (dir := []) (.inl rfl) f
    constructor
    · intro h
      obtain ⟨c', h1, h2⟩ := Option.map_eq_some_iff.1 h
      obtain ⟨rfl, rfl⟩ := Prod.mk.inj h2
      exact ⟨f, .absolute ha, h1, hdf⟩
    · rintro ⟨p, hl, hp, hdp⟩
      cases hl with
      | absolute _ => rw [hp, dirOf_unique hdp hdf]; rfl
      | relative h _ => exact absurd ha h
      | library h _ _ => exact absurd ha h
  · rw [if_neg ha, e1]
    cases hf : fs (dir ++ f) with
    | some c0 =>
      simp only [Option.some.injEq, Prod.mk.injEq]
      constructor
      · rintro ⟨rfl, rfl⟩
        exact ⟨_, .relative ha (by rw [hf]; rfl), hf, dirOf_append hd f⟩
      · rintro ⟨p, hl, hp, hdp⟩
        cases hl with
        | absolute h => exact absurd h ha
        | relative _ _ =>
          rw [hf] at hp
          exact ⟨dirOf_unique (dirOf_append hd f) hdp, Option.some.inj hp⟩
        | library _ h _ => rw [hf] at h; cases h
    | none =>
      cases htp : tptp with
      | none =>
        simp only [reduceCtorEq, false_iff, not_exists, not_and]
        intro p hl
        cases hl with
        | absolute h => exact absurd h ha
        | relative _ h => rw [hf] at h; cases h
        | library _ _ h => cases h
      | some T =>
        simp only
        rw [show T ++ dirName f ++ baseName f = T ++ f by rw [List.append_assoc, dir_base]]
        constructor
        · intro h
          obtain ⟨c', h1, h2⟩ := Option.map_eq_some_iff.1 h
          obtain ⟨rfl, rfl⟩ := Prod.mk.inj h2
          exact ⟨_, .library ha hf rfl, h1, dirOf_append (ht T htp) f⟩
        · rintro ⟨p, hl, hp, hdp⟩
          cases hl with
          | absolute h => exact absurd h ha
          | relative _ h => rw [hf] at h; cases h
          | library _ _ h =>
            obtain rfl := Option.some.inj h
            rw [hp, dirOf_unique hdp (dirOf_append (ht T htp) f)]
            rfl

theorem openFile_none {dir f : Str} (hd : IsDir dir) (ht : ∀ T, tptp = some T → IsDir T) :
    openFile fs tptp dir f = none ↔ ∀ p, Locates fs tptp dir f p → fs p = none := by
  constructor
  · intro h p hp
    cases hf : fs p with
    | none => rfl
    | some c =>
      have hdir : ∃ d, DirOf p d := ⟨_, by simpa using dirOf_append (dir := []) (.inl rfl) p⟩
      obtain ⟨d, hdp⟩ := hdir
      have := (openFile_iff (d := d) (c := c) hd ht).2 ⟨p, hp, hf, hdp⟩
      rw [h] at this
      cases this
  · intro h
    cases ho : openFile fs tptp dir f with
    | none => rfl
    | some q =>
      obtain ⟨p, h1, h2, -⟩ := (openFile_iff hd ht).1 ho
      rw [h p h1] at h2
      cases h2

/-! ## Selection -/

theorem store_keys {t : List (Str × Bool)} {x y : Str} {b : Bool} : y ∈ (store t x b).map (·.1) ↔ y ∈ t.map (·.1) ∨ y = x := by
  unfold store
  split
  · rename_i h
    obtain ⟨p, hp, he⟩ := List.any_eq_true.1 h
    have he := beq_iff_eq.1 he
    constructor
    · exact .inl
    · rintro (h | rfl)
      · exact h
      · exact List.mem_map.2 ⟨p, hp, he⟩
  · simp [or_comm]

theorem fold_keys {y : Str} : ∀ (l : List Str) (t : List (Str × Bool)),
    (y ∈ (l.foldl (fun t x => store t x false) t).map (·.1) ↔ y ∈ t.map (·.1) ∨ y ∈ l)
  | [], t => by simp
  | x :: l, t => by
    rw [List.foldl_cons, fold_keys l, store_keys, List.mem_cons, or_assoc]

theorem fold_marks : ∀ (l : List Str) (t : List (Str × Bool)), (∀ p ∈ t, p.2 = false) →
    ∀ p ∈ l.foldl (fun t x => store t x false) t, p.2 = false
  | [], _, h => h
  | x :: l, t, h => by
    rw [List.foldl_cons]
    refine fold_marks l _ ?_
    intro p hp
    unfold store at hp
    split at hp
    · exact h p hp
    · rcases List.mem_append.1 hp with hp | hp
      · exact h p hp
      · rw [List.mem_singleton.1 hp]

def markN (t : List (Str × Bool)) (es : List Entry) : List (Str × Bool) :=
  t.map fun p => (p.1, p.2 || es.any (·.name == p.1))

theorem keepNamed_spec : ∀ (es : List Entry) (t : List (Str × Bool)),
    keepNamed t es = (es.filter (fun e => t.any (·.1 == e.name)), markN t es)
  | [], t => by simp [keepNamed, markN]
  | e :: es, t => by
    have hk : ∀ x, (t.map fun p => if p.1 == e.name then (p.1, true) else p).any (·.1 == x) = t.any (·.1 == x) := by
      intro x
      rw [List.any_map]
      congr 1
      funext p
      simp only [Function.comp]
      split <;> rfl
    rw [keepNamed]
    by_cases h : t.any (·.1 == e.name) = true
    · rw [if_pos h, keepNamed_spec es, List.filter_cons, if_pos h]
      simp only [Prod.mk.injEq, List.cons.injEq, true_and]
      refine ⟨?_, ?_⟩
      · congr 1
        funext x
        exact hk x.name
      · unfold markN
        rw [List.map_map]
        refine List.map_congr_left fun p _ => ?_
        simp only [Function.comp, List.any_cons]
        by_cases hp : p.1 = e.name
        · simp [hp]
        · have h1 : (p.1 == e.name) = false := by simpa using hp
          have h2 : (e.name == p.1) = false := by simpa using Ne.symm hp
          rw [if_neg (by rw [h1]; simp), h2, Bool.false_or]
    · rw [if_neg h, keepNamed_spec es, List.filter_cons, if_neg h]
      simp only [Prod.mk.injEq, true_and]
      unfold markN
      refine List.map_congr_left fun p hp => ?_
      have : (e.name == p.1) = false := by
        by_contra hc
        refine h (List.any_eq_true.2 ⟨p, hp, ?_⟩)
        have hc : (e.name == p.1) = true := by simpa using hc
        rw [beq_iff_eq] at hc ⊢
        exact hc.symm
      simp [this]

/-- A name that a formula cannot have: those read begin with a letter, a digit or a quote. -/
def badName : Str := "** Not a legal name**".toList

theorem markN_keys (t : List (Str × Bool)) (es : List Entry) (x : Str) : (markN t es).any (·.1 == x) = t.any (·.1 == x) := by
  unfold markN
  rw [List.any_map]
  rfl

theorem any_key {t : List (Str × Bool)} {x : Str} : t.any (·.1 == x) = true ↔ x ∈ t.map (·.1) := by
  simp only [List.any_eq_true, beq_iff_eq, List.mem_map]

/-- What the selection does, for entries with names that are possible. -/
theorem select_spec {l : List Str} {L : List (Entry × Bool)} {k : Nat} (hb : ∀ q ∈ L, q.1.name ≠ badName) :
    select (some l) (outOf L k) =
      if (∀ x ∈ l, ∃ q ∈ L, q.1.name = x) then .ok (outOf (L.filter fun q => decide (q.1.name ∈ l)) k) else .error .unknown := by
  unfold select
  simp only
  rw [keepNamed_spec, keepNamed_spec]
  simp only
  have hkeys : ∀ q ∈ L, ((limit l).any (·.1 == q.1.name) = true ↔ q.1.name ∈ l) := by
    intro q hq
    rw [any_key]
    cases l with
    | nil =>
      have : (limit []).map (·.1) = [badName] := rfl
      rw [this, List.mem_singleton]
      exact ⟨fun h => absurd h (hb q hq), fun h => by cases h⟩
    | cons a l => rw [limit, fold_keys]; · simp
                  · simp
  have hmem : ∀ e : Entry, (∃ q ∈ L, q.1 = e) ↔ e ∈ (outOf L k).forms ∨ e ∈ (outOf L k).watch := by
    intro e
    simp only [outOf, List.mem_map, List.mem_filter, Bool.not_eq_true']
    constructor
    · rintro ⟨q, h1, h2⟩
      cases h : q.2
      · exact .inl ⟨q, ⟨h1, h⟩, h2⟩
      · exact .inr ⟨q, ⟨h1, h⟩, h2⟩
    · rintro (⟨q, ⟨h1, -⟩, h2⟩ | ⟨q, ⟨h1, -⟩, h2⟩) <;> exact ⟨q, h1, h2⟩
  have hall : (markN (markN (limit l) (outOf L k).forms) (outOf L k).watch).all (·.2) = true ↔ ∀ x ∈ l, ∃ q ∈ L, q.1.name = x := by
    have hm : ∀ x, ((outOf L k).forms.any (·.name == x) = true ∨ (outOf L k).watch.any (·.name == x) = true) ↔ ∃ q ∈ L, q.1.name = x := by
      intro x
      simp only [List.any_eq_true, beq_iff_eq]
      constructor
      · rintro (⟨e, he, hx⟩ | ⟨e, he, hx⟩)
        · obtain ⟨q, hq, rfl⟩ := (hmem e).2 (.inl he)
          exact ⟨q, hq, hx⟩
        · obtain ⟨q, hq, rfl⟩ := (hmem e).2 (.inr he)
          exact ⟨q, hq, hx⟩
      · rintro ⟨q, hq, hx⟩
        rcases (hmem q.1).1 ⟨q, hq, rfl⟩ with h | h
        · exact .inl ⟨_, h, hx⟩
        · exact .inr ⟨_, h, hx⟩
    simp only [markN, List.map_map, List.all_map, List.all_eq_true, Function.comp, Bool.or_eq_true, or_assoc]
    cases l with
    | nil => simp [limit, store]
    | cons a l =>
      have hf := fold_marks (a :: l) [] (by simp)
      have hk : ∀ y, y ∈ (limit (a :: l)).map (·.1) ↔ y ∈ a :: l := by
        intro y
        rw [limit, fold_keys]
        · simp
        · simp
      constructor
      · intro h x hx
        obtain ⟨p, hp, rfl⟩ := List.mem_map.1 ((hk x).2 hx)
        rcases h p hp with h | h
        · rw [limit] at hp
          · rw [hf p hp] at h; cases h
          · simp
        · exact (hm p.1).1 h
      · intro h p hp
        exact .inr ((hm p.1).2 (h p.1 ((hk p.1).1 (List.mem_map.2 ⟨p, hp, rfl⟩))))
  have hfil : ∀ b : Bool, ((L.filter fun q => q.2 == b).map (·.1)).filter (fun e => (limit l).any (·.1 == e.name)) =
      ((L.filter fun q => decide (q.1.name ∈ l)).filter fun q => q.2 == b).map (·.1) := by
    intro b
    rw [List.filter_map, List.filter_filter, List.filter_filter]
    congr 1
    refine List.filter_congr fun q hq => ?_
    have := hkeys q hq
    simp only [Function.comp]
    by_cases hx : q.1.name ∈ l
    · rw [this.2 hx]; simp [hx]
    · have h2 : (limit l).any (·.1 == q.1.name) = false := by
        by_contra hc
        exact hx (this.1 (by cases hq : (limit l).any (·.1 == q.1.name) with
          | false => exact absurd hq hc
          | true => rfl))
      rw [h2]; simp [hx]
  by_cases h : ∀ x ∈ l, ∃ q ∈ L, q.1.name = x
  · rw [if_pos (hall.2 h), if_pos h]
    have e1 := hfil false
    have e2 := hfil true
    have n1 : (fun q : Entry × Bool => q.2 == false) = fun q => !q.2 := by funext q; cases q.2 <;> rfl
    have n2 : (fun q : Entry × Bool => q.2 == true) = fun q => q.2 := by funext q; cases q.2 <;> rfl
    rw [n1] at e1
    rw [n2] at e2
    simp only [markN_keys]
    congr 1
    simp only [outOf]
    rw [e1, e2]
  · rw [if_neg (fun hc => h (hall.1 hc)), if_neg h]

/-! ## Reading -/

theorem readWith_congr {i1 i2 : Str → Option (List Str) → Except Err Out} : ∀ {ss : List Stmt},
    (∀ f sel, i1 f sel ≠ .error .fuel → i2 f sel = i1 f sel) → readWith i1 ss ≠ .error .fuel → readWith i2 ss = readWith i1 ss
  | [], _, _ => rfl
  | .junk :: _, _, _ => rfl
  | .form x w b :: ss, hi, h => by
    rw [readWith] at h ⊢
    have hr : readWith i1 ss ≠ .error .fuel := by
      intro hc
      rw [hc] at h
      exact h rfl
    rw [readWith_congr hi hr, readWith]
  | .incl f sel :: ss, hi, h => by
    rw [readWith] at h ⊢
    have h1 : i1 f sel ≠ .error .fuel := by
      intro hc
      rw [hc] at h
      exact h rfl
    rw [hi f sel h1, readWith]
    cases hx : i1 f sel with
    | error e => rfl
    | ok o1 =>
      rw [hx] at h
      simp only at h ⊢
      have hr : readWith i1 ss ≠ .error .fuel := by
        intro hc
        rw [hc] at h
        exact h rfl
      rw [readWith_congr hi hr]

/-- What `include` does in `readFile`. -/
def incOf (fs : FS) (tptp : Option Str) (skip : List Str) : Nat → Str → Str → Option (List Str) → Except Err Out
  | 0, _, _, _ => .error .fuel
  | n + 1, dir, f, sel =>
    if skip.contains f then .ok ⟨[], [], 0⟩
    else
      match openFile fs tptp dir f with
      | none => .error .missing
      | some (d, c) =>
        match readFile fs tptp skip n d c with
        | .error e => .error e
        | .ok (o, _) => select sel o

theorem readFile_eq (n : Nat) (dir : Str) (ss : List Stmt) : readFile fs tptp skip n dir ss = readWith (incOf fs tptp skip n dir) ss := by
  cases n <;> rfl

theorem readFile_more : ∀ {n : Nat} {dir : Str} {ss : List Stmt}, readFile fs tptp skip n dir ss ≠ .error .fuel →
    readFile fs tptp skip (n + 1) dir ss = readFile fs tptp skip n dir ss
  | 0, dir, ss, h => by
    rw [readFile_eq] at h
    rw [readFile_eq, readFile_eq]
    exact readWith_congr (fun f sel h => absurd rfl h) h
  | n + 1, dir, ss, h => by
    rw [readFile_eq] at h
    rw [readFile_eq, readFile_eq]
    refine readWith_congr (fun f sel h => ?_) h
    rw [incOf] at h
    rw [incOf, incOf]
    by_cases hs : skip.contains f = true
    · rw [if_pos hs, if_pos hs]
    · rw [if_neg hs] at h
      rw [if_neg hs, if_neg hs]
      cases ho : openFile fs tptp dir f with
      | none => rfl
      | some q =>
        rw [ho] at h
        simp only at h ⊢
        have hr : readFile fs tptp skip n q.1 q.2 ≠ .error .fuel := by
          intro hc
          rw [hc] at h
          exact h rfl
        rw [readFile_more hr]

theorem readFile_mono {n : Nat} {dir : Str} {ss : List Stmt} {r} (h : readFile fs tptp skip n dir ss = .ok r) :
    readFile fs tptp skip (n + 1) dir ss = .ok r := by
  rw [readFile_more (by rw [h]; simp), h]

theorem readFile_more' {n m : Nat} {dir : Str} {ss : List Stmt} (hm : n ≤ m) (h : readFile fs tptp skip n dir ss ≠ .error .fuel) :
    readFile fs tptp skip m dir ss = readFile fs tptp skip n dir ss := by
  induction hm with
  | refl => rfl
  | step _ ih => rw [readFile_more (by rw [ih]; exact h), ih]

theorem readFile_mono' {n m : Nat} {dir : Str} {ss : List Stmt} {r} (hm : n ≤ m) (h : readFile fs tptp skip n dir ss = .ok r) :
    readFile fs tptp skip m dir ss = .ok r := by
  induction hm with
  | refl => exact h
  | step _ ih => exact readFile_mono ih

/-- No formula has the name used for empty selections. -/
def Named (fs : FS) : Prop := ∀ p c x w b, fs p = some c → Stmt.form x w b ∈ c → x ≠ badName

theorem text_named (hN : Named fs) {dir ss L k} (h : Text fs tptp skip dir ss L k) : (∀ x w b, Stmt.form x w b ∈ ss → x ≠ badName) →
    ∀ q ∈ L, q.1.name ≠ badName := by
  induction h with
  | nil => intro _ q hq; cases hq
  | form _ ih =>
    intro hs q hq
    rcases List.mem_cons.1 hq with rfl | hq
    · exact hs _ _ _ (List.mem_cons_self ..)
    · exact ih (fun x w b h => hs x w b (List.mem_cons_of_mem _ h)) q hq
  | skip _ _ ih => exact fun hs => ih fun x w b h => hs x w b (List.mem_cons_of_mem _ h)
  | all _ _ hp _ _ _ ih1 ih2 =>
    intro hs q hq
    rcases List.mem_append.1 hq with hq | hq
    · exact ih1 (fun x w b h => hN _ _ x w b hp h) q hq
    · exact ih2 (fun x w b h => hs x w b (List.mem_cons_of_mem _ h)) q hq
  | some _ _ hp _ _ _ _ ih1 ih2 =>
    intro hs q hq
    rcases List.mem_append.1 hq with hq | hq
    · exact ih1 (fun x w b h => hN _ _ x w b hp h) q (List.mem_of_mem_filter hq)
    · exact ih2 (fun x w b h => hs x w b (List.mem_cons_of_mem _ h)) q hq

theorem outOf_append (L1 L : List (Entry × Bool)) (k1 k : Nat) :
    outOf (L1 ++ L) (k1 + k) = ⟨(outOf L1 k1).forms ++ (outOf L k).forms, (outOf L1 k1).watch ++ (outOf L k).watch, k1 + k⟩ := by
  simp [outOf]

/-- The text is read. -/
theorem text_read (hN : Named fs) (ht : ∀ T, tptp = some T → IsDir T) {dir ss L k} (h : Text fs tptp skip dir ss L k) : IsDir dir →
    ∃ n, readFile fs tptp skip n dir ss = .ok (outOf L k, []) := by
  induction h with
  | nil => exact fun _ => ⟨0, rfl⟩
  | @form dir x w b ss L k _ ih =>
    intro hd
    obtain ⟨n, hn⟩ := ih hd
    refine ⟨n, ?_⟩
    rw [readFile_eq] at hn ⊢
    rw [readWith, hn]
    cases w <;> simp [outOf]
  | @skip dir f sel ss L k hs _ ih =>
    intro hd
    obtain ⟨n, hn⟩ := ih hd
    refine ⟨n + 1, ?_⟩
    have hn := readFile_mono hn
    rw [readFile_eq] at hn ⊢
    have hi : incOf fs tptp skip (n + 1) dir f sel = .ok ⟨[], [], 0⟩ := by
      rw [incOf, if_pos (by simpa using hs)]
    rw [readWith, hi]
    simp only
    rw [hn]
    simp
  | @all dir f p c d ss L1 k1 L k hs hl hp hdp _ _ ih1 ih2 =>
    intro hd
    obtain ⟨n1, hn1⟩ := ih1 (dirOf_isDir hdp)
    obtain ⟨n2, hn2⟩ := ih2 hd
    refine ⟨max n1 n2 + 1, ?_⟩
    have hn1 := readFile_mono' (Nat.le_max_left n1 n2) hn1
    have hn2 := readFile_mono' (show n2 ≤ max n1 n2 + 1 by omega) hn2
    have hi : incOf fs tptp skip (max n1 n2 + 1) dir f none = .ok (outOf L1 k1) := by
      rw [incOf, if_neg (by simpa using hs), (openFile_iff hd ht).2 ⟨p, hl, hp, hdp⟩]
      simp only
      rw [hn1]
      rfl
    rw [readFile_eq] at hn2 ⊢
    rw [readWith, hi]
    simp only
    rw [hn2, outOf_append]
    rfl
  | @some dir f l p c d ss L1 k1 L k hs hl hp hdp hT hf _ ih1 ih2 =>
    intro hd
    obtain ⟨n1, hn1⟩ := ih1 (dirOf_isDir hdp)
    obtain ⟨n2, hn2⟩ := ih2 hd
    refine ⟨max n1 n2 + 1, ?_⟩
    have hn1 := readFile_mono' (Nat.le_max_left n1 n2) hn1
    have hn2 := readFile_mono' (show n2 ≤ max n1 n2 + 1 by omega) hn2
    have hi : incOf fs tptp skip (max n1 n2 + 1) dir f (some l) = .ok (outOf (L1.filter fun q => decide (q.1.name ∈ l)) k1) := by
      rw [incOf, if_neg (by simpa using hs), (openFile_iff hd ht).2 ⟨p, hl, hp, hdp⟩]
      simp only
      rw [hn1]
      simp only
      rw [select_spec (text_named hN hT fun x w b h => hN _ _ x w b hp h), if_pos hf]
    rw [readFile_eq] at hn2 ⊢
    rw [readWith, hi]
    simp only
    rw [hn2, outOf_append]
    rfl

theorem clean_sub {dir f d p : Str} {sel : Option (List Str)} {ss c : List Stmt} (h : Clean fs tptp skip dir ss) (hm : Stmt.incl f sel ∈ ss)
    (hs : f ∉ skip) (hl : Locates fs tptp dir f p) (hp : fs p = some c) (hd : DirOf p d) : Clean fs tptp skip d c :=
  fun _ _ hr => h _ _ (.incl hm hs hl hp hd hr)

/-- What is read is the text. -/
theorem read_text (hN : Named fs) (ht : ∀ T, tptp = some T → IsDir T) : ∀ (n : Nat) {dir : Str} {full : List Stmt}, IsDir dir →
    Clean fs tptp skip dir full → ∀ {ss : List Stmt} {o q}, (∀ s ∈ ss, s ∈ full) →
    readFile fs tptp skip n dir ss = .ok (o, q) → q = [] ∧ ∃ L k, Text fs tptp skip dir ss L k ∧ o = outOf L k := by
  intro n
  induction n with
  | zero =>
    intro dir full hd hc ss
    induction ss with
    | nil =>
      intro o q _ h
      rw [readFile_eq, readWith] at h
      injection h with h
      obtain ⟨rfl, rfl⟩ := Prod.mk.inj h
      exact ⟨rfl, [], 0, .nil, rfl⟩
    | cons s ss ih =>
      intro o q hsub h
      cases s with
      | junk => exact absurd (hsub _ (List.mem_cons_self ..)) (hc _ _ .refl)
      | incl f sel => rw [readFile_eq, readWith] at h; cases h
      | form x w b =>
        rw [readFile_eq, readWith] at h
        cases hr : readWith (incOf fs tptp skip 0 dir) ss with
        | error e => rw [hr] at h; cases h
        | ok r =>
          obtain ⟨o', q'⟩ := r
          obtain ⟨rfl, L, k, hL, rfl⟩ := ih (fun s hs => hsub s (List.mem_cons_of_mem _ hs)) (by rw [readFile_eq]; exact hr)
          rw [hr] at h
          cases w
          · simp only [Bool.false_eq_true, if_false] at h
            injection h with h
            obtain ⟨rfl, rfl⟩ := Prod.mk.inj h
            exact ⟨rfl, _, _, .form hL, by simp [outOf]⟩
          · simp only [if_true] at h
            injection h with h
            obtain ⟨rfl, rfl⟩ := Prod.mk.inj h
            exact ⟨rfl, _, _, .form hL, by simp [outOf]⟩
  | succ n ihn =>
    intro dir full hd hc ss
    induction ss with
    | nil =>
      intro o q _ h
      rw [readFile_eq, readWith] at h
      injection h with h
      obtain ⟨rfl, rfl⟩ := Prod.mk.inj h
      exact ⟨rfl, [], 0, .nil, rfl⟩
    | cons s ss ih =>
      intro o q hsub h
      cases s with
      | junk => exact absurd (hsub _ (List.mem_cons_self ..)) (hc _ _ .refl)
      | form x w b =>
        rw [readFile_eq, readWith] at h
        cases hr : readWith (incOf fs tptp skip (n + 1) dir) ss with
        | error e => rw [hr] at h; cases h
        | ok r =>
          obtain ⟨o', q'⟩ := r
          obtain ⟨rfl, L, k, hL, rfl⟩ := ih (fun s hs => hsub s (List.mem_cons_of_mem _ hs)) (by rw [readFile_eq]; exact hr)
          rw [hr] at h
          cases w
          · simp only [Bool.false_eq_true, if_false] at h
            injection h with h
            obtain ⟨rfl, rfl⟩ := Prod.mk.inj h
            exact ⟨rfl, _, _, .form hL, by simp [outOf]⟩
          · simp only [if_true] at h
            injection h with h
            obtain ⟨rfl, rfl⟩ := Prod.mk.inj h
            exact ⟨rfl, _, _, .form hL, by simp [outOf]⟩
      | incl f sel =>
        have hmem := hsub _ (List.mem_cons_self ..)
        rw [readFile_eq, readWith] at h
        cases hi : incOf fs tptp skip (n + 1) dir f sel with
        | error e => rw [hi] at h; cases h
        | ok o1 =>
          rw [hi] at h
          simp only at h
          cases hr : readWith (incOf fs tptp skip (n + 1) dir) ss with
          | error e => rw [hr] at h; cases h
          | ok r =>
            obtain ⟨o', q'⟩ := r
            obtain ⟨rfl, L, k, hL, rfl⟩ := ih (fun s hs => hsub s (List.mem_cons_of_mem _ hs)) (by rw [readFile_eq]; exact hr)
            rw [hr] at h
            injection h with h
            obtain ⟨rfl, rfl⟩ := Prod.mk.inj h
            refine ⟨rfl, ?_⟩
            rw [incOf] at hi
            by_cases hs : skip.contains f = true
            · rw [if_pos hs] at hi
              injection hi with hi
              subst hi
              exact ⟨L, k, .skip (by simpa using hs) hL, by simp [outOf]⟩
            · rw [if_neg hs] at hi
              have hs' : f ∉ skip := by simpa using hs
              cases ho : openFile fs tptp dir f with
              | none => rw [ho] at hi; cases hi
              | some r =>
                obtain ⟨d, c⟩ := r
                obtain ⟨p, hl, hp, hdp⟩ := (openFile_iff hd ht).1 ho
                rw [ho] at hi
                simp only at hi
                cases hrf : readFile fs tptp skip n d c with
                | error e => rw [hrf] at hi; cases hi
                | ok r1 =>
                  obtain ⟨o2, q2⟩ := r1
                  obtain ⟨-, L1, k1, hL1, rfl⟩ := ihn (dirOf_isDir hdp) (clean_sub hc hmem hs' hl hp hdp) (ss := c) (fun s h => h) hrf
                  rw [hrf] at hi
                  simp only at hi
                  cases sel with
                  | none =>
                    injection hi with hi
                    subst hi
                    exact ⟨L1 ++ L, k1 + k, .all hs' hl hp hdp hL1 hL, by rw [outOf_append]; rfl⟩
                  | some l =>
                    rw [select_spec (text_named hN hL1 fun x w b h => hN _ _ x w b hp h)] at hi
                    by_cases hf : ∀ x ∈ l, ∃ q ∈ L1, q.1.name = x
                    · rw [if_pos hf] at hi
                      injection hi with hi
                      subst hi
                      exact ⟨_, k1 + k, .some hs' hl hp hdp hL1 hf hL, by rw [outOf_append]; rfl⟩
                    · rw [if_neg hf] at hi; cases hi

theorem locates_unique {dir f p p' : Str} (h : Locates fs tptp dir f p) (h' : Locates fs tptp dir f p') : p = p' := by
  cases h with
  | absolute h =>
    cases h' with
    | absolute _ => rfl
    | relative h1 _ => exact absurd h h1
    | library h1 _ _ => exact absurd h h1
  | relative h hs =>
    cases h' with
    | absolute h1 => exact absurd h1 h
    | relative _ _ => rfl
    | library _ h1 _ => rw [h1] at hs; cases hs
  | library h hs ht =>
    cases h' with
    | absolute h1 => exact absurd h1 h
    | relative _ h1 => rw [hs] at h1; cases h1
    | library _ _ h1 => rw [ht] at h1; injection h1 with h1; rw [h1]

theorem contrib_mono {dir : Str} {ss ss' : List Stmt} {e : Entry} {w : Bool} (h : Contrib fs tptp skip dir ss e w) (hs : ∀ s ∈ ss, s ∈ ss') :
    Contrib fs tptp skip dir ss' e w := by
  cases h with
  | here h => exact .here (hs _ h)
  | incl h1 h2 h3 h4 h5 h6 h7 => exact .incl (hs _ h1) h2 h3 h4 h5 h6 h7

theorem contrib_cons {dir : Str} {s : Stmt} {ss : List Stmt} {e : Entry} {w : Bool} :
    Contrib fs tptp skip dir (s :: ss) e w ↔ Contrib fs tptp skip dir [s] e w ∨ Contrib fs tptp skip dir ss e w := by
  constructor
  · intro h
    cases h with
    | here h =>
      rcases List.mem_cons.1 h with h | h
      · exact .inl (.here (by rw [h]; simp))
      · exact .inr (.here h)
    | incl h1 h2 h3 h4 h5 h6 h7 =>
      rcases List.mem_cons.1 h1 with h | h
      · exact .inl (.incl (by rw [h]; simp) h2 h3 h4 h5 h6 h7)
      · exact .inr (.incl h h2 h3 h4 h5 h6 h7)
  · rintro (h | h)
    · exact contrib_mono h (by simp)
    · exact contrib_mono h (by simp +contextual)

theorem contrib_incl {dir f p d : Str} {c : List Stmt} {sel : Option (List Str)} {e : Entry} {w : Bool} (hs : f ∉ skip)
    (hl : Locates fs tptp dir f p) (hp : fs p = some c) (hd : DirOf p d) :
    Contrib fs tptp skip dir [.incl f sel] e w ↔ Contrib fs tptp skip d c e w ∧ ∀ l, sel = some l → e.name ∈ l := by
  constructor
  · intro h
    cases h with
    | here h => simp at h
    | incl h1 h2 h3 h4 h5 h6 h7 =>
      simp only [List.mem_singleton, Stmt.incl.injEq] at h1
      obtain ⟨rfl, rfl⟩ := h1
      obtain rfl := locates_unique hl h3
      rw [hp] at h4
      obtain rfl := Option.some.inj h4
      obtain rfl := dirOf_unique hd h5
      exact ⟨h6, h7⟩
  · rintro ⟨h1, h2⟩
    exact .incl (by simp) hs hl hp hd h1 h2

/-- The formulas of the text are those contributed. -/
theorem text_contrib {dir ss L k} (h : Text fs tptp skip dir ss L k) : ∀ e w, (e, w) ∈ L ↔ Contrib fs tptp skip dir ss e w := by
  induction h with
  | nil =>
    intro e w
    constructor
    · intro h; cases h
    · intro h
      cases h with
      | here h => cases h
      | incl h => cases h
  | @form dir x w' b ss L k _ ih =>
    intro e w
    rw [contrib_cons, ← ih, List.mem_cons]
    refine or_congr_left ?_
    constructor
    · intro h
      obtain ⟨rfl, rfl⟩ := Prod.mk.inj h
      exact .here (by simp)
    · intro h
      cases h with
      | here h =>
        simp only [List.mem_singleton, Stmt.form.injEq] at h
        obtain ⟨rfl, rfl, rfl⟩ := h
        rfl
      | incl h => simp at h
  | @skip dir f sel ss L k hs _ ih =>
    intro e w
    rw [contrib_cons, ← ih]
    constructor
    · exact .inr
    · rintro (h | h)
      · cases h with
        | here h => simp at h
        | incl h h2 =>
          simp only [List.mem_singleton, Stmt.incl.injEq] at h
          rw [h.1] at h2
          exact absurd hs h2
      · exact h
  | all hs hl hp hd _ _ ih1 ih2 =>
    intro e w
    rw [contrib_cons, contrib_incl hs hl hp hd, ← ih1, ← ih2, List.mem_append]
    simp
  | some hs hl hp hd _ hf _ ih1 ih2 =>
    intro e w
    rw [contrib_cons, contrib_incl hs hl hp hd, ← ih1, ← ih2, List.mem_append, List.mem_filter]
    simp

/-! ## Termination and the end of a file -/

theorem readWith_fuel {inc : Str → Option (List Str) → Except Err Out} : ∀ {ss : List Stmt},
    (∀ f sel, Stmt.incl f sel ∈ ss → inc f sel ≠ .error .fuel) → readWith inc ss ≠ .error .fuel
  | [], _ => by simp [readWith]
  | .junk :: _, _ => by simp [readWith]
  | .form x w b :: ss, h => by
    have hr := readWith_fuel (inc := inc) (ss := ss) fun f sel hm => h f sel (List.mem_cons_of_mem _ hm)
    rw [readWith]
    cases hx : readWith inc ss with
    | error e => rw [hx] at hr; exact hr
    | ok q => cases w <;> simp
  | .incl f sel :: ss, h => by
    have hr := readWith_fuel (inc := inc) (ss := ss) fun f sel hm => h f sel (List.mem_cons_of_mem _ hm)
    have h1 := h f sel (List.mem_cons_self ..)
    rw [readWith]
    cases hy : inc f sel with
    | error e => rw [hy] at h1; simpa using h1
    | ok o =>
      simp only
      cases hx : readWith inc ss with
      | error e => rw [hx] at hr; simpa using hr
      | ok q => simp

theorem select_fuel {sel : Option (List Str)} {o : Out} : select sel o ≠ .error .fuel := by
  unfold select
  cases sel with
  | none => simp
  | some l => simp only; split <;> simp

theorem read_terminates (ht : ∀ T, tptp = some T → IsDir T) {rank : Str → Nat}
    (hr : ∀ p c d f sel p', fs p = some c → DirOf p d → Stmt.incl f sel ∈ c → Locates fs tptp d f p' → rank p' < rank p) :
    ∀ (n : Nat) {p c d}, fs p = some c → DirOf p d → rank p < n → readFile fs tptp skip n d c ≠ .error .fuel
  | 0, _, _, _, _, _, h => absurd h (Nat.not_lt_zero _)
  | n + 1, p, c, d, hp, hd, hn => by
    rw [readFile_eq]
    refine readWith_fuel fun f sel hm => ?_
    rw [incOf]
    split
    · simp
    · cases ho : openFile fs tptp d f with
      | none => simp
      | some q =>
        obtain ⟨d', c'⟩ := q
        obtain ⟨p', hl, hp', hdp'⟩ := (openFile_iff (dirOf_isDir hd) ht).1 ho
        have hlt := hr p c d f sel p' hp hd hm hl
        have hx := read_terminates ht hr n hp' hdp' (by omega)
        simp only
        cases hrf : readFile fs tptp skip n d' c' with
        | error e => rw [hrf] at hx; simpa using hx
        | ok q => exact select_fuel

theorem readWith_junk {inc : Str → Option (List Str) → Except Err Out} : ∀ {ss : List Stmt} {o q},
    readWith inc ss = .ok (o, q) → Stmt.junk ∈ ss → q ≠ []
  | [], _, _, _, h => by cases h
  | .junk :: _, o, q, h, _ => by
    rw [readWith] at h
    injection h with h
    rw [← (Prod.mk.inj h).2]
    simp
  | .form x w b :: ss, o, q, h, hm => by
    rw [readWith] at h
    have hm : Stmt.junk ∈ ss := by simpa using hm
    cases hx : readWith inc ss with
    | error e => rw [hx] at h; cases h
    | ok r =>
      have := readWith_junk (o := r.1) (q := r.2) hx hm
      rw [hx] at h
      cases w
      · simp only [Bool.false_eq_true, if_false] at h
        injection h with h
        rw [← (Prod.mk.inj h).2]
        exact this
      · simp only [if_true] at h
        injection h with h
        rw [← (Prod.mk.inj h).2]
        exact this
  | .incl f sel :: ss, o, q, h, hm => by
    rw [readWith] at h
    have hm : Stmt.junk ∈ ss := by simpa using hm
    cases hy : inc f sel with
    | error e => rw [hy] at h; cases h
    | ok o1 =>
      rw [hy] at h
      simp only at h
      cases hx : readWith inc ss with
      | error e => rw [hx] at h; cases h
      | ok r =>
        have := readWith_junk (o := r.1) (q := r.2) hx hm
        rw [hx] at h
        injection h with h
        rw [← (Prod.mk.inj h).2]
        exact this

end Verif.Incl
