import Verif.Terms.TermBankSpec
import Verif.Props.Splay

namespace Verif.TBProof
open STree

/-! ## The comparison -/

theorem argsCompare_self {pcmp : TRef → TRef → Ordering} [Std.TransCmp pcmp] (rs : List TRef) : argsCompare pcmp rs rs = .eq := by
  induction rs with
  | nil => rfl
  | cons r rs ih => simp only [argsCompare, Std.ReflCmp.compare_self, ih]

theorem argsCompare_swap {pcmp : TRef → TRef → Ordering} [Std.TransCmp pcmp] :
    ∀ rs ss : List TRef, argsCompare pcmp rs ss = (argsCompare pcmp ss rs).swap
  | [], [] => rfl
  | [], _ :: _ => rfl
  | _ :: _, [] => rfl
  | r :: rs, s :: ss => by
    have h := Std.OrientedCmp.eq_swap (cmp := pcmp) (a := r) (b := s)
    simp only [argsCompare]
    cases hc : pcmp s r <;> rw [hc] at h <;> simp only [Ordering.swap] at h <;> rw [h]
    · rfl
    · exact argsCompare_swap rs ss
    · rfl

theorem argsCompare_trans {pcmp : TRef → TRef → Ordering} [Std.TransCmp pcmp] :
    ∀ rs ss us : List TRef, rs.length = ss.length → ss.length = us.length →
      (argsCompare pcmp rs ss).isLE → (argsCompare pcmp ss us).isLE → (argsCompare pcmp rs us).isLE
  | [], [], [], _, _, _, _ => rfl
  | r :: rs, s :: ss, u :: us, h1, h2, h3, h4 => by
    simp only [argsCompare] at *
    simp only [List.length_cons, Nat.add_right_cancel_iff] at h1 h2
    cases ha : pcmp r s <;> rw [ha] at h3 <;> cases hb : pcmp s u <;> rw [hb] at h4 <;> simp only at h3 h4
    · rw [Std.TransCmp.lt_trans ha hb]; rfl
    · rw [Std.TransCmp.lt_of_lt_of_eq ha hb]; rfl
    · exact absurd h4 (by simp)
    · rw [Std.TransCmp.lt_of_eq_of_lt ha hb]; rfl
    · rw [Std.TransCmp.eq_trans ha hb]; exact argsCompare_trans rs ss us h1 h2 h3 h4
    · exact absurd h4 (by simp)
    all_goals exact absurd h3 (by simp)
  | [], [], _ :: _, _, h, _, _ => by simp at h
  | [], _ :: _, _, h, _, _, _ => by simp at h
  | _ :: _, [], _, h, _, _, _ => by simp at h
  | _ :: _, _ :: _, [], _, h, _, _ => by simp at h

theorem argsCompare_eq {pcmp : TRef → TRef → Ordering} (hl : ∀ r s, pcmp r s = .eq → r = s) :
    ∀ rs ss : List TRef, rs.length = ss.length → argsCompare pcmp rs ss = .eq → rs = ss
  | [], [], _, _ => rfl
  | r :: rs, s :: ss, h, he => by
    simp only [argsCompare] at he
    simp only [List.length_cons, Nat.add_right_cancel_iff] at h
    cases hc : pcmp r s <;> rw [hc] at he <;> simp only at he
    · simp at he
    · rw [hl r s hc, argsCompare_eq hl rs ss h he]
    · simp at he
  | [], _ :: _, h, _ => by simp at h
  | _ :: _, [], h, _ => by simp at h

theorem topCompare_eq {pcmp : TRef → TRef → Ordering} (hl : ∀ r s, pcmp r s = .eq → r = s) {k l : TKey}
    (h : topCompare pcmp k l = .eq) : k = l := by
  unfold topCompare at h
  obtain ⟨f, rs⟩ := k
  obtain ⟨g, ss⟩ := l
  cases hc : compare f g <;> simp only [hc] at h
  · simp at h
  · cases hd : compare rs.length ss.length <;> simp only [hd] at h
    · simp at h
    · rw [Nat.compare_eq_eq] at hc hd
      rw [hc, argsCompare_eq hl rs ss hd h]
    · simp at h
  · simp at h

instance topCompare_trans {pcmp : TRef → TRef → Ordering} [Std.TransCmp pcmp] : Std.TransCmp (topCompare pcmp) where
  eq_swap {k l} := by
    unfold topCompare
    rw [Nat.compare_swap l.1 k.1 |>.symm, Nat.compare_swap l.2.length k.2.length |>.symm]
    cases compare l.1 k.1 <;> simp only [Ordering.swap]
    cases compare l.2.length k.2.length <;> simp only
    exact argsCompare_swap k.2 l.2
  isLE_trans {k l m} h1 h2 := by
    unfold topCompare at *
    rcases Nat.lt_trichotomy k.1 l.1 with a | a | a <;> rcases Nat.lt_trichotomy l.1 m.1 with c | c | c
    all_goals first
      | (rw [Nat.compare_eq_gt.2 a] at h1; exact absurd h1 (by simp))
      | (rw [Nat.compare_eq_gt.2 c] at h2; exact absurd h2 (by simp))
      | (rw [Nat.compare_eq_lt.2 (by omega)]; rfl)
      | skip
    rw [Nat.compare_eq_eq.2 a] at h1
    rw [Nat.compare_eq_eq.2 c] at h2
    rw [Nat.compare_eq_eq.2 (a.trans c)]
    simp only at *
    rcases Nat.lt_trichotomy k.2.length l.2.length with a | a | a <;> rcases Nat.lt_trichotomy l.2.length m.2.length with c | c | c
    all_goals first
      | (rw [Nat.compare_eq_gt.2 a] at h1; exact absurd h1 (by simp))
      | (rw [Nat.compare_eq_gt.2 c] at h2; exact absurd h2 (by simp))
      | (rw [Nat.compare_eq_lt.2 (by omega)]; rfl)
      | skip
    rw [Nat.compare_eq_eq.2 a] at h1
    rw [Nat.compare_eq_eq.2 c] at h2
    rw [Nat.compare_eq_eq.2 (a.trans c)]
    exact argsCompare_trans _ _ _ a c h1 h2

theorem topCompare_self {pcmp : TRef → TRef → Ordering} [Std.TransCmp pcmp] (k : TKey) : topCompare pcmp k k = .eq :=
  Std.ReflCmp.compare_self

/-! ## Trees whose keys are read from memory -/

section
variable {E K : Type} {cmp : K → K → Ordering} {key key' : E → K}

theorem sorted_congr {t : STree E} (h : ∀ e ∈ t.toList, key e = key' e) (hs : Sorted cmp key t) : Sorted cmp key' t := by
  unfold Sorted at *
  refine List.Pairwise.imp_of_mem ?_ hs
  intro a b ha hb hab
  rw [← h a ha, ← h b hb]; exact hab
end

/-! ## The invariant -/

/-- The counts cached in a cell. -/
def counts (m : Nat → TCell) (a : Nat) : Nat × Nat × Nat := ((m a).vCount, (m a).fCount, (m a).weight)

/-- The pointers of a list that are addresses are in use. -/
def ValidL (b : TBank) (rs : List TRef) : Prop := ∀ c, .cell c ∈ rs → c ∈ b.used

/-- The invariant, apart from the garbage flags. -/
structure Inv (x : TBCtx) (b : TBank) : Prop where
  sorted : ∀ i, Sorted (topCompare x.pcmp) (keyOf b.cell) (b.store i)
  mem : ∀ i a, a ∈ (b.store i).toList ↔ a ∈ b.used ∧ x.hash (keyOf b.cell a) = i
  nodup : b.used.Nodup
  closed : ∀ a ∈ b.used, ∀ c, .cell c ∈ (b.cell a).args → c ∈ b.used ∧ (b.cell c).entryNo < (b.cell a).entryNo
  entry : ∀ a ∈ b.used, (b.cell a).entryNo ≤ b.inCount
  link : ∀ a ∈ b.used, ∀ c, (b.cell a).link = some (.cell c) → c ∈ b.used
  count : ∀ a ∈ b.used, counts b.cell a = addArgs b.cell (0, 1, 2) (b.cell a).args
  ground : ∀ a ∈ b.used, (b.cell a).ground = ((b.cell a).vCount == 0)

/-- Outside of a garbage collection no cell is marked. -/
def Unmarked (b : TBank) : Prop := ∀ a ∈ b.used, (b.cell a).flag = b.gs

/-- `b'` has all cells of `b`. -/
structure Ext (b b' : TBank) : Prop where
  used : ∀ a ∈ b.used, a ∈ b'.used
  cell : ∀ a ∈ b.used, b'.cell a = b.cell a

theorem Ext.refl (b : TBank) : Ext b b := ⟨fun _ h => h, fun _ _ => rfl⟩

theorem Ext.trans {b b' b'' : TBank} (h : Ext b b') (h' : Ext b' b'') : Ext b b'' :=
  ⟨fun a ha => h'.used a (h.used a ha), fun a ha => (h'.cell a (h.used a ha)).trans (h.cell a ha)⟩

theorem addArgs_congr {m m' : Nat → TCell} : ∀ (rs : List TRef) (c : Nat × Nat × Nat), (∀ a, .cell a ∈ rs → counts m a = counts m' a) →
    addArgs m c rs = addArgs m' c rs
  | [], c, _ => rfl
  | .var n :: rs, (v, f, w), h => by
    simp only [addArgs]
    exact addArgs_congr rs _ fun a ha => h a (by simp [ha])
  | .cell a :: rs, (v, f, w), h => by
    have ha := h a (by simp)
    simp only [counts, Prod.mk.injEq] at ha
    simp only [addArgs, ha.1, ha.2.1, ha.2.2]
    exact addArgs_congr rs _ fun c hc => h c (by simp [hc])

theorem upd_same {α : Type} (m : Nat → α) (i : Nat) (v : α) : upd m i v i = v := if_pos rfl
theorem upd_ne {α : Type} (m : Nat → α) {i j : Nat} (v : α) (h : j ≠ i) : upd m i v j = m j := if_neg h

variable {x : TBCtx}

theorem Inv.unique (hx : x.OK) {b : TBank} (h : Inv x b) {a c : Nat} (ha : a ∈ b.used) (hc : c ∈ b.used)
    (he : keyOf b.cell a = keyOf b.cell c) : a = c := by
  have := hx.trans
  have h1 := (h.mem _ a).2 ⟨ha, rfl⟩
  have h2 := (h.mem (x.hash (keyOf b.cell a)) c).2 ⟨hc, by rw [he]⟩
  have hd := Props.sorted_distinct (h.sorted (x.hash (keyOf b.cell a)))
  have h3 := (Props.look_iff hd).2 ⟨h1, topCompare_self _⟩
  have h4 := (Props.look_iff hd).2 ⟨h2, topCompare_self _⟩
  rw [← he, h3] at h4
  exact Option.some.inj h4

theorem insertTop_spec (hx : x.OK) {b : TBank} (h : Inv x b) (f : Nat) {args : List TRef} (hv : ValidL b args) :
    Inv x (insertTop x b f args).2 ∧ Ext b (insertTop x b f args).2 ∧ (insertTop x b f args).2.gs = b.gs ∧
      (Unmarked b → Unmarked (insertTop x b f args).2) ∧
      ∃ a, (insertTop x b f args).1 = .cell a ∧ a ∈ (insertTop x b f args).2.used ∧
        keyOf (insertTop x b f args).2.cell a = (f, args) := by
  have := hx.trans
  have hfr := hx.fresh b
  have hkey : ∀ e ∈ b.used, keyOf b.cell e = keyOf (upd b.cell (x.alloc b) { f := f, args := args }) e := by
    intro e he
    have : e ≠ x.alloc b := fun hc => hfr (hc ▸ he)
    simp only [keyOf, upd_ne _ _ this]
  have hkey' : keyOf (upd b.cell (x.alloc b) { f := f, args := args }) = keyOf (upd b.cell (x.alloc b) (newCell b f args)) := by
    funext e
    by_cases he : e = x.alloc b
    · subst he; simp only [keyOf, upd_same, newCell]
    · simp only [keyOf, upd_ne _ _ he]
  have hka : keyOf (upd b.cell (x.alloc b) { f := f, args := args }) (x.alloc b) = (f, args) := by
    simp only [keyOf, upd_same]
  have hs : Sorted (topCompare x.pcmp) (keyOf (upd b.cell (x.alloc b) { f := f, args := args })) (b.store (x.hash (f, args))) :=
    sorted_congr (fun e he => hkey e ((h.mem _ e).1 he).1) (h.sorted _)
  obtain ⟨h1, h2⟩ := Props.insert_rel (cmp := topCompare x.pcmp) ⟨hs, List.Perm.refl _⟩ (x.alloc b)
  simp only [Props.mapStep, hka] at h1 h2
  have hd := Props.sorted_distinct hs
  generalize hT : STree.insert (topCompare x.pcmp) (keyOf (upd b.cell (x.alloc b) { f := f, args := args })) (x.alloc b)
    (b.store (x.hash (f, args))) = T at h1 h2
  obtain ⟨o, T⟩ := T
  cases hl : Props.look (topCompare x.pcmp) (keyOf (upd b.cell (x.alloc b) { f := f, args := args }))
      (b.store (x.hash (f, args))).toList (f, args) with
  | some e =>
    rw [hl] at h1 h2
    simp only at h1 h2
    obtain ⟨he, hc⟩ := (Props.look_iff hd).1 hl
    have heu := ((h.mem _ e).1 he).1
    have hek : keyOf b.cell e = (f, args) := by rw [hkey e heu]; exact (topCompare_eq hx.lawful hc).symm
    have hr : insertTop x b f args = (.cell e, { b with store := upd b.store (x.hash (f, args)) T }) := by
      unfold insertTop
      simp only
      rw [hT, h1]
    rw [hr]
    refine ⟨⟨?_, ?_, h.nodup, h.closed, h.entry, h.link, h.count, h.ground⟩, ⟨fun _ h => h, fun _ _ => rfl⟩, rfl, fun hu => hu,
      e, rfl, heu, hek⟩
    · intro i
      by_cases hi : i = x.hash (f, args)
      · subst hi
        simp only [upd_same]
        exact sorted_congr (fun e he => (hkey e ((h.mem _ e).1 (h2.2.mem_iff.1 he)).1).symm) h2.1
      · simp only [upd_ne _ _ hi]; exact h.sorted i
    · intro i a
      by_cases hi : i = x.hash (f, args)
      · subst hi
        simp only [upd_same]
        rw [h2.2.mem_iff]; exact h.mem _ a
      · simp only [upd_ne _ _ hi]; exact h.mem i a
  | none =>
    rw [hl] at h1 h2
    simp only at h1 h2
    have hr : insertTop x b f args = (.cell (x.alloc b), ⟨upd b.store (x.hash (f, args)) T, upd b.cell (x.alloc b) (newCell b f args),
        x.alloc b :: b.used, b.inCount + 1, b.gs⟩) := by
      unfold insertTop
      simp only
      rw [hT, h1]
    rw [hkey'] at h2 hka
    have hold : ∀ e ∈ b.used, upd b.cell (x.alloc b) (newCell b f args) e = b.cell e := fun e he =>
      upd_ne _ _ fun hc => hfr (hc ▸ he)
    have hokey : ∀ e ∈ b.used, keyOf (upd b.cell (x.alloc b) (newCell b f args)) e = keyOf b.cell e := fun e he => by
      simp only [keyOf, hold e he]
    rw [hr]
    refine ⟨⟨?_, ?_, ?_, ?_, ?_, ?_, ?_, ?_⟩, ⟨fun _ h => by simp [h], hold⟩, rfl, ?_, x.alloc b, rfl, by simp, hka⟩
    · intro i
      by_cases hi : i = x.hash (f, args)
      · subst hi
        simp only [upd_same]
        exact h2.1
      · simp only [upd_ne _ _ hi]
        exact sorted_congr (fun e he => (hokey e ((h.mem _ e).1 he).1).symm) (h.sorted i)
    · intro i a
      by_cases hi : i = x.hash (f, args)
      · subst hi
        simp only [upd_same]
        rw [h2.2.mem_iff, List.mem_cons, List.mem_cons]
        constructor
        · rintro (rfl | ha)
          · exact ⟨Or.inl rfl, by rw [hka]⟩
          · have := (h.mem _ a).1 ha
            exact ⟨Or.inr this.1, by rw [hokey a this.1]; exact this.2⟩
        · rintro ⟨rfl | ha, hh⟩
          · exact Or.inl rfl
          · rw [hokey a ha] at hh; exact Or.inr ((h.mem _ a).2 ⟨ha, hh⟩)
      · simp only [upd_ne _ _ hi]
        rw [h.mem i a, List.mem_cons]
        constructor
        · rintro ⟨ha, hh⟩; exact ⟨Or.inr ha, by rw [hokey a ha]; exact hh⟩
        · rintro ⟨rfl | ha, hh⟩
          · rw [hka] at hh; exact absurd hh.symm hi
          · rw [hokey a ha] at hh; exact ⟨ha, hh⟩
    · exact List.nodup_cons.2 ⟨hfr, h.nodup⟩
    · intro a ha c hc
      rcases List.mem_cons.1 ha with rfl | ha
      · simp only [upd_same, newCell] at hc ⊢
        have hcu := hv c hc
        refine ⟨by simp [hcu], ?_⟩
        have := h.entry c hcu
        have e2 := hold c hcu
        simp only [newCell] at e2
        rw [e2]; omega
      · simp only [hold a ha] at hc ⊢
        obtain ⟨hcu, hlt⟩ := h.closed a ha c hc
        exact ⟨by simp [hcu], by rw [hold c hcu]; exact hlt⟩
    · intro a ha
      rcases List.mem_cons.1 ha with rfl | ha
      · simp only [upd_same, newCell]; exact Nat.le_refl _
      · simp only [hold a ha]; have := h.entry a ha; omega
    · intro a ha c hc
      rcases List.mem_cons.1 ha with rfl | ha
      · simp only [upd_same, newCell] at hc; cases hc
      · simp only [hold a ha] at hc; simp [h.link a ha c hc]
    · intro a ha
      rcases List.mem_cons.1 ha with rfl | ha
      · have e : addArgs (upd b.cell (x.alloc b) (newCell b f args)) (0, 1, 2) args = addArgs b.cell (0, 1, 2) args :=
          addArgs_congr args _ fun c hc => by simp only [counts, hold c (hv c hc)]
        simp only [counts, upd_same]
        rw [show (newCell b f args).args = args from rfl, e]
        rfl
      · have e : addArgs (upd b.cell (x.alloc b) (newCell b f args)) (0, 1, 2) (b.cell a).args = addArgs b.cell (0, 1, 2) (b.cell a).args :=
          addArgs_congr _ _ fun c hc => by simp only [counts, hold c (h.closed a ha c hc).1]
        simp only [counts, hold a ha, e]
        exact h.count a ha
    · intro a ha
      rcases List.mem_cons.1 ha with rfl | ha
      · simp only [upd_same, newCell]
      · simp only [hold a ha]; exact h.ground a ha
    · intro hu a ha
      rcases List.mem_cons.1 ha with rfl | ha
      · simp only [upd_same, newCell]
      · simp only [hold a ha]; exact hu a ha

/-! ## Reading terms -/

/-- All pointers of a list read as the terms of a list. -/
def ReadsL (b : TBank) (rs : List TRef) (ts : List Term) : Prop := List.Forall₂ (Reads b) rs ts

theorem readsL_iff {b : TBank} {rs : List TRef} {ts : List Term} :
    ReadsL b rs ts ↔ rs.length = ts.length ∧ ∀ (i : Nat) (r : TRef) (t : Term), rs[i]? = some r → ts[i]? = some t → Reads b r t := by
  constructor
  · intro h
    induction h with
    | nil => simp
    | cons h1 h2 ih =>
      refine ⟨by simp [ih.1], ?_⟩
      intro i r t hr ht
      cases i with
      | zero => simp at hr ht; subst hr; subst ht; exact h1
      | succ i => simp at hr ht; exact ih.2 i r t hr ht
  · rintro ⟨hl, h⟩
    induction rs generalizing ts with
    | nil => cases ts with
      | nil => exact .nil
      | cons _ _ => simp at hl
    | cons r rs ih => cases ts with
      | nil => simp at hl
      | cons t ts =>
        refine .cons (h 0 r t rfl rfl) (ih (by simpa using hl) ?_)
        intro i r t hr ht
        exact h (i + 1) r t (by simpa using hr) (by simpa using ht)

theorem reads_cell {b : TBank} {a : Nat} {t : Term} : Reads b (.cell a) t ↔
    a ∈ b.used ∧ ∃ ts, t = .app (b.cell a).f ts ∧ ReadsL b (b.cell a).args ts := by
  constructor
  · intro h
    cases h with
    | cell _ ts hu hl h => exact ⟨hu, ts, rfl, readsL_iff.2 ⟨hl, h⟩⟩
  · rintro ⟨hu, ts, rfl, h⟩
    have := readsL_iff.1 h
    exact .cell a ts hu this.1 this.2

theorem reads_var {b : TBank} {n : Nat} {t : Term} : Reads b (.var n) t ↔ t = .var n := by
  constructor
  · intro h; cases h; rfl
  · rintro rfl; exact .var n

/-- Reading depends on the cells reached only. -/
theorem reads_congr {b b' : TBank} (P : Nat → Prop) (hk : ∀ a, P a → a ∈ b.used → a ∈ b'.used ∧ keyOf b'.cell a = keyOf b.cell a ∧
    ∀ c, .cell c ∈ (b.cell a).args → P c) {r : TRef} {t : Term} (h : Reads b r t) (hr : ∀ a, r = .cell a → P a) : Reads b' r t := by
  induction h with
  | var n => exact .var n
  | cell a ts hu hl h ih =>
    obtain ⟨h1, h2, h3⟩ := hk a (hr a rfl) hu
    simp only [keyOf, Prod.mk.injEq] at h2
    rw [← h2.1]
    refine .cell a ts h1 (by rw [h2.2]; exact hl) ?_
    intro i r t hi ht
    rw [h2.2] at hi
    refine ih i r t hi ht ?_
    rintro c rfl
    exact h3 c (List.mem_of_getElem? hi)

theorem reads_ext {b b' : TBank} (he : Ext b b') {r : TRef} {t : Term} (h : Reads b r t) : Reads b' r t :=
  reads_congr (fun _ => True) (fun a _ ha => ⟨he.used a ha, by simp only [keyOf, he.cell a ha], fun _ _ => trivial⟩) h
    (fun _ _ => trivial)

theorem readsL_ext {b b' : TBank} (he : Ext b b') {rs : List TRef} {ts : List Term} (h : ReadsL b rs ts) : ReadsL b' rs ts :=
  h.imp fun _ _ h => reads_ext he h

theorem readsL_valid {b : TBank} {rs : List TRef} {ts : List Term} (h : ReadsL b rs ts) : ValidL b rs := by
  induction h with
  | nil => intro c hc; simp at hc
  | cons h1 h2 ih =>
    intro c hc
    rcases List.mem_cons.1 hc with rfl | hc
    · exact (reads_cell.1 h1).1
    · exact ih c hc

theorem reads_func {b : TBank} {r : TRef} {t u : Term} (h : Reads b r t) (h' : Reads b r u) : t = u := by
  induction h generalizing u with
  | var n => exact (reads_var.1 h').symm
  | cell a ts hu hl h ih =>
    obtain ⟨_, us, rfl, hus⟩ := reads_cell.1 h'
    rw [readsL_iff] at hus
    congr 1
    refine List.ext_getElem? fun i => ?_
    cases hr : (b.cell a).args[i]? with
    | none =>
      rw [List.getElem?_eq_none_iff] at hr
      rw [List.getElem?_eq_none (by omega), List.getElem?_eq_none (by omega)]
    | some r =>
      obtain ⟨hi, _⟩ := List.getElem?_eq_some_iff.1 hr
      have h1 : ts[i]? = some ts[i] := List.getElem?_eq_getElem (by omega)
      have h2 : us[i]? = some (us[i]'(by omega)) := List.getElem?_eq_getElem (by omega)
      rw [h1, h2]
      congr 1
      exact ih i r _ hr h1 (hus.2 i r _ hr h2)

theorem reads_inj (hx : x.OK) {b : TBank} (hb : Inv x b) {r s : TRef} {t : Term} (h : Reads b r t) (h' : Reads b s t) : r = s := by
  induction h generalizing s with
  | var n => cases h'; rfl
  | cell a ts hu hl h ih =>
    generalize ht : Term.app (b.cell a).f ts = t at h'
    cases h' with
    | var n => cases ht
    | cell c us hu' hl' h' =>
      simp only [Term.app.injEq] at ht
      obtain ⟨hf, rfl⟩ := ht
      congr 1
      refine hb.unique hx hu hu' ?_
      simp only [keyOf, hf, Prod.mk.injEq, true_and]
      refine List.ext_getElem? fun i => ?_
      by_cases hi : i < ts.length
      · have h1 : (b.cell a).args[i]? = some ((b.cell a).args[i]'(by omega)) := List.getElem?_eq_getElem (by omega)
        have h2 : (b.cell c).args[i]? = some ((b.cell c).args[i]'(by omega)) := List.getElem?_eq_getElem (by omega)
        have h3 : ts[i]? = some ts[i] := List.getElem?_eq_getElem hi
        rw [h1, h2]
        congr 1
        exact ih i _ _ h1 h3 (h' i _ _ h2 h3)
      · rw [List.getElem?_eq_none (by omega), List.getElem?_eq_none (by omega)]

theorem reads_total {b : TBank} (hb : Inv x b) {r : TRef} (hr : ∀ a, r = .cell a → a ∈ b.used) : ∃ t, Reads b r t := by
  cases r with
  | var n => exact ⟨_, .var n⟩
  | cell a =>
    have ha := hr a rfl
    clear hr
    generalize hn : (b.cell a).entryNo = n
    induction n using Nat.strong_induction_on generalizing a with
    | _ n ih =>
      have key : ∀ rs : List TRef, (∀ c, .cell c ∈ rs → c ∈ b.used ∧ (b.cell c).entryNo < n) → ∃ ts, ReadsL b rs ts := by
        intro rs
        induction rs with
        | nil => intro _; exact ⟨[], .nil⟩
        | cons r rs ih2 =>
          intro h
          obtain ⟨ts, hts⟩ := ih2 fun c hc => h c (by simp [hc])
          cases r with
          | var m => exact ⟨_, .cons (.var m) hts⟩
          | cell c =>
            obtain ⟨h1, h2⟩ := h c (by simp)
            obtain ⟨t, ht⟩ := ih _ h2 c h1 rfl
            exact ⟨_, .cons ht hts⟩
      obtain ⟨ts, hts⟩ := key _ fun c hc => hn ▸ hb.closed a ha c hc
      exact ⟨_, reads_cell.2 ⟨ha, ts, rfl, hts⟩⟩

theorem addArgs_reads {b : TBank} {rs : List TRef} {ts : List Term} (h : ReadsL b rs ts)
    (hc : ∀ a t, .cell a ∈ rs → t ∈ ts → Reads b (.cell a) t → counts b.cell a = (t.vars.length, t.weight 0 1, t.weight 1 2)) (v f w : Nat) :
    addArgs b.cell (v, f, w) rs = (v + (Term.varsL ts).length, f + Term.weightL 0 1 ts, w + Term.weightL 1 2 ts) := by
  induction h generalizing v f w with
  | nil => simp [addArgs, Term.varsL, Term.weightL]
  | @cons r t rs ts h1 h2 ih =>
    have ih' := ih fun a t ha ht => hc a t (by simp [ha]) (by simp [ht])
    cases r with
    | var n =>
      obtain rfl := reads_var.1 h1
      simp only [addArgs, ih', Term.varsL, Term.weightL, Term.vars, Term.weight, List.length_append, List.length_cons, List.length_nil]
      refine Prod.ext ?_ (Prod.ext ?_ ?_) <;> simp only <;> omega
    | cell a =>
      have := hc a t (by simp) (by simp) h1
      simp only [counts, Prod.mk.injEq] at this
      simp only [addArgs, ih', Term.varsL, Term.weightL, List.length_append, this.1, this.2.1, this.2.2]
      refine Prod.ext ?_ (Prod.ext ?_ ?_) <;> simp only <;> omega

theorem reads_counts {b : TBank} (hb : Inv x b) : ∀ (t : Term) (a : Nat), Reads b (.cell a) t →
    counts b.cell a = (t.vars.length, t.weight 0 1, t.weight 1 2) := by
  intro t
  induction t using Term.ind with
  | hv n => intro a h; obtain ⟨_, _, h, _⟩ := reads_cell.1 h; cases h
  | ha f ts ih =>
    intro a h
    obtain ⟨hu, us, he, hus⟩ := reads_cell.1 h
    simp only [Term.app.injEq] at he
    obtain ⟨_, rfl⟩ := he
    rw [hb.count a hu, addArgs_reads hus fun a t _ ht h => ih t ht a h]
    simp [Term.vars, Term.weight]

/-! ## Insertion -/

/-- What every operation that builds terms preserves. -/
structure Grow (x : TBCtx) (b b' : TBank) : Prop where
  inv : Inv x b'
  ext : Ext b b'
  gs : b'.gs = b.gs
  unmarked : Unmarked b → Unmarked b'

theorem Grow.refl {b : TBank} (h : Inv x b) : Grow x b b := ⟨h, .refl b, rfl, id⟩

theorem Grow.trans {b b' b'' : TBank} (h : Grow x b b') (h' : Grow x b' b'') : Grow x b b'' :=
  ⟨h'.inv, h.ext.trans h'.ext, h'.gs.trans h.gs, fun u => h'.unmarked (h.unmarked u)⟩

theorem insertTop_grow (hx : x.OK) {b : TBank} (h : Inv x b) (f : Nat) {rs : List TRef} {ts : List Term} (hr : ReadsL b rs ts) :
    Grow x b (insertTop x b f rs).2 ∧ Reads (insertTop x b f rs).2 (insertTop x b f rs).1 (.app f ts) := by
  obtain ⟨h1, h2, h3, h4, a, h5, h6, h7⟩ := insertTop_spec hx h f (readsL_valid hr)
  refine ⟨⟨h1, h2, h3, h4⟩, ?_⟩
  rw [h5, reads_cell]
  simp only [keyOf, Prod.mk.injEq] at h7
  refine ⟨h6, ts, by rw [h7.1], ?_⟩
  rw [h7.2]
  exact readsL_ext h2 hr

mutual
theorem tbInsert_grow (hx : x.OK) : ∀ (t : Term) {b : TBank}, Inv x b →
    Grow x b (tbInsert x t b).2 ∧ Reads (tbInsert x t b).2 (tbInsert x t b).1 t
  | .var n, b, h => ⟨.refl h, .var n⟩
  | .app f ts, b, h => by
    obtain ⟨h1, h2⟩ := tbInsertL_grow hx ts h
    obtain ⟨h3, h4⟩ := insertTop_grow hx h1.inv f h2
    simp only [tbInsert]
    exact ⟨h1.trans h3, h4⟩
theorem tbInsertL_grow (hx : x.OK) : ∀ (ts : List Term) {b : TBank}, Inv x b →
    Grow x b (tbInsertL x ts b).2 ∧ ReadsL (tbInsertL x ts b).2 (tbInsertL x ts b).1 ts
  | [], b, h => ⟨.refl h, .nil⟩
  | t :: ts, b, h => by
    obtain ⟨h1, h2⟩ := tbInsert_grow hx t h
    obtain ⟨h3, h4⟩ := tbInsertL_grow hx ts h1.inv
    simp only [tbInsertL]
    exact ⟨h1.trans h3, .cons (reads_ext h3.ext h2) h4⟩
end

theorem tbFind_spec (hx : x.OK) {b : TBank} (h : Inv x b) (f : Nat) (rs : List TRef) :
    Grow x b (tbFind x b f rs).2 ∧ (∀ r, (tbFind x b f rs).1 = some r ↔ ∃ a, r = .cell a ∧ a ∈ b.used ∧ keyOf b.cell a = (f, rs)) := by
  have := hx.trans
  obtain ⟨h1, h2⟩ := Props.find_rel (cmp := topCompare x.pcmp) ⟨h.sorted (x.hash (f, rs)), List.Perm.refl _⟩ (f, rs)
  have hd := Props.sorted_distinct (h.sorted (x.hash (f, rs)))
  refine ⟨⟨⟨?_, ?_, h.nodup, h.closed, h.entry, h.link, h.count, h.ground⟩, ⟨fun _ h => h, fun _ _ => rfl⟩, rfl, id⟩, ?_⟩
  · intro i
    simp only [tbFind]
    by_cases hi : i = x.hash (f, rs)
    · subst hi; rw [upd_same]; exact h2.1
    · rw [upd_ne _ _ hi]; exact h.sorted i
  · intro i a
    simp only [tbFind]
    by_cases hi : i = x.hash (f, rs)
    · subst hi; rw [upd_same, h2.2.mem_iff]; exact h.mem _ a
    · rw [upd_ne _ _ hi]; exact h.mem i a
  · intro r
    simp only [tbFind]
    rw [h1, Option.map_eq_some_iff]
    constructor
    · rintro ⟨a, ha, rfl⟩
      rw [Props.look_iff hd] at ha
      exact ⟨a, rfl, ((h.mem _ a).1 ha.1).1, (topCompare_eq hx.lawful ha.2).symm⟩
    · rintro ⟨a, rfl, ha, hk⟩
      refine ⟨a, ?_, rfl⟩
      rw [Props.look_iff hd, h.mem _ a, hk]
      exact ⟨⟨ha, rfl⟩, topCompare_self _⟩

/-! ## Instantiation and replacement -/

theorem mapArgs_grow {g : TRef → TBank → Option (TRef × TBank)} {F : Term → Term} {b0 : TBank}
    (hg : ∀ (r : TRef) (t : Term) (b : TBank) (r' : TRef) (b' : TBank), Grow x b0 b → Reads b r t → g r b = some (r', b') →
      Grow x b b' ∧ Reads b' r' (F t)) :
    ∀ (rs : List TRef) (ts : List Term) (b : TBank) (rs' : List TRef) (b' : TBank), Grow x b0 b → ReadsL b rs ts →
      mapArgs g rs b = some (rs', b') → Grow x b b' ∧ ReadsL b' rs' (ts.map F)
  | [], _, b, rs', b', hb, .nil, h => by
    simp only [mapArgs, Option.some.injEq, Prod.mk.injEq] at h
    obtain ⟨rfl, rfl⟩ := h
    exact ⟨.refl hb.inv, .nil⟩
  | r :: rs, t :: ts, b, rs', b', hb, .cons h1 h2, h => by
    simp only [mapArgs] at h
    cases hr : g r b with
    | none => simp [hr] at h
    | some p =>
      obtain ⟨r', b1⟩ := p
      simp only [hr] at h
      obtain ⟨k1, k2⟩ := hg r t b r' b1 hb h1 hr
      cases hs : mapArgs g rs b1 with
      | none => simp [hs] at h
      | some q =>
        obtain ⟨ss, b2⟩ := q
        simp only [hs, Option.some.injEq, Prod.mk.injEq] at h
        obtain ⟨rfl, rfl⟩ := h
        obtain ⟨k3, k4⟩ := mapArgs_grow hg rs ts b1 ss b2 (hb.trans k1) (readsL_ext k1.ext h2) hs
        exact ⟨k1.trans k3, .cons (reads_ext k3.ext k2) k4⟩

theorem mapArgs_total {g : TRef → TBank → Option (TRef × TBank)} {F : Term → Term} {b0 : TBank}
    (hg : ∀ (r : TRef) (t : Term) (b : TBank) (r' : TRef) (b' : TBank), Grow x b0 b → Reads b r t → g r b = some (r', b') →
      Grow x b b' ∧ Reads b' r' (F t)) :
    ∀ (rs : List TRef) (ts : List Term) (b : TBank), Grow x b0 b → ReadsL b rs ts →
      (∀ (r : TRef) (t : Term) (b : TBank), t ∈ ts → Grow x b0 b → Reads b r t → ∃ p, g r b = some p) → ∃ p, mapArgs g rs b = some p
  | [], _, b, hb, .nil, _ => ⟨_, rfl⟩
  | r :: rs, t :: ts, b, hb, .cons h1 h2, h => by
    obtain ⟨⟨r', b1⟩, hp⟩ := h r t b (by simp) hb h1
    obtain ⟨k1, k2⟩ := hg r t b r' b1 hb h1 hp
    obtain ⟨q, hq⟩ := mapArgs_total hg rs ts b1 (hb.trans k1) (readsL_ext k1.ext h2) fun r t b ht => h r t b (by simp [ht])
    exact ⟨_, by simp only [mapArgs, hp, hq]; rfl⟩

/-- The bindings read as the substitution. -/
def BindReads (b : TBank) (bind : Nat → Option TRef) (σ : Nat → Term) : Prop :=
  ∀ v, (∀ s, bind v = some s → Reads b s (σ v)) ∧ (bind v = none → σ v = .var v)

theorem BindReads.ext {b b' : TBank} {bind : Nat → Option TRef} {σ : Nat → Term} (he : Ext b b') (h : BindReads b bind σ) :
    BindReads b' bind σ := fun v => ⟨fun s hs => reads_ext he ((h v).1 s hs), (h v).2⟩

theorem ground_vars {b : TBank} (hb : Inv x b) {a : Nat} {t : Term} (h : Reads b (.cell a) t) (hg : (b.cell a).ground = true) : t.vars = [] := by
  have hu := (reads_cell.1 h).1
  rw [hb.ground a hu] at hg
  have := reads_counts hb t a h
  simp only [counts, Prod.mk.injEq] at this
  rw [this.1] at hg
  simpa using hg

theorem subst_ground {t : Term} (h : t.vars = []) (σ : Nat → Term) : t.subst σ = t := by
  have := Term.subst_congr (σ := σ) (τ := Term.var) (t := t) (by rw [h]; simp)
  rw [this, Term.subst_id]

theorem instShared_grow (hx : x.OK) {bind : Nat → Option TRef} {σ : Nat → Term} : ∀ (n : Nat) (r : TRef) (t : Term) (b : TBank) (r' : TRef)
    (b' : TBank), Inv x b → BindReads b bind σ → Reads b r t → instShared x bind n r b = some (r', b') →
    Grow x b b' ∧ Reads b' r' (t.subst σ)
  | 0, r, t, b, r', b', _, _, _, h => by simp [instShared] at h
  | n + 1, .var v, t, b, r', b', hb, hσ, hr, h => by
    obtain rfl := reads_var.1 hr
    simp only [instShared] at h
    cases hv : bind v with
    | none =>
      simp only [hv, Option.some.injEq, Prod.mk.injEq] at h
      obtain ⟨rfl, rfl⟩ := h
      refine ⟨.refl hb, ?_⟩
      simp only [Term.subst, (hσ v).2 hv]
      exact .var v
    | some s =>
      simp only [hv, Option.some.injEq, Prod.mk.injEq] at h
      obtain ⟨rfl, rfl⟩ := h
      exact ⟨.refl hb, (hσ v).1 _ hv⟩
  | n + 1, .cell a, t, b, r', b', hb, hσ, hr, h => by
    simp only [instShared] at h
    by_cases hg : (b.cell a).ground = true
    · rw [if_pos hg] at h
      simp only [Option.some.injEq, Prod.mk.injEq] at h
      obtain ⟨rfl, rfl⟩ := h
      rw [subst_ground (ground_vars hb hr hg)]
      exact ⟨.refl hb, hr⟩
    · rw [if_neg hg] at h
      obtain ⟨hu, ts, rfl, hts⟩ := reads_cell.1 hr
      cases hm : mapArgs (instShared x bind n) (b.cell a).args b with
      | none => simp [hm] at h
      | some p =>
        obtain ⟨rs, b1⟩ := p
        simp only [hm, Option.some.injEq] at h
        obtain ⟨k1, k2⟩ := mapArgs_grow (F := Term.subst σ) (b0 := b)
          (fun r t b2 r' b' g hr h => instShared_grow hx n r t b2 r' b' g.inv (hσ.ext g.ext) hr h) _ _ b rs b1 (.refl hb) hts hm
        obtain ⟨k3, k4⟩ := insertTop_grow hx k1.inv (b.cell a).f k2
        rw [h] at k3 k4
        rw [Term.subst_app]
        exact ⟨k1.trans k3, k4⟩

theorem instShared_total (hx : x.OK) {bind : Nat → Option TRef} {σ : Nat → Term} : ∀ (n : Nat) (r : TRef) (t : Term) (b : TBank),
    Inv x b → BindReads b bind σ → Reads b r t → t.size ≤ n → ∃ p, instShared x bind n r b = some p
  | 0, r, t, b, _, _, _, h => absurd h (by have := Term.size_pos t; omega)
  | n + 1, .var v, t, b, hb, hσ, hr, h => by
    simp only [instShared]
    cases bind v <;> exact ⟨_, rfl⟩
  | n + 1, .cell a, t, b, hb, hσ, hr, h => by
    simp only [instShared]
    split
    · exact ⟨_, rfl⟩
    · obtain ⟨hu, ts, rfl, hts⟩ := reads_cell.1 hr
      obtain ⟨p, hp⟩ := mapArgs_total (F := Term.subst σ) (b0 := b)
        (fun r t b2 r' b' g hr h => instShared_grow hx n r t b2 r' b' g.inv (hσ.ext g.ext) hr h) _ _ b (.refl hb) hts
        fun r t b2 ht g hr => instShared_total hx n r t b2 g.inv (hσ.ext g.ext) hr
          (by have := Term.size_arg_lt (f := (b.cell a).f) ht; omega)
      simp only [hp]
      exact ⟨_, rfl⟩

theorem refWeight_reads {b : TBank} (hb : Inv x b) {r : TRef} {t : Term} (h : Reads b r t) : refWeight b r = stdWeight t := by
  cases r with
  | var v => obtain rfl := reads_var.1 h; rfl
  | cell a =>
    have := reads_counts hb t a h
    simp only [counts, Prod.mk.injEq] at this
    exact this.2.2

theorem replPlain_nochange {told trep : Term} (v : Nat) (h : Term.var v ≠ told) : replPlain told trep (.var v) = .var v := by
  simp only [replPlain, if_neg h]

theorem replShared_grow (hx : x.OK) {old rep : TRef} {told trep : Term} : ∀ (n : Nat) (r : TRef) (t : Term) (b : TBank) (r' : TRef)
    (b' : TBank), Inv x b → Reads b old told → Reads b rep trep → Reads b r t → replShared x old rep n r b = some (r', b') →
    Grow x b b' ∧ Reads b' r' (replPlain told trep t)
  | 0, r, t, b, r', b', _, _, _, _, h => by simp [replShared] at h
  | n + 1, r, t, b, r', b', hb, ho, hp, hr, h => by
    unfold replShared at h
    by_cases he : r = old
    · rw [if_pos he] at h
      subst he
      obtain rfl := reads_func hr ho
      simp only [Option.some.injEq, Prod.mk.injEq] at h
      obtain ⟨rfl, rfl⟩ := h
      refine ⟨.refl hb, ?_⟩
      have : replPlain t trep t = trep := by cases t <;> simp [replPlain]
      rw [this]; exact hp
    · have hne : t ≠ told := fun hc => he (reads_inj hx hb hr (hc ▸ ho))
      rw [if_neg he, refWeight_reads hb hr, refWeight_reads hb ho] at h
      by_cases hw : stdWeight t ≤ stdWeight told
      · rw [if_pos hw] at h
        simp only [Option.some.injEq, Prod.mk.injEq] at h
        obtain ⟨rfl, rfl⟩ := h
        refine ⟨.refl hb, ?_⟩
        have : replPlain told trep t = t := by
          cases t with
          | var v => simp [replPlain, hne]
          | app f ts => simp only [replPlain, if_neg hne, if_pos hw]
        rw [this]; exact hr
      · rw [if_neg hw] at h
        cases r with
        | var v =>
          obtain rfl := reads_var.1 hr
          simp only [Option.some.injEq, Prod.mk.injEq] at h
          obtain ⟨rfl, rfl⟩ := h
          rw [replPlain_nochange v hne]
          exact ⟨.refl hb, hr⟩
        | cell a =>
          obtain ⟨hu, ts, rfl, hts⟩ := reads_cell.1 hr
          simp only at h
          cases hm : mapArgs (replShared x old rep n) (b.cell a).args b with
          | none => simp [hm] at h
          | some p =>
            obtain ⟨rs, b1⟩ := p
            simp only [hm] at h
            obtain ⟨k1, k2⟩ := mapArgs_grow (F := replPlain told trep) (b0 := b)
              (fun r t b2 r' b' g hr h => replShared_grow hx n r t b2 r' b' g.inv (reads_ext g.ext ho) (reads_ext g.ext hp) hr h)
              _ _ b rs b1 (.refl hb) hts hm
            simp only [replPlain, if_neg hne, if_neg hw, InstProof.replPlainL_eq]
            by_cases hs : rs = (b.cell a).args
            · rw [if_pos hs] at h
              simp only [Option.some.injEq, Prod.mk.injEq] at h
              obtain ⟨rfl, rfl⟩ := h
              refine ⟨k1, ?_⟩
              rw [hs] at k2
              have hc := k1.ext.cell a hu
              rw [reads_cell]
              exact ⟨k1.ext.used a hu, _, by rw [hc], by rw [hc]; exact k2⟩
            · rw [if_neg hs] at h
              simp only [Option.some.injEq] at h
              obtain ⟨k3, k4⟩ := insertTop_grow hx k1.inv (b.cell a).f k2
              rw [h] at k3 k4
              exact ⟨k1.trans k3, k4⟩

theorem replShared_total (hx : x.OK) {old rep : TRef} {told trep : Term} : ∀ (n : Nat) (r : TRef) (t : Term) (b : TBank), Inv x b →
    Reads b old told → Reads b rep trep → Reads b r t → t.size ≤ n → ∃ p, replShared x old rep n r b = some p
  | 0, r, t, b, _, _, _, _, h => absurd h (by have := Term.size_pos t; omega)
  | n + 1, r, t, b, hb, ho, hp, hr, h => by
    unfold replShared
    split
    · exact ⟨_, rfl⟩
    · split
      · exact ⟨_, rfl⟩
      · cases r with
        | var v => exact ⟨_, rfl⟩
        | cell a =>
          obtain ⟨hu, ts, rfl, hts⟩ := reads_cell.1 hr
          obtain ⟨p, hm⟩ := mapArgs_total (F := replPlain told trep) (b0 := b)
            (fun r t b2 r' b' g hr h => replShared_grow hx n r t b2 r' b' g.inv (reads_ext g.ext ho) (reads_ext g.ext hp) hr h)
            _ _ b (.refl hb) hts fun r t b2 ht g hr => replShared_total hx n r t b2 g.inv (reads_ext g.ext ho) (reads_ext g.ext hp) hr
              (by have := Term.size_arg_lt (f := (b.cell a).f) ht; omega)
          simp only [hm]
          split <;> exact ⟨_, rfl⟩

/-! ## Rewrite links -/

theorem setLink_inv {b : TBank} (h : Inv x b) {a : Nat} {l : Option TRef} (hl : ∀ c, l = some (.cell c) → c ∈ b.used) :
    let b' := { b with cell := upd b.cell a { b.cell a with link := l } }
    Inv x b' ∧ (Unmarked b → Unmarked b') ∧ ∀ r t, Reads b r t → Reads b' r t := by
  have hf : ∀ e, (upd b.cell a { b.cell a with link := l } e).f = (b.cell e).f := by
    intro e; by_cases he : e = a <;> simp [upd, he]
  have ha : ∀ e, (upd b.cell a { b.cell a with link := l } e).args = (b.cell e).args := by
    intro e; by_cases he : e = a <;> simp [upd, he]
  have hn : ∀ e, (upd b.cell a { b.cell a with link := l } e).entryNo = (b.cell e).entryNo := by
    intro e; by_cases he : e = a <;> simp [upd, he]
  have hc : ∀ e, counts (upd b.cell a { b.cell a with link := l }) e = counts b.cell e := by
    intro e; by_cases he : e = a <;> simp [counts, upd, he]
  have hv : ∀ e, (upd b.cell a { b.cell a with link := l } e).vCount = (b.cell e).vCount := fun e => congrArg (·.1) (hc e)
  have hg : ∀ e, (upd b.cell a { b.cell a with link := l } e).ground = (b.cell e).ground := by
    intro e; by_cases he : e = a <;> simp [upd, he]
  have hfl : ∀ e, (upd b.cell a { b.cell a with link := l } e).flag = (b.cell e).flag := by
    intro e; by_cases he : e = a <;> simp [upd, he]
  have hk : keyOf (upd b.cell a { b.cell a with link := l }) = keyOf b.cell := by
    funext e; simp only [keyOf, hf, ha]
  intro b'
  refine ⟨⟨?_, ?_, h.nodup, ?_, ?_, ?_, ?_, ?_⟩, ?_, ?_⟩
  · intro i; simp only [b', hk]; exact h.sorted i
  · intro i e; simp only [b', hk]; exact h.mem i e
  · intro e he c hcc; simp only [b', ha, hn] at *; exact h.closed e he c hcc
  · intro e he; simp only [b', hn] at *; exact h.entry e he
  · intro e he c hcc
    by_cases hea : e = a
    · simp only [b', hea, upd_same] at hcc; exact hl c hcc
    · simp only [b', upd_ne _ _ hea] at hcc; exact h.link e he c hcc
  · intro e he
    simp only [b', ha, hc]
    rw [h.count e he]
    exact addArgs_congr _ _ fun c _ => (hc c).symm
  · intro e he; simp only [b', hg, hv]; exact h.ground e he
  · intro hu e he; simp only [b', hfl]; exact hu e he
  · intro r t hr
    exact reads_congr (b := b) (b' := b') (fun _ => True) (fun e _ he => ⟨he, by simp only [b', hk], fun _ _ => trivial⟩) hr fun _ _ => trivial

end Verif.TBProof
