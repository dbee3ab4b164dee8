import Verif.Props.LitSel

/-!
# C73: which literal is selected, for the strategies that search in stages
-/

namespace Verif.Props
open Verif LitSel

/-- The literal at `i` has the property `p` and the greatest weight `w` among those that have it. -/
def Best (C : List FLit) (p : FLit → Prop) (w : FLit → Int) (i : Nat) : Prop :=
  ∃ L, C[i]? = some L ∧ p L ∧ ∀ K ∈ C, p K → w K ≤ w L

/-- A choice in stages: the first stage for which there are literals counts; without such a stage nothing is chosen. -/
def Chosen (C : List FLit) : List ((FLit → Prop) × (FLit → Int)) → Option Nat → Prop
  | [], o => o = none
  | (p, w) :: ss, o => ((∃ L ∈ C, p L) ∧ ∃ i, o = some i ∧ Best C p w i) ∨ ((¬ ∃ L ∈ C, p L) ∧ Chosen C ss o)

/-- Of the negative literals exactly the chosen one is selected. -/
def SelectsOnly (D : List FLit) (o : Option Nat) : Prop :=
  ∀ (j : Nat) K, D[j]? = some K → K.lit.pos = false → (K.selected = true ↔ o = some j)

/-- The choice, and that it is what is selected. -/
def Selects (C D : List FLit) (ss : List ((FLit → Prop) × (FLit → Int))) : Prop := ∃ o, Chosen C ss o ∧ SelectsOnly D o

abbrev neverW : FLit → Int := fun _ => 0

private theorem neg_iff (L : FLit) : neg L = true ↔ IsNeg L := by simp [neg, IsNeg]

private theorem groundNeg_iff (L : FLit) : (neg L && isGround L) = true ↔ GroundNeg L := by
  simp [neg, isGround, GroundNeg, List.isEmpty_iff]

private theorem isVar_iff (t : Term) : t.isVar = true ↔ ∃ a, t = .var a := by cases t <;> simp [Term.isVar]

private theorem varNeg_iff (L : FLit) : (neg L && isPureVar L) = true ↔ VarNeg L := by
  simp [neg, isPureVar, VarNeg, isVar_iff]

private theorem diff_eq (L : FLit) : diffWt L = diffSpec L := by
  unfold diffWt diffSpec stdDiff stdWt symWt
  rw [max_sub_min_eq_abs']

private theorem stage_max {q : FLit → Bool} {p : FLit → Prop} {w w' : FLit → Int} {st : Int} {C : SCl} {ss : List ((FLit → Prop) × (FLit → Int))}
    {o : Option Nat} (hq : ∀ L, q L = true ↔ p L) (hw : ∀ L, w L = w' L) (hst : ∀ L ∈ C.lits, st < w L) (ho : Chosen C.lits ss o) :
    Chosen C.lits ((p, w') :: ss) (match findMax q w st C with | some i => some i | none => o) := by
  cases h : findMax q w st C with
  | some i =>
    obtain ⟨L, h1, h2, h3, -⟩ := findMax_best h
    exact .inl ⟨⟨L, List.mem_of_getElem? h1, (hq L).1 h2⟩, i, rfl, L, h1, (hq L).1 h2, fun K hK hp => by
      rw [← hw, ← hw]; exact h3 K hK ((hq K).2 hp)⟩
  | none =>
    refine .inr ⟨?_, ho⟩
    rintro ⟨L, hL, hp⟩
    obtain ⟨i, hi⟩ := findMax_some (w := w) (p := q) hL ((hq L).2 hp) (hst L hL)
    rw [hi] at h; cases h

private theorem stage_min {q : FLit → Bool} {p : FLit → Prop} {w w' : FLit → Int} {C : SCl} {ss : List ((FLit → Prop) × (FLit → Int))}
    {o : Option Nat} (hq : ∀ L, q L = true ↔ p L) (hw : ∀ L, w' L = - w L) (hst : ∀ L ∈ C.lits, w L < longMax) (ho : Chosen C.lits ss o) :
    Chosen C.lits ((p, w') :: ss) (match findMin q w C with | some i => some i | none => o) := by
  cases h : findMin q w C with
  | some i =>
    obtain ⟨L, h1, h2, h3, -⟩ := findMin_best h
    exact .inl ⟨⟨L, List.mem_of_getElem? h1, (hq L).1 h2⟩, i, rfl, L, h1, (hq L).1 h2, fun K hK hp => by
      rw [hw, hw]; have := h3 K hK ((hq K).2 hp); omega⟩
  | none =>
    refine .inr ⟨?_, ho⟩
    rintro ⟨L, hL, hp⟩
    obtain ⟨i, hi⟩ := findMin_some (w := w) (p := q) hL ((hq L).2 hp) (hst L hL)
    rw [hi] at h; cases h

private theorem stage_first {q : FLit → Bool} {p : FLit → Prop} {C : SCl} {ss : List ((FLit → Prop) × (FLit → Int))}
    {o : Option Nat} (hq : ∀ L, q L = true ↔ p L) (ho : Chosen C.lits ss o) :
    Chosen C.lits ((p, neverW) :: ss) (match findFirst q C with | some i => some i | none => o) := by
  cases h : findFirst q C with
  | some i =>
    obtain ⟨L, h1, h2⟩ := findFirst_finds q C i h
    exact .inl ⟨⟨L, List.mem_of_getElem? h1, (hq L).1 h2⟩, i, rfl, L, h1, (hq L).1 h2, fun K hK hp => le_refl _⟩
  | none =>
    refine .inr ⟨?_, ho⟩
    rintro ⟨L, hL, hp⟩
    rw [findFirst, List.findIdx?_eq_none_iff] at h
    have := h L hL
    rw [(hq L).2 hp] at this; cases this

private theorem only_set {C : SCl} (h0 : ∀ L ∈ C.lits, L.selected = false) (i : Nat) (b : Bool) :
    SelectsOnly (setSel i (if b then selectPos C else C)).lits (some i) := by
  intro j K hK hn
  rw [setSel_neg h0 hK hn]
  simp [eq_comm]

private theorem only_none {C : SCl} (h0 : ∀ L ∈ C.lits, L.selected = false) : SelectsOnly C.lits none := by
  intro j K hK _
  simp [h0 K (List.mem_of_getElem? hK)]

private theorem only_may {C : SCl} (h0 : ∀ L ∈ C.lits, L.selected = false) (b : Bool) (o : Option Nat) :
    SelectsOnly (selMay b o C).lits o := by
  cases o with
  | none => exact only_none h0
  | some i => exact only_set h0 i b

private theorem only_if {C : SCl} (h0 : ∀ L ∈ C.lits, L.selected = false) (o : Option Nat) : SelectsOnly (selIf o C).lits o := by
  cases o with
  | none => exact only_none h0
  | some i => exact only_set h0 i false

private theorem mark0 {x : SelCtx} {C : SCl} (h0 : ∀ L ∈ C.lits, L.selected = false) : ∀ L ∈ (condMark x C).lits, L.selected = false := by
  unfold condMark
  split
  · exact h0
  · exact markMax_sel h0

private theorem mark_small {x : SelCtx} {C : SCl} (hs : ∀ L ∈ C.lits, SmallLit L) : ∀ L ∈ (condMark x C).lits, SmallLit L := by
  unfold condMark
  split
  · exact hs
  · intro L hL
    obtain ⟨K, hK, hr⟩ := ((Rel.refl x C.lits).mark).mem hL
    exact hr.small (hs K hK)

private theorem diffP_selects {p : Bool} {x : SelCtx} {C D : SCl} (h0 : ∀ L ∈ C.lits, L.selected = false) (h : selectDiffP p x C = some D) :
    Chosen C.lits [(IsNeg, diffSpec)] (findMax neg diffWt (-1) C) ∧ SelectsOnly D.lits (findMax neg diffWt (-1) C) := by
  constructor
  · have := stage_max (C := C) (o := none) (ss := []) neg_iff diff_eq (st := -1) (fun L _ => diffWt_pos L) rfl
    cases hf : findMax neg diffWt (-1) C with
    | none => rw [hf] at this; exact this
    | some i => rw [hf] at this; exact this
  · cases p with
    | true =>
      simp only [selectDiffP, if_true, pSelectDiff, selMust] at h
      obtain ⟨i, hi, rfl⟩ := Option.map_eq_some_iff.1 h
      rw [hi]
      exact only_set h0 i true
    | false =>
      simp only [selectDiffP, Bool.false_eq_true, if_false, selectDiff, Option.some.injEq] at h
      subst h
      exact only_if h0 _

/-- A choice followed by `SelectDiffNegativeLiteral`. -/
private theorem then_diff {p : Bool} {x : SelCtx} {C D : SCl} (h0 : ∀ L ∈ C.lits, L.selected = false) {o : Option Nat}
    {ss : List ((FLit → Prop) × (FLit → Int))}
    (h : (match o with | some i => some (setSel i C) | none => selectDiffP p x C) = some D)
    (hs : ∀ o', Chosen C.lits [(IsNeg, diffSpec)] o' → Chosen C.lits ss (firstOf o o')) : Selects C.lits D.lits ss := by
  cases o with
  | some i =>
    simp only [Option.some.injEq] at h
    subst h
    have hd : ∃ o', Chosen C.lits [(IsNeg, diffSpec)] o' := ⟨_, by
      have := stage_max (C := C) (o := none) (ss := []) neg_iff diff_eq (st := -1) (fun L _ => diffWt_pos L) rfl
      exact this⟩
    obtain ⟨o', ho'⟩ := hd
    exact ⟨some i, hs o' ho', only_set h0 i false⟩
  | none =>
    obtain ⟨h1, h2⟩ := diffP_selects h0 h
    exact ⟨_, hs _ h1, h2⟩

/-- **C73.** SelectPureVarNegLiterals, (P)SelectDiffNegLit, SelectGroundNegLit, (P)SelectMinInfposNoTypePred: a negative literal between variables, with the
greatest difference, ground with the greatest difference, or with few positions for inferences and no type predicate; nothing if there is none. -/
theorem simple_selects {p : Bool} {x : SelCtx} {C D : SCl} (h0 : ∀ L ∈ C.lits, L.selected = false) (hs : ∀ L ∈ C.lits, SmallLit L) :
    (selectFirstVar x C = some D → Selects C.lits D.lits [(VarNeg, neverW)]) ∧
    (selectDiffP p x C = some D → Selects C.lits D.lits [(IsNeg, diffSpec)]) ∧
    (selectGround x C = some D → Selects C.lits D.lits [(GroundNeg, diffSpec)]) ∧
    (selectMinInfposNo p x C = some D →
      Selects (condMark x C).lits D.lits [(fun L => IsNeg L ∧ x.typePred L = false, fun L => - intoWt 1 2 L)]) := by
  refine ⟨fun h => ?_, fun h => ?_, fun h => ?_, fun h => ?_⟩
  · simp only [selectFirstVar, Option.some.injEq] at h
    subst h
    refine ⟨_, ?_, only_if h0 _⟩
    have := stage_first (C := C) (o := none) (ss := []) varNeg_iff rfl
    unfold findPureVar
    revert this
    cases findFirst (fun L => neg L && isPureVar L) C <;> exact id
  · obtain ⟨h1, h2⟩ := diffP_selects h0 h
    exact ⟨_, h1, h2⟩
  · simp only [selectGround, Option.some.injEq] at h
    subst h
    refine ⟨_, ?_, only_if h0 _⟩
    have := stage_max (C := C) (o := none) (ss := []) groundNeg_iff diff_eq (st := -1) (fun L _ => diffWt_pos L) rfl
    revert this
    cases findMax (fun L => neg L && isGround L) diffWt (-1) C <;> exact id
  · have h0' := mark0 (x := x) h0
    have hs' : ∀ L ∈ (condMark x C).lits, infWt 1 2 L < longMax := by
      intro L hL
      exact (mark_small hs L hL).inf (by omega) (by omega)
    have := stage_min (C := condMark x C) (o := none) (ss := []) (q := fun L => neg L && !x.typePred L) (p := fun L => IsNeg L ∧ x.typePred L = false)
      (w := infWt 1 2) (w' := fun L => - intoWt 1 2 L) (fun L => by simp [neg, IsNeg]) (fun L => rfl) hs' rfl
    simp only [selectMinInfposNo] at h
    revert this h
    cases findMin (fun L => neg L && !x.typePred L) (infWt 1 2) (condMark x C) with
    | none => intro h this; cases h; exact ⟨_, this, only_none h0'⟩
    | some i => intro h this; cases h; exact ⟨_, this, only_set h0' i p⟩

/-- **C73.** (P)SelectOptimalLit and (P)SelectLComplex: ground literals before others, in the second case literals between variables first; then the
greatest difference counts. -/
theorem selectOptimal_selects {p : Bool} {x : SelCtx} {C D : SCl} (h0 : ∀ L ∈ C.lits, L.selected = false) :
    (selectOptimal p x C = some D → Selects C.lits D.lits [(GroundNeg, diffSpec), (IsNeg, diffSpec)]) ∧
    (selectLComplex p x C = some D → Selects C.lits D.lits [(VarNeg, neverW), (GroundNeg, diffSpec), (IsNeg, diffSpec)]) := by
  constructor
  · intro h
    exact then_diff h0 h (fun o' ho' => stage_max groundNeg_iff diff_eq (fun L _ => diffWt_pos L) ho')
  · intro h
    refine then_diff h0 h (fun o' ho' => ?_)
    have := stage_first varNeg_iff (stage_max (st := -1) groundNeg_iff diff_eq (fun L _ => diffWt_pos L) ho')
    unfold findPureVar
    revert this
    cases findFirst (fun L => neg L && isPureVar L) C <;> exact id

/-- **C73.** (P)SelectComplex: a literal between variables, otherwise the smallest ground one, otherwise that with the greatest difference.  (P)SelectMinOptimalLit
and its variants without certain type predicates: the smallest ground one, otherwise the smallest. -/
theorem selectComplex_selects {p : Bool} {x : SelCtx} {C D : SCl} (h0 : ∀ L ∈ C.lits, L.selected = false) (hs : ∀ L ∈ C.lits, SmallLit L) :
    (selectComplex p x C = some D → Selects C.lits D.lits [(VarNeg, neverW), (GroundNeg, fun L => - symWt 1 2 L), (IsNeg, diffSpec)]) ∧
    (selectMinOptimal p x C = some D → Selects C.lits D.lits [(GroundNeg, fun L => - symWt 1 2 L), (IsNeg, fun L => - symWt 1 2 L)]) ∧
    ∀ t : SelCtx → FLit → Bool, selectMinOptimalNo p t x C = some D →
      Selects C.lits D.lits [(GroundNeg, fun L => - symWt 1 2 L), (fun L => IsNeg L ∧ t x L = false, fun L => - symWt 1 2 L)] := by
  have hw : ∀ L ∈ C.lits, stdWt L < longMax := fun L hL => (hs L hL).std
  refine ⟨fun h => ?_, fun h => ?_, fun t h => ?_⟩
  · refine then_diff h0 h (fun o' ho' => ?_)
    have := stage_first varNeg_iff (stage_min (w := stdWt) (w' := fun L => - symWt 1 2 L) groundNeg_iff (fun _ => rfl) hw ho')
    unfold findPureVar findSmallestGround
    revert this
    cases findFirst (fun L => neg L && isPureVar L) C <;> exact id
  · have h1 := stage_min (C := C) (o := none) (ss := []) (w := stdWt) (w' := fun L => - symWt 1 2 L) neg_iff (fun _ => rfl) hw rfl
    have h2 := stage_min (w := stdWt) (w' := fun L => - symWt 1 2 L) groundNeg_iff (fun _ => rfl) hw h1
    unfold selectMinOptimal findSmallestGround at h
    revert h2 h
    cases findMin (fun L => neg L && isGround L) stdWt C with
    | some i => intro h h2; cases h; exact ⟨_, h2, only_set h0 i false⟩
    | none =>
      intro h h2
      simp only [selectSmallest, selMust] at h
      obtain ⟨i, hi, rfl⟩ := Option.map_eq_some_iff.1 h
      rw [hi] at h2
      exact ⟨_, h2, only_set h0 i p⟩
  · have h1 := stage_min (C := C) (o := none) (ss := []) (q := fun L => neg L && !t x L) (p := fun L => IsNeg L ∧ t x L = false) (w := stdWt)
      (w' := fun L => - symWt 1 2 L) (fun L => by simp [neg, IsNeg]) (fun _ => rfl) hw rfl
    have h2 := stage_min (w := stdWt) (w' := fun L => - symWt 1 2 L) groundNeg_iff (fun _ => rfl) hw h1
    unfold selectMinOptimalNo findSmallestGround at h
    revert h2 h
    cases findMin (fun L => neg L && isGround L) stdWt C with
    | some i => intro h h2; cases h; exact ⟨_, h2, only_set h0 i p⟩
    | none =>
      simp only
      cases findMin (fun L => neg L && !t x L) stdWt C with
      | some i => intro h h2; cases h; exact ⟨_, h2, only_set h0 i p⟩
      | none => intro h h2; cases h; exact ⟨_, h2, only_none h0⟩

/-- **C73.** (P)SelectNewComplex, with the marked clause: the ground literal with the smallest left side; otherwise, without `xtype` predicates, the
one with the fewest positions for inferences; otherwise the `xtype` predicate with the greatest left side. -/
theorem selectNewComplex_selects {p : Bool} {x : SelCtx} {C D : SCl} (h0 : ∀ L ∈ C.lits, L.selected = false) (hs : ∀ L ∈ C.lits, SmallLit L)
    (h : selectNewComplex p x C = some D) :
    Selects (condMark x C).lits D.lits [(GroundNeg, fun L => - (L.lit.l.weight 1 2 : Int)),
      (fun L => IsNeg L ∧ ¬ GroundNeg L ∧ x.xTypePred L = false, fun L => - intoWt 1 1 L),
      (fun L => IsNeg L ∧ x.xTypePred L = true ∧ x.typePred L = false, fun L => (L.lit.l.weight 1 2 : Int))] := by
  have h0' := mark0 (x := x) h0
  have hs' := mark_small (x := x) hs
  unfold selectNewComplex at h
  simp only at h
  generalize condMark x C = M at *
  have hl : ∀ L ∈ M.lits, (L.lit.l.weight 1 2 : Int) < longMax := by
    intro L hL
    have := (hs' L hL).std
    unfold stdWt at this
    omega
  have h3 := stage_max (C := M) (o := none) (ss := []) (q := fun L => neg L && x.xTypePred L && !x.typePred L)
    (p := fun L => IsNeg L ∧ x.xTypePred L = true ∧ x.typePred L = false) (w := fun L => (L.lit.l.weight 1 2 : Int))
    (w' := fun L => (L.lit.l.weight 1 2 : Int)) (st := -1) (fun L => by simp [neg, IsNeg, and_assoc]) (fun _ => rfl) (fun L _ => by omega) rfl
  have h2 := stage_min (q := fun L => neg L && !isGround L && !x.xTypePred L) (p := fun L => IsNeg L ∧ ¬ GroundNeg L ∧ x.xTypePred L = false)
    (w := infWt 1 1) (w' := fun L => - intoWt 1 1 L) (fun L => by
      have := groundNeg_iff L
      have hn := neg_iff L
      cases h1 : neg L <;> cases h2 : isGround L <;> simp_all) (fun _ => rfl) (fun L hL => (hs' L hL).inf (by omega) (by omega)) h3
  have h1 := stage_min (w := fun L => (L.lit.l.weight 1 2 : Int)) (w' := fun L => - (L.lit.l.weight 1 2 : Int)) groundNeg_iff (fun _ => rfl) hl h2
  unfold findSmallestMaxGround findNgMin11 findMaxXType at h
  revert h1 h
  cases findMin (fun L => neg L && isGround L) (fun L => (L.lit.l.weight 1 2 : Int)) M with
  | some i => intro h h1; cases h; exact ⟨_, h1, only_set h0' i p⟩
  | none =>
    simp only
    cases findMin (fun L => neg L && !isGround L && !x.xTypePred L) (infWt 1 1) M with
    | some i => intro h h1; cases h; exact ⟨_, h1, only_set h0' i p⟩
    | none =>
      simp only
      cases findMax (fun L => neg L && x.xTypePred L && !x.typePred L) (fun L => (L.lit.l.weight 1 2 : Int)) (-1) M with
      | some i => intro h h1; cases h; exact ⟨_, h1, only_set h0' i p⟩
      | none => intro h h1; cases h; exact ⟨_, h1, only_none h0'⟩

/-! ## Maximal literals -/

private theorem lcomplex_chosen {mx : Bool → Bool} {P : FLit → Prop} {C : SCl} (hm : ∀ L : FLit, mx L.maximal = true ↔ P L)
    {ss : List ((FLit → Prop) × (FLit → Int))} {o : Option Nat} (ho : Chosen C.lits ss o) :
    Chosen C.lits ((fun L => VarNeg L ∧ P L, neverW) :: (fun L => GroundNeg L ∧ P L, diffSpec) :: (fun L => IsNeg L ∧ P L, diffSpec) :: ss)
      (firstOf (findLComplex mx C) o) := by
  have h3 := stage_max (q := fun L => neg L && mx L.maximal) (p := fun L => IsNeg L ∧ P L) (st := -1) (fun L => by
    rw [← hm, ← neg_iff]; simp) diff_eq (fun L _ => diffWt_pos L) ho
  have h2 := stage_max (q := fun L => neg L && mx L.maximal && isGround L) (p := fun L => GroundNeg L ∧ P L) (st := -1) (fun L => by
    rw [← hm, ← groundNeg_iff]; simp; tauto) diff_eq (fun L _ => diffWt_pos L) h3
  have h1 := stage_first (q := fun L => neg L && mx L.maximal && isPureVar L) (p := fun L => VarNeg L ∧ P L) (fun L => by
    rw [← hm, ← varNeg_iff]; simp; tauto) h2
  unfold findLComplex
  revert h1
  cases findFirst (fun L => neg L && mx L.maximal && isPureVar L) C with
  | some i => exact id
  | none =>
    simp only
    cases findMax (fun L => neg L && mx L.maximal && isGround L) diffWt (-1) C with
    | some i => exact id
    | none =>
      simp only
      cases findMax (fun L => neg L && mx L.maximal) diffWt (-1) C <;> exact id

/-- Number of literals marked as maximal. -/
def maxCount (M : List FLit) : Nat := (M.filter (·.maximal)).length
/-- Number of positive literals marked as maximal. -/
def maxPosCount (M : List FLit) : Nat := (M.filter fun L => L.maximal && L.lit.pos).length

private theorem chosen_skip {C : List FLit} {p : FLit → Prop} {w : FLit → Int} {ss : List ((FLit → Prop) × (FLit → Int))} {o : Option Nat}
    (hp : ∀ L ∈ C, ¬ p L) (h : Chosen C ss o) : Chosen C ((p, w) :: ss) o := .inr ⟨fun ⟨L, hL, h⟩ => hp L hL h, h⟩

/-- **C73.** (P)SelectMaxLComplex, with the marked clause: nothing if there is at most one maximal literal; otherwise maximal literals before others, then as
SelectLComplex. -/
theorem selectMaxLComplex_selects {p : Bool} {x : SelCtx} {C D : SCl} (h0 : ∀ L ∈ C.lits, L.selected = false)
    (h : selectMaxLComplex p x C = some D) :
    (maxCount (condMark x C).lits ≤ 1 → SelectsOnly D.lits none) ∧
    (1 < maxCount (condMark x C).lits → Selects (condMark x C).lits D.lits
      [(fun L => VarNeg L ∧ L.maximal = true, neverW), (fun L => GroundNeg L ∧ L.maximal = true, diffSpec), (fun L => IsNeg L ∧ L.maximal = true, diffSpec),
       (VarNeg, neverW), (GroundNeg, diffSpec), (IsNeg, diffSpec)]) := by
  have h0' := mark0 (x := x) h0
  unfold selectMaxLComplex at h
  simp only at h
  generalize condMark x C = M at *
  have hc : maxNo M = maxCount M.lits := List.countP_eq_length_filter ..
  rw [← hc]
  constructor
  · intro hle
    rw [if_neg (by omega)] at h
    cases h
    exact only_none h0'
  · intro hgt
    rw [if_pos hgt] at h
    split at h
    · rename_i hne
      obtain ⟨i, hi, hD⟩ := Option.map_eq_some_iff.1 (show Option.map _ (findLComplex id (delOri M)) = some D from h)
      refine ⟨some i, ?_, ?_⟩
      · have hl : ∃ o, Chosen M.lits [(VarNeg, neverW), (GroundNeg, diffSpec), (IsNeg, diffSpec)] o :=
          ⟨_, stage_first varNeg_iff (stage_max (st := -1) groundNeg_iff diff_eq (fun L _ => diffWt_pos L)
            (stage_max (st := -1) (o := none) (ss := []) neg_iff diff_eq (fun L _ => diffWt_pos L) rfl))⟩
        obtain ⟨o, ho⟩ := hl
        have := lcomplex_chosen (C := delOri M) (mx := id) (P := fun L => L.maximal = true) (fun L => Iff.rfl) ho
        rw [hi] at this
        exact this
      · rw [← hD]; exact only_set (C := delOri M) h0' i false
    · rename_i hne
      have hall : ∀ L ∈ M.lits, ¬ (IsNeg L ∧ L.maximal = true) := by
        rintro L hL ⟨hn, hm⟩
        apply hne
        have h1 : maxPosNo M = (M.lits.filter fun L => L.maximal).countP fun L => L.lit.pos := by
          unfold maxPosNo
          rw [List.countP_filter]
          congr 1; funext L; exact Bool.and_comm _ _
        have h2 : maxNo M = (M.lits.filter fun L => L.maximal).length := List.countP_eq_length_filter ..
        show maxPosNo M ≠ maxNo M
        rw [h1, h2]
        intro e
        rw [List.countP_eq_length] at e
        have := e L (List.mem_filter.2 ⟨hL, hm⟩)
        rw [hn] at this; cases this
      obtain ⟨o, ho, hso⟩ := (selectOptimal_selects (C := delOri M) (p := p) (x := x) (D := D) h0').2 h
      refine ⟨o, ?_, hso⟩
      exact chosen_skip (fun L hL hv => hall L hL ⟨hv.1.1, hv.2⟩) (chosen_skip (fun L hL hv => hall L hL ⟨hv.1.1, hv.2⟩) (chosen_skip hall ho))

/-! ## Orientable literals -/

private theorem scanOri_best {better : Int → Int → Bool} {v : Int → Int} (hb : ∀ a b, better a b = true ↔ v b < v a) : ∀ (Ls : List FLit) (i : Nat) (sw : Int) (o : Bool) (s : Option Nat),
    (scanOri better Ls i sw o s = s ∧ ∀ K ∈ Ls, IsNeg K → (K.oriented = true → o = true) ∧ (K.oriented = o → v (stdWt K) ≤ v sw)) ∨
    (∃ j L, scanOri better Ls i sw o s = some (i + j) ∧ Ls[j]? = some L ∧ IsNeg L ∧ (o = true → L.oriented = true) ∧
      (L.oriented = o → v sw < v (stdWt L)) ∧ ∀ K ∈ Ls, IsNeg K → (K.oriented = true → L.oriented = true) ∧ (K.oriented = L.oriented → v (stdWt K) ≤ v (stdWt L))) := by
  intro Ls
  induction Ls with
  | nil => intro i sw o s; exact .inl ⟨rfl, fun K hK => by cases hK⟩
  | cons L Ls ih =>
    intro i sw o s
    rw [scanOri]
    split
    · rename_i hc
      right
      simp only [neg, Bool.and_eq_true, Bool.not_eq_true', Bool.or_eq_true, hb] at hc
      obtain ⟨hn, hc⟩ := hc
      have hoL : (o = true → L.oriented = true) ∧ (L.oriented = o → v sw < v (stdWt L)) := by
        rcases hc with ⟨h1, h2⟩ | ⟨⟨h1, h2⟩ | ⟨h1, h2⟩, h3⟩ <;> simp_all
      rcases ih (i + 1) (stdWt L) L.oriented (some i) with ⟨e, hall⟩ | ⟨j, M, e, hj, hMn, hM1, hM2, hall⟩
      · refine ⟨0, L, by rw [e]; simp, rfl, hn, hoL.1, hoL.2, ?_⟩
        intro K hK hKn
        rcases List.mem_cons.1 hK with rfl | hK
        · exact ⟨id, fun _ => le_refl _⟩
        · exact hall K hK hKn
      · refine ⟨j + 1, M, by rw [e]; congr 1; omega, hj, hMn, fun h => hM1 (hoL.1 h), ?_, ?_⟩
        · intro h
          cases hLo : L.oriented with
          | true =>
            have h3 := hM1 hLo
            have h4 := hM2 (h3.trans hLo.symm)
            have h5 := hoL.2 (hLo.trans (h3.symm.trans h))
            omega
          | false =>
            cases ho : o with
            | true => have := hoL.1 ho; rw [hLo] at this; cases this
            | false =>
              rw [ho] at h
              have h4 := hM2 (h.trans hLo.symm)
              have h5 := hoL.2 (hLo.trans ho.symm)
              omega
        · intro K hK hKn
          rcases List.mem_cons.1 hK with rfl | hK
          · exact ⟨hM1, fun h => (hM2 h.symm).le⟩
          · exact hall K hK hKn
    · rename_i hc
      simp only [neg, Bool.and_eq_true, Bool.not_eq_true', Bool.or_eq_true, hb, not_and, not_or] at hc
      have hL : IsNeg L → (L.oriented = true → o = true) ∧ (L.oriented = o → v (stdWt L) ≤ v sw) := by
        intro hn
        obtain ⟨h1, h2⟩ := hc hn
        cases hLo : L.oriented <;> cases ho : o <;> simp_all
      rcases ih (i + 1) sw o s with ⟨e, hall⟩ | ⟨j, M, e, hj, hMn, hM1, hM2, hall⟩
      · refine .inl ⟨e, fun K hK hKn => ?_⟩
        rcases List.mem_cons.1 hK with rfl | hK
        · exact hL hKn
        · exact hall K hK hKn
      · refine .inr ⟨j + 1, M, by rw [e]; congr 1; omega, hj, hMn, hM1, hM2, fun K hK hKn => ?_⟩
        rcases List.mem_cons.1 hK with rfl | hK
        · refine ⟨fun h => hM1 ((hL hKn).1 h), fun h => ?_⟩
          cases hMo : M.oriented <;> cases ho : o <;> simp_all <;> omega
        · exact hall K hK hKn

/-- **C73.** (P)SelectLargestOrientable and (P)SelectSmallestOrientable, with the marked clause: orientable literals before others, then the largest or
smallest one. -/
theorem orientable_selects {p : Bool} {x : SelCtx} {C D : SCl} (h0 : ∀ L ∈ C.lits, L.selected = false) (hs : ∀ L ∈ C.lits, SmallLit L) :
    (selectLargestOri p x C = some D → Selects (condMark x C).lits D.lits [(fun L => IsNeg L ∧ L.oriented = true, symWt 1 2), (IsNeg, symWt 1 2)]) ∧
    (selectSmallestOri p x C = some D →
      Selects (condMark x C).lits D.lits [(fun L => IsNeg L ∧ L.oriented = true, fun L => - symWt 1 2 L), (IsNeg, fun L => - symWt 1 2 L)]) := by
  have h0' := mark0 (x := x) h0
  have hs' := mark_small (x := x) hs
  have key : ∀ (better : Int → Int → Bool) (v : Int → Int) (sw : Int), (∀ a b, better a b = true ↔ v b < v a) →
      (∀ L ∈ (condMark x C).lits, v sw < v (stdWt L)) →
      (selMust p (scanOri better (condMark x C).lits 0 sw false none) (condMark x C)).map delOri = some D →
      Selects (condMark x C).lits D.lits [(fun L => IsNeg L ∧ L.oriented = true, fun L => v (symWt 1 2 L)), (IsNeg, fun L => v (symWt 1 2 L))] := by
    intro better v sw hb hsw h
    generalize condMark x C = M at *
    unfold selMust at h
    rw [Option.map_map] at h
    obtain ⟨i, hi, rfl⟩ := Option.map_eq_some_iff.1 h
    refine ⟨some i, ?_, only_set h0' i p⟩
    rcases scanOri_best hb M.lits 0 sw false none with ⟨e, -⟩ | ⟨j, L, e, hj, hn, -, -, hall⟩
    · rw [e] at hi; cases hi
    · rw [e] at hi
      simp only [Nat.zero_add, Option.some.injEq] at hi
      subst hi
      by_cases ho : L.oriented = true
      · exact .inl ⟨⟨L, List.mem_of_getElem? hj, hn, ho⟩, j, rfl, L, hj, ⟨hn, ho⟩, fun K hK hK' => (hall K hK hK'.1).2 (hK'.2.trans ho.symm)⟩
      · have hno : ∀ K ∈ M.lits, IsNeg K → K.oriented = false := by
          intro K hK hKn
          cases hKo : K.oriented with
          | false => rfl
          | true => exact absurd ((hall K hK hKn).1 hKo) ho
        refine .inr ⟨?_, .inl ⟨⟨L, List.mem_of_getElem? hj, hn⟩, j, rfl, L, hj, hn, fun K hK hKn => (hall K hK hKn).2 ?_⟩⟩
        · rintro ⟨K, hK, hKn, hKo⟩
          rw [hno K hK hKn] at hKo; cases hKo
        · rw [hno K hK hKn, hno L (List.mem_of_getElem? hj) hn]
  constructor
  · intro h
    exact key _ id 0 (by simp) (fun L _ => stdWt_pos L) h
  · intro h
    exact key _ (fun a => - a) longMax (by simp) (fun L hL => by have := (hs' L hL).std; show - longMax < - stdWt L; omega) h

/-! ## Guards -/

private theorem breaks_iff : ∀ (Ls : List FLit) (found : Bool), breaks Ls found = false ↔
    (∀ L ∈ Ls, L.maximal = true → L.lit.pos = true) ∧ maxCount Ls + (if found then 1 else 0) ≤ 1 ∨
    (∀ L ∈ Ls, L.maximal = false) := by
  intro Ls
  induction Ls with
  | nil => intro found; simp [breaks]
  | cons L Ls ih =>
    intro found
    rw [breaks]
    cases hm : L.maximal with
    | false =>
      simp only [Bool.false_eq_true, if_false, ih, maxCount, List.filter_cons, hm, List.mem_cons, forall_eq_or_imp, false_imp_iff, true_and]
    | true =>
      simp only [if_true, List.mem_cons, forall_eq_or_imp, hm, true_imp_iff, Bool.true_eq_false, false_and, or_false]
      cases hp : L.lit.pos with
      | false => simp
      | true =>
        cases found with
        | true => simp [maxCount, List.filter_cons, hm]
        | false =>
          simp only [Bool.not_true, Bool.false_eq_true, if_false, true_and, ih, maxCount, List.filter_cons, hm, if_true, List.length_cons, add_zero]
          constructor
          · rintro (⟨h1, h2⟩ | h)
            · exact ⟨h1, by omega⟩
            · refine ⟨fun K hK hKm => ?_, ?_⟩
              · rw [h K hK] at hKm; cases hKm
              · rw [List.filter_eq_nil_iff.2 (fun K hK => by simp [h K hK])]; simp
          · rintro ⟨h1, h2⟩
            refine .inl ⟨h1, by omega⟩

/-- What SelectOptimalLit chooses. -/
abbrev optimal : List ((FLit → Prop) × (FLit → Int)) := [(GroundNeg, diffSpec), (IsNeg, diffSpec)]

private theorem unless_cases {t : SCl → Bool} {p : Bool} {x : SelCtx} {C D : SCl} (h0 : ∀ L ∈ C.lits, L.selected = false)
    (h : unlessMax t (selectOptimal p) x C = some D) :
    (t (condMark x C) = false → SelectsOnly D.lits none) ∧ (t (condMark x C) = true → Selects (condMark x C).lits D.lits optimal) := by
  have h0' := mark0 (x := x) h0
  unfold unlessMax at h
  simp only at h
  generalize condMark x C = M at *
  constructor
  · intro ht
    rw [ht] at h
    cases h
    exact only_none h0'
  · intro ht
    rw [ht] at h
    obtain ⟨E, hE, rfl⟩ := Option.map_eq_some_iff.1 h
    exact (selectOptimal_selects (D := E) h0').1 hE

/-- **C73.** The strategies (P)SelectUnless..., with the marked clause: nothing is selected if there is at most one maximal literal, if a maximal literal is positive,
if exactly one maximal literal is positive, if there is no maximal literal but one positive one; otherwise the choice is that of SelectOptimalLit. -/
theorem unless_selects {p : Bool} {x : SelCtx} {C D : SCl} (h0 : ∀ L ∈ C.lits, L.selected = false) {s : String} {f : SelFun}
    (hf : (s, f) ∈ [("UniqMax", unlessMax (fun C => decide (maxNo C > 1)) (selectOptimal p)), ("PosMax", unlessMax (fun C => decide (maxPosNo C = 0)) (selectOptimal p)),
      ("UniqPosMax", unlessMax (fun C => decide (maxPosNo C ≠ 1)) (selectOptimal p)), ("UniqMaxPos", unlessMax (fun C => breaks C.lits false) (selectOptimal p))])
    (h : f x C = some D) :
    let M := (condMark x C).lits
    let quiet := (s = "UniqMax" ∧ maxCount M ≤ 1) ∨ (s = "PosMax" ∧ ∃ L ∈ M, L.maximal = true ∧ L.lit.pos = true) ∨
      (s = "UniqPosMax" ∧ maxPosCount M = 1) ∨ (s = "UniqMaxPos" ∧ maxCount M ≤ 1 ∧ ∀ L ∈ M, L.maximal = true → L.lit.pos = true)
    (quiet → SelectsOnly D.lits none) ∧ (¬ quiet → Selects M D.lits optimal) := by
  intro M quiet
  have hc : maxNo (condMark x C) = maxCount M := List.countP_eq_length_filter ..
  have hc' : maxPosNo (condMark x C) = maxPosCount M := List.countP_eq_length_filter ..
  simp only [List.mem_cons, List.not_mem_nil, or_false, Prod.mk.injEq] at hf
  rcases hf with ⟨rfl, rfl⟩ | ⟨rfl, rfl⟩ | ⟨rfl, rfl⟩ | ⟨rfl, rfl⟩
  · obtain ⟨h1, h2⟩ := unless_cases h0 h
    have hq : quiet ↔ maxCount M ≤ 1 := by simp [quiet]
    rw [hq]
    exact ⟨fun hq => h1 (by simp [hc, hq]), fun hq => h2 (by rw [hc]; simpa using hq)⟩
  · obtain ⟨h1, h2⟩ := unless_cases h0 h
    have hq : quiet ↔ maxPosCount M ≠ 0 := by
      simp [quiet, maxPosCount]
    rw [hq]
    exact ⟨fun hq => h1 (by simp [hc', hq]), fun hq => h2 (by rw [hc']; simpa using hq)⟩
  · obtain ⟨h1, h2⟩ := unless_cases h0 h
    have hq : quiet ↔ maxPosCount M = 1 := by simp [quiet]
    rw [hq]
    exact ⟨fun hq => h1 (by simp [hc', hq]), fun hq => h2 (by rw [hc']; simpa using hq)⟩
  · obtain ⟨h1, h2⟩ := unless_cases h0 h
    have hq : quiet ↔ breaks M false = false := by
      rw [breaks_iff]
      simp only [quiet, Bool.false_eq_true, if_false, add_zero]
      constructor
      · rintro (⟨h, -⟩ | ⟨h, -⟩ | ⟨h, -⟩ | ⟨-, h1, h2⟩)
        · simp at h
        · simp at h
        · simp at h
        · exact .inl ⟨h2, h1⟩
      · rintro (⟨h1, h2⟩ | h)
        · exact .inr (.inr (.inr ⟨by simp, h2, h1⟩))
        · refine .inr (.inr (.inr ⟨by simp, ?_, fun K hK hKm => ?_⟩))
          · unfold maxCount
            rw [List.filter_eq_nil_iff.2 (fun K hK => by simp [h K hK])]; simp
          · rw [h K hK] at hKm; cases hKm
    rw [hq]
    exact ⟨fun hq => h1 hq, fun hq => h2 (by simpa using hq)⟩

/-- Number of positive literals. -/
def posCount (C : List FLit) : Nat := (C.filter (·.lit.pos)).length

private theorem mark_pos {x : SelCtx} {C : SCl} : posCount (condMark x C).lits = posCount C.lits := by
  have key : ∀ {A B : List FLit}, Rel x A B → posCount B = posCount A := by
    intro A B h
    induction h with
    | nil => rfl
    | cons h1 _ ih =>
      unfold posCount at ih ⊢
      rw [List.filter_cons, List.filter_cons, h1.pos]
      split
      · rw [List.length_cons, List.length_cons, ih]
      · exact ih
  unfold condMark
  split
  · rfl
  · exact key (Rel.refl x _).mark

private theorem horn_iff {C : SCl} : isHorn C = true ↔ posCount C.lits ≤ 1 := by
  unfold isHorn posCount
  rw [decide_eq_true_eq, List.countP_eq_length_filter]

/-- **C73.** (P)SelectComplexExceptUniqMaxHorn, (P)SelectComplexExceptUniqMaxPosHorn: nothing is selected in a Horn clause with a unique maximal literal, which for the
second one must be positive; otherwise the choice is that of SelectComplex. -/
theorem exceptHorn_selects {p d q : Bool} {x : SelCtx} {C D : SCl} (h0 : ∀ L ∈ C.lits, L.selected = false) (hs : ∀ L ∈ C.lits, SmallLit L)
    {t : SCl → Bool} (ht : t = if q then fun C => decide (maxNo C = 1) && decide (maxPosNo C = 1) else fun C => decide (maxNo C = 1))
    (h : exceptHorn d t (selectComplex p) x C = some D) :
    let quiet := posCount C.lits ≤ 1 ∧ maxCount (condMark x C).lits = 1 ∧ (q = true → maxPosCount (condMark x C).lits = 1)
    (quiet → SelectsOnly D.lits none) ∧
    (¬ quiet → Selects (if posCount C.lits ≤ 1 then condMark x C else C).lits D.lits [(VarNeg, neverW), (GroundNeg, fun L => - symWt 1 2 L), (IsNeg, diffSpec)]) := by
  intro quiet
  have hc : maxNo (condMark x C) = maxCount (condMark x C).lits := List.countP_eq_length_filter ..
  have hc' : maxPosNo (condMark x C) = maxPosCount (condMark x C).lits := List.countP_eq_length_filter ..
  unfold exceptHorn at h
  simp only at h
  have hlits : ∀ {E : SCl}, (if d then delOri E else E).lits = E.lits := by intro E; cases d <;> rfl
  by_cases hh : posCount C.lits ≤ 1
  · have hh1 : isHorn C = true := horn_iff.2 hh
    have hh2 : isHorn (condMark x C) = true := horn_iff.2 (by rw [mark_pos]; exact hh)
    rw [if_pos hh1, hh2] at h
    rw [if_pos hh]
    have hq : quiet ↔ t (condMark x C) = true := by
      rw [ht]
      cases q <;> simp [quiet, hc, hc', hh]
    rw [hq]
    constructor
    · intro hq'
      rw [hq'] at h
      simp only [Bool.and_true, if_true, Option.some.injEq] at h
      subst h
      exact only_none (mark0 h0)
    · intro hq'
      rw [Bool.not_eq_true] at hq'
      rw [hq'] at h
      simp only [Bool.and_false, Bool.false_eq_true, if_false] at h
      obtain ⟨E, hE, rfl⟩ := Option.map_eq_some_iff.1 h
      rw [hlits]
      exact (selectComplex_selects (mark0 h0) (mark_small hs)).1 hE
  · have hh1 : isHorn C = false := by rw [← Bool.not_eq_true, horn_iff]; exact hh
    rw [hh1] at h
    simp only [Bool.false_eq_true, if_false, hh1, Bool.false_and] at h
    obtain ⟨E, hE, rfl⟩ := Option.map_eq_some_iff.1 h
    refine ⟨fun hq => absurd hq.1 hh, fun _ => ?_⟩
    rw [hlits, if_neg hh]
    exact (selectComplex_selects h0 hs).1 hE

/-- The literals have atoms with the same predicate symbol, or are both equations. -/
def SamePred (K L : FLit) : Prop := predCode K = predCode L

/-- **C73.** Select...UnlessPDom: nothing is selected if a negative literal has the predicate of a positive maximal one; otherwise the choice is that of the
strategy named, on the marked clause. -/
theorem unlessPDom_selects {f : SelFun} {x : SelCtx} {C D : SCl} (h0 : ∀ L ∈ C.lits, L.selected = false) (h : unlessPDom f x C = some D) :
    let quiet := ∃ L ∈ (condMark x C).lits, IsNeg L ∧ ∃ K ∈ (condMark x C).lits, K.lit.pos = true ∧ K.maximal = true ∧ SamePred K L
    (quiet → SelectsOnly D.lits none) ∧ (¬ quiet → f x (condMark x C) = some D) := by
  intro quiet
  unfold unlessPDom at h
  simp only at h
  have hq : quiet ↔ ((condMark x C).lits.any fun L => neg L && ((condMark x C).lits.any fun K => K.lit.pos && K.maximal && predCode K == predCode L)) = true := by
    simp only [quiet, List.any_eq_true, Bool.and_eq_true, beq_iff_eq, neg_iff, SamePred, and_assoc]
  rw [hq]
  constructor
  · intro hq'
    rw [if_pos hq'] at h
    simp only [Option.some.injEq] at h
    subst h
    exact only_none (mark0 h0)
  · intro hq'
    rwa [if_neg hq'] at h

/-- **C73.** SelectVGNonCR: a literal between variables, or a smallest ground one; otherwise nothing if the only maximal literal is positive, and the choice of
`new_complex_notp_ahp_ns` if not. -/
theorem selectVGNonCR_selects {x : SelCtx} {C D : SCl} (h0 : ∀ L ∈ C.lits, L.selected = false) (hs : ∀ L ∈ C.lits, SmallLit L) (h : selectVGNonCR x C = some D) :
    ((∃ L ∈ C.lits, VarNeg L) → Selects C.lits D.lits [(VarNeg, neverW)]) ∧
    ((¬ ∃ L ∈ C.lits, VarNeg L) → (∃ L ∈ (condMark x C).lits, GroundNeg L) → Selects (condMark x C).lits D.lits [(GroundNeg, fun L => - symWt 1 2 L)]) ∧
    ((¬ ∃ L ∈ C.lits, VarNeg L) → (¬ ∃ L ∈ (condMark x C).lits, GroundNeg L) →
      (maxCount (condMark x C).lits = 1 ∧ maxPosCount (condMark x C).lits = 1 → SelectsOnly D.lits none) ∧
      (¬ (maxCount (condMark x C).lits = 1 ∧ maxPosCount (condMark x C).lits = 1) → generic false true "new_complex_notp_ahp_ns" x (condMark x C) = some D)) := by
  have hc : maxNo (condMark x C) = maxCount (condMark x C).lits := List.countP_eq_length_filter ..
  have hc' : maxPosNo (condMark x C) = maxPosCount (condMark x C).lits := List.countP_eq_length_filter ..
  have hw : ∀ L ∈ (condMark x C).lits, stdWt L < longMax := fun L hL => (mark_small (x := x) hs L hL).std
  have hfirst := stage_first (C := C) (ss := []) (o := none) varNeg_iff rfl
  have hground := stage_min (C := condMark x C) (ss := []) (o := none) (w := stdWt) (w' := fun L => - symWt 1 2 L) groundNeg_iff (fun L => rfl) hw rfl
  have h0' := mark0 (x := x) h0
  unfold selectVGNonCR findPureVar findSmallestGround at h
  cases hf : findFirst (fun L => neg L && isPureVar L) C with
  | some i =>
    rw [hf] at h hfirst
    simp only [Option.some.injEq] at h hfirst
    subst h
    have hex : ∃ L ∈ C.lits, VarNeg L := by
      rcases hfirst with ⟨h, -⟩ | ⟨-, h⟩
      · exact h
      · cases h
    exact ⟨fun _ => ⟨some i, hfirst, only_set h0 i false⟩, fun h => absurd hex h, fun h => absurd hex h⟩
  | none =>
    rw [hf] at h hfirst
    simp only at h hfirst
    have hno : ¬ ∃ L ∈ C.lits, VarNeg L := by
      rcases hfirst with ⟨-, i, h, -⟩ | ⟨h, -⟩
      · cases h
      · exact h
    refine ⟨fun h => absurd h hno, fun _ => ?_, fun _ => ?_⟩
    · intro hex
      cases hg : findMin (fun L => neg L && isGround L) stdWt (condMark x C) with
      | some i =>
        rw [hg] at h hground
        simp only [Option.some.injEq] at h hground
        subst h
        exact ⟨some i, hground, only_set h0' i false⟩
      | none =>
        rw [hg] at hground
        rcases hground with ⟨-, i, h, -⟩ | ⟨h, -⟩
        · cases h
        · exact absurd hex h
    · intro hex
      cases hg : findMin (fun L => neg L && isGround L) stdWt (condMark x C) with
      | some i =>
        rw [hg] at hground
        rcases hground with ⟨h, -⟩ | ⟨-, h⟩
        · exact absurd h hex
        · cases h
      | none =>
        rw [hg] at h
        simp only [hc, hc'] at h
        constructor
        · intro hm
          rw [if_pos hm] at h
          simp only [Option.some.injEq] at h
          subst h
          exact only_none h0'
        · intro hm
          rwa [if_neg hm] at h

/-! ## Example -/

/-- `¬ q(x) ∨ ¬ q(a) ∨ ¬ q(b)`: a ground literal is chosen. -/
example : ∃ (C : SCl) (x : SelCtx) (D : SCl), (∀ L ∈ C.lits, L.selected = false) ∧ (∀ L ∈ C.lits, SmallLit L) ∧ selectComplex false x C = some D ∧
    D.lits.map (·.selected) = [false, true, false] := by
  refine ⟨⟨[{ lit := ⟨false, .app 5 [.var 0], tTrue⟩ }, { lit := ⟨false, .app 5 [.app 3 []], tTrue⟩ }, { lit := ⟨false, .app 5 [.app 4 []], tTrue⟩ }], false⟩,
    ⟨fun _ _ => .equal, fun _ _ => .equal, fun _ => false, fun _ => false, fun _ => false, fun _ => 0, fun _ => false, fun _ => false, fun _ => false,
      fun _ _ _ => ⟨false, 0, 0, 0⟩⟩, _, by simp, ?_, rfl, by decide +kernel⟩
  simp [SmallLit, longMax, Term.weight, Term.weightL, tTrue]

end Verif.Props
