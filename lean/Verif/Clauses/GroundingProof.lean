import Verif.Clauses.Grounding
import Verif.Clauses.OverlapIterProof
import Verif.Clauses.Sem

/-!
# Grounding of near-propositional clause sets: proofs
-/

namespace Verif
namespace Ground
open OverlapIter

/-! ## Enumeration of the instances -/

/-- The states of the counter, in the order in which they are visited. -/
def states : List VCell → List (List VCell)
  | [] => [[]]
  | c :: cs => (states cs).flatMap fun q => (List.range c.alts.length).reverse.map fun i => { c with pos := i } :: q

theorem block_chain (c : VCell) (q : List VCell) (m : Nat) :
    ChainTo vNext ((List.range m).reverse.map fun i => ({ c with pos := i } : VCell) :: q) (vNext ({ c with pos := 0 } :: q)) := by
  induction m with
  | zero => trivial
  | succ m ih =>
    rw [List.range_succ, List.reverse_append, List.reverse_singleton, List.singleton_append, List.map_cons]
    refine ⟨?_, ih⟩
    cases m with
    | zero => simp
    | succ m =>
      rw [List.range_succ, List.reverse_append]
      simp [vNext]

theorem states_chain (cs : List VCell) : ChainTo vNext (states cs) none ∧ (states cs).head? = vInit cs := by
  induction cs with
  | nil => exact ⟨⟨rfl, trivial⟩, rfl⟩
  | cons c cs ih =>
    by_cases h0 : c.alts.length = 0
    · have : states (c :: cs) = [] := by simp [states, h0]
      rw [this]
      exact ⟨trivial, by simp [vInit, h0]⟩
    · have hh : ∀ q : List VCell, ((List.range c.alts.length).reverse.map fun i => ({ c with pos := i } : VCell) :: q).head? = some ({ c with pos := c.alts.length - 1 } :: q) := by
        intro q
        obtain ⟨n, hn⟩ : ∃ n, c.alts.length = n + 1 := ⟨c.alts.length - 1, by omega⟩
        rw [hn, List.range_succ, List.reverse_append]
        simp
      have := chain_flatMap (next' := vNext) (blk := fun q => (List.range c.alts.length).reverse.map fun i => ({ c with pos := i } : VCell) :: q)
        (enter := fun q => some ({ c with pos := c.alts.length - 1 } :: q)) ih.1 (fun q _ => hh q) (fun _ _ => rfl) ?_
      · refine ⟨this.1, ?_⟩
        rw [states, this.2, ih.2, vInit, if_neg h0]
        cases vInit cs <;> rfl
      · intro q _
        have h := block_chain c q c.alts.length
        have he : vNext (({ c with pos := 0 } : VCell) :: q) = (vNext q).bind fun q => some ({ c with pos := c.alts.length - 1 } :: q) := by
          simp only [vNext, ne_eq, not_true_eq_false, if_false]
          cases vNext q <;> rfl
        rwa [he] at h

theorem states_alts {cs : List VCell} {q : List VCell} (h : q ∈ states cs) : ∀ x ∈ cs.map VCell.var, ∃ c ∈ cs, c.var = x ∧ vApply q x ∈ c.alts := by
  induction cs generalizing q with
  | nil => simp
  | cons c cs ih =>
    simp only [states, List.mem_flatMap, List.mem_map, List.mem_reverse, List.mem_range] at h
    obtain ⟨q', hq', i, hi, rfl⟩ := h
    intro x hx
    simp only [vApply]
    by_cases hxc : x = c.var
    · refine ⟨c, .head _, hxc.symm, ?_⟩
      rw [if_pos hxc]
      rw [List.getD_eq_getElem?_getD, List.getElem?_eq_getElem hi, Option.getD_some]
      exact List.getElem_mem hi
    · rw [if_neg hxc]
      simp only [List.map_cons, List.mem_cons, hxc, false_or] at hx
      obtain ⟨c', h1, h2⟩ := ih hq' x hx
      exact ⟨c', .tail _ h1, h2⟩

theorem states_all {cs : List VCell} {σ : Nat → Term} (h : ∀ c ∈ cs, σ c.var ∈ c.alts) : ∃ q ∈ states cs, ∀ x ∈ cs.map VCell.var, vApply q x = σ x := by
  induction cs with
  | nil => exact ⟨[], by simp [states], by simp⟩
  | cons c cs ih =>
    obtain ⟨q, hq, hv⟩ := ih fun c hc => h c (.tail _ hc)
    obtain ⟨i, hi, he⟩ := List.mem_iff_getElem.1 (h c (.head _))
    refine ⟨{ c with pos := i } :: q, ?_, ?_⟩
    · simp only [states, List.mem_flatMap, List.mem_map, List.mem_reverse, List.mem_range]
      exact ⟨q, hq, i, hi, rfl⟩
    · intro x hx
      simp only [vApply]
      by_cases hxc : x = c.var
      · rw [if_pos hxc, List.getD_eq_getElem?_getD, List.getElem?_eq_getElem hi, Option.getD_some, he, hxc]
      · rw [if_neg hxc]
        simp only [List.map_cons, List.mem_cons, hxc, false_or] at hx
        exact hv x hx

/-! ## Propositional semantics -/

/-- Truth of a literal under an assignment to the atoms. -/
def LSat (b : Term → Bool) (L : Lit) : Prop := b L.l = L.pos

def CSat (b : Term → Bool) (C : List Lit) : Prop := ∃ L ∈ C, LSat b L

def GSat (b : Term → Bool) (gs : GroundSet) : Prop := (∀ L ∈ gs.units, LSat b L) ∧ ∀ C ∈ gs.nonUnits, CSat b C

/-- Atoms as left sides. -/
def Atomic (C : List Lit) : Prop := ∀ L ∈ C, L.r = tTrue ∧ L.l ≠ tTrue

theorem removeDupAux_sat {b : Term → Bool} {C : List Lit} (hC : Atomic C) : ∀ seen, Atomic seen → (CSat b (removeDupAux seen C ++ seen) ↔ CSat b (C ++ seen)) := by
  induction C with
  | nil => intro seen _; rfl
  | cons L C ih =>
    intro seen hs
    have hC' : Atomic C := fun K hK => hC K (.tail _ hK)
    have hL := hC L (.head _)
    rw [removeDupAux]
    split
    · rename_i h
      rw [ih hC' seen hs]
      rw [List.any_eq_true] at h
      obtain ⟨K, hK, he⟩ := h
      have hK' := hs K hK
      simp only [sameLit, decide_eq_true_eq] at he
      have heq : L.l = K.l := by
        rcases he.2.2 with h | h
        · exact h.1
        · exact absurd (h.1.trans hK'.1) hL.2
      constructor
      · rintro ⟨M, hM, ht⟩
        exact ⟨M, .tail _ hM, ht⟩
      · rintro ⟨M, hM, ht⟩
        rcases List.mem_cons.1 hM with rfl | hM
        · refine ⟨K, List.mem_append_right _ hK, ?_⟩
          unfold LSat at ht ⊢
          rw [← heq, ht, he.1]
        · exact ⟨M, hM, ht⟩
    · have := ih hC' (L :: seen) (by
        intro K hK
        rcases List.mem_cons.1 hK with rfl | hK
        · exact hL
        · exact hs K hK)
      have e1 : CSat b (L :: removeDupAux (L :: seen) C ++ seen) ↔ CSat b (removeDupAux (L :: seen) C ++ L :: seen) := by
        simp only [CSat, List.cons_append, List.mem_cons, List.mem_append]
        constructor
        · rintro ⟨M, h | h | h, ht⟩ <;> exact ⟨M, by tauto, ht⟩
        · rintro ⟨M, h | h | h, ht⟩ <;> exact ⟨M, by tauto, ht⟩
      have e2 : CSat b (L :: C ++ seen) ↔ CSat b (C ++ L :: seen) := by
        simp only [CSat, List.cons_append, List.mem_cons, List.mem_append]
        constructor
        · rintro ⟨M, h | h | h, ht⟩ <;> exact ⟨M, by tauto, ht⟩
        · rintro ⟨M, h | h | h, ht⟩ <;> exact ⟨M, by tauto, ht⟩
      rw [e1, e2]
      exact this

theorem removeDup_sat {b : Term → Bool} {C : List Lit} (hC : Atomic C) : CSat b (removeDup C) ↔ CSat b C := by
  have := removeDupAux_sat (b := b) hC [] (by intro L hL; simp at hL)
  simpa [removeDup] using this

theorem removeDup_mem {C : List Lit} : ∀ seen, ∀ L ∈ removeDupAux seen C, L ∈ C := by
  induction C with
  | nil => intro seen L h; simp [removeDupAux] at h
  | cons K C ih =>
    intro seen L h
    rw [removeDupAux] at h
    split at h
    · exact .tail _ (ih _ L h)
    · rcases List.mem_cons.1 h with rfl | h
      · exact .head _
      · exact .tail _ (ih _ L h)

theorem removeDup_atomic {C : List Lit} (hC : Atomic C) : Atomic (removeDup C) := fun L hL => hC L (removeDup_mem [] L hL)

theorem trivial_sat {b : Term → Bool} {C : List Lit} (hC : Atomic C) (h : listIsTrivial C = true) : CSat b C := by
  induction C with
  | nil => simp [listIsTrivial] at h
  | cons L C ih =>
    simp only [listIsTrivial, Bool.or_eq_true, List.any_eq_true, Bool.and_eq_true, bne_iff_ne, eqnEqual, decide_eq_true_eq] at h
    rcases h with ⟨K, hK, hp, he⟩ | h
    · have heq : K.l = L.l := by
        rcases he with he | he
        · exact he.1
        · exact absurd (he.1.trans (hC L (.head _)).1) (hC K (.tail _ hK)).2
      by_cases hb : b L.l = L.pos
      · exact ⟨L, .head _, hb⟩
      · refine ⟨K, .tail _ hK, ?_⟩
        unfold LSat
        rw [heq]
        cases h1 : b L.l <;> cases h2 : L.pos <;> cases h3 : K.pos <;> simp_all
    · obtain ⟨M, hM, ht⟩ := ih (fun K hK => hC K (.tail _ hK)) h
      exact ⟨M, .tail _ hM, ht⟩

theorem hasUnit_sat {b : Term → Bool} {gs : GroundSet} (hg : GSat b gs) {pos : Bool} {t : Term} (h : hasUnit gs pos t = true) : b t = pos := by
  simp only [hasUnit, List.any_eq_true, decide_eq_true_eq] at h
  obtain ⟨L, hL, h1, h2⟩ := h
  have := hg.1 L hL
  unfold LSat at this
  rw [← h1, ← h2, this]

theorem unitSimp_sat {b : Term → Bool} {gs : GroundSet} (hg : GSat b gs) {s r : Bool} (C : List Lit) :
    (unitSimp gs s r C = none → CSat b C) ∧ ∀ D, unitSimp gs s r C = some D → (CSat b D ↔ CSat b C) := by
  induction C with
  | nil => simp [unitSimp]
  | cons L C ih =>
    rw [unitSimp]
    split
    · rename_i h
      simp only [Bool.and_eq_true] at h
      exact ⟨fun _ => ⟨L, .head _, hasUnit_sat hg h.2⟩, by simp⟩
    · split
      · rename_i h
        simp only [Bool.and_eq_true] at h
        have hf : ¬ LSat b L := by
          unfold LSat
          rw [hasUnit_sat hg h.2]
          simp
        have hiff : CSat b (L :: C) ↔ CSat b C := by
          constructor
          · rintro ⟨M, hM, ht⟩
            rcases List.mem_cons.1 hM with rfl | hM
            · exact absurd ht hf
            · exact ⟨M, hM, ht⟩
          · rintro ⟨M, hM, ht⟩
            exact ⟨M, .tail _ hM, ht⟩
        rw [hiff]
        exact ih
      · constructor
        · intro h
          rw [Option.map_eq_none_iff] at h
          obtain ⟨M, hM, ht⟩ := ih.1 h
          exact ⟨M, .tail _ hM, ht⟩
        · intro D h
          rw [Option.map_eq_some_iff] at h
          obtain ⟨D', h1, rfl⟩ := h
          have := ih.2 D' h1
          constructor
          · rintro ⟨M, hM, ht⟩
            rcases List.mem_cons.1 hM with rfl | hM
            · exact ⟨M, .head _, ht⟩
            · obtain ⟨M', hM', ht'⟩ := this.1 ⟨M, hM, ht⟩
              exact ⟨M', .tail _ hM', ht'⟩
          · rintro ⟨M, hM, ht⟩
            rcases List.mem_cons.1 hM with rfl | hM
            · exact ⟨M, .head _, ht⟩
            · obtain ⟨M', hM', ht'⟩ := this.2 ⟨M, hM, ht⟩
              exact ⟨M', .tail _ hM', ht'⟩

theorem insert_sat {b : Term → Bool} (no : Term → Nat) (gs : GroundSet) (D : List Lit) : GSat b (insert no gs D) ↔ GSat b gs ∧ CSat b D := by
  have hgen : ∀ m, GSat b { gs with nonUnits := gs.nonUnits ++ [D], maxLit := m } ↔ GSat b gs ∧ CSat b D := by
    intro m
    simp only [GSat, List.mem_append, List.mem_singleton]
    constructor
    · rintro ⟨h1, h2⟩
      exact ⟨⟨h1, fun C hC => h2 C (.inl hC)⟩, h2 D (.inr rfl)⟩
    · rintro ⟨⟨h1, h2⟩, h3⟩
      refine ⟨h1, ?_⟩
      rintro C (hC | rfl)
      · exact h2 C hC
      · exact h3
  unfold insert
  split
  · rename_i L
    split
    · rename_i h
      constructor
      · intro hg
        exact ⟨hg, L, .head _, hasUnit_sat hg h⟩
      · exact fun h => h.1
    · simp only [GSat, List.mem_append, List.mem_singleton]
      constructor
      · rintro ⟨h1, h2⟩
        exact ⟨⟨fun K hK => h1 K (.inl hK), h2⟩, L, .head _, h1 L (.inr rfl)⟩
      · rintro ⟨⟨h1, h2⟩, K, hK, ht⟩
        rw [List.mem_singleton] at hK
        subst hK
        refine ⟨?_, h2⟩
        rintro M (hM | rfl)
        · exact h1 M hM
        · exact ht
  · exact hgen _

theorem addInstance_sat {b : Term → Bool} {no : Term → Nat} {o : Opts} {gs : GroundSet} {C : List Lit} (hC : Atomic C) :
    (GSat b (addInstance no o gs C).2 ↔ GSat b gs ∧ CSat b C) ∧ ((addInstance no o gs C).1 = false → ¬ GSat b (addInstance no o gs C).2) := by
  rw [← removeDup_sat (b := b) hC]
  have hD := removeDup_atomic hC
  unfold addInstance
  simp only
  generalize removeDup C = D at hD
  split
  · rename_i h
    simp only [Bool.and_eq_true] at h
    exact ⟨⟨fun hg => ⟨hg, trivial_sat hD h.2⟩, fun h => h.1⟩, by simp⟩
  · cases hu : unitSimp gs o.subsume o.resolve D with
    | none => exact ⟨⟨fun hg => ⟨hg, (unitSimp_sat hg D).1 hu⟩, fun h => h.1⟩, by simp⟩
    | some E =>
      cases E with
      | nil =>
        have hf : ¬ GSat b (insert no { gs with units := [], nonUnits := [] } []) := by
          rw [insert_sat]
          rintro ⟨_, L, hL, _⟩
          simp at hL
        refine ⟨⟨fun h => absurd h hf, ?_⟩, fun _ => hf⟩
        rintro ⟨hg, hs⟩
        obtain ⟨L, hL, _⟩ := ((unitSimp_sat hg D).2 [] hu).2 hs
        simp at hL
      | cons L E =>
        refine ⟨?_, by simp⟩
        show GSat b (insert no gs (L :: E)) ↔ _
        rw [insert_sat]
        constructor
        · rintro ⟨hg, hs⟩
          exact ⟨hg, ((unitSimp_sat hg D).2 _ hu).1 hs⟩
        · rintro ⟨hg, hs⟩
          exact ⟨hg, ((unitSimp_sat hg D).2 _ hu).2 hs⟩

/-! ## The loops -/

/-- The loop over a given list of states. -/
def runAll (no : Term → Nat) (o : Opts) (C : List Lit) : List (List VCell) → GroundSet → Bool × GroundSet
  | [], gs => (true, gs)
  | q :: l, gs => let r := addInstance no o gs (csubst (vApply q) C); if r.1 then runAll no o C l r.2 else r

theorem instLoop_eq {no : Term → Nat} {o : Opts} {C : List Lit} {l : List (List VCell)} : ∀ {k : Nat} {gs : GroundSet}, ChainTo vNext l none → l.length ≤ k →
    instLoop no o C k l.head? gs = some (runAll no o C l gs) := by
  induction l with
  | nil => intro k gs _ _; cases k <;> rfl
  | cons q l ih =>
    intro k gs h hk
    cases k with
    | zero => simp at hk
    | succ k =>
      have h1 := h.1
      rw [Option.or_none] at h1
      simp only [List.head?_cons, instLoop, runAll, h1]
      split
      · exact ih h.2 (by simpa using hk)
      · rfl

theorem runAll_sat {b : Term → Bool} {no : Term → Nat} {o : Opts} {C : List Lit} : ∀ {l : List (List VCell)} {gs : GroundSet}, (∀ q ∈ l, Atomic (csubst (vApply q) C)) →
    (GSat b (runAll no o C l gs).2 ↔ GSat b gs ∧ ∀ q ∈ l, CSat b (csubst (vApply q) C)) ∧ ((runAll no o C l gs).1 = false → ¬ GSat b (runAll no o C l gs).2) := by
  intro l
  induction l with
  | nil => intro gs _; simp [runAll]
  | cons q l ih =>
    intro gs ha
    have h1 := addInstance_sat (b := b) (no := no) (o := o) (gs := gs) (ha q (.head _))
    simp only [runAll]
    generalize addInstance no o gs (csubst (vApply q) C) = r at h1
    obtain ⟨ok, gs'⟩ := r
    cases ok with
    | true =>
      have h2 := ih (gs := gs') fun q hq => ha q (.tail _ hq)
      refine ⟨?_, h2.2⟩
      simp only [if_true]
      rw [h2.1, h1.1, and_assoc, List.forall_mem_cons]
    | false =>
      have hf := h1.2 rfl
      refine ⟨?_, fun _ => hf⟩
      simp only [Bool.false_eq_true, if_false, List.forall_mem_cons]
      constructor
      · intro h; exact absurd h hf
      · rintro ⟨h, h', _⟩
        exact h1.1.2 ⟨h, h'⟩

/-- Everything the loops produce for a list of clauses. -/
def runSet (no : Term → Nat) (o : Opts) (S : List (List Lit)) (cs : List Term) (vs : List Lit → List Nat) : List (List Lit) → GroundSet → Bool × GroundSet
  | [], gs => (true, gs)
  | C :: Cs, gs => let r := runAll no o C (states (varCells o S cs vs C)) gs; if r.1 then runSet no o S cs vs Cs r.2 else r

theorem setInstances_eq {no : Term → Nat} {o : Opts} {S : List (List Lit)} {cs : List Term} {vs : List Lit → List Nat} {k : Nat} {Cs : List (List Lit)} :
    ∀ {gs : GroundSet}, (∀ C ∈ Cs, (states (varCells o S cs vs C)).length ≤ k) → setInstances k no o S cs vs Cs gs = some (runSet no o S cs vs Cs gs) := by
  induction Cs with
  | nil => intro gs _; rfl
  | cons C Cs ih =>
    intro gs hk
    have hc := states_chain (varCells o S cs vs C)
    simp only [setInstances, clauseInstances, ← hc.2, instLoop_eq hc.1 (hk C (.head _)), runSet]
    generalize runAll no o C (states (varCells o S cs vs C)) gs = r
    obtain ⟨ok, gs'⟩ := r
    cases ok with
    | true => exact ih fun C hC => hk C (.tail _ hC)
    | false => rfl

theorem runSet_sat {b : Term → Bool} {no : Term → Nat} {o : Opts} {S : List (List Lit)} {cs : List Term} {vs : List Lit → List Nat} {Cs : List (List Lit)} :
    ∀ {gs : GroundSet}, (∀ C ∈ Cs, ∀ q, Atomic (csubst (vApply q) C)) →
    (GSat b (runSet no o S cs vs Cs gs).2 ↔ GSat b gs ∧ ∀ C ∈ Cs, ∀ q ∈ states (varCells o S cs vs C), CSat b (csubst (vApply q) C)) ∧
    ((runSet no o S cs vs Cs gs).1 = false → ¬ GSat b (runSet no o S cs vs Cs gs).2) := by
  induction Cs with
  | nil => intro gs _; simp [runSet]
  | cons C Cs ih =>
    intro gs ha
    have h1 := runAll_sat (b := b) (no := no) (o := o) (gs := gs) (C := C) (l := states (varCells o S cs vs C)) fun q _ => ha C (.head _) q
    simp only [runSet]
    generalize runAll no o C (states (varCells o S cs vs C)) gs = r at h1
    obtain ⟨ok, gs'⟩ := r
    cases ok with
    | true =>
      have h2 := ih (gs := gs') fun C hC => ha C (.tail _ hC)
      refine ⟨?_, h2.2⟩
      simp only [if_true]
      rw [h2.1, h1.1, and_assoc, List.forall_mem_cons]
    | false =>
      have hf := h1.2 rfl
      refine ⟨?_, fun _ => hf⟩
      simp only [Bool.false_eq_true, if_false, List.forall_mem_cons]
      constructor
      · intro h; exact absurd h hf
      · rintro ⟨h, h', _⟩
        exact h1.1.2 ⟨h, h'⟩

/-! ## Constraints -/

theorem addConstraint_same {tab : OccTable} {p i : Nat} {t : Term} :
    addConstraint tab p i t p i = if t.isVar then (false, (tab p i).2) else ((tab p i).1, t :: (tab p i).2) := by
  simp [addConstraint]

/-- What a table says about a position, given the terms that occur there. -/
def TabOK (occ : Nat → Nat → Term → Prop) (tab : OccTable) : Prop :=
  ∀ p i, ((tab p i).1 = true → ∀ t, occ p i t → t.isVar = false) ∧ ∀ t, occ p i t → t.isVar = false → t ∈ (tab p i).2

theorem addConstraint_ok {occ : Nat → Nat → Term → Prop} {tab : OccTable} (h : TabOK occ tab) (p i : Nat) (t : Term) :
    TabOK (fun p' i' u => occ p' i' u ∨ (p' = p ∧ i' = i ∧ u = t)) (addConstraint tab p i t) := by
  intro p' i'
  unfold addConstraint
  by_cases hpi : p' = p ∧ i' = i
  · rw [if_pos hpi]
    cases hv : t.isVar with
    | true =>
      refine ⟨by simp, ?_⟩
      rintro u (hu | ⟨_, _, rfl⟩) huv
      · exact (h p' i').2 u hu huv
      · rw [hv] at huv; simp at huv
    | false =>
      refine ⟨?_, ?_⟩
      · rintro h1 u (hu | ⟨_, _, rfl⟩)
        · exact (h p' i').1 h1 u hu
        · exact hv
      · rintro u (hu | ⟨_, _, rfl⟩) huv
        · exact .tail _ ((h p' i').2 u hu huv)
        · exact .head _
  · rw [if_neg hpi]
    refine ⟨?_, ?_⟩
    · rintro h1 u (hu | ⟨h2, h3, _⟩)
      · exact (h p' i').1 h1 u hu
      · exact absurd ⟨h2, h3⟩ hpi
    · rintro u (hu | ⟨h2, h3, _⟩) huv
      · exact (h p' i').2 u hu huv
      · exact absurd ⟨h2, h3⟩ hpi

theorem TabOK.mono {occ occ' : Nat → Nat → Term → Prop} {tab : OccTable} (h : TabOK occ tab) (hm : ∀ p i t, occ' p i t → occ p i t) : TabOK occ' tab :=
  fun p i => ⟨fun h1 t ht => (h p i).1 h1 t (hm _ _ _ ht), fun t ht => (h p i).2 t (hm _ _ _ ht)⟩

theorem addArgs_ok {p : Nat} {ts : List Term} : ∀ {occ : Nat → Nat → Term → Prop} {tab : OccTable} {i : Nat}, TabOK occ tab →
    TabOK (fun p' i' u => occ p' i' u ∨ (p' = p ∧ ∃ j, i' = i + j ∧ ts[j]? = some u)) (addArgs p ts i tab) := by
  induction ts with
  | nil =>
    intro occ tab i h
    refine h.mono ?_
    rintro p' i' t (ht | ⟨_, j, _, hj⟩)
    · exact ht
    · simp at hj
  | cons t ts ih =>
    intro occ tab i h
    refine (ih (addConstraint_ok h p i t)).mono ?_
    rintro p' i' u (hu | ⟨rfl, j, rfl, hj⟩)
    · exact .inl (.inl hu)
    · cases j with
      | zero => exact .inl (.inr ⟨rfl, rfl, by simpa using hj.symm⟩)
      | succ j => exact .inr ⟨rfl, j, by omega, by simpa using hj⟩

theorem occClause_ok {sign : Bool} {C : List Lit} : ∀ {occ : Nat → Nat → Term → Prop} {tab : OccTable}, TabOK occ tab →
    TabOK (fun p i u => occ p i u ∨ ∃ L ∈ C, L.pos = sign ∧ atomPred L.l = p ∧ (atomArgs L.l)[i]? = some u)
      (C.foldl (fun tab L => if L.pos = sign then addArgs (atomPred L.l) (atomArgs L.l) 0 tab else tab) tab) := by
  induction C with
  | nil => intro occ tab h; exact h.mono (by rintro p i t (ht | ⟨L, hL, _⟩); exacts [ht, by simp at hL])
  | cons K C ih =>
    intro occ tab h
    rw [List.foldl_cons]
    by_cases hs : K.pos = sign
    · rw [if_pos hs]
      refine (ih (addArgs_ok h)).mono ?_
      rintro p i u (hu | ⟨L, hL, h1, h2, h3⟩)
      · exact .inl (.inl hu)
      · rcases List.mem_cons.1 hL with rfl | hL
        · exact .inl (.inr ⟨h2.symm, i, by omega, h3⟩)
        · exact .inr ⟨L, hL, h1, h2, h3⟩
    · rw [if_neg hs]
      refine (ih h).mono ?_
      rintro p i u (hu | ⟨L, hL, h1, h2, h3⟩)
      · exact .inl hu
      · rcases List.mem_cons.1 hL with rfl | hL
        · exact absurd h1 hs
        · exact .inr ⟨L, hL, h1, h2, h3⟩

theorem occTable_ok (sign : Bool) (S : List (List Lit)) : TabOK (fun p i u => ∃ C ∈ S, ∃ L ∈ C, L.pos = sign ∧ atomPred L.l = p ∧ (atomArgs L.l)[i]? = some u) (occTable sign S) := by
  have key : ∀ (S : List (List Lit)) (occ : Nat → Nat → Term → Prop) (tab : OccTable), TabOK occ tab →
      TabOK (fun p i u => occ p i u ∨ ∃ C ∈ S, ∃ L ∈ C, L.pos = sign ∧ atomPred L.l = p ∧ (atomArgs L.l)[i]? = some u)
        (S.foldl (fun tab C => C.foldl (fun tab L => if L.pos = sign then addArgs (atomPred L.l) (atomArgs L.l) 0 tab else tab) tab) tab) := by
    intro S
    induction S with
    | nil => intro occ tab h; exact h.mono (by rintro p i t (ht | ⟨C, hC, _⟩); exacts [ht, by simp at hC])
    | cons D S ih =>
      intro occ tab h
      rw [List.foldl_cons]
      refine (ih _ _ (occClause_ok h)).mono ?_
      rintro p i u (hu | ⟨C, hC, hr⟩)
      · exact .inl (.inl hu)
      · rcases List.mem_cons.1 hC with rfl | hC
        · exact .inl (.inr hr)
        · exact .inr ⟨C, hC, hr⟩
  exact (key S (fun _ _ _ => False) _ (by intro p i; simp)).mono fun p i t h => .inr h

theorem constrArgs_mem {tab : OccTable} {p : Nat} {ts : List Term} : ∀ {i : Nat} {vc : Nat → List Term} {x : Nat} {t : Term}, t ∈ constrArgs tab p ts i vc x ↔
    t ∈ vc x ∧ ∀ j, ts[j]? = some (.var x) → (tab p (i + j)).1 = true → t ∈ (tab p (i + j)).2 := by
  induction ts with
  | nil => intro i vc x t; simp [constrArgs]
  | cons u ts ih =>
    intro i vc x t
    have hshift : ∀ (Q : Nat → Prop), (∀ j, Q j) ↔ Q 0 ∧ ∀ j, Q (j + 1) := fun Q => ⟨fun h => ⟨h 0, fun j => h _⟩, fun h j => by cases j; exacts [h.1, h.2 _]⟩
    cases u with
    | app f us =>
      rw [constrArgs, ih, hshift fun j => (Term.app f us :: ts)[j]? = some (.var x) → (tab p (i + j)).1 = true → t ∈ (tab p (i + j)).2]
      simp only [List.getElem?_cons_zero, List.getElem?_cons_succ, Option.some.injEq, reduceCtorEq, false_implies, true_and]
      simp only [show ∀ j, i + 1 + j = i + (j + 1) by intro j; omega]
    | var y =>
      rw [constrArgs, ih, hshift fun j => (Term.var y :: ts)[j]? = some (.var x) → (tab p (i + j)).1 = true → t ∈ (tab p (i + j)).2]
      simp only [List.getElem?_cons_zero, List.getElem?_cons_succ, Option.some.injEq, Term.var.injEq, Nat.add_zero]
      simp only [show ∀ j, i + 1 + j = i + (j + 1) by intro j; omega]
      rw [← and_assoc]
      refine and_congr_left fun _ => ?_
      cases hc : (tab p i).1 with
      | false => simp
      | true =>
        by_cases hxy : x = y
        · simp [hxy]
        · simp [hxy, Ne.symm hxy]

theorem clauseConstr_mem {S : List (List Lit)} {cs : List Term} {C : List Lit} {x : Nat} {t : Term} : t ∈ clauseConstr S cs C x ↔
    t ∈ cs ∧ ∀ L ∈ C, ∀ j, (atomArgs L.l)[j]? = some (.var x) → (occTable (!L.pos) S (atomPred L.l) j).1 = true → t ∈ (occTable (!L.pos) S (atomPred L.l) j).2 := by
  have key : ∀ (C : List Lit) (vc : Nat → List Term), t ∈ C.foldl (fun vc L => constrArgs (occTable (!L.pos) S) (atomPred L.l) (atomArgs L.l) 0 vc) vc x ↔
      t ∈ vc x ∧ ∀ L ∈ C, ∀ j, (atomArgs L.l)[j]? = some (.var x) → (occTable (!L.pos) S (atomPred L.l) j).1 = true → t ∈ (occTable (!L.pos) S (atomPred L.l) j).2 := by
    intro C
    induction C with
    | nil => intro vc; simp
    | cons L C ih =>
      intro vc
      rw [List.foldl_cons, ih, constrArgs_mem, List.forall_mem_cons, and_assoc]
      simp only [Nat.zero_add]
  exact key C _

end Ground
end Verif
