import Verif.Clauses.SatCheck
import Verif.Clauses.InferProof

/-!
# C47–C49: propositional check, choice of grounding constants, decomposition of disequations
-/

namespace Verif.Props
open Verif Term SemProof

universe u

/-- The assignment makes the propositional literal true (a negative number is the negation of the atom). -/
def PLitTrue (α : Nat → Prop) (l : Int) : Prop := if l > 0 then α l.natAbs else ¬ α l.natAbs

/-- The assignment satisfies all propositional clauses. -/
def PropSat (α : Nat → Prop) (Cs : List SatClause) : Prop := ∀ C ∈ Cs, ∃ l ∈ C.lits, PLitTrue α l

/-- Two literals have the same atom under the grounding: the same equation up to its direction, or the same
predicate atom. -/
def SameAtom (σ : Nat → Term) (L K : Lit) : Prop :=
  (L.equ = true ∧ K.equ = true ∧ ((L.l.subst σ = K.l.subst σ ∧ L.r.subst σ = K.r.subst σ) ∨
    (L.l.subst σ = K.r.subst σ ∧ L.r.subst σ = K.l.subst σ))) ∨
  (L.equ = false ∧ K.equ = false ∧ L.l.subst σ = K.l.subst σ)

/-- No predicate atom is itself an encoded equation (`$eq` does not occur in first-order problems). -/
def NoEqAtom (eqc : Nat) (σ : Nat → Term) (Cs : List (List Lit)) : Prop :=
  ∀ C ∈ Cs, ∀ L ∈ C, L.equ = false → ∀ ts, L.l.subst σ ≠ .app eqc ts

namespace Sat
variable {ad : Term → Nat} {eqc : Nat} {σ : Nat → Term}

theorem pair_iff (had : Function.Injective ad) (a b c d : Term) :
    (if ad a > ad b then Term.app eqc [a, b] else .app eqc [b, a]) = (if ad c > ad d then .app eqc [c, d] else .app eqc [d, c]) ↔
      (a = c ∧ b = d) ∨ (a = d ∧ b = c) := by
  have h1 : ad a = ad b → a = b := fun h => had h
  have h2 : ad c = ad d → c = d := fun h => had h
  split <;> split <;> simp only [app.injEq, true_and, List.cons.injEq, and_true] <;> grind

theorem key_iff (had : Function.Injective ad) {L K : Lit} (hL : L.equ = false → ∀ ts, L.l.subst σ ≠ .app eqc ts)
    (hK : K.equ = false → ∀ ts, K.l.subst σ ≠ .app eqc ts) :
    satKey ad eqc σ L = satKey ad eqc σ K ↔ SameAtom σ L K := by
  unfold satKey SameAtom
  cases hl : L.equ <;> cases hk : K.equ
  · simp
  · have := hL hl
    simp only [Bool.false_eq_true, if_false, if_true, false_and, and_false, true_and, Bool.true_eq_false, or_self, iff_false]
    split <;> simpa using this _
  · have := hK hk
    simp only [Bool.false_eq_true, if_false, if_true, false_and, and_false, Bool.true_eq_false, or_self, iff_false]
    split <;> exact fun h => this _ (Eq.symm h)
  · simp only [if_true, true_and, Bool.true_eq_false, false_and, or_false]
    exact pair_iff had _ _ _ _

/-- The propositional literal for `L`. -/
def Codes (ad : Term → Nat) (eqc : Nat) (σ : Nat → Term) (ix : List (Term × Nat)) (L : Lit) (l : Int) : Prop :=
  ∃ a : Nat, ix.lookup (satKey ad eqc σ L) = some a ∧ l = if L.pos then (a : Int) else -(a : Int)

structure Inv (ad : Term → Nat) (eqc : Nat) (σ : Nat → Term) (s : SatSet) : Prop where
  range : ∀ t a, s.index.lookup t = some a → 1 ≤ a ∧ a ≤ s.max
  inj : ∀ t u a, s.index.lookup t = some a → s.index.lookup u = some a → t = u
  codes : ∀ C ∈ s.set, List.Forall₂ (Codes ad eqc σ s.index) C.source C.lits

def Ext (s s' : SatSet) : Prop := ∀ t a, s.index.lookup t = some a → s'.index.lookup t = some a

theorem Ext.refl (s : SatSet) : Ext s s := fun _ _ h => h
theorem Ext.trans {s t u : SatSet} (h : Ext s t) (h' : Ext t u) : Ext s u := fun x a hx => h' x a (h x a hx)

theorem codes_mono {s s' : SatSet} (h : Ext s s') {L : Lit} {l : Int} (hc : Codes ad eqc σ s.index L l) :
    Codes ad eqc σ s'.index L l := let ⟨a, h1, h2⟩ := hc; ⟨a, h _ _ h1, h2⟩

theorem literal_ok {s : SatSet} (hi : Inv ad eqc σ s) (L : Lit) :
    Inv ad eqc σ (satLiteral ad eqc σ s L).1 ∧ Ext s (satLiteral ad eqc σ s L).1 ∧
    (satLiteral ad eqc σ s L).1.set = s.set ∧ (satLiteral ad eqc σ s L).1.limit = s.limit ∧
    Codes ad eqc σ (satLiteral ad eqc σ s L).1.index L (satLiteral ad eqc σ s L).2 := by
  unfold satLiteral
  cases hk : s.index.lookup (satKey ad eqc σ L) with
  | some a => exact ⟨hi, .refl s, rfl, rfl, a, hk, rfl⟩
  | none =>
    simp only
    have hext : Ext s { s with index := (satKey ad eqc σ L, s.max + 1) :: s.index, max := s.max + 1 } := by
      intro t a h
      simp only [List.lookup_cons]
      split
      · rename_i heq
        rw [beq_iff_eq] at heq
        subst heq
        rw [hk] at h
        cases h
      · exact h
    refine ⟨⟨?_, ?_, fun C hC => (hi.codes C hC).imp fun L l h => codes_mono hext h⟩, hext, trivial, trivial, s.max + 1, by simp, rfl⟩
    · intro t a h
      rw [List.lookup_cons] at h
      split at h
      · cases h; simp
      · have := hi.range t a h; simp only; omega
    · intro t u a h h'
      rw [List.lookup_cons] at h h'
      split at h <;> split at h'
      · rename_i h1 _ h2
        rw [beq_iff_eq] at h1 h2
        rw [h1, h2]
      · cases h
        have := hi.range u _ h'
        omega
      · cases h'
        have := hi.range t _ h
        omega
      · exact hi.inj t u a h h'

theorem literals_ok (C : List Lit) : ∀ {s : SatSet}, Inv ad eqc σ s →
    Inv ad eqc σ (satLiterals ad eqc σ s C).1 ∧ Ext s (satLiterals ad eqc σ s C).1 ∧
    (satLiterals ad eqc σ s C).1.set = s.set ∧ (satLiterals ad eqc σ s C).1.limit = s.limit ∧
    List.Forall₂ (Codes ad eqc σ (satLiterals ad eqc σ s C).1.index) C (satLiterals ad eqc σ s C).2 := by
  induction C with
  | nil => exact fun hi => ⟨hi, .refl _, rfl, rfl, .nil⟩
  | cons L C ih =>
    intro s hi
    obtain ⟨h1, h2, h3, h4, h5⟩ := literal_ok hi L
    obtain ⟨k1, k2, k3, k4, k5⟩ := ih h1
    exact ⟨k1, h2.trans k2, k3.trans h3, k4.trans h4, .cons (codes_mono k2 h5) k5⟩

theorem store_ok {s s' : SatSet} {C : List Lit} (hi : Inv ad eqc σ s) (h : satStore ad eqc σ s C = some s') :
    Inv ad eqc σ s' ∧ s'.set.map (·.source) = s.set.map (·.source) ++ [C] ∧ s'.limit = s.limit := by
  unfold satStore at h
  split at h
  · cases h
  · cases h
    obtain ⟨h1, h2, h3, h4, h5⟩ := literals_ok C hi
    refine ⟨⟨h1.range, h1.inj, fun D hD => ?_⟩, by simp [h3], h4⟩
    rcases List.mem_append.1 hD with hD | hD
    · exact h1.codes D hD
    · simp at hD; subst hD; exact h5

theorem import_ok (Cs : List (List Lit)) : ∀ {s : SatSet}, Inv ad eqc σ s →
    Inv ad eqc σ (satImport ad eqc σ s Cs) ∧ (satImport ad eqc σ s Cs).limit = s.limit ∧
    ∃ P, P <+: Cs ∧ (satImport ad eqc σ s Cs).set.map (·.source) = s.set.map (·.source) ++ P ∧
      (s.limit = none → P = Cs) := by
  induction Cs with
  | nil => exact fun hi => ⟨hi, rfl, [], by simp, by simp [satImport], fun _ => rfl⟩
  | cons C Cs ih =>
    intro s hi
    rw [satImport]
    cases h : satStore ad eqc σ s C with
    | none =>
      refine ⟨hi, rfl, [], by simp, by simp, fun hl => ?_⟩
      simp [satStore, hl] at h
    | some s' =>
      obtain ⟨h1, h2, h3⟩ := store_ok hi h
      obtain ⟨k1, k2, P, k3, k4, k5⟩ := ih h1
      refine ⟨k1, k2.trans h3, C :: P, by simpa using k3, by simp [k4, h2], fun hl => by rw [k5 (h3.trans hl)]⟩

theorem importState_ok (sets : List (List (List Lit))) : ∀ {s : SatSet}, Inv ad eqc σ s →
    Inv ad eqc σ (satImportState ad eqc σ s sets) ∧
    (∀ D ∈ (satImportState ad eqc σ s sets).set, D.source ∈ s.set.map (·.source) ∨ D.source ∈ sets.flatten) ∧
    (s.limit = none → (satImportState ad eqc σ s sets).set.map (·.source) = s.set.map (·.source) ++ sets.flatten) := by
  induction sets with
  | nil => exact fun hi => ⟨hi, fun D hD => .inl (List.mem_map_of_mem hD), fun _ => by simp [satImportState]⟩
  | cons Cs sets ih =>
    intro s hi
    obtain ⟨h1, h2, P, h3, h4, h5⟩ := import_ok Cs hi
    obtain ⟨k1, k2, k3⟩ := ih h1
    have e : satImportState ad eqc σ s (Cs :: sets) = satImportState ad eqc σ (satImport ad eqc σ s Cs) sets := rfl
    rw [e]
    refine ⟨k1, fun D hD => ?_, fun hl => ?_⟩
    · rcases k2 D hD with h | h
      · rw [h4] at h
        rcases List.mem_append.1 h with h | h
        · exact .inl h
        · exact .inr (by simp only [List.flatten_cons, List.mem_append]; exact .inl (h3.subset h))
      · exact .inr (by simp only [List.flatten_cons, List.mem_append]; exact .inr h)
    · rw [k3 (h2.trans hl), h4, h5 hl]; simp

theorem empty_inv (limit : Option Nat) : Inv ad eqc σ (.empty limit) :=
  ⟨by simp [SatSet.empty], by simp [SatSet.empty], by simp [SatSet.empty]⟩

end Sat
open Sat

variable {ad : Term → Nat} {eqc : Nat} {σ : Nat → Term}

/-- **C47**, encoding: without a size limit every clause of the sets is translated, in order, literal by literal; two literals get
the same propositional atom exactly if they have the same atom under the grounding, and the sign is kept. -/
theorem satcheck_encoding (had : Function.Injective ad) (sets : List (List (List Lit))) (hno : NoEqAtom eqc σ sets.flatten) :
    (satImportState ad eqc σ (.empty none) sets).set.map (·.source) = sets.flatten ∧
    ∀ C ∈ (satImportState ad eqc σ (.empty none) sets).set, ∀ D ∈ (satImportState ad eqc σ (.empty none) sets).set,
      C.lits.length = C.source.length ∧
      ∀ (i j : Nat) (L K : Lit) (l k : Int), C.source[i]? = some L → D.source[j]? = some K → C.lits[i]? = some l → D.lits[j]? = some k →
        (l > 0 ↔ L.pos = true) ∧ l ≠ 0 ∧ (l.natAbs = k.natAbs ↔ SameAtom σ L K) := by
  obtain ⟨h1, h2, h3⟩ := importState_ok (ad := ad) (eqc := eqc) (σ := σ) sets (empty_inv none)
  refine ⟨by simpa [SatSet.empty] using h3 rfl, fun C hC D hD => ?_⟩
  have hc := h1.codes C hC
  have hd := h1.codes D hD
  refine ⟨hc.length_eq.symm, fun i j L K l k hL hK hl hk => ?_⟩
  have get : ∀ {C : SatClause} {i : Nat} {L : Lit} {l : Int},
      List.Forall₂ (Codes ad eqc σ (satImportState ad eqc σ (.empty none) sets).index) C.source C.lits →
      C.source[i]? = some L → C.lits[i]? = some l →
      Codes ad eqc σ (satImportState ad eqc σ (.empty none) sets).index L l := by
    intro C i L l h hL hl
    obtain ⟨hi, rfl⟩ := List.getElem?_eq_some_iff.1 hL
    obtain ⟨hj, rfl⟩ := List.getElem?_eq_some_iff.1 hl
    exact (List.forall₂_iff_get.1 h).2 i hi hj
  obtain ⟨a, ha, rfl⟩ := get hc hL hl
  obtain ⟨b, hb, rfl⟩ := get hd hK hk
  have ra := h1.range _ _ ha
  have rb := h1.range _ _ hb
  have src : ∀ C ∈ (satImportState ad eqc σ (.empty none) sets).set, C.source ∈ sets.flatten := by
    intro C hC
    rcases h2 C hC with h | h
    · simp [SatSet.empty] at h
    · exact h
  have key := key_iff had (hno _ (src C hC) L (List.mem_of_getElem? hL)) (hno _ (src D hD) K (List.mem_of_getElem? hK))
  refine ⟨by cases L.pos <;> simp <;> omega, by cases L.pos <;> (simp; omega), ?_⟩
  rw [← key]
  have e : (if L.pos then (a : Int) else -(a : Int)).natAbs = a := by cases L.pos <;> simp
  have e' : (if K.pos then (b : Int) else -(b : Int)).natAbs = b := by cases K.pos <;> simp
  rw [e, e']
  constructor
  · rintro rfl; exact h1.inj _ _ _ ha hb
  · intro h; rw [h, hb] at ha; exact (Option.some.inj ha).symm

/-- **C47**, soundness: if no assignment satisfies the clauses of the core reported by the solver — a part of what was exported — then the
first-order clauses they come from, which are members of the processed and unprocessed sets and are recorded as parents of the
empty clause, have no model. -/
theorem satcheck_sound {sg : Sig} (hσ : sg.WTSubst σ) (limit : Option Nat) (sets : List (List (List Lit)))
    (hno : NoEqAtom eqc σ sets.flatten) {core : List SatClause} (hcore : ∀ C ∈ core, C ∈ satProblem ad eqc σ limit sets)
    (hun : ∀ α, ¬ PropSat α core) :
    (∀ C ∈ core, C.source ∈ sets.flatten) ∧ Entails.{u} sg (core.map (·.source)) [] := by
  obtain ⟨h1, h2, -⟩ := importState_ok (ad := ad) (eqc := eqc) (σ := σ) sets (empty_inv limit)
  generalize hs : satImportState ad eqc σ (.empty limit) sets = s at h1 h2
  have hc : ∀ C ∈ core, ∃ D ∈ s.set, D.lits = C.lits ∧ D.source = C.source := by
    intro C hC
    have := hcore C hC
    simp only [satProblem, exported, markPure, hs, List.mem_filter, List.mem_map] at this
    obtain ⟨⟨D, hD, rfl⟩, -⟩ := this
    exact ⟨D, hD, rfl, rfl⟩
  have src : ∀ C ∈ core, C.source ∈ sets.flatten := by
    intro C hC
    obtain ⟨D, hD, -, he⟩ := hc C hC
    rcases h2 D hD with h | h
    · simp [SatSet.empty] at h
    · rwa [he] at h
  refine ⟨src, fun I hI => ?_⟩
  exfalso
  choose v hv using I.inhab
  have hv' : I.Sorted fun x => v (sg.vty x) := fun x => hv _
  generalize (fun x => v (sg.vty x)) = v at hv'
  have hw := sorted_subst I hv' hσ
  -- the assignment read off the model
  let tr : Term → Prop := fun t => (∃ l r, t = .app eqc [l, r] ∧ I.eval v l = I.eval v r) ∨
    ((∀ ts, t ≠ .app eqc ts) ∧ I.eval v t = I.eval v tTrue)
  refine hun (fun a => ∃ t, s.index.lookup t = some a ∧ tr t) fun C hC => ?_
  obtain ⟨D, hD, e1, e2⟩ := hc C hC
  obtain ⟨L, hL, hLt⟩ := hI C.source (List.mem_map_of_mem hC) _ hw
  have hfa := h1.codes D hD
  rw [e1, e2] at hfa
  obtain ⟨i, hi, rfl⟩ := List.mem_iff_getElem.1 hL
  have hlen := hfa.length_eq
  have hco := (List.forall₂_iff_get.1 hfa).2 i hi (by omega)
  simp only [List.get_eq_getElem] at hco
  refine ⟨C.lits[i], List.getElem_mem _, ?_⟩
  generalize C.lits[i] = l at hco
  generalize C.source[i] = L at hco hL hLt
  obtain ⟨a, ha, rfl⟩ := hco
  have ra := h1.range _ _ ha
  have hkey : tr (satKey ad eqc σ L) ↔ I.eval (fun x => I.eval v (σ x)) L.l = I.eval (fun x => I.eval v (σ x)) L.r := by
    rw [← eval_subst, ← eval_subst]
    simp only [tr, satKey]
    cases hequ : L.equ with
    | false =>
      have hr : L.r = tTrue := by simpa [Lit.equ] using hequ
      have hne := hno _ (src C hC) L hL hequ
      have ht : (tTrue).subst σ = tTrue := by simp [tTrue, subst_app]
      simp only [Bool.false_eq_true, if_false, hr, ht]
      constructor
      · rintro (⟨l, r, h, -⟩ | h)
        · exact absurd h (hne _)
        · exact h.2
      · exact fun h => .inr ⟨hne, h⟩
    | true =>
      simp only [if_true]
      split <;> simp [eq_comm]
  have huniq : (∃ t, s.index.lookup t = some a ∧ tr t) ↔ tr (satKey ad eqc σ L) :=
    ⟨fun ⟨t, ht, h⟩ => by rwa [h1.inj _ _ _ ht ha] at h, fun h => ⟨_, ha, h⟩⟩
  unfold PLitTrue
  unfold Interp.LitTrue at hLt
  cases hp : L.pos with
  | true =>
    simp only [hp, if_true] at hLt ⊢
    rw [if_pos (by omega)]
    simpa [huniq, hkey] using hLt
  | false =>
    simp only [hp, Bool.false_eq_true, if_false] at hLt ⊢
    rw [if_neg (by omega)]
    simp only [Int.natAbs_neg, Int.natAbs_natCast, huniq, hkey]
    exact hLt

/-- **C47**, as used by `SATCheck`: an unsatisfiable propositional problem means that the clauses of the proof state are
unsatisfiable. -/
theorem satcheck_unsat {sg : Sig} (hσ : sg.WTSubst σ) (limit : Option Nat) (sets : List (List (List Lit)))
    (hno : NoEqAtom eqc σ sets.flatten) (hun : ∀ α, ¬ PropSat α (satProblem ad eqc σ limit sets)) :
    Entails.{u} sg sets.flatten [] := by
  obtain ⟨h1, h2⟩ := satcheck_sound.{u} hσ limit sets hno (fun _ h => h) hun
  intro I hI
  refine h2 I fun C hC => ?_
  obtain ⟨D, hD, rfl⟩ := List.mem_map.1 hC
  exact hI _ (h1 D hD)

/-- **C47**, pure literals: leaving out the clauses with pure literals does not change the answer of the solver. -/
theorem satcheck_pure (s : SatSet) :
    (∃ α, PropSat α (exported (markPure s))) ↔ ∃ α, PropSat α s.set := by
  have hex : ∀ C, C ∈ exported (markPure s) ↔ ∃ D ∈ s.set, checkPure (litState s.set) D = false ∧ C = { D with pure := false } := by
    intro C
    simp only [exported, markPure, List.mem_filter, List.mem_map, Bool.not_eq_true']
    constructor
    · rintro ⟨⟨D, hD, rfl⟩, h⟩
      exact ⟨D, hD, h, by simp only at h; rw [h]⟩
    · rintro ⟨D, hD, h, rfl⟩
      exact ⟨⟨D, hD, by rw [h]⟩, rfl⟩
  constructor
  · rintro ⟨α, hα⟩
    -- pure atoms are set as they occur
    refine ⟨fun a => if litState s.set a = (true, true) then α a else (litState s.set a).1 = true, fun C hC => ?_⟩
    have occ : ∀ l ∈ C.lits, (0 < l → (litState s.set l.natAbs).1 = true) ∧ (¬ 0 < l → (litState s.set l.natAbs).2 = true) := by
      intro l hl
      simp only [litState, List.any_eq_true, decide_eq_true_eq]
      exact ⟨fun h => ⟨C, hC, l, hl, h, by omega⟩, fun h => ⟨C, hC, l, hl, h, by omega⟩⟩
    cases hp : checkPure (litState s.set) C with
    | true =>
      simp only [checkPure, List.any_eq_true, decide_eq_true_eq] at hp
      obtain ⟨l, hl, hne⟩ := hp
      refine ⟨l, hl, ?_⟩
      have := occ l hl
      unfold PLitTrue
      split
      · rename_i h
        simp only
        rw [if_neg hne]
        exact this.1 h
      · rename_i h
        simp only
        rw [if_neg hne]
        intro h1
        exact hne (Prod.ext h1 (this.2 h))
    | false =>
      obtain ⟨l, hl, h⟩ := hα _ ((hex _).2 ⟨C, hC, hp, rfl⟩)
      refine ⟨l, hl, ?_⟩
      have he : litState s.set l.natAbs = (true, true) := by
        simp only [checkPure, List.any_eq_false, decide_eq_true_eq, not_not] at hp
        exact hp l hl
      unfold PLitTrue at h ⊢
      simp only [he, if_true]
      exact h
  · rintro ⟨α, hα⟩
    refine ⟨α, fun C hC => ?_⟩
    obtain ⟨D, hD, -, rfl⟩ := (hex C).1 hC
    exact hα D hD

/-- The grounding substitutions are well-typed if the term chosen for a sort has that sort. -/
theorem satcheck_ground_typed {sg : Sig} {norm : Nat → Term} (h : ∀ ty, sg.WT (norm ty) ∧ sg.ty (norm ty) = ty) :
    sg.WTSubst (groundSubst sg norm) := fun _ => ⟨(h _).2, (h _).1⟩

/-! ### Choice of the constants -/

/-- What the comments of the `prefer_…` functions and of `GroundingStrategy` say: `a` is to be preferred to `b`. -/
def Preferred (g : GStrat) (d : Dist) (a b : Nat) : Prop :=
  match g with
  | .conjMinMin => (d.conj a ≠ 0 ∧ d.conj b = 0) ∨ ((d.conj a = 0 ↔ d.conj b = 0) ∧
      (d.conj a < d.conj b ∨ (d.conj a = d.conj b ∧ d.dist a < d.dist b)))
  | .conjMinMax => (d.conj a ≠ 0 ∧ d.conj b = 0) ∨ ((d.conj a = 0 ↔ d.conj b = 0) ∧
      (d.conj a < d.conj b ∨ (d.conj a = d.conj b ∧ d.dist b < d.dist a)))
  | .conjMaxMin => d.conj b < d.conj a ∨ (d.conj a = d.conj b ∧ d.dist a < d.dist b)
  | .conjMaxMax => d.conj b < d.conj a ∨ (d.conj a = d.conj b ∧ d.dist b < d.dist a)
  | .globalMax => d.dist b < d.dist a
  | .globalMin => d.dist a < d.dist b

namespace Freq

theorem loop_mem (g : GStrat) (cs : List Nat) : ∀ (d : Dist) (f : Nat), freqLoop g d f cs = f ∨ freqLoop g d f cs ∈ cs := by
  induction cs with
  | nil => intro d f; exact .inl rfl
  | cons c cs ih =>
    intro d f
    rw [freqLoop]
    rcases ih (prefer g c f d).2 (if (prefer g c f d).1 then c else f) with h | h
    · rw [h]
      split
      · exact .inr (by simp)
      · exact .inl rfl
    · exact .inr (by simp [h])

theorem loop_best {g : GStrat} {R : Nat → Nat → Prop} (hR : ∀ a b c, ¬ R b a → ¬ R c b → ¬ R c a) (hirr : ∀ a, ¬ R a a)
    {d : Dist} (cs : List Nat) : ∀ f, (∀ a ∈ f :: cs, ∀ b ∈ f :: cs, ((prefer g a b d).1 = true ↔ R a b) ∧ (prefer g a b d).2 = d) →
    (∀ a b, R a b → ¬ R b a) →
    ∀ c ∈ f :: cs, ¬ R c (freqLoop g d f cs) := by
  induction cs with
  | nil => intro f _ _ c hc; simp at hc; subst hc; exact hirr _
  | cons a cs ih =>
    intro f h hasym c hc
    rw [freqLoop]
    obtain ⟨h1, h2⟩ := h a (by simp) f (by simp)
    rw [h2]
    by_cases hp : (prefer g a f d).1 = true
    · rw [if_pos hp]
      have hb := ih a (fun x hx y hy => h x (by simp at hx ⊢; tauto) y (by simp at hy ⊢; tauto)) hasym
      rcases List.mem_cons.1 hc with rfl | hc
      · exact hR _ _ _ (hb a (by simp)) (hasym _ _ (h1.1 hp))
      · exact hb c hc
    · rw [if_neg hp]
      have hb := ih f (fun x hx y hy => h x (by simp at hx ⊢; tauto) y (by simp at hy ⊢; tauto)) hasym
      rcases List.mem_cons.1 hc with rfl | hc
      · exact hb _ (by simp)
      rcases List.mem_cons.1 hc with rfl | hc
      · exact hR _ _ _ (hb f (by simp)) fun hr => hp (h1.2 hr)
      · exact hb c (by simp [hc])

end Freq

/-- **C48**, every strategy: the constant chosen is one of the sort (so the check stays sound). -/
theorem satcheck_choice_mem (g : GStrat) (d : Dist) (cs : List Nat) (f : Nat) (h : freqConst g d cs = some f) : f ∈ cs := by
  cases cs with
  | nil => cases h
  | cons c cs =>
    cases h
    rcases Freq.loop_mem g cs d c with h | h
    · rw [h]; simp
    · simp [h]

/-- **C48**, `GlobalMax` and `GlobalMin`: no constant of the sort is preferred to the one chosen. -/
theorem satcheck_choice_global (g : GStrat) (hg : g = .globalMax ∨ g = .globalMin) (d : Dist) (cs : List Nat) (f : Nat)
    (h : freqConst g d cs = some f) : ∀ c ∈ cs, ¬ Preferred g d c f := by
  cases cs with
  | nil => cases h
  | cons c cs =>
    cases h
    rcases hg with rfl | rfl
    · exact Freq.loop_best (R := Preferred .globalMax d) (by simp only [Preferred]; omega) (by simp only [Preferred]; omega) cs c
        (by simp [prefer, Preferred]) (by simp only [Preferred]; omega)
    · exact Freq.loop_best (R := Preferred .globalMin d) (by simp only [Preferred]; omega) (by simp only [Preferred]; omega) cs c
        (by simp [prefer, Preferred]) (by simp only [Preferred]; omega)

/-- **C48**, the strategies that look at the conjecture, in the only case where the assignment in the comparison changes nothing: all
constants occur in the conjecture, equally often.  Partial: the property claims the choice for all distributions, which
is refuted by `satcheck_choice_conj_wrong`. -/
theorem satcheck_choice_conj_partial (g : GStrat) (d : Dist) (cs : List Nat) (f k : Nat) (hk : k ≠ 0) (hc : ∀ c ∈ cs, d.conj c = k)
    (h : freqConst g d cs = some f) : ∀ c ∈ cs, ¬ Preferred g d c f := by
  have hf := satcheck_choice_mem g d cs f h
  have has : ∀ a ∈ cs, ∀ b ∈ cs, d.assign a b = d := by
    intro a ha b hb
    unfold Dist.assign
    congr 1
    funext x
    split
    · rename_i hx; rw [hx, hc a ha, hc b hb]
    · rfl
  cases cs with
  | nil => cases h
  | cons c cs =>
    cases h
    intro x hx
    have key : ∀ R : Nat → Nat → Prop, (∀ a b c, ¬ R b a → ¬ R c b → ¬ R c a) → (∀ a, ¬ R a a) → (∀ a b, R a b → ¬ R b a) →
        (∀ a ∈ c :: cs, ∀ b ∈ c :: cs, (prefer g a b d).1 = true ↔ R a b) →
        (∀ a ∈ c :: cs, ∀ b ∈ c :: cs, Preferred g d a b ↔ R a b) → ¬ Preferred g d x (freqLoop g d c cs) := by
      intro R h1 h2 h3 h4 h5
      rw [h5 x hx _ hf]
      refine Freq.loop_best h1 h2 cs c (fun a ha b hb => ⟨h4 a ha b hb, ?_⟩) h3 x hx
      have := hc a ha
      have := hc b hb
      cases g <;> simp only [prefer] <;> (try split) <;> (try rfl) <;> (try split) <;> (try rfl) <;> (try split) <;> (try rfl) <;>
        exact has a ha b hb
    cases g with
    | globalMax =>
      exact key (fun a b => d.dist b < d.dist a) (by omega) (by omega) (by omega) (by simp [prefer]) (by simp [Preferred])
    | globalMin =>
      exact key (fun a b => d.dist a < d.dist b) (by omega) (by omega) (by omega) (by simp [prefer]) (by simp [Preferred])
    | conjMinMin =>
      refine key (fun a b => d.dist a < d.dist b) (by omega) (by omega) (by omega) ?_ ?_ <;> intro a ha b hb <;>
        simp [prefer, Preferred, hc a ha, hc b hb, hk]
    | conjMaxMin =>
      refine key (fun a b => d.dist a < d.dist b) (by omega) (by omega) (by omega) ?_ ?_ <;> intro a ha b hb <;>
        simp [prefer, Preferred, hc a ha, hc b hb, hk]
    | conjMinMax =>
      refine key (fun a b => d.dist b < d.dist a) (by omega) (by omega) (by omega) ?_ ?_ <;> intro a ha b hb <;>
        simp [prefer, Preferred, hc a ha, hc b hb, hk]
    | conjMaxMax =>
      refine key (fun a b => d.dist b < d.dist a) (by omega) (by omega) (by omega) ?_ ?_ <;> intro a ha b hb <;>
        simp [prefer, Preferred, hc a ha, hc b hb, hk]

/-- **C48** is false of the code: with each of the four strategies that look at the conjecture a constant is chosen although another one is
preferred.  Constant 11 occurs once in the conjecture, 12 twice. -/
theorem satcheck_choice_conj_wrong :
    (∃ d cs f, freqConst .conjMinMin d cs = some f ∧ ∃ c ∈ cs, Preferred .conjMinMin d c f) ∧
    (∃ d cs f, freqConst .conjMinMax d cs = some f ∧ ∃ c ∈ cs, Preferred .conjMinMax d c f) ∧
    (∃ d cs f, freqConst .conjMaxMin d cs = some f ∧ ∃ c ∈ cs, Preferred .conjMaxMin d c f) ∧
    (∃ d cs f, freqConst .conjMaxMax d cs = some f ∧ ∃ c ∈ cs, Preferred .conjMaxMax d c f) := by
  refine ⟨⟨⟨fun f => f - 10, fun f => 20 - f⟩, [11, 12], 12, rfl, 11, by simp, by simp [Preferred]⟩,
    ⟨⟨fun f => f - 10, fun f => f⟩, [11, 12], 12, rfl, 11, by simp, by simp [Preferred]⟩,
    ⟨⟨fun f => f - 10, fun f => f⟩, [12, 11], 11, rfl, 12, by simp, by simp [Preferred]⟩,
    ⟨⟨fun f => f - 10, fun f => 20 - f⟩, [12, 11], 11, rfl, 12, by simp, by simp [Preferred]⟩⟩

/-! ### Decomposition of disequations -/

/-- **C49**: every clause produced by decomposing a disequation `f(s₁,…,sₙ) ≠ f(t₁,…,tₙ)` follows from the clause and is
well-typed. -/
theorem diseq_sound {sg : Sig} (hsg : SigOK sg) {maxLits maxArity : Nat} {C D : List Lit} (hC : sg.WTClause C)
    (h : D ∈ diseqDecompositions sg maxLits maxArity C) : Entails.{u} sg [C] D ∧ sg.WTClause D := by
  unfold diseqDecompositions at h
  split at h
  swap
  · simp at h
  rw [List.mem_filterMap] at h
  obtain ⟨i, hi, h⟩ := h
  rw [List.mem_range] at hi
  split at h
  swap
  · cases h
  rename_i hcand
  have hget : C[i]? = some C[i] := by simp [hi]
  rw [hget] at hcand
  simp only [Option.map_some, Option.getD_some] at hcand
  have hL := hC _ (List.getElem_mem hi)
  unfold diseqDecompose at h
  rw [hget] at h
  generalize C[i] = L at hcand hL hget h
  obtain ⟨pos, l, r⟩ := L
  cases l with
  | var x => simp [diseqCandidate] at hcand
  | app f ss =>
  cases r with
  | var x => simp [diseqCandidate] at hcand
  | app g ts =>
  simp only [diseqCandidate, Bool.and_eq_true, Bool.not_eq_true', decide_eq_true_eq] at hcand
  obtain ⟨⟨⟨⟨-, hneg⟩, rfl⟩, -⟩, -⟩ := hcand
  subst hneg
  simp only [Option.some.injEq] at h
  subst h
  obtain ⟨w1, w2, -⟩ := hL
  simp only at w1 w2
  rw [Sig.wt_app] at w1 w2
  have hty : ss.map sg.ty = ts.map sg.ty := w1.1.trans w2.1.symm
  have hlen : ss.length = ts.length := by simpa using congrArg List.length hty
  have hpair : ∀ p ∈ ss.zip ts, sg.WTLit ⟨false, p.1, p.2⟩ := by
    intro p hp
    obtain ⟨k, hk, rfl⟩ := List.mem_iff_getElem.1 hp
    rw [List.getElem_zip]
    have hk' : k < ss.length := by simp at hk; omega
    have hk'' : k < ts.length := by omega
    refine ⟨w1.2 _ (List.getElem_mem _), w2.2 _ (List.getElem_mem _), ?_⟩
    have := congrArg (·[k]?) hty
    simpa [hk', hk''] using this
  have hrest : sg.WTClause (C.eraseIdx i) := InferProof.wt_eraseIdx hC i
  constructor
  · intro I hI v hv
    rw [InferProof.finish_true]
    have hc := hI C (by simp) v hv
    rw [InferProof.clauseTrue_erase I v hget] at hc
    rcases hc with hc | hc
    · by_contra hno
      have heq : ss.map (I.eval v) = ts.map (I.eval v) := by
        apply List.ext_getElem (by simpa using hlen)
        intro k hk1 hk2
        simp only [List.length_map] at hk1 hk2
        simp only [List.getElem_map]
        by_contra hne
        apply hno
        have hmem : (ss[k], ts[k]) ∈ ss.zip ts := by
          rw [List.mem_iff_getElem]
          exact ⟨k, by simp; omega, by simp⟩
        refine ⟨mkEqn false ss[k] ts[k], ?_, (mkEqn_true hsg I hv (hpair _ hmem)).2 (by simp [Interp.LitTrue, hne])⟩
        rw [List.mem_append, List.mem_reverse]
        exact .inr (List.mem_map.2 ⟨_, hmem, rfl⟩)
      simp [Interp.LitTrue, eval_app, heq] at hc
    · obtain ⟨K, hK, hKt⟩ := hc
      refine ⟨mkEqn K.pos K.l K.r, ?_, (mkEqn_true hsg I hv (hrest K hK)).2 hKt⟩
      rw [List.mem_append, List.mem_map]
      exact .inl ⟨K, hK, rfl⟩
  · refine InferProof.finish_wt fun K hK => ?_
    rw [List.mem_append, List.mem_reverse, List.mem_map, List.mem_map] at hK
    rcases hK with ⟨K, hK, rfl⟩ | ⟨p, hp, rfl⟩
    · exact mkEqn_wt hsg (hrest K hK)
    · exact mkEqn_wt hsg (hpair p hp)

/-! ### Examples -/

namespace SatEx

private def sig : Sig := ⟨fun _ => 0, fun f => if f = 11 then 0 else 1, fun f => if f = 10 then [0] else if f = 12 then [0, 0] else [], fun _ => false⟩

private def a : Term := .app 11 []
private def p (t : Term) (pos : Bool) : Lit := ⟨pos, .app 10 [t], tTrue⟩
private def gr : Nat → Term := groundSubst sig fun _ => a

/-- `p(a)` processed, `¬p(X) ∨ X ≠ a`, and `Y = a` unprocessed. -/
private def sets : List (List (List Lit)) := [[[p a true]], [[p (.var 1) false, ⟨false, .var 1, a⟩], [⟨true, .var 2, a⟩]]]

private def addr : Term → Nat
  | .app 11 [] => 1
  | _ => 0

/-- The problem the solver sees: atoms 1 (`p(a)`) and 2 (`a = a`). -/
example : (satProblem addr 9 gr none sets).map (·.lits) = [[1], [-1, -2], [2]] := by decide +kernel

/-- It is unsatisfiable, so the hypotheses of `satcheck_unsat` are met. -/
example : sig.WTSubst gr ∧ NoEqAtom 9 gr sets.flatten ∧ ∀ α, ¬ PropSat α (satProblem addr 9 gr none sets) := by
  refine ⟨fun x => ⟨rfl, by simp [gr, groundSubst, a, Sig.wt_app, sig]⟩, ?_, ?_⟩
  · intro C hC L hL he ts
    simp only [sets, List.flatten_cons, List.flatten_nil, List.append_nil, List.cons_append, List.nil_append, List.mem_cons,
      List.not_mem_nil, or_false] at hC
    rcases hC with rfl | rfl | rfl <;> simp only [List.mem_cons, List.not_mem_nil, or_false] at hL
    · subst hL; simp [p, subst_app]
    · rcases hL with rfl | rfl
      · simp [p, subst_app]
      · simp [Lit.equ, a, tTrue] at he
    · subst hL; simp [Lit.equ, a, tTrue] at he
  · intro α h
    have e : satProblem addr 9 gr none sets =
        [⟨[1], [p a true], false⟩, ⟨[-1, -2], [p (.var 1) false, ⟨false, .var 1, a⟩], false⟩, ⟨[2], [⟨true, .var 2, a⟩], false⟩] := by
      decide +kernel
    rw [e] at h
    simp [PropSat, PLitTrue] at h
    tauto

/-- A clause with a pure literal is not exported. -/
example : (satProblem addr 9 gr none [[[p a true]], [[p (.var 1) true, ⟨false, .var 1, a⟩]]]).map (·.lits) = [] := by decide +kernel

/-- A disequation is decomposed. -/
example : diseqDecompositions sig 3 5 [⟨false, .app 12 [.var 1, a], .app 12 [a, .var 2]⟩, p a true] =
    [[p a true, ⟨false, a, .var 2⟩, ⟨false, .var 1, a⟩]] := by decide +kernel

/-- A choice among constants that are equally frequent in the conjecture. -/
example : freqConst .conjMaxMin ⟨fun _ => 2, fun f => 30 - f⟩ [11, 14, 12] = some 14 := by decide +kernel

end SatEx

end Verif.Props
