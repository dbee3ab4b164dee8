import Verif.Clauses.Lit

/-!
# Semantics: the specification for soundness

Many-sorted first-order logic with equality.  An interpretation has a domain with a membership predicate
for every type; every type is inhabited, symbols respect their declared types, `$true`
and `$false` are the two elements of the Boolean type, and symbols declared *distinct* (numbers,
distinct objects; `sig->distinct_props`) denote different elements.
-/

namespace Verif

universe u

/-- The declarations of `$true` and `$false` (TERMS/cte_signature.c:
`SigInsertInternalCodes`): constants of the same type. -/
structure SigOK (sg : Sig) : Prop where
  tf : sg.fty 1 = sg.fty 2
  targs : sg.fargs 1 = []
  fargs : sg.fargs 2 = []

structure Interp (sg : Sig) where
  D : Type u
  mem : Nat → D → Prop
  inhab : ∀ ty, ∃ d, mem ty d
  fn : Nat → List D → D
  fn_mem : ∀ f ds, List.Forall₂ mem (sg.fargs f) ds → mem (sg.fty f) (fn f ds)
  tf : fn 1 [] ≠ fn 2 []
  bool2 : ∀ d, mem (sg.fty 1) d → d = fn 1 [] ∨ d = fn 2 []
  dist : ∀ f g, sg.distinct f → sg.distinct g → f ≠ g → fn f [] ≠ fn g []

namespace Interp
variable {sg : Sig}

mutual
/-- Value of a term under a valuation. -/
def eval (I : Interp.{u} sg) (v : Nat → I.D) : Term → I.D
  | .var x => v x
  | .app f ts => I.fn f (evalL I v ts)
def evalL (I : Interp.{u} sg) (v : Nat → I.D) : List Term → List I.D
  | [] => []
  | t :: ts => eval I v t :: evalL I v ts
end

/-- Valuations respect the types of the variables. -/
def Sorted (I : Interp.{u} sg) (v : Nat → I.D) : Prop := ∀ x, I.mem (sg.vty x) (v x)

/-- Truth of a literal. -/
def LitTrue (I : Interp.{u} sg) (v : Nat → I.D) (L : Lit) : Prop :=
  if L.pos then I.eval v L.l = I.eval v L.r else I.eval v L.l ≠ I.eval v L.r

/-- Truth of a clause: some literal is true. -/
def ClauseTrue (I : Interp.{u} sg) (v : Nat → I.D) (C : List Lit) : Prop := ∃ L ∈ C, I.LitTrue v L

/-- The universally quantified clause holds. -/
def Models (I : Interp.{u} sg) (C : List Lit) : Prop := ∀ v, I.Sorted v → I.ClauseTrue v C

end Interp

/-- `D` follows from the clauses `Cs`. -/
def Entails (sg : Sig) (Cs : List (List Lit)) (D : List Lit) : Prop :=
  ∀ I : Interp.{u} sg, (∀ C ∈ Cs, I.Models C) → I.Models D

/-- Well-typed literal: two well-typed terms of the same type. -/
def Sig.WTLit (sg : Sig) (L : Lit) : Prop := sg.WT L.l ∧ sg.WT L.r ∧ sg.ty L.l = sg.ty L.r

def Sig.WTClause (sg : Sig) (C : List Lit) : Prop := ∀ L ∈ C, sg.WTLit L

namespace SemProof
open Interp Term
variable {sg : Sig}

theorem evalL_eq (I : Interp.{u} sg) (v : Nat → I.D) (ts : List Term) :
    I.evalL v ts = ts.map (I.eval v) := by
  induction ts with
  | nil => rfl
  | cons t ts ih => simp [evalL, ih]

theorem eval_app (I : Interp.{u} sg) (v : Nat → I.D) (f : Nat) (ts : List Term) :
    I.eval v (app f ts) = I.fn f (ts.map (I.eval v)) := by rw [eval, evalL_eq]

theorem eval_mem (I : Interp.{u} sg) {v : Nat → I.D} (hv : I.Sorted v) {t : Term} (h : sg.WT t) :
    I.mem (sg.ty t) (I.eval v t) := by
  induction t using Term.ind with
  | hv x => exact hv x
  | ha f ts ih =>
    rw [eval_app]
    rw [Sig.wt_app] at h
    refine I.fn_mem f _ ?_
    rw [← h.1, List.forall₂_map_left_iff, List.forall₂_map_right_iff, List.forall₂_same]
    exact fun t ht => ih t ht (h.2 t ht)

theorem eval_subst (I : Interp.{u} sg) (v : Nat → I.D) (σ : Nat → Term) (t : Term) :
    I.eval v (t.subst σ) = I.eval (fun x => I.eval v (σ x)) t := by
  induction t using Term.ind with
  | hv x => rfl
  | ha f ts ih =>
    rw [subst_app, eval_app, eval_app, List.map_map]
    congr 1
    exact List.map_congr_left ih

theorem eval_congr (I : Interp.{u} sg) {v w : Nat → I.D} {t : Term} (h : ∀ x ∈ t.vars, v x = w x) :
    I.eval v t = I.eval w t := by
  induction t using Term.ind with
  | hv x => exact h x (by simp [vars])
  | ha f ts ih =>
    rw [eval_app, eval_app]
    congr 1
    exact List.map_congr_left fun t ht => ih t ht fun x hx => h x (by simp [vars]; exact ⟨t, ht, hx⟩)

theorem sorted_subst (I : Interp.{u} sg) {v : Nat → I.D} (hv : I.Sorted v) {σ : Nat → Term}
    (hσ : sg.WTSubst σ) : I.Sorted fun x => I.eval v (σ x) := by
  intro x
  have := eval_mem I hv (hσ x).2
  rwa [(hσ x).1] at this

theorem litTrue_subst (I : Interp.{u} sg) (v : Nat → I.D) (σ : Nat → Term) (L : Lit) :
    I.LitTrue v (L.subst σ) ↔ I.LitTrue (fun x => I.eval v (σ x)) L := by
  simp [LitTrue, Lit.subst, eval_subst]

theorem clauseTrue_subst (I : Interp.{u} sg) (v : Nat → I.D) (σ : Nat → Term) (C : List Lit) :
    I.ClauseTrue v (csubst σ C) ↔ I.ClauseTrue (fun x => I.eval v (σ x)) C := by
  simp [ClauseTrue, csubst, litTrue_subst]

/-- Instances of a valid clause are valid. -/
theorem models_subst {I : Interp.{u} sg} {C : List Lit} (h : I.Models C) {σ : Nat → Term}
    (hσ : sg.WTSubst σ) : I.Models (csubst σ C) := fun v hv =>
  (clauseTrue_subst I v σ C).2 (h _ (sorted_subst I hv hσ))

theorem eval_true (I : Interp.{u} sg) (v : Nat → I.D) : I.eval v tTrue = I.fn 1 [] := by
  rw [tTrue, eval_app]; rfl

theorem eval_false (I : Interp.{u} sg) (v : Nat → I.D) : I.eval v tFalse = I.fn 2 [] := by
  rw [tFalse, eval_app]; rfl

theorem wt_true (h : SigOK sg) : sg.WT tTrue := by simp [tTrue, Sig.wt_app, h.targs]

theorem wtLit_subst {L : Lit} (h : sg.WTLit L) {σ : Nat → Term} (hσ : sg.WTSubst σ) :
    sg.WTLit (L.subst σ) := by
  refine ⟨Sig.wt_subst hσ h.1, Sig.wt_subst hσ h.2.1, ?_⟩
  simp only [Lit.subst]
  rw [Sig.ty_subst fun x => (hσ x).1, Sig.ty_subst fun x => (hσ x).1, h.2.2]

theorem wtClause_subst {C : List Lit} (h : sg.WTClause C) {σ : Nat → Term} (hσ : sg.WTSubst σ) :
    sg.WTClause (csubst σ C) := by
  intro L hL
  obtain ⟨K, hK, rfl⟩ := List.mem_map.1 hL
  exact wtLit_subst (h K hK) hσ

theorem mkEqn_wt (hs : SigOK sg) {pos : Bool} {l r : Term} (h : sg.WTLit ⟨pos, l, r⟩) :
    sg.WTLit (mkEqn pos l r) := by
  obtain ⟨h1, h2, h3⟩ := h
  simp only at h1 h2 h3
  have ht : sg.ty tTrue = sg.fty 1 := rfl
  have hf : sg.ty tFalse = sg.fty 1 := hs.tf.symm
  have hw := wt_true hs
  unfold mkEqn Sig.WTLit
  by_cases c1 : l = tFalse <;> by_cases c2 : r = tFalse <;> by_cases c3 : l = tTrue <;> simp_all

theorem mkEqn_true (hs : SigOK sg) (I : Interp.{u} sg) {v : Nat → I.D} (hv : I.Sorted v)
    {pos : Bool} {l r : Term} (h : sg.WTLit ⟨pos, l, r⟩) :
    I.LitTrue v (mkEqn pos l r) ↔ I.LitTrue v ⟨pos, l, r⟩ := by
  obtain ⟨h1, h2, h3⟩ := h
  simp only at h1 h2 h3
  have ht : sg.ty tTrue = sg.fty 1 := rfl
  have hf : sg.ty tFalse = sg.fty 1 := hs.tf.symm
  have htf := I.tf
  have hft := I.tf.symm
  have e1 := eval_true I v
  have e2 := eval_false I v
  -- a Boolean term is equal to exactly one of the two values
  have hb : ∀ t : Term, sg.WT t → sg.ty t = sg.fty 1 →
      (I.eval v t = I.fn 2 [] ↔ I.eval v t ≠ I.fn 1 []) := by
    intro t hw hty
    have := eval_mem I hv hw
    rw [hty] at this
    rcases I.bool2 _ this with h | h
    · simp [h, htf]
    · simp [h, hft]
  have hne : tTrue ≠ tFalse := by decide
  unfold mkEqn LitTrue
  by_cases c1 : l = tFalse
  · subst c1
    by_cases c2 : r = tFalse
    · subst c2; cases pos <;> simp [e1]
    · have hbr := hb r h2 (by rw [← h3, hf])
      cases pos <;> simp only [c2, e1, e2, ↓reduceIte, Bool.not_false, Bool.not_true] <;> simp [eq_comm] <;>
        (try rw [eq_comm, ← not_iff_not]) <;> (try simp only [not_not]) <;> tauto
  · by_cases c2 : r = tFalse
    · subst c2
      have hbl := hb l h1 (by rw [h3, hf])
      by_cases c3 : l = tTrue
      · subst c3; cases pos <;> simp [e1, e2, hne, htf]
      · cases pos <;> simp [c1, c3, e1, e2] <;> tauto
    · by_cases c3 : l = tTrue
      · subst c3; cases pos <;> simp [hne, c2, eq_comm]
      · cases pos <;> simp [c1, c2, c3]

/-- Replacing equals by equals does not change the value. -/
theorem eval_partialRepl (I : Interp.{u} sg) {v : Nat → I.D} {old repl : Term}
    (h : I.eval v old = I.eval v repl) (t t' : Term) (hr : PartialRepl old repl t t') :
    I.eval v t = I.eval v t' := by
  induction t using Term.ind generalizing t' with
  | hv x =>
    cases hr with
    | same => rfl
    | here => exact h
  | ha f ts ih =>
    cases hr with
    | same => rfl
    | here => exact h
    | args f hargs =>
      rw [eval_app, eval_app]
      congr 1
      rename_i us
      clear h
      induction hargs with
      | nil => rfl
      | cons h1 h2 ih2 =>
        rw [List.map_cons, List.map_cons, ih _ (by simp) _ h1, ih2 fun t ht => ih t (by simp [ht])]

theorem partialRepl_ty {old repl : Term} (h : sg.ty old = sg.ty repl) {t t' : Term}
    (hr : PartialRepl old repl t t') : sg.ty t = sg.ty t' := by
  cases hr with
  | same => rfl
  | here => exact h
  | args f _ => rfl

theorem partialRepl_wt {old repl : Term} (hty : sg.ty old = sg.ty repl) (hw : sg.WT repl) (t t' : Term)
    (hr : PartialRepl old repl t t') (h : sg.WT t) : sg.WT t' := by
  induction t using Term.ind generalizing t' with
  | hv x =>
    cases hr with
    | same => exact h
    | here => exact hw
  | ha f ts ih =>
    cases hr with
    | same => exact h
    | here => exact hw
    | args f hargs =>
      rw [Sig.wt_app] at h ⊢
      rename_i us
      refine ⟨?_, ?_⟩
      · rw [← h.1]
        clear h ih
        induction hargs with
        | nil => rfl
        | cons h1 h2 ih2 => simp [partialRepl_ty hty h1, ih2]
      · have h2 := h.2
        clear h
        induction hargs with
        | nil => simp
        | cons g1 g2 ih2 =>
          intro t ht
          rcases List.mem_cons.1 ht with rfl | ht
          · exact ih _ (by simp) _ g1 (h2 _ (by simp))
          · exact ih2 (fun t ht => ih t (by simp [ht])) (fun t ht => h2 t (by simp [ht])) t ht

theorem clauseTrue_append (I : Interp.{u} sg) (v : Nat → I.D) (C D : List Lit) :
    I.ClauseTrue v (C ++ D) ↔ I.ClauseTrue v C ∨ I.ClauseTrue v D := by
  simp only [ClauseTrue, List.mem_append]
  constructor
  · rintro ⟨L, h | h, hl⟩
    · exact Or.inl ⟨L, h, hl⟩
    · exact Or.inr ⟨L, h, hl⟩
  · rintro (⟨L, h, hl⟩ | ⟨L, h, hl⟩)
    · exact ⟨L, Or.inl h, hl⟩
    · exact ⟨L, Or.inr h, hl⟩

theorem clauseTrue_cons (I : Interp.{u} sg) (v : Nat → I.D) (L : Lit) (D : List Lit) :
    I.ClauseTrue v (L :: D) ↔ I.LitTrue v L ∨ I.ClauseTrue v D := by
  simp [ClauseTrue]

theorem clauseTrue_of_subset (I : Interp.{u} sg) (v : Nat → I.D) {C D : List Lit} (h : ∀ L ∈ C, L ∈ D)
    (hc : I.ClauseTrue v C) : I.ClauseTrue v D := by
  obtain ⟨L, hL, ht⟩ := hc
  exact ⟨L, h L hL, ht⟩

end SemProof
end Verif
