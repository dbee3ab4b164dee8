import Verif.Terms.Norm

/-!
# Literals and clauses

An `Eqn_p` (CLAUSES/ccl_eqn.h:105-115) is an equation or disequation between two terms; non-equational
atoms `p(…)` are stored as `p(…) = $true`.  A clause is the list of its literals
(CLAUSES/ccl_clauses.h).  Property bits (oriented, maximal, …) are modelled where they matter.
-/

namespace Verif

structure Lit where
  pos : Bool
  l : Term
  r : Term
deriving DecidableEq

/-- `bank->true_term`, `bank->false_term`: constants with codes SIG_TRUE_CODE = 1,
SIG_FALSE_CODE = 2 (TERMS/cte_signature.h:154-155). -/
def tTrue : Term := .app 1 []
def tFalse : Term := .app 2 []

/-- `EqnAlloc` (CLAUSES/ccl_eqn.c:614-683): `$false` is replaced by `$true` and flips the sign; if the left side
is `$true`, the sides are swapped.  (Recording predicate symbols is not modelled.) -/
def mkEqn (pos : Bool) (l r : Term) : Lit :=
  let (l, pos) := if l = tFalse then (tTrue, !pos) else (l, pos)
  let (r, pos) := if r = tFalse then (tTrue, !pos) else (r, pos)
  if l = tTrue then ⟨pos, r, l⟩ else ⟨pos, l, r⟩

namespace Lit

/-- Apply a substitution to both sides. -/
def subst (σ : Nat → Term) (L : Lit) : Lit := ⟨L.pos, L.l.subst σ, L.r.subst σ⟩

def terms (L : Lit) : List Term := [L.l, L.r]

def vars (L : Lit) : List Nat := L.l.vars ++ L.r.vars

/-- In the form established by `EqnAlloc`. -/
def NF (L : Lit) : Prop := L.l ≠ tFalse ∧ L.r ≠ tFalse ∧ (L.l = tTrue → L.r = tTrue)

instance (L : Lit) : Decidable L.NF := by unfold NF; infer_instance

end Lit

/-- Variables of a clause, in order of occurrence. -/
def cvars (C : List Lit) : List Nat := C.flatMap Lit.vars

def csubst (σ : Nat → Term) (C : List Lit) : List Lit := C.map (Lit.subst σ)

/-- `EqnCopy`/`EqnCopyOpt` (CLAUSES/ccl_eqn.c:1364-1384, 1505-1524): instantiate both sides, `EqnAlloc`. -/
def copyLit (bind : Nat → Option Term) (rn : Nat → Option Nat) (n : Nat) (L : Lit) : Option Lit :=
  match instOpt bind rn n L.l, instOpt bind rn n L.r with
  | some l, some r => some (mkEqn L.pos l r)
  | _, _ => none

/-- `EqnListCopy`, `EqnListCopyOpt` (CLAUSES/ccl_eqnlist.c:555-585, 632-660). -/
def copyLits (bind : Nat → Option Term) (rn : Nat → Option Nat) (n : Nat) (C : List Lit) : Option (List Lit) :=
  mapOpt (copyLit bind rn n) C

/-- `NormSubstEqnListExcept` (CLAUSES/ccl_eqnlist.c:1635-1649) on the literals that are not excepted. -/
def normLits (sg : Sig) (bind : Nat → Option Term) (n : Nat) (C : List Lit) (s : VarBank × Rn) :
    Option (VarBank × Rn) :=
  normTerms sg bind n (C.flatMap Lit.terms) s

/-- `ClauseNormalizeVars` (CLAUSES/ccl_clauses.c:2438-2461). -/
def clauseNormalizeVars (sg : Sig) (n : Nat) (b : VarBank) (C : List Lit) : Option (VarBank × List Lit) :=
  if C = [] then some (b, C)
  else
    match normLits sg (fun _ => none) n C (b.reset, []) with
    | none => none
    | some (b', rn) =>
      if rn = [] then some (b', C)
      else (copyLits (fun _ => none) rn.get n C).map fun C' => (b', C')

/-- `EqnListCopyDisjoint` (CLAUSES/ccl_eqnlist.c:739-760) with `EqnCopyDisjoint`
(CLAUSES/ccl_eqn.c:1540-1557). -/
def copyDisjoint (C : List Lit) : List Lit :=
  C.map fun L => mkEqn L.pos (instDisjoint L.l) (instDisjoint L.r)

namespace LitProof
open Term

theorem mkEqn_nf (pos : Bool) (l r : Term) : (mkEqn pos l r).NF := by
  have h12 : tTrue ≠ tFalse := by decide
  unfold mkEqn Lit.NF
  by_cases h1 : l = tFalse <;> by_cases h2 : r = tFalse <;> by_cases h3 : l = tTrue <;>
    simp_all

theorem mkEqn_of_nf {L : Lit} (h : L.NF) : mkEqn L.pos L.l L.r = L := by
  obtain ⟨h1, h2, h3⟩ := h
  unfold mkEqn
  by_cases h4 : L.l = tTrue
  · have := h3 h4; cases L; simp_all
  · cases L; simp_all

/-- Renaming variables keeps the normal form. -/
theorem nf_rename {L : Lit} (h : L.NF) {ρ : Nat → Term} (hρ : ∀ x, ∃ y, ρ x = .var y) : (L.subst ρ).NF := by
  have key : ∀ (t : Term) (f : Nat), t.subst ρ = .app f [] ↔ t = .app f [] := by
    intro t f
    cases t with
    | var x => obtain ⟨y, hy⟩ := hρ x; simp [hy]
    | app g ts => rw [subst_app]; simp
  obtain ⟨h1, h2, h3⟩ := h
  refine ⟨fun h => h1 ((key _ _).1 h), fun h => h2 ((key _ _).1 h), fun h => (key _ _).2 (h3 ((key _ _).1 h))⟩

theorem fullInst_empty : FullInst (fun _ => none) Term.var := ⟨by simp, by simp⟩

theorem acyclic_empty : MguProof.Acyclic (fun _ => none) := by
  exact ⟨fun _ => 0, by simp⟩

/-- Instantiated copies. -/
theorem copyLit_eq {bind : Nat → Option Term} {rn : Nat → Option Nat} {σ : Nat → Term}
    (hσ : FullInst bind σ) {n : Nat} {L L' : Lit} (h : copyLit bind rn n L = some L') :
    L' = mkEqn L.pos (L.l.subst (InstProof.full σ rn)) (L.r.subst (InstProof.full σ rn)) := by
  unfold copyLit at h
  cases h1 : instOpt bind rn n L.l with
  | none => simp [h1] at h
  | some l =>
    cases h2 : instOpt bind rn n L.r with
    | none => simp [h1, h2] at h
    | some r =>
      simp [h1, h2] at h
      rw [← InstProof.instOpt_correct hσ n _ _ h1, ← InstProof.instOpt_correct hσ n _ _ h2, h]

theorem copyLits_eq {bind : Nat → Option Term} {rn : Nat → Option Nat} {σ : Nat → Term}
    (hσ : FullInst bind σ) {n : Nat} {C C' : List Lit} (h : copyLits bind rn n C = some C') :
    C' = C.map fun L => mkEqn L.pos (L.l.subst (InstProof.full σ rn)) (L.r.subst (InstProof.full σ rn)) :=
  InstProof.forall2_map (InstProof.mapOpt_some h) fun _ _ _ h => copyLit_eq hσ h

theorem copyLits_total {bind : Nat → Option Term} (rn : Nat → Option Nat) {σ : Nat → Term}
    (hac : MguProof.Acyclic bind) (hσ : FullInst bind σ) (C : List Lit) :
    ∃ N r, ∀ n ≥ N, copyLits bind rn n C = some r := by
  induction C with
  | nil => exact ⟨0, [], fun _ _ => rfl⟩
  | cons L C ih =>
    obtain ⟨N, r, h⟩ := ih
    obtain ⟨N1, l, h1⟩ := InstProof.instOpt_total rn hac hσ _ L.l (le_refl _)
    obtain ⟨N2, r2, h2⟩ := InstProof.instOpt_total rn hac hσ _ L.r (le_refl _)
    exact ⟨N + N1 + N2, mkEqn L.pos l r2 :: r, fun n hn => by
      have h3 := h n (by omega)
      simp only [copyLits] at h3
      simp only [copyLits, mapOpt, copyLit, h1 n (by omega), h2 n (by omega), h3]⟩

end LitProof
end Verif
