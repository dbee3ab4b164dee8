import Verif.HO.Lambda

/-!
# Terms of the prover as terms of the calculus (specification for C63, C64)
-/

namespace Verif
open Lam

/-- Application to several arguments. -/
def Lam.apps (m : Lam) (as : List Lam) : Lam := as.foldl Lam.app m

namespace HTerm

mutual
/-- The term of the calculus that a term of the prover stands for. -/
def toL : HTerm → Lam
  | fvar x ty => .fv x ty
  | db i _ => .bv i
  | lam ty b => .lam ty (toL b)
  | app f as => Lam.apps (.cn f) (toLL as)
  | papp h as => Lam.apps (toL h) (toLL as)
def toLL : List HTerm → List Lam
  | [] => []
  | a :: as => toL a :: toLL as
end

theorem toLL_map (as : List HTerm) : toLL as = as.map toL := by
  induction as with
  | nil => rfl
  | cons a as ih => simp [toLL, ih]

/-- The cells are as `TBTermTopInsert` demands (TERMS/cte_termbanks.c:142-143): the head of a phony application is a variable or an abstraction,
and it has arguments; and de Bruijn variables carry the types of their binders (`Γ` for those bound outside). -/
inductive WF : (Nat → Option HTy) → HTerm → Prop
  | fvar {Γ : Nat → Option HTy} (x : Nat) (ty : HTy) : WF Γ (fvar x ty)
  | db {Γ : Nat → Option HTy} {i : Nat} {ty : HTy} : Γ i = some ty → WF Γ (db i ty)
  | lam {Γ : Nat → Option HTy} {ty : HTy} {b : HTerm} : WF (fun i => match i with | 0 => some ty | i + 1 => Γ i) b → WF Γ (lam ty b)
  | app {Γ : Nat → Option HTy} {f : Nat} {as : List HTerm} : (∀ a ∈ as, WF Γ a) → WF Γ (app f as)
  | papp {Γ : Nat → Option HTy} {h : HTerm} {as : List HTerm} : h.isAnyVar = true ∨ h.isLam = true → as ≠ [] → WF Γ h → (∀ a ∈ as, WF Γ a) →
      WF Γ (papp h as)

end HTerm

end Verif
