import Verif.HO.Named

/-!
# Interpretations of named and nameless terms (specification for C65)
-/

namespace Verif

/-- The head of a phony application may be a variable or an abstraction. -/
def NTerm.headOk : NTerm → Bool
  | .var _ _ => true
  | .lam _ _ _ => true
  | _ => false

/-- The cells are as `TBTermTopInsert` demands (TERMS/cte_termbanks.c:142-143). -/
inductive NTerm.WF : NTerm → Prop
  | var (x : Nat) (ty : HTy) : NTerm.WF (.var x ty)
  | lam {x : Nat} {ty : HTy} {b : NTerm} : NTerm.WF b → NTerm.WF (.lam x ty b)
  | app {f : Nat} {as : List NTerm} : (∀ a ∈ as, NTerm.WF a) → NTerm.WF (.app f as)
  | papp {h : NTerm} {as : List NTerm} : h.headOk = true → as ≠ [] → NTerm.WF h → (∀ a ∈ as, NTerm.WF a) → NTerm.WF (.papp h as)

/-- The type of a function with the given argument types. -/
def HTy.arrs : List HTy → HTy → HTy
  | [], t => t
  | a :: as, t => .arr a (HTy.arrs as t)

/-- Typing of named terms; `ct` gives the types of the symbols. -/
inductive NTerm.HasTy (ct : Nat → HTy) : NTerm → HTy → Prop
  | var {x : Nat} {ty : HTy} : NTerm.HasTy ct (.var x ty) ty
  | lam {x : Nat} {ty t : HTy} {b : NTerm} : NTerm.HasTy ct b t → NTerm.HasTy ct (.lam x ty b) (.arr ty t)
  | app {f : Nat} {as : List NTerm} {tys : List HTy} {t : HTy} : ct f = HTy.arrs tys t → as.length = tys.length →
      (∀ p ∈ as.zip tys, NTerm.HasTy ct p.1 p.2) → NTerm.HasTy ct (.app f as) t
  | papp {h : NTerm} {as : List NTerm} {tys : List HTy} {t : HTy} : NTerm.HasTy ct h (HTy.arrs tys t) → as.length = tys.length →
      (∀ p ∈ as.zip tys, NTerm.HasTy ct p.1 p.2) → NTerm.HasTy ct (.papp h as) t

/-- What is needed to interpret terms: values of symbols, application, and functions as values. -/
structure HInterp (D : Type) where
  cn : Nat → D
  ap : D → D → D
  fn : HTy → (D → D) → D

variable {D : Type}

/-- One more bound variable. -/
def dcons (a : D) (e : Nat → D) : Nat → D
  | 0 => a
  | i + 1 => e i

/-- Assigning a value to a free variable. -/
def vset (ρ : Nat × HTy → D) (v : Nat × HTy) (a : D) : Nat × HTy → D := fun w => if w = v then a else ρ w

/-- Value of a nameless term: `ρ` for free variables, `e` for loose indices. -/
def Lam.eval (M : HInterp D) (ρ : Nat × HTy → D) : (Nat → D) → Lam → D
  | _, .fv x ty => ρ (x, ty)
  | e, .bv i => e i
  | _, .cn f => M.cn f
  | e, .lam ty m => M.fn ty fun a => Lam.eval M ρ (dcons a e) m
  | e, .app m n => M.ap (Lam.eval M ρ e m) (Lam.eval M ρ e n)

mutual
/-- Value of a named term. -/
def NTerm.eval (M : HInterp D) : (Nat × HTy → D) → NTerm → D
  | ρ, .var x ty => ρ (x, ty)
  | ρ, .lam x ty b => M.fn ty fun a => NTerm.eval M (vset ρ (x, ty) a) b
  | ρ, .app f as => (NTerm.evalL M ρ as).foldl M.ap (M.cn f)
  | ρ, .papp h as => (NTerm.evalL M ρ as).foldl M.ap (NTerm.eval M ρ h)
def NTerm.evalL (M : HInterp D) : (Nat × HTy → D) → List NTerm → List D
  | _, [] => []
  | ρ, a :: as => NTerm.eval M ρ a :: NTerm.evalL M ρ as
end

/-- The function of several variables. -/
def HInterp.fns (M : HInterp D) (F : (Nat × HTy → D) → D) : (Nat × HTy → D) → List (Nat × HTy) → D
  | ρ, [] => F ρ
  | ρ, v :: vs => M.fn v.2 fun a => M.fns F (vset ρ v a) vs

end Verif
