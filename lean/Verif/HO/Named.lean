import Verif.HO.LambdaProof

/-!
# Named variables and de Bruijn variables

Model of `NamedToDB` and `AbstractVars` (TERMS/cte_lambda.c).  Variables are identified by their number and type.
-/

namespace Verif

/-- Terms as the parser builds them: `lam x ty b` is the cell with `SIG_NAMED_LAMBDA_CODE`, whose first argument is the variable. -/
inductive NTerm
  | var (x : Nat) (ty : HTy)
  | lam (x : Nat) (ty : HTy) (body : NTerm)
  | app (f : Nat) (args : List NTerm)
  | papp (hd : NTerm) (args : List NTerm)
deriving Repr

namespace NTerm

/-- Induction over terms with the hypothesis for all arguments. -/
theorem ind {P : NTerm → Prop} (hv : ∀ x ty, P (var x ty)) (hl : ∀ x ty b, P b → P (lam x ty b))
    (ha : ∀ f as, (∀ a ∈ as, P a) → P (app f as)) (hp : ∀ h as, P h → (∀ a ∈ as, P a) → P (papp h as)) : ∀ t, P t := by
  intro t
  induction t using NTerm.rec (motive_2 := fun ts => ∀ t ∈ ts, P t) with
  | var x ty => exact hv x ty
  | lam x ty b ih => exact hl x ty b ih
  | app f ts ih => exact ha f ts ih
  | papp h ts ih1 ih2 => exact hp h ts ih1 ih2
  | nil u hu => exact absurd hu (by simp)
  | cons t ts h1 h2 u hu =>
    rcases List.mem_cons.1 hu with rfl | h
    · exact h1
    · exact h2 u h

mutual
/-- `TermHasLambdaSubterm`. -/
def hasLam : NTerm → Bool
  | var _ _ => false
  | lam _ _ _ => true
  | app _ as => hasLamL as
  | papp h as => hasLam h || hasLamL as
def hasLamL : List NTerm → Bool
  | [] => false
  | a :: as => hasLam a || hasLamL as
end

mutual
/-- The same cells for a term without abstractions. -/
def plain : NTerm → HTerm
  | var x ty => .fvar x ty
  | lam _ ty b => .lam ty (plain b)
  | app f as => .app f (plainL as)
  | papp h as => .papp (plain h) (plainL as)
def plainL : List NTerm → List HTerm
  | [] => []
  | a :: as => plain a :: plainL as
end

/-- The `binding` fields of the variables, as far as they hold de Bruijn variables. -/
abbrev Env := Nat × HTy → Option Nat

/-- Setting one binding. -/
def Env.set (e : Env) (v : Nat × HTy) (b : Option Nat) : Env := fun w => if w = v then b else e w

mutual
/-- `do_named_to_db` (TERMS/cte_lambda.c:667-736) with the bindings before and after.  The code binds the variables of all adjacent binders in one loop
and restores them in reverse order; doing it binder by binder is the same sequence of assignments. -/
def conv : Env → Nat → NTerm → HTerm × Env
  | e, d, lam x ty b =>
    let prev := e (x, ty)
    let (r, e1) := conv (e.set (x, ty) (some d)) (d + 1) b
    (.lam ty r, e1.set (x, ty) prev)
  | e, d, var x ty =>
    match e (x, ty) with
    | some l => (.db (d - l - 1) ty, e)
    | none => (.fvar x ty, e)
  | e, d, app f as => let (rs, e1) := convL e d as; (.app f rs, e1)
  | e, d, papp h as => let (r, e1) := conv e d h; let (rs, e2) := convL e1 d as; (.papp r rs, e2)
def convL : Env → Nat → List NTerm → List HTerm × Env
  | e, _, [] => ([], e)
  | e, d, a :: as => let (r, e1) := conv e d a; let (rs, e2) := convL e1 d as; (r :: rs, e2)
end

/-- `NamedToDB` (TERMS/cte_lambda.c:1020-1027), called when no variable is bound. -/
def namedToDB (sg : HTerm.HSig) (n : Nat) (t : NTerm) : Option HTerm :=
  HTerm.betaNormalize sg n (if t.hasLam then (conv (fun _ => none) 0 t).1 else t.plain)

end NTerm

namespace HTerm

mutual
/-- `TermIsGround` as far as free variables are concerned. -/
def noFree : HTerm → Bool
  | fvar _ _ => false
  | db _ _ => true
  | lam _ b => noFree b
  | app _ as => noFreeL as
  | papp h as => noFree h && noFreeL as
def noFreeL : List HTerm → Bool
  | [] => true
  | a :: as => noFree a && noFreeL as
end

mutual
/-- `replace_fvars` (TERMS/cte_lambda.c:869-918). -/
def replaceFvars (e : NTerm.Env) : Nat → HTerm → HTerm
  | d, fvar x ty =>
    match e (x, ty) with
    | some i => if d = 0 then db i ty else db (i + d) ty
    | none => fvar x ty
  | _, db i ty => db i ty
  | d, lam ty b => if noFree b then lam ty b else lam ty (replaceFvars e (d + 1) b)
  | d, app f as => if noFreeL as then app f as else app f (replaceFvarsL e d as)
  | d, papp h as => if noFree (papp h as) then papp h as else papp (replaceFvars e d h) (replaceFvarsL e d as)
def replaceFvarsL (e : NTerm.Env) : Nat → List HTerm → List HTerm
  | _, [] => []
  | d, a :: as => replaceFvars e d a :: replaceFvarsL e d as
end

/-- The bindings set by the loop at TERMS/cte_lambda.c:1074-1080, from the last variable to the first. -/
def bindAll : List (Nat × HTy) → NTerm.Env
  | [] => fun _ => none
  | v :: vs => NTerm.Env.set (bindAll vs) v (some vs.length)

/-- `AbstractVars` (TERMS/cte_lambda.c:1070-1090). -/
def abstractVars (m : HTerm) (vs : List (Nat × HTy)) : HTerm := closeTys (vs.map (·.2)) (replaceFvars (bindAll vs) 0 m)

end HTerm
end Verif
