import Verif.Formulas.Fool

/-!
# Formulas as terms: types, values and the shapes the theorems speak of

Boolean terms have the values `$true` and `$false`; a formula holds if its value is `$true`.
-/

namespace Verif.Fool

open Verif FT

universe u
variable {sg : Sig}

mutual
/-- Well-typed terms and formulas. -/
def WT (sg : Sig) : FT → Prop
  | .var _ => True
  | .app f ts => ts.map (FT.ty sg) = sg.fargs f ∧ WTL sg ts
  | .eqn _ l r => WT sg l ∧ WT sg r ∧ l.ty sg = r.ty sg
  | .not a => WT sg a ∧ a.ty sg = sg.fty 1
  | .bin _ a b => WT sg a ∧ WT sg b ∧ a.ty sg = sg.fty 1 ∧ b.ty sg = sg.fty 1
  | .qu _ _ a => WT sg a ∧ a.ty sg = sg.fty 1
  | .ite c a b => WT sg c ∧ WT sg a ∧ WT sg b ∧ c.ty sg = sg.fty 1 ∧ a.ty sg = b.ty sg
def WTL (sg : Sig) : List FT → Prop
  | [] => True
  | t :: ts => WT sg t ∧ WTL sg ts
end

open Classical in
/-- The truth value as an element. -/
noncomputable def b2d (I : Interp.{u} sg) (p : Prop) : I.D := if p then I.fn 1 [] else I.fn 2 []

open Classical in
mutual
/-- The value of a term or formula. -/
noncomputable def val (I : Interp.{u} sg) : FT → (Nat → I.D) → I.D
  | .var x, v => v x
  | .app f ts, v => I.fn f (valL I ts v)
  | .eqn true l r, v => b2d I (val I l v = val I r v)
  | .eqn false l r, v => b2d I (val I l v ≠ val I r v)
  | .not a, v => b2d I (val I a v ≠ I.fn 1 [])
  | .bin op a b, v => b2d I (op.Holds (val I a v = I.fn 1 []) (val I b v = I.fn 1 []))
  | .qu true x a, v => b2d I (∀ d, I.mem (sg.vty x) d → val I a (updv v x d) = I.fn 1 [])
  | .qu false x a, v => b2d I (∃ d, I.mem (sg.vty x) d ∧ val I a (updv v x d) = I.fn 1 [])
  | .ite c a b, v => if val I c v = I.fn 1 [] then val I a v else val I b v
noncomputable def valL (I : Interp.{u} sg) : List FT → (Nat → I.D) → List I.D
  | [], _ => []
  | t :: ts, v => val I t v :: valL I ts v
end

/-- The formula holds. -/
def Holds (I : Interp.{u} sg) (t : FT) (v : Nat → I.D) : Prop := val I t v = I.fn 1 []

/-- The formula holds for all values of its free variables. -/
def Valid (I : Interp.{u} sg) (t : FT) : Prop := ∀ v, I.Sorted v → Holds I t v

mutual
/-- There is no `$ite`. -/
def IteFree : FT → Prop
  | .var _ => True
  | .app _ ts => IteFreeL ts
  | .eqn _ l r => IteFree l ∧ IteFree r
  | .not a => IteFree a
  | .bin _ a b => IteFree a ∧ IteFree b
  | .qu _ _ a => IteFree a
  | .ite _ _ _ => False
def IteFreeL : List FT → Prop
  | [] => True
  | t :: ts => IteFree t ∧ IteFreeL ts
end

mutual
/-- Where `$ite` may occur: not below a quantifier inside a literal.  `OK true` is for formulas, `OK false` for the terms in
literals.  The condition of an `$ite` is a formula, wherever the `$ite` is. -/
def OK : Bool → FT → Prop
  | _, .var _ => True
  | true, .app _ ts => IteFreeL ts
  | false, .app _ ts => OKL ts
  | _, .eqn _ l r => OK false l ∧ OK false r
  | k, .not a => OK k a
  | k, .bin _ a b => OK k a ∧ OK k b
  | true, .qu _ _ a => OK true a
  | false, .qu _ _ a => IteFree a
  | k, .ite c a b => OK true c ∧ OK k a ∧ OK k b
def OKL : List FT → Prop
  | [] => True
  | t :: ts => OK false t ∧ OKL ts
end

mutual
/-- No equation has a quantified formula as a side. -/
def SidesOK : FT → Prop
  | .var _ => True
  | .app _ ts => SidesOKL ts
  | .eqn _ l r => SidesOK l ∧ SidesOK r ∧ l.isQu = false ∧ r.isQu = false
  | .not a => SidesOK a
  | .bin _ a b => SidesOK a ∧ SidesOK b
  | .qu _ _ a => SidesOK a
  | .ite c a b => SidesOK c ∧ SidesOK a ∧ SidesOK b
def SidesOKL : List FT → Prop
  | [] => True
  | t :: ts => SidesOK t ∧ SidesOKL ts
end

mutual
/-- If an equation has a variable on the left, its right-hand side is a term without connectives or quantifiers on top. -/
def VarSides : FT → Prop
  | .var _ => True
  | .app _ ts => VarSidesL ts
  | .eqn _ l r => VarSides l ∧ VarSides r ∧
    (l.isVar = true → r.isVar = true ∨ (∃ f ts, r = .app f ts) ∨ ∃ c a b, r = .ite c a b)
  | .not a => VarSides a
  | .bin _ a b => VarSides a ∧ VarSides b
  | .qu _ _ a => VarSides a
  | .ite c a b => VarSides c ∧ VarSides a ∧ VarSides b
def VarSidesL : List FT → Prop
  | [] => True
  | t :: ts => VarSides t ∧ VarSidesL ts
end

/-- The arguments of a term. -/
def kids : FT → List FT
  | .var _ => []
  | .app _ ts => ts
  | .eqn _ l r => [l, r]
  | .not a => [a]
  | .bin _ a b => [a, b]
  | .qu _ _ a => [a]
  | .ite c a b => [c, a, b]

/-- The Boolean arguments that may stay: variables, `$true`, `$false`, and the literals over them. -/
inductive Simple : FT → Prop
  | var (x) : Simple (.var x)
  | tf (f ts) : f = 1 ∨ f = 2 → Simple (.app f ts)
  | varLit (p x) : Simple (.eqn p (.var x) tt)
  | trueLit (p) : Simple (.eqn p tt tt)

/-- All Boolean arguments are simple, in the term and its non-Boolean arguments. -/
inductive Flat (sg : Sig) : FT → Prop
  | mk (t) : (∀ a ∈ kids t, a.ty sg = sg.fty 1 → Simple a) →
      (∀ a ∈ kids t, a.ty sg ≠ sg.fty 1 → Flat sg a) → Flat sg t

/-- The sides of all literals of a formula are flat. -/
def Unrolled (sg : Sig) : FT → Prop
  | .eqn _ l r => Flat sg l ∧ Flat sg r
  | .not a => Unrolled sg a
  | .bin _ a b => Unrolled sg a ∧ Unrolled sg b
  | .qu _ _ a => Unrolled sg a
  | _ => True

end Verif.Fool
