import Verif.HO.ExtInfer

/-!
# Models of clauses with both sides of the literals
-/

namespace Verif
namespace HoInf

variable {G : Nat → HTy}

def HInt.XTrue (M : HInt G) (v : M.Val) (c : XLit) : Prop := if c.pos then M.val v c.l = M.val v c.r else M.val v c.l ≠ M.val v c.r

def HInt.XHolds (M : HInt G) (cl : List XLit) : Prop := ∀ v, M.Typed v → ∃ c ∈ cl, M.XTrue v c

/-- The term is well-typed and `ty` gives its type, also of its subterms. -/
def WellTyped (G : Nat → HTy) (ty : HTm → HTy) (t : HTm) : Prop := ∀ p u, subAt t p = some u → tyOf G u = some (ty u)

end HoInf
end Verif
