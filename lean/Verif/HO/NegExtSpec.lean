import Verif.HO.NegExt
import Verif.HO.HoInferSpec

/-!
# Negative extensionality: Skolem symbols
-/

namespace Verif
namespace HoInf

/- All symbols are below `n`. -/
mutual
def symBelow (n : Nat) : HTm → Prop
  | .var _ _ => True
  | .fn f as => f < n ∧ symBelowL n as
  | .papp as => symBelowL n as
def symBelowL (n : Nat) : List HTm → Prop
  | [] => True
  | t :: ts => symBelow n t ∧ symBelowL n ts
end

def litBelow (n : Nat) (c : HLit) : Prop := symBelow n c.l ∧ ∀ r, c.r = some r → symBelow n r

variable {G : Nat → HTy}

/-- All functions exist. -/
def HInt.Full (M : HInt G) : Prop := ∀ (a b : HTy) (F : M.D → M.D), (∀ x, M.mem a x → M.mem b (F x)) →
  ∃ f, M.mem (.arr a b) f ∧ ∀ x, M.mem a x → M.app f x = F x

/-- The model with other values of the symbols. -/
def HInt.reI (M : HInt G) (I : Nat → M.D) (h : ∀ f, M.mem (G f) (I f)) : HInt G := { M with I := I, I_mem := h }

/-- The types of the Skolem symbols which the clause needs, numbered from `n`: functions from the variables of the literal to the types of the missing
arguments. -/
def SkolemTypes (G : Nat → HTy) (ty : HTm → HTy) (sel : HLit → Bool) (vars : HLit → List (Nat × HTy)) : Nat → List HLit → Prop
  | _, [] => True
  | n, c :: cs =>
    if c.r.isSome && !c.pos && sel c then
      (∀ i (h : i < (ty c.l).args.length), G (n + i) = ((vars c).map (·.2)).foldr .arr ((ty c.l).args[i])) ∧
        SkolemTypes G ty sel vars (n + (ty c.l).args.length) cs
    else SkolemTypes G ty sel vars n cs

end HoInf
end Verif
