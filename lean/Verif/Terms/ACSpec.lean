import Verif.Terms.ACTerms

/-!
# Specification: equality modulo associativity and commutativity
-/

namespace Verif

/-- The least congruence that contains commutativity of the symbols marked commutative, and associativity of those marked both
associative and commutative. -/
inductive ACEq (s : ACSig) : Term → Term → Prop
  | refl (t) : ACEq s t t
  | symm {t u} : ACEq s t u → ACEq s u t
  | trans {t u v} : ACEq s t u → ACEq s u v → ACEq s t v
  | arg {t u} (f) (l r : List Term) : ACEq s t u → ACEq s (.app f (l ++ t :: r)) (.app f (l ++ u :: r))
  | comm {f} (a b) : s.comm f = true → ACEq s (.app f [a, b]) (.app f [b, a])
  | assoc {f} (a b c) : s.assoc f = true → s.comm f = true → ACEq s (.app f [.app f [a, b], c]) (.app f [a, .app f [b, c]])

/-- The symbols marked AC are binary. -/
def ACSig.Binary (s : ACSig) (sg : Sig) : Prop := ∀ f, s.isAC f = true → (sg.fargs f).length = 2

/-- Cells that exist at the same time have different addresses. -/
def Addresses (ad : List Nat → Nat → Nat) : Prop := ∀ p, Function.Injective (ad p)

end Verif
