import Verif.HO.NormEqs

/-!
# The meaning of literals between formulas
-/

namespace Verif
namespace NormEqs

/-- The type of a term; 0 is the type of the formulas, `s` gives the types of opaque terms. -/
def BTm.ty (s : Nat → Nat) : BTm → Nat
  | .oth n => s n
  | _ => 0

/-- Well-typed terms. -/
def BTm.WT (s : Nat → Nat) : BTm → Prop
  | .nt t => t.ty s = 0 ∧ t.WT s
  | .eq a b => a.ty s = b.ty s ∧ a.WT s ∧ b.WT s
  | .ne a b => a.ty s = b.ty s ∧ a.WT s ∧ b.WT s
  | _ => True

def BLit.WT (s : Nat → Nat) (c : BLit) : Prop := c.l.ty s = c.r.ty s ∧ c.l.WT s ∧ c.r.WT s

/-- Values: truth values `Sum.inl`, elements of other sorts `Sum.inr`. -/
abbrev Value (D : Type) := Bool ⊕ D

/-- Opaque terms of the type of formulas have truth values. -/
def Respects {D : Type} (s : Nat → Nat) (v : Nat → Value D) : Prop := ∀ n, s n = 0 → ∃ b, v n = .inl b

open Classical in
/-- The value of a term. -/
noncomputable def BTm.val {D : Type} (v : Nat → Value D) : BTm → Value D
  | .tru => .inl true
  | .fls => .inl false
  | .nt t => .inl (decide (t.val v = .inl false))
  | .eq a b => .inl (decide (a.val v = b.val v))
  | .ne a b => .inl (decide (a.val v ≠ b.val v))
  | .oth n => v n

def BLit.True {D : Type} (v : Nat → Value D) (c : BLit) : Prop := if c.pos then c.l.val v = c.r.val v else c.l.val v ≠ c.r.val v

def BTm.size : BTm → Nat
  | .nt t => t.size + 1
  | .eq a b => a.size + b.size + 2
  | .ne a b => a.size + b.size + 2
  | _ => 1

end NormEqs
end Verif
