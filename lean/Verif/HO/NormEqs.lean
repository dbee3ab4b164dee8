/-!
# Normalisation of equations between formulas in literals
-/

namespace Verif
namespace NormEqs

/-- Terms as seen by `NormalizeEquations`: the truth values, negations, equations and negated equations; all other terms are opaque. -/
inductive BTm where
  | tru
  | fls
  | nt (t : BTm)
  | eq (a b : BTm)
  | ne (a b : BTm)
  | oth (n : Nat)
deriving DecidableEq

/-- Literals: `EPIsPositive`, `EPIsEquLiteral` and the sides. -/
structure BLit where
  pos : Bool
  equ : Bool
  l : BTm
  r : BTm
deriving DecidableEq

/-- The first step (CONTROL/cco_ho_inferences.c:1980-1987): `$true` goes to the right. -/
def swapTrue (c : BLit) : BLit := if c.l = .tru ∧ c.r ≠ .tru then ⟨c.pos, false, c.r, .tru⟩ else c

/-- The loop which removes negations (CONTROL/cco_ho_inferences.c:1997-2002), with `negate`. -/
def stripNots : BTm → Bool → BTm × Bool
  | .nt t, neg => stripNots t (!neg)
  | t, neg => (t, neg)

/-- The test for the second step (CONTROL/cco_ho_inferences.c:1989-1992). -/
def applicable (c : BLit) : Bool := c.r == .tru && (match c.l with
  | .eq _ _ => true
  | .ne _ _ => true
  | .nt _ => true
  | _ => false)

/-- An equation becomes the sides of the literal (CONTROL/cco_ho_inferences.c:2004-2017). -/
def lift (p : BTm × Bool) : BTm × BTm × Bool := match p.1 with
  | .eq a b => (a, b, p.2)
  | .ne a b => (a, b, !p.2)
  | t => (t, .tru, p.2)

/-- `$false` on the left, then on the right, becomes `$true` (CONTROL/cco_ho_inferences.c:2019-2028). -/
def falseLeft (q : BTm × BTm × Bool) : BTm × BTm × Bool := if q.1 = .fls then (.tru, q.2.1, !q.2.2) else q

def falseRight (q : BTm × BTm × Bool) : BTm × BTm × Bool := if q.2.1 = .fls then (q.1, .tru, !q.2.2) else q

/-- `$true` goes to the right (CONTROL/cco_ho_inferences.c:2029-2032). -/
def trueRight (q : BTm × BTm × Bool) : BTm × BTm × Bool := if q.1 = .tru then (q.2.1, q.1, q.2.2) else q

/-- One literal in the loop of `NormalizeEquations` (CONTROL/cco_ho_inferences.c:1976-2048). -/
def normLit (c : BLit) : BLit :=
  let c := swapTrue c
  if applicable c then
    let q := trueRight (falseRight (falseLeft (lift (stripNots c.l false))))
    ⟨xor c.pos q.2.2, decide (q.2.1 ≠ .tru), q.1, q.2.1⟩
  else c

/-- `NormalizeEquations` (CONTROL/cco_ho_inferences.c:1973-2060): the literals, and whether something was done.  The removal of superfluous literals
afterwards is left out. -/
def normalize (cl : List BLit) : List BLit × Bool :=
  (cl.map normLit, cl.any fun c => decide (c.l = .tru ∧ c.r ≠ .tru) || applicable (swapTrue c))

end NormEqs
end Verif
