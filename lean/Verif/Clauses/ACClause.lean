import Verif.Clauses.Lit
import Verif.Terms.ACTerms

/-!
# AC axioms and AC-trivial literals

Model of HEURISTICS/che_axiomscan.c and of the functions of CLAUSES/ccl_eqn.c, ccl_eqnlist.c, ccl_clauses.c and ccl_clausefunc.c
that use AC normal forms.  First-order.
-/

namespace Verif

/-- `DetectCommutativity` (HEURISTICS/che_axiomscan.c:62-99); `none` for the code 0. -/
def detectComm (C : List Lit) : Option Nat :=
  match C with
  | [L] =>
    if !L.pos then none
    else match L.l, L.r with
      | .app f [.var a, .var b], .app g [.var c, .var d] =>
        if f ≠ g then none else if a = b then none else if a ≠ d ∨ b ≠ c then none else some f
      | _, _ => none
  | _ => none

/-- The checks of `DetectAssociativity` on the side `f(l0,l1)` that has the inner term first and the side `f(r0,r1)`
(HEURISTICS/che_axiomscan.c:152-170). -/
def detectAssocSides (f : Nat) (l0 l1 r0 r1 : Term) : Option Nat :=
  match l0, l1 with
  | .app f' [.var v1, .var v2], .var v3 =>
    if f ≠ f' then none
    else if v1 = v2 ∨ v1 = v3 ∨ v2 = v3 then none
    else match r1 with
      | .app f'' [x, y] =>
        if f ≠ f'' then none else if r0 ≠ .var v1 then none else if x ≠ .var v2 then none else if y ≠ .var v3 then none else some f
      | _ => none
  | _, _ => none

/-- `DetectAssociativity` (HEURISTICS/che_axiomscan.c:116-171).  The weight of the left side is tested twice, that of the right side
not at all (128-131). -/
def detectAssoc (C : List Lit) : Option Nat :=
  match C with
  | [L] =>
    if !L.pos then none
    else if L.l.sw ≠ 2 * (FW : Int) + 3 * (VW : Int) then none
    else match L.l, L.r with
      | .app f [a0, a1], .app g [b0, b1] =>
        if f ≠ g then none
        else if a0.isVar then detectAssocSides f b0 b1 a0 a1
        else detectAssocSides f a0 a1 b0 b1
      | _, _ => none
  | _ => none

/-- `ClauseScanAC` (HEURISTICS/che_axiomscan.c:187-211): the result and the new properties. -/
def scanAC (s : ACSig) (C : List Lit) : Bool × ACSig :=
  match detectComm C with
  | some f => (true, { s with comm := fun g => g == f || s.comm g })
  | none =>
    match detectAssoc C with
    | some f => (false, { s with assoc := fun g => g == f || s.assoc g })
    | none => (false, s)

/-- `ClauseSetScanAC` (HEURISTICS/che_axiomscan.c:227-238), and any later calls of `check_ac_status` (CONTROL/cco_proofproc.c:86-103) for
clauses as they are processed. -/
def scanACSet (s : ACSig) (Cs : List (List Lit)) : Bool × ACSig :=
  Cs.foldl (fun r C => let q := scanAC r.2 C; (r.1 || q.1, q.2)) (false, s)

/-- `EqnIsACTrivial` (CLAUSES/ccl_eqn.c:1575-1578). -/
def Lit.acTrivial (s : ACSig) (ad : Bool → List Nat → Nat → Nat) (L : Lit) : Bool := termACEqual s (ad false) (ad true) L.l L.r

/-- `EqnListRemoveACResolved` (CLAUSES/ccl_eqnlist.c:903-920); `ad k` gives the addresses used for the `k`-th literal. -/
def removeACResolved (s : ACSig) (ad : Nat → Bool → List Nat → Nat → Nat) (k : Nat) : List Lit → List Lit
  | [] => []
  | L :: C => if !L.pos && L.acTrivial s (ad k) then removeACResolved s ad (k + 1) C else L :: removeACResolved s ad (k + 1) C

/-- `ClauseRemoveACResolved` (CLAUSES/ccl_clausefunc.c:345-369): nothing is done for clauses without negative literals. -/
def clauseRemoveACResolved (s : ACSig) (ad : Nat → Bool → List Nat → Nat → Nat) (C : List Lit) : List Lit :=
  if C.all fun L => L.pos then C else removeACResolved s ad 0 C

/-- `EqnListIsACTrivial` (CLAUSES/ccl_eqnlist.c:1139-1150). -/
def listACTrivial (s : ACSig) (ad : Nat → Bool → List Nat → Nat → Nat) (k : Nat) : List Lit → Bool
  | [] => false
  | L :: C => if L.pos && L.acTrivial s (ad k) then true else listACTrivial s ad (k + 1) C

/-- `ClauseIsACRedundant` (CLAUSES/ccl_clauses.c:665-676): small positive units are not redundant, the AC axioms are among them. -/
def isACRedundant (s : ACSig) (ad : Nat → Bool → List Nat → Nat → Nat) (C : List Lit) : Bool :=
  match C with
  | [L] =>
    if L.pos then
      if L.l.sw + L.r.sw ≤ 4 * (FW : Int) + 6 * (VW : Int) then false else listACTrivial s ad 0 C
    else listACTrivial s ad 0 C
  | _ => listACTrivial s ad 0 C

end Verif
