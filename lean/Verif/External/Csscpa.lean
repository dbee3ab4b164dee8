import Verif.Clauses.Subsume
import Verif.Clauses.Taut
import Verif.Clauses.Infer

/-!
# The clause filter CSSCPA

Model of EXTERNAL/cex_csscpa.c, the program `CSSCPA_filter`: it reads commands `accept: C` and `check: C` and
maintains a set of clauses.

Clauses are lists of literals; none carries the bit `EPIsOriented`, because `EqnAlloc`
(CLAUSES/ccl_eqn.c:633) clears it and nothing in the program orients a literal of a stored clause.  They are also never sorted:
`ClauseSubsumeOrderSortLits` is not called, and no clause set has a feature vector index.
-/

namespace Verif
namespace Csscpa

/-- A literal as it is read: not oriented (CLAUSES/ccl_eqn.c:633). -/
def raw (C : List Lit) : List OLit := C.map fun L => ⟨L, false⟩

/-- What the run depends on besides the input: the bit `TPPredPos` of terms, a bound `fuel` for loops (`none` = not enough),
the numbering and the two sorted lists used by the tautology test for long clauses (see `clauseIsTautology`), and
the order in which a discrimination tree enumerates its entries. -/
structure Env where
  pp : Term → Bool
  fuel : Nat
  no : Term → Int
  posSorted : List Lit → List Lit
  negSorted : List Lit → List Lit
  order : List UnitPos → List UnitPos

/-- `CSSCPAStateCell` (EXTERNAL/cex_csscpa.h): the three clause sets and the three counters. -/
structure State where
  pos : List (List Lit)
  neg : List (List Lit)
  non : List (List Lit)
  clauses : Int
  literals : Int
  weight : Int

/-- `CSSCPAStateAlloc` (EXTERNAL/cex_csscpa.c:209-226). -/
def State.init : State := ⟨[], [], [], 0, 0, 0⟩

/-- The clauses printed at the end (EXTERNAL/CSSCPA_filter.c:149-151). -/
def State.kept (s : State) : List (List Lit) := s.pos ++ s.neg ++ s.non

/-- A command (EXTERNAL/cex_csscpa.c:498-546).  `improves sub w W n` is the test of lines 334-342 for the deltas of the
command: `sub` the weight of the subsumed clauses, `w` the weight of the clause, `W` and `n` the weight and number of
clauses of the state.  It is computed with floating point numbers and left arbitrary here (`improvesExact` is the test without
rounding). -/
structure Cmd where
  accept : Bool
  improves : Int → Int → Int → Int → Bool
  clause : List Lit

/-- Lines 334-342 with exact arithmetic; the deltas are `wd / 1000` and `ad / 1000`. -/
def improvesExact (wd ad : Int) (sub w W n : Int) : Bool :=
  decide ((sub - w) * 1000 > wd * W) ||
    (decide (n ≠ 0) && decide ((W + w) * n * 1000 < (1000 - ad) * W * (n + 1)))

/-- The status of the clause; `rejected` is split by its three reasons. -/
inductive Outcome where
  | tautology
  | subsumed
  | weighty
  | improved
  | forced
  | contradicts
deriving DecidableEq

/-- The return value of `CSSCPAProcessClause` (EXTERNAL/cex_csscpa.c:423). -/
def Outcome.taken : Outcome → Bool
  | .contradicts | .improved | .forced => true
  | _ => false

/-- The entries of the discrimination tree of a set of unit clauses (`ClauseSetPDTIndexedInsert`,
CLAUSES/ccl_clausesets.c:538-570): both sides, as no literal is oriented. -/
def entries (units : List (List Lit)) : List UnitPos :=
  units.flatMap fun C => C.flatMap fun L => [⟨L, true⟩, ⟨L, false⟩]

/-- Lines 301-308: the clause is subsumed by a kept clause.  `StrongUnitForwardSubsumption` is off (CLAUSES/ccl_subsumption.c:33). -/
def fwdSubsumed (sg : Sig) (e : Env) (s : State) (C : List Lit) : Bool :=
  (decide (C.countP (·.pos) ≠ 0) && (unitSetSubsumes sg e.pp (e.order (entries s.pos)) false e.fuel C).isSome) ||
  (decide (C.countP (!·.pos) ≠ 0) && (unitSetSubsumes sg e.pp (e.order (entries s.neg)) false e.fuel C).isSome) ||
  (decide (C.length > 1) && (setSubsumes sg e.pp (s.non.map raw) (raw C)).isSome)

/-- `UnitClauseSubsumesClause` for units, `clause_subsumes_clause` otherwise (EXTERNAL/cex_csscpa.c:121-141). -/
def subsumes (sg : Sig) (e : Env) (C D : List Lit) : Bool := clauseSubsumes sg e.pp (raw C) (raw D)

/-- `collect_subsumed` (EXTERNAL/cex_csscpa.c:113-143): the subsumed clauses of a set. -/
def collect (sg : Sig) (e : Env) (C : List Lit) (S : List (List Lit)) : List (List Lit) := S.filter (subsumes sg e C)

/-- The set without the subsumed clauses (`ClauseSetDeleteEntry` in EXTERNAL/cex_csscpa.c:374). -/
def remaining (sg : Sig) (e : Env) (C : List Lit) (S : List (List Lit)) : List (List Lit) :=
  S.filter fun D => !subsumes sg e C D

def isPosUnit (C : List Lit) : Bool := decide (C.length = 1) && decide (C.countP (!·.pos) = 0)
def isNegUnit (C : List Lit) : Bool := decide (C.length = 1) && !decide (C.countP (!·.pos) = 0)

/-- `ClauseStandardWeight`. -/
def weight (C : List Lit) : Int := clauseSW (raw C)

/-- The stack `subsumed` after line 333. -/
def victims (sg : Sig) (e : Env) (s : State) (C : List Lit) : List (List Lit) :=
  (if isPosUnit C then collect sg e C s.pos else if isNegUnit C then collect sg e C s.neg else []) ++ collect sg e C s.non

/-- `EqnUnifyP` (CLAUSES/ccl_eqn.c:2191-2227) for unoriented literals. -/
def unifyP (sg : Sig) (e : Env) (L K : Lit) : Option Bool :=
  match eqnUnifyDirected sg e.pp e.fuel L.l L.r K.l K.r .empty with
  | none => none
  | some (true, _) => some true
  | some (false, _) => (eqnUnifyDirected sg e.pp e.fuel L.r L.l K.l K.r .empty).map (·.1)

/-- The loop of `find_unit_contradiction` (EXTERNAL/cex_csscpa.c:178-189). -/
def findUnifying (sg : Sig) (e : Env) (L : Lit) : List (List Lit) → Option Bool
  | [] => some false
  | (K :: _) :: S =>
    match unifyP sg e L K with
    | none => none
    | some true => some true
    | some false => findUnifying sg e L S
  | [] :: S => findUnifying sg e L S

/-- `find_unit_contradiction` (EXTERNAL/cex_csscpa.c:160-190). -/
def findContradiction (sg : Sig) (e : Env) (s : State) : List Lit → Option Bool
  | [] => some false
  | L :: _ => findUnifying sg e L (if L.pos then s.neg else s.pos)

/-- Lines 362-391: delete the subsumed clauses, insert the clause, update the counters. -/
def integrate (sg : Sig) (e : Env) (s : State) (C : List Lit) : State :=
  let v := victims sg e s C
  let pos := if isPosUnit C then remaining sg e C s.pos else s.pos
  let neg := if isNegUnit C then remaining sg e C s.neg else s.neg
  let non := remaining sg e C s.non
  { pos := if isPosUnit C then pos ++ [C] else pos
    neg := if isNegUnit C then neg ++ [C] else neg
    non := if C.length = 1 then non else non ++ [C]
    clauses := s.clauses - v.length + 1
    literals := s.literals - (v.map fun D => (D.length : Int)).sum + C.length
    weight := s.weight - (v.map weight).sum + weight C }

/-- Lines 334-357: the status of a clause that is neither a tautology nor subsumed. -/
def decideStatus (sg : Sig) (e : Env) (s : State) (c : Cmd) : Option Outcome :=
  if c.improves ((victims sg e s c.clause).map weight).sum (weight c.clause) s.weight s.clauses then some .improved
  else
    match (if c.clause.length = 1 then findContradiction sg e s c.clause else some false) with
    | none => none
    | some true => some .contradicts
    | some false => some (if c.accept then .forced else .weighty)

/-- `CSSCPAProcessClause` (EXTERNAL/cex_csscpa.c:274-424). -/
def process (sg : Sig) (e : Env) (s : State) (c : Cmd) : Option (State × Outcome) :=
  match clauseIsTautology sg e.no (e.posSorted c.clause) (e.negSorted c.clause) e.fuel c.clause with
  | none => none
  | some true => some (s, .tautology)
  | some false =>
    if fwdSubsumed sg e s c.clause then some (s, .subsumed)
    else
      match decideStatus sg e s c with
      | none => none
      | some o => some (if o.taken then integrate sg e s c.clause else s, o)

/-- `CSSCPALoop` (EXTERNAL/cex_csscpa.c:440-548) over the commands `accept` and `check`; the other commands only print. -/
def run (sg : Sig) (e : Env) : State → List Cmd → Option (State × List Outcome)
  | s, [] => some (s, [])
  | s, c :: cs =>
    match process sg e s c with
    | none => none
    | some (s1, o) =>
      match run sg e s1 cs with
      | none => none
      | some (s2, os) => some (s2, o :: os)

end Csscpa
end Verif
