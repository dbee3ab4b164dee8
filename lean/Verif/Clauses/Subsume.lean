import Verif.Clauses.Lit
import Verif.Props.Match

/-!
# Subsumption and unit simplification

Model of CLAUSES/ccl_subsumption.c and CLAUSES/ccl_unit_simplify.c (first-order mode).

`pp` is the property `TPPredPos` of term cells (see `substComputeMatch`).
-/

namespace Verif

/-- A literal with the bit `EPIsOriented`. -/
structure OLit extends Lit where
  ori : Bool
deriving DecidableEq

def OLit.plain (C : List OLit) : List Lit := C.map OLit.toLit

/-- `EqnIsEquLit`: the literal is not an atom `p(…) = $true` (CLAUSES/ccl_eqn.h, EqnAlloc ccl_eqn.c:614-683). -/
def Lit.equ (L : Lit) : Bool := decide (L.r ≠ tTrue)

/-- `f_code`; negative for variables. -/
def Term.code : Term → Int
  | .var x => -x
  | .app f _ => f

/-- `EqnStandardWeight` (CLAUSES/ccl_eqn.h:326-328). -/
def Lit.sw (L : Lit) : Int := L.l.sw + L.r.sw

/-- `ClauseStandardWeight` (CLAUSES/ccl_clauses.c): sum over the literals. -/
def clauseSW (C : List OLit) : Int := (C.map fun L => L.toLit.sw).sum

/-- `EqnSubsumeQOrderCompare` (CLAUSES/ccl_eqn.c:1740-1764), first-order case. -/
def subsumeQCmp (L K : Lit) : Ordering :=
  (compare L.pos.toNat K.pos.toNat).then <| (compare L.equ.toNat K.equ.toNat).then <|
    if L.equ then .eq else compare L.l.code K.l.code

/-- `SubstMatchComplete` = `SubstComputeMatch` in first-order mode; it always returns (`matching_exact`). -/
def matchC (sg : Sig) (pp : Term → Bool) (m t : Term) (st : SubstSt) : Bool × SubstSt :=
  (substComputeMatch sg m t (pp t) st).getD (false, st)

/-- The two matches `SubstMatchComplete(l, s) && SubstMatchComplete(r, t)`. -/
def matchPair (sg : Sig) (pp : Term → Bool) (l s r t : Term) (st : SubstSt) : Bool × SubstSt :=
  let a := matchC sg pp l s st
  if a.1 then matchC sg pp r t a.2 else a

/-! ## Units -/

/-- `eqn_topsubsumes_termpair` (CLAUSES/ccl_subsumption.c:169-195). -/
def topSubsumes (sg : Sig) (pp : Term → Bool) (L : Lit) (t1 t2 : Term) : Bool :=
  let a := matchC sg pp L.l t1 SubstSt.empty
  if a.1 then (matchC sg pp L.r t2 a.2).1
  else
    let b := matchC sg pp L.l t2 a.2
    if b.1 then (matchC sg pp L.r t1 b.2).1 else false

/-- The scan for differing arguments (CLAUSES/ccl_subsumption.c:236-250): no difference, exactly one, or more. -/
inductive Diff where
  | none
  | one (s t : Term)
  | many
deriving DecidableEq

def argDiff : List Term → List Term → Diff
  | s :: ss, t :: ts =>
    if s = t then argDiff ss ts
    else
      match argDiff ss ts with
      | .none => .one s t
      | _ => .many
  | _, _ => .none

/-- `eqn_subsumes_termpair` (CLAUSES/ccl_subsumption.c:210-259). -/
def subsumesPair (sg : Sig) (pp : Term → Bool) (L : Lit) : Nat → Term → Term → Option Bool
  | 0, _, _ => none
  | n + 1, t1, t2 =>
    if topSubsumes sg pp L t1 t2 then some true
    else
      match t1, t2 with
      | .app f ss, .app g ts =>
        if f ≠ g ∨ ss = [] ∨ ss.length ≠ ts.length then some false
        else
          match argDiff ss ts with
          | .many => some false
          | .none => some true
          | .one s t => subsumesPair sg pp L n s t
      | _, _ => some false

/-- `LiteralSubsumesClause` (CLAUSES/ccl_subsumption.c:1151-1179); `eqn_subsumes_termpair` needs at most as many
rounds as the left side has symbols. -/
def literalSubsumes (sg : Sig) (pp : Term → Bool) (L : Lit) : List Lit → Bool
  | [] => false
  | K :: D =>
    (if L.pos then K.pos && ((subsumesPair sg pp L K.l.size K.l K.r).getD false)
      else !K.pos && topSubsumes sg pp L K.l K.r) || literalSubsumes sg pp L D

/-! ## The backtracking search -/

/-- Try one orientation and, if the sides match, the remaining literals (CLAUSES/ccl_subsumption.c:557-565, 573-581). -/
def attempt (sg : Sig) (pp : Term → Bool) (l s r t : Term) (rec : SubstSt → Bool × SubstSt) (st : SubstSt) :
    Bool × SubstSt :=
  if (matchPair sg pp l s r t st).1 then rec (matchPair sg pp l s r t st).2 else matchPair sg pp l s r t st

/-- The loop of `eqn_list_rec_subsume` (CLAUSES/ccl_subsumption.c:522-585) for one literal `L` of the subsumer:
`rec` is the recursive call for the remaining literals, `i` the index `lcount`, `pick` the indices marked in `pick_list`. -/
def tryLits (sg : Sig) (pp : Term → Bool) (L : OLit) (rec : SubstSt → List Nat → Bool × SubstSt) :
    List OLit → Nat → SubstSt → List Nat → Bool × SubstSt
  | [], _, st, _ => (false, st)
  | K :: D, i, st, pick =>
    if i ∈ pick then tryLits sg pp L rec D (i + 1) st pick
    else
      match subsumeQCmp K.toLit L.toLit with
      | .lt => (false, st)
      | .gt => tryLits sg pp L rec D (i + 1) st pick
      | .eq =>
        if K.toLit.sw < L.toLit.sw then (false, st)
        else if L.ori && !K.ori then tryLits sg pp L rec D (i + 1) st pick
        else
          let r := attempt sg pp L.l K.l L.r K.r (fun s => rec s (i :: pick)) st
          if r.1 then r
          else
            let st1 := r.2.backtrackToPos st.stack.length
            if L.ori then tryLits sg pp L rec D (i + 1) st1 pick
            else
              let r' := attempt sg pp L.l K.r L.r K.l (fun s => rec s (i :: pick)) st1
              if r'.1 then r'
              else tryLits sg pp L rec D (i + 1) (r'.2.backtrackToPos st1.stack.length) pick

/-- `eqn_list_rec_subsume` (CLAUSES/ccl_subsumption.c:510-586). -/
def recSubsume (sg : Sig) (pp : Term → Bool) (D : List OLit) : List OLit → SubstSt → List Nat → Bool × SubstSt
  | [], st, _ => (true, st)
  | L :: C, st, pick => tryLits sg pp L (recSubsume sg pp D C) D 0 st pick

/-- `find_spec_literal` (CLAUSES/ccl_subsumption.c:314-360). -/
def findSpec (sg : Sig) (pp : Term → Bool) (L : OLit) : List OLit → Bool
  | [] => false
  | K :: D =>
    match subsumeQCmp L.toLit K.toLit with
    | .gt => false
    | .lt => findSpec sg pp L D
    | .eq =>
      if L.toLit.sw > K.toLit.sw then false
      else if L.ori && !K.ori then findSpec sg pp L D
      else if (matchPair sg pp L.l K.l L.r K.r SubstSt.empty).1 then true
      else if L.ori then findSpec sg pp L D
      else if (matchPair sg pp L.l K.r L.r K.l SubstSt.empty).1 then true
      else findSpec sg pp L D

/-- `clause_subsumes_clause` (CLAUSES/ccl_subsumption.c:602-683) = `ClauseSubsumesClause` (1395-1404).
The cached weights are those of the clauses (asserted in C). -/
def clauseSubsumes (sg : Sig) (pp : Term → Bool) (C D : List OLit) : Bool :=
  match C with
  | [] => true
  | [L] => literalSubsumes sg pp L.toLit (OLit.plain D)
  | _ =>
    if C.countP (·.pos) > D.countP (·.pos) ∨ C.countP (!·.pos) > D.countP (!·.pos) then false
    else if clauseSW C > clauseSW D then false
    else if (D.countP (·.pos) ≥ 3 ∨ D.countP (!·.pos) ≥ 3) ∧ (C.all fun L => findSpec sg pp L D) = false then false
    else (recSubsume sg pp D C SubstSt.empty []).1

/-- `clause_set_subsumes_clause` (CLAUSES/ccl_subsumption.c:699-718): the first subsuming clause. -/
def setSubsumes (sg : Sig) (pp : Term → Bool) (S : List (List OLit)) (D : List OLit) : Option (List OLit) :=
  S.find? fun C => clauseSubsumes sg pp C D

/-! ## Unit simplification -/

/-- A unit clause found in the index: the literal and the side that matches. -/
structure UnitPos where
  lit : Lit
  left : Bool

def UnitPos.this (u : UnitPos) : Term := if u.left then u.lit.l else u.lit.r
/-- `ClausePosGetOtherSide`. -/
def UnitPos.other (u : UnitPos) : Term := if u.left then u.lit.r else u.lit.l

/-- `FindSignedTopSimplifyingUnit` (CLAUSES/ccl_unit_simplify.c:110-135), and `FindTopSimplifyingUnit` (71-95) with
`sign = none`.  `units` are the entries of the index in the order in which the discrimination tree
enumerates them; that the enumeration delivers matching entries with the matching substitution is C29, here the match is done
directly. -/
def findTopUnit (sg : Sig) (pp : Term → Bool) (units : List UnitPos) (sign : Option Bool) (t1 t2 : Term) : Option UnitPos :=
  units.find? fun u =>
    let a := matchC sg pp u.this t1 SubstSt.empty
    a.1 && (match sign with | none => true | some s => u.lit.pos == s) && (matchC sg pp u.other t2 a.2).1

/-- The loop of `FindSimplifyingUnit` (CLAUSES/ccl_unit_simplify.c:172-209). -/
def findUnitLoop (sg : Sig) (pp : Term → Bool) (units : List UnitPos) : Nat → Term → Term → Option UnitPos
  | 0, _, _ => none
  | n + 1, t1, t2 =>
    match t1, t2 with
    | .app f ss, .app g ts =>
      if f ≠ g ∨ ss = [] then none
      else
        match argDiff ss ts with
        | .one s t =>
          match findTopUnit sg pp units (some true) s t with
          | some u => some u
          | none => findUnitLoop sg pp units n s t
        | _ => none
    | _, _ => none

/-- `FindSimplifyingUnit` (CLAUSES/ccl_unit_simplify.c:151-211). -/
def findUnit (sg : Sig) (pp : Term → Bool) (units : List UnitPos) (positiveOnly : Bool) (t1 t2 : Term) : Option UnitPos :=
  match findTopUnit sg pp units (if positiveOnly then some true else none) t1 t2 with
  | some u => some u
  | none => findUnitLoop sg pp units t1.size t1 t2

/-- `unit_clause_set_strongsubsumes_termpair` (CLAUSES/ccl_subsumption.c:66-105): the stack of pairs, top first, and the
last result. -/
def strongUnit (sg : Sig) (pp : Term → Bool) (units : List UnitPos) (sign : Bool) :
    Nat → List (Term × Term) → Option UnitPos → Option UnitPos
  | 0, _, _ => none
  | _ + 1, [], res => res
  | n + 1, (t1, t2) :: stk, _ =>
    match findTopUnit sg pp units (some sign) t1 t2 with
    | some u => strongUnit sg pp units sign n stk (some u)
    | none =>
      match t1, t2 with
      | .app f ss, .app g ts =>
        if f ≠ g ∨ ss = [] then none
        else strongUnit sg pp units sign n (((ss.zip ts).filter fun p => decide (p.1 ≠ p.2)).reverse ++ stk) none
      | _, _ => none

/-- The search used for positive units: strong or ordinary (`StrongUnitForwardSubsumption`). -/
def findPosUnit (sg : Sig) (pp : Term → Bool) (units : List UnitPos) (strong : Bool) (n : Nat) (t1 t2 : Term) :
    Option UnitPos :=
  if strong then strongUnit sg pp units true n [(t1, t2)] none else findUnit sg pp units true t1 t2

/-- `UnitClauseSetSubsumesClause` (CLAUSES/ccl_subsumption.c:121-154, 1224-1238). -/
def unitSetSubsumes (sg : Sig) (pp : Term → Bool) (units : List UnitPos) (strong : Bool) (n : Nat) :
    List Lit → Option UnitPos
  | [] => none
  | K :: D =>
    let res := if K.pos then findPosUnit sg pp units strong n K.l K.r
      else findTopUnit sg pp units (some false) K.l K.r
    match res with
    | some u => some u
    | none => unitSetSubsumes sg pp units strong n D

/-- `ClausePositiveSimplifyReflect` (CLAUSES/ccl_subsumption.c:1288-1327); also the units recorded in the derivation. -/
def positiveSR (sg : Sig) (pp : Term → Bool) (units : List UnitPos) (strong : Bool) (n : Nat) :
    List Lit → List Lit × List UnitPos
  | [] => ([], [])
  | K :: D =>
    let q := positiveSR sg pp units strong n D
    if K.pos then (K :: q.1, q.2)
    else
      match findPosUnit sg pp units strong n K.l K.r with
      | some u => (q.1, u :: q.2)
      | none => (K :: q.1, q.2)

/-- `ClauseNegativeSimplifyReflect` (CLAUSES/ccl_subsumption.c:1345-1380). -/
def negativeSR (sg : Sig) (pp : Term → Bool) (units : List UnitPos) : List Lit → List Lit × List UnitPos
  | [] => ([], [])
  | K :: D =>
    let q := negativeSR sg pp units D
    if K.pos then
      match findTopUnit sg pp units (some false) K.l K.r with
      | some u => (q.1, u :: q.2)
      | none => (K :: q.1, q.2)
    else (K :: q.1, q.2)

/-- Outcome of `ClauseSimplifyWithUnitSet`. -/
inductive UnitRes where
  /-- subsumed by a unit (the C function returns false) -/
  | subsumed (u : UnitPos)
  | clause (C : List Lit) (us : List UnitPos)

/-- `ClauseSimplifyWithUnitSet` (CLAUSES/ccl_unit_simplify.c:232-287); `top` is TopLevelUnitSimplify. -/
def simplifyWithUnits (sg : Sig) (pp : Term → Bool) (units : List UnitPos) (top : Bool) : List Lit → UnitRes
  | [] => .clause [] []
  | K :: D =>
    match (if top then findTopUnit sg pp units none K.l K.r else findUnit sg pp units false K.l K.r) with
    | some u =>
      if K.pos = u.lit.pos then .subsumed u
      else
        match simplifyWithUnits sg pp units top D with
        | .subsumed v => .subsumed v
        | .clause C us => .clause C (u :: us)
    | none =>
      match simplifyWithUnits sg pp units top D with
      | .subsumed v => .subsumed v
      | .clause C us => .clause (K :: C) us

end Verif
