import Verif.Clauses.Infer
import Verif.Clauses.Taut

/-!
# Grounding of near-propositional clause sets

Model of CLAUSES/ccl_grounding.c, CLAUSES/ccl_groundconstr.c and the part of PROVER/eground.c between clausification and output (without splitting, time and memory limits, `--add-one-instance`).
-/

namespace Verif
namespace Ground

/-- What the signature records about a symbol above the internal ones (`f_info`, TERMS/cte_signature.h). -/
structure SymInfo where
  code : Nat
  arity : Nat
  pred : Bool
  special : Bool

/-- `SigFindMaxFunctionArity` (TERMS/cte_signature.c:1182-1196). -/
def maxFunArity (tb : List SymInfo) : Nat := tb.foldl (fun m s => if !s.pred && !s.special then max m s.arity else m) 0

/-- `SigCollectConstantTerms` with `uniq` = 0 (CLAUSES/ccl_groundconstr.c:343-368); `sk` is the code of the new Skolem constant. -/
def constTerms (tb : List SymInfo) (sk : Nat) : List Term :=
  let l := (tb.filter fun s => !s.pred && !s.special && s.arity == 0).map fun s => Term.app s.code []
  if l.isEmpty then [.app sk []] else l

/-! ## Instances of the variables -/

/-- `VarInstCell` (CLAUSES/ccl_grounding.h:36-41). -/
structure VCell where
  var : Nat
  alts : List Term
  pos : Nat

/-- `varsetinstinitialize` (CLAUSES/ccl_grounding.c:135-150); `none` is the result `false`. -/
def vInit : List VCell → Option (List VCell)
  | [] => some []
  | c :: cs => if c.alts.length = 0 then none else (vInit cs).map ({ c with pos := c.alts.length - 1 } :: ·)

/-- `varsetinstnext` (CLAUSES/ccl_grounding.c:192-207). -/
def vNext : List VCell → Option (List VCell)
  | [] => none
  | c :: cs => if c.pos ≠ 0 then some ({ c with pos := c.pos - 1 } :: cs) else (vNext cs).map ({ c with pos := c.alts.length - 1 } :: ·)

/-- The bindings set by `varsetinstapply` (CLAUSES/ccl_grounding.c:82-97). -/
def vApply : List VCell → Nat → Term
  | [], x => .var x
  | c :: cs, x => if x = c.var then c.alts.getD c.pos (.var x) else vApply cs x

/-! ## Ground sets -/

/-- `GroundSetCell` (CLAUSES/ccl_grounding.h:70-82).  The array of units, indexed by the numbers of atoms, is the list of unit literals. -/
structure GroundSet where
  units : List Lit
  nonUnits : List (List Lit)
  maxLit : Nat

/-- `GroundSetAlloc` (CLAUSES/ccl_grounding.c:634-649). -/
def GroundSet.empty : GroundSet := ⟨[], [], 0⟩

/-- Is there a unit with this sign and atom: the test of `status` (CLAUSES/ccl_grounding.c:756-758, 873-897). -/
def hasUnit (gs : GroundSet) (pos : Bool) (t : Term) : Bool := gs.units.any fun L => decide (L.pos = pos ∧ L.l = t)

/-- `GroundSetInsert` (CLAUSES/ccl_grounding.c:728-773); `no` gives the numbers of atoms. -/
def insert (no : Term → Nat) (gs : GroundSet) (C : List Lit) : GroundSet :=
  match C with
  | [L] => if hasUnit gs L.pos L.l then gs else { gs with units := gs.units ++ [L], maxLit := max gs.maxLit (no L.l) }
  | C => { gs with nonUnits := gs.nonUnits ++ [C], maxLit := max gs.maxLit (C.foldl (fun m L => max m (no L.l)) 0) }

/-- `GroundSetUnitSimplifyClause` (CLAUSES/ccl_grounding.c:863-910); `none` means subsumed. -/
def unitSimp (gs : GroundSet) (subsume resolve : Bool) : List Lit → Option (List Lit)
  | [] => some []
  | L :: C =>
    if subsume && hasUnit gs L.pos L.l then none
    else if resolve && hasUnit gs (!L.pos) L.l then unitSimp gs subsume resolve C
    else (unitSimp gs subsume resolve C).map (L :: ·)

/-- The options of `eground`. -/
structure Opts where
  subsume : Bool := true
  resolve : Bool := true
  taut : Bool := true
  constraints : Bool := false

/-- The body of the loop in `ClauseCreateGroundInstances` (CLAUSES/ccl_grounding.c:954-982). -/
def addInstance (no : Term → Nat) (o : Opts) (gs : GroundSet) (C : List Lit) : Bool × GroundSet :=
  let C := removeDup C
  if o.taut && listIsTrivial C then (true, gs)
  else
    match unitSimp gs o.subsume o.resolve C with
    | none => (true, gs)
    | some [] => (false, insert no { gs with units := [], nonUnits := [] } [])
    | some D => (true, insert no gs D)

/-- The loop of `ClauseCreateGroundInstances` (CLAUSES/ccl_grounding.c:952-984).  The first argument bounds the number of rounds; `none` means more are needed. -/
def instLoop (no : Term → Nat) (o : Opts) (C : List Lit) : Nat → Option (List VCell) → GroundSet → Option (Bool × GroundSet)
  | _, none, gs => some (true, gs)
  | 0, some _, _ => none
  | k + 1, some q, gs =>
    let r := addInstance no o gs (csubst (vApply q) C)
    if r.1 then instLoop no o C k (vNext q) r.2 else some r

/-- `ClauseCreateGroundInstances` (CLAUSES/ccl_grounding.c:927-988). -/
def clauseInstances (k : Nat) (no : Term → Nat) (o : Opts) (C : List Lit) (inst : List VCell) (gs : GroundSet) : Option (Bool × GroundSet) := instLoop no o C k (vInit inst) gs

/-! ## Purity constraints -/

/-- `LitOccTable` (CLAUSES/ccl_groundconstr.h): for predicate and argument number, whether it is constrained, and the terms. -/
abbrev OccTable := Nat → Nat → Bool × List Term

/-- `LitPosAddConstraint` (CLAUSES/ccl_groundconstr.c:206-220). -/
def addConstraint (tab : OccTable) (p i : Nat) (t : Term) : OccTable := fun p' i' =>
  if p' = p ∧ i' = i then (if t.isVar then (false, (tab p' i').2) else ((tab p' i').1, t :: (tab p' i').2)) else tab p' i'

/-- The arguments of an atom. -/
def atomArgs : Term → List Term
  | .var _ => []
  | .app _ ts => ts

/-- The predicate symbol of an atom. -/
def atomPred : Term → Nat
  | .var _ => 0
  | .app p _ => p

/-- The loop over arguments of `LitOccAddLitAlt` (CLAUSES/ccl_groundconstr.c:255-258). -/
def addArgs (p : Nat) : List Term → Nat → OccTable → OccTable
  | [], _, tab => tab
  | t :: ts, i, tab => addArgs p ts (i + 1) (addConstraint tab p i t)

/-- `LitOccAddLitAlt`, `LitOccAddClauseAlt`, `LitOccAddClauseSetAlt` (CLAUSES/ccl_groundconstr.c:236-309) for the table of one sign, starting with the table of `LitOccTableAlloc` (63-85). -/
def occTable (sign : Bool) (S : List (List Lit)) : OccTable :=
  S.foldl (fun tab C => C.foldl (fun tab L => if L.pos = sign then addArgs (atomPred L.l) (atomArgs L.l) 0 tab else tab) tab) fun _ _ => (true, [])

/-- The loop of `EqnCollectVarConstr` (CLAUSES/ccl_groundconstr.c:399-420). -/
def constrArgs (tab : OccTable) (p : Nat) : List Term → Nat → (Nat → List Term) → Nat → List Term
  | [], _, vc => vc
  | .app _ _ :: ts, i, vc => constrArgs tab p ts (i + 1) vc
  | .var x :: ts, i, vc =>
    constrArgs tab p ts (i + 1) (if (tab p i).1 then fun y => if y = x then (vc y).filter fun t => decide (t ∈ (tab p i).2) else vc y else vc)

/-- `ClauseCollectVarConstr` (CLAUSES/ccl_groundconstr.c:386-449): the table of the opposite sign constrains the variables. -/
def clauseConstr (S : List (List Lit)) (cs : List Term) (C : List Lit) : Nat → List Term :=
  C.foldl (fun vc L => constrArgs (occTable (!L.pos) S) (atomPred L.l) (atomArgs L.l) 0 vc) fun _ => cs

/-- `VarSetInstAlloc` with the default terms (CLAUSES/ccl_grounding.c:371-399, 1039-1043) or `VarSetConstrInstAlloc` (446-496).  The variables of a clause come in the order `vs C`. -/
def varCells (o : Opts) (S : List (List Lit)) (cs : List Term) (vs : List Lit → List Nat) (C : List Lit) : List VCell :=
  (vs C).map fun x => ⟨x, if o.constraints then clauseConstr S cs C x else cs, 0⟩

/-- The loops of `ClauseSetCreateGroundInstances`, `ClauseSetCreateConstrGroundInstances` (CLAUSES/ccl_grounding.c:1036-1052, 1115-1141). -/
def setInstances (k : Nat) (no : Term → Nat) (o : Opts) (S : List (List Lit)) (cs : List Term) (vs : List Lit → List Nat) : List (List Lit) → GroundSet → Option (Bool × GroundSet)
  | [], gs => some (true, gs)
  | C :: Cs, gs =>
    match clauseInstances k no o C (varCells o S cs vs C) gs with
    | none => none
    | some (true, gs) => setInstances k no o S cs vs Cs gs
    | some (false, gs) => some (false, gs)

/-- Outcome of `eground`. -/
inductive GroundRes where
  | notNearProp
  | done (gs : GroundSet)

/-- `main` (PROVER/eground.c:479-526).  The order in which the clauses are sorted does not matter. -/
def eground (k : Nat) (no : Term → Nat) (o : Opts) (tb : List SymInfo) (sk : Nat) (vs : List Lit → List Nat) (S : List (List Lit)) : Option GroundRes :=
  if maxFunArity tb ≠ 0 ∧ (S.all fun C => (cvars C).isEmpty) = false then some .notNearProp
  else (setInstances k no o S (constTerms tb sk) vs S GroundSet.empty).map fun r => .done r.2

/-- The estimate without constraints (CLAUSES/ccl_grounding.c:1018-1034): does the program give up?  The number of terms is stored in a variable of type `bool`. -/
def givesUp (terms vars giveUp : Nat) : Bool :=
  let tmp : Nat := if terms ≠ 0 then 1 else 0
  (List.range vars).any fun i => decide (tmp ^ (i + 1) > giveUp)

/-! ## Output in DIMACS format -/

/-- Where a number is printed: `out` or `stdout`. -/
inductive Stream where
  | out
  | stdout
deriving DecidableEq

/-- The number for a literal. -/
def litNo (no : Term → Nat) (L : Lit) : Int := if L.pos then (no L.l : Int) else -(no L.l : Int)

/-- `ClausePrintDimacs` (CLAUSES/ccl_grounding.c:571-596). -/
def printClause (no : Term → Nat) (C : List Lit) : List (Stream × Int) :=
  if C.isEmpty then [(.out, -1), (.out, 0), (.out, 1), (.out, 0)] else (C.map fun L => (.stdout, litNo no L)) ++ [(.out, 0)]

/-- `GroundSetPrintDimacs` (CLAUSES/ccl_grounding.c:822-847).  The units are printed in the order of their numbers, here in that of insertion. -/
def printSet (no : Term → Nat) (gs : GroundSet) : List (Stream × Int) :=
  (gs.units.flatMap fun L => [(.out, litNo no L), (.out, 0)]) ++ gs.nonUnits.flatMap (printClause no)

/-- The contents of the output, which is `stdout` or another file. -/
def output (isStdout : Bool) (l : List (Stream × Int)) : List Int := (l.filter fun p => isStdout || decide (p.1 = .out)).map Prod.snd

/-- The numbers in the first line: `PrintDimacsHeader`, `GroundSetMaxVar`, `GroundSetDimacsPrintMembers` (CLAUSES/ccl_grounding.c:549-556, 690-712, ccl_grounding.h:123-130, PROVER/eground.c:550-558). -/
def header (no : Term → Nat) (fixMinisat : Bool) (gs : GroundSet) : Nat × Nat :=
  let m := if fixMinisat then ((gs.units :: gs.nonUnits).flatten).foldl (fun m L => max m (no L.l)) 0 else gs.maxLit
  (if m = 0 then 1 else m, gs.units.length + gs.nonUnits.length + (gs.nonUnits.filter List.isEmpty).length)

end Ground
end Verif
