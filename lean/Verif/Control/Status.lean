import Verif.Control.Saturate

/-!
# What the prover reports

Model of `main` in PROVER/eprover.c (the parts of 594-982 that decide the SZS status line and the exit code), and of
the search for conjectures in a derivation (`DerivationMarkProofSteps`, CLAUSES/ccl_derivation.c:2181-2252).

The code prints the status lines only if compiled with the macro `TSTP` (BASICS/clb_defines.h:131); the model is about such a
binary.  Left out: error exits, and the signal handler that prints `ResourceOut` when the hard time limit is reached.
-/

namespace Verif

/-- The SZS status values printed by `main`. -/
inductive Szs
  | thm | contradictoryAxioms | unsatisfiable | satisfiable | counterSatisfiable | gaveUp | resourceOut | unknown
deriving DecidableEq, Repr

/-- The options that matter (`process_options`, PROVER/eprover.c): `incomplete`: `--assume-incompleteness` (1569-1571); `assume`:
`--assume-completeness` (1566-1568); `eqFactoring`, `negUnitPM` are `h_parms->enable_eq_factoring` and `enable_neg_unit_paramod`, cleared
together with `inf_sys_complete` in 1575-1582; `noGeneration` and `eqMax` are the tests of the selection strategy and of the
literal comparison in 813-814; `silent` is `SilentTimeOut`. -/
structure MainOpts where
  syntaxOnly : Bool := false
  printFormulas : Bool := false
  appEncode : Bool := false
  pruneOnly : Bool := false
  cnfOnly : Bool := false
  incomplete : Bool := false
  assume : Bool := false
  eqFactoring : Bool := true
  negUnitPM : Bool := true
  noGeneration : Bool := false
  eqMax : Bool := false
  silent : Bool := false

/-- What `main` learns about the problem and during the run: `pruned`: `relevancy_pruned` (630-632); `negConj`: number of conjectures
(655-659); `unimplemented`: `SigHasUnimplementedInterpretedSymbols` (812); `interpreted`: `has_interpreted_symbols`;
`higherOrder`: `problemType == PROBLEM_HO`; `watch`: is there a watch list, and is it empty at the end; `answers`: one
entry for each semantically false clause that was selected, telling whether it has (answer) literals (CONTROL/cco_proofproc.c:1608-1620);
`hasConj`: `deriv->has_conjecture`. -/
structure MainFacts where
  pruned : Nat := 0
  negConj : Nat := 0
  unimplemented : Bool := false
  interpreted : Bool := false
  higherOrder : Bool := false
  watch : Option Bool := none
  answers : List Bool := []
  hasConj : Bool := false

/-- Exit codes (BASICS/clb_error.h:46-56). -/
def exitProofFound : Nat := 0
def exitNoError : Nat := 0
def exitSatisfiable : Nat := 1
def exitResourceOut : Nat := 9
def exitIncomplete : Nat := 10

/-- `inf_sys_complete` after 812-819. -/
def infSysComplete (o : MainOpts) (f : MainFacts) : Bool :=
  !(f.unimplemented || o.noGeneration || o.eqMax || !o.eqFactoring || !o.negUnitPM)

/-- Lines 926-982: no proof was found. -/
def reportFailure (o : MainOpts) (f : MainFacts) (outOfClauses stateComplete : Bool) : List Szs × Nat :=
  let quiet := fun z : Szs => if o.silent then [] else [z]
  if outOfClauses then
    if !(infSysComplete o f || o.assume) then (quiet .gaveUp, exitIncomplete)
    else if stateComplete && infSysComplete o f && f.interpreted then (quiet .gaveUp, exitIncomplete)
    else if !f.higherOrder && stateComplete && infSysComplete o f then
      ([if f.negConj ≠ 0 then .counterSatisfiable else .satisfiable], exitSatisfiable)
    else (quiet .gaveUp, exitIncomplete)
  else (quiet .resourceOut, exitResourceOut)

/-- Lines 869-881: a proof was found.  `reported`: `ClausePrintAnswer` already printed a status (CONTROL/cco_interpreted.c:109-137). -/
def reportProof (f : MainFacts) (reported : Bool) : List Szs :=
  if reported then []
  else if f.negConj ≠ 0 then [if f.hasConj then .thm else .contradictoryAxioms]
  else [.unsatisfiable]

/-- Lines 649-652 and the end of the run: `state_is_complete`. -/
def stateComplete (o : MainOpts) (f : MainFacts) (s : SatState) : Bool :=
  s.complete && !(f.pruned ≠ 0 || o.incomplete)

/-- The status lines printed, in order, and the exit code.  `s` is the proof state after `Saturate` (829), `fin` the one after
`ProofStateFilterUnprocessed` (830-840; the same as `s` if that is off). -/
def mainReport (o : MainOpts) (f : MainFacts) (s fin : SatState) : List Szs × Nat :=
  if o.syntaxOnly then (if o.printFormulas then [] else [.unknown], exitNoError)                 -- 594-606
  else if o.appEncode then ([], exitNoError)                                                    -- 633-637
  else if o.pruneOnly then ([.unknown], exitNoError)                                            -- 642-647
  else
    let reported := f.answers.any id
    let early := if reported then [Szs.thm] else []                                             -- ClausePrintAnswer
    if fin.success || f.answers.length ≠ 0 then (early ++ reportProof f reported, exitProofFound)    -- 842-900
    else if f.watch = some true then ([.resourceOut], exitResourceOut)                          -- 901-909
    else if o.cnfOnly then ([.unknown], exitNoError)                                            -- 921-925
    else reportFailure o f s.unproc.isEmpty (stateComplete o f s)

/-! ## Conjectures in a derivation -/

/-- One step of a recorded derivation: is it a plain copy (`DCCnfQuote`, `DCFofQuote`), and the clauses and formulas it refers to. -/
structure DStep where
  quote : Bool
  args : List Nat

/-- The recorded derivations.  Clauses and formulas are numbered; `steps`: the derivation stack; `isEmpty`: `ClauseIsEmpty`; `conj`:
`ClauseIsConjecture` (CLAUSES/ccl_clauses.h:251) or `FormulaIsConjecture` (CLAUSES/ccl_formula_wrapper.h:73). -/
structure DGraph where
  steps : Nat → List DStep
  isEmpty : Nat → Bool
  conj : Nat → Bool

namespace DGraph
variable (g : DGraph)

/-- `ClauseIsDummyQuote` and the test in `WFormulaDerivFindFirst` (CLAUSES/ccl_derivation.c:833-943): the derivation consists of a single copy. -/
def dummy (n : Nat) : Option Nat :=
  match g.steps n with
  | [⟨true, [p]⟩] => some p
  | _ => none

/-- `ClauseDerivFindFirst`, `WFormulaDerivFindFirst` (899-943): skip copies.  `k` bounds the length of the chain. -/
def first : Nat → Nat → Nat
  | 0, n => n
  | k+1, n => match g.dummy n with
    | some p => first k p
    | none => n

/-- `DerivStackExtractOptParents` (1046-1135): the arguments of all steps, copies skipped.  A clause only refers to older ones, so
its number bounds the length of a chain of copies. -/
def parents (n : Nat) : List Nat := (g.steps n).flatMap fun s => s.args.map fun p => g.first p p

/-- `DerivedInProof` (621-636); `mks` are the nodes with the property `CPIsProofClause`, which is set nowhere else. -/
def inProof (mks : List Nat) (n : Nat) : Bool := g.isEmpty n || mks.contains n

/-- The inner loops (2216-2243): marks, stack, `has_conjecture`. -/
def visit : List Nat → List Nat → List Nat → Bool → List Nat × List Nat × Bool
  | [], mks, st, hc => (mks, st, hc)
  | p :: ps, mks, st, hc =>
    if g.inProof mks p then visit ps mks st (hc || g.conj p)
    else visit ps (p :: mks) (p :: st) (hc || g.conj p)

/-- The main loop (2202-2245); `none`: out of fuel. -/
def markLoop : Nat → List Nat → List Nat → Bool → Option Bool
  | 0, _, _, _ => none
  | _+1, _, [], hc => some hc
  | k+1, mks, n :: st, hc =>
    if g.inProof mks n then
      let r := g.visit (g.parents n) mks st hc
      markLoop k r.1 r.2.1 r.2.2
    else markLoop k mks st hc

/-- `DerivationCompute` (2412-2433) up to `DerivationMarkProofSteps`: the result is `has_conjecture`. -/
def hasConjecture (k : Nat) (roots : List Nat) : Option Bool :=
  g.markLoop k [] (roots.map fun r => g.first r r).reverse false

end DGraph
end Verif
