import Verif.Clauses.Subsume
import Verif.Clauses.Infer

/-!
# Propositional check of the proof state, and decomposition of disequations

Model of CLAUSES/ccl_satinterface.c, of `SATCheck` (CONTROL/cco_proofproc.c:954-1020), and of
CLAUSES/ccl_diseq_decomp.c with CONTROL/cco_diseq_decomp.c (first-order).

* `ad` is the address of a term cell (`PGreater` compares addresses).
* `σ` is the grounding substitution.  `TBInsertInstantiated` (TERMS/cte_termbanks.c:1227-1269) follows
  a binding once, so a variable bound to itself does no harm.
* The term code `entry_no` of a shared cell is represented by the term itself (equal terms are one cell, C04).
* The solver (PicoSAT) is not modelled; what it is trusted with is stated in the theorems.
-/

namespace Verif

/-! ## Translation to propositional clauses -/

/-- The term encoding an atom in `sat_translate_literal` (CLAUSES/ccl_satinterface.c:80-97), with
`EqnTermsTBTermEncode` (CLAUSES/ccl_eqn.c:894-921); `eqc` is `sig->eqn_code`. -/
def satKey (ad : Term → Nat) (eqc : Nat) (σ : Nat → Term) (L : Lit) : Term :=
  if L.equ then
    if ad (L.l.subst σ) > ad (L.r.subst σ) then .app eqc [L.l.subst σ, L.r.subst σ]
    else .app eqc [L.r.subst σ, L.l.subst σ]
  else L.l.subst σ

/-- `SatClauseCell` (ccl_satinterface.h). -/
structure SatClause where
  lits : List Int
  source : List Lit
  pure : Bool
deriving DecidableEq

/-- `SatClauseSetCell`: `index` is `renumber_index`, `max` is `max_lit`, `limit = none` is `set_size_limit = -1`. -/
structure SatSet where
  index : List (Term × Nat)
  max : Nat
  set : List SatClause
  limit : Option Nat
deriving DecidableEq

/-- `SatClauseSetAlloc` (CLAUSES/ccl_satinterface.c:457-469). -/
def SatSet.empty (limit : Option Nat) : SatSet := ⟨[], 0, [], limit⟩

/-- `sat_translate_literal` (CLAUSES/ccl_satinterface.c:70-115): the atom of the literal, a new one if the term is not
known; negative for negative literals. -/
def satLiteral (ad : Term → Nat) (eqc : Nat) (σ : Nat → Term) (s : SatSet) (L : Lit) : SatSet × Int :=
  match s.index.lookup (satKey ad eqc σ L) with
  | some a => (s, if L.pos then a else -a)
  | none =>
    ({ s with index := (satKey ad eqc σ L, s.max + 1) :: s.index, max := s.max + 1 },
      if L.pos then ((s.max + 1 : Nat) : Int) else -((s.max + 1 : Nat) : Int))

/-- The loop over the literals (CLAUSES/ccl_satinterface.c:533-539). -/
def satLiterals (ad : Term → Nat) (eqc : Nat) (σ : Nat → Term) : SatSet → List Lit → SatSet × List Int
  | s, [] => (s, [])
  | s, L :: C =>
    let r := satLiteral ad eqc σ s L
    let q := satLiterals ad eqc σ r.1 C
    (q.1, r.2 :: q.2)

/-- `SatClauseCreateAndStore` (CLAUSES/ccl_satinterface.c:515-543); `none` if the limit is reached. -/
def satStore (ad : Term → Nat) (eqc : Nat) (σ : Nat → Term) (s : SatSet) (C : List Lit) : Option SatSet :=
  if (s.limit.map fun l => decide (l ≤ s.set.length)).getD false then none
  else
    let r := satLiterals ad eqc σ s C
    some { r.1 with set := r.1.set ++ [⟨r.2, C, false⟩] }

/-- `SatClauseSetImportClauseSet` (CLAUSES/ccl_satinterface.c:631-649). -/
def satImport (ad : Term → Nat) (eqc : Nat) (σ : Nat → Term) : SatSet → List (List Lit) → SatSet
  | s, [] => s
  | s, C :: Cs =>
    match satStore ad eqc σ s C with
    | none => s
    | some s' => satImport ad eqc σ s' Cs

/-- `SatClauseSetImportProofState` (CLAUSES/ccl_satinterface.c:935-939): the processed sets, then the unprocessed
clauses. -/
def satImportState (ad : Term → Nat) (eqc : Nat) (σ : Nat → Term) (s : SatSet) (sets : List (List (List Lit))) :
    SatSet := sets.foldl (satImport ad eqc σ) s

/-! ## Pure literals -/

/-- The bits collected by `litstate_add_satclause` over all clauses (CLAUSES/ccl_satinterface.c:131-149, 972-977): the
atom occurs positively, negatively. -/
def litState (Cs : List SatClause) (a : Nat) : Bool × Bool :=
  (Cs.any fun C => C.lits.any fun l => decide (l > 0 ∧ l = (a : Int)),
   Cs.any fun C => C.lits.any fun l => decide (¬ l > 0 ∧ -l = (a : Int)))

/-- `litstate_check_pure` (CLAUSES/ccl_satinterface.c:165-192). -/
def checkPure (st : Nat → Bool × Bool) (C : SatClause) : Bool :=
  C.lits.any fun l => decide (st l.natAbs ≠ (true, true))

/-- `SatClauseSetMarkPure` (CLAUSES/ccl_satinterface.c:959-991). -/
def markPure (s : SatSet) : SatSet :=
  { s with set := s.set.map fun C => { C with pure := checkPure (litState s.set) C } }

/-- The clauses handed to the solver by `SatClauseSetExportToSolverNonPure` (CLAUSES/ccl_satinterface.c:366-387,
855-858). -/
def exported (s : SatSet) : List SatClause := s.set.filter fun C => !C.pure

/-- `SatClauseSetCheckUnsat` (CLAUSES/ccl_satinterface.c:1039-1084) up to the call of the solver, after
`SatClauseSetImportProofState`: the clauses the solver decides. -/
def satProblem (ad : Term → Nat) (eqc : Nat) (σ : Nat → Term) (limit : Option Nat) (sets : List (List (List Lit))) :
    List SatClause := exported (markPure (satImportState ad eqc σ (.empty limit) sets))

/-! ## Choice of the constants -/

/-- The arrays `conj_dist_array` and `dist_array`. -/
structure Dist where
  conj : Nat → Nat
  dist : Nat → Nat

/-- The assignment `conj_dist_array[f1] = conj_dist_array[f2]` inside the comparison functions. -/
def Dist.assign (d : Dist) (f1 f2 : Nat) : Dist := { d with conj := fun f => if f = f1 then d.conj f2 else d.conj f }

/-- `GroundingStrategy` (ccl_satinterface.h), the frequency based ones. -/
inductive GStrat where
  | conjMinMin
  | conjMaxMin
  | conjMinMax
  | conjMaxMax
  | globalMax
  | globalMin
deriving DecidableEq

/-- The comparison functions `prefer_…` (CLAUSES/ccl_satinterface.c:208-334), with the array afterwards.  The C has `=` where `==`
is meant: the operand has the value of the element assigned. -/
def prefer (g : GStrat) (f1 f2 : Nat) (d : Dist) : Bool × Dist :=
  match g with
  | .conjMinMax =>
    if d.conj f1 ≠ 0 ∧ d.conj f2 = 0 then (true, d)
    else if d.conj f1 = 0 ∧ d.conj f2 ≠ 0 then (false, d)
    else if d.conj f1 < d.conj f2 then (true, d)
    else (decide (d.conj f2 ≠ 0) && decide (d.dist f1 > d.dist f2), d.assign f1 f2)
  | .conjMaxMax =>
    if d.conj f1 > d.conj f2 then (true, d)
    else (decide (d.conj f2 ≠ 0) && decide (d.dist f1 > d.dist f2), d.assign f1 f2)
  | .conjMinMin =>
    if d.conj f1 ≠ 0 ∧ d.conj f2 = 0 then (true, d)
    else if d.conj f1 = 0 ∧ d.conj f2 ≠ 0 then (false, d)
    else if d.conj f1 < d.conj f2 then (true, d)
    else (decide (d.conj f2 ≠ 0) && decide (d.dist f1 < d.dist f2), d.assign f1 f2)
  | .conjMaxMin =>
    if d.conj f1 > d.conj f2 then (true, d)
    else (decide (d.conj f2 ≠ 0) && decide (d.dist f1 < d.dist f2), d.assign f1 f2)
  | .globalMax => (decide (d.dist f1 > d.dist f2), d)
  | .globalMin => (decide (d.dist f1 < d.dist f2), d)

/-- The loop of `TBGetFreqConstTerm` (TERMS/cte_termbanks.c:2368-2376). -/
def freqLoop (g : GStrat) : Dist → Nat → List Nat → Nat
  | _, f, [] => f
  | d, f, cand :: cs =>
    let r := prefer g cand f d
    freqLoop g r.2 (if r.1 then cand else f) cs

/-- `TBGetFreqConstTerm` (TERMS/cte_termbanks.c:2353-2381) on the constants of the sort. -/
def freqConst (g : GStrat) (d : Dist) : List Nat → Option Nat
  | [] => none
  | f :: cs => some (freqLoop g d f cs)

/-- The grounding substitutions: all variables of one sort are bound to one term of that sort, a constant (or its normal form)
or the first variable of the sort (`SubstPseudoGroundVarBank` 668-702, `SubstGroundVarBankFirstConst` 718-764,
`SubstGroundFreqBased` 780-841 in CLAUSES/ccl_satinterface.c).  `norm ty` is the term chosen for the sort. -/
def groundSubst (sg : Sig) (norm : Nat → Term) (x : Nat) : Term := norm (sg.vty x)

/-! ## Decomposition of disequations -/

/-- The test in `ComputeDisEqDecompositions` (CONTROL/cco_diseq_decomp.c:78-81). -/
def diseqCandidate (maxArity : Nat) (L : Lit) : Bool :=
  match L.l, L.r with
  | .app f ts, .app g _ => L.equ && !L.pos && decide (f = g) && decide (ts.length ≤ maxArity) && decide (ts.length ≠ 0)
  | _, _ => false

/-- `ClauseDisEqDecomposition` (CLAUSES/ccl_diseq_decomp.c:63-94) on the literal with index `i`: it is replaced by the
disequations between the arguments (in reverse order); no bindings are active, so the other literals are copied by
`EqnAlloc`. -/
def diseqDecompose (sg : Sig) (C : List Lit) (i : Nat) : Option (List Lit) :=
  match C[i]? with
  | some ⟨_, .app _ ss, .app _ ts⟩ =>
    some (removeDup (removeResolved sg (((C.eraseIdx i).map fun K => mkEqn K.pos K.l K.r) ++
      ((ss.zip ts).map fun p => mkEqn false p.1 p.2).reverse)))
  | _ => none

/-- `ComputeDisEqDecompositions` (CONTROL/cco_diseq_decomp.c:63-94). -/
def diseqDecompositions (sg : Sig) (maxLits maxArity : Nat) (C : List Lit) : List (List Lit) :=
  if C.length ≤ maxLits then
    (List.range C.length).filterMap fun i =>
      if (C[i]?.map (diseqCandidate maxArity)).getD false then diseqDecompose sg C i else none
  else []

end Verif
