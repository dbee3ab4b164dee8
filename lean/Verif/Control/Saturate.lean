import Verif.Props.Rewrite
import Verif.Props.InferGen
import Verif.Props.UnitSimp
import Verif.Props.Condense
import Verif.Props.Taut
import Verif.Props.AC
import Verif.Props.SatCheck

/-!
# The saturation loop

Model of CONTROL/cco_proofproc.c (`ProcessClause` 1560-1721, `Saturate` 1738-1801 and the functions they call) and of forward contraction
(CONTROL/cco_forward_contraction.c) as a transition system over the sets of clauses of a proof state.  The single operations (inferences,
normalisation, subsumption, ...) are the functions modelled in the other modules; a step is possible if the corresponding
function gives the stated result for *some* values of its parameters (options, orderings, term properties, sizes, index contents,
addresses).  The steps may be taken in any order and any number of times, which includes the order of the code for every heuristic and every
set of options; so a theorem about all reachable states holds for all strategies.

Order that matters is kept: the given clause is used to simplify others only after the point where it can still be replaced
(`replacing_inferences`, 1627), so it is held in `given` before and in `active` after that point.

Left out: steps for higher-order terms, `ClauseLocalRW` (off by default), splitting (C28), answer literals, the watch list (which only loses
clauses of its own), and preprocessing.
-/

namespace Verif
open Props RewriteProof

/-- A clause that is not processed.  `gen`: the derivation starts with a generating inference (`DCOpIsGenerating`,
CLAUSES/ccl_derivation.h:252), as tested by `ClauseIsOrphaned` (CLAUSES/ccl_clausefunc.c:524-579). -/
structure UCl where
  lits : List Lit
  gen : Bool

/-- The clauses of a `ProofState` (CLAUSES/ccl_proofstate.h): `proc` is the union of the four processed sets, `tmp` that of `tmp_store` and
`eval_store`; `given` and `active` are the selected clause (see above); `links`: the demodulators ever used, to which
rewrite links in term cells may refer; `ac`: the clauses that made a symbol associative or commutative
(`check_ac_status`); `complete` is `state_is_complete`, `success` tells that the empty clause was found. -/
structure SatState where
  proc : List (List Lit)
  given : Option UCl
  active : Option (List Lit)
  tmp : List UCl
  unproc : List UCl
  links : List (List Lit)
  ac : List (List Lit)
  complete : Bool
  success : Bool

/-- `ProofStateInit` (CONTROL/cco_proofproc.c:1460-1543): the axioms are copied to `unprocessed`. -/
def SatState.init (input : List (List Lit)) : SatState :=
  ⟨[], none, none, [], input.map fun C => ⟨C, false⟩, [], [], true, false⟩

/-- The clauses simplification may refer to: the processed ones and, if `m` is true as in the prover, former demodulators (through links in
term cells that are still there) and former AC axioms. -/
def SatState.avail (m : Bool) (s : SatState) : List (List Lit) := s.proc ++ if m then s.links ++ s.ac else []

/-- One literal kept or with its sides swapped (`EqnSwapSides`, CLAUSES/ccl_eqn.c:1339-1351). -/
def Swapped (L K : Lit) : Prop := K = L ∨ K = ⟨L.pos, L.r, L.l⟩

/-- The changes made to a single clause by `ForwardModifyClause` (CONTROL/cco_forward_contraction.c:242-338) and `forward_contract_keep`
(62-167). -/
inductive Modify (sg : Sig) (m : Bool) (s : SatState) : List Lit → List Lit → Prop
  /-- `ClauseComputeLINormalform`; the demodulators used are those recorded (`ds`). -/
  | rewrite {x : RWCtx} {N : Nat} {gt : Term → Term → Prop} {D : Demod → Prop} {d : RWDesc} {st st' : RWSt} {C C' : List RLit}
      {n k : Nat} {lim lim' : Bool} {ds : List Demod} : x.sg = sg → RedOrd (sigAr x.sg) N gt → x.OK N gt →
      (∀ d, D d → d.OK x.sg N gt) → SetsOK x d.sets → d.level = 1 ∨ d.level = 2 → RWReach x N D d.sets st →
      (∀ L ∈ C, RLit.In (InSig x.sg N) L) → clauseNF x d n k st lim C = some (C', lim', st', ds) →
      (∀ d ∈ ds, d.clause ∈ s.avail m) →
      Modify sg m s (C.map RLit.lit) (C'.map RLit.lit)
  /-- `ClauseRemoveSuperfluousLiterals` (CLAUSES/ccl_clausefunc.c:233-248). -/
  | superfluous (C : List Lit) : Modify sg m s C (removeDup (removeResolved sg C))
  /-- `ClauseRemoveACResolved` (CLAUSES/ccl_clausefunc.c:345-369). -/
  | acResolved {ad : Nat → Bool → List Nat → Nat → Nat} (C : List Lit) : (∀ k b, Addresses (ad k b)) → (∀ A ∈ s.ac, A ∈ s.avail m) →
      Modify sg m s C (clauseRemoveACResolved (scanned s.ac) ad C)
  /-- `ClauseOrientLiterals` (CLAUSES/ccl_clauses.c). -/
  | orient {C C' : List Lit} : List.Forall₂ Swapped C C' → Modify sg m s C C'
  /-- `ClauseSubsumeOrderSortLits`. -/
  | sort {C C' : List Lit} : C'.Perm C → Modify sg m s C C'
  /-- `Condense` (CLAUSES/ccl_condensation.c:156-178). -/
  | condense {pp : Term → Bool} {n k : Nat} {srt : List OLit → List OLit} {orient : Lit → Bool} {C D : List OLit} :
      (∀ C, (srt C).Perm C) → Verif.condense sg pp n srt orient k C = some D → Modify sg m s (OLit.plain C) (OLit.plain D)
  /-- `ClausePositiveSimplifyReflect` (CLAUSES/ccl_subsumption.c:1288-1327). -/
  | posSR {pp : Term → Bool} {units : List UnitPos} {strong : Bool} {n : Nat} (C : List Lit) : (∀ w ∈ units, [w.lit] ∈ s.proc) →
      Modify sg m s C (positiveSR sg pp units strong n C).1
  /-- `ClauseNegativeSimplifyReflect` (CLAUSES/ccl_subsumption.c:1345-1380). -/
  | negSR {pp : Term → Bool} {units : List UnitPos} (C : List Lit) : (∀ w ∈ units, [w.lit] ∈ s.proc) →
      Modify sg m s C (negativeSR sg pp units C).1
  /-- `ClauseContextualSimplifyReflect` (CLAUSES/ccl_context_sr.c:61-101). -/
  | contextSR {pp : Term → Bool} {srt : List Cell → List Cell} {S : List (List OLit)} {C : List Cell} :
      (∀ C, (srt C).Perm C) → (C.map (·.id)).Nodup → (∀ P ∈ S, OLit.plain P ∈ s.proc) →
      Modify sg m s (OLit.plain (Cell.lits C)) (OLit.plain (Cell.lits (Verif.contextSR sg pp srt S C).1))

/-- The reasons to delete a clause in `forward_contract_keep` (CONTROL/cco_forward_contraction.c:62-167), `ForwardSubsumption` (189-224) and
`insert_new_clauses` (CONTROL/cco_proofproc.c:683-719). -/
inductive Drop (sg : Sig) (m : Bool) (s : SatState) : List Lit → Prop
  | isTrivial {no : Term → Int} {C ps ns : List Lit} : Numbered no C → Props.Sorted no C ps ns → clauseIsTrivial sg no ps ns C = some true →
      Drop sg m s C
  | tautology {no : Term → Int} {n : Nat} {C ps ns : List Lit} : Numbered no C → Props.Sorted no C ps ns →
      clauseIsTautology sg no ps ns n C = some true → Drop sg m s C
  | acRedundant {ad : Nat → Bool → List Nat → Nat → Nat} {C : List Lit} : (∀ k b, Addresses (ad k b)) → (∀ A ∈ s.ac, A ∈ s.avail m) →
      isACRedundant (scanned s.ac) ad C = true → Drop sg m s C
  | unitSubsumed {pp : Term → Bool} {units : List UnitPos} {strong : Bool} {n : Nat} {C : List Lit} {w : UnitPos} :
      (∀ w ∈ units, [w.lit] ∈ s.proc) → unitSetSubsumes sg pp units strong n C = some w → Drop sg m s C
  | subsumed {pp : Term → Bool} {S : List (List OLit)} {C P : List OLit} : (∀ P ∈ S, OLit.plain P ∈ s.proc) →
      setSubsumes sg pp S C = some P → Drop sg m s (OLit.plain C)

/-- The clauses produced by `generate_new_clauses` (CONTROL/cco_proofproc.c:532-606) from a processed clause, its disjoint copy and
the processed clauses.  Paramodulation: all variants but the super-simultaneous one without index
(`superSim_direct_unsound`). -/
inductive Gen (sg : Sig) (s : SatState) : List Lit → Prop
  | eqRes {pp : Term → Bool} {n : Nat} {b b' : VarBank} {C D : List Lit} {i : Nat} {L : Lit} : C ∈ s.proc → b.Inv → BankAgrees sg b' →
      C[i]? = some L → L.pos = false → computeEqRes sg pp n b C i = some (some (b', D)) → Gen sg s D
  | factor {pp : Term → Bool} {guard : SubstSt → Bool} {n : Nat} {b b' : VarBank} {C D : List Lit} {i j : Nat} {s1 s2 : Bool} {L K : Lit} :
      C ∈ s.proc → b.Inv → BankAgrees sg b' → C[i]? = some L → C[j]? = some K → i ≠ j → L.pos = true → K.pos = true →
      equalityFactor sg pp guard n b C i j s1 s2 = some (some (b', D)) → Gen sg s D
  | diseq {maxLits maxArity : Nat} {C D : List Lit} : C ∈ s.proc → D ∈ diseqDecompositions sg maxLits maxArity C → Gen sg s D
  | paramod {pp : Term → Bool} {guard : SubstSt → Bool} {n : Nat} {b b' : VarBank} {direct : Bool} {ty : PMType} {o : Overlap}
      {LF LT : Lit} {D : List Lit} : (∃ C ∈ s.proc, o.F = C ∨ o.F = copyDisjoint C) → (∃ C ∈ s.proc, o.T = C ∨ o.T = copyDisjoint C) →
      b.Inv → BankAgrees sg b' → o.F[o.i]? = some LF → o.T[o.j]? = some LT → LF.pos = true → IsPos (LT.side o.ts) o.pos →
      (ty = .superSim → direct = false) → paramod sg pp guard n b direct ty o = some (some (b', D)) → Gen sg s D

/-- `ClauseIsDemodulator`: a positive unit. -/
def isDemodulator (C : List Lit) : Bool :=
  match C with
  | [L] => L.pos
  | _ => false

/-- One step of the loop. -/
inductive SStep (sg : Sig) (m : Bool) : SatState → SatState → Prop
  /-- Selection of the given clause (CONTROL/cco_proofproc.c:1567-1581). -/
  | select {s : SatState} {U V : List UCl} {c : UCl} : s.given = none → s.active = none → s.unproc = U ++ c :: V →
      SStep sg m s { s with given := some c, unproc := U ++ V }
  /-- `ForwardContractClause` (1595) changes the given clause, ... -/
  | giveModify {s : SatState} {c : UCl} {C : List Lit} : s.given = some c → Modify sg m s c.lits C →
      SStep sg m s { s with given := some ⟨C, c.gen⟩ }
  /-- `ClauseArchiveCopy` (1590-1593, if the selection is recorded in proof objects): the derivation is replaced by `DCCnfQuote`. -/
  | giveArchive {s : SatState} {c : UCl} : s.given = some c → SStep sg m s { s with given := some ⟨c.lits, false⟩ }
  /-- ... or deletes it. -/
  | giveDrop {s : SatState} {c : UCl} : s.given = some c → Drop sg m s c.lits → SStep sg m s { s with given := none }
  /-- The empty clause is returned (1608-1620). -/
  | giveEmpty {s : SatState} {c : UCl} : s.given = some c → c.lits = [] → SStep sg m s { s with success := true }
  /-- `check_ac_status` (86-103, called in 1622). -/
  | acScan {s : SatState} {c : UCl} : s.given = some c → SStep sg m s { s with ac := s.ac ++ [c.lits] }
  /-- `replacing_inferences` (795-835): destructive equality resolution moves the clause to `tmp_store`. -/
  | giveER {s : SatState} {c : UCl} {pp : Term → Bool} {strong : Bool} {n k : Nat} {b b' : VarBank} {D : List Lit} : s.given = some c →
      b.Inv → BankAgrees sg b' → erNormalizeVar sg pp strong n b c.lits = some (b', D, k) →
      SStep sg m s { s with given := none, tmp := s.tmp ++ [⟨D, c.gen⟩] }
  /-- The clause will be processed (1637). -/
  | accept {s : SatState} {c : UCl} : s.given = some c → s.active = none → SStep sg m s { s with given := none, active := some c.lits }
  /-- Backward simplification: `ClauseMoveSimplified` (CONTROL/cco_simplification.c:60-76), called for clauses that can be rewritten,
  unit-simplified or contextually simplified (1645-1651).  The copy has the derivation `DCCnfQuote`.  Which clauses
  are moved does not matter here. -/
  | backMove {s : SatState} {P Q : List (List Lit)} {C : List Lit} : s.proc = P ++ C :: Q →
      SStep sg m s { s with proc := P ++ Q, tmp := s.tmp ++ [⟨C, false⟩] }
  /-- `remove_subsumed` (119-153): the new clause subsumes a processed one. -/
  | backSubsumed {s : SatState} {P Q : List (List Lit)} {pp : Term → Bool} {C D : List OLit} : s.active = some (OLit.plain C) →
      s.proc = P ++ OLit.plain D :: Q → clauseSubsumes sg pp C D = true → SStep sg m s { s with proc := P ++ Q }
  /-- The new clause is normalised and inserted into a processed set (1656-1688). -/
  | activate {s : SatState} {n : Nat} {b b' : VarBank} {C C' : List Lit} : s.active = some C → b.Inv → BankAgrees sg b' →
      clauseNormalizeVars sg n b C = some (b', C') →
      SStep sg m s { s with active := none, proc := s.proc ++ [C'], links := s.links ++ if isDemodulator C' then [C'] else [] }
  /-- `generate_new_clauses` (1698). -/
  | generate {s : SatState} {D : List Lit} : Gen sg s D → SStep sg m s { s with tmp := s.tmp ++ [⟨D, true⟩] }
  /-- `insert_new_clauses` (652-775): clauses in `tmp_store` are simplified, ... -/
  | tmpModify {s : SatState} {U V : List UCl} {c : UCl} {C : List Lit} : s.tmp = U ++ c :: V → Modify sg m s c.lits C →
      SStep sg m s { s with tmp := U ++ ⟨C, c.gen⟩ :: V }
  /-- ... deleted, ... -/
  | tmpDrop {s : SatState} {U V : List UCl} {c : UCl} : s.tmp = U ++ c :: V → Drop sg m s c.lits → SStep sg m s { s with tmp := U ++ V }
  /-- ... resolved destructively (721-733), ... -/
  | tmpER {s : SatState} {U V : List UCl} {c : UCl} {pp : Term → Bool} {strong : Bool} {n k : Nat} {b b' : VarBank} {D : List Lit} :
      s.tmp = U ++ c :: V → b.Inv → BankAgrees sg b' → erNormalizeVar sg pp strong n b c.lits = some (b', D, k) →
      SStep sg m s { s with tmp := U ++ V ++ [⟨D, c.gen⟩] }
  /-- ... returned if empty (696-699), ... -/
  | tmpEmpty {s : SatState} {c : UCl} : c ∈ s.tmp → c.lits = [] → SStep sg m s { s with success := true }
  /-- ... and moved to the unprocessed clauses (763-773). -/
  | tmpInsert {s : SatState} {U V : List UCl} {c : UCl} : s.tmp = U ++ c :: V →
      SStep sg m s { s with tmp := U ++ V, unproc := s.unproc ++ [c] }
  /-- `ForwardContractSet` on the unprocessed clauses (`cleanup_unprocessed_clauses`, 858-939, and `ProofStateFilterUnprocessed`). -/
  | unprocModify {s : SatState} {U V : List UCl} {c : UCl} {C : List Lit} : s.unproc = U ++ c :: V → Modify sg m s c.lits C →
      SStep sg m s { s with unproc := U ++ ⟨C, c.gen⟩ :: V }
  | unprocDrop {s : SatState} {U V : List UCl} {c : UCl} : s.unproc = U ++ c :: V → Drop sg m s c.lits →
      SStep sg m s { s with unproc := U ++ V }
  | unprocEmpty {s : SatState} {c : UCl} : c ∈ s.unproc → c.lits = [] → SStep sg m s { s with success := true }
  /-- `ClauseSetDeleteOrphans` (CLAUSES/ccl_clausefunc.c:595-616) and the test in `HCBStandardClauseSelect`: only clauses with a generating
  inference as first step of the derivation.  Whether a parent is dead does not matter here. -/
  | orphan {s : SatState} {U V : List UCl} {c : UCl} : s.unproc = U ++ c :: V → c.gen = true → SStep sg m s { s with unproc := U ++ V }
  /-- `HCBClauseSetDeleteBadClauses` (858-939): `state_is_complete` is cleared. -/
  | deleteBad {s : SatState} {U V : List UCl} {c : UCl} : s.unproc = U ++ c :: V →
      SStep sg m s { s with unproc := U ++ V, complete := false }
  /-- `SATCheck` (954-1020): the ground instances of the processed and unprocessed clauses are propositionally unsatisfiable. -/
  | satCheck {s : SatState} {addr : Term → Nat} {eqc : Nat} {σ : Nat → Term} {limit : Option Nat} {sets : List (List (List Lit))} :
      sg.WTSubst σ → (∀ C ∈ sets.flatten, C ∈ s.proc ∨ C ∈ s.unproc.map (·.lits)) → NoEqAtom eqc σ sets.flatten →
      (∀ α, ¬ PropSat α (satProblem addr eqc σ limit sets)) → SStep sg m s { s with success := true }
  /-- `ProofStateResetProcessed` (1204-1288): after a pre-saturation the processed clauses become unprocessed again. -/
  | reset {s : SatState} : s.given = none → s.active = none →
      SStep sg m s { s with proc := [], unproc := s.unproc ++ s.proc.map fun C => ⟨C, false⟩ }

/-- The states that can be reached from the clauses `input`. -/
inductive SReach (sg : Sig) (m : Bool) (input : List (List Lit)) : SatState → Prop
  | init : SReach sg m input (.init input)
  | step {s s' : SatState} : SReach sg m input s → SStep sg m s s' → SReach sg m input s'

end Verif
