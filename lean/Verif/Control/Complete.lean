import Verif.Control.Saturate
import Verif.Clauses.SupRewrite
import Verif.Clauses.SupSpec

/-!
# The saturation loop, seen from the side of completeness

The loop of `Verif.Control.Saturate` (CONTROL/cco_proofproc.c: `ProcessClause` 1560-1721, `Saturate` 1738-1801) again, with what is needed to ask
whether a run that ends without the empty clause has missed something: processed clauses have an identity and selected literals, and
generated clauses remember their parents, because `ClauseIsOrphaned` (CLAUSES/ccl_clausefunc.c:524-579) looks at them.  The sets that only
differ in when they are treated (`unprocessed`, `tmp_store`, `eval_store`, the given clause before it is accepted) are one set `pool`.

As there, a step is possible if the modelled function gives the stated result for some values of its parameters, and steps come in any order.
What is generated is stated at the step that processes a clause: *all* results of the three inference rules with this clause (`EqResIn`,
`EqFactIn`, `ParaIn`, see `Verif.Clauses.SupSpec`) are added.  Anything else may be added as well (`extra`).

Left out, besides the parts left out there: destructive equality resolution (`giveER`, `tmpER`), deletion by AC redundancy
(`Drop.acRedundant`), and rewriting where the result is not justified by smaller clauses (see `LModify.rewrite`).
-/

namespace Verif
open Props RewriteProof Sup

/-- A processed clause: `id` stands for the address of the clause, `sel` for the flags `EPIsSelected`. -/
structure PCl where
  id : Nat
  lits : List Lit
  sel : Nat → Prop

/-- A clause that is not processed.  `origin`: the parents recorded by a generating inference as first step of the derivation, `none` if it
starts otherwise. -/
structure OCl where
  lits : List Lit
  origin : Option (List Nat)

/-- `proc`: the four processed sets; `active`: the given clause after `replacing_inferences`; `pool`: all other clauses; `next`: a new address;
`complete`: `state_is_complete`. -/
structure LState where
  proc : List PCl
  active : Option (List Lit)
  pool : List OCl
  next : Nat
  complete : Bool

/-- `ProofStateInit` (CONTROL/cco_proofproc.c:1460-1543). -/
def LState.init (input : List (List Lit)) : LState := ⟨[], none, input.map fun C => ⟨C, none⟩, 0, true⟩

/-- A processed clause, or the one about to be processed. -/
def LState.Proc (s : LState) (C : List Lit) : Prop := (∃ p ∈ s.proc, p.lits = C) ∨ s.active = some C

/-- Ways to change a clause that is not processed: `ForwardModifyClause` (CONTROL/cco_forward_contraction.c:242-338) and the functions in
`Modify`. -/
inductive LModify (sg : Sig) (N : Nat) (gt : Term → Term → Prop) (s : LState) : List Lit → List Lit → Prop
  /-- `ClauseComputeLINormalform`.  All demodulators that links in term cells may refer to (`D`) follow from clauses that are processed and not greater
  (as the processed ones themselves do), and `TopOK`: a demodulator applied to a whole side of a positive literal contributes an
  equation not greater than the clause.  The code only excludes renamings (`RewriteSpec`, field `proper`). -/
  | rewrite {x : RWCtx} {D : Demod → Prop} {d : RWDesc} {st st' : RWSt} {C C' : List RLit} {n k : Nat} {lim lim' : Bool} {ds : List Demod} :
      x.sg = sg → x.OK N gt → (∀ d, D d → d.OK x.sg N gt ∧ d.l ≠ tFalse ∧ d.r ≠ tFalse ∧ Red x.sg N gt s.Proc d.clause) → SetsOK x d.sets →
      d.level = 1 ∨ d.level = 2 → RWReach x N D d.sets st → TopOK x N gt D (C.map RLit.lit) →
      clauseNF x d n k st lim C = some (C', lim', st', ds) → LModify sg N gt s (C.map RLit.lit) (C'.map RLit.lit)
  /-- `ClauseRemoveSuperfluousLiterals` (CLAUSES/ccl_clausefunc.c:233-248). -/
  | superfluous (C : List Lit) : LModify sg N gt s C (removeDup (removeResolved sg C))
  /-- `ClauseRemoveACResolved` (CLAUSES/ccl_clausefunc.c:345-369). -/
  | acResolved {a : ACSig} {ad : Nat → Bool → List Nat → Nat → Nat} (C : List Lit) : a.Binary sg → (∀ k b, Addresses (ad k b)) →
      LModify sg N gt s C (clauseRemoveACResolved a ad C)
  /-- `ClauseOrientLiterals` (CLAUSES/ccl_clauses.c). -/
  | orient {C C' : List Lit} : List.Forall₂ Swapped C C' → LModify sg N gt s C C'
  /-- `ClauseSubsumeOrderSortLits`. -/
  | sort {C C' : List Lit} : C'.Perm C → LModify sg N gt s C C'
  /-- One round of `Condense` (CLAUSES/ccl_condensation.c:156-178). -/
  | condense {pp : Term → Bool} {n : Nat} {srt : List OLit → List OLit} {orient : Lit → Bool} {C D : List OLit} :
      condenseOnce sg pp n srt orient C = some (some D) → LModify sg N gt s (OLit.plain C) (OLit.plain D)
  /-- `ClausePositiveSimplifyReflect` (CLAUSES/ccl_subsumption.c:1288-1327). -/
  | posSR {pp : Term → Bool} {units : List UnitPos} {strong : Bool} {n : Nat} (C : List Lit) :
      LModify sg N gt s C (positiveSR sg pp units strong n C).1
  /-- `ClauseNegativeSimplifyReflect` (CLAUSES/ccl_subsumption.c:1345-1380). -/
  | negSR {pp : Term → Bool} {units : List UnitPos} (C : List Lit) : LModify sg N gt s C (negativeSR sg pp units C).1
  /-- `ClauseContextualSimplifyReflect` (CLAUSES/ccl_context_sr.c:61-101). -/
  | contextSR {pp : Term → Bool} {srt : List Cell → List Cell} {S : List (List OLit)} {C : List Cell} :
      (∀ C, (srt C).Perm C) → (C.map (·.id)).Nodup →
      LModify sg N gt s (OLit.plain (Cell.lits C)) (OLit.plain (Cell.lits (Verif.contextSR sg pp srt S C).1))

/-- Reasons to delete a clause: `forward_contract_keep` (CONTROL/cco_forward_contraction.c:62-167), `ForwardSubsumption` (189-224), and
`insert_new_clauses` (CONTROL/cco_proofproc.c:683-719). -/
inductive LDrop (sg : Sig) (s : LState) : List Lit → Prop
  | isTrivial {no : Term → Int} {C ps ns : List Lit} : Numbered no C → Props.Sorted no C ps ns → clauseIsTrivial sg no ps ns C = some true →
      LDrop sg s C
  | tautology {no : Term → Int} {n : Nat} {C ps ns : List Lit} : Numbered no C → Props.Sorted no C ps ns →
      clauseIsTautology sg no ps ns n C = some true → LDrop sg s C
  | unitSubsumed {pp : Term → Bool} {units : List UnitPos} {strong : Bool} {n : Nat} {C : List Lit} {w : UnitPos} :
      (∀ w ∈ units, ∃ p ∈ s.proc, p.lits = [w.lit]) → unitSetSubsumes sg pp units strong n C = some w → LDrop sg s C
  | subsumed {pp : Term → Bool} {S : List (List OLit)} {C P : List OLit} : (∀ P ∈ S, ∃ p ∈ s.proc, p.lits = OLit.plain P) →
      setSubsumes sg pp S C = some P → LDrop sg s (OLit.plain C)

/-- `generate_new_clauses` (CONTROL/cco_proofproc.c:532-606) for the clause `p`, with the processed clauses `ps` (`p` among them): all
results are in `Ds`, with their parents. -/
structure Generated (sg : Sig) (gt : Term → Term → Prop) (pp : Term → Bool) (p : PCl) (ps : List PCl) (Ds : List OCl) : Prop where
  eqRes : EqResIn sg gt pp p.sel p.lits fun D => ⟨D, some [p.id]⟩ ∈ Ds
  eqFact : EqFactIn sg gt pp p.sel p.lits fun D => ⟨D, some [p.id]⟩ ∈ Ds
  parFrom : ∀ q ∈ ps, ParaIn sg gt pp p.sel q.sel p.lits q.lits fun D => ⟨D, some [p.id, q.id]⟩ ∈ Ds
  parInto : ∀ q ∈ ps, ParaIn sg gt pp q.sel p.sel q.lits p.lits fun D => ⟨D, some [q.id, p.id]⟩ ∈ Ds

/-- One step of the loop. -/
inductive LStep (sg : Sig) (N : Nat) (gt : Term → Term → Prop) (pp : Term → Bool) : LState → LState → Prop
  /-- A clause that is not processed is changed by `ForwardContractClause`, `insert_new_clauses` or `ForwardContractSet`; the beginning of its
  derivation stays. -/
  | modify {s : LState} {U V : List OCl} {c : OCl} {C : List Lit} : s.pool = U ++ c :: V → LModify sg N gt s c.lits C →
      LStep sg N gt pp s { s with pool := U ++ ⟨C, c.origin⟩ :: V }
  /-- It is deleted. -/
  | drop {s : LState} {U V : List OCl} {c : OCl} : s.pool = U ++ c :: V → LDrop sg s c.lits → LStep sg N gt pp s { s with pool := U ++ V }
  /-- `ClauseArchive` (CLAUSES/ccl_clausefunc.c:430-443): the derivation is replaced by `DCCnfQuote`. -/
  | archive {s : LState} {U V : List OCl} {c : OCl} : s.pool = U ++ c :: V → LStep sg N gt pp s { s with pool := U ++ ⟨c.lits, none⟩ :: V }
  /-- `ClauseSetDeleteOrphans` (CLAUSES/ccl_clausefunc.c:595-616) and the test in `HCBStandardClauseSelect`: a parent is dead, that is, no longer
  processed (CONTROL/cco_proofproc.c:148, CONTROL/cco_simplification.c:73). -/
  | orphan {s : LState} {U V : List OCl} {c : OCl} {ps : List Nat} {i : Nat} : s.pool = U ++ c :: V → c.origin = some ps → i ∈ ps →
      (∀ p ∈ s.proc, p.id ≠ i) → LStep sg N gt pp s { s with pool := U ++ V }
  /-- The given clause will be processed (CONTROL/cco_proofproc.c:1637). -/
  | accept {s : LState} {U V : List OCl} {c : OCl} : s.active = none → s.pool = U ++ c :: V →
      LStep sg N gt pp s { s with active := some c.lits, pool := U ++ V }
  /-- `ClauseMoveSimplified` (CONTROL/cco_simplification.c:60-76): backward simplification moves a processed clause, with derivation
  `DCCnfQuote`. -/
  | backMove {s : LState} {P Q : List PCl} {p : PCl} : s.proc = P ++ p :: Q →
      LStep sg N gt pp s { s with proc := P ++ Q, pool := s.pool ++ [⟨p.lits, none⟩] }
  /-- `remove_subsumed` (119-153). -/
  | backSubsumed {s : LState} {P Q : List PCl} {p : PCl} {pq : Term → Bool} {C D : List OLit} : s.active = some (OLit.plain C) →
      s.proc = P ++ p :: Q → p.lits = OLit.plain D → clauseSubsumes sg pq C D = true → LStep sg N gt pp s { s with proc := P ++ Q }
  /-- The variables are normalised, literals are selected, the clause is inserted into a processed set (1656-1688), and new clauses are
  generated (1698). -/
  | activate {s : LState} {n : Nat} {b b' : VarBank} {C C' : List Lit} {sel : Nat → Prop} {Ds : List OCl} : s.active = some C → b.Inv →
      BankAgrees sg b' → clauseNormalizeVars sg n b C = some (b', C') → (∀ i, sel i → ∃ L, C'[i]? = some L ∧ L.pos = false) →
      Generated sg gt pp ⟨s.next, C', sel⟩ (s.proc ++ [⟨s.next, C', sel⟩]) Ds →
      LStep sg N gt pp s { s with proc := s.proc ++ [⟨s.next, C', sel⟩], active := none, pool := s.pool ++ Ds, next := s.next + 1 }
  /-- Other clauses are added (disequality decomposition, `Verif.Control.Saturate`). -/
  | extra {s : LState} (c : OCl) : LStep sg N gt pp s { s with pool := s.pool ++ [c] }
  /-- `HCBClauseSetDeleteBadClauses` (858-939): `state_is_complete` is cleared. -/
  | deleteBad {s : LState} {U V : List OCl} {c : OCl} : s.pool = U ++ c :: V → LStep sg N gt pp s { s with pool := U ++ V, complete := false }
  /-- `ProofStateResetProcessed` (1204-1288). -/
  | reset {s : LState} : s.active = none → LStep sg N gt pp s { s with proc := [], pool := s.pool ++ s.proc.map fun p => ⟨p.lits, none⟩ }

/-- A clause as the prover represents it: well-typed, over the symbols below `N`, in the form made by `EqnAlloc`. -/
def ClOK (sg : Sig) (N : Nat) (C : List Lit) : Prop := ∀ L ∈ C, sg.WTLit L ∧ L.In (Term.SymsBelow N) ∧ L.NF

/-- The clauses of the state are represented correctly (C36 has the part about types as a consequence of the initial state); processed clauses are first-order
and without literals `$true`, with ordinary variables. -/
structure LState.WF (sg : Sig) (N : Nat) (s : LState) : Prop where
  proc : ∀ p ∈ s.proc, ClOK sg N p.lits ∧ (∀ L ∈ p.lits, FOLit sg L) ∧ SaturateProof.EvenVars p.lits
  active : ∀ C, s.active = some C → ClOK sg N C
  pool : ∀ c ∈ s.pool, ClOK sg N c.lits

/-- Runs from the clauses `input`. -/
inductive LReach (sg : Sig) (N : Nat) (gt : Term → Term → Prop) (pp : Term → Bool) (input : List (List Lit)) : LState → Prop
  | init : LState.WF sg N (.init input) → LReach sg N gt pp input (.init input)
  | step {s s' : LState} : LReach sg N gt pp input s → LStep sg N gt pp s s' → s'.WF sg N → LReach sg N gt pp input s'

/-- The end of the loop without a proof: nothing is left to process and nothing was given up (CONTROL/cco_proofproc.c:1754-1800 leaves the
loop when `unprocessed` is empty; `state_is_complete` decides between `Satisfiable` and `GaveUp`, C38). -/
structure LState.Done (s : LState) : Prop where
  pool : s.pool = []
  active : s.active = none
  complete : s.complete = true

end Verif
