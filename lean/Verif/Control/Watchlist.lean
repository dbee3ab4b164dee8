import Verif.Control.Saturate
import Verif.Clauses.FVIndexSpec

/-!
# The watch list

Model of the handling of the watch list: `ProofStateInitWatchlist` (CLAUSES/ccl_proofstate.c:331-351), `remove_subsumed`, `check_watchlist` and
`simplify_watchlist` (CONTROL/cco_proofproc.c:119-153, 394-437, 455-516), their calls in `ProofStateInit` (1494), `insert_new_clauses` (692)
and `ProcessClause` (1637, 1692-1695), and the final report (PROVER/eprover.c:839-909).

The rest of the loop is the transition system of Verif/Control/Saturate.lean.  As there, a step may be taken at any time, which includes the
order of the code.

Left out: higher-order terms, the parsing of the list, the documentation output, and the use of the marks by the heuristics.
-/

namespace Verif

/-- A clause of the watch list with its identity (in C its address). -/
structure WEntry where
  id : Nat
  lits : List OLit

/-- `ClauseSetFindFVSubsumedClauses` for a set without index (CLAUSES/ccl_subsumption.c:1524-1543, 906-924): the clauses found.  With an index
the same clauses are found in another order (`watchlist_index_agrees`). -/
def wlFind (sg : Sig) (pp : Term → Bool) (C : List OLit) (wl : List WEntry) : List Nat :=
  (wl.filter fun e => clauseSubsumes sg pp C e.lits).map (·.id)

/-- The loop of `remove_subsumed` (CONTROL/cco_proofproc.c:131-150): the clauses found are extracted from the set. -/
def wlExtract (found : List Nat) (wl : List WEntry) : List WEntry := wl.filter fun e => !found.contains e.id

/-- `check_watchlist` (CONTROL/cco_proofproc.c:394-437): the new list, whether the clause is marked with `CPSubsumesWatch`, and the number in the
message "Watchlist reduced by". -/
def checkWatchlist (sg : Sig) (pp : Term → Bool) (isStatic : Bool) (C : List OLit) (wl : List WEntry) : List WEntry × Bool × Nat :=
  if isStatic then (wl, (wl.find? fun e => clauseSubsumes sg pp C e.lits).isSome, 0)
  else
    let found := wlFind sg pp C wl
    if found.length ≠ 0 then (wlExtract found wl, true, found.length) else (wl, false, 0)

/-- A proof state with its watch list (`none`: no list was requested), and the clauses marked so far, each with the list at the time of the
test. -/
structure WState where
  st : SatState
  wl : Option (List WEntry)
  marked : List (List OLit × List WEntry)

/-- `ProofStateLoadWatchlist` and `ProofStateInitWatchlist`: all clauses of the list are (indexed and) kept. -/
def WState.init (input : List (List Lit)) (W : Option (List WEntry)) : WState := ⟨.init input, W, []⟩

/-- One step. -/
inductive WStep (sg : Sig) (m isStatic : Bool) : WState → WState → Prop
  /-- A step of the saturation loop. -/
  | loop {w : WState} {s' : SatState} : SStep sg m w.st s' → WStep sg m isStatic w { w with st := s' }
  /-- `check_watchlist` for a copied axiom (1494), a new clause (692) or the given clause (1637); the literals are sorted before the
  test (405). -/
  | check {w : WState} {W : List WEntry} {pp : Term → Bool} {C : List OLit} {D : List Lit} : w.wl = some W →
      ((∃ c ∈ w.st.unproc, c.lits = D) ∨ (∃ c ∈ w.st.tmp, c.lits = D) ∨ w.st.active = some D) → (OLit.plain C).Perm D →
      WStep sg m isStatic w { w with
        wl := some (checkWatchlist sg pp isStatic C W).1
        marked := if (checkWatchlist sg pp isStatic C W).2.1 then w.marked ++ [(C, W)] else w.marked }
  /-- `simplify_watchlist` (455-516): a clause of the list is changed (rewriting to normal form, superfluous literals, AC, orientation, sorting:
  several such steps) and inserted again. -/
  | simplify {w : WState} {U V : List WEntry} {e e' : WEntry} : w.wl = some (U ++ e :: V) → e'.id = e.id →
      Modify sg m w.st (OLit.plain e.lits) (OLit.plain e'.lits) →
      WStep sg m isStatic w { w with wl := some (U ++ V ++ [e']) }

/-- The states that can be reached from the clauses `input` with the watch list `W`. -/
inductive WReach (sg : Sig) (m isStatic : Bool) (input : List (List Lit)) (W : Option (List WEntry)) : WState → Prop
  | init : WReach sg m isStatic input W (.init input W)
  | step {w w' : WState} : WReach sg m isStatic input W w → WStep sg m isStatic w w' → WReach sg m isStatic input W w'

/-- The branch taken by the final report (PROVER/eprover.c:839-910). -/
inductive WReport where
  | proof
  | watchlistEmpty
  | other
deriving DecidableEq

def WState.report (w : WState) : WReport :=
  if w.st.success then .proof
  else if w.wl.isSome && (w.wl.getD []).isEmpty then .watchlistEmpty
  else .other

end Verif
