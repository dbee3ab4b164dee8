import Verif.Basics.Splay
import Mathlib.Order.Defs.LinearOrder

/-!
# Clause selection

Model of HEURISTICS/che_hcb.c (heuristic control blocks: clause selection, deletion of bad clauses), the evaluation trees of
CLAUSES/ccl_neweval.c, and the parts of CLAUSES/ccl_clausesets.c that maintain them.

An evaluation cell is identified by its `eval_count`, which is taken from a global counter (ccl_neweval.c:172-179); the cell belongs
to one clause (`object`), so it also stands for the clause.  The contents of the cells are given by `EvalCtx`: they do not change
while the cell is in a set.  Heuristic values are elements of a linear order (`float` without NaN).
-/

namespace Verif

/-- `evals[pos].priority` and `evals[pos].heuristic` of a cell (CLAUSES/ccl_neweval.h:50-68). -/
structure EvalCtx (H : Type) where
  prio : Nat → Nat → Int
  heur : Nat → Nat → H

variable {H : Type} [LinearOrder H]

/-- `EvalCompare(ev1, ev2, pos)` (CLAUSES/ccl_neweval.c:388-411), the sign of the result.  Subtraction does not overflow. -/
def evalCompare (x : EvalCtx H) (pos : Nat) (a b : Nat) : Ordering :=
  if x.prio a pos ≠ x.prio b pos then compare (x.prio a pos) (x.prio b pos)
  else if a = b then .eq
  else match compare (x.heur a pos) (x.heur b pos) with
    | .eq => compare a b
    | o => o

/-- A clause set with evaluated clauses (CLAUSES/ccl_clausesets.h): the doubly linked list of its members, and `eval_indices`, the roots of
the evaluation trees (null pointers where nothing was stored). -/
structure USet where
  mem : List Nat
  trees : Nat → STree Nat

/-- `ClauseSetAlloc` (CLAUSES/ccl_clausesets.c:316-338). -/
def USet.empty : USet := ⟨[], fun _ => .leaf⟩

/-- `ClauseSetInsert` (CLAUSES/ccl_clausesets.c:465-495) of a clause with `n` evaluations. -/
def USet.insert (x : EvalCtx H) (n : Nat) (s : USet) (c : Nat) : USet :=
  ⟨s.mem ++ [c], fun i => if i < n then (STree.insert (evalCompare x i) id c (s.trees i)).2 else s.trees i⟩

/-- `clause_set_extract_entry` (CLAUSES/ccl_clausesets.c:268-296). -/
def USet.extract (x : EvalCtx H) (n : Nat) (s : USet) (c : Nat) : USet :=
  ⟨s.mem.erase c, fun i => if i < n then (STree.extract (evalCompare x i) id c (s.trees i)).2 else s.trees i⟩

/-- `ClauseSetFindBest` (CLAUSES/ccl_clausesets.c:760-778). -/
def USet.findBest (s : USet) (pos : Nat) : Option Nat := (s.trees pos).findSmallest

/-- The selection data of an `HCBCell` (HEURISTICS/che_hcb.h:253-285); `wfcb_no` is the length of `switch`. -/
structure HCB where
  switch : List Nat
  cur : Nat
  cnt : Nat

/-- `HCBAlloc` (HEURISTICS/che_hcb.c:782-796). -/
def HCB.alloc : HCB := ⟨[], 0, 0⟩

/-- `HCBAddWFCB` (HEURISTICS/che_hcb.c:839-857). -/
def HCB.add (h : HCB) (steps : Nat) : HCB := { h with switch := h.switch ++ [steps + h.switch.getLast?.getD 0] }

/-- A heuristic with the given numbers of picks. -/
def HCB.build (ss : List Nat) : HCB := ss.foldl HCB.add .alloc

/-- The loop that finds the next function (HEURISTICS/che_hcb.c:915-919), on the rest of `select_switch`.  Behind the array the
elements are 0 (`PDArrayElementInt`), which is not `select_count`. -/
def advLoop (cnt : Nat) : Nat → List Nat → Nat
  | cur, [] => cur
  | cur, s :: r => if cnt = s then advLoop cnt (cur + 1) r else cur

/-- The update of the counters in `HCBStandardClauseSelect` (HEURISTICS/che_hcb.c:914-924). -/
def HCB.advance (h : HCB) : HCB :=
  let cnt := h.cnt + 1
  let cur := advLoop cnt h.cur (h.switch.drop h.cur)
  if cur = h.switch.length then { h with cnt := 0, cur := 0 } else { h with cnt := cnt, cur := cur }

/-- The loop that finds the best clause and deletes orphans (HEURISTICS/che_hcb.c:907-913, 945-951); `none` out of fuel. -/
def selectLoop (x : EvalCtx H) (n pos : Nat) (orph : Nat → Bool) : Nat → USet → Option (Option Nat × USet)
  | 0, _ => none
  | k + 1, s =>
    match s.findBest pos with
    | none => some (none, s)
    | some c => if orph c then selectLoop x n pos orph k (s.extract x n c) else some (some c, s)

/-- `hcb->hcb_select(hcb, set)`: `HCBStandardClauseSelect` (HEURISTICS/che_hcb.c:903-926), or `HCBSingleWeightClauseSelect` (941-953)
if there is only one function (853-854).  `orph` is `ClauseIsOrphaned` at that time. -/
def hcbSelect (x : EvalCtx H) (orph : Nat → Bool) (h : HCB) (s : USet) : Option (Option Nat × HCB × USet) :=
  match selectLoop x h.switch.length h.cur orph (s.mem.length + 1) s with
  | none => none
  | some (r, s') => some (r, if h.switch.length = 1 then h else h.advance, s')

/-! ## Deletion of bad clauses -/

/-- The loop over `get_next_clause` (HEURISTICS/che_hcb.c:991-1000, 128-138): the first marked clause of those left in the traversal. -/
def nextMarked (marked : Nat → Bool) : List Nat → Option Nat × List Nat
  | [] => (none, [])
  | c :: l => if marked c then (some c, l) else nextMarked marked l

/-- The state of `HCBClauseSetDelProp`: what is left of the traversal of each tree (`STree.traverseAll`), the clauses that have the property,
`number`, `prop_cleared`. -/
structure DelSt where
  rem : Nat → List Nat
  marked : Nat → Bool
  number : Nat
  cleared : Nat

/-- One round of the inner loop (HEURISTICS/che_hcb.c:991-1001). -/
def delOne (i : Nat) (d : DelSt) : DelSt :=
  let r := nextMarked d.marked (d.rem i)
  ⟨fun k => if k = i then r.2 else d.rem k,
   match r.1 with
   | some c => fun k => if k = c then false else d.marked k
   | none => d.marked,
   d.number - 1, match r.1 with | some _ => d.cleared + 1 | none => d.cleared⟩

/-- The inner loop (HEURISTICS/che_hcb.c:989-1007) from `j` on, at most `k` rounds.  The bound is looked up at `j` (not `i`). -/
def delInner (switch : List Nat) (i : Nat) : Nat → Nat → DelSt → DelSt
  | 0, _, d => d
  | k + 1, j, d =>
    if j < switch.getD j 0 then
      let d' := delOne i d
      if d'.number = 0 then d' else delInner switch i k (j + 1) d'
    else d

/-- The loop over the functions (HEURISTICS/che_hcb.c:987-1012). -/
def delFuns (switch : List Nat) : List Nat → DelSt → DelSt
  | [], d => d
  | i :: is, d =>
    let d' := delInner switch i (switch.length + 1) 0 d
    if d'.number = 0 then d' else delFuns switch is d'

/-- The loop `while(number)` (HEURISTICS/che_hcb.c:985-1013), at most `k` rounds, `none` if they do not suffice. -/
def delLoop (switch : List Nat) : Nat → DelSt → Option DelSt
  | 0, d => if d.number = 0 then some d else none
  | k + 1, d => if d.number = 0 then some d else delLoop switch k (delFuns switch (List.range switch.length) d)

/-- `HCBClauseSetDeleteBadClauses` (HEURISTICS/che_hcb.c:1036-1046) with `HCBClauseSetDelProp` (972-1021): mark all clauses, clear the mark of
`number` clauses, delete the rest.  The clauses kept. -/
def deleteBad (h : HCB) (s : USet) (number : Nat) : Option (List Nat) :=
  (delLoop h.switch number ⟨fun i => (s.trees i).toList, fun c => decide (c ∈ s.mem), number, 0⟩).map fun d =>
    s.mem.filter fun c => !d.marked c

end Verif
