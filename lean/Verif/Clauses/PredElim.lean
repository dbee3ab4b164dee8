import Verif.Clauses.Bce
import Verif.Clauses.SatCheck
import Mathlib.Data.List.Dedup
import Verif.Terms.Match

/-!
# Predicate elimination

Model of `PredicateElimination` (CLAUSES/ccl_pred_elim.c:1460-1486).  A predicate is eliminated by replacing all clauses it occurs in by their resolvents, if this makes the clause set smaller.

* Clauses are identified by numbers, which stand for their addresses.  Sets of clauses (`PTree`) are lists; `ord` is the order in which `PTreeToPStack` lists a set.
* The heap of tasks is a list of symbols; `pick` chooses the next task from the state.
* `none` means out of fuel, or that a null pointer is followed (where the code has an assertion).
* Tautology tests (`taut`, `tautG`) and the SAT solver (`solve`) are parameters.
* The archive and the derivations recorded for resolvents are not modelled.  Statistics are exact (the code uses `double` for the squares of the numbers of variables).
-/

namespace Verif

/-! ## Sets of clauses and tasks -/

/-- `CheapClauseSet` (CLAUSES/ccl_pred_elim.c:31-35). -/
structure CCS where
  card : Int
  set : List Nat
deriving DecidableEq

/-- `mk_ccs` (CLAUSES/ccl_pred_elim.c:188-194). -/
def CCS.empty : CCS := ⟨0, []⟩

/-- `CCSStoreCl` (CLAUSES/ccl_pred_elim.c:208-216). -/
def CCS.store (s : CCS) (i : Nat) : CCS × Bool := if i ∈ s.set then (s, false) else (⟨s.card + 1, s.set ++ [i]⟩, true)

/-- `CCSRemoveCl` (CLAUSES/ccl_pred_elim.c:230-243). -/
def CCS.remove (s : CCS) (i : Nat) : CCS × Bool := if i ∈ s.set then (⟨s.card - 1, s.set.erase i⟩, true) else (s, false)

/-- `PTreeMerge` on the set; the cardinality stays as it is. -/
def CCS.merge (s t : CCS) : CCS := ⟨s.card, s.set ++ t.set.filter (· ∉ s.set)⟩

/-- `PETaskCell` (CLAUSES/ccl_pred_elim.c:44-63) without symbol and position in the heap.  `size = -1` marks a blocked task (`TASK_BLOCKED`); `lastLit` and `lastSq` are `none` as
long as they are infinite. -/
structure PeTask where
  pos : CCS
  neg : CCS
  off : CCS
  posG : CCS
  negG : CCS
  gate : Bool
  numLit : Int
  sqVars : Int
  size : Int
  lastLit : Option Int
  lastSq : Option Int
deriving DecidableEq

/-- `mk_task` (CLAUSES/ccl_pred_elim.c:257-279). -/
def PeTask.new : PeTask := ⟨.empty, .empty, .empty, .empty, .empty, false, 0, 0, 0, none, none⟩

/-- `CAN_SCHEDULE` (CLAUSES/ccl_pred_elim.c:71). -/
def PeTask.canSchedule (t : PeTask) : Bool := decide (t.off.card = 0) || t.gate

/-- Proof state of the elimination. -/
structure PeSt where
  passive : List (Nat × List Lit)
  next : Nat
  tasks : Nat → Option PeTask
  keys : List Nat
  queue : List Nat
  vars : VarBank

def PeSt.setTask (s : PeSt) (f : Nat) (t : PeTask) : PeSt := { s with tasks := fun g => if g = f then some t else s.tasks g }

/-- Parameters: options (`pred_elim_max_occs`, `pred_elim_gates`, `pred_elim_ignore_conj_syms`, `pred_elim_tolerance`, `pred_elim_force_mu_decrease`), what is left open (see above), and
the value of the local variable `eqn_found` of `PredicateElimination`, which is not initialised. -/
structure PeParams where
  sg : Sig
  pp : Term → Bool
  maxOccs : Nat
  gates : Bool
  ignoreConj : Bool
  tol : Int
  forceMu : Bool
  conj : Nat → Bool
  taut : List Lit → Bool
  tautG : List Lit → Bool
  solve : List SatClause → Option (List Nat)
  ad : Term → Nat
  eqc : Nat
  ord : List Nat → List Nat
  pick : PeSt → Nat
  eqnInit : Bool

/-! ## Scanning a clause -/

/-- `find_fcode_except` (CLAUSES/ccl_pred_elim.c:314-326): another literal with predicate `f` than the one at position `j`. -/
def otherOcc (C : List Lit) (j f : Nat) : Bool := (C.eraseIdx j).any fun K => K.predCode? == some f

/-- `unique_distinct_vars` (CLAUSES/ccl_pred_elim.c:373-381): the arguments are different variables. -/
def distinctVars (ts : List Term) : Bool := ts.all Term.isVar && decide ts.Nodup

/-- `potential_gate` (CLAUSES/ccl_pred_elim.c:396-411) with `term_vars_from_set` (340-358): the arguments of the literal at position `j` are different variables, which include those of
the other literals. -/
def potentialGate (C : List Lit) (j : Nat) : Bool :=
  match C[j]? with
  | none => false
  | some L => distinctVars L.l.argList && (C.eraseIdx j).all fun K => K.vars.all fun x => L.l.argList.contains (.var x)

/-- Square of the number of variables (CLAUSES/ccl_pred_elim.c:433-437). -/
def sqVarsOf (C : List Lit) : Int := (cvars C).dedup.length * (cvars C).dedup.length

/-- `update_statistics` (CLAUSES/ccl_pred_elim.c:426-438). -/
def PeTask.stats (t : PeTask) (C : List Lit) (m : Int) : PeTask :=
  { t with numLit := t.numLit + C.length * m, size := t.size + m, sqVars := t.sqVars + sqVarsOf C * m }

/-- The clause `i` is stored in the sets of a task (CLAUSES/ccl_pred_elim.c:483-508) for its literal at position `j` with sign `sign`. -/
def PeTask.insert (t : PeTask) (recog : Bool) (i : Nat) (C : List Lit) (j f : Nat) (sign : Bool) : PeTask :=
  if otherOcc C j f then
    let r := t.off.store i
    if r.2 then { t with off := r.1 }.stats C 1 else { t with off := r.1 }
  else if recog && potentialGate C j then
    if sign then
      let g := t.posG.store i
      let r := t.pos.store i
      if r.2 || g.2 then { t with posG := g.1, pos := r.1 }.stats C 1 else { t with posG := g.1, pos := r.1 }
    else
      let g := t.negG.store i
      let r := t.neg.store i
      if r.2 || g.2 then { t with negG := g.1, neg := r.1 }.stats C 1 else { t with negG := g.1, neg := r.1 }
  else if sign then
    let r := t.pos.store i
    if r.2 then { t with pos := r.1 }.stats C 1 else { t with pos := r.1 }
  else
    let r := t.neg.store i
    if r.2 then { t with neg := r.1 }.stats C 1 else { t with neg := r.1 }

/-- The number of occurrences that is compared with the limit (CLAUSES/ccl_pred_elim.c:470-473). -/
def PeTask.occs (t : PeTask) (sign : Bool) : Int := t.off.card + if sign then t.posG.card + t.pos.card else t.negG.card + t.neg.card

/-- The body of the loop of `scan_clause_for_predicates` (CLAUSES/ccl_pred_elim.c:458-520) for the literal at position `j`; `block` is `ignore_conj_syms && cl_is_conj`. -/
def scanLit (maxOccs : Nat) (recog block : Bool) (i : Nat) (C : List Lit) (s : PeSt) (j : Nat) : PeSt :=
  match C[j]? with
  | none => s
  | some L =>
    match L.predCode? with
    | none => s
    | some f =>
      let s := if (s.tasks f).isNone then { s with keys := s.keys ++ [f] } else s
      let t := (s.tasks f).getD .new
      let t := if block || (decide (0 < maxOccs) && decide ((maxOccs : Int) ≤ t.occs L.pos)) then { t with size := -1 } else t
      if t.size = -1 then s.setTask f t
      else
        let t := t.insert recog i C j f L.pos
        let s := s.setTask f t
        if f ∈ s.queue ∧ t.canSchedule = false then { s with queue := s.queue.erase f } else s

/-- `scan_clause_for_predicates` (CLAUSES/ccl_pred_elim.c:452-521). -/
def scanClause (maxOccs : Nat) (recog block : Bool) (i : Nat) (C : List Lit) (s : PeSt) : PeSt :=
  (List.range C.length).foldl (scanLit maxOccs recog block i C) s

/-! ## Resolvents -/

/-- `find_lit_w_head` (CLAUSES/ccl_pred_elim.c:634-661): the first literal with head `f` and the given sign, and the other literals in reverse order. -/
def findHead (f : Nat) (sign : Option Bool) : List Lit → List Lit → Option (Lit × List Lit)
  | [], _ => none
  | L :: C, rest =>
    if L.l.code = f ∧ (sign = none ∨ sign = some L.pos) then some (L, C.reverse ++ rest) else findHead f sign C (L :: rest)

/-- `EqnListRemoveResolved`, `EqnListRemoveDuplicates`. -/
def peFinish (sg : Sig) (C : List Lit) : List Lit := removeDup (removeResolved sg C)

/-- `build_neq_resolvent` (CLAUSES/ccl_pred_elim.c:684-732); `some none` if there is no unifier. -/
def buildNeq (p : PeParams) (k : Nat) (P N : List Lit) (f : Nat) : Option (Option (List Lit)) :=
  match findHead f (some true) (copyDisjoint P) [], findHead f (some false) (N.map fun K => mkEqn K.pos K.l K.r) [] with
  | some (pl, prest), some (nl, nrest) =>
    match unify p.sg p.pp k nl.l pl.l ⟨fun _ => none, []⟩ with
    | none => none
    | some (false, _) => some none
    | some (true, st) =>
      match copyLits st.bind (fun _ => none) k prest, copyLits st.bind (fun _ => none) k nrest with
      | some A, some B => some (some (peFinish p.sg (A ++ B)))
      | _, _ => none
  | _, _ => none

/-- `build_eq_resolvent` (CLAUSES/ccl_pred_elim.c:747-802).  The result of the unification is ignored; if it failed, nothing would be bound. -/
def buildEq (p : PeParams) (k : Nat) (P N : List Lit) (f : Nat) : Option (Option (List Lit)) :=
  match findHead f (some true) (copyDisjoint P) [], findHead f (some false) (N.map fun K => mkEqn K.pos K.l K.r) [] with
  | some (pl, prest), some (nl, nrest) =>
    if distinctVars pl.l.argList || distinctVars nl.l.argList then
      match unify p.sg p.pp k pl.l nl.l ⟨fun _ => none, []⟩ with
      | none => none
      | some (_, st) =>
        match copyLits st.bind (fun _ => none) k prest, copyLits st.bind (fun _ => none) k nrest with
        | some A, some B => some (some (peFinish p.sg (A ++ B)))
        | _, _ => none
    else
      some (some (peFinish p.sg ((List.zipWith (fun s t => mkEqn false s t) pl.l.argList nl.l.argList).reverse ++ prest ++ nrest)))
  | _, _ => none

/-! ## Gates -/

/-- `declare_not_gate` (CLAUSES/ccl_pred_elim.c:603-614). -/
def PeTask.notGate (t : PeTask) : PeTask := { t with posG := .empty, negG := .empty, gate := false }

/-- The inner loop of `check_tautologies` (CLAUSES/ccl_pred_elim.c:834-840): it tests and increments `i`, not `j`, so that the resolvent is always the same; `r` is its test. -/
def tautInner (r : Bool) (n : Nat) : Nat → Nat → Bool → Nat × Bool
  | 0, i, all => (i, all)
  | k + 1, i, all => if all && decide (i < n) then tautInner r n k (i + 1) r else (i, all)

/-- The outer loop of `check_tautologies` (CLAUSES/ccl_pred_elim.c:831-841); `test i` tests the resolvent of the `i`th positive and the first negative clause. -/
def tautOuter (test : Nat → Option Bool) (np nn : Nat) : Nat → Nat → Bool → Option Bool
  | 0, _, all => some all
  | k + 1, i, all =>
    if i < np then
      if all && decide (i < nn) then
        match test i with
        | none => none
        | some r =>
          let q := tautInner r nn nn i all
          tautOuter test np nn k (q.1 + 1) q.2
      else tautOuter test np nn k (i + 1) all
    else some all

/-- `check_tautologies` (CLAUSES/ccl_pred_elim.c:817-867) on the clauses of the core (top of the stack last). -/
def checkTautologies (p : PeParams) (k f : Nat) (t : PeTask) (core : List (Nat × List Lit)) : Option PeTask :=
  let cs := core.reverse
  let isPos := fun (c : Nat × List Lit) => ((findHead f none c.2 []).map fun q => q.1.pos) == some true
  let P := cs.filter isPos
  let N := cs.filter fun c => !isPos c
  let test := fun i =>
    match P[i]?, N[0]? with
    | some a, some b =>
      match buildNeq p k a.2 b.2 f with
      | some (some R) => some (p.tautG R)
      | _ => none
    | _, _ => none
  match tautOuter test P.length N.length P.length 0 true with
  | none => none
  | some false => some t.notGate
  | some true =>
    some { t.notGate with
      gate := true
      posG := P.reverse.foldl (fun s c => (s.store c.1).1) CCS.empty
      negG := N.reverse.foldl (fun s c => (s.store c.1).1) CCS.empty
      pos := P.reverse.foldl (fun s c => (s.remove c.1).1) t.pos
      neg := N.reverse.foldl (fun s c => (s.remove c.1).1) t.neg }

/-- The body of a gate clause with the variables of the pivot (CLAUSES/ccl_pred_elim.c:911-922). -/
def gateBody (p : PeParams) (k f : Nat) (target : Term) (C : List Lit) : Option (List Lit) :=
  match findHead f none C [] with
  | none => none
  | some (L, _) =>
    match substComputeMatch p.sg L.l target (p.pp target) ⟨fun _ => none, []⟩ with
    | none => none
    | some (_, st) => copyLits st.bind (fun _ => none) k (C.erase L)

/-- Number and clause of the members of a set. -/
def PeSt.clauses (s : PeSt) (ids : List Nat) : List (Nat × List Lit) := ids.filterMap fun i => (s.passive.lookup i).map fun C => (i, C)

/-- `check_unsat_and_tauto` (CLAUSES/ccl_pred_elim.c:882-959) with `SatClauseSetCheckAndGetCore` (CLAUSES/ccl_satinterface.c:1099-1111).  The pivot is the last of the clauses.
The solver is given the clauses without pure literals; it answers with the positions of a core. -/
def checkUnsatTauto (p : PeParams) (k f : Nat) (s : PeSt) (t : PeTask) : Option PeTask :=
  match (s.clauses (p.ord t.posG.set) ++ s.clauses (p.ord t.negG.set)).reverse with
  | [] => none
  | pivot :: others =>
    match findHead f none (copyDisjoint pivot.2) [] with
    | none => none
    | some (fl, frest) =>
      match mapOpt (fun c => (gateBody p k f fl.l c.2).map fun B => (c, B)) others with
      | none => none
      | some bodies =>
        let env := (pivot, frest) :: bodies
        let sat := (markPure (satImport p.ad p.eqc Term.var (.empty none) (env.map Prod.snd))).set
        let cand := (env.zip sat).filter fun e => !e.2.pure
        match p.solve (cand.map Prod.snd) with
        | none => some t.notGate
        | some core => checkTautologies p k f t (core.filterMap fun i => (cand[i]?).map fun e => e.1.1)

/-- The body of the loop of `update_gate_status` (CLAUSES/ccl_pred_elim.c:980-990). -/
def gateStatus (p : PeParams) (k : Nat) (s : PeSt) (f : Nat) : Option PeSt :=
  match s.tasks f with
  | none => some s
  | some t =>
    if t.posG.card ≠ 0 ∧ t.negG.card ≠ 0 then (checkUnsatTauto p k f s t).map (s.setTask f) else some (s.setTask f t.notGate)

def gateStatuses (p : PeParams) (k : Nat) : List Nat → PeSt → Option PeSt
  | [], s => some s
  | f :: fs, s => (gateStatus p k s f).bind (gateStatuses p k fs)

/-! ## The queue -/

/-- The clauses with their numbers. -/
def numbered (Cs : List (List Lit)) : List (Nat × List Lit) := (List.range Cs.length).zip Cs

/-- The first loop of `build_task_queue` (CLAUSES/ccl_pred_elim.c:1019-1024). -/
def scanAll (p : PeParams) (cs : List (Nat × List Lit)) (s : PeSt) : PeSt :=
  cs.foldl (fun s c => scanClause p.maxOccs p.gates (p.ignoreConj && p.conj c.1) c.1 c.2 s) s

/-- `build_task_queue` (CLAUSES/ccl_pred_elim.c:1010-1047). -/
def buildQueue (p : PeParams) (k : Nat) (Cs : List (List Lit)) (b : VarBank) : Option PeSt :=
  let s := scanAll p (numbered Cs) ⟨numbered Cs, Cs.length, fun _ => none, [], [], b⟩
  (if p.gates then gateStatuses p k s.keys s else some s).map fun s =>
    { s with queue := s.keys.filter fun f => ((s.tasks f).map PeTask.canSchedule).getD false }

/-! ## Elimination of one predicate -/

/-- The inner loop of `do_singular_elimination` (CLAUSES/ccl_pred_elim.c:1075-1087). -/
def singularRow (taut : List Lit → Bool) (res : List Lit → Option (Option (List Lit))) : List (List Lit) → Option (List (List Lit))
  | [] => some []
  | N :: Ns =>
    match res N, singularRow taut res Ns with
    | some none, some Rs => some Rs
    | some (some R), some Rs => some (if taut R then Rs else R :: Rs)
    | _, _ => none

/-- `do_singular_elimination` (CLAUSES/ccl_pred_elim.c:1063-1092): the clauses pushed. -/
def singular (taut : List Lit → Bool) (res : List Lit → List Lit → Option (Option (List Lit))) (Ns : List (List Lit)) : List (List Lit) → Option (List (List Lit))
  | [] => some []
  | P :: Ps =>
    match singularRow taut (res P) Ns, singular taut res Ns Ps with
    | some Rs, some Rss => some (Rs ++ Rss)
    | _, _ => none

/-- The loop over the gates in `do_gates_against_offending` (CLAUSES/ccl_pred_elim.c:1131-1148): the clauses pushed on the worklist, and the variable bank. -/
def gateRow (p : PeParams) (k : Nat) (res : List Lit → Option (Option (List Lit))) : List (List Lit) → VarBank → Option (List (List Lit) × VarBank)
  | [], b => some ([], b)
  | G :: Gs, b =>
    match res G with
    | some (some R) =>
      if p.taut R then gateRow p k res Gs b
      else
        match clauseNormalizeVars p.sg k b R with
        | none => none
        | some (b', R') => (gateRow p k res Gs b').map fun q => (R' :: q.1, q.2)
    | _ => none

/-- `do_gates_against_offending` (CLAUSES/ccl_pred_elim.c:1107-1160): the clauses pushed on `cls`.  The first clause of the worklist is the top of the stack. -/
def gateLoop (p : PeParams) (k f : Nat) (Ps Ns : List (List Lit)) : Nat → List (List Lit) → VarBank → Option (List (List Lit) × VarBank)
  | 0, _, _ => none
  | _ + 1, [], b => some ([], b)
  | n + 1, C :: W, b =>
    match C.find? fun K => K.predCode? == some f with
    | none => (gateLoop p k f Ps Ns n W b).map fun q => (C :: q.1, q.2)
    | some L =>
      match gateRow p k (fun G => if L.pos then buildNeq p k C G f else buildNeq p k G C f) (if L.pos then Ns else Ps) b with
      | none => none
      | some (Rs, b') => gateLoop p k f Ps Ns n (Rs.reverse ++ W) b'

/-- `try_gate_elimination`, `try_singular_elimination` (CLAUSES/ccl_pred_elim.c:1177-1204): the new clauses (top of the stack last). -/
def tryElim (p : PeParams) (k : Nat) (eqn : Bool) (s : PeSt) (f : Nat) (t : PeTask) : Option (List (List Lit) × VarBank) :=
  let cls := fun (c : CCS) => (s.clauses (p.ord c.set)).map Prod.snd
  if t.gate then
    match singular p.taut (fun P N => buildNeq p k P N f) (cls t.neg) (cls t.posG), singular p.taut (fun P N => buildNeq p k P N f) (cls t.negG) (cls t.pos),
      gateLoop p k f (cls t.posG) (cls t.negG) k (cls t.off).reverse s.vars with
    | some A, some B, some (O, b) => some (A ++ B ++ O, b)
    | _, _, _ => none
  else
    (singular p.taut (fun P N => if eqn then buildEq p k P N f else buildNeq p k P N f) (cls t.neg) (cls t.pos)).map fun A => (A, s.vars)

/-- `measure_decreases` (CLAUSES/ccl_pred_elim.c:1334-1352). -/
def measureDecreases (t : PeTask) (cls : List (List Lit)) (tol : Int) (forceMu : Bool) : Bool :=
  let lits : Int := (cls.map fun C => (C.length : Int)).sum
  let mu := (cls.map sqVarsOf).sum
  let a := decide (lits < t.numLit + tol) || decide ((cls.length : Int) < t.size + tol)
  let m := decide (mu < t.sqVars + tol)
  if forceMu then m && a else m || a

/-- A clause is taken out of the sets of a task (CLAUSES/ccl_pred_elim.c:1246-1280), with the new state of the queue: `inQ` whether the task is in the queue. -/
def PeTask.removeClause (t : PeTask) (i : Nat) (C : List Lit) (sign inQ : Bool) : PeTask × Bool :=
  let g := (if sign then t.posG else t.negG).remove i
  if g.2 then
    let t' : PeTask := { t with pos := t.pos.merge (if sign then g.1 else t.posG), neg := t.neg.merge (if sign then t.negG else g.1) }
    let t' := t'.notGate
    (t'.stats C (-1), inQ && t'.canSchedule)
  else
    let r := (if sign then t.pos else t.neg).remove i
    let o := t.off.remove i
    let t' : PeTask := if sign then { t with pos := r.1, off := o.1 } else { t with neg := r.1, off := o.1 }
    if r.2 || o.2 then
      let t' := t'.stats C (-1)
      (t', inQ || (t'.canSchedule && (t'.lastLit.map fun l => decide (t'.numLit < l)).getD true && (t'.lastSq.map fun l => decide (t'.sqVars < l)).getD true))
    else (t', inQ)

/-- The body of the loop of `react_clause_removed` (CLAUSES/ccl_pred_elim.c:1237-1284). -/
def removeLit (i : Nat) (C : List Lit) (s : PeSt) (L : Lit) : PeSt :=
  match L.predCode? with
  | none => s
  | some f =>
    match s.tasks f with
    | none => s
    | some t =>
      if t.size = -1 then s
      else
        let r := t.removeClause i C L.pos (s.queue.contains f)
        let s := s.setTask f r.1
        if r.2 then (if f ∈ s.queue then s else { s with queue := s.queue ++ [f] }) else { s with queue := s.queue.erase f }

/-- The loop of `remove_clauses_from_state` (CLAUSES/ccl_pred_elim.c:1312-1318) for one clause; `react_clause_removed` (1235-1285). -/
def removeClause (s : PeSt) (c : Nat × List Lit) : PeSt :=
  c.2.foldl (removeLit c.1 c.2) { s with passive := s.passive.filter fun d => d.1 ≠ c.1 }

/-- `remove_clauses_from_state` (CLAUSES/ccl_pred_elim.c:1301-1320). -/
def removeClauses (p : PeParams) (s : PeSt) (f : Nat) (t : PeTask) : PeSt :=
  let all := s.clauses (p.ord t.posG.set) ++ s.clauses (p.ord t.negG.set) ++ s.clauses (p.ord t.pos.set) ++ s.clauses (p.ord t.neg.set) ++ s.clauses (p.ord t.off.set)
  all.reverse.foldl removeClause (s.setTask f { t with size := -1 })

/-- The loop over the new clauses in `eliminate_predicates` (CLAUSES/ccl_pred_elim.c:1399-1407) with `react_clause_added` (1218-1221). -/
def addClauses (p : PeParams) (k : Nat) : List (List Lit) → PeSt → Option PeSt
  | [], s => some s
  | C :: Cs, s =>
    match clauseNormalizeVars p.sg k s.vars C with
    | none => none
    | some (b, C') =>
      addClauses p k Cs (scanClause p.maxOccs false false s.next C' { s with passive := s.passive ++ [(s.next, C')], next := s.next + 1, vars := b })

/-- A task is processed (CLAUSES/ccl_pred_elim.c:1377-1416); it has been taken from the queue. -/
def peStep (p : PeParams) (k : Nat) (eqn : Bool) (s : PeSt) (f : Nat) : Option PeSt :=
  match s.tasks f with
  | none => none
  | some t =>
    let t : PeTask := { t with lastLit := some t.numLit, lastSq := some t.sqVars }
    let s := s.setTask f t
    if t.size = -1 then some s
    else
      match tryElim p k eqn s f t with
      | none => none
      | some (cls, b) =>
        let s := { s with vars := b }
        if measureDecreases t cls p.tol p.forceMu then addClauses p k cls.reverse (removeClauses p s f t) else some s

/-- `eliminate_predicates` (CLAUSES/ccl_pred_elim.c:1367-1420). -/
def peLoop (p : PeParams) (eqn : Bool) (kk : Nat) : Nat → PeSt → Option PeSt
  | 0, _ => none
  | k + 1, s =>
    match s.queue[p.pick s % s.queue.length]? with
    | none => some s
    | some f =>
      match peStep p kk eqn { s with queue := s.queue.eraseIdx (p.pick s % s.queue.length) } f with
      | none => none
      | some s' => peLoop p eqn kk k s'

/-- `PredicateElimination` (CLAUSES/ccl_pred_elim.c:1460-1486): the variable bank and the clauses afterwards. -/
def predElim (p : PeParams) (k : Nat) (Cs : List (List Lit)) (b : VarBank) : Option (VarBank × List (List Lit)) :=
  match buildQueue p k Cs b with
  | none => none
  | some s => (peLoop p (p.eqnInit || eqFound Cs) k k s).map fun s => (s.vars, s.passive.map Prod.snd)

end Verif
