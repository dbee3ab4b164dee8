import Mathlib.Data.List.Sort
import Mathlib.Data.List.Perm.Subperm
import Mathlib.Tactic.SplitIfs

/-!
# Axiom selection (SinE)

Model of the generalised SinE axiom filter: the symbol distribution, the D-relation between symbols
and axioms, the breadth first selection loop and the replacement of the axiom set of the proof
state.

Simplifications: an axiom (clause or formula) is represented by its identity, its role and the list
of symbol occurrences its term traversal meets (`TermAddSymbolDistExist`,
TERMS/cte_termfunc.c:2499-2531, `EqnListAddSymbolDistExist`, CLAUSES/ccl_eqnlist.c:1744-1751); the
conclusion that `TermTrimImplications` (cte_termfunc.c:3495-3510) leaves of a conjecture is given by
a second such list.  `double` parameters are fractions of natural numbers.  The queue is a list
(`PQueue` is treated on its own in `Basics/PQueue.lean`).
-/

namespace Verif.Sine

/-- A clause or formula as axiom selection sees it (`Clause_p`, `WFormula_p`): identity, kind, the
roles `ClauseIsConjecture`/`ClauseIsHypothesis`, the symbol occurrences in the order of the
traversal, the occurrences in the conclusion after `TermTrimImplications`, and the result of
`WFormulaGetLambdaDefinedSym` (`none` for -1). -/
structure SAx where
  id : Nat
  clause : Bool
  conj : Bool
  hypo : Bool
  occ : List Nat
  trim : List Nat
  lam : Option Nat
  deriving DecidableEq, Repr

/-- `AxFilterCell`, HEURISTICS/che_axfilter.h:67-82.  `terms` tells `GMTerms` from `GMFormulas` (the
only measures `extract_generality` accepts); `benevolence` and `max_set_fraction` are fractions. -/
structure SFilter where
  terms : Bool
  hypos : Bool
  benNum : Nat
  benDen : Nat
  generosity : Nat
  depth : Nat
  maxSize : Nat
  fracNum : Nat
  fracDen : Nat
  noSym : Bool
  trimImpl : Bool
  defined : Bool
  deriving Repr

/-- The occurrences that count for an axiom: the trimmed conclusion for a conjecture formula with
`trim_implications`, all of them otherwise (ccl_sine.c:598, 610-613, ccl_f_generality.c:425-429,
654-656, 694-697). -/
def occOf (f : SFilter) (a : SAx) : List Nat :=
  if !a.clause && a.conj && f.trimImpl then a.trim else a.occ

/-- The stack `exists` of distinct symbols in the order of their first occurrence
(cte_termfunc.c:2517-2521). -/
def symStack (f : SFilter) (a : SAx) : List Nat := (occOf f a).eraseDups

/-- `GenDistribCell`: `term_freq` and `fc_freq` for every symbol, ccl_f_generality.h. -/
structure GDist where
  term : Nat → Nat
  form : Nat → Nat

/-- A fresh distribution, `GenDistribAlloc`, ccl_f_generality.c:271-288. -/
def gdEmpty : GDist := ⟨fun _ => 0, fun _ => 0⟩

/-- `gd_merge_single_res` with factor 1, ccl_f_generality.c:74-87. -/
def gdMerge (occ : List Nat) : List Nat → GDist → GDist
  | [], d => d
  | s :: ss, d =>
    gdMerge occ ss
      ⟨fun t => if t = s then d.term t + occ.count s else d.term t,
       fun t => if t = s then d.form t + 1 else d.form t⟩

/-- `GenDistribAddClause`/`GenDistribAddFormula`, ccl_f_generality.c:358-374, 417-437. -/
def gdAdd (f : SFilter) (d : GDist) (a : SAx) : GDist := gdMerge (occOf f a) (symStack f a) d

/-- `StructFOFSpecAddProblem`: the distribution of all axioms of the problem,
CONTROL/cco_batch_spec.c:596-606. -/
def gdAll (f : SFilter) (axs : List SAx) : GDist := axs.foldl (gdAdd f) gdEmpty

/-- `extract_generality`, ccl_f_generality.c:147-164. -/
def gen (f : SFilter) (d : GDist) (s : Nat) : Nat := if f.terms then d.term s else d.form s

/-- The other frequency, used as tie break by `FunGenTGCmp`/`FunGenCGCmp`. -/
def gen2 (f : SFilter) (d : GDist) (s : Nat) : Nat := if f.terms then d.form s else d.term s

/-- `FunGenTGCmp`/`FunGenCGCmp` as "not greater", ccl_f_generality.c:571-627. -/
def genLe (f : SFilter) (d : GDist) (s t : Nat) : Bool :=
  if gen f d s = gen f d t then
    if gen2 f d s = gen2 f d t then decide (s ≤ t) else decide (gen2 f d s < gen2 f d t)
  else decide (gen f d s < gen f d t)

/-- Insertion into a sorted stack; `PStackSort` is represented by insertion sort (the comparison is
a total order on distinct symbols, so every sorting algorithm gives the same result). -/
def genIns (f : SFilter) (d : GDist) (s : Nat) : List Nat → List Nat
  | [] => [s]
  | t :: ts => if genLe f d s t then s :: t :: ts else t :: genIns f d s ts

/-- `PStackSort(sort_stack, …)`, ccl_f_generality.c:206-217. -/
def genSort (f : SFilter) (d : GDist) : List Nat → List Nat
  | [] => []
  | s :: ss => genIns f d s (genSort f d ss)

/-- The loop that pushes symbols until one exceeds the limit, ccl_f_generality.c:235-248. -/
def pushLimit (f : SFilter) (d : GDist) (lim : Nat) : List Nat → List Nat
  | [] => []
  | s :: ss => if gen f d s > lim then [] else s :: pushLimit f d lim ss

/-- `compute_d_rel`, ccl_f_generality.c:180-252 (`int` is `sig->internal_symbols`). -/
def computeDRel (f : SFilter) (d : GDist) (int : Nat) (stack : List Nat) : List Nat :=
  match genSort f d (stack.filter (fun s => decide (int ≤ s))) with
  | [] => []
  | s :: ss =>
    let limit := gen f d s * f.benNum / f.benDen
    let g := if f.generosity ≥ ss.length + 1 then ss.length else f.generosity
    let aux := gen f d ((s :: ss).getD g 0)
    let limit := if aux < limit then aux else limit
    pushLimit f d limit (s :: ss)

/-- The symbols an axiom is filed under: `ClauseComputeDRel`/`FormulaComputeDRel` and the symbol a
formula defines, ccl_sine.c:191-196, 240-254. -/
def fileSyms (f : SFilter) (d : GDist) (int : Nat) (a : SAx) : List Nat :=
  let l := computeDRel f d int (symStack f a)
  match a.lam with
  | none => l
  | some s => if !a.clause && f.defined && !(l.contains s) then l ++ [s] else l

/-- A D-relation: the entries with the axioms filed under them (`DRelationCell`, ccl_sine.h);
clauses and formulas are kept on separate stacks. -/
abbrev DRel := List (Nat × List SAx × List SAx)

/-- Push an axiom on the entry of a symbol, creating the entry if there is none
(`DRelationGetFEntry` and `PStackPushP`, ccl_sine.c:155-164, 199-208, 257-266). -/
def drelPush (a : SAx) (s : Nat) : DRel → DRel
  | [] => [(s, if a.clause then [a] else [], if a.clause then [] else [a])]
  | (t, cs, fs) :: r =>
    if t = s then
      (t, if a.clause then cs ++ [a] else cs, if a.clause then fs else fs ++ [a]) :: r
    else (t, cs, fs) :: drelPush a s r

/-- `DRelationAddClause`/`DRelationAddFormula`, ccl_sine.c:180-270: entry 0 for an axiom without
symbols. -/
def drelAdd (f : SFilter) (d : GDist) (int : Nat) (r : DRel) (a : SAx) : DRel :=
  match fileSyms f d int a with
  | [] => drelPush a 0 r
  | l => l.reverse.foldl (fun r s => drelPush a s r) r

/-- `DRelationAddClauseSets` and `DRelationAddFormulaSets`, ccl_sine.c:285-415, 702-713 (all
clauses, then all formulas). -/
def drelAll (f : SFilter) (d : GDist) (int : Nat) (axs : List SAx) : DRel :=
  (axs.filter (·.clause) ++ axs.filter (fun a => !a.clause)).foldl (drelAdd f d int) []

/-- `PDArrayElementP(drel->relation, i)`. -/
def entry (r : DRel) (s : Nat) : Option (List SAx × List SAx) := r.lookup s

/-- The seeds: conjectures, and hypotheses if asked for; the clauses and then the formulas of the
problem (`ClauseSetFindAxSelectionSeeds`, `FormulaSetFindAxSelectionSeeds`, ccl_sine.c:469-522,
717-725). -/
def isSeed (f : SFilter) (a : SAx) : Bool := a.conj || (f.hypos && a.hypo)

@[inherit_doc isSeed]
def seedsOf (f : SFilter) (axs : List SAx) : List SAx :=
  (axs.filter (·.clause)).filter (isSeed f) ++ (axs.filter (fun a => !a.clause)).filter (isSeed f)

/-- The state of the selection loop: the queue (`none` is the level marker `ATNoType`), the activated
entries, the selected axioms (they carry `CPIsRelevant`) and `recursion_level`. -/
structure SState where
  queue : List (Option SAx)
  active : List Nat
  sel : List SAx
  level : Nat

/-- The loop over the symbols of a newly selected axiom: every entry not yet activated is activated
and its axioms are enqueued, ccl_sine.c:627-655. -/
def trigger (int : Nat) (r : DRel) : List Nat → List (Option SAx) × List Nat →
    List (Option SAx) × List Nat
  | [], qa => qa
  | s :: ss, (q, act) =>
    match entry r s with
    | some (cs, fs) =>
      if int < s ∧ s ∉ act then
        trigger int r ss (q ++ (cs.map some ++ fs.map some), s :: act)
      else trigger int r ss (q, act)
    | none => trigger int r ss (q, act)

/-- One turn of the loop of `SelectDefiningAxioms`, ccl_sine.c:566-657; `none` when the loop is left
(queue empty, size limit or depth limit exceeded). -/
def selStep (int : Nat) (r : DRel) (syms : SAx → List Nat) (depth maxSize : Nat) (st : SState) :
    Option SState :=
  match st.queue with
  | [] => none
  | x :: q =>
    if st.sel.length > maxSize ∨ st.level > depth then none
    else
      match x with
      | none => some { st with queue := if q.isEmpty then q else q ++ [none], level := st.level + 1 }
      | some a =>
        if a ∈ st.sel then some { st with queue := q }
        else
          let (q', act) := trigger int r (syms a) (q, st.active)
          some { st with queue := q', active := act, sel := st.sel ++ [a] }

/-- The loop of `SelectDefiningAxioms`, ccl_sine.c:566-657, with fuel (`none`: out of fuel). -/
def selLoop (int : Nat) (r : DRel) (syms : SAx → List Nat) (depth maxSize : Nat) :
    Nat → SState → Option (List SAx)
  | 0, _ => none
  | n + 1, st =>
    match selStep int r syms depth maxSize st with
    | none => some st.sel
    | some st' => selLoop int r syms depth maxSize n st'

/-- Number of axioms filed in all entries (an upper bound of what can still be enqueued). -/
def drelSize : DRel → Nat
  | [] => 0
  | (_, cs, fs) :: r => cs.length + fs.length + drelSize r

/-- `SelectDefiningAxioms`, ccl_sine.c:539-661: the marker is stored behind the seeds.  The fuel
always suffices (`selectDefining_total`). -/
def selectDefining (int : Nat) (r : DRel) (syms : SAx → List Nat) (depth maxSize : Nat)
    (seeds : List SAx) : Option (List SAx) :=
  selLoop int r syms depth maxSize (2 * (seeds.length + drelSize r) + 3)
    ⟨seeds.map some ++ [none], [], [], 0⟩

/-- The result of `SelectAxioms`, ccl_sine.c:681-780: the axioms without symbols if the filter asks
for them, then the selected axioms (the two result stacks are one list here).  Without seeds
nothing is selected. -/
def selectAxioms (f : SFilter) (int : Nat) (axs : List SAx) : Option (List SAx) :=
  let d := gdAll f axs
  let r := drelAll f d int axs
  let seeds := seedsOf f axs
  if seeds.isEmpty then some []
  else
    let lim := f.fracNum * axs.length / f.fracDen
    let lim := if f.maxSize < lim then f.maxSize else lim
    let pre :=
      match entry r 0 with
      | some (cs, fs) => if f.noSym then cs ++ fs else []
      | none => []
    (selectDefining int r (symStack f) f.depth lim seeds).map (pre ++ ·)

/-- `SelectThreshold`, ccl_sine.c:797-838. -/
def selectThreshold (threshold : Nat) (axs : List SAx) : List SAx :=
  if axs.length ≤ threshold then axs else []

/-- `SelectDefinitions`, ccl_sine.c:853-881; `isDef` is the property `CPIsLambdaDef`. -/
def selectDefinitions (isDef : SAx → Bool) (axs : List SAx) : List SAx :=
  axs.filter (fun a => !a.clause && (isDef a || a.conj || a.hypo))

/-- `PStackClausesMove`/`PStackFormulasMove` into the fresh sets, ccl_sine.c:1090-1125: every axiom
is extracted from the set it is in and inserted at the end of the new one. -/
def moveAll : List SAx → List SAx → List SAx
  | [], new => new
  | a :: as, new => moveAll as (new.erase a ++ [a])

/-- `ProofStateSinE`, CONTROL/cco_sine.c:601-676, from the selected axioms on: the new axiom set and
the number of axioms reported as pruned. -/
def replaceAxioms (axs sel : List SAx) : List SAx × Nat :=
  let new := moveAll sel []
  (new, axs.length - new.length)

end Verif.Sine
