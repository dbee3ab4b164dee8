import Verif.Basics.Splay
import Verif.Terms.Inst

/-!
# The term bank

Model of the shared term store: `tb_termtop_insert` and `TBInsert` (TERMS/cte_termbanks.c), the hash table of splay trees
below it (TERMS/cte_termcellstore.c, TERMS/cte_termtrees.c) and the garbage collection of unused cells.

Memory is a function from addresses to cells together with the list of addresses in use.  Which free address `malloc` returns,
the order of addresses (`PCmp`) and the hash function are arbitrary.  Variables are cells of the variable bank, which are never
freed; a pointer to one is `var`.  First-order terms only: applied variables, lambda terms and de Bruijn variables are left out,
and so are types, on which the comparison does not depend for first-order problems (cte_termtrees.c:213).
-/

namespace Verif

/-- A pointer to a shared term: a variable cell of the variable bank, or the address of a cell of the term bank. -/
inductive TRef where
  | var (x : Nat)
  | cell (a : Nat)
deriving DecidableEq, Repr

/-- The fields of `TermCell` (TERMS/cte_termtypes.h:129-164) the term bank sets.  `flag` is the property `TPGarbageFlag`,
`ground` is `TPIsGround`, `link` the rewrite link (`none` unless `TermIsRewritten`).  Other properties are left out. -/
structure TCell where
  f : Nat
  args : List TRef
  entryNo : Nat := 0
  vCount : Nat := 0
  fCount : Nat := 0
  weight : Nat := 0
  ground : Bool := false
  flag : Bool := false
  link : Option TRef := none
deriving DecidableEq, Repr

/-- What cells are compared by. -/
abbrev TKey := Nat × List TRef

/-- The loop of `TermTopCompare` over the arguments (TERMS/cte_termtrees.c:227-236); the lists have the same length. -/
def argsCompare (pcmp : TRef → TRef → Ordering) : List TRef → List TRef → Ordering
  | r :: rs, s :: ss =>
    match pcmp r s with
    | .eq => argsCompare pcmp rs ss
    | o => o
  | _, _ => .eq

/-- `TermTopCompare` (TERMS/cte_termtrees.c:193-237): symbols, arities, argument pointers. -/
def topCompare (pcmp : TRef → TRef → Ordering) (k l : TKey) : Ordering :=
  match compare k.1 l.1 with
  | .eq =>
    match compare k.2.length l.2.length with
    | .eq => argsCompare pcmp k.2 l.2
    | o => o
  | o => o

/-- `TBCell` (TERMS/cte_termbanks.h:47-110): the hash table of trees, the counter and the garbage flag of unmarked cells; and
the memory.  `used` are the addresses handed out and not yet freed. -/
structure TBank where
  store : Nat → STree Nat
  cell : Nat → TCell
  used : List Nat
  inCount : Nat
  gs : Bool

/-- `TBAlloc` (TERMS/cte_termbanks.c:740-774), before the two truth constants are inserted. -/
def TBank.empty : TBank := ⟨fun _ => .leaf, fun _ => ⟨0, [], 0, 0, 0, 0, false, false, none⟩, [], 0, false⟩

/-- The environment: pointer comparison, hash function and size of the hash table, memory allocation. -/
structure TBCtx where
  pcmp : TRef → TRef → Ordering
  hash : TKey → Nat
  size : Nat
  alloc : TBank → Nat

/-- Assignment to one place. -/
def upd {α : Type} (m : Nat → α) (i : Nat) (v : α) : Nat → α := fun j => if j = i then v else m j

/-- The key of a cell. -/
def keyOf (m : Nat → TCell) (a : Nat) : TKey := ((m a).f, (m a).args)

/-- The loop over the arguments in `tb_termtop_insert` (TERMS/cte_termbanks.c:203-232): variable count, function symbol count,
weight. -/
def addArgs (m : Nat → TCell) : Nat × Nat × Nat → List TRef → Nat × Nat × Nat
  | c, [] => c
  | (v, f, w), .var _ :: rs => addArgs m (v + 1, f, w + 1) rs
  | (v, f, w), .cell a :: rs => addArgs m (v + (m a).vCount, f + (m a).fCount, w + (m a).weight) rs

/-- The new cell (TERMS/cte_termbanks.c:172-258).  A copied cell has no rewrite link. -/
def newCell (b : TBank) (f : Nat) (args : List TRef) : TCell :=
  let c := addArgs b.cell (0, 1, 2) args
  { f := f, args := args, entryNo := b.inCount + 1, vCount := c.1, fCount := c.2.1, weight := c.2.2, ground := c.1 == 0,
    flag := b.gs, link := none }

/-- `tb_termtop_insert` (TERMS/cte_termbanks.c:132-268) with `TermCellStoreInsert` (TERMS/cte_termcellstore.c:163-174).  The
unshared cell lives at the fresh address `alloc b`; if an equal cell is found it is freed again (line 166).  In C it is
allocated before the arguments are inserted, which makes no difference. -/
def insertTop (x : TBCtx) (b : TBank) (f : Nat) (args : List TRef) : TRef × TBank :=
  let a := x.alloc b
  let i := x.hash (f, args)
  match STree.insert (topCompare x.pcmp) (keyOf (upd b.cell a { f := f, args := args })) a (b.store i) with
  | (some e, t) => (.cell e, { b with store := upd b.store i t })
  | (none, t) => (.cell a,
      { b with store := upd b.store i t, cell := upd b.cell a (newCell b f args), used := a :: b.used, inCount := b.inCount + 1 })

mutual
/-- `TBInsert(bank, term, DEREF_NEVER)` (TERMS/cte_termbanks.c:862-896) for a term that is not in this bank.  `TBInsertNoProps`
(1005-1055) does the same. -/
def tbInsert (x : TBCtx) : Term → TBank → TRef × TBank
  | .var n, b => (.var n, b)
  | .app f ts, b =>
    let r := tbInsertL x ts b
    insertTop x r.2 f r.1
/-- The loop over the arguments (TERMS/cte_termbanks.c:888-892). -/
def tbInsertL (x : TBCtx) : List Term → TBank → List TRef × TBank
  | [], b => ([], b)
  | t :: ts, b =>
    let r := tbInsert x t b
    let rs := tbInsertL x ts r.2
    (r.1 :: rs.1, rs.2)
end

/-- `TBFind` (TERMS/cte_termbanks.c:1532-1543) and `TermCellStoreFind` (TERMS/cte_termcellstore.c:144-148) for a cell with
shared arguments. -/
def tbFind (x : TBCtx) (b : TBank) (f : Nat) (args : List TRef) : Option TRef × TBank :=
  let i := x.hash (f, args)
  let r := STree.find (topCompare x.pcmp) (keyOf b.cell) (f, args) (b.store i)
  (r.1.map .cell, { b with store := upd b.store i r.2 })

/-- `TermAddRWLink` (TERMS/cte_replace.c:66-87): the cell `a` was rewritten to `r`. -/
def addLink (b : TBank) (a : Nat) (r : TRef) : TBank := { b with cell := upd b.cell a { b.cell a with link := some r } }

/-- `TermDeleteRWLink` (TERMS/cte_replace.c:102-110). -/
def delLink (b : TBank) (a : Nat) : TBank := { b with cell := upd b.cell a { b.cell a with link := none } }

/-! ## Building terms from shared terms -/

/-- A loop inserting the arguments one after the other. -/
def mapArgs (g : TRef → TBank → Option (TRef × TBank)) : List TRef → TBank → Option (List TRef × TBank)
  | [], b => some ([], b)
  | r :: rs, b =>
    match g r b with
    | none => none
    | some (r', b1) =>
      match mapArgs g rs b1 with
      | none => none
      | some (rs', b2) => some (r' :: rs', b2)

/-- `TBInsertInstantiatedFO` (TERMS/cte_termbanks.c:1227-1269).  `bind` are the bindings of the variable cells; `none`: out of
fuel. -/
def instShared (x : TBCtx) (bind : Nat → Option TRef) : Nat → TRef → TBank → Option (TRef × TBank)
  | 0, _, _ => none
  | _ + 1, .var v, b =>
    match bind v with
    | some r => some (r, b)
    | none => some (.var v, b)
  | n + 1, .cell a, b =>
    if (b.cell a).ground then some (.cell a, b)
    else
      match mapArgs (instShared x bind n) (b.cell a).args b with
      | none => none
      | some (rs, b1) => some (insertTop x b1 (b.cell a).f rs)

/-- `TermStandardWeight` of a shared term (TERMS/cte_termfunc.h:108-112). -/
def refWeight (b : TBank) : TRef → Nat
  | .var _ => 1
  | .cell a => (b.cell a).weight

/-- `TBInsertReplPlain` (TERMS/cte_termbanks.c:1156-1205). -/
def replShared (x : TBCtx) (old repl : TRef) : Nat → TRef → TBank → Option (TRef × TBank)
  | 0, _, _ => none
  | n + 1, r, b =>
    if r = old then some (repl, b)
    else if refWeight b r ≤ refWeight b old then some (r, b)
    else
      match r with
      | .var v => some (.var v, b)
      | .cell a =>
        match mapArgs (replShared x old repl n) (b.cell a).args b with
        | none => none
        | some (rs, b1) => if rs = (b.cell a).args then some (.cell a, b1) else some (insertTop x b1 (b.cell a).f rs)

/-! ## Garbage collection -/

/-- The loop of `TBGCMarkTerm` (TERMS/cte_termbanks.c:2109-2130); the head of the list is the top of the stack.  A cell is
marked if its flag differs from the flag of the bank (TERMS/cte_termbanks.h:170).  Variable cells are marked as well in C, but
never swept.  `none`: out of fuel. -/
def markLoop (gs : Bool) : Nat → List TRef → (Nat → TCell) → Option (Nat → TCell)
  | _, [], m => some m
  | 0, _ :: _, _ => none
  | n + 1, .var _ :: s, m => markLoop gs n s m
  | n + 1, .cell a :: s, m =>
    if (m a).flag != gs then markLoop gs n s m
    else markLoop gs n ((m a).link.toList ++ (m a).args.reverse ++ s) (upd m a { m a with flag := !(m a).flag })

/-- Marking the terms in use one after the other: `GCCollect` (CLAUSES/ccl_garbage_coll.c) and the first part of `TBGCSweep`
(TERMS/cte_termbanks.c:2156-2167). -/
def markAll (gs : Bool) (n : Nat) : List TRef → (Nat → TCell) → Option (Nat → TCell)
  | [], m => some m
  | r :: rs, m =>
    match markLoop gs n [r] m with
    | none => none
    | some m' => markAll gs n rs m'

/-- `collect_unmarked_termcells` (TERMS/cte_termcellstore.c:57-78): the cell, the right subtree, the left subtree. -/
def collect (gs : Bool) (m : Nat → TCell) : STree Nat → List Nat
  | .leaf => []
  | .node l a r => (if (m a).flag = gs then [a] else []) ++ collect gs m r ++ collect gs m l

/-- `TermCellStoreDelete` (TERMS/cte_termcellstore.c:214-227). -/
def deleteCell (x : TBCtx) (b : TBank) (a : Nat) : TBank :=
  let i := x.hash (keyOf b.cell a)
  let r := STree.extract (topCompare x.pcmp) (keyOf b.cell) (keyOf b.cell a) (b.store i)
  match r.1 with
  | none => { b with store := upd b.store i r.2 }
  | some e => { b with store := upd b.store i r.2, used := b.used.erase e }

/-- The loop body of `TermCellStoreGCSweep` (TERMS/cte_termcellstore.c:325-331) for bucket `i`: the collected cells are popped
from a stack. -/
def sweepBucket (x : TBCtx) (b : TBank) (i : Nat) : TBank :=
  (collect b.gs b.cell (b.store i)).reverse.foldl (deleteCell x) b

/-- `TBGCSweep` (TERMS/cte_termbanks.c:2149-2185), `roots` being all terms marked before and by it. -/
def gc (x : TBCtx) (n : Nat) (roots : List TRef) (b : TBank) : Option TBank :=
  match markAll b.gs n roots b.cell with
  | none => none
  | some m =>
    let b1 := (List.range x.size).foldl (sweepBucket x) { b with cell := m }
    some { b1 with gs := !b1.gs }

end Verif
