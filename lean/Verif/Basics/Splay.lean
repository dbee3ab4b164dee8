import Mathlib.Data.List.Basic

/-!
# Splay trees

Model of the top-down splay trees of eprover.  The code is repeated for each kind of tree; the copies differ in the type of
the key and the comparison only: BASICS/clb_numtrees.c, clb_ptrees.c, clb_stringtrees.c, clb_quadtrees.c, clb_objtrees.c,
clb_floattrees.c, clb_numxtrees.c, clb_objmaps.c, CLAUSES/ccl_neweval.c and TERMS/cte_termtrees.c.  Line numbers below are for
clb_numtrees.c.  Comparison by subtraction is modelled by a comparison function, i.e. without overflow.
-/

namespace Verif

/-- A tree cell with its sons; `leaf` is the null pointer. -/
inductive STree (E : Type) where
  | leaf : STree E
  | node : STree E → E → STree E → STree E

namespace STree
variable {E K : Type}

/-- In-order contents. -/
def toList : STree E → List E
  | .leaf => []
  | .node l x r => l.toList ++ x :: r.toList

/-- The left accumulator tree: cells linked through `rson`, the cell `left` points to first; its free `rson` is assigned
`t` (lines 173). -/
def plugL : List (STree E × E) → STree E → STree E
  | [], t => t
  | (l, x) :: L, t => plugL L (.node l x t)

/-- The right accumulator tree (line 174). -/
def plugR : List (E × STree E) → STree E → STree E
  | [], t => t
  | (x, r) :: R, t => plugR R (.node t x r)

/-- The assembly after the loop (clb_numtrees.c:173-176), `node l x r` being the current tree. -/
def assemble (L : List (STree E × E)) (R : List (E × STree E)) (l : STree E) (x : E) (r : STree E) : STree E :=
  .node (plugL L l) x (plugR R r)

section
variable (cmp : K → K → Ordering) (key : E → K)

/-- The loop of `splay_tree` (clb_numtrees.c:123-172).  The case `leaf` does not occur. -/
def splayGo (k : K) : STree E → List (STree E × E) → List (E × STree E) → STree E
  | .leaf, _, _ => .leaf
  | .node l x r, L, R =>
    match cmp k (key x) with
    | .lt =>
      match l with
      | .leaf => assemble L R .leaf x r
      | .node ll y lr =>
        if cmp k (key y) = .lt then
          match ll with
          | .leaf => assemble L R .leaf y (.node lr x r)
          | .node a b c => splayGo k (.node a b c) L ((y, .node lr x r) :: R)
        else splayGo k (.node ll y lr) L ((x, r) :: R)
    | .gt =>
      match r with
      | .leaf => assemble L R l x .leaf
      | .node rl z rr =>
        if cmp k (key z) = .gt then
          match rr with
          | .leaf => assemble L R (.node l x rl) z .leaf
          | .node a b c => splayGo k (.node a b c) ((.node l x rl, z) :: L) R
        else splayGo k (.node rl z rr) ((l, x) :: L) R
    | .eq => assemble L R l x r

/-- `splay_tree` (clb_numtrees.c:107-179). -/
def splay (k : K) (t : STree E) : STree E := splayGo cmp key k t [] []

/-- `NumTreeInsert` (clb_numtrees.c:264-293), `PTreeInsert`, `TermTreeInsert`, `EvalTreeInsert`, ...: returns the entry with
the same key, if there is one. -/
def insert (e : E) (t : STree E) : Option E × STree E :=
  match t with
  | .leaf => (none, .node .leaf e .leaf)
  | .node _ _ _ =>
    match splay cmp key (key e) t with
    | .leaf => (none, .leaf)
    | .node l x r =>
      match cmp (key e) (key x) with
      | .lt => (none, .node l e (.node .leaf x r))
      | .gt => (none, .node (.node l x .leaf) e r)
      | .eq => (some x, .node l x r)

/-- `NumTreeFind` (clb_numtrees.c:363-374). -/
def find (k : K) (t : STree E) : Option E × STree E :=
  match splay cmp key k t with
  | .leaf => (none, .leaf)
  | .node l x r => if cmp (key x) k = .eq then (some x, .node l x r) else (none, .node l x r)

/-- `PTreeFindBinary` (clb_ptrees.c:312-330): does not restructure the tree. -/
def findBinary (k : K) : STree E → Option E
  | .leaf => none
  | .node l x r =>
    match cmp k (key x) with
    | .lt => findBinary k l
    | .gt => findBinary k r
    | .eq => some x

/-- `NumTreeExtractEntry` (clb_numtrees.c:392-418).  The assignment `x->rson = (*root)->rson` drops the old right son of
`x`. -/
def extract (k : K) (t : STree E) : Option E × STree E :=
  match splay cmp key k t with
  | .leaf => (none, .leaf)
  | .node l x r =>
    if cmp k (key x) = .eq then
      match l with
      | .leaf => (some x, r)
      | .node _ _ _ =>
        match splay cmp key k l with
        | .leaf => (some x, r)
        | .node ll y _ => (some x, .node ll y r)
    else (none, .node l x r)

/-- `PTreeExtractRootKey` (clb_ptrees.c:418-425). -/
def extractRoot (t : STree E) : Option E × STree E :=
  match t with
  | .leaf => (none, .leaf)
  | .node l x r => extract cmp key (key x) (.node l x r)

/-- `PTreeMerge` / `PTreeInsertTree` (clb_ptrees.c:468-531): inserts the cells of the second tree, which are collected on a
stack, the right son first. -/
def merge (t : STree E) : STree E → STree E
  | .leaf => t
  | .node l x r => merge (merge (insert cmp key x t).2 r) l

end

/-- `EvalTreeFindSmallest` (CLAUSES/ccl_neweval.c:571-583). -/
def findSmallest : STree E → Option E
  | .leaf => none
  | .node .leaf x _ => some x
  | .node (.node a b c) _ _ => findSmallest (.node a b c)

/-- The loop of `EvalTreeTraverseInit` (CLAUSES/ccl_neweval.c:602-606) and of the traversal macros (BASICS/clb_avlgeneric.h):
push the left spine. -/
def pushSpine : STree E → List (STree E) → List (STree E)
  | .leaf, s => s
  | .node l x r, s => pushSpine l (.node l x r :: s)

/-- `EvalTreeTraverseNext` (CLAUSES/ccl_neweval.c:624-640). -/
def traverseNext : List (STree E) → Option (E × List (STree E))
  | [] => none
  | .leaf :: _ => none
  | .node _ x r :: s => some (x, pushSpine r s)

/-- Calling `traverseNext` until it returns no entry; `none` out of fuel. -/
def traverseAll : Nat → List (STree E) → Option (List E)
  | 0, _ => none
  | n + 1, s =>
    match traverseNext s with
    | none => some []
    | some (x, s) => (traverseAll n s).map (x :: ·)

end STree
end Verif
