import Verif.Terms.Match

/-!
# Perfect discrimination trees

Model of CLAUSES/ccl_pdtrees.c and CLAUSES/ccl_pdtrees.h for first-order terms (no applied variables, no De Bruijn
alternatives, so the eta normalisation at 1114-1121, 1262-1269 and 1382-1389 is the identity).

A node is identified by its path from the root.  The two lazily recomputed fields `size_constr` and `age_constr` are
kept in two maps from paths to values (`none` is the invalid value); all other fields are in the node.  The fields
used during a search (`trav_state`, `var_traverse_stack`, `prev_subst`) are in the frames of the search, one frame per
node between the root and `tree_pos`: a node on that path is entered once, and entering a node resets them.
Counters for statistics and memory estimates are left out.
-/

namespace Verif

/-- One step of the pre-order traversal of a term: a function symbol or a variable (the two kinds of alternatives of a
node, CLAUSES/ccl_pdtrees.h:51-52). -/
inductive PDKey
  | sym (f : Nat)
  | var (x : Nat)
  deriving DecidableEq

/-- What `ClausePosCell` the tree stores (CLAUSES/ccl_clausepos.h): its address, the address of its clause, the indexed
side (`ClausePosGetSide`), `clause->date`. -/
structure PDEntry where
  id : Nat
  clause : Nat
  side : Term
  date : Nat
  deriving DecidableEq

mutual
/-- `PDTNodeCell` (CLAUSES/ccl_pdtrees.h:49-83): `leaf`, `ref_count`, `entries`, `f_alternatives`, `v_alternatives`. -/
inductive PDNode
  | mk (leaf : Bool) (ref : Int) (ents : List PDEntry) (fa va : PDAlts)
/-- The alternatives of a node: an `IntMap` from function symbols or a `PObjMap` from variable cells (as an association
list; the order of the `PObjMap` is by address, here it is the order of insertion). -/
inductive PDAlts
  | nil
  | cons (k : Nat) (n : PDNode) (rest : PDAlts)
end

namespace PDNode
def leaf : PDNode → Bool | .mk l _ _ _ _ => l
def ref : PDNode → Int | .mk _ r _ _ _ => r
def ents : PDNode → List PDEntry | .mk _ _ e _ _ => e
def fa : PDNode → PDAlts | .mk _ _ _ f _ => f
def va : PDNode → PDAlts | .mk _ _ _ _ v => v
/-- `PDTNodeAlloc` (CLAUSES/ccl_pdtrees.c:902-923). -/
def alloc : PDNode := .mk true 0 [] .nil .nil
end PDNode

namespace PDAlts
/-- `IntMapGetVal`, `PObjMapFind`. -/
def get : PDAlts → Nat → Option PDNode
  | .nil, _ => none
  | .cons k n r, j => if k = j then some n else r.get j
/-- Store through the reference returned by `IntMapGetRef`, `PObjMapGetRef`. -/
def set : PDAlts → Nat → PDNode → PDAlts
  | .nil, j, m => .cons j m .nil
  | .cons k n r, j, m => if k = j then .cons k m r else .cons k n (r.set j m)
/-- `IntMapDelKey`, `PObjMapExtract`. -/
def erase : PDAlts → Nat → PDAlts
  | .nil, _ => .nil
  | .cons k n r, j => if k = j then r else .cons k n (r.erase j)
end PDAlts

/-- The values of one of the constraint fields, by path (deepest step first); `none` is the invalid value. -/
abbrev PDMap := List PDKey → Option Nat

/-- Assign the field of one node. -/
def PDMap.upd (m : PDMap) (p : List PDKey) (v : Option Nat) : PDMap := fun r => if r = p then v else m r

/-- `PDTreeCell` (CLAUSES/ccl_pdtrees.h:88-108) outside of a search. -/
structure PDTree where
  root : PDNode
  size : PDMap
  age : PDMap

/-- `LONG_MAX`. -/
def pdLongMax : Nat := 9223372036854775807

/-- `TermStandardWeight` of the indexed side. -/
def PDEntry.weight (e : PDEntry) : Nat := e.side.weight VW FW

/-- `PDTreeAllocWDeleter` (CLAUSES/ccl_pdtrees.c:841-864) with `PDTNodeAlloc` (902-923). -/
def PDTree.empty : PDTree := ⟨.alloc, fun _ => some pdLongMax, fun _ => some 0⟩

/-! ## Flattening -/

mutual
/-- The pre-order sequence of symbols and variables. -/
def pdFlat : Term → List PDKey
  | .var x => [.var x]
  | .app f ts => .sym f :: pdFlatL ts
def pdFlatL : List Term → List PDKey
  | [] => []
  | t :: ts => pdFlat t ++ pdFlatL ts
end

/-- `TermLRTraverseNext` (CLAUSES/ccl_pdtrees.c:1011-1034): pop the next term and push its arguments. -/
def lrNext : List Term → Option (Term × List Term)
  | [] => none
  | t :: ts => some (t, match t with | .var _ => ts | .app _ us => us ++ ts)

/-- The key of a node for the top of a term. -/
def pdKey : Term → PDKey
  | .var x => .var x
  | .app f _ => .sym f

/-- The loops over `TermLRTraverseNext` (CLAUSES/ccl_pdtrees.c:1136-1172, 1274-1285), at most `n` steps. -/
def lrKeys : Nat → List Term → List PDKey
  | 0, _ => []
  | n + 1, stk =>
    match lrNext stk with
    | none => []
    | some (t, stk') => pdKey t :: lrKeys n stk'

/-! ## Constraints -/

/-- `pos_tree_compute_size_constraint` (CLAUSES/ccl_pdtrees.c:231-248) with `op = min`, `u = LONG_MAX` and
`pos_tree_compute_age_constraint` (352-369) with `op = max`, `u = 0`. -/
def pdEntAgg (op : Nat → Nat → Nat) (u : Nat) (val : PDEntry → Nat) (es : List PDEntry) : Nat :=
  es.foldl (fun a e => op a (val e)) u

mutual
/-- `PDTNodeGetSizeConstraint` (CLAUSES/ccl_pdtrees.h:165) with `pdt_compute_size_constraint` (CLAUSES/ccl_pdtrees.c:
264-290), and `PDTNodeGetAgeConstraint` (166) with `pdt_compute_age_constraint` (386-412): the stored value if it is
valid, otherwise it is computed from the entries and the successors and stored. -/
def pdGet (op : Nat → Nat → Nat) (u : Nat) (val : PDEntry → Nat) (m : PDMap) (p : List PDKey) : PDNode → Nat × PDMap
  | .mk leaf _ es fa va =>
    match m p with
    | some v => (v, m)
    | none =>
      if leaf then (pdEntAgg op u val es, m.upd p (some (pdEntAgg op u val es)))
      else
        let r1 := pdGetAlts op u val .sym p (pdEntAgg op u val es) m fa
        let r2 := pdGetAlts op u val .var p r1.1 r1.2 va
        (r2.1, r2.2.upd p (some r2.1))
/-- The loop over the successors (CLAUSES/ccl_pdtrees.c:279-285, 401-407). -/
def pdGetAlts (op : Nat → Nat → Nat) (u : Nat) (val : PDEntry → Nat) (mk : Nat → PDKey) (p : List PDKey) (acc : Nat)
    (m : PDMap) : PDAlts → Nat × PDMap
  | .nil => (acc, m)
  | .cons k n r =>
    let r1 := pdGet op u val m (mk k :: p) n
    pdGetAlts op u val mk p (op acc r1.1) r1.2 r
end

/-! ## Insertion and deletion -/

/-- `PTreeStore` on the entries (a set of addresses). -/
def pdStore (es : List PDEntry) (e : PDEntry) : List PDEntry :=
  if es.any fun e' => e'.id == e.id then es else e :: es

/-- `PDTreeInsertTerm` (CLAUSES/ccl_pdtrees.c:1102-1181) with `store_data`, at the node for the remaining keys. -/
def pdIns (e : PDEntry) : List PDKey → PDNode → PDNode
  | [], .mk leaf ref es fa va => .mk leaf (ref + 1) (pdStore es e) fa va
  | .sym f :: ks, .mk leaf ref es fa va =>
    match fa.get f with
    | some n => .mk leaf (ref + 1) es (fa.set f (pdIns e ks n)) va
    | none => .mk false (ref + 1) es (fa.set f (pdIns e ks .alloc)) va
  | .var x :: ks, .mk leaf ref es fa va =>
    match va.get x with
    | some n => .mk leaf (ref + 1) es fa (va.set x (pdIns e ks n))
    | none => .mk false (ref + 1) es fa (va.set x (pdIns e ks .alloc))

/-- The child for a key (`pdt_select_next`, CLAUSES/ccl_pdtrees.c:146-167). -/
def PDNode.child (n : PDNode) : PDKey → Option PDNode
  | .sym f => n.fa.get f
  | .var x => n.va.get x

/-- The updates of a constraint field along the path in `PDTreeInsertTerm` (CLAUSES/ccl_pdtrees.c:1126-1133, 1163-1169,
and the initial value of a new node, 911-912); an invalid value stays invalid. -/
def pdInsMap (op : Nat → Nat → Nat) (u v : Nat) : List PDKey → List PDKey → PDNode → PDMap → PDMap
  | [], p, _, m => m.upd p ((m p).map (op v))
  | k :: ks, p, n, m =>
    let m1 := m.upd p ((m p).map (op v))
    match n.child k with
    | some n' => pdInsMap op u v ks (k :: p) n' m1
    | none => pdInsMap op u v ks (k :: p) .alloc (m1.upd (k :: p) (some u))

/-- `PDTreeInsert` (CLAUSES/ccl_pdtrees.c:1080-1088). -/
def pdInsert (T : PDTree) (e : PDEntry) : PDTree :=
  ⟨pdIns e (pdFlat e.side) T.root,
   pdInsMap min pdLongMax e.weight (pdFlat e.side) [] T.root T.size,
   pdInsMap max 0 e.date (pdFlat e.side) [] T.root T.age⟩

/-- The body of the upward loop of `PDTreeDelete` for a child with key `k` (CLAUSES/ccl_pdtrees.c:1304-1337): decrement
the reference count; unlink the child if it is zero, otherwise mark it as a leaf if only its entries are left. -/
def pdUnlink (res : Nat) (k : Nat) (n : PDNode) (alts : PDAlts) : PDAlts :=
  let ref := n.ref - res
  if ref = 0 then alts.erase k
  else alts.set k (.mk (if ref = n.ents.length then true else n.leaf) ref n.ents n.fa n.va)

/-- `PDTreeDelete` (CLAUSES/ccl_pdtrees.c:1250-1362) with `delete_clause_entries` (477-505), at the node for the
remaining keys; also the number of deleted entries.  `none` when there is no node for the term: the C then has left an
alternative with a NULL pointer behind (1278), which the model does not describe. -/
def pdDel (c : Nat) : List PDKey → PDNode → Option (PDNode × Nat)
  | [], .mk leaf ref es fa va =>
    some (.mk leaf ref (es.filter fun e => e.clause != c) fa va, (es.filter fun e => e.clause == c).length)
  | .sym f :: ks, .mk leaf ref es fa va =>
    match fa.get f with
    | none => none
    | some n =>
      match pdDel c ks n with
      | none => none
      | some (n', res) => some (.mk leaf ref es (pdUnlink res f n' fa) va, res)
  | .var x :: ks, .mk leaf ref es fa va =>
    match va.get x with
    | none => none
    | some n =>
      match pdDel c ks n with
      | none => none
      | some (n', res) => some (.mk leaf ref es fa (pdUnlink res x n' va), res)

/-- Invalidation of a constraint field along the path in `PDTreeDelete` (CLAUSES/ccl_pdtrees.c:1292-1299, 1340-1347). -/
def pdDelMap (v : Nat) : List PDKey → List PDKey → PDMap → PDMap
  | [], p, m => if m p = some v then m.upd p none else m
  | k :: ks, p, m => pdDelMap v ks (k :: p) (if m p = some v then m.upd p none else m)

/-- `PDTreeDelete(tree, term, clause)`; `date` is `clause->date`. -/
def pdDelete (T : PDTree) (t : Term) (c date : Nat) : Option (PDTree × Nat) :=
  match pdDel c (pdFlat t) T.root with
  | none => none
  | some (n, res) =>
    some (⟨n, pdDelMap (t.weight VW FW) (pdFlat t) [] T.size, pdDelMap date (pdFlat t) [] T.age⟩, res)

/-! ## Search -/

/-- The surroundings of a search: types, `TPPredPos`, and the global switches `PDTreeUseSizeConstraints`,
`PDTreeUseAgeConstraints`. -/
structure PDCtx where
  sg : Sig
  pp : Term → Bool
  useSize : Bool
  useAge : Bool

/-- `TraversalState` (CLAUSES/ccl_pdtrees.h:41-45) without `DONE`, which is the end of the list. -/
inductive PDPhase
  | syms
  | vars

/-- The parameters of a search: `term_date`, and `trav_order` (CLAUSES/ccl_pdtrees.c:42, 1395-1406), given by
`prefer_general`. -/
structure PDQuery where
  date : Nat
  general : Bool

def PDQuery.order (q : PDQuery) : List PDPhase := if q.general then [.syms, .vars] else [.vars, .syms]

/-- The search data of a node on the way to `tree_pos`: its path, the node, `trav_state`, what is left in
`var_traverse_stack`, `prev_subst`. -/
structure PDFrame where
  path : List PDKey
  node : PDNode
  st : Nat
  vrest : PDAlts
  prev : Nat

/-- The state of a search: the frames from `tree_pos` (first) to the root, `term_stack`, `term_proc`, the substitution,
`term_weight`, and the constraint fields. -/
structure PDSt where
  frames : List PDFrame
  ts : List Term
  proc : List Term
  sub : SubstSt
  w : Int
  size : PDMap
  age : PDMap

/-- Entering a node (CLAUSES/ccl_pdtrees.c:603-612, 668-677, 1394-1406). -/
def pdEnter (q : PDQuery) (p : List PDKey) (n : PDNode) (prev : Nat) : PDFrame :=
  ⟨p, n, 0, if q.general then .nil else n.va, prev⟩

/-- `PDTreeSearchInit` (CLAUSES/ccl_pdtrees.c:1377-1412). -/
def pdSearchInit (q : PDQuery) (T : PDTree) (t : Term) (sub : SubstSt) : PDSt :=
  ⟨[pdEnter q [] T.root 0], [t], [], sub, t.sw, T.size, T.age⟩

/-- `pdtree_verify_node_constr` (CLAUSES/ccl_pdtrees.c:521-543). -/
def pdVerify (x : PDCtx) (q : PDQuery) (s : PDSt) (fr : PDFrame) : Bool × PDSt :=
  let r1 := if x.useSize then pdGet min pdLongMax PDEntry.weight s.size fr.path fr.node else (0, s.size)
  let s1 := { s with size := r1.2 }
  if x.useSize && decide (s.w < (r1.1 : Int)) then (false, s1)
  else if x.useAge && q.date != 0 then
    let r2 := pdGet max 0 PDEntry.date s1.age fr.path fr.node
    (decide (q.date < r2.1), { s1 with age := r2.2 })
  else (true, s1)

/-- Trying to match a variable alternative (CLAUSES/ccl_pdtrees.c:629-662). -/
def pdBindVar (x : PDCtx) (sub : SubstSt) (y : Nat) (t : Term) : Option SubstSt :=
  if x.sg.vty y ≠ x.sg.ty t then none
  else
    match sub.bind y with
    | some u => if u = t then some sub else none
    | none =>
      match substComputeMatch x.sg (.var y) t (x.pp t) sub with
      | some (true, sub') => some sub'
      | _ => none

/-- The variable alternatives that are left, up to the first that matches (CLAUSES/ccl_pdtrees.c:624-689): that one with
the new substitution, and what is left after it. -/
def pdTryVars (x : PDCtx) (sub : SubstSt) (t : Term) : PDAlts → Option (Nat × PDNode × SubstSt) × PDAlts
  | .nil => (none, .nil)
  | .cons y n r =>
    match pdBindVar x sub y t with
    | some sub' => (some (y, n, sub'), r)
    | none => pdTryVars x sub t r

/-- When the variables come next, their traversal is initialised (CLAUSES/ccl_pdtrees.c:579-583). -/
def pdNextVars : List PDPhase → PDAlts → PDAlts → PDAlts
  | .vars :: _, va, _ => va
  | _, _, vr => vr

/-- The loop of `pdtree_forward` (CLAUSES/ccl_pdtrees.c:572-696) for the phases that are left, at a node with a term
`t` on top of the term stack. -/
def pdGo (x : PDCtx) (q : PDQuery) (s : PDSt) (rest : List PDFrame) (t : Term) (tl : List Term) : List PDPhase → PDFrame → PDSt
  | [], fr => { s with frames := fr :: rest }
  | .syms :: more, fr =>
    let fr1 := { fr with st := fr.st + 1, vrest := pdNextVars more fr.node.va fr.vrest }
    match t with
    | .var _ => pdGo x q s rest t tl more fr1
    | .app f us =>
      match fr.node.fa.get f with
      | none => pdGo x q s rest t tl more fr1
      | some n =>
        { s with frames := pdEnter q (.sym f :: fr.path) n s.sub.stack.length :: fr1 :: rest,
                 ts := us ++ tl, proc := t :: s.proc }
  | .vars :: more, fr =>
    match pdTryVars x s.sub t fr.vrest with
    | (some (y, n, sub'), r) =>
      { s with frames := pdEnter q (.var y :: fr.path) n s.sub.stack.length :: { fr with vrest := r } :: rest,
               ts := tl, proc := t :: s.proc, sub := sub', w := s.w - (t.sw - VW) }
    | (none, r) => pdGo x q s rest t tl more { fr with st := fr.st + 1, vrest := r }

/-- `pdtree_forward` (CLAUSES/ccl_pdtrees.c:560-697). -/
def pdForward (x : PDCtx) (q : PDQuery) (s : PDSt) (fr : PDFrame) (rest : List PDFrame) : PDSt :=
  match s.ts with
  | [] => { s with frames := { fr with st := 2, vrest := .nil } :: rest }
  | t :: tl => pdGo x q s rest t tl (q.order.drop fr.st) fr

/-- `pdtree_backtrack` (CLAUSES/ccl_pdtrees.c:711-731) with `TermLRTraversePrev` (1050-1064). -/
def pdBacktrack (s : PDSt) (fr : PDFrame) (rest : List PDFrame) : PDSt :=
  match fr.path, s.proc with
  | .var _ :: _, t :: pr =>
    { s with frames := rest, ts := t :: s.ts, proc := pr, w := s.w + (t.sw - VW), sub := s.sub.backtrackToPos fr.prev }
  | .sym _ :: _, .app f us :: pr => { s with frames := rest, ts := .app f us :: s.ts.drop us.length, proc := pr }
  | _, _ => { s with frames := rest }

/-- The entries at `tree_pos`. -/
def PDSt.topEnts (s : PDSt) : List PDEntry :=
  match s.frames with
  | [] => []
  | fr :: _ => fr.node.ents

/-- One round of the loop of `PDTreeFindNextIndexedLeaf` (CLAUSES/ccl_pdtrees.c:1460-1479); whether it ends the loop. -/
def pdStep (x : PDCtx) (q : PDQuery) (s : PDSt) (fr : PDFrame) (rest : List PDFrame) : PDSt × Bool :=
  let r := pdVerify x q s fr
  if !r.1 || fr.st == 2 then (pdBacktrack r.2 fr rest, false)
  else if fr.node.leaf && r.2.ts.isEmpty then ({ r.2 with frames := { fr with st := 2 } :: rest }, true)
  else
    let s2 := pdForward x q r.2 fr rest
    (s2, !s2.topEnts.isEmpty && s2.ts.isEmpty)

/-- `PDTreeFindNextIndexedLeaf` (CLAUSES/ccl_pdtrees.c:1454-1482), at most `n` rounds; `none` when they do not suffice. -/
def pdFindLeaf (x : PDCtx) (q : PDQuery) : Nat → PDSt → Option PDSt
  | 0, _ => none
  | n + 1, s =>
    match s.frames with
    | [] => some s
    | fr :: rest =>
      match pdStep x q s fr rest with
      | (s', true) => some s'
      | (s', false) => pdFindLeaf x q n s'

/-- `PDTreeFindNextDemodulator` (CLAUSES/ccl_pdtrees.c:1497-1525); `store` is what is left of `store_stack`. -/
def pdFindDemod (x : PDCtx) (q : PDQuery) : Nat → PDSt → List PDEntry → Option (Option PDEntry × PDSt × List PDEntry)
  | 0, _, _ => none
  | n + 1, s, store =>
    match s.frames, store with
    | [], _ => some (none, s, [])
    | _ :: _, e :: es => some (some e, s, es)
    | _ :: _, [] =>
      match pdFindLeaf x q n s with
      | none => none
      | some s' => pdFindDemod x q n s' s'.topEnts

/-- Calling `PDTreeFindNextDemodulator` until it returns NULL: the entries with the substitution at that time, and the
final state. -/
def pdAll (x : PDCtx) (q : PDQuery) : Nat → PDSt → List PDEntry → Option (List (PDEntry × SubstSt) × PDSt)
  | 0, _, _ => none
  | n + 1, s, store =>
    match pdFindDemod x q n s store with
    | none => none
    | some (none, s', _) => some ([], s')
    | some (some e, s', store') =>
      match pdAll x q n s' store' with
      | none => none
      | some (l, z) => some ((e, s'.sub) :: l, z)

end Verif
