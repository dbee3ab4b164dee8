import Verif.Terms.Spec

/-!
# Fingerprint indices

Model of TERMS/cte_idx_fp.c (computing fingerprints) and TERMS/cte_fp_index.c
(the trie over fingerprints), in the first-order case (`problemType ==
PROBLEM_FO`), together with the way CLAUSES/ccl_subterm_index.c and
CLAUSES/ccl_overlap_index.c insert into and delete from the payloads of the
leaves.

Simplifications:
* the `IntMap` of children is an association list kept in ascending key order,
  which is what `Verif.Props.IntMap` proves about `IntMapGetVal/GetRef/DelKey`
  and the iterators; a `NULL` map and an empty map are identified;
* the payload of a leaf (a splay tree of terms carrying sets of occurrences) is a
  list without duplicates of the stored entries;
* a key is the list of its samples, the length field `key[0]` is implied.
-/

namespace Verif

/-- Fingerprint samples (TERMS/cte_idx_fp.h:40-44). -/
abbrev belowVar : Int := -2
abbrev anyVar : Int := -1
abbrev notInTerm : Int := 0

/-- `SIG_DB_LAMBDA_CODE` (TERMS/cte_signature.h:191-203). -/
abbrev dbLambdaCode : Int := 19

/-- `SigSymbolUnifiesWithVar` (TERMS/cte_signature.c:2107-2117) in the first-order case;
`isPred` is `SigIsPredicate`. -/
def symUnifiesVar (isPred : Int → Bool) (f : Int) : Bool :=
  f == 1 || f == 2 || f != dbLambdaCode || decide (f ≤ 0) || !isPred f

/-- `TermFPSampleFO` (TERMS/cte_idx_fp.c:135-161): the sample of a term at a position;
`TermFPFlexSampleFO` (276-311) computes the same from an array. -/
def fpSample : Term → List Nat → Int
  | .var _, [] => anyVar
  | .app f _, [] => (f : Int)
  | .var _, _ :: _ => belowVar
  | .app _ ts, i :: p =>
    match ts[i]? with
    | none => notInTerm
    | some u => fpSample u p

mutual
/-- `push_fcodes` (TERMS/cte_idx_fp.c:97-116). -/
def pushFCodes : Term → List Int
  | .var _ => [anyVar]
  | .app f ts => (f : Int) :: pushFCodesL ts
def pushFCodesL : List Term → List Int
  | [] => []
  | t :: ts => pushFCodes t ++ pushFCodesL ts
end

/-- The fingerprint functions offered (`fp_index_funs`, TERMS/cte_idx_fp.c:48-71). -/
inductive FPKind
  | fp0 | fpfp | fp1 | fp2 | fp3d | fp3w | fp4d | fp4w | fp4m | fp5m | fp6m | fp7 | fp7m | fp4x22 | fp3dflex | dt
deriving DecidableEq, Repr

/-- The sampled positions (TERMS/cte_idx_fp.c:415-872). -/
def FPKind.positions : FPKind → List (List Nat)
  | .fp0 => []
  | .fpfp => [[]]
  | .fp1 => [[]]
  | .fp2 => [[], [0]]
  | .fp3d => [[], [0], [0, 0]]
  | .fp3w => [[], [0], [1]]
  | .fp4d => [[], [0], [0, 0], [0, 0, 0]]
  | .fp4w => [[], [0], [1], [2]]
  | .fp4m => [[], [0], [1], [0, 0]]
  | .fp5m => [[], [0], [1], [2], [0, 0]]
  | .fp6m => [[], [0], [1], [2], [0, 0], [0, 1]]
  | .fp7 => [[], [0], [1], [0, 0], [0, 1], [1, 0], [1, 1]]
  | .fp7m => [[], [0], [1], [2], [0, 0], [3], [0, 1]]
  | .fp4x22 => [[], [0], [1], [2], [3], [0, 0], [0, 1], [0, 2], [1, 0], [1, 1], [1, 2], [2, 0], [2, 1], [2, 2],
      [0, 0, 0], [1, 0, 0]]
  | .fp3dflex => [[], [0], [0, 0]]
  | .dt => []

/-- The static variables `f_rep`, `p_rep` of `IndexFPfpCreate` (TERMS/cte_idx_fp.c:440). -/
structure FPStat where
  frep : Int := 0
  prep : Int := 0
deriving DecidableEq

/-- What computing a fingerprint does to the static variables (TERMS/cte_idx_fp.c:443-462).
`pp` is the property `TPPredPos` of the term. -/
def fpTouch (pp : Term → Bool) : FPKind → FPStat → Term → FPStat
  | .fpfp, st, .app f ts =>
    if pp (.app f ts) then (if st.prep = 0 then { st with prep := (f : Int) } else st)
    else (if st.frep = 0 then { st with frep := (f : Int) } else st)
  | _, st, _ => st

/-- The fingerprint once the static variables are up to date (TERMS/cte_idx_fp.c:415-909). -/
def fpKeyOf (pp : Term → Bool) : FPKind → FPStat → Term → List Int
  | .fpfp, _, .var _ => [anyVar]
  | .fpfp, st, .app f ts => [if pp (.app f ts) then st.prep else st.frep]
  | .dt, _, t => pushFCodes t
  | k, _, t => k.positions.map (fpSample t)

mutual
/-- `FPTreeCell` (TERMS/cte_fp_index.h:38-45). -/
inductive FPTree (α : Type) where
  | node (alts : FPAlts α) (count : Int) (payload : List α)
/-- The map `f_alternatives`. -/
inductive FPAlts (α : Type) where
  | nil
  | cons (k : Int) (t : FPTree α) (rest : FPAlts α)
end

variable {α : Type}

/-- `FPTreeAlloc` (TERMS/cte_fp_index.c:934-943). -/
def FPTree.empty : FPTree α := .node .nil 0 []

/-- `IntMapGetVal` on the children, `fpindex_alternative` (TERMS/cte_fp_index.c:60-72). -/
def FPAlts.get : FPAlts α → Int → Option (FPTree α)
  | .nil, _ => none
  | .cons k t r, i => if i = k then some t else r.get i

/-- Storing through `IntMapGetRef`, `fpindex_alternative_ref` (TERMS/cte_fp_index.c:88-100). -/
def FPAlts.set : FPAlts α → Int → FPTree α → FPAlts α
  | .nil, i, u => .cons i u .nil
  | .cons k t r, i, u =>
    if i = k then .cons k u r else if i < k then .cons i u (.cons k t r) else .cons k t (r.set i u)

/-- `IntMapDelKey` (`fpindex_extract_alt`, TERMS/cte_fp_index.c:115-130). -/
def FPAlts.del : FPAlts α → Int → FPAlts α
  | .nil, _ => .nil
  | .cons k t r, i => if i = k then r else .cons k t (r.del i)

/-- All children in iteration order. -/
def FPAlts.toList : FPAlts α → List (Int × FPTree α)
  | .nil => []
  | .cons k t r => (k, t) :: r.toList

/-- `FPTreeInsert` (TERMS/cte_fp_index.c:1022-1042) followed by an update `f` of the payload
of the leaf it returns. -/
def FPTree.insert (f : List α → List α) : List Int → FPTree α → FPTree α
  | [], .node a c p => .node a c (f p)
  | k :: ks, .node a c p =>
    match a.get k with
    | some t => .node (a.set k (FPTree.insert f ks t)) c p
    | none => .node (a.set k (FPTree.insert f ks FPTree.empty)) (c + 1) p

/-- `FPTreeFind` (TERMS/cte_fp_index.c:996-1006): the payload of the node found. -/
def FPTree.find : List Int → FPTree α → Option (List α)
  | [], .node _ _ p => some p
  | k :: ks, .node a _ _ =>
    match a.get k with
    | some t => FPTree.find ks t
    | none => none

/-- Update the payload of an existing node (the caller's `fp_node->payload`). -/
def FPTree.modify (f : List α → List α) : List Int → FPTree α → FPTree α
  | [], .node a c p => .node a c (f p)
  | k :: ks, .node a c p =>
    match a.get k with
    | some t => .node (a.set k (FPTree.modify f ks t)) c p
    | none => .node a c p

/-- `fpindex_rek_delete` (TERMS/cte_fp_index.c:149-174); the first component is its result. -/
def FPTree.rekDelete : List Int → FPTree α → Bool × FPTree α
  | [], .node a c p => (p.isEmpty, .node a c p)
  | k :: ks, .node a c p =>
    match a.get k with
    | none => (c == 0, .node a c p)
    | some t =>
      let r := FPTree.rekDelete ks t
      if r.1 then (c - 1 == 0, .node (a.del k) (c - 1) p) else (c == 0, .node (a.set k r.2) c p)

/-- The recursive calls for the child with a given key. -/
def FPAlts.follow (f : FPTree α → List (List α)) (a : FPAlts α) (k : Int) : List (List α) :=
  match a.get k with
  | some t => f t
  | none => []

/-- The recursive calls for the children from `lo` on that can be matched by a variable
(`IntMapIterAlloc(index->f_alternatives, lo, LONG_MAX)` and the loop). -/
def FPAlts.iter (f : FPTree α → List (List α)) (uv : Int → Bool) (a : FPAlts α) (lo : Int) : List (List α) :=
  (a.toList.filter fun kt => decide (lo ≤ kt.1) && (decide (kt.1 ≤ 0) || uv kt.1)).flatMap fun kt => f kt.2

/-- `fp_index_rek_find_unif` (TERMS/cte_fp_index.c:190-289). -/
def fpFindUnif (uv : Int → Bool) : List Int → FPTree α → List (List α)
  | [], .node _ _ p => [p]
  | k :: ks, .node a _ _ =>
    if 0 < k then
      a.follow (fpFindUnif uv ks) k ++
        (if uv k then a.follow (fpFindUnif uv ks) anyVar ++ a.follow (fpFindUnif uv ks) belowVar else [])
    else if k = notInTerm then a.follow (fpFindUnif uv ks) notInTerm ++ a.follow (fpFindUnif uv ks) belowVar
    else if k = belowVar ∨ k = anyVar then
      a.follow (fpFindUnif uv ks) anyVar ++ a.follow (fpFindUnif uv ks) belowVar ++
        a.iter (fpFindUnif uv ks) uv (if k = belowVar then 0 else 1)
    else []

/-- `fp_index_rek_find_matchable` (TERMS/cte_fp_index.c:305-391). -/
def fpFindMatch (uv : Int → Bool) : List Int → FPTree α → List (List α)
  | [], .node _ _ p => [p]
  | k :: ks, .node a _ _ =>
    if 0 < k then a.follow (fpFindMatch uv ks) k
    else if k = notInTerm then a.follow (fpFindMatch uv ks) notInTerm
    else if k = belowVar ∨ k = anyVar then
      a.follow (fpFindMatch uv ks) anyVar ++ (if k = belowVar then a.follow (fpFindMatch uv ks) belowVar else []) ++
        a.iter (fpFindMatch uv ks) uv (if k = belowVar then 0 else 1)
    else []

/-- `GET_SYMBOL_ARITY` (TERMS/cte_fp_index.c:717-718). -/
def symArity (ar : Nat → Nat) (k : Int) : Nat := if 0 < k then ar k.toNat else 0

mutual
/-- `dt_index_rek_find_matchable` (TERMS/cte_fp_index.c:742-808). -/
def dtFindMatch (uv : Int → Bool) (ar : Nat → Nat) : FPTree α → List Int → Nat → List (List α)
  | .node a _ p, key, skip =>
    if skip ≠ 0 then dtFindMatchL uv ar a (fun i => decide (belowVar ≤ i)) key fun i => skip - 1 + symArity ar i
    else match key with
      | [] => [p]
      | k :: ks =>
        if k = anyVar then
          dtFindMatchL uv ar a (fun i => decide (belowVar ≤ i) && (decide (i ≤ 0) || uv i)) ks fun i => symArity ar i
        else dtFindMatchL uv ar a (fun i => i == k) ks fun _ => 0
/-- The recursive calls for the children whose key satisfies `sel` (an iteration, or the one
child with a given key). -/
def dtFindMatchL (uv : Int → Bool) (ar : Nat → Nat) :
    FPAlts α → (Int → Bool) → List Int → (Int → Nat) → List (List α)
  | .nil, _, _, _ => []
  | .cons i t r, sel, key, skip =>
    (if sel i then dtFindMatch uv ar t key (skip i) else []) ++ dtFindMatchL uv ar r sel key skip
end

/-- The run of calls with `skip_key > 0` (TERMS/cte_fp_index.c:857-866): skip that many
subterms of the key. -/
def dropKey (ar : Nat → Nat) : Nat → List Int → List Int
  | 0, key => key
  | _ + 1, [] => []
  | n + 1, k :: ks => dropKey ar (n + symArity ar k) ks
termination_by _ key => key.length

mutual
/-- `dt_index_rek_find_unifiable` (TERMS/cte_fp_index.c:825-914). -/
def dtFindUnif (uv : Int → Bool) (ar : Nat → Nat) : FPTree α → List Int → Nat → List (List α)
  | .node a _ p, key, skip =>
    if skip ≠ 0 then dtFindUnifL uv ar a (fun i => decide (belowVar ≤ i)) key fun i => skip - 1 + symArity ar i
    else match key with
      | [] => [p]
      | k :: ks =>
        if k = anyVar then
          dtFindUnifL uv ar a (fun i => decide (belowVar ≤ i) && (decide (i ≤ 0) || uv i)) ks fun i => symArity ar i
        else dtFindUnifL uv ar a (fun i => i == k) ks (fun _ => 0) ++
          (if decide (k ≤ 0) || uv k then
            dtFindUnifL uv ar a (fun i => i == anyVar) (dropKey ar (symArity ar k) ks) fun _ => 0 else [])
/-- The recursive calls for the children whose key satisfies `sel`. -/
def dtFindUnifL (uv : Int → Bool) (ar : Nat → Nat) :
    FPAlts α → (Int → Bool) → List Int → (Int → Nat) → List (List α)
  | .nil, _, _, _ => []
  | .cons i t r, sel, key, skip =>
    (if sel i then dtFindUnif uv ar t key (skip i) else []) ++ dtFindUnifL uv ar r sel key skip
end

/-- The index: `FPIndexCell` with the static variables of its fingerprint function
(TERMS/cte_fp_index.h:47-55). -/
structure FPIndex (β : Type) where
  st : FPStat
  tree : FPTree (Term × β)

/-- What does not change: the fingerprint function, the signature and the predicate-position
property of terms. -/
structure FPCtx where
  kind : FPKind
  pp : Term → Bool
  ar : Nat → Nat
  isPred : Int → Bool

variable {β : Type}

/-- `FPIndexAlloc` (TERMS/cte_fp_index.c:1126-1138). -/
def FPIndex.alloc (st : FPStat) : FPIndex β := ⟨st, FPTree.empty⟩

/-- `FPIndexInsert` and the insertion of an occurrence into the payload
(TERMS/cte_fp_index.c:1193-1200; CLAUSES/ccl_subterm_index.c:190-202;
CLAUSES/ccl_overlap_index.c:316-332). -/
def fpInsert [DecidableEq β] (x : FPCtx) (ix : FPIndex β) (t : Term) (b : β) : FPIndex β :=
  let st := fpTouch x.pp x.kind ix.st t
  ⟨st, ix.tree.insert (fun p => if (t, b) ∈ p then p else (t, b) :: p) (fpKeyOf x.pp x.kind st t)⟩

/-- `SubtermIndexDeleteOcc` (CLAUSES/ccl_subterm_index.c:218-237), `OverlapIndexDeletePos`
(CLAUSES/ccl_overlap_index.c:347-379) and `OverlapIndexDeleteClauseOcc` (395-433): remove the
occurrences satisfying `del` of a term; drop the leaf if nothing is left. -/
def fpDelete (x : FPCtx) (ix : FPIndex β) (t : Term) (del : β → Bool) : FPIndex β :=
  let st := fpTouch x.pp x.kind ix.st t
  let key := fpKeyOf x.pp x.kind st t
  match ix.tree.find key with
  | none => ⟨st, ix.tree⟩
  | some p =>
    let p' := p.filter fun e => !(decide (e.1 = t) && del e.2)
    let tree := ix.tree.modify (fun _ => p') key
    ⟨st, if p'.isEmpty then (tree.rekDelete key).2 else tree⟩

/-- `FPIndexFindUnifiable` (TERMS/cte_fp_index.c:1238-1263): the payloads collected. -/
def fpFindUnifiable (x : FPCtx) (ix : FPIndex β) (t : Term) : List (List (Term × β)) × FPIndex β :=
  let st := fpTouch x.pp x.kind ix.st t
  let key := fpKeyOf x.pp x.kind st t
  (if x.kind = .dt then dtFindUnif (symUnifiesVar x.isPred) x.ar ix.tree key 0
    else fpFindUnif (symUnifiesVar x.isPred) key ix.tree, ⟨st, ix.tree⟩)

/-- `FPIndexFindMatchable` (TERMS/cte_fp_index.c:1279-1308). -/
def fpFindMatchable (x : FPCtx) (ix : FPIndex β) (t : Term) : List (List (Term × β)) × FPIndex β :=
  let st := fpTouch x.pp x.kind ix.st t
  let key := fpKeyOf x.pp x.kind st t
  (if x.kind = .dt then dtFindMatch (symUnifiesVar x.isPred) x.ar ix.tree key 0
    else fpFindMatch (symUnifiesVar x.isPred) key ix.tree, ⟨st, ix.tree⟩)

end Verif
