import Verif.Terms.FPIndex
import Verif.Clauses.Rewrite

/-!
# Compact positions and the clause level of the term indices

Model of CLAUSES/ccl_clausecpos.c (positions packed into numbers),
CLAUSES/ccl_subterm_index.c (index for backward rewriting),
CLAUSES/ccl_overlap_index.c (indices for paramodulation) and the search for
rewritable clauses in CLAUSES/ccl_rewrite.c:1053-1446.  First-order case.

Clauses are identified by a number (their address).  Sets of terms (`PTree_p`)
are lists without duplicates.
-/

namespace Verif

/-- `TermStandardWeight` (TERMS/cte_termfunc.h:107-111): 1 per variable, 2 per symbol. -/
def stdW (t : Term) : Nat := t.weight 1 2

/-- A literal with the property bits the indices look at. -/
structure XLit where
  lit : Lit
  oriented : Bool
  maximal : Bool
  selected : Bool := false
deriving DecidableEq

/-- `EqnStandardWeight` (CLAUSES/ccl_eqn.h:326-328). -/
def XLit.stdW (L : XLit) : Nat := Verif.stdW L.lit.l + Verif.stdW L.lit.r

/-! ## Compact positions -/

/-- A position in a clause (`ClausePosCell`, CLAUSES/ccl_clausepos.h): literal number, side, and the
position in the term. -/
structure CPos where
  lit : Nat
  right : Bool
  path : List Nat
deriving DecidableEq

/-- `PackTermPos` (CLAUSES/ccl_clausecpos.c:58-85).  `none`: an assertion fails. -/
def packTerm : Term → List Nat → Option Nat
  | _, [] => some 0
  | .var _, _ :: _ => none
  | .app _ ts, i :: p =>
    match ts[i]? with
    | none => none
    | some u => (packTerm u p).map fun n => 2 + ((ts.take i).map stdW).sum + n

/-- `PackClausePos` (CLAUSES/ccl_clausecpos.c:100-122). -/
def packClause (C : List XLit) (q : CPos) : Option Nat :=
  match C[q.lit]? with
  | none => none
  | some L =>
    (packTerm (if q.right then L.lit.r else L.lit.l) q.path).map fun n =>
      ((C.take q.lit).map XLit.stdW).sum + (if q.right then stdW L.lit.l else 0) + n

mutual
/-- `UnpackTermPos` (CLAUSES/ccl_clausecpos.c:138-165).  `none`: an assertion fails. -/
def unpackTerm : Term → Nat → Option (List Nat)
  | _, 0 => some []
  | .var _, _ + 1 => none
  | .app _ ts, n + 1 => if n + 1 < 2 then none else unpackArgs ts (n + 1 - 2) 0
/-- The loop over the arguments. -/
def unpackArgs : List Term → Nat → Nat → Option (List Nat)
  | [], _, _ => none
  | t :: ts, c, i => if c < stdW t then (unpackTerm t c).map (i :: ·) else unpackArgs ts (c - stdW t) (i + 1)
end

/-- `ClauseCPosSplit` (CLAUSES/ccl_clausecpos.c:320-331): the literal, its number and the rest. -/
def cposSplit : List XLit → Nat → Nat → Option (XLit × Nat × Nat)
  | [], _, _ => none
  | L :: C, c, i => if L.stdW ≤ c then cposSplit C (c - L.stdW) (i + 1) else some (L, i, c)

/-- `UnpackClausePosInto` (CLAUSES/ccl_clausecpos.c:181-209). -/
def unpackClause (C : List XLit) (c : Nat) : Option CPos :=
  match cposSplit C c 0 with
  | none => none
  | some (L, i, c) =>
    if stdW L.lit.l ≤ c then (unpackTerm L.lit.r (c - stdW L.lit.l)).map fun p => ⟨i, true, p⟩
    else (unpackTerm L.lit.l c).map fun p => ⟨i, false, p⟩

/-- `ClausePosGetSubterm` (CLAUSES/ccl_clausepos.h). -/
def clauseAt (C : List XLit) (q : CPos) : Option Term :=
  match C[q.lit]? with
  | none => none
  | some L => subtermAt (if q.right then L.lit.r else L.lit.l) q.path

/-- `ClauseCPosGetSubterm` (CLAUSES/ccl_clausecpos.c:248-257). -/
def cposSubterm (C : List XLit) (c : Nat) : Option Term :=
  match unpackClause C c with
  | none => none
  | some q => clauseAt C q

/-! ## Terms indexed for backward rewriting -/

/-- `PTreeStore` on a set of terms. -/
def storeTerm (t : Term) (s : List Term) : List Term := if t ∈ s then s else t :: s

mutual
/-- `term_collect_idx_subterms` (CLAUSES/ccl_subterm_index.c:56-85); first-order terms are closed and
contain no lambdas.  The sets are (`rest`, `full`). -/
def collectIdx : Term → (rs ld : Bool) → List Term × List Term → List Term × List Term
  | .var _, _, _, acc => acc
  | .app f ts, rs, ld, acc =>
    let acc1 := if rs then (storeTerm (.app f ts) acc.1, acc.2) else (acc.1, storeTerm (.app f ts) acc.2)
    if !ld then collectIdxL ts acc1 else acc1
/-- The loop over the arguments (CLAUSES/ccl_subterm_index.c:79-82): the last parameter is `true`. -/
def collectIdxL : List Term → List Term × List Term → List Term × List Term
  | [], acc => acc
  | t :: ts, acc => collectIdxL ts (collectIdx t false true acc)
end

/-- `ClauseCollectIdxSubterms` and `eqn_collect_idx_subterms` (CLAUSES/ccl_subterm_index.c:102-112, 256-269). -/
def clauseCollectIdx (ld : Bool) : List XLit → List Term × List Term → List Term × List Term
  | [], acc => acc
  | L :: C, acc =>
    clauseCollectIdx ld C (collectIdx L.lit.r false ld
      (collectIdx L.lit.l (L.maximal && L.lit.pos && L.oriented) ld acc))

/-- `SubtermIndexInsertClause` (CLAUSES/ccl_subterm_index.c:284-296). -/
def subInsertClause (x : FPCtx) (ld : Bool) (ix : FPIndex (Nat × Bool)) (c : Nat) (C : List XLit) : FPIndex (Nat × Bool) :=
  let ts := clauseCollectIdx ld C ([], [])
  ts.2.foldl (fun ix t => fpInsert x ix t (c, false)) (ts.1.foldl (fun ix t => fpInsert x ix t (c, true)) ix)

/-- `SubtermIndexDeleteClause` (CLAUSES/ccl_subterm_index.c:311-322). -/
def subDeleteClause (x : FPCtx) (ld : Bool) (ix : FPIndex (Nat × Bool)) (c : Nat) (C : List XLit) : FPIndex (Nat × Bool) :=
  let ts := clauseCollectIdx ld C ([], [])
  ts.2.foldl (fun ix t => fpDelete x ix t fun b => b == (c, false))
    (ts.1.foldl (fun ix t => fpDelete x ix t fun b => b == (c, true)) ix)

/-- The test of `term_find_rw_clauses` (CLAUSES/ccl_rewrite.c:1072-1091): `some true` if the term can
always be rewritten, `some false` if only at unrestricted positions.  The rewrite links it adds are not
modelled here (they are those of `topRewritableL`). -/
def rwHit (x : RWCtx) (l r : Term) (oriented : Bool) (t : Term) : Option Bool :=
  match matchSt x l t with
  | none => none
  | some sb =>
    let (ok, sb1) := if oriented then (true, sb) else instanceIsRule x l r sb
    if ok then some (!oriented || !substIsRenaming sb1) else none

/-- `find_rewritable_clauses_indexed` with `tree_find_rw_clauses` and `term_find_rw_clauses`
(CLAUSES/ccl_rewrite.c:1053-1207): the clauses collected; an entry (clause, restricted) is taken if the term can always be rewritten, or
if it is unrestricted. -/
def findRwSide (x : FPCtx) (rx : RWCtx) (ix : FPIndex (Nat × Bool)) (l r : Term) (oriented : Bool) : List Nat × FPIndex (Nat × Bool) :=
  let (trees, ix) := fpFindMatchable x ix l
  (trees.flatten.filterMap fun e =>
    match rwHit rx l r oriented e.1 with
    | none => none
    | some al => if al || !e.2.2 then some e.2.1 else none, ix)

/-- `FindRewritableClausesIndexed` (CLAUSES/ccl_rewrite.c:1408-1446). -/
def findRwIndexed (x : FPCtx) (rx : RWCtx) (ix : FPIndex (Nat × Bool)) (d : Demod) : List Nat × FPIndex (Nat × Bool) :=
  let (r1, ix) := findRwSide x rx ix d.l d.r d.oriented
  if d.oriented then (r1, ix)
  else
    let (r2, ix) := findRwSide x rx ix d.r d.l false
    (r1 ++ r2, ix)

/-! ## Terms indexed for paramodulation -/

mutual
/-- `term_collect_into_terms_pos` (CLAUSES/ccl_overlap_index.c:172-194). -/
def intoPos : Term → Nat → List (Term × Nat)
  | .var _, _ => []
  | .app f ts, pos => (.app f ts, pos) :: intoPosL ts (pos + 2)
def intoPosL : List Term → Nat → List (Term × Nat)
  | [], _ => []
  | t :: ts, pos => intoPos t pos ++ intoPosL ts (pos + stdW t)
end

mutual
/-- `term_collect_into_terms` (CLAUSES/ccl_overlap_index.c:54-70). -/
def intoTerms : Term → List Term
  | .var _ => []
  | .app f ts => .app f ts :: intoTermsL ts
def intoTermsL : List Term → List Term
  | [] => []
  | t :: ts => intoTerms t ++ intoTermsL ts
end

/-- `eqn_collect_into_terms_pos2` (CLAUSES/ccl_overlap_index.c:210-236, 277-296): (terms, negated atoms). -/
def litIntoPos (L : XLit) (pos : Nat) : List (Term × Nat) × List (Term × Nat) :=
  let right := if L.oriented then [] else intoPos L.lit.r (pos + stdW L.lit.l)
  if !L.lit.pos && decide (L.lit.r = tTrue) then
    match L.lit.l with
    | .var _ => (right, [])
    | .app f ts => (intoPosL ts (pos + 2) ++ right, [(.app f ts, pos)])
  else (intoPos L.lit.l pos ++ right, [])

/-- `eqn_collect_into_terms2` (CLAUSES/ccl_overlap_index.c:85-101, 140-157). -/
def litInto (L : XLit) : List Term × List Term :=
  let right := if L.oriented then [] else intoTerms L.lit.r
  if !L.lit.pos && decide (L.lit.r = tTrue) then
    match L.lit.l with
    | .var _ => (right, [])
    | .app f ts => (intoTermsL ts ++ right, [.app f ts])
  else (intoTerms L.lit.l ++ right, [])

/-- `ClauseCollectIntoTermsPos2` (CLAUSES/ccl_overlap_index.c:830-847). -/
def clauseIntoPos : List XLit → Nat → List (Term × Nat) × List (Term × Nat)
  | [], _ => ([], [])
  | L :: C, pos =>
    let r := clauseIntoPos C (pos + L.stdW)
    if L.maximal then ((litIntoPos L pos).1 ++ r.1, (litIntoPos L pos).2 ++ r.2) else r

/-- `ClauseCollectIntoTerms2` (CLAUSES/ccl_overlap_index.c:800-813). -/
def clauseInto : List XLit → List Term × List Term
  | [] => ([], [])
  | L :: C =>
    let r := clauseInto C
    if L.maximal then ((litInto L).1 ++ r.1, (litInto L).2 ++ r.2) else r

/-- `ClauseCollectFromTermsPos` (CLAUSES/ccl_overlap_index.c:546-569). -/
def clauseFromPos : List XLit → Nat → List (Term × Nat)
  | [], _ => []
  | L :: C, pos =>
    (if L.maximal && L.lit.pos && !L.selected then
      (L.lit.l, pos) :: (if L.oriented then [] else [(L.lit.r, pos + stdW L.lit.l)])
     else []) ++ clauseFromPos C (pos + L.stdW)

/-- `ClauseCollectFromTerms` (CLAUSES/ccl_overlap_index.c:511-530). -/
def clauseFrom : List XLit → List Term
  | [] => []
  | L :: C =>
    (if L.maximal && L.lit.pos && !L.selected then L.lit.l :: (if L.oriented then [] else [L.lit.r]) else []) ++ clauseFrom C

/-- The three overlap indices (CLAUSES/ccl_global_indices.c:216-306). -/
inductive OvKind
  | into | negp | from

/-- The entries of a clause. -/
def OvKind.entries : OvKind → List XLit → List (Term × Nat)
  | .into, C => (clauseIntoPos C 0).1
  | .negp, C => (clauseIntoPos C 0).2
  | .from, C => clauseFromPos C 0

/-- The terms for which the entries of a clause are removed. -/
def OvKind.terms : OvKind → List XLit → List Term
  | .into, C => (clauseInto C).1
  | .negp, C => (clauseInto C).2
  | .from, C => clauseFrom C

/-- `OverlapIndexInsertIntoClause2`, `OverlapIndexInsertFromClause` (CLAUSES/ccl_overlap_index.c:646-661, 863-887). -/
def ovInsertClause (x : FPCtx) (k : OvKind) (ix : FPIndex (Nat × Nat)) (c : Nat) (C : List XLit) : FPIndex (Nat × Nat) :=
  (k.entries C).reverse.foldl (fun ix e => fpInsert x ix e.1 (c, e.2)) ix

/-- `OverlapIndexDeleteIntoClause2`, `OverlapIndexDeleteFromClause` (CLAUSES/ccl_overlap_index.c:676-692, 902-931). -/
def ovDeleteClause (x : FPCtx) (k : OvKind) (ix : FPIndex (Nat × Nat)) (c : Nat) (C : List XLit) : FPIndex (Nat × Nat) :=
  (k.terms C).dedup.foldl (fun ix t => fpDelete x ix t fun b => b.1 == c) ix

end Verif
