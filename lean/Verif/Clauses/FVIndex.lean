import Verif.Clauses.Subsume
import Mathlib.Data.List.Sort

/-!
# Feature vectors and the feature vector index

Model of CLAUSES/ccl_freqvectors.c, the symbol features of TERMS/cte_termfunc.c:2536-2621, CLAUSES/ccl_fcvindexing.c, the indexed
searches of CLAUSES/ccl_subsumption.c:726-1130 and the set-up in CONTROL/cco_proofproc.c:1323-1441.  First-order terms; numbers do not overflow.

Arrays are functions; what lies outside of the bounds is cut off when the vector is built, and it is proved that nothing is
written there.
-/

namespace Verif

/-- The contents of an array of numbers. -/
abbrev Arr := Nat → Nat

def Arr.set (a : Arr) (i v : Nat) : Arr := fun j => if j = i then v else a j

/-! ## Classical vectors -/

/-- A pointer into the vector, or to the array `unused`, whose contents are not looked at. -/
abbrev FPtr := Option Nat

/-- `p[i] = f(p[i])`. -/
def Arr.mod (a : Arr) (p : FPtr) (i : Nat) (f : Nat → Nat) : Arr :=
  match p with
  | none => a
  | some b => a.set (b + i) (f (a (b + i)))

mutual
/-- `TermAddSymbolFeaturesLimited` (TERMS/cte_termfunc.c:2550-2575). -/
def addFeatLim (freq dep : FPtr) (limit : Nat) : Term → Nat → Arr → Arr
  | .var _, _, a => a
  | .app f ts, d, a =>
    let i := if f < limit then f else 0
    addFeatLimL freq dep limit ts (d + 1) ((a.mod freq i (· + 1)).mod dep i (max d))
def addFeatLimL (freq dep : FPtr) (limit : Nat) : List Term → Nat → Arr → Arr
  | [], _, a => a
  | t :: ts, d, a => addFeatLimL freq dep limit ts d (addFeatLim freq dep limit t d a)
end

/-- `EqnAddSymbolFeaturesLimited` (CLAUSES/ccl_eqn.h:409-413). -/
def eqnFeatLim (freq dep : FPtr) (limit : Nat) (L : Lit) (a : Arr) : Arr :=
  addFeatLim freq dep limit L.r 0 (addFeatLim freq dep limit L.l 0 a)

/-- The kinds of vectors (`FVIndexType`); `collect` stands for the four kinds built by `FVCollectAlloc`. -/
inductive FVFeat
  | ac | ss | all | collect
deriving DecidableEq

/-- Where the features of a symbol go: (positive count, negative count, positive depth, negative depth)
(CLAUSES/ccl_freqvectors.c:364-395). -/
def FVFeat.ptrs (fe : FVFeat) (s : Nat) : FPtr × FPtr × FPtr × FPtr :=
  match fe with
  | .ac => (some (2 + 1 * (s + 1)), some 2, none, none)
  | .ss => (none, none, some (0 + 1 * (s + 1)), some 0)
  | _ => (some (2 + 1 * (s + 1)), some 2, some (2 + 2 * (s + 1)), some (2 + 3 * (s + 1)))

/-- `FVSize` (CLAUSES/ccl_freqvectors.h:126-131). -/
def FVFeat.size (fe : FVFeat) (s : Nat) : Nat :=
  match fe with
  | .ac => (s + 1) * 2 + 2
  | .ss => (s + 1) * 2
  | _ => (s + 1) * 4 + 2

def posLits (C : List Lit) : Nat := C.countP (·.pos)
def negLits (C : List Lit) : Nat := C.countP (!·.pos)

/-- `VarFreqVectorAddVals` (CLAUSES/ccl_freqvectors.c:350-427), on a vector of zeros. -/
def addVals (fe : FVFeat) (s : Nat) (C : List Lit) : Arr :=
  let a0 : Arr := fun _ => 0
  let a1 := if fe = .ss then a0 else (a0.set 0 (posLits C)).set 1 (negLits C)
  let (pf, nf, pd, nd) := fe.ptrs s
  C.foldl (fun a L => if L.pos then eqnFeatLim pf pd s L a else eqnFeatLim nf nd s L a) a1

/-! ## Collected vectors -/

/-- `FVCollectCell` (CLAUSES/ccl_freqvectors.h:76-102): the assembly vector (`none` is -1), its length, the length of the result, and for
each kind (base, offset, mod): positive counts, positive depths, negative counts, negative depths. -/
structure FVCollect where
  feat : FVFeat
  useLit : Bool
  assLen : Nat
  ass : Nat → Option Nat
  resLen : Nat
  pc : Nat × Nat × Nat
  pd : Nat × Nat × Nat
  nc : Nat × Nat × Nat
  nd : Nat × Nat × Nat
  maxSymbols : Nat

/-- The target computed by `gather_feature_vec` (CLAUSES/ccl_freqvectors.c:101-142). -/
def FVCollect.resIndex (cs : FVCollect) (i : Nat) : Option Nat :=
  if i < cs.assLen then cs.ass i
  else
    let (base, offset, md) := if i % 4 = 0 then cs.pc else if i % 4 = 1 then cs.pd else if i % 4 = 2 then cs.nc else cs.nd
    if md ≠ 0 then some (base + (offset + i / 4) % md) else none

/-- `gather_feature_vec` (CLAUSES/ccl_freqvectors.c:101-147). -/
def gather (cs : FVCollect) (full : Arr) (vec : Arr) (i : Nat) : Arr :=
  match cs.resIndex i with
  | none => vec
  | some r => vec.set r (vec r + full i)

mutual
/-- `TermAddSymbolFeatures` (TERMS/cte_termfunc.c:2597-2621): the stack of modified positions, top first, and the array. -/
def addSym (off : Nat) : Term → Nat → List Nat × Arr → List Nat × Arr
  | .var _, _, s => s
  | .app f ts, d, s =>
    let i := 4 * f + off
    let stk := if s.2 i = 0 then i :: s.1 else s.1
    let a := s.2.set i (s.2 i + 1)
    addSymL off ts (d + 1) (stk, a.set (i + 1) (max d (a (i + 1))))
def addSymL (off : Nat) : List Term → Nat → List Nat × Arr → List Nat × Arr
  | [], _, s => s
  | t :: ts, d, s => addSymL off ts d (addSym off t d s)
end

/-- `EqnListAddSymbolFeatures`, `EqnAddSymbolFeatures` (CLAUSES/ccl_eqnlist.c:1766-1773, CLAUSES/ccl_eqn.c:3357-3363). -/
def clauseAddSym (C : List Lit) (s : List Nat × Arr) : List Nat × Arr :=
  C.foldl (fun s L => addSym (if L.pos then 0 else 2) L.r 0 (addSym (if L.pos then 0 else 2) L.l 0 s)) s

/-- The loop of `FVCollectFreqVectorCompute` (CLAUSES/ccl_freqvectors.c:692-699): collect and clear. -/
def gatherAll (cs : FVCollect) : List Nat → Arr → Arr → Arr × Arr
  | [], full, vec => (vec, full)
  | i :: stk, full, vec =>
    let vec := gather cs full vec i
    let full := full.set i 0
    let vec := gather cs full vec (i + 1)
    let full := full.set (i + 1) 0
    gatherAll cs stk full vec

/-- `FVCollectFreqVectorCompute` (CLAUSES/ccl_freqvectors.c:667-704).  `full` is the static array, cleared up to its length when it grows
(BASICS/clb_regmem.c:136-154); the result is the vector and the array afterwards. -/
def collectVec (cs : FVCollect) (full : Arr) (C : List Lit) : Arr × Arr :=
  let v0 : Arr := fun _ => 0
  if C.isEmpty then (v0, full)
  else
    let v1 := if cs.useLit then (v0.set 0 (posLits C)).set 1 (negLits C) else v0
    let (stk, full) := clauseAddSym C ([], full)
    gatherAll cs stk full v1

/-- Length of the vectors (CLAUSES/ccl_freqvectors.c:455-468, CLAUSES/ccl_clausesets.c:2172-2179). -/
def FVCollect.len (cs : FVCollect) : Nat := if cs.feat = .collect then cs.resLen else cs.feat.size cs.maxSymbols

/-- `VarFreqVectorCompute` (CLAUSES/ccl_freqvectors.c:443-470). -/
def varFreqVec (cs : FVCollect) (full : Arr) (C : List Lit) : List Nat × Arr :=
  if cs.feat = .collect then
    let r := collectVec cs full C
    ((List.range cs.len).map r.1, r.2)
  else ((List.range cs.len).map (addVals cs.feat cs.maxSymbols C), full)

/-- `OptimizedVarFreqVectorCompute` (CLAUSES/ccl_freqvectors.c:487-522).  `none`: the permutation leads out of the vector. -/
def fvVector (cs : FVCollect) (perm : Option (List Nat)) (full : Arr) (C : List Lit) : Option (List Nat) × Arr :=
  let r := varFreqVec cs full C
  match perm with
  | none => (some r.1, r.2)
  | some p => (p.mapM fun i => r.1[i]?, r.2)

/-! ## Setting up -/

/-- The loop of `BillFeaturesCollectAlloc` limiting the number of symbols (CLAUSES/ccl_freqvectors.c:739-749, 825-835); `c` is the
constant part of the length. -/
def billLimit (c len : Nat) : Nat → Nat → Nat × Nat
  | p, f =>
    if c + 2 * p + 4 * f ≤ len then (p, f)
    else if _h : p > f then billLimit c len (p - 1) f
    else if _h' : 0 < f then billLimit c len p (f - 1)
    else (p, f)
termination_by p f => p + f

/-- The loops assigning positions (CLAUSES/ccl_freqvectors.c:760-771, 773-788): the symbols from `i` on that satisfy `sel`, `w` positions each.
`none`: the loop runs past the last symbol. -/
def billAssign (sel : Nat → Bool) (w fcount : Nat) : Nat → Nat → Nat → Nat → (Nat → Option Nat) → Option (Nat × (Nat → Option Nat))
  | _, _, 0, pos, ass => some (pos, ass)
  | 0, _, _ + 1, _, _ => none
  | fuel + 1, i, n + 1, pos, ass =>
    if fcount < i then none
    else if sel i then
      billAssign sel w fcount fuel (i + 1) n (pos + w) (fun j => if 4 * i ≤ j ∧ j < 4 * i + w then some (pos + (j - 4 * i)) else ass j)
    else billAssign sel w fcount fuel (i + 1) (n + 1) pos ass

/-- The signature as far as needed: number of symbols, number of internal symbols, and the predicate, function and special symbols. -/
structure FVSig where
  fcount : Nat
  internal : Nat
  isPred : Nat → Bool
  isFun : Nat → Bool
  special : Nat → Bool

/-- `SigCountSymbols` (TERMS/cte_signature.c:1276-1296). -/
def FVSig.count (g : FVSig) (sel : Nat → Bool) : Nat :=
  ((List.range (g.fcount + 1)).filter fun i => decide (g.internal + 1 ≤ i) && (!g.special i && sel i)).length

/-- `BillFeaturesCollectAlloc` (CLAUSES/ccl_freqvectors.c:730-790) and `BillPlusFeaturesCollectAlloc` (816-876, `plus`). -/
def billAlloc (g : FVSig) (plus : Bool) (len symbols : Nat) : Option FVCollect :=
  let (p, f) := billLimit (if plus then 6 else 2) len (g.count g.isPred) (g.count g.isFun)
  match billAssign (fun i => !g.special i && g.isPred i) 2 g.fcount (g.fcount + 1) (g.internal + 1) p 2 (fun _ => none) with
  | none => none
  | some (pos, ass) =>
    match billAssign (fun i => !g.special i && g.isFun i) 4 g.fcount (g.fcount + 1) (g.internal + 1) f pos ass with
    | none => none
    | some (_, ass) =>
      if plus then
        some ⟨.collect, true, (g.fcount + 1) * 4 + 2, ass, len, (len - 4, 0, 1), (len - 2, 0, 1), (len - 3, 0, 1), (len - 1, 0, 1), symbols⟩
      else some ⟨.collect, true, (g.fcount + 1) * 4 + 2, ass, len, (0, 0, 0), (0, 0, 0), (0, 0, 0), (0, 0, 0), symbols⟩

/-- `FVIACFold` (CONTROL/cco_proofproc.c:1345-1359); also the index of the definition store (1427-1440). -/
def acFold (s : Nat) : FVCollect :=
  ⟨.collect, true, 0, fun _ => none, s * 2 + 2, (2, 0, s), (0, 0, 0), (s + 2, 0, s), (0, 0, 0), s⟩

/-- `FVIACStagger` (CONTROL/cco_proofproc.c:1360-1373). -/
def acStagger (s : Nat) : FVCollect :=
  ⟨.collect, true, 0, fun _ => none, s * 2 + 2, (2, 0, 2 * s), (0, 0, 0), (2, 2 + s, 2 * s), (0, 0, 0), s⟩

/-- The default case (CONTROL/cco_proofproc.c:1393-1403). -/
def classical (fe : FVFeat) (s : Nat) : FVCollect :=
  ⟨fe, false, 0, fun _ => none, 0, (0, 0, 0), (0, 0, 0), (0, 0, 0), (0, 0, 0), s⟩

/-- `tuple3_compare_23lex` (CLAUSES/ccl_freqvectors.c:55-85) on (diff, value, pos): not greater. -/
def tuple3Le (a b : Int × Nat × Nat) : Bool :=
  if a.1 < b.1 then true else if b.1 < a.1 then false
  else if a.2.1 < b.2.1 then true else if b.2.1 < a.2.1 then false
  else decide (b.2.2 ≤ a.2.2)

/-- `PermVectorComputeInternal` (CLAUSES/ccl_freqvectors.c:171-221). -/
def permVector (fmax fmin : List Int) (fsum : List Nat) (maxLen : Nat) (elim : Bool) : List Nat :=
  let arr := ((List.range fsum.length).map fun i => ((fmax[i]?.getD 0) - (fmin[i]?.getD 0), fsum[i]?.getD 0, i)).insertionSort
    fun a b => tuple3Le a b = true
  let n := fsum.length
  let start := if n > maxLen then n - maxLen else 0
  let start1 := if elim then (arr.takeWhile fun e => decide (e.1 = 0)).length else 0
  let start := max start start1
  let start := if start = n then start - 1 else start
  (arr.drop start).map fun e => e.2.2

/-- `LONG_MAX`. -/
def longMax : Int := 9223372036854775807

/-- `ClauseSetFindCharFreqVectors` (CLAUSES/ccl_clausesets.c:2119-2143): sums, maxima and minima of the features. -/
def charVecs (cs : FVCollect) (full : Arr) : List (List Lit) → List Nat × List Int × List Int → (List Nat × List Int × List Int) × Arr
  | [], acc => (acc, full)
  | C :: Cs, acc =>
    let r := varFreqVec cs full C
    charVecs cs r.2 Cs (List.zipWith (· + ·) acc.1 r.1, List.zipWith (fun m (x : Nat) => max m (x : Int)) acc.2.1 r.1,
      List.zipWith (fun m (x : Nat) => min m (x : Int)) acc.2.2 r.1)

/-- `PermVectorCompute` (CLAUSES/ccl_clausesets.c:2160-2198). -/
def permCompute (cs : FVCollect) (full : Arr) (Cs : List (List Lit)) (elim : Bool) : List Nat × Arr :=
  let r := charVecs cs full Cs (List.replicate cs.len 0, List.replicate cs.len 0, List.replicate cs.len longMax)
  (permVector r.1.2.1 r.1.2.2 r.1.1 cs.maxSymbols elim, r.2)

/-! ## The index -/

mutual
/-- `FVIndexCell` (CLAUSES/ccl_fcvindexing.h:53-62). -/
inductive FVTree (β : Type)
  | node (cnt : Int) (alts : FVAlts β)
  | leaf (cnt : Int) (cls : List β)
/-- The successors, an integer map (C34), in ascending order of the keys. -/
inductive FVAlts (β : Type)
  | nil
  | cons (k : Nat) (t : FVTree β) (r : FVAlts β)
end

namespace FVTree
variable {β : Type}

/-- `FVIndexAlloc` (CLAUSES/ccl_fcvindexing.c:250-260). -/
def alloc : FVTree β := .node 0 .nil

def cnt : FVTree β → Int
  | .node c _ => c
  | .leaf c _ => c
end FVTree

namespace FVAlts
variable {β : Type}

/-- `IntMapGetVal`. -/
def get : FVAlts β → Nat → Option (FVTree β)
  | .nil, _ => none
  | .cons k t r, i => if i = k then some t else r.get i

/-- `IntMapAssign`, or changing the node found under the key. -/
def set : FVAlts β → Nat → FVTree β → FVAlts β
  | .nil, i, u => .cons i u .nil
  | .cons k t r, i, u =>
    if i < k then .cons i u (.cons k t r) else if i = k then .cons k u r else .cons k t (r.set i u)
end FVAlts

section Ops
variable {β : Type} [DecidableEq β]

/-- `FVIndexInsert` (CLAUSES/ccl_fcvindexing.c:401-434) after the literals have been sorted.  `none`: a leaf is met too early or an inner node
at the end. -/
def fvInsert (b : β) : List Nat → FVTree β → Option (FVTree β)
  | [], .node c .nil => some (.leaf (c + 1) [b])
  | [], .node _ (.cons _ _ _) => none
  | [], .leaf c cls => some (.leaf (c + 1) (if b ∈ cls then cls else b :: cls))
  | _ :: _, .leaf _ _ => none
  | k :: v, .node c alts => (fvInsert b v ((alts.get k).getD .alloc)).map fun t => .node (c + 1) (alts.set k t)

/-- `FVIndexDelete` (CLAUSES/ccl_fcvindexing.c:452-481): also whether the clause has been found. -/
def fvDelete (b : β) : List Nat → FVTree β → Option (FVTree β × Bool)
  | [], .node c .nil => some (.node (c - 1) .nil, false)
  | [], .node _ (.cons _ _ _) => none
  | [], .leaf c cls => some (.leaf (c - 1) (cls.erase b), decide (b ∈ cls))
  | _ :: _, .leaf _ _ => none
  | k :: v, .node c alts =>
    match alts.get k with
    | none => some (.node (c - 1) alts, false)
    | some t => (fvDelete b v t).map fun r => (.node (c - 1) (alts.set k r.1), r.2)
end Ops

section Search
variable {β : Type} (test : β → Bool)

mutual
/-- `clause_set_subsumes_clause_indexed` (CLAUSES/ccl_subsumption.c:776-808); `test` tells whether the stored clause subsumes the query.
The order of the clauses in a leaf is that of the list. -/
def fvFindSubsuming : FVTree β → List Nat → Option β
  | .leaf _ cls, [] => cls.find? test
  | .leaf _ _, _ :: _ => none
  | .node _ _, [] => none
  | .node _ alts, k :: v => fvFindSubsumingL alts k v
def fvFindSubsumingL : FVAlts β → Nat → List Nat → Option β
  | .nil, _, _ => none
  | .cons k' t r, k, v =>
    if k' ≤ k ∧ t.cnt ≠ 0 then
      match fvFindSubsuming t v with
      | some b => some b
      | none => fvFindSubsumingL r k v
    else fvFindSubsumingL r k v
end

mutual
/-- `clauseset_find_subsumed_clauses_indexed` (CLAUSES/ccl_subsumption.c:973-1001); `test` tells whether the stored clause is subsumed. -/
def fvFindSubsumed : FVTree β → List Nat → List β
  | .leaf _ cls, [] => cls.filter test
  | .leaf _ _, _ :: _ => []
  | .node _ _, [] => []
  | .node _ alts, k :: v => fvFindSubsumedL alts k v
def fvFindSubsumedL : FVAlts β → Nat → List Nat → List β
  | .nil, _, _ => []
  | .cons k' t r, k, v => (if k ≤ k' ∧ t.cnt ≠ 0 then fvFindSubsumed t v else []) ++ fvFindSubsumedL r k v
end

mutual
/-- `clauseset_find_first_subsumed_clause_indexed` (CLAUSES/ccl_subsumption.c:1017-1048). -/
def fvFirstSubsumed : FVTree β → List Nat → Option β
  | .leaf _ cls, [] => cls.find? test
  | .leaf _ _, _ :: _ => none
  | .node _ _, [] => none
  | .node _ alts, k :: v => fvFirstSubsumedL alts k v
def fvFirstSubsumedL : FVAlts β → Nat → List Nat → Option β
  | .nil, _, _ => none
  | .cons k' t r, k, v =>
    if k ≤ k' ∧ t.cnt ≠ 0 then
      match fvFirstSubsumed t v with
      | some b => some b
      | none => fvFirstSubsumedL r k v
    else fvFirstSubsumedL r k v
end

/-- `clauseset_find_variant_clause_indexed` (CLAUSES/ccl_subsumption.c:1107-1130). -/
def fvFindVariant : List Nat → FVTree β → Option β
  | [], .leaf _ cls => cls.find? test
  | _ :: _, .leaf _ _ => none
  | [], .node _ _ => none
  | k :: v, .node _ alts =>
    match alts.get k with
    | none => none
    | some t => if t.cnt ≠ 0 then fvFindVariant v t else none
end Search

end Verif
