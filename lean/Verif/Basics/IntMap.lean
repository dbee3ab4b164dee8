import Verif.Basics.Splay
import Mathlib.Algebra.Order.Group.Int

/-!
# Range arrays and integer maps

Model of BASICS/clb_pdrangearrays.c and BASICS/clb_intmap.c.  The null pointer is `none`.  Numbers do not overflow and memory does not
run out here.
-/

namespace Verif

/-! ## Range arrays -/

/-- `PDRangeArrCell` (BASICS/clb_pdrangearrays.h:42-51); `cells i` is the content of `array[i]`. -/
structure RangeArr (V : Type) where
  offset : Int
  size : Nat
  grow : Nat
  cells : Nat → Option V

/-- The loop of `range_arr_size` (BASICS/clb_pdrangearrays.c:67-70); for size 0 it would not terminate. -/
def doubleTo (minsize size : Nat) : Nat :=
  if h : 0 < size ∧ size ≤ minsize then doubleTo minsize (size * 2) else size
termination_by minsize + 1 - size

/-- `range_arr_size` (BASICS/clb_pdrangearrays.c:57-73). -/
def rangeArrSize (minsize size grow : Nat) : Nat :=
  if grow ≠ 0 then (minsize / grow + 1) * grow else doubleTo minsize size

namespace RangeArr
variable {V : Type}

/-- `PDRangeArrAlloc` (BASICS/clb_pdrangearrays.c:185-203). -/
def alloc (idx : Int) (grow : Nat) : RangeArr V := ⟨idx, if grow ≠ 0 then grow else 1, grow, fun _ => none⟩

/-- `PDRangeArrIndexIsCovered` (BASICS/clb_pdrangearrays.h:96-97). -/
def covers (a : RangeArr V) (idx : Int) : Bool := a.offset ≤ idx ∧ idx < a.offset + a.size

/-- `range_arr_expand_down` (BASICS/clb_pdrangearrays.c:89-119). -/
def expandDown (a : RangeArr V) (idx : Int) : RangeArr V :=
  let size := rangeArrSize ((a.offset - idx).toNat + a.size) a.size a.grow
  let d := size - a.size
  ⟨a.offset - d, size, a.grow, fun i => if i < d then none else if i - d < a.size then a.cells (i - d) else none⟩

/-- `range_arr_expand_up` (BASICS/clb_pdrangearrays.c:135-164). -/
def expandUp (a : RangeArr V) (idx : Int) : RangeArr V :=
  let size := rangeArrSize ((idx - a.offset).toNat + 1) a.size a.grow
  ⟨a.offset, size, a.grow, fun i => if i < a.size then a.cells i else none⟩

/-- `PDRangeArrEnlarge` (BASICS/clb_pdrangearrays.c:273-285) if necessary, as done by `PDRangeArrElementRef`
(BASICS/clb_pdrangearrays.h:122-134). -/
def ensure (a : RangeArr V) (idx : Int) : RangeArr V :=
  if a.covers idx then a else if idx < a.offset then a.expandDown idx else a.expandUp idx

/-- `PDRangeArrElementP` as a value (BASICS/clb_pdrangearrays.h:88-89): reading may enlarge the array. -/
def get (a : RangeArr V) (idx : Int) : Option V × RangeArr V :=
  let a := a.ensure idx
  (a.cells (idx - a.offset).toNat, a)

/-- `PDRangeArrAssignP` (BASICS/clb_pdrangearrays.h:81-82). -/
def set (a : RangeArr V) (idx : Int) (v : Option V) : RangeArr V :=
  let a := a.ensure idx
  { a with cells := fun i => if i = (idx - a.offset).toNat then v else a.cells i }

end RangeArr

/-! ## Trees of integers -/

/-- The trees used in integer maps: keys with values (`val1`). -/
abbrev NTree (V : Type) := STree (Int × Option V)

/-- Comparison of keys. -/
def intCmp (a b : Int) : Ordering := compare a b

namespace NTree
variable {V : Type}

/-- `NumTreeMaxNode` (BASICS/clb_numtrees.c:518-528). -/
def maxNode : NTree V → Option (Int × Option V)
  | .leaf => none
  | .node _ e .leaf => some e
  | .node _ _ (.node a b c) => maxNode (.node a b c)

/-- `NumTreeLimitedTraverseInit` (BASICS/clb_numtrees.c:544-568). -/
def limitedInit (limit : Int) : NTree V → List (NTree V) → List (NTree V)
  | .leaf, s => s
  | .node l e r, s =>
    if e.1 < limit then limitedInit limit r s
    else if e.1 = limit then .node l e r :: s
    else limitedInit limit l (.node l e r :: s)

end NTree

/-! ## Integer maps -/

/-- The tagged union in `IntMapCell` (BASICS/clb_intmap.h:39-45, 72-77). -/
inductive IMVals (V : Type) where
  | empty
  | single (v : Option V)
  | array (a : RangeArr V)
  | tree (t : NTree V)

/-- `IntMapCell` (BASICS/clb_intmap.h:57-78). -/
structure IntMap (V : Type) where
  vals : IMVals V
  entryNo : Int
  minKey : Int
  maxKey : Int

/-- `switch_to_array` (BASICS/clb_intmap.c:57-67); MIN_TREE_DENSITY is 4. -/
def switchToArray (oldMin oldMax newKey entries : Int) : Bool := entries * 4 > max oldMax newKey - min oldMin newKey

/-- `switch_to_tree` (BASICS/clb_intmap.c:83-93); MAX_TREE_DENSITY is 8. -/
def switchToTree (oldMin oldMax newKey entries : Int) : Bool := entries * 8 < max oldMax newKey - min oldMin newKey

namespace IntMap
variable {V : Type}

/-- Local variables of the two conversions: the new values with entry number, minimal and maximal key. -/
structure Conv (S : Type) where
  s : S
  entryNo : Int
  minKey : Int
  maxKey : Int

/-- The loop of `array_to_tree` (BASICS/clb_intmap.c:153-163), `n` rounds starting with `i`.  Reading may enlarge the array, which is
freed afterwards. -/
def a2tLoop : Nat → Int → RangeArr V → Conv (NTree V) → Conv (NTree V)
  | 0, _, _, c => c
  | n + 1, i, a, c =>
    match a.get i with
    | (some v, a) =>
      a2tLoop n (i + 1) a ⟨(STree.insert intCmp Prod.fst (i, some v) c.s).2, c.entryNo + 1, min c.minKey i, i⟩
    | (none, a) => a2tLoop n (i + 1) a c

/-- `array_to_tree` (BASICS/clb_intmap.c:138-167). -/
def arrayToTree (m : IntMap V) (a : RangeArr V) : IntMap V :=
  let c := a2tLoop (m.maxKey + 1 - a.offset).toNat a.offset a ⟨.leaf, 0, m.maxKey, m.minKey⟩
  ⟨.tree c.s, c.entryNo, min c.minKey c.maxKey, c.maxKey⟩

/-- The loop of `tree_to_array` (BASICS/clb_intmap.c:196-205) over the entries in the order of the traversal. -/
def t2aLoop : List (Int × Option V) → Conv (RangeArr V) → Conv (RangeArr V)
  | [], c => c
  | (k, some v) :: es, c => t2aLoop es ⟨c.s.set k (some v), c.entryNo + 1, min c.minKey k, k⟩
  | (_, none) :: es, c => t2aLoop es c

/-- `tree_to_array` (BASICS/clb_intmap.c:183-212); the traversal delivers the in-order contents (`traverse_correct`); IM_ARRAY_SIZE is
8. -/
def treeToArray (m : IntMap V) (t : NTree V) : IntMap V :=
  let c := t2aLoop t.toList ⟨RangeArr.alloc m.minKey 8, 0, m.maxKey, m.minKey⟩
  ⟨.array c.s, c.entryNo, min c.minKey c.maxKey, c.maxKey⟩

/-- `IntMapAlloc` (BASICS/clb_intmap.c:232-239): the other fields are not initialised. -/
def alloc (entryNo minKey maxKey : Int) : IntMap V := ⟨.empty, entryNo, minKey, maxKey⟩

/-- `IntMapGetVal` (BASICS/clb_intmap.c:289-327). -/
def getVal (m : IntMap V) (key : Int) : Option V × IntMap V :=
  match m.vals with
  | .empty => (none, m)
  | .single v => (if m.maxKey = key then v else none, m)
  | .array a =>
    if key ≤ m.maxKey then
      let r := a.get key
      (r.1, { m with vals := .array r.2 })
    else (none, m)
  | .tree t =>
    if key ≤ m.maxKey then
      let r := STree.find intCmp Prod.fst key t
      (match r.1 with | some e => e.2 | none => none, { m with vals := .tree r.2 })
    else (none, m)

/-- `add_new_tree_node` (BASICS/clb_intmap.c:109-122) with a null value. -/
def addTreeNode (m : IntMap V) (t : NTree V) (key : Int) : IntMap V :=
  { m with vals := .tree (STree.insert intCmp Prod.fst (key, none) t).2, entryNo := m.entryNo + 1 }

/-- `IntMapGetRef` (BASICS/clb_intmap.c:345-444): the map after the call.  The returned address is the one written by `writeRef`.
Recursion depth is limited by the first argument; `getRef_total` shows that 3 suffices. -/
def getRef : Nat → IntMap V → Int → Option (IntMap V)
  | 0, _, _ => none
  | n + 1, m, key =>
    match m.vals with
    | .empty => some ⟨.single none, 1, key, key⟩
    | .single v =>
      let minKey := min m.minKey key
      let maxKey := max key m.maxKey
      if key = m.maxKey then some { m with minKey := minKey, maxKey := maxKey }
      else if switchToArray key m.minKey m.maxKey 2 then
        some ⟨.array (((RangeArr.alloc (min key m.maxKey) 8).set m.maxKey v).set key none), 2, minKey, maxKey⟩
      else
        some { (addTreeNode m (STree.insert intCmp Prod.fst (m.maxKey, v) .leaf).2 key) with
          entryNo := 2, minKey := minKey, maxKey := maxKey }
    | .array a =>
      if (key > m.maxKey ∨ key < m.minKey) ∧ switchToTree m.minKey m.maxKey key (m.entryNo + 1) then
        (getRef n (m.arrayToTree a) key).map fun m' => { m' with minKey := min m'.minKey key, maxKey := max m'.maxKey key }
      else
        let r := a.get key
        some ⟨.array r.2, if r.1.isNone then m.entryNo + 1 else m.entryNo, min m.minKey key, max m.maxKey key⟩
    | .tree t =>
      let r := STree.find intCmp Prod.fst key t
      match r.1 with
      | some _ => some { m with vals := .tree r.2 }
      | none =>
        if switchToArray m.minKey m.maxKey key (m.entryNo + 1) then
          getRef n ({ m with vals := .tree r.2 }.treeToArray r.2) key
        else
          let m' := addTreeNode { m with vals := .tree r.2 } r.2 key
          some { m' with maxKey := max m.maxKey key, minKey := min m.minKey key }

/-- `*ref = value` for the address returned by `IntMapGetRef`: the single value, the array cell, or the value of the tree node, which
is the root after `NumTreeFind` and `NumTreeInsert`. -/
def writeRef (m : IntMap V) (key : Int) (v : Option V) : IntMap V :=
  match m.vals with
  | .empty => m
  | .single _ => { m with vals := .single v }
  | .array a => { m with vals := .array (a.set key v) }
  | .tree .leaf => m
  | .tree (.node l e r) => { m with vals := .tree (.node l (e.1, v) r) }

/-- `IntMapAssign` (BASICS/clb_intmap.c:459-467). -/
def assign (n : Nat) (m : IntMap V) (key : Int) (v : Option V) : Option (IntMap V) :=
  (getRef n m key).map fun m => writeRef m key v

/-- `IntMapDelKey` (BASICS/clb_intmap.c:486-553). -/
def delKey (m : IntMap V) (key : Int) : Option V × IntMap V :=
  match m.vals with
  | .empty => (none, m)
  | .single v => if key = m.maxKey then (v, { m with vals := .empty, entryNo := 0 }) else (none, m)
  | .array a =>
    if key > m.maxKey then (none, m)
    else
      let r := a.get key
      match r.1 with
      | none => (none, { m with vals := .array r.2 })
      | some v =>
        let a' := r.2.set key none
        let m' : IntMap V := { m with vals := .array a', entryNo := m.entryNo - 1 }
        (some v, if switchToTree m'.minKey m'.maxKey m'.maxKey m'.entryNo then m'.arrayToTree a' else m')
  | .tree t =>
    let r := STree.extract intCmp Prod.fst key t
    match r.1 with
    | none => (none, { m with vals := .tree r.2 })
    | some e =>
      let m' : IntMap V := { m with vals := .tree r.2, entryNo := m.entryNo - 1 }
      if e.1 = m'.maxKey then
        let m'' := { m' with maxKey := match NTree.maxNode r.2 with | some x => x.1 | none => m'.minKey }
        (e.2, if switchToArray m''.minKey m''.maxKey m''.maxKey m''.entryNo then m''.treeToArray r.2 else m'')
      else (e.2, m')

/-! ### Iteration -/

/-- `admin_data` in `IntMapIterCell` (BASICS/clb_intmap.h:82-93). -/
inductive IterAdm (V : Type) where
  | none
  | seen (b : Bool)
  | current (i : Int)
  | stack (s : List (NTree V))

/-- `IntMapIterAlloc` (BASICS/clb_intmap.c:569-603): the upper key and the administrative data (the lower key is not used later). -/
def iterAlloc (m : IntMap V) (lower upper : Int) : Int × IterAdm V :=
  (min upper m.maxKey, match m.vals with
    | .empty => .none
    | .single _ => .seen (!(decide (m.maxKey ≥ lower) && decide (m.maxKey ≤ upper)))
    | .array _ => .current lower
    | .tree t => .stack (NTree.limitedInit lower t []))

/-- The loop for arrays in `IntMapIterNext` (BASICS/clb_intmap.h:188-197), `n` rounds from `i` on: the entry found, the array, and the
next index. -/
def iterArr : Nat → Int → RangeArr V → Option (Int × V) × RangeArr V × Int
  | 0, i, a => (none, a, i + 1)
  | n + 1, i, a =>
    match a.get i with
    | (some v, a) => (some (i, v), a, i + 1)
    | (none, a) => iterArr n (i + 1) a

/-- The loop for trees in `IntMapIterNext` (BASICS/clb_intmap.h:201-218); `n` bounds the number of rounds. -/
def iterTree (upper : Int) : Nat → List (NTree V) → Option (Option (Int × V) × List (NTree V))
  | 0, _ => none
  | n + 1, s =>
    match STree.traverseNext s with
    | none => some (none, s)
    | some ((k, v), s) =>
      if k > upper then some (none, s)
      else
        match v with
        | some v => some (some (k, v), s)
        | none => iterTree upper n s

/-- `IntMapIterNext` (BASICS/clb_intmap.h:158-226). -/
def iterNext (n : Nat) (upper : Int) (m : IntMap V) (adm : IterAdm V) : Option (Option (Int × V) × IntMap V × IterAdm V) :=
  match m.vals, adm with
  | .single v, .seen false => some (v.map fun v => (m.maxKey, v), m, .seen true)
  | .array a, .current i =>
    let r := iterArr (upper + 1 - i).toNat i a
    some (r.1, { m with vals := .array r.2.1 }, .current r.2.2)
  | .tree _, .stack s => (iterTree upper n s).map fun r => (r.1, m, .stack r.2)
  | _, adm => some (none, m, adm)

/-- Calling `IntMapIterNext` until it returns the null pointer. -/
def iterAll (n : Nat) (upper : Int) : Nat → IntMap V → IterAdm V → Option (List (Int × V) × IntMap V)
  | 0, _, _ => none
  | k + 1, m, adm =>
    match iterNext n upper m adm with
    | none => none
    | some (none, m, _) => some ([], m)
    | some (some e, m, adm) => (iterAll n upper k m adm).map fun r => (e :: r.1, r.2)

end IntMap
end Verif
