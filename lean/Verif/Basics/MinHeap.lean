import Mathlib.Data.Multiset.Range

/-!
# Binary min-heaps

Model of BASICS/clb_min_heap.c.  The array is a function and a size (entries from `size` on are free storage); elements are
pointers or integers; `lt a b` is `cmp(a,b) < 0`.  The setter writes into the elements; `pos` holds what it has written.  A heap
allocated without a setter has the same array, as `pos` is never read.
-/

namespace Verif

/-- `MinHeapCell` (BASICS/clb_min_heap.h:32-37). -/
structure Heap (E : Type) where
  arr : Nat → E
  size : Nat
  pos : E → Int

namespace Heap
variable {E : Type} [DecidableEq E]

/-- CALL_SETTER (BASICS/clb_min_heap.c:37). -/
def setPos (h : Heap E) (e : E) (i : Int) : Heap E := { h with pos := fun x => if x = e then i else h.pos x }

/-- `*PStackElementRef(h->arr, i) = e`. -/
def put (h : Heap E) (i : Nat) (e : E) : Heap E := { h with arr := fun j => if j = i then e else h.arr j }

/-- PARENT (BASICS/clb_min_heap.c:38). -/
def parent (i : Nat) : Nat := (i - 1) / 2

/-- The exchange of child and parent with the setter calls (BASICS/clb_min_heap.c:66-68, 117-119): the setter is called for the
element at `i` first. -/
def swap (h : Heap E) (i j : Nat) : Heap E :=
  let a := h.arr i
  let b := h.arr j
  (((h.setPos a j).setPos b i).put i b).put j a

/-- `bubble_up` (BASICS/clb_min_heap.c:57-77). -/
def bubbleUp (lt : E → E → Bool) (h : Heap E) (i : Nat) : Heap E :=
  if i = 0 then h
  else if lt (h.arr i) (h.arr (parent i)) then bubbleUp lt (h.swap i (parent i)) (parent i)
  else h
termination_by i
decreasing_by unfold parent; omega

/-- The choice of `min_c_idx` (BASICS/clb_min_heap.c:97-110). -/
def minChild (lt : E → E → Bool) (h : Heap E) (i : Nat) : Nat :=
  let m := if lt (h.arr (2 * i + 1)) (h.arr i) then 2 * i + 1 else i
  if 2 * i + 2 < h.size ∧ lt (h.arr (2 * i + 2)) (h.arr m) then 2 * i + 2 else m

omit [DecidableEq E] in
theorem minChild_cases (lt : E → E → Bool) (h : Heap E) (i : Nat) :
    minChild lt h i = i ∨ minChild lt h i = 2 * i + 1 ∨ (minChild lt h i = 2 * i + 2 ∧ 2 * i + 2 < h.size) := by
  unfold minChild
  simp only
  split_ifs <;> simp_all

/-- `drop_down` (BASICS/clb_min_heap.c:92-128). -/
def dropDown (lt : E → E → Bool) (h : Heap E) (i : Nat) : Heap E :=
  if 2 * i + 1 ≥ h.size then h
  else if minChild lt h i = i then h
  else dropDown lt (h.swap i (minChild lt h i)) (minChild lt h i)
termination_by h.size - i
decreasing_by
  have := minChild_cases lt h i
  show (h.swap i (minChild lt h i)).size - minChild lt h i < h.size - i
  have hs : (h.swap i (minChild lt h i)).size = h.size := rfl
  rw [hs]
  omega

/-- `add`, `MinHeapAddP`, `MinHeapAddInt` (BASICS/clb_min_heap.c:143-148, 207-231). -/
def add (lt : E → E → Bool) (h : Heap E) (e : E) : Heap E :=
  bubbleUp lt (({ h with size := h.size + 1 }.put h.size e).setPos e h.size) h.size

/-- `MinHeapPopMin` (BASICS/clb_min_heap.c:245-265); `none` is the error exit for an empty heap. -/
def popMin (lt : E → E → Bool) (h : Heap E) : Option (E × Heap E) :=
  if h.size = 0 then none
  else
    let ret := h.arr 0
    let last := h.arr (h.size - 1)
    let h1 := { h with size := h.size - 1 }
    let h2 := if h1.size ≠ 0 then dropDown lt ((h1.put 0 last).setPos last 0) 0 else h1
    some (ret, h2.setPos ret (-1))

/-- `MinHeapDecrKey` (BASICS/clb_min_heap.c:279-282). -/
def decrKey (lt : E → E → Bool) (h : Heap E) (i : Nat) : Heap E := dropDown lt h i

/-- `MinHeapIncrKey` (BASICS/clb_min_heap.c:296-299). -/
def incrKey (lt : E → E → Bool) (h : Heap E) (i : Nat) : Heap E := bubbleUp lt h i

/-- `MinHeapUpdateElement` (BASICS/clb_min_heap.c:363-379). -/
def updateElement (lt : E → E → Bool) (h : Heap E) (i : Int) : Heap E :=
  if i ≥ 0 then
    if i.toNat ≠ 0 ∧ lt (h.arr i.toNat) (h.arr (parent i.toNat)) then bubbleUp lt h i.toNat
    else dropDown lt h i.toNat
  else h

/-- `MinHeapRemoveElement` (BASICS/clb_min_heap.c:393-404); the assertion is a hypothesis of the theorems. -/
def removeElement (lt : E → E → Bool) (h : Heap E) (i : Nat) : Heap E :=
  let h1 := h.setPos (h.arr i) (-1)
  let last := h1.arr (h1.size - 1)
  let h2 := { h1 with size := h1.size - 1 }
  if i ≠ h2.size then updateElement lt ((h2.setPos last i).put i last) i
  else h2

/-- The contents as a multiset. -/
def elems (h : Heap E) : Multiset E := (Multiset.range h.size).map h.arr

end Heap
end Verif
