/-!
# Double-ended queues

Model of `PQueue` (BASICS/clb_pqueue.h, clb_pqueue.c), a ring buffer that doubles its memory when it
is full.  The allocated memory is a function from indices; cells that were never written hold the
value the memory was given.  Sizes do not overflow.
-/

namespace Verif.PQueue

/-- `PQueueCell`, clb_pqueue.h:40-46. -/
structure PQ (α : Type) where
  size : Nat
  head : Nat
  tail : Nat
  mem : Nat → α

variable {α : Type}

/-- Writing a cell. -/
def set (m : Nat → α) (i : Nat) (v : α) : Nat → α := fun j => if j = i then v else m j

/-- `PQueueAlloc`, clb_pqueue.h:160-170 (`PQUEUE_DEFAULT_SIZE` is 128). -/
def alloc (m : Nat → α) : PQ α := ⟨128, 0, 0, m⟩

/-- `PQueueEmpty`, clb_pqueue.h:60. -/
def isEmpty (q : PQ α) : Bool := q.head == q.tail

/-- `PQueueGrow`, clb_pqueue.c:59-79; `m` is the new memory as it was allocated. -/
def grow (m : Nat → α) (q : PQ α) : PQ α :=
  { size := q.size * 2
    head := q.head
    tail := q.tail + q.size
    mem := fun i =>
      if i < q.head then q.mem i
      else if q.head + q.size ≤ i ∧ i < q.size + q.size then q.mem (i - q.size) else m i }

/-- An index moved forward, with wrap-around: `head++; if(head == size) head = 0`. -/
def fwd (size i : Nat) : Nat := if i + 1 = size then 0 else i + 1

/-- An index moved back, with wrap-around: `i ? i-1 : size-1`. -/
def back (size i : Nat) : Nat := if i ≠ 0 then i - 1 else size - 1

/-- `pqueue_store`, clb_pqueue.h:107-120. -/
def store (m : Nat → α) (q : PQ α) (v : α) : PQ α :=
  let head := fwd q.size q.head
  let q' := { q with mem := set q.mem q.head v, head := head }
  if head = q.tail then grow m q' else q'

/-- `pqueue_bury`, clb_pqueue.h:136-145. -/
def bury (m : Nat → α) (q : PQ α) (v : α) : PQ α :=
  let tail := back q.size q.tail
  let q' := { q with mem := set q.mem tail v, tail := tail }
  if q.head = tail then grow m q' else q'

/-- `PQueueGetNext`, clb_pqueue.h:303-318. -/
def getNext (q : PQ α) : α × PQ α :=
  (q.mem q.tail, { q with tail := fwd q.size q.tail })

/-- `PQueueGetLast`, clb_pqueue.h:333-343. -/
def getLast (q : PQ α) : α × PQ α :=
  let head := back q.size q.head
  (q.mem head, { q with head := head })

/-- `PQueueLook`, clb_pqueue.h:359-364. -/
def look (q : PQ α) : α := q.mem q.tail

/-- `PQueueLookLast`, clb_pqueue.h:381-392. -/
def lookLast (q : PQ α) : α := q.mem (back q.size q.head)

/-- `PQueueReset`, clb_pqueue.h:203-207. -/
def reset (q : PQ α) : PQ α := { q with head := 0, tail := 0 }

/-- `PQueueCardinality`, clb_pqueue.c:94-106. -/
def card (q : PQ α) : Nat :=
  if q.head ≥ q.tail then q.head - q.tail else q.head + (q.size - q.tail)

/-- `PQueueTailIndex`, clb_pqueue.c:140-147 (`none` for -1). -/
def tailIndex (q : PQ α) : Option Nat := if isEmpty q then none else some q.tail

/-- `PQueueIncIndex`, clb_pqueue.c:162-170. -/
def incIndex (q : PQ α) (i : Nat) : Option Nat :=
  let i := (i + 1) % q.size
  if i = q.head then none else some i

/-- The loop callers use to visit the elements without removing them:
`for(i=PQueueTailIndex(q); i!=-1; i=PQueueIncIndex(q,i)) … PQueueElement(q,i)`
(CONTROL/cco_eserver.c:191-193); `fuel` bounds the number of turns. -/
def visit (q : PQ α) : Nat → Option Nat → Option (List α)
  | _, none => some []
  | 0, some _ => none
  | n + 1, some i => (visit q n (incIndex q i)).map (q.mem i :: ·)

/-- Operations that change a queue. -/
inductive Op (α : Type) where
  | store (v : α)
  | bury (v : α)
  | getNext
  | getLast
  | reset

/-- A run of operations with the elements they return; `none` if an element is taken from an empty
queue (an assertion violation in the code). `m` is what newly allocated memory contains. -/
def run (m : Nat → α) : List (Op α) → PQ α → Option (List α × PQ α)
  | [], q => some ([], q)
  | .store v :: ops, q => run m ops (store m q v)
  | .bury v :: ops, q => run m ops (bury m q v)
  | .getNext :: ops, q =>
    if isEmpty q then none
    else (run m ops (getNext q).2).map (fun x => ((getNext q).1 :: x.1, x.2))
  | .getLast :: ops, q =>
    if isEmpty q then none
    else (run m ops (getLast q).2).map (fun x => ((getLast q).1 :: x.1, x.2))
  | .reset :: ops, q => run m ops (reset q)

end Verif.PQueue
