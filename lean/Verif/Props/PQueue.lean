import Verif.Basics.PQueueProof

/-!
# C72: queues

A queue returns the elements put into it in the right order, however it has been used before and however often it has grown.
-/

namespace Verif.Props
open Verif.PQueue

variable {α : Type}

/-- What a run of operations should do: the elements returned and the elements left, first one first.  `none`: an element is taken from the empty
queue. -/
def dequeRun : List (Op α) → List α → Option (List α × List α)
  | [], l => some ([], l)
  | .store v :: ops, l => dequeRun ops (l ++ [v])
  | .bury v :: ops, l => dequeRun ops (v :: l)
  | .getNext :: _, [] => none
  | .getNext :: ops, v :: l => (dequeRun ops l).map fun x => (v :: x.1, x.2)
  | .getLast :: ops, l =>
    match l.getLast? with
    | none => none
    | some v => (dequeRun ops l.dropLast).map fun x => (v :: x.1, x.2)
  | .reset :: ops, _ => dequeRun ops []

theorem pqueue_run_from (m : Nat → α) : ∀ (ops : List (Op α)) (q : PQ α), q.OK →
    (run m ops q).map (fun x => (x.1, contents x.2)) = dequeRun ops (contents q) ∧ ∀ x, run m ops q = some x → x.2.OK
  | [], q, h => ⟨rfl, fun x hx => by simp only [run, Option.some.injEq] at hx; subst hx; exact h⟩
  | .store v :: ops, q, h => by
    obtain ⟨h1, h2⟩ := store_spec m h v
    have ih := pqueue_run_from m ops _ h1
    rw [h2] at ih
    exact ih
  | .bury v :: ops, q, h => by
    obtain ⟨h1, h2⟩ := bury_spec m h v
    have ih := pqueue_run_from m ops _ h1
    rw [h2] at ih
    exact ih
  | .getNext :: ops, q, h => by
    rw [run]
    cases he : isEmpty q with
    | true => simp [(isEmpty_iff h).1 he, dequeRun]
    | false =>
      obtain ⟨h1, h2⟩ := getNext_spec h he
      obtain ⟨i1, i2⟩ := pqueue_run_from m ops _ h1
      rw [h2, dequeRun, ← i1]
      constructor
      · simp [Option.map_map, Function.comp_def]
      · intro x hx
        simp only [Bool.false_eq_true, if_false, Option.map_eq_some_iff] at hx
        obtain ⟨y, hy, rfl⟩ := hx
        exact i2 y hy
  | .getLast :: ops, q, h => by
    rw [run]
    cases he : isEmpty q with
    | true => simp [(isEmpty_iff h).1 he, dequeRun]
    | false =>
      obtain ⟨h1, h2⟩ := getLast_spec h he
      obtain ⟨i1, i2⟩ := pqueue_run_from m ops _ h1
      rw [h2, dequeRun]
      simp only [List.getLast?_concat, List.dropLast_concat]
      rw [← i1]
      constructor
      · simp [Option.map_map, Function.comp_def]
      · intro x hx
        simp only [Bool.false_eq_true, if_false, Option.map_eq_some_iff] at hx
        obtain ⟨y, hy, rfl⟩ := hx
        exact i2 y hy
  | .reset :: ops, q, h => by
    obtain ⟨h1, h2⟩ := reset_spec h
    have ih := pqueue_run_from m ops _ h1
    rw [h2] at ih
    exact ih

/-- **C72, order**: any run of operations on a fresh queue returns what a list would return, takes an element from the empty queue exactly if the
list would, and leaves the elements the list has left. -/
theorem pqueue_run (m m' : Nat → α) (ops : List (Op α)) :
    (run m ops (alloc m')).map (fun x => (x.1, contents x.2)) = dequeRun ops [] :=
  (pqueue_run_from m ops (alloc m') (alloc_ok m')).1

/-- **C72, observers**: after any run of operations on a fresh queue, the number of elements, the test for emptiness, a look at the first and the
last element, and the loop over the elements say what a list says. -/
theorem pqueue_observers (m m' : Nat → α) (ops : List (Op α)) {out l : List α} (h : dequeRun ops [] = some (out, l)) :
    ∃ q, run m ops (alloc m') = some (out, q) ∧ card q = l.length ∧ isEmpty q = l.isEmpty ∧
      (∀ v, l.head? = some v → look q = v) ∧ (∀ v, l.getLast? = some v → lookLast q = v) ∧
      ∀ n, l.length ≤ n → visit q n (tailIndex q) = some l := by
  obtain ⟨h1, h2⟩ := pqueue_run_from m ops (alloc m') (alloc_ok m')
  have hc : contents (alloc m') = [] := rfl
  rw [hc, h] at h1
  simp only [Option.map_eq_some_iff, Prod.mk.injEq] at h1
  obtain ⟨⟨o', q⟩, hr, rfl, rfl⟩ := h1
  have hok := h2 _ hr
  simp only at hok
  have hem : isEmpty q = (contents q).isEmpty := by
    cases he : isEmpty q with
    | true => simp [(isEmpty_iff hok).1 he]
    | false =>
      symm
      rw [Bool.eq_false_iff]
      intro hc
      have := (isEmpty_iff hok).2 (List.isEmpty_iff.1 hc)
      rw [he] at this
      cases this
  refine ⟨q, hr, (contents_length q).symm, hem, ?_, ?_, ?_⟩
  · intro v hv
    cases he : isEmpty q with
    | true => rw [(isEmpty_iff hok).1 he] at hv; simp at hv
    | false => rw [look_spec hok he] at hv; simpa using hv
  · intro v hv
    cases he : isEmpty q with
    | true => rw [(isEmpty_iff hok).1 he] at hv; simp at hv
    | false => rw [lookLast_spec hok he] at hv; simpa using hv
  · intro n hn
    have hn : card q ≤ n := by rw [card_eq, ← contents_length]; exact hn
    unfold tailIndex
    cases he : isEmpty q with
    | true =>
      rw [(isEmpty_iff hok).1 he]
      cases n <;> rfl
    | false =>
      have hpos : 0 < card q := by
        rw [card_eq, ← contents_length, List.length_pos_iff]
        intro hc
        have := (isEmpty_iff hok).2 hc
        rw [he] at this
        cases this
      have h0 : off q.size q.tail 0 = q.tail := by
        have := hok.2
        have := off_cases q.size q.tail 0
        omega
      have := visit_from hok n 0 hpos (by omega)
      rw [h0] at this
      simpa using this

/-- A queue that wraps around and grows: 130 elements after two have been taken out, one put in front. -/
example : (run (fun _ => 0) (List.replicate 2 (.store 7) ++ [.getNext, .getNext] ++ (List.range 130).map .store ++ [.bury 500, .getNext, .getNext,
    .getLast, .getLast]) (alloc fun _ => 0)).map (fun x => (x.1, x.2.size, card x.2)) = some ([7, 7, 500, 0, 129, 128], 256, 127) := by
  decide +kernel
example : dequeRun [.store 1, .bury 2, .store 3, .getLast, .getNext, .reset, .getNext] [] = none := rfl

end Verif.Props
