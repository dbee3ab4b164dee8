import Verif.Basics.PQueue

/-!
# Double-ended queues: lemmas
-/

namespace Verif.PQueue

variable {α : Type}

/-- Head and tail are cells of the memory. -/
def PQ.OK (q : PQ α) : Prop := q.head < q.size ∧ q.tail < q.size

/-- Number of elements between tail and head. -/
def cnt (size head tail : Nat) : Nat :=
  if head ≥ tail then head - tail else head + (size - tail)

/-- The `i`-th cell from the tail. -/
def off (size tail i : Nat) : Nat := if tail + i < size then tail + i else tail + i - size

theorem cnt_cases (size head tail : Nat) :
    (tail ≤ head ∧ cnt size head tail = head - tail) ∨
    (head < tail ∧ cnt size head tail = head + (size - tail)) := by
  unfold cnt; split <;> omega

theorem off_cases (size tail i : Nat) :
    (tail + i < size ∧ off size tail i = tail + i) ∨
    (size ≤ tail + i ∧ off size tail i = tail + i - size) := by
  unfold off; split <;> omega

theorem fwd_cases (size i : Nat) :
    (i + 1 = size ∧ fwd size i = 0) ∨ (i + 1 ≠ size ∧ fwd size i = i + 1) := by
  unfold fwd; split <;> omega

theorem back_cases (size i : Nat) :
    (i = 0 ∧ back size i = size - 1) ∨ (i ≠ 0 ∧ back size i = i - 1) := by
  unfold back; split <;> omega

/-- The elements in the order in which `PQueueGetNext` returns them. -/
def contents (q : PQ α) : List α :=
  (List.range (cnt q.size q.head q.tail)).map fun i => q.mem (off q.size q.tail i)

theorem alloc_ok (m : Nat → α) : (alloc m).OK := by
  constructor <;> (show 0 < 128; omega)

theorem card_eq (q : PQ α) : card q = cnt q.size q.head q.tail := rfl

theorem contents_eq {q : PQ α} {l : List α} (hl : cnt q.size q.head q.tail = l.length)
    (he : ∀ i (h : i < l.length), q.mem (off q.size q.tail i) = l[i]) : contents q = l := by
  apply List.ext_getElem
  · simp [contents, hl]
  · intro i h1 h2
    simp only [contents, List.getElem_map, List.getElem_range]
    exact he i h2

theorem contents_length (q : PQ α) : (contents q).length = cnt q.size q.head q.tail := by
  simp [contents]

theorem contents_get {q : PQ α} {i : Nat} (h : i < (contents q).length) :
    (contents q)[i] = q.mem (off q.size q.tail i) := by simp [contents]

/-- Growing a full queue: it holds `size` elements from the tail on. -/
theorem grow_spec (m : Nat → α) {q : PQ α} (h : q.OK) (hf : q.head = q.tail) :
    (grow m q).OK ∧
      contents (grow m q) = (List.range q.size).map fun i => q.mem (off q.size q.tail i) := by
  obtain ⟨size, head, tail, mem⟩ := q
  obtain ⟨h1, h2⟩ := h
  simp only at h1 h2 hf
  subst hf
  refine ⟨⟨?_, ?_⟩, ?_⟩
  · show head < size * 2; omega
  · show head + size < size * 2; omega
  · apply contents_eq
    · show cnt (size * 2) head (head + size) = _
      have := cnt_cases (size * 2) head (head + size)
      simp only [List.length_map, List.length_range]
      omega
    · intro i hi
      simp only [List.length_map, List.length_range] at hi
      simp only [List.getElem_map, List.getElem_range]
      show (if off (size * 2) (head + size) i < head then mem (off (size * 2) (head + size) i)
        else if head + size ≤ off (size * 2) (head + size) i ∧
          off (size * 2) (head + size) i < size + size then
          mem (off (size * 2) (head + size) i - size) else m (off (size * 2) (head + size) i)) = _
      have c1 := off_cases (size * 2) (head + size) i
      have c2 := off_cases size head i
      generalize off (size * 2) (head + size) i = x at c1 ⊢
      generalize off size head i = y at c2 ⊢
      by_cases hc : x < head
      · rw [if_pos hc]; congr 1; omega
      · rw [if_neg hc, if_pos (by omega)]; congr 1; omega

/-- Adding an element at index `j` of the contents, given by what happens to the indices. -/
theorem add_spec (m : Nat → α) {size head tail head' tail' : Nat} {mem mem' : Nat → α} {l : List α}
    (h1 : head' < size) (h2 : tail' < size) (hl : l.length = if head' = tail' then size else
      cnt size head' tail')
    (he : ∀ i (h : i < l.length), mem' (off size tail' i) = l[i]) :
    (if head' = tail' then grow m ⟨size, head', tail', mem'⟩ else ⟨size, head', tail', mem'⟩ :
      PQ α).OK ∧
    contents (if head' = tail' then grow m ⟨size, head', tail', mem'⟩ else
      ⟨size, head', tail', mem'⟩ : PQ α) = l := by
  by_cases hf : head' = tail'
  · rw [if_pos hf] at hl ⊢
    obtain ⟨g1, g2⟩ := grow_spec m (q := ⟨size, head', tail', mem'⟩) ⟨h1, h2⟩ hf
    refine ⟨g1, ?_⟩
    rw [g2]
    apply List.ext_getElem
    · simpa using hl.symm
    · intro i hi1 hi2
      simp only [List.getElem_map, List.getElem_range]
      exact he i hi2
  · rw [if_neg hf] at hl ⊢
    exact ⟨⟨h1, h2⟩, contents_eq hl.symm he⟩

theorem store_spec (m : Nat → α) {q : PQ α} (h : q.OK) (v : α) :
    (store m q v).OK ∧ contents (store m q v) = contents q ++ [v] := by
  obtain ⟨size, head, tail, mem⟩ := q
  obtain ⟨h1, h2⟩ := h
  simp only at h1 h2
  have c1 := fwd_cases size head
  have c2 := cnt_cases size head tail
  refine add_spec m (size := size) (head' := fwd size head) (tail' := tail) (mem := mem) (head := head)
    (tail := tail) (by omega) h2 ?_ ?_
  · rw [List.length_append, contents_length]
    show cnt size head tail + 1 = _
    have c3 := cnt_cases size (fwd size head) tail
    generalize fwd size head = x at *
    split <;> omega
  · intro i hi
    rw [List.length_append, contents_length] at hi
    simp only [List.length_singleton] at hi
    rw [List.getElem_append]
    have c3 := off_cases size tail i
    split
    · rename_i hlt
      rw [contents_get]
      rw [contents_length] at hlt
      simp only at hlt
      show (if off size tail i = head then v else mem (off size tail i)) = _
      rw [if_neg (by omega)]
    · rename_i hge
      rw [contents_length] at hge
      simp only at hge
      show (if off size tail i = head then v else mem (off size tail i)) = _
      rw [if_pos (by omega)]
      simp

theorem bury_spec (m : Nat → α) {q : PQ α} (h : q.OK) (v : α) :
    (bury m q v).OK ∧ contents (bury m q v) = v :: contents q := by
  obtain ⟨size, head, tail, mem⟩ := q
  obtain ⟨h1, h2⟩ := h
  simp only at h1 h2
  have c1 := back_cases size tail
  have c2 := cnt_cases size head tail
  refine add_spec m (size := size) (head' := head) (tail' := back size tail) (mem := mem) (head := head)
    (tail := tail) h1 (by omega) ?_ ?_
  · rw [List.length_cons, contents_length]
    show cnt size head tail + 1 = _
    have c3 := cnt_cases size head (back size tail)
    generalize back size tail = x at *
    split <;> omega
  · intro i hi
    rw [List.length_cons, contents_length] at hi
    simp only at hi
    have c3 := off_cases size (back size tail) i
    show (if off size (back size tail) i = back size tail then v else
      mem (off size (back size tail) i)) = _
    cases i with
    | zero =>
      rw [if_pos (by omega)]; rfl
    | succ i =>
      rw [List.getElem_cons_succ, contents_get]
      have c4 := off_cases size tail i
      rw [if_neg (by omega)]
      show mem _ = mem _
      congr 1
      show _ = off size tail i
      omega

theorem isEmpty_iff {q : PQ α} (h : q.OK) : isEmpty q = true ↔ contents q = [] := by
  obtain ⟨h1, h2⟩ := h
  rw [← List.length_eq_zero_iff, contents_length]
  simp only [isEmpty, beq_iff_eq]
  have := cnt_cases q.size q.head q.tail
  omega

theorem getNext_spec {q : PQ α} (h : q.OK) (he : isEmpty q = false) :
    (getNext q).2.OK ∧ contents q = (getNext q).1 :: contents (getNext q).2 := by
  have hne : q.head ≠ q.tail := by simpa [isEmpty] using he
  obtain ⟨size, head, tail, mem⟩ := q
  obtain ⟨h1, h2⟩ := h
  simp only at h1 h2 hne
  have c1 := fwd_cases size tail
  have c2 := cnt_cases size head tail
  have c3 := cnt_cases size head (fwd size tail)
  refine ⟨⟨h1, ?_⟩, ?_⟩
  · show fwd size tail < size; omega
  · apply contents_eq
    · rw [List.length_cons, contents_length]
      show cnt size head tail = cnt size head (fwd size tail) + 1
      omega
    · intro i hi
      rw [List.length_cons, contents_length] at hi
      have hi : i < cnt size head (fwd size tail) + 1 := hi
      have c4 := off_cases size tail i
      show mem (off size tail i) = _
      cases i with
      | zero =>
        show _ = mem tail
        congr 1; omega
      | succ i =>
        rw [List.getElem_cons_succ, contents_get]
        have c5 := off_cases size (fwd size tail) i
        show _ = mem (off size (fwd size tail) i)
        congr 1; omega

theorem getLast_spec {q : PQ α} (h : q.OK) (he : isEmpty q = false) :
    (getLast q).2.OK ∧ contents q = contents (getLast q).2 ++ [(getLast q).1] := by
  have hne : q.head ≠ q.tail := by simpa [isEmpty] using he
  obtain ⟨size, head, tail, mem⟩ := q
  obtain ⟨h1, h2⟩ := h
  simp only at h1 h2 hne
  have c1 := back_cases size head
  have c2 := cnt_cases size head tail
  have c3 := cnt_cases size (back size head) tail
  refine ⟨⟨?_, h2⟩, ?_⟩
  · show back size head < size; omega
  · apply contents_eq
    · rw [List.length_append, contents_length]
      show cnt size head tail = cnt size (back size head) tail + 1
      omega
    · intro i hi
      rw [List.length_append, contents_length] at hi
      have hi : i < cnt size (back size head) tail + 1 := hi
      have c4 := off_cases size tail i
      show mem (off size tail i) = _
      rw [List.getElem_append]
      split
      · rw [contents_get]; rfl
      · rename_i hge
        rw [contents_length] at hge
        have hge : ¬ i < cnt size (back size head) tail := hge
        have e : off size tail i = back size head := by omega
        rw [e]
        simp [getLast]

theorem look_spec {q : PQ α} (h : q.OK) (he : isEmpty q = false) :
    (contents q).head? = some (look q) := by
  rw [(getNext_spec h he).2]; rfl

theorem lookLast_spec {q : PQ α} (h : q.OK) (he : isEmpty q = false) :
    (contents q).getLast? = some (lookLast q) := by
  rw [(getLast_spec h he).2]; simp [getLast, lookLast]

theorem reset_spec {q : PQ α} (h : q.OK) : (reset q).OK ∧ contents (reset q) = [] := by
  refine ⟨⟨?_, ?_⟩, ?_⟩
  · exact Nat.lt_of_le_of_lt (Nat.zero_le _) h.1
  · exact Nat.lt_of_le_of_lt (Nat.zero_le _) h.1
  · simp [contents, cnt, reset]

theorem visit_from {q : PQ α} (h : q.OK) : ∀ (n i : Nat), i < card q → card q ≤ i + n →
    visit q n (some (off q.size q.tail i)) = some ((contents q).drop i)
  | 0, i, hi, hn => by omega
  | n + 1, i, hi, hn => by
    obtain ⟨h1, h2⟩ := h
    rw [card_eq] at hi hn
    have c1 := off_cases q.size q.tail i
    have c2 := off_cases q.size q.tail (i + 1)
    have c3 := cnt_cases q.size q.head q.tail
    have hmod : (off q.size q.tail i + 1) % q.size = off q.size q.tail (i + 1) := by
      rcases c1 with ⟨c1, e1⟩ | ⟨c1, e1⟩
      · rcases c2 with ⟨c2, e2⟩ | ⟨c2, e2⟩
        · rw [Nat.mod_eq_of_lt (by omega)]; omega
        · have : off q.size q.tail i + 1 = q.size := by omega
          rw [this, Nat.mod_self]; omega
      · rw [Nat.mod_eq_of_lt (by omega)]; omega
    have hinc : incIndex q (off q.size q.tail i) =
        if i + 1 = card q then none else some (off q.size q.tail (i + 1)) := by
      unfold incIndex
      simp only []
      rw [hmod, card_eq]
      by_cases hd : i + 1 = cnt q.size q.head q.tail
      · rw [if_pos (by omega), if_pos hd]
      · rw [if_neg (by omega), if_neg hd]
    rw [visit, hinc]
    have hil : i < (contents q).length := by rw [contents_length]; exact hi
    rw [List.drop_eq_getElem_cons hil, contents_get]
    by_cases hd : i + 1 = card q
    · rw [if_pos hd]
      have : (contents q).drop (i + 1) = [] := by
        rw [List.drop_eq_nil_iff, contents_length, ← card_eq]; omega
      rw [this]
      cases n <;> rfl
    · rw [if_neg hd]
      rw [card_eq] at hd
      rw [visit_from ⟨h1, h2⟩ n (i + 1) (by rw [card_eq]; omega) (by rw [card_eq]; omega)]
      rfl

end Verif.PQueue
