import Verif.Control.ScheduleProof

/-!
# Lemmas about filtering and executing schedules
-/

namespace Verif.SchedProof
open Verif Verif.Sched

/-! ## Filtering -/

theorem filter_go (exh : Nat → Bool) (d : List Strat) : ∀ (n i k : Nat) (l : List Strat), i + n = d.length → l.length = d.length → k ≤ i →
    l.take k = (d.take i).filter (fun s => !exh s.name) → l.drop i = d.drop i →
    (filterGo exh n i k l).2.take (filterGo exh n i k l).1 = d.filter (fun s => !exh s.name) ∧
    (filterGo exh n i k l).1 = (d.filter (fun s => !exh s.name)).length := by
  intro n
  induction n with
  | zero =>
    intro i k l hi hl hk ht hd
    have hi : i = d.length := by omega
    subst hi
    rw [List.take_length] at ht
    refine ⟨ht, ?_⟩
    rw [← ht]
    simp only [filterGo, List.length_take]
    omega
  | succ n ih =>
    intro i k l hi hl hk ht hd
    have hil : i < l.length := by omega
    have hid : i < d.length := by omega
    have hx : l[i] = d[i] := by
      have := congrArg (·[0]?) hd
      simp [List.getElem?_drop] at this
      rwa [List.getElem?_eq_getElem hil, List.getElem?_eq_getElem hid, Option.some.injEq] at this
    have hd' : l.drop (i + 1) = d.drop (i + 1) := by
      have := congrArg (List.drop 1) hd
      rwa [List.drop_drop, List.drop_drop] at this
    have hts : d.take (i + 1) = d.take i ++ [d[i]] := by rw [List.take_succ_eq_append_getElem]
    rw [filterGo, List.getElem?_eq_getElem hil]
    dsimp only
    by_cases he : exh l[i].name
    · rw [if_pos he]
      refine ih (i + 1) k l (by omega) hl (by omega) ?_ hd'
      rw [hts, List.filter_append, ← ht, ← hx]
      simp [he]
    · rw [if_neg he]
      have hkl : k < l.length := by omega
      have hsw : swap l k i = (l.set k l[i]).set i l[k] := by
        unfold swap
        rw [List.getElem?_eq_getElem hkl, List.getElem?_eq_getElem hil]
      refine ih (i + 1) (k + 1) _ (by omega) (by rw [hsw]; simpa using hl) (by omega) ?_ ?_
      · rw [hts, List.filter_append, ← ht, ← hx, hsw]
        have : List.filter (fun s => !exh s.name) [l[i]] = [l[i]] := by simp [he]
        rw [this]
        apply List.ext_getElem?
        intro j
        rcases Nat.lt_trichotomy j k with h | h | h
        · rw [List.getElem?_take_of_lt (by omega), List.getElem?_set_ne (by omega), List.getElem?_set_ne (by omega),
            List.getElem?_append_left (by simp; omega), List.getElem?_take_of_lt h]
        · subst h
          rw [List.getElem?_take_of_lt (by omega), List.getElem?_append_right (by simp)]
          by_cases h' : i = j
          · subst h'
            simp [hil, Nat.min_eq_left (Nat.le_of_lt hil)]
          · rw [List.getElem?_set_ne h']
            simp [hkl, Nat.min_eq_left (Nat.le_of_lt hkl)]
        · rw [List.getElem?_eq_none (by simp; omega), List.getElem?_eq_none (by simp; omega)]
      · rw [hsw, List.drop_set_of_lt (by omega), List.drop_set_of_lt (by omega), hd']

/-! ## Execution -/

/-- What holds of the parent's state. -/
structure EInv (l : List Strat) (max : Int) (s : ExecSt) : Prop where
  next : s.next ≤ l.length
  nodup : s.running.Nodup
  started : ∀ i ∈ s.running, i < s.next
  reserved : s.reserved = (s.running.map (coresAt l)).sum
  le : s.reserved ≤ max

theorem einv_init (l : List Strat) {max : Int} (h : 0 ≤ max) : EInv l max ⟨0, [], 0⟩ :=
  ⟨by simp, by simp, by simp, by simp, h⟩

theorem start_inv (l : List Strat) (max : Int) : ∀ (n : Nat) (s : ExecSt), EInv l max s → EInv l max (startAll l max n s) := by
  intro n
  induction n with
  | zero => intro s h; exact h
  | succ n ih =>
    intro s h
    rw [startAll]
    split
    · exact h
    · next x hx =>
      have hlt : s.next < l.length := by
        by_contra hc
        rw [List.getElem?_eq_none (by omega)] at hx
        cases hx
      split
      · next hc =>
        refine ih _ ⟨hlt, ?_, ?_, ?_, by simp; omega⟩
        · exact List.nodup_cons.2 ⟨fun hm => Nat.lt_irrefl _ (h.started _ hm), h.nodup⟩
        · intro i hi
          rcases List.mem_cons.1 hi with rfl | hi
          · simp
          · have := h.started i hi
            simp
            omega
        · simp [h.reserved, coresAt, hx]
          omega
      · exact h

/-- Strategies are started in order and none is skipped. -/
theorem start_running (l : List Strat) (max : Int) : ∀ (n : Nat) (s : ExecSt),
    s.next ≤ (startAll l max n s).next ∧ ∀ i, i ∈ (startAll l max n s).running ↔ i ∈ s.running ∨ (s.next ≤ i ∧ i < (startAll l max n s).next) := by
  intro n
  induction n with
  | zero => intro s; simp [startAll]; try omega
  | succ n ih =>
    intro s
    rw [startAll]
    split
    · simp; try omega
    · split
      · next x hx hc =>
        obtain ⟨h1, h2⟩ := ih ⟨s.next + 1, s.next :: s.running, s.reserved + x.cores⟩
        dsimp only at h1 h2
        refine ⟨by omega, fun i => ?_⟩
        rw [h2 i, List.mem_cons]
        constructor
        · rintro ((rfl | h) | h)
          · right; omega
          · exact .inl h
          · right; omega
        · rintro (h | h)
          · exact .inl (.inr h)
          · by_cases e : i = s.next
            · exact .inl (.inl e)
            · right; omega
      · simp; try omega

/-- The loop stops only at the end of the schedule or if the cores do not suffice. -/
theorem start_stop (l : List Strat) (max : Int) : ∀ (n : Nat) (s : ExecSt), l.length ≤ s.next + n →
    ∀ x, l[(startAll l max n s).next]? = some x → max - (startAll l max n s).reserved < x.cores := by
  intro n
  induction n with
  | zero =>
    intro s h x hx
    rw [startAll, List.getElem?_eq_none (by omega)] at hx
    cases hx
  | succ n ih =>
    intro s h x hx
    rw [startAll] at hx ⊢
    split
    · next hn => rw [hn] at hx; simp only at hx; rw [hn] at hx; cases hx
    · next y hy =>
      rw [hy] at hx
      dsimp only at hx
      split
      · next hc =>
        rw [if_pos hc] at hx
        exact ih _ (by simp; omega) x hx
      · next hc =>
        rw [if_neg hc, hy] at hx
        cases hx
        omega

theorem poll_inv (l : List Strat) (max : Int) (hp : ∀ s ∈ l, 0 ≤ s.cores) : ∀ (ev : List (Nat × Bool)) (s : ExecSt), EInv l max s →
    EInv l max (poll l ev s).2 := by
  intro ev
  induction ev with
  | nil => intro s h; exact h
  | cons e r ih =>
    intro s h
    obtain ⟨i, ok⟩ := e
    rw [poll]
    split
    · next hm =>
      split
      · exact h
      · refine ih _ ⟨h.next, h.nodup.erase i, fun j hj => h.started j (List.mem_of_mem_erase hj), ?_, ?_⟩
        · have := (List.perm_cons_erase hm).map (coresAt l)
          have := this.sum_eq
          simp at this
          have := h.reserved
          simp
          omega
        · have : 0 ≤ coresAt l i := by
            have hi := h.started i hm
            have hn := h.next
            unfold coresAt
            rw [List.getElem?_eq_getElem (by omega)]
            exact hp _ (List.getElem_mem _)
          have := h.le
          simp
          omega
    · exact ih s h

theorem poll_next (l : List Strat) : ∀ (ev : List (Nat × Bool)) (s : ExecSt), (poll l ev s).2.next = s.next := by
  intro ev
  induction ev with
  | nil => intro s; rfl
  | cons e r ih =>
    intro s
    obtain ⟨i, ok⟩ := e
    rw [poll]
    split
    · split
      · rfl
      · exact ih _
    · exact ih s

/-- A result comes from a running process. -/
theorem poll_result (l : List Strat) : ∀ (ev : List (Nat × Bool)) (s : ExecSt) (i : Nat), (poll l ev s).1 = some i → i ∈ s.running ∧ (i, true) ∈ ev := by
  intro ev
  induction ev with
  | nil => intro s i h; simp [poll] at h
  | cons e r ih =>
    intro s i h
    obtain ⟨j, ok⟩ := e
    rw [poll] at h
    split at h
    · next hm =>
      split at h
      · next hok => cases h; subst hok; exact ⟨hm, by simp⟩
      · have := ih _ i h
        exact ⟨List.mem_of_mem_erase this.1, by simp [this.2]⟩
    · have := ih _ i h
      exact ⟨this.1, by simp [this.2]⟩

/-- A process that is no longer running has failed. -/
theorem poll_gone (l : List Strat) : ∀ (ev : List (Nat × Bool)) (s : ExecSt) (i : Nat), i ∈ s.running → i ∉ (poll l ev s).2.running → (i, false) ∈ ev := by
  intro ev
  induction ev with
  | nil => intro s i h h'; exact absurd h h'
  | cons e r ih =>
    intro s i h h'
    obtain ⟨j, ok⟩ := e
    rw [poll] at h'
    split at h'
    · next hm =>
      split at h'
      · exact absurd h h'
      · next hok =>
        by_cases hij : i = j
        · subst hij
          have : ok = false := by simpa using hok
          simp [this]
        · have := ih _ i ((List.mem_erase_of_ne hij).2 h) h'
          simp [this]
    · have := ih s i h h'
      simp [this]

/-- A success of a running process that did not fail before in the same round is found (or another one). -/
theorem poll_found (l : List Strat) : ∀ (ev : List (Nat × Bool)) (s : ExecSt) (i : Nat), i ∈ s.running → (i, true) ∈ ev → (i, false) ∉ ev →
    (poll l ev s).1 ≠ none := by
  intro ev
  induction ev with
  | nil => intro s i _ h; simp at h
  | cons e r ih =>
    intro s i h ht hf
    obtain ⟨j, ok⟩ := e
    rw [poll]
    have hf' : (i, false) ∉ r := fun hm => hf (by simp [hm])
    split
    · next hm =>
      split
      · simp
      · next hok =>
        have hij : i ≠ j := by
          rintro rfl
          apply hf
          have : ok = false := by simpa using hok
          simp [this]
        refine ih _ i ((List.mem_erase_of_ne hij).2 h) ?_ hf'
        rcases List.mem_cons.1 ht with h1 | h1
        · cases h1; exact absurd rfl hij
        · exact h1
    · next hm =>
      refine ih s i h ?_ hf'
      rcases List.mem_cons.1 ht with h1 | h1
      · cases h1; exact absurd h hm
      · exact h1

/-- What holds at the end, started from any state: strategies started before and no longer running have failed before. -/
theorem exec_spec (l : List Strat) (max : Int) (hp : ∀ s ∈ l, 0 ≤ s.cores) : ∀ (evs : List (List (Nat × Bool))) (s : ExecSt) (failed : Nat → Prop),
    EInv l max s → (∀ i, i < s.next → i ∉ s.running → failed i) →
    EInv l max (exec l max evs s).2 ∧
    (∀ i, (exec l max evs s).1 = some (.result i) → i < l.length ∧ (i, true) ∈ evs.flatten) ∧
    ((exec l max evs s).1 = some .exhausted → ∀ i, i < l.length → failed i ∨ (i, false) ∈ evs.flatten) := by
  intro evs
  induction evs with
  | nil => intro s failed h hf; simp [exec, h]
  | cons ev evs ih =>
    intro s failed h hf
    have h1 := start_inv l max l.length s h
    obtain ⟨hsn, hsr⟩ := start_running l max l.length s
    have h2 := poll_inv l max hp ev _ h1
    have hfail : ∀ i, i < (poll l ev (startAll l max l.length s)).2.next → i ∉ (poll l ev (startAll l max l.length s)).2.running → failed i ∨ (i, false) ∈ ev := by
      intro i hi hr
      rw [poll_next] at hi
      by_cases hm : i ∈ (startAll l max l.length s).running
      · exact .inr (poll_gone l ev _ i hm hr)
      · left
        rw [hsr] at hm
        push Not at hm
        exact hf i (by have := hm.2; omega) hm.1
    rw [exec]
    cases hq : (poll l ev (startAll l max l.length s)).1 with
    | some i =>
      refine ⟨h2, ?_, by simp⟩
      intro j hj
      simp only [Option.some.injEq, Outcome.result.injEq] at hj
      subst hj
      obtain ⟨ha, hb⟩ := poll_result l ev _ i hq
      have hx := h1.started i ha
      have hy := h1.next
      exact ⟨by omega, by simp [hb]⟩
    | none =>
      dsimp only
      split
      · next hc =>
        refine ⟨h2, by simp, fun _ i hi => ?_⟩
        have := hfail i (by omega) (by rw [hc.1]; simp)
        rcases this with h | h
        · exact .inl h
        · right; simp [h]
      · obtain ⟨ha, hb, hd⟩ := ih _ (fun i => failed i ∨ (i, false) ∈ ev) h2 hfail
        refine ⟨ha, ?_, ?_⟩
        · intro i hi
          obtain ⟨hx, hy⟩ := hb i hi
          exact ⟨hx, by rw [List.flatten_cons]; exact List.mem_append_right _ hy⟩
        · intro he i hi
          rcases hd he i hi with (h | h) | h
          · exact .inl h
          · right; rw [List.flatten_cons]; exact List.mem_append_left _ h
          · right; rw [List.flatten_cons]; exact List.mem_append_right _ h

end Verif.SchedProof
