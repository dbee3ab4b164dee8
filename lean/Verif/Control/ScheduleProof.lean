import Verif.Control.Schedule
import Mathlib.Algebra.Order.BigOperators.Group.List
import Mathlib.Tactic.Linarith
import Mathlib.Tactic.FieldSimp

/-!
# Lemmas about schedules
-/

namespace Verif.SchedProof
open Verif Verif.Sched

attribute [-simp] List.map_take

/-! ## Times -/

/-- Times of search schedules. -/
theorem set_search (ser : Bool) (T : Nat) : ∀ (l : List Strat) (sum : Nat), sum ≤ T →
    (setTimes false ser T sum l).map (fun s => (s.name, s.frac, s.cores)) =
      (l.take (setTimes false ser T sum l).length).map (fun s => (s.name, s.frac, s.cores)) ∧
    (setTimes false ser T sum l).length ≤ l.length ∧
    (∀ j (h : j < (setTimes false ser T sum l).length), ((setTimes false ser T sum l)[j]).time =
      min ⌈((setTimes false ser T sum l)[j]).frac * ((setTimes false ser T sum l)[j]).cores * T⌉₊
        (T - (sum + (((setTimes false ser T sum l).take j).map (·.time)).sum)) ∧
        sum + (((setTimes false ser T sum l).take j).map (·.time)).sum < T) ∧
    sum + ((setTimes false ser T sum l).map (·.time)).sum ≤ T ∧
    ((setTimes false ser T sum l).length < l.length → sum + ((setTimes false ser T sum l).map (·.time)).sum = T) := by
  intro l
  induction l with
  | nil => intro sum h; simp [setTimes]; exact h
  | cons s r ih =>
    intro sum h
    by_cases hc : T ≤ sum
    · have : setTimes false ser T sum (s :: r) = [] := by simp [setTimes, hc]
      simp [this]
      omega
    · have e : setTimes false ser T sum (s :: r) = { s with time := min ⌈s.frac * s.cores * T⌉₊ (T - sum) } ::
          setTimes false ser T (sum + min ⌈s.frac * s.cores * T⌉₊ (T - sum)) r := by
        simp [setTimes, hc]
      have hs : sum + min ⌈s.frac * s.cores * T⌉₊ (T - sum) ≤ T := by omega
      obtain ⟨h1, h2, h3, h4, h5⟩ := ih _ hs
      generalize setTimes false ser T (sum + min ⌈s.frac * s.cores * T⌉₊ (T - sum)) r = k at *
      rw [e]
      refine ⟨by simp [h1], by simpa using h2, ?_, by simp; omega, ?_⟩
      · intro j hj
        cases j with
        | zero => simp; omega
        | succ j =>
          have := h3 j (by simpa using hj)
          simp only [List.getElem_cons_succ, List.take_succ_cons, List.map_cons, List.sum_cons]
          rw [← Nat.add_assoc]
          exact this
      · intro hl
        have := h5 (by simpa using hl)
        simp
        omega

/-- Times of preprocessing schedules. -/
theorem set_pre (ser : Bool) (T : Nat) : ∀ (l : List Strat) (sum : Nat),
    setTimes true ser T sum l = l.map fun s => { s with time := ⌈(if ser then s.frac else 1) * s.cores * T⌉₊ } := by
  intro l
  induction l with
  | nil => intro sum; rfl
  | cons s r ih => intro sum; cases ser <;> simp [setTimes, ih]

/-! ## Cores -/

theorem fix_names : ∀ (l : List Strat) (e : Int), (fixCores e l).2.map (fun s => (s.name, s.frac, s.time)) = l.map (fun s => (s.name, s.frac, s.time)) := by
  intro l
  induction l with
  | nil => intro e; rfl
  | cons s r ih =>
    intro e
    rw [fixCores]
    split
    · rfl
    · simp [ih]

theorem fix_spec : ∀ (l : List Strat) (e : Int), (∀ s ∈ l, 1 ≤ s.cores) → e ≤ (l.map (·.cores)).sum - l.length → (l = [] → e = 0) →
    (fixCores e l).1 = 0 ∧ ((fixCores e l).2.map (·.cores)).sum = (l.map (·.cores)).sum - e ∧ (∀ s ∈ (fixCores e l).2, 1 ≤ s.cores) := by
  intro l
  induction l with
  | nil => intro e _ _ h; simp [fixCores, h rfl]
  | cons s r ih =>
    intro e hp he hne
    clear hne
    rw [fixCores]
    have hs := hp s (by simp)
    have hr : ∀ s ∈ r, 1 ≤ s.cores := fun x hx => hp x (by simp [hx])
    have hsum : (r.length : Int) ≤ (r.map (·.cores)).sum := by
      clear ih hp he
      induction r with
      | nil => simp
      | cons x r ihr =>
        have := ihr (fun y hy => hr y (by simp [hy]))
        have := hr x (by simp)
        simp
        omega
    split
    · next h => subst h; exact ⟨rfl, by simp, hp⟩
    · next h =>
      simp only [List.map_cons, List.sum_cons, List.length_cons] at he ⊢
      push_cast at he
      obtain ⟨h1, h2, h3⟩ := ih (e - min (s.cores - 1) e) hr (by omega) (by rintro rfl; simp at he; omega)
      refine ⟨h1, by rw [h2]; omega, ?_⟩
      intro x hx
      rcases List.mem_cons.1 hx with rfl | hx
      · simp; omega
      · exact h3 x hx

theorem sum_ceil (c : Nat) : ∀ (l : List Strat), (∀ s ∈ l, 0 ≤ s.frac) →
    (((l.map fun s => max ⌈s.frac * (c : ℚ)⌉ (1 : Int)).sum : Int) : ℚ) ≤ (l.map (·.frac)).sum * c + l.length := by
  intro l
  induction l with
  | nil => intro _; simp
  | cons s r ih =>
    intro h
    have h1 := ih (fun x hx => h x (by simp [hx]))
    have h2 := h s (by simp)
    have h3 : ((max ⌈s.frac * (c : ℚ)⌉ 1 : Int) : ℚ) ≤ s.frac * c + 1 := by
      have h4 : 0 ≤ s.frac * c := mul_nonneg h2 (by exact_mod_cast Nat.zero_le c)
      rcases le_total ⌈s.frac * (c : ℚ)⌉ 1 with h | h
      · rw [max_eq_right h]; push_cast; linarith
      · rw [max_eq_left h]; exact (Int.ceil_lt_add_one _).le
    simp only [List.map_cons, List.sum_cons, List.length_cons]
    push_cast at h1 h3 ⊢
    linarith

theorem alloc_spec (c : Nat) (l : List Strat) (hn : l ≠ []) (hl : l.length ≤ c) (hf : ∀ s ∈ l, 0 ≤ s.frac) (hs : (l.map (·.frac)).sum ≤ 1) :
    ∃ k, allocCores c l = some k ∧ k.map (fun s => (s.name, s.frac)) = l.map (fun s => (s.name, s.frac)) ∧ (k.map (·.cores)).sum = (c : Int) ∧
      ∀ s ∈ k, 1 ≤ s.cores := by
  have hsum := sum_ceil c l hf
  unfold allocCores
  dsimp only
  set m := l.map fun s => { s with cores := max ⌈s.frac * (c : ℚ)⌉ 1 } with hm
  have e : (m.map (·.cores)).sum = (l.map fun s => max ⌈s.frac * (c : ℚ)⌉ (1 : Int)).sum := by rw [hm, List.map_map]; rfl
  have hml : m.length = l.length := by simp [hm]
  have hle : (m.map (·.cores)).sum ≤ (c : Int) + l.length := by
    rw [e]
    have : (l.map (·.frac)).sum * c ≤ c := by
      have : (0 : ℚ) ≤ c := by exact_mod_cast Nat.zero_le c
      nlinarith
    have h2 : (((l.map fun s => max ⌈s.frac * (c : ℚ)⌉ (1 : Int)).sum : Int) : ℚ) ≤ ((c + l.length : Int) : ℚ) := by push_cast; linarith
    exact_mod_cast h2
  rw [if_pos (by omega)]
  have hp : ∀ s ∈ m.reverse, 1 ≤ s.cores := by
    intro s hs
    rw [hm, List.mem_reverse, List.mem_map] at hs
    obtain ⟨x, _, rfl⟩ := hs
    exact le_max_right _ _
  have hr : (m.reverse.map (·.cores)).sum = (m.map (·.cores)).sum := by rw [List.map_reverse, List.sum_reverse]
  obtain ⟨h1, h2, h3⟩ := fix_spec m.reverse ((m.map (·.cores)).sum - c) hp (by rw [hr]; simp; omega)
    (by intro h; rw [List.reverse_eq_nil_iff] at h; rw [h] at hml; simp at hml; exact absurd hml.symm (by simpa using hn))
  rw [if_pos h1]
  refine ⟨_, rfl, ?_, ?_, ?_⟩
  · have := fix_names m.reverse ((m.map (·.cores)).sum - c)
    have h4 := congrArg (List.map fun p : Nat × ℚ × Nat => (p.1, p.2.1)) this
    generalize fixCores ((m.map (·.cores)).sum - c) m.reverse = q at *
    rw [List.map_map, List.map_map] at h4
    rw [List.map_reverse]
    have h5 : q.2.map (fun s => (s.name, s.frac)) = m.reverse.map fun s => (s.name, s.frac) := h4
    rw [h5, List.map_reverse, List.reverse_reverse, hm, List.map_map]
    rfl
  · rw [List.map_reverse, List.sum_reverse, h2, hr]
    omega
  · intro s hs
    exact h3 s (List.mem_reverse.1 hs)

/-- Shortening gives a prefix; the fractions are scaled so that they sum up to 1. -/
theorem shorten_spec (c : Nat) (l : List Strat) (hc : 0 < c) (hf : ∀ s ∈ l, 0 < s.frac) (hs : (l.map (·.frac)).sum ≤ 1) :
    (shorten c l).map (·.name) = (l.take c).map (·.name) ∧ (shorten c l).length = min l.length c ∧ (∀ s ∈ shorten c l, 0 < s.frac) ∧
    ((shorten c l).map (·.frac)).sum ≤ 1 ∧ (c < l.length → ((shorten c l).map (·.frac)).sum = 1) := by
  unfold shorten
  split
  · next h =>
    dsimp only
    have hpos : 0 < ((l.take c).map (·.frac)).sum := by
      apply List.sum_pos
      · intro x hx
        obtain ⟨s, hs, rfl⟩ := List.mem_map.1 hx
        exact hf s (List.mem_of_mem_take hs)
      · intro h0
        have := congrArg List.length h0
        rw [List.length_map, List.length_take] at this
        simp only [List.length_nil] at this
        omega
    have e : ∀ k : List Strat, ∀ f : ℚ, ((k.map fun s => { s with frac := s.frac * f }).map (·.frac)).sum = (k.map (·.frac)).sum * f := by
      intro k f
      induction k with
      | nil => simp
      | cons x r ih => simp only [List.map_cons, List.sum_cons, ih]; linarith
    have h1 : ((l.take c).map (·.frac)).sum * (1 / ((l.take c).map (·.frac)).sum) = 1 := by field_simp
    refine ⟨by simp [Function.comp_def], by simp; omega, ?_, by rw [e, h1], fun _ => by rw [e, h1]⟩
    intro s hs
    obtain ⟨x, hx, rfl⟩ := List.mem_map.1 hs
    exact mul_pos (hf x (List.mem_of_mem_take hx)) (by positivity)
  · next h =>
    refine ⟨by rw [List.take_of_length_le (by omega)], by omega, hf, hs, fun h' => absurd h' h⟩

/-- Slices of the one-core version: they sum up to the limit. -/
theorem init_go (L : Nat) : ∀ (l : List Strat) (sum : Nat), l ≠ [] → (∀ s ∈ l, 0 ≤ s.frac) → (sum : ℚ) + (l.map (·.frac)).sum * L ≤ L →
    ∃ ts : List Nat, initGo true L sum l = some (ts.map some) ∧ ts.length = l.length ∧ sum + ts.sum = L := by
  intro l
  induction l with
  | nil => intro _ h; exact absurd rfl h
  | cons s r ih =>
    intro sum _ hf hs
    have hL : (0 : ℚ) ≤ L := by exact_mod_cast Nat.zero_le L
    have hfs := hf s (by simp)
    have hr : 0 ≤ (r.map (·.frac)).sum := by
      apply List.sum_nonneg
      intro x hx
      obtain ⟨y, hy, rfl⟩ := List.mem_map.1 hx
      exact hf y (by simp [hy])
    rw [List.map_cons, List.sum_cons] at hs
    cases r with
    | nil =>
      have h1 : (sum : ℚ) ≤ L := by nlinarith
      have h2 : sum ≤ L := by exact_mod_cast h1
      refine ⟨[L - sum], by simp [initGo, h2], rfl, by simp; omega⟩
    | cons t r =>
      have hfl : (⌊s.frac * ((L : ℚ) / (11 / 10))⌋₊ : ℚ) ≤ s.frac * L := by
        have h0 : 0 ≤ s.frac * ((L : ℚ) / (11 / 10)) := mul_nonneg hfs (by linarith)
        have h1 := Nat.floor_le h0
        have h2 : s.frac * ((L : ℚ) / (11 / 10)) ≤ s.frac * L := mul_le_mul_of_nonneg_left (by linarith) hfs
        linarith
      obtain ⟨ts, h1, h2, h3⟩ := ih (sum + ⌊s.frac * ((L : ℚ) / (11 / 10))⌋₊) (by simp) (fun x hx => hf x (by simp [hx])) (by push_cast; linarith)
      refine ⟨⌊s.frac * ((L : ℚ) / (11 / 10))⌋₊ :: ts, by simp [initGo, h1], by simp [h2], by simp; omega⟩

end Verif.SchedProof
