import Verif.Control.ScheduleProof
import Verif.Control.ScheduleExec

/-!
# C39, C45: time slices and execution of strategy schedules
-/

namespace Verif.Props
open Verif Verif.Sched Verif.SchedProof

attribute [-simp] List.map_take

/-! ## C39: search schedules -/

/-- C39: the slices of a search schedule.  With `T` the remaining time (rounded up), the strategies that are kept are the first ones of the
schedule, unchanged except for their slices; each gets its share rounded up or what is left; the slices together do not exceed `T`; a strategy is
dropped only if nothing is left. -/
theorem sched_search_slices (l : List Strat) (used limit : ℚ) (cores : Nat) (ser : Bool) (hl : -1 < limit - used) :
    ∃ k, timesMulti l used limit false cores ser = some (k, cores) ∧
      k.length ≤ l.length ∧
      k.map (fun s => (s.name, s.frac, s.cores)) = (l.take k.length).map (fun s => (s.name, s.frac, s.cores)) ∧
      (∀ j (h : j < k.length), k[j].time = min ⌈k[j].frac * k[j].cores * (⌈limit - used⌉₊ : ℚ)⌉₊ (⌈limit - used⌉₊ - ((k.take j).map (·.time)).sum)) ∧
      (k.map (·.time)).sum ≤ ⌈limit - used⌉₊ ∧
      (k.length < l.length → (k.map (·.time)).sum = ⌈limit - used⌉₊) := by
  have h0 : ¬ ⌈limit - used⌉ < 0 := by
    intro h
    have : ⌈limit - used⌉ ≤ -1 := by omega
    have := Int.ceil_le.1 this
    push_cast at this
    linarith
  have e : timesMulti l used limit false cores ser = some (setTimes false ser ⌈limit - used⌉₊ 0 l, cores) := by
    unfold timesMulti
    rw [if_neg h0]
    simp [Int.ceil_toNat]
  refine ⟨_, e, ?_⟩
  obtain ⟨h1, h2, h3, h4, h5⟩ := set_search ser ⌈limit - used⌉₊ l 0 (Nat.zero_le _)
  rw [Nat.zero_add] at h4 h5
  refine ⟨h2, h1, ?_, h4, h5⟩
  intro j h
  have := (h3 j h).1
  rwa [Nat.zero_add] at this

/-- C39: no slice of a search schedule is 0 (which would mean "no limit" to the process that gets it), provided that the fractions and the
numbers of cores are positive. -/
theorem sched_search_positive (l : List Strat) (used limit : ℚ) (cores : Nat) (ser : Bool) (hl : -1 < limit - used)
    (hf : ∀ s ∈ l, 0 < s.frac ∧ 0 < s.cores) :
    ∃ k, timesMulti l used limit false cores ser = some (k, cores) ∧ ∀ s ∈ k, 0 < s.time := by
  obtain ⟨k, hk, h1, h2, h3, -, -⟩ := sched_search_slices l used limit cores ser hl
  refine ⟨k, hk, ?_⟩
  have h0 : ¬ ⌈limit - used⌉ < 0 := by
    intro h
    have : ⌈limit - used⌉ ≤ -1 := by omega
    have := Int.ceil_le.1 this
    push_cast at this
    linarith
  have e : timesMulti l used limit false cores ser = some (setTimes false ser ⌈limit - used⌉₊ 0 l, cores) := by
    unfold timesMulti
    rw [if_neg h0]
    simp [Int.ceil_toNat]
  rw [e] at hk
  obtain ⟨-, -, h4, -, -⟩ := set_search ser ⌈limit - used⌉₊ l 0 (Nat.zero_le _)
  have hk' : setTimes false ser ⌈limit - used⌉₊ 0 l = k := by
    have := Option.some.inj hk
    exact congrArg Prod.fst this
  rw [hk'] at h4
  intro s hs
  obtain ⟨j, hj, rfl⟩ := List.getElem_of_mem hs
  obtain ⟨h5, h6⟩ := h4 j hj
  rw [h5]
  have hT : 0 < ⌈limit - used⌉₊ := by omega
  have hsj : 0 < k[j].frac ∧ 0 < k[j].cores := by
    have := congrArg (·[j]?) h2
    simp only [List.getElem?_map, List.getElem?_take_of_lt hj] at this
    rw [List.getElem?_eq_getElem hj, List.getElem?_eq_getElem (by omega)] at this
    simp only [Option.map_some, Option.some.injEq, Prod.mk.injEq] at this
    rw [this.2.1, this.2.2]
    exact hf _ (List.getElem_mem _)
  have hpos : 0 < ⌈k[j].frac * k[j].cores * (⌈limit - used⌉₊ : ℚ)⌉₊ := by
    rw [Nat.ceil_pos]
    have a : (0 : ℚ) < k[j].cores := by exact_mod_cast hsj.2
    have b : (0 : ℚ) < (⌈limit - used⌉₊ : ℚ) := by exact_mod_cast hT
    exact mul_pos (mul_pos hsj.1 a) b
  omega

/-- C39 fails otherwise: if more than a second beyond the limit has been used, a negative number is converted to an unsigned one. -/
theorem sched_exceeded_undefined (l : List Strat) (used limit : ℚ) (cores : Nat) (pre ser : Bool) (hl : limit - used ≤ -1) :
    timesMulti l used limit pre cores ser = none := by
  have h0 : ⌈limit - used⌉ < 0 := by
    have : ⌈limit - used⌉ ≤ -1 := Int.ceil_le.2 (by push_cast; exact hl)
    omega
  unfold timesMulti
  rw [if_pos h0]

/-! ## C39: preprocessing schedules -/

/-- C39: a preprocessing schedule that is distributed over several cores.  As many strategies are kept as there are cores; each gets at
least one core, together they get exactly the given number of cores, and each gets the remaining time on each of its cores. -/
theorem sched_preproc_cores (l : List Strat) (used limit : ℚ) (cores : Nat) (hl : -1 < limit - used) (hn : l ≠ []) (hc : 0 < cores)
    (hf : ∀ s ∈ l, 0 < s.frac) (hs : (l.map (·.frac)).sum ≤ 1) :
    ∃ k, timesMulti l used limit true cores false = some (k, cores) ∧
      k.map (·.name) = (l.take cores).map (·.name) ∧ (∀ s ∈ k, 1 ≤ s.cores) ∧ (k.map (·.cores)).sum = (cores : Int) ∧
      ∀ s ∈ k, (s.time : Int) = s.cores * ⌈limit - used⌉₊ := by
  have h0 : ¬ ⌈limit - used⌉ < 0 := by
    intro h
    have : ⌈limit - used⌉ ≤ -1 := by omega
    have := Int.ceil_le.1 this
    push_cast at this
    linarith
  obtain ⟨s1, s2, s3, s4, -⟩ := shorten_spec cores l hc hf hs
  have hl0 : 0 < l.length := List.length_pos_iff.2 hn
  obtain ⟨k, hk, k1, k2, k3⟩ := alloc_spec cores (shorten cores l) (by intro h; rw [h] at s2; simp at s2; omega) (by omega)
    (fun s hs => (s3 s hs).le) s4
  refine ⟨setTimes true false ⌈limit - used⌉₊ 0 k, ?_, ?_, ?_, ?_, ?_⟩
  · unfold timesMulti
    rw [if_neg h0]
    simp [hk, Int.ceil_toNat]
  · rw [set_pre, List.map_map, ← s1]
    have := congrArg (List.map Prod.fst) k1
    rw [List.map_map, List.map_map] at this
    exact this
  · rw [set_pre]
    intro s hs
    obtain ⟨x, hx, rfl⟩ := List.mem_map.1 hs
    exact k3 x hx
  · rw [set_pre, List.map_map, ← k2]
    rfl
  · rw [set_pre]
    intro s hs
    obtain ⟨x, hx, rfl⟩ := List.mem_map.1 hs
    have h1 := k3 x hx
    have h2 : (1 : ℚ) * x.cores * (⌈limit - used⌉₊ : ℚ) = ((x.cores.toNat * ⌈limit - used⌉₊ : Nat) : ℚ) := by
      have : ((x.cores.toNat : Int) : ℚ) = (x.cores : ℚ) := by rw [Int.toNat_of_nonneg (by omega)]
      push_cast
      rw [← this]
      push_cast
      rw [one_mul]
    simp only [Bool.false_eq_true, if_false]
    rw [h2, Nat.ceil_natCast]
    push_cast
    rw [Int.toNat_of_nonneg (by omega)]

/-- C39: a preprocessing schedule whose strategies run one after the other.  Each gets one core and its share rounded up; the slices
exceed the remaining time by less than one second per strategy. -/
theorem sched_preproc_serial (l : List Strat) (used limit : ℚ) (cores : Nat) (hl : -1 < limit - used) (hn : l ≠ []) (hc : 0 < cores)
    (hf : ∀ s ∈ l, 0 < s.frac) (hs : (l.map (·.frac)).sum ≤ 1) :
    ∃ k, timesMulti l used limit true cores true = some (k, 1) ∧
      k.map (·.name) = (l.take cores).map (·.name) ∧ (∀ s ∈ k, s.cores = 1 ∧ s.time = ⌈s.frac * (⌈limit - used⌉₊ : ℚ)⌉₊) ∧
      (k.map (·.time)).sum < ⌈limit - used⌉₊ + k.length := by
  have h0 : ¬ ⌈limit - used⌉ < 0 := by
    intro h
    have : ⌈limit - used⌉ ≤ -1 := by omega
    have := Int.ceil_le.1 this
    push_cast at this
    linarith
  obtain ⟨s1, s2, s3, s4, -⟩ := shorten_spec cores l hc hf hs
  have hl0 : 0 < l.length := List.length_pos_iff.2 hn
  refine ⟨setTimes true true ⌈limit - used⌉₊ 0 ((shorten cores l).map fun s => { s with cores := 1 }), ?_, ?_, ?_, ?_⟩
  · unfold timesMulti
    rw [if_neg h0]
    simp [Int.ceil_toNat]
  · rw [set_pre, List.map_map, List.map_map, ← s1]
    rfl
  · rw [set_pre]
    intro s hs
    obtain ⟨x, hx, rfl⟩ := List.mem_map.1 hs
    obtain ⟨y, hy, rfl⟩ := List.mem_map.1 hx
    simp
  · rw [set_pre, List.map_map, List.map_map]
    generalize ⌈limit - used⌉₊ = T
    have hne : shorten cores l ≠ [] := by intro h; rw [h] at s2; simp at s2; omega
    have key : ∀ k : List Strat, k ≠ [] → (∀ s ∈ k, 0 < s.frac) →
        (((k.map fun s => ⌈s.frac * (T : ℚ)⌉₊).sum : Nat) : ℚ) < (k.map (·.frac)).sum * T + k.length := by
      intro k
      induction k with
      | nil => intro h; exact absurd rfl h
      | cons s r ih =>
        intro _ hp
        have a : (⌈s.frac * (T : ℚ)⌉₊ : ℚ) < s.frac * T + 1 :=
          Nat.ceil_lt_add_one (mul_nonneg (hp s (by simp)).le (by exact_mod_cast Nat.zero_le T))
        by_cases hr : r = []
        · subst hr
          simp
          linarith
        · have := ih hr (fun x hx => hp x (by simp [hx]))
          simp only [List.map_cons, List.sum_cons, List.length_cons]
          push_cast at this ⊢
          linarith
    have h1 := key _ hne s3
    have h2 : ((shorten cores l).map (·.frac)).sum * (T : ℚ) ≤ T := by
      have : (0 : ℚ) ≤ T := by exact_mod_cast Nat.zero_le T
      nlinarith
    have h3 : (((shorten cores l).map fun s => ⌈s.frac * (T : ℚ)⌉₊).sum : Nat) < T + (shorten cores l).length := by
      have : ((((shorten cores l).map fun s => ⌈s.frac * (T : ℚ)⌉₊).sum : Nat) : ℚ) < ((T + (shorten cores l).length : Nat) : ℚ) := by
        push_cast at h1 ⊢
        linarith
      exact_mod_cast this
    have e : ((shorten cores l).map (((fun s : Strat => s.time) ∘ fun s => { s with time := ⌈(if true = true then s.frac else 1) * (s.cores : ℚ) * (T : ℚ)⌉₊ }) ∘
        fun s => { s with cores := 1 })) = (shorten cores l).map fun s => ⌈s.frac * (T : ℚ)⌉₊ := by
      apply List.map_congr_left
      intro s _
      simp
    rw [e]
    simpa using h3

/-! ## C39: the other schedules -/

/-- C39: the slices of the version for one core sum up to the remaining time (rounded down; 0 if the limit is exceeded). -/
theorem sched_single_slices (tl : Nat) (used : ℚ) (l : List Strat) (ht : tl ≠ 0) (hn : l ≠ []) (hf : ∀ s ∈ l, 0 ≤ s.frac)
    (hs : (l.map (·.frac)).sum ≤ 1) :
    ∃ ts : List Nat, timesInit tl used l = some (ts.map some) ∧ ts.length = l.length ∧ ts.sum = ⌊tl - used⌋₊ := by
  have e : (if used < (tl : ℚ) then ⌊(tl : ℚ) - used⌋₊ else 0) = ⌊(tl : ℚ) - used⌋₊ := by
    split
    · rfl
    · next h => exact (Nat.floor_of_nonpos (by linarith)).symm
  obtain ⟨ts, h1, h2, h3⟩ := init_go ⌊(tl : ℚ) - used⌋₊ l 0 hn hf (by
    have : (0 : ℚ) ≤ (⌊(tl : ℚ) - used⌋₊ : ℚ) := by exact_mod_cast Nat.zero_le _
    push_cast
    nlinarith)
  refine ⟨ts, ?_, h2, by omega⟩
  unfold timesInit
  simp only [ne_eq, ht, not_false_eq_true, if_true, decide_true, e]
  exact h1

/-- C39: the default schedule used after an exhausted one consists of the strategies that are not in the exhausted one, in their order. -/
theorem sched_filtered_names (exh : Nat → Bool) (d : List Strat) :
    (filteredDefault exh d).map (·.name) = (d.filter fun s => !exh s.name).map (·.name) := by
  obtain ⟨h1, h2⟩ := filter_go exh d d.length 0 0 d (by omega) rfl (Nat.le_refl _) (by simp) rfl
  unfold filteredDefault
  dsimp only
  rw [h1]
  apply List.ext_getElem
  · simp
  · intro i h h'
    simp only [List.getElem_mapIdx, List.getElem_map]
    split <;> rfl

/-- C39: all strategies but the last one of this schedule get equal shares.  `_partial`: the last one keeps the fraction that it had in
the default schedule (see `sched_filtered_last`). -/
theorem sched_filtered_shares_partial (exh : Nat → Bool) (d : List Strat) (i : Nat) (h : i + 1 < (filteredDefault exh d).length) :
    ((filteredDefault exh d)[i]).frac = 1 / ((filteredDefault exh d).length : ℚ) := by
  obtain ⟨h1, h2⟩ := filter_go exh d d.length 0 0 d (by omega) rfl (Nat.le_refl _) (by simp) rfl
  have hl : (filteredDefault exh d).length = (filterGo exh d.length 0 0 d).1 := by
    unfold filteredDefault
    dsimp only
    rw [List.length_mapIdx, h1, h2]
  simp only [hl] at h ⊢
  unfold filteredDefault
  dsimp only
  rw [List.getElem_mapIdx, if_pos h]

/-- C39 fails in this case: the shares need not sum up to at most 1, whatever is left for the last strategy.  With a default schedule that has just one
strategy left, its share is what it was in the complete schedule; with a big last share, the shares sum up to more than 1. -/
theorem sched_filtered_last : ∃ (exh : Nat → Bool) (d : List Strat), (d.map (·.frac)).sum = 1 ∧ (∀ s ∈ d, 0 < s.frac) ∧
    ((filteredDefault exh d).map (·.frac)).sum > 1 :=
  ⟨fun n => n == 0, [⟨0, 1 / 8, 1, 0⟩, ⟨1, 1 / 8, 1, 0⟩, ⟨2, 3 / 4, 1, 0⟩], by decide +kernel, by decide +kernel, by decide +kernel⟩

/-- C39: replacing the placeholder of a search schedule keeps the sum of the fractions, if it was 1. -/
theorem sched_placeholder_sum (l : List Strat) (ph : Strat) (pre : Nat) (force : Bool) (hl : 2 ≤ l.length) (hs : (l.map (·.frac)).sum = 1) :
    ((initPlaceholder l ph pre force).map (·.frac)).sum = 1 := by
  unfold initPlaceholder
  split
  · dsimp only
    rw [if_neg (by omega)]
    set k := (l.map fun s => { s with frac := s.frac * (1 - 1 / 10) }) ++ [{ ph with name := pre, frac := 1 / 10 }] with hk
    have hkl : k.length = l.length + 1 := by simp [hk]
    have h1 : (k.map (·.frac)).sum = 1 := by
      have e : ∀ m : List Strat, ∀ f : ℚ, ((m.map fun s => { s with frac := s.frac * f }).map (·.frac)).sum = (m.map (·.frac)).sum * f := by
        intro m f
        induction m with
        | nil => simp
        | cons x r ih => simp only [List.map_cons, List.sum_cons, ih]; linarith
      rw [hk, List.map_append, List.sum_append, e, hs]
      norm_num
    rw [← h1]
    apply List.Perm.sum_eq
    apply List.Perm.map
    unfold swap
    rw [List.getElem?_eq_getElem (show l.length < k.length by omega), List.getElem?_eq_getElem (show 1 < k.length by omega)]
    exact List.set_set_perm (show l.length < k.length by omega) (show 1 < k.length by omega)
  · exact hs

/-! ## C45: execution -/

/-- C45: the running processes never use more cores than allowed, and each strategy runs at most once. -/
theorem sched_exec_cores (l : List Strat) (max : Int) (hm : 0 ≤ max) (hp : ∀ s ∈ l, 0 ≤ s.cores) (evs : List (List (Nat × Bool))) :
    let s := (exec l max evs ⟨0, [], 0⟩).2
    (s.running.map (coresAt l)).sum ≤ max ∧ s.running.Nodup ∧ (∀ i ∈ s.running, i < s.next) ∧ s.next ≤ l.length := by
  obtain ⟨h, -, -⟩ := exec_spec l max hp evs ⟨0, [], 0⟩ (fun _ => False) (einv_init l hm) (by intro i hi; simp at hi)
  exact ⟨by rw [← h.reserved]; exact h.le, h.nodup, h.started, h.next⟩

/-- C45: a result is reported only if a strategy of the schedule reported it. -/
theorem sched_exec_result (l : List Strat) (max : Int) (hm : 0 ≤ max) (hp : ∀ s ∈ l, 0 ≤ s.cores) (evs : List (List (Nat × Bool))) (i : Nat)
    (h : (exec l max evs ⟨0, [], 0⟩).1 = some (.result i)) : i < l.length ∧ (i, true) ∈ evs.flatten :=
  (exec_spec l max hp evs ⟨0, [], 0⟩ (fun _ => False) (einv_init l hm) (by intro i hi; simp at hi)).2.1 i h

/-- C45: "Schedule exhausted" is reported only if every strategy of the schedule was run and failed. -/
theorem sched_exec_exhausted (l : List Strat) (max : Int) (hm : 0 ≤ max) (hp : ∀ s ∈ l, 0 ≤ s.cores) (evs : List (List (Nat × Bool)))
    (h : (exec l max evs ⟨0, [], 0⟩).1 = some .exhausted) : ∀ i, i < l.length → (i, false) ∈ evs.flatten := by
  intro i hi
  have := (exec_spec l max hp evs ⟨0, [], 0⟩ (fun _ => False) (einv_init l hm) (by intro i hi; simp at hi)).2.2 h i hi
  simpa using this

/-- C45: a success is not overlooked: if in the first of the remaining rounds a process that runs (or is started in this round) succeeds, then the execution
ends with the result of this or another process of the round. -/
theorem sched_exec_found (l : List Strat) (max : Int) (ev : List (Nat × Bool)) (evs : List (List (Nat × Bool))) (s : ExecSt) (i : Nat)
    (hr : i ∈ (startAll l max l.length s).running) (ht : (i, true) ∈ ev) (hf : (i, false) ∉ ev) :
    ∃ j, (j, true) ∈ ev ∧ (exec l max (ev :: evs) s).1 = some (.result j) := by
  have h := poll_found l ev _ i hr ht hf
  cases hq : (poll l ev (startAll l max l.length s)).1 with
  | none => exact absurd hq h
  | some j =>
    refine ⟨j, (poll_result l ev _ j hq).2, ?_⟩
    rw [exec]
    simp [hq]

/-- C45: the parent never waits in vain: if no strategy needs more cores than allowed, then in each round a process is running after the start of new
ones, unless the schedule is at its end. -/
theorem sched_exec_progress (l : List Strat) (max : Int) (hc : ∀ s ∈ l, s.cores ≤ max) (s : ExecSt) (hi : EInv l max s) :
    (startAll l max l.length s).running ≠ [] ∨ (startAll l max l.length s).next = l.length := by
  by_contra h
  push Not at h
  have h1 := start_inv l max l.length s hi
  have hlt : (startAll l max l.length s).next < l.length := lt_of_le_of_ne h1.next h.2
  have h2 := start_stop l max l.length s (by omega) _ (List.getElem?_eq_getElem hlt)
  have h3 := h1.reserved
  rw [h.1] at h3
  have h4 := hc _ (List.getElem_mem hlt)
  rw [h3] at h2
  simp at h2
  omega

/-- C45 fails otherwise: if the first strategy needs more cores than allowed, nothing is ever started and the loop does not end. -/
theorem sched_exec_stuck (x : Strat) (r : List Strat) (max : Int) (h : max < x.cores) (evs : List (List (Nat × Bool))) :
    (exec (x :: r) max evs ⟨0, [], 0⟩).1 = none ∧ (exec (x :: r) max evs ⟨0, [], 0⟩).2 = ⟨0, [], 0⟩ := by
  have hs : startAll (x :: r) max (x :: r).length ⟨0, [], 0⟩ = ⟨0, [], 0⟩ := by
    rw [List.length_cons, startAll]
    simp only [List.getElem?_cons_zero]
    rw [if_neg (by omega)]
  have hp : ∀ ev, poll (x :: r) ev ⟨0, [], 0⟩ = (none, ⟨0, [], 0⟩) := by
    intro ev
    induction ev with
    | nil => rfl
    | cons e r ih => obtain ⟨i, ok⟩ := e; rw [poll, if_neg (by simp)]; exact ih
  induction evs with
  | nil => exact ⟨rfl, rfl⟩
  | cons ev evs ih =>
    rw [exec]
    simp only [hs, hp]
    simpa using ih

/-- C39, C45: all strategies of a preprocessing schedule that is distributed over the cores are started at once. -/
theorem sched_preproc_all_start (l : List Strat) (used limit : ℚ) (cores : Nat) (hl : -1 < limit - used) (hn : l ≠ []) (hc : 0 < cores)
    (hf : ∀ s ∈ l, 0 < s.frac) (hs : (l.map (·.frac)).sum ≤ 1) :
    ∃ k, timesMulti l used limit true cores false = some (k, cores) ∧ k ≠ [] ∧ (startAll k cores k.length ⟨0, [], 0⟩).next = k.length := by
  obtain ⟨k, hk, k1, k2, k3, -⟩ := sched_preproc_cores l used limit cores hl hn hc hf hs
  refine ⟨k, hk, ?_, ?_⟩
  · rintro rfl
    simp at k3
    omega
  · have hp : ∀ s ∈ k, 0 ≤ s.cores := fun s hs => by have := k2 s hs; omega
    have h1 := start_inv k cores k.length ⟨0, [], 0⟩ (einv_init k (by omega))
    obtain ⟨-, h2⟩ := start_running k cores k.length ⟨0, [], 0⟩
    by_contra hne
    have hlt : (startAll k cores k.length ⟨0, [], 0⟩).next < k.length := lt_of_le_of_ne h1.next hne
    have h3 := start_stop k cores k.length ⟨0, [], 0⟩ (by simp) _ (List.getElem?_eq_getElem hlt)
    generalize startAll k cores k.length ⟨0, [], 0⟩ = t at *
    -- the running ones are a part of the strategies before `t.next`
    have hperm : t.running.Perm (List.range t.next) := by
      rw [List.perm_ext_iff_of_nodup h1.nodup List.nodup_range]
      intro i
      rw [h2 i]
      simp
    have h4 : t.reserved = ((k.take t.next).map (·.cores)).sum := by
      rw [h1.reserved, (hperm.map (coresAt k)).sum_eq]
      congr 1
      apply List.ext_getElem
      · simp; omega
      · intro i h h'
        simp only [List.getElem_map, List.getElem_range, List.getElem_take, coresAt]
        simp at h
        rw [List.getElem?_eq_getElem (by omega)]
        rfl
    have h5 : ((k.take t.next).map (·.cores)).sum + k[t.next].cores ≤ (k.map (·.cores)).sum := by
      conv_rhs => rw [← List.take_append_drop t.next k, List.map_append, List.sum_append, List.drop_eq_getElem_cons hlt]
      simp only [List.map_cons, List.sum_cons]
      have : 0 ≤ ((k.drop (t.next + 1)).map (·.cores)).sum := by
        apply List.sum_nonneg
        intro x hx
        obtain ⟨s, hs, rfl⟩ := List.mem_map.1 hx
        exact hp s (List.mem_of_mem_drop hs)
      omega
    omega

/-! ## Examples -/

namespace SchedEx

/-- A schedule of three strategies. -/
def sch : List Strat := [⟨7, 1 / 2, 1, 0⟩, ⟨8, 1 / 3, 1, 0⟩, ⟨9, 1 / 6, 1, 0⟩]

/-- The hypotheses of the theorems are met. -/
example : (-1 : ℚ) < 100 - 5 / 2 ∧ sch ≠ [] ∧ (∀ s ∈ sch, 0 < s.frac ∧ 0 < s.cores) ∧ (sch.map (·.frac)).sum ≤ 1 ∧ 2 ≤ sch.length := by decide +kernel

example : timesMulti sch (5 / 2) 100 false 1 false = some ([⟨7, 1 / 2, 1, 49⟩, ⟨8, 1 / 3, 1, 33⟩, ⟨9, 1 / 6, 1, 16⟩], 1) := by decide +kernel

/-- The last strategy is dropped, since the rounded shares of the first two use up the time. -/
example : (timesMulti sch 0 1 false 1 false).map (fun p => p.1.map fun s => (s.name, s.time)) = some [(7, 1)] := by decide +kernel

example : (timesMulti sch 0 10 true 8 false).map (fun p => p.1.map fun s => (s.name, s.cores, s.time)) =
    some [(7, 4, 40), (8, 3, 30), (9, 1, 10)] := by decide +kernel

example : (timesMulti sch 0 10 true 2 true).map (fun p => p.1.map fun s => (s.name, s.cores, s.time)) =
    some [(7, 1, 6), (8, 1, 4)] := by decide +kernel

example : timesInit 100 (5 / 2) sch = some [some 44, some 29, some 24] := by decide +kernel

/-- An execution on two cores: the first strategy fails, the third one succeeds. -/
example : (exec sch 2 [[], [(0, false)], [], [(2, true)]] ⟨0, [], 0⟩).1 = some (.result 2) := rfl

/-- An exhausted schedule. -/
example : (exec sch 2 [[(1, false), (0, false)], [(2, false)]] ⟨0, [], 0⟩).1 = some .exhausted := rfl

end SchedEx

end Verif.Props
