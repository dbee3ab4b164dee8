import Verif.Heuristics.HCBProof
import Verif.Heuristics.HCBDel
import Verif.Heuristics.HCBSpec
import Mathlib.Data.Set.Finite.Basic
import Mathlib.Data.Set.Finite.Lemmas
import Mathlib.Data.Set.Finite.Range

/-!
# C35: clause selection
-/

namespace Verif.Props
open Verif HCBProof

variable {H : Type} [LinearOrder H]

/-! ## The picks of a cycle -/

theorem hcb_after_at {ss : List Nat} (hne : ss ≠ []) (hpos : ∀ s ∈ ss, 0 < s) (h1 : ss.length ≠ 1) (k : Nat) :
    HCBProof.At ss (k % ss.sum) (HCB.after ss k) := by
  induction k with
  | zero => simpa [HCB.after] using at_build hne hpos
  | succ k ih =>
    have := at_advance hpos ih
    rw [HCB.after, if_neg h1]
    rwa [Nat.mod_add_mod] at this

/-- C35: the functions are used in turn, function `i` for `ss[i]` successive picks: at the `k`-th pick (from 0) function `i` is active exactly
if the number of the pick in its cycle is behind the picks of the functions before `i` and not behind those of `i`. -/
theorem hcb_turns {ss : List Nat} (hne : ss ≠ []) (hpos : ∀ s ∈ ss, 0 < s) (k i : Nat) (hi : i < ss.length) :
    (HCB.after ss k).cur = i ↔ (ss.take i).sum ≤ k % ss.sum ∧ k % ss.sum < (ss.take i).sum + ss[i] := by
  by_cases h1 : ss.length = 1
  · have hc : (HCB.after ss k).cur = 0 := by
      induction k with
      | zero => exact (build_spec ss).1
      | succ k ih => rw [HCB.after, if_pos h1]; exact ih
    have hi0 : i = 0 := by omega
    subst hi0
    rw [hc]
    have hs : ss.sum = ss[0] := by
      match ss, h1 with
      | [a], _ => simp [List.sum]
    have : 0 < ss[0] := hpos _ (List.getElem_mem _)
    have := Nat.mod_lt k (show 0 < ss.sum by omega)
    simp
    omega
  · have ha := hcb_after_at hne hpos h1 k
    have hb := before_succ hi
    constructor
    · rintro rfl
      exact ⟨ha.lo, by have := ha.hi; rw [hb] at this; exact this⟩
    · rintro ⟨h2, h3⟩
      exact at_unique ha h2 (by rw [hb]; exact h3)

/-- C35: some function of the heuristic is always active. -/
theorem hcb_in_range {ss : List Nat} (hne : ss ≠ []) (hpos : ∀ s ∈ ss, 0 < s) (k : Nat) : (HCB.after ss k).cur < ss.length := by
  by_cases h1 : ss.length = 1
  · have hc : (HCB.after ss k).cur = 0 := by
      induction k with
      | zero => exact (build_spec ss).1
      | succ k ih => rw [HCB.after, if_pos h1]; exact ih
    omega
  · exact (hcb_after_at hne hpos h1 k).cur

/-- C35: in every cycle function `i` gets exactly `ss[i]` picks. -/
theorem hcb_ratio {ss : List Nat} (hne : ss ≠ []) (hpos : ∀ s ∈ ss, 0 < s) (m i : Nat) (hi : i < ss.length) :
    ((List.range ss.sum).filter fun r => (HCB.after ss (m * ss.sum + r)).cur = i).length = ss[i] := by
  have hle : (ss.take i).sum + ss[i] ≤ ss.sum := by
    have h1 := before_succ hi
    have h2 := before_mono (ss := ss) (i := i + 1) (j := ss.length) hi
    rw [before_length] at h2
    simp only [before] at h1 h2
    omega
  have hf : (List.range ss.sum).filter (fun r => (HCB.after ss (m * ss.sum + r)).cur = i) =
      (List.range ss.sum).filter (fun r => decide ((ss.take i).sum ≤ r ∧ r < (ss.take i).sum + ss[i])) := by
    apply List.filter_congr
    intro r hr
    have hr := List.mem_range.1 hr
    have := hcb_turns hne hpos (m * ss.sum + r) i hi
    rw [Nat.mul_comm m, Nat.mul_add_mod, Nat.mod_eq_of_lt hr] at this
    rw [Nat.mul_comm ss.sum m] at this
    simp [this]
  rw [hf]
  obtain ⟨c, hc⟩ := Nat.exists_eq_add_of_le hle
  rw [hc]
  rw [List.range_add, List.range_add, List.filter_append, List.filter_append]
  rw [List.filter_eq_nil_iff.2, List.nil_append, List.filter_eq_self.2, List.filter_eq_nil_iff.2]
  · simp
  · intro a ha
    obtain ⟨b, hb, rfl⟩ := List.mem_map.1 ha
    simp
  · intro a ha
    obtain ⟨b, hb, rfl⟩ := List.mem_map.1 ha
    have := List.mem_range.1 hb
    simp; omega
  · intro a ha
    have := List.mem_range.1 ha
    simp; omega

/-! ## A single pick -/

theorem better_iff {x : EvalCtx H} {i a b : Nat} : evalCompare x i a b = .lt ↔ x.Better i a b := by
  rw [evalCompare_lex, EvalCtx.Better]
  simp only [Ordering.then_eq_lt, Std.LawfulEqCmp.compare_eq_iff_eq, Ordering.then_eq_eq]
  rw [compare_lt_iff_lt, compare_lt_iff_lt, compare_lt_iff_lt]
  constructor
  · rintro ((h | ⟨h1, h2⟩) | ⟨⟨h1, h2⟩, h3⟩)
    · exact .inl h
    · exact .inr ⟨h1, .inl h2⟩
    · exact .inr ⟨h1, .inr ⟨h2, h3⟩⟩
  · rintro (h | ⟨h1, h2 | ⟨h2, h3⟩⟩)
    · exact .inl (.inl h)
    · exact .inl (.inr ⟨h1, h2⟩)
    · exact .inr ⟨⟨h1, h2⟩, h3⟩

theorem change_ok {x : EvalCtx H} {n : Nat} {ok : Nat → Prop} {s s' : USet} (h : SetChange x n ok s s') (hs : SetOK x n s) : SetOK x n s' := by
  induction h with
  | refl => exact hs
  | insert c _ hc _ ih => exact ok_insert ih hc
  | extract c _ _ ih => exact ok_extract ih c

/-- What one call does. -/
theorem select_ok {x : EvalCtx H} {orph : Nat → Bool} {h : HCB} {s : USet} (hs : SetOK x h.switch.length s) (hc : h.cur < h.switch.length) :
    ∃ r s', hcbSelect x orph h s = some (r, if h.switch.length = 1 then h else h.advance, s') ∧ SetOK x h.switch.length s' ∧
      s'.mem.Sublist s.mem ∧ (∀ c ∈ s.mem, c ∉ s'.mem → orph c = true) ∧
      match r with
      | none => s'.mem = []
      | some c => c ∈ s'.mem ∧ orph c = false ∧ (∀ d ∈ s'.mem, d = c ∨ evalCompare x h.cur c d = .lt) ∧
          ∀ d ∈ s.mem, d ∉ s'.mem → evalCompare x h.cur d c = .lt := by
  obtain ⟨r, s', h1, h2⟩ := selectLoop_spec hc orph (s.mem.length + 1) s hs (by omega)
  exact ⟨r, s', by simp [hcbSelect, h1], h2⟩

theorem reach_ok {x : EvalCtx H} {n : Nat} {s : USet} (h : SetReach x n s) : SetOK x n s := by
  induction h with
  | empty => exact ok_empty x n
  | change _ hc ih => exact change_ok hc ih
  | @select s s' orph h r h' _ hl hsel ih =>
    subst hl
    simp only [hcbSelect] at hsel
    by_cases hc : h.cur < h.switch.length
    · obtain ⟨r2, s2, h1, h2, -⟩ := select_ok (orph := orph) ih hc
      simp only [hcbSelect] at h1
      rw [h1] at hsel
      cases hsel
      exact h2
    · have gen : ∀ (k : Nat) (s : USet), SetOK x h.switch.length s → ∀ r s', selectLoop x h.switch.length h.cur orph k s = some (r, s') →
          SetOK x h.switch.length s' := by
        intro k
        induction k with
        | zero => intro s _ r s' he; cases he
        | succ k ihk =>
          intro s hs r s' he
          rw [selectLoop] at he
          split at he
          · cases he; exact hs
          · split at he
            · exact ihk _ (ok_extract hs _) _ _ he
            · cases he; exact hs
      cases hq : selectLoop x h.switch.length h.cur orph (s.mem.length + 1) s with
      | none => rw [hq] at hsel; cases hsel
      | some p =>
        rw [hq] at hsel
        obtain ⟨r2, s2⟩ := p
        cases hsel
        exact gen _ _ ih _ _ hq

/-- C35: after any history, a pick ends, deletes only orphaned clauses, and returns a clause that is not orphaned and is better for the active
function than every other clause that is not orphaned; it returns nothing only if every clause was orphaned. -/
theorem hcb_pick_best {x : EvalCtx H} {ss : List Nat} (hne : ss ≠ []) (hpos : ∀ s ∈ ss, 0 < s) (k : Nat) (orph : Nat → Bool) {s : USet}
    (hs : SetReach x ss.length s) :
    ∃ r s', hcbSelect x orph (HCB.after ss k) s = some (r, HCB.after ss (k + 1), s') ∧
      s'.mem.Sublist s.mem ∧ (∀ c ∈ s.mem, c ∉ s'.mem → orph c = true) ∧
      (r = none → ∀ c ∈ s.mem, orph c = true) ∧
      ∀ c, r = some c → c ∈ s'.mem ∧ orph c = false ∧ (∀ d ∈ s.mem, orph d = false → d = c ∨ x.Better (HCB.after ss k).cur c d) ∧
        ∀ d ∈ s'.mem, d = c ∨ x.Better (HCB.after ss k).cur c d := by
  have hsw : (HCB.after ss k).switch.length = ss.length := by
    have h0 : (HCB.build ss).switch.length = ss.length := by rw [(build_spec ss).2.2]; simp
    have hadv : ∀ h : HCB, h.advance.switch = h.switch := by
      intro h
      simp only [HCB.advance]
      split <;> rfl
    induction k with
    | zero => exact h0
    | succ k ih =>
      rw [HCB.after]
      split
      · exact ih
      · rw [hadv]; exact ih
  have hok := reach_ok hs
  rw [← hsw] at hok
  obtain ⟨r, s', h1, -, h3, h4, h5⟩ := select_ok (orph := orph) hok (by rw [hsw]; exact hcb_in_range hne hpos k)
  refine ⟨r, s', ?_, h3, h4, ?_, ?_⟩
  · rw [h1, HCB.after, hsw]
  · rintro rfl c hc
    exact h4 c hc (by rw [show s'.mem = [] from h5]; simp)
  · rintro c rfl
    obtain ⟨e1, e2, e3, e4⟩ := h5
    refine ⟨e1, e2, fun d hd ho => ?_, fun d hd => (e3 d hd).imp_right better_iff.1⟩
    have : d ∈ s'.mem := by
      by_contra hn
      rw [h4 d hd hn] at ho
      cases ho
    exact (e3 d this).imp_right better_iff.1

/-! ## Fairness -/

theorem change_old {x : EvalCtx H} {n : Nat} {ok : Nat → Prop} {s s' : USet} (h : SetChange x n ok s s') {c : Nat} (hc : ¬ ok c)
    (hm : c ∈ s'.mem) : c ∈ s.mem := by
  induction h with
  | refl => exact hm
  | insert d _ _ hd ih =>
    simp only [USet.insert, List.mem_append, List.mem_singleton] at hm
    rcases hm with hm | rfl
    · exact ih hm
    · exact absurd hd hc
  | extract d _ _ ih => exact ih (List.mem_of_mem_erase hm)

/-- C35: fairness.  If a clause stays in the set until it is picked, and for some function of the heuristic only finitely many clauses that ever
are in the set are better, then it is picked. -/
theorem hcb_fair {x : EvalCtx H} {ss : List Nat} (hne : ss ≠ []) (hpos : ∀ s ∈ ss, 0 < s) (R : SelRun x ss) (c t0 : Nat)
    (hstay : ∀ t ≥ t0, (∀ t' ≥ t0, t' < t → R.pick t' ≠ c) → c ∈ (R.s t).mem) (i : Nat) (hi : i < ss.length)
    (hfin : {d | x.Better i d c ∧ ∃ t, d ∈ (R.s t).mem}.Finite) : ∃ t ≥ t0, R.pick t = c := by
  by_contra hnone
  push Not at hnone
  have hin : ∀ t ≥ t0, c ∈ (R.s t).mem := fun t ht => hstay t ht fun t' h1 _ => hnone t' h1
  -- the state of the heuristic and of the set
  have hst : ∀ t, R.h t = HCB.after ss t ∧ SetReach x ss.length (R.s t) := by
    intro t
    induction t with
    | zero => exact ⟨R.start, R.reach⟩
    | succ t ih =>
      obtain ⟨h1, h2⟩ := ih
      obtain ⟨r, s', h3, -⟩ := hcb_pick_best hne hpos t (R.orph t) h2
      have hsel := R.select t
      rw [h1, h3] at hsel
      simp only [Option.some.injEq, Prod.mk.injEq] at hsel
      refine ⟨hsel.2.1.symm, ?_⟩
      have hlen : (HCB.after ss t).switch.length = ss.length := by
        by_cases hl : ss.length = 1
        · have : ∀ k, (HCB.after ss k).switch = (HCB.build ss).switch := by
            intro k
            induction k with
            | zero => rfl
            | succ k ih => rw [HCB.after, if_pos hl]; exact ih
          rw [this, (build_spec ss).2.2]; simp
        · rw [(hcb_after_at hne hpos hl t).switch]; simp
      have hmid : SetReach x ss.length (R.mid t) := by
        have := R.select t
        rw [h1] at this
        exact .select h2 hlen this
      have hpk : SetReach x ss.length ((R.mid t).extract x ss.length (R.pick t)) := by
        have hp : R.pick t ∈ (R.mid t).mem := by
          obtain ⟨r, s', h3, -, -, -, h4⟩ := hcb_pick_best hne hpos t (R.orph t) h2
          have hsel := R.select t
          rw [h1, h3] at hsel
          simp only [Option.some.injEq, Prod.mk.injEq] at hsel
          rw [← hsel.2.2]
          exact (h4 _ hsel.1).1
        exact .change hmid (.extract _ (.refl _) hp)
      refine .change hpk ?_
      have gen : ∀ {ok : Nat → Prop} {s s'}, SetChange x ss.length ok s s' → SetChange x ss.length (fun _ => True) s s' := by
        intro ok s s' h
        induction h with
        | refl => exact .refl _
        | insert c _ h _ ih => exact .insert c ih h trivial
        | extract c _ h ih => exact .extract c ih h
      exact gen (R.change t)
  have hpick : ∀ t, R.pick t ∈ (R.mid t).mem ∧ (R.mid t).mem ⊆ (R.s t).mem ∧
      ∀ d ∈ (R.mid t).mem, d = R.pick t ∨ x.Better (HCB.after ss t).cur (R.pick t) d := by
    intro t
    obtain ⟨h1, h2⟩ := hst t
    obtain ⟨r, s', h3, h4, -, -, h5⟩ := hcb_pick_best hne hpos t (R.orph t) h2
    have hsel := R.select t
    rw [h1, h3] at hsel
    simp only [Option.some.injEq, Prod.mk.injEq] at hsel
    obtain ⟨e1, -, e3⟩ := hsel
    rw [← e3]
    obtain ⟨f1, -, -, f4⟩ := h5 _ e1
    exact ⟨f1, h4.subset, f4⟩
  -- a clause in the set at two times was there in between and was not picked
  have hold : ∀ t d, (∃ t' ≤ t, d ∈ (R.s t').mem) → d ∈ (R.s (t + 1)).mem → d ∈ (R.mid t).mem ∧ d ≠ R.pick t := by
    intro t d hd hm
    have := change_old (R.change t) (c := d) (by push Not; exact hd) hm
    simp only [USet.extract] at this
    have hnd : (R.mid t).mem.Nodup := by
      have hr := (hst t)
      obtain ⟨r, s', h3, h4, -⟩ := hcb_pick_best hne hpos t (R.orph t) hr.2
      have hsel := R.select t
      rw [hr.1, h3] at hsel
      simp only [Option.some.injEq, Prod.mk.injEq] at hsel
      rw [← hsel.2.2]
      exact h4.nodup (reach_ok hr.2).nodup
    rw [hnd.mem_erase_iff] at this
    exact ⟨this.2, this.1⟩
  have hgone : ∀ t k, R.pick t ∉ (R.s (t + 1 + k)).mem := by
    intro t k
    have h0 : R.pick t ∈ (R.s t).mem := (hpick t).2.1 (hpick t).1
    induction k with
    | zero => exact fun hm => (hold t _ ⟨t, Nat.le_refl _, h0⟩ hm).2 rfl
    | succ k ih =>
      intro hm
      have := hold (t + 1 + k) (R.pick t) ⟨t, by omega, h0⟩ hm
      exact ih ((hpick _).2.1 this.1)
  have hinj : Function.Injective R.pick := by
    intro a b hab
    have key : ∀ a b, a < b → R.pick a ≠ R.pick b := by
      intro a b hlt he
      obtain ⟨k, rfl⟩ := Nat.exists_eq_add_of_le (show a + 1 ≤ b by omega)
      exact hgone a k (by rw [he]; exact (hpick _).2.1 (hpick _).1)
    rcases Nat.lt_trichotomy a b with h | h | h
    · exact absurd hab (key a b h)
    · exact h
    · exact absurd hab.symm (key b a h)
  -- the times at which function `i` is active
  have hsum : 0 < ss.sum := by
    have h1 := before_succ hi
    have h2 := before_mono (ss := ss) (i := i + 1) (j := ss.length) hi
    rw [before_length] at h2
    have := hpos ss[i] (List.getElem_mem hi)
    omega
  have hilt : (ss.take i).sum < ss.sum := by
    have h1 := before_succ hi
    have h2 := before_mono (ss := ss) (i := i + 1) (j := ss.length) hi
    rw [before_length] at h2
    have := hpos ss[i] (List.getElem_mem hi)
    simp only [before] at h1 h2
    omega
  let T : Nat → Nat := fun m => (t0 + m) * ss.sum + (ss.take i).sum
  have hT : ∀ m, t0 ≤ T m := fun m => by
    have : t0 + m ≤ (t0 + m) * ss.sum := Nat.le_mul_of_pos_right _ hsum
    simp only [T]; omega
  have hact : ∀ m, (HCB.after ss (T m)).cur = i := by
    intro m
    rw [hcb_turns hne hpos _ i hi]
    have : T m % ss.sum = (ss.take i).sum := by
      simp only [T]; rw [Nat.mul_comm, Nat.mul_add_mod, Nat.mod_eq_of_lt hilt]
    rw [this]
    exact ⟨Nat.le_refl _, by have := hpos ss[i] (List.getElem_mem hi); omega⟩
  have hbetter : ∀ m, R.pick (T m) ∈ {d | x.Better i d c ∧ ∃ t, d ∈ (R.s t).mem} := by
    intro m
    obtain ⟨h1, h2, h3⟩ := hpick (T m)
    have hcm : c ∈ (R.mid (T m)).mem := (hold (T m) c ⟨T m, Nat.le_refl _, hin _ (hT m)⟩ (hin _ (by have := hT m; omega))).1
    rcases h3 c hcm with h | h
    · exact absurd h.symm (hnone _ (hT m))
    · rw [hact m] at h
      exact ⟨h, _, h2 h1⟩
  have hTinj : Function.Injective T := by
    intro a b hab
    simp only [T] at hab
    have : (t0 + a) * ss.sum = (t0 + b) * ss.sum := by omega
    have := Nat.eq_of_mul_eq_mul_right hsum this
    omega
  exact Set.infinite_of_injective_forall_mem (hinj.comp hTinj) hbetter hfin

/-! ## Deletion of bad clauses -/

theorem deleteBad_run {ss : List Nat} (hne : ss ≠ []) (hpos : ∀ s ∈ ss, 0 < s) (s : USet) (number : Nat) :
    deleteBad (.build ss) s number = some (s.mem.filter fun c => !(runDel ⟨fun i => (s.trees i).toList, fun c => decide (c ∈ s.mem), number, 0⟩
      (turns ss.length number)).marked c) := by
  obtain ⟨h1, h2⟩ := sw_build hpos
  have hl : 0 < ss.length := List.length_pos_iff.2 hne
  have := delLoop_eq h1 (by omega) number ⟨fun i => (s.trees i).toList, fun c => decide (c ∈ s.mem), number, 0⟩ (Nat.le_refl _)
  rw [deleteBad, this, h2]
  rfl

/-- C35: when bad clauses are deleted, this ends, and exactly the given number of clauses is kept, or all if there are not more. -/
theorem hcb_delete_keeps {x : EvalCtx H} {ss : List Nat} (hne : ss ≠ []) (hpos : ∀ s ∈ ss, 0 < s) {s : USet} (hs : SetReach x ss.length s) (number : Nat) :
    ∃ kept, deleteBad (.build ss) s number = some kept ∧ kept.Sublist s.mem ∧ kept.length = min number s.mem.length := by
  have hl : 0 < ss.length := List.length_pos_iff.2 hne
  have hinv := runDel_inv (reach_ok hs).nodup (turns ss.length number) [] _ (start_inv (reach_ok hs) number) (turns_lt hl)
  refine ⟨_, deleteBad_run hne hpos s number, List.filter_sublist, ?_⟩
  have := hinv.count
  simpa [turns] using this

/-- C35 (partial: the number of picks of a function should be in proportion to its declared number): each function has its say in what is kept.
With `n` functions, for every deleted clause and every function at least `n * (number / n²)` clauses are kept that are better for that function. -/
theorem hcb_delete_best_partial {x : EvalCtx H} {ss : List Nat} (hne : ss ≠ []) (hpos : ∀ s ∈ ss, 0 < s) {s : USet} (hs : SetReach x ss.length s)
    {number : Nat} {kept : List Nat} (hk : deleteBad (.build ss) s number = some kept) {c : Nat} (hc : c ∈ s.mem) (hd : c ∉ kept) {i : Nat}
    (hi : i < ss.length) : ∃ b : List Nat, b.Sublist kept ∧ (∀ e ∈ b, x.Better i e c) ∧ b.length = ss.length * (number / (ss.length * ss.length)) := by
  have hl : 0 < ss.length := List.length_pos_iff.2 hne
  have hinv := runDel_inv (reach_ok hs).nodup (turns ss.length number) [] _ (start_inv (reach_ok hs) number) (turns_lt hl)
  rw [deleteBad_run hne hpos s number] at hk
  cases hk
  generalize (runDel _ _) = d at hinv hd ⊢
  have hm : d.marked c = true := by
    by_contra h
    exact hd (List.mem_filter.2 ⟨hc, by simpa using h⟩)
  have hb := hinv.best c hm i hi
  have hcnt := turns_count hl hi (number / (ss.length * ss.length)) number (Nat.mul_div_le _ _)
  rw [List.nil_append] at hb
  refine ⟨(s.mem.filter fun e => !d.marked e && decide (evalCompare x i e c = .lt)).take (ss.length * (number / (ss.length * ss.length))), ?_, ?_, ?_⟩
  · refine (List.take_sublist _ _).trans ?_
    rw [show (fun e => !d.marked e && decide (evalCompare x i e c = .lt)) = fun e => (decide (evalCompare x i e c = .lt)) && !d.marked e from
      funext fun e => Bool.and_comm _ _, ← List.filter_filter]
    exact List.filter_sublist
  · intro e he
    have := (List.mem_filter.1 (List.mem_of_mem_take he)).2
    simp only [Bool.and_eq_true, decide_eq_true_eq] at this
    exact better_iff.1 this.2
  · rw [List.length_take]
    omega

/-- C35: the code does not use the declared numbers of picks when it deletes bad clauses (the bound of the inner loop is looked up with the wrong
index): all heuristics with the same number of functions keep the same clauses. -/
theorem hcb_delete_ignores_ratio {ss ss' : List Nat} (hne : ss ≠ []) (hpos : ∀ s ∈ ss, 0 < s) (hpos' : ∀ s ∈ ss', 0 < s) (hlen : ss'.length = ss.length)
    (s : USet) (number : Nat) : deleteBad (.build ss) s number = deleteBad (.build ss') s number := by
  have hne' : ss' ≠ [] := by
    intro h
    rw [h] at hlen
    exact hne (List.length_eq_zero_iff.1 hlen.symm)
  rw [deleteBad_run hne hpos, deleteBad_run hne' hpos', hlen]

/-! ## Cases that meet the hypotheses -/

namespace HCBEx

/-- Function 0 prefers old clauses, function 1 small values of `7 - c`, that is new ones. -/
def ctx : EvalCtx Int := ⟨fun _ _ => 0, fun c i => if i = 0 then 0 else 7 - (c : Int)⟩

def grow : Nat → USet
  | 0 => .empty
  | k + 1 => (grow k).insert ctx 2 k

theorem grow_mem : ∀ k, (grow k).mem = List.range k := by
  intro k
  induction k with
  | zero => rfl
  | succ k ih => rw [List.range_succ, ← ih]; rfl

theorem grow_reach : ∀ k, SetReach ctx 2 (grow k) := by
  intro k
  induction k with
  | zero => exact .empty
  | succ k ih => exact .change ih (.insert k (.refl _) (by rw [grow_mem]; simp) trivial)

/-- Picks 2 : 1 from six clauses, clause 0 is orphaned: the first pick takes 1, and deletes 0. -/
example : (hcbSelect ctx (fun c => c == 0) (HCB.after [2, 1] 0) (grow 6)).map (fun r => (r.1, r.2.1.cur, r.2.2.mem)) = some (some 1, 0, [1, 2, 3, 4, 5]) := by
  decide +kernel

/-- The third pick is made with function 1. -/
example : (hcbSelect ctx (fun c => c == 0) (HCB.after [2, 1] 2) (grow 6)).map (fun r => (r.1, r.2.1.cur)) = some (some 5, 0) := by decide +kernel

example := hcb_pick_best (ss := [2, 1]) (by simp) (by simp) 2 (fun c => c == 0) (grow_reach 6)
example := hcb_ratio (ss := [2, 1]) (by simp) (by simp) 3 0 (by simp)

/-- Five picks for the old clauses and one for the new ones, six of ten are kept.  With the declared numbers these would be 0 to 4 and 9, but
each function gets two picks in turn. -/
theorem hcb_delete_witness : deleteBad (.build [5, 1]) (grow 10) 6 = some [0, 1, 2, 3, 8, 9] := by decide +kernel

example := hcb_delete_keeps (ss := [5, 1]) (by simp) (by simp) (grow_reach 10) 6
example := hcb_delete_best_partial (ss := [5, 1]) (by simp) (by simp) (grow_reach 10) hcb_delete_witness (c := 5) (by rw [grow_mem]; simp) (by simp)
  (i := 1) (by simp)

/-- A run: at each time the best clause is taken, and a new one enters. -/
def step (t : Nat) (p : HCB × USet) : Nat × USet × HCB × USet :=
  match hcbSelect ctx (fun _ => false) p.1 p.2 with
  | some (some c, h', s') => (c, s', h', (s'.extract ctx 2 c).insert ctx 2 (t + 2))
  | _ => (0, .empty, p.1, .empty)

def state : Nat → HCB × USet
  | 0 => (.build [2, 1], grow 2)
  | t + 1 => (step t (state t)).2.2

theorem state_ok : ∀ t, (state t).1 = HCB.after [2, 1] t ∧ SetReach ctx 2 (state t).2 ∧ (∀ t' ≤ t, ∀ c ∈ (state t').2.mem, c < t + 2) ∧
    (state t).2.mem ≠ [] ∧
    ∃ c s', hcbSelect ctx (fun _ => false) (state t).1 (state t).2 = some (some c, HCB.after [2, 1] (t + 1), s') ∧ c ∈ s'.mem ∧
      s'.mem = (state t).2.mem ∧ step t (state t) = (c, s', HCB.after [2, 1] (t + 1), (s'.extract ctx 2 c).insert ctx 2 (t + 2)) := by
  have sel : ∀ t, (state t).1 = HCB.after [2, 1] t → SetReach ctx 2 (state t).2 → (state t).2.mem ≠ [] →
      ∃ c s', hcbSelect ctx (fun _ => false) (state t).1 (state t).2 = some (some c, HCB.after [2, 1] (t + 1), s') ∧ c ∈ s'.mem ∧
        s'.mem = (state t).2.mem ∧ step t (state t) = (c, s', HCB.after [2, 1] (t + 1), (s'.extract ctx 2 c).insert ctx 2 (t + 2)) := by
    intro t h1 h2 h3
    obtain ⟨r, s', e1, e2, e3, e4, e5⟩ := hcb_pick_best (ss := [2, 1]) (by simp) (by simp) t (fun _ => false) h2
    have hsub : (state t).2.mem ⊆ s'.mem := fun c hc => by
      by_contra hn
      exact absurd (e3 c hc hn) (by simp)
    have hm : s'.mem = (state t).2.mem :=
      e2.eq_of_length_le ((List.subperm_of_subset (reach_ok h2).nodup hsub).length_le)
    cases r with
    | none =>
      obtain ⟨c, hc⟩ := List.exists_mem_of_ne_nil _ h3
      exact absurd (e4 rfl c hc) (by simp)
    | some c =>
      refine ⟨c, s', by rw [h1]; exact e1, (e5 c rfl).1, hm, ?_⟩
      rw [step, h1, e1]
  intro t
  induction t with
  | zero =>
    have h1 : (state 0).1 = HCB.after [2, 1] 0 := rfl
    have h2 : SetReach ctx 2 (state 0).2 := grow_reach 2
    have h3 : (state 0).2.mem = [0, 1] := grow_mem 2
    refine ⟨h1, h2, ?_, by rw [h3]; simp, sel 0 h1 h2 (by rw [h3]; simp)⟩
    intro t' ht c hc
    have : t' = 0 := by omega
    subst this
    rw [h3] at hc
    simp at hc
    omega
  | succ t ih =>
    obtain ⟨h1, h2, h3, h4, c, s', e1, e2, e3, e4⟩ := ih
    have g1 : (state (t + 1)).1 = HCB.after [2, 1] (t + 1) := by rw [state, e4]
    have gs : (state (t + 1)).2 = (s'.extract ctx 2 c).insert ctx 2 (t + 2) := by rw [state, e4]
    have hlt : ∀ d ∈ s'.mem.erase c, d < t + 2 := fun d hd => h3 t (Nat.le_refl _) d (by rw [← e3]; exact List.mem_of_mem_erase hd)
    have hm : SetReach ctx 2 s' := .select h2 (by rw [h1]; exact congrArg List.length (hcb_after_at (ss := [2, 1]) (by simp) (by simp) (by simp) t).switch) e1
    have g2 : SetReach ctx 2 (state (t + 1)).2 := by
      rw [gs]
      exact .change hm (.insert _ (.extract c (.refl _) e2) (fun hd => absurd (hlt _ hd) (by omega)) trivial)
    have g3 : (state (t + 1)).2.mem = s'.mem.erase c ++ [t + 2] := by rw [gs]; rfl
    refine ⟨g1, g2, ?_, by rw [g3]; simp, sel (t + 1) g1 g2 (by rw [g3]; simp)⟩
    intro t' ht d hd
    by_cases h : t' = t + 1
    · subst h
      rw [g3] at hd
      rcases List.mem_append.1 hd with hd | hd
      · have := hlt d hd; omega
      · simp at hd; omega
    · have := h3 t' (by omega) d hd
      omega

def run : SelRun ctx [2, 1] where
  h t := (state t).1
  s t := (state t).2
  orph _ _ := false
  pick t := (step t (state t)).1
  mid t := (step t (state t)).2.1
  start := rfl
  reach := grow_reach 2
  select t := by
    obtain ⟨-, -, -, -, c, s', e1, -, -, e4⟩ := state_ok t
    rw [state, e1, e4]
  change t := by
    obtain ⟨-, -, h3, -, c, s', -, -, e3, e4⟩ := state_ok t
    rw [state, e4]
    refine .insert _ (.refl _) ?_ ?_
    · intro hd
      have := h3 t (Nat.le_refl _) (t + 2) (by rw [← e3]; exact List.mem_of_mem_erase hd)
      omega
    · intro t' ht hd
      have := h3 t' ht _ hd
      omega

/-- In this run clause 1 is picked at some time. -/
example : ∃ t ≥ 0, run.pick t = 1 := by
  refine hcb_fair (by simp) (by simp) run 1 0 (fun t _ => ?_) 0 (by simp) ?_
  · intro hn
    induction t with
    | zero => show 1 ∈ (grow 2).mem; rw [grow_mem]; simp
    | succ t ih =>
      have h1 := ih (Nat.zero_le _) fun t' h1 h2 => hn t' h1 (by omega)
      have h2 := hn t (Nat.zero_le _) (by omega)
      obtain ⟨-, -, -, -, c, s', -, -, e3, e4⟩ := state_ok t
      show 1 ∈ (state (t + 1)).2.mem
      have h2 : (step t (state t)).1 ≠ 1 := h2
      rw [e4] at h2
      rw [state, e4]
      refine List.mem_append_left _ ?_
      show 1 ∈ s'.mem.erase c
      rw [List.mem_erase_of_ne (Ne.symm h2), e3]
      exact h1
  · refine Set.Finite.subset (Set.finite_le_nat 1) ?_
    rintro d ⟨hd, -⟩
    simp only [EvalCtx.Better, ctx] at hd
    simp at hd ⊢
    omega

end HCBEx

end Verif.Props
