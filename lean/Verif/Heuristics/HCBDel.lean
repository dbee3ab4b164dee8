import Verif.Heuristics.HCBProof

/-!
# Deletion of bad clauses: proofs
-/

namespace Verif.HCBProof
open Verif STree

variable {H : Type} [LinearOrder H]

/-- The calls of the inner loop body, for the functions in the list. -/
def runDel (d : DelSt) (l : List Nat) : DelSt := l.foldl (fun d i => delOne i d) d

theorem runDel_number (l : List Nat) : ∀ d : DelSt, (runDel d l).number = d.number - l.length := by
  induction l with
  | nil => intro d; rfl
  | cons i l ih => intro d; simp only [runDel, List.foldl_cons] at ih ⊢; rw [ih]; simp only [delOne, List.length_cons]; omega

theorem runDel_append (d : DelSt) (a b : List Nat) : runDel d (a ++ b) = runDel (runDel d a) b := List.foldl_append ..

/-- The array is good: each function is reached. -/
def SwOK (sw : List Nat) : Prop := ∀ j < sw.length, j < sw.getD j 0

theorem delInner_eq {sw : List Nat} (hsw : SwOK sw) (i : Nat) : ∀ (k j : Nat) (d : DelSt), j ≤ sw.length → sw.length - j < k → 0 < d.number →
    delInner sw i k j d = runDel d (List.replicate (min (sw.length - j) d.number) i) := by
  intro k
  induction k with
  | zero => intro j d _ h; omega
  | succ k ih =>
    intro j d hj hk hd
    rw [delInner]
    by_cases h : j < sw.length
    · rw [if_pos (hsw j h)]
      have hn : (delOne i d).number = d.number - 1 := rfl
      have hm : min (sw.length - j) d.number = min (sw.length - (j + 1)) (d.number - 1) + 1 := by omega
      rw [hm, List.replicate_succ]
      show (if (delOne i d).number = 0 then delOne i d else delInner sw i k (j + 1) (delOne i d)) = runDel (delOne i d) _
      by_cases h0 : (delOne i d).number = 0
      · rw [if_pos h0]
        have : min (sw.length - (j + 1)) (d.number - 1) = 0 := by omega
        rw [this]; rfl
      · rw [if_neg h0, ih (j + 1) _ h (by omega) (by omega), hn]
    · have : j = sw.length := by omega
      subst this
      rw [if_neg (by simp)]
      simp [runDel]

theorem delFuns_eq {sw : List Nat} (hsw : SwOK sw) : ∀ (is : List Nat) (d : DelSt), 0 < d.number →
    delFuns sw is d = runDel d ((is.flatMap fun i => List.replicate sw.length i).take d.number) := by
  intro is
  induction is with
  | nil => intro d _; simp [delFuns, runDel]
  | cons i is ih =>
    intro d hd
    rw [delFuns]
    have h1 := delInner_eq hsw i (sw.length + 1) 0 d (Nat.zero_le _) (by omega) hd
    rw [Nat.sub_zero] at h1
    show (if (delInner sw i (sw.length + 1) 0 d).number = 0 then _ else _) = _
    have hn : (delInner sw i (sw.length + 1) 0 d).number = d.number - min sw.length d.number := by
      rw [h1, runDel_number]; simp
    rw [List.flatMap_cons, List.take_append, List.take_replicate, List.length_replicate, runDel_append, Nat.min_comm d.number, ← h1]
    by_cases h0 : (delInner sw i (sw.length + 1) 0 d).number = 0
    · rw [if_pos h0]
      have : d.number - sw.length = 0 := by omega
      rw [this]; simp [runDel]
    · rw [if_neg h0, ih _ (by omega), hn]
      congr 2
      omega

theorem flat_eq {n : Nat} (hn : 0 < n) : ∀ m, (List.range m).flatMap (fun i => List.replicate n i) = (List.range (m * n)).map fun t => t / n := by
  intro m
  induction m with
  | zero => simp
  | succ m ih =>
    rw [List.range_succ, List.flatMap_append, ih, Nat.succ_mul, List.range_add, List.map_append]
    congr 1
    simp only [List.flatMap_cons, List.flatMap_nil, List.append_nil, List.map_map]
    refine (List.eq_replicate_iff.2 ⟨by simp, ?_⟩).symm
    intro b hb
    obtain ⟨r, hr, rfl⟩ := List.mem_map.1 hb
    have := List.mem_range.1 hr
    simp only [Function.comp_apply]
    rw [Nat.mul_comm, Nat.mul_add_div hn, Nat.div_eq_of_lt this, Nat.add_zero]

/-- The function of each pick: in turn, each function gets as many picks as there are functions. -/
def turns (n N : Nat) : List Nat := (List.range N).map fun t => t / n % n

theorem turns_split {n N : Nat} (hn : 0 < n) : turns n N = ((List.range n).flatMap fun i => List.replicate n i).take N ++ turns n (N - n * n) := by
  rw [flat_eq hn]
  by_cases h : N ≤ n * n
  · rw [show N - n * n = 0 by omega]
    simp only [turns, List.range_zero, List.map_nil, List.append_nil]
    rw [← List.map_take, List.take_range, Nat.min_eq_left h]
    apply List.map_congr_left
    intro t ht
    have := List.mem_range.1 ht
    exact Nat.mod_eq_of_lt ((Nat.div_lt_iff_lt_mul hn).2 (by omega))
  · obtain ⟨c, rfl⟩ := Nat.exists_eq_add_of_le (show n * n ≤ N by omega)
    rw [List.take_of_length_le (by simp), show n * n + c - n * n = c by omega]
    simp only [turns]
    rw [List.range_add, List.map_append]
    congr 1
    · apply List.map_congr_left
      intro t ht
      have := List.mem_range.1 ht
      exact Nat.mod_eq_of_lt ((Nat.div_lt_iff_lt_mul hn).2 (by omega))
    · rw [List.map_map]
      apply List.map_congr_left
      intro t _
      simp only [Function.comp_apply]
      rw [Nat.mul_add_div hn, Nat.add_mod_left]

theorem delLoop_eq {sw : List Nat} (hsw : SwOK sw) (hne : 0 < sw.length) : ∀ (k : Nat) (d : DelSt), d.number ≤ k →
    delLoop sw k d = some (runDel d (turns sw.length d.number)) := by
  intro k
  induction k with
  | zero =>
    intro d h
    have : d.number = 0 := by omega
    simp [delLoop, this, turns, runDel]
  | succ k ih =>
    intro d h
    rw [delLoop]
    by_cases h0 : d.number = 0
    · simp [h0, turns, runDel]
    · rw [if_neg h0]
      have hf := delFuns_eq hsw (List.range sw.length) d (by omega)
      have hlen : ((List.range sw.length).flatMap fun i => List.replicate sw.length i).length = sw.length * sw.length := by
        rw [flat_eq hne]; simp
      have hnum : (delFuns sw (List.range sw.length) d).number = d.number - sw.length * sw.length := by
        rw [hf, runDel_number, List.length_take, hlen]; omega
      have : 0 < sw.length * sw.length := Nat.mul_pos hne hne
      rw [ih _ (by omega), hnum, hf, ← runDel_append, ← turns_split hne]

theorem sw_build {ss : List Nat} (hpos : ∀ s ∈ ss, 0 < s) : SwOK (HCB.build ss).switch ∧ (HCB.build ss).switch.length = ss.length := by
  have h3 := (build_spec ss).2.2
  refine ⟨fun j hj => ?_, by rw [h3]; simp⟩
  rw [h3] at hj ⊢
  simp only [List.length_map, List.length_range] at hj
  simp only [List.getD_eq_getElem?_getD, List.getElem?_map, List.getElem?_range hj, Option.map_some, Option.getD_some]
  have : ∀ k, k ≤ ss.length → k ≤ before ss k := by
    intro k
    induction k with
    | zero => intro _; exact Nat.zero_le _
    | succ k ih =>
      intro hk
      rw [before_succ (by omega)]
      have := hpos ss[k] (List.getElem_mem _)
      have := ih (by omega)
      omega
  have := this (j + 1) hj
  omega

/-! ## What a pick does -/

theorem nextMarked_spec (marked : Nat → Bool) (l : List Nat) :
    match (nextMarked marked l).1 with
    | none => ∀ c ∈ l, marked c = false
    | some c => marked c = true ∧ ∃ a, (∀ e ∈ a, marked e = false) ∧ l = a ++ c :: (nextMarked marked l).2 := by
  induction l with
  | nil => simp [nextMarked]
  | cons e l ih =>
    rw [nextMarked]
    by_cases h : marked e = true
    · rw [if_pos h]
      exact ⟨h, [], by simp, rfl⟩
    · rw [if_neg h]
      cases hq : (nextMarked marked l).1 with
      | none =>
        rw [hq] at ih
        intro c hc
        rcases List.mem_cons.1 hc with rfl | hc
        · simpa using h
        · exact ih c hc
      | some c =>
        rw [hq] at ih
        obtain ⟨h1, a, h2, h3⟩ := ih
        refine ⟨h1, e :: a, ?_, by rw [List.cons_append, ← h3]⟩
        intro b hb
        rcases List.mem_cons.1 hb with rfl | hb
        · simpa using h
        · exact h2 b hb

/-- The invariant of the loops after the picks `l`. -/
structure DelInv (x : EvalCtx H) (n : Nat) (mem l : List Nat) (d : DelSt) : Prop where
  sorted : ∀ i < n, (d.rem i).Pairwise fun a b => evalCompare x i a b = .lt
  left : ∀ c, d.marked c = true → c ∈ mem ∧ ∀ i < n, c ∈ d.rem i
  count : (mem.filter fun c => !d.marked c).length = min l.length mem.length
  best : ∀ c, d.marked c = true → ∀ i < n, l.count i ≤ (mem.filter fun e => !d.marked e && decide (evalCompare x i e c = .lt)).length

theorem filter_add {mem : List Nat} (hnd : mem.Nodup) {p q : Nat → Bool} {c : Nat} (hc : c ∈ mem) (hpc : p c = false) (hqc : q c = true)
    (hpq : ∀ e, e ≠ c → q e = p e) : (mem.filter q).length = (mem.filter p).length + 1 := by
  induction mem with
  | nil => cases hc
  | cons a mem ih =>
    rw [List.nodup_cons] at hnd
    by_cases ha : a = c
    · subst ha
      rw [List.filter_cons, List.filter_cons, if_pos hqc, if_neg (by simp [hpc]), List.length_cons]
      congr 2
      apply List.filter_congr
      rintro e he
      exact hpq e (by rintro rfl; exact hnd.1 he)
    · have := ih hnd.2 ((List.mem_cons.1 hc).resolve_left (Ne.symm ha))
      rw [List.filter_cons, List.filter_cons, hpq a ha]
      split <;> simp [this]

theorem filter_le {mem : List Nat} {p q : Nat → Bool} (h : ∀ e, p e = true → q e = true) : (mem.filter p).length ≤ (mem.filter q).length := by
  induction mem with
  | nil => simp
  | cons a mem ih =>
    rw [List.filter_cons, List.filter_cons]
    by_cases hp : p a = true
    · rw [if_pos hp, if_pos (h a hp)]; simpa using ih
    · rw [if_neg hp]; split
      · rw [List.length_cons]; omega
      · exact ih

theorem delOne_inv {x : EvalCtx H} {n : Nat} {mem l : List Nat} (hnd : mem.Nodup) {d : DelSt} (h : DelInv x n mem l d) {i : Nat} (hi : i < n) :
    DelInv x n mem (l ++ [i]) (delOne i d) := by
  have hsp := nextMarked_spec d.marked (d.rem i)
  cases hq : (nextMarked d.marked (d.rem i)).1 with
  | none =>
    rw [hq] at hsp
    have hno : ∀ c, d.marked c = false := by
      intro c
      by_contra hc
      have hc : d.marked c = true := by simpa using hc
      have := hsp c ((h.left c hc).2 i hi)
      rw [hc] at this; cases this
    have hm : (delOne i d).marked = d.marked := by simp [delOne, hq]
    have hall : (mem.filter fun c => !d.marked c).length = mem.length := by simp [hno]
    have hcnt := h.count
    refine ⟨fun k hk => ?_, fun c hc => ?_, ?_, fun c hc => ?_⟩
    · simp only [delOne]
      split
      · have : (nextMarked d.marked (d.rem i)).2 = [] := by
          have gen : ∀ l : List Nat, (nextMarked d.marked l).2 = [] := by
            intro l
            induction l with
            | nil => rfl
            | cons a l ih => rw [nextMarked, if_neg (by simp [hno])]; exact ih
          exact gen _
        rw [this]; exact List.Pairwise.nil
      · exact h.sorted k hk
    · rw [hm, hno] at hc; cases hc
    · rw [hm]; simp only [List.length_append, List.length_singleton]; omega
    · rw [hm, hno] at hc; cases hc
  | some c =>
    rw [hq] at hsp
    obtain ⟨hc, a, ha, hl⟩ := hsp
    have hm : ∀ k, (delOne i d).marked k = if k = c then false else d.marked k := by intro k; simp [delOne, hq]
    have hold : ∀ k, (delOne i d).marked k = true → k ≠ c ∧ d.marked k = true := by
      intro k hk
      rw [hm] at hk
      by_cases hkc : k = c
      · rw [if_pos hkc] at hk; cases hk
      · rw [if_neg hkc] at hk; exact ⟨hkc, hk⟩
    have hrest : ∀ k, (delOne i d).marked k = true → k ∈ (nextMarked d.marked (d.rem i)).2 := by
      intro k hk
      obtain ⟨h1, h2⟩ := hold k hk
      have := (h.left k h2).2 i hi
      rw [hl] at this
      rcases List.mem_append.1 this with hka | hka
      · rw [ha k hka] at h2; cases h2
      · exact (List.mem_cons.1 hka).resolve_left h1
    have hsort := h.sorted i hi
    rw [hl, List.pairwise_append, List.pairwise_cons] at hsort
    have hcount : (mem.filter fun k => !(delOne i d).marked k).length = (mem.filter fun k => !d.marked k).length + 1 :=
      filter_add hnd (h.left c hc).1 (by simp [hc]) (by simp [hm]) (by intro e he; simp [hm, he])
    have hlt : (mem.filter fun k => !d.marked k).length < mem.length := by
      have := List.length_filter_le (fun k => !(delOne i d).marked k) mem
      omega
    refine ⟨fun k hk => ?_, fun e he => ?_, ?_, fun e he k hk => ?_⟩
    · simp only [delOne]
      split
      · next hki => subst hki; exact hsort.2.1.2
      · exact h.sorted k hk
    · obtain ⟨h1, h2⟩ := hold e he
      refine ⟨(h.left e h2).1, fun k hk => ?_⟩
      simp only [delOne]
      split
      · exact hrest e he
      · exact (h.left e h2).2 k hk
    · rw [hcount, h.count]
      have := h.count
      simp only [List.length_append, List.length_singleton]
      omega
    · obtain ⟨h1, h2⟩ := hold e he
      have hb := h.best e h2 k hk
      rw [List.count_append]
      by_cases hki : k = i
      · subst hki
        have hce : evalCompare x k c e = .lt := hsort.2.1.1 e (hrest e he)
        rw [filter_add (p := fun z => !d.marked z && decide (evalCompare x k z e = .lt)) hnd (h.left c hc).1 (by simp [hc]) (by simp [hm, hce])
          (by intro z hz; simp [hm, hz])]
        simp
        exact hb
      · have : List.count k [i] = 0 := by simp [Ne.symm hki]
        rw [this, Nat.add_zero]
        refine hb.trans (filter_le fun z hz => ?_)
        simp only [Bool.and_eq_true, Bool.not_eq_true', decide_eq_true_eq] at hz ⊢
        refine ⟨?_, hz.2⟩
        rw [hm]; split
        · rfl
        · exact hz.1

theorem runDel_inv {x : EvalCtx H} {n : Nat} {mem : List Nat} (hnd : mem.Nodup) : ∀ (l' l : List Nat) (d : DelSt), DelInv x n mem l d →
    (∀ i ∈ l', i < n) → DelInv x n mem (l ++ l') (runDel d l') := by
  intro l'
  induction l' with
  | nil => intro l d h _; simpa [runDel] using h
  | cons i l' ih =>
    intro l d h hl
    have := ih (l ++ [i]) (delOne i d) (delOne_inv hnd h (hl i (by simp))) (fun k hk => hl k (by simp [hk]))
    simpa [runDel] using this

theorem start_inv {x : EvalCtx H} {n : Nat} {s : USet} (hs : SetOK x n s) (number : Nat) :
    DelInv x n s.mem [] ⟨fun i => (s.trees i).toList, fun c => decide (c ∈ s.mem), number, 0⟩ := by
  refine ⟨fun i hi => (hs.tree i hi).1, fun c hc => ?_, ?_, fun c _ i _ => by simp⟩
  · have hc : c ∈ s.mem := by simpa using hc
    exact ⟨hc, fun i hi => (hs.tree i hi).2.mem_iff.2 hc⟩
  · rw [List.filter_eq_nil_iff (l := s.mem).2 (by intro a ha; simp [ha])]
    simp

theorem turns_lt {n N : Nat} (hn : 0 < n) : ∀ i ∈ turns n N, i < n := by
  intro i hi
  obtain ⟨t, -, rfl⟩ := List.mem_map.1 hi
  exact Nat.mod_lt _ hn

theorem turns_count {n : Nat} (hn : 0 < n) {i : Nat} (hi : i < n) (q : Nat) : ∀ N, n * n * q ≤ N → n * q ≤ (turns n N).count i := by
  induction q with
  | zero => intro N _; simp
  | succ q ih =>
    intro N hN
    rw [Nat.mul_succ] at hN
    rw [turns_split hn, List.count_append, List.take_of_length_le (by rw [flat_eq hn]; simp; omega)]
    have h1 := ih (N - n * n) (by omega)
    have h2 : List.count i ((List.range n).flatMap fun k => List.replicate n k) = n := by
      rw [List.count_flatMap]
      have : (List.map (List.count i ∘ fun k => List.replicate n k) (List.range n)) = (List.range n).map fun k => if k = i then n else 0 := by
        apply List.map_congr_left
        intro k _
        simp [List.count_replicate]
      rw [this]
      have gen : ∀ m, ((List.range m).map fun k => if k = i then n else 0).sum = if i < m then n else 0 := by
        intro m
        induction m with
        | zero => simp
        | succ m ihm =>
          rw [List.range_succ, List.map_append, List.sum_append, ihm]
          simp only [List.map_cons, List.map_nil, List.sum_cons, List.sum_nil]
          grind
      rw [gen, if_pos hi]
    rw [h2, Nat.mul_succ]
    omega

end Verif.HCBProof
