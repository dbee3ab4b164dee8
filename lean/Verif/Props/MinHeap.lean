import Verif.Basics.MinHeap

/-!
# C33: the binary heap always yields the least element
-/

namespace Verif.Props
open Verif Heap

variable {E : Type} [DecidableEq E]

/-- `lt` is the strict part of a total preorder. -/
structure WeakOrder (lt : E → E → Bool) : Prop where
  asymm : ∀ a b, lt a b = true → lt b a = false
  negtrans : ∀ a b c, lt a b = false → lt b c = false → lt a c = false

/-- No element is smaller than its parent. -/
def HeapProp (lt : E → E → Bool) (h : Heap E) : Prop := ∀ c, c ≠ 0 → c < h.size → lt (h.arr c) (h.arr (parent c)) = false

/-- The recorded positions are right: elements of the heap know their position, all others are marked as absent. -/
def PosRight (h : Heap E) : Prop := (∀ i < h.size, h.pos (h.arr i) = i) ∧ ∀ e, e ∉ h.elems → h.pos e = -1

/-! ### Exchanging two elements -/

private def InRight (h : Heap E) : Prop := ∀ i < h.size, h.pos (h.arr i) = i

/-- What the sifting operations do to the recorded positions. -/
private def PosStep (h h' : Heap E) : Prop := (h.elems.Nodup → InRight h → InRight h') ∧ ∀ e, e ∉ h.elems → h'.pos e = h.pos e

omit [DecidableEq E] in
private theorem PosStep.refl (h : Heap E) : PosStep h h := ⟨fun _ hp => hp, fun _ _ => rfl⟩

omit [DecidableEq E] in
private theorem PosStep.trans {h h' h'' : Heap E} (he : h'.elems = h.elems) (h1 : PosStep h h') (h2 : PosStep h' h'') : PosStep h h'' :=
  ⟨fun hn hp => h2.1 (he ▸ hn) (h1.1 hn hp), fun e hx => (h2.2 e (he ▸ hx)).trans (h1.2 e hx)⟩

private theorem swap_arr (h : Heap E) {i j : Nat} (k : Nat) :
    (h.swap i j).arr k = h.arr (if k = j then i else if k = i then j else k) := by
  simp only [Heap.swap, Heap.put, Heap.setPos]
  by_cases h1 : k = j
  · simp [h1]
  · by_cases h2 : k = i
    · subst h2; simp [h1]
    · simp [h1, h2]

private theorem swap_elems (h : Heap E) {i j : Nat} (hi : i < h.size) (hj : j < h.size) : (h.swap i j).elems = h.elems := by
  have hs : (h.swap i j).size = h.size := rfl
  unfold Heap.elems
  rw [hs, show (h.swap i j).arr = h.arr ∘ (fun k => if k = j then i else if k = i then j else k) from funext fun k => swap_arr h k,
    ← Multiset.map_map]
  congr 1
  rw [Multiset.Nodup.ext]
  · intro a
    simp only [Multiset.mem_map, Multiset.mem_range]
    constructor
    · rintro ⟨b, hb, rfl⟩
      split_ifs <;> assumption
    · intro ha
      refine ⟨if a = j then i else if a = i then j else a, ?_, ?_⟩
      · split_ifs <;> assumption
      · split_ifs <;> simp_all
  · refine Multiset.Nodup.map_on ?_ (Multiset.nodup_range _)
    intro a _ b _ hab
    split_ifs at hab <;> simp_all
  · exact Multiset.nodup_range _

/-- All positions hold different elements. -/
private def Inj (h : Heap E) : Prop := ∀ i < h.size, ∀ j < h.size, h.arr i = h.arr j → i = j

omit [DecidableEq E] in
private theorem inj_of_nodup {h : Heap E} (hn : h.elems.Nodup) : Inj h := by
  intro i hi j hj he
  exact Multiset.inj_on_of_nodup_map hn i (Multiset.mem_range.2 hi) j (Multiset.mem_range.2 hj) he

private theorem swap_pos {h : Heap E} {i j : Nat} (hi : i < h.size) (hj : j < h.size) : PosStep h (h.swap i j) := by
  refine ⟨?_, ?_⟩
  · intro hn hp k hk
    have hin := inj_of_nodup hn
    have hk' : k < h.size := hk
    rw [swap_arr]
    simp only [Heap.swap, Heap.put, Heap.setPos]
    by_cases h1 : k = j
    · subst h1
      rw [if_pos rfl]
      by_cases h2 : h.arr i = h.arr k
      · have := hin i hi k hk' h2; subst this; simp
      · simp [h2]
    · rw [if_neg h1]
      by_cases h2 : k = i
      · subst h2; simp
      · rw [if_neg h2, if_neg (fun he => h1 (hin _ hk' _ hj he)), if_neg (fun he => h2 (hin _ hk' _ hi he))]
        exact hp k hk'
  · intro e he
    have h1 : e ≠ h.arr i := by
      rintro rfl; exact he (Multiset.mem_map_of_mem _ (Multiset.mem_range.2 hi))
    have h2 : e ≠ h.arr j := by
      rintro rfl; exact he (Multiset.mem_map_of_mem _ (Multiset.mem_range.2 hj))
    simp only [Heap.swap, Heap.put, Heap.setPos, h1, h2, if_false]

/-! ### Sifting -/

private theorem parent_lt {c : Nat} (hc : c ≠ 0) : parent c < c := by unfold parent; omega

private theorem bubble_spec {lt : E → E → Bool} (ho : WeakOrder lt) (h : Heap E) (i : Nat) (hi : i < h.size)
    (h1 : ∀ c, c ≠ 0 → c < h.size → c ≠ i → lt (h.arr c) (h.arr (parent c)) = false)
    (h2 : ∀ c, c ≠ 0 → c < h.size → parent c = i → i ≠ 0 → lt (h.arr c) (h.arr (parent i)) = false) :
    HeapProp lt (bubbleUp lt h i) ∧ (bubbleUp lt h i).size = h.size ∧ (bubbleUp lt h i).elems = h.elems ∧
    PosStep h (bubbleUp lt h i) := by
  fun_induction bubbleUp lt h i with
  | case1 h => exact ⟨fun c hc hs => h1 c hc hs hc, rfl, rfl, PosStep.refl h⟩
  | case2 h i h0 hlt ih =>
    have hpi := parent_lt h0
    have hp : parent i < h.size := by omega
    have key := ih hp ?_ ?_
    · obtain ⟨i1, i2, i3, i4⟩ := key
      refine ⟨i1, i2, i3.trans (swap_elems h hi hp), (swap_pos hi hp).trans (swap_elems h hi hp) i4⟩
    · intro c hc hs hcp
      have hs' : c < h.size := hs
      rw [swap_arr, swap_arr, if_neg hcp]
      by_cases hci : c = i
      · subst hci
        rw [if_pos rfl, if_pos rfl]
        exact ho.asymm _ _ hlt
      · rw [if_neg hci]
        by_cases hc1 : parent c = parent i
        · rw [if_pos hc1]
          have := h1 c hc hs' hci
          rw [hc1] at this
          exact ho.negtrans _ _ _ this (ho.asymm _ _ hlt)
        · rw [if_neg hc1]
          by_cases hc2 : parent c = i
          · rw [if_pos hc2]
            exact h2 c hc hs' hc2 h0
          · rw [if_neg hc2]
            exact h1 c hc hs' hci
    · intro c hc hs hcp hp0
      have hs' : c < h.size := hs
      have e1 : parent (parent i) ≠ parent i := (parent_lt hp0).ne
      have e2 : parent (parent i) ≠ i := by have := parent_lt hp0; omega
      have e3 : c ≠ parent i := by have := parent_lt hc; omega
      rw [swap_arr, swap_arr, if_neg e1, if_neg e2, if_neg e3]
      have hpp := h1 (parent i) hp0 hp (by omega)
      by_cases hci : c = i
      · rw [if_pos hci]
        exact hpp
      · rw [if_neg hci]
        have := h1 c hc hs' hci
        rw [hcp] at this
        exact ho.negtrans _ _ _ this hpp
  | case3 h i h0 hlt =>
    refine ⟨fun c hc hs => ?_, rfl, rfl, PosStep.refl h⟩
    by_cases hci : c = i
    · subst hci; simpa using hlt
    · exact h1 c hc hs hci

omit [DecidableEq E] in
private theorem minChild_least {lt : E → E → Bool} (ho : WeakOrder lt) (h : Heap E) (i : Nat) :
    lt (h.arr i) (h.arr (minChild lt h i)) = false ∧ lt (h.arr (2 * i + 1)) (h.arr (minChild lt h i)) = false ∧
    (2 * i + 2 < h.size → lt (h.arr (2 * i + 2)) (h.arr (minChild lt h i)) = false) ∧
    (minChild lt h i ≠ i → lt (h.arr (minChild lt h i)) (h.arr i) = true) := by
  have irr : ∀ a, lt a a = false := by
    intro a
    cases ha : lt a a
    · rfl
    · exact absurd (ho.asymm _ _ ha) (by simp [ha])
  have as := ho.asymm
  have nt := ho.negtrans
  unfold minChild
  simp only
  split_ifs <;> grind

private theorem drop_spec {lt : E → E → Bool} (ho : WeakOrder lt) (h : Heap E) (i : Nat) (hi : i < h.size)
    (h1 : ∀ c, c ≠ 0 → c < h.size → parent c ≠ i → lt (h.arr c) (h.arr (parent c)) = false)
    (h2 : ∀ c, c ≠ 0 → c < h.size → parent c = i → i ≠ 0 → lt (h.arr c) (h.arr (parent i)) = false) :
    HeapProp lt (dropDown lt h i) ∧ (dropDown lt h i).size = h.size ∧ (dropDown lt h i).elems = h.elems ∧
    PosStep h (dropDown lt h i) := by
  fun_induction dropDown lt h i with
  | case1 h i hl =>
    refine ⟨fun c hc hs => h1 c hc hs ?_, rfl, rfl, PosStep.refl h⟩
    unfold parent
    omega
  | case2 h i hl hm =>
    obtain ⟨-, m2, m3, -⟩ := minChild_least ho h i
    rw [hm] at m2 m3
    refine ⟨fun c hc hs => ?_, rfl, rfl, PosStep.refl h⟩
    by_cases hpc : parent c = i
    · have : c = 2 * i + 1 ∨ c = 2 * i + 2 := by unfold parent at hpc; omega
      rw [hpc]
      rcases this with rfl | rfl
      · exact m2
      · exact m3 hs
    · exact h1 c hc hs hpc
  | case3 h i hl hm ih =>
    obtain ⟨-, m2, m3, m4⟩ := minChild_least ho h i
    have hmc := minChild_cases lt h i
    generalize hM : minChild lt h i = m at *
    have hms : m < h.size := by omega
    have hpm : parent m = i := by unfold parent; omega
    have hm0 : m ≠ 0 := by omega
    have him : i < m := by omega
    have key := ih hms ?_ ?_
    · obtain ⟨i1, i2, i3, i4⟩ := key
      refine ⟨i1, i2, i3.trans (swap_elems h hi hms), (swap_pos hi hms).trans (swap_elems h hi hms) i4⟩
    · intro c hc hs hcp
      have hs' : c < h.size := hs
      rw [swap_arr, swap_arr, if_neg hcp]
      by_cases hcm : c = m
      · subst hcm
        rw [if_pos rfl, hpm, if_pos rfl]
        exact ho.asymm _ _ (m4 (by omega))
      · rw [if_neg hcm]
        by_cases hci : c = i
        · subst hci
          rw [if_pos rfl, if_neg (parent_lt hc).ne]
          exact h2 m hm0 hms hpm hc
        · rw [if_neg hci]
          by_cases hpc : parent c = i
          · rw [if_pos hpc]
            have : c = 2 * i + 1 ∨ c = 2 * i + 2 := by unfold parent at hpc; omega
            rcases this with rfl | rfl
            · exact m2
            · exact m3 hs'
          · rw [if_neg hpc]
            exact h1 c hc hs' hpc
    · intro c hc hs hcp hp0
      have hs' : c < h.size := hs
      have : c ≠ m := by have := parent_lt hc; omega
      have : c ≠ i := by have := parent_lt hc; omega
      rw [swap_arr, swap_arr, hpm, if_neg (by assumption), if_neg (by assumption), if_neg him.ne, if_pos rfl]
      have := h1 c hc hs' (by omega)
      rwa [hcp] at this

/-! ### The operations -/

private theorem update_spec {lt : E → E → Bool} (ho : WeakOrder lt) (h : Heap E) (i : Nat) (hi : i < h.size)
    (h1 : ∀ c, c ≠ 0 → c < h.size → c ≠ i → parent c ≠ i → lt (h.arr c) (h.arr (parent c)) = false)
    (h2 : ∀ c, c ≠ 0 → c < h.size → parent c = i → i ≠ 0 → lt (h.arr c) (h.arr (parent i)) = false) :
    HeapProp lt (updateElement lt h i) ∧ (updateElement lt h i).size = h.size ∧ (updateElement lt h i).elems = h.elems ∧
    PosStep h (updateElement lt h i) := by
  unfold updateElement
  rw [if_pos (by omega), Int.toNat_natCast]
  split_ifs with hc
  · refine bubble_spec ho h i hi (fun c hc0 hs hci => ?_) h2
    by_cases hp : parent c = i
    · rw [hp]
      exact ho.negtrans _ _ _ (h2 c hc0 hs hp hc.1) (ho.asymm _ _ hc.2)
    · exact h1 c hc0 hs hci hp
  · refine drop_spec ho h i hi (fun c hc0 hs hp => ?_) h2
    by_cases hci : c = i
    · subst hci
      simpa [hc0] using hc
    · exact h1 c hc0 hs hci hp

omit [DecidableEq E] in
private theorem elems_succ (arr : Nat → E) (n : Nat) (pos : E → Int) :
    Heap.elems ⟨arr, n + 1, pos⟩ = arr n ::ₘ Heap.elems ⟨arr, n, pos⟩ := by
  simp [Heap.elems, Multiset.range_succ]

private theorem elems_put (arr : Nat → E) (n : Nat) (pos pos' : E → Int) (i : Nat) (e : E) (hi : i < n) :
    Heap.elems ⟨fun j => if j = i then e else arr j, n, pos'⟩ = e ::ₘ (Heap.elems ⟨arr, n, pos⟩).erase (arr i) := by
  have h1 : Multiset.range n = i ::ₘ (Multiset.range n).erase i := (Multiset.cons_erase (Multiset.mem_range.2 hi)).symm
  have h2 : i ∉ (Multiset.range n).erase i := Multiset.Nodup.notMem_erase (Multiset.nodup_range n)
  unfold Heap.elems
  simp only
  rw [h1, Multiset.map_cons, Multiset.map_cons, Multiset.erase_cons_head, if_pos rfl]
  congr 1
  refine Multiset.map_congr rfl fun x hx => ?_
  rw [if_neg]
  rintro rfl
  exact h2 hx

omit [DecidableEq E] in
private theorem elems_put_new (arr : Nat → E) (n : Nat) (pos pos' : E → Int) (e : E) :
    Heap.elems ⟨fun j => if j = n then e else arr j, n, pos'⟩ = Heap.elems ⟨arr, n, pos⟩ := by
  unfold Heap.elems
  refine Multiset.map_congr rfl fun x hx => ?_
  have := Multiset.mem_range.1 hx
  simp only at this ⊢
  rw [if_neg (by omega)]

omit [DecidableEq E] in
private theorem mem_elems {h : Heap E} {e : E} : e ∈ h.elems ↔ ∃ i < h.size, h.arr i = e := by
  simp [Heap.elems, Multiset.mem_map, Multiset.mem_range]

/-- Adding an element. -/
private theorem add_spec {lt : E → E → Bool} (ho : WeakOrder lt) {h : Heap E} (hh : HeapProp lt h) (e : E) :
    HeapProp lt (h.add lt e) ∧ (h.add lt e).elems = e ::ₘ h.elems ∧
    (h.elems.Nodup → e ∉ h.elems → PosRight h → PosRight (h.add lt e)) := by
  have key := bubble_spec ho (({ h with size := h.size + 1 }.put h.size e).setPos e h.size) h.size (Nat.lt_succ_self _) ?_ ?_
  · obtain ⟨k1, k2, k3, k4, k5⟩ := key
    have hel : (({ h with size := h.size + 1 }.put h.size e).setPos e h.size).elems = e ::ₘ h.elems := by
      simp only [Heap.put, Heap.setPos]
      rw [elems_succ, if_pos rfl, elems_put_new _ _ h.pos]
    refine ⟨k1, k3.trans hel, fun hn hne hp => ⟨k4 ?_ ?_, fun x hx => ?_⟩⟩
    · rw [hel, Multiset.nodup_cons]; exact ⟨hne, hn⟩
    · intro i hi
      simp only [Heap.put, Heap.setPos] at hi ⊢
      by_cases hin : i = h.size
      · simp [hin]
      · have hi' : i < h.size := by omega
        rw [if_neg hin, if_neg (fun he => hne (mem_elems.2 ⟨i, hi', he⟩))]
        exact hp.1 i hi'
    · rw [show (h.add lt e).elems = _ from k3] at hx
      rw [show (h.add lt e).pos x = _ from k5 x hx]
      rw [hel, Multiset.mem_cons, not_or] at hx
      simp only [Heap.put, Heap.setPos, if_neg hx.1]
      exact hp.2 x hx.2
  · intro c hc hs hcn
    simp only [Heap.put, Heap.setPos] at hs hcn ⊢
    have := parent_lt hc
    rw [if_neg hcn, if_neg (by omega)]
    exact hh c hc (by omega)
  · intro c hc hs hcp h0
    simp only [Heap.put, Heap.setPos] at hs hcp ⊢
    have := parent_lt hc
    omega

omit [DecidableEq E] in
/-- The least element is at the root. -/
private theorem root_least {lt : E → E → Bool} (ho : WeakOrder lt) {h : Heap E} (hh : HeapProp lt h) (i : Nat) (hi : i < h.size) :
    lt (h.arr i) (h.arr 0) = false := by
  induction i using Nat.strong_induction_on with
  | _ i ih =>
    by_cases h0 : i = 0
    · subst h0
      cases ha : lt (h.arr 0) (h.arr 0)
      · rfl
      · exact absurd (ho.asymm _ _ ha) (by simp [ha])
    · have := parent_lt h0
      exact ho.negtrans _ _ _ (hh i h0 hi) (ih _ this (by omega))

omit [DecidableEq E] in
private theorem elems_last (h : Heap E) (hs : h.size ≠ 0) : h.elems = h.arr (h.size - 1) ::ₘ Heap.elems ⟨h.arr, h.size - 1, h.pos⟩ := by
  obtain ⟨arr, size, pos⟩ := h
  obtain _ | n := size
  · exact absurd rfl hs
  · exact elems_succ arr n pos

/-- Replacing position `i` by the last element, with one element less. -/
private theorem fill_elems (h : Heap E) (i : Nat) (pos : E → Int) (hi : i < h.size - 1) :
    Heap.elems ⟨fun j => if j = i then h.arr (h.size - 1) else h.arr j, h.size - 1, pos⟩ = h.elems.erase (h.arr i) := by
  rw [elems_put _ _ h.pos _ _ _ hi]
  have hm : h.arr i ∈ Heap.elems ⟨h.arr, h.size - 1, h.pos⟩ := mem_elems.2 ⟨i, hi, rfl⟩
  rw [elems_last h (by omega), Multiset.erase_cons_tail_of_mem hm]

private theorem drop_last_elems (h : Heap E) (hs : h.size ≠ 0) (pos : E → Int) :
    Heap.elems ⟨h.arr, h.size - 1, pos⟩ = h.elems.erase (h.arr (h.size - 1)) := by
  rw [elems_last h hs, Multiset.erase_cons_head]
  rfl

/-- Both removal operations: the hole at `i` is filled with the last element, which is then sifted; `h1` is the state after that. -/
private theorem refill_pos {h h1 : Heap E} {i : Nat} (hi : i < h.size - 1) (pos0 : E → Int)
    (hpos0 : ∀ x, x ≠ h.arr i → pos0 x = h.pos x)
    (he : h1.elems = h.elems.erase (h.arr i))
    (hstep : PosStep (⟨fun j => if j = i then h.arr (h.size - 1) else h.arr j, h.size - 1,
        fun x => if x = h.arr (h.size - 1) then (i : Int) else pos0 x⟩ : Heap E) h1)
    (hn : h.elems.Nodup) (hp : PosRight h) : InRight h1 ∧ ∀ x, x ∉ h1.elems → x ≠ h.arr i → h1.pos x = -1 := by
  have hin := inj_of_nodup hn
  obtain ⟨k4, k5⟩ := hstep
  rw [fill_elems h i _ hi] at k4 k5
  refine ⟨k4 (hn.erase _) ?_, fun x hx hxi => ?_⟩
  · intro j hj
    simp only at hj ⊢
    by_cases hji : j = i
    · simp [hji]
    · rw [if_neg hji, if_neg (fun he => by have := hin j (by omega) _ (by omega) he; omega),
        hpos0 _ (fun he => hji (hin j (by omega) i (by omega) he))]
      exact hp.1 j (by omega)
  · rw [he] at hx
    rw [k5 x hx]
    have hxl : x ≠ h.arr (h.size - 1) := by
      rintro rfl
      refine hx ((Multiset.mem_erase_of_ne hxi).2 (mem_elems.2 ⟨_, by omega, rfl⟩))
    simp only [if_neg hxl]
    rw [hpos0 x hxi]
    exact hp.2 x fun hm => hx ((Multiset.mem_erase_of_ne hxi).2 hm)

private theorem pop_spec {lt : E → E → Bool} (ho : WeakOrder lt) {h : Heap E} (hh : HeapProp lt h) :
    (h.popMin lt = none ↔ h.elems = 0) ∧
    ∀ e h', h.popMin lt = some (e, h') → e ∈ h.elems ∧ (∀ x ∈ h.elems, lt x e = false) ∧ HeapProp lt h' ∧ h'.elems = h.elems.erase e ∧
      (h.elems.Nodup → PosRight h → PosRight h') := by
  constructor
  · unfold Heap.popMin
    have hc : h.elems.card = h.size := by simp [Heap.elems]
    split_ifs with hs
    · simp only [true_iff]
      rw [← Multiset.card_eq_zero, hc, hs]
    · simp only [false_iff]
      intro he
      rw [he] at hc
      exact hs (by simpa using hc.symm)
  · intro e h' hpop
    unfold Heap.popMin at hpop
    split_ifs at hpop with hs
    simp only [Option.some.injEq, Prod.mk.injEq] at hpop
    obtain ⟨rfl, hpop⟩ := hpop
    refine ⟨mem_elems.2 ⟨0, by omega, rfl⟩, ?_, ?_⟩
    · intro x hx
      obtain ⟨i, hi, rfl⟩ := mem_elems.1 hx
      exact root_least ho hh i hi
    by_cases hs1 : h.size - 1 = 0
    · rw [if_neg (by simpa using hs1)] at hpop
      subst hpop
      have h1 : h.size = 1 := by omega
      have hel := drop_last_elems h hs fun x => if x = h.arr 0 then -1 else h.pos x
      rw [h1] at hel
      simp only [Heap.setPos, h1]
      refine ⟨fun c hc hs => absurd hs (by simp), hel, fun hn hp => ⟨fun i hi => absurd hi (by simp), fun x hx => ?_⟩⟩
      simp only
      by_cases hx0 : x = h.arr 0
      · simp [hx0]
      · rw [if_neg hx0]
        refine hp.2 x fun hmem => ?_
        obtain ⟨i, hi, rfl⟩ := mem_elems.1 hmem
        exact hx0 (by rw [show i = 0 by omega])
    · rw [if_pos (by simpa using hs1)] at hpop
      simp only [Heap.put, Heap.setPos] at hpop
      subst hpop
      have hsz : 0 < h.size - 1 := by omega
      obtain ⟨k1, k2, k3, k4⟩ := drop_spec ho (⟨fun j => if j = 0 then h.arr (h.size - 1) else h.arr j, h.size - 1,
        fun x => if x = h.arr (h.size - 1) then 0 else h.pos x⟩ : Heap E) 0 hsz (by
          intro c hc hcs hp0
          simp only at hcs ⊢
          rw [if_neg hc, if_neg hp0]
          exact hh c hc (by omega)) (by simp)
      rw [fill_elems h 0 _ hsz] at k3
      refine ⟨k1, k3, fun hn hp => ?_⟩
      have hnm : h.arr 0 ∉ h.elems.erase (h.arr 0) := hn.notMem_erase
      obtain ⟨r1, r2⟩ := refill_pos hsz h.pos (fun _ _ => rfl) k3 k4 hn hp
      refine ⟨fun i hi => ?_, fun x hx => ?_⟩
      · simp only at hi ⊢
        rw [if_neg]
        · exact r1 i hi
        · intro he
          rw [← k3] at hnm
          exact hnm (mem_elems.2 ⟨i, hi, he⟩)
      · simp only
        by_cases hx0 : x = h.arr 0
        · simp [hx0]
        · rw [if_neg hx0]
          exact r2 x hx hx0

private theorem remove_spec {lt : E → E → Bool} (ho : WeakOrder lt) {h : Heap E} (hh : HeapProp lt h) {i : Nat} (hi : i < h.size) :
    HeapProp lt (h.removeElement lt i) ∧ (h.removeElement lt i).elems = h.elems.erase (h.arr i) ∧
    (h.elems.Nodup → PosRight h → PosRight (h.removeElement lt i)) := by
  by_cases hil : i = h.size - 1
  · rw [show h.removeElement lt i = ⟨h.arr, h.size - 1, fun x => if x = h.arr i then -1 else h.pos x⟩ from
      if_neg (not_not.2 hil)]
    have hel := drop_last_elems h (by omega) fun x => if x = h.arr i then -1 else h.pos x
    refine ⟨fun c hc hs => hh c hc (by simp only at hs; omega), by rw [hel, hil], fun hn hp => ⟨fun j hj => ?_, fun x hx => ?_⟩⟩
    · have hin := inj_of_nodup hn
      simp only at hj ⊢
      rw [if_neg (fun he => by have := hin j (by omega) _ hi he; omega)]
      exact hp.1 j (by omega)
    · simp only
      by_cases hxi : x = h.arr i
      · simp [hxi]
      · rw [if_neg hxi]
        rw [hel, ← hil] at hx
        exact hp.2 x fun hm => hx ((Multiset.mem_erase_of_ne hxi).2 hm)
  · have hsz : i < h.size - 1 := by omega
    rw [show h.removeElement lt i = updateElement lt ⟨fun j => if j = i then h.arr (h.size - 1) else h.arr j, h.size - 1,
        fun x => if x = h.arr (h.size - 1) then (i : Int) else if x = h.arr i then -1 else h.pos x⟩ i from if_pos hil]
    have key := update_spec ho (⟨fun j => if j = i then h.arr (h.size - 1) else h.arr j, h.size - 1,
        fun x => if x = h.arr (h.size - 1) then (i : Int) else if x = h.arr i then -1 else h.pos x⟩ : Heap E) i hsz ?_ ?_
    · obtain ⟨k1, k2, k3, k4⟩ := key
      rw [fill_elems h i _ hsz] at k3
      refine ⟨k1, k3, fun hn hp => ?_⟩
      have hnm : h.arr i ∉ h.elems.erase (h.arr i) := hn.notMem_erase
      obtain ⟨r1, r2⟩ := refill_pos hsz (fun x => if x = h.arr i then -1 else h.pos x) (fun x hx => if_neg hx) k3 k4 hn hp
      refine ⟨r1, fun x hx => ?_⟩
      by_cases hxi : x = h.arr i
      · rw [k3] at hx
        have hx' := hx
        rw [← fill_elems h i (fun x => if x = h.arr (h.size - 1) then (i : Int) else if x = h.arr i then -1 else h.pos x) hsz] at hx'
        rw [k4.2 x hx']
        have hin := inj_of_nodup hn
        have hne : x ≠ h.arr (h.size - 1) := by
          rintro rfl
          exact hil (hin _ (by omega) _ (by omega) hxi).symm
        simp only [if_neg hne, if_pos hxi]
      · exact r2 x hx hxi
    · intro c hc hcs hci hpi
      simp only at hcs ⊢
      rw [if_neg hci, if_neg hpi]
      exact hh c hc (by omega)
    · intro c hc hcs hpi hi0
      simp only at hcs ⊢
      have h1 := parent_lt hc
      have h2 := parent_lt hi0
      rw [if_neg (by omega), if_neg (by omega)]
      have h3 := hh c hc (by omega)
      rw [hpi] at h3
      exact ho.negtrans _ _ _ h3 (hh i hi0 hi)

/-! ### Histories -/

/-- The states reached by a history of operations, with the current comparison and the multiset of elements put in and not yet
removed.  `uniq` says that no element is added while it is in the heap (elements are pointers to distinct objects then).  `change`:
the key of the element at position `i` changes, then `MinHeapUpdateElement` is called. -/
inductive HeapReach (uniq : Bool) : (E → E → Bool) → Heap E → Multiset E → Prop where
  | init (lt) (arr) : WeakOrder lt → HeapReach uniq lt ⟨arr, 0, fun _ => -1⟩ 0
  | add {lt h M} (e : E) : HeapReach uniq lt h M → (uniq = true → e ∉ M) → HeapReach uniq lt (h.add lt e) (e ::ₘ M)
  | pop {lt h M e h'} : HeapReach uniq lt h M → h.popMin lt = some (e, h') → HeapReach uniq lt h' (M.erase e)
  | remove {lt h M} (i : Nat) : HeapReach uniq lt h M → i < h.size → HeapReach uniq lt (h.removeElement lt i) (M.erase (h.arr i))
  | change {lt h M lt'} (i : Nat) : HeapReach uniq lt h M → i < h.size → WeakOrder lt' → M.count (h.arr i) = 1 →
      (∀ a b, a ≠ h.arr i → b ≠ h.arr i → lt' a b = lt a b) → HeapReach uniq lt' (h.updateElement lt' i) M

/-- **C33.** After any history the heap property holds, the contents are what was put in and not removed, and the recorded positions
are right. -/
theorem heap_invariant {uniq : Bool} {lt : E → E → Bool} {h : Heap E} {M : Multiset E} (hr : HeapReach uniq lt h M) :
    WeakOrder lt ∧ HeapProp lt h ∧ h.elems = M ∧ (uniq = true → M.Nodup ∧ PosRight h) := by
  induction hr with
  | init lt arr ho => exact ⟨ho, fun c hc hs => absurd hs (by simp), rfl, fun _ => ⟨Multiset.nodup_zero, fun i hi => absurd hi (by simp), fun _ _ => rfl⟩⟩
  | add e hr hn ih =>
    obtain ⟨ho, hh, rfl, hu⟩ := ih
    obtain ⟨a1, a2, a3⟩ := add_spec ho hh e
    exact ⟨ho, a1, a2, fun u => ⟨Multiset.nodup_cons.2 ⟨hn u, (hu u).1⟩, a3 (hu u).1 (hn u) (hu u).2⟩⟩
  | pop hr hp ih =>
    obtain ⟨ho, hh, rfl, hu⟩ := ih
    obtain ⟨-, -, a1, a2, a3⟩ := (pop_spec ho hh).2 _ _ hp
    exact ⟨ho, a1, a2, fun u => ⟨(hu u).1.erase _, a3 (hu u).1 (hu u).2⟩⟩
  | remove i hr hi ih =>
    obtain ⟨ho, hh, rfl, hu⟩ := ih
    obtain ⟨a1, a2, a3⟩ := remove_spec ho hh hi
    exact ⟨ho, a1, a2, fun u => ⟨(hu u).1.erase _, a3 (hu u).1 (hu u).2⟩⟩
  | @change lt h M lt' i hr hi ho' hc1 hag ih =>
    obtain ⟨ho, hh, rfl, hu⟩ := ih
    have hne : ∀ j < h.size, j ≠ i → h.arr j ≠ h.arr i := by
      intro j hj hji he
      have h1 : Multiset.range h.size = j ::ₘ (Multiset.range h.size).erase j := (Multiset.cons_erase (Multiset.mem_range.2 hj)).symm
      have h2 : i ∈ (Multiset.range h.size).erase j := (Multiset.mem_erase_of_ne (Ne.symm hji)).2 (Multiset.mem_range.2 hi)
      rw [Heap.elems, h1, Multiset.map_cons, ← he, Multiset.count_cons_self] at hc1
      have : h.arr j ∈ Multiset.map h.arr ((Multiset.range h.size).erase j) := by
        rw [he]; exact Multiset.mem_map_of_mem _ h2
      have := Multiset.count_pos.2 this
      omega
    obtain ⟨k1, k2, k3, k4⟩ := update_spec ho' h i hi (by
      intro c hc hcs hci hpi
      rw [hag _ _ (hne c hcs hci) (hne _ (by have := parent_lt hc; omega) hpi)]
      exact hh c hc hcs) (by
      intro c hc hcs hpi hi0
      have h1 := parent_lt hc
      have h2 := parent_lt hi0
      rw [hag _ _ (hne c hcs (by omega)) (hne _ (by omega) (by omega))]
      have h3 := hh c hc hcs
      rw [hpi] at h3
      exact ho.negtrans _ _ _ h3 (hh i hi0 hi))
    refine ⟨ho', k1, k3, fun u => ⟨(hu u).1, k4.1 (hu u).1 (hu u).2.1, fun x hx => ?_⟩⟩
    rw [k3] at hx
    rw [k4.2 x hx]
    exact (hu u).2.2 x hx

/-- **C33.** `MinHeapPopMin` fails exactly on the empty heap and returns a least element otherwise. -/
theorem popMin_least {uniq : Bool} {lt : E → E → Bool} {h : Heap E} {M : Multiset E} (hr : HeapReach uniq lt h M) :
    (h.popMin lt = none ↔ M = 0) ∧
    ∀ e h', h.popMin lt = some (e, h') → e ∈ M ∧ ∀ x ∈ M, lt x e = false := by
  obtain ⟨ho, hh, rfl, -⟩ := heap_invariant hr
  refine ⟨(pop_spec ho hh).1, fun e h' hp => ?_⟩
  obtain ⟨a, b, -⟩ := (pop_spec ho hh).2 e h' hp
  exact ⟨a, b⟩

/-- **C33.** An element can be removed or updated through its recorded position: the position is negative exactly if the element is not
in the heap, and leads to the element otherwise. -/
theorem recorded_position {lt : E → E → Bool} {h : Heap E} {M : Multiset E} (hr : HeapReach true lt h M) (e : E) :
    (e ∉ M ∧ h.pos e = -1) ∨ (e ∈ M ∧ 0 ≤ h.pos e ∧ (h.pos e).toNat < h.size ∧ h.arr (h.pos e).toNat = e) := by
  obtain ⟨-, -, rfl, hu⟩ := heap_invariant hr
  obtain ⟨-, h1, h2⟩ := hu rfl
  by_cases he : e ∈ h.elems
  · obtain ⟨i, hi, rfl⟩ := mem_elems.1 he
    right
    rw [h1 i hi]
    exact ⟨he, by omega, by simpa using hi, by simp⟩
  · exact Or.inl ⟨he, h2 e he⟩

/-- **C33, disagreement.** `MinHeapDecrKey` is announced for elements whose key has decreased but sifts down (and `MinHeapIncrKey`
sifts up): in the heap with keys 1, 2, after the second element got key 0, `MinHeapDecrKey` changes nothing. -/
theorem decrKey_wrong_direction : ∃ (lt lt' : Nat → Nat → Bool) (h : Heap Nat),
    WeakOrder lt ∧ WeakOrder lt' ∧ HeapProp lt h ∧ (∀ a b, a ≠ h.arr 1 → b ≠ h.arr 1 → lt' a b = lt a b) ∧
    h.elems = {1, 2} ∧ ¬ HeapProp lt' (h.decrKey lt' 1) := by
  refine ⟨fun a b => decide (a < b), fun a b => decide ((if a = 2 then 0 else a) < (if b = 2 then 0 else b)), ⟨fun i => i + 1, 2, fun _ => -1⟩,
    ⟨?_, ?_⟩, ⟨?_, ?_⟩, ?_, ?_, ?_, ?_⟩
  · intro a b; simp; omega
  · intro a b c; simp; omega
  · intro a b; simp only [decide_eq_true_eq, decide_eq_false_iff_not]; split_ifs <;> omega
  · intro a b c; simp only [decide_eq_false_iff_not]; split_ifs <;> omega
  · intro c hc hs
    simp only at hs
    have : c = 1 := by omega
    subst this; simp [parent]
  · intro a b ha hb
    simp only [ne_eq, Nat.reduceAdd] at ha hb
    simp [ha, hb]
  · decide
  · intro hh
    rw [Heap.decrKey, dropDown, if_pos (by simp)] at hh
    exact absurd (hh 1 (by simp) (by simp)) (by decide)

/-! ### A history meeting the hypotheses -/

private theorem exOrder : WeakOrder fun a b : Nat => decide (a < b) :=
  ⟨fun a b => by simp; omega, fun a b c => by simp; omega⟩

example : ∃ (lt : Nat → Nat → Bool) (h : Heap Nat), HeapReach true lt h {2, 7} ∧ ∃ h', h.popMin lt = some (2, h') := by
  have r0 : HeapReach true (fun a b : Nat => decide (a < b)) ⟨fun _ => 0, 0, fun _ => -1⟩ 0 := .init _ _ exOrder
  have r2 := (r0.add 7 (by simp)).add 2 (by decide)
  refine ⟨_, _, r2, ?_⟩
  have h1 := (popMin_least r2).1
  cases hp : Heap.popMin (fun a b : Nat => decide (a < b)) (Heap.add (fun a b : Nat => decide (a < b))
    (Heap.add (fun a b : Nat => decide (a < b)) ⟨fun _ => 0, 0, fun _ => -1⟩ 7) 2) with
  | none => exact absurd (h1.1 hp) (by simp)
  | some p =>
    obtain ⟨e, h'⟩ := p
    have h2 := (popMin_least r2).2 e h' hp
    have h3 := h2.2 2 (by simp)
    have h4 := h2.1
    simp at h3 h4
    have : e = 2 := by omega
    exact ⟨h', by rw [this]⟩

end Verif.Props
