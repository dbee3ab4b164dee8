import Verif.Heuristics.HCB
import Verif.Props.Splay
import Mathlib.Order.Compare
import Mathlib.Algebra.Order.Group.Int
import Mathlib.Data.List.Induction

/-! # Proofs about clause selection -/

namespace Verif.HCBProof
open Verif Verif.Props Verif.STree

variable {H : Type} [LinearOrder H]

/-! ## The comparison -/

theorem evalCompare_lex (x : EvalCtx H) (pos a b : Nat) : evalCompare x pos a b =
    ((compare (x.prio a pos) (x.prio b pos)).then (compare (x.heur a pos) (x.heur b pos))).then (compare a b) := by
  unfold evalCompare
  by_cases hp : x.prio a pos = x.prio b pos
  · rw [if_neg (by simpa using hp), hp]
    by_cases hab : a = b
    · subst hab; simp
    · rw [if_neg hab]
      simp only [Std.ReflCmp.compare_self, Ordering.then]
      cases compare (x.heur a pos) (x.heur b pos) <;> rfl
  · rw [if_pos (by simpa using hp)]
    cases hc : compare (x.prio a pos) (x.prio b pos) with
    | eq => exact absurd (Std.LawfulEqCmp.eq_of_compare hc) hp
    | lt => rfl
    | gt => rfl

instance evalCompare_trans (x : EvalCtx H) (pos : Nat) : Std.TransCmp (evalCompare x pos) := by
  have : evalCompare x pos = compareLex (compareLex (compareOn fun c => x.prio c pos) (compareOn fun c => x.heur c pos)) compare := by
    funext a b
    rw [evalCompare_lex]
    rfl
  rw [this]
  infer_instance

theorem evalCompare_eq {x : EvalCtx H} {pos a b : Nat} : evalCompare x pos a b = .eq ↔ a = b := by
  rw [evalCompare_lex]
  constructor
  · intro h
    rw [Ordering.then_eq_eq] at h
    exact Std.LawfulEqCmp.eq_of_compare h.2
  · rintro rfl
    simp

/-! ## The set -/

/-- The trees hold the members, sorted. -/
structure SetOK (x : EvalCtx H) (n : Nat) (s : USet) : Prop where
  nodup : s.mem.Nodup
  tree : ∀ i < n, TreeRel (evalCompare x i) id (s.trees i) s.mem

theorem ok_empty (x : EvalCtx H) (n : Nat) : SetOK x n .empty :=
  ⟨by simp [USet.empty], fun i _ => ⟨by simp [USet.empty, Sorted, toList], by simp [USet.empty, toList]⟩⟩

theorem ok_insert {x : EvalCtx H} {n : Nat} {s : USet} (h : SetOK x n s) {c : Nat} (hc : c ∉ s.mem) : SetOK x n (s.insert x n c) := by
  refine ⟨by simp only [USet.insert]; rw [List.nodup_append]; exact ⟨h.nodup, by simp, by simp; rintro a ha rfl; exact hc ha⟩, fun i hi => ?_⟩
  have := (insert_rel (h.tree i hi) c).2
  have hl : look (evalCompare x i) id s.mem (id c) = none := by
    rw [look_none]
    intro y hy he
    rw [evalCompare_eq] at he
    simp only [id] at he
    subst he
    exact hc hy
  simp only [mapStep, hl] at this
  simp only [USet.insert, if_pos hi]
  exact ⟨this.1, this.2.trans (List.perm_append_comm (l₁ := [c]) (l₂ := s.mem))⟩

theorem ok_extract {x : EvalCtx H} {n : Nat} {s : USet} (h : SetOK x n s) (c : Nat) : SetOK x n (s.extract x n c) := by
  refine ⟨h.nodup.erase c, fun i hi => ?_⟩
  have := (extract_rel (h.tree i hi) c).2
  simp only [USet.extract, if_pos hi]
  rw [h.nodup.erase_eq_filter]
  have hf : s.mem.filter (fun y => evalCompare x i c (id y) != .eq) = s.mem.filter (fun y => y != c) := by
    apply List.filter_congr
    intro y _
    have hiff := evalCompare_eq (x := x) (pos := i) (a := c) (b := y)
    rw [Bool.eq_iff_iff]
    simp only [id, bne_iff_ne, ne_eq, hiff]
    exact ⟨fun h e => h e.symm, fun h e => h e.symm⟩
  rw [hf] at this
  exact this

theorem findBest_spec {x : EvalCtx H} {n : Nat} {s : USet} (h : SetOK x n s) {pos : Nat} (hp : pos < n) :
    match s.findBest pos with
    | none => s.mem = []
    | some c => c ∈ s.mem ∧ ∀ d ∈ s.mem, d = c ∨ evalCompare x pos c d = .lt := by
  have ht := h.tree pos hp
  have := findSmallest_correct (cmp := evalCompare x pos) (key := id) ht.1
  unfold USet.findBest
  cases hf : (s.trees pos).findSmallest with
  | none =>
    rw [hf] at this
    have hp2 := ht.2
    simp only at this
    rw [this] at hp2
    exact hp2.nil_eq.symm
  | some c =>
    rw [hf] at this
    exact ⟨ht.2.mem_iff.1 this.1, fun d hd => this.2 d (ht.2.mem_iff.2 hd)⟩

/-- What the selection loop does. -/
theorem selectLoop_spec {x : EvalCtx H} {n pos : Nat} (hp : pos < n) (orph : Nat → Bool) : ∀ (k : Nat) (s : USet), SetOK x n s →
    s.mem.length < k → ∃ r s', selectLoop x n pos orph k s = some (r, s') ∧ SetOK x n s' ∧ s'.mem.Sublist s.mem ∧
      (∀ c ∈ s.mem, c ∉ s'.mem → orph c = true) ∧
      match r with
      | none => s'.mem = []
      | some c => c ∈ s'.mem ∧ orph c = false ∧ (∀ d ∈ s'.mem, d = c ∨ evalCompare x pos c d = .lt) ∧
          ∀ d ∈ s.mem, d ∉ s'.mem → evalCompare x pos d c = .lt := by
  intro k
  induction k with
  | zero => intro s _ h; omega
  | succ k ih =>
    intro s hs hk
    have hb := findBest_spec hs hp
    rw [selectLoop]
    cases hf : s.findBest pos with
    | none =>
      rw [hf] at hb
      exact ⟨none, s, rfl, hs, List.Sublist.refl _, fun c h1 h2 => absurd h1 h2, hb⟩
    | some c =>
      rw [hf] at hb
      obtain ⟨h1, h2⟩ := hb
      cases ho : orph c with
      | false =>
        simp only [ho]
        exact ⟨some c, s, rfl, hs, List.Sublist.refl _, fun c h1 h2 => absurd h1 h2, h1, ho, h2, fun c h1 h2 => absurd h1 h2⟩
      | true =>
        simp only [ho, if_true]
        have hlen : (s.extract x n c).mem.length < k := by
          simp only [USet.extract]
          rw [List.length_erase_of_mem h1]
          have := List.length_pos_of_mem h1
          omega
        obtain ⟨r, s', g1, g2, g3, g4, g5⟩ := ih (s.extract x n c) (ok_extract hs c) hlen
        refine ⟨r, s', g1, g2, g3.trans List.erase_sublist, ?_, ?_⟩
        · intro d hd hd'
          by_cases hdc : d = c
          · rw [hdc]; exact ho
          · exact g4 d ((List.mem_erase_of_ne hdc).2 hd) hd'
        · cases r with
          | none => exact g5
          | some e =>
            obtain ⟨e1, e2, e3, e4⟩ := g5
            refine ⟨e1, e2, e3, fun d hd hd' => ?_⟩
            by_cases hdc : d = c
            · subst hdc
              rcases h2 e ((g3.trans List.erase_sublist).subset e1) with h | h
              · subst h; exact absurd e1 hd'
              · exact h
            · exact e4 d ((List.mem_erase_of_ne hdc).2 hd) hd'

/-! ## The counters -/

/-- The number of picks before function `i` in a cycle. -/
def before (ss : List Nat) (i : Nat) : Nat := (ss.take i).sum

theorem before_succ {ss : List Nat} {i : Nat} (h : i < ss.length) : before ss (i + 1) = before ss i + ss[i] := by
  simp only [before]
  rw [← List.take_append_getElem h, List.sum_append]
  simp [List.sum]

theorem before_length (ss : List Nat) : before ss ss.length = ss.sum := by simp [before]

theorem before_mono {ss : List Nat} {i j : Nat} (h : i ≤ j) : before ss i ≤ before ss j := by
  induction h with
  | refl => exact Nat.le_refl _
  | @step j _ ih =>
    refine ih.trans ?_
    by_cases hj : j < ss.length
    · rw [before_succ hj]; omega
    · simp only [before]
      rw [List.take_of_length_le (by omega), List.take_of_length_le (by omega)]

theorem build_spec (ss : List Nat) : (HCB.build ss).cur = 0 ∧ (HCB.build ss).cnt = 0 ∧
    (HCB.build ss).switch = (List.range ss.length).map fun i => before ss (i + 1) := by
  induction ss using List.reverseRecOn with
  | nil => simp [HCB.build, HCB.alloc]
  | append_singleton ss s ih =>
    obtain ⟨h1, h2, h3⟩ := ih
    have hb : HCB.build (ss ++ [s]) = (HCB.build ss).add s := by simp [HCB.build]
    rw [hb]
    refine ⟨h1, h2, ?_⟩
    simp only [HCB.add, h3, List.length_append, List.length_singleton, List.range_succ, List.map_append, List.map_cons, List.map_nil]
    have hm : (List.range ss.length).map (fun i => before (ss ++ [s]) (i + 1)) = (List.range ss.length).map (fun i => before ss (i + 1)) := by
      apply List.map_congr_left
      intro i hi
      simp only [List.mem_range] at hi
      simp only [before]
      rw [List.take_append_of_le_length (by omega)]
    rw [hm]
    congr 2
    have hl : before (ss ++ [s]) (ss.length + 1) = ss.sum + s := by
      simp only [before]
      rw [List.take_of_length_le (by simp), List.sum_append]
      simp [List.sum]
    rw [hl]
    cases hn : ss.length with
    | zero =>
      have : ss = [] := List.length_eq_zero_iff.1 hn
      subst this
      simp
    | succ m =>
      rw [List.range_succ, List.map_append]
      simp only [List.map_cons, List.map_nil, List.getLast?_append, List.getLast?_singleton, Option.some_or, Option.getD_some]
      rw [← hn, before_length]
      omega

/-- The counters after `r` picks in a cycle. -/
structure At (ss : List Nat) (r : Nat) (h : HCB) : Prop where
  switch : h.switch = (List.range ss.length).map fun i => before ss (i + 1)
  cnt : h.cnt = r
  cur : h.cur < ss.length
  lo : before ss h.cur ≤ r
  hi : r < before ss (h.cur + 1)

theorem at_build {ss : List Nat} (hne : ss ≠ []) (hpos : ∀ s ∈ ss, 0 < s) : At ss 0 (HCB.build ss) := by
  obtain ⟨h1, h2, h3⟩ := build_spec ss
  have hl : 0 < ss.length := List.length_pos_iff.2 hne
  refine ⟨h3, h2, by omega, by rw [h1]; simp [before], ?_⟩
  rw [h1, before_succ hl]
  have := hpos ss[0] (List.getElem_mem hl)
  omega

theorem at_lt {ss : List Nat} {r : Nat} {h : HCB} (ha : At ss r h) : r < ss.sum := by
  have h1 := ha.hi
  have h2 := before_mono (ss := ss) (i := h.cur + 1) (j := ss.length) (by have := ha.cur; omega)
  rw [before_length] at h2
  omega

theorem at_advance {ss : List Nat} (hpos : ∀ s ∈ ss, 0 < s) {r : Nat} {h : HCB} (ha : At ss r h) :
    At ss ((r + 1) % ss.sum) h.advance := by
  have hl := at_lt ha
  have hlen : h.switch.length = ss.length := by rw [ha.switch]; simp
  have hdrop : ∀ c, c < ss.length → h.switch.drop c = before ss (c + 1) :: h.switch.drop (c + 1) := by
    intro c hc
    rw [List.drop_eq_getElem_cons (by omega)]
    congr 1
    simp [ha.switch]
  have hne : ss ≠ [] := by rintro rfl; have := ha.cur; simp at this
  unfold HCB.advance
  simp only [ha.cnt]
  rw [hdrop _ ha.cur, advLoop]
  by_cases he : r + 1 = before ss (h.cur + 1)
  · rw [if_pos he]
    by_cases hc : h.cur + 1 < ss.length
    · rw [hdrop _ hc, advLoop]
      have h2 := before_succ hc
      have h3 := hpos ss[h.cur + 1] (List.getElem_mem hc)
      have h4 : r + 1 < ss.sum := by
        have := before_mono (ss := ss) (i := h.cur + 1 + 1) (j := ss.length) (by omega)
        rw [before_length] at this
        omega
      rw [if_neg (show ¬ r + 1 = before ss (h.cur + 1 + 1) by omega), if_neg (by omega), Nat.mod_eq_of_lt h4]
      exact ⟨ha.switch, rfl, hc, by show before ss (h.cur + 1) ≤ _; omega, by show _ < before ss (h.cur + 1 + 1); omega⟩
    · have h5 : h.cur + 1 = ss.length := by have := ha.cur; omega
      have hd : h.switch.drop (h.cur + 1) = [] := by rw [List.drop_eq_nil_iff]; omega
      rw [hd, advLoop, if_pos (by omega)]
      have h6 : r + 1 = ss.sum := by rw [he, h5, before_length]
      rw [h6, Nat.mod_self]
      have hb := at_build hne hpos
      obtain ⟨b1, b2, b3⟩ := build_spec ss
      exact ⟨ha.switch, rfl, by rw [← b1]; exact hb.cur, by simp [before], by have := hb.hi; rw [b1] at this; exact this⟩
  · rw [if_neg he, if_neg (by have := ha.cur; omega)]
    have h1 := ha.hi
    have h4 : r + 1 < ss.sum := by
      have := before_mono (ss := ss) (i := h.cur + 1) (j := ss.length) (by have := ha.cur; omega)
      rw [before_length] at this
      omega
    rw [Nat.mod_eq_of_lt h4]
    have := ha.lo
    exact ⟨ha.switch, rfl, ha.cur, by show before ss h.cur ≤ _; omega, by show _ < before ss (h.cur + 1); omega⟩

theorem at_unique {ss : List Nat} {r i : Nat} {h : HCB} (ha : At ss r h) (h1 : before ss i ≤ r) (h2 : r < before ss (i + 1)) : h.cur = i := by
  rcases Nat.lt_trichotomy h.cur i with hlt | heq | hgt
  · have := before_mono (ss := ss) (i := h.cur + 1) (j := i) hlt
    have := ha.hi
    omega
  · exact heq
  · have := before_mono (ss := ss) (i := i + 1) (j := h.cur) hgt
    have := ha.lo
    omega

end Verif.HCBProof
