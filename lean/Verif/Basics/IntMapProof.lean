import Verif.Basics.IntMap
import Verif.Props.Splay

/-!
# Helper lemmas for C34
-/

namespace Verif

theorem doubleTo_gt (m s : Nat) (h : 0 < s) : m < doubleTo m s ∧ s ≤ doubleTo m s := by
  fun_induction doubleTo m s with
  | case1 s hc ih => have := ih (by omega); omega
  | case2 s hc => simp only [not_and] at hc; have := hc h; omega

theorem rangeArrSize_gt (m s g : Nat) (h : g = 0 → 0 < s) : m < rangeArrSize m s g := by
  unfold rangeArrSize
  by_cases hg : g = 0
  · simp only [hg, ne_eq, not_true_eq_false, if_false]; exact (doubleTo_gt m s (h hg)).1
  · simp only [ne_eq, hg, not_false_eq_true, if_true]
    have h1 := Nat.div_add_mod m g
    have h2 := Nat.mod_lt m (Nat.pos_of_ne_zero hg)
    have h3 : (m / g + 1) * g = g * (m / g) + g := by rw [Nat.add_mul, Nat.mul_comm]; omega
    omega

namespace RangeArr
variable {V : Type}

/-- The allocated size is positive if it is to be doubled. -/
def WF (a : RangeArr V) : Prop := a.grow = 0 → 0 < a.size

/-- The value stored for an index. -/
def val (a : RangeArr V) (k : Int) : Option V := if a.offset ≤ k ∧ k < a.offset + a.size then a.cells (k - a.offset).toNat else none

theorem alloc_wf (i : Int) (g : Nat) : (alloc i g : RangeArr V).WF := by
  intro h; simp only [alloc] at *; simp [h]

theorem alloc_val (i : Int) (g : Nat) (k : Int) : (alloc i g : RangeArr V).val k = none := by
  simp [alloc, val]

theorem covers_iff {a : RangeArr V} {k : Int} : a.covers k = true ↔ a.offset ≤ k ∧ k < a.offset + a.size := by
  simp [covers]

theorem val_in {a : RangeArr V} {k : Int} (h : a.offset ≤ k ∧ k < a.offset + a.size) : a.val k = a.cells (k - a.offset).toNat := if_pos h

theorem val_out {a : RangeArr V} {k : Int} (h : ¬(a.offset ≤ k ∧ k < a.offset + a.size)) : a.val k = none := if_neg h

theorem expandDown_spec {a : RangeArr V} (h : a.WF) {i : Int} (hi : i < a.offset) :
    (a.expandDown i).WF ∧ (a.expandDown i).covers i = true ∧ ∀ k, (a.expandDown i).val k = a.val k := by
  have hg := rangeArrSize_gt ((a.offset - i).toNat + a.size) a.size a.grow h
  have e1 : (a.expandDown i).size = rangeArrSize ((a.offset - i).toNat + a.size) a.size a.grow := rfl
  have e2 : (a.expandDown i).offset = a.offset - ((rangeArrSize ((a.offset - i).toNat + a.size) a.size a.grow - a.size : Nat) : Int) := rfl
  have e3 : ∀ j, (a.expandDown i).cells j = if j < rangeArrSize ((a.offset - i).toNat + a.size) a.size a.grow - a.size then none
    else if j - (rangeArrSize ((a.offset - i).toNat + a.size) a.size a.grow - a.size) < a.size then
      a.cells (j - (rangeArrSize ((a.offset - i).toNat + a.size) a.size a.grow - a.size)) else none := fun _ => rfl
  generalize a.expandDown i = b at *
  generalize rangeArrSize ((a.offset - i).toNat + a.size) a.size a.grow = s at *
  refine ⟨fun _ => by omega, covers_iff.2 (by omega), fun k => ?_⟩
  by_cases hb : b.offset ≤ k ∧ k < b.offset + b.size
  · rw [val_in hb, e3]
    split
    · rw [val_out (by omega)]
    · split
      · rw [val_in (by omega)]; congr 1; omega
      · rw [val_out (by omega)]
  · rw [val_out hb, val_out (by omega)]

theorem expandUp_spec {a : RangeArr V} (h : a.WF) {i : Int} (hi : a.offset + a.size ≤ i) :
    (a.expandUp i).WF ∧ (a.expandUp i).covers i = true ∧ ∀ k, (a.expandUp i).val k = a.val k := by
  have hg := rangeArrSize_gt ((i - a.offset).toNat + 1) a.size a.grow h
  have e1 : (a.expandUp i).size = rangeArrSize ((i - a.offset).toNat + 1) a.size a.grow := rfl
  have e2 : (a.expandUp i).offset = a.offset := rfl
  have e3 : ∀ j, (a.expandUp i).cells j = if j < a.size then a.cells j else none := fun _ => rfl
  generalize a.expandUp i = b at *
  generalize rangeArrSize ((i - a.offset).toNat + 1) a.size a.grow = s at *
  refine ⟨fun _ => by omega, covers_iff.2 (by omega), fun k => ?_⟩
  by_cases hb : b.offset ≤ k ∧ k < b.offset + b.size
  · rw [val_in hb, e3]
    split
    · rw [val_in (by omega), e2]
    · rw [val_out (by omega)]
  · rw [val_out hb, val_out (by omega)]

theorem ensure_spec {a : RangeArr V} (h : a.WF) (i : Int) :
    (a.ensure i).WF ∧ (a.ensure i).covers i = true ∧ ∀ k, (a.ensure i).val k = a.val k := by
  unfold ensure
  split
  · rename_i hc; exact ⟨h, hc, fun _ => rfl⟩
  · rename_i hc
    rw [covers_iff] at hc
    split
    · rename_i hi; exact expandDown_spec h hi
    · rename_i hi; exact expandUp_spec h (by omega)

theorem get_spec {a : RangeArr V} (h : a.WF) (i : Int) :
    (a.get i).1 = a.val i ∧ (a.get i).2.WF ∧ (∀ k, (a.get i).2.val k = a.val k) := by
  obtain ⟨h1, h2, h3⟩ := ensure_spec h i
  refine ⟨?_, h1, h3⟩
  rw [← h3, val_in (covers_iff.1 h2)]
  rfl

theorem set_spec {a : RangeArr V} (h : a.WF) (i : Int) (v : Option V) :
    (a.set i v).WF ∧ ∀ k, (a.set i v).val k = if k = i then v else a.val k := by
  obtain ⟨h1, h2, h3⟩ := ensure_spec h i
  refine ⟨h1, fun k => ?_⟩
  rw [← h3]
  rw [covers_iff] at h2
  have e1 : (a.set i v).size = (a.ensure i).size := rfl
  have e2 : (a.set i v).offset = (a.ensure i).offset := rfl
  have e3 : ∀ j, (a.set i v).cells j = if j = (i - (a.ensure i).offset).toNat then v else (a.ensure i).cells j := fun _ => rfl
  by_cases hk : k = i
  · subst hk; rw [val_in (by omega), e3]; simp [e2]
  · rw [if_neg hk]
    by_cases hb : (a.ensure i).offset ≤ k ∧ k < (a.ensure i).offset + (a.ensure i).size
    · rw [val_in (by omega), e3, if_neg (by omega), val_in hb, e2]
    · rw [val_out hb, val_out (by omega)]

/-- The entries with values at `n` indices from `i` on. -/
def entries (val : Int → Option V) : Nat → Int → List (Int × V)
  | 0, _ => []
  | n + 1, i => match val i with
    | some v => (i, v) :: entries val n (i + 1)
    | none => entries val n (i + 1)

theorem mem_entries {f : Int → Option V} (n : Nat) (i : Int) (k : Int) (v : V) :
    (k, v) ∈ entries f n i ↔ f k = some v ∧ i ≤ k ∧ k < i + n := by
  induction n generalizing i with
  | zero => simp only [entries, List.not_mem_nil, false_iff]; omega
  | succ n ih =>
    simp only [entries]
    cases hv : f i with
    | none =>
      simp only [ih]
      constructor
      · rintro ⟨h1, h2, h3⟩; exact ⟨h1, by omega, by omega⟩
      · rintro ⟨h1, h2, h3⟩
        have : k ≠ i := by rintro rfl; rw [hv] at h1; cases h1
        exact ⟨h1, by omega, by omega⟩
    | some w =>
      simp only [List.mem_cons, Prod.mk.injEq, ih]
      constructor
      · rintro (⟨rfl, rfl⟩ | ⟨h1, h2, h3⟩)
        · exact ⟨hv, by omega, by omega⟩
        · exact ⟨h1, by omega, by omega⟩
      · rintro ⟨h1, h2, h3⟩
        by_cases hk : k = i
        · subst hk; rw [hv] at h1; exact Or.inl ⟨rfl, (Option.some.inj h1).symm⟩
        · exact Or.inr ⟨h1, by omega, by omega⟩

theorem entries_sorted {f : Int → Option V} (n : Nat) (i : Int) : (entries f n i).Pairwise fun a b => a.1 < b.1 := by
  induction n generalizing i with
  | zero => simp [entries]
  | succ n ih =>
    simp only [entries]
    cases hv : f i with
    | none => exact ih _
    | some w =>
      refine List.pairwise_cons.2 ⟨?_, ih _⟩
      rintro ⟨k, v⟩ hk
      have := (mem_entries n (i + 1) k v).1 hk
      simp only; omega

theorem entries_congr {f g : Int → Option V} (h : ∀ k, f k = g k) (n : Nat) (i : Int) : entries f n i = entries g n i := by
  rw [show f = g from funext h]

end RangeArr

/-! ## Sorted lists of entries -/

instance intCmp_trans : Std.TransCmp intCmp := inferInstanceAs (Std.TransCmp (compare : Int → Int → Ordering))

theorem intCmp_lt {a b : Int} : intCmp a b = .lt ↔ a < b := Int.compare_eq_lt
theorem intCmp_eq {a b : Int} : intCmp a b = .eq ↔ a = b := Int.compare_eq_eq

theorem sorted_unique {A : Type} {l l' : List (Int × A)} (h : l.Pairwise fun a b => a.1 < b.1) (h' : l'.Pairwise fun a b => a.1 < b.1)
    (hm : ∀ x, x ∈ l ↔ x ∈ l') : l = l' := by
  induction l generalizing l' with
  | nil =>
    cases l' with
    | nil => rfl
    | cons y l' => exact absurd ((hm y).2 (by simp)) (by simp)
  | cons x l ih =>
    cases l' with
    | nil => exact absurd ((hm x).1 (by simp)) (by simp)
    | cons y l' =>
      obtain ⟨h1, h2⟩ := List.pairwise_cons.1 h
      obtain ⟨h1', h2'⟩ := List.pairwise_cons.1 h'
      have hxy : x = y := by
        rcases List.mem_cons.1 ((hm x).1 (by simp)) with hx | hx
        · exact hx
        · rcases List.mem_cons.1 ((hm y).2 (by simp)) with hy | hy
          · exact hy.symm
          · have := h1 y hy; have := h1' x hx; omega
      subst hxy
      congr 1
      refine ih h2 h2' fun z => ?_
      constructor
      · intro hz
        rcases List.mem_cons.1 ((hm z).1 (by simp [hz])) with rfl | hz'
        · exact absurd (h1 z hz) (by omega)
        · exact hz'
      · intro hz
        rcases List.mem_cons.1 ((hm z).2 (by simp [hz])) with rfl | hz'
        · exact absurd (h1' z hz) (by omega)
        · exact hz'

/-- The entries with values. -/
def valued {V : Type} (l : List (Int × Option V)) : List (Int × V) := l.filterMap fun e => e.2.map fun v => (e.1, v)

theorem mem_valued {V : Type} {l : List (Int × Option V)} {k : Int} {v : V} : (k, v) ∈ valued l ↔ (k, some v) ∈ l := by
  simp only [valued, List.mem_filterMap, Option.map_eq_some_iff, Prod.mk.injEq]
  constructor
  · rintro ⟨⟨k', v'⟩, h1, w, h2, rfl, rfl⟩; simp only at h2; rwa [← h2]
  · intro h; exact ⟨_, h, v, rfl, rfl, rfl⟩

theorem valued_sorted {V : Type} {l : List (Int × Option V)} (h : l.Pairwise fun a b => a.1 < b.1) :
    (valued l).Pairwise fun a b => a.1 < b.1 := by
  induction l with
  | nil => simp [valued]
  | cons x l ih =>
    obtain ⟨h1, h2⟩ := List.pairwise_cons.1 h
    obtain ⟨k, v⟩ := x
    cases v with
    | none => exact ih h2
    | some v =>
      refine List.pairwise_cons.2 ⟨?_, ih h2⟩
      rintro ⟨k', v'⟩ hk
      exact h1 _ (mem_valued.1 hk)

theorem sorted_tree_iff {V : Type} {t : NTree V} : STree.Sorted intCmp Prod.fst t ↔ t.toList.Pairwise fun a b => a.1 < b.1 := by
  simp only [STree.Sorted, intCmp_lt]

theorem key_unique {A : Type} {l : List (Int × A)} (h : l.Pairwise fun a b => a.1 < b.1) {k : Int} {v w : A} (hv : (k, v) ∈ l)
    (hw : (k, w) ∈ l) : v = w := by
  induction l with
  | nil => cases hv
  | cons x l ih =>
    obtain ⟨h1, h2⟩ := List.pairwise_cons.1 h
    rcases List.mem_cons.1 hv with rfl | hv'
    · rcases List.mem_cons.1 hw with h | hw'
      · simpa using h.symm
      · exact absurd (h1 _ hw') (by simp)
    · rcases List.mem_cons.1 hw with rfl | hw'
      · exact absurd (h1 _ hv') (by simp)
      · exact ih h2 hv' hw'

/-! ## Tree operations -/

namespace NTree
variable {V : Type}
open Verif.Props STree

theorem find_spec {t : NTree V} (h : Sorted intCmp Prod.fst t) (k : Int) :
    Sorted intCmp Prod.fst (find intCmp Prod.fst k t).2 ∧ (∀ e, e ∈ (find intCmp Prod.fst k t).2.toList ↔ e ∈ t.toList) ∧
    match (find intCmp Prod.fst k t).1 with
    | none => ∀ v, (k, v) ∉ t.toList
    | some e => e.1 = k ∧ ∃ l r, (find intCmp Prod.fst k t).2 = .node l e r := by
  obtain ⟨h1, h2, h3⟩ := find_rel (⟨h, List.Perm.refl _⟩ : TreeRel intCmp Prod.fst t t.toList) k
  refine ⟨h2, fun e => h3.mem_iff, ?_⟩
  cases hf : (find intCmp Prod.fst k t).1 with
  | none =>
    rw [hf] at h1
    intro v hv
    exact (look_none.1 h1.symm) _ hv (intCmp_eq.2 rfl)
  | some e =>
    rw [hf] at h1
    refine ⟨(intCmp_eq.1 ((look_iff (sorted_distinct h)).1 h1.symm).2).symm, ?_⟩
    revert hf
    simp only [find]
    split
    · intro hf; cases hf
    · rename_i l x r _
      split
      · intro hf; cases hf; exact ⟨l, r, rfl⟩
      · intro hf; cases hf

theorem insert_spec {t : NTree V} (h : Sorted intCmp Prod.fst t) {k : Int} (v : Option V) (hk : ∀ v, (k, v) ∉ t.toList) :
    Sorted intCmp Prod.fst (insert intCmp Prod.fst (k, v) t).2 ∧
    (∀ e, e ∈ (insert intCmp Prod.fst (k, v) t).2.toList ↔ e = (k, v) ∨ e ∈ t.toList) ∧
    ∃ l r, (insert intCmp Prod.fst (k, v) t).2 = .node l (k, v) r := by
  obtain ⟨h1, h2, h3⟩ := insert_rel (⟨h, List.Perm.refl _⟩ : TreeRel intCmp Prod.fst t t.toList) (k, v)
  have hl : look intCmp Prod.fst t.toList k = none := by
    rw [look_none]
    rintro ⟨k', v'⟩ hx hc
    have := intCmp_eq.1 hc
    subst this
    exact hk _ hx
  simp only [mapStep, hl] at h1 h3
  refine ⟨h2, fun e => by rw [h3.mem_iff, List.mem_cons], ?_⟩
  revert h1
  cases t with
  | leaf => intro _; exact ⟨.leaf, .leaf, rfl⟩
  | node a b c =>
    simp only [STree.insert]
    obtain ⟨l, x, r, es, -, -, -⟩ := splay_split (cmp := intCmp) (key := Prod.fst) k (t := .node a b c) (by simp) h
    rw [es]
    simp only
    split
    · intro _; exact ⟨_, _, rfl⟩
    · intro _; exact ⟨_, _, rfl⟩
    · intro h; cases h

theorem extract_spec {t : NTree V} (h : Sorted intCmp Prod.fst t) (k : Int) :
    Sorted intCmp Prod.fst (extract intCmp Prod.fst k t).2 ∧
    (∀ e, e ∈ (extract intCmp Prod.fst k t).2.toList ↔ e ∈ t.toList ∧ e.1 ≠ k) ∧
    match (extract intCmp Prod.fst k t).1 with
    | none => ∀ v, (k, v) ∉ t.toList
    | some e => e ∈ t.toList ∧ e.1 = k := by
  obtain ⟨h1, h2, h3⟩ := extract_rel (⟨h, List.Perm.refl _⟩ : TreeRel intCmp Prod.fst t t.toList) k
  refine ⟨h2, fun e => ?_, ?_⟩
  · rw [h3.mem_iff, List.mem_filter]
    simp only [bne_iff_ne, ne_eq, intCmp_eq]
    exact ⟨fun h => ⟨h.1, fun e => h.2 e.symm⟩, fun h => ⟨h.1, fun e => h.2 e.symm⟩⟩
  · cases hf : (extract intCmp Prod.fst k t).1 with
    | none =>
      rw [hf] at h1
      intro v hv
      exact (look_none.1 h1.symm) _ hv (intCmp_eq.2 rfl)
    | some e =>
      rw [hf] at h1
      have := (look_iff (sorted_distinct h)).1 h1.symm
      exact ⟨this.1, (intCmp_eq.1 this.2).symm⟩

theorem maxNode_spec {t : NTree V} (h : Sorted intCmp Prod.fst t) :
    match maxNode t with
    | none => t.toList = []
    | some e => e ∈ t.toList ∧ ∀ x ∈ t.toList, x.1 ≤ e.1 := by
  rw [sorted_tree_iff] at h
  fun_induction maxNode t with
  | case1 => rfl
  | case2 l e =>
    simp only [STree.toList] at *
    obtain ⟨-, -, h3, -, -⟩ := pairwise_mid.1 h
    refine ⟨by simp, fun x hx => ?_⟩
    simp only [List.mem_append, List.mem_cons, List.not_mem_nil, or_false] at hx
    rcases hx with hx | rfl
    · exact Int.le_of_lt (h3 x hx)
    · exact Int.le_refl _
  | case3 l e a b c ih =>
    rw [STree.toList] at h
    obtain ⟨-, h2, h3, h4, h5⟩ := pairwise_mid.1 h
    have key := ih h2
    revert key
    cases maxNode (.node a b c) with
    | none => intro key; simp only at key; simp [STree.toList] at key
    | some m =>
      rintro ⟨k1, k2⟩
      rw [STree.toList]
      refine ⟨by simp [k1], fun x hx => ?_⟩
      simp only [List.mem_append, List.mem_cons] at hx
      rcases hx with hx | rfl | hx
      · exact Int.le_of_lt (h5 x hx m k1)
      · exact Int.le_of_lt (h4 m k1)
      · exact k2 x hx

end NTree

/-! ## Conversions -/

namespace IntMap
variable {V : Type}
open Verif.Props STree

/-- The counters after the loop of a conversion. -/
def stats : List (Int × V) → Int × Int × Int → Int × Int × Int
  | [], c => c
  | (k, _) :: es, (n, lo, _) => stats es (n + 1, min lo k, k)

theorem t2aLoop_spec (l : List (Int × Option V)) (c : Conv (RangeArr V)) (hw : c.s.WF) :
    (t2aLoop l c).s.WF ∧ ((t2aLoop l c).entryNo, (t2aLoop l c).minKey, (t2aLoop l c).maxKey) = stats (valued l) (c.entryNo, c.minKey, c.maxKey) ∧
    ((l.Pairwise fun a b => a.1 < b.1) → ∀ k v, (t2aLoop l c).s.val k = some v ↔ (k, v) ∈ valued l ∨ c.s.val k = some v ∧ k ∉ (valued l).map Prod.fst) := by
  induction l generalizing c with
  | nil => simp [t2aLoop, valued, stats, hw]
  | cons e l ih =>
    obtain ⟨k, v⟩ := e
    cases v with
    | none =>
      simp only [t2aLoop]
      obtain ⟨h1, h2, h3⟩ := ih c hw
      exact ⟨h1, h2, fun hs => h3 (List.pairwise_cons.1 hs).2⟩
    | some v =>
      obtain ⟨sw, sv⟩ := RangeArr.set_spec hw k (some v)
      simp only [t2aLoop]
      obtain ⟨h1, h2, h3⟩ := ih ⟨c.s.set k (some v), c.entryNo + 1, min c.minKey k, k⟩ sw
      have hv : valued ((k, some v) :: l) = (k, v) :: valued l := rfl
      refine ⟨h1, by rw [h2, hv]; rfl, fun hs k' v' => ?_⟩
      obtain ⟨p1, p2⟩ := List.pairwise_cons.1 hs
      have hkn : k ∉ (valued l).map Prod.fst := by
        rintro hk
        obtain ⟨⟨k2, v2⟩, hm, rfl⟩ := List.mem_map.1 hk
        have := p1 _ (mem_valued.1 hm)
        simp at this
      rw [h3 p2, hv]
      simp only [sv, List.mem_cons, List.map_cons, Prod.mk.injEq, not_or]
      by_cases hk : k' = k
      · subst hk
        simp only [if_true, true_and, Option.some.injEq]
        constructor
        · rintro (h | ⟨h, -⟩)
          · exact Or.inl (Or.inr h)
          · exact Or.inl (Or.inl h.symm)
        · rintro ((h | h) | ⟨-, h, -⟩)
          · exact Or.inr ⟨h.symm, hkn⟩
          · exact Or.inl h
          · exact absurd trivial h
      · simp [hk]

theorem a2tLoop_spec (n : Nat) (i : Int) (a : RangeArr V) (c : Conv (NTree V)) (hw : a.WF) (hs : Sorted intCmp Prod.fst c.s)
    (hi : ∀ e ∈ c.s.toList, e.1 < i) :
    Sorted intCmp Prod.fst (a2tLoop n i a c).s ∧
    ((a2tLoop n i a c).entryNo, (a2tLoop n i a c).minKey, (a2tLoop n i a c).maxKey) =
      stats (RangeArr.entries a.val n i) (c.entryNo, c.minKey, c.maxKey) ∧
    ∀ k v, (k, v) ∈ (a2tLoop n i a c).s.toList ↔ (k, v) ∈ c.s.toList ∨ ∃ w, v = some w ∧ (k, w) ∈ RangeArr.entries a.val n i := by
  induction n generalizing i a c with
  | zero => simp [a2tLoop, RangeArr.entries, stats, hs]
  | succ n ih =>
    obtain ⟨g1, g2, g3⟩ := RangeArr.get_spec hw i
    simp only [a2tLoop, RangeArr.entries]
    rw [← g1]
    generalize a.get i = r at *
    obtain ⟨rv, ra⟩ := r
    simp only at g1 g2 g3 ⊢
    cases rv with
    | none =>
      simp only
      have := ih (i + 1) ra c g2 hs (fun e he => by have := hi e he; omega)
      rw [RangeArr.entries_congr g3] at this
      exact this
    | some v =>
      simp only
      have hnk : ∀ v, (i, v) ∉ c.s.toList := fun v hv => by have := hi _ hv; simp at this
      obtain ⟨i1, i2, -⟩ := NTree.insert_spec hs (some v) hnk
      have := ih (i + 1) ra ⟨(STree.insert intCmp Prod.fst (i, some v) c.s).2, c.entryNo + 1, min c.minKey i, i⟩ g2 i1 (by
        intro e he
        rcases (i2 e).1 he with rfl | he
        · simp
        · have := hi e he; omega)
      rw [RangeArr.entries_congr g3] at this
      obtain ⟨t1, t2, t3⟩ := this
      refine ⟨t1, by rw [t2]; rfl, fun k w => ?_⟩
      rw [t3]
      simp only [i2, Prod.mk.injEq, List.mem_cons]
      constructor
      · rintro ((⟨rfl, rfl⟩ | h) | ⟨u, rfl, h⟩)
        · exact Or.inr ⟨v, rfl, Or.inl ⟨rfl, rfl⟩⟩
        · exact Or.inl h
        · exact Or.inr ⟨u, rfl, Or.inr h⟩
      · rintro (h | ⟨u, rfl, ⟨rfl, rfl⟩ | h⟩)
        · exact Or.inl (Or.inr h)
        · exact Or.inl (Or.inl ⟨rfl, rfl⟩)
        · exact Or.inr ⟨u, rfl, h⟩

/-- What both conversions do with the counters. -/
def convStats (lo hi : Int) (L : List (Int × V)) : Int × Int × Int :=
  let c := stats L (0, hi, lo)
  (c.1, min c.2.1 c.2.2, c.2.2)

theorem stats_spec (L : List (Int × V)) (n lo hi : Int) (hs : L.Pairwise fun a b => a.1 < b.1) :
    (stats L (n, lo, hi)).1 = n + L.length ∧
    (L = [] → (stats L (n, lo, hi)).2 = (lo, hi)) ∧
    (L ≠ [] → (stats L (n, lo, hi)).2.2 ∈ L.map Prod.fst) ∧
    (∀ k ∈ L.map Prod.fst, k ≤ (stats L (n, lo, hi)).2.2 ∧ (stats L (n, lo, hi)).2.1 ≤ k) ∧
    ((stats L (n, lo, hi)).2.1 = lo ∨ (stats L (n, lo, hi)).2.1 ∈ L.map Prod.fst) ∧ (stats L (n, lo, hi)).2.1 ≤ lo := by
  induction L generalizing n lo hi with
  | nil => simp [stats]
  | cons e L ih =>
    obtain ⟨k, v⟩ := e
    obtain ⟨h1, h2⟩ := List.pairwise_cons.1 hs
    obtain ⟨i1, i2, i3, i4, i5, i6⟩ := ih (n + 1) (min lo k) k h2
    simp only [stats]
    refine ⟨by rw [i1]; simp; omega, by simp, fun _ => ?_, ?_, ?_, by omega⟩
    · by_cases hL : L = []
      · rw [i2 hL]; simp
      · exact List.mem_cons_of_mem _ (i3 hL)
    · intro k' hk'
      rw [List.map_cons, List.mem_cons] at hk'
      rcases hk' with hk' | hk'
      · simp only at hk'
        subst hk'
        refine ⟨?_, by omega⟩
        by_cases hL : L = []
        · rw [i2 hL]
        · obtain ⟨e, he, hek⟩ := List.mem_map.1 (i3 hL)
          have := h1 e he
          simp only at this
          omega
      · exact i4 k' hk'
    · rcases i5 with h | h
      · rw [h]
        by_cases hlk : lo ≤ k
        · left; omega
        · right; rw [show min lo k = k by omega]; simp
      · right; exact List.mem_cons_of_mem _ h

theorem convStats_spec (L : List (Int × V)) (lo hi : Int) (hs : L.Pairwise fun a b => a.1 < b.1) :
    (convStats lo hi L).2.1 ≤ (convStats lo hi L).2.2 ∧ (∀ e ∈ L, (convStats lo hi L).2.1 ≤ e.1 ∧ e.1 ≤ (convStats lo hi L).2.2) ∧
    (convStats lo hi L).1 = L.length := by
  obtain ⟨i1, i2, i3, i4, i5, i6⟩ := stats_spec L 0 hi lo hs
  simp only [convStats]
  refine ⟨by omega, fun e he => ?_, by omega⟩
  have := i4 e.1 (List.mem_map_of_mem he)
  omega

theorem convStats_idem (L : List (Int × V)) (lo hi : Int) (hs : L.Pairwise fun a b => a.1 < b.1) (hle : lo ≤ hi)
    (hb : ∀ e ∈ L, e.1 ≤ hi) :
    convStats (convStats lo hi L).2.1 (convStats lo hi L).2.2 L = convStats lo hi L := by
  by_cases hL : L = []
  · subst hL
    simp only [convStats, stats]
    congr 2 <;> omega
  · obtain ⟨i1, i2, i3, i4, i5, i6⟩ := stats_spec L 0 hi lo hs
    have c := convStats_spec L lo hi hs
    revert c
    generalize hx : (convStats lo hi L).2.1 = lo'
    generalize hy : (convStats lo hi L).2.2 = hi'
    rintro ⟨c1, c2, c3⟩
    obtain ⟨j1, j2, j3, j4, j5, j6⟩ := stats_spec L 0 hi' lo' hs
    have e1 : (stats L (0, hi', lo')).2.2 = (stats L (0, hi, lo)).2.2 := by
      have a1 := (i4 _ (j3 hL)).1
      have a2 := (j4 _ (i3 hL)).1
      omega
    have e2 : (stats L (0, hi', lo')).2.1 = (stats L (0, hi, lo)).2.1 := by
      have hhi : hi' = (stats L (0, hi, lo)).2.2 := by rw [← hy]; rfl
      have key : ∀ {lo1 hi1 : Int}, (stats L (0, hi1, lo1)).2.2 ≤ hi1 → (stats L (0, hi1, lo1)).2.1 ∈ L.map Prod.fst := by
        intro lo1 hi1 hh
        obtain ⟨k1, k2, k3, k4, k5, k6⟩ := stats_spec L 0 hi1 lo1 hs
        rcases k5 with h | h
        · have := k4 _ (k3 hL)
          rw [show (stats L (0, hi1, lo1)).2.1 = (stats L (0, hi1, lo1)).2.2 by omega]
          exact k3 hL
        · exact h
      have m1 := key (lo1 := lo') (hi1 := hi') (by omega)
      have m2 := key (lo1 := lo) (hi1 := hi) (by
        obtain ⟨e, he, hek⟩ := List.mem_map.1 (i3 hL)
        rw [← hek]; exact hb e he)
      have a1 := (i4 _ m1).2
      have a2 := (j4 _ m2).2
      omega
    simp only [convStats]
    rw [e1, e2, show (stats L (0, hi', lo')).1 = (stats L (0, hi, lo)).1 by omega]

/-! ## The invariant -/

/-- The map holds the values of `f`. -/
def Holds (m : IntMap V) (f : Int → Option V) : Prop :=
  match m.vals with
  | .empty => ∀ k, f k = none
  | .single v => m.minKey = m.maxKey ∧ ∀ k, f k = if k = m.maxKey then v else none
  | .array a => a.WF ∧ (∀ k, a.val k = f k) ∧ m.minKey ≤ m.maxKey ∧ ∀ k, f k ≠ none → k ≤ m.maxKey
  | .tree t => Sorted intCmp Prod.fst t ∧ (∀ k v, (k, some v) ∈ t.toList ↔ f k = some v) ∧ (∀ e ∈ t.toList, m.minKey ≤ e.1 ∧ e.1 ≤ m.maxKey) ∧
    m.minKey ≤ m.maxKey

/-- The entries of `f` in order. -/
def EntriesOf (f : Int → Option V) (L : List (Int × V)) : Prop :=
  (L.Pairwise fun a b => a.1 < b.1) ∧ ∀ k v, (k, v) ∈ L ↔ f k = some v

theorem entriesOf_unique {f : Int → Option V} {L L' : List (Int × V)} (h : EntriesOf f L) (h' : EntriesOf f L') : L = L' :=
  sorted_unique h.1 h'.1 fun x => by rw [show x = (x.1, x.2) from rfl, h.2, h'.2]

theorem arrayToTree_spec {m : IntMap V} {a : RangeArr V} {f : Int → Option V} (hw : a.WF) (hv : ∀ k, a.val k = f k)
    (hmax : ∀ k, f k ≠ none → k ≤ m.maxKey) :
    ∃ L t, EntriesOf f L ∧ m.arrayToTree a = ⟨.tree t, (convStats m.minKey m.maxKey L).1, (convStats m.minKey m.maxKey L).2.1, (convStats m.minKey m.maxKey L).2.2⟩ ∧
      Sorted intCmp Prod.fst t ∧ ∀ k v, (k, v) ∈ t.toList ↔ ∃ w, v = some w ∧ (k, w) ∈ L := by
  obtain ⟨h1, h2, h3⟩ := a2tLoop_spec (m.maxKey + 1 - a.offset).toNat a.offset a ⟨.leaf, 0, m.maxKey, m.minKey⟩ hw
    (by simp [Sorted, toList]) (by simp [toList])
  have hE : EntriesOf f (RangeArr.entries a.val (m.maxKey + 1 - a.offset).toNat a.offset) := by
    refine ⟨RangeArr.entries_sorted _ _, fun k v => ?_⟩
    rw [RangeArr.mem_entries, hv]
    refine ⟨fun h => h.1, fun h => ⟨h, ?_⟩⟩
    have hle := hmax k (by rw [h]; simp)
    rw [← hv] at h
    have : a.offset ≤ k := by
      by_contra hc
      rw [RangeArr.val, if_neg (by omega)] at h
      cases h
    omega
  refine ⟨_, _, hE, ?_, h1, fun k v => by rw [h3]; simp [toList]⟩
  simp only [arrayToTree, convStats, ← h2]

theorem treeToArray_spec {m : IntMap V} {t : NTree V} {f : Int → Option V} (hs : Sorted intCmp Prod.fst t)
    (hv : ∀ k v, (k, some v) ∈ t.toList ↔ f k = some v) :
    ∃ L a, EntriesOf f L ∧ m.treeToArray t = ⟨.array a, (convStats m.minKey m.maxKey L).1, (convStats m.minKey m.maxKey L).2.1, (convStats m.minKey m.maxKey L).2.2⟩ ∧
      a.WF ∧ ∀ k, a.val k = f k := by
  obtain ⟨h1, h2, h3⟩ := t2aLoop_spec t.toList ⟨RangeArr.alloc m.minKey 8, 0, m.maxKey, m.minKey⟩ (RangeArr.alloc_wf _ _)
  have hE : EntriesOf f (valued t.toList) := ⟨valued_sorted (sorted_tree_iff.1 hs), fun k v => by rw [mem_valued, hv]⟩
  refine ⟨_, _, hE, ?_, h1, fun k => ?_⟩
  · simp only [treeToArray, convStats, ← h2]
  · have := h3 (sorted_tree_iff.1 hs) k
    simp only [RangeArr.alloc_val, reduceCtorEq, false_and, or_false, mem_valued, hv] at this
    cases hk : f k with
    | none =>
      cases ha : (t2aLoop t.toList ⟨RangeArr.alloc m.minKey 8, 0, m.maxKey, m.minKey⟩).s.val k with
      | none => rfl
      | some w => rw [this w, hk] at ha; cases ha
    | some v => exact (this v).2 hk

theorem arrayToTree_holds {m : IntMap V} {a : RangeArr V} {f : Int → Option V} (hw : a.WF) (hv : ∀ k, a.val k = f k)
    (hmax : ∀ k, f k ≠ none → k ≤ m.maxKey) : Holds (m.arrayToTree a) f := by
  obtain ⟨L, t, hE, he, hs, ht⟩ := arrayToTree_spec hw hv hmax
  have c := convStats_spec L m.minKey m.maxKey hE.1
  rw [he]
  refine ⟨hs, fun k v => ?_, ?_, c.1⟩
  · rw [ht, ← hE.2]
    simp
  · rintro ⟨k, v⟩ hk
    obtain ⟨w, -, h⟩ := (ht k v).1 hk
    exact c.2.1 _ h

theorem treeToArray_holds {m : IntMap V} {t : NTree V} {f : Int → Option V} (hs : Sorted intCmp Prod.fst t)
    (hv : ∀ k v, (k, some v) ∈ t.toList ↔ f k = some v) : Holds (m.treeToArray t) f := by
  obtain ⟨L, a, hE, he, hw, ha⟩ := treeToArray_spec (m := m) hs hv
  have c := convStats_spec L m.minKey m.maxKey hE.1
  rw [he]
  refine ⟨hw, ha, c.1, fun k hk => ?_⟩
  cases hf : f k with
  | none => exact absurd hf hk
  | some v => exact (c.2.1 _ ((hE.2 k v).2 hf)).2

/-! ## Operations -/

theorem getVal_spec {m : IntMap V} {f : Int → Option V} (h : Holds m f) (k : Int) : (m.getVal k).1 = f k ∧ Holds (m.getVal k).2 f := by
  obtain ⟨vals, en, lo, hi⟩ := m
  cases vals with
  | empty => exact ⟨(h k).symm, h⟩
  | single v =>
    refine ⟨?_, h⟩
    simp only [getVal]
    rw [h.2 k]
    by_cases hk : k = hi
    · simp [hk]
    · rw [if_neg (fun h => hk h.symm), if_neg hk]
  | array a =>
    obtain ⟨h1, h2, h3, h4⟩ := h
    simp only [getVal]
    split
    · obtain ⟨g1, g2, g3⟩ := RangeArr.get_spec h1 k
      exact ⟨by rw [g1, h2], g2, fun k' => by rw [g3, h2], h3, h4⟩
    · rename_i hk
      refine ⟨?_, h1, h2, h3, h4⟩
      by_contra hc
      exact hk (h4 k fun h => hc (by rw [h]))
  | tree t =>
    obtain ⟨h1, h2, h3, h4⟩ := h
    simp only [getVal]
    split
    · obtain ⟨g1, g2, g3⟩ := NTree.find_spec h1 k
      refine ⟨?_, g1, fun k v => by rw [g2, h2], fun e he => h3 e ((g2 e).1 he), h4⟩
      cases hf : (STree.find intCmp Prod.fst k t).1 with
      | none =>
        rw [hf] at g3
        simp only at g3 ⊢
        cases hk : f k with
        | none => rfl
        | some v => exact absurd ((h2 k v).2 hk) (g3 _)
      | some e =>
        rw [hf] at g3
        obtain ⟨rfl, l, r, hn⟩ := g3
        have hm : e ∈ t.toList := by rw [← g2, hn]; simp [toList]
        obtain ⟨k, v⟩ := e
        simp only
        cases v with
        | some v => exact ((h2 k v).1 hm).symm
        | none =>
          cases hk : f k with
          | none => rfl
          | some w => exact absurd (key_unique (sorted_tree_iff.1 h1) hm ((h2 k w).2 hk)) (by simp)
    · rename_i hk
      refine ⟨?_, h1, h2, h3, h4⟩
      cases hf : f k with
      | none => rfl
      | some v => exact absurd (h3 _ ((h2 k v).2 hf)).2 hk

theorem holds_bounds {m : IntMap V} {f : Int → Option V} (h : Holds m f) {lo hi : Int} (hl : lo ≤ m.minKey) (hh : m.maxKey ≤ hi)
    (hns : ∀ v, m.vals ≠ .single v) : Holds { m with minKey := lo, maxKey := hi } f := by
  obtain ⟨vals, en, lo, hi⟩ := m
  simp only at hl hh
  cases vals with
  | empty => exact h
  | single v => exact absurd rfl (hns v)
  | array a =>
    obtain ⟨h1, h2, h3, h4⟩ := h
    simp only at h3 h4
    exact ⟨h1, h2, by simp only; omega, fun k hk => by have := h4 k hk; simp only at *; omega⟩
  | tree t =>
    obtain ⟨h1, h2, h3, h4⟩ := h
    simp only at h3 h4
    exact ⟨h1, h2, fun e he => by have := h3 e he; simp only at *; omega, by simp only; omega⟩

/-- The map after taking a reference holds the same values, the key is within the bounds, and writing through the reference changes
just the value of the key. -/
def RefOK (m : IntMap V) (f : Int → Option V) (k : Int) : Prop :=
  Holds m f ∧ m.minKey ≤ k ∧ k ≤ m.maxKey ∧
  match m.vals with
  | .empty => False
  | .single _ => k = m.maxKey
  | .array _ => True
  | .tree t => ∃ l v r, t = .node l (k, v) r

theorem refOK_bounds {m : IntMap V} {f : Int → Option V} {k : Int} (h : RefOK m f k) (hns : ∀ v, m.vals ≠ .single v) :
    RefOK { m with minKey := min m.minKey k, maxKey := max m.maxKey k } f k := by
  obtain ⟨h1, h2, h3, h4⟩ := h
  refine ⟨holds_bounds h1 (by omega) (by omega) hns, by simp only; omega, by simp only; omega, ?_⟩
  obtain ⟨vals, en, lo, hi⟩ := m
  cases vals with
  | empty => exact h4
  | single v => exact absurd rfl (hns v)
  | array a => trivial
  | tree t => exact h4

theorem addTreeNode_ref {m : IntMap V} {t : NTree V} {f : Int → Option V} {k : Int} (hs : Sorted intCmp Prod.fst t)
    (hv : ∀ k v, (k, some v) ∈ t.toList ↔ f k = some v) (hmin : ∀ e ∈ t.toList, m.minKey ≤ e.1 ∧ e.1 ≤ m.maxKey) (hle : m.minKey ≤ m.maxKey)
    (hk : ∀ v, (k, v) ∉ t.toList) (n : Int) :
    RefOK ⟨(addTreeNode m t k).vals, n, min m.minKey k, max m.maxKey k⟩ f k := by
  obtain ⟨i1, i2, l, r, i3⟩ := NTree.insert_spec hs none hk
  refine ⟨⟨i1, fun k' v => ?_, fun e he => ?_, by simp only; omega⟩, by simp only; omega, by simp only; omega, ⟨l, none, r, i3⟩⟩
  · rw [i2, ← hv]; simp
  · simp only
    rcases (i2 e).1 he with rfl | he
    · simp only; omega
    · have := hmin e he; omega

theorem getRef_not_single (n : Nat) (m m' : IntMap V) (k : Int) (t : NTree V) (h : m.vals = .tree t) (hr : getRef n m k = some m') :
    ∀ v, m'.vals ≠ .single v := by
  have gen : ∀ n (m m' : IntMap V), (∀ v, m.vals ≠ .single v) → m.vals ≠ .empty → getRef n m k = some m' → ∀ v, m'.vals ≠ .single v := by
    intro n
    induction n with
    | zero => intro m m' _ _ h; cases h
    | succ n ih =>
      intro m m' hns hne hr
      unfold getRef at hr
      split at hr
      · rename_i he; exact absurd he hne
      · rename_i v he; exact absurd he (hns v)
      · split at hr
        · obtain ⟨m2, h2, rfl⟩ := Option.map_eq_some_iff.1 hr
          exact ih _ m2 (by simp [arrayToTree]) (by simp [arrayToTree]) h2
        · cases hr; simp
      · simp only at hr
        split at hr
        · cases hr; simp
        · split at hr
          · exact ih _ _ (by simp [treeToArray]) (by simp [treeToArray]) hr
          · cases hr; simp [addTreeNode]
  exact gen n m m' (by simp [h]) (by simp [h]) hr

theorem getRef_spec (n : Nat) {m m' : IntMap V} {f : Int → Option V} {k : Int} (h : Holds m f) (hr : getRef n m k = some m') : RefOK m' f k := by
  induction n generalizing m m' with
  | zero => cases hr
  | succ n ih =>
    obtain ⟨vals, en, lo, hi⟩ := m
    unfold getRef at hr
    cases vals with
    | empty =>
      simp only at hr
      cases hr
      exact ⟨⟨rfl, fun k' => by rw [h k']; simp⟩, Int.le_refl _, Int.le_refl _, rfl⟩
    | single v =>
      obtain ⟨h1, h2⟩ := h
      simp only at hr h1 h2
      split at hr
      · rename_i hk
        cases hr
        subst hk
        exact ⟨⟨by simp only; omega, fun k' => by rw [h2 k']; simp⟩, by simp only; omega, by simp only; omega, by simp only; omega⟩
      · rename_i hk
        split at hr
        · cases hr
          obtain ⟨s1, s2⟩ := RangeArr.set_spec (RangeArr.alloc_wf (V := V) (min k hi) 8) hi v
          obtain ⟨s3, s4⟩ := RangeArr.set_spec s1 k none
          refine ⟨⟨s3, fun k' => ?_, by simp only; omega, fun k' hk' => ?_⟩, by simp only; omega, by simp only; omega, trivial⟩
          · rw [s4, s2, h2]
            split
            · rename_i h; subst h; rw [if_neg hk]
            · split
              · rfl
              · rw [RangeArr.alloc_val]
          · rw [h2] at hk'
            have : k' = hi := by by_contra hc; rw [if_neg hc] at hk'; exact hk' rfl
            simp only; omega
        · cases hr
          obtain ⟨i1, i2, -⟩ := NTree.insert_spec (t := (.leaf : NTree V)) (by simp [Sorted, toList]) (k := hi) v (by simp [toList])
          have key := addTreeNode_ref (m := ⟨.single v, en, lo, hi⟩) (f := f) (k := k) i1 ?_ ?_ ?_ ?_ 2
          · simp only at key
            rw [max_comm] at key
            exact key
          · intro k' w
            rw [i2, h2]
            simp only [toList, List.not_mem_nil, or_false, Prod.mk.injEq]
            constructor
            · rintro ⟨rfl, rfl⟩; simp
            · intro hc
              split at hc
              · rename_i he; exact ⟨he, hc.symm⟩
              · cases hc
          · intro e he
            rcases (i2 e).1 he with rfl | he
            · simp only; omega
            · simp [toList] at he
          · simp only; omega
          · intro w hw
            rcases (i2 _).1 hw with he | he
            · simp only [Prod.mk.injEq] at he; exact hk he.1
            · simp [toList] at he
    | array a =>
      obtain ⟨h1, h2, h3, h4⟩ := h
      simp only at hr h3 h4
      split at hr
      · obtain ⟨m2, hm2, rfl⟩ := Option.map_eq_some_iff.1 hr
        have hh := arrayToTree_holds (m := ⟨.array a, en, lo, hi⟩) h1 h2 h4
        exact refOK_bounds (ih hh hm2) (getRef_not_single _ _ _ _ _ rfl hm2)
      · cases hr
        obtain ⟨g1, g2, g3⟩ := RangeArr.get_spec h1 k
        exact ⟨⟨g2, fun k' => by rw [g3, h2], by simp only; omega, fun k' hk' => by have := h4 k' hk'; simp only; omega⟩, by simp only; omega, by simp only; omega, trivial⟩
    | tree t =>
      obtain ⟨h1, h2, h3, h4⟩ := h
      simp only at hr h3 h4
      obtain ⟨g1, g2, g3⟩ := NTree.find_spec h1 k
      split at hr
      · rename_i e he
        cases hr
        rw [he] at g3
        obtain ⟨rfl, l, r, hn⟩ := g3
        have hm : e ∈ t.toList := by rw [← g2, hn]; simp [toList]
        have hb := h3 e hm
        exact ⟨⟨g1, fun k v => by rw [g2, h2], fun e he => h3 e ((g2 e).1 he), h4⟩, hb.1, hb.2, l, e.2, r, hn⟩
      · rename_i he
        rw [he] at g3
        simp only at g3
        split at hr
        · refine ih ?_ hr
          exact treeToArray_holds g1 fun k v => by rw [g2, h2]
        · cases hr
          have := addTreeNode_ref (m := { vals := IMVals.tree (find intCmp Prod.fst k t).2, entryNo := en, minKey := lo, maxKey := hi }) (f := f) (k := k) g1 (fun k v => by rw [g2, h2]) (fun e he => h3 e ((g2 e).1 he))
            h4 (fun v hv => g3 v ((g2 _).1 hv)) (en + 1)
          exact this

theorem switch_excl {lo hi k n : Int} (hn : 0 < n) (h1 : switchToArray lo hi k n = true) (h2 : switchToTree lo hi k n = true) : False := by
  simp only [switchToArray, switchToTree, decide_eq_true_eq, gt_iff_lt] at h1 h2
  omega

theorem getRef_tree_done {m : IntMap V} {t : NTree V} {k : Int} (n : Nat) (hv : m.vals = .tree t)
    (h : switchToArray m.minKey m.maxKey k (m.entryNo + 1) = false) : ∃ m', getRef (n + 1) m k = some m' := by
  unfold getRef
  rw [hv]
  simp only
  split
  · exact ⟨_, rfl⟩
  · rw [h]; exact ⟨_, rfl⟩

theorem getRef_array_done {m : IntMap V} {a : RangeArr V} {k : Int} (n : Nat) (hv : m.vals = .array a)
    (h : switchToTree m.minKey m.maxKey k (m.entryNo + 1) = false) : ∃ m', getRef (n + 1) m k = some m' := by
  unfold getRef
  rw [hv]
  simp only [h]
  exact ⟨_, if_neg (by simp)⟩

theorem getRef_total {m : IntMap V} {f : Int → Option V} (h : Holds m f) (k : Int) (n : Nat) : ∃ m', getRef (n + 3) m k = some m' := by
  obtain ⟨vals, en, lo, hi⟩ := m
  cases vals with
  | empty => exact ⟨_, rfl⟩
  | single v =>
    unfold getRef
    simp only
    split
    · exact ⟨_, rfl⟩
    · split <;> exact ⟨_, rfl⟩
  | array a =>
    obtain ⟨h1, h2, h3, h4⟩ := h
    simp only at h3 h4
    cases hc : switchToTree lo hi k (en + 1) with
    | false => exact getRef_array_done (n + 2) rfl hc
    | true =>
      -- array, tree, array
      suffices hs : ∃ m', getRef (n + 2) ((⟨.array a, en, lo, hi⟩ : IntMap V).arrayToTree a) k = some m' by
        obtain ⟨m', hm'⟩ := hs
        unfold getRef
        simp only [hm']
        split <;> exact ⟨_, rfl⟩
      obtain ⟨L, t, hE, he, hs, ht⟩ := arrayToTree_spec (m := ⟨.array a, en, lo, hi⟩) h1 h2 h4
      simp only at he
      rw [he]
      have c := convStats_spec L lo hi hE.1
      cases hc2 : switchToArray (convStats lo hi L).2.1 (convStats lo hi L).2.2 k ((convStats lo hi L).1 + 1) with
      | false => exact getRef_tree_done (n + 1) rfl hc2
      | true =>
        obtain ⟨g1, g2, g3⟩ := NTree.find_spec hs k
        unfold getRef
        simp only
        split
        · exact ⟨_, rfl⟩
        · rw [if_pos hc2]
          have hv : ∀ k v, (k, some v) ∈ (find intCmp Prod.fst k t).2.toList ↔ f k = some v := by
            intro k' v
            rw [← hE.2]
            have := (NTree.find_spec hs k').2.1 (k', some v)
            rw [this, ht]; simp
          have hv' : ∀ k' v, (k', some v) ∈ (find intCmp Prod.fst k t).2.toList ↔ f k' = some v := by
            intro k' v
            rw [← hE.2, g2, ht]; simp
          obtain ⟨L', a', hE', he', hw', ha'⟩ := treeToArray_spec
            (m := ⟨.tree (find intCmp Prod.fst k t).2, (convStats lo hi L).1, (convStats lo hi L).2.1, (convStats lo hi L).2.2⟩) g1 hv'
          rw [he']
          have hL : L' = L := entriesOf_unique hE' hE
          subst hL
          refine getRef_array_done n rfl ?_
          have hid := convStats_idem L' lo hi hE.1 h3 (fun e he => h4 e.1 (by rw [(hE.2 e.1 e.2).1 he]; simp))
          simp only [hid]
          cases hc3 : switchToTree (convStats lo hi L').2.1 (convStats lo hi L').2.2 k ((convStats lo hi L').1 + 1) with
          | false => rfl
          | true => exact (switch_excl (by rw [c.2.2]; omega) hc2 hc3).elim
  | tree t =>
    obtain ⟨h1, h2, h3, h4⟩ := h
    simp only at h3 h4
    cases hc : switchToArray lo hi k (en + 1) with
    | false => exact getRef_tree_done (n + 2) rfl hc
    | true =>
      obtain ⟨g1, g2, g3⟩ := NTree.find_spec h1 k
      unfold getRef
      simp only
      split
      · exact ⟨_, rfl⟩
      · rw [if_pos hc]
        have hv' : ∀ k' v, (k', some v) ∈ (find intCmp Prod.fst k t).2.toList ↔ f k' = some v := by
          intro k' v
          rw [g2, h2]
        obtain ⟨L, a, hE, he, hw, ha⟩ := treeToArray_spec (m := ⟨.tree (find intCmp Prod.fst k t).2, en, lo, hi⟩) g1 hv'
        simp only at he
        rw [he]
        have c := convStats_spec L lo hi hE.1
        cases hc2 : switchToTree (convStats lo hi L).2.1 (convStats lo hi L).2.2 k ((convStats lo hi L).1 + 1) with
        | false => exact getRef_array_done (n + 1) rfl hc2
        | true =>
          have hbd : ∀ e ∈ L, e.1 ≤ hi := fun e he => (h3 (e.1, some e.2) ((h2 _ _).2 ((hE.2 _ _).1 he))).2
          obtain ⟨L', t', hE', he', hs', ht'⟩ := arrayToTree_spec
            (m := ⟨.array a, (convStats lo hi L).1, (convStats lo hi L).2.1, (convStats lo hi L).2.2⟩) hw ha (by
              intro k' hk'
              cases hf : f k' with
              | none => exact absurd hf hk'
              | some v => exact (c.2.1 _ ((hE.2 k' v).2 hf)).2)
          have hL : L' = L := entriesOf_unique hE' hE
          subst hL
          have hid := convStats_idem L' lo hi hE.1 h4 hbd
          simp only [hid] at he'
          have hdone : ∃ m', getRef (n + 1) ((⟨.array a, (convStats lo hi L').1, (convStats lo hi L').2.1, (convStats lo hi L').2.2⟩ : IntMap V).arrayToTree a) k = some m' := by
            rw [he']
            refine getRef_tree_done n rfl ?_
            simp only
            cases hc3 : switchToArray (convStats lo hi L').2.1 (convStats lo hi L').2.2 k ((convStats lo hi L').1 + 1) with
            | false => rfl
            | true => exact (switch_excl (by rw [c.2.2]; omega) hc3 hc2).elim
          obtain ⟨m', hm'⟩ := hdone
          unfold getRef
          simp only [hm']
          split <;> exact ⟨_, rfl⟩

theorem writeRef_spec {m : IntMap V} {f : Int → Option V} {k : Int} (h : RefOK m f k) (v : Option V) :
    Holds (writeRef m k v) (fun j => if j = k then v else f j) := by
  obtain ⟨h0, hlo, hhi, hr⟩ := h
  obtain ⟨vals, en, lo, hi⟩ := m
  simp only at hlo hhi
  cases vals with
  | empty => exact hr.elim
  | single w =>
    obtain ⟨h1, h2⟩ := h0
    simp only at hr h2
    subst hr
    exact ⟨h1, fun j => by simp only [h2]; split <;> simp_all [writeRef]⟩
  | array a =>
    obtain ⟨h1, h2, h3, h4⟩ := h0
    obtain ⟨s1, s2⟩ := RangeArr.set_spec h1 k v
    refine ⟨s1, fun j => by rw [s2, h2], h3, fun j hj => ?_⟩
    by_cases hjk : j = k
    · subst hjk; exact hhi
    · simp only [if_neg hjk] at hj; exact h4 j hj
  | tree t =>
    obtain ⟨h1, h2, h3, h4⟩ := h0
    obtain ⟨l, w, r, rfl⟩ := hr
    rw [sorted_tree_iff] at h1
    simp only [toList] at h1 h2 h3
    have hnot : ∀ x, (k, x) ∉ l.toList ∧ (k, x) ∉ r.toList := by
      obtain ⟨-, -, p3, p4, -⟩ := pairwise_mid.1 h1
      exact fun x => ⟨fun hx => by simpa using p3 _ hx, fun hx => by simpa using p4 _ hx⟩
    refine ⟨?_, fun j x => ?_, fun e he => ?_, h4⟩
    · rw [sorted_tree_iff]
      simp only [toList]
      rw [pairwise_mid] at h1 ⊢
      exact h1
    · simp only [toList, List.mem_append, List.mem_cons, Prod.mk.injEq]
      by_cases hj : j = k
      · subst hj
        simp only [hnot, false_or, or_false, true_and, if_true]
        exact eq_comm
      · rw [if_neg hj, ← h2]
        simp [hj]
    · simp only [toList, List.mem_append, List.mem_cons] at he
      rcases he with he | rfl | he
      · exact h3 e (by simp [he])
      · exact ⟨hlo, hhi⟩
      · exact h3 e (by simp [he])

theorem delKey_spec {m : IntMap V} {f : Int → Option V} (h : Holds m f) (k : Int) :
    (m.delKey k).1 = f k ∧ Holds (m.delKey k).2 (fun j => if j = k then none else f j) := by
  have hsame : f k = none → (fun j => if j = k then none else f j) = f := by
    intro hn; funext j; split
    · rename_i hj; rw [hj, hn]
    · rfl
  obtain ⟨vals, en, lo, hi⟩ := m
  cases vals with
  | empty => exact ⟨(h k).symm, by rw [hsame (h k)]; exact h⟩
  | single v =>
    obtain ⟨h1, h2⟩ := h
    simp only at h1 h2
    simp only [delKey]
    split
    · rename_i hk
      subst hk
      exact ⟨by rw [h2]; simp, fun j => by simp only [h2]; split <;> rfl⟩
    · rename_i hk
      have : f k = none := by rw [h2, if_neg hk]
      exact ⟨this.symm, by rw [hsame this]; exact ⟨h1, h2⟩⟩
  | array a =>
    obtain ⟨h1, h2, h3, h4⟩ := h
    simp only at h3 h4
    obtain ⟨g1, g2, g3⟩ := RangeArr.get_spec h1 k
    simp only [delKey]
    split
    · rename_i hk
      have : f k = none := by by_contra hc; have := h4 k hc; omega
      exact ⟨this.symm, by rw [hsame this]; exact ⟨h1, h2, h3, h4⟩⟩
    · split
      · rename_i hn
        have : f k = none := by rw [← h2, ← g1, hn]
        exact ⟨this.symm, by rw [hsame this]; exact ⟨g2, fun j => by rw [g3, h2], h3, h4⟩⟩
      · rename_i v hv
        obtain ⟨s1, s2⟩ := RangeArr.set_spec g2 k none
        have hv' : ∀ j, ((a.get k).2.set k none).val j = if j = k then none else f j := fun j => by rw [s2, g3, h2]
        have hm : ∀ j, (if j = k then none else f j) ≠ none → j ≤ hi := by
          intro j hj
          split at hj
          · exact absurd rfl hj
          · exact h4 j hj
        refine ⟨by rw [← h2, ← g1, hv], ?_⟩
        simp only
        split
        · exact arrayToTree_holds (m := ⟨.array ((a.get k).2.set k none), en - 1, lo, hi⟩) s1 hv' hm
        · exact ⟨s1, hv', h3, hm⟩
  | tree t =>
    obtain ⟨h1, h2, h3, h4⟩ := h
    simp only at h3 h4
    obtain ⟨e1, e2, e3⟩ := NTree.extract_spec h1 k
    simp only [delKey]
    split
    · rename_i hn
      rw [hn] at e3
      simp only at e3
      have : f k = none := by
        cases hf : f k with
        | none => rfl
        | some v => exact absurd ((h2 k v).2 hf) (e3 _)
      refine ⟨this.symm, by
        rw [hsame this]
        refine ⟨e1, fun j v => ?_, fun e he => h3 e ((e2 e).1 he).1, h4⟩
        rw [e2, ← h2]
        exact ⟨fun h => h.1, fun h => ⟨h, fun hj => e3 (some v) (by simp only at hj; rw [hj] at h; exact h)⟩⟩⟩
    · rename_i e he
      rw [he] at e3
      obtain ⟨hm, rfl⟩ := e3
      have hval : e.2 = f e.1 := by
        obtain ⟨k, v⟩ := e
        cases v with
        | some v => exact ((h2 k v).1 hm).symm
        | none =>
          simp only
          cases hk : f k with
          | none => rfl
          | some w => exact absurd (key_unique (sorted_tree_iff.1 h1) hm ((h2 k w).2 hk)) (by simp)
      have hv' : ∀ j v, (j, some v) ∈ (extract intCmp Prod.fst e.1 t).2.toList ↔ (if j = e.1 then none else f j) = some v := by
        intro j v
        rw [e2, h2]
        by_cases hj : j = e.1 <;> simp [hj]
      split
      · rename_i hmax
        refine ⟨hval, ?_⟩
        have hmn := NTree.maxNode_spec e1
        cases hmx : NTree.maxNode (extract intCmp Prod.fst e.1 t).2 with
        | none =>
          rw [hmx] at hmn
          simp only at hmn ⊢
          split
          · exact treeToArray_holds e1 hv'
          · exact ⟨e1, hv', fun x hx => (by rw [hmn] at hx; cases hx), Int.le_refl _⟩
        | some y =>
          rw [hmx] at hmn
          simp only at hmn ⊢
          split
          · exact treeToArray_holds e1 hv'
          · exact ⟨e1, hv', fun x hx => ⟨(h3 x ((e2 x).1 hx).1).1, hmn.2 x hx⟩, (h3 y ((e2 y).1 hmn.1).1).1⟩
      · exact ⟨hval, e1, hv', fun x hx => h3 x ((e2 x).1 hx).1, h4⟩

/-! ## Iteration -/

theorem iterArr_spec (n : Nat) (i : Int) (a : RangeArr V) (hw : a.WF) :
    (iterArr n i a).2.1.WF ∧ (∀ k, (iterArr n i a).2.1.val k = a.val k) ∧
    match (iterArr n i a).1 with
    | none => RangeArr.entries a.val n i = []
    | some e => ∃ d, n = d + ((iterArr n i a).2.2 - i).toNat ∧ i ≤ (iterArr n i a).2.2 ∧
        RangeArr.entries a.val n i = e :: RangeArr.entries a.val d (iterArr n i a).2.2 := by
  induction n generalizing i a with
  | zero => exact ⟨hw, fun _ => rfl, rfl⟩
  | succ n ih =>
    obtain ⟨g1, g2, g3⟩ := RangeArr.get_spec hw i
    simp only [iterArr, RangeArr.entries]
    rw [← g1]
    generalize a.get i = r at *
    obtain ⟨rv, ra⟩ := r
    simp only at g1 g2 g3 ⊢
    cases rv with
    | none =>
      simp only
      obtain ⟨i1, i2, i3⟩ := ih (i + 1) ra g2
      refine ⟨i1, fun k => by rw [i2, g3], ?_⟩
      rw [RangeArr.entries_congr g3] at i3
      revert i3
      cases (iterArr n (i + 1) ra).1 with
      | none => exact id
      | some e =>
        rintro ⟨d, d1, d2, d3⟩
        rw [RangeArr.entries_congr g3] at d3
        exact ⟨d, by omega, by omega, d3⟩
    | some v =>
      exact ⟨g2, g3, n, by simp only; omega, by simp only; omega, rfl⟩

theorem iterNext_holds {n : Nat} {upper : Int} {m m' : IntMap V} {adm adm' : IterAdm V} {r : Option (Int × V)} {f : Int → Option V}
    (h : Holds m f) (hr : iterNext n upper m adm = some (r, m', adm')) : Holds m' f := by
  obtain ⟨vals, en, lo, hi⟩ := m
  unfold iterNext at hr
  split at hr
  · cases hr; exact h
  · rename_i a i hv
    simp only at hv
    subst hv
    cases hr
    obtain ⟨h1, h2, h3, h4⟩ := h
    obtain ⟨i1, i2, -⟩ := iterArr_spec (upper + 1 - i).toNat i a h1
    exact ⟨i1, fun k => by rw [i2, h2], h3, h4⟩
  · obtain ⟨r', hr', h'⟩ := Option.map_eq_some_iff.1 hr
    cases h'
    exact h
  · cases hr; exact h

theorem iterAll_array (n : Nat) (upper : Int) (K : Nat) (m : IntMap V) (a : RangeArr V) (i : Int) (hm : m.vals = .array a) (hw : a.WF)
    (hK : (RangeArr.entries a.val (upper + 1 - i).toNat i).length < K) :
    ∃ m', iterAll n upper K m (.current i) = some (RangeArr.entries a.val (upper + 1 - i).toNat i, m') := by
  induction K generalizing m a i with
  | zero => omega
  | succ K ih =>
    obtain ⟨i1, i2, i3⟩ := iterArr_spec (upper + 1 - i).toNat i a hw
    have hn : iterNext n upper m (.current i) = some ((iterArr (upper + 1 - i).toNat i a).1,
        { m with vals := .array (iterArr (upper + 1 - i).toNat i a).2.1 }, .current (iterArr (upper + 1 - i).toNat i a).2.2) := by
      simp only [iterNext, hm]
    rw [iterAll, hn]
    revert i3
    cases (iterArr (upper + 1 - i).toNat i a).1 with
    | none => intro i3; simp only at i3; rw [i3]; exact ⟨_, rfl⟩
    | some e =>
      rintro ⟨d, d1, d2, d3⟩
      rw [d3] at hK ⊢
      simp only [List.length_cons] at hK
      simp only
      generalize (iterArr (upper + 1 - i).toNat i a).2.2 = i' at *
      have hd : d = (upper + 1 - i').toNat := by omega
      subst hd
      have key := ih { m with vals := .array (iterArr (upper + 1 - i).toNat i a).2.1 } _ i' rfl i1 (by
        rw [RangeArr.entries_congr i2]; omega)
      rw [RangeArr.entries_congr i2] at key
      obtain ⟨m', hm'⟩ := key
      rw [hm']
      exact ⟨_, rfl⟩

/-- What a traversal stack still has to deliver. -/
def restOf (s : List (NTree V)) : List (Int × Option V) := s.flatMap fun u => match u with
  | .leaf => []
  | .node _ x r => x :: r.toList

theorem restOf_push (t : NTree V) (s : List (NTree V)) : restOf (pushSpine t s) = t.toList ++ restOf s := by
  induction t generalizing s with
  | leaf => rfl
  | node l x r ihl _ => simp only [pushSpine, ihl, toList]; simp [restOf]

theorem push_nonleaf (t : NTree V) (s : List (NTree V)) (h : ∀ u ∈ s, u ≠ .leaf) : ∀ u ∈ pushSpine t s, u ≠ .leaf := by
  induction t generalizing s with
  | leaf => exact h
  | node l x r ihl _ =>
    apply ihl
    intro u hu
    rcases List.mem_cons.1 hu with rfl | hu
    · simp
    · exact h u hu

theorem limitedInit_nonleaf (lo : Int) (t : NTree V) (s : List (NTree V)) (h : ∀ u ∈ s, u ≠ .leaf) :
    ∀ u ∈ NTree.limitedInit lo t s, u ≠ .leaf := by
  have h' : ∀ (l r : NTree V) e, ∀ u ∈ (STree.node l e r :: s), u ≠ .leaf := by
    intro l r e u hu
    rcases List.mem_cons.1 hu with rfl | hu
    · simp
    · exact h u hu
  fun_induction NTree.limitedInit lo t s with
  | case1 => exact h
  | case2 l e r s hc ih => exact ih h h'
  | case3 l e r s hc => exact h' _ _ _
  | case4 l e r s hc hc2 ih =>
    refine ih (h' l r e) ?_
    intro l2 r2 e2 u hu
    rcases List.mem_cons.1 hu with rfl | hu
    · simp
    · exact h' l r e u hu

theorem restOf_limited (lo : Int) (t : NTree V) (s : List (NTree V)) (hs : t.toList.Pairwise fun a b => a.1 < b.1) :
    restOf (NTree.limitedInit lo t s) = t.toList.filter (fun e => decide (lo ≤ e.1)) ++ restOf s := by
  fun_induction NTree.limitedInit lo t s with
  | case1 => rfl
  | case2 l e r s hc ih =>
    simp only [toList] at hs ⊢
    obtain ⟨-, p2, p3, -, -⟩ := pairwise_mid.1 hs
    rw [ih p2, List.filter_append, List.filter_cons, if_neg (by simp; omega)]
    rw [(List.filter_eq_nil_iff (l := l.toList)).2 (by intro a ha; have := p3 a ha; simp; omega)]
    rfl
  | case3 l e r s hc =>
    simp only [toList] at hs ⊢
    obtain ⟨-, -, p3, p4, -⟩ := pairwise_mid.1 hs
    rw [List.filter_append, List.filter_cons, if_pos (by simp; omega)]
    rw [(List.filter_eq_nil_iff (l := l.toList)).2 (by intro a ha; have := p3 a ha; simp; omega)]
    rw [(List.filter_eq_self (l := r.toList)).2 (by intro a ha; have := p4 a ha; simp; omega)]
    simp [restOf]
  | case4 l e r s hc hc2 ih =>
    simp only [toList] at hs ⊢
    obtain ⟨p1, -, -, p4, -⟩ := pairwise_mid.1 hs
    rw [ih p1, List.filter_append, List.filter_cons, if_pos (by simp; omega)]
    rw [(List.filter_eq_self (l := r.toList)).2 (by intro a ha; have := p4 a ha; simp; omega)]
    simp [restOf]

theorem iterTree_spec (upper : Int) (n : Nat) (s : List (NTree V)) (hs : ∀ u ∈ s, u ≠ .leaf) (hn : (restOf s).length < n) :
    ∃ r s', iterTree upper n s = some (r, s') ∧ (∀ u ∈ s', u ≠ .leaf) ∧ (restOf s').length ≤ (restOf s).length ∧
    match r with
    | none => valued ((restOf s).takeWhile fun e => decide (e.1 ≤ upper)) = []
    | some e => valued ((restOf s).takeWhile fun e => decide (e.1 ≤ upper)) = e :: valued ((restOf s').takeWhile fun e => decide (e.1 ≤ upper)) := by
  induction n generalizing s with
  | zero => omega
  | succ n ih =>
    cases s with
    | nil => exact ⟨none, [], rfl, by simp, Nat.le_refl _, rfl⟩
    | cons u s =>
      cases u with
      | leaf => exact absurd rfl (hs .leaf (by simp))
      | node l x r =>
        obtain ⟨k, v⟩ := x
        have hr : restOf (.node l (k, v) r :: s) = (k, v) :: restOf (pushSpine r s) := by rw [restOf_push]; simp [restOf]
        have hs' : ∀ u ∈ pushSpine r s, u ≠ .leaf := push_nonleaf r s fun u hu => hs u (by simp [hu])
        rw [hr] at hn ⊢
        simp only [List.length_cons] at hn
        simp only [iterTree, traverseNext]
        by_cases hk : k > upper
        · rw [if_pos hk]
          refine ⟨none, _, rfl, hs', by simp, ?_⟩
          simp only
          rw [List.takeWhile_cons_of_neg (by simp; omega)]
          rfl
        · rw [if_neg hk, List.takeWhile_cons_of_pos (by simp; omega)]
          cases v with
          | some v => exact ⟨some (k, v), _, rfl, hs', by simp, rfl⟩
          | none =>
            obtain ⟨r', s', h1, h2, h3, h4⟩ := ih (pushSpine r s) hs' (by omega)
            exact ⟨r', s', h1, h2, by simp; omega, h4⟩

theorem iterAll_tree (upper : Int) (n K : Nat) (m : IntMap V) (t : NTree V) (s : List (NTree V)) (hm : m.vals = .tree t)
    (hs : ∀ u ∈ s, u ≠ .leaf) (hn : (restOf s).length < n)
    (hK : (valued ((restOf s).takeWhile fun e => decide (e.1 ≤ upper))).length < K) :
    ∃ m', iterAll n upper K m (.stack s) = some (valued ((restOf s).takeWhile fun e => decide (e.1 ≤ upper)), m') := by
  induction K generalizing s with
  | zero => omega
  | succ K ih =>
    obtain ⟨r, s', h1, h2, h3, h4⟩ := iterTree_spec upper n s hs hn
    have hx : iterNext n upper m (.stack s) = some (r, m, .stack s') := by
      simp only [iterNext, hm, h1, Option.map_some]
    rw [iterAll, hx]
    cases r with
    | none => simp only at h4; rw [h4]; exact ⟨_, rfl⟩
    | some e =>
      simp only at h4
      rw [h4] at hK ⊢
      simp only [List.length_cons] at hK
      obtain ⟨m', hm'⟩ := ih s' h2 (by omega) (by omega)
      simp only [hm']
      exact ⟨_, rfl⟩

theorem takeWhile_sorted {l : List (Int × Option V)} (h : l.Pairwise fun a b => a.1 < b.1) (u : Int) {e : Int × Option V} :
    e ∈ l.takeWhile (fun e => decide (e.1 ≤ u)) ↔ e ∈ l ∧ e.1 ≤ u := by
  induction l with
  | nil => simp
  | cons x l ih =>
    obtain ⟨h1, h2⟩ := List.pairwise_cons.1 h
    by_cases hx : x.1 ≤ u
    · rw [List.takeWhile_cons_of_pos (by simpa using hx), List.mem_cons, List.mem_cons, ih h2]
      constructor
      · rintro (rfl | ⟨h3, h4⟩)
        · exact ⟨Or.inl rfl, hx⟩
        · exact ⟨Or.inr h3, h4⟩
      · rintro ⟨rfl | h3, h4⟩
        · exact Or.inl rfl
        · exact Or.inr ⟨h3, h4⟩
    · rw [List.takeWhile_cons_of_neg (by simpa using hx)]
      simp only [List.not_mem_nil, List.mem_cons, false_iff, not_and]
      rintro (rfl | h3)
      · exact hx
      · have := h1 e h3; omega

theorem iterAll_spec {m : IntMap V} {f : Int → Option V} (h : Holds m f) (lo hi : Int) :
    ∃ N l, (∀ n K, N ≤ n → N ≤ K → ∃ m', iterAll n (iterAlloc m lo hi).1 K m (iterAlloc m lo hi).2 = some (l, m')) ∧
      (l.Pairwise fun a b => a.1 < b.1) ∧ ∀ k v, (k, v) ∈ l ↔ f k = some v ∧ lo ≤ k ∧ k ≤ hi := by
  obtain ⟨vals, en, mn, mx⟩ := m
  cases vals with
  | empty =>
    refine ⟨1, [], fun n K hn hK => ?_, by simp, fun k v => by rw [h k]; simp⟩
    obtain ⟨K, rfl⟩ := Nat.exists_eq_succ_of_ne_zero (n := K) (by omega)
    exact ⟨_, rfl⟩
  | single v =>
    obtain ⟨h1, h2⟩ := h
    simp only at h1 h2
    by_cases hin : lo ≤ mx ∧ mx ≤ hi
    · have hadm : (iterAlloc (⟨.single v, en, mn, mx⟩ : IntMap V) lo hi).2 = .seen false := by simp [iterAlloc, hin]
      cases v with
      | none =>
        refine ⟨1, [], fun n K hn hK => ?_, by simp, fun k v => by rw [h2 k]; simp⟩
        obtain ⟨K, rfl⟩ := Nat.exists_eq_succ_of_ne_zero (n := K) (by omega)
        rw [hadm]
        exact ⟨_, rfl⟩
      | some w =>
        refine ⟨2, [(mx, w)], fun n K hn hK => ?_, by simp, fun k v => ?_⟩
        · obtain ⟨K, rfl⟩ := Nat.exists_eq_add_of_le hK
          rw [hadm, Nat.add_comm]
          exact ⟨_, rfl⟩
        · rw [h2]
          simp only [List.mem_singleton, Prod.mk.injEq]
          constructor
          · rintro ⟨rfl, rfl⟩; simpa using hin
          · rintro ⟨h3, -⟩
            split at h3
            · rename_i hk; exact ⟨hk, (Option.some.inj h3).symm⟩
            · cases h3
    · have hadm : (iterAlloc (⟨.single v, en, mn, mx⟩ : IntMap V) lo hi).2 = .seen true := by
        simp only [iterAlloc, IterAdm.seen.injEq, Bool.not_eq_true', Bool.and_eq_false_iff, decide_eq_false_iff_not]
        omega
      refine ⟨1, [], fun n K hn hK => ?_, by simp, fun k w => ?_⟩
      · obtain ⟨K, rfl⟩ := Nat.exists_eq_succ_of_ne_zero (n := K) (by omega)
        rw [hadm]
        exact ⟨_, rfl⟩
      · rw [h2]
        simp only [List.not_mem_nil, false_iff, not_and]
        intro h3
        split at h3
        · rename_i hk; subst hk; omega
        · cases h3
  | array a =>
    obtain ⟨h1, h2, h3, h4⟩ := h
    simp only at h3 h4
    refine ⟨(RangeArr.entries a.val (min hi mx + 1 - lo).toNat lo).length + 1, RangeArr.entries a.val (min hi mx + 1 - lo).toNat lo,
      fun n K hn hK => iterAll_array n (min hi mx) K _ a lo rfl h1 (by omega), RangeArr.entries_sorted _ _, fun k v => ?_⟩
    rw [RangeArr.mem_entries, h2]
    constructor
    · rintro ⟨e1, e2, e3⟩; exact ⟨e1, e2, by omega⟩
    · rintro ⟨e1, e2, e3⟩
      have := h4 k (by rw [e1]; simp)
      exact ⟨e1, e2, by omega⟩
  | tree t =>
    obtain ⟨h1, h2, h3, h4⟩ := h
    simp only at h3 h4
    have hsrt := sorted_tree_iff.1 h1
    have hrest : restOf (NTree.limitedInit lo t []) = t.toList.filter (fun e => decide (lo ≤ e.1)) := by
      rw [restOf_limited lo t [] hsrt]; simp [restOf]
    refine ⟨(restOf (NTree.limitedInit lo t [])).length + (valued ((restOf (NTree.limitedInit lo t [])).takeWhile fun e => decide (e.1 ≤ min hi mx))).length + 1,
      valued ((restOf (NTree.limitedInit lo t [])).takeWhile fun e => decide (e.1 ≤ min hi mx)),
      fun n K hn hK => iterAll_tree (min hi mx) n K _ t _ rfl (limitedInit_nonleaf lo t [] (by simp)) (by omega) (by omega), ?_, fun k v => ?_⟩
    · apply valued_sorted
      rw [hrest]
      exact (hsrt.filter _).sublist (List.takeWhile_sublist _)
    · rw [mem_valued, hrest, takeWhile_sorted (hsrt.filter _), List.mem_filter, h2]
      simp only [decide_eq_true_eq]
      constructor
      · rintro ⟨⟨e1, e2⟩, e3⟩; exact ⟨e1, e2, by omega⟩
      · rintro ⟨e1, e2, e3⟩
        have := (h3 _ ((h2 k v).2 e1)).2
        simp only at this
        exact ⟨⟨e1, e2⟩, by omega⟩

end IntMap
end Verif
