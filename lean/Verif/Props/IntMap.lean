import Verif.Basics.IntMapProof

/-!
# C34: integer maps

Range arrays and integer maps behave as functions from integers to optional values, whatever representation is in use.
-/

namespace Verif.Props
open Verif

variable {V : Type}

/-! ## Specification: histories -/

/-- `f` with the value `v` for `k`. -/
def upd (f : Int → Option V) (k : Int) (v : Option V) : Int → Option V := fun j => if j = k then v else f j

/-- A map reached by a sequence of operations, with the function it should represent.  An allocated map has arbitrary counters.  A
reference may be taken and written (`assign`) or not (`ref`); single steps of any iterator are allowed at any time. -/
inductive MapReach : IntMap V → (Int → Option V) → Prop
  | alloc (n lo hi : Int) : MapReach (IntMap.alloc n lo hi) fun _ => none
  | get {m f} (k : Int) : MapReach m f → MapReach (m.getVal k).2 f
  | ref {m f m'} (n : Nat) (k : Int) : MapReach m f → IntMap.getRef n m k = some m' → MapReach m' f
  | assign {m f m'} (n : Nat) (k : Int) (v : Option V) : MapReach m f → IntMap.assign n m k v = some m' → MapReach m' (upd f k v)
  | del {m f} (k : Int) : MapReach m f → MapReach (m.delKey k).2 (upd f k none)
  | iter {m f m' adm r adm'} (n : Nat) (upper : Int) : MapReach m f → IntMap.iterNext n upper m adm = some (r, m', adm') → MapReach m' f

theorem intMap_invariant {m : IntMap V} {f : Int → Option V} (h : MapReach m f) : m.Holds f := by
  induction h with
  | alloc n lo hi => intro k; rfl
  | get k _ ih => exact (IntMap.getVal_spec ih k).2
  | ref n k _ hr ih => exact (IntMap.getRef_spec n ih hr).1
  | assign n k v _ hr ih =>
    obtain ⟨m2, h2, rfl⟩ := Option.map_eq_some_iff.1 hr
    exact IntMap.writeRef_spec (IntMap.getRef_spec n ih h2) v
  | del k _ ih => exact (IntMap.delKey_spec ih k).2
  | iter n upper _ hr ih => exact IntMap.iterNext_holds ih hr

/-! ## Theorems -/

/-- Looking up a key gives its value. -/
theorem intMap_get {m : IntMap V} {f : Int → Option V} (h : MapReach m f) (k : Int) : (m.getVal k).1 = f k :=
  (IntMap.getVal_spec (intMap_invariant h) k).1

/-- Deleting a key returns its value. -/
theorem intMap_del {m : IntMap V} {f : Int → Option V} (h : MapReach m f) (k : Int) : (m.delKey k).1 = f k :=
  (IntMap.delKey_spec (intMap_invariant h) k).1

/-- References and assignments are always possible: the conversions between the representations do not alternate for ever. -/
theorem intMap_assign_total {m : IntMap V} {f : Int → Option V} (h : MapReach m f) (k : Int) (v : Option V) (n : Nat) :
    (∃ m', IntMap.getRef (n + 3) m k = some m') ∧ ∃ m', IntMap.assign (n + 3) m k v = some m' := by
  obtain ⟨m', hm'⟩ := IntMap.getRef_total (intMap_invariant h) k n
  exact ⟨⟨m', hm'⟩, _, by rw [IntMap.assign, hm']; rfl⟩

/-- Assigned values are found, and other keys are not affected; this follows from the two theorems above and is stated for
convenience. -/
theorem intMap_get_assign {m m' : IntMap V} {f : Int → Option V} (h : MapReach m f) {n : Nat} {k : Int} {v : Option V}
    (ha : IntMap.assign n m k v = some m') (j : Int) : (m'.getVal j).1 = if j = k then v else (m.getVal j).1 := by
  rw [intMap_get (h.assign n k v ha) j, intMap_get h j]; rfl

/-- An iteration over a range of keys delivers exactly the keys in the range that have values, with these values, in increasing order,
and stops (`N` bounds the number of rounds needed). -/
theorem intMap_iter {m : IntMap V} {f : Int → Option V} (h : MapReach m f) (lo hi : Int) :
    ∃ N l, (∀ n K, N ≤ n → N ≤ K → ∃ m', IntMap.iterAll n (m.iterAlloc lo hi).1 K m (m.iterAlloc lo hi).2 = some (l, m')) ∧
      (l.Pairwise fun a b => a.1 < b.1) ∧ ∀ k v, (k, v) ∈ l ↔ f k = some v ∧ lo ≤ k ∧ k ≤ hi :=
  IntMap.iterAll_spec (intMap_invariant h) lo hi

/-! ## Range arrays -/

/-- Arrays reached by reading and assigning elements, with the function represented. -/
inductive ArrReach : RangeArr V → (Int → Option V) → Prop
  | alloc (i : Int) (g : Nat) : ArrReach (RangeArr.alloc i g) fun _ => none
  | get {a f} (k : Int) : ArrReach a f → ArrReach (a.get k).2 f
  | set {a f} (k : Int) (v : Option V) : ArrReach a f → ArrReach (a.set k v) (upd f k v)

/-- Reading an element at any index gives the value last assigned, or null. -/
theorem rangeArr_get {a : RangeArr V} {f : Int → Option V} (h : ArrReach a f) (k : Int) : (a.get k).1 = f k := by
  suffices hs : a.WF ∧ ∀ k, a.val k = f k by rw [(RangeArr.get_spec hs.1 k).1, hs.2]
  induction h with
  | alloc i g => exact ⟨RangeArr.alloc_wf i g, RangeArr.alloc_val i g⟩
  | get k _ ih =>
    obtain ⟨-, h2, h3⟩ := RangeArr.get_spec ih.1 k
    exact ⟨h2, fun j => by rw [h3, ih.2]⟩
  | set k v _ ih =>
    obtain ⟨h2, h3⟩ := RangeArr.set_spec ih.1 k v
    exact ⟨h2, fun j => by rw [h3, ih.2]; rfl⟩

/-- The index read is inside the allocated memory. -/
theorem rangeArr_inside {a : RangeArr V} {f : Int → Option V} (h : ArrReach a f) (k : Int) :
    (a.ensure k).offset ≤ k ∧ k < (a.ensure k).offset + (a.ensure k).size := by
  suffices hs : a.WF from RangeArr.covers_iff.1 (RangeArr.ensure_spec hs k).2.1
  induction h with
  | alloc i g => exact RangeArr.alloc_wf i g
  | get k _ ih => exact (RangeArr.get_spec ih k).2.1
  | set k v _ ih => exact (RangeArr.set_spec ih k v).1

/-! ## Findings about memory -/

/-- The density test for the second key has its arguments in the wrong roles (BASICS/clb_intmap.c:373): for any key greater than the
first one an array is used, however far apart the keys are ... -/
theorem second_key_array (N : Nat) (hN : 0 < N) (v : Option V) (n : Nat) :
    ∃ m1 m2 a, IntMap.assign (n + 1) (IntMap.alloc 0 0 0 : IntMap V) 0 v = some m1 ∧ IntMap.getRef (n + 1) m1 (N : Int) = some m2 ∧
      m2.vals = .array a ∧ N < a.size := by
  refine ⟨⟨.single v, 1, 0, 0⟩, ⟨.array (((RangeArr.alloc (min (N : Int) 0) 8).set 0 v).set N none), 2, min 0 (N : Int), max (N : Int) 0⟩, _,
    rfl, ?_, rfl, ?_⟩
  · unfold IntMap.getRef
    simp only
    rw [if_neg (by omega), if_pos (by simp [switchToArray])]
  · have w1 := (RangeArr.set_spec (RangeArr.alloc_wf (V := V) (min (N : Int) 0) 8) 0 v).1
    have hc := RangeArr.covers_iff.1 (RangeArr.ensure_spec w1 (N : Int)).2.1
    have e1 : (RangeArr.alloc (V := V) (min (N : Int) 0) 8).offset = 0 := by simp [RangeArr.alloc]
    have e2 : ((RangeArr.alloc (V := V) (min (N : Int) 0) 8).set 0 v).offset = 0 := by
      rw [show min (N : Int) 0 = 0 by omega]
      rfl
    have e3 : (((RangeArr.alloc (V := V) (min (N : Int) 0) 8).set 0 v).ensure (N : Int)).offset = 0 := by
      unfold RangeArr.ensure
      split
      · exact e2
      · split
        · omega
        · exact e2
    have e4 : ((((RangeArr.alloc (V := V) (min (N : Int) 0) 8).set 0 v).set (N : Int) none)).size =
      (((RangeArr.alloc (V := V) (min (N : Int) 0) 8).set 0 v).ensure (N : Int)).size := rfl
    rw [e4]
    omega

/-- ... while for a smaller key at a distance of 8 or more a tree is used. -/
theorem second_key_tree (N : Nat) (hN : 8 ≤ N) (v : Option V) (n : Nat) :
    ∃ m1 m2 t, IntMap.assign (n + 1) (IntMap.alloc 0 0 0 : IntMap V) 0 v = some m1 ∧ IntMap.getRef (n + 1) m1 (-(N : Int)) = some m2 ∧
      m2.vals = .tree t := by
  have hr : ∃ m2 t, IntMap.getRef (n + 1) (⟨.single v, 1, 0, 0⟩ : IntMap V) (-(N : Int)) = some m2 ∧ m2.vals = .tree t := by
    unfold IntMap.getRef
    simp only
    rw [if_neg (by omega), if_neg (by simp [switchToArray]; omega)]
    exact ⟨_, _, rfl, rfl⟩
  obtain ⟨m2, t, h1, h2⟩ := hr
  exact ⟨_, m2, t, rfl, h1, h2⟩

/-- Just looking up a key below an array makes the array reach down to the key. -/
theorem lookup_enlarges {m : IntMap V} {a : RangeArr V} (hm : m.vals = .array a) (hw : a.WF) {k : Int} (hk : k < a.offset) (hmax : k ≤ m.maxKey) :
    ∃ a', (m.getVal k).2.vals = .array a' ∧ a'.offset ≤ k ∧ a.size + (a.offset - k).toNat < a'.size := by
  obtain ⟨vals, en, lo, hi⟩ := m
  simp only at hm hmax
  subst hm
  refine ⟨a.ensure k, ?_, (RangeArr.covers_iff.1 (RangeArr.ensure_spec hw k).2.1).1, ?_⟩
  · simp only [IntMap.getVal, if_pos hmax]; rfl
  · have : a.ensure k = a.expandDown k := by
      unfold RangeArr.ensure
      rw [if_neg (by rw [RangeArr.covers_iff]; omega), if_pos hk]
    rw [this]
    have hg := rangeArrSize_gt ((a.offset - k).toNat + a.size) a.size a.grow hw
    have e1 : (a.expandDown k).size = rangeArrSize ((a.offset - k).toNat + a.size) a.size a.grow := rfl
    omega

/-! ## Examples -/

/-- A history through all representations: single, array, tree, array; with a deletion and an iteration at the end. -/
private def hist : Option (List (Int × Nat)) :=
  (IntMap.assign 3 (IntMap.alloc 0 0 0) 5 (some 50)).bind fun m =>
  (IntMap.assign 3 m 7 (some 70)).bind fun m =>
  (IntMap.assign 3 m 100 (some 1)).bind fun m =>
  (IntMap.assign 3 m (-3) (some 30)).bind fun m =>
  (IntMap.iterAll 9 ((m.delKey 100).2.iterAlloc 0 99).1 9 (m.delKey 100).2 ((m.delKey 100).2.iterAlloc 0 99).2).map Prod.fst

example : hist = some [(5, 50), (7, 70)] := by decide +kernel

/-- Such maps are reached. -/
example : ∃ (m : IntMap Nat) (f : Int → Option Nat), MapReach m f ∧ f 5 = some 50 ∧ f 100 = some 1 ∧ f 6 = none := by
  have r0 : MapReach (IntMap.alloc 0 0 0 : IntMap Nat) _ := .alloc 0 0 0
  obtain ⟨-, m1, h1⟩ := intMap_assign_total r0 5 (some 50) 0
  have r1 := r0.assign _ _ _ h1
  obtain ⟨-, m2, h2⟩ := intMap_assign_total r1 100 (some 1) 0
  exact ⟨m2, _, r1.assign _ _ _ h2, rfl, rfl, rfl⟩

end Verif.Props
