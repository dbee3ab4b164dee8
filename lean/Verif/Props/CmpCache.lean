import Verif.Orderings.CmpCache
import Verif.Props.Splay

/-!
# C13: the comparison cache is transparent
-/

namespace Verif.Props
open Verif

/-- A result that says something true about the comparison `ord a b`: the result itself, or one of the two partial results. -/
def Truthful (ord : HalfKey → HalfKey → Cmp) (a b : HalfKey) (v : Cmp) : Prop :=
  v = ord a b ∨ (v = .notgteq ∧ (ord a b = .lesser ∨ ord a b = .uncomparable)) ∨
    (v = .notleeq ∧ (ord a b = .greater ∨ ord a b = .uncomparable))

/-- A fresh comparison: exchanging the terms inverts the result, and the result is a proper one. -/
structure FreshCmp (ord : HalfKey → HalfKey → Cmp) : Prop where
  inv : ∀ a b, ord b a = (ord a b).inv
  ran : ∀ a b, ord a b = .uncomparable ∨ ord a b = .equal ∨ ord a b = .greater ∨ ord a b = .lesser

/-- Cache states reached by lookups and insertions of true results. -/
inductive CacheReach (isVar : Nat → Bool) (ord : HalfKey → HalfKey → Cmp) : CmpCache → Prop
  | empty : CacheReach isVar ord .leaf
  | find {c} (a b) : CacheReach isVar ord c → CacheReach isVar ord (cmpCacheFind isVar c a b).2
  | insert {c} (a b v) : CacheReach isVar ord c → Truthful ord a b v → CacheReach isVar ord (cmpCacheInsert isVar c a b v).2

instance : Std.TransCmp doubleKeyCmp := by unfold doubleKeyCmp; infer_instance

instance : Std.TransCmp quadKeyCmp := by
  have h1 : Std.TransCmp (fun a b : QKey => doubleKeyCmp a.1 b.1) :=
    { eq_swap := Std.OrientedCmp.eq_swap (cmp := doubleKeyCmp), isLE_trans := Std.TransCmp.isLE_trans (cmp := doubleKeyCmp) }
  have h2 : Std.TransCmp (fun a b : QKey => doubleKeyCmp a.2 b.2) :=
    { eq_swap := Std.OrientedCmp.eq_swap (cmp := doubleKeyCmp), isLE_trans := Std.TransCmp.isLE_trans (cmp := doubleKeyCmp) }
  unfold quadKeyCmp
  infer_instance

theorem doubleKeyCmp_same {a b : HalfKey} (h : doubleKeyCmp a b = .eq) : a = b := by
  simp only [doubleKeyCmp, compareLex, compareOn, Ordering.then_eq_eq] at h
  exact Prod.ext (Std.LawfulEqCmp.eq_of_compare h.1) (Std.LawfulEqCmp.eq_of_compare h.2)

theorem quadKeyCmp_same {a b : QKey} (h : quadKeyCmp a b = .eq) : a = b := by
  simp only [quadKeyCmp, compareLex, Ordering.then_eq_eq] at h
  exact Prod.ext (doubleKeyCmp_same h.1) (doubleKeyCmp_same h.2)

private theorem truthful_inv {ord : HalfKey → HalfKey → Cmp} (ho : FreshCmp ord) {a b : HalfKey} {v : Cmp} (h : Truthful ord a b v) :
    Truthful ord b a v.inv := by
  unfold Truthful at *
  rw [ho.inv a b]
  rcases h with rfl | ⟨rfl, h | h⟩ | ⟨rfl, h | h⟩ <;> simp [Cmp.inv, *]

private theorem truthful_combine {ord : HalfKey → HalfKey → Cmp} (ho : FreshCmp ord) {a b : HalfKey} {u v : Cmp}
    (h1 : Truthful ord a b u) (h2 : Truthful ord a b v) : Truthful ord a b (cacheCombine u v) := by
  unfold Truthful at *
  rcases ho.ran a b with hr | hr | hr | hr <;> rw [hr] at h1 h2 ⊢ <;>
    rcases h1 with rfl | ⟨rfl, h | h⟩ | ⟨rfl, h | h⟩ <;> rcases h2 with rfl | ⟨rfl, h' | h'⟩ | ⟨rfl, h' | h'⟩ <;>
    simp_all [cacheCombine]

private theorem prepareKey_cases (a b : HalfKey) : prepareKey a b = (true, a, b) ∨ prepareKey a b = (false, b, a) := by
  unfold prepareKey
  split
  · exact Or.inl rfl
  · exact Or.inr rfl

private structure CacheOK (ord : HalfKey → HalfKey → Cmp) (c : CmpCache) : Prop where
  sorted : STree.Sorted quadKeyCmp Prod.fst c
  truth : ∀ e ∈ c.toList, Truthful ord e.1.1 e.1.2 e.2

private theorem find_ok {ord : HalfKey → HalfKey → Cmp} {c : CmpCache} (h : CacheOK ord c) (k : QKey) :
    CacheOK ord (STree.find quadKeyCmp Prod.fst k c).2 ∧
    (∀ e, (STree.find quadKeyCmp Prod.fst k c).1 = some e → e.1 = k ∧ Truthful ord k.1 k.2 e.2 ∧
      ∃ l r, (STree.find quadKeyCmp Prod.fst k c).2 = .node l e r) ∧
    ((STree.find quadKeyCmp Prod.fst k c).1 = none → ∀ e ∈ (STree.find quadKeyCmp Prod.fst k c).2.toList, e.1 ≠ k) ∧
    (STree.find quadKeyCmp Prod.fst k c).2.toList.Perm c.toList := by
  obtain ⟨h1, h2, h3⟩ := find_rel (⟨h.sorted, List.Perm.refl _⟩ : TreeRel quadKeyCmp Prod.fst c c.toList) k
  refine ⟨⟨h2, fun e he => h.truth e (h3.mem_iff.1 he)⟩, ?_, ?_, h3⟩
  · intro e he
    rw [he] at h1
    have hm := (look_iff (sorted_distinct h.sorted)).1 h1.symm
    have hk : e.1 = k := (quadKeyCmp_same hm.2).symm
    refine ⟨hk, by rw [← hk]; exact h.truth e hm.1, ?_⟩
    revert he
    unfold STree.find
    cases hs : STree.splay quadKeyCmp Prod.fst k c with
    | leaf => simp
    | node l x r =>
      simp only
      split
      · intro hx
        cases hx
        exact ⟨l, r, rfl⟩
      · intro hx; cases hx
  · intro hn e he hk
    rw [hn] at h1
    have := look_none.1 h1.symm e (h3.mem_iff.1 he)
    rw [hk] at this
    exact this Std.ReflCmp.compare_self

private theorem insert_ok {isVar : Nat → Bool} {ord : HalfKey → HalfKey → Cmp} (ho : FreshCmp ord) {c : CmpCache} (h : CacheOK ord c)
    {a b : HalfKey} {v : Cmp} (hv : Truthful ord a b v) : CacheOK ord (cmpCacheInsert isVar c a b v).2 ∧
    (isVar a.1 = false → isVar b.1 = false → ∃ e ∈ (cmpCacheInsert isVar c a b v).2.toList, e.1 = (prepareKey a b).2) := by
  unfold cmpCacheInsert
  split
  · next hvar => exact ⟨h, fun h1 h2 => by simp [h1, h2] at hvar⟩
  · have key : ∀ (nat : Bool) (k : QKey) (val : Cmp), Truthful ord k.1 k.2 val →
        CacheOK ord (match STree.find quadKeyCmp Prod.fst k c with
          | (some _, .node l e r) => (false, STree.node l (e.1, cacheCombine e.2 val) r)
          | (some _, .leaf) => (false, .leaf)
          | (none, c) => match STree.insert quadKeyCmp Prod.fst (k, val) c with
            | (none, c) => (true, c)
            | (some _, c) => (false, c)).2 ∧
        ∃ e ∈ (match STree.find quadKeyCmp Prod.fst k c with
          | (some _, .node l e r) => (false, STree.node l (e.1, cacheCombine e.2 val) r)
          | (some _, .leaf) => (false, .leaf)
          | (none, c) => match STree.insert quadKeyCmp Prod.fst (k, val) c with
            | (none, c) => (true, c)
            | (some _, c) => (false, c)).2.toList, e.1 = k := by
      intro nat k val hval
      obtain ⟨f1, f2, f3, f4⟩ := find_ok h k
      cases hf : STree.find quadKeyCmp Prod.fst k c with
      | mk o c' =>
        rw [hf] at f1 f2 f3 f4
        cases o with
        | some e =>
          obtain ⟨g1, g2, l, r, g3⟩ := f2 e rfl
          simp only at g3
          subst g3
          simp only
          refine ⟨⟨?_, ?_⟩, (e.1, cacheCombine e.2 val), by simp [STree.toList], g1⟩
          · have := f1.sorted
            simp only [STree.Sorted, STree.toList, pairwise_mid] at this ⊢
            exact this
          · intro x hx
            simp only [STree.toList, List.mem_append, List.mem_cons] at hx
            rcases hx with hx | rfl | hx
            · exact f1.truth x (by simp [STree.toList, hx])
            · simp only
              rw [g1]
              exact truthful_combine ho g2 hval
            · exact f1.truth x (by simp [STree.toList, hx])
        | none =>
          simp only
          obtain ⟨i1, i2, i3⟩ := insert_rel (⟨f1.sorted, List.Perm.refl _⟩ : TreeRel quadKeyCmp Prod.fst c' c'.toList) (k, val)
          have hl : look quadKeyCmp Prod.fst c'.toList (k, val).1 = none := by
            rw [look_none]
            intro x hx hc
            exact f3 rfl x hx (quadKeyCmp_same hc).symm
          simp only [mapStep, hl] at i1 i2 i3
          cases hi : STree.insert quadKeyCmp Prod.fst (k, val) c' with
          | mk o2 c2 =>
            rw [hi] at i1 i2 i3
            simp only at i1 i2 i3
            subst i1
            simp only
            refine ⟨⟨i2, ?_⟩, (k, val), i3.mem_iff.2 (by simp), rfl⟩
            intro x hx
            rcases List.mem_cons.1 (i3.mem_iff.1 hx) with rfl | hx
            · exact hval
            · exact f1.truth x hx
    rcases prepareKey_cases a b with hp | hp
    · rw [hp]
      obtain ⟨k1, k2⟩ := key true (a, b) v hv
      exact ⟨k1, fun _ _ => k2⟩
    · rw [hp]
      obtain ⟨k1, k2⟩ := key false (b, a) v.inv (truthful_inv ho hv)
      exact ⟨k1, fun _ _ => k2⟩

private theorem find_result {isVar : Nat → Bool} {ord : HalfKey → HalfKey → Cmp} (ho : FreshCmp ord) {c : CmpCache} (h : CacheOK ord c)
    (a b : HalfKey) : CacheOK ord (cmpCacheFind isVar c a b).2 ∧
    ((cmpCacheFind isVar c a b).1 = .unknown ∨ Truthful ord a b (cmpCacheFind isVar c a b).1) := by
  unfold cmpCacheFind
  split
  · exact ⟨h, Or.inl rfl⟩
  · rcases prepareKey_cases a b with hp | hp
    · rw [hp]
      obtain ⟨f1, f2, -⟩ := find_ok h (a, b)
      cases hf : STree.find quadKeyCmp Prod.fst (a, b) c with
      | mk o c' =>
        rw [hf] at f1 f2
        simp only [hf]
        cases o with
        | none => exact ⟨f1, Or.inl rfl⟩
        | some e => exact ⟨f1, Or.inr (f2 e rfl).2.1⟩
    · rw [hp]
      obtain ⟨f1, f2, -⟩ := find_ok h (b, a)
      cases hf : STree.find quadKeyCmp Prod.fst (b, a) c with
      | mk o c' =>
        rw [hf] at f1 f2
        simp only [hf]
        cases o with
        | none => exact ⟨f1, Or.inl rfl⟩
        | some e => exact ⟨f1, Or.inr (truthful_inv ho (f2 e rfl).2.1)⟩

private theorem reach_ok {isVar : Nat → Bool} {ord : HalfKey → HalfKey → Cmp} (ho : FreshCmp ord) {c : CmpCache}
    (h : CacheReach isVar ord c) : CacheOK ord c := by
  induction h with
  | empty => exact ⟨by simp [STree.Sorted, STree.toList], by simp [STree.toList]⟩
  | find a b _ ih => exact (find_result ho ih a b).1
  | insert a b v _ hv ih => exact (insert_ok ho ih hv).1

/-- After any history, an answer of the cache is true: a full result is the result of a fresh comparison in the same
orientation, a partial result agrees with it. -/
theorem cmpCacheFind_correct {isVar : Nat → Bool} {ord : HalfKey → HalfKey → Cmp} (ho : FreshCmp ord) {c : CmpCache}
    (h : CacheReach isVar ord c) (a b : HalfKey) :
    match (cmpCacheFind isVar c a b).1 with
    | .unknown => True
    | .notgteq => ord a b = .lesser ∨ ord a b = .uncomparable
    | .notleeq => ord a b = .greater ∨ ord a b = .uncomparable
    | v => ord a b = v := by
  have := (find_result (isVar := isVar) ho (reach_ok ho h) a b).2
  revert this
  cases (cmpCacheFind isVar c a b).1 <;> simp [Truthful] <;> rcases ho.ran a b with hr | hr | hr | hr <;> simp [hr]

/-- A comparison of two non-variables that was inserted is answered by a lookup in either orientation. -/
theorem cmpCacheFind_hit {isVar : Nat → Bool} {ord : HalfKey → HalfKey → Cmp} (ho : FreshCmp ord) {c : CmpCache}
    (h : CacheReach isVar ord c) {a b : HalfKey} {v : Cmp} (hv : Truthful ord a b v) (ha : isVar a.1 = false) (hb : isVar b.1 = false) :
    (cmpCacheFind isVar (cmpCacheInsert isVar c a b v).2 a b).1 ≠ .unknown ∧
    (cmpCacheFind isVar (cmpCacheInsert isVar c a b v).2 b a).1 ≠ .unknown := by
  obtain ⟨hok, hex⟩ := insert_ok (isVar := isVar) ho (reach_ok ho h) hv
  obtain ⟨e, he, hk⟩ := hex ha hb
  have hit : ∀ x y : HalfKey, isVar x.1 = false → isVar y.1 = false → (prepareKey x y).2 = (prepareKey a b).2 →
      (cmpCacheFind isVar (cmpCacheInsert isVar c a b v).2 x y).1 ≠ .unknown := by
    intro x y hx hy hxy
    unfold cmpCacheFind
    rw [if_neg (by simp [hx, hy])]
    obtain ⟨f1, f2, f3, f4⟩ := find_ok hok (prepareKey x y).2
    cases hp : prepareKey x y with
    | mk nat k =>
      rw [hp] at f1 f2 f3 f4 hxy
      simp only at f1 f2 f3 f4 hxy ⊢
      cases hf : STree.find quadKeyCmp Prod.fst k (cmpCacheInsert isVar c a b v).2 with
      | mk o c' =>
        rw [hf] at f1 f2 f3 f4
        cases o with
        | none => exact absurd (hk.trans hxy.symm) (f3 rfl e (f4.mem_iff.2 he))
        | some d =>
          have ht := (f2 d rfl).2.1
          have : d.2 ≠ .unknown := by
            intro hd
            rw [hd] at ht
            unfold Truthful at ht
            rcases ho.ran k.1 k.2 with hr | hr | hr | hr <;> simp [hr] at ht
          simp only
          cases nat <;> cases hd : d.2 <;> simp [Cmp.inv] <;> exact this hd
  refine ⟨hit a b ha hb rfl, hit b a hb ha ?_⟩
  unfold prepareKey
  have := Std.OrientedCmp.eq_swap (cmp := doubleKeyCmp) (a := a) (b := b)
  cases hc : doubleKeyCmp b a <;> rw [hc] at this <;> simp [this]
  exact ⟨(doubleKeyCmp_same hc).symm, doubleKeyCmp_same hc⟩

/-- The assertion of `CmpCacheInsert` is stricter than the meaning of the results: after the two partial results have been
combined to "uncomparable", inserting a partial result again violates it. -/
theorem cmpCacheInsert_assertion_too_strict : ∃ (ord : HalfKey → HalfKey → Cmp) (a b : HalfKey), FreshCmp ord ∧
    Truthful ord a b .notgteq ∧ Truthful ord a b .notleeq ∧
    cacheAssertion .notgteq .notleeq = true ∧ cacheAssertion (cacheCombine .notgteq .notleeq) .notgteq = false := by
  refine ⟨fun _ _ => .uncomparable, (1, 0), (2, 0), ⟨fun _ _ => rfl, fun _ _ => Or.inl rfl⟩, ?_, ?_, rfl, rfl⟩
  · exact Or.inr (Or.inl ⟨rfl, Or.inr rfl⟩)
  · exact Or.inr (Or.inr ⟨rfl, Or.inr rfl⟩)

/-! ## Example -/

/-- Terms compared by address. -/
private def exOrd (a b : HalfKey) : Cmp := match doubleKeyCmp a b with
  | .lt => .lesser
  | .gt => .greater
  | .eq => .equal

example : FreshCmp exOrd ∧ Truthful exOrd (3, 0) (5, 0) .notgteq ∧
    (cmpCacheFind (fun _ => false) (cmpCacheInsert (fun _ => false) (cmpCacheInsert (fun _ => false) .leaf (3, 0) (5, 0) .notgteq).2
      (5, 0) (3, 0) .greater).2 (3, 0) (5, 0)).1 = .lesser := by
  refine ⟨⟨fun a b => ?_, fun a b => ?_⟩, Or.inr (Or.inl ⟨rfl, Or.inl rfl⟩), by decide⟩
  · unfold exOrd
    have := Std.OrientedCmp.eq_swap (cmp := doubleKeyCmp) (a := a) (b := b)
    cases hc : doubleKeyCmp b a <;> rw [hc] at this <;> simp [this, Cmp.inv]
  · unfold exOrd
    cases doubleKeyCmp a b <;> simp

end Verif.Props
