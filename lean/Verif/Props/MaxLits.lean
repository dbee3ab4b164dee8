import Verif.Props.LitCmp

/-!
# C16: maximal literals

`maximalLiterals_correct` is stated for any literal comparison that is a strict partial ordering up to equality (`LitOrder`);
`literalCompare_litOrder` shows that `LiteralCompare` is one.
-/

namespace Verif.Props
open Verif Term LitCmpProof

/-- The comparison is a strict partial ordering, up to equality, on the literals of `C`. -/
structure LitOrder (lc : FLit → FLit → Cmp) (C : List FLit) : Prop where
  inv : ∀ a ∈ C, ∀ b ∈ C, lc b a = (lc a b).inv
  trans : ∀ a ∈ C, ∀ b ∈ C, ∀ c ∈ C, lc a b = .greater → lc b c = .greater → lc a c = .greater
  eqv : ∀ a ∈ C, ∀ b ∈ C, ∀ c ∈ C, lc a b = .greater → lc b c = .equal → lc a c = .greater

/-! ### The two loops -/

/-- The same for positions. -/
private structure IdxOrder (lc : Nat → Nat → Cmp) (I : Nat → Prop) : Prop where
  inv : ∀ i j, I i → I j → lc j i = (lc i j).inv
  trans : ∀ i j k, I i → I j → I k → lc i j = .greater → lc j k = .greater → lc i k = .greater
  eqv : ∀ i j k, I i → I j → I k → lc i j = .greater → lc j k = .equal → lc i k = .greater

private theorem inner_spec (lc : Nat → Nat → Cmp) (cand : Nat) (list : List Nat) (st : Nat → Bool) (hnd : (cand :: list).Nodup) :
    (maxInner lc cand list st).2.1.Sublist list ∧
    (∀ x ∈ list, x ∉ (maxInner lc cand list st).2.1 → lc cand x = .greater ∧ (maxInner lc cand list st).2.2 x = false) ∧
    ((maxInner lc cand list st).1 = false → (∃ s ∈ (maxInner lc cand list st).2.1, lc cand s = .lesser) ∧
      (maxInner lc cand list st).2.2 cand = false) ∧
    ((maxInner lc cand list st).1 = true → ∀ s ∈ (maxInner lc cand list st).2.1, lc cand s ≠ .greater ∧ lc cand s ≠ .lesser ∧
      (lc cand s = .equal → (maxInner lc cand list st).2.2 s = false ∧ (maxInner lc cand list st).2.2 cand = false)) ∧
    (∀ x, st x = false → (maxInner lc cand list st).2.2 x = false) ∧
    (∀ x, (maxInner lc cand list st).2.2 x = false → st x = false ∨
      (x = cand ∧ ∃ s ∈ list, lc cand s = .lesser ∨ lc cand s = .equal) ∨ (x ∈ list ∧ (lc cand x = .greater ∨ lc cand x = .equal))) := by
  fun_induction maxInner lc cand list st with
  | case1 st => simp
  | case2 s rest st h ih =>
    have hnd' : (cand :: rest).Nodup := by
      simp only [List.nodup_cons, List.mem_cons, not_or] at hnd ⊢
      exact ⟨hnd.1.2, hnd.2.2⟩
    have hs : s ∉ rest := by simp only [List.nodup_cons] at hnd; exact hnd.2.1
    obtain ⟨i1, i2, i3, i4, i5, i6⟩ := ih hnd'
    refine ⟨i1.cons s, ?_, i3, i4, ?_, ?_⟩
    · intro x hx hx'
      rcases List.mem_cons.1 hx with rfl | hx
      · exact ⟨h, i5 _ (by simp [clearAt])⟩
      · exact i2 x hx hx'
    · intro x hx
      exact i5 x (by simp [clearAt, hx])
    · intro x hx
      rcases i6 x hx with h1 | ⟨h1, t, h2, h3⟩ | ⟨h1, h2⟩
      · by_cases hxs : x = s
        · subst hxs; exact Or.inr (Or.inr ⟨by simp, Or.inl h⟩)
        · simp [clearAt, hxs] at h1; exact Or.inl h1
      · exact Or.inr (Or.inl ⟨h1, t, by simp [h2], h3⟩)
      · exact Or.inr (Or.inr ⟨by simp [h1], h2⟩)
  | case3 s rest st h =>
    refine ⟨List.Sublist.refl _, fun x hx hx' => absurd hx hx', fun _ => ⟨⟨s, by simp, h⟩, by simp [clearAt]⟩, by simp, ?_, ?_⟩
    · intro x hx; simp [clearAt, hx]
    · intro x hx
      by_cases hxc : x = cand
      · exact Or.inr (Or.inl ⟨hxc, s, by simp, Or.inl h⟩)
      · simp [clearAt, hxc] at hx; exact Or.inl hx
  | case4 s rest st h b rest' st' hr ih =>
    have hnd' : (cand :: rest).Nodup := by
      simp only [List.nodup_cons, List.mem_cons, not_or] at hnd ⊢
      exact ⟨hnd.1.2, hnd.2.2⟩
    obtain ⟨i1, i2, i3, i4, i5, i6⟩ := ih hnd'
    rw [hr] at i1 i2 i3 i4 i5 i6
    simp only at i1 i2 i3 i4 i5 i6 ⊢
    refine ⟨i1.cons_cons s, ?_, ?_, ?_, ?_, ?_⟩
    · intro x hx hx'
      simp only [List.mem_cons, not_or] at hx hx'
      exact i2 x (hx.resolve_left hx'.1) hx'.2
    · intro hb
      obtain ⟨⟨t, h1, h2⟩, h3⟩ := i3 hb
      exact ⟨⟨t, by simp [h1], h2⟩, h3⟩
    · intro hb t ht
      rcases List.mem_cons.1 ht with rfl | ht
      · exact ⟨by simp [h], by simp [h], fun _ => ⟨i5 _ (by simp [clearAt]), i5 _ (by simp [clearAt])⟩⟩
      · exact i4 hb t ht
    · intro x hx
      exact i5 x (by simp [clearAt, hx])
    · intro x hx
      rcases i6 x hx with h1 | ⟨h1, t, h2, h3⟩ | ⟨h1, h2⟩
      · by_cases hxs : x = s
        · subst hxs; exact Or.inr (Or.inr ⟨by simp, Or.inr h⟩)
        · by_cases hxc : x = cand
          · exact Or.inr (Or.inl ⟨hxc, s, by simp, Or.inr h⟩)
          · simp [clearAt, hxs, hxc] at h1; exact Or.inl h1
      · exact Or.inr (Or.inl ⟨h1, t, by simp [h2], h3⟩)
      · exact Or.inr (Or.inr ⟨by simp [h1], h2⟩)
  | case5 s rest st b rest' st' hr h1 h2 h3 ih =>
    have hnd' : (cand :: rest).Nodup := by
      simp only [List.nodup_cons, List.mem_cons, not_or] at hnd ⊢
      exact ⟨hnd.1.2, hnd.2.2⟩
    obtain ⟨i1, i2, i3, i4, i5, i6⟩ := ih hnd'
    rw [hr] at i1 i2 i3 i4 i5 i6
    simp only at i1 i2 i3 i4 i5 i6 ⊢
    refine ⟨i1.cons_cons s, ?_, ?_, ?_, i5, ?_⟩
    · intro x hx hx'
      simp only [List.mem_cons, not_or] at hx hx'
      exact i2 x (hx.resolve_left hx'.1) hx'.2
    · intro hb
      obtain ⟨⟨t, h1, h2⟩, h3⟩ := i3 hb
      exact ⟨⟨t, by simp [h1], h2⟩, h3⟩
    · intro hb t ht
      rcases List.mem_cons.1 ht with rfl | ht
      · exact ⟨h1, h2, fun he => absurd he h3⟩
      · exact i4 hb t ht
    · intro x hx
      rcases i6 x hx with h1 | ⟨h1, t, h2, h3⟩ | ⟨h1, h2⟩
      · exact Or.inl h1
      · exact Or.inr (Or.inl ⟨h1, t, by simp [h2], h3⟩)
      · exact Or.inr (Or.inr ⟨by simp [h1], h2⟩)

private structure OuterInv (lc : Nat → Nat → Cmp) (I : Nat → Prop) (list maxlits : List Nat) (st : Nat → Bool) : Prop where
  nodup : (list ++ maxlits).Nodup
  sub : ∀ x ∈ list ++ maxlits, I x
  dead : ∀ x, I x → x ∉ list ++ maxlits → (∃ y ∈ list ++ maxlits, lc y x = .greater) ∧ st x = false
  max : ∀ m ∈ maxlits, ∀ y ∈ list ++ maxlits, y ≠ m → lc m y ≠ .greater ∧ lc m y ≠ .lesser ∧
    (lc m y = .equal → st m = false ∧ st y = false)
  strict : ∀ x, I x → st x = false → ∃ y, I y ∧ y ≠ x ∧ (lc y x = .greater ∨ lc y x = .equal)

private theorem inv_gt {a : Cmp} : a.inv = .greater ↔ a = .lesser := by cases a <;> simp [Cmp.inv]
private theorem inv_lt {a : Cmp} : a.inv = .lesser ↔ a = .greater := by cases a <;> simp [Cmp.inv]
private theorem inv_equal {a : Cmp} : a.inv = .equal ↔ a = .equal := by cases a <;> simp [Cmp.inv]

private theorem outer_spec {lc : Nat → Nat → Cmp} {I : Nat → Prop} (ho : IdxOrder lc I) (list maxlits : List Nat) (st : Nat → Bool)
    (h : OuterInv lc I list maxlits st) :
    OuterInv lc I [] (maxOuter lc list maxlits st).1 (maxOuter lc list maxlits st).2 := by
  fun_induction maxOuter lc list maxlits st with
  | case1 maxlits st => exact h
  | case2 cand list maxlits st r ih =>
    have hnd : (cand :: list).Nodup := h.nodup.sublist (List.sublist_append_left _ _)
    obtain ⟨i1, i2, i3, i4, i5, i6⟩ := inner_spec lc cand list st hnd
    have hIc : I cand := h.sub cand (by simp)
    have hIl : ∀ x ∈ list, I x := fun x hx => h.sub x (by simp [hx])
    have hIm : ∀ x ∈ maxlits, I x := fun x hx => h.sub x (by simp [hx])
    have hcl : cand ∉ list := by simp only [List.nodup_cons] at hnd; exact hnd.1
    have hnd2 := h.nodup
    simp only [List.cons_append, List.nodup_cons, List.mem_append, not_or] at hnd2
    apply ih
    clear ih
    have hstrict : ∀ x, I x → r.2.2 x = false → ∃ y, I y ∧ y ≠ x ∧ (lc y x = .greater ∨ lc y x = .equal) := by
      intro x hIx hx
      rcases i6 x hx with h1 | ⟨rfl, t, h2, h3⟩ | ⟨h1, h2⟩
      · exact h.strict x hIx h1
      · refine ⟨t, hIl t h2, fun he => hcl (he ▸ h2), ?_⟩
        rw [ho.inv x t hIx (hIl t h2), inv_gt, inv_equal]
        exact h3
      · exact ⟨cand, hIc, fun he => hcl (he ▸ h1), h2⟩
    cases hb : r.1 with
    | true =>
      have j4 := i4 hb
      rw [dif_pos rfl]
      refine ⟨?_, ?_, ?_, ?_, hstrict⟩
      · rw [List.nodup_append]
        have h3 := hnd2.2
        rw [List.nodup_append] at h3
        refine ⟨h3.1.sublist i1, ?_, ?_⟩
        · simp only [List.nodup_cons]
          exact ⟨hnd2.1.2, h3.2.1⟩
        · intro a ha b hb
          rcases List.mem_cons.1 hb with rfl | hb
          · exact fun he => hcl (he ▸ i1.subset ha)
          · exact h3.2.2 a (i1.subset ha) b hb
      · intro x hx
        simp only [List.mem_append, List.mem_cons] at hx
        rcases hx with hx | rfl | hx
        · exact hIl x (i1.subset hx)
        · exact hIc
        · exact hIm x hx
      · intro x hIx hx
        simp only [List.mem_append, List.mem_cons, not_or] at hx
        by_cases hxl : x ∈ list
        · obtain ⟨h1, h2⟩ := i2 x hxl hx.1
          exact ⟨⟨cand, by simp, h1⟩, h2⟩
        · obtain ⟨⟨y, hy, hyx⟩, hst⟩ := h.dead x hIx (by simp [hx.2.1, hx.2.2, hxl])
          refine ⟨?_, i5 x hst⟩
          simp only [List.cons_append, List.mem_cons, List.mem_append] at hy
          rcases hy with rfl | hy | hy
          · exact ⟨y, by simp, hyx⟩
          · by_cases hyr : y ∈ r.2.1
            · exact ⟨y, by simp [hyr], hyx⟩
            · exact ⟨cand, by simp, ho.trans _ _ _ hIc (hIl y hy) hIx (i2 y hy hyr).1 hyx⟩
          · exact ⟨y, by simp [hy], hyx⟩
      · intro m hm y hy hym
        simp only [List.mem_append, List.mem_cons] at hm hy
        rcases hm with rfl | hm
        · rcases hy with hy | rfl | hy
          · obtain ⟨k1, k2, k3⟩ := j4 y hy
            exact ⟨k1, k2, fun he => ⟨(k3 he).2, (k3 he).1⟩⟩
          · exact absurd rfl hym
          · obtain ⟨k1, k2, k3⟩ := h.max y hy m (by simp) (Ne.symm hym)
            rw [ho.inv y m (hIm y hy) hIc]
            rw [Ne, inv_gt, Ne, inv_lt, inv_equal]
            exact ⟨k2, k1, fun he => ⟨i5 _ (k3 he).2, i5 _ (k3 he).1⟩⟩
        · have hy' : y ∈ cand :: list ++ maxlits := by
            rcases hy with hy | rfl | hy
            · simp [i1.subset hy]
            · simp
            · simp [hy]
          obtain ⟨k1, k2, k3⟩ := h.max m hm y hy' hym
          exact ⟨k1, k2, fun he => ⟨i5 _ (k3 he).1, i5 _ (k3 he).2⟩⟩
    | false =>
      obtain ⟨⟨s, hs, hcs⟩, hstc⟩ := i3 hb
      have hIs : I s := hIl s (i1.subset hs)
      have hsc : lc s cand = .greater := by
        rw [ho.inv cand s hIc hIs, inv_gt]; exact hcs
      rw [dif_neg (by simp)]
      refine ⟨?_, ?_, ?_, ?_, hstrict⟩
      · have h3 := hnd2.2
        rw [List.nodup_append] at h3 ⊢
        exact ⟨h3.1.sublist i1, h3.2.1, fun a ha b hb => h3.2.2 a (i1.subset ha) b hb⟩
      · intro x hx
        simp only [List.mem_append] at hx
        rcases hx with hx | hx
        · exact hIl x (i1.subset hx)
        · exact hIm x hx
      · intro x hIx hx
        simp only [List.mem_append, not_or] at hx
        by_cases hxc : x = cand
        · subst hxc
          exact ⟨⟨s, by simp [hs, r], hsc⟩, hstc⟩
        · by_cases hxl : x ∈ list
          · obtain ⟨h1, h2⟩ := i2 x hxl hx.1
            exact ⟨⟨s, by simp [hs, r], ho.trans _ _ _ hIs hIc hIx hsc h1⟩, h2⟩
          · obtain ⟨⟨y, hy, hyx⟩, hst⟩ := h.dead x hIx (by simp [hxc, hx.2, hxl])
            refine ⟨?_, i5 x hst⟩
            simp only [List.cons_append, List.mem_cons, List.mem_append] at hy
            rcases hy with rfl | hy | hy
            · exact ⟨s, by simp [hs, r], ho.trans _ _ _ hIs hIc hIx hsc hyx⟩
            · by_cases hyr : y ∈ r.2.1
              · exact ⟨y, by simp [hyr], hyx⟩
              · exact ⟨s, by simp [hs, r], ho.trans _ _ _ hIs (hIl y hy) hIx
                  (ho.trans _ _ _ hIs hIc (hIl y hy) hsc (i2 y hy hyr).1) hyx⟩
            · exact ⟨y, by simp [hy], hyx⟩
      · intro m hm y hy hym
        simp only [List.mem_append] at hy
        have hy' : y ∈ cand :: list ++ maxlits := by
          rcases hy with hy | hy
          · simp [i1.subset hy]
          · simp [hy]
        obtain ⟨k1, k2, k3⟩ := h.max m hm y hy' hym
        exact ⟨k1, k2, fun he => ⟨i5 _ (k3 he).1, i5 _ (k3 he).2⟩⟩

private theorem marks_spec {lc : Nat → Nat → Cmp} {n : Nat} (ho : IdxOrder lc (· < n)) {maxlits : List Nat} {st : Nat → Bool}
    (h : OuterInv lc (· < n) [] maxlits st) :
    (∀ i < n, i ∈ maxlits ↔ ∀ j < n, lc j i ≠ .greater) ∧
    (∀ i < n, st i = true ↔ ∀ j < n, j ≠ i → lc j i ≠ .greater ∧ lc j i ≠ .equal) ∧
    (∀ i < n, i ∉ maxlits → ∃ j ∈ maxlits, lc j i = .greater) := by
  have hnr : ∀ i, i < n → lc i i ≠ .greater := by
    intro i hi he
    have := ho.inv i i hi hi
    rw [he] at this
    simp [Cmp.inv] at this
  have hmax : ∀ i ∈ maxlits, ∀ j < n, lc j i ≠ .greater := by
    intro i hi j hj he
    have hin : i < n := h.sub i (by simp [hi])
    have hji : j ≠ i := fun hh => hnr j hj (hh ▸ he)
    by_cases hjm : j ∈ maxlits
    · exact (h.max j hjm i (by simp [hi]) (Ne.symm hji)).1 he
    · obtain ⟨⟨k, hk, hkj⟩, -⟩ := h.dead j hj (by simpa using hjm)
      simp only [List.nil_append] at hk
      have hkn : k < n := h.sub k (by simp [hk])
      have hki := ho.trans k j i hkn hj hin hkj he
      have hne : k ≠ i := fun hh => hnr k hkn (hh ▸ hki)
      exact (h.max k hk i (by simp [hi]) (Ne.symm hne)).1 hki
  refine ⟨fun i hi => ⟨hmax i, fun hh => ?_⟩, fun i hi => ⟨fun hst j hj hji => ?_, fun hh => ?_⟩, fun i hi hni => ?_⟩
  · by_contra hni
    obtain ⟨⟨k, hk, hki⟩, -⟩ := h.dead i hi (by simpa using hni)
    simp only [List.nil_append] at hk
    exact hh k (h.sub k (by simp [hk])) hki
  · have him : i ∈ maxlits := by
      by_contra hni
      rw [(h.dead i hi (by simpa using hni)).2] at hst
      cases hst
    refine ⟨hmax i him j hj, fun he => ?_⟩
    by_cases hjm : j ∈ maxlits
    · rw [((h.max j hjm i (by simp [him]) (Ne.symm hji)).2.2 he).2] at hst
      cases hst
    · obtain ⟨⟨k, hk, hkj⟩, -⟩ := h.dead j hj (by simpa using hjm)
      simp only [List.nil_append] at hk
      have hkn : k < n := h.sub k (by simp [hk])
      exact hmax i him k hkn (ho.eqv k j i hkn hj hi hkj he)
  · by_contra hst
    obtain ⟨j, hj, hji, hor⟩ := h.strict i hi (by simpa using hst)
    obtain ⟨h1, h2⟩ := hh j hj hji
    rcases hor with hor | hor
    · exact h1 hor
    · exact h2 hor
  · obtain ⟨⟨k, hk, hki⟩, -⟩ := h.dead i hi (by simpa using hni)
    exact ⟨k, by simpa using hk, hki⟩

/-- **C16.** After `EqnListMaximalLiterals` the maximal mark is set exactly for the literals below no other literal, the
strictly-maximal mark exactly for those that in addition are equal to no other literal; each unmarked literal is below a marked one (so a
non-empty clause has a marked literal); nothing else changes, and the number of marked literals is returned. -/
theorem maximalLiterals_correct {lc : FLit → FLit → Cmp} {C : List FLit} (ho : LitOrder lc C) :
    let r := maximalLiterals lc C
    ∃ hlen : r.2.length = C.length,
    (∀ (i : Nat) (hi : i < C.length), r.2[i].maximal = true ↔ ∀ (j : Nat) (hj : j < C.length), lc C[j] C[i] ≠ .greater) ∧
    (∀ (i : Nat) (hi : i < C.length), r.2[i].strictMax = true ↔
      ∀ (j : Nat) (hj : j < C.length), j ≠ i → lc C[j] C[i] ≠ .greater ∧ lc C[j] C[i] ≠ .equal) ∧
    (∀ (i : Nat) (hi : i < C.length), r.2[i].maximal = false → ∃ (j : Nat) (hj : j < C.length), r.2[j].maximal = true ∧ lc C[j] C[i] = .greater) ∧
    (∀ (i : Nat) (hi : i < C.length), { r.2[i] with maximal := C[i].maximal, strictMax := C[i].strictMax } = C[i]) ∧
    r.1 = r.2.countP (·.maximal) := by
  intro r
  let at' := fun i => C.getD i maximalLiterals.default
  have hat : ∀ (i : Nat) (hi : i < C.length), at' i = C[i] := by
    intro i hi
    simp [at', hi]
  have hmem : ∀ i, i < C.length → at' i ∈ C := fun i hi => by rw [hat i hi]; exact List.getElem_mem hi
  have hio : IdxOrder (fun i j => lc (at' i) (at' j)) (· < C.length) :=
    ⟨fun i j hi hj => ho.inv _ (hmem i hi) _ (hmem j hj),
      fun i j k hi hj hk => ho.trans _ (hmem i hi) _ (hmem j hj) _ (hmem k hk),
      fun i j k hi hj hk => ho.eqv _ (hmem i hi) _ (hmem j hj) _ (hmem k hk)⟩
  have hinit : OuterInv (fun i j => lc (at' i) (at' j)) (· < C.length) (List.range C.length) [] (fun _ => true) := by
    refine ⟨by simp [List.nodup_range], by simp, ?_, by simp, by simp⟩
    intro x hx hx'
    simp at hx'
    omega
  have hout := outer_spec hio _ _ _ hinit
  obtain ⟨h1, h2, h3⟩ := marks_spec hio hout
  set o := maxOuter (fun i j => lc (at' i) (at' j)) (List.range C.length) [] (fun _ => true) with ho'
  have hr : r = (o.1.length, C.mapIdx fun i L => { L with maximal := o.1.contains i, strictMax := o.2 i }) := rfl
  have hlen : r.2.length = C.length := by rw [hr]; simp
  have hget : ∀ (i : Nat) (hi : i < C.length), r.2[i] = { C[i] with maximal := o.1.contains i, strictMax := o.2 i } := by
    intro i hi
    simp [hr]
  refine ⟨hlen, ?_, ?_, ?_, ?_, ?_⟩
  · intro i hi
    rw [hget i hi]
    simp only [List.contains_iff_mem]
    rw [h1 i hi]
    constructor
    · intro hh j hj
      have := hh j hj
      rwa [hat i hi, hat j hj] at this
    · intro hh j hj
      rw [hat i hi, hat j hj]
      exact hh j hj
  · intro i hi
    rw [hget i hi]
    simp only
    rw [h2 i hi]
    constructor
    · intro hh j hj
      have := hh j hj
      rwa [hat i hi, hat j hj] at this
    · intro hh j hj
      rw [hat i hi, hat j hj]
      exact hh j hj
  · intro i hi hni
    rw [hget i hi] at hni
    simp only [List.contains_eq_mem, decide_eq_false_iff_not] at hni
    obtain ⟨j, hj, hji⟩ := h3 i hi hni
    have hjn : j < C.length := hout.sub j (by simpa using hj)
    rw [hat i hi, hat j hjn] at hji
    refine ⟨j, hjn, ?_, hji⟩
    rw [hget j hjn]
    simpa using hj
  · intro i hi
    rw [hget i hi]
  · have hnd : o.1.Nodup := by simpa using hout.nodup
    have hsub : ∀ x ∈ o.1, x < C.length := fun x hx => hout.sub x (by simpa using hx)
    have hperm : o.1.Perm ((List.range C.length).filter fun i => o.1.contains i) := by
      rw [List.perm_ext_iff_of_nodup hnd (List.nodup_range.filter _)]
      intro a
      simp only [List.mem_filter, List.mem_range, List.contains_iff_mem]
      exact ⟨fun h => ⟨hsub a h, h⟩, fun h => h.2⟩
    have : r.1 = o.1.length := by rw [hr]
    rw [this, hperm.length_eq, ← List.countP_eq_length_filter]
    have hmap : r.2.map (·.maximal) = (List.range C.length).map fun i => o.1.contains i := by
      apply List.ext_getElem
      · simp [hlen]
      · intro i hi1 hi2
        simp only [List.getElem_map, List.getElem_range]
        rw [hget i (by simpa [hlen] using hi1)]
    have h4 := congrArg (List.countP id) hmap
    rw [List.countP_map, List.countP_map] at h4
    exact h4.symm

/-- **C16.** A non-empty clause has a maximal literal. -/
theorem maximalLiterals_nonempty {lc : FLit → FLit → Cmp} {C : List FLit} (ho : LitOrder lc C) (hne : C ≠ []) :
    ∃ L ∈ (maximalLiterals lc C).2, L.maximal = true := by
  obtain ⟨hlen, -, -, h3, -⟩ := maximalLiterals_correct ho
  have h0 : 0 < C.length := List.length_pos_iff.2 hne
  cases hm : (maximalLiterals lc C).2[0].maximal with
  | true => exact ⟨_, List.getElem_mem _, hm⟩
  | false =>
    obtain ⟨j, hj, hjm, -⟩ := h3 0 h0 hm
    exact ⟨_, List.getElem_mem _, hjm⟩

/-! ### `LiteralCompare` is such a comparison -/

variable {D : Term → Prop} {cmp : Term → Term → Cmp} {gt : Term → Term → Prop}

/-- What the literal comparison needs: terms in the domain and truthful orientation flags. -/
def LitsOK (D : Term → Prop) (gt : Term → Term → Prop) (C : List FLit) : Prop :=
  ∀ L ∈ C, L.lit.In D ∧ (L.oriented = true → gt L.lit.l L.lit.r)

/-- What the comparison by predicate symbols needs in the two modes that use it: a total precedence, and no variable as an atom. -/
def TfoOK (mode : LitCmpMode) (fcmp : Nat → Nat → Cmp) (C : List FLit) : Prop :=
  mode = .eqMax ∨ mode = .eqMin →
    InvCmp fcmp ∧ TotalCmp fcmp ∧ ∀ L ∈ C, L.lit.r = tTrue → ∃ f ts, L.lit.l = .app f ts

private def T (mode : LitCmpMode) (fcmp : Nat → Nat → Cmp) (a b : FLit) : Prop := tfoLiteralCompare mode fcmp a b = .greater

/-- The comparison by kind and predicate symbol is a weak ordering. -/
private structure Weak (mode : LitCmpMode) (fcmp : Nat → Nat → Cmp) (C : List FLit) : Prop where
  inv : ∀ a ∈ C, ∀ b ∈ C, tfoLiteralCompare mode fcmp b a = (tfoLiteralCompare mode fcmp a b).inv
  trans : ∀ a ∈ C, ∀ b ∈ C, ∀ c ∈ C, T mode fcmp a b → T mode fcmp b c → T mode fcmp a c
  neg : ∀ a ∈ C, ∀ b ∈ C, ∀ c ∈ C, T mode fcmp a c → T mode fcmp a b ∨ T mode fcmp b c

private theorem weak_of {mode : LitCmpMode} {fcmp : Nat → Nat → Cmp} {C : List FLit} (h : TfoOK mode fcmp C) : Weak mode fcmp C := by
  by_cases hm : mode = .eqMax ∨ mode = .eqMin
  · obtain ⟨hf, ht, hv⟩ := h hm
    have hself : ∀ f, fcmp f f ≠ .greater := ht.tot.irrefl
    have hself2 : ∀ f, fcmp f f ≠ .lesser := fun f hl => hself f ((ht.anti f f).1 hl)
    -- a literal is described by its kind and, for atoms, the predicate symbol
    have hrank : ∀ a ∈ C, a.isEqu = true ∨ (a.isEqu = false ∧ ∃ f ts, a.lit.l = .app f ts) := by
      intro a ha
      by_cases he : a.lit.r = tTrue
      · exact Or.inr ⟨by simp [FLit.isEqu, he], hv a ha he⟩
      · exact Or.inl (by simp [FLit.isEqu, he])
    have hT : ∀ a b f g ts us, a.isEqu = false → b.isEqu = false → a.lit.l = .app f ts → b.lit.l = .app g us →
        tfoLiteralCompare mode fcmp a b = fcmp f g := by
      intro a b f g ts us h1 h2 h3 h4
      rcases hm with rfl | rfl <;> simp [tfoLiteralCompare, h1, h2, predCompare, h3, h4]
    have hneg : ∀ f g k, fcmp f k = .greater → fcmp f g = .greater ∨ fcmp g k = .greater := by
      intro f g k h1
      by_cases h2 : f = g
      · subst h2; exact Or.inr h1
      · rcases ht.tot.total f g h2 with h3 | h3
        · exact Or.inl h3
        · exact Or.inr (ht.tot.trans _ _ _ h3 h1)
    refine ⟨?_, ?_, ?_⟩
    · intro a _ b _
      have hp : predCompare fcmp b a = (predCompare fcmp a b).inv := by
        unfold predCompare
        cases a.lit.l <;> cases b.lit.l <;> simp [Cmp.inv]
        exact hf _ _
      rcases hm with rfl | rfl <;> unfold tfoLiteralCompare <;> cases ha : a.isEqu <;> cases hb : b.isEqu <;> simp [Cmp.inv, hp]
    · intro a ha b hb c hc h1 h2
      rcases hrank a ha with h3 | ⟨h3, f, ts, h4⟩ <;> rcases hrank b hb with h5 | ⟨h5, g, us, h6⟩ <;>
        rcases hrank c hc with h7 | ⟨h7, k, vs, h8⟩
      case inr.inr.inr =>
        rw [T, hT a b f g ts us h3 h5 h4 h6] at h1
        rw [T, hT b c g k us vs h5 h7 h6 h8] at h2
        rw [T, hT a c f k ts vs h3 h7 h4 h8]
        exact ht.tot.trans _ _ _ h1 h2
      all_goals rcases hm with rfl | rfl <;> simp [T, tfoLiteralCompare, h3, h5, h7] at h1 h2 ⊢
    · intro a ha b hb c hc h1
      rcases hrank a ha with h3 | ⟨h3, f, ts, h4⟩ <;> rcases hrank b hb with h5 | ⟨h5, g, us, h6⟩ <;>
        rcases hrank c hc with h7 | ⟨h7, k, vs, h8⟩
      case inr.inr.inr =>
        rw [T, hT a c f k ts vs h3 h7 h4 h8] at h1
        rw [T, hT a b f g ts us h3 h5 h4 h6, T, hT b c g k us vs h5 h7 h6 h8]
        exact hneg _ _ _ h1
      all_goals rcases hm with rfl | rfl <;> simp [T, tfoLiteralCompare, h3, h5, h7] at h1 ⊢
  · have hu : ∀ a b, tfoLiteralCompare mode fcmp a b = .unknown := by
      intro a b
      cases mode <;> simp_all [tfoLiteralCompare]
    exact ⟨by simp [hu, Cmp.inv], by simp [T, hu], by simp [T, hu]⟩

private theorem compare_greater (h : OrdCmp D cmp gt) {mode : LitCmpMode} {fcmp : Nat → Nat → Cmp} {C : List FLit} (hC : LitsOK D gt C)
    (hw : Weak mode fcmp C) {a b : FLit} (ha : a ∈ C) (hb : b ∈ C) :
    literalCompare mode cmp fcmp a b = .greater ↔ (a.pseudo = false ∧ b.pseudo = true) ∨ (a.pseudo = b.pseudo ∧
      ((a.selected = true ∧ b.selected = false) ∨ (a.selected = b.selected ∧ (a.selected = true → a.lit.pos = b.lit.pos) ∧
        mode ≠ .noCmp ∧ (T mode fcmp a b ∨ (¬ T mode fcmp b a ∧ LGt gt a.lit b.lit))))) := by
  have h1 := (litCompareTerms_spec h (hC a ha).1 (hC b hb).1 (hC a ha).2 (hC b hb).2).1
  have hi := hw.inv a ha b hb
  unfold literalCompare T
  rw [hi, ← h1]
  cases a.pseudo <;> cases b.pseudo <;> cases a.selected <;> cases b.selected <;> simp <;>
    by_cases hm : mode = .noCmp <;> simp [hm] <;>
    cases a.lit.pos <;> cases b.lit.pos <;> (try simp) <;>
    cases hx : tfoLiteralCompare mode fcmp a b <;> simp [Cmp.inv]

private theorem compare_equal (h : OrdCmp D cmp gt) {mode : LitCmpMode} {fcmp : Nat → Nat → Cmp} {C : List FLit} (hC : LitsOK D gt C)
    (hw : Weak mode fcmp C) {a b : FLit} (ha : a ∈ C) (hb : b ∈ C) (he : literalCompare mode cmp fcmp a b = .equal) :
    a.pseudo = b.pseudo ∧ a.selected = b.selected ∧ mode ≠ .noCmp ∧ ¬ T mode fcmp a b ∧ ¬ T mode fcmp b a ∧ LEq a.lit b.lit := by
  have h1 := (litCompareTerms_spec h (hC a ha).1 (hC b hb).1 (hC a ha).2 (hC b hb).2).2.2.1
  have hi := hw.inv a ha b hb
  unfold literalCompare at he
  unfold T
  rw [hi, ← h1]
  revert he
  cases a.pseudo <;> cases b.pseudo <;> cases a.selected <;> cases b.selected <;> simp <;>
    by_cases hm : mode = .noCmp <;> simp [hm] <;>
    cases a.lit.pos <;> cases b.lit.pos <;> (try simp) <;>
    cases hx : tfoLiteralCompare mode fcmp a b <;> simp [Cmp.inv]

/-- **C16.** `LiteralCompare` is a strict partial ordering up to equality, in every mode, with selection and pseudo literals. -/
theorem literalCompare_litOrder (h : OrdCmp D cmp gt) {mode : LitCmpMode} {fcmp : Nat → Nat → Cmp} {C : List FLit} (hC : LitsOK D gt C)
    (ht : TfoOK mode fcmp C) : LitOrder (literalCompare mode cmp fcmp) C := by
  have hw := weak_of ht
  refine ⟨fun a ha b hb => ?_, fun a ha b hb c hc h1 h2 => ?_, fun a ha b hb c hc h1 h2 => ?_⟩
  · have key : litCompareTerms cmp b a = (litCompareTerms cmp a b).inv := by
      obtain ⟨h1, h2, h3, h4⟩ := litCompareTerms_spec h (hC b hb).1 (hC a ha).1 (hC b hb).2 (hC a ha).2
      rcases litCompareTerms_answer h (hC a ha).1 (hC b hb).1 (hC a ha).2 (hC b hb).2 with ⟨hr, hx⟩ | ⟨hr, hx⟩ | ⟨hr, hx⟩ | ⟨hr, hx⟩
      · rw [hr]; exact h2.2 hx
      · rw [hr]; exact h1.2 hx
      · rw [hr]; exact h3.2 (leq_symm hx)
      · rw [hr]; exact h4.2 ⟨hx.2.1, hx.1, fun hh => hx.2.2 (leq_symm hh)⟩
    have hi := hw.inv a ha b hb
    unfold literalCompare
    rw [hi, key]
    cases a.pseudo <;> cases b.pseudo <;> cases a.selected <;> cases b.selected <;> simp [Cmp.inv] <;>
      cases hm : tfoLiteralCompare mode fcmp a b <;> simp <;> (try split_ifs) <;>
      cases hp : a.lit.pos <;> cases hq : b.lit.pos <;> simp_all
  · rw [compare_greater h hC hw ha hb] at h1
    rw [compare_greater h hC hw hb hc] at h2
    rw [compare_greater h hC hw ha hc]
    have t1 := hw.trans a ha b hb c hc
    have t2 := hw.neg a ha c hc b hb
    have t3 := hw.neg b hb a ha c hc
    have t4 := hw.neg c hc b hb a ha
    have t5 := lgt_trans h (hC a ha).1 (hC b hb).1 (hC c hc).1
    clear h hC hw ht
    revert h1 h2
    generalize a.pseudo = ap, b.pseudo = bp, c.pseudo = cp, a.selected = as, b.selected = bs, c.selected = cs
    generalize a.lit.pos = pa, b.lit.pos = pb, c.lit.pos = pc
    by_cases hm : mode = .noCmp
    · simp only [hm, ne_eq, not_true_eq_false, false_and, and_false, or_false]
      clear t1 t2 t3 t4 t5
      revert ap bp cp as bs cs
      decide
    · simp only [ne_eq, hm, not_false_eq_true, true_and]
      intro h1 h2
      rcases h1 with h1 | ⟨rfl, h1⟩
      · rcases h2 with h2 | ⟨rfl, h2⟩
        · exact absurd (h1.2.symm.trans h2.1) (by simp)
        · exact Or.inl h1
      · rcases h2 with h2 | ⟨rfl, h2⟩
        · exact Or.inl h2
        · refine Or.inr ⟨rfl, ?_⟩
          rcases h1 with h1 | ⟨rfl, h1, h1'⟩
          · rcases h2 with h2 | ⟨rfl, h2⟩
            · exact absurd (h1.2.symm.trans h2.1) (by simp)
            · exact Or.inl h1
          · rcases h2 with h2 | ⟨rfl, h2, h2'⟩
            · exact Or.inl h2
            · refine Or.inr ⟨rfl, fun hs => (h1 hs).trans (h2 hs), ?_⟩
              clear h1 h2
              grind
  · rw [compare_greater h hC hw ha hb] at h1
    have h2 := compare_equal h hC hw hb hc h2
    rw [compare_greater h hC hw ha hc]
    have t2 := hw.neg a ha c hc b hb
    have t3 := hw.neg c hc b hb a ha
    have t5 := lgt_leq (gt := gt) (a := a.lit) (b := b.lit) (c := c.lit)
    have t6 : b.lit.pos = c.lit.pos := h2.2.2.2.2.2.1
    clear h hC hw ht
    rw [← h2.1, ← h2.2.1, ← t6]
    grind

/-- **C14, C16.** `ClauseMarkMaximalTerms` orients all literals and marks the maximal ones, where `$true` is the least term. -/
theorem markMaximalTerms_correct (h : OrdCmp D cmp gt) (hT : D tTrue) (hmin : ∀ t, D t → t ≠ tTrue → gt t tTrue)
    {mode : LitCmpMode} {fcmp : Nat → Nat → Cmp} {C : List FLit} (hin : ∀ L ∈ C, L.lit.In D)
    (hf : ∀ L ∈ C, L.upToDate = true → OrientRight gt L)
    (ht : TfoOK mode fcmp (C.map fun L => (eqnOrient cmp L).2)) :
    let R := markMaximalTerms cmp (literalCompare mode cmp fcmp) C
    R.length = C.length ∧
    (∀ (i : Nat) (hi : i < C.length) (hi' : i < R.length),
      (R[i].lit = C[i].lit ∨ R[i].lit = ⟨C[i].lit.pos, C[i].lit.r, C[i].lit.l⟩) ∧
      (R[i].oriented = true ↔ gt R[i].lit.l R[i].lit.r) ∧ ¬ gt R[i].lit.r R[i].lit.l) ∧
    (∀ (i : Nat) (hi : i < R.length), R[i].maximal = true ↔
      ∀ (j : Nat) (hj : j < R.length), literalCompare mode cmp fcmp R[j] R[i] ≠ .greater) ∧
    (∀ (i : Nat) (hi : i < R.length), R[i].strictMax = true ↔
      ∀ (j : Nat) (hj : j < R.length), j ≠ i → literalCompare mode cmp fcmp R[j] R[i] ≠ .greater ∧
        literalCompare mode cmp fcmp R[j] R[i] ≠ .equal) := by
  intro R
  set C' := C.map fun L => (eqnOrient cmp L).2 with hC'
  have hor : ∀ L ∈ C, (eqnOrient cmp L).2.lit.In D ∧ ((eqnOrient cmp L).2.oriented = true ↔ gt (eqnOrient cmp L).2.lit.l (eqnOrient cmp L).2.lit.r) ∧
      ¬ gt (eqnOrient cmp L).2.lit.r (eqnOrient cmp L).2.lit.l ∧
      ((eqnOrient cmp L).2.lit = L.lit ∨ (eqnOrient cmp L).2.lit = ⟨L.lit.pos, L.lit.r, L.lit.l⟩) := by
    intro L hL
    obtain ⟨⟨h1, h2⟩, -, h3, h4, -⟩ := eqnOrient_correct h (hin L hL) (hf L hL)
    have hl : (eqnOrient cmp L).2.lit = L.lit ∨ (eqnOrient cmp L).2.lit = ⟨L.lit.pos, L.lit.r, L.lit.l⟩ := by
      cases hb : (eqnOrient cmp L).1
      · exact Or.inl (h3 hb)
      · exact Or.inr (h4 hb).1
    have hD : (eqnOrient cmp L).2.lit.In D := by
      rcases hl with hl | hl <;> rw [hl]
      · exact hin L hL
      · exact ⟨(hin L hL).2, (hin L hL).1⟩
    rw [bigger_iff h hmin hT hD.1 hD.2] at h1
    rw [bigger_iff h hmin hT hD.2 hD.1] at h2
    exact ⟨hD, h1, h2, hl⟩
  have hok : LitsOK D gt C' := by
    intro L' hL'
    obtain ⟨L, hL, rfl⟩ := List.mem_map.1 hL'
    exact ⟨(hor L hL).1, (hor L hL).2.1.1⟩
  have ho := literalCompare_litOrder h hok ht
  obtain ⟨hlen, m1, m2, -, m4, -⟩ := maximalLiterals_correct ho
  have hR : R = (maximalLiterals (literalCompare mode cmp fcmp) C').2 := rfl
  have hlen' : R.length = C.length := by rw [hR, hlen]; simp [hC']
  have hlc : ∀ a b a' b' : FLit, { a with maximal := a'.maximal, strictMax := a'.strictMax } = a' →
      { b with maximal := b'.maximal, strictMax := b'.strictMax } = b' →
      literalCompare mode cmp fcmp a b = literalCompare mode cmp fcmp a' b' := by
    intro a b a' b' h1 h2
    rw [← h1, ← h2]
    rfl
  have hsame : ∀ (i j : Nat) (hi : i < R.length) (hj : j < R.length),
      literalCompare mode cmp fcmp R[j] R[i] = literalCompare mode cmp fcmp (C'[j]'(hlen ▸ hj)) (C'[i]'(hlen ▸ hi)) :=
    fun i j hi hj => hlc _ _ _ _ (m4 j (hlen ▸ hj)) (m4 i (hlen ▸ hi))
  refine ⟨hlen', ?_, ?_, ?_⟩
  · intro i hi hi'
    have h1 := m4 i (hlen ▸ hi')
    have hget : C'[i]'(hlen ▸ hi') = (eqnOrient cmp C[i]).2 := by simp [hC']
    rw [hget] at h1
    have h2 : R[i].lit = (eqnOrient cmp C[i]).2.lit := by
      have := congrArg FLit.lit h1
      exact this
    have h3 : R[i].oriented = (eqnOrient cmp C[i]).2.oriented := by
      have := congrArg FLit.oriented h1
      exact this
    obtain ⟨-, k1, k2, k3⟩ := hor C[i] (List.getElem_mem hi)
    rw [h2, h3]
    exact ⟨k3, k1, k2⟩
  · intro i hi
    simp only [hsame]
    exact (m1 i (hlen ▸ hi)).trans ⟨fun hh j hj => hh j (hlen ▸ hj), fun hh j hj => hh j (hlen.symm ▸ hj)⟩
  · intro i hi
    simp only [hsame]
    exact (m2 i (hlen ▸ hi)).trans ⟨fun hh j hj => hh j (hlen ▸ hj), fun hh j hj => hh j (hlen.symm ▸ hj)⟩

/-! ### The check of single literals

During an inference the maximality of an instance of a literal is tested against the literals marked maximal before the instantiation
only.  `lc'` is the comparison of the instances. -/

/-- **C16.** `EqnListEqnIsMaximal` and `EqnListEqnIsStrictlyMaximal` on a marked clause are exact for the instances, although they look
at marked literals only, if instances of a greater literal are greater. -/
theorem eqnIsMaximal_correct {lc lc' : FLit → FLit → Cmp} {C : List FLit} (ho' : LitOrder lc' C)
    (hst : ∀ a ∈ C, ∀ b ∈ C, lc a b = .greater → lc' a b = .greater)
    (hmark : ∀ (i : Nat) (hi : i < C.length), C[i].maximal = false → ∃ (j : Nat) (hj : j < C.length), C[j].maximal = true ∧ lc C[j] C[i] = .greater)
    {i : Nat} (hi : i < C.length) :
    (eqnIsMaximal lc' C i C[i] = true ↔ ∀ (j : Nat) (hj : j < C.length), lc' C[j] C[i] ≠ .greater) ∧
    (eqnIsStrictlyMaximal lc' C i C[i] = true ↔
      ∀ (j : Nat) (hj : j < C.length), j ≠ i → lc' C[j] C[i] ≠ .greater ∧ lc' C[j] C[i] ≠ .equal) := by
  have hmem : ∀ (j : Nat) (hj : j < C.length), C[j] ∈ C := fun j hj => List.getElem_mem hj
  have hself : ∀ (j : Nat) (hj : j < C.length), lc' C[j] C[j] ≠ .greater := by
    intro j hj he
    have := ho'.inv _ (hmem j hj) _ (hmem j hj)
    rw [he] at this
    simp [Cmp.inv] at this
  have hall : ∀ p : FLit × Nat → Bool, (C.zipIdx).all p = true ↔ ∀ (j : Nat) (hj : j < C.length), p (C[j], j) = true := by
    intro p
    rw [List.all_eq_true]
    constructor
    · intro hh j hj
      exact hh _ (by rw [List.mem_zipIdx_iff_getElem?]; simp [hj])
    · rintro hh ⟨L, j⟩ hm
      rw [List.mem_zipIdx_iff_getElem?] at hm
      simp only at hm
      obtain ⟨hj, rfl⟩ := List.getElem?_eq_some_iff.1 hm
      exact hh j hj
  -- a greater literal may be assumed to be marked
  have hup : ∀ (j : Nat) (hj : j < C.length), lc' C[j] C[i] = .greater →
      ∃ (k : Nat) (hk : k < C.length), k ≠ i ∧ C[k].maximal = true ∧ lc' C[k] C[i] = .greater := by
    intro j hj hg
    cases hm : C[j].maximal with
    | true => exact ⟨j, hj, fun he => hself i hi (by subst he; exact hg), hm, hg⟩
    | false =>
      obtain ⟨k, hk, hkm, hkj⟩ := hmark j hj hm
      have hki := ho'.trans _ (hmem k hk) _ (hmem j hj) _ (hmem i hi) (hst _ (hmem k hk) _ (hmem j hj) hkj) hg
      exact ⟨k, hk, fun he => hself i hi (by subst he; exact hki), hkm, hki⟩
  constructor
  · unfold eqnIsMaximal
    rw [hall]
    constructor
    · intro hh j hj hg
      obtain ⟨k, hk, hki, hkm, hkg⟩ := hup j hj hg
      have := hh k hk
      simp [hki, hkm, hkg] at this
    · intro hh j hj
      simp [hh j hj]
  · unfold eqnIsStrictlyMaximal
    rw [hall]
    constructor
    · intro hh j hj hji
      have hno : ∀ (k : Nat) (hk : k < C.length), lc' C[k] C[i] ≠ .greater := by
        intro k hk hg
        obtain ⟨m, hm, hmi, hmm, hmg⟩ := hup k hk hg
        have := hh m hm
        simp [hmi, hmm, hmg] at this
      refine ⟨hno j hj, fun he => ?_⟩
      cases hm : C[j].maximal with
      | true =>
        have := hh j hj
        simp [hji, hm, he] at this
      | false =>
        obtain ⟨k, hk, hkm, hkj⟩ := hmark j hj hm
        exact hno k hk (ho'.eqv _ (hmem k hk) _ (hmem j hj) _ (hmem i hi) (hst _ (hmem k hk) _ (hmem j hj) hkj) he)
    · intro hh j hj
      by_cases hji : j = i
      · simp [hji]
      · simp [hh j hj hji]

/-- A literal under a substitution; the flags belong to the cell. -/
def FLit.inst (σ : Nat → Term) (L : FLit) : FLit := { L with lit := L.lit.subst σ }

private theorem lgt_subst {σ : Nat → Term} (hσ : ∀ s t, D s → D t → gt s t → gt (s.subst σ) (t.subst σ)) {a b : Lit} (ha : a.In D) (hb : b.In D)
    (h : LGt gt a b) : LGt gt (a.subst σ) (b.subst σ) := by
  obtain ⟨pa, al, ar⟩ := a
  obtain ⟨pb, bl, br⟩ := b
  obtain ⟨hal, har⟩ := ha
  obtain ⟨hbl, hbr⟩ := hb
  simp only at hal har hbl hbr
  have s1 := hσ _ _ hal hbl
  have s2 := hσ _ _ hal hbr
  have s3 := hσ _ _ har hbl
  have s4 := hσ _ _ har hbr
  have s5 := hσ _ _ hbl hal
  have s6 := hσ _ _ hbr hal
  have s7 := hσ _ _ hbl har
  have s8 := hσ _ _ hbr har
  clear hσ hal har hbl hbr
  simp only [LGt, PosGt, PNGt, PNLt, Lit.subst] at *
  cases pa <;> cases pb <;> simp only [reduceIte, Bool.false_eq_true, Bool.true_eq_false] at h ⊢ <;> grind

/-- **C16.** Instances of a greater literal are greater: `LiteralCompare` is stable under substitutions that introduce no `$true`. -/
theorem literalCompare_stable (h : OrdCmp D cmp gt) {mode : LitCmpMode} {fcmp : Nat → Nat → Cmp} {C : List FLit} (hC : LitsOK D gt C)
    (ht : TfoOK mode fcmp C) {σ : Nat → Term} (hσ : ∀ s t, D s → D t → gt s t → gt (s.subst σ) (t.subst σ))
    (hD : ∀ t, D t → D (t.subst σ)) (hT : ∀ x, σ x ≠ tTrue) :
    LitOrder (fun a b => literalCompare mode cmp fcmp (FLit.inst σ a) (FLit.inst σ b)) C ∧
    ∀ a ∈ C, ∀ b ∈ C, literalCompare mode cmp fcmp a b = .greater → literalCompare mode cmp fcmp (FLit.inst σ a) (FLit.inst σ b) = .greater := by
  have key : ∀ t : Term, t.subst σ = tTrue ↔ t = tTrue := by
    intro t
    cases t with
    | var x =>
      have := hT x
      simpa [tTrue] using this
    | app f ts =>
      rw [subst_app]
      simp [tTrue]
  have hC' : LitsOK D gt (C.map (FLit.inst σ)) := by
    intro L' hL'
    obtain ⟨L, hL, rfl⟩ := List.mem_map.1 hL'
    obtain ⟨⟨h1, h2⟩, h3⟩ := hC L hL
    exact ⟨⟨hD _ h1, hD _ h2⟩, fun hor => hσ _ _ h1 h2 (h3 hor)⟩
  have ht' : TfoOK mode fcmp (C.map (FLit.inst σ)) := by
    intro hm
    obtain ⟨h1, h2, h3⟩ := ht hm
    refine ⟨h1, h2, ?_⟩
    intro L' hL' hr
    obtain ⟨L, hL, rfl⟩ := List.mem_map.1 hL'
    obtain ⟨f, ts, hl⟩ := h3 L hL ((key _).1 hr)
    exact ⟨f, ts.map (Term.subst σ), by simp only [FLit.inst, Lit.subst]; rw [hl, subst_app]⟩
  have hw := weak_of ht
  have hw' := weak_of ht'
  have ho := literalCompare_litOrder h hC' ht'
  refine ⟨⟨?_, ?_, ?_⟩, ?_⟩
  · exact fun a ha b hb => ho.inv _ (List.mem_map_of_mem ha) _ (List.mem_map_of_mem hb)
  · exact fun a ha b hb c hc => ho.trans _ (List.mem_map_of_mem ha) _ (List.mem_map_of_mem hb) _ (List.mem_map_of_mem hc)
  · exact fun a ha b hb c hc => ho.eqv _ (List.mem_map_of_mem ha) _ (List.mem_map_of_mem hb) _ (List.mem_map_of_mem hc)
  · intro a ha b hb hg
    rw [compare_greater h hC hw ha hb] at hg
    rw [compare_greater h hC' hw' (List.mem_map_of_mem ha) (List.mem_map_of_mem hb)]
    have hTT : ∀ a ∈ C, ∀ b ∈ C, T mode fcmp (FLit.inst σ a) (FLit.inst σ b) ↔ T mode fcmp a b := by
      intro a ha b hb
      have he : ∀ L : FLit, (FLit.inst σ L).isEqu = L.isEqu := by
        intro L
        simp [FLit.isEqu, FLit.inst, Lit.subst, key]
      have hp : mode = .eqMax ∨ mode = .eqMin → a.isEqu = false → b.isEqu = false →
          predCompare fcmp (FLit.inst σ a) (FLit.inst σ b) = predCompare fcmp a b := by
        intro hm ha' hb'
        obtain ⟨f, ts, h1⟩ := (ht hm).2.2 a ha (by simpa [FLit.isEqu] using ha')
        obtain ⟨g, us, h2⟩ := (ht hm).2.2 b hb (by simpa [FLit.isEqu] using hb')
        simp only [predCompare, FLit.inst, Lit.subst, h1, h2, subst_app]
      unfold T tfoLiteralCompare
      rw [he a, he b]
      cases mode <;> simp only
      all_goals cases ha' : a.isEqu <;> cases hb' : b.isEqu <;> simp
      all_goals rw [hp (by simp) ha' hb']
    have hl := lgt_subst hσ (hC a ha).1 (hC b hb).1
    have e1 := hTT a ha b hb
    have e2 := hTT b hb a ha
    rw [e1, e2]
    simp only [FLit.inst] at *
    have hpos : ∀ L : Lit, (L.subst σ).pos = L.pos := fun _ => rfl
    rw [hpos, hpos]
    rcases hg with hg | ⟨hg, hg2 | ⟨hg2, hg3, hg4, hg5 | hg5⟩⟩
    · exact Or.inl hg
    · exact Or.inr ⟨hg, Or.inl hg2⟩
    · exact Or.inr ⟨hg, Or.inr ⟨hg2, hg3, hg4, Or.inl hg5⟩⟩
    · exact Or.inr ⟨hg, Or.inr ⟨hg2, hg3, hg4, Or.inr ⟨hg5.1, hl hg5.2⟩⟩⟩

/-- **C16.** On a clause marked by `EqnListMaximalLiterals` the check of a literal under a substitution is exact. -/
theorem instance_maximality_exact (h : OrdCmp D cmp gt) {mode : LitCmpMode} {fcmp : Nat → Nat → Cmp} {C : List FLit} (hC : LitsOK D gt C)
    (ht : TfoOK mode fcmp C) {σ : Nat → Term} (hσ : ∀ s t, D s → D t → gt s t → gt (s.subst σ) (t.subst σ))
    (hD : ∀ t, D t → D (t.subst σ)) (hT : ∀ x, σ x ≠ tTrue) :
    let M := (maximalLiterals (literalCompare mode cmp fcmp) C).2
    let lc := fun a b => literalCompare mode cmp fcmp (FLit.inst σ a) (FLit.inst σ b)
    ∀ (i : Nat) (hi : i < M.length),
    (eqnIsMaximal lc M i M[i] = true ↔ ∀ (j : Nat) (hj : j < M.length), lc M[j] M[i] ≠ .greater) ∧
    (eqnIsStrictlyMaximal lc M i M[i] = true ↔ ∀ (j : Nat) (hj : j < M.length), j ≠ i → lc M[j] M[i] ≠ .greater ∧ lc M[j] M[i] ≠ .equal) := by
  intro M lc i hi
  have ho := literalCompare_litOrder h hC ht
  obtain ⟨hlen, m1, m2, m3, m4, -⟩ := maximalLiterals_correct ho
  have hM : ∀ L ∈ M, ∃ L' ∈ C, { L with maximal := L'.maximal, strictMax := L'.strictMax } = L' := by
    intro L hL
    obtain ⟨j, hj, rfl⟩ := List.getElem_of_mem hL
    exact ⟨_, List.getElem_mem (hlen ▸ hj), m4 j (hlen ▸ hj)⟩
  have hMok : LitsOK D gt M := by
    intro L hL
    obtain ⟨L', hL', he⟩ := hM L hL
    have := hC L' hL'
    rw [← he] at this
    exact this
  have hMt : TfoOK mode fcmp M := by
    intro hm
    obtain ⟨t1, t2, t3⟩ := ht hm
    refine ⟨t1, t2, fun L hL => ?_⟩
    obtain ⟨L', hL', he⟩ := hM L hL
    have := t3 L' hL'
    rw [← he] at this
    exact this
  obtain ⟨h1, h2⟩ := literalCompare_stable h hMok hMt hσ hD hT
  refine eqnIsMaximal_correct h1 h2 ?_ hi
  intro j hj hm
  obtain ⟨k, hk, hkm, hkg⟩ := m3 j (hlen ▸ hj) hm
  refine ⟨k, hlen.symm ▸ hk, hkm, ?_⟩
  have e1 := m4 k hk
  have e2 := m4 j (hlen ▸ hj)
  rw [← e1, ← e2] at hkg
  exact hkg

/-! ### Example: a clause with two maximal literals, one of them strictly -/

private def exLc (a b : FLit) : Cmp :=
  if a.lit.pos = b.lit.pos then qToPart ((a.lit.l.size : Int) - b.lit.l.size) else .uncomparable

private def exC : List FLit :=
  [{ lit := ⟨true, .var 0, .var 1⟩ }, { lit := ⟨true, .app 3 [.var 0], .var 1⟩ }, { lit := ⟨false, .var 2, .var 1⟩ }, { lit := ⟨true, .app 4 [.var 5], .var 1⟩ }]

example : LitOrder exLc exC ∧ ((maximalLiterals exLc exC).2.map fun L => (L.maximal, L.strictMax)) =
    [(false, false), (true, false), (true, true), (true, false)] := by
  refine ⟨⟨?_, ?_, ?_⟩, ?_⟩
  · decide
  · decide
  · decide
  · simp +decide [maximalLiterals, exC, maxOuter, maxInner, List.range, List.range.loop, exLc, qToPart, clearAt]

end Verif.Props
