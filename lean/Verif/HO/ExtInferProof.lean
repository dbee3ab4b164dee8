import Verif.HO.ExtInferSpec
import Verif.HO.HoInferProof

/-!
# Abstracting inferences are sound
-/

namespace Verif
namespace HoInf

variable {G : Nat → HTy}

theorem tEq_of (t : HTm) : ∀ s, tEq t s = true → t = s := by
  induction t using HTm.rec (motive_2 := fun as => ∀ bs, tEqL as bs = true → as = bs) with
  | var x τ => intro s h; cases s <;> simp [tEq] at h; obtain ⟨rfl, rfl⟩ := h; rfl
  | fn f as ih => intro s h; cases s <;> simp [tEq] at h; rw [h.1, ih _ h.2]
  | papp as ih => intro s h; cases s <;> simp [tEq] at h; rw [ih _ h]
  | nil => rename_i bs h; cases bs <;> simp [tEqL] at h; rfl
  | cons t ts ih1 ih2 =>
    rename_i bs h
    cases bs with
    | nil => simp [tEqL] at h
    | cons b bs =>
      rw [tEqL, Bool.and_eq_true] at h
      rw [ih1 _ h.1, ih2 _ h.2]

theorem tEq_self (t : HTm) : tEq t t = true := by
  induction t using HTm.rec (motive_2 := fun as => tEqL as as = true) with
  | var x τ => simp [tEq]
  | fn f as ih => simp [tEq, ih]
  | papp as ih => simp [tEq, ih]
  | nil => rfl
  | cons t ts ih1 ih2 => rw [tEqL, ih1, ih2]; rfl

theorem tyApp_same (ss : List HTy) : ∀ {t u : HTy} {rs : List HTy}, tyApp t ss = some u → tyApp t rs = some u → ss = rs := by
  have size : ∀ (rs : List HTy) {t u : HTy}, tyApp t rs = some u → sizeOf u ≤ sizeOf t ∧ (rs ≠ [] → sizeOf u < sizeOf t) := by
    intro rs
    induction rs with
    | nil => intro t u h; rw [tyApp] at h; cases h; exact ⟨Nat.le_refl _, fun h => absurd rfl h⟩
    | cons r rs ih =>
      intro t u h
      cases t with
      | base n => simp [tyApp] at h
      | arr a b =>
        rw [tyApp] at h
        split at h
        · have := (ih h).1
          have e : sizeOf (HTy.arr a b) = 1 + sizeOf a + sizeOf b := rfl
          exact ⟨by omega, fun _ => by omega⟩
        · cases h
  induction ss with
  | nil =>
    intro t u rs h1 h2
    rw [tyApp] at h1
    cases h1
    by_contra hn
    have := (size rs h2).2 fun e => hn e.symm
    omega
  | cons s ss ih =>
    intro t u rs h1 h2
    cases rs with
    | nil =>
      rw [tyApp] at h2
      cases h2
      have := (size _ h1).2 (by simp)
      omega
    | cons r rs =>
      cases t with
      | base n => simp [tyApp] at h1
      | arr a b =>
        rw [tyApp] at h1 h2
        split at h1
        · split at h2
          · rename_i e1 e2
            rw [← e1, ← e2, ih h1 h2]
          · cases h2
        · cases h1

theorem tysOf_length {as : List HTm} : ∀ {ss : List HTy}, tysOf G as = some ss → as.length = ss.length := by
  induction as with
  | nil => intro ss h; rw [tysOf] at h; cases h; rfl
  | cons a as ih =>
    intro ss h
    rw [tysOf] at h
    obtain ⟨t, _, h2⟩ := Option.bind_eq_some_iff.1 h
    obtain ⟨us, h3, rfl⟩ := Option.map_eq_some_iff.1 h2
    simp [ih h3]

/-- Terms of one type are equal in a model if all pairs are; the pairs have one type. -/
theorem disagree_spec (M : HInt G) (v : M.Val) (t : HTm) : ∀ (s : HTm) {τ : HTy}, tyOf G t = some τ → tyOf G s = some τ →
    ((∀ p ∈ disagree t s, M.val v p.1 = M.val v p.2) → M.val v t = M.val v s) ∧ ∀ p ∈ disagree t s, ∃ σ, tyOf G p.1 = some σ ∧ tyOf G p.2 = some σ := by
  have leaf : ∀ (t s : HTm) {τ : HTy}, tyOf G t = some τ → tyOf G s = some τ → disagree t s = (if tEq t s then [] else [(t, s)]) →
      ((∀ p ∈ disagree t s, M.val v p.1 = M.val v p.2) → M.val v t = M.val v s) ∧ ∀ p ∈ disagree t s, ∃ σ, tyOf G p.1 = some σ ∧ tyOf G p.2 = some σ := by
    intro t s τ ht hs e
    rw [e]
    by_cases h : tEq t s = true
    · rw [if_pos h]
      rw [tEq_of t s h]
      simp
    · rw [if_neg h]
      simp only [List.mem_singleton, forall_eq]
      exact ⟨id, τ, ht, hs⟩
  induction t using HTm.rec (motive_2 := fun as => ∀ (bs : List HTm) {ss : List HTy}, tysOf G as = some ss → tysOf G bs = some ss →
      ((∀ p ∈ disagreeL as bs, M.val v p.1 = M.val v p.2) → M.vals v as = M.vals v bs) ∧
        ∀ p ∈ disagreeL as bs, ∃ σ, tyOf G p.1 = some σ ∧ tyOf G p.2 = some σ) with
  | var x σ => intro s τ ht hs; exact leaf _ _ ht hs (by rw [disagree]; rintro _ _ _ _ ⟨⟩)
  | papp as ih => intro s τ ht hs; exact leaf _ _ ht hs (by rw [disagree]; rintro _ _ _ _ ⟨⟩)
  | fn f as ih =>
    intro s τ ht hs
    cases s with
    | var y σ => exact leaf _ _ ht hs (by rw [disagree]; rintro _ _ _ _ _ ⟨⟩)
    | papp bs => exact leaf _ _ ht hs (by rw [disagree]; rintro _ _ _ _ _ ⟨⟩)
    | fn g bs =>
      by_cases h : tEq (.fn f as) (.fn g bs) = true
      · exact leaf _ _ ht hs (by rw [disagree, if_pos h, if_pos h])
      · by_cases e : f = g
        · subst e
          have ed : disagree (.fn f as) (.fn f bs) = disagreeL as bs := by rw [disagree, if_neg h, if_pos rfl]
          rw [ed]
          rw [tyOf] at ht hs
          obtain ⟨ss, h1, h2⟩ := Option.bind_eq_some_iff.1 ht
          obtain ⟨rs, h3, h4⟩ := Option.bind_eq_some_iff.1 hs
          rw [← tyApp_same ss h2 h4] at h3
          obtain ⟨i1, i2⟩ := ih bs h1 h3
          exact ⟨fun hp => by rw [HInt.val, HInt.val, i1 hp], i2⟩
        · exact leaf _ _ ht hs (by rw [disagree, if_neg h, if_neg e, if_neg h])
  | nil =>
    rename_i bs ss h1 h2
    rw [tysOf] at h1
    cases h1
    have := tysOf_length h2
    cases bs with
    | nil => exact ⟨fun _ => rfl, by simp [disagreeL]⟩
    | cons b bs => simp at this
  | cons t ts ih1 ih2 =>
    rename_i bs ss h1 h2
    have l1 := tysOf_length h1
    have l2 := tysOf_length h2
    cases bs with
    | nil => rw [← l1] at l2; simp at l2
    | cons b bs =>
      rw [tysOf] at h1 h2
      obtain ⟨τ, a1, a2⟩ := Option.bind_eq_some_iff.1 h1
      obtain ⟨us, a3, rfl⟩ := Option.map_eq_some_iff.1 a2
      obtain ⟨τ', b1, b2⟩ := Option.bind_eq_some_iff.1 h2
      obtain ⟨us', b3, b4⟩ := Option.map_eq_some_iff.1 b2
      cases b4
      obtain ⟨i1, i2⟩ := ih1 b a1 b1
      obtain ⟨j1, j2⟩ := ih2 bs a3 b3
      rw [disagreeL]
      refine ⟨fun hp => ?_, fun p hp => ?_⟩
      · rw [HInt.vals, HInt.vals, i1 fun p h => hp p (List.mem_append_right _ h), j1 fun p h => hp p (List.mem_append_left _ h)]
      · rcases List.mem_append.1 hp with h | h
        · exact j2 p h
        · exact i2 p h

theorem find_spec {ty : HTm → HTy} {t s : HTm} {ds : List (HTm × HTm)} (ht : tyOf G t = some (ty t)) (hs : tyOf G s = some (ty s))
    (h : findDisagreements ty t s = some ds) : (∀ (M : HInt G) (v : M.Val), (∀ p ∈ ds, M.val v p.1 = M.val v p.2) → M.val v t = M.val v s) ∧
      ((∃ M : HInt G, ∃ v : M.Val, M.Typed v) → ∀ p ∈ ds, ∃ σ, tyOf G p.1 = some σ ∧ tyOf G p.2 = some σ) ∧ ty t = ty s := by
  unfold findDisagreements at h
  split at h
  · cases h
  · rename_i hn
    rw [not_or, not_not] at hn
    split at h
    · cases h
      rw [hn.1] at ht
      refine ⟨fun M v => (disagree_spec M v t s ht hs).1, ?_, hn.1⟩
      rintro ⟨M, v, _⟩
      exact (disagree_spec M v t s ht hs).2
    · cases h

theorem removeResolved_true {M : HInt G} {v : M.Val} {cl : List XLit} (h : ∃ c ∈ cl, M.XTrue v c) : ∃ c ∈ removeResolved cl, M.XTrue v c := by
  obtain ⟨c, hc, ht⟩ := h
  refine ⟨c, List.mem_filter.2 ⟨hc, ?_⟩, ht⟩
  cases hp : c.pos with
  | true => rfl
  | false =>
    simp only [HInt.XTrue, hp, Bool.false_eq_true, if_false] at ht
    simp only [Bool.false_or, Bool.not_eq_true']
    exact Bool.eq_false_iff.2 fun he => ht (by rw [tEq_of _ _ he])

/-- Either a condition is true or all pairs are equal. -/
theorem conditions_cases (M : HInt G) (v : M.Val) (ds : List (HTm × HTm)) : (∃ c ∈ conditions ds, M.XTrue v c) ∨ ∀ p ∈ ds, M.val v p.1 = M.val v p.2 := by
  by_cases h : ∀ p ∈ ds, M.val v p.1 = M.val v p.2
  · exact .inr h
  · left
    by_contra hc
    refine h fun p hp => ?_
    by_contra hq
    refine hc ⟨⟨false, p.2, p.1⟩, List.mem_map.2 ⟨p, hp, rfl⟩, ?_⟩
    simp only [HInt.XTrue, Bool.false_eq_true, if_false]
    exact fun e => hq e.symm

theorem extEqRes_sound {M : HInt G} {ty : HTm → HTy} {pre suf new : List XLit} {c : XLit} (hl : tyOf G c.l = some (ty c.l)) (hr : tyOf G c.r = some (ty c.r))
    (hp : c.pos = false) (h : M.XHolds (pre ++ c :: suf)) (hn : extEqRes ty pre c suf = some new) : M.XHolds new := by
  unfold extEqRes at hn
  obtain ⟨ds, hd, rfl⟩ := Option.map_eq_some_iff.1 hn
  obtain ⟨hq, _⟩ := find_spec hl hr hd
  intro v hv
  apply removeResolved_true
  rcases conditions_cases M v ds with ⟨d, hd, ht⟩ | he
  · exact ⟨d, List.mem_append_left _ hd, ht⟩
  · obtain ⟨d, hd, ht⟩ := h v hv
    have : d = c ∨ d ∈ pre ++ suf := by
      simp only [List.mem_append, List.mem_cons] at hd ⊢
      tauto
    rcases this with rfl | hd
    · simp only [HInt.XTrue, hp, Bool.false_eq_true, if_false] at ht
      exact absurd (hq M v he) ht
    · exact ⟨d, List.mem_append_right _ hd, ht⟩

theorem computeExtEqRes_sound {M : HInt G} {ty : HTm → HTy} {sel : XLit → Bool} (cs : List XLit) : ∀ (pre : List XLit),
    (∀ c ∈ cs, tyOf G c.l = some (ty c.l) ∧ tyOf G c.r = some (ty c.r)) → M.XHolds (pre ++ cs) → ∀ new ∈ computeExtEqRes ty sel pre cs, M.XHolds new := by
  induction cs with
  | nil => intro pre _ _ new h; simp [computeExtEqRes] at h
  | cons c cs ih =>
    intro pre hT h new hn
    rw [computeExtEqRes] at hn
    rcases List.mem_append.1 hn with hn | hn
    · split at hn
      · rename_i hp
        rw [Bool.and_eq_true] at hp
        obtain ⟨h1, h2⟩ := hT c List.mem_cons_self
        exact extEqRes_sound h1 h2 (by simpa using hp.1) h (by simpa using hn)
      · cases hn
    · exact ih (pre ++ [c]) (fun d hd => hT d (List.mem_cons_of_mem _ hd)) (by simpa using h) new hn

theorem extEqFact_sound {M : HInt G} {ty : HTm → HTy} {main partner : XLit} {ms ps : Bool} {rest new : List XLit}
    (hm : tyOf G (main.side ms) = some (ty (main.side ms))) (hp : tyOf G (partner.side ps) = some (ty (partner.side ps)))
    (pm : main.pos = true) (pp : partner.pos = true) (hr : partner ∈ rest) (h : ∀ v, M.Typed v → M.XTrue v main ∨ ∃ c ∈ rest, M.XTrue v c)
    (hn : extEqFact ty main ms partner ps rest = some new) : M.XHolds new := by
  unfold extEqFact at hn
  obtain ⟨ds, hd, rfl⟩ := Option.map_eq_some_iff.1 hn
  obtain ⟨hq, _⟩ := find_spec hm hp hd
  intro v hv
  apply removeResolved_true
  rcases conditions_cases M v ds with ⟨d, hd, ht⟩ | he
  · exact ⟨d, List.mem_append_left _ hd, ht⟩
  · have e := hq M v he
    by_cases ho : M.val v (main.other ms) = M.val v (partner.other ps)
    · rcases h v hv with ht | ⟨d, hd, ht⟩
      · refine ⟨partner, List.mem_append_right _ (List.mem_cons_of_mem _ hr), ?_⟩
        simp only [HInt.XTrue, pm, pp, if_true] at ht ⊢
        cases ms <;> cases ps <;> simp only [XLit.side, XLit.other, if_true, if_false, Bool.false_eq_true] at e ho <;> first
          | (rw [← e, ← ho, ht])
          | (rw [← ho, ← e, ht])
      · exact ⟨d, List.mem_append_right _ (List.mem_cons_of_mem _ hd), ht⟩
    · refine ⟨_, List.mem_append_right _ List.mem_cons_self, ?_⟩
      simp only [HInt.XTrue, Bool.false_eq_true, if_false]
      exact ho

theorem factSides_pos {elig : HTm → Bool} {c : XLit} {s : Bool} (h : s ∈ factSides elig c) : c.pos = true := by
  unfold factSides at h
  split at h
  · assumption
  · cases h

theorem side_ty {ty : HTm → HTy} {c : XLit} (h : tyOf G c.l = some (ty c.l) ∧ tyOf G c.r = some (ty c.r)) (s : Bool) :
    tyOf G (c.side s) = some (ty (c.side s)) := by
  cases s
  · exact h.2
  · exact h.1

theorem computeExtEqFact_sound {M : HInt G} {ty : HTm → HTy} {elig : HTm → Bool} (cs : List XLit) : ∀ (pre : List XLit),
    (∀ c ∈ cs, tyOf G c.l = some (ty c.l) ∧ tyOf G c.r = some (ty c.r)) → M.XHolds (pre ++ cs) → ∀ new ∈ computeExtEqFact ty elig pre cs, M.XHolds new := by
  induction cs with
  | nil => intro pre _ _ new h; simp [computeExtEqFact] at h
  | cons c cs ih =>
    intro pre hT h new hn
    rw [computeExtEqFact] at hn
    rcases List.mem_append.1 hn with hn | hn
    · obtain ⟨s, hs, hn⟩ := List.mem_flatMap.1 hn
      obtain ⟨⟨d, s'⟩, hp, hn⟩ := List.mem_flatMap.1 hn
      unfold factPartners at hp
      obtain ⟨d', hd, hp⟩ := List.mem_flatMap.1 hp
      obtain ⟨s'', hs', he⟩ := List.mem_map.1 hp
      cases he
      refine extEqFact_sound (side_ty (hT c List.mem_cons_self) s) (side_ty (hT d (List.mem_cons_of_mem _ hd)) s') (factSides_pos hs) (factSides_pos hs')
        (List.mem_append_right _ hd) (fun v hv => ?_) (by simpa using hn)
      obtain ⟨e, he, ht⟩ := h v hv
      have : e = c ∨ e ∈ pre ++ cs := by
        simp only [List.mem_append, List.mem_cons] at he ⊢
        tauto
      rcases this with rfl | he
      · exact .inl ht
      · exact .inr ⟨e, he, ht⟩
    · exact ih (pre ++ [c]) (fun d hd => hT d (List.mem_cons_of_mem _ hd)) (by simpa using h) new hn

theorem replaceAt_val (M : HInt G) (v : M.Val) {w : HTm} (p : List Nat) : ∀ {t u : HTm}, subAt t p = some u → M.val v w = M.val v u →
    M.val v (replaceAt t p w) = M.val v t := by
  induction p with
  | nil => intro t u h e; rw [subAt] at h; cases h; rw [replaceAt]; exact e
  | cons i p ih =>
    intro t u h e
    rw [subAt] at h
    rw [replaceAt]
    cases ha : t.args[i]? with
    | none => simp [ha] at h
    | some a =>
      rw [ha] at h
      simp only at h ⊢
      have hv := ih h e
      have hm : ∀ {as : List HTm}, as[i]? = some a → (as.set i (replaceAt a p w)).map (M.val v) = as.map (M.val v) := by
        intro as has
        rw [List.map_set, hv]
        apply List.ext_getElem?
        intro j
        rw [List.getElem?_set]
        split
        · rename_i hij
          subst hij
          rw [List.getElem?_map, has]
          have := List.getElem?_eq_some_iff.1 has
          obtain ⟨hlt, _⟩ := this
          simp [hlt]
        · rfl
      cases t with
      | var x τ => simp [HTm.args] at ha
      | fn f as =>
        simp only
        rw [HInt.val, HInt.val, vals_eq_map, vals_eq_map, hm (as := as) ha]
      | papp as =>
        simp only
        have hm := hm (as := as) ha
        cases as with
        | nil => simp [HTm.args] at ha
        | cons b bs =>
          cases i with
          | zero =>
            rw [List.set_cons_zero] at hm ⊢
            rw [List.map_cons, List.map_cons] at hm
            rw [HInt.val, HInt.val, (List.cons.inj hm).1]
          | succ i =>
            rw [List.set_cons_succ] at hm ⊢
            rw [List.map_cons, List.map_cons] at hm
            rw [HInt.val, HInt.val, vals_eq_map, vals_eq_map, (List.cons.inj hm).2]

theorem extSup_sound {M : HInt G} {ty : HTm → HTy} {fl il : XLit} {fs is : Bool} {fr ir new : List XLit} {p : List Nat}
    (hf : tyOf G (fl.side fs) = some (ty (fl.side fs))) (hi : WellTyped G ty (il.side is))
    (h1 : ∀ v, M.Typed v → M.XTrue v fl ∨ ∃ c ∈ fr, M.XTrue v c) (h2 : ∀ v, M.Typed v → M.XTrue v il ∨ ∃ c ∈ ir, M.XTrue v c)
    (hn : extSup ty fl fs fr il is p ir = some new) : M.XHolds new := by
  unfold extSup at hn
  split at hn
  · rename_i pf
    split at hn
    · rename_i u hu
      obtain ⟨ds, hd, rfl⟩ := Option.map_eq_some_iff.1 hn
      obtain ⟨hq, _⟩ := find_spec hf (hi p u hu) hd
      intro v hv
      apply removeResolved_true
      rcases conditions_cases M v ds with ⟨d, hd, ht⟩ | he
      · exact ⟨d, List.mem_append_left _ hd, ht⟩
      · have e := hq M v he
        rcases h1 v hv with t1 | ⟨d, hd, ht⟩
        · rcases h2 v hv with t2 | ⟨d, hd, ht⟩
          · refine ⟨_, List.mem_append_right _ (List.mem_append_right _ (List.mem_append_right _ (List.mem_singleton.2 rfl))), ?_⟩
            have eo : M.val v (fl.other fs) = M.val v u := by
              simp only [HInt.XTrue, pf, if_true] at t1
              rw [← e]
              cases fs
              · exact t1
              · exact t1.symm
            have er := replaceAt_val M v p hu eo
            simp only [HInt.XTrue] at t2 ⊢
            rw [er]
            cases is
            · simp only [XLit.side, XLit.other, Bool.false_eq_true, if_false]
              split
              · rename_i hp; rw [if_pos hp] at t2; exact t2.symm
              · rename_i hp; rw [if_neg hp] at t2; exact t2.symm
            · exact t2
          · exact ⟨d, List.mem_append_right _ (List.mem_append_left _ hd), ht⟩
        · exact ⟨d, List.mem_append_right _ (List.mem_append_right _ (List.mem_append_left _ hd)), ht⟩
    · cases hn
  · cases hn

end HoInf
end Verif
