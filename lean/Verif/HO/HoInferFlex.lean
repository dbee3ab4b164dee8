import Verif.HO.HoInferProof

/-!
# Flex clauses: the falsifying valuation
-/

namespace Verif
namespace HoInf

variable {G : Nat → HTy}

/-- The function of type `τ` which gives `c n` (in the base type `n`) whatever its arguments are. -/
noncomputable def constFun (M : HInt G) (c : Nat → M.D) : HTy → M.D
  | .base n => c n
  | .arr a b =>
    haveI := Classical.propDecidable
    if h : ∃ f, M.mem (.arr a b) f ∧ ∀ x, M.mem a x → M.app f x = constFun M c b then h.choose else M.tt

theorem constFun_spec {M : HInt G} (hK : M.Constants) {c : Nat → M.D} (hc : ∀ n, M.mem (.base n) (c n)) (τ : HTy) : M.mem τ (constFun M c τ) := by
  induction τ with
  | base n => exact hc n
  | arr a b _ ih =>
    rw [constFun]
    have h := hK (a := a) ih
    rw [dif_pos h]
    exact h.choose_spec.1

theorem constFun_app {M : HInt G} (hK : M.Constants) {c : Nat → M.D} (hc : ∀ n, M.mem (.base n) (c n)) {a b : HTy} {x : M.D} (hx : M.mem a x) :
    M.app (constFun M c (.arr a b)) x = constFun M c b := by
  have h := hK (a := a) (constFun_spec hK hc b)
  have e : constFun M c (.arr a b) = h.choose := by rw [constFun, dif_pos h]
  rw [e]
  exact h.choose_spec.2 x hx

theorem constFun_apps {M : HInt G} (hK : M.Constants) {c : Nat → M.D} (hc : ∀ n, M.mem (.base n) (c n)) (ds : List M.D) : ∀ {t u : HTy} {ss : List HTy},
    List.Forall₂ M.mem ss ds → tyApp t ss = some u → M.apps (constFun M c t) ds = constFun M c u := by
  induction ds with
  | nil => intro t u ss h ht; cases h; rw [tyApp] at ht; cases ht; rfl
  | cons d ds ih =>
    intro t u ss h ht
    cases h with
    | cons h1 h2 =>
      cases t with
      | base n => simp [tyApp] at ht
      | arr a b =>
        rw [tyApp] at ht
        split at ht
        · rename_i e
          subst e
          show M.apps (M.app _ d) ds = _
          rw [constFun_app hK hc h1]
          exact ih h2 ht
        · cases ht

theorem constFun_congr {M : HInt G} {c c' : Nat → M.D} (τ : HTy) : c τ.target = c' τ.target → constFun M c τ = constFun M c' τ := by
  induction τ with
  | base n => exact id
  | arr a b _ ih =>
    intro h
    rw [constFun, constFun, ih h]

theorem tyApp_target {u : HTy} (ss : List HTy) : ∀ {t : HTy}, tyApp t ss = some u → u.target = t.target := by
  induction ss with
  | nil => intro t h; rw [tyApp] at h; cases h; rfl
  | cons s ss ih =>
    intro t h
    cases t with
    | base n => simp [tyApp] at h
    | arr a b =>
      rw [tyApp] at h
      split at h
      · exact (ih h).trans rfl
      · cases h

theorem vals_mem {M : HInt G} {v : M.Val} (hv : M.Typed v) (as : List HTm) : ∀ {ss : List HTy}, tysOf G as = some ss → List.Forall₂ M.mem ss (M.vals v as) := by
  induction as with
  | nil => intro ss h; rw [tysOf] at h; cases h; exact .nil
  | cons a as ih =>
    intro ss h
    rw [tysOf] at h
    obtain ⟨t, h1, h2⟩ := Option.bind_eq_some_iff.1 h
    obtain ⟨us, h3, rfl⟩ := Option.map_eq_some_iff.1 h2
    exact .cons (val_mem M hv a h1) (ih h3)

/-- The base values for a variable with the given sign: its literals become false. -/
noncomputable def signVal (M : HInt G) (s : Option Int) (n : Nat) : M.D :=
  if n = 0 then (if s = some 1 then M.ff else M.tt) else (M.inhabited n).choose

theorem signVal_mem (M : HInt G) (s : Option Int) (n : Nat) : M.mem (.base n) (signVal M s n) := by
  unfold signVal
  split
  · rename_i h; subst h
    rw [M.bool_mem]
    split
    · exact .inr rfl
    · exact .inl rfl
  · exact (M.inhabited n).choose_spec

noncomputable def flexVal (M : HInt G) (m : Signs) : M.Val := fun x τ => constFun M (signVal M (signOf m (x, τ))) τ

theorem flexVal_typed {M : HInt G} (hK : M.Constants) (m : Signs) : M.Typed (flexVal M m) := fun _ τ => constFun_spec hK (signVal_mem M _) τ

theorem flexVal_val {M : HInt G} (hK : M.Constants) (m : Signs) {t : HTm} {k : Nat × HTy} {u : HTy} (hk : topVar t = some k) (ht : tyOf G t = some u) :
    u.target = k.2.target ∧ M.val (flexVal M m) t = constFun M (signVal M (signOf m k)) u := by
  unfold topVar at hk
  split at hk
  · cases hk
    rw [tyOf] at ht
    cases ht
    exact ⟨rfl, rfl⟩
  · cases hk
    rename_i x τ as
    rw [tyOf, tyOf] at ht
    obtain ⟨t, h1, h2⟩ := Option.bind_eq_some_iff.1 ht
    cases h1
    obtain ⟨ss, h3, h4⟩ := Option.bind_eq_some_iff.1 h2
    have h5 := (tyApp1_some.1 h4).2
    refine ⟨tyApp_target _ h5, ?_⟩
    rw [HInt.val]
    exact constFun_apps hK (signVal_mem M _) _ (vals_mem (flexVal_typed hK m) as h3) h5
  · cases hk

/-- What the loop has checked of a literal. -/
def FlexOk (m : Signs) (c : HLit) : Prop := match c.r with
  | some r => c.pos = false ∧ ∃ k k', topVar c.l = some k ∧ topVar r = some k' ∧
      (k.2.target = 0 → signOf m k = some (-1) ∧ signOf m k' = some (-1))
  | none => ∃ k, topVar c.l = some k ∧ signOf m k = some (if c.pos then 1 else 0)

theorem signOf_cons (m : Signs) (k k' : Nat × HTy) (s : Int) : signOf ((k', s) :: m) k = if k' = k then some s else signOf m k := by
  unfold signOf
  by_cases h : k' = k
  · subst h; simp
  · rw [if_neg h, List.find?_cons_of_neg (by simpa using h)]

theorem flexLoop_spec (cs : List HLit) : ∀ {m m' : Signs}, flexLoop m cs = some m' →
    (∀ k s, signOf m k = some s → signOf m' k = some s) ∧ ∀ c ∈ cs, FlexOk m' c := by
  induction cs with
  | nil => intro m m' h; rw [flexLoop] at h; cases h; exact ⟨fun _ _ h => h, by simp⟩
  | cons c cs ih =>
    intro m m' h
    rw [flexLoop] at h
    cases hr : c.r with
    | some r =>
      rw [hr] at h
      simp only at h
      split at h
      · cases h
      · rename_i hp
        split at h
        · rename_i k k' h1 h2
          split at h
          · rename_i h0
            split at h
            · cases h
            · rename_i hs
              simp only [Bool.or_eq_true, not_or, Bool.not_eq_true, Option.isSome_eq_false_iff, Option.isNone_iff_eq_none] at hs
              obtain ⟨i1, i2⟩ := ih h
              refine ⟨fun q s hq => i1 q s ?_, fun d hd => ?_⟩
              · rw [signOf_cons, if_neg, signOf_cons, if_neg, hq]
                · rintro rfl; rw [hs.1] at hq; cases hq
                · rintro rfl; rw [hs.2] at hq; cases hq
              · rcases List.mem_cons.1 hd with rfl | hd
                · unfold FlexOk
                  rw [hr]
                  refine ⟨by simpa using hp, k, k', h1, h2, fun _ => ⟨i1 _ _ ?_, i1 _ _ ?_⟩⟩
                  · rw [signOf_cons, signOf_cons]; split <;> simp
                  · rw [signOf_cons, if_pos rfl]
                · exact i2 d hd
          · rename_i h0
            obtain ⟨i1, i2⟩ := ih h
            refine ⟨i1, fun d hd => ?_⟩
            rcases List.mem_cons.1 hd with rfl | hd
            · unfold FlexOk
              rw [hr]
              exact ⟨by simpa using hp, k, k', h1, h2, fun h => absurd h h0⟩
            · exact i2 d hd
        · cases h
    | none =>
      rw [hr] at h
      simp only at h
      split at h
      · rename_i k h1
        split at h
        · rename_i hs
          obtain ⟨i1, i2⟩ := ih h
          refine ⟨fun q s hq => i1 q s ?_, fun d hd => ?_⟩
          · rw [signOf_cons, if_neg, hq]
            rintro rfl; rw [hs] at hq; cases hq
          · rcases List.mem_cons.1 hd with rfl | hd
            · unfold FlexOk
              rw [hr]
              exact ⟨k, h1, i1 _ _ (by rw [signOf_cons, if_pos rfl])⟩
            · exact i2 d hd
        · rename_i s hs
          by_cases e : s = (if c.pos then 1 else 0)
          · rw [if_pos e] at h
            obtain ⟨i1, i2⟩ := ih h
            refine ⟨i1, fun d hd => ?_⟩
            rcases List.mem_cons.1 hd with rfl | hd
            · unfold FlexOk
              rw [hr]
              exact ⟨k, h1, i1 _ _ (by rw [hs, e])⟩
            · exact i2 d hd
          · rw [if_neg e] at h
            cases h
      · cases h

theorem flexOk_false {M : HInt G} (hK : M.Constants) {m : Signs} {c : HLit} (hT : LitTyped G c) (h : FlexOk m c) : ¬ M.LitTrue (flexVal M m) c := by
  obtain ⟨p, l, r⟩ := c
  cases r with
  | some r =>
    obtain ⟨hp, k, k', h1, h2, h3⟩ := h
    obtain ⟨u, t1, t2⟩ := hT
    simp only at hp h1 t1
    subst hp
    obtain ⟨a1, a2⟩ := flexVal_val hK m h1 t1
    obtain ⟨b1, b2⟩ := flexVal_val hK m h2 t2
    simp only [HInt.LitTrue, Bool.false_eq_true, if_false, not_not]
    rw [a2, b2]
    apply constFun_congr
    by_cases h0 : k.2.target = 0
    · rw [(h3 h0).1, (h3 h0).2]
    · rw [a1]
      simp only [signVal, if_neg h0]
  | none =>
    obtain ⟨k, h1, h2⟩ := h
    have hT : tyOf G l = some (.base 0) := hT
    obtain ⟨a1, a2⟩ := flexVal_val hK m h1 hT
    simp only at h2
    rw [h2] at a2
    cases p with
    | true =>
      simp only [HInt.LitTrue, if_true]
      rw [a2]
      exact fun h => M.tt_ne_ff h.symm
    | false =>
      simp only [HInt.LitTrue, Bool.false_eq_true, if_false, not_not]
      rw [a2]
      rfl

theorem resolveFlex_sound {M : HInt G} (hK : M.Constants) {cl : List HLit} (hT : ∀ c ∈ cl, LitTyped G c) (h : resolveFlex cl = true) : ¬ M.Holds cl := by
  obtain ⟨m, hm⟩ := Option.isSome_iff_exists.1 h
  intro hH
  obtain ⟨c, hc, ht⟩ := hH _ (flexVal_typed hK m)
  exact flexOk_false hK (hT c hc) ((flexLoop_spec cl hm).2 c hc) ht

end HoInf
end Verif
