import Verif.HO.BetaEta

/-!
# Eta-long beta-normal terms of one type are determined by their common eta reduct
-/

namespace Verif
namespace HOProof
open HTerm Lam

/-- The type of functions with these arguments. -/
def arrows (tys : List HTy) (ty : HTy) : HTy := tys.foldr .arr ty

variable {ct : Nat → HTy}

/-! ## Typing of applications -/

theorem apps_typed {Γ : Nat → Option HTy} {ty : HTy} {as : List Lam} {tys : List HTy} (h : List.Forall₂ (HasTy ct Γ) as tys) :
    ∀ {m : Lam}, HasTy ct Γ m (arrows tys ty) → HasTy ct Γ (m.apps as) ty := by
  induction h with
  | nil => intro m hm; exact hm
  | cons h1 _ ih => intro m hm; rw [apps_cons]; exact ih (.app hm h1)

theorem apps_typed_inv {Γ : Nat → Option HTy} {ty : HTy} (as : List Lam) : ∀ {m : Lam}, HasTy ct Γ (m.apps as) ty →
    ∃ tys, HasTy ct Γ m (arrows tys ty) ∧ List.Forall₂ (HasTy ct Γ) as tys := by
  induction as with
  | nil => intro m h; exact ⟨[], h, .nil⟩
  | cons a as ih =>
    intro m h
    rw [apps_cons] at h
    obtain ⟨tys, h1, h2⟩ := ih h
    cases h1 with
    | @app _ a' _ _ _ h1 h3 => exact ⟨a' :: tys, h1, .cons h3 h2⟩

theorem tyDrop_arrows (tys : List HTy) (ty : HTy) : tyDrop tys.length (arrows tys ty) = ty := by
  induction tys with
  | nil => cases ty <;> rfl
  | cons t tys ih => exact ih

theorem arrows_inj {ty : HTy} : ∀ {xs ys : List HTy}, xs.length = ys.length → arrows xs ty = arrows ys ty → xs = ys := by
  intro xs
  induction xs with
  | nil => intro ys h _; cases ys with | nil => rfl | cons => simp at h
  | cons x xs ih =>
    intro ys h he
    cases ys with
    | nil => simp at h
    | cons y ys =>
      obtain ⟨rfl, he'⟩ := HTy.arr.inj he
      rw [ih (by simpa using h) he']

/-- The type in the cell is the type of the term. -/
theorem tyOf_typed (t : HTerm) : ∀ {Γ : Nat → Option HTy} {ty : HTy}, WF Γ t → HasTy ct Γ t.toL ty → tyOf ct t = ty := by
  induction t using HTerm.ind with
  | hf x ty => intro Γ ty' _ h; simp only [toL] at h; cases h; rfl
  | hd i ty =>
    intro Γ ty' hw h
    simp only [toL] at h
    cases hw with | db hw => cases h with | bv h => exact Option.some.inj (hw.symm.trans h)
  | hl ty b ih =>
    intro Γ ty' hw h
    simp only [toL] at h
    cases hw with | lam hw => cases h with | lam h => simp only [tyOf]; rw [ih hw h]
  | ha f as _ =>
    intro Γ ty' _ h
    simp only [toL, toLL_map] at h
    obtain ⟨tys, h1, h2⟩ := apps_typed_inv _ h
    have hl := h2.length_eq
    rw [List.length_map] at hl
    generalize he : arrows tys ty' = q at h1
    cases h1
    simp only [tyOf]
    rw [← he, hl, tyDrop_arrows]
  | hp g as ih _ =>
    intro Γ ty' hw h
    simp only [toL, toLL_map] at h
    obtain ⟨tys, h1, h2⟩ := apps_typed_inv _ h
    have hl := h2.length_eq
    rw [List.length_map] at hl
    cases hw with
    | papp _ _ hw _ =>
      simp only [tyOf]
      rw [ih hw h1, hl, tyDrop_arrows]

/-! ## Expansion keeps types -/

theorem close_tyArgs (ty : HTy) : ∀ {Γ : Nat → Option HTy} {m : Lam}, HasTy ct (extL (tyArgs ty) Γ) m (tyDrop (tyArity ty) ty) →
    HasTy ct Γ (close (tyArgs ty) m) ty := by
  induction ty with
  | base => intro Γ m h; exact h
  | arr a b _ ih => intro Γ m h; exact .lam (ih (Γ := ext a Γ) h)

theorem arrows_tyArgs (ty : HTy) : arrows (tyArgs ty) (tyDrop (tyArity ty) ty) = ty := by
  induction ty with
  | base => rfl
  | arr a b _ ih => exact congrArg (HTy.arr a) ih

theorem expArgs_typed (ty : HTy) : ∀ (Γ : Nat → Option HTy), List.Forall₂ (HasTy ct (extL (tyArgs ty) Γ)) ((expArgs ty).map toL) (tyArgs ty) := by
  induction ty with
  | base => intro Γ; exact .nil
  | arr a b iha ihb =>
    intro Γ
    have hv : extL (tyArgs (.arr a b)) Γ (tyArity b) = some a := by rw [← tyArgs_length]; exact extL_lt a (tyArgs b) Γ
    have hb : List.Forall₂ (HasTy ct (extL (tyArgs (.arr a b)) Γ)) ((expArgs b).map toL) (tyArgs b) := ihb _
    generalize extL (tyArgs (.arr a b)) Γ = Δ at hv hb
    cases a with
    | base k =>
      rw [expArgs, tyArgs, List.map_cons]
      exact .cons (.bv hv) hb
    | arr a1 a2 =>
      rw [expArgs, List.map_cons]
      refine .cons ?_ hb
      rw [toL_closeTys]
      refine close_tyArgs _ ?_
      simp only [toL, toLL_map]
      refine apps_typed (iha _) ?_
      rw [arrows_tyArgs]
      refine .bv ?_
      rw [← tyArgs_length (.arr a1 a2), extL_add]
      exact hv

theorem etaExpTop_typed {Γ : Nat → Option HTy} {t : HTerm} {ty : HTy} (hw : WF Γ t) (h : HasTy ct Γ t.toL ty) :
    HasTy ct Γ (etaExpTop ct t).toL ty := by
  unfold etaExpTop
  split
  · rw [tyOf_typed t hw h, toL_closeTys, toL_applyTerms, toL_shiftDB]
    refine close_tyArgs _ (apps_typed (expArgs_typed ty Γ) ?_)
    rw [arrows_tyArgs]
    refine h.ren ?_
    intro i s hi
    rw [← tyArgs_length, extL_add]
    exact hi
  · exact h

theorem doEtaExpand_typed (t : HTerm) : ∀ {Γ : Nat → Option HTy} {ty : HTy}, WF Γ t → HasTy ct Γ t.toL ty → HasTy ct Γ (doEtaExpand ct t).toL ty := by
  have hL : ∀ {Γ : Nat → Option HTy} (as : List HTerm) (tys : List HTy), (∀ a ∈ as, ∀ {Γ : Nat → Option HTy} {ty : HTy}, WF Γ a → HasTy ct Γ a.toL ty →
      HasTy ct Γ (doEtaExpand ct a).toL ty) → (∀ a ∈ as, WF Γ a) → List.Forall₂ (HasTy ct Γ) (as.map toL) tys →
      List.Forall₂ (HasTy ct Γ) ((as.map (doEtaExpand ct)).map toL) tys := by
    intro Γ as
    induction as with
    | nil => intro tys _ _ h; exact h
    | cons a as ih =>
      intro tys h1 h2 h
      cases h with
      | cons h3 h4 => exact .cons (h1 a (.head _) (h2 a (.head _)) h3) (ih _ (fun b hb => h1 b (.tail _ hb)) (fun b hb => h2 b (.tail _ hb)) h4)
  induction t using HTerm.ind with
  | hf => intro Γ ty hw h; exact etaExpTop_typed hw h
  | hd => intro Γ ty hw h; exact etaExpTop_typed hw h
  | hl ty b ih =>
    intro Γ ty hw h
    simp only [doEtaExpand]
    split
    · simp only [toL] at h ⊢
      cases hw with | lam hw => cases h with | lam h => exact .lam (ih hw h)
    · exact h
  | ha f as ih =>
    intro Γ ty hw h
    have hx := wf_doEtaExpand ct (HTerm.app f as) hw
    simp only [doEtaExpand]
    split
    · exact etaExpTop_typed hw h
    · cases hw with
      | app hw =>
        refine etaExpTop_typed (.app ?_) ?_
        · rw [doEtaExpandL_map]
          intro a ha
          obtain ⟨b, hb, rfl⟩ := List.mem_map.1 ha
          exact wf_doEtaExpand ct b (hw b hb)
        · simp only [toL, toLL_map] at h ⊢
          obtain ⟨tys, h1, h2⟩ := apps_typed_inv _ h
          rw [doEtaExpandL_map]
          exact apps_typed (hL as tys ih hw h2) h1
  | hp g as _ ih =>
    intro Γ ty hw h
    simp only [doEtaExpand]
    split
    · exact etaExpTop_typed hw h
    · cases hw with
      | papp w1 w2 w3 hw =>
        refine etaExpTop_typed (.papp w1 ?_ w3 ?_) ?_
        · rw [doEtaExpandL_map]; simpa using w2
        · rw [doEtaExpandL_map]
          intro a ha
          obtain ⟨b, hb, rfl⟩ := List.mem_map.1 ha
          exact wf_doEtaExpand ct b (hw b hb)
        · simp only [toL, toLL_map] at h ⊢
          obtain ⟨tys, h1, h2⟩ := apps_typed_inv _ h
          rw [doEtaExpandL_map]
          exact apps_typed (hL as tys ih hw h2) h1

theorem etaExpand_typed {Γ : Nat → Option HTy} {t : HTerm} {ty : HTy} (hw : WF Γ t) (h : HasTy ct Γ t.toL ty) : HasTy ct Γ (etaExpand ct t).toL ty := by
  unfold etaExpand
  split
  · exact doEtaExpand_typed t hw h
  · exact h

/-! ## Eta reducts -/

/-- Variables and symbols. -/
def LAtom : Lam → Prop
  | fv _ _ => True
  | bv _ => True
  | cn _ => True
  | _ => False

theorem eta_apps_inv {h : Lam} (ha : LAtom h) (as : List Lam) : ∀ {x : Lam}, Eta (h.apps as) x →
    ∃ bs, x = h.apps bs ∧ List.Forall₂ EtaStar as bs := by
  induction as using List.reverseRecOn with
  | nil => intro x hx; cases h <;> first | exact ha.elim | cases hx
  | append_singleton as a ih =>
    intro x hx
    rw [apps_concat] at hx
    cases hx with
    | appL hx =>
      obtain ⟨bs, rfl, hb⟩ := ih hx
      refine ⟨bs ++ [a], (apps_concat _ _ _).symm, List.rel_append hb (.cons .refl .nil)⟩
    | @appR _ _ a' hx =>
      refine ⟨as ++ [a'], (apps_concat _ _ _).symm, List.rel_append (List.forall₂_same.2 fun _ _ => .refl) (.cons (.single hx) .nil)⟩

theorem forall₂_star_trans {as bs cs : List Lam} (h1 : List.Forall₂ EtaStar as bs) : List.Forall₂ EtaStar bs cs → List.Forall₂ EtaStar as cs := by
  induction h1 generalizing cs with
  | nil => exact id
  | cons h _ ih => intro h2; cases h2 with | cons h3 h4 => exact .cons (.trans h h3) (ih h4)

theorem etaStar_apps_inv {h : Lam} (ha : LAtom h) {as : List Lam} {x : Lam} (hx : EtaStar (h.apps as) x) :
    ∃ bs, x = h.apps bs ∧ List.Forall₂ EtaStar as bs := by
  induction hx with
  | refl => exact ⟨as, rfl, List.forall₂_same.2 fun _ _ => .refl⟩
  | tail _ hs ih =>
    obtain ⟨bs, rfl, hb⟩ := ih
    obtain ⟨cs, rfl, hc⟩ := eta_apps_inv ha bs hs
    exact ⟨cs, rfl, forall₂_star_trans hb hc⟩

theorem apps_inj {h k : Lam} (ha : LAtom h) (hk : LAtom k) (as : List Lam) : ∀ {bs : List Lam}, h.apps as = k.apps bs → h = k ∧ as = bs := by
  induction as using List.reverseRecOn with
  | nil =>
    intro bs he
    cases bs using List.reverseRecOn with
    | nil => exact ⟨he, rfl⟩
    | append_singleton bs b => rw [apps_concat] at he; cases h <;> first | exact ha.elim | cases he
  | append_singleton as a ih =>
    intro bs he
    cases bs using List.reverseRecOn with
    | nil => rw [apps_concat] at he; cases k <;> first | exact hk.elim | cases he
    | append_singleton bs b =>
      rw [apps_concat, apps_concat] at he
      obtain ⟨e1, rfl⟩ := Lam.app.inj he
      obtain ⟨rfl, rfl⟩ := ih e1
      exact ⟨rfl, rfl⟩

/-- A reduct of an abstraction: the body reduces to the body of the reduct, or to the reduct applied to the new variable. -/
theorem etaStar_lam_inv {a : HTy} {m x : Lam} (h : EtaStar (.lam a m) x) :
    (∃ y, x = .lam a y ∧ EtaStar m y) ∨ EtaStar m (.app (x.ren Nat.succ) (.bv 0)) := by
  induction h with
  | refl => exact .inl ⟨m, rfl, .refl⟩
  | tail _ hs ih =>
    rcases ih with ⟨y, rfl, hy⟩ | hy
    · cases hs with
      | eta => exact .inr hy
      | lam hs => exact .inl ⟨_, rfl, .tail hy hs⟩
    · exact .inr (.tail hy (.appL (hs.ren _)))

theorem lam_reducts {a : HTy} {m n x : Lam} (hm : Normal m) (hn : Normal n) (h1 : EtaStar (.lam a m) x) (h2 : EtaStar (.lam a n) x) :
    ∃ y, EtaStar m y ∧ EtaStar n y := by
  rcases etaStar_lam_inv h1 with ⟨y, rfl, hy⟩ | hy
  · rcases etaStar_lam_inv h2 with ⟨z, hz, hy'⟩ | hy'
    · cases hz; exact ⟨y, hy, hy'⟩
    · exact absurd (.beta _ _ _) (normal_etaStar hy' hn _)
  · rcases etaStar_lam_inv h2 with ⟨z, rfl, hy'⟩ | hy'
    · exact absurd (.beta _ _ _) (normal_etaStar hy hm _)
    · exact ⟨_, hy, hy'⟩

/-! ## Uniqueness -/

theorem long_spine {Γ : Nat → Option HTy} {t : HTerm} {n : Nat} (hw : WF Γ t) (hb : t.betaRed = false) (ht : HasTy ct Γ t.toL (.base n))
    (he : etaExp ct t = false) : ∃ (h : Lam) (as : List HTerm), LAtom h ∧ t.toL = h.apps (as.map toL) ∧
      ∀ a ∈ as, sizeOf a < sizeOf t ∧ WF Γ a ∧ a.betaRed = false ∧ etaExp ct a = false := by
  cases hw with
  | fvar x ty => exact ⟨.fv x ty, [], trivial, rfl, by simp⟩
  | @db _ i _ h => exact ⟨.bv i, [], trivial, rfl, by simp⟩
  | lam h => simp only [toL] at ht; cases ht
  | @app _ f as h =>
    refine ⟨.cn f, as, trivial, by simp only [toL, toLL_map], fun a ha => ⟨?_, h a ha, ?_, ?_⟩⟩
    · have := List.sizeOf_lt_of_mem ha; simp only [HTerm.app.sizeOf_spec]; omega
    · simp only [betaRed, betaRedL_any, List.any_eq_false] at hb; simpa using hb a ha
    · simp only [etaExp, etaExpL_any, Bool.or_eq_false_iff, List.any_eq_false] at he; simpa using he.2 a ha
  | @papp _ g as h1 h2 h3 h =>
    simp only [betaRed, betaRedL_any, Bool.or_eq_false_iff, List.any_eq_false] at hb
    refine ⟨g.toL, as, ?_, by simp only [toL, toLL_map], fun a ha => ⟨?_, h a ha, ?_, ?_⟩⟩
    · rcases h1 with h1 | h1
      · cases g <;> simp_all [isAnyVar, toL, LAtom]
      · rw [hb.1.1] at h1; exact absurd h1 (by simp)
    · have := List.sizeOf_lt_of_mem ha; simp only [HTerm.papp.sizeOf_spec]; omega
    · simpa using hb.2 a ha
    · simp only [etaExp, etaExpL_any, Bool.or_eq_false_iff, List.any_eq_false] at he; simpa using he.2 a ha

theorem long_arrow {Γ : Nat → Option HTy} {t : HTerm} {a b : HTy} (hw : WF Γ t) (ht : HasTy ct Γ t.toL (.arr a b)) (he : etaExp ct t = false) :
    ∃ u, t = HTerm.lam a u := by
  have hty := tyOf_typed t hw ht
  cases t with
  | fvar => simp only [tyOf] at hty; subst hty; simp [etaExp, isArrow] at he
  | db => simp only [tyOf] at hty; subst hty; simp [etaExp, isArrow] at he
  | lam c u => simp only [tyOf] at hty; obtain ⟨rfl, _⟩ := HTy.arr.inj hty; exact ⟨u, rfl⟩
  | app f as => simp only [etaExp, hty, isArrow, Bool.true_or, Bool.true_eq_false] at he
  | papp f as => simp only [etaExp, hty, isArrow, Bool.true_or, Bool.true_eq_false] at he

/-- Eta-long beta-normal terms of one type with a common eta reduct are equal. -/
theorem long_unique (k : Nat) : ∀ (s t : HTerm) {Γ : Nat → Option HTy} {ty : HTy} {x : Lam}, sizeOf s < k → WF Γ s → WF Γ t → HasTy ct Γ s.toL ty →
    HasTy ct Γ t.toL ty → s.betaRed = false → t.betaRed = false → etaExp ct s = false → etaExp ct t = false → EtaStar s.toL x → EtaStar t.toL x →
    s.toL = t.toL := by
  induction k with
  | zero => intro s t Γ ty x hk; omega
  | succ k ih =>
    intro s t Γ ty x hk ws wt hs ht bs bt es et xs xt
    cases ty with
    | arr a b =>
      obtain ⟨u, rfl⟩ := long_arrow ws hs es
      obtain ⟨v, rfl⟩ := long_arrow wt ht et
      cases ws with
      | lam ws =>
        cases wt with
        | lam wt =>
          simp only [toL] at hs ht xs xt ⊢
          cases hs with
          | lam hs =>
            cases ht with
            | lam ht =>
              simp only [betaRed] at bs bt
              simp only [etaExp] at es et
              obtain ⟨y, y1, y2⟩ := lam_reducts (normal_of_flag u ws bs) (normal_of_flag v wt bt) xs xt
              rw [ih u v (by simp only [HTerm.lam.sizeOf_spec] at hk; omega) ws wt hs ht bs bt es et y1 y2]
    | base n =>
      obtain ⟨h1, as, a1, a2, a3⟩ := long_spine ws bs hs es
      obtain ⟨h2, cs, c1, c2, c3⟩ := long_spine wt bt ht et
      rw [a2] at xs hs ⊢
      rw [c2] at xt ht ⊢
      obtain ⟨ps, rfl, hps⟩ := etaStar_apps_inv a1 xs
      obtain ⟨qs, he, hqs⟩ := etaStar_apps_inv c1 xt
      obtain ⟨rfl, rfl⟩ := apps_inj a1 c1 ps he
      obtain ⟨t1, u1, u2⟩ := apps_typed_inv _ hs
      obtain ⟨t2, v1, v2⟩ := apps_typed_inv _ ht
      have hlen : t1.length = t2.length := by rw [← u2.length_eq, ← v2.length_eq, hps.length_eq, hqs.length_eq]
      have := arrows_inj hlen (u1.unique v1)
      subst this
      congr 1
      have a4 : ∀ a ∈ as, sizeOf a < k := fun a ha => by have := (a3 a ha).1; omega
      clear hs ht xs xt u1 v1 hk a2 c2 he hlen es et bs bt ws wt
      induction as generalizing cs ps t1 with
      | nil => cases hps; cases cs with | nil => rfl | cons => cases hqs
      | cons a as ih2 =>
        cases hps with
        | cons p1 p2 =>
          cases cs with
          | nil => cases hqs
          | cons c cs =>
            cases hqs with
            | cons q1 q2 =>
              cases u2 with
              | cons u1 u2 =>
                cases v2 with
                | cons v1 v2 =>
                  obtain ⟨_, w1, b1, e1⟩ := a3 a (.head _)
                  obtain ⟨_, w2, b2, e2⟩ := c3 c (.head _)
                  simp only [List.map_cons]
                  rw [ih a c (a4 a (.head _)) w1 w2 u1 v1 b1 b2 e1 e2 p1 q1]
                  congr 1
                  exact ih2 (fun d hd => a3 d (.tail _ hd)) cs (fun d hd => c3 d (.tail _ hd)) _ p2 q2 _ u2 v2 (fun d hd => a4 d (.tail _ hd))

end HOProof
end Verif
