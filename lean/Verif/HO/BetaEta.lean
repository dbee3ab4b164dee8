import Verif.HO.SN
import Verif.HO.EtaNormal

/-!
# Typed terms have unique beta-eta normal forms
-/

namespace Verif
namespace Lam

theorem upr_inj {ρ : Nat → Nat} (h : Function.Injective ρ) : Function.Injective (upr ρ) := by
  intro i j hij
  cases i <;> cases j <;> simp [upr] at hij ⊢
  exact h hij

theorem ren_inj (m : Lam) : ∀ {n : Lam} {ρ : Nat → Nat}, Function.Injective ρ → m.ren ρ = n.ren ρ → m = n := by
  induction m with
  | fv x ty => intro n ρ _ h; cases n <;> simp [ren] at h ⊢; exact h
  | cn f => intro n ρ _ h; cases n <;> simp [ren] at h ⊢; exact h
  | bv i => intro n ρ hi h; cases n <;> simp [ren] at h ⊢; exact hi h
  | lam ty m ih => intro n ρ hi h; cases n <;> simp [ren] at h ⊢; exact ⟨h.1, ih (upr_inj hi) h.2⟩
  | app m k ih1 ih2 => intro n ρ hi h; cases n <;> simp [ren] at h ⊢; exact ⟨ih1 hi h.1, ih2 hi h.2⟩

theorem succ_ren_inj {m n : Lam} (h : m.ren Nat.succ = n.ren Nat.succ) : m = n := ren_inj m Nat.succ_injective h

theorem Loose.ren (m : Lam) : ∀ {i : Nat} (ρ : Nat → Nat), Loose i m → Loose (ρ i) (m.ren ρ) := by
  induction m with
  | fv => intro i ρ h; exact h
  | cn => intro i ρ h; exact h
  | bv j => intro i ρ h; exact congrArg ρ h
  | lam ty m ih => intro i ρ h; exact ih (upr ρ) h
  | app m n ih1 ih2 => intro i ρ h; exact h.imp (ih1 ρ) (ih2 ρ)

/-- A term in which an index does not occur can be strengthened. -/
theorem strengthen (m : Lam) : ∀ d, ¬ Loose d m → ∃ n : Lam, m = n.ren (HOProof.shr 1 d) := by
  induction m with
  | fv x ty => intro d _; exact ⟨.fv x ty, rfl⟩
  | cn f => intro d _; exact ⟨.cn f, rfl⟩
  | bv i =>
    intro d h
    have h : d ≠ i := h
    by_cases hc : d ≤ i
    · refine ⟨.bv (i - 1), ?_⟩
      simp only [ren, HOProof.shr, bv.injEq]
      rw [if_pos (by omega)]
      omega
    · exact ⟨.bv i, by simp [ren, HOProof.shr, hc]⟩
  | lam ty m ih =>
    intro d h
    obtain ⟨n, hn⟩ := ih (d + 1) h
    exact ⟨.lam ty n, by rw [ren, HOProof.upr_shr, ← hn]⟩
  | app m n ih1 ih2 =>
    intro d h
    obtain ⟨m', hm⟩ := ih1 d fun hh => h (.inl hh)
    obtain ⟨n', hn⟩ := ih2 d fun hh => h (.inr hh)
    exact ⟨.app m' n', by rw [ren, ← hm, ← hn]⟩

theorem shr_one : HOProof.shr 1 0 = Nat.succ := by funext i; simp [HOProof.shr]

theorem Beta.of_ren {m y : Lam} {ρ : Nat → Nat} (h : Beta (m.ren ρ) y) : ∃ m', Beta m m' ∧ y = m'.ren ρ := by
  induction m generalizing y ρ with
  | fv => cases h
  | cn => cases h
  | bv => cases h
  | lam ty m ih =>
    cases h with
    | lam h => obtain ⟨m', h1, h2⟩ := ih h; exact ⟨_, .lam h1, by rw [h2]; rfl⟩
  | app m n ih1 ih2 =>
    simp only [Lam.ren] at h
    generalize hk : m.ren ρ = k at h
    cases h with
    | beta ty b _ =>
      cases m <;> simp [Lam.ren] at hk
      obtain ⟨rfl, rfl⟩ := hk
      exact ⟨_, .beta _ _ _, by rw [inst_ren]⟩
    | appL h => subst hk; obtain ⟨m', h1, h2⟩ := ih1 h; exact ⟨_, .appL h1, by rw [h2]; rfl⟩
    | appR h => obtain ⟨m', h1, h2⟩ := ih2 h; exact ⟨_, .appR h1, by rw [h2, ← hk]; rfl⟩

theorem Eta.of_ren {m y : Lam} {ρ : Nat → Nat} (h : Eta (m.ren ρ) y) : ∃ m', Eta m m' ∧ y = m'.ren ρ := by
  induction m generalizing y ρ with
  | fv => cases h
  | cn => cases h
  | bv => cases h
  | lam ty m ih =>
    simp only [Lam.ren] at h
    generalize hk : m.ren (upr ρ) = k at h
    cases h with
    | lam h => subst hk; obtain ⟨m', h1, h2⟩ := ih h; exact ⟨_, .lam h1, by rw [h2]; rfl⟩
    | eta =>
      cases m with
      | app a b =>
        simp only [Lam.ren, app.injEq] at hk
        have hb : b = .bv 0 := by
          cases b with
          | bv i => cases i <;> simp [Lam.ren, upr] at hk ⊢
          | _ => simp [Lam.ren] at hk
        subst hb
        have hl : ¬ Loose 0 a := by
          intro hc
          have := hc.ren a (upr ρ)
          rw [hk.1] at this
          obtain ⟨j, hj⟩ := loose_ren _ this
          simp [upr] at hj
        obtain ⟨a', ha⟩ := strengthen a 0 hl
        rw [shr_one] at ha
        subst ha
        refine ⟨a', .eta _ _, ?_⟩
        apply succ_ren_inj
        rw [← hk.1, ren_ren, ren_ren]
        rfl
      | _ => simp [Lam.ren] at hk
  | app m n ih1 ih2 =>
    simp only [Lam.ren] at h
    generalize hk : m.ren ρ = k at h
    cases h with
    | appL h => subst hk; obtain ⟨m', h1, h2⟩ := ih1 h; exact ⟨_, .appL h1, by rw [h2]; rfl⟩
    | appR h => obtain ⟨m', h1, h2⟩ := ih2 h; exact ⟨_, .appR h1, by rw [h2, ← hk]; rfl⟩

theorem up_ren_succ (m : Lam) (σ : Nat → Lam) : (m.ren Nat.succ).subst (up σ) = (m.subst σ).ren Nat.succ := by
  rw [subst_ren, ren_subst]; rfl

theorem Eta.subst {m n : Lam} (h : Eta m n) : ∀ σ : Nat → Lam, Eta (m.subst σ) (n.subst σ) := by
  induction h with
  | eta ty m => intro σ; simp only [Lam.subst, up_ren_succ]; exact .eta _ _
  | lam _ ih => intro σ; exact .lam (ih _)
  | appL _ ih => intro σ; exact .appL (ih _)
  | appR _ ih => intro σ; exact .appR (ih _)

theorem etaStar_ren {m n : Lam} (h : EtaStar m n) (ρ : Nat → Nat) : EtaStar (m.ren ρ) (n.ren ρ) := h.lift _ fun _ _ h => h.ren ρ

theorem etaStar_subst_right (m : Lam) : ∀ {σ τ : Nat → Lam}, (∀ i, EtaStar (σ i) (τ i)) → EtaStar (m.subst σ) (m.subst τ) := by
  induction m with
  | fv => intro σ τ _; exact .refl
  | cn => intro σ τ _; exact .refl
  | bv i => intro σ τ h; exact h i
  | lam ty m ih =>
    intro σ τ h
    refine etaStar_lam (ih ?_)
    intro i
    cases i with
    | zero => exact .refl
    | succ i => exact etaStar_ren (h i) _
  | app m n ih1 ih2 => intro σ τ h; exact etaStar_app (ih1 h) (ih2 h)

theorem etaStar_inst (m : Lam) {a b : Lam} (h : Eta a b) : EtaStar (m.inst a) (m.inst b) := by
  apply etaStar_subst_right
  intro i
  cases i with
  | zero => exact .single h
  | succ i => exact .refl

/-! ## Typing -/

theorem HasTy.of_ren {ct : Nat → HTy} (m : Lam) : ∀ {Γ Δ : Nat → Option HTy} {ρ : Nat → Nat} {ty : HTy}, HasTy ct Δ (m.ren ρ) ty →
    (∀ i, Δ (ρ i) = Γ i) → HasTy ct Γ m ty := by
  induction m with
  | fv => intro Γ Δ ρ ty h _; cases h; exact .fv
  | cn => intro Γ Δ ρ ty h _; cases h; exact .cn
  | bv i => intro Γ Δ ρ ty h hr; cases h with | bv h => exact .bv (by rw [← hr]; exact h)
  | lam t m ih =>
    intro Γ Δ ρ ty h hr
    cases h with
    | lam h =>
      refine .lam (ih h ?_)
      intro i
      cases i with
      | zero => rfl
      | succ i => exact hr i
  | app m n ih1 ih2 => intro Γ Δ ρ ty h hr; cases h with | app h1 h2 => exact .app (ih1 h1 hr) (ih2 h2 hr)

theorem HasTy.eta {ct : Nat → HTy} {m n : Lam} (he : Eta m n) : ∀ {Γ : Nat → Option HTy} {ty : HTy}, HasTy ct Γ m ty → HasTy ct Γ n ty := by
  induction he with
  | eta ty m =>
    intro Γ t h
    cases h with
    | lam h =>
      cases h with
      | app h1 h2 =>
        cases h2 with
        | bv h2 =>
          simp only [Option.some.injEq] at h2
          subst h2
          exact HasTy.of_ren m h1 fun i => rfl
  | lam _ ih => intro Γ t h; cases h with | lam h => exact .lam (ih h)
  | appL _ ih => intro Γ t h; cases h with | app h1 h2 => exact .app (ih h1) h2
  | appR _ ih => intro Γ t h; cases h with | app h1 h2 => exact .app h1 (ih h2)

theorem HasTy.etaStar {ct : Nat → HTy} {Γ : Nat → Option HTy} {m n : Lam} {ty : HTy} (h : HasTy ct Γ m ty) (hs : EtaStar m n) : HasTy ct Γ n ty := by
  induction hs with
  | refl => exact h
  | tail _ hb ih => exact HasTy.eta hb ih

/-! ## Eta is confluent and commutes with beta -/

theorem eta_diamond {m a : Lam} (h1 : Eta m a) : ∀ {b : Lam}, Eta m b → ∃ c, Relation.ReflGen Eta a c ∧ EtaStar b c := by
  induction h1 with
  | eta ty m =>
    intro b h2
    generalize hk : app (m.ren Nat.succ) (.bv 0) = k at h2
    cases h2 with
    | eta =>
      simp only [app.injEq, and_true] at hk
      rw [succ_ren_inj hk]
      exact ⟨_, .refl, .refl⟩
    | lam h =>
      subst hk
      cases h with
      | appL h =>
        obtain ⟨m', h1, rfl⟩ := h.of_ren
        exact ⟨m', .single h1, .single (.eta _ _)⟩
      | appR h => cases h
  | @lam ty m m' h ih =>
    intro b h2
    cases h2 with
    | lam h2 =>
      obtain ⟨c, hc1, hc2⟩ := ih h2
      refine ⟨.lam ty c, ?_, etaStar_lam hc2⟩
      cases hc1 with
      | refl => exact .refl
      | single h => exact .single (.lam h)
    | eta =>
      cases h with
      | appL h =>
        obtain ⟨m', h1, rfl⟩ := h.of_ren
        exact ⟨m', .single (.eta _ _), .single h1⟩
      | appR h => cases h
  | @appL m m' n h ih =>
    intro b h2
    cases h2 with
    | appL h2 =>
      obtain ⟨c, hc1, hc2⟩ := ih h2
      refine ⟨.app c n, ?_, etaStar_app hc2 .refl⟩
      cases hc1 with
      | refl => exact .refl
      | single h => exact .single (.appL h)
    | appR h2 => exact ⟨_, .single (.appR h2), .single (.appL h)⟩
  | @appR m n n' h ih =>
    intro b h2
    cases h2 with
    | appL h2 => exact ⟨_, .single (.appL h2), .single (.appR h)⟩
    | appR h2 =>
      obtain ⟨c, hc1, hc2⟩ := ih h2
      refine ⟨.app m c, ?_, etaStar_app .refl hc2⟩
      cases hc1 with
      | refl => exact .refl
      | single h => exact .single (.appR h)

theorem eta_confluent {m a b : Lam} (h1 : EtaStar m a) (h2 : EtaStar m b) : ∃ c, EtaStar a c ∧ EtaStar b c :=
  Relation.church_rosser (fun _ _ _ h1 h2 => eta_diamond h1 h2) h1 h2

theorem ENormal.star {m n : Lam} (h : ENormal m) (hs : EtaStar m n) : n = m := by
  induction hs with
  | refl => rfl
  | tail _ hb ih => subst ih; exact absurd hb (h _)

/-- Typed terms: a beta step and an eta step can be joined. -/
theorem beta_eta {ct : Nat → HTy} {m a : Lam} (h1 : Eta m a) : ∀ {Γ : Nat → Option HTy} {ty : HTy} {b : Lam}, HasTy ct Γ m ty → Beta m b →
    ∃ c, Relation.ReflGen Beta a c ∧ EtaStar b c := by
  induction h1 with
  | eta ty m =>
    intro Γ t b ht h2
    cases h2 with
    | lam h =>
      generalize hk : m.ren Nat.succ = k at h
      cases h with
      | beta ty' b' _ =>
        cases m with
        | lam ty'' b =>
          simp only [ren, lam.injEq] at hk
          obtain ⟨rfl, rfl⟩ := hk
          have e : (b.ren (upr Nat.succ)).inst (bv 0) = b := by
            unfold inst
            rw [subst_ren]
            conv => rhs; rw [← subst_bv b]
            congr 1
            funext i
            cases i <;> rfl
          rw [e]
          have : ty = ty'' := by
            cases ht with
            | lam h =>
              cases h with
              | app h1 h2 =>
                cases h2 with
                | bv h2 =>
                  cases h1
                  simpa using h2
          rw [this]
          exact ⟨_, .refl, .refl⟩
        | _ => simp [ren] at hk
      | appL h =>
        subst hk
        obtain ⟨m', h1, rfl⟩ := h.of_ren
        exact ⟨m', .single h1, .single (.eta _ _)⟩
      | appR h => cases h
  | @lam ty m m' h ih =>
    intro Γ t b ht h2
    cases h2 with
    | lam h2 =>
      cases ht with
      | lam ht =>
        obtain ⟨c, hc1, hc2⟩ := ih ht h2
        refine ⟨.lam ty c, ?_, etaStar_lam hc2⟩
        cases hc1 with
        | refl => exact .refl
        | single h => exact .single (.lam h)
  | @appL m m' n h ih =>
    intro Γ t b ht h2
    cases ht with
    | app ht1 ht2 =>
      cases h2 with
      | beta ty b _ =>
        cases h with
        | lam h => exact ⟨_, .single (.beta _ _ _), .single (h.subst _)⟩
        | eta ty q =>
          refine ⟨_, .refl, ?_⟩
          have : (app (m'.ren Nat.succ) (bv 0)).inst n = app m' n := by
            show app ((m'.ren Nat.succ).inst n) n = app m' n
            rw [inst_ren_succ]
          rw [this]
      | appL h2 =>
        obtain ⟨c, hc1, hc2⟩ := ih ht1 h2
        refine ⟨.app c n, ?_, etaStar_app hc2 .refl⟩
        cases hc1 with
        | refl => exact .refl
        | single h => exact .single (.appL h)
      | appR h2 => exact ⟨_, .single (.appR h2), .single (.appL h)⟩
  | @appR m n n' h ih =>
    intro Γ t b ht h2
    cases ht with
    | app ht1 ht2 =>
      cases h2 with
      | beta ty b _ => exact ⟨_, .single (.beta _ _ _), etaStar_inst _ h⟩
      | appL h2 => exact ⟨_, .single (.appL h2), .single (.appR h)⟩
      | appR h2 =>
        obtain ⟨c, hc1, hc2⟩ := ih ht2 h2
        refine ⟨.app m c, ?_, etaStar_app .refl hc2⟩
        cases hc1 with
        | refl => exact .refl
        | single h => exact .single (.appR h)

theorem betaStep_etaStar {ct : Nat → HTy} {Γ : Nat → Option HTy} {ty : HTy} {m a : Lam} (h1 : EtaStar m a) : ∀ {b : Lam}, HasTy ct Γ m ty → Beta m b →
    ∃ c, Relation.ReflGen Beta a c ∧ EtaStar b c := by
  induction h1 using Relation.ReflTransGen.head_induction_on with
  | refl => intro b _ h; exact ⟨b, .single h, .refl⟩
  | @head m m1 he hs ih =>
    intro b ht hb
    obtain ⟨c, hc1, hc2⟩ := beta_eta he ht hb
    cases hc1 with
    | refl => exact ⟨_, .refl, hc2.trans hs⟩
    | single hc1 =>
      obtain ⟨d, hd1, hd2⟩ := ih (HasTy.eta he ht) hc1
      exact ⟨d, hd1, hc2.trans hd2⟩

theorem beta_eta_commute {ct : Nat → HTy} {Γ : Nat → Option HTy} {ty : HTy} {m a b : Lam} (ht : HasTy ct Γ m ty) (h1 : EtaStar m a)
    (h2 : BetaStar m b) : ∃ c, BetaStar a c ∧ EtaStar b c := by
  induction h2 with
  | refl => exact ⟨a, .refl, h1⟩
  | tail hs hb ih =>
    obtain ⟨c, hc1, hc2⟩ := ih
    obtain ⟨d, hd1, hd2⟩ := betaStep_etaStar hc2 (ht.star hs) hb
    refine ⟨d, ?_, hd2⟩
    cases hd1 with
    | refl => exact hc1
    | single h => exact hc1.tail h

theorem normal_eta {m n : Lam} (he : Eta m n) : Normal m → Normal n := by
  induction he with
  | eta ty m => intro hn k hk; exact hn _ (.lam (.appL (hk.ren _)))
  | lam _ ih =>
    intro hn k hk
    cases hk with
    | lam hk => exact ih (fun j hj => hn _ (.lam hj)) _ hk
  | @appL m m' n h ih =>
    intro hn k hk
    cases hk with
    | beta ty b _ =>
      cases h with
      | eta ty q => exact hn _ (.beta _ _ _)
      | lam h => exact hn _ (.beta _ _ _)
    | appL hk => exact ih (fun j hj => hn _ (.appL hj)) _ hk
    | appR hk => exact hn _ (.appR hk)
  | @appR m n n' h ih =>
    intro hn k hk
    cases hk with
    | beta ty b _ => exact hn _ (.beta _ _ _)
    | appL hk => exact hn _ (.appL hk)
    | appR hk => exact ih (fun j hj => hn _ (.appR hj)) _ hk

theorem normal_etaStar {m n : Lam} (hs : EtaStar m n) (h : Normal m) : Normal n := by
  induction hs with
  | refl => exact h
  | tail _ he ih => exact normal_eta he ih

/-! ## Existence and uniqueness -/

def lsize : Lam → Nat
  | lam _ m => lsize m + 1
  | app m n => lsize m + lsize n + 1
  | _ => 1

theorem lsize_ren (m : Lam) : ∀ ρ : Nat → Nat, (m.ren ρ).lsize = m.lsize := by
  induction m with
  | lam ty m ih => intro ρ; simp only [ren, lsize, ih]
  | app m n ih1 ih2 => intro ρ; simp only [ren, lsize, ih1, ih2]
  | _ => intro ρ; rfl

theorem lsize_eta {m n : Lam} (h : Eta m n) : n.lsize < m.lsize := by
  induction h with
  | eta ty m => simp only [lsize, lsize_ren]; omega
  | lam _ ih => simp only [lsize]; omega
  | appL _ ih => simp only [lsize]; omega
  | appR _ ih => simp only [lsize]; omega

theorem exists_enormal (m : Lam) : ∃ n, EtaStar m n ∧ ENormal n := by
  induction hk : m.lsize using Nat.strong_induction_on generalizing m with
  | _ k ih =>
    by_cases h : ENormal m
    · exact ⟨m, .refl, h⟩
    · unfold ENormal at h
      push Not at h
      obtain ⟨n, hn⟩ := h
      subst hk
      obtain ⟨p, h1, h2⟩ := ih _ (lsize_eta hn) n rfl
      exact ⟨p, .head hn h1, h2⟩

theorem SN.exists_normal {m : Lam} (h : SN m) : ∃ n, BetaStar m n ∧ Normal n := by
  induction h with
  | @intro m _ ih =>
    by_cases h : Normal m
    · exact ⟨m, .refl, h⟩
    · unfold Normal at h
      push Not at h
      obtain ⟨n, hn⟩ := h
      obtain ⟨p, h1, h2⟩ := ih n hn
      exact ⟨p, .head hn h1, h2⟩

/-- Equality modulo beta and eta, by steps between terms of the type. -/
def BetaEtaEq (ct : Nat → HTy) (Γ : Nat → Option HTy) (ty : HTy) : Lam → Lam → Prop :=
  Relation.EqvGen fun m n => (Beta m n ∨ Eta m n) ∧ HasTy ct Γ m ty

/-- The normal form: beta normal form, then eta normal form. -/
def BetaEtaNF (m x : Lam) : Prop := ∃ a, BetaStar m a ∧ Normal a ∧ EtaStar a x ∧ ENormal x

theorem nf_unique {m x y : Lam} (h1 : BetaEtaNF m x) (h2 : BetaEtaNF m y) : x = y := by
  obtain ⟨a, a1, a2, a3, a4⟩ := h1
  obtain ⟨b, b1, b2, b3, b4⟩ := h2
  have := normal_unique (.refl m) a1 b1 a2 b2
  subst this
  obtain ⟨c, c1, c2⟩ := eta_confluent a3 b3
  rw [← a4.star c1, ← b4.star c2]

theorem nf_step {ct : Nat → HTy} {Γ : Nat → Option HTy} {ty : HTy} {m n x : Lam} (hs : Beta m n ∨ Eta m n) (ht : HasTy ct Γ m ty)
    (h : BetaEtaNF m x) : BetaEtaNF n x := by
  obtain ⟨a, a1, a2, a3, a4⟩ := h
  rcases hs with hs | hs
  · obtain ⟨c, c1, c2⟩ := confluent (.single hs) a1
    rw [a2.star c2] at c1
    exact ⟨a, c1, a2, a3, a4⟩
  · obtain ⟨c, c1, c2⟩ := beta_eta_commute ht (.single hs) a1
    obtain ⟨d, d1, d2⟩ := eta_confluent a3 c2
    rw [a4.star d1] at d2
    exact ⟨c, c1, normal_etaStar c2 a2, d2, a4⟩

theorem nf_exists {ct : Nat → HTy} {Γ : Nat → Option HTy} {ty : HTy} {m : Lam} (ht : HasTy ct Γ m ty) : ∃ x, BetaEtaNF m x := by
  obtain ⟨a, a1, a2⟩ := ht.sn.exists_normal
  obtain ⟨x, x1, x2⟩ := exists_enormal a
  exact ⟨x, a, a1, a2, x1, x2⟩

theorem nf_invariant {ct : Nat → HTy} {Γ : Nat → Option HTy} {ty : HTy} {m n : Lam} (h : BetaEtaEq ct Γ ty m n) : ∀ x, BetaEtaNF m x ↔ BetaEtaNF n x := by
  induction h with
  | rel m n h =>
    intro x
    refine ⟨nf_step h.1 h.2, ?_⟩
    intro hx
    obtain ⟨y, hy⟩ := nf_exists h.2
    rw [nf_unique hx (nf_step h.1 h.2 hy)]
    exact hy
  | refl => intro x; exact .rfl
  | symm _ _ _ ih => intro x; exact (ih x).symm
  | trans _ _ _ _ _ ih1 ih2 => intro x; exact (ih1 x).trans (ih2 x)

theorem nf_betaEtaEq {ct : Nat → HTy} {Γ : Nat → Option HTy} {ty : HTy} {m x : Lam} (ht : HasTy ct Γ m ty) (h : BetaEtaNF m x) :
    BetaEtaEq ct Γ ty m x := by
  obtain ⟨a, a1, a2, a3, a4⟩ := h
  have b1 : BetaEtaEq ct Γ ty m a := by
    clear a2 a3
    induction a1 with
    | refl => exact .refl _
    | tail hs hb ih => exact .trans _ _ _ ih (.rel _ _ ⟨.inl hb, ht.star hs⟩)
  have ha := ht.star a1
  have b2 : BetaEtaEq ct Γ ty a x := by
    clear a4
    induction a3 with
    | refl => exact .refl _
    | tail hs hb ih => exact .trans _ _ _ ih (.rel _ _ ⟨.inr hb, ha.etaStar hs⟩)
  exact .trans _ _ _ b1 b2

end Lam
end Verif
