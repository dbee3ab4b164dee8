import Mathlib.Logic.Relation

/-!
# Simply typed lambda calculus (specification for C63-C65)

The textbook calculus with de Bruijn indices and binary application, against which the functions of TERMS/cte_lambda.c are measured.
Nothing here is taken from the code.
-/

namespace Verif

/-- Simple types. -/
inductive HTy
  | base (n : Nat)
  | arr (a b : HTy)
deriving DecidableEq, Repr

/-- Terms: typed free variables, bound variables (indices), constants, abstraction, application. -/
inductive Lam
  | fv (x : Nat) (ty : HTy)
  | bv (i : Nat)
  | cn (f : Nat)
  | lam (ty : HTy) (m : Lam)
  | app (m n : Lam)
deriving DecidableEq, Repr

namespace Lam

/-- Renaming below a binder. -/
def upr (ρ : Nat → Nat) : Nat → Nat
  | 0 => 0
  | i + 1 => ρ i + 1

/-- Renaming of bound variables. -/
def ren : (Nat → Nat) → Lam → Lam
  | _, fv x ty => fv x ty
  | ρ, bv i => bv (ρ i)
  | _, cn f => cn f
  | ρ, lam ty m => lam ty (ren (upr ρ) m)
  | ρ, app m n => app (ren ρ m) (ren ρ n)

/-- Substitution below a binder. -/
def up (σ : Nat → Lam) : Nat → Lam
  | 0 => bv 0
  | i + 1 => (σ i).ren Nat.succ

/-- Simultaneous substitution for bound variables. -/
def subst : (Nat → Lam) → Lam → Lam
  | _, fv x ty => fv x ty
  | σ, bv i => σ i
  | _, cn f => cn f
  | σ, lam ty m => lam ty (subst (up σ) m)
  | σ, app m n => app (subst σ m) (subst σ n)

/-- `a` for index 0, `σ` for the others. -/
def scons (a : Lam) (σ : Nat → Lam) : Nat → Lam
  | 0 => a
  | i + 1 => σ i

/-- The body `m` of an abstraction with its variable replaced by `a`. -/
def inst (m a : Lam) : Lam := m.subst (scons a bv)

/-- One beta step anywhere in the term. -/
inductive Beta : Lam → Lam → Prop
  | beta (ty : HTy) (m a : Lam) : Beta (app (lam ty m) a) (m.inst a)
  | lam {ty : HTy} {m m' : Lam} : Beta m m' → Beta (lam ty m) (lam ty m')
  | appL {m m' n : Lam} : Beta m m' → Beta (app m n) (app m' n)
  | appR {m n n' : Lam} : Beta n n' → Beta (app m n) (app m n')

/-- One eta step anywhere in the term: the bound variable does not occur in `m`, which was shifted below the binder. -/
inductive Eta : Lam → Lam → Prop
  | eta (ty : HTy) (m : Lam) : Eta (lam ty (app (m.ren Nat.succ) (bv 0))) m
  | lam {ty : HTy} {m m' : Lam} : Eta m m' → Eta (lam ty m) (lam ty m')
  | appL {m m' n : Lam} : Eta m m' → Eta (app m n) (app m' n)
  | appR {m n n' : Lam} : Eta n n' → Eta (app m n) (app m n')

/-- No beta redex. -/
def Normal (m : Lam) : Prop := ∀ n, ¬ Beta m n

/-- Typing: `ct` gives the types of constants, `Γ` the types of the bound variables. -/
inductive HasTy (ct : Nat → HTy) : (Nat → Option HTy) → Lam → HTy → Prop
  | fv {Γ : Nat → Option HTy} {x : Nat} {ty : HTy} : HasTy ct Γ (fv x ty) ty
  | bv {Γ : Nat → Option HTy} {i : Nat} {ty : HTy} : Γ i = some ty → HasTy ct Γ (bv i) ty
  | cn {Γ : Nat → Option HTy} {f : Nat} : HasTy ct Γ (cn f) (ct f)
  | lam {Γ : Nat → Option HTy} {a b : HTy} {m : Lam} :
      HasTy ct (fun i => match i with | 0 => some a | i + 1 => Γ i) m b → HasTy ct Γ (lam a m) (.arr a b)
  | app {Γ : Nat → Option HTy} {a b : HTy} {m n : Lam} : HasTy ct Γ m (.arr a b) → HasTy ct Γ n a → HasTy ct Γ (app m n) b

/-! ## Substitution lemmas -/

theorem upr_comp (ρ τ : Nat → Nat) : (fun i => upr τ (upr ρ i)) = upr fun i => τ (ρ i) := by
  funext i; cases i <;> rfl

theorem ren_ren (m : Lam) : ∀ ρ τ : Nat → Nat, (m.ren ρ).ren τ = m.ren fun i => τ (ρ i) := by
  induction m with
  | lam ty m ih => intro ρ τ; simp only [ren, ih, upr_comp]
  | app m n ih1 ih2 => intro ρ τ; simp only [ren, ih1, ih2]
  | _ => intros; rfl

theorem subst_ren (m : Lam) : ∀ (ρ : Nat → Nat) (σ : Nat → Lam), (m.ren ρ).subst σ = m.subst fun i => σ (ρ i) := by
  induction m with
  | lam ty m ih =>
    intro ρ σ
    simp only [ren, subst, ih]
    congr 2
    funext i; cases i <;> rfl
  | app m n ih1 ih2 => intro ρ σ; simp only [ren, subst, ih1, ih2]
  | _ => intros; rfl

theorem ren_subst (m : Lam) : ∀ (σ : Nat → Lam) (ρ : Nat → Nat), (m.subst σ).ren ρ = m.subst fun i => (σ i).ren ρ := by
  induction m with
  | lam ty m ih =>
    intro σ ρ
    simp only [ren, subst, ih]
    congr 2
    funext i; cases i with
    | zero => rfl
    | succ i => simp only [up, ren_ren]; rfl
  | app m n ih1 ih2 => intro σ ρ; simp only [ren, subst, ih1, ih2]
  | _ => intros; rfl

theorem up_comp (σ τ : Nat → Lam) : (fun i => (up σ i).subst (up τ)) = up fun i => (σ i).subst τ := by
  funext i
  cases i with
  | zero => rfl
  | succ i => simp only [up, subst_ren, ren_subst]

theorem subst_subst (m : Lam) : ∀ σ τ : Nat → Lam, (m.subst σ).subst τ = m.subst fun i => (σ i).subst τ := by
  induction m with
  | lam ty m ih => intro σ τ; simp only [subst, ih, up_comp]
  | app m n ih1 ih2 => intro σ τ; simp only [subst, ih1, ih2]
  | _ => intros; rfl

theorem up_bv : up bv = bv := by funext i; cases i <;> rfl

theorem subst_bv (m : Lam) : m.subst bv = m := by
  induction m with
  | lam ty m ih => simp only [subst, up_bv, ih]
  | app m n ih1 ih2 => simp only [subst, ih1, ih2]
  | _ => rfl

theorem ren_as_subst (m : Lam) (ρ : Nat → Nat) : m.ren ρ = m.subst fun i => bv (ρ i) := by
  have h := subst_ren m ρ bv
  rwa [subst_bv] at h

theorem inst_ren_succ (m a : Lam) : (m.ren Nat.succ).inst a = m := by
  rw [inst, subst_ren]
  exact subst_bv m

theorem inst_subst (m a : Lam) (σ : Nat → Lam) : (m.inst a).subst σ = (m.subst (up σ)).inst (a.subst σ) := by
  simp only [inst, subst_subst]
  congr 1
  funext i
  cases i with
  | zero => rfl
  | succ i =>
    show σ i = ((σ i).ren Nat.succ).subst _
    rw [subst_ren]
    exact (subst_bv _).symm

theorem inst_ren (m a : Lam) (ρ : Nat → Nat) : (m.inst a).ren ρ = (m.ren (upr ρ)).inst (a.ren ρ) := by
  rw [ren_as_subst, inst_subst, ren_as_subst a, ren_as_subst m]
  congr 2
  funext i
  cases i <;> rfl

/-- Two substitutions in a row, the first below the binder of the second. -/
theorem subst_up_inst (m a : Lam) (σ : Nat → Lam) : (m.subst (up σ)).inst a = m.subst (scons a σ) := by
  simp only [inst, subst_subst]
  congr 1
  funext i
  cases i with
  | zero => rfl
  | succ i =>
    show ((σ i).ren Nat.succ).subst _ = σ i
    rw [subst_ren]
    exact subst_bv _

/-! ## Reduction -/

theorem Beta.subst {m n : Lam} (h : Beta m n) : ∀ σ : Nat → Lam, Beta (m.subst σ) (n.subst σ) := by
  induction h with
  | beta ty m a => intro σ; rw [inst_subst]; exact .beta ty _ _
  | lam _ ih => intro σ; exact .lam (ih _)
  | appL _ ih => intro σ; exact .appL (ih _)
  | appR _ ih => intro σ; exact .appR (ih _)

theorem Beta.ren {m n : Lam} (h : Beta m n) (ρ : Nat → Nat) : Beta (m.ren ρ) (n.ren ρ) := by
  rw [ren_as_subst, ren_as_subst]; exact h.subst _

abbrev BetaStar := Relation.ReflTransGen Beta

theorem star_lam {ty : HTy} {m n : Lam} (h : BetaStar m n) : BetaStar (Lam.lam ty m) (Lam.lam ty n) :=
  h.lift (Lam.lam ty) fun _ _ => .lam

theorem star_app {m m' n n' : Lam} (h1 : BetaStar m m') (h2 : BetaStar n n') : BetaStar (app m n) (app m' n') :=
  (h1.lift (app · n) fun _ _ => .appL).trans (h2.lift (app m' ·) fun _ _ => .appR)

theorem star_subst {m n : Lam} (h : BetaStar m n) (σ : Nat → Lam) : BetaStar (m.subst σ) (n.subst σ) :=
  h.lift (Lam.subst σ) fun _ _ h => h.subst σ

theorem star_ren {m n : Lam} (h : BetaStar m n) (ρ : Nat → Nat) : BetaStar (m.ren ρ) (n.ren ρ) :=
  h.lift (Lam.ren ρ) fun _ _ h => h.ren ρ

theorem star_up {σ τ : Nat → Lam} (h : ∀ i, BetaStar (σ i) (τ i)) : ∀ i, BetaStar (up σ i) (up τ i)
  | 0 => .refl
  | i + 1 => star_ren (h i) _

/-- Reduction inside the substituted terms. -/
theorem star_subst_right (m : Lam) : ∀ {σ τ : Nat → Lam}, (∀ i, BetaStar (σ i) (τ i)) → BetaStar (m.subst σ) (m.subst τ) := by
  induction m with
  | fv x ty => intro σ τ _; exact .refl
  | cn f => intro σ τ _; exact .refl
  | bv i => intro σ τ h; exact h i
  | lam ty m ih => intro σ τ h; exact star_lam (ih (star_up h))
  | app m n ih1 ih2 => intro σ τ h; exact star_app (ih1 h) (ih2 h)

/-! ## Confluence (parallel reduction) -/

inductive Par : Lam → Lam → Prop
  | fv (x : Nat) (ty : HTy) : Par (fv x ty) (fv x ty)
  | bv (i : Nat) : Par (bv i) (bv i)
  | cn (f : Nat) : Par (cn f) (cn f)
  | lam {ty : HTy} {m m' : Lam} : Par m m' → Par (lam ty m) (lam ty m')
  | app {m m' n n' : Lam} : Par m m' → Par n n' → Par (app m n) (app m' n')
  | beta {ty : HTy} {m m' a a' : Lam} : Par m m' → Par a a' → Par (app (lam ty m) a) (m'.inst a')

theorem Par.refl (m : Lam) : Par m m := by
  induction m with
  | fv x ty => exact .fv x ty
  | bv i => exact .bv i
  | cn f => exact .cn f
  | lam ty m ih => exact .lam ih
  | app m n ih1 ih2 => exact .app ih1 ih2

theorem Beta.par {m n : Lam} (h : Beta m n) : Par m n := by
  induction h with
  | beta ty m a => exact .beta (.refl _) (.refl _)
  | lam _ ih => exact .lam ih
  | appL _ ih => exact .app ih (.refl _)
  | appR _ ih => exact .app (.refl _) ih

theorem Par.star {m n : Lam} (h : Par m n) : BetaStar m n := by
  induction h with
  | fv | bv | cn => exact .refl
  | lam _ ih => exact star_lam ih
  | app _ _ ih1 ih2 => exact star_app ih1 ih2
  | beta _ _ ih1 ih2 => exact (star_app (star_lam ih1) ih2).tail (.beta _ _ _)

theorem Par.ren {m n : Lam} (h : Par m n) : ∀ ρ : Nat → Nat, Par (m.ren ρ) (n.ren ρ) := by
  induction h with
  | fv | bv | cn => intro ρ; exact .refl _
  | lam _ ih => intro ρ; exact .lam (ih _)
  | app _ _ ih1 ih2 => intro ρ; exact .app (ih1 _) (ih2 _)
  | beta _ _ ih1 ih2 => intro ρ; rw [inst_ren]; exact .beta (ih1 _) (ih2 _)

theorem par_up {σ τ : Nat → Lam} (h : ∀ i, Par (σ i) (τ i)) : ∀ i, Par (up σ i) (up τ i)
  | 0 => .refl _
  | i + 1 => (h i).ren _

theorem Par.subst {m n : Lam} (h : Par m n) : ∀ {σ τ : Nat → Lam}, (∀ i, Par (σ i) (τ i)) → Par (m.subst σ) (n.subst τ) := by
  induction h with
  | fv | cn => intro σ τ _; exact .refl _
  | bv i => intro σ τ h; exact h i
  | lam _ ih => intro σ τ h; exact .lam (ih (par_up h))
  | app _ _ ih1 ih2 => intro σ τ h; exact .app (ih1 h) (ih2 h)
  | beta _ _ ih1 ih2 => intro σ τ h; rw [inst_subst]; exact .beta (ih1 (par_up h)) (ih2 h)

theorem Par.inst {m m' a a' : Lam} (h1 : Par m m') (h2 : Par a a') : Par (m.inst a) (m'.inst a') := by
  refine h1.subst fun i => ?_
  cases i with
  | zero => exact h2
  | succ i => exact .refl _

/-- Complete development. -/
def dev : Lam → Lam
  | app (lam _ m) a => (dev m).inst (dev a)
  | app m n => app (dev m) (dev n)
  | lam ty m => lam ty (dev m)
  | fv x ty => fv x ty
  | bv i => bv i
  | cn f => cn f

theorem Par.dev {m n : Lam} (h : Par m n) : Par n m.dev := by
  induction h with
  | fv | bv | cn => exact .refl _
  | lam _ ih => exact .lam ih
  | @app m m' n n' h1 h2 ih1 ih2 =>
    cases m with
    | lam ty b =>
      cases h1 with
      | lam h1' =>
        cases ih1 with
        | lam ih1' => exact .beta ih1' ih2
    | _ => exact .app ih1 ih2
  | beta _ _ ih1 ih2 => exact ih1.inst ih2

theorem par_diamond {m a b : Lam} (h1 : Par m a) (h2 : Par m b) : ∃ c, Par a c ∧ Par b c := ⟨m.dev, h1.dev, h2.dev⟩

theorem star_par {m n : Lam} : BetaStar m n ↔ Relation.ReflTransGen Par m n :=
  ⟨fun h => h.lift id fun _ _ h => Beta.par h, fun h => by
    induction h with
    | refl => exact .refl
    | tail _ h ih => exact ih.trans h.star⟩

/-- Beta reduction is confluent. -/
theorem confluent {m a b : Lam} (h1 : BetaStar m a) (h2 : BetaStar m b) : ∃ c, BetaStar a c ∧ BetaStar b c := by
  rw [star_par] at h1 h2
  obtain ⟨c, hc1, hc2⟩ := Relation.church_rosser (r := Par)
    (fun a b c h1 h2 => by
      obtain ⟨d, hd1, hd2⟩ := par_diamond h1 h2
      exact ⟨d, .single hd1, .single hd2⟩) h1 h2
  exact ⟨c, star_par.2 hc1, star_par.2 hc2⟩

theorem Normal.star {m n : Lam} (h : Normal m) (hs : BetaStar m n) : n = m := by
  rcases Relation.ReflTransGen.cases_head hs with h1 | ⟨k, hk, _⟩
  · exact h1.symm
  · exact absurd hk (h k)

/-- Beta equality. -/
abbrev BetaEq := Relation.EqvGen Beta

theorem BetaEq.join {m n : Lam} (h : BetaEq m n) : ∃ c, BetaStar m c ∧ BetaStar n c := by
  induction h with
  | rel _ _ h => exact ⟨_, .single h, .refl⟩
  | refl m => exact ⟨m, .refl, .refl⟩
  | symm _ _ _ ih => obtain ⟨c, h1, h2⟩ := ih; exact ⟨c, h2, h1⟩
  | trans _ _ _ _ _ ih1 ih2 =>
    obtain ⟨c, h1, h2⟩ := ih1
    obtain ⟨d, h3, h4⟩ := ih2
    obtain ⟨e, h5, h6⟩ := confluent h2 h3
    exact ⟨e, h1.trans h5, h4.trans h6⟩

theorem star_betaEq {m n : Lam} (h : BetaStar m n) : BetaEq m n := by
  induction h with
  | refl => exact .refl _
  | tail _ h ih => exact .trans _ _ _ ih (.rel _ _ h)

theorem normal_unique {m n a b : Lam} (h : BetaEq m n) (h1 : BetaStar m a) (h2 : BetaStar n b) (ha : Normal a) (hb : Normal b) : a = b := by
  obtain ⟨c, hc1, hc2⟩ :=
    BetaEq.join (.trans _ _ _ (.symm _ _ (star_betaEq h1)) (.trans _ _ _ h (star_betaEq h2)))
  rw [← ha.star hc1, ← hb.star hc2]

end Lam
end Verif
