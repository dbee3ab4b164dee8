import Verif.HO.LamEval
import Verif.HO.EtaNormal

/-!
# Conversion to de Bruijn variables keeps the meaning
-/

namespace Verif
namespace HOProof
open HTerm

variable {D : Type}

theorem eval_apps (M : HInterp D) (ρ : Nat × HTy → D) (e : Nat → D) (as : List Lam) : ∀ m : Lam,
    (m.apps as).eval M ρ e = (as.map (Lam.eval M ρ e)).foldl M.ap (m.eval M ρ e) := by
  induction as with
  | nil => intro m; rfl
  | cons a as ih =>
    intro m
    show ((Lam.app m a).apps as).eval M ρ e = _
    rw [ih]
    rfl

theorem evalL_map (M : HInterp D) (ρ : Nat × HTy → D) (as : List NTerm) : NTerm.evalL M ρ as = as.map (NTerm.eval M ρ) := by
  induction as with
  | nil => rfl
  | cons a as ih => simp [NTerm.evalL, ih]

/-! ## `NamedToDB` -/

theorem set_set (e : NTerm.Env) (v : Nat × HTy) (b : Option Nat) : (e.set v b).set v (e v) = e := by
  funext w
  simp only [NTerm.Env.set]
  split
  · rename_i h; rw [h]
  · rfl

theorem convL_of {e : NTerm.Env} {d : Nat} : ∀ {as : List NTerm}, (∀ a ∈ as, (NTerm.conv e d a).2 = e) →
    NTerm.convL e d as = (as.map fun a => (NTerm.conv e d a).1, e) := by
  intro as
  induction as with
  | nil => intro _; rfl
  | cons a as ih =>
    intro h
    have h1 := h a (.head _)
    have h2 := ih fun b hb => h b (.tail _ hb)
    simp only [NTerm.convL, List.map_cons]
    rw [h1, h2]

/-- All bindings are restored. -/
theorem conv_restores (t : NTerm) : ∀ (e : NTerm.Env) (d : Nat), (NTerm.conv e d t).2 = e := by
  induction t using NTerm.ind with
  | hv x ty => intro e d; simp only [NTerm.conv]; split <;> rfl
  | hl x ty b ih => intro e d; simp only [NTerm.conv]; rw [ih]; exact set_set e _ _
  | ha f as ih => intro e d; simp only [NTerm.conv]; rw [convL_of fun a ha => ih a ha e d]
  | hp h as ih1 ih2 => intro e d; simp only [NTerm.conv]; rw [ih1, convL_of fun a ha => ih2 a ha e d]

/-- The assignment of a named term under bindings to levels. -/
def lookup (ρ : Nat × HTy → D) (b : NTerm.Env) (d : Nat) (e : Nat → D) : Nat × HTy → D := fun v =>
  match b v with
  | some l => e (d - l - 1)
  | none => ρ v

theorem conv_eval (M : HInterp D) (ρ : Nat × HTy → D) (t : NTerm) : ∀ (b : NTerm.Env) (d : Nat) (e : Nat → D), (∀ v l, b v = some l → l < d) →
    (NTerm.conv b d t).1.toL.eval M ρ e = t.eval M (lookup ρ b d e) := by
  have hL : ∀ (as : List NTerm) (b : NTerm.Env) (d : Nat) (e : Nat → D),
      (∀ a ∈ as, (NTerm.conv b d a).1.toL.eval M ρ e = a.eval M (lookup ρ b d e)) →
      ((as.map fun a => (NTerm.conv b d a).1).map toL).map (Lam.eval M ρ e) = NTerm.evalL M (lookup ρ b d e) as := by
    intro as b d e h
    rw [evalL_map, List.map_map, List.map_map]
    exact List.map_congr_left fun a ha => h a ha
  induction t using NTerm.ind with
  | hv x ty =>
    intro b d e hb
    simp only [NTerm.conv, NTerm.eval, lookup]
    cases hbx : b (x, ty) <;> simp [toL, Lam.eval]
  | hl x ty t ih =>
    intro b d e hb
    simp only [NTerm.conv, toL, Lam.eval, NTerm.eval]
    congr 1
    funext a
    rw [ih]
    · congr 1
      funext w
      simp only [lookup, NTerm.Env.set, vset]
      by_cases hw : w = (x, ty)
      · simp [hw, dcons]
      · simp only [if_neg hw]
        cases hbw : b w with
        | none => rfl
        | some l =>
          have := hb w l hbw
          simp only
          rw [show d + 1 - l - 1 = (d - l - 1) + 1 by omega]
          rfl
    · intro v l hv
      simp only [NTerm.Env.set] at hv
      split at hv
      · simp at hv; omega
      · have := hb v l hv; omega
  | ha f as ih =>
    intro b d e hb
    simp only [NTerm.conv]
    rw [convL_of fun a _ => conv_restores a b d]
    simp only [toL, toLL_map, eval_apps, NTerm.eval]
    rw [hL as b d e fun a ha => ih a ha b d e hb]
    rfl
  | hp h as ih1 ih2 =>
    intro b d e hb
    simp only [NTerm.conv]
    rw [conv_restores h b d, convL_of fun a _ => conv_restores a b d]
    simp only [toL, toLL_map, eval_apps, NTerm.eval]
    rw [hL as b d e fun a ha => ih2 a ha b d e hb, ih1 b d e hb]

theorem plainL_map (as : List NTerm) : NTerm.plainL as = as.map NTerm.plain := by
  induction as with
  | nil => rfl
  | cons a as ih => simp [NTerm.plainL, ih]

theorem nHasLamL_any (as : List NTerm) : NTerm.hasLamL as = as.any NTerm.hasLam := by
  induction as with
  | nil => rfl
  | cons a as ih => simp [NTerm.hasLamL, ih]

theorem conv_plain (t : NTerm) : t.hasLam = false → (NTerm.conv (fun _ => none) 0 t).1 = t.plain := by
  induction t using NTerm.ind with
  | hv x ty => intro _; rfl
  | hl x ty b _ => intro h; simp [NTerm.hasLam] at h
  | ha f as ih =>
    intro h
    simp only [NTerm.hasLam, nHasLamL_any, List.any_eq_false] at h
    simp only [NTerm.conv, NTerm.plain, plainL_map]
    rw [convL_of fun a _ => conv_restores a _ _]
    simp only [HTerm.app.injEq, true_and]
    exact List.map_congr_left fun a ha => ih a ha (by simpa using h a ha)
  | hp g as ih1 ih2 =>
    intro h
    simp only [NTerm.hasLam, nHasLamL_any, Bool.or_eq_false_iff, List.any_eq_false] at h
    simp only [NTerm.conv, NTerm.plain, plainL_map]
    rw [conv_restores, convL_of fun a _ => conv_restores a _ _]
    simp only [HTerm.papp.injEq]
    exact ⟨ih1 h.1, List.map_congr_left fun a ha => ih2 a ha (by simpa using h.2 a ha)⟩

/-! ## Terms with the same value everywhere -/

/-- The interpretation by terms: a value gives a nameless term for every number of enclosing binders. -/
def termInterp : HInterp (Nat → Lam) where
  cn f := fun _ => .cn f
  ap m n := fun k => .app (m k) (n k)
  fn ty F := fun k => .lam ty (F (fun k' => .bv (k' - k - 1)) (k + 1))

theorem termInterp_eval (m : Lam) : ∀ (k : Nat) (e : Nat → Nat → Lam), (∀ i k', k ≤ k' → e i k' = .bv (i + (k' - k))) →
    m.eval termInterp (fun v _ => .fv v.1 v.2) e k = m := by
  induction m with
  | fv x ty => intro k e _; rfl
  | bv i => intro k e h; show e i k = _; rw [h i k (Nat.le_refl k), Nat.sub_self, Nat.add_zero]
  | cn f => intro k e _; rfl
  | lam ty m ih =>
    intro k e h
    show Lam.lam ty (m.eval termInterp _ (dcons _ e) (k + 1)) = _
    rw [ih]
    intro i k' hk
    cases i with
    | zero => show Lam.bv _ = _; congr 1; omega
    | succ i => show e i k' = _; rw [h i k' (by omega)]; congr 1; omega
  | app m n ih1 ih2 =>
    intro k e h
    show Lam.app _ _ = _
    rw [ih1 k e h, ih2 k e h]

theorem lookup_none (ρ : Nat × HTy → D) (d : Nat) (e : Nat → D) : lookup ρ (fun _ => none) d e = ρ := rfl

theorem conv_value (M : HInterp D) (ρ : Nat × HTy → D) (e : Nat → D) (t : NTerm) :
    (NTerm.conv (fun _ => none) 0 t).1.toL.eval M ρ e = t.eval M ρ := by
  rw [conv_eval M ρ t _ 0 e (by intro v l h; cases h), lookup_none]

theorem conv_eq_of_values {t u : NTerm} (h : ∀ (ρ : Nat × HTy → Nat → Lam), t.eval termInterp ρ = u.eval termInterp ρ) :
    (NTerm.conv (fun _ => none) 0 t).1.toL = (NTerm.conv (fun _ => none) 0 u).1.toL := by
  have h1 := conv_value termInterp (fun v _ => .fv v.1 v.2) (fun i k' => .bv (i + (k' - 0))) t
  have h2 := conv_value termInterp (fun v _ => .fv v.1 v.2) (fun i k' => .bv (i + (k' - 0))) u
  rw [h, ← h2] at h1
  have h3 := congrFun h1 0
  rwa [termInterp_eval _ 0 _ (fun i k' _ => rfl), termInterp_eval _ 0 _ (fun i k' _ => rfl)] at h3

/-- The types of the binders around, by level. -/
theorem conv_wf (t : NTerm) : ∀ (b : NTerm.Env) (d : Nat) (Γ : Nat → Option HTy), NTerm.WF t →
    (∀ v l, b v = some l → l < d ∧ Γ (d - l - 1) = some v.2) → HTerm.WF Γ (NTerm.conv b d t).1 := by
  induction t using NTerm.ind with
  | hv x ty =>
    intro b d Γ _ hb
    simp only [NTerm.conv]
    cases hx : b (x, ty) with
    | none => exact .fvar _ _
    | some l => exact .db (hb _ _ hx).2
  | hl x ty t ih =>
    intro b d Γ hw hb
    cases hw with
    | lam hw =>
    simp only [NTerm.conv]
    refine .lam (ih _ _ _ hw fun v l hv => ?_)
    simp only [NTerm.Env.set] at hv
    split at hv
    · rename_i hvv
      simp only [Option.some.injEq] at hv
      subst hv
      refine ⟨by omega, ?_⟩
      rw [show d + 1 - d - 1 = 0 by omega, hvv]
    · obtain ⟨h1, h2⟩ := hb v l hv
      refine ⟨by omega, ?_⟩
      rw [show d + 1 - l - 1 = (d - l - 1) + 1 by omega]
      exact h2
  | ha f as ih =>
    intro b d Γ hw hb
    cases hw with
    | app hw =>
    simp only [NTerm.conv]
    rw [convL_of fun a _ => conv_restores a b d]
    refine .app fun r hr => ?_
    obtain ⟨a, ha, rfl⟩ := List.mem_map.1 hr
    exact ih a ha b d Γ (hw a ha) hb
  | hp h as ih1 ih2 =>
    intro b d Γ hw hb
    cases hw with
    | papp hh hn hw1 hw2 =>
    simp only [NTerm.conv]
    rw [conv_restores h b d, convL_of fun a _ => conv_restores a b d]
    refine .papp ?_ (by simpa using hn) (ih1 b d Γ hw1 hb) fun r hr => ?_
    · cases h with
      | var x ty =>
        simp only [NTerm.conv]
        cases b (x, ty) <;> simp [HTerm.isAnyVar]
      | lam x ty b => simp [NTerm.conv, HTerm.isLam]
      | app => simp [NTerm.headOk] at hh
      | papp => simp [NTerm.headOk] at hh
    · obtain ⟨a, ha, rfl⟩ := List.mem_map.1 hr
      exact ih2 a ha b d Γ (hw2 a ha) hb

theorem hasTy_apps {ct : Nat → HTy} {Γ : Nat → Option HTy} {t : HTy} : ∀ (tys : List HTy) (as : List Lam) (m : Lam), as.length = tys.length →
    Lam.HasTy ct Γ m (HTy.arrs tys t) → (∀ p ∈ as.zip tys, Lam.HasTy ct Γ p.1 p.2) → Lam.HasTy ct Γ (m.apps as) t := by
  intro tys
  induction tys with
  | nil =>
    intro as m hl hm _
    have : as = [] := by simpa using hl
    subst this
    exact hm
  | cons ty tys ih =>
    intro as m hl hm ha
    cases as with
    | nil => simp at hl
    | cons a as =>
      simp only [List.zip_cons_cons, List.forall_mem_cons] at ha
      exact ih as (.app m a) (by simpa using hl) (.app hm ha.1) ha.2

theorem conv_typed {ct : Nat → HTy} (t : NTerm) : ∀ (b : NTerm.Env) (d : Nat) (Γ : Nat → Option HTy) (ty : HTy), NTerm.HasTy ct t ty →
    (∀ v l, b v = some l → l < d ∧ Γ (d - l - 1) = some v.2) → Lam.HasTy ct Γ (NTerm.conv b d t).1.toL ty := by
  have hL : ∀ (as : List NTerm) (tys : List HTy) (b : NTerm.Env) (d : Nat) (Γ : Nat → Option HTy),
      (∀ a ∈ as, ∀ (b : NTerm.Env) (d : Nat) (Γ : Nat → Option HTy) (ty : HTy), NTerm.HasTy ct a ty →
        (∀ v l, b v = some l → l < d ∧ Γ (d - l - 1) = some v.2) → Lam.HasTy ct Γ (NTerm.conv b d a).1.toL ty) →
      (∀ p ∈ as.zip tys, NTerm.HasTy ct p.1 p.2) → (∀ v l, b v = some l → l < d ∧ Γ (d - l - 1) = some v.2) →
      ∀ p ∈ ((as.map fun a => (NTerm.conv b d a).1).map toL).zip tys, Lam.HasTy ct Γ p.1 p.2 := by
    intro as
    induction as with
    | nil => intro tys b d Γ _ _ _ p hp; simp at hp
    | cons a as ih =>
      intro tys b d Γ h1 h2 hb
      cases tys with
      | nil => intro p hp; simp at hp
      | cons ty tys =>
        simp only [List.zip_cons_cons, List.map_cons, List.forall_mem_cons] at h1 h2 ⊢
        exact ⟨h1.1 b d Γ ty h2.1 hb, ih tys b d Γ h1.2 h2.2 hb⟩
  induction t using NTerm.ind with
  | hv x ty =>
    intro b d Γ ty' ht hb
    cases ht
    simp only [NTerm.conv]
    cases hx : b (x, ty) with
    | none => exact .fv
    | some l => exact .bv (hb _ _ hx).2
  | hl x ty t ih =>
    intro b d Γ ty' ht hb
    cases ht with
    | lam ht =>
    simp only [NTerm.conv, toL]
    refine .lam (ih _ _ _ _ ht fun v l hv => ?_)
    simp only [NTerm.Env.set] at hv
    split at hv
    · rename_i hvv
      simp only [Option.some.injEq] at hv
      subst hv
      refine ⟨by omega, ?_⟩
      rw [show d + 1 - d - 1 = 0 by omega, hvv]
    · obtain ⟨h1, h2⟩ := hb v l hv
      refine ⟨by omega, ?_⟩
      rw [show d + 1 - l - 1 = (d - l - 1) + 1 by omega]
      exact h2
  | ha f as ih =>
    intro b d Γ ty' ht hb
    cases ht with
    | @app _ _ tys _ hf hl ha =>
    simp only [NTerm.conv]
    rw [convL_of fun a _ => conv_restores a b d]
    simp only [toL, toLL_map]
    exact hasTy_apps tys _ _ (by simpa using hl) (by rw [← hf]; exact .cn) (hL as tys b d Γ ih ha hb)
  | hp h as ih1 ih2 =>
    intro b d Γ ty' ht hb
    cases ht with
    | @papp _ _ tys _ hh hl ha =>
    simp only [NTerm.conv]
    rw [conv_restores h b d, convL_of fun a _ => conv_restores a b d]
    simp only [toL, toLL_map]
    exact hasTy_apps tys _ _ (by simpa using hl) (ih1 b d Γ _ hh hb) (hL as tys b d Γ ih2 ha hb)

/-! ## `AbstractVars` -/

theorem noFreeL_all (as : List HTerm) : noFreeL as = as.all noFree := by
  induction as with
  | nil => rfl
  | cons a as ih => simp [noFreeL, ih]

theorem replaceFvarsL_map (b : NTerm.Env) (d : Nat) (as : List HTerm) : replaceFvarsL b d as = as.map (replaceFvars b d) := by
  induction as with
  | nil => rfl
  | cons a as ih => simp [replaceFvarsL, ih]

theorem replaceFvars_noFree (b : NTerm.Env) (t : HTerm) : ∀ d, noFree t = true → replaceFvars b d t = t := by
  cases t with
  | fvar => intro d h; simp [noFree] at h
  | db => intro d _; rfl
  | lam ty t => intro d h; simp only [noFree] at h; simp [replaceFvars, h]
  | app f as => intro d h; simp only [noFree] at h; simp [replaceFvars, h]
  | papp g as => intro d h; simp [replaceFvars, h]

theorem replaceFvars_lam (b : NTerm.Env) (d : Nat) (ty : HTy) (t : HTerm) : replaceFvars b d (lam ty t) = lam ty (replaceFvars b (d + 1) t) := by
  simp only [replaceFvars]
  split
  · rename_i h; rw [replaceFvars_noFree b t (d + 1) h]
  · rfl

theorem replaceFvars_app (b : NTerm.Env) (d f : Nat) (as : List HTerm) : replaceFvars b d (app f as) = app f (as.map (replaceFvars b d)) := by
  simp only [replaceFvars, replaceFvarsL_map]
  split
  · rename_i h
    rw [noFreeL_all, List.all_eq_true] at h
    rw [map_eq_self fun a ha => replaceFvars_noFree b a d (h a ha)]
  · rfl

theorem replaceFvars_papp (b : NTerm.Env) (d : Nat) (g : HTerm) (as : List HTerm) :
    replaceFvars b d (papp g as) = papp (replaceFvars b d g) (as.map (replaceFvars b d)) := by
  simp only [replaceFvars, replaceFvarsL_map]
  split
  · rename_i h
    simp only [noFree, noFreeL_all, Bool.and_eq_true, List.all_eq_true] at h
    rw [map_eq_self fun a ha => replaceFvars_noFree b a d (h.2 a ha), replaceFvars_noFree b g d h.1]
  · rfl

/-- The assignment under bindings to indices. -/
def upd (ρ : Nat × HTy → D) (b : NTerm.Env) (d : Nat) (e : Nat → D) : Nat × HTy → D := fun v =>
  match b v with
  | some i => e (i + d)
  | none => ρ v

theorem replaceFvars_eval (M : HInterp D) (ρ : Nat × HTy → D) (b : NTerm.Env) (t : HTerm) : ∀ (d : Nat) (e e' : Nat → D),
    (∀ i, Lam.Loose i t.toL → i < d) → (∀ i, i < d → e i = e' i) →
    (replaceFvars b d t).toL.eval M ρ e = t.toL.eval M (upd ρ b d e) e' := by
  induction t using HTerm.ind with
  | hf x ty =>
    intro d e e' _ _
    simp only [replaceFvars, toL, Lam.eval, upd]
    cases hb : b (x, ty) with
    | none => simp [toL, Lam.eval]
    | some i =>
      simp only
      split
      · rename_i h; subst h; simp [toL, Lam.eval]
      · simp [toL, Lam.eval]
  | hd i ty => intro d e e' h1 h2; exact h2 i (h1 i rfl)
  | hl ty t ih =>
    intro d e e' h1 h2
    rw [replaceFvars_lam]
    simp only [toL, Lam.eval]
    congr 1
    funext a
    rw [ih (d + 1) (dcons a e) (dcons a e')]
    · congr 1
    · intro i hi
      cases i with
      | zero => omega
      | succ i => have := h1 i hi; omega
    · intro i hi
      cases i with
      | zero => rfl
      | succ i => exact h2 i (by omega)
  | ha f as ih =>
    intro d e e' h1 h2
    rw [replaceFvars_app]
    simp only [toL, toLL_map, eval_apps, Lam.loose_apps, List.map_map] at h1 ⊢
    congr 1
    exact List.map_congr_left fun a ha => ih a ha d e e' (fun i hi => h1 i (.inr ⟨_, List.mem_map_of_mem ha, hi⟩)) h2
  | hp g as ih1 ih2 =>
    intro d e e' h1 h2
    rw [replaceFvars_papp]
    simp only [toL, toLL_map, eval_apps, Lam.loose_apps, List.map_map] at h1 ⊢
    rw [ih1 d e e' (fun i hi => h1 i (.inl hi)) h2]
    congr 1
    exact List.map_congr_left fun a ha => ih2 a ha d e e' (fun i hi => h1 i (.inr ⟨_, List.mem_map_of_mem ha, hi⟩)) h2

/-- Several functions on top of each other, with the environment. -/
def fnsE (M : HInterp D) : List (Nat × HTy) → (Nat → D) → ((Nat → D) → D) → D
  | [], e, k => k e
  | v :: vs, e, k => M.fn v.2 fun a => fnsE M vs (dcons a e) k

theorem eval_close (M : HInterp D) (ρ : Nat × HTy → D) (m : Lam) (vs : List (Nat × HTy)) : ∀ e,
    (Lam.close (vs.map (·.2)) m).eval M ρ e = fnsE M vs e fun e' => m.eval M ρ e' := by
  induction vs with
  | nil => intro e; rfl
  | cons v vs ih => intro e; simp only [List.map_cons, Lam.close, Lam.eval, fnsE, ih]

theorem fnsE_congr (M : HInterp D) (vs : List (Nat × HTy)) : ∀ (e : Nat → D) {k k' : (Nat → D) → D},
    (∀ e', (∀ i, e' (i + vs.length) = e i) → k e' = k' e') → fnsE M vs e k = fnsE M vs e k' := by
  induction vs with
  | nil => intro e k k' h; exact h e fun i => rfl
  | cons v vs ih =>
    intro e k k' h
    simp only [fnsE]
    congr 1
    funext a
    refine ih (dcons a e) fun e' he => h e' fun i => ?_
    rw [List.length_cons, show i + (vs.length + 1) = (i + 1) + vs.length by omega, he]
    rfl

theorem bindAll_none {v : Nat × HTy} {vs : List (Nat × HTy)} (h : v ∉ vs) : bindAll vs v = none := by
  induction vs with
  | nil => rfl
  | cons w vs ih =>
    simp only [bindAll, NTerm.Env.set]
    rw [if_neg (by rintro rfl; exact h (.head _))]
    exact ih fun hc => h (.tail _ hc)

theorem fnsE_fns (M : HInterp D) (F : (Nat × HTy → D) → D) (vs : List (Nat × HTy)) : vs.Nodup → ∀ (ρ : Nat × HTy → D) (e : Nat → D),
    (fnsE M vs e fun e' => F (upd ρ (bindAll vs) 0 e')) = M.fns F ρ vs := by
  induction vs with
  | nil => intro _ ρ e; rfl
  | cons v vs ih =>
    intro hn ρ e
    rw [List.nodup_cons] at hn
    simp only [fnsE, HInterp.fns]
    congr 1
    funext a
    rw [← ih hn.2 (vset ρ v a) (dcons a e)]
    refine fnsE_congr M vs _ fun e' he => ?_
    congr 1
    funext w
    simp only [upd, bindAll, NTerm.Env.set]
    by_cases hw : w = v
    · subst hw
      rw [if_pos rfl, bindAll_none hn.1]
      simp only [vset, if_true, Nat.add_zero]
      have := he 0
      rw [Nat.zero_add] at this
      rw [this]
      rfl
    · rw [if_neg hw]
      simp only [vset, if_neg hw]

theorem abstractVars_eval (M : HInterp D) (ρ : Nat × HTy → D) (e : Nat → D) (m : HTerm) (vs : List (Nat × HTy)) (hn : vs.Nodup)
    (hc : ∀ i, ¬ Lam.Loose i m.toL) : (abstractVars m vs).toL.eval M ρ e = M.fns (fun ρ' => m.toL.eval M ρ' e) ρ vs := by
  unfold abstractVars
  rw [toL_closeTys, eval_close]
  rw [← fnsE_fns M (fun ρ' => m.toL.eval M ρ' e) vs hn ρ e]
  exact fnsE_congr M vs e fun e' _ => replaceFvars_eval M ρ (bindAll vs) m 0 e' e (fun i hi => absurd hi (hc i)) (fun i hi => by omega)

theorem wf_loose {t : HTerm} : ∀ {Γ : Nat → Option HTy} {i : Nat}, WF Γ t → Lam.Loose i t.toL → Γ i ≠ none := by
  induction t using HTerm.ind with
  | hf x ty => intro Γ i _ hl; exact hl.elim
  | hd j ty =>
    intro Γ i hw hl
    cases hw with
    | db h => have : i = j := hl; subst this; rw [h]; simp
  | hl ty t ih =>
    intro Γ i hw hl
    cases hw with
    | lam hw => exact ih (i := i + 1) hw hl
  | ha f as ih =>
    intro Γ i hw hl
    cases hw with
    | app hw =>
    simp only [toL, toLL_map, Lam.loose_apps] at hl
    rcases hl with hl | ⟨m, hm, hl⟩
    · exact hl.elim
    · obtain ⟨a, ha, rfl⟩ := List.mem_map.1 hm
      exact ih a ha (hw a ha) hl
  | hp g as ih1 ih2 =>
    intro Γ i hw hl
    cases hw with
    | papp _ _ hw1 hw2 =>
    simp only [toL, toLL_map, Lam.loose_apps] at hl
    rcases hl with hl | ⟨m, hm, hl⟩
    · exact ih1 hw1 hl
    · obtain ⟨a, ha, rfl⟩ := List.mem_map.1 hm
      exact ih2 a ha (hw2 a ha) hl

theorem replaceFvars_wf (b : NTerm.Env) (t : HTerm) : ∀ (d : Nat) (Γ Δ : Nat → Option HTy), WF Γ t →
    (∀ i ty, Γ i = some ty → Δ i = some ty) → (∀ v i, b v = some i → Δ (i + d) = some v.2) → WF Δ (replaceFvars b d t) := by
  induction t using HTerm.ind with
  | hf x ty =>
    intro d Γ Δ _ _ hb
    simp only [replaceFvars]
    cases hx : b (x, ty) with
    | none => exact .fvar _ _
    | some i =>
      have := hb _ _ hx
      simp only
      split
      · rename_i h; subst h; exact .db this
      · exact .db this
  | hd i ty =>
    intro d Γ Δ hw hG _
    cases hw with
    | db h => exact .db (hG _ _ h)
  | hl ty t ih =>
    intro d Γ Δ hw hG hb
    cases hw with
    | lam hw =>
    rw [replaceFvars_lam]
    refine .lam (ih (d + 1) _ _ hw (fun i t hi => ?_) fun v i hv => hb v i hv)
    cases i with
    | zero => exact hi
    | succ i => exact hG i t hi
  | ha f as ih =>
    intro d Γ Δ hw hG hb
    cases hw with
    | app hw =>
    rw [replaceFvars_app]
    refine .app fun r hr => ?_
    obtain ⟨a, ha, rfl⟩ := List.mem_map.1 hr
    exact ih a ha d Γ Δ (hw a ha) hG hb
  | hp g as ih1 ih2 =>
    intro d Γ Δ hw hG hb
    cases hw with
    | papp hh hn hw1 hw2 =>
    rw [replaceFvars_papp]
    refine .papp ?_ (by simpa using hn) (ih1 d Γ Δ hw1 hG hb) fun r hr => ?_
    · cases g with
      | fvar x ty =>
        simp only [replaceFvars]
        cases b (x, ty) with
        | none => simp [isAnyVar]
        | some i => simp only; split <;> simp [isAnyVar]
      | db i ty => exact hh
      | lam ty t => rw [replaceFvars_lam]; simp [isLam]
      | app => simp [isAnyVar, isLam] at hh
      | papp => simp [isAnyVar, isLam] at hh
    · obtain ⟨a, ha, rfl⟩ := List.mem_map.1 hr
      exact ih2 a ha d Γ Δ (hw2 a ha) hG hb

theorem replaceFvars_typed {ct : Nat → HTy} (b : NTerm.Env) (t : HTerm) : ∀ (d : Nat) (Γ Δ : Nat → Option HTy) (ty : HTy), Lam.HasTy ct Γ t.toL ty →
    (∀ i ty, Γ i = some ty → Δ i = some ty) → (∀ v i, b v = some i → Δ (i + d) = some v.2) → Lam.HasTy ct Δ (replaceFvars b d t).toL ty := by
  have hL : ∀ (as : List HTerm) (d : Nat) (Γ Δ : Nat → Option HTy),
      (∀ a ∈ as, ∀ (d : Nat) (Γ Δ : Nat → Option HTy) (ty : HTy), Lam.HasTy ct Γ a.toL ty →
        (∀ i ty, Γ i = some ty → Δ i = some ty) → (∀ v i, b v = some i → Δ (i + d) = some v.2) → Lam.HasTy ct Δ (replaceFvars b d a).toL ty) →
      (∀ i ty, Γ i = some ty → Δ i = some ty) → (∀ v i, b v = some i → Δ (i + d) = some v.2) →
      ∀ (m m' : Lam), (∀ ty, Lam.HasTy ct Γ m ty → Lam.HasTy ct Δ m' ty) → ∀ ty, Lam.HasTy ct Γ (m.apps (as.map toL)) ty →
        Lam.HasTy ct Δ (m'.apps ((as.map (replaceFvars b d)).map toL)) ty := by
    intro as
    induction as with
    | nil => intro d Γ Δ _ _ _ m m' hm ty h; exact hm ty h
    | cons a as ih =>
      intro d Γ Δ h1 hG hb m m' hm ty h
      simp only [List.forall_mem_cons] at h1
      refine ih d Γ Δ h1.2 hG hb (.app m a.toL) (.app m' (replaceFvars b d a).toL) (fun t ht => ?_) ty h
      cases ht with
      | app g1 g2 => exact .app (hm _ g1) (h1.1 d Γ Δ _ g2 hG hb)
  induction t using HTerm.ind with
  | hf x ty =>
    intro d Γ Δ ty' ht _ hb
    cases ht
    simp only [replaceFvars]
    cases hx : b (x, ty) with
    | none => exact .fv
    | some i =>
      have := hb _ _ hx
      simp only
      split
      · rename_i h; subst h; exact .bv this
      · exact .bv this
  | hd i ty =>
    intro d Γ Δ ty' ht hG _
    cases ht with
    | bv h => exact .bv (hG _ _ h)
  | hl ty t ih =>
    intro d Γ Δ ty' ht hG hb
    cases ht with
    | lam ht =>
    rw [replaceFvars_lam]
    refine .lam (ih (d + 1) _ _ _ ht (fun i t hi => ?_) fun v i hv => hb v i hv)
    cases i with
    | zero => exact hi
    | succ i => exact hG i t hi
  | ha f as ih =>
    intro d Γ Δ ty' ht hG hb
    rw [replaceFvars_app]
    simp only [toL, toLL_map] at ht ⊢
    refine hL as d Γ Δ ih hG hb (.cn f) (.cn f) (fun t h => ?_) ty' ht
    cases h
    exact .cn
  | hp g as ih1 ih2 =>
    intro d Γ Δ ty' ht hG hb
    rw [replaceFvars_papp]
    simp only [toL, toLL_map] at ht ⊢
    exact hL as d Γ Δ ih2 hG hb _ _ (fun t h => ih1 d Γ Δ t h hG hb) ty' ht

theorem bindAll_ty (vs : List (Nat × HTy)) : ∀ {v : Nat × HTy} {i : Nat} {Γ : Nat → Option HTy}, bindAll vs v = some i →
    extL (vs.map (·.2)) Γ i = some v.2 := by
  induction vs with
  | nil => intro v i Γ h; simp [bindAll] at h
  | cons w vs ih =>
    intro v i Γ h
    simp only [bindAll, NTerm.Env.set] at h
    split at h
    · rename_i hv
      simp only [Option.some.injEq] at h
      subst h
      subst hv
      have := extL_add (vs.map (·.2)) (Lam.ext v.2 Γ) 0
      simp only [List.length_map, Nat.zero_add] at this
      simp only [List.map_cons, extL, this]
      rfl
    · exact ih h

theorem abstractVars_wf {m : HTerm} (vs : List (Nat × HTy)) (hw : WF (fun _ => none) m) : WF (fun _ => none) (abstractVars m vs) := by
  unfold abstractVars
  rw [wf_closeTys]
  exact replaceFvars_wf _ m 0 _ _ hw (fun i ty h => by cases h) fun v i h => bindAll_ty vs h

theorem close_typed {ct : Nat → HTy} {m : Lam} {ty : HTy} : ∀ {tys : List HTy} {Γ : Nat → Option HTy}, Lam.HasTy ct (extL tys Γ) m ty →
    Lam.HasTy ct Γ (Lam.close tys m) (HTy.arrs tys ty) := by
  intro tys
  induction tys with
  | nil => intro Γ h; exact h
  | cons t tys ih => intro Γ h; exact .lam (ih (Γ := Lam.ext t Γ) h)

theorem abstractVars_typed {ct : Nat → HTy} {m : HTerm} {ty : HTy} (vs : List (Nat × HTy)) (ht : Lam.HasTy ct (fun _ => none) m.toL ty) :
    Lam.HasTy ct (fun _ => none) (abstractVars m vs).toL (HTy.arrs (vs.map (·.2)) ty) := by
  unfold abstractVars
  rw [toL_closeTys]
  exact close_typed (replaceFvars_typed _ m 0 _ _ _ ht (fun i ty h => by cases h) fun v i h => bindAll_ty vs h)

end HOProof
end Verif
