import Verif.HO.LamSpec
import Verif.HO.SN
import Mathlib.Data.List.Forall2

/-!
# The functions on lambda terms against the calculus
-/

namespace Verif
open Lam

namespace HOProof
open HTerm

/-! ## Applications -/

theorem apps_append (m : Lam) (as bs : List Lam) : m.apps (as ++ bs) = (m.apps as).apps bs := List.foldl_append

theorem apps_cons (m a : Lam) (as : List Lam) : m.apps (a :: as) = (Lam.app m a).apps as := rfl

theorem apps_ren (ρ : Nat → Nat) (as : List Lam) : ∀ m : Lam, (m.apps as).ren ρ = (m.ren ρ).apps (as.map (Lam.ren ρ)) := by
  induction as with
  | nil => intro m; rfl
  | cons a as ih => intro m; simp only [apps_cons, List.map_cons, ih]; rfl

theorem apps_subst (σ : Nat → Lam) (as : List Lam) : ∀ m : Lam, (m.apps as).subst σ = (m.subst σ).apps (as.map (Lam.subst σ)) := by
  induction as with
  | nil => intro m; rfl
  | cons a as ih => intro m; simp only [apps_cons, List.map_cons, ih]; rfl

theorem toL_mkApp (h : HTerm) (as : List HTerm) : (mkApp h as).toL = h.toL.apps (as.map toL) := by
  cases h <;> simp [mkApp, toL, toLL_map, apps_append]

theorem toL_applyTerms (h : HTerm) (as : List HTerm) : (applyTerms h as).toL = h.toL.apps (as.map toL) := by
  unfold applyTerms
  split
  · rename_i he
    rw [List.isEmpty_iff] at he
    subst he; rfl
  · exact toL_mkApp h as

theorem star_apps {as bs : List Lam} (h : List.Forall₂ BetaStar as bs) : ∀ {m n : Lam}, BetaStar m n → BetaStar (m.apps as) (n.apps bs) := by
  induction h with
  | nil => intro m n h; exact h
  | cons h _ ih => intro m n hm; exact ih (star_app hm h)

/-! ## Shifting -/

/-- Renaming by `k` from depth `d` on. -/
def shr (k d : Nat) : Nat → Nat := fun i => if d ≤ i then i + k else i

theorem upr_shr (k d : Nat) : upr (shr k d) = shr k (d + 1) := by
  funext i
  cases i with
  | zero => simp [upr, shr]
  | succ i => simp only [upr, shr]; split <;> split <;> omega

theorem shr_zero (d : Nat) : shr 0 d = id := by funext i; simp [shr]

theorem ren_id (m : Lam) : m.ren id = m := by rw [ren_as_subst]; exact subst_bv m

theorem ren_fun_id (m : Lam) : (m.ren fun i => i) = m := ren_id m

theorem noDB_ren (t : HTerm) : ∀ ρ : Nat → Nat, t.hasDB = false → t.toL.ren ρ = t.toL := by
  induction t using HTerm.ind with
  | hf x ty => intro ρ _; rfl
  | hd i ty => intro ρ h; simp [hasDB] at h
  | hl ty b ih => intro ρ h; simp [hasDB] at h
  | ha f as ih =>
    intro ρ h
    have h' : ∀ a ∈ as, a.hasDB = false := by
      clear ih
      induction as with
      | nil => simp
      | cons a as ih2 =>
        simp only [hasDB, hasDBL, Bool.or_eq_false_iff] at h ih2
        intro b hb
        rcases List.mem_cons.1 hb with rfl | hb
        · exact h.1
        · exact ih2 h.2 b hb
    simp only [toL, toLL_map, apps_ren, List.map_map]
    congr 1
    exact List.map_congr_left fun a ha => ih a ha ρ (h' a ha)
  | hp h as ih1 ih2 =>
    intro ρ hh
    simp only [hasDB, Bool.or_eq_false_iff] at hh
    have h' : ∀ a ∈ as, a.hasDB = false := by
      have h2 := hh.2
      clear ih2 hh
      induction as with
      | nil => simp
      | cons a as ih2 =>
        simp only [hasDBL, Bool.or_eq_false_iff] at h2
        intro b hb
        rcases List.mem_cons.1 hb with rfl | hb
        · exact h2.1
        · exact ih2 h2.2 b hb
    simp only [toL, toLL_map, apps_ren, List.map_map]
    rw [ih1 ρ hh.1]
    congr 1
    exact List.map_congr_left fun a ha => ih2 a ha ρ (h' a ha)

theorem hasDBL_iff (as : List HTerm) : hasDBL as = false ↔ ∀ a ∈ as, a.hasDB = false := by
  induction as with
  | nil => simp [hasDBL]
  | cons a as ih => simp [hasDBL, ih]

theorem hasDBL_any (as : List HTerm) : hasDBL as = as.any hasDB := by
  induction as with
  | nil => rfl
  | cons a as ih => simp [hasDBL, ih]

theorem betaRedL_any (as : List HTerm) : betaRedL as = as.any betaRed := by
  induction as with
  | nil => rfl
  | cons a as ih => simp [betaRedL, ih]

theorem hasLamL_any (as : List HTerm) : hasLamL as = as.any hasLam := by
  induction as with
  | nil => rfl
  | cons a as ih => simp [hasLamL, ih]

theorem shiftL_map (s : Int) (d : Nat) (as : List HTerm) : shiftL s d as = as.map (shift s d) := by
  induction as with
  | nil => rfl
  | cons a as ih => simp [shiftL, ih]

theorem replaceBoundL_map (bs : List HTerm) (d : Nat) (as : List HTerm) : replaceBoundL bs d as = as.map (replaceBound bs d) := by
  induction as with
  | nil => rfl
  | cons a as ih => simp [replaceBoundL, ih]

/-- A term without de Bruijn variables is not changed by shifting: the shortcut (TERMS/cte_lambda.c:204-207) is harmless. -/
theorem shift_noDB (s : Int) (t : HTerm) : ∀ d, t.hasDB = false → t.shift s d = t := by
  intro d h
  cases t with
  | fvar => simp [shift]
  | db => simp [hasDB] at h
  | lam => simp [hasDB] at h
  | app f as => simp only [hasDB] at h; simp [shift, h]
  | papp g as => simp only [hasDB] at h; simp [shift, h]

theorem map_eq_self {α : Type} {f : α → α} {l : List α} (h : ∀ a ∈ l, f a = a) : l.map f = l := by
  conv => rhs; rw [← List.map_id l]
  exact List.map_congr_left h

theorem shift_app (s : Int) (d f : Nat) (as : List HTerm) : shift s d (app f as) = app f (as.map (shift s d)) := by
  simp only [shift, shiftL_map]
  split
  · rename_i h
    simp only [Bool.or_eq_true, List.isEmpty_iff, Bool.not_eq_true'] at h
    rcases h with rfl | h
    · rfl
    · congr 1
      rw [hasDBL_iff] at h
      exact (map_eq_self fun a ha => shift_noDB s a d (h a ha)).symm
  · rfl

theorem shift_papp (s : Int) (d : Nat) (h : HTerm) (as : List HTerm) : shift s d (papp h as) = papp (shift s d h) (as.map (shift s d)) := by
  simp only [shift, shiftL_map]
  split
  · rename_i hh
    simp only [Bool.not_eq_true', Bool.or_eq_false_iff, hasDBL_iff] at hh
    rw [shift_noDB s h d hh.1, map_eq_self fun a ha => shift_noDB s a d (hh.2 a ha)]
  · rfl

/-- Shifting is the renaming of the calculus. -/
theorem toL_shift (k : Nat) (t : HTerm) : ∀ d, (t.shift k d).toL = t.toL.ren (shr k d) := by
  induction t using HTerm.ind with
  | hf x ty => intro d; simp [shift, toL, Lam.ren]
  | hd i ty =>
    intro d
    simp only [shift, toL, Lam.ren, shr]
    split
    · simp only [toL]; rfl
    · rfl
  | hl ty b ih => intro d; simp only [shift, toL, Lam.ren, ih, upr_shr]
  | ha f as ih =>
    intro d
    rw [shift_app]
    simp only [toL, toLL_map, apps_ren, List.map_map, Lam.ren]
    congr 1
    exact List.map_congr_left fun a ha => ih a ha d
  | hp h as ih1 ih2 =>
    intro d
    rw [shift_papp]
    simp only [toL, toLL_map, apps_ren, List.map_map, ih1]
    congr 1
    exact List.map_congr_left fun a ha => ih2 a ha d

theorem toL_shiftDB (k : Nat) (t : HTerm) : (t.shiftDB k).toL = t.toL.ren (· + k) := by
  unfold shiftDB
  split
  · rename_i h
    have : k = 0 := by omega
    subst this
    exact (ren_fun_id _).symm
  · rw [toL_shift]
    have : shr k 0 = (· + k) := by funext i; simp [shr]
    rw [this]

/-! ## Substitution -/

/-- The substitution made by `replace_bound_vars` at depth `d`. -/
def bsub (bs : List Lam) (d : Nat) : Nat → Lam := fun i =>
  if i < d then .bv i else if i - d < bs.length then (bs.getD (i - d) (.bv 0)).ren (· + d) else .bv (i - bs.length)

theorem up_bsub (bs : List Lam) (d : Nat) : up (bsub bs d) = bsub bs (d + 1) := by
  funext i
  cases i with
  | zero => simp [up, bsub]
  | succ i =>
    simp only [up, bsub]
    by_cases h1 : i < d
    · rw [if_pos h1, if_pos (by omega)]; rfl
    · have e : i + 1 - (d + 1) = i - d := by omega
      have h3 : ¬ i + 1 < d + 1 := by omega
      rw [if_neg h1, if_neg h3, e]
      by_cases h2 : i - d < bs.length
      · rw [if_pos h2, if_pos h2, ren_ren]
        congr 1
      · rw [if_neg h2, if_neg h2]
        simp only [Lam.ren]
        congr 1
        omega

theorem mkApp_self {h : HTerm} {as : List HTerm} (hh : h.isAnyVar = true ∨ h.isLam = true) : mkApp h as = papp h as := by
  cases h <;> simp_all [mkApp, isAnyVar, isLam]

theorem replaceBound_noDB (bs : List HTerm) (t : HTerm) : ∀ d, t.hasDB = false → t.replaceBound bs d = t := by
  intro d h
  cases t with
  | fvar => simp [replaceBound]
  | db => simp [hasDB] at h
  | lam => simp [hasDB] at h
  | app f as => simp only [hasDB] at h; simp [replaceBound, h]
  | papp g as => simp only [hasDB] at h; simp [replaceBound, h]

theorem replaceBound_app (bs : List HTerm) (d f : Nat) (as : List HTerm) :
    replaceBound bs d (app f as) = app f (as.map (replaceBound bs d)) := by
  simp only [replaceBound, replaceBoundL_map]
  split
  · rename_i h
    simp only [Bool.or_eq_true, List.isEmpty_iff, Bool.not_eq_true'] at h
    rcases h with rfl | h
    · rfl
    · congr 1
      rw [hasDBL_iff] at h
      exact (map_eq_self fun a ha => replaceBound_noDB bs a d (h a ha)).symm
  · rfl

theorem toL_replaceBound_papp (bs : List HTerm) (d : Nat) (h : HTerm) (as : List HTerm) :
    (replaceBound bs d (papp h as)).toL = (replaceBound bs d h).toL.apps (as.map fun a => (replaceBound bs d a).toL) := by
  simp only [replaceBound, replaceBoundL_map]
  split
  · rename_i hh
    simp only [Bool.not_eq_true', Bool.or_eq_false_iff, hasDBL_iff] at hh
    simp only [toL, toLL_map]
    rw [replaceBound_noDB bs h d hh.1]
    congr 1
    exact List.map_congr_left fun a ha => by rw [replaceBound_noDB bs a d (hh.2 a ha)]
  · rw [toL_mkApp, List.map_map]; rfl

theorem toL_replaceBound (bs : List HTerm) (t : HTerm) : ∀ d, (t.replaceBound bs d).toL = t.toL.subst (bsub (bs.map toL) d) := by
  induction t using HTerm.ind with
  | hf x ty => intro d; simp [replaceBound, toL, Lam.subst]
  | hd i ty =>
    intro d
    simp only [replaceBound, toL, Lam.subst, bsub, List.length_map]
    by_cases h1 : i < d
    · simp [h1, toL]
    · simp only [if_neg h1]
      by_cases h2 : i - d < bs.length
      · simp only [if_pos h2, toL_shiftDB]
        congr 1
        simp [List.getD, h2]
      · simp [h2, toL]
  | hl ty b ih => intro d; simp only [replaceBound, toL, Lam.subst, ih, up_bsub]
  | ha f as ih =>
    intro d
    rw [replaceBound_app]
    simp only [toL, toLL_map, apps_subst, List.map_map, Lam.subst]
    congr 1
    exact List.map_congr_left fun a ha => ih a ha d
  | hp h as ih1 ih2 =>
    intro d
    rw [toL_replaceBound_papp]
    simp only [toL, toLL_map, apps_subst, List.map_map, ih1]
    congr 1
    exact List.map_congr_left fun a ha => ih2 a ha d

/-! ## The head step -/

/-- Bindings added one by one. -/
def consL : List Lam → (Nat → Lam) → Nat → Lam
  | [], σ => σ
  | a :: as, σ => consL as (scons a σ)

theorem consL_eq (as : List Lam) : ∀ σ i, consL as σ i = if i < as.length then as.reverse.getD i (.bv 0) else σ (i - as.length) := by
  induction as with
  | nil => intro σ i; simp [consL]
  | cons a as ih =>
    intro σ i
    rw [consL, ih]
    by_cases h1 : i < as.length
    · rw [if_pos h1, if_pos (by simp; omega), List.reverse_cons, List.getD_eq_getElem?_getD, List.getD_eq_getElem?_getD,
        List.getElem?_append_left (by simpa using h1)]
    · rw [if_neg h1]
      by_cases h2 : i = as.length
      · subst h2
        rw [if_pos (by simp), List.reverse_cons, List.getD_eq_getElem?_getD, List.getElem?_append_right (by simp)]
        simp [scons]
      · rw [if_neg (by simp; omega)]
        obtain ⟨k, hk⟩ : ∃ k, i - as.length = k + 1 := ⟨i - as.length - 1, by omega⟩
        rw [hk]
        simp only [scons, List.length_cons]
        congr 1
        omega

theorem consL_bsub (as : List Lam) : consL as .bv = bsub as.reverse 0 := by
  funext i
  rw [consL_eq, bsub]
  simp only [Nat.not_lt_zero, if_false, Nat.sub_zero, List.length_reverse]
  split
  · exact (ren_fun_id _).symm
  · rfl

theorem peel_star (t : HTerm) : ∀ (as : List HTerm) (σ : Nat → Lam),
    BetaStar ((t.toL.subst σ).apps (as.map toL))
      (((peel t as).1.toL.subst (consL ((peel t as).2.1.map toL) σ)).apps ((peel t as).2.2.map toL)) := by
  induction t using HTerm.ind with
  | hl ty b ih =>
    intro as σ
    cases as with
    | nil => simp only [peel]; exact .refl
    | cons a as =>
      simp only [peel, List.map_cons, consL]
      refine .trans ?_ (ih as (scons a.toL σ))
      rw [apps_cons]
      refine star_apps (List.forall₂_same.2 fun _ _ => .refl) ?_
      rw [← subst_up_inst]
      exact .single (.beta _ _ _)
  | hf x ty => intro as σ; simp only [peel]; exact .refl
  | hd i ty => intro as σ; simp only [peel]; exact .refl
  | ha f as ih => intro bs σ; simp only [peel]; exact .refl
  | hp h as ih1 ih2 => intro bs σ; simp only [peel]; exact .refl

/-- `WHNF_step` performs beta steps. -/
theorem toL_whnfStep (t : HTerm) : BetaStar t.toL t.whnfStep.toL := by
  unfold whnfStep
  split
  · rename_i ty b as
    have h := peel_star (lam ty b) as .bv
    rw [subst_bv] at h
    simp only [toL_applyTerms, toL_replaceBound, toL, toLL_map, List.map_reverse, ← consL_bsub] at h ⊢
    exact h
  · exact .refl

/-! ## Redexes -/

theorem normal_apps {as : List Lam} (ha : ∀ a ∈ as, Normal a) : ∀ {m : Lam}, Normal m → (as ≠ [] → Neutral m) → Normal (m.apps as) := by
  induction as with
  | nil => intro m hm _; exact hm
  | cons a as ih =>
    intro m hm hn
    rw [apps_cons]
    refine ih (fun b hb => ha b (.tail _ hb)) ?_ fun _ => trivial
    intro n hb
    cases hb with
    | beta => exact hn (by simp)
    | appL hb => exact hm _ hb
    | appR hb => exact ha a (.head _) _ hb

theorem neutral_var {h : HTerm} (hv : h.isAnyVar = true) : Neutral h.toL := by
  cases h <;> simp_all [isAnyVar, toL, Neutral]

/-- A term without the bit `TPIsBetaReducible` has no redex. -/
theorem normal_of_flag (t : HTerm) : ∀ {Γ}, WF Γ t → t.betaRed = false → Normal t.toL := by
  induction t using HTerm.ind with
  | hf x ty => intro Γ _ _ n hb; simp only [toL] at hb; cases hb
  | hd i ty => intro Γ _ _ n hb; simp only [toL] at hb; cases hb
  | hl ty b ih =>
    intro Γ hw h n hb
    cases hw with
    | lam hw =>
      simp only [toL] at hb
      cases hb with
      | lam hb => exact ih hw (by simpa [betaRed] using h) _ hb
  | ha f as ih =>
    intro Γ hw h
    cases hw with
    | app hw =>
      simp only [betaRed, betaRedL_any, List.any_eq_false] at h
      simp only [toL, toLL_map]
      refine normal_apps ?_ (fun n hb => by cases hb) fun _ => trivial
      intro a ha
      obtain ⟨b, hb, rfl⟩ := List.mem_map.1 ha
      exact ih b hb (hw b hb) (by simpa using h b hb)
  | hp h as ih1 ih2 =>
    intro Γ hw hr
    cases hw with
    | papp hh hne hwh hwa =>
      simp only [betaRed, betaRedL_any, Bool.or_eq_false_iff, List.any_eq_false] at hr
      simp only [toL, toLL_map]
      have hv : h.isAnyVar = true := by
        rcases hh with hh | hh
        · exact hh
        · rw [hr.1.1] at hh; exact absurd hh (by simp)
      refine normal_apps ?_ (ih1 hwh hr.1.2) fun _ => neutral_var hv
      intro a ha
      obtain ⟨b, hb, rfl⟩ := List.mem_map.1 ha
      exact ih2 b hb (hwa b hb) (by simpa using hr.2 b hb)

theorem beta_apps {as : List Lam} : ∀ {m n : Lam}, Beta m n → Beta (m.apps as) (n.apps as) := by
  induction as with
  | nil => intro m n h; exact h
  | cons a as ih => intro m n h; exact ih (.appL h)

theorem beta_apps_arg {as : List Lam} : ∀ {m a : Lam}, a ∈ as → (∃ b, Beta a b) → ∃ n, Beta (m.apps as) n := by
  induction as with
  | nil => intro m a h; simp at h
  | cons b as ih =>
    intro m a h hb
    rcases List.mem_cons.1 h with rfl | h
    · obtain ⟨c, hc⟩ := hb
      rw [apps_cons]
      exact ⟨_, beta_apps (.appR hc)⟩
    · exact ih h hb

/-- A term with the bit has a redex. -/
theorem redex_of_flag (t : HTerm) : ∀ {Γ}, WF Γ t → t.betaRed = true → ∃ n, Beta t.toL n := by
  induction t using HTerm.ind with
  | hf x ty => intro Γ _ h; simp [betaRed] at h
  | hd i ty => intro Γ _ h; simp [betaRed] at h
  | hl ty b ih =>
    intro Γ hw h
    cases hw with
    | lam hw =>
      obtain ⟨n, hn⟩ := ih hw (by simpa [betaRed] using h)
      exact ⟨_, .lam hn⟩
  | ha f as ih =>
    intro Γ hw h
    cases hw with
    | app hw =>
      simp only [betaRed, betaRedL_any, List.any_eq_true] at h
      obtain ⟨a, ha, hr⟩ := h
      simp only [toL, toLL_map]
      exact beta_apps_arg (List.mem_map_of_mem ha) (ih a ha (hw a ha) hr)
  | hp h as ih1 ih2 =>
    intro Γ hw hr
    cases hw with
    | papp hh hne hwh hwa =>
      simp only [betaRed, betaRedL_any, Bool.or_eq_true, List.any_eq_true] at hr
      simp only [toL, toLL_map]
      rcases hr with (hr | hr) | ⟨a, ha, hr⟩
      · cases h with
        | lam ty b =>
          cases as with
          | nil => exact absurd rfl hne
          | cons a as =>
            rw [List.map_cons, apps_cons]
            exact ⟨_, beta_apps (.beta _ _ _)⟩
        | _ => simp [isLam] at hr
      · obtain ⟨n, hn⟩ := ih1 hwh hr
        exact ⟨_, beta_apps hn⟩
      · exact beta_apps_arg (List.mem_map_of_mem ha) (ih2 a ha (hwa a ha) hr)

/-! ## Representation -/

theorem head_shift {s : Int} {d : Nat} {h : HTerm} (hh : h.isAnyVar = true ∨ h.isLam = true) :
    (shift s d h).isAnyVar = true ∨ (shift s d h).isLam = true := by
  cases h with
  | fvar => simp [shift, isAnyVar]
  | db i ty => simp only [shift]; split <;> simp [isAnyVar]
  | lam => simp [shift, isLam]
  | app => simp [isAnyVar, isLam] at hh
  | papp => simp [isAnyVar, isLam] at hh

theorem wf_shift (k : Nat) (t : HTerm) : ∀ {d : Nat} {Γ Δ : Nat → Option HTy}, WF Γ t →
    (∀ i ty, Γ i = some ty → Δ (shr k d i) = some ty) → WF Δ (t.shift k d) := by
  induction t using HTerm.ind with
  | hf x ty => intro d Γ Δ _ _; simp only [shift]; exact .fvar _ _
  | hd i ty =>
    intro d Γ Δ hw hr
    cases hw with
    | db hw =>
      have h := hr i ty hw
      simp only [shift, shr] at h ⊢
      split
      · rename_i hd; rw [if_pos hd] at h; exact .db h
      · rename_i hd; rw [if_neg hd] at h; exact .db h
  | hl ty b ih =>
    intro d Γ Δ hw hr
    cases hw with
    | lam hw =>
      simp only [shift]
      refine .lam (ih hw ?_)
      intro i t hi
      rw [← upr_shr]
      cases i with
      | zero => exact hi
      | succ i => exact hr i t hi
  | ha f as ih =>
    intro d Γ Δ hw hr
    cases hw with
    | app hw =>
      rw [shift_app]
      refine .app fun a ha => ?_
      obtain ⟨b, hb, rfl⟩ := List.mem_map.1 ha
      exact ih b hb (hw b hb) hr
  | hp h as ih1 ih2 =>
    intro d Γ Δ hw hr
    cases hw with
    | papp hh hne hwh hwa =>
      rw [shift_papp]
      refine .papp (head_shift hh) (by simpa using hne) (ih1 hwh hr) fun a ha => ?_
      obtain ⟨b, hb, rfl⟩ := List.mem_map.1 ha
      exact ih2 b hb (hwa b hb) hr

theorem wf_shiftDB {k : Nat} {t : HTerm} {Γ Δ : Nat → Option HTy} (hw : WF Γ t) (h : ∀ i ty, Γ i = some ty → Δ (i + k) = some ty) :
    WF Δ (t.shiftDB k) := by
  unfold shiftDB
  split
  · rename_i hk
    have hk : k = 0 := by omega
    subst hk
    have e : shift (0 : Nat) 0 t = t := by
      clear hw h hk
      suffices H : ∀ d, shift ((0 : Nat) : Int) d t = t from H 0
      induction t using HTerm.ind with
      | hf x ty => intro d; simp [shift]
      | hd i ty => intro d; simp [shift]
      | hl ty b ih => intro d; simp only [shift, ih]
      | ha f as ih => intro d; rw [shift_app, map_eq_self fun a ha => ih a ha d]
      | hp h as ih1 ih2 => intro d; rw [shift_papp, ih1, map_eq_self fun a ha => ih2 a ha d]
    rw [← e]
    exact wf_shift 0 t hw fun i ty hi => by rw [shr_zero]; exact h i ty hi
  · refine wf_shift k t hw fun i ty hi => ?_
    simpa [shr] using h i ty hi

theorem wf_mkApp {Γ : Nat → Option HTy} {h : HTerm} {as : List HTerm} (hh : WF Γ h) (hne : as ≠ []) (ha : ∀ a ∈ as, WF Γ a) :
    WF Γ (mkApp h as) := by
  cases h with
  | fvar x ty => exact .papp (.inl rfl) hne hh ha
  | db i ty => exact .papp (.inl rfl) hne hh ha
  | lam ty b => exact .papp (.inr rfl) hne hh ha
  | app f bs =>
    cases hh with
    | app hb => exact .app fun a hm => (List.mem_append.1 hm).elim (hb a) (ha a)
  | papp g bs =>
    cases hh with
    | papp h1 h2 h3 h4 => exact .papp h1 (by simp [h2]) h3 fun a hm => (List.mem_append.1 hm).elim (h4 a) (ha a)

theorem wf_applyTerms {Γ : Nat → Option HTy} {h : HTerm} {as : List HTerm} (hh : WF Γ h) (ha : ∀ a ∈ as, WF Γ a) : WF Γ (applyTerms h as) := by
  unfold applyTerms
  split
  · exact hh
  · rename_i he
    exact wf_mkApp hh (by simpa using he) ha

theorem wf_replaceBound (bs : List HTerm) (t : HTerm) : ∀ {d : Nat} {Γ Δ : Nat → Option HTy}, WF Γ t →
    (∀ i ty, i < d → Γ i = some ty → Δ i = some ty) → (∀ i ty, d + bs.length ≤ i → Γ i = some ty → Δ (i - bs.length) = some ty) →
    (∀ b ∈ bs, WF (fun i => Δ (i + d)) b) → WF Δ (t.replaceBound bs d) := by
  induction t using HTerm.ind with
  | hf x ty => intro d Γ Δ _ _ _ _; simp only [replaceBound]; exact .fvar _ _
  | hd i ty =>
    intro d Γ Δ hw h1 h2 h3
    cases hw with
    | db hw =>
      simp only [replaceBound]
      by_cases c1 : i < d
      · rw [if_pos c1]; exact .db (h1 i ty c1 hw)
      · rw [if_neg c1]
        by_cases c2 : i - d < bs.length
        · rw [if_pos c2]
          refine wf_shiftDB (h3 _ ?_) fun j u hj => hj
          rw [List.getD_eq_getElem?_getD, List.getElem?_eq_getElem c2]
          exact List.getElem_mem c2
        · rw [if_neg c2]; exact .db (h2 i ty (by omega) hw)
  | hl ty b ih =>
    intro d Γ Δ hw h1 h2 h3
    cases hw with
    | lam hw =>
      simp only [replaceBound]
      refine .lam (ih hw ?_ ?_ ?_)
      · intro i u hi hu
        cases i with
        | zero => exact hu
        | succ i => exact h1 i u (by omega) hu
      · intro i u hi hu
        cases i with
        | zero => omega
        | succ i =>
          have := h2 i u (by omega) hu
          have e : i + 1 - bs.length = (i - bs.length) + 1 := by omega
          rw [e]
          exact this
      · intro b hb
        exact h3 b hb
  | ha f as ih =>
    intro d Γ Δ hw h1 h2 h3
    cases hw with
    | app hw =>
      rw [replaceBound_app]
      refine .app fun a ha => ?_
      obtain ⟨b, hb, rfl⟩ := List.mem_map.1 ha
      exact ih b hb (hw b hb) h1 h2 h3
  | hp h as ih1 ih2 =>
    intro d Γ Δ hw h1 h2 h3
    cases hw with
    | papp hh hne hwh hwa =>
      have hh' := ih1 hwh h1 h2 h3
      have ha' : ∀ a ∈ as, WF Δ (a.replaceBound bs d) := fun a ha => ih2 a ha (hwa a ha) h1 h2 h3
      simp only [replaceBound, replaceBoundL_map]
      split
      · rename_i hd
        simp only [Bool.not_eq_true', Bool.or_eq_false_iff, hasDBL_iff] at hd
        rw [replaceBound_noDB bs h d hd.1] at hh'
        exact .papp hh hne hh' fun a ha => by have := ha' a ha; rwa [replaceBound_noDB bs a d (hd.2 a ha)] at this
      · refine wf_mkApp hh' (by simpa using hne) fun a ha => ?_
        obtain ⟨b, hb, rfl⟩ := List.mem_map.1 ha
        exact ha' b hb

theorem wf_peel (t : HTerm) : ∀ {as : List HTerm} {Γ : Nat → Option HTy}, WF Γ t →
    ∃ Γ', WF Γ' (peel t as).1 ∧ (∀ i, Γ' (i + (peel t as).2.1.length) = Γ i) ∧ as = (peel t as).2.1 ++ (peel t as).2.2 := by
  induction t using HTerm.ind with
  | hl ty b ih =>
    intro as Γ hw
    cases as with
    | nil => exact ⟨Γ, by simpa [peel] using hw, by simp [peel], by simp [peel]⟩
    | cons a as =>
      cases hw with
      | lam hw =>
        obtain ⟨Γ', h1, h2, h3⟩ := ih (as := as) hw
        refine ⟨Γ', by simpa only [peel] using h1, ?_, ?_⟩
        · intro i
          simp only [peel, List.length_cons]
          have := h2 (i + 1)
          rw [show i + ((peel b as).2.1.length + 1) = i + 1 + (peel b as).2.1.length by omega, this]
        · simp only [peel, List.cons_append]; rw [← h3]
  | hf x ty => intro as Γ hw; exact ⟨Γ, by simpa [peel] using hw, by simp [peel], by simp [peel]⟩
  | hd i ty => intro as Γ hw; exact ⟨Γ, by simpa [peel] using hw, by simp [peel], by simp [peel]⟩
  | ha f bs ih => intro as Γ hw; exact ⟨Γ, by simpa [peel] using hw, by simp [peel], by simp [peel]⟩
  | hp h bs ih1 ih2 => intro as Γ hw; exact ⟨Γ, by simpa [peel] using hw, by simp [peel], by simp [peel]⟩

theorem wf_whnfStep {Γ : Nat → Option HTy} {t : HTerm} (hw : WF Γ t) : WF Γ t.whnfStep := by
  unfold whnfStep
  split
  · rename_i ty b as
    cases hw with
    | papp hh hne hwh hwa =>
      obtain ⟨Γ', h1, h2, h3⟩ := wf_peel (lam ty b) (as := as) hwh
      have hmem : ∀ a, a ∈ (peel (lam ty b) as).2.1 ∨ a ∈ (peel (lam ty b) as).2.2 → WF Γ a :=
        fun a ha => hwa a (by rw [h3]; exact List.mem_append.2 ha)
      refine wf_applyTerms ?_ fun a ha => hmem a (.inr ha)
      refine wf_replaceBound _ _ h1 (fun i _ hi => absurd hi (by omega)) ?_ fun a ha => hmem a (.inl (List.mem_reverse.1 ha))
      intro i u hi hu
      rw [List.length_reverse] at hi ⊢
      have := h2 (i - (peel (lam ty b) as).2.1.length)
      rw [Nat.sub_add_cancel (by simpa using hi), hu] at this
      exact this.symm
  · exact hw

/-- At least one step is made at a redex. -/
theorem whnfStep_trans {Γ : Nat → Option HTy} {ty : HTy} {b : HTerm} {as : List HTerm} (hw : WF Γ (papp (lam ty b) as)) :
    Relation.TransGen Beta (papp (lam ty b) as).toL (whnfStep (papp (lam ty b) as)).toL := by
  cases hw with
  | papp hh hne hwh hwa =>
    cases as with
    | nil => exact absurd rfl hne
    | cons a as =>
      have h := peel_star b as (scons a.toL .bv)
      have e : (whnfStep (papp (lam ty b) (a :: as))).toL =
          ((peel b as).1.toL.subst (consL ((peel b as).2.1.map toL) (scons a.toL .bv))).apps ((peel b as).2.2.map toL) := by
        simp only [whnfStep, peel, toL_applyTerms, toL_replaceBound, List.map_reverse, ← consL_bsub, List.map_cons]
        rfl
      rw [e]
      refine .trans_left (.single ?_) h
      simp only [toL, toLL, toLL_map, apps_cons]
      exact beta_apps (.beta _ _ _)

/-! ## Normalisation -/

theorem betaRed_papp {h : HTerm} {as : List HTerm} (hl : h.isLam = false) (h1 : h.betaRed = false) (h2 : ∀ a ∈ as, a.betaRed = false) :
    (papp h as).betaRed = false := by
  simp only [betaRed, betaRedL_any, hl, h1, Bool.or_false, Bool.false_or, List.any_eq_false]
  exact fun a ha => by simp [h2 a ha]

theorem betaNorm_var {n : Nat} {h r : HTerm} (hv : h.isAnyVar = true) (hn : betaNorm n h = some r) : r = h := by
  cases n with
  | zero => simp [betaNorm] at hn
  | succ n => cases h <;> simp_all [betaNorm, isAnyVar]

/-- What `do_beta_normalize_db` returns. -/
theorem betaNorm_spec : ∀ (n : Nat) {Γ : Nat → Option HTy} {t r : HTerm}, WF Γ t → betaNorm n t = some r →
    BetaStar t.toL r.toL ∧ r.betaRed = false ∧ WF Γ r := by
  intro n
  induction n with
  | zero => intro Γ t r _ h; simp [betaNorm] at h
  | succ n ih =>
    have ihL : ∀ {Γ : Nat → Option HTy} {as rs : List HTerm}, (∀ a ∈ as, WF Γ a) → mapOpt (betaNorm n) as = some rs →
        List.Forall₂ BetaStar (as.map toL) (rs.map toL) ∧ (∀ r ∈ rs, r.betaRed = false ∧ WF Γ r) ∧ rs.length = as.length := by
      intro Γ as rs ha h
      have h2 := InstProof.mapOpt_some h
      clear h
      induction h2 with
      | nil => exact ⟨.nil, by simp, rfl⟩
      | cons hx _ ih2 =>
        obtain ⟨i1, i2, i3⟩ := ih2 fun a h => ha a (.tail _ h)
        obtain ⟨j1, j2, j3⟩ := ih (ha _ (.head _)) hx
        refine ⟨.cons j1 i1, ?_, by simp [i3]⟩
        intro r hr
        rcases List.mem_cons.1 hr with rfl | hr
        · exact ⟨j2, j3⟩
        · exact i2 r hr
    intro Γ t r hw h
    unfold betaNorm at h
    split at h
    · rename_i ty b as
      simp only at h
      split at h
      · obtain ⟨h1, h2, h3⟩ := ih (wf_whnfStep hw) h
        exact ⟨(toL_whnfStep _).trans h1, h2, h3⟩
      · rename_i hb
        cases h
        exact ⟨toL_whnfStep _, by simpa using hb, wf_whnfStep hw⟩
    · rename_i ty b
      split at h
      · rename_i hb
        cases h
        exact ⟨.refl, by simpa [betaRed] using hb, hw⟩
      · cases hw with
        | lam hw =>
          cases hr : betaNorm n b with
          | none => simp [hr] at h
          | some b' =>
            simp only [hr, Option.map_some, Option.some.injEq] at h
            subst h
            obtain ⟨h1, h2, h3⟩ := ih hw hr
            exact ⟨star_lam h1, by simpa [betaRed] using h2, .lam h3⟩
    · rename_i f as
      split at h
      · rename_i hb
        cases h
        exact ⟨.refl, by simpa [betaRed] using hb, hw⟩
      · cases hw with
        | app hw =>
          cases hr : mapOpt (betaNorm n) as with
          | none => simp [hr] at h
          | some as' =>
            simp only [hr, Option.map_some, Option.some.injEq] at h
            subst h
            obtain ⟨h1, h2, _⟩ := ihL hw hr
            refine ⟨?_, ?_, .app fun a ha => (h2 a ha).2⟩
            · simp only [toL, toLL_map]; exact star_apps h1 .refl
            · simp only [betaRed, betaRedL_any, List.any_eq_false]
              exact fun a ha => by simp [(h2 a ha).1]
    · rename_i g as hng
      split at h
      · rename_i hb
        cases h
        exact ⟨.refl, by simpa using hb, hw⟩
      · cases hw with
        | papp hh hne hwh hwa =>
          have hv : g.isAnyVar = true := by
            rcases hh with hh | hh
            · exact hh
            · cases g with
              | lam ty b => exact absurd rfl (hng ty b)
              | _ => simp [isLam] at hh
          cases hr1 : betaNorm n g with
          | none => simp [hr1] at h
          | some g' =>
            cases hr : mapOpt (betaNorm n) as with
            | none => simp [hr1, hr] at h
            | some as' =>
              simp only [hr1, hr, Option.some.injEq] at h
              subst h
              have e := betaNorm_var hv hr1
              subst e
              obtain ⟨h1, h2, h3⟩ := ihL hwa hr
              refine ⟨?_, betaRed_papp ?_ ?_ fun a ha => (h2 a ha).1, .papp (.inl hv) ?_ hwh fun a ha => (h2 a ha).2⟩
              · simp only [toL, toLL_map]; exact star_apps h1 .refl
              · cases g' <;> simp_all [isAnyVar, isLam]
              · cases g' <;> simp_all [isAnyVar, betaRed]
              · intro hc; subst hc; exact hne (List.eq_nil_of_length_eq_zero h3.symm)
    · rename_i hn1 hn2 hn3 hn4
      cases h
      refine ⟨.refl, ?_, hw⟩
      cases t with
      | fvar => rfl
      | db => rfl
      | lam ty b => exact absurd rfl (hn2 ty b)
      | app f as => exact absurd rfl (hn3 f as)
      | papp h as => exact absurd rfl (hn4 h as)

theorem mapOpt_mono {α β : Type} {f g : α → Option β} {as : List α} {rs : List β} (h : ∀ a r, f a = some r → g a = some r)
    (hm : mapOpt f as = some rs) : mapOpt g as = some rs := by
  have h2 := InstProof.mapOpt_some hm
  clear hm
  induction h2 with
  | nil => rfl
  | cons hx _ ih => simp [mapOpt, h _ _ hx, ih]

theorem betaNorm_mono : ∀ (n : Nat) {t r : HTerm}, betaNorm n t = some r → betaNorm (n + 1) t = some r := by
  intro n
  induction n with
  | zero => intro t r h; simp [betaNorm] at h
  | succ n ih =>
    intro t r h
    unfold betaNorm at h ⊢
    split at h
    · simp only at h ⊢
      split at h
      · rename_i hb; rw [if_pos hb]; exact ih h
      · rename_i hb; rw [if_neg hb]; exact h
    · rename_i ty b
      split at h
      · rename_i hb; rw [if_pos hb]; exact h
      · rename_i hb; rw [if_neg hb]
        cases hr : betaNorm n b with
        | none => simp [hr] at h
        | some b' => rw [ih hr]; rwa [hr] at h
    · rename_i f as
      split at h
      · rename_i hb; rw [if_pos hb]; exact h
      · rename_i hb; rw [if_neg hb]
        cases hr : mapOpt (betaNorm n) as with
        | none => simp [hr] at h
        | some as' => rw [mapOpt_mono (fun _ _ => ih) hr]; rwa [hr] at h
    · rename_i g as hng
      split at h
      · rename_i hb; rw [if_pos hb]; exact h
      · rename_i hb; rw [if_neg hb]
        cases hr1 : betaNorm n g with
        | none => simp [hr1] at h
        | some g' =>
          cases hr : mapOpt (betaNorm n) as with
          | none => simp [hr1, hr] at h
          | some as' => rw [mapOpt_mono (fun _ _ => ih) hr, ih hr1]; rwa [hr1, hr] at h
    · exact h

theorem betaNorm_le {n k : Nat} (h : n ≤ k) {t r : HTerm} (hn : betaNorm n t = some r) : betaNorm k t = some r := by
  induction h with
  | refl => exact hn
  | step _ ih => exact betaNorm_mono _ ih

theorem down_apps {as : List Lam} : ∀ {m a : Lam}, a ∈ as → Relation.TransGen Down (m.apps as) a := by
  have key : ∀ (as : List Lam) (m : Lam), Relation.ReflTransGen Down (m.apps as) m := by
    intro as
    induction as with
    | nil => intro m; exact .refl
    | cons b as ih => intro m; exact (ih _).tail (.inr (.appL _ _))
  induction as with
  | nil => intro m a h; simp at h
  | cons b as ih =>
    intro m a h
    rcases List.mem_cons.1 h with rfl | h
    · rw [apps_cons]; exact Relation.TransGen.tail' (key as _) (.inr (.appR _ _))
    · exact ih h

theorem trans_down {m n : Lam} (h : Relation.TransGen Beta m n) : Relation.TransGen Down m n := by
  induction h with
  | single h => exact .single (.inl h)
  | tail _ h ih => exact ih.tail (.inl h)

theorem mapOpt_betaNorm {as : List HTerm} (h : ∀ a ∈ as, ∃ n r, betaNorm n a = some r) : ∃ n rs, mapOpt (betaNorm n) as = some rs := by
  induction as with
  | nil => exact ⟨0, [], rfl⟩
  | cons a as ih =>
    obtain ⟨n, rs, h1⟩ := ih fun b hb => h b (.tail _ hb)
    obtain ⟨k, r, h2⟩ := h a (.head _)
    refine ⟨max n k, r :: rs, ?_⟩
    simp only [mapOpt, betaNorm_le (Nat.le_max_right n k) h2,
      mapOpt_mono (fun _ _ => betaNorm_le (Nat.le_max_left n k)) h1]

theorem betaNorm_total {Γ : Nat → Option HTy} {t : HTerm} (hw : WF Γ t) (hs : SN t.toL) : ∃ n r, betaNorm n t = some r := by
  have hacc := hs.down.transGen
  generalize hm : t.toL = m at hacc
  induction hacc generalizing Γ t with
  | intro m _ ih =>
    subst hm
    have ih' : ∀ {Γ : Nat → Option HTy} {u : HTerm}, WF Γ u → Relation.TransGen Down t.toL u.toL → ∃ n r, betaNorm n u = some r := by
      intro Γ u hu hd
      refine ih u.toL ?_ hu ?_ rfl
      · exact Relation.transGen_swap.1 hd
      · have : ∀ {a b : Lam}, Relation.TransGen Down a b → SN a → SN b := by
          intro a b h
          induction h with
          | single h =>
            intro ha
            rcases h with h | h
            · exact ha.step h
            · cases h
              · exact ha.of_lam
              · exact ha.of_app
              · exact ha.of_app_right
          | tail _ h ih =>
            intro ha
            have hb := ih ha
            rcases h with h | h
            · exact hb.step h
            · cases h
              · exact hb.of_lam
              · exact hb.of_app
              · exact hb.of_app_right
        exact this hd hs
    cases t with
    | fvar x ty => exact ⟨1, _, rfl⟩
    | db i ty => exact ⟨1, _, rfl⟩
    | lam ty b =>
      cases hw with
      | lam hw =>
        obtain ⟨n, r, hr⟩ := ih' hw (.single (.inr (.lam _ _)))
        refine ⟨n + 1, if b.betaRed then lam ty r else lam ty b, ?_⟩
        unfold betaNorm
        cases hb : b.betaRed <;> simp [hr, hb]
    | app f as =>
      cases hw with
      | app hw =>
        obtain ⟨n, rs, hr⟩ := mapOpt_betaNorm fun a ha => ih' (hw a ha) (by
          simp only [toL, toLL_map]; exact down_apps (List.mem_map_of_mem ha))
        refine ⟨n + 1, if betaRedL as then app f rs else app f as, ?_⟩
        unfold betaNorm
        cases hb : betaRedL as <;> simp [hr, hb]
    | papp h as =>
      by_cases hl : h.isLam = true
      · cases h with
        | lam ty b =>
          obtain ⟨n, r, hr⟩ := ih' (wf_whnfStep hw) (trans_down (whnfStep_trans hw))
          refine ⟨n + 1, if (whnfStep (papp (lam ty b) as)).betaRed then r else whnfStep (papp (lam ty b) as), ?_⟩
          unfold betaNorm
          cases hb : (whnfStep (papp (lam ty b) as)).betaRed <;> simp [hr, hb]
        | _ => simp [isLam] at hl
      · cases hw with
        | papp hh hne hwh hwa =>
          have hv : h.isAnyVar = true := by
            rcases hh with hh | hh
            · exact hh
            · exact absurd hh hl
          obtain ⟨n, rs, hr⟩ := mapOpt_betaNorm fun a ha => ih' (hwa a ha) (by
            simp only [toL, toLL_map]; exact down_apps (List.mem_map_of_mem ha))
          have hr' : mapOpt (betaNorm (n + 1)) as = some rs := mapOpt_mono (fun _ _ => betaNorm_mono n) hr
          have hh' : betaNorm (n + 1) h = some h := by cases h <;> simp_all [betaNorm, isAnyVar]
          refine ⟨n + 2, if (papp h as).betaRed then papp h rs else papp h as, ?_⟩
          unfold betaNorm
          cases hb : (papp h as).betaRed <;> cases h <;> simp_all [isAnyVar]

/-! ## Different terms stand for different terms of the calculus -/

/-- Head and arguments. -/
def spine : Lam → List Lam → Lam × List Lam
  | .app m n, acc => spine m (n :: acc)
  | m, acc => (m, acc)

theorem spine_apps (as : List Lam) : ∀ (m : Lam) (acc : List Lam), spine (m.apps as) acc = spine m (as ++ acc) := by
  induction as with
  | nil => intro m acc; rfl
  | cons a as ih => intro m acc; rw [apps_cons, ih]; rfl

/-- The head and the arguments of the term of the calculus. -/
theorem spine_toL {Γ : Nat → Option HTy} {t : HTerm} (hw : WF Γ t) : spine t.toL [] =
    match t with
    | HTerm.app f as => (.cn f, as.map toL)
    | papp h as => (h.toL, as.map toL)
    | t => (t.toL, []) := by
  cases t with
  | fvar => rfl
  | db => rfl
  | lam => rfl
  | app f as => simp [toL, toLL_map, spine_apps, spine]
  | papp h as =>
    cases hw with
    | papp hh _ _ _ =>
      cases h with
      | fvar => simp [toL, toLL_map, spine_apps, spine]
      | db => simp [toL, toLL_map, spine_apps, spine]
      | lam => simp [toL, toLL_map, spine_apps, spine]
      | app => simp [isAnyVar, isLam] at hh
      | papp => simp [isAnyVar, isLam] at hh

theorem toL_inj (t : HTerm) : ∀ {Γ : Nat → Option HTy} {u : HTerm}, WF Γ t → WF Γ u → t.toL = u.toL → t = u := by
  have hL : ∀ {Γ : Nat → Option HTy} (as bs : List HTerm), (∀ a ∈ as, ∀ {Γ : Nat → Option HTy} {u : HTerm}, WF Γ a → WF Γ u → a.toL = u.toL → a = u) →
      (∀ a ∈ as, WF Γ a) → (∀ b ∈ bs, WF Γ b) → as.map toL = bs.map toL → as = bs := by
    intro Γ as
    induction as with
    | nil => intro bs _ _ _ h; cases bs with | nil => rfl | cons => simp at h
    | cons a as ih =>
      intro bs hi ha hb h
      cases bs with
      | nil => simp at h
      | cons b bs =>
        simp only [List.map_cons, List.cons.injEq] at h
        rw [hi a (.head _) (ha a (.head _)) (hb b (.head _)) h.1,
          ih bs (fun a hm => hi a (.tail _ hm)) (fun a hm => ha a (.tail _ hm)) (fun a hm => hb a (.tail _ hm)) h.2]
  induction t using HTerm.ind with
  | hf x ty =>
    intro Γ u hw hu h
    have h2 := spine_toL hu
    rw [← h] at h2
    cases u with
    | fvar y ty' => simp only [toL, Lam.fv.injEq] at h; rw [h.1, h.2]
    | db => simp [toL] at h
    | lam => simp [toL] at h
    | app f as => simp [toL, spine] at h2
    | papp g as => cases hu with | papp _ hne _ _ => simp only [toL, spine, Prod.mk.injEq] at h2; exact absurd (by simpa using h2.2.symm) hne
  | hd i ty =>
    intro Γ u hw hu h
    have h2 := spine_toL hu
    rw [← h] at h2
    cases u with
    | fvar => simp [toL] at h
    | db j ty' =>
      simp only [toL, Lam.bv.injEq] at h
      subst h
      cases hw with
      | db hw => cases hu with | db hu => rw [hw] at hu; cases hu; rfl
    | lam => simp [toL] at h
    | app f as => simp [toL, spine] at h2
    | papp g as => cases hu with | papp _ hne _ _ => simp only [toL, spine, Prod.mk.injEq] at h2; exact absurd (by simpa using h2.2.symm) hne
  | hl ty b ih =>
    intro Γ u hw hu h
    have h2 := spine_toL hu
    rw [← h] at h2
    cases u with
    | fvar => simp [toL] at h
    | db => simp [toL] at h
    | lam ty' b' =>
      simp only [toL, Lam.lam.injEq] at h
      obtain ⟨rfl, h⟩ := h
      cases hw with
      | lam hw => cases hu with | lam hu => rw [ih hw hu h]
    | app f as => simp [toL, spine] at h2
    | papp g as => cases hu with | papp _ hne _ _ => simp only [toL, spine, Prod.mk.injEq] at h2; exact absurd (by simpa using h2.2.symm) hne
  | ha f as ih =>
    intro Γ u hw hu h
    have h1 := spine_toL hw
    have h2 := spine_toL hu
    rw [h, h2] at h1
    cases u with
    | fvar => simp [toL] at h1
    | db => simp [toL] at h1
    | lam => simp [toL] at h1
    | app g bs =>
      simp only [Prod.mk.injEq, Lam.cn.injEq] at h1
      cases hw with
      | app hw => cases hu with | app hu => rw [h1.1, hL as bs ih hw hu h1.2.symm]
    | papp g bs =>
      cases hu with
      | papp hh _ _ _ =>
        simp only [Prod.mk.injEq] at h1
        cases g with
        | fvar => simp [toL] at h1
        | db => simp [toL] at h1
        | lam => simp [toL] at h1
        | app => simp [isAnyVar, isLam] at hh
        | papp => simp [isAnyVar, isLam] at hh
  | hp g as ih1 ih2 =>
    intro Γ u hw hu h
    have h1 := spine_toL hw
    have h2 := spine_toL hu
    rw [h, h2] at h1
    cases hw with
    | papp hh hne hwh hwa =>
      have hn : ∀ f, g.toL ≠ .cn f := by
        intro f hc
        cases g with
        | fvar => simp [toL] at hc
        | db => simp [toL] at hc
        | lam => simp [toL] at hc
        | app => simp [isAnyVar, isLam] at hh
        | papp => simp [isAnyVar, isLam] at hh
      cases u with
      | fvar => simp only [Prod.mk.injEq] at h1; exact absurd (by simpa using h1.2.symm) hne
      | db => simp only [Prod.mk.injEq] at h1; exact absurd (by simpa using h1.2.symm) hne
      | lam => simp only [Prod.mk.injEq] at h1; exact absurd (by simpa using h1.2.symm) hne
      | app f bs => simp only [Prod.mk.injEq] at h1; exact absurd h1.1.symm (hn f)
      | papp g' bs =>
        simp only [Prod.mk.injEq] at h1
        cases hu with
        | papp hh' hne' hwh' hwa' => rw [ih1 hwh hwh' h1.1.symm, hL as bs ih2 hwa hwa' h1.2.symm]

end HOProof
end Verif
