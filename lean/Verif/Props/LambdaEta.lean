import Verif.HO.EtaLong

/-!
# C64: eta reduction and eta expansion of lambda terms

`Lam.Eta` is one eta step of the calculus, `Lam.ENormal` says that none is possible, `Lam.BetaEtaEq` is equality by beta and eta steps between terms of
one type.  `HasCn f m`: the symbol `f` occurs in `m`.
-/

namespace Verif
namespace Props

open Lam HTerm

/-- Eta-long cells: whatever is not an abstraction has a base type, except for the heads of applications. -/
inductive EtaLong (ct : Nat → HTy) : HTerm → Prop
  | fvar (x n : Nat) : EtaLong ct (fvar x (.base n))
  | db (i n : Nat) : EtaLong ct (db i (.base n))
  | lam {ty : HTy} {b : HTerm} : EtaLong ct b → EtaLong ct (lam ty b)
  | app {f n : Nat} {as : List HTerm} : tyOf ct (app f as) = .base n → (∀ a ∈ as, EtaLong ct a) → EtaLong ct (app f as)
  | papp {h : HTerm} {n : Nat} {as : List HTerm} : tyOf ct (papp h as) = .base n → (∀ a ∈ as, EtaLong ct a) → EtaLong ct (papp h as)

private theorem base_of {ty : HTy} (h : isArrow ty = false) : ∃ n, ty = .base n := by
  cases ty with
  | base n => exact ⟨n, rfl⟩
  | arr => simp [isArrow] at h

/-- The flag "has an expandable subterm" is exact. -/
theorem eta_flag_exact (ct : Nat → HTy) (t : HTerm) : etaExp ct t = false ↔ EtaLong ct t := by
  induction t using HTerm.ind with
  | hf x ty =>
    constructor
    · intro h; obtain ⟨n, rfl⟩ := base_of h; exact .fvar x n
    · intro h; cases h; rfl
  | hd x ty =>
    constructor
    · intro h; obtain ⟨n, rfl⟩ := base_of h; exact .db x n
    · intro h; cases h; rfl
  | hl ty b ih =>
    constructor
    · intro h; exact .lam (ih.1 h)
    · intro h; cases h with | lam h => exact ih.2 h
  | ha f as ih =>
    simp only [etaExp, HOProof.etaExpL_any, Bool.or_eq_false_iff, List.any_eq_false]
    constructor
    · rintro ⟨h1, h2⟩
      obtain ⟨n, hn⟩ := base_of h1
      exact .app hn fun a ha => (ih a ha).1 (by simpa using h2 a ha)
    · intro h
      cases h with
      | app h1 h2 => exact ⟨by rw [h1]; rfl, fun a ha => by simpa using (ih a ha).2 (h2 a ha)⟩
  | hp g as _ ih =>
    simp only [etaExp, HOProof.etaExpL_any, Bool.or_eq_false_iff, List.any_eq_false]
    constructor
    · rintro ⟨h1, h2⟩
      obtain ⟨n, hn⟩ := base_of h1
      exact .papp hn fun a ha => (ih a ha).1 (by simpa using h2 a ha)
    · intro h
      cases h with
      | papp h1 h2 => exact ⟨by rw [h1]; rfl, fun a ha => by simpa using (ih a ha).2 (h2 a ha)⟩

private def eI : HTy := .base 0
private def eO : HTy := .base 1
/-- 9 is `h : o → (i → i) → o`, 10 is `f : i → i`, 11 is `g : i → i → i`, 12 is `k : ((i → i) → i) → i`, 13 is `m : (i → i) → i`, others `: i`. -/
private def ctH : Nat → HTy := fun f =>
  if f = 9 then .arr eO (.arr (.arr eI eI) eO) else if f = 10 then .arr eI eI else if f = 11 then .arr eI (.arr eI eI)
  else if f = 12 then .arr (.arr (.arr eI eI) eI) eI else if f = 13 then .arr (.arr eI eI) eI else eI
private def sgH : HSig := { ct := ctH, eqn := 20, qall := 21, qex := 22, logical := fun f => f == 8 }

/-- Eta reduction gives an eta-equal term with well-formed cells. -/
theorem etaReduce_sound {sg : HSig} {Γ : Nat → Option HTy} {t : HTerm} (hw : WF Γ t) : EtaEq t.toL (etaReduce sg t).toL ∧ WF Γ (etaReduce sg t) :=
  ⟨HOProof.etaReduce_eta sg t, HOProof.wf_etaReduce hw⟩

/-- If no quantifier occurs, it makes eta reduction steps only and reaches the eta normal form; types are kept. -/
theorem etaReduce_normal {sg : HSig} {Γ : Nat → Option HTy} {t : HTerm} (hw : WF Γ t) (h1 : ¬ HasCn sg.qall t.toL) (h2 : ¬ HasCn sg.qex t.toL) :
    EtaStar t.toL (etaReduce sg t).toL ∧ ENormal (etaReduce sg t).toL ∧
      ∀ ty, HasTy sg.ct Γ t.toL ty → HasTy sg.ct Γ (etaReduce sg t).toL ty := by
  have hs : EtaStar t.toL (etaReduce sg t).toL := by
    unfold etaReduce
    split
    · exact HOProof.doEtaReduce_star sg t false h1 h2
    · exact .refl
  refine ⟨hs, ?_, fun ty h => h.etaStar hs⟩
  unfold etaReduce
  split
  · exact (HOProof.doEtaReduce_normal sg t hw h1 h2).1
  · rename_i h; exact HOProof.enormal_noLam t (by simpa using h)

-- `λx y. g x y` becomes `g`, `λx y. g y y` stays, `λx y. g x (f y)` stays, `λx. g (f 0) x` loses its binder, `λx y z. v x y z` with `v` bound outside
example : etaReduce sgH (lam eI (lam eI (app 11 [db 1 eI, db 0 eI]))) = app 11 [] := by decide +kernel
example : etaReduce sgH (lam eI (lam eI (app 11 [db 0 eI, db 0 eI]))) = lam eI (lam eI (app 11 [db 0 eI, db 0 eI])) := by decide +kernel
example : etaReduce sgH (lam eI (lam eI (app 11 [db 1 eI, app 10 [db 0 eI]]))) = lam eI (lam eI (app 11 [db 1 eI, app 10 [db 0 eI]])) := by
  decide +kernel
example : etaReduce sgH (lam eI (app 11 [db 3 eI, db 0 eI])) = app 11 [db 2 eI] := by decide +kernel
example : etaReduce sgH (lam eI (lam eI (lam eI (app 30 [db 1 eI, db 1 eI, db 0 eI])))) = lam eI (lam eI (app 30 [db 0 eI, db 0 eI])) := by
  decide +kernel
example : etaReduce sgH (app 13 [lam eI (papp (db 4 (.arr eI eI)) [db 0 eI])]) = app 13 [db 3 (.arr eI eI)] := by decide +kernel

/-- Eta expansion gives an eta-long term of the same type that reduces to the given one; the cells stay well-formed. -/
theorem etaExpand_correct (ct : Nat → HTy) (t : HTerm) : EtaStar (etaExpand ct t).toL t.toL ∧ EtaLong ct (etaExpand ct t) ∧
    tyOf ct (etaExpand ct t) = tyOf ct t ∧ ∀ Γ, WF Γ t → WF Γ (etaExpand ct t) := by
  refine ⟨HOProof.etaExpand_star ct t, ?_, ?_, fun Γ h => HOProof.wf_etaExpand h⟩
  · rw [← eta_flag_exact]
    unfold etaExpand
    split
    · exact (HOProof.doEtaExpand_done ct t).1
    · rename_i h; simpa using h
  · unfold etaExpand
    split
    · exact (HOProof.doEtaExpand_done ct t).2
    · rfl

example : etaExpand ctH (app 11 [db 2 eI]) = lam eI (app 11 [db 3 eI, db 0 eI]) := by decide +kernel
example : etaExpand ctH (app 12 []) =
    lam (.arr (.arr eI eI) eI) (app 12 [lam (.arr eI eI) (papp (db 1 (.arr (.arr eI eI) eI)) [lam eI (papp (db 1 (.arr eI eI)) [db 0 eI])])]) := by
  decide +kernel

/-- A beta-normal term stays beta-normal under both. -/
theorem eta_keeps_beta_normal {sg : HSig} {Γ : Nat → Option HTy} {t : HTerm} (hw : WF Γ t) (hn : Normal t.toL) :
    Normal (etaReduce sg t).toL ∧ Normal (etaExpand sg.ct t).toL := by
  have hb : t.betaRed = false := by
    cases h : t.betaRed with
    | false => rfl
    | true => obtain ⟨n, h⟩ := HOProof.redex_of_flag t hw h; exact absurd h (hn n)
  constructor
  · refine HOProof.normal_of_flag _ (HOProof.wf_etaReduce hw) ?_
    unfold etaReduce
    split
    · exact HOProof.betaRed_doEtaReduce sg t false hw hb
    · exact hb
  · refine HOProof.normal_of_flag _ (HOProof.wf_etaExpand hw) ?_
    unfold etaExpand
    split
    · exact HOProof.betaRed_doEtaExpand sg.ct t hb
    · exact hb

private theorem unwrapEqn_none {sg : HSig} {t : HTerm} (h : ¬ HasCn sg.eqn t.toL) : unwrapEqn sg t = t := by
  unfold unwrapEqn
  split
  · split
    · rename_i hc
      obtain ⟨rfl, _⟩ := hc
      exact absurd (by simp [toL, toLL, hasCn_apps, HasCn]) h
    · rfl
  · rfl

private theorem hasCn_subst {f : Nat} (m : Lam) : ∀ {σ : Nat → Lam}, HasCn f (m.subst σ) → HasCn f m ∨ ∃ i, HasCn f (σ i) := by
  induction m with
  | fv => intro σ h; exact .inl h
  | cn => intro σ h; exact .inl h
  | bv i => intro σ h; exact .inr ⟨i, h⟩
  | lam ty m ih =>
    intro σ h
    rcases ih h with h | ⟨i, h⟩
    · exact .inl h
    · cases i with
      | zero => exact h.elim
      | succ i => exact .inr ⟨i, hasCn_ren _ |>.1 h⟩
  | app m n ih1 ih2 =>
    intro σ h
    rcases h with h | h
    · rcases ih1 h with h | h
      · exact .inl (.inl h)
      · exact .inr h
    · rcases ih2 h with h | h
      · exact .inl (.inr h)
      · exact .inr h

private theorem hasCn_beta {f : Nat} {m n : Lam} (h : Beta m n) : HasCn f n → HasCn f m := by
  induction h with
  | beta ty m a =>
    intro h
    rcases hasCn_subst m h with h | ⟨i, h⟩
    · exact .inl h
    · cases i with
      | zero => exact .inr h
      | succ i => exact h.elim
  | lam _ ih => exact ih
  | appL _ ih => exact fun h => h.imp ih id
  | appR _ ih => exact fun h => h.imp id ih

private theorem hasCn_star {f : Nat} {m n : Lam} (h : BetaStar m n) : HasCn f n → HasCn f m := by
  induction h with
  | refl => exact id
  | tail _ hb ih => exact fun h => ih (hasCn_beta hb h)

/-- Full normalisation of terms without quantifiers and equations: the beta-eta normal form. -/
theorem lambdaNormalize_nf {sg : HSig} {Γ : Nat → Option HTy} {n : Nat} {t r : HTerm} (hw : WF Γ t) (h1 : ¬ HasCn sg.qall t.toL)
    (h2 : ¬ HasCn sg.qex t.toL) (h3 : ¬ HasCn sg.eqn t.toL) (hr : lambdaNormalize sg false n t = some r) :
    (∃ a, BetaStar t.toL a ∧ Normal a ∧ EtaStar a r.toL ∧ ENormal r.toL) ∧ Normal r.toL ∧ WF Γ r := by
  obtain ⟨s, hs, rfl⟩ := Option.map_eq_some_iff.1 hr
  simp only [Bool.false_eq_true, if_false]
  have hsp : BetaStar t.toL s.toL ∧ s.betaRed = false ∧ WF Γ s := by
    unfold betaNormalize at hs
    split at hs
    · obtain ⟨s', hs', rfl⟩ := Option.map_eq_some_iff.1 hs
      obtain ⟨a, b, c⟩ := HOProof.betaNorm_spec n hw hs'
      rw [unwrapEqn_none fun h => h3 (hasCn_star a h)]
      exact ⟨a, b, c⟩
    · rename_i hf
      cases hs
      exact ⟨.refl, by simpa using hf, hw⟩
  obtain ⟨a, b, c⟩ := hsp
  have hn := HOProof.normal_of_flag s c b
  obtain ⟨e1, e2, _⟩ := etaReduce_normal (sg := sg) c (fun h => h1 (hasCn_star a h)) (fun h => h2 (hasCn_star a h))
  exact ⟨⟨_, a, hn, e1, e2⟩, (eta_keeps_beta_normal c hn).1, HOProof.wf_etaReduce c⟩

/-- Typed terms without quantifiers and equations: normalisation ends, and two terms get the same normal form exactly if they are equal modulo beta
and eta. -/
theorem lambdaNormalize_canonical_partial {sg : HSig} {Γ : Nat → Option HTy} {ty : HTy} {n k : Nat} {t u r s : HTerm} (ht : WF Γ t) (hu : WF Γ u)
    (htt : HasTy sg.ct Γ t.toL ty) (htu : HasTy sg.ct Γ u.toL ty) (h1 : ¬ HasCn sg.qall t.toL) (h2 : ¬ HasCn sg.qex t.toL)
    (h3 : ¬ HasCn sg.eqn t.toL) (g1 : ¬ HasCn sg.qall u.toL) (g2 : ¬ HasCn sg.qex u.toL) (g3 : ¬ HasCn sg.eqn u.toL)
    (hr : lambdaNormalize sg false n t = some r) (hs : lambdaNormalize sg false k u = some s) :
    r = s ↔ BetaEtaEq sg.ct Γ ty t.toL u.toL := by
  obtain ⟨a1, _, a3⟩ := lambdaNormalize_nf ht h1 h2 h3 hr
  obtain ⟨b1, _, b3⟩ := lambdaNormalize_nf hu g1 g2 g3 hs
  constructor
  · rintro rfl
    exact .trans _ _ _ (nf_betaEtaEq htt a1) (.symm _ _ (nf_betaEtaEq htu b1))
  · intro h
    exact HOProof.toL_inj r a3 b3 (nf_unique ((nf_invariant h _).1 a1) b1)

/-- Eta expansion keeps types. -/
theorem etaExpand_typed {ct : Nat → HTy} {Γ : Nat → Option HTy} {t : HTerm} {ty : HTy} (hw : WF Γ t) (ht : HasTy ct Γ t.toL ty) :
    HasTy ct Γ (etaExpand ct t).toL ty := HOProof.etaExpand_typed hw ht

/-- Full normalisation with expansion of terms without equations: beta-normal, eta-long, and equal to the term modulo beta and eta. -/
theorem lambdaNormalize_long {sg : HSig} {Γ : Nat → Option HTy} {n : Nat} {t r : HTerm} {ty : HTy} (hw : WF Γ t) (ht : HasTy sg.ct Γ t.toL ty)
    (h3 : ¬ HasCn sg.eqn t.toL) (hr : lambdaNormalize sg true n t = some r) :
    (∃ a, BetaStar t.toL a ∧ EtaStar r.toL a) ∧ Normal r.toL ∧ EtaLong sg.ct r ∧ HasTy sg.ct Γ r.toL ty ∧ WF Γ r := by
  obtain ⟨s, hs, rfl⟩ := Option.map_eq_some_iff.1 hr
  simp only [if_true]
  have hsp : BetaStar t.toL s.toL ∧ s.betaRed = false ∧ WF Γ s := by
    unfold betaNormalize at hs
    split at hs
    · obtain ⟨s', hs', rfl⟩ := Option.map_eq_some_iff.1 hs
      obtain ⟨a, b, c⟩ := HOProof.betaNorm_spec n hw hs'
      rw [unwrapEqn_none fun h => h3 (hasCn_star a h)]
      exact ⟨a, b, c⟩
    · rename_i hf
      cases hs
      exact ⟨.refl, by simpa using hf, hw⟩
  obtain ⟨a, b, c⟩ := hsp
  obtain ⟨e1, e2, _, e4⟩ := etaExpand_correct sg.ct s
  exact ⟨⟨_, a, e1⟩, (eta_keeps_beta_normal (sg := sg) c (HOProof.normal_of_flag s c b)).2, e2, etaExpand_typed c (ht.star a), e4 _ c⟩

/-- Typed terms without equations: with expansion, two terms get the same normal form exactly if they are equal modulo beta and eta.  Quantifiers may
occur. -/
theorem lambdaNormalize_long_canonical {sg : HSig} {Γ : Nat → Option HTy} {ty : HTy} {n k : Nat} {t u r s : HTerm} (ht : WF Γ t) (hu : WF Γ u)
    (htt : HasTy sg.ct Γ t.toL ty) (htu : HasTy sg.ct Γ u.toL ty) (h3 : ¬ HasCn sg.eqn t.toL) (g3 : ¬ HasCn sg.eqn u.toL)
    (hr : lambdaNormalize sg true n t = some r) (hs : lambdaNormalize sg true k u = some s) :
    r = s ↔ BetaEtaEq sg.ct Γ ty t.toL u.toL := by
  obtain ⟨⟨a, a1, a2⟩, a3, a4, a5, a6⟩ := lambdaNormalize_long ht htt h3 hr
  obtain ⟨⟨b, b1, b2⟩, b3, b4, b5, b6⟩ := lambdaNormalize_long hu htu g3 hs
  obtain ⟨x, x1, x2⟩ := exists_enormal a
  obtain ⟨y, y1, y2⟩ := exists_enormal b
  have hx : BetaEtaNF t.toL x := ⟨a, a1, normal_etaStar a2 a3, x1, x2⟩
  have hy : BetaEtaNF u.toL y := ⟨b, b1, normal_etaStar b2 b3, y1, y2⟩
  constructor
  · rintro rfl
    obtain ⟨z, z1, z2⟩ := eta_confluent (a2.trans x1) (b2.trans y1)
    rw [x2.star z1] at z2
    rw [y2.star z2] at hx
    exact .trans _ _ _ (nf_betaEtaEq htt hx) (.symm _ _ (nf_betaEtaEq htu hy))
  · intro h
    have := nf_unique ((nf_invariant h _).1 hx) hy
    subst this
    have flag : ∀ {v : HTerm}, WF Γ v → Normal v.toL → v.betaRed = false := by
      intro v hv hn
      cases h : v.betaRed with
      | false => rfl
      | true => obtain ⟨n, h⟩ := HOProof.redex_of_flag v hv h; exact absurd h (hn n)
    exact HOProof.toL_inj r a6 b6 (HOProof.long_unique _ r s (Nat.lt_succ_self _) a6 b6 a5 b5 (flag a6 a3) (flag b6 b3)
      ((eta_flag_exact sg.ct r).2 a4) ((eta_flag_exact sg.ct s).2 b4) (a2.trans x1) (b2.trans y1))

/-- Normalisation of a typed term ends, whatever the mode. -/
theorem lambdaNormalize_terminates {sg : HSig} {Γ : Nat → Option HTy} {ty : HTy} {t : HTerm} (expand : Bool) (hw : WF Γ t)
    (ht : HasTy sg.ct Γ t.toL ty) : ∃ n r, ∀ k, n ≤ k → lambdaNormalize sg expand k t = some r := by
  obtain ⟨n, s, hs⟩ := HOProof.betaNorm_total hw ht.sn
  by_cases hb : t.betaRed = true
  · exact ⟨n, _, fun k hk => by simp only [lambdaNormalize, betaNormalize, hb, if_true, HOProof.betaNorm_le hk hs, Option.map_some]; rfl⟩
  · exact ⟨0, _, fun k _ => by simp only [lambdaNormalize, betaNormalize, hb, Bool.false_eq_true, if_false, Option.map_some]; rfl⟩

/-- `(λp x. p x) g` -/
private def tmH : HTerm := papp (lam (.arr eI (.arr eI eI)) (lam eI (papp (db 1 (.arr eI (.arr eI eI))) [db 0 eI]))) [app 11 []]

example : lambdaNormalize sgH false 9 tmH = some (app 11 []) ∧ lambdaNormalize sgH true 9 tmH = some (lam eI (lam eI (app 11 [db 1 eI, db 0 eI]))) := by
  constructor <;> decide +kernel

-- with expansion the two terms of `etaReduce_quantifier_not_canonical` get one normal form
example : lambdaNormalize sgH true 9 (app 9 [app 21 [fvar 3 (.arr eI eO)], lam eI (app 10 [db 0 eI])]) =
    lambdaNormalize sgH true 9 (app 9 [app 21 [fvar 3 (.arr eI eO)], app 10 []]) := by decide +kernel

example : WF (fun _ => none) tmH ∧ HasTy ctH (fun _ => none) tmH.toL (.arr eI (.arr eI eI)) ∧ ¬ HasCn 21 tmH.toL ∧ ¬ HasCn 22 tmH.toL ∧
    ¬ HasCn 20 tmH.toL := by
  refine ⟨?_, ?_, ?_, ?_, ?_⟩
  · refine .papp (.inr rfl) (by simp) (.lam (.lam (.papp (.inl rfl) (by simp) (.db rfl) ?_))) ?_
    · simp only [List.forall_mem_cons]; exact ⟨.db rfl, by simp⟩
    · simp only [List.forall_mem_cons]; exact ⟨.app (by simp), by simp⟩
  · exact .app (.lam (.lam (.app (.bv rfl) (.bv rfl)))) (HasTy.cn (ct := ctH) (f := 11))
  all_goals simp [tmH, toL, toLL, Lam.apps, HasCn]

/-- With quantifiers the result of eta reduction is not canonical, because the argument of a quantifier is expanded only if the term contains an
abstraction somewhere: `h (!! p) (λx. f x)` becomes `h (!! (λx. p x)) f`, and the eta-equal `h (!! p) f` stays. -/
theorem etaReduce_quantifier_not_canonical : ∃ (sg : HSig) (t u : HTerm) (ty : HTy), WF (fun _ => none) t ∧ WF (fun _ => none) u ∧
    EtaStar t.toL u.toL ∧ Normal t.toL ∧ etaReduce sg t ≠ etaReduce sg u ∧ etaReduce sg u = u ∧
    etaReduce sg t = app 9 [app sg.qall [lam (.base 0) (papp (fvar 3 ty) [db 0 (.base 0)])], app 10 []] := by
  have w1 : WF (fun _ => none) (app 21 [fvar 3 (.arr eI eO)]) := .app (by simp only [List.forall_mem_cons]; exact ⟨.fvar _ _, by simp⟩)
  have w2 : WF (fun _ => none) (app 9 [app 21 [fvar 3 (.arr eI eO)], lam eI (app 10 [db 0 eI])]) := by
    refine .app ?_
    simp only [List.forall_mem_cons]
    refine ⟨w1, .lam (.app ?_), by simp⟩
    simp only [List.forall_mem_cons]
    exact ⟨.db rfl, by simp⟩
  refine ⟨sgH, app 9 [app 21 [fvar 3 (.arr eI eO)], lam eI (app 10 [db 0 eI])], app 9 [app 21 [fvar 3 (.arr eI eO)], app 10 []], .arr eI eO, w2, ?_,
    ?_, ?_, by decide +kernel, by decide +kernel, by decide +kernel⟩
  · refine .app ?_
    simp only [List.forall_mem_cons]
    exact ⟨w1, .app (by simp), by simp⟩
  · refine .single (.appR ?_)
    exact Eta.eta eI (.cn 10)
  · exact HOProof.normal_of_flag _ w2 (by decide +kernel)

end Props
end Verif
