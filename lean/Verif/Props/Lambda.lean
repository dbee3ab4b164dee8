import Verif.HO.LambdaProof

/-!
# C63: beta normalisation of lambda terms

`Lam` (Verif/HO/Lam.lean) is the textbook calculus with de Bruijn indices and explicitly typed binders: `Lam.Beta` is one reduction step, `Lam.Normal`
says that no step is possible, `Lam.HasTy` is the simple type system.  `HTerm.toL` translates the cells of the prover, `HTerm.WF` says that the cells
are as the term bank makes them.
-/

namespace Verif
namespace Props

open Lam HTerm

private def tI : HTy := .base 0
private def tO : HTy := .base 1
private def ctx0 : Nat → Option HTy := fun _ => none
/-- 5 is `f : i → i → i`, 6 is `a : i`, 7 is `b : i`. -/
private def ctE : Nat → HTy := fun f => if f = 5 then .arr tI (.arr tI tI) else tI
/-- `(λx y. f y x) a b` -/
private def tmE : HTerm := papp (lam tI (lam tI (app 5 [db 0 tI, db 1 tI]))) [app 6 [], app 7 []]
private theorem tmE_wf : WF ctx0 tmE := by
  refine .papp (.inr rfl) (by simp) (.lam (.lam (.app ?_))) ?_
  · simp only [List.forall_mem_cons]
    exact ⟨.db rfl, .db rfl, by simp⟩
  · simp only [List.forall_mem_cons]
    exact ⟨.app (by simp), .app (by simp), by simp⟩
private theorem tmE_ty : HasTy ctE ctx0 tmE.toL tI := by
  have h5 : HasTy ctE (fun i => match i with | 0 => some tI | i + 1 => (fun i => match i with | 0 => some tI | i + 1 => ctx0 i) i) (.cn 5)
      (.arr tI (.arr tI tI)) := HasTy.cn (ct := ctE) (f := 5)
  have h6 : HasTy ctE ctx0 (.cn 6) tI := HasTy.cn (ct := ctE) (f := 6)
  have h7 : HasTy ctE ctx0 (.cn 7) tI := HasTy.cn (ct := ctE) (f := 7)
  exact .app (.app (.lam (.lam (.app (.app h5 (.bv rfl)) (.bv rfl)))) h6) h7

/-- Shifting by a non-negative amount renames exactly the loose variables: those below the cut-off `d` stay. -/
theorem shift_spec (k d : Nat) (t : HTerm) : (t.shift k d).toL = t.toL.ren fun i => if d ≤ i then i + k else i := HOProof.toL_shift k t d

example : (lam tI (app 5 [db 0 tI, db 1 tI])).shiftDB 3 = lam tI (app 5 [db 0 tI, db 4 tI]) := by decide +kernel

/-- Replacing bound variables is substitution: index `i` of the outermost binders gets the `i`-th term, shifted below the binders passed; the indices
of variables bound further outside are lowered. -/
theorem replaceBound_spec (bs : List HTerm) (t : HTerm) : (t.replaceBound bs 0).toL =
    t.toL.subst fun i => if h : i < bs.length then bs[i].toL else .bv (i - bs.length) := by
  rw [HOProof.toL_replaceBound]
  congr 1
  funext i
  unfold HOProof.bsub
  by_cases h : i < bs.length
  · simp [h, HOProof.ren_fun_id]
  · simp [h]

example : (lam tI (app 5 [db 0 tI, db 1 tI])).replaceBound [app 6 [], app 7 []] 0 = lam tI (app 5 [db 0 tI, app 6 []]) := by decide +kernel
example : (app 5 [lam tI (db 1 tI), db 2 tI]).replaceBound [db 4 tI, app 7 []] 0 = app 5 [lam tI (db 5 tI), db 0 tI] := by decide +kernel

/-- One weak head step is a sequence of beta steps. -/
theorem whnf_beta (t : HTerm) : BetaStar t.toL t.whnfStep.toL := HOProof.toL_whnfStep t

/-- At a redex it makes at least one step, and the cells stay well-formed. -/
theorem whnf_progress {Γ : Nat → Option HTy} {ty : HTy} {b : HTerm} {as : List HTerm} (hw : WF Γ (papp (lam ty b) as)) :
    Relation.TransGen Beta (papp (lam ty b) as).toL (papp (lam ty b) as).whnfStep.toL ∧ WF Γ (papp (lam ty b) as).whnfStep :=
  ⟨HOProof.whnfStep_trans hw, HOProof.wf_whnfStep hw⟩

example : tmE.whnfStep = app 5 [app 7 [], app 6 []] := by decide +kernel
example : (papp (lam tI (lam tI (app 5 [db 0 tI, db 1 tI]))) [app 6 []]).whnfStep = lam tI (app 5 [db 0 tI, app 6 []]) := by decide +kernel

/-- The flag in the term cell tells exactly whether there is a redex. -/
theorem beta_flag_exact {Γ : Nat → Option HTy} {t : HTerm} (hw : WF Γ t) : t.betaRed = false ↔ Normal t.toL := by
  constructor
  · exact HOProof.normal_of_flag t hw
  · intro hn
    cases h : t.betaRed with
    | false => rfl
    | true =>
      obtain ⟨n, hb⟩ := HOProof.redex_of_flag t hw h
      exact absurd hb (hn n)

example : tmE.betaRed = true := by decide +kernel

/-- The result of normalisation: reachable by beta steps, without redex, with well-formed cells. -/
theorem betaNorm_correct {n : Nat} {Γ : Nat → Option HTy} {t r : HTerm} (hw : WF Γ t) (h : betaNorm n t = some r) :
    BetaStar t.toL r.toL ∧ Normal r.toL ∧ WF Γ r := by
  obtain ⟨h1, h2, h3⟩ := HOProof.betaNorm_spec n hw h
  exact ⟨h1, HOProof.normal_of_flag r h3 h2, h3⟩

/-- Normalisation of a typed term ends, and the result has the same type. -/
theorem betaNorm_terminates {ct : Nat → HTy} {Γ : Nat → Option HTy} {t : HTerm} {ty : HTy} (hw : WF Γ t) (ht : HasTy ct Γ t.toL ty) :
    ∃ n r, (∀ k, n ≤ k → betaNorm k t = some r) ∧ BetaStar t.toL r.toL ∧ Normal r.toL ∧ WF Γ r ∧ HasTy ct Γ r.toL ty := by
  obtain ⟨n, r, h⟩ := HOProof.betaNorm_total hw ht.sn
  obtain ⟨h1, h2, h3⟩ := betaNorm_correct hw h
  exact ⟨n, r, fun k hk => HOProof.betaNorm_le hk h, h1, h2, h3, ht.star h1⟩

example : betaNorm 3 tmE = some (app 5 [app 7 [], app 6 []]) ∧ WF ctx0 tmE ∧ HasTy ctE ctx0 tmE.toL tI := ⟨by decide +kernel, tmE_wf, tmE_ty⟩

/-- Without types it need not end: `(λx. x x) (λx. x x)`. -/
theorem betaNorm_untyped_diverges : ∃ t : HTerm, ∀ n, betaNorm n t = none := by
  refine ⟨papp (lam tI (papp (db 0 tI) [db 0 tI])) [lam tI (papp (db 0 tI) [db 0 tI])], ?_⟩
  intro n
  induction n with
  | zero => rfl
  | succ n ih =>
    have e : whnfStep (papp (lam tI (papp (db 0 tI) [db 0 tI])) [lam tI (papp (db 0 tI) [db 0 tI])]) =
        papp (lam tI (papp (db 0 tI) [db 0 tI])) [lam tI (papp (db 0 tI) [db 0 tI])] := by decide +kernel
    have e2 : betaRed (papp (lam tI (papp (db 0 tI) [db 0 tI])) [lam tI (papp (db 0 tI) [db 0 tI])]) = true := by decide +kernel
    simp only [betaNorm, e, e2, if_true]
    exact ih

/-- The normal form is canonical: two terms get the same (shared) normal form exactly if they are equal modulo beta. -/
theorem betaNorm_canonical {n k : Nat} {Γ : Nat → Option HTy} {t u r s : HTerm} (ht : WF Γ t) (hu : WF Γ u) (hr : betaNorm n t = some r)
    (hs : betaNorm k u = some s) : r = s ↔ BetaEq t.toL u.toL := by
  obtain ⟨a1, a2, a3⟩ := betaNorm_correct ht hr
  obtain ⟨b1, b2, b3⟩ := betaNorm_correct hu hs
  constructor
  · rintro rfl
    exact .trans _ _ _ (star_betaEq a1) (.symm _ _ (star_betaEq b1))
  · intro h
    exact HOProof.toL_inj r a3 b3 (normal_unique h a1 b1 a2 b2)

example : betaNorm 3 tmE = betaNorm 1 (app 5 [app 7 [], app 6 []]) := by decide +kernel

/-- The exported function returns the normal form, or, if that is an equation `s = $true` with a formula `s`, this formula. -/
theorem betaNormalize_spec {sg : HSig} {n : Nat} {Γ : Nat → Option HTy} {t r : HTerm} (hw : WF Γ t) (h : betaNormalize sg n t = some r) :
    ∃ s, BetaStar t.toL s.toL ∧ Normal s.toL ∧ WF Γ s ∧ (r = s ∨ s = app sg.eqn [r, app 1 []]) := by
  unfold betaNormalize at h
  split at h
  · obtain ⟨s, hs, rfl⟩ := Option.map_eq_some_iff.1 h
    obtain ⟨h1, h2, h3⟩ := betaNorm_correct hw hs
    refine ⟨s, h1, h2, h3, ?_⟩
    unfold unwrapEqn
    split
    · split
      · rename_i hc
        obtain ⟨rfl, rfl, _⟩ := hc
        exact .inr rfl
      · exact .inl rfl
    · exact .inl rfl
  · rename_i hf
    cases h
    exact ⟨t, .refl, HOProof.normal_of_flag t hw (by simpa using hf), hw, .inl rfl⟩

/-- It ends on typed terms. -/
theorem betaNormalize_terminates {sg : HSig} {Γ : Nat → Option HTy} {t : HTerm} {ty : HTy} (hw : WF Γ t) (ht : HasTy sg.ct Γ t.toL ty) :
    ∃ n r, ∀ k, n ≤ k → betaNormalize sg k t = some r := by
  obtain ⟨n, r, h, _⟩ := betaNorm_terminates hw ht
  unfold betaNormalize
  by_cases hb : t.betaRed = true
  · exact ⟨n, unwrapEqn sg r, fun k hk => by simp [hb, h k hk]⟩
  · exact ⟨0, t, fun k _ => by simp [hb]⟩

private def sgE : HSig := { ct := ctE, eqn := 20, qall := 21, qex := 22, logical := fun f => f == 8 }

/-- Because the unwrapping happens only to terms that had a redex, beta-equal terms may get different results: `(λx. x) (p & q) = $true` becomes `p & q`,
`(p & q) = $true` stays. -/
theorem betaNormalize_not_canonical : ∃ (sg : HSig) (t u r s : HTerm), WF (fun _ => none) t ∧ WF (fun _ => none) u ∧ BetaEq t.toL u.toL ∧
    betaNormalize sg 5 t = some r ∧ betaNormalize sg 5 u = some s ∧ r ≠ s := by
  have wa : WF (fun _ => none) (app 8 [app 6 [], app 7 []]) := .app (by
    simp only [List.forall_mem_cons]; exact ⟨.app (by simp), .app (by simp), by simp⟩)
  have w1 : WF (fun _ => none) (app 1 []) := .app (by simp)
  refine ⟨sgE, app 20 [papp (lam tO (db 0 tO)) [app 8 [app 6 [], app 7 []]], app 1 []], app 20 [app 8 [app 6 [], app 7 []], app 1 []],
    app 8 [app 6 [], app 7 []], app 20 [app 8 [app 6 [], app 7 []], app 1 []], ?_, ?_, ?_, by decide +kernel, by decide +kernel, by decide +kernel⟩
  · refine .app ?_
    simp only [List.forall_mem_cons]
    refine ⟨.papp (.inr rfl) (by simp) (.lam (.db rfl)) ?_, w1, by simp⟩
    simp only [List.forall_mem_cons]
    exact ⟨wa, by simp⟩
  · refine .app ?_
    simp only [List.forall_mem_cons]
    exact ⟨wa, w1, by simp⟩
  · exact .rel _ _ (.appL (.appR (.beta _ _ _)))

/-- Up to this unwrapping the result is canonical. -/
theorem betaNormalize_canonical_partial {sg : HSig} {n k : Nat} {Γ : Nat → Option HTy} {t u r s : HTerm} (ht : WF Γ t) (hu : WF Γ u)
    (hr : betaNormalize sg n t = some r) (hs : betaNormalize sg k u = some s) (he : BetaEq t.toL u.toL) :
    r = s ∨ r = app sg.eqn [s, app 1 []] ∨ s = app sg.eqn [r, app 1 []] := by
  obtain ⟨r', a1, a2, a3, a4⟩ := betaNormalize_spec ht hr
  obtain ⟨s', b1, b2, b3, b4⟩ := betaNormalize_spec hu hs
  have e := HOProof.toL_inj r' a3 b3 (normal_unique he a1 b1 a2 b2)
  subst e
  rcases a4 with rfl | a4 <;> rcases b4 with b4 | b4
  · exact .inl b4.symm
  · exact .inr (.inl b4)
  · exact .inr (.inr (b4.trans a4))
  · rw [a4] at b4
    simp only [HTerm.app.injEq, List.cons.injEq, and_true, true_and] at b4
    exact .inl b4

end Props
end Verif
