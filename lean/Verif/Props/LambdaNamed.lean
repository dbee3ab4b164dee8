import Verif.HO.NamedProof
import Verif.Props.Lambda

/-!
# C65: from named to nameless lambda terms

`HInterp D` interprets symbols, application and abstraction in any set `D`; `NTerm.eval` and `Lam.eval` give the values of named and of nameless
terms.  Equal values in all interpretations means equality up to the names of bound variables.
-/

namespace Verif
namespace Props

open HTerm

/-- The conversion keeps the value of a term in every interpretation, for every assignment. -/
theorem toDB_value {D : Type} (M : HInterp D) (ρ : Nat × HTy → D) (e : Nat → D) (t : NTerm) :
    (NTerm.conv (fun _ => none) 0 t).1.toL.eval M ρ e = t.eval M ρ := HOProof.conv_value M ρ e t

/-- Afterwards the variables have the bindings they had before, also if a variable is bound several times. -/
theorem toDB_restores (t : NTerm) (b : NTerm.Env) (d : Nat) : (NTerm.conv b d t).2 = b := HOProof.conv_restores t b d

/-- The results are well-formed cells without loose indices, of the same type. -/
theorem toDB_typed {ct : Nat → HTy} {t : NTerm} {ty : HTy} (hw : t.WF) (ht : NTerm.HasTy ct t ty) :
    HTerm.WF (fun _ => none) (NTerm.conv (fun _ => none) 0 t).1 ∧ Lam.HasTy ct (fun _ => none) (NTerm.conv (fun _ => none) 0 t).1.toL ty :=
  ⟨HOProof.conv_wf t _ 0 _ hw (by intro v l h; cases h), HOProof.conv_typed t _ 0 _ _ ht (by intro v l h; cases h)⟩

/-- Two terms get the same representation exactly if they have the same value in all interpretations. -/
theorem toDB_alpha {t u : NTerm} (ht : t.WF) (hu : u.WF) :
    (NTerm.conv (fun _ => none) 0 t).1 = (NTerm.conv (fun _ => none) 0 u).1 ↔
      ∀ (D : Type) (M : HInterp D) (ρ : Nat × HTy → D), t.eval M ρ = u.eval M ρ := by
  constructor
  · intro h D M ρ
    rw [← toDB_value M ρ (fun _ => t.eval M ρ) t, h, toDB_value]
  · intro h
    exact HOProof.toL_inj _ (HOProof.conv_wf t _ 0 (fun _ => none) ht (by intro v l h; cases h)) (HOProof.conv_wf u _ 0 _ hu (by intro v l h; cases h))
      (HOProof.conv_eq_of_values fun ρ => h _ _ ρ)

private theorem shortcut (t : NTerm) : (if t.hasLam then (NTerm.conv (fun _ => none) 0 t).1 else t.plain) = (NTerm.conv (fun _ => none) 0 t).1 := by
  split
  · rfl
  · rename_i h
    exact (HOProof.conv_plain t (by simpa using h)).symm

/-- The exported function: a nameless term with the value of the given one, then its normal form (or the formula `r` of a normal form `r = $true`). -/
theorem namedToDB_spec {sg : HSig} {n : Nat} {t : NTerm} {r : HTerm} (hw : t.WF) (h : NTerm.namedToDB sg n t = some r) :
    ∃ m s : HTerm, (∀ (D : Type) (M : HInterp D) (ρ : Nat × HTy → D) (e : Nat → D), m.toL.eval M ρ e = t.eval M ρ) ∧ Lam.BetaStar m.toL s.toL ∧
      Lam.Normal s.toL ∧ HTerm.WF (fun _ => none) s ∧ (r = s ∨ s = app sg.eqn [r, app 1 []]) := by
  unfold NTerm.namedToDB at h
  rw [shortcut] at h
  obtain ⟨s, h1, h2, h3, h4⟩ := betaNormalize_spec (HOProof.conv_wf t _ 0 (fun _ => none) hw (by intro v l h; cases h)) h
  exact ⟨_, s, fun D M ρ e => toDB_value M ρ e t, h1, h2, h3, h4⟩

/-- It ends on typed terms. -/
theorem namedToDB_terminates {sg : HSig} {t : NTerm} {ty : HTy} (hw : t.WF) (ht : NTerm.HasTy sg.ct t ty) :
    ∃ n r, ∀ k, n ≤ k → NTerm.namedToDB sg k t = some r := by
  unfold NTerm.namedToDB
  rw [shortcut]
  obtain ⟨h1, h2⟩ := toDB_typed hw ht
  exact betaNormalize_terminates h1 h2

/-- Names of bound variables do not matter. -/
theorem namedToDB_alpha {sg : HSig} {n : Nat} {t u : NTerm} (ht : t.WF) (hu : u.WF)
    (h : ∀ (D : Type) (M : HInterp D) (ρ : Nat × HTy → D), t.eval M ρ = u.eval M ρ) : NTerm.namedToDB sg n t = NTerm.namedToDB sg n u := by
  unfold NTerm.namedToDB
  rw [shortcut, shortcut, (toDB_alpha ht hu).2 h]

private abbrev nI : HTy := .base 0
private def nCt : Nat → HTy := fun f => if f = 10 then .arr nI nI else if f = 11 then .arr nI (.arr nI nI) else nI
private def nSg : HSig := { ct := nCt, eqn := 20, qall := 21, qex := 22, logical := fun f => f == 8 }

/-- `λX. g X ((λX. f X) X)`: the inner binder hides the outer one, and the outer one is back afterwards. -/
private def tmN : NTerm := .lam 2 nI (.app 11 [.papp (.lam 2 nI (.app 10 [.var 2 nI])) [.var 2 nI], .var 2 nI])
/-- `λX. g X ((λZ. f Z) X)` -/
private def tmN' : NTerm := .lam 2 nI (.app 11 [.papp (.lam 3 nI (.app 10 [.var 3 nI])) [.var 2 nI], .var 2 nI])

example : NTerm.namedToDB nSg 5 tmN = some (lam nI (app 11 [app 10 [db 0 nI], db 0 nI])) := by decide +kernel
example : NTerm.namedToDB nSg 5 tmN' = NTerm.namedToDB nSg 5 tmN := by decide +kernel

example : tmN.WF ∧ NTerm.HasTy nSg.ct tmN (.arr nI nI) := by
  constructor
  · refine .lam (.app ?_)
    simp only [List.forall_mem_cons]
    refine ⟨.papp rfl (by simp) (.lam (.app ?_)) ?_, .var _ _, by simp⟩
    · simp only [List.forall_mem_cons]; exact ⟨.var _ _, by simp⟩
    · simp only [List.forall_mem_cons]; exact ⟨.var _ _, by simp⟩
  · refine .lam (.app (tys := [nI, nI]) rfl rfl ?_)
    simp only [List.zip_cons_cons, List.forall_mem_cons]
    refine ⟨.papp (tys := [nI]) (.lam (.app (tys := [nI]) rfl rfl ?_)) rfl ?_, .var, by simp⟩
    · simp only [List.zip_cons_cons, List.forall_mem_cons]; exact ⟨.var, by simp⟩
    · simp only [List.zip_cons_cons, List.forall_mem_cons]; exact ⟨.var, by simp⟩

/-- Abstraction over different variables: the result is the function that maps values of the variables to the value of the term, the first variable
being the outermost. -/
theorem abstractVars_value {D : Type} (M : HInterp D) (ρ : Nat × HTy → D) (e : Nat → D) {m : HTerm} {vs : List (Nat × HTy)} (hn : vs.Nodup)
    (hw : HTerm.WF (fun _ => none) m) : (abstractVars m vs).toL.eval M ρ e = M.fns (fun ρ' => m.toL.eval M ρ' e) ρ vs :=
  HOProof.abstractVars_eval M ρ e m vs hn fun _ hl => HOProof.wf_loose hw hl rfl

/-- The result is well-formed and has the function type. -/
theorem abstractVars_typed {ct : Nat → HTy} {m : HTerm} {ty : HTy} (vs : List (Nat × HTy)) (hw : HTerm.WF (fun _ => none) m)
    (ht : Lam.HasTy ct (fun _ => none) m.toL ty) :
    HTerm.WF (fun _ => none) (abstractVars m vs) ∧ Lam.HasTy ct (fun _ => none) (abstractVars m vs).toL (HTy.arrs (vs.map (·.2)) ty) :=
  ⟨HOProof.abstractVars_wf vs hw, HOProof.abstractVars_typed vs ht⟩

/-- `g X (λ. f Y)` over `X, Y` -/
private def mA : HTerm := app 12 [fvar 2 nI, lam nI (app 10 [fvar 4 nI])]

example : abstractVars mA [(2, nI), (4, nI)] = lam nI (lam nI (app 12 [db 1 nI, lam nI (app 10 [db 1 nI])])) := by decide +kernel

example : HTerm.WF (fun _ => none) mA ∧ [(2, nI), (4, nI)].Nodup := by
  refine ⟨.app ?_, by decide⟩
  simp only [List.forall_mem_cons]
  refine ⟨.fvar _ _, .lam (.app ?_), by simp⟩
  simp only [List.forall_mem_cons]
  exact ⟨.fvar _ _, by simp⟩

end Props
end Verif
