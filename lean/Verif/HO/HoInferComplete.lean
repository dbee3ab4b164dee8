import Verif.HO.HoInferProof
import Mathlib.Data.List.Induction

/-!
# Which clauses are made
-/

namespace Verif
namespace HoInf

theorem argCongLit_mem (rest : List HLit) (τs : List HTy) : ∀ (n : Nat) (l r : HTm) (i : Nat), i < τs.length →
    ∃ xs : List HTm, xs = (τs.take (i + 1)).zipIdx.map (fun p => HTm.var (n + p.2) p.1) ∧
      (⟨true, xs.foldl applyArg l, some (xs.foldl applyArg r)⟩ :: rest) ∈ argCongLit rest n l r τs := by
  induction τs with
  | nil => intro n l r i h; simp at h
  | cons τ τs ih =>
    intro n l r i hi
    refine ⟨_, rfl, ?_⟩
    rw [argCongLit]
    cases i with
    | zero => simp
    | succ i =>
      obtain ⟨xs, hx, hm⟩ := ih (n + 1) (applyArg l (.var n τ)) (applyArg r (.var n τ)) i (by simpa using hi)
      refine List.mem_cons_of_mem _ ?_
      have e : ((τ :: τs).take (i + 1 + 1)).zipIdx.map (fun p => HTm.var (n + p.2) p.1) = .var n τ :: xs := by
        rw [List.take_succ_cons, List.zipIdx_cons, List.map_cons, hx, Nat.zero_add, List.zipIdx_eq_map_add, List.map_map]
        refine congrArg₂ List.cons rfl (List.map_congr_left fun p _ => ?_)
        simp only [Function.comp_apply]
        congr 1
        omega
      rw [e]
      exact hm

theorem argCong_mem {ty : HTm → HTy} {sel : HLit → Bool} {n : Nat} {l r : HTm} {suf : List HLit} (mid : List HLit) : ∀ (pre : List HLit) (new : List HLit),
    sel ⟨true, l, some r⟩ = true → new ∈ argCongLit (pre ++ mid ++ suf) n l r (ty l).args → new ∈ argCong ty sel n pre (mid ++ ⟨true, l, some r⟩ :: suf) := by
  induction mid with
  | nil =>
    intro pre new hs h
    rw [List.nil_append, argCong]
    refine List.mem_append_left _ ?_
    simp only [hs, Bool.and_self, if_true]
    simpa using h
  | cons c mid ih =>
    intro pre new hs h
    rw [List.cons_append, argCong]
    refine List.mem_append_right _ (ih (pre ++ [c]) new hs ?_)
    simpa using h

theorem posExt_mem {sel : HLit → Bool} {l r : HTm} {suf : List HLit} (mid : List HLit) : ∀ (pre : List HLit) (new : List HLit),
    sel ⟨true, l, some r⟩ = true → new ∈ posExtLit (pre ++ mid ++ suf) (l.args.length + 1) l r → new ∈ posExt sel pre (mid ++ ⟨true, l, some r⟩ :: suf) := by
  induction mid with
  | nil =>
    intro pre new hs h
    rw [List.nil_append, posExt]
    refine List.mem_append_left _ ?_
    simp only [hs, Bool.and_self, if_true]
    simpa using h
  | cons c mid ih =>
    intro pre new hs h
    rw [List.cons_append, posExt]
    refine List.mem_append_right _ (ih (pre ++ [c]) new hs ?_)
    simpa using h

theorem hasVarL_append (x : Nat) (τ : HTy) (as bs : List HTm) : hasVarL x τ (as ++ bs) = (hasVarL x τ as || hasVarL x τ bs) := by
  induction as with
  | nil => simp [hasVarL]
  | cons a as ih => rw [List.cons_append, hasVarL, hasVarL, ih, Bool.or_assoc]

variable {G : Nat → HTy}

theorem applyArg_drop {s : HTm} {τ : HTy} (hs : tyOf G s = some τ) (a : HTm) : (applyArg s a).args.getLast? = some a ∧ dropLastArg (applyArg s a) = s ∧
    ∀ x σ, hasVar x σ s = false → hasVarL x σ (applyArg s a).args.dropLast = false := by
  cases s with
  | var y σ => exact ⟨rfl, rfl, fun x σ h => by simpa [applyArg, HTm.args, hasVarL] using h⟩
  | fn f as =>
    refine ⟨by simp [applyArg, HTm.args], by rw [applyArg, dropLastArg, List.dropLast_concat], fun x σ h => ?_⟩
    rw [applyArg, HTm.args, List.dropLast_concat]
    rwa [hasVar] at h
  | papp as =>
    refine ⟨by simp [applyArg, HTm.args], ?_, fun x σ h => ?_⟩
    · cases as with
      | nil => simp [tyOf] at hs
      | cons h bs =>
        cases bs with
        | nil =>
          rw [tyOf, tysOf] at hs
          obtain ⟨t, _, h2⟩ := Option.bind_eq_some_iff.1 hs
          simp [tyApp1] at h2
        | cons b bs =>
          rw [applyArg]
          cases bs with
          | nil => rfl
          | cons d ds =>
            show HTm.papp ((h :: b :: d :: ds ++ [a]).dropLast) = _
            rw [List.dropLast_concat]
    · rw [applyArg, HTm.args, List.dropLast_concat]
      rwa [hasVar] at h

/-- `t` applied to the variables. -/
def applyVars (t : HTm) (xs : List (Nat × HTy)) : HTm := xs.foldl (fun t p => applyArg t (.var p.1 p.2)) t

/-- The type of the functions with the arguments `ss` and the result `τ`. -/
def arrows (ss : List HTy) (τ : HTy) : HTy := ss.foldr .arr τ

theorem applyVars_ty (xs : List (Nat × HTy)) : ∀ {t : HTm} {τ : HTy}, tyOf G t = some (arrows (xs.map (·.2)) τ) → tyOf G (applyVars t xs) = some τ := by
  induction xs with
  | nil => intro t τ h; exact h
  | cons p xs ih =>
    intro t τ h
    exact ih (applyArg_ty h rfl)

theorem applyArg_hasVar {x : Nat} {σ : HTy} {s a : HTm} (h1 : hasVar x σ s = false) (h2 : hasVar x σ a = false) : hasVar x σ (applyArg s a) = false := by
  cases s with
  | var y τ => rw [applyArg, hasVar, hasVarL, hasVarL, hasVarL, h1, h2]; rfl
  | fn f as => rw [hasVar] at h1; rw [applyArg, hasVar, hasVarL_append, h1, hasVarL, h2]; rfl
  | papp as => rw [hasVar] at h1; rw [applyArg, hasVar, hasVarL_append, h1, hasVarL, h2]; rfl

theorem applyVars_hasVar {p : Nat × HTy} (xs : List (Nat × HTy)) : ∀ {t : HTm}, p ∉ xs → hasVar p.1 p.2 t = false → hasVar p.1 p.2 (applyVars t xs) = false := by
  induction xs with
  | nil => intro t _ h; exact h
  | cons q xs ih =>
    intro t hp h
    rw [List.mem_cons, not_or] at hp
    refine ih hp.2 (applyArg_hasVar h ?_)
    rw [hasVar]
    refine Bool.eq_false_iff.2 fun hq => hp.1 ?_
    simp only [Bool.and_eq_true, beq_iff_eq, decide_eq_true_eq] at hq
    exact Prod.ext hq.1.symm hq.2.symm

theorem posExtLit_step (rest : List HLit) (n : Nat) {l r : HTm} {τ τ' : HTy} {x : Nat} {σ : HTy} (hl : tyOf G l = some τ) (hr : tyOf G r = some τ')
    (h1 : hasVar x σ l = false) (h2 : hasVar x σ r = false) (h3 : rest.any (litHasVar x σ) = false) :
    posExtLit rest (n + 1) (applyArg l (.var x σ)) (applyArg r (.var x σ)) = (⟨true, l, some r⟩ :: rest) :: posExtLit rest n l r := by
  obtain ⟨a1, a2, a3⟩ := applyArg_drop hl (.var x σ)
  obtain ⟨b1, b2, b3⟩ := applyArg_drop hr (.var x σ)
  rw [posExtLit, a1, b1, a2, b2]
  simp only [and_self, if_true, a3 x σ h1, b3 x σ h2, h3, Bool.or_self, Bool.false_eq_true, if_false]

theorem posExtLit_mem (rest : List HLit) (xs : List (Nat × HTy)) : ∀ (n : Nat) {l r : HTm} {τ : HTy}, xs ≠ [] → xs.length ≤ n →
    tyOf G l = some (arrows (xs.map (·.2)) τ) → tyOf G r = some (arrows (xs.map (·.2)) τ) → xs.Nodup →
    (∀ p ∈ xs, hasVar p.1 p.2 l = false ∧ hasVar p.1 p.2 r = false ∧ rest.any (litHasVar p.1 p.2) = false) →
    (⟨true, l, some r⟩ :: rest) ∈ posExtLit rest n (applyVars l xs) (applyVars r xs) := by
  induction xs using List.reverseRecOn with
  | nil => intro n l r τ h; exact absurd rfl h
  | append_singleton ys p ih =>
    intro n l r τ _ hn hl hr hd hv
    have ea : arrows ((ys ++ [p]).map (·.2)) τ = arrows (ys.map (·.2)) (.arr p.2 τ) := by simp [arrows]
    rw [ea] at hl hr
    have ev : ∀ t, applyVars t (ys ++ [p]) = applyArg (applyVars t ys) (.var p.1 p.2) := fun t => by simp [applyVars]
    obtain ⟨n, rfl⟩ : ∃ m, n = m + 1 := ⟨n - 1, by simp at hn; omega⟩
    have hp : p ∉ ys := by
      rw [List.nodup_append] at hd
      exact fun h => hd.2.2 p h p (by simp) rfl
    obtain ⟨v1, v2, v3⟩ := hv p (by simp)
    rw [ev, ev, posExtLit_step rest n (applyVars_ty ys hl) (applyVars_ty ys hr) (applyVars_hasVar ys hp v1) (applyVars_hasVar ys hp v2) v3]
    by_cases he : ys = []
    · subst he; exact List.mem_cons_self
    · refine List.mem_cons_of_mem _ (ih n he (by simp at hn; omega) hl hr (List.nodup_append.1 hd).1 fun q hq => hv q (by simp [hq]))

theorem applyVars_length (xs : List (Nat × HTy)) : ∀ (t : HTm), xs.length ≤ (applyVars t xs).args.length := by
  have h : ∀ (s a : HTm), s.args.length + 1 ≤ (applyArg s a).args.length := by
    intro s a
    cases s <;> simp [applyArg, HTm.args]
  have : ∀ (xs : List (Nat × HTy)) (t : HTm), t.args.length + xs.length ≤ (applyVars t xs).args.length := by
    intro xs
    induction xs with
    | nil => intro t; exact Nat.le_refl _
    | cons p xs ih =>
      intro t
      have h1 := h t (.var p.1 p.2)
      have h2 := ih (applyArg t (.var p.1 p.2))
      have e : applyVars t (p :: xs) = applyVars (applyArg t (.var p.1 p.2)) xs := rfl
      rw [e, List.length_cons]
      omega
  intro t
  have := this xs t
  omega

end HoInf
end Verif
