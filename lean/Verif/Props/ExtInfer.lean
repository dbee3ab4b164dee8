import Verif.HO.ExtInferProof
import Verif.Props.HoInfer

/-!
# C89: abstracting inferences are sound
-/

namespace Verif
namespace Props

open HoInf

/-- Two terms of one type have the same value in a model wherever all pairs found by comparing them have; the two terms of a pair have the same type. -/
theorem disagreements_suffice {G : Nat → HTy} (M : HInt G) {ty : HTm → HTy} {t s : HTm} {ds : List (HTm × HTm)} (ht : tyOf G t = some (ty t))
    (hs : tyOf G s = some (ty s)) (h : findDisagreements ty t s = some ds) (v : M.Val) :
    ((∀ p ∈ ds, M.val v p.1 = M.val v p.2) → M.val v t = M.val v s) ∧ (M.Typed v → ∀ p ∈ ds, ∃ σ, tyOf G p.1 = some σ ∧ tyOf G p.2 = some σ) :=
  ⟨(find_spec ht hs h).1 M v, fun hv => (find_spec ht hs h).2.1 ⟨M, v, hv⟩⟩

/-- The clauses made by abstracting equality resolution hold in every model of the clause. -/
theorem ext_equality_resolution_sound {G : Nat → HTy} {M : HInt G} {ty : HTm → HTy} {sel : XLit → Bool} {cl new : List XLit}
    (hT : ∀ c ∈ cl, tyOf G c.l = some (ty c.l) ∧ tyOf G c.r = some (ty c.r)) (h : M.XHolds cl) (hn : new ∈ computeExtEqRes ty sel [] cl) : M.XHolds new :=
  computeExtEqRes_sound cl [] hT (by simpa using h) new hn

/-- The clauses made by abstracting equality factoring hold in every model of the clause. -/
theorem ext_equality_factoring_sound {G : Nat → HTy} {M : HInt G} {ty : HTm → HTy} {elig : HTm → Bool} {cl new : List XLit}
    (hT : ∀ c ∈ cl, tyOf G c.l = some (ty c.l) ∧ tyOf G c.r = some (ty c.r)) (h : M.XHolds cl) (hn : new ∈ computeExtEqFact ty elig [] cl) : M.XHolds new :=
  computeExtEqFact_sound cl [] hT (by simpa using h) new hn

/-- The clause made by abstracting superposition of a literal `fl` of one clause into a literal `il` of another holds in every model of both. -/
theorem ext_superposition_sound {G : Nat → HTy} {M : HInt G} {ty : HTm → HTy} {fl il : XLit} {fs is : Bool} {f₁ f₂ i₁ i₂ new : List XLit} {p : List Nat}
    (hf : tyOf G (fl.side fs) = some (ty (fl.side fs))) (hi : WellTyped G ty (il.side is)) (h1 : M.XHolds (f₁ ++ fl :: f₂)) (h2 : M.XHolds (i₁ ++ il :: i₂))
    (hn : extSup ty fl fs (f₁ ++ f₂) il is p (i₁ ++ i₂) = some new) : M.XHolds new := by
  have split : ∀ {a b : List XLit} {c : XLit}, M.XHolds (a ++ c :: b) → ∀ v, M.Typed v → M.XTrue v c ∨ ∃ d ∈ a ++ b, M.XTrue v d := by
    intro a b c h v hv
    obtain ⟨e, he, ht⟩ := h v hv
    have : e = c ∨ e ∈ a ++ b := by
      simp only [List.mem_append, List.mem_cons] at he ⊢
      tauto
    rcases this with rfl | he
    · exact .inl ht
    · exact .inr ⟨e, he, ht⟩
  exact extSup_sound hf hi (split h1) (split h2) hn

/-- A disagreement is found exactly if the two terms are different, have one type, and some pair of subterms is of the type of truth values or a function
type and no variable. -/
theorem disagreements_found_iff {ty : HTm → HTy} {t s : HTm} : (findDisagreements ty t s).isSome ↔
    t ≠ s ∧ ty t = ty s ∧ ∃ p ∈ disagree t s, (ty p.2 = .base 0 ∨ ∃ a b, ty p.2 = .arr a b) ∧ (∀ x τ, p.1 ≠ .var x τ) ∧ ∀ x τ, p.2 ≠ .var x τ := by
  have he : ∀ τ, extElig τ = true ↔ τ = .base 0 ∨ ∃ a b, τ = .arr a b := by
    intro τ
    cases τ <;> simp [extElig]
  have hv : ∀ u, isFreeVar u = false ↔ ∀ x τ, u ≠ .var x τ := by
    intro u
    cases u <;> simp [isFreeVar]
  have hq : tEq t s = true ↔ t = s := ⟨tEq_of t s, fun h => h ▸ tEq_self t⟩
  unfold findDisagreements
  by_cases h1 : ty t ≠ ty s ∨ tEq t s = true
  · rw [if_pos h1]
    rw [hq] at h1
    simp only [Option.isSome_none, Bool.false_eq_true, false_iff]
    rintro ⟨a, b, _⟩
    rcases h1 with h | h
    · exact h b
    · exact a h
  · rw [if_neg h1]
    rw [not_or, not_not, hq] at h1
    have : (disagree t s).any (fun p => extElig (ty p.2) && !isFreeVar p.2 && !isFreeVar p.1) = true ↔
        ∃ p ∈ disagree t s, (ty p.2 = .base 0 ∨ ∃ a b, ty p.2 = .arr a b) ∧ (∀ x τ, p.1 ≠ .var x τ) ∧ ∀ x τ, p.2 ≠ .var x τ := by
      rw [List.any_eq_true]
      refine exists_congr fun p => and_congr_right fun _ => ?_
      rw [Bool.and_eq_true, Bool.and_eq_true, Bool.not_eq_true', Bool.not_eq_true', hv, hv, he]
      tauto
    split
    · rename_i h
      exact ⟨fun _ => ⟨h1.2, h1.1, this.1 h⟩, fun _ => rfl⟩
    · rename_i h
      exact ⟨fun h => (by cases h), fun ⟨_, _, hx⟩ => absurd (this.2 hx) h⟩

namespace ExtInferEx

/-- `h : ($i > $i) > $i`, the other symbols unary functions. -/
def G₁ : Nat → HTy := fun n => if n = 0 then .arr (.arr (.base 1) (.base 1)) (.base 1) else .arr (.base 1) (.base 1)

def hf : HTm := .fn 0 [.fn 1 []]

def hg : HTm := .fn 0 [.fn 2 []]

def ty₁ : HTm → HTy
  | .fn _ [_] => .base 1
  | .var _ τ => τ
  | _ => .arr (.base 1) (.base 1)

/-- From `h f ≠ h g ∨ f = g` follows `f ≠ g ∨ f = g`; the hypotheses are met (with the model where all functions are constant). -/
def eqres : List XLit := [⟨false, hf, hg⟩, ⟨true, .fn 1 [], .fn 2 []⟩]

example : (∀ c ∈ eqres, tyOf G₁ c.l = some (ty₁ c.l) ∧ tyOf G₁ c.r = some (ty₁ c.r)) ∧ (HoInferEx.std G₁).XHolds eqres ∧
    computeExtEqRes ty₁ (fun _ => true) [] eqres = [[⟨false, .fn 2 [], .fn 1 []⟩, ⟨true, .fn 1 [], .fn 2 []⟩]] := by
  refine ⟨?_, fun v _ => ⟨⟨true, .fn 1 [], .fn 2 []⟩, by simp [eqres], ?_⟩, rfl⟩
  · simp only [eqres, List.mem_cons, List.not_mem_nil, or_false, forall_eq_or_imp, forall_eq]
    exact ⟨⟨rfl, rfl⟩, rfl, rfl⟩
  · simp only [HInt.XTrue, if_true]
    rfl

/-- From `h f = X ∨ h g = h f` follows `f ≠ g ∨ X ≠ h f ∨ h g = h f`. -/
def eqfact : List XLit := [⟨true, hf, .var 0 (.base 1)⟩, ⟨true, hg, hf⟩]

example : (∀ c ∈ eqfact, tyOf G₁ c.l = some (ty₁ c.l) ∧ tyOf G₁ c.r = some (ty₁ c.r)) ∧ (HoInferEx.std G₁).XHolds eqfact ∧
    computeExtEqFact ty₁ (fun t => tEq t hf || tEq t hg) [] eqfact = [[⟨false, .fn 2 [], .fn 1 []⟩, ⟨false, .var 0 (.base 1), hf⟩, ⟨true, hg, hf⟩]] := by
  refine ⟨?_, fun v _ => ⟨⟨true, hg, hf⟩, by simp [eqfact], ?_⟩, rfl⟩
  · simp only [eqfact, List.mem_cons, List.not_mem_nil, or_false, forall_eq_or_imp, forall_eq]
    exact ⟨⟨rfl, rfl⟩, rfl, rfl⟩
  · simp only [HInt.XTrue, if_true]
    rfl

/-- From `h f = f (h f)` and `f (h g) = h g` follows `f ≠ g ∨ f (f (h f)) = h g`. -/
example : tyOf G₁ hf = some (ty₁ hf) ∧ (HoInferEx.std G₁).XHolds ([] ++ ⟨true, hf, .fn 1 [hf]⟩ :: []) ∧
    (HoInferEx.std G₁).XHolds ([] ++ ⟨true, .fn 1 [hg], hg⟩ :: []) ∧ WellTyped G₁ ty₁ (.fn 1 [hg]) ∧
    extSup ty₁ ⟨true, hf, .fn 1 [hf]⟩ true ([] ++ []) ⟨true, .fn 1 [hg], hg⟩ true [0] ([] ++ []) =
      some [⟨false, .fn 2 [], .fn 1 []⟩, ⟨true, .fn 1 [.fn 1 [hf]], hg⟩] := by
  refine ⟨rfl, fun v _ => ⟨_, List.mem_singleton.2 rfl, ?_⟩, fun v _ => ⟨_, List.mem_singleton.2 rfl, ?_⟩, ?_, rfl⟩
  · simp only [HInt.XTrue, if_true]
    rfl
  · simp only [HInt.XTrue, if_true]
    rfl
  · intro p u h
    match p with
    | [] => rw [subAt] at h; cases h; rfl
    | [0] => cases h; rfl
    | [0, 0] => cases h; rfl
    | 0 :: 0 :: _ :: _ => cases h
    | 0 :: (_ + 1) :: _ => cases h
    | (_ + 1) :: _ => cases h

/-- The right side of a literal is not used for factoring if the left side has no eligible subterm: `X = h f ∨ Y = h g` gives nothing, although the same
literals with the sides exchanged give a clause. -/
theorem factoring_misses_right_sides :
    computeExtEqFact ty₁ (fun t => tEq t hf || tEq t hg) [] [⟨true, .var 0 (.base 1), hf⟩, ⟨true, .var 1 (.base 1), hg⟩] = [] ∧
    computeExtEqFact ty₁ (fun t => tEq t hf || tEq t hg) [] [⟨true, hf, .var 0 (.base 1)⟩, ⟨true, hg, .var 1 (.base 1)⟩] =
      [[⟨false, .fn 2 [], .fn 1 []⟩, ⟨false, .var 0 (.base 1), .var 1 (.base 1)⟩, ⟨true, hg, .var 1 (.base 1)⟩]] := ⟨rfl, rfl⟩

end ExtInferEx
end Props
end Verif
