import Verif.Orderings.Spec

/-!
# Simplification orderings

Specification used for C60 and C61.
-/

namespace Verif

/-- A simplification ordering, total on ground terms and without infinite descent, on the terms in `T`. -/
structure SimplOrder (T : Term → Prop) (gt : Term → Term → Prop) : Prop where
  irrefl : ∀ s, T s → ¬ gt s s
  trans : ∀ s t u, T s → T t → T u → gt s t → gt t u → gt s u
  stable : ∀ s t (σ : Nat → Term), T s → T t → (∀ x, T (σ x)) → gt s t → gt (s.subst σ) (t.subst σ)
  context : ∀ f pre post s t, T (.app f (pre ++ s :: post)) → T t → gt s t →
    gt (.app f (pre ++ s :: post)) (.app f (pre ++ t :: post))
  subterm : ∀ f ts t, T (.app f ts) → t ∈ ts → gt (.app f ts) t
  total : ∀ s t, T s → T t → s.vars = [] → t.vars = [] → gt s t ∨ s = t ∨ gt t s
  wf : ∀ N, ¬ ∃ c : Nat → Term, (∀ n, T (c n) ∧ (c n).SymsBelow N) ∧ ∀ n, gt (c n) (c (n + 1))

end Verif
