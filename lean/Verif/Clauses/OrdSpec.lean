import Verif.Orderings.Spec
import Verif.Clauses.Lit
import Mathlib.Data.Multiset.Count
import Mathlib.Data.Multiset.AddSub
import Mathlib.Data.Multiset.Filter

/-!
# What literal orderings should be

`OrdCmp D cmp gt`: on the terms of `D` the comparison function answers exactly the strict ordering `gt`.  `MulGt` is the textbook
(Dershowitz-Manna) multiset extension and `Lit.mset` the usual multiset of a literal.
-/

namespace Verif

/-- The comparison function `cmp` decides the strict partial ordering `gt` on `D`. -/
structure OrdCmp (D : Term → Prop) (cmp : Term → Term → Cmp) (gt : Term → Term → Prop) : Prop where
  greater : ∀ {s t}, D s → D t → (cmp s t = .greater ↔ gt s t)
  lesser : ∀ {s t}, D s → D t → (cmp s t = .lesser ↔ gt t s)
  equal : ∀ {s t}, D s → D t → (cmp s t = .equal ↔ s = t)
  unc : ∀ {s t}, D s → D t → (cmp s t = .uncomparable ↔ s ≠ t ∧ ¬ gt s t ∧ ¬ gt t s)
  irrefl : ∀ {s}, D s → ¬ gt s s
  trans : ∀ {s t u}, D s → D t → D u → gt s t → gt t u → gt s u

/-- Multiset extension of an ordering (Dershowitz and Manna): replace a non-empty part by smaller elements. -/
def MulGt (gt : Term → Term → Prop) (M N : Multiset Term) : Prop :=
  ∃ X Y Z : Multiset Term, M = Z + X ∧ N = Z + Y ∧ X ≠ 0 ∧ ∀ y ∈ Y, ∃ x ∈ X, gt x y

/-- The multiset of a literal: `{s, t}` for `s = t`, `{s, s, t, t}` for `s ≠ t`. -/
def Lit.mset (L : Lit) : Multiset Term := if L.pos then {L.l, L.r} else {L.l, L.l, L.r, L.r}

/-- All terms of the literal are in `D`. -/
def Lit.In (D : Term → Prop) (L : Lit) : Prop := D L.l ∧ D L.r

end Verif
