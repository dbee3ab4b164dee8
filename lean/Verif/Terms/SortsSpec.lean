import Verif.Terms.Sorts

/-!
# Well-sorted literals
-/

namespace Verif
namespace Sorts

/-- A typing of the symbols. -/
abbrev Typing := Sym → Option FTy

mutual
/-- The sort of a term, if it is well-sorted; arguments are not formulas. -/
def sortOf (τ : Typing) : PTm → Option Nat
  | .var _ s => some (s + 1)
  | .fn f as =>
    match sortsOf τ as with
    | some ss =>
      match τ (f, ss.length) with
      | some ty => if ty.args = ss then some ty.ret else none
      | none => none
    | none => none
def sortsOf (τ : Typing) : List PTm → Option (List Nat)
  | [] => some []
  | a :: as =>
    match sortOf τ a with
    | some s =>
      if s = 0 then none
      else
        match sortsOf τ as with
        | some ss => some (s :: ss)
        | none => none
    | none => none
end

/-- An atom is a formula, the sides of an equation are terms of one sort. -/
def LitOK (τ : Typing) : PLit → Prop
  | .atom t => sortOf τ t = some 0
  | .eqn l r => ∃ s, s ≠ 0 ∧ sortOf τ l = some s ∧ sortOf τ r = some s

mutual
/-- The term with the sorts of its subterms. -/
def annot (τ : Typing) : PTm → STm
  | .var x s => .var x s
  | .fn f as => .fn f (annots τ as) ((sortOf τ (.fn f as)).getD 0)
def annots (τ : Typing) : List PTm → List STm
  | [] => []
  | a :: as => annot τ a :: annots τ as
end

def annotLit (τ : Typing) : PLit → SLit
  | .atom t => (annot τ t, none)
  | .eqn l r => (annot τ l, some (annot τ r))

/-- The literals of a problem. -/
def litsOf : List Item → List PLit
  | [] => []
  | .decl _ _ :: is => litsOf is
  | .lit l :: is => l :: litsOf is

/-- A symbol without a declaration is a predicate or has the default sort. -/
def Default (dflt : Nat → Nat) (k : Sym) (ty : FTy) : Prop := ty.ret = dflt k.1 ∨ ty.ret = 0

/-- Literals that are well-sorted with these declarations: there is a typing that agrees with the declarations and gives the other symbols the default
sort or makes them predicates. -/
def WellSorted (dflt : Nat → Nat) (ds : List (Nat × FTy)) (ls : List PLit) : Prop :=
  ∃ τ : Typing, (∀ d ∈ ds, τ (d.1, d.2.args.length) = some d.2) ∧
    (∀ k ty, τ k = some ty → (∃ d ∈ ds, (d.1, d.2.args.length) = k) ∨ Default dflt k ty) ∧ ∀ l ∈ ls, LitOK τ l

end Sorts
end Verif
