import Verif.Clauses.Grounding
import Verif.Clauses.Sem

/-!
# Grounding of near-propositional clause sets: specification
-/

namespace Verif
namespace Ground

/-- The clause sets `eground` is made for, after equations have been recoded: the literals are well-typed atoms, Boolean terms occur only as
atoms. -/
structure AtomClause (sg : Sig) (C : List Lit) : Prop where
  atom : ∀ L ∈ C, L.r = tTrue ∧ ∃ p ts, L.l = .app p ts ∧ p ≠ 1 ∧ p ≠ 2 ∧ sg.fty p = sg.fty 1 ∧ ts.map sg.ty = sg.fargs p ∧
    ∀ t ∈ ts, sg.WT t ∧ ∀ u ∈ t.subterms, sg.ty u ≠ sg.fty 1

/-- What is assumed about the input: the signature, the table of symbols and the clauses fit together. -/
structure Input (sg : Sig) (tb : List SymInfo) (sk : Nat) (vs : List Lit → List Nat) (S : List (List Lit)) : Prop where
  sig : SigOK sg
  dist : ∀ f, sg.distinct f → sg.fty f ≠ sg.fty 1
  cl : ∀ C ∈ S, AtomClause sg C
  syms : ∀ C ∈ S, ∀ L ∈ C, ∀ t ∈ atomArgs L.l, ∀ f us, Term.app f us ∈ t.subterms → ∃ s ∈ tb, s.code = f ∧ s.pred = false ∧ s.special = false
  arity : ∀ s ∈ tb, s.arity = (sg.fargs s.code).length
  sk : sg.fargs sk = []
  vars : ∀ C ∈ S, ∀ x, x ∈ vs C ↔ x ∈ cvars C

/-- There are only finitely many ground terms, or no variables. -/
def NearProp (tb : List SymInfo) (S : List (List Lit)) : Prop :=
  (∀ s ∈ tb, s.pred = false → s.special = false → s.arity = 0) ∨ ∀ C ∈ S, cvars C = []

/-- The atoms of instances. -/
def InstAtom (S : List (List Lit)) (cs : List Term) (a : Term) : Prop := ∃ C ∈ S, ∃ L ∈ C, ∃ σ : Nat → Term, (∀ x ∈ cvars C, σ x ∈ cs) ∧ a = L.l.subst σ

/-- The clauses of a file: the numbers up to each 0. -/
def dimacsClauses : List Int → List Int → List (List Int)
  | _, [] => []
  | acc, i :: l => if i = 0 then acc :: dimacsClauses [] l else dimacsClauses (acc ++ [i]) l

/-- Truth of a numeric literal. -/
def NumSat (β : Nat → Bool) (i : Int) : Prop := β i.natAbs = decide (0 < i)

/-- The assignment satisfies all clauses of the file. -/
def DSat (β : Nat → Bool) (l : List Int) : Prop := ∀ c ∈ dimacsClauses [] l, ∃ i ∈ c, NumSat β i

end Ground
end Verif
