import Verif.Terms.FPIndex

/-!
# Specification of fingerprint indices
-/

namespace Verif

/-- A first-order term: symbol codes are positive, none is the code of a lambda or of the
applied-variable symbol, and every symbol has its declared number of arguments. -/
def FPTermOK (ar : Nat → Nat) (t : Term) : Prop :=
  ∀ f ts, Term.app f ts ∈ t.subterms → 0 < f ∧ f ≠ 17 ∧ f ≠ 19 ∧ ts.length = ar f

/-- The predicate-position property depends on the symbol only (needed for `fp` only). -/
def FPCtx.OK (x : FPCtx) : Prop :=
  x.kind = .fpfp → ∀ f ts us, x.pp (.app f ts) = x.pp (.app f us)

/-- Histories of an index: allocation, insertions, deletions, queries, and fingerprints
computed for other indices, with the set of stored entries. -/
inductive FPReach {β : Type} [DecidableEq β] (x : FPCtx) : FPIndex β → (Term → β → Prop) → Prop
  | alloc : FPReach x (FPIndex.alloc {}) fun _ _ => False
  | insert {ix S} (t : Term) (b : β) : FPReach x ix S → FPTermOK x.ar t →
      FPReach x (fpInsert x ix t b) fun u c => S u c ∨ (u = t ∧ c = b)
  | delete {ix S} (t : Term) (del : β → Bool) : FPReach x ix S → FPTermOK x.ar t →
      FPReach x (fpDelete x ix t del) fun u c => S u c ∧ ¬ (u = t ∧ del c = true)
  | query_unif {ix S} (t : Term) : FPReach x ix S → FPTermOK x.ar t → FPReach x (fpFindUnifiable x ix t).2 S
  | query_match {ix S} (t : Term) : FPReach x ix S → FPTermOK x.ar t → FPReach x (fpFindMatchable x ix t).2 S
  | other {ix S} (t : Term) : FPReach x ix S → FPTermOK x.ar t →
      FPReach x ⟨fpTouch x.pp x.kind ix.st t, ix.tree⟩ S

end Verif
