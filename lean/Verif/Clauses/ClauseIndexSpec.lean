import Verif.Clauses.ClauseIndex
import Verif.Terms.FPIndexSpec
import Verif.Clauses.RewriteSpec

/-!
# Specification of the clause indices
-/

namespace Verif

/-- The terms of the clause are first-order terms with the declared arities. -/
def ClauseFPOK (ar : Nat → Nat) (C : List XLit) : Prop :=
  ∀ L ∈ C, FPTermOK ar L.lit.l ∧ FPTermOK ar L.lit.r

/-- A negated non-equational literal. -/
def XLit.negAtom (L : XLit) : Prop := L.lit.pos = false ∧ L.lit.r = tTrue

/-- The positions each overlap index has to cover: the sides of the maximal, positive, unselected literals (`from`), and the
non-variable positions of the maximal literals (`into`), apart from the negated atoms themselves, which go to `negp`.
Right sides of oriented literals are excluded. -/
def OvKind.Covers (k : OvKind) (C : List XLit) (q : CPos) : Prop :=
  ∃ L, C[q.lit]? = some L ∧ L.maximal = true ∧ (q.right = true → L.oriented = false) ∧
    match k with
    | .from => L.lit.pos = true ∧ L.selected = false ∧ q.path = []
    | .into => (∃ f ts, clauseAt C q = some (.app f ts)) ∧ ¬ (L.negAtom ∧ q.right = false ∧ q.path = [])
    | .negp => (∃ f ts, clauseAt C q = some (.app f ts)) ∧ L.negAtom ∧ q.right = false ∧ q.path = []

/-- The clauses stored, by their identity. -/
abbrev Stored := Nat → Option (List XLit)

def Stored.set (st : Stored) (c : Nat) (o : Option (List XLit)) : Stored := fun d => if d = c then o else st d

/-- Histories of an overlap index.  A clause is inserted if it is not indexed, and removed only if it is
(CLAUSES/ccl_global_indices.c:216-306: `CPIsGlobalIndexed`); its literals do not change while it is indexed. -/
inductive OvReach (x : FPCtx) (k : OvKind) : FPIndex (Nat × Nat) → Stored → Prop
  | alloc : OvReach x k (FPIndex.alloc {}) fun _ => none
  | insert {ix st} (c : Nat) (C : List XLit) : OvReach x k ix st → st c = none → ClauseFPOK x.ar C →
      OvReach x k (ovInsertClause x k ix c C) (st.set c (some C))
  | delete {ix st} (c : Nat) (C : List XLit) : OvReach x k ix st → st c = some C →
      OvReach x k (ovDeleteClause x k ix c C) (st.set c none)
  | query {ix st} (t : Term) : OvReach x k ix st → FPTermOK x.ar t → OvReach x k (fpFindUnifiable x ix t).2 st
  | other {ix st} (t : Term) : OvReach x k ix st → FPTermOK x.ar t → OvReach x k ⟨fpTouch x.pp x.kind ix.st t, ix.tree⟩ st

/-- Histories of the index for backward rewriting. -/
inductive SubReach (x : FPCtx) (ld : Bool) : FPIndex (Nat × Bool) → Stored → Prop
  | alloc : SubReach x ld (FPIndex.alloc {}) fun _ => none
  | insert {ix st} (c : Nat) (C : List XLit) : SubReach x ld ix st → st c = none → ClauseFPOK x.ar C →
      SubReach x ld (subInsertClause x ld ix c C) (st.set c (some C))
  | delete {ix st} (c : Nat) (C : List XLit) : SubReach x ld ix st → st c = some C →
      SubReach x ld (subDeleteClause x ld ix c C) (st.set c none)
  | query {ix st} (t : Term) : SubReach x ld ix st → FPTermOK x.ar t → SubReach x ld (fpFindMatchable x ix t).2 st
  | other {ix st} (t : Term) : SubReach x ld ix st → FPTermOK x.ar t → SubReach x ld ⟨fpTouch x.pp x.kind ix.st t, ix.tree⟩ st

/-- `d` rewrites `s` at the top; at restricted places more than by renaming variables. -/
def HitAt (x : RWCtx) (d : Demod) (restricted : Bool) (s : Term) : Prop :=
  (∃ right u, TopStep x d right s u) ∧ (restricted = true → ¬ OnlyVariants x d s)

/-- The places the index for backward rewriting has to consider according to its comments: the non-variable subterms of all sides;
only the left side itself of a maximal, positive, oriented literal is restricted. -/
def XLit.RwPlace (L : XLit) (s : Term) (restricted : Bool) : Prop :=
  s.isVar = false ∧ ((s = L.lit.l ∧ restricted = (L.maximal && L.lit.pos && L.oriented)) ∨
    (restricted = false ∧ (s ∈ L.lit.r.subterms ∨ (s ∈ L.lit.l.subterms ∧ s ≠ L.lit.l))))

/-- The places it does consider: sides, and their immediate arguments unless `ld`. -/
def XLit.RwPlace1 (ld : Bool) (L : XLit) (s : Term) (restricted : Bool) : Prop :=
  s.isVar = false ∧ ((s = L.lit.l ∧ restricted = (L.maximal && L.lit.pos && L.oriented)) ∨
    (restricted = false ∧ (s = L.lit.r ∨ (ld = false ∧ ∃ f ts, s ∈ ts ∧ (L.lit.l = .app f ts ∨ L.lit.r = .app f ts)))))

end Verif
