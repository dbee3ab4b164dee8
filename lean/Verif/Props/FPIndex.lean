import Verif.Terms.FPIndexInv

/-!
# C30: fingerprint index retrieval loses no unification or matching partner

`FPReach x ix S` describes every history of an index: allocation, insertions,
deletions (of any set of occurrences of a term), queries, and fingerprints
computed for other indices in between (the function `fp` has static state).  `S`
is the set of entries that should be stored.  `x.kind` ranges over all sixteen
fingerprint functions offered, including the discrimination tree keys.
-/

namespace Verif.Props

open Verif.FPProof

variable {x : FPCtx} {β : Type} [DecidableEq β] {ix : FPIndex β} {S : Term → β → Prop}

/-- **C30, unification.**  Every stored entry whose term has a common instance with the query
(variables of both are independent, i.e. the query is renamed apart) is among the entries
returned. -/
theorem fp_find_unifiable (hx : x.OK) (h : FPReach x ix S) {q t : Term} {b : β} (hq : FPTermOK x.ar q) (hS : S t b)
    {σ τ : Nat → Term} (hu : t.subst σ = q.subst τ) (hc : FPTermOK x.ar (q.subst τ)) :
    (t, b) ∈ (fpFindUnifiable x ix q).1.flatten := by
  have hi := iinv_touch (reach_inv h) hq
  obtain ⟨g, hp, hg⟩ := find_unif (x := x) (reach_inv h).wf q
  refine (mem_picked hi hp).2 ⟨hS, ?_⟩
  rw [hg]
  exact accept_unif hx hi.stat hq (hi.ok t b hS).1 (settled_touch hq) (hi.ok t b hS).2 hu hc

/-- **C30, matching.**  Every stored entry whose term is an instance of the query is among the
entries returned. -/
theorem fp_find_matchable (hx : x.OK) (h : FPReach x ix S) {q t : Term} {b : β} (hq : FPTermOK x.ar q) (hS : S t b)
    {σ : Nat → Term} (hm : t = q.subst σ) : (t, b) ∈ (fpFindMatchable x ix q).1.flatten := by
  have hi := iinv_touch (reach_inv h) hq
  obtain ⟨g, hp, hg⟩ := find_match (x := x) (reach_inv h).wf q
  refine (mem_picked hi hp).2 ⟨hS, ?_⟩
  rw [hg]
  exact accept_match hx hi.stat hq (hi.ok t b hS).1 (settled_touch hq) (hi.ok t b hS).2 hm

omit [DecidableEq β] in
private theorem find_only {R : List (List (Term × β))} {g : List Int → Bool} (hi : IInv x ix S) (hp : R.Perm (pick g ix.tree)) :
    (∀ t b, (t, b) ∈ R.flatten → S t b) ∧ R.flatten.Nodup :=
  ⟨fun _ _ hm => ((mem_picked hi hp).1 hm).1, picked_nodup hi hp⟩

/-- Both searches return stored entries only, none of them twice. -/
theorem fp_find_stored (h : FPReach x ix S) (q : Term) :
    ((∀ t b, (t, b) ∈ (fpFindUnifiable x ix q).1.flatten → S t b) ∧ (fpFindUnifiable x ix q).1.flatten.Nodup) ∧
    ((∀ t b, (t, b) ∈ (fpFindMatchable x ix q).1.flatten → S t b) ∧ (fpFindMatchable x ix q).1.flatten.Nodup) := by
  have hi := reach_inv h
  obtain ⟨g, hp, _⟩ := find_unif (x := x) hi.wf q
  obtain ⟨g', hp', _⟩ := find_match (x := x) hi.wf q
  exact ⟨find_only hi hp, find_only hi hp'⟩

/-- `FPIndexFind` finds the payload holding exactly the entries with the fingerprint of the term;
in particular it finds all entries for the term. -/
theorem fp_find_leaf (h : FPReach x ix S) {t : Term} {b : β} (hS : S t b) :
    ∃ p, ix.tree.find (fpKeyOf x.pp x.kind ix.st t) = some p ∧ (t, b) ∈ p := by
  have hi := reach_inv h
  have := (hi.mem _ (t, b)).2 ⟨hS, rfl⟩
  rw [ents] at this
  rcases hf : ix.tree.find (fpKeyOf x.pp x.kind ix.st t) with _ | p
  · rw [hf] at this; cases this
  · rw [hf] at this; exact ⟨p, rfl, this⟩

/-! ## Examples -/

namespace FPExample

/-- `f` is 21 (two arguments), `a` 22, `g` 23 (one argument). -/
def ctx (k : FPKind) : FPCtx :=
  { kind := k, pp := fun _ => false, ar := fun f => if f = 21 then 2 else if f = 23 then 1 else 0, isPred := fun _ => false }

def a : Term := .app 22 []
/-- `f(X, g(a))` -/
def t1 : Term := .app 21 [.var 0, .app 23 [a]]
/-- `f(a, Y)` -/
def t2 : Term := .app 21 [a, .var 1]
/-- `f(g(X), X)` -/
def q : Term := .app 21 [.app 23 [.var 0], .var 0]

def idx (k : FPKind) : FPIndex Nat :=
  fpDelete (ctx k) (fpInsert (ctx k) (fpInsert (ctx k) (fpInsert (ctx k) (FPIndex.alloc {}) t1 1) t2 2) t2 3) t2 (· == 2)

private theorem ok_of (k : FPKind) (t : Term) (h : t.subterms.all (fun u => match u with
    | .var _ => true | .app f ts => decide (0 < f ∧ f ≠ 17 ∧ f ≠ 19 ∧ ts.length = (ctx .fp7).ar f)) = true) :
    FPTermOK (ctx k).ar t := by
  intro f ts hm
  have := List.all_eq_true.1 h _ hm
  exact of_decide_eq_true this

theorem reached (k : FPKind) : FPReach (ctx k) (idx k) fun u c =>
    (((False ∨ (u = t1 ∧ c = 1)) ∨ (u = t2 ∧ c = 2)) ∨ (u = t2 ∧ c = 3)) ∧ ¬ (u = t2 ∧ (c == 2) = true) := by
  have h1 : FPTermOK (ctx k).ar t1 := ok_of k t1 (by decide)
  have h2 : FPTermOK (ctx k).ar t2 := ok_of k t2 (by decide)
  exact .delete t2 (· == 2) (.insert t2 3 (.insert t2 2 (.insert t1 1 .alloc h1) h2) h2) h2

/-- The hypotheses of `fp_find_unifiable` are met for every fingerprint function:
`f(g(X), X)` and `f(X', g(a))` have a common instance. -/
example (k : FPKind) : (t1, 1) ∈ (fpFindUnifiable (ctx k) (idx k) q).1.flatten := by
  refine fp_find_unifiable (S := _) (σ := fun _ => .app 23 [.app 23 [a]]) (τ := fun _ => .app 23 [a]) (fun _ _ _ _ => rfl) (reached k)
    (ok_of k q (by decide)) ?_ (by decide) (ok_of k _ (by decide))
  refine ⟨Or.inl (Or.inl (Or.inr ⟨rfl, rfl⟩)), ?_⟩
  rintro ⟨h, _⟩
  exact absurd h (by decide)

/-- The index is selective: `f(a, Y)` is not returned for this query with `FP2`, nor is the
deleted entry. -/
example : (fpFindUnifiable (ctx .fp2) (idx .fp2) q).1.flatten = [(t1, 1)] := by decide +kernel

/-- Matching: `f(X, Y)` is generalisation of both. -/
example (k : FPKind) : (t2, 3) ∈ (fpFindMatchable (ctx k) (idx k) (.app 21 [.var 0, .var 1])).1.flatten := by
  refine fp_find_matchable (S := _) (σ := fun y => if y = 0 then a else .var 1) (fun _ _ _ _ => rfl) (reached k)
    (ok_of k _ (by decide)) ?_ (by decide)
  exact ⟨Or.inr ⟨rfl, rfl⟩, by simp⟩

end FPExample

end Verif.Props
