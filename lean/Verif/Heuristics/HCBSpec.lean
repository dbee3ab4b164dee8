import Verif.Heuristics.HCB

/-!
# Specification of clause selection
-/

namespace Verif

variable {H : Type} [LinearOrder H]

/-- `a` is better than `b` for function `i`: a smaller priority, or the same and a smaller heuristic value, or both the same and older. -/
def EvalCtx.Better (x : EvalCtx H) (i a b : Nat) : Prop :=
  x.prio a i < x.prio b i ∨ x.prio a i = x.prio b i ∧ (x.heur a i < x.heur b i ∨ x.heur a i = x.heur b i ∧ a < b)

/-- Changes of a set: clauses are added that satisfy `ok` and are not in the set, and members are removed. -/
inductive SetChange (x : EvalCtx H) (n : Nat) (ok : Nat → Prop) : USet → USet → Prop
  | refl (s) : SetChange x n ok s s
  | insert {s s'} (c) : SetChange x n ok s s' → c ∉ s'.mem → ok c → SetChange x n ok s (s'.insert x n c)
  | extract {s s'} (c) : SetChange x n ok s s' → c ∈ s'.mem → SetChange x n ok s (s'.extract x n c)

/-- The sets that arise from the empty one by insertions, removals and selections with a heuristic with `n` functions. -/
inductive SetReach (x : EvalCtx H) (n : Nat) : USet → Prop
  | empty : SetReach x n .empty
  | change {s s'} : SetReach x n s → SetChange x n (fun _ => True) s s' → SetReach x n s'
  | select {s s' orph h r h'} : SetReach x n s → h.switch.length = n → hcbSelect x orph h s = some (r, h', s') → SetReach x n s'

/-- The heuristic with the picks `ss` after `k` selections. -/
def HCB.after (ss : List Nat) : Nat → HCB
  | 0 => .build ss
  | k + 1 => if ss.length = 1 then HCB.after ss k else (HCB.after ss k).advance

/-- An infinite run of the given-clause loop, as far as selection is concerned: at each time a clause is selected and
taken out, and then the set changes arbitrarily, but no clause enters it that has been in it before (new evaluation cells
are used for clauses that enter the set). -/
structure SelRun (x : EvalCtx H) (ss : List Nat) where
  h : Nat → HCB
  s : Nat → USet
  orph : Nat → Nat → Bool
  pick : Nat → Nat
  mid : Nat → USet
  start : h 0 = .build ss
  reach : SetReach x ss.length (s 0)
  select : ∀ t, hcbSelect x (orph t) (h t) (s t) = some (some (pick t), h (t + 1), mid t)
  change : ∀ t, SetChange x ss.length (fun c => ∀ t' ≤ t, c ∉ (s t').mem) ((mid t).extract x ss.length (pick t)) (s (t + 1))

end Verif
