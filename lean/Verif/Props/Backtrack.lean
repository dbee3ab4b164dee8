import Verif.Terms.Subst

/-!
# C03: substitution backtracking

Histories of the operations of the substitution API.  Specification state: the
list of bindings made and not yet undone, newest first.
-/

namespace Verif.Props

open Verif

/-- One call of the substitution API. -/
inductive SubstOp
  /-- `SubstAddBinding(subst, var, term)` -/
  | add (x : Nat) (t : Term)
  /-- `SubstBacktrackSingle(subst)` -/
  | single
  /-- `SubstBacktrackToPos(subst, pos)` -/
  | toPos (pos : Nat)
  /-- `SubstBacktrack(subst)` -/
  | all

/-- Execute one call. -/
def SubstOp.run (s : SubstSt) : SubstOp → SubstSt
  | .add x t => s.addBinding x t
  | .single => s.backtrackSingle.2
  | .toPos pos => s.backtrackToPos pos
  | .all => s.backtrack

/-- The precondition of each call: `SubstAddBinding` asserts that the variable is
unbound (cte_subst.h:96); the others have none. -/
def SubstOp.pre (s : SubstSt) : SubstOp → Prop
  | .add x _ => s.bind x = none
  | _ => True

/-- `s'` is reached from `s` by a history of calls that respect the
preconditions and never cut the stack below height `mark`. -/
inductive Reaches (mark : Nat) : SubstSt → SubstSt → Prop
  | refl (s) : Reaches mark s s
  | step {s s' : SubstSt} (op : SubstOp) : Reaches mark s s' → op.pre s' →
      mark ≤ (op.run s').stack.length → Reaches mark s (op.run s')

/-- `s'` is `s` plus the bindings `L` (newest first), each made when its variable
was unbound. -/
private inductive Built (s : SubstSt) : List (Nat × Term) → SubstSt → Prop
  | nil : Built s [] s
  | cons {L s'} (x t) : Built s L s' → s'.bind x = none → Built s ((x, t) :: L) (s'.addBinding x t)

private theorem addBinding_undo {s : SubstSt} {x : Nat} {t : Term} (h : s.bind x = none) :
    (⟨fun y => if y = x then none else (s.addBinding x t).bind y, s.stack⟩ : SubstSt) = s := by
  apply SubstSt.ext'
  · intro y
    by_cases hy : y = x
    · subst hy; simp [h]
    · simp [SubstSt.addBinding, hy]
  · rfl

private theorem built_length {s s' : SubstSt} {L : List (Nat × Term)} (h : Built s L s') :
    s'.stack.length = L.length + s.stack.length := by
  induction h with
  | nil => simp
  | cons x t h hx ih => simp [SubstSt.addBinding, ih]; omega

private theorem built_stack {s s' : SubstSt} {L : List (Nat × Term)} (h : Built s L s') :
    s'.stack = L.map Prod.fst ++ s.stack := by
  induction h with
  | nil => simp
  | cons x t h hx ih => simp [SubstSt.addBinding, ih]

private theorem popWhile_length (pos : Nat) : ∀ (st : List Nat) (bd : Nat → Option Term),
    (SubstSt.popWhile bd pos st).stack.length = min pos st.length := by
  intro st
  induction st with
  | nil => simp [SubstSt.popWhile]
  | cons x st ih =>
    intro bd
    rw [SubstSt.popWhile]
    split
    · rename_i h; simp at h; rw [ih]; simp; omega
    · rename_i h; simp at h; simp; omega

/-- Cutting back to a height above the base removes the newest bindings. -/
private theorem built_toPos {s s' : SubstSt} {L : List (Nat × Term)} (h : Built s L s') (pos : Nat)
    (hpos : s.stack.length ≤ pos) :
    ∃ L', Built s L' (s'.backtrackToPos pos) := by
  induction h with
  | nil =>
    refine ⟨[], ?_⟩
    rw [SubstSt.backtrackToPos, SubstSt.popWhile_le hpos]; exact .nil
  | @cons L s' x t h hx ih =>
    by_cases hp : pos < (s'.addBinding x t).stack.length
    · have : (s'.addBinding x t).backtrackToPos pos = s'.backtrackToPos pos := by
        rw [SubstSt.backtrackToPos]
        simp only [SubstSt.addBinding] at hp ⊢
        rw [SubstSt.popWhile, if_pos hp, SubstSt.backtrackToPos]
        congr 1
        funext y
        by_cases hy : y = x
        · subst hy; simp [hx]
        · simp [hy]
      rw [this]; exact ih
    · refine ⟨(x, t) :: L, ?_⟩
      rw [SubstSt.backtrackToPos, SubstSt.popWhile_le (by omega)]
      exact .cons x t h hx

private theorem built_of_reaches {s s' : SubstSt} (h : Reaches s.stack.length s s') :
    ∃ L, Built s L s' := by
  induction h with
  | refl => exact ⟨[], .nil⟩
  | @step s' op hr hpre hm ih =>
    obtain ⟨L, hb⟩ := ih
    cases op with
    | add x t => exact ⟨_, .cons x t hb hpre⟩
    | single =>
      cases hb with
      | nil =>
        simp only [SubstOp.run, SubstSt.backtrackSingle] at hm ⊢
        cases hs : s.stack with
        | nil => simp; exact ⟨[], .nil⟩
        | cons x st => simp [hs] at hm
      | @cons L s' x t h hx =>
        refine ⟨L, ?_⟩
        simp only [SubstOp.run, SubstSt.backtrackSingle, SubstSt.addBinding]
        have := addBinding_undo (t := t) hx
        simp only [SubstSt.addBinding] at this
        rw [this]; exact h
    | toPos pos =>
      by_cases hpos : s.stack.length ≤ pos
      · exact built_toPos hb pos hpos
      · simp only [SubstOp.run, SubstSt.backtrackToPos, popWhile_length] at hm
        omega
    | all =>
      simp only [SubstOp.run, SubstSt.backtrack, popWhile_length] at hm
      have h0 : s.stack.length = 0 := by omega
      exact built_toPos hb 0 (by omega)

private theorem built_restore {s s' : SubstSt} {L : List (Nat × Term)} (hb : Built s L s') :
    s'.backtrackToPos s.stack.length = s := by
  induction hb with
  | nil => rw [SubstSt.backtrackToPos, SubstSt.popWhile_le (le_refl _)]
  | @cons L s' x t hb hx ih =>
    have hl := built_length hb
    have hp : s.stack.length < (x :: s'.stack).length := by simp; omega
    have : (s'.addBinding x t).backtrackToPos s.stack.length = s'.backtrackToPos s.stack.length := by
      simp only [SubstSt.backtrackToPos, SubstSt.addBinding]
      rw [SubstSt.popWhile, if_pos hp]
      congr 1
      funext y
      by_cases hy : y = x
      · subst hy; simp [hx]
      · simp [hy]
    rw [this]; exact ih

/-- C03: whatever happens after a mark was taken (bindings, single backtracking
steps, nested marks and backtracks that do not cut below the mark),
`SubstBacktrackToPos(mark)` restores the state at the mark exactly: the binding
of every variable and the stack. -/
theorem backtrack_restores {s s' : SubstSt} (h : Reaches s.stack.length s s') :
    s'.backtrackToPos s.stack.length = s := by
  obtain ⟨L, hb⟩ := built_of_reaches h
  exact built_restore hb

/-- C03: in every state reached from a fresh substitution the variables on the
stack are exactly the bound ones, each once, and `SubstBacktrack` unbinds all. -/
theorem backtrack_all {s : SubstSt} (h : Reaches 0 SubstSt.empty s) :
    s.stack.Nodup ∧ (∀ x, x ∈ s.stack ↔ s.bind x ≠ none) ∧ s.backtrack = SubstSt.empty := by
  obtain ⟨L, hb⟩ := built_of_reaches (s := SubstSt.empty) (by simpa [SubstSt.empty] using h)
  have hr := built_restore hb
  have key : s.stack.Nodup ∧ (∀ x, x ∈ s.stack ↔ s.bind x ≠ none) := by
    clear h hr
    induction hb with
    | nil => simp [SubstSt.empty]
    | @cons L s x t hb hx ih =>
      refine ⟨List.nodup_cons.2 ⟨fun hm => (ih.2 x).1 hm hx, ih.1⟩, fun y => ?_⟩
      by_cases hy : y = x
      · subst hy; simp [SubstSt.addBinding]
      · simpa [SubstSt.addBinding, hy] using ih.2 y
  exact ⟨key.1, key.2, hr⟩

/-- C03: one single backtracking step undoes exactly the last binding. -/
theorem backtrack_single (s : SubstSt) (x : Nat) (t : Term) (h : s.bind x = none) :
    (s.addBinding x t).backtrackSingle = (true, s) := by
  have := addBinding_undo (t := t) h
  simp only [SubstSt.backtrackSingle, SubstSt.addBinding, Prod.mk.injEq, true_and]
  simpa [SubstSt.addBinding] using this

section Examples
private def marked : SubstSt := SubstSt.empty.addBinding 0 (.app 1 [])

-- bind, bind, nested mark 2, bind, backtrack to 2, single step: above mark 1 throughout
example : Reaches 1 marked
    ((((marked.addBinding 1 (.var 0)).addBinding 2 (.var 1)).backtrackToPos 2).backtrackSingle.2) :=
  .step .single (.step (.toPos 2) (.step (.add 2 (.var 1)) (.step (.add 1 (.var 0)) (.refl _)
    (by show marked.bind 1 = none; decide) (by decide))
    (by show (marked.addBinding 1 (.var 0)).bind 2 = none; decide) (by decide)) trivial (by decide)) trivial (by decide)
end Examples

end Verif.Props
