import Verif.Terms.Term

/-!
# Substitutions as binding stacks

Model of TERMS/cte_subst.h:41-109 and TERMS/cte_subst.c:64-128.  A `Subst_p` is
a stack of variable cells; the bound term is stored in the variable cell
itself (`var->binding`).  `SubstSt.bind` is the content of all `binding` fields,
`SubstSt.stack` the stack (top first).
-/

namespace Verif

structure SubstSt where
  bind : Nat → Option Term
  stack : List Nat

namespace SubstSt

/-- No variable bound, empty stack. -/
def empty : SubstSt := ⟨fun _ => none, []⟩

/-- `SubstAddBinding` (TERMS/cte_subst.h:89-109): set `var->binding`, push the
variable.  The C asserts that the variable is unbound and that types agree. -/
def addBinding (s : SubstSt) (x : Nat) (t : Term) : SubstSt :=
  ⟨fun y => if y = x then some t else s.bind y, x :: s.stack⟩

/-- `SubstBacktrackSingle` (TERMS/cte_subst.c:64-80): pop one variable and
clear its binding; false on an empty stack. -/
def backtrackSingle (s : SubstSt) : Bool × SubstSt :=
  match s.stack with
  | [] => (false, s)
  | x :: st => (true, ⟨fun y => if y = x then none else s.bind y, st⟩)

/-- The loop of `SubstBacktrackToPos`, structurally on the stack. -/
def popWhile (bind : Nat → Option Term) (pos : Nat) : List Nat → SubstSt
  | [] => ⟨bind, []⟩
  | x :: st =>
    if (x :: st).length > pos then
      popWhile (fun y => if y = x then none else bind y) pos st
    else ⟨bind, x :: st⟩

/-- `SubstBacktrackToPos` (TERMS/cte_subst.c:95-105): pop while the stack is
higher than `pos`.  (The returned count is not modelled.) -/
def backtrackToPos (s : SubstSt) (pos : Nat) : SubstSt := popWhile s.bind pos s.stack

/-- `SubstBacktrack` (TERMS/cte_subst.c:119-128): pop until empty. -/
def backtrack (s : SubstSt) : SubstSt := popWhile s.bind 0 s.stack

/-- The substitution denoted by the bindings when each variable is
dereferenced once (`DEREF_ONCE`). -/
def toFun (s : SubstSt) : Nat → Term := fun x => (s.bind x).getD (.var x)

@[ext] theorem ext' {a b : SubstSt} (h1 : ∀ x, a.bind x = b.bind x) (h2 : a.stack = b.stack) :
    a = b := by
  cases a; cases b; simp at *; exact ⟨funext h1, h2⟩

theorem popWhile_le {bind : Nat → Option Term} {pos : Nat} {st : List Nat} (h : st.length ≤ pos) :
    popWhile bind pos st = ⟨bind, st⟩ := by
  cases st with
  | nil => rfl
  | cons x st => rw [popWhile, if_neg]; omega

/-- Popping the newest entries clears exactly the popped variables. -/
theorem popWhile_append (bind : Nat → Option Term) (new st : List Nat) :
    popWhile bind st.length (new ++ st)
      = ⟨fun y => if y ∈ new then none else bind y, st⟩ := by
  induction new generalizing bind with
  | nil => simpa using popWhile_le (le_refl _)
  | cons x new ih =>
    rw [List.cons_append, popWhile, if_pos (by simp; omega), ih]
    congr 1
    funext y
    by_cases h1 : y ∈ new <;> by_cases h2 : y = x <;> simp [h1, h2]

theorem popWhile_zero (bind : Nat → Option Term) (st : List Nat) :
    popWhile bind 0 st = ⟨fun y => if y ∈ st then none else bind y, []⟩ := by
  simpa using popWhile_append bind st []

/-- `s'` arises from `s` by binding the variables `new` (newest first), all of
which were unbound in `s`. -/
structure Extends (s s' : SubstSt) (new : List Nat) : Prop where
  stack : s'.stack = new ++ s.stack
  old : ∀ x, x ∉ new → s'.bind x = s.bind x
  fresh : ∀ x ∈ new, s.bind x = none
  bound : ∀ x ∈ new, ∃ t, s'.bind x = some t

theorem Extends.refl (s : SubstSt) : Extends s s [] := ⟨rfl, fun _ _ => rfl, by simp, by simp⟩

theorem Extends.add {s s' : SubstSt} {new : List Nat} (h : Extends s s' new) {x : Nat} (t : Term)
    (hx : s'.bind x = none) : Extends s (s'.addBinding x t) (x :: new) := by
  have hxn : x ∉ new := fun hm => by obtain ⟨u, hu⟩ := h.bound x hm; simp [hu] at hx
  refine ⟨by simp [addBinding, h.stack], ?_, ?_, ?_⟩
  · intro y hy
    simp only [List.mem_cons, not_or] at hy
    simp [addBinding, hy.1, h.old y hy.2]
  · intro y hy
    rcases List.mem_cons.1 hy with rfl | hy
    · rw [← h.old y hxn]; exact hx
    · exact h.fresh y hy
  · intro y hy
    by_cases hyx : y = x
    · exact ⟨t, by simp [addBinding, hyx]⟩
    · obtain ⟨u, hu⟩ := h.bound y ((List.mem_cons.1 hy).resolve_left hyx)
      exact ⟨u, by simp [addBinding, hyx, hu]⟩

theorem Extends.mono {s s' : SubstSt} {new : List Nat} (h : Extends s s' new) {x : Nat} {t : Term}
    (hx : s.bind x = some t) : s'.bind x = some t := by
  rw [h.old x ?_, hx]
  intro hm; simp [h.fresh x hm] at hx

/-- Backtracking to the mark undoes an extension. -/
theorem Extends.backtrack {s s' : SubstSt} {new : List Nat} (h : Extends s s' new) :
    s'.backtrackToPos s.stack.length = s := by
  rw [backtrackToPos, h.stack, popWhile_append]
  apply ext'
  · intro y
    by_cases hy : y ∈ new
    · simp [hy, h.fresh y hy]
    · simp [hy, h.old y hy]
  · rfl

end SubstSt
end Verif
