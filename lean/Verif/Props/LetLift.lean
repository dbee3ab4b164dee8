import Verif.Formulas.LetMain

/-!
# C83: local definitions are replaced by global ones without changing the problem
-/

namespace Verif.Props

open Verif LetLift

/-- The lifting of `$let` ends for all lists of well-formed closed formulas. -/
theorem let_lift_total (ar : Nat → Nat) (k : Nat) (fs : List LT) (h : ∀ f ∈ fs, WF ar k [] [] f) (ds : List Def) :
    ∃ n r, liftL n fs ⟨k, ds⟩ = some r :=
  (tot (letsL fs) (sizeL fs)).2.1 fs ⟨k, ds⟩ [] (Nat.le_refl _) (Nat.le_refl _) (WFL_iff.2 h)

/-- Afterwards there is no `$let`, neither in the formulas nor in the new definitions.  All variables of the right side of a definition are on its
left side, and its symbol is new: it does not occur in the problem, in the definitions before, or in its own right side. -/
theorem let_lift_removes (ar : Nat → Nat) (k : Nat) (fs : List LT) (h : ∀ f ∈ fs, WF ar k [] [] f) (n : Nat) (fs' : List LT) (st : St)
    (hr : liftL n fs ⟨k, []⟩ = some (fs', st)) :
    (∀ f ∈ fs', LetFree f ∧ WF ar st.k [] [] f) ∧ (st.defs.map (·.g)).Nodup ∧
    ∀ d ∈ st.defs, LetFree d.rhs ∧ k ≤ d.g ∧ d.vars.Nodup ∧ WF ar d.g d.vars [] d.rhs := by
  obtain ⟨new, p⟩ := (lift_post n).2.1 _ _ _ _ [] (WFL_iff.2 h) hr
  have e : st.defs = new := by rw [p.defs]; rfl
  rw [e]
  refine ⟨fun f hf => ⟨LetFreeL_iff.1 p.free f hf, WFL_iff.1 p.wf f hf⟩, p.isNew.nd, fun d hd => ?_⟩
  have := p.isNew.ok d hd
  exact ⟨this.1, (p.isNew.rng d hd).1, this.2⟩

/-- In every interpretation in which the new definitions hold, the formulas have the values they had before. -/
theorem let_lift_sound (ar : Nat → Nat) (k : Nat) (fs : List LT) (h : ∀ f ∈ fs, WF ar k [] [] f) (n : Nat) (fs' : List LT) (st : St)
    (hr : liftL n fs ⟨k, []⟩ = some (fs', st)) (D : Type) (I : Interp D) (hI : ∀ d ∈ st.defs, Holds I d) (v : Nat → D) :
    fs'.map (val I v) = fs.map (val I v) := by
  obtain ⟨new, p⟩ := (lift_post n).2.1 _ _ _ _ [] (WFL_iff.2 h) hr
  have e : st.defs = new := by rw [p.defs]; rfl
  rw [← valL_map, ← valL_map]
  exact p.val D I (by rwa [← e]) v

/-- Every interpretation can be changed on new symbols only so that the definitions hold, and the lifted formulas have the values of the original ones. -/
theorem let_lift_conservative (ar : Nat → Nat) (k : Nat) (fs : List LT) (h : ∀ f ∈ fs, WF ar k [] [] f) (n : Nat) (fs' : List LT) (st : St)
    (hr : liftL n fs ⟨k, []⟩ = some (fs', st)) (D : Type) (I : Interp D) :
    ∃ J : Interp D, J.qu = I.qu ∧ (∀ f, f < k → J.fn f = I.fn f) ∧ (∀ d ∈ st.defs, Holds J d) ∧ ∀ v, fs'.map (val J v) = fs.map (val I v) := by
  obtain ⟨new, p⟩ := (lift_post n).2.1 _ _ _ _ [] (WFL_iff.2 h) hr
  have e : st.defs = new := by rw [p.defs]; rfl
  obtain ⟨J, j1, j2, j3⟩ := extend p.isNew I st.k
  have hJ : ∀ d ∈ st.defs, Holds J d := fun d hd => j3 d (e ▸ hd) (p.isNew.rng d (e ▸ hd)).2
  refine ⟨J, j1, j2, hJ, fun v => ?_⟩
  rw [let_lift_sound ar k fs h n fs' st hr D J hJ v, ← valL_map, ← valL_map]
  exact valL_ext j1 j2 fs [] [] v (WFL_iff.2 h)

/-- The lifted problem with the definitions is satisfiable exactly if the problem is, for any reading of the values as true or false and any fixed
reading of the quantifiers and the symbols in `L`. -/
theorem let_lift_satisfiable (ar : Nat → Nat) (k : Nat) (fs : List LT) (h : ∀ f ∈ fs, WF ar k [] [] f) (n : Nat) (fs' : List LT) (st : St)
    (hr : liftL n fs ⟨k, []⟩ = some (fs', st)) (D : Type) (T : D → Prop) (I0 : Interp D) (L : List Nat) (hL : ∀ f ∈ L, f < k) :
    (∃ I : Interp D, I.qu = I0.qu ∧ (∀ f ∈ L, I.fn f = I0.fn f) ∧ ∀ f ∈ fs, ∀ v, T (val I v f)) ↔
    (∃ I : Interp D, I.qu = I0.qu ∧ (∀ f ∈ L, I.fn f = I0.fn f) ∧ (∀ d ∈ st.defs, Holds I d) ∧ ∀ f ∈ fs', ∀ v, T (val I v f)) := by
  constructor
  · rintro ⟨I, i1, i2, i3⟩
    obtain ⟨J, j1, j2, j3, j4⟩ := let_lift_conservative ar k fs h n fs' st hr D I
    refine ⟨J, j1.trans i1, fun f hf => (j2 f (hL f hf)).trans (i2 f hf), j3, fun f hf v => ?_⟩
    have hm : val J v f ∈ fs'.map (val J v) := List.mem_map_of_mem hf
    rw [j4 v] at hm
    obtain ⟨f0, hf0, e⟩ := List.mem_map.1 hm
    rw [← e]
    exact i3 f0 hf0 v
  · rintro ⟨I, i1, i2, i3, i4⟩
    refine ⟨I, i1, i2, fun f hf v => ?_⟩
    have hm : val I v f ∈ fs.map (val I v) := List.mem_map_of_mem hf
    rw [← let_lift_sound ar k fs h n fs' st hr D I i3 v] at hm
    obtain ⟨f0, hf0, e⟩ := List.mem_map.1 hm
    rw [← e]
    exact i4 f0 hf0 v

/-! ## Examples -/

namespace LetEx

/-- `![X]: $let(f(Y) := g(X, Y), p(f(f(a))))` with `g` = 0, `p` = 1, `a` = 2, `f` = 3; `X` = 0, `Y` = 1. -/
def form : LT := .quant 0 0 (.letIn [(3, [1])] [.app 0 [.var 0, .var 1]] (.app 1 [.app 3 [.app 3 [.app 2 []]]]))

def ar1 : Nat → Nat := fun _ => 1

theorem form_wf : ∀ f ∈ [form], WF ar1 4 [] [] f := by
  simp [form, WF, WFL, WFD, ar1]

/-- The result: `![X]: p(h(X, h(X, a)))` with `![X, Y]: h(X, Y) = g(X, Y)`. -/
theorem form_lifted : liftL 20 [form] ⟨4, []⟩ =
    some ([.quant 0 0 (.app 1 [.app 4 [.var 0, .app 4 [.var 0, .app 2 []]]])], ⟨5, [⟨4, [0, 1], .app 0 [.var 0, .var 1]⟩]⟩) := by
  rfl

/-- Nested definitions: `$let(c := a, $let(f(Y) := g(c, Y), p(f(c))))` with `c` = 5. -/
def form2 : LT := .letIn [(5, [])] [.app 2 []] (.letIn [(3, [1])] [.app 0 [.app 5 [], .var 1]] (.app 1 [.app 3 [.app 5 []]]))

def ar2 : Nat → Nat := fun f => if f = 5 then 0 else 1

theorem form2_wf : ∀ f ∈ [form2], WF ar2 6 [] [] f := by
  simp [form2, WF, WFL, WFD, ar2]

theorem form2_lifted : liftL 20 [form2] ⟨6, []⟩ = some ([.app 1 [.app 7 [.app 6 []]]],
    ⟨8, [⟨6, [], .app 2 []⟩, ⟨7, [1], .app 0 [.app 6 [], .var 1]⟩]⟩) := by
  rfl

example (D : Type) (I : Interp D) : ∃ J : Interp D, J.fn 2 = I.fn 2 ∧ Holds J ⟨6, [], .app 2 []⟩ :=
  let ⟨J, _, j2, j3, _⟩ := let_lift_conservative ar2 6 [form2] form2_wf 20 _ _ form2_lifted D I
  ⟨J, j2 2 (by omega), j3 _ (by simp)⟩

/-- **Two definitions of one symbol are not rejected**: `$let(c := a, c := b, p(c))` (`a` = 0, `b` = 1, `p` = 2, `c` = 3) is accepted by the parser, and its lifting adds
axioms that imply `a = b`. -/
def dup : LT := .letIn [(3, []), (3, [])] [.app 0 [], .app 1 []] (.app 2 [.app 3 []])

theorem dup_definition : ∃ fs' st, liftL 20 [dup] ⟨4, []⟩ = some (fs', st) ∧
    ∀ (D : Type) (I : Interp D), Nonempty D → (∀ d ∈ st.defs, Holds I d) → I.fn 0 [] = I.fn 1 [] := by
  refine ⟨[.app 2 [.app 4 []]], ⟨6, [⟨4, [], .app 0 []⟩, ⟨4, [], .app 1 []⟩]⟩, rfl, fun D I ⟨a⟩ h => ?_⟩
  have h1 := h ⟨4, [], .app 0 []⟩ (by simp) (fun _ => a)
  have h2 := h ⟨4, [], .app 1 []⟩ (by simp) (fun _ => a)
  simp [val, valL] at h1 h2
  rw [← h1, ← h2]

end LetEx

end Verif.Props
