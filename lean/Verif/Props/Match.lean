import Verif.Terms.Match

/-!
# C01: first-order matching

Specification: a *match* of `m` onto `t` extending the bindings `b` is a
type-respecting substitution that agrees with `b` and makes `m` equal to `t`.
-/

namespace Verif.Props

open Verif

/-- `σ` is a match of `m` onto `t` compatible with the bindings `b`. -/
structure IsMatch (sg : Sig) (b : Nat → Option Term) (m t : Term) (σ : Nat → Term) : Prop where
  /-- existing bindings are respected -/
  agrees : ∀ x u, b x = some u → σ x = u
  /-- types of the variables of the matcher are respected -/
  typed : ∀ x ∈ m.vars, sg.ty (σ x) = sg.vty x
  /-- the instance is the target -/
  inst : m.subst σ = t

/-- C01: `SubstComputeMatch` always ends, and its answer is `true` exactly when a
match exists (and the target is not a predicate-position term matched by a bare
variable). -/
theorem matching_exact (sg : Sig) (m t : Term) (predPos : Bool) (st : SubstSt) :
    ∃ res st', substComputeMatch sg m t predPos st = some (res, st') ∧
      (res = true ↔ (¬ (predPos = true ∧ m.isVar = true)) ∧ ∃ σ, IsMatch sg st.bind m t σ) := by
  obtain ⟨⟨res, st'⟩, hr, hg, hc⟩ :=
    MatchProof.loop_good sg t.sw m.size [(m, t)] m.sw st (by simp [MatchProof.jsize])
  by_cases hpre : m.sw > t.sw ∨ (predPos = true ∧ m.isVar = true)
  · refine ⟨false, st, by simp only [substComputeMatch, if_pos hpre], by simp, ?_⟩
    rintro ⟨hp, σ, hσ⟩
    rcases hpre with h | h
    · have := MatchProof.sw_subst_ge σ m
      rw [hσ.inst] at this; omega
    · exact absurd h hp
  · have hp : ¬ (predPos = true ∧ m.isVar = true) := fun h => hpre (Or.inr h)
    have hcomp : ∀ σ, IsMatch sg st.bind m t σ → res = true := fun σ hσ =>
      hc σ ⟨hσ.agrees, by simpa using hσ.inst, by simpa using hσ.typed⟩
        (by simp [MatchProof.jdiff])
    cases res with
    | true =>
      refine ⟨true, st', by simp only [substComputeMatch, if_neg hpre, hr], fun _ => ⟨hp, st'.toFun, ?_⟩,
        fun _ => rfl⟩
      obtain ⟨h1, h2⟩ := hg.sound rfl
      obtain ⟨new, he, -⟩ := hg.ext
      exact ⟨fun x u hx => MatchProof.toFun_of_bind (he.mono hx),
        fun x hx => (h2 (m, t) (by simp) x hx).1, h1 (m, t) (by simp)⟩
    | false =>
      refine ⟨false, _, by simp only [substComputeMatch, if_neg hpre, hr]; rfl, by simp, ?_⟩
      rintro ⟨-, σ, hσ⟩
      exact hcomp σ hσ

/-- C01: on success the bindings found are a match, only unbound variables of the
matcher were bound, everything bound before is kept, and the new variables are
exactly the ones pushed on the substitution stack. -/
theorem matching_success (sg : Sig) (m t : Term) (predPos : Bool) (st st' : SubstSt)
    (h : substComputeMatch sg m t predPos st = some (true, st')) :
    IsMatch sg st.bind m t (fun x => (st'.bind x).getD (.var x)) ∧
    (∀ x ∈ m.vars, ∃ u, st'.bind x = some u) ∧
    ∃ new, st'.stack = new ++ st.stack ∧
      (∀ x, x ∈ new ↔ x ∈ m.vars ∧ st.bind x = none) ∧
      (∀ x, x ∉ new → st'.bind x = st.bind x) := by
  obtain ⟨⟨res, st1⟩, hr, hg, -⟩ :=
    MatchProof.loop_good sg t.sw m.size [(m, t)] m.sw st (by simp [MatchProof.jsize])
  by_cases hpre : m.sw > t.sw ∨ (predPos = true ∧ m.isVar = true)
  · simp only [substComputeMatch, if_pos hpre] at h; simp at h
  · simp only [substComputeMatch, if_neg hpre, hr] at h
    cases res with
    | false => simp at h
    | true =>
      simp at h; subst h
      obtain ⟨h1, h2⟩ := hg.sound rfl
      obtain ⟨new, he, hn⟩ := hg.ext
      simp only [List.mem_singleton, exists_eq_left] at hn
      have h2' := h2 (m, t) (by simp)
      simp only at h2'
      refine ⟨⟨fun x u hx => MatchProof.toFun_of_bind (he.mono hx),
        fun x hx => (h2' x hx).1, h1 (m, t) (by simp)⟩, fun x hx => (h2' x hx).2,
        new, he.stack, fun x => ⟨fun hx => ⟨hn x hx, he.fresh x hx⟩, ?_⟩, he.old⟩
      rintro ⟨hx, hb⟩
      by_contra hc
      obtain ⟨u, hu⟩ := (h2' x hx).2
      rw [he.old x hc, hb] at hu
      simp at hu

/-- C01: a failing call leaves all bindings and the stack exactly as they were. -/
theorem matching_failure_restores (sg : Sig) (m t : Term) (predPos : Bool) (st st' : SubstSt)
    (h : substComputeMatch sg m t predPos st = some (false, st')) : st' = st := by
  obtain ⟨⟨res, st1⟩, hr, hg, -⟩ :=
    MatchProof.loop_good sg t.sw m.size [(m, t)] m.sw st (by simp [MatchProof.jsize])
  by_cases hpre : m.sw > t.sw ∨ (predPos = true ∧ m.isVar = true)
  · simp only [substComputeMatch, if_pos hpre] at h; simp at h; exact h.symm
  · simp only [substComputeMatch, if_neg hpre, hr] at h
    cases res with
    | true => simp at h
    | false =>
      simp at h; subst h
      obtain ⟨new, he, -⟩ := hg.ext
      exact he.backtrack

section Examples
/-- one sort; every symbol takes two arguments of sort 0 except constants 10, 11 -/
private def sg1 : Sig := ⟨fun _ => 0, fun _ => 0, fun f => if f < 10 then [0, 0] else [], fun _ => false⟩
private def a : Term := .app 10 []
private def b : Term := .app 11 []

-- f(x, g(y, x)) matches f(a, g(b, a)), and binds x and y
example : (substComputeMatch sg1 (.app 1 [.var 0, .app 2 [.var 1, .var 0]])
    (.app 1 [a, .app 2 [b, a]]) false .empty).map (fun r => (r.1, r.2.stack, r.2.bind 0, r.2.bind 1))
    = some (true, [1, 0], some a, some b) := by decide

-- f(x, g(y, x)) does not match f(a, g(b, b)); the stack is as before
example : (substComputeMatch sg1 (.app 1 [.var 0, .app 2 [.var 1, .var 0]])
    (.app 1 [a, .app 2 [b, b]]) false .empty).map (fun r => (r.1, r.2.stack, r.2.bind 0))
    = some (false, [], none) := by decide

-- a concrete match exists, so the right side of `matching_exact` is inhabited
example : IsMatch sg1 (fun _ => none) (.app 1 [.var 0, .var 0]) (.app 1 [a, a]) (fun _ => a) :=
  ⟨by simp, by simp [Term.vars, Term.varsL, Sig.ty, sg1, a], by decide⟩
end Examples

end Verif.Props
