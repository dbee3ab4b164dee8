import Verif.Terms.Mgu
import Verif.Terms.Spec

/-!
# C02: first-order unification

Specification.  Bindings are *acyclic* if some rank decreases along them.  The
*full instantiation* of acyclic bindings is the substitution obtained by
following bindings exhaustively: it is characterised by `FullInst`.
-/

namespace Verif.Props

open Verif

/-- `θ` is a type-respecting unifier of `s` and `t` that respects the bindings `b`. -/
structure IsUnifier (sg : Sig) (b : Nat → Option Term) (s t : Term) (θ : Nat → Term) : Prop where
  typed : ∀ x, sg.ty (θ x) = sg.vty x
  respects : ∀ x u, b x = some u → θ x = u.subst θ
  unifies : s.subst θ = t.subst θ

/-- Full instantiations of good bindings are unique. -/
theorem fullInst_unique {sg : Sig} {b : Nat → Option Term} (hb : GoodBindings sg b)
    {σ τ : Nat → Term} (h1 : FullInst b σ) (h2 : FullInst b τ) : σ = τ := by
  obtain ⟨rank, hr⟩ := hb.acyclic
  funext x
  induction hk : rank x using Nat.strong_induction_on generalizing x with
  | _ k ih =>
    cases hx : b x with
    | none => rw [h1.free x hx, h2.free x hx]
    | some u =>
      rw [h1.bound x u hx, h2.bound x u hx]
      refine Term.subst_congr fun y hy => ih (rank y) ?_ y rfl
      rw [← hk]; exact hr x u hx y hy

/-- C02: unification ends on every pair of terms (the model's fuel is only a
proof device: all sufficiently large amounts give the same answer). -/
theorem mgu_terminates (sg : Sig) (s t : Term) (pp1 pp2 : Bool) (st : SubstSt)
    (hst : GoodBindings sg st.bind) :
    ∃ N res, ∀ fuel ≥ N, substComputeMgu sg fuel s t pp1 pp2 st = some res := by
  obtain ⟨L, hL⟩ := hst.finite
  obtain ⟨tr, htri, hrep⟩ := MguProof.trail_of_acyclic L st.bind hst.acyclic hL
  have hI : MguProof.Inv sg st tr := ⟨hrep, htri, by rw [← hrep]; exact hst.typed⟩
  let V : List Nat := s.vars ++ t.vars ++ L.flatMap fun x => ((st.bind x).getD (.var x)).vars
  obtain ⟨N, r, hN⟩ := MguProof.loop_total sg V _ _ [(s, t)] st tr hI rfl rfl
    (by
      intro x w hx y hy
      simp only [V, List.mem_append, List.mem_flatMap]
      exact Or.inr ⟨x, hL x (by simp [hx]), by simpa [hx] using hy⟩)
    (by
      intro p hp
      simp only [List.mem_singleton] at hp; subst hp
      refine ⟨fun y hy => ?_, fun y hy => ?_⟩ <;> simp [V, hy])
  by_cases hpre : (pp1 = true ∧ t.isVar = true) ∨ (pp2 = true ∧ s.isVar = true)
  · exact ⟨0, _, fun n _ => by rw [substComputeMgu, if_pos hpre]⟩
  · obtain ⟨b, st'⟩ := r
    cases b with
    | true => exact ⟨N, _, fun n hn => by rw [substComputeMgu, if_neg hpre, hN n hn]⟩
    | false => exact ⟨N, _, fun n hn => by rw [substComputeMgu, if_neg hpre, hN n hn]⟩

/-- C02: on success the new bindings are good again, extend the old ones by
binding unbound variables only (recorded on the stack), and their full
instantiation `σ` is a unifier through which every other unifier factors. -/
theorem mgu_success (sg : Sig) (fuel : Nat) (s t : Term) (pp1 pp2 : Bool) (st st' : SubstSt)
    (hst : GoodBindings sg st.bind)
    (h : substComputeMgu sg fuel s t pp1 pp2 st = some (true, st')) :
    GoodBindings sg st'.bind ∧
    (∃ new, st'.stack = new ++ st.stack ∧ (∀ x ∈ new, st.bind x = none ∧ st'.bind x ≠ none) ∧
      ∀ x, x ∉ new → st'.bind x = st.bind x) ∧
    ∃ σ, FullInst st'.bind σ ∧ IsUnifier sg st.bind s t σ ∧
      ∀ θ, IsUnifier sg st.bind s t θ → ∀ x, (σ x).subst θ = θ x := by
  obtain ⟨L, hL⟩ := hst.finite
  obtain ⟨tr, htri, hrep⟩ := MguProof.trail_of_acyclic L st.bind hst.acyclic hL
  have hI : MguProof.Inv sg st tr := ⟨hrep, htri, by rw [← hrep]; exact hst.typed⟩
  rw [substComputeMgu] at h
  split at h
  · simp at h
  · cases hl : mguLoop sg fuel [(s, t)] st with
    | none => simp [hl] at h
    | some r =>
      obtain ⟨b, st1⟩ := r
      cases b with
      | false => simp [hl] at h
      | true =>
        simp [hl] at h; subst h
        have hO := MguProof.loop_correct sg fuel [(s, t)] st tr (true, st1) hI hl
        obtain ⟨tr', hI', hθ⟩ := hO.succ rfl
        obtain ⟨new, hnew⟩ := hO.ext
        simp only at hI' hθ hnew
        have hsat : MguProof.Sat st1.bind (MguProof.inst tr') := by
          rw [hI'.repr]; exact MguProof.sat_inst hI'.tri
        refine ⟨⟨⟨new ++ L, fun x hx => ?_⟩, ?_, ?_⟩, ⟨new, hnew.stack, fun x hx => ⟨hnew.fresh x hx, ?_⟩,
          hnew.old⟩, MguProof.inst tr', ⟨?_, ?_⟩, ⟨?_, ?_, ?_⟩, ?_⟩
        · by_cases hxn : x ∈ new
          · simp [hxn]
          · rw [hnew.old x hxn] at hx; simp [hL x hx]
        · rw [hI'.repr]; exact MguProof.tri_acyclic hI'.tri
        · rw [hI'.repr]; exact hI'.typed
        · obtain ⟨u, hu⟩ := hnew.bound x hx; simp [hu]
        · exact hsat
        · intro x hx; rw [hI'.repr] at hx; exact MguProof.inst_unbound hx
        · exact MguProof.inst_ty hI'.tri hI'.typed
        · exact ((hθ _).1 hsat).1
        · exact ((hθ _).1 hsat).2 (s, t) (by simp)
        · intro θ hu x
          have : MguProof.Sat st1.bind θ := (hθ θ).2 ⟨hu.respects, fun p hp => by
            simp only [List.mem_singleton] at hp; subst hp; exact hu.unifies⟩
          rw [hI'.repr] at this
          exact MguProof.sat_factor hI'.tri this x

/-- C02: for well-typed input the unifier is well-typed. -/
theorem mgu_welltyped (sg : Sig) (fuel : Nat) (s t : Term) (pp1 pp2 : Bool) (st st' : SubstSt)
    (hst : GoodBindings sg st.bind) (hB : ∀ x u, st.bind x = some u → sg.WT u)
    (hs : sg.WT s) (ht : sg.WT t)
    (h : substComputeMgu sg fuel s t pp1 pp2 st = some (true, st')) :
    (∀ x u, st'.bind x = some u → sg.WT u) ∧
    ∀ σ, FullInst st'.bind σ → ∀ x, sg.ty (σ x) = sg.vty x ∧ sg.WT (σ x) := by
  have hgood := (mgu_success sg fuel s t pp1 pp2 st st' hst h).1
  have hwt : ∀ x u, st'.bind x = some u → sg.ty u = sg.vty x ∧ sg.WT u := by
    rw [substComputeMgu] at h
    split at h
    · simp at h
    · cases hl : mguLoop sg fuel [(s, t)] st with
      | none => simp [hl] at h
      | some r =>
        obtain ⟨b, st1⟩ := r
        cases b with
        | false => simp [hl] at h
        | true =>
          simp [hl] at h; subst h
          refine MguProof.loop_wt sg fuel [(s, t)] st (true, st1)
            (fun x u hx => ⟨hst.typed x u hx, hB x u hx⟩) ?_ hl
          intro p hp; simp only [List.mem_singleton] at hp; subst hp; exact ⟨hs, ht⟩
  refine ⟨fun x u hx => (hwt x u hx).2, fun σ hσ => ?_⟩
  obtain ⟨L, hL⟩ := hgood.finite
  obtain ⟨tr, htri, hrep⟩ := MguProof.trail_of_acyclic L st'.bind hgood.acyclic hL
  have : FullInst st'.bind (MguProof.inst tr) :=
    ⟨by rw [hrep]; exact MguProof.sat_inst htri, fun x hx => MguProof.inst_unbound (by rw [← hrep]; exact hx)⟩
  rw [fullInst_unique hgood hσ this]
  exact MguProof.inst_wt htri (by rw [← hrep]; exact hwt)

/-- C02: on failure nothing has changed, and (unless a predicate-position term
met a bare variable, which is always refused) there is no unifier. -/
theorem mgu_failure (sg : Sig) (fuel : Nat) (s t : Term) (pp1 pp2 : Bool) (st st' : SubstSt)
    (hst : GoodBindings sg st.bind)
    (h : substComputeMgu sg fuel s t pp1 pp2 st = some (false, st')) :
    st' = st ∧ (((pp1 = true ∧ t.isVar = true) ∨ (pp2 = true ∧ s.isVar = true)) ∨
      ¬ ∃ θ, IsUnifier sg st.bind s t θ) := by
  obtain ⟨L, hL⟩ := hst.finite
  obtain ⟨tr, htri, hrep⟩ := MguProof.trail_of_acyclic L st.bind hst.acyclic hL
  have hI : MguProof.Inv sg st tr := ⟨hrep, htri, by rw [← hrep]; exact hst.typed⟩
  rw [substComputeMgu] at h
  split at h
  · rename_i hp
    simp at h; exact ⟨h.symm, Or.inl hp⟩
  · cases hl : mguLoop sg fuel [(s, t)] st with
    | none => simp [hl] at h
    | some r =>
      obtain ⟨b, st1⟩ := r
      cases b with
      | true => simp [hl] at h
      | false =>
        simp [hl] at h; subst h
        have hO := MguProof.loop_correct sg fuel [(s, t)] st tr (false, st1) hI hl
        obtain ⟨new, hnew⟩ := hO.ext
        refine ⟨hnew.backtrack, Or.inr ?_⟩
        rintro ⟨θ, hu⟩
        exact hO.fail rfl θ hu.typed hu.respects fun p hp => by
          simp only [List.mem_singleton] at hp; subst hp; exact hu.unifies

section Examples
private def sg1 : Sig := ⟨fun _ => 0, fun _ => 0, fun f => if f < 10 then [0, 0] else [], fun _ => false⟩

-- the empty binding state is good
example : GoodBindings sg1 SubstSt.empty.bind :=
  ⟨⟨[], by simp [SubstSt.empty]⟩, ⟨fun _ => 0, by simp [SubstSt.empty]⟩, by simp [SubstSt.empty]⟩

-- f(x, g(y, z)) and f(g(y, y), x) are unified by x := g(y,y), then y := z (in some order)
example : (substComputeMgu sg1 20 (.app 1 [.var 0, .app 2 [.var 1, .var 2]])
    (.app 1 [.app 2 [.var 1, .var 1], .var 0]) false false .empty).map
      (fun r => (r.1, r.2.stack.length)) = some (true, 2) := by decide

-- x and f(x, y): occurs check, nothing bound afterwards
example : (substComputeMgu sg1 20 (.app 1 [.var 1, .var 0])
    (.app 1 [.var 0, .app 1 [.var 1, .var 2]]) false false .empty).map
      (fun r => (r.1, r.2.stack, r.2.bind 0, r.2.bind 1)) = some (false, [], none, none) := by decide
end Examples

end Verif.Props
