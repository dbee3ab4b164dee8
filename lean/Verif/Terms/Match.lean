import Verif.Terms.Subst

/-!
# First-order matching

Model of `SubstComputeMatch` (TERMS/cte_match_mgu_1-1.c:213-294).
-/

namespace Verif

/-- `DEFAULT_VWEIGHT` (TERMS/cte_termtypes.h:41). -/
abbrev VW : Nat := 1
/-- `DEFAULT_FWEIGHT` (TERMS/cte_termtypes.h:42). -/
abbrev FW : Nat := 2

/-- `TermStandardWeight`: cached weight with the default weights. -/
def Term.sw (t : Term) : Int := (t.weight VW FW : Nat)

/-- Push the argument pairs so that the first pair ends up on top
(TERMS/cte_match_mgu_1-1.c:279-283; the loop pushes index `arity-1` first). -/
def pushPairs (ms ts : List Term) (jobs : List (Term × Term)) : List (Term × Term) :=
  ms.zip ts ++ jobs

/-- The loop of `SubstComputeMatch` (TERMS/cte_match_mgu_1-1.c:234-286).
`mw`/`tw` are `matcher_weight`/`to_match_weight`.  One unit of fuel per
iteration, `none` when it runs out.  Symbols have a fixed arity in E, so two
applications of the same symbol have equally many arguments; the model treats
a difference as a clash. -/
def matchLoop (sg : Sig) (tw : Int) :
    Nat → List (Term × Term) → Int → SubstSt → Option (Bool × SubstSt)
  | _, [], _, st => some (true, st)
  | 0, _ :: _, _, _ => none
  | n + 1, (m, t) :: jobs, mw, st =>
    match m with
    | .var x =>
      if sg.vty x ≠ sg.ty t then some (false, st)
      else
        match st.bind x with
        | some u =>
          if u ≠ t then some (false, st)
          else
            let mw' := mw + (t.sw - VW)
            if mw' > tw then some (false, st) else matchLoop sg tw n jobs mw' st
        | none =>
          let st' := st.addBinding x t
          let mw' := mw + (t.sw - VW)
          if mw' > tw then some (false, st') else matchLoop sg tw n jobs mw' st'
    | .app f ms =>
      match t with
      | .var _ => some (false, st)
      | .app g ts =>
        if f ≠ g ∨ ms.length ≠ ts.length then some (false, st)
        else matchLoop sg tw n (pushPairs ms ts jobs) mw st

/-- `SubstComputeMatch(matcher, to_match, subst)`.  `predPos` is the property
`TPPredPos` of `to_match`.  Result `none` would mean that the loop did not end. -/
def substComputeMatch (sg : Sig) (matcher toMatch : Term) (predPos : Bool) (st : SubstSt) :
    Option (Bool × SubstSt) :=
  if matcher.sw > toMatch.sw ∨ (predPos = true ∧ matcher.isVar = true) then some (false, st)
  else
    match matchLoop sg toMatch.sw matcher.size [(matcher, toMatch)] matcher.sw st with
    | none => none
    | some (true, st') => some (true, st')
    | some (false, st') => some (false, st'.backtrackToPos st.stack.length)

namespace MatchProof

open Term

theorem weight_pos (t : Term) : 1 ≤ t.weight VW FW := by
  cases t <;> simp [weight, FW, VW]; omega

theorem sw_pos (t : Term) : 1 ≤ t.sw := by
  have := weight_pos t; simp only [sw]; omega

mutual
theorem weight_subst_ge (σ : Nat → Term) : ∀ t : Term, t.weight VW FW ≤ (t.subst σ).weight VW FW
  | var x => by simpa [weight] using weight_pos (σ x)
  | app f ts => by simpa [subst, weight] using weightL_subst_ge σ ts
theorem weightL_subst_ge (σ : Nat → Term) :
    ∀ ts : List Term, weightL VW FW ts ≤ weightL VW FW (substL σ ts)
  | [] => by simp [weightL, substL]
  | t :: ts => by
    have h1 := weight_subst_ge σ t
    have h2 := weightL_subst_ge σ ts
    simp only [weightL, substL]; omega
end

theorem sw_subst_ge (σ : Nat → Term) (t : Term) : t.sw ≤ (t.subst σ).sw := by
  have := weight_subst_ge σ t; simp only [sw]; omega

/-- Sum of matcher sizes on the job stack. -/
def jsize : List (Term × Term) → Nat
  | [] => 0
  | (m, _) :: js => m.size + jsize js

/-- Sum of the weight differences on the job stack. -/
def jdiff : List (Term × Term) → Int
  | [] => 0
  | (m, t) :: js => (t.sw - m.sw) + jdiff js

theorem jsize_append (a b : List (Term × Term)) : jsize (a ++ b) = jsize a + jsize b := by
  induction a with
  | nil => simp [jsize]
  | cons p a ih => obtain ⟨m, t⟩ := p; simp [jsize, ih]; omega

theorem jdiff_append (a b : List (Term × Term)) : jdiff (a ++ b) = jdiff a + jdiff b := by
  induction a with
  | nil => simp [jdiff]
  | cons p a ih => obtain ⟨m, t⟩ := p; simp [jdiff, ih]; omega

theorem jsize_zip_le (ms ts : List Term) : jsize (ms.zip ts) ≤ sizeL ms := by
  induction ms generalizing ts with
  | nil => simp [jsize]
  | cons m ms ih =>
    cases ts with
    | nil => simp [jsize]
    | cons t ts => have := ih ts; simp [jsize, sizeL]; omega

theorem jdiff_zip {ms ts : List Term} (h : ms.length = ts.length) :
    jdiff (ms.zip ts) = (weightL VW FW ts : Int) - weightL VW FW ms := by
  induction ms generalizing ts with
  | nil => cases ts <;> simp_all [jdiff, weightL]
  | cons m ms ih =>
    cases ts with
    | nil => simp at h
    | cons t ts =>
      have := ih (by simpa using h : ms.length = ts.length)
      simp only [List.zip_cons_cons, jdiff, weightL, this, sw]; push_cast; omega

/-- `σ` solves all jobs, respects the bindings of `st` and the types of the
matched variables. -/
structure Solves (sg : Sig) (st : SubstSt) (σ : Nat → Term) (jobs : List (Term × Term)) : Prop where
  bind : ∀ x u, st.bind x = some u → σ x = u
  eqs : ∀ p ∈ jobs, p.1.subst σ = p.2
  types : ∀ p ∈ jobs, ∀ x ∈ p.1.vars, sg.ty (σ x) = sg.vty x

theorem map_subst_zip {σ : Nat → Term} {ms ts : List Term} (h : ms.length = ts.length) :
    ms.map (subst σ) = ts ↔ ∀ p ∈ ms.zip ts, p.1.subst σ = p.2 := by
  induction ms generalizing ts with
  | nil => cases ts <;> simp_all
  | cons m ms ih =>
    cases ts with
    | nil => simp at h
    | cons t ts =>
      have := ih (by simpa using h : ms.length = ts.length)
      simp [this]

theorem zip_fst {ms ts : List Term} (h : ms.length = ts.length) {m : Term} (hm : m ∈ ms) :
    ∃ t, (m, t) ∈ ms.zip ts := by
  induction ms generalizing ts with
  | nil => simp at hm
  | cons a ms ih =>
    cases ts with
    | nil => simp at h
    | cons t ts =>
      rcases List.mem_cons.1 hm with rfl | hm
      · exact ⟨t, by simp⟩
      · obtain ⟨u, hu⟩ := ih (by simpa using h : ms.length = ts.length) hm
        exact ⟨u, by simp [hu]⟩

theorem jdiff_nonneg {σ : Nat → Term} {jobs : List (Term × Term)}
    (h : ∀ p ∈ jobs, p.1.subst σ = p.2) : 0 ≤ jdiff jobs := by
  induction jobs with
  | nil => simp [jdiff]
  | cons p js ih =>
    obtain ⟨m, t⟩ := p
    have h1 := h (m, t) (by simp)
    have h2 := ih fun p hp => h p (by simp [hp])
    have := sw_subst_ge σ m
    simp only at h1
    rw [h1] at this
    simp only [jdiff]; omega

/-- The result of the loop, for every start state `s0` below it. -/
structure Good (sg : Sig) (s0 st : SubstSt) (jobs : List (Term × Term))
    (r : Bool × SubstSt) : Prop where
  ext : ∃ new, SubstSt.Extends st r.2 new ∧ ∀ x ∈ new, ∃ p ∈ jobs, x ∈ p.1.vars
  sound : r.1 = true → (∀ p ∈ jobs, p.1.subst r.2.toFun = p.2) ∧
    ∀ p ∈ jobs, ∀ x ∈ p.1.vars, sg.ty (r.2.toFun x) = sg.vty x ∧ ∃ u, r.2.bind x = some u

theorem Extends.trans {a b c : SubstSt} {n1 n2 : List Nat} (h1 : SubstSt.Extends a b n1)
    (h2 : SubstSt.Extends b c n2) : SubstSt.Extends a c (n2 ++ n1) := by
  refine ⟨by simp [h1.stack, h2.stack], ?_, ?_, ?_⟩
  · intro x hx
    simp only [List.mem_append, not_or] at hx
    rw [h2.old x hx.1, h1.old x hx.2]
  · intro x hx
    rcases List.mem_append.1 hx with hx | hx
    · by_cases h : x ∈ n1
      · exact h1.fresh x h
      · rw [← h1.old x h]; exact h2.fresh x hx
    · exact h1.fresh x hx
  · intro x hx
    by_cases h : x ∈ n2
    · exact h2.bound x h
    · obtain ⟨t, ht⟩ := h1.bound x ((List.mem_append.1 hx).resolve_left h)
      exact ⟨t, by rw [h2.old x h, ht]⟩

theorem toFun_of_bind {s : SubstSt} {x : Nat} {t : Term} (h : s.bind x = some t) : s.toFun x = t := by
  simp [SubstSt.toFun, h]

/-- Main loop lemma. -/
theorem loop_good (sg : Sig) (tw : Int) : ∀ (n : Nat) (jobs : List (Term × Term)) (mw : Int)
    (st : SubstSt), jsize jobs ≤ n →
    ∃ r, matchLoop sg tw n jobs mw st = some r ∧ Good sg st st jobs r ∧
      ∀ σ, Solves sg st σ jobs → mw + jdiff jobs ≤ tw → r.1 = true := by
  intro n
  induction n with
  | zero =>
    intro jobs mw st hn
    cases jobs with
    | nil =>
      exact ⟨(true, st), by simp [matchLoop], ⟨⟨[], SubstSt.Extends.refl st, by simp⟩,
        by simp⟩, by simp⟩
    | cons p js =>
      obtain ⟨m, t⟩ := p
      have := size_pos m
      simp [jsize] at hn; omega
  | succ n ih =>
    intro jobs mw st hn
    cases jobs with
    | nil =>
      exact ⟨(true, st), by simp [matchLoop], ⟨⟨[], SubstSt.Extends.refl st, by simp⟩,
        by simp⟩, by simp⟩
    | cons p js =>
      obtain ⟨m, t⟩ := p
      cases m with
      | var x =>
        have hjs : jsize js ≤ n := by simp [jsize, size] at hn; omega
        have failGood : ∀ st', (∃ new, SubstSt.Extends st st' new ∧
            ∀ y ∈ new, ∃ p ∈ ((var x, t) :: js), y ∈ p.1.vars) →
            Good sg st st ((var x, t) :: js) (false, st') := fun st' h => ⟨h, by simp⟩
        have failSame := failGood st ⟨[], SubstSt.Extends.refl st, by simp⟩
        by_cases hty : sg.vty x = sg.ty t
        swap
        · refine ⟨(false, st), by simp [matchLoop, hty], failSame, ?_⟩
          intro σ hs _
          exact absurd (by
            have h1 := hs.types (var x, t) (by simp) x (by simp [vars])
            have h2 := hs.eqs (var x, t) (by simp)
            simp only [subst_var] at h2
            rw [h2] at h1; exact h1.symm) hty
        cases hb : st.bind x with
        | some u =>
          by_cases hu : u = t
          swap
          · refine ⟨(false, st), by simp [matchLoop, hty, hb, hu], failSame, ?_⟩
            intro σ hs _
            have h2 := hs.eqs (var x, t) (by simp)
            simp only [subst_var] at h2
            exact absurd ((hs.bind x u hb).symm.trans h2) hu
          subst hu
          by_cases hw : mw + (u.sw - VW) > tw
          · refine ⟨(false, st), by simp [matchLoop, hty, hb]; intro h; simp only [VW] at hw; omega, failSame, ?_⟩
            intro σ hs hle
            have := jdiff_nonneg (σ := σ) (jobs := js)
              fun p hp => hs.eqs p (by simp [hp])
            simp only [jdiff, sw, weight] at *
            omega
          · obtain ⟨r, hr, hg, hc⟩ := ih js (mw + (u.sw - VW)) st hjs
            refine ⟨r, by simp [matchLoop, hty, hb]; rw [if_neg (by simpa using hw)]; exact hr, ?_, ?_⟩
            · obtain ⟨new, he, hn'⟩ := hg.ext
              refine ⟨⟨new, he, fun y hy => ?_⟩, ?_⟩
              · obtain ⟨p, hp, hy⟩ := hn' y hy; exact ⟨p, by simp [hp], hy⟩
              · intro hr1
                obtain ⟨h1, h2⟩ := hg.sound hr1
                have hbx := he.mono hb
                refine ⟨?_, ?_⟩
                · intro p hp
                  rcases List.mem_cons.1 hp with rfl | hp
                  · simpa using toFun_of_bind hbx
                  · exact h1 p hp
                · intro p hp y hy
                  rcases List.mem_cons.1 hp with rfl | hp
                  · simp [vars] at hy; subst hy
                    exact ⟨by rw [toFun_of_bind hbx, hty], u, hbx⟩
                  · exact h2 p hp y hy
            · intro σ hs hle
              refine hc σ ⟨hs.bind, fun p hp => hs.eqs p (by simp [hp]),
                fun p hp => hs.types p (by simp [hp])⟩ ?_
              simp only [jdiff, sw, weight] at *; omega
        | none =>
          have hE : SubstSt.Extends st (st.addBinding x t) [x] :=
            (SubstSt.Extends.refl st).add t hb
          have hbx : (st.addBinding x t).bind x = some t := by simp [SubstSt.addBinding]
          by_cases hw : mw + (t.sw - VW) > tw
          · refine ⟨(false, st.addBinding x t), by simp [matchLoop, hty, hb]; intro h; simp only [VW] at hw; omega,
              failGood _ ⟨[x], hE, ?_⟩, ?_⟩
            · intro y hy; simp at hy; subst hy
              exact ⟨(var y, t), by simp, by simp [vars]⟩
            intro σ hs hle
            have := jdiff_nonneg (σ := σ) (jobs := js)
              fun p hp => hs.eqs p (by simp [hp])
            simp only [jdiff, sw, weight] at *
            omega
          · obtain ⟨r, hr, hg, hc⟩ := ih js (mw + (t.sw - VW)) (st.addBinding x t) hjs
            refine ⟨r, by simp [matchLoop, hty, hb]; rw [if_neg (by simpa using hw)]; exact hr, ?_, ?_⟩
            · obtain ⟨new, he, hn'⟩ := hg.ext
              refine ⟨⟨new ++ [x], Extends.trans hE he, fun y hy => ?_⟩, ?_⟩
              · rcases List.mem_append.1 hy with hy | hy
                · obtain ⟨p, hp, hy⟩ := hn' y hy; exact ⟨p, by simp [hp], hy⟩
                · simp at hy; subst hy; exact ⟨(var y, t), by simp, by simp [vars]⟩
              · intro hr1
                obtain ⟨h1, h2⟩ := hg.sound hr1
                have hbx := he.mono hbx
                refine ⟨?_, ?_⟩
                · intro p hp
                  rcases List.mem_cons.1 hp with rfl | hp
                  · simpa using toFun_of_bind hbx
                  · exact h1 p hp
                · intro p hp y hy
                  rcases List.mem_cons.1 hp with rfl | hp
                  · simp [vars] at hy; subst hy
                    exact ⟨by rw [toFun_of_bind hbx, hty], t, hbx⟩
                  · exact h2 p hp y hy
            · intro σ hs hle
              refine hc σ ⟨?_, fun p hp => hs.eqs p (by simp [hp]),
                fun p hp => hs.types p (by simp [hp])⟩ ?_
              · intro y u hy
                by_cases hyx : y = x
                · subst hyx
                  rw [hbx] at hy; cases hy
                  simpa using hs.eqs (var y, t) (by simp)
                · exact hs.bind y u (by simpa [SubstSt.addBinding, hyx] using hy)
              · simp only [jdiff, sw, weight] at *; omega
      | app f ms =>
        have failSame : Good sg st st ((app f ms, t) :: js) (false, st) :=
          ⟨⟨[], SubstSt.Extends.refl st, by simp⟩, by simp⟩
        cases t with
        | var y =>
          refine ⟨(false, st), by simp [matchLoop], failSame, ?_⟩
          intro σ hs _
          have := hs.eqs (app f ms, var y) (by simp)
          simp [subst] at this
        | app g ts =>
          by_cases hfg : f = g ∧ ms.length = ts.length
          swap
          · refine ⟨(false, st), ?_, failSame, ?_⟩
            · simp only [matchLoop]; rw [if_pos (by tauto)]
            · intro σ hs _
              have := hs.eqs (app f ms, app g ts) (by simp)
              simp only [subst_app, app.injEq] at this
              exact absurd ⟨this.1, by rw [← this.2, List.length_map]⟩ hfg
          obtain ⟨rfl, hl⟩ := hfg
          have hsz : jsize (pushPairs ms ts js) ≤ n := by
            have := jsize_zip_le ms ts
            simp [pushPairs, jsize_append]
            simp [jsize, size] at hn; omega
          obtain ⟨r, hr, hg, hc⟩ := ih (pushPairs ms ts js) mw st hsz
          refine ⟨r, by simp only [matchLoop]; rw [if_neg (by simp [hl])]; exact hr, ?_, ?_⟩
          · obtain ⟨new, he, hn'⟩ := hg.ext
            refine ⟨⟨new, he, fun y hy => ?_⟩, ?_⟩
            · obtain ⟨p, hp, hy⟩ := hn' y hy
              rcases List.mem_append.1 hp with hp | hp
              · refine ⟨(app f ms, app f ts), by simp, ?_⟩
                simp only [vars, mem_varsL]
                exact ⟨p.1, (List.of_mem_zip (a := p.1) (b := p.2) hp).1, hy⟩
              · exact ⟨p, by simp [hp], hy⟩
            · intro hr1
              obtain ⟨h1, h2⟩ := hg.sound hr1
              refine ⟨?_, ?_⟩
              · intro p hp
                rcases List.mem_cons.1 hp with rfl | hp
                · simp only [subst_app, app.injEq, true_and]
                  exact (map_subst_zip hl).2 fun p hp => h1 p (by simp [pushPairs, hp])
                · exact h1 p (by simp [pushPairs, hp])
              · intro p hp y hy
                rcases List.mem_cons.1 hp with rfl | hp
                · simp only [vars, mem_varsL] at hy
                  obtain ⟨m, hm, hy⟩ := hy
                  obtain ⟨u, hu⟩ := zip_fst hl hm
                  exact h2 (m, u) (by simp [pushPairs, hu]) y hy
                · exact h2 p (by simp [pushPairs, hp]) y hy
          · intro σ hs hle
            refine hc σ ⟨hs.bind, ?_, ?_⟩ ?_
            · intro p hp
              rcases List.mem_append.1 hp with hp | hp
              · have := hs.eqs (app f ms, app f ts) (by simp)
                simp only [subst_app, app.injEq, true_and] at this
                exact (map_subst_zip hl).1 this p hp
              · exact hs.eqs p (by simp [hp])
            · intro p hp y hy
              rcases List.mem_append.1 hp with hp | hp
              · refine hs.types (app f ms, app f ts) (by simp) y ?_
                simp only [vars, mem_varsL]
                exact ⟨p.1, (List.of_mem_zip (a := p.1) (b := p.2) hp).1, hy⟩
              · exact hs.types p (by simp [hp]) y hy
            · have := jdiff_zip hl
              simp only [pushPairs, jdiff_append, this]
              simp only [jdiff, sw, weight] at hle
              push_cast at *; omega

end MatchProof
end Verif
