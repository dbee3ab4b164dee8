import Verif.Clauses.Subsume
import Verif.Clauses.Sem
import Mathlib.Data.List.Perm.Subperm

/-!
# Helper lemmas on subsumption
-/

namespace Verif.SubsProof
open Verif Term SubstSt Props

variable {sg : Sig} {pp : Term → Bool}

theorem Extends.trans {a b c : SubstSt} {n1 n2 : List Nat} (h1 : Extends a b n1) (h2 : Extends b c n2) :
    Extends a c (n2 ++ n1) := by
  refine ⟨by rw [h2.stack, h1.stack, List.append_assoc], ?_, ?_, ?_⟩
  · intro x hx
    rw [List.mem_append, not_or] at hx
    rw [h2.old x hx.1, h1.old x hx.2]
  · intro x hx
    rcases List.mem_append.1 hx with hx | hx
    · by_cases h : x ∈ n1
      · exact h1.fresh x h
      · rw [← h1.old x h]; exact h2.fresh x hx
    · exact h1.fresh x hx
  · intro x hx
    rcases List.mem_append.1 hx with hx | hx
    · exact h2.bound x hx
    · obtain ⟨t, ht⟩ := h1.bound x hx
      exact ⟨t, h2.mono ht⟩

/-- What a successful match leaves. -/
structure Matched (sg : Sig) (m t : Term) (st st' : SubstSt) : Prop where
  ext : ∃ new, Extends st st' new ∧ ∀ x ∈ new, x ∈ m.vars
  inst : m.subst st'.toFun = t
  typed : ∀ x ∈ m.vars, sg.ty (st'.toFun x) = sg.vty x
  bound : ∀ x ∈ m.vars, ∃ u, st'.bind x = some u

theorem matchC_true {m t : Term} {st st' : SubstSt} (h : matchC sg pp m t st = (true, st')) :
    Matched sg m t st st' := by
  unfold matchC at h
  cases hr : substComputeMatch sg m t (pp t) st with
  | none => rw [hr] at h; simp at h
  | some q =>
    rw [hr] at h
    simp only [Option.getD_some] at h
    subst h
    obtain ⟨h1, h2, new, h3, h4, h5⟩ := matching_success sg m t _ st st' hr
    refine ⟨⟨new, ⟨h3, h5, fun x hx => ((h4 x).1 hx).2, fun x hx => h2 x ((h4 x).1 hx).1⟩, fun x hx => ((h4 x).1 hx).1⟩,
      h1.inst, h1.typed, h2⟩

theorem matchC_false {m t : Term} {st st' : SubstSt} (h : matchC sg pp m t st = (false, st')) : st' = st := by
  unfold matchC at h
  cases hr : substComputeMatch sg m t (pp t) st with
  | none => rw [hr] at h; simp at h; exact h.symm
  | some q =>
    rw [hr] at h
    simp only [Option.getD_some] at h
    subst h
    exact matching_failure_restores sg m t _ st st' hr

theorem matchC_complete {m t : Term} {st : SubstSt} {σ : Nat → Term} (hp : ¬ (pp t = true ∧ m.isVar = true))
    (hσ : IsMatch sg st.bind m t σ) : ∃ st', matchC sg pp m t st = (true, st') ∧ ∀ x u, st'.bind x = some u → σ x = u := by
  obtain ⟨res, st', h1, h2⟩ := matching_exact sg m t (pp t) st
  have ht : res = true := h2.2 ⟨hp, σ, hσ⟩
  subst ht
  refine ⟨st', by simp [matchC, h1], fun x u hx => ?_⟩
  obtain ⟨g1, g2, new, g3, g4, g5⟩ := matching_success sg m t _ st st' h1
  by_cases hn : x ∈ new
  · have := (subst_eq_iff.1 (g1.inst.trans hσ.inst.symm)) x ((g4 x).1 hn).1
    simp only [hx, Option.getD_some] at this
    exact this.symm
  · rw [g5 x hn] at hx
    exact hσ.agrees x u hx

theorem toFun_mono {a b : SubstSt} {new : List Nat} (h : Extends a b new) {x : Nat} (hx : ∃ u, a.bind x = some u) :
    b.toFun x = a.toFun x := by
  obtain ⟨u, hu⟩ := hx
  simp [toFun, hu, h.mono hu]

/-- What a successful pair of matches leaves. -/
structure Matched2 (sg : Sig) (l s r t : Term) (st st' : SubstSt) : Prop where
  ext : ∃ new, Extends st st' new
  instl : l.subst st'.toFun = s
  instr : r.subst st'.toFun = t
  typed : ∀ x ∈ l.vars ++ r.vars, sg.ty (st'.toFun x) = sg.vty x
  bound : ∀ x ∈ l.vars ++ r.vars, ∃ u, st'.bind x = some u

theorem matched2_of {l s r t : Term} {st st1 st' : SubstSt} (h1 : Matched sg l s st st1) (h2 : Matched sg r t st1 st') :
    Matched2 sg l s r t st st' := by
  obtain ⟨n1, e1, -⟩ := h1.ext
  obtain ⟨n2, e2, -⟩ := h2.ext
  have hm : ∀ x ∈ l.vars, st'.toFun x = st1.toFun x := fun x hx => toFun_mono e2 (h1.bound x hx)
  refine ⟨⟨_, Extends.trans e1 e2⟩, (subst_congr hm).trans h1.inst, h2.inst, ?_, ?_⟩
  · intro x hx
    rcases List.mem_append.1 hx with hx | hx
    · rw [hm x hx]; exact h1.typed x hx
    · exact h2.typed x hx
  · intro x hx
    rcases List.mem_append.1 hx with hx | hx
    · obtain ⟨u, hu⟩ := h1.bound x hx
      exact ⟨u, e2.mono hu⟩
    · exact h2.bound x hx

theorem matchPair_ext (l s r t : Term) (st : SubstSt) : ∃ new, Extends st (matchPair sg pp l s r t st).2 new := by
  unfold matchPair
  simp only
  cases h1 : matchC sg pp l s st with
  | mk b st1 =>
    cases b with
    | false => rw [matchC_false h1]; exact ⟨[], Extends.refl st⟩
    | true =>
      obtain ⟨n1, e1, -⟩ := (matchC_true h1).ext
      cases h2 : matchC sg pp r t st1 with
      | mk b st2 =>
        cases b with
        | false => rw [matchC_false h2]; exact ⟨n1, by simpa [h2] using e1⟩
        | true =>
          obtain ⟨n2, e2, -⟩ := (matchC_true h2).ext
          exact ⟨_, by simpa [h2] using Extends.trans e1 e2⟩

theorem matchPair_true {l s r t : Term} {st : SubstSt} (h : (matchPair sg pp l s r t st).1 = true) :
    Matched2 sg l s r t st (matchPair sg pp l s r t st).2 := by
  unfold matchPair at h ⊢
  simp only at h ⊢
  cases h1 : matchC sg pp l s st with
  | mk b st1 =>
    rw [h1] at h
    cases b with
    | false => simp at h
    | true =>
      simp only [if_true] at h ⊢
      cases h2 : matchC sg pp r t st1 with
      | mk b st2 =>
        rw [h2] at h
        cases b with
        | false => simp at h
        | true => exact matched2_of (matchC_true h1) (matchC_true h2)

theorem matchPair_complete {l s r t : Term} {st : SubstSt} {σ : Nat → Term} (hps : ¬ (pp s = true ∧ l.isVar = true))
    (hpt : ¬ (pp t = true ∧ r.isVar = true)) (hag : ∀ x u, st.bind x = some u → σ x = u)
    (hty : ∀ x ∈ l.vars ++ r.vars, sg.ty (σ x) = sg.vty x) (hl : l.subst σ = s) (hr : r.subst σ = t) :
    ∃ st', matchPair sg pp l s r t st = (true, st') ∧ ∀ x u, st'.bind x = some u → σ x = u := by
  obtain ⟨st1, h1, a1⟩ := matchC_complete (sg := sg) (pp := pp) hps
    ⟨hag, fun x hx => hty x (List.mem_append_left _ hx), hl⟩
  obtain ⟨st2, h2, a2⟩ := matchC_complete (sg := sg) (pp := pp) hpt
    ⟨a1, fun x hx => hty x (List.mem_append_right _ hx), hr⟩
  exact ⟨st2, by simp [matchPair, h1, h2], a2⟩

/-! ## Well-typed instances -/

theorem wt_of_subst {σ : Nat → Term} {m : Term} (h : sg.WT (m.subst σ)) : ∀ x ∈ m.vars, sg.WT (σ x) := by
  induction m using Term.ind with
  | hv y => intro x hx; simp [vars] at hx; subst hx; exact h
  | ha f ts ih =>
    intro x hx
    rw [subst_app, Sig.wt_app] at h
    simp only [vars, mem_varsL] at hx
    obtain ⟨t, ht, hx⟩ := hx
    exact ih t ht (h.2 _ (List.mem_map_of_mem ht)) x hx

/-- Restrict a substitution to the variables in a list. -/
def restrict (V : List Nat) (σ : Nat → Term) : Nat → Term := fun x => if x ∈ V then σ x else .var x

theorem restrict_wt {V : List Nat} {σ : Nat → Term} (h : ∀ x ∈ V, sg.ty (σ x) = sg.vty x ∧ sg.WT (σ x)) :
    sg.WTSubst (restrict V σ) := by
  intro x
  unfold restrict
  by_cases hx : x ∈ V
  · simpa [hx] using h x hx
  · simp [hx, Sig.ty, Sig.WT]

theorem restrict_subst {V : List Nat} {σ : Nat → Term} {t : Term} (h : ∀ x ∈ t.vars, x ∈ V) :
    t.subst (restrict V σ) = t.subst σ := subst_congr fun x hx => by simp [restrict, h x hx]

/-- The pair `(s, t)` is a well-typed instance of `(l, r)`. -/
def PairInst (sg : Sig) (l r s t : Term) : Prop := ∃ τ, sg.WTSubst τ ∧ l.subst τ = s ∧ r.subst τ = t

theorem pairInst_of {l s r t : Term} {st st' : SubstSt} (h : Matched2 sg l s r t st st') (hs : sg.WT s) (ht : sg.WT t) :
    PairInst sg l r s t := by
  refine ⟨restrict (l.vars ++ r.vars) st'.toFun, restrict_wt fun x hx => ⟨h.typed x hx, ?_⟩, ?_, ?_⟩
  · rcases List.mem_append.1 hx with hx | hx
    · exact wt_of_subst (m := l) (by rw [h.instl]; exact hs) x hx
    · exact wt_of_subst (m := r) (by rw [h.instr]; exact ht) x hx
  · rw [restrict_subst fun x hx => List.mem_append_left _ hx, h.instl]
  · rw [restrict_subst fun x hx => List.mem_append_right _ hx, h.instr]

/-! ## The search -/

theorem backtrack_ext {st st' : SubstSt} (h : ∃ new, Extends st st' new) : st'.backtrackToPos st.stack.length = st := by
  obtain ⟨new, h⟩ := h; exact h.backtrack

theorem attempt_false {l s r t : Term} {rec : SubstSt → Bool × SubstSt} {st : SubstSt}
    (hrec : ∀ st, (rec st).1 = false → (rec st).2 = st) (h : (attempt sg pp l s r t rec st).1 = false) :
    (attempt sg pp l s r t rec st).2.backtrackToPos st.stack.length = st := by
  have hext := matchPair_ext (sg := sg) (pp := pp) l s r t st
  unfold attempt at h ⊢
  split at h
  · rename_i ha
    rw [if_pos ha, hrec _ h]
    exact backtrack_ext hext
  · rename_i ha
    rw [if_neg ha]
    exact backtrack_ext hext

theorem attempt_true {l s r t : Term} {rec : SubstSt → Bool × SubstSt} {st : SubstSt}
    (h : (attempt sg pp l s r t rec st).1 = true) :
    ∃ st1, Matched2 sg l s r t st st1 ∧ attempt sg pp l s r t rec st = rec st1 := by
  unfold attempt at h ⊢
  split at h
  · rename_i ha
    rw [if_pos ha]
    exact ⟨_, matchPair_true ha, rfl⟩
  · rename_i ha
    exact absurd h ha

/-- Case analysis of one round of `tryLits`: the literal is skipped, the search gives up, or one of two attempts is made. -/
theorem tryLits_false {L : OLit} {rec : SubstSt → List Nat → Bool × SubstSt}
    (hrec : ∀ st pick, (rec st pick).1 = false → (rec st pick).2 = st) (D : List OLit) (i : Nat) (st : SubstSt)
    (pick : List Nat) (h : (tryLits sg pp L rec D i st pick).1 = false) : (tryLits sg pp L rec D i st pick).2 = st := by
  induction D generalizing i with
  | nil => rfl
  | cons K D ih =>
    rw [tryLits] at h ⊢
    split at h
    · rename_i hp; rw [if_pos hp]; exact ih _ h
    · rename_i hp
      rw [if_neg hp]
      split at h
      · rfl
      · exact ih _ h
      · split at h
        · rename_i hw; rw [if_pos hw]
        · rename_i hw
          rw [if_neg hw]
          split at h
          · rename_i ho; rw [if_pos ho]; exact ih _ h
          · rename_i ho
            rw [if_neg ho]
            simp only at h ⊢
            split at h
            · rename_i hr; rw [if_pos hr]; rw [hr] at h; cases h
            · rename_i hr
              rw [if_neg hr]
              rw [attempt_false (fun st => hrec st _) (by simpa using hr)] at h ⊢
              split at h
              · rename_i ho2; rw [if_pos ho2]; exact ih _ h
              · rename_i ho2
                rw [if_neg ho2]
                split at h
                · rename_i hr2; rw [if_pos hr2]; rw [hr2] at h; cases h
                · rename_i hr2
                  rw [if_neg hr2]
                  rw [attempt_false (fun st => hrec st _) (by simpa using hr2)] at h ⊢
                  exact ih _ h

theorem recSubsume_false {D C : List OLit} {st : SubstSt} {pick : List Nat}
    (h : (recSubsume sg pp D C st pick).1 = false) : (recSubsume sg pp D C st pick).2 = st := by
  induction C generalizing st pick with
  | nil => simp [recSubsume] at h
  | cons L C ih => exact tryLits_false (fun st pick h => ih h) D 0 st pick h

/-- `tryLits` in terms of the literal chosen. -/
theorem tryLits_true {L : OLit} {rec : SubstSt → List Nat → Bool × SubstSt}
    (hrec : ∀ st pick, (rec st pick).1 = false → (rec st pick).2 = st) (D : List OLit) (i : Nat) (st : SubstSt)
    (pick : List Nat) (h : (tryLits sg pp L rec D i st pick).1 = true) :
    ∃ j K st1, D[j]? = some K ∧ i + j ∉ pick ∧ L.pos = K.pos ∧
      (Matched2 sg L.l K.l L.r K.r st st1 ∨ (L.ori = false ∧ Matched2 sg L.l K.r L.r K.l st st1)) ∧
      tryLits sg pp L rec D i st pick = rec st1 ((i + j) :: pick) := by
  have hposeq : ∀ K : OLit, subsumeQCmp K.toLit L.toLit = .eq → L.pos = K.pos := by
    intro K hK
    rw [subsumeQCmp, Ordering.then_eq_eq] at hK
    have := hK.1
    cases hp : L.pos <;> cases hq : K.pos <;> simp_all [compare, compareOfLessAndEq]
  induction D generalizing i with
  | nil => simp [tryLits] at h
  | cons K D ih =>
    have lift : (tryLits sg pp L rec D (i + 1) st pick).1 = true →
        ∀ q, q = tryLits sg pp L rec D (i + 1) st pick →
        ∃ j K' st1, (K :: D)[j]? = some K' ∧ i + j ∉ pick ∧ L.pos = K'.pos ∧
        (Matched2 sg L.l K'.l L.r K'.r st st1 ∨ (L.ori = false ∧ Matched2 sg L.l K'.r L.r K'.l st st1)) ∧
        q = rec st1 ((i + j) :: pick) := by
      intro h q hq
      subst hq
      obtain ⟨j, K', st1, h1, h2, h3, h4, h5⟩ := ih (i + 1) h
      have e : i + 1 + j = i + (j + 1) := by omega
      rw [e] at h2 h5
      exact ⟨j + 1, K', st1, by simpa using h1, h2, h3, h4, h5⟩
    rw [tryLits] at h ⊢
    split at h
    · rename_i hp; rw [if_pos hp]; exact lift h _ rfl
    · rename_i hp
      rw [if_neg hp]
      split at h
      · cases h
      · exact lift h _ rfl
      · rename_i hcmp
        split at h
        · cases h
        · rename_i hw
          rw [if_neg hw]
          split at h
          · rename_i ho; rw [if_pos ho]; exact lift h _ rfl
          · rename_i ho
            rw [if_neg ho]
            simp only at h ⊢
            split at h
            · rename_i hr
              rw [if_pos hr]
              obtain ⟨st1, hm, hq⟩ := attempt_true hr
              exact ⟨0, K, st1, rfl, hp, hposeq K hcmp, Or.inl hm, hq⟩
            · rename_i hr
              rw [if_neg hr]
              rw [attempt_false (fun st => hrec st _) (by simpa using hr)] at h ⊢
              split at h
              · rename_i ho2; rw [if_pos ho2]; exact lift h _ rfl
              · rename_i ho2
                rw [if_neg ho2]
                split at h
                · rename_i hr2
                  rw [if_pos hr2]
                  obtain ⟨st1, hm, hq⟩ := attempt_true hr2
                  exact ⟨0, K, st1, rfl, hp, hposeq K hcmp, Or.inr ⟨by simpa using ho2, hm⟩, hq⟩
                · rename_i hr2
                  rw [if_neg hr2]
                  rw [attempt_false (fun st => hrec st _) (by simpa using hr2)] at h ⊢
                  exact lift h _ rfl

end Verif.SubsProof
