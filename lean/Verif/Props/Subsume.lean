import Verif.Clauses.SubsumeProof
import Verif.Clauses.InferProof
import Mathlib.Algebra.BigOperators.Group.List.Basic

/-!
# C21, C22: clause subsumption
-/

namespace Verif.Props
open Verif Term SubstSt Interp SemProof SubsProof

universe u

variable {sg : Sig} {pp : Term → Bool}

/-! ## Specification -/

/-- `L` becomes `K` under `σ`, up to exchanging the sides. -/
def LitInst (σ : Nat → Term) (L K : Lit) : Prop :=
  L.pos = K.pos ∧ ((L.l.subst σ = K.l ∧ L.r.subst σ = K.r) ∨ (L.l.subst σ = K.r ∧ L.r.subst σ = K.l))

/-- `σ` maps the literals of `C` to different literals of `D`: the `k`-th literal of `C` to the literal of `D` at position
`ι[k]`. -/
def MapsInto (σ : Nat → Term) (C D : List Lit) : Prop :=
  ∃ ι : List Nat, ι.Nodup ∧ List.Forall₂ (fun L i => ∃ K, D[i]? = some K ∧ LitInst σ L K) C ι

/-- `σ` respects the types of the variables of `C`. -/
def TypedOn (sg : Sig) (σ : Nat → Term) (C : List Lit) : Prop := ∀ x ∈ cvars C, sg.ty (σ x) = sg.vty x

/-! ## C21 -/

theorem mem_cvars {C : List Lit} {x : Nat} : x ∈ cvars C ↔ ∃ L ∈ C, x ∈ L.l.vars ++ L.r.vars := by
  simp [cvars, Lit.vars]

theorem litInst_true {σ : Nat → Term} {L K : Lit} (h : LitInst σ L K) (I : Interp.{u} sg) (v : Nat → I.D) :
    I.LitTrue v (L.subst σ) ↔ I.LitTrue v K := by
  obtain ⟨hp, h | h⟩ := h
  · simp [LitTrue, Lit.subst, hp, h.1, h.2]
  · simp only [LitTrue, Lit.subst, hp, h.1, h.2]
    split
    · exact eq_comm
    · exact ne_comm

/-- Soundness of mapping: `C` implies `D`. -/
theorem mapsInto_entails {σ : Nat → Term} {C D : List Lit} (ht : TypedOn sg σ C) (h : MapsInto σ C D)
    (hD : sg.WTClause D) : Entails.{u} sg [C] D := by
  obtain ⟨ι, -, hf⟩ := h
  have hm : ∀ L ∈ C, ∃ K ∈ D, LitInst σ L K := by
    intro L hL
    clear ht
    induction hf with
    | nil => cases hL
    | cons h1 _ ih =>
      rcases List.mem_cons.1 hL with rfl | hL
      · obtain ⟨K, hK, hi⟩ := h1
        exact ⟨K, List.mem_of_getElem? hK, hi⟩
      · exact ih hL
  have hwt : sg.WTSubst (restrict (cvars C) σ) := by
    refine restrict_wt fun x hx => ⟨ht x hx, ?_⟩
    obtain ⟨L, hL, hx⟩ := mem_cvars.1 hx
    obtain ⟨K, hK, -, hi⟩ := hm L hL
    obtain ⟨w1, w2, -⟩ := hD K hK
    rcases List.mem_append.1 hx with hx | hx <;> rcases hi with ⟨e1, e2⟩ | ⟨e1, e2⟩
    · exact wt_of_subst (m := L.l) (by rw [e1]; exact w1) x hx
    · exact wt_of_subst (m := L.l) (by rw [e1]; exact w2) x hx
    · exact wt_of_subst (m := L.r) (by rw [e2]; exact w2) x hx
    · exact wt_of_subst (m := L.r) (by rw [e2]; exact w1) x hx
  intro I hI v hv
  obtain ⟨L', hL', htrue⟩ := models_subst (hI C (by simp)) hwt v hv
  obtain ⟨L, hL, rfl⟩ := List.mem_map.1 hL'
  obtain ⟨K, hK, hi⟩ := hm L hL
  refine ⟨K, hK, (litInst_true hi I v).1 ?_⟩
  have e : L.subst (restrict (cvars C) σ) = L.subst σ := by
    unfold Lit.subst
    rw [restrict_subst fun x hx => mem_cvars.2 ⟨L, hL, List.mem_append_left _ hx⟩,
      restrict_subst fun x hx => mem_cvars.2 ⟨L, hL, List.mem_append_right _ hx⟩]
  rwa [e] at htrue

theorem recSubsume_true {D C : List OLit} {st : SubstSt} {pick : List Nat}
    (h : (recSubsume sg pp D C st pick).1 = true) :
    ∃ ι : List Nat, ι.Nodup ∧ (∀ i ∈ ι, i ∉ pick) ∧
      (∃ new, Extends st (recSubsume sg pp D C st pick).2 new) ∧
      List.Forall₂ (fun (L : OLit) i => ∃ K : OLit, D[i]? = some K ∧
        LitInst (recSubsume sg pp D C st pick).2.toFun L.toLit K.toLit) C ι ∧
      TypedOn sg (recSubsume sg pp D C st pick).2.toFun (OLit.plain C) := by
  induction C generalizing st pick with
  | nil => exact ⟨[], by simp, by simp, ⟨[], Extends.refl st⟩, by simp, by simp [TypedOn, OLit.plain, cvars]⟩
  | cons L C ih =>
    obtain ⟨j, K, st1, hj, hp, hpos, hm, he⟩ := tryLits_true (fun st pick h => recSubsume_false h) D 0 st pick h
    rw [Nat.zero_add] at hp he
    rw [recSubsume] at h ⊢
    rw [he] at h ⊢
    obtain ⟨ι, h1, h2, ⟨new, hx⟩, h4, h5⟩ := ih h
    have hm' : ∃ s t, ((s = K.l ∧ t = K.r) ∨ (s = K.r ∧ t = K.l)) ∧ Matched2 sg L.l s L.r t st st1 := by
      rcases hm with hm | ⟨-, hm⟩
      · exact ⟨_, _, Or.inl ⟨rfl, rfl⟩, hm⟩
      · exact ⟨_, _, Or.inr ⟨rfl, rfl⟩, hm⟩
    obtain ⟨s, t, hst, hm⟩ := hm'
    have hag : ∀ x ∈ L.l.vars ++ L.r.vars, (recSubsume sg pp D C st1 (j :: pick)).2.toFun x = st1.toFun x :=
      fun x hx' => toFun_mono hx (hm.bound x hx')
    refine ⟨j :: ι, List.nodup_cons.2 ⟨fun hj => h2 j hj (by simp), h1⟩, ?_, ?_, ?_, ?_⟩
    · intro i hi
      rcases List.mem_cons.1 hi with rfl | hi
      · exact hp
      · exact fun hc => h2 i hi (by simp [hc])
    · obtain ⟨n1, e1⟩ := hm.ext
      exact ⟨_, SubsProof.Extends.trans e1 hx⟩
    · refine List.Forall₂.cons ⟨K, hj, hpos, ?_⟩ h4
      have el : L.l.subst (recSubsume sg pp D C st1 (j :: pick)).2.toFun = s :=
        (subst_congr fun x hx => hag x (List.mem_append_left _ hx)).trans hm.instl
      have er : L.r.subst (recSubsume sg pp D C st1 (j :: pick)).2.toFun = t :=
        (subst_congr fun x hx => hag x (List.mem_append_right _ hx)).trans hm.instr
      rcases hst with ⟨rfl, rfl⟩ | ⟨rfl, rfl⟩
      · exact Or.inl ⟨el, er⟩
      · exact Or.inr ⟨el, er⟩
    · intro x hx
      obtain ⟨M, hM, hxM⟩ := mem_cvars.1 hx
      simp only [OLit.plain, List.map_cons, List.mem_cons] at hM
      rcases hM with rfl | hM
      · rw [hag x hxM]; exact hm.typed x hxM
      · exact h5 x (mem_cvars.2 ⟨M, hM, hxM⟩)

/-- The unit literal `L` holds in `I`. -/
def UnitHolds (I : Interp.{u} sg) (L : Lit) : Prop := ∀ v, I.Sorted v → I.LitTrue v L

theorem pairInst_true {L : Lit} {I : Interp.{u} sg} (hI : UnitHolds I L) {s t : Term} (h : PairInst sg L.l L.r s t)
    {v : Nat → I.D} (hv : I.Sorted v) : I.LitTrue v ⟨L.pos, s, t⟩ := by
  obtain ⟨τ, hτ, rfl, rfl⟩ := h
  have := hI _ (sorted_subst I hv hτ)
  rwa [← litTrue_subst] at this

theorem topSubsumes_inst {L : Lit} {t1 t2 : Term} (w1 : sg.WT t1) (w2 : sg.WT t2)
    (h : topSubsumes sg pp L t1 t2 = true) : PairInst sg L.l L.r t1 t2 ∨ PairInst sg L.l L.r t2 t1 := by
  unfold topSubsumes at h
  simp only at h
  cases h1 : matchC sg pp L.l t1 SubstSt.empty with
  | mk b st1 =>
    rw [h1] at h
    cases b with
    | true =>
      simp only [if_true] at h
      cases h2 : matchC sg pp L.r t2 st1 with
      | mk b st2 =>
        rw [h2] at h
        simp only at h
        subst h
        exact Or.inl (pairInst_of (matched2_of (matchC_true h1) (matchC_true h2)) w1 w2)
    | false =>
      simp only [Bool.false_eq_true, if_false] at h
      cases h2 : matchC sg pp L.l t2 st1 with
      | mk b st2 =>
        rw [h2] at h
        cases b with
        | false => simp at h
        | true =>
          simp only [if_true] at h
          cases h3 : matchC sg pp L.r t1 st2 with
          | mk b st3 =>
            rw [h3] at h
            simp only at h
            subst h
            exact Or.inr (pairInst_of (matched2_of (matchC_true h2) (matchC_true h3)) w2 w1)

theorem argDiff_none {ss ts : List Term} (hl : ss.length = ts.length) (h : argDiff ss ts = .none) : ss = ts := by
  induction ss generalizing ts with
  | nil => cases ts with
    | nil => rfl
    | cons => simp at hl
  | cons s ss ih =>
    cases ts with
    | nil => simp at hl
    | cons t ts =>
      rw [argDiff] at h
      split at h
      · rename_i e
        rw [e, ih (by simpa using hl) h]
      · split at h <;> cases h

theorem argDiff_one {ss ts : List Term} {s t : Term} (hl : ss.length = ts.length) (h : argDiff ss ts = .one s t) :
    ∃ a b, ss = a ++ s :: b ∧ ts = a ++ t :: b := by
  induction ss generalizing ts with
  | nil => simp [argDiff] at h
  | cons s' ss ih =>
    cases ts with
    | nil => simp at hl
    | cons t' ts =>
      rw [argDiff] at h
      split at h
      · rename_i e
        obtain ⟨a, b, e1, e2⟩ := ih (by simpa using hl) h
        exact ⟨s' :: a, b, by simp [e1], by simp [e, e2]⟩
      · split at h
        · rename_i hn
          cases h
          exact ⟨[], ss, rfl, by simp [argDiff_none (by simpa using hl) hn]⟩
        · cases h

theorem wt_args {f : Nat} {ts : List Term} (h : sg.WT (.app f ts)) : ∀ t ∈ ts, sg.WT t := (Sig.wt_app.1 h).2

theorem subsumesPair_sound {L : Lit} (hp : L.pos = true) {I : Interp.{u} sg} (hI : UnitHolds I L) {n : Nat} {t1 t2 : Term}
    (w1 : sg.WT t1) (w2 : sg.WT t2) (h : subsumesPair sg pp L n t1 t2 = some true) {v : Nat → I.D} (hv : I.Sorted v) :
    I.eval v t1 = I.eval v t2 := by
  induction n generalizing t1 t2 with
  | zero => simp [subsumesPair] at h
  | succ n ih =>
    unfold subsumesPair at h
    split at h
    · rename_i ht
      rcases topSubsumes_inst w1 w2 ht with hi | hi
      · simpa [LitTrue, hp] using pairInst_true hI hi hv
      · have := pairInst_true hI hi hv
        simp only [LitTrue, hp, if_true] at this
        exact this.symm
    · split at h
      · rename_i f ss g ts
        split at h
        · simp at h
        · rename_i hc
          rw [not_or, not_or, not_not, not_not] at hc
          obtain ⟨rfl, -, hl⟩ := hc
          split at h
          · simp at h
          · rename_i hd
            rw [argDiff_none hl hd]
          · rename_i s t hd
            obtain ⟨a, b, rfl, rfl⟩ := argDiff_one hl hd
            have := ih (wt_args w1 s (by simp)) (wt_args w2 t (by simp)) h
            rw [eval_app, eval_app]
            simp [this]
      · simp at h

theorem literalSubsumes_sound {L : Lit} {D : List Lit} (hD : sg.WTClause D) (h : literalSubsumes sg pp L D = true) :
    Entails.{u} sg [[L]] D := by
  intro I hI v hv
  have hU : UnitHolds I L := fun w hw => by
    obtain ⟨K, hK, ht⟩ := hI [L] (by simp) w hw
    rw [List.mem_singleton.1 hK] at ht
    exact ht
  induction D with
  | nil => simp [literalSubsumes] at h
  | cons K D ih =>
    rw [literalSubsumes, Bool.or_eq_true] at h
    rcases h with h | h
    · refine ⟨K, by simp, ?_⟩
      obtain ⟨w1, w2, -⟩ := hD K (by simp)
      split at h
      · rename_i hp
        rw [Bool.and_eq_true] at h
        cases hs : subsumesPair sg pp L K.l.size K.l K.r with
        | none => rw [hs] at h; simp at h
        | some b =>
          rw [hs] at h
          simp only [Option.getD_some] at h
          rw [h.2] at hs
          simpa [LitTrue, h.1] using subsumesPair_sound hp hU w1 w2 hs hv
      · rename_i hp
        rw [Bool.and_eq_true] at h
        have hn : K.pos = false := by simpa using h.1
        rcases topSubsumes_inst w1 w2 h.2 with hi | hi
        · have := pairInst_true hU hi hv
          simpa [LitTrue, hn, hp] using this
        · have := pairInst_true hU hi hv
          simp only [LitTrue, hn, hp] at this ⊢
          simpa using fun e => this (by simp at *; exact e.symm)
    · obtain ⟨M, hM, ht⟩ := ih (fun M hM => hD M (by simp [hM])) h
      exact ⟨M, by simp [hM], ht⟩

theorem clauseSubsumes_rec {C D : List OLit} (hC : 2 ≤ C.length) (h : clauseSubsumes sg pp C D = true) :
    (recSubsume sg pp D C SubstSt.empty []).1 = true := by
  unfold clauseSubsumes at h
  split at h
  · simp at hC
  · simp at hC
  · split at h
    · cases h
    · split at h
      · cases h
      · split at h
        · cases h
        · exact h

/-- C21: if `ClauseSubsumesClause(C, D)` reports true for a clause `C` with at least two literals, then some
type-respecting substitution maps the literals of `C` to different literals of `D`. -/
theorem subsumes_mapsInto {C D : List OLit} (hC : 2 ≤ C.length) (h : clauseSubsumes sg pp C D = true) :
    ∃ σ, TypedOn sg σ (OLit.plain C) ∧ MapsInto σ (OLit.plain C) (OLit.plain D) := by
  obtain ⟨ι, h1, -, -, h4, h5⟩ := recSubsume_true (clauseSubsumes_rec hC h)
  refine ⟨_, h5, ι, h1, ?_⟩
  unfold OLit.plain
  rw [List.forall₂_map_left_iff]
  refine h4.imp fun L i hi => ?_
  obtain ⟨K, hK, hi⟩ := hi
  exact ⟨K.toLit, by simp [hK], hi⟩

/-- C21: whenever `ClauseSubsumesClause(C, D)` reports true (also for the empty clause and unit
clauses), `C` implies `D`. -/
theorem subsumes_sound {C D : List OLit} (hD : sg.WTClause (OLit.plain D)) (h : clauseSubsumes sg pp C D = true) :
    Entails.{u} sg [OLit.plain C] (OLit.plain D) := by
  match C, h with
  | [], _ =>
    intro I hI v hv
    obtain ⟨L, hL, -⟩ := hI (OLit.plain []) (by simp) v hv
    simp [OLit.plain] at hL
  | [L], h => exact literalSubsumes_sound hD h
  | L :: L' :: C, h =>
    obtain ⟨σ, h1, h2⟩ := subsumes_mapsInto (by simp) h
    exact mapsInto_entails h1 h2 hD

/-- C21 for clause sets: the clause returned is a member of the set and implies the candidate. -/
theorem setSubsumes_sound {S : List (List OLit)} {C D : List OLit} (hD : sg.WTClause (OLit.plain D))
    (h : setSubsumes sg pp S D = some C) : C ∈ S ∧ Entails.{u} sg [OLit.plain C] (OLit.plain D) :=
  ⟨List.mem_of_find?_eq_some h, subsumes_sound hD (by simpa using List.find?_some h)⟩

/-- `eqn_subsumes_termpair` returns within as many rounds as the first term has symbols (the fuel used in the model). -/
theorem subsumesPair_total (L : Lit) (n : Nat) (t1 t2 : Term) (h : t1.size ≤ n) :
    ∃ b, subsumesPair sg pp L n t1 t2 = some b := by
  induction n generalizing t1 t2 with
  | zero => cases t1 <;> simp [size] at h
  | succ n ih =>
    unfold subsumesPair
    split
    · exact ⟨_, rfl⟩
    · split
      · rename_i f ss g ts
        split
        · exact ⟨_, rfl⟩
        · rename_i hc
          rw [not_or, not_or, not_not, not_not] at hc
          split
          · exact ⟨_, rfl⟩
          · exact ⟨_, rfl⟩
          · rename_i s t hd
            obtain ⟨a, b, rfl, -⟩ := argDiff_one hc.2.2 hd
            exact ih _ _ (Nat.le_of_lt_succ (lt_of_lt_of_le (size_arg_lt (by simp)) h))
      · exact ⟨_, rfl⟩

/-! ## C22 -/

/-- As `MapsInto`, with the orientation convention: the image of an oriented literal is oriented, in the same
direction. -/
def MapsIntoO (σ : Nat → Term) (C D : List OLit) : Prop :=
  ∃ ι : List Nat, ι.Nodup ∧ List.Forall₂ (fun (L : OLit) i => ∃ K : OLit, D[i]? = some K ∧ L.pos = K.pos ∧
    (L.ori = true → K.ori = true) ∧ ((L.l.subst σ = K.l ∧ L.r.subst σ = K.r) ∨
      (L.ori = false ∧ L.l.subst σ = K.r ∧ L.r.subst σ = K.l))) C ι

/-- Literals sorted as `ClauseSubsumeOrderSortLits` leaves them (asserted by `clause_subsumes_clause`). -/
def SubsumeOrdered (D : List OLit) : Prop :=
  D.Pairwise fun K K' => subsumeQCmp K.toLit K'.toLit = .gt ∨ (subsumeQCmp K.toLit K'.toLit = .eq ∧ K'.toLit.sw ≤ K.toLit.sw)

/-- First-order problem: no Boolean variables, and only Boolean terms are in predicate position. -/
structure FirstOrder (sg : Sig) (pp : Term → Bool) : Prop where
  novar : ∀ x, sg.vty x ≠ sg.fty 1
  pred : ∀ t, pp t = true → sg.ty t = sg.fty 1

theorem qcmp_eq {L K : Lit} : subsumeQCmp L K = .eq ↔ L.pos = K.pos ∧ L.equ = K.equ ∧ (L.equ = false → L.l.code = K.l.code) := by
  have hb : ∀ a b : Bool, compare a.toNat b.toNat = .eq ↔ a = b := by decide
  rw [subsumeQCmp, Ordering.then_eq_eq, Ordering.then_eq_eq, hb, hb]
  cases L.equ <;> simp

theorem qcmp_congr {L K : Lit} (h : subsumeQCmp K L = .eq) (M : Lit) :
    subsumeQCmp M K = subsumeQCmp M L ∧ subsumeQCmp K M = subsumeQCmp L M := by
  obtain ⟨h1, h2, h3⟩ := qcmp_eq.1 h
  unfold subsumeQCmp
  rw [h1, h2]
  cases he : L.equ
  · rw [he] at h2
    rw [h3 h2]; simp
  · cases hm : M.equ <;> simp [compare, compareOfLessAndEq]

theorem qcmp_swap (L K : Lit) : subsumeQCmp L K = (subsumeQCmp K L).swap := by
  have hb : ∀ a b : Bool, compare a.toNat b.toNat = (compare b.toNat a.toNat).swap := by decide
  unfold subsumeQCmp
  rw [Ordering.swap_then, Ordering.swap_then, ← hb, ← hb]
  cases h1 : L.equ <;> cases h2 : K.equ
  · simp [← Std.OrientedCmp.eq_swap]
  · simp [compare, compareOfLessAndEq]
  · simp [compare, compareOfLessAndEq]
  · simp

/-- What it means for `L` to be mapped to `K`. -/
structure Target (sg : Sig) (σ : Nat → Term) (L K : OLit) : Prop where
  cmp : subsumeQCmp K.toLit L.toLit = .eq
  sw : L.toLit.sw ≤ K.toLit.sw
  ori : L.ori = true → K.ori = true
  inst : (L.l.subst σ = K.l ∧ L.r.subst σ = K.r) ∨ (L.ori = false ∧ L.l.subst σ = K.r ∧ L.r.subst σ = K.l)
  typed : ∀ x ∈ L.l.vars ++ L.r.vars, sg.ty (σ x) = sg.vty x

theorem subst_true {t : Term} {σ : Nat → Term} (hfo : ∀ x, sg.vty x ≠ sg.fty 1)
    (ht : ∀ x ∈ t.vars, sg.ty (σ x) = sg.vty x) (h : t.subst σ = tTrue) : t = tTrue := by
  cases t with
  | var x =>
    have := ht x (by simp [vars])
    simp only [subst] at h
    rw [h] at this
    exact absurd this.symm (hfo x)
  | app f ts =>
    simp only [subst_app, tTrue, app.injEq, List.map_eq_nil_iff] at h ⊢
    exact h

theorem target_of {σ : Nat → Term} (hfo : FirstOrder sg pp) {L K : OLit} (hwt : sg.WTLit L.toLit) (hL : L.toLit.NF) (hK : K.toLit.NF)
    (ht : ∀ x ∈ L.l.vars ++ L.r.vars, sg.ty (σ x) = sg.vty x) (hp : L.pos = K.pos) (ho : L.ori = true → K.ori = true)
    (hi : (L.l.subst σ = K.l ∧ L.r.subst σ = K.r) ∨ (L.ori = false ∧ L.l.subst σ = K.r ∧ L.r.subst σ = K.l)) :
    Target sg σ L K := by
  have hl : ∀ x ∈ L.l.vars, sg.ty (σ x) = sg.vty x := fun x hx => ht x (List.mem_append_left _ hx)
  have hr : ∀ x ∈ L.r.vars, sg.ty (σ x) = sg.vty x := fun x hx => ht x (List.mem_append_right _ hx)
  refine ⟨qcmp_eq.2 ⟨hp.symm, ?_, ?_⟩, ?_, ho, hi, ht⟩
  · have : K.r = tTrue ↔ L.r = tTrue := by
      rcases hi with ⟨e1, e2⟩ | ⟨-, e1, e2⟩
      · rw [← e2]
        exact ⟨subst_true hfo.novar hr, fun h => by rw [h]; rfl⟩
      · constructor
        · intro h
          rw [h] at e1
          exact hL.2.2 (subst_true hfo.novar hl e1)
        · intro h
          apply hK.2.2
          rw [← e2, h]; rfl
    simp [Lit.equ, this]
  · intro he
    have hKr : K.r = tTrue := by simpa [Lit.equ] using he
    have hnv : ∀ x, L.l ≠ var x ∨ L.r ≠ tTrue := by
      intro x
      by_contra hc
      rw [not_or, not_not, not_not] at hc
      have := hwt.2.2
      rw [hc.1, hc.2] at this
      exact hfo.novar x this
    rcases hi with ⟨e1, e2⟩ | ⟨-, e1, e2⟩
    · have hLr : L.r = tTrue := subst_true hfo.novar hr (e2.trans hKr)
      cases hll : L.l with
      | var x => exact absurd hll ((hnv x).resolve_right (not_not.2 hLr))
      | app f ts => rw [← e1, hll, subst_app]; rfl
    · have hLl : L.l = tTrue := subst_true hfo.novar hl (e1.trans hKr)
      have hLr := hL.2.2 hLl
      rw [← e2, hLr, hLl]; rfl
  · have w1 := MatchProof.sw_subst_ge σ L.l
    have w2 := MatchProof.sw_subst_ge σ L.r
    unfold Lit.sw
    rcases hi with ⟨e1, e2⟩ | ⟨-, e1, e2⟩ <;> rw [e1] at w1 <;> rw [e2] at w2 <;> omega

/-- Terms matched in a target pair are not predicate-position terms matched by a variable. -/
theorem pp_ok {σ : Nat → Term} (hfo : FirstOrder sg pp) {m t : Term} (ht : ∀ x ∈ m.vars, sg.ty (σ x) = sg.vty x)
    (hi : m.subst σ = t) : ¬ (pp t = true ∧ m.isVar = true) := by
  rintro ⟨h1, h2⟩
  cases m with
  | app f ts => cases h2
  | var x =>
    have := ht x (by simp [vars])
    simp only [subst] at hi
    rw [hi, hfo.pred t h1] at this
    exact hfo.novar x this.symm

theorem matchPair_target {σ : Nat → Term} (hfo : FirstOrder sg pp) {l r s t : Term} {st : SubstSt}
    (ht : ∀ x ∈ l.vars ++ r.vars, sg.ty (σ x) = sg.vty x) (hl : l.subst σ = s) (hr : r.subst σ = t)
    (hag : ∀ x u, st.bind x = some u → σ x = u) :
    ∃ st', matchPair sg pp l s r t st = (true, st') ∧ ∀ x u, st'.bind x = some u → σ x = u :=
  matchPair_complete (pp_ok hfo (fun x hx => ht x (List.mem_append_left _ hx)) hl)
    (pp_ok hfo (fun x hx => ht x (List.mem_append_right _ hx)) hr) hag ht hl hr

theorem tryLits_complete {σ : Nat → Term} (hfo : FirstOrder sg pp) {L : OLit} {rec : SubstSt → List Nat → Bool × SubstSt}
    (hrec : ∀ st pick, (rec st pick).1 = false → (rec st pick).2 = st) (D : List OLit) (i j : Nat) (st : SubstSt)
    (pick : List Nat) (hs : SubsumeOrdered D) {K : OLit} (hj : D[j]? = some K) (hT : Target sg σ L K) (hp : i + j ∉ pick)
    (hag : ∀ x u, st.bind x = some u → σ x = u)
    (hgo : ∀ st1, (∀ x u, st1.bind x = some u → σ x = u) → (rec st1 ((i + j) :: pick)).1 = true) :
    (tryLits sg pp L rec D i st pick).1 = true := by
  induction D generalizing i j with
  | nil => simp at hj
  | cons K0 D ih =>
    have hs' := List.pairwise_cons.1 hs
    cases j with
    | zero =>
      simp only [List.getElem?_cons_zero, Option.some.injEq] at hj
      subst hj
      rw [Nat.add_zero] at hp hgo
      rw [tryLits, if_neg hp, hT.cmp]
      simp only
      rw [if_neg (by have := hT.sw; omega), if_neg (by simp; exact hT.ori)]
      by_cases hr : (attempt sg pp L.l K0.l L.r K0.r (fun s => rec s (i :: pick)) st).1 = true
      · rw [if_pos hr]; exact hr
      · rw [if_neg hr, attempt_false (fun st => hrec st _) (by simpa using hr)]
        rcases hT.inst with ⟨e1, e2⟩ | ⟨ho, e1, e2⟩
        · exfalso
          apply hr
          obtain ⟨st', h1, h2⟩ := matchPair_target hfo hT.typed e1 e2 hag
          simp only [attempt, h1, if_true]
          exact hgo st' h2
        · rw [if_neg (by simp [ho])]
          obtain ⟨st', h1, h2⟩ := matchPair_target hfo hT.typed e1 e2 hag
          have hr2 : (attempt sg pp L.l K0.r L.r K0.l (fun s => rec s (i :: pick)) st).1 = true := by
            simp only [attempt, h1, if_true]
            exact hgo st' h2
          rw [if_pos hr2]; exact hr2
    | succ j =>
      simp only [List.getElem?_cons_succ] at hj
      have hcont : (tryLits sg pp L rec D (i + 1) st pick).1 = true := by
        have e : i + (j + 1) = i + 1 + j := by omega
        rw [e] at hp hgo
        exact ih (i + 1) j hs'.2 hj hp hgo
      have hK0 := hs'.1 K (List.mem_of_getElem? hj)
      rw [(qcmp_congr hT.cmp K0.toLit).1] at hK0
      rw [tryLits]
      split
      · exact hcont
      · rcases hK0 with hK0 | ⟨hK0, hw⟩
        · rw [hK0]; exact hcont
        · rw [hK0]
          simp only
          rw [if_neg (by have := hT.sw; omega)]
          split
          · exact hcont
          · by_cases hr : (attempt sg pp L.l K0.l L.r K0.r (fun s => rec s (i :: pick)) st).1 = true
            · rw [if_pos hr]; exact hr
            · rw [if_neg hr, attempt_false (fun st => hrec st _) (by simpa using hr)]
              split
              · exact hcont
              · by_cases hr2 : (attempt sg pp L.l K0.r L.r K0.l (fun s => rec s (i :: pick)) st).1 = true
                · rw [if_pos hr2]; exact hr2
                · rw [if_neg hr2, attempt_false (fun st => hrec st _) (by simpa using hr2)]
                  exact hcont

theorem recSubsume_complete {σ : Nat → Term} (hfo : FirstOrder sg pp) {D : List OLit} (hs : SubsumeOrdered D) {C : List OLit}
    {ι : List Nat} (hT : List.Forall₂ (fun L i => ∃ K, D[i]? = some K ∧ Target sg σ L K) C ι) (hn : ι.Nodup) (st : SubstSt)
    (pick : List Nat) (hd : ∀ i ∈ ι, i ∉ pick) (hag : ∀ x u, st.bind x = some u → σ x = u) :
    (recSubsume sg pp D C st pick).1 = true := by
  induction hT generalizing st pick with
  | nil => rfl
  | cons h1 _ ih =>
    rename_i L i C ι _
    obtain ⟨K, hK, hT⟩ := h1
    rw [List.nodup_cons] at hn
    rw [recSubsume]
    refine tryLits_complete hfo (fun st pick h => recSubsume_false h) D 0 i st pick hs hK hT
      (by rw [Nat.zero_add]; exact hd i (by simp)) hag fun st1 h => ?_
    rw [Nat.zero_add]
    refine ih hn.2 st1 _ (fun k hk hc => ?_) h
    rcases List.mem_cons.1 hc with rfl | hc
    · exact hn.1 hk
    · exact hd k (by simp [hk]) hc

theorem findSpec_complete {σ : Nat → Term} (hfo : FirstOrder sg pp) {L K : OLit} {D : List OLit} (hs : SubsumeOrdered D)
    (hK : K ∈ D) (hT : Target sg σ L K) : findSpec sg pp L D = true := by
  induction D with
  | nil => cases hK
  | cons K0 D ih =>
    have hs' := List.pairwise_cons.1 hs
    have hempty : ∀ x u, SubstSt.empty.bind x = some u → σ x = u := fun x u h => by simp [SubstSt.empty] at h
    rw [findSpec, qcmp_swap]
    rcases List.mem_cons.1 hK with rfl | hK
    · rw [hT.cmp]
      simp only [Ordering.swap_eq]
      rw [if_neg (by have := hT.sw; omega), if_neg (by simp; exact hT.ori)]
      rcases hT.inst with ⟨e1, e2⟩ | ⟨ho, e1, e2⟩
      · obtain ⟨st', h1, -⟩ := matchPair_target hfo hT.typed e1 e2 hempty
        rw [if_pos (by rw [h1])]
      · obtain ⟨st', h1, -⟩ := matchPair_target hfo hT.typed e1 e2 hempty
        split
        · rfl
        · rw [if_neg (by simp [ho]), if_pos (by rw [h1])]
    · have hc := ih hs'.2 hK
      have hK0 := hs'.1 K hK
      rw [(qcmp_congr hT.cmp K0.toLit).1] at hK0
      rcases hK0 with hK0 | ⟨hK0, hw⟩
      · rw [hK0]; exact hc
      · rw [hK0]
        simp only [Ordering.swap_eq]
        rw [if_neg (by have := hT.sw; omega)]
        split
        · exact hc
        · split
          · rfl
          · split
            · exact hc
            · split
              · rfl
              · exact hc

/-- Literals picked at different positions form a sub-multiset. -/
theorem picked_subperm {α : Type} (D E : List α) (ι : List Nat) (hn : ι.Nodup)
    (h : List.Forall₂ (fun K i => D[i]? = some K) E ι) : List.Subperm E D := by
  have h1 : E = ι.filterMap fun i => D[i]? := by
    clear hn
    induction h with
    | nil => rfl
    | cons h _ ih => rw [List.filterMap_cons, h]; exact congrArg _ ih
  have h2 : D = (List.range D.length).filterMap fun i => D[i]? := by
    clear h1 h hn
    induction D with
    | nil => rfl
    | cons a D ih =>
      rw [List.length_cons, List.range_succ_eq_map, List.filterMap_cons, List.filterMap_map]
      exact congrArg (a :: ·) ih
  have h3 : List.Subperm ι (List.range D.length) := by
    refine hn.subperm fun i hi => ?_
    obtain ⟨K, hK⟩ : ∃ K, D[i]? = some K := by
      clear h1 h2 hn
      induction h with
      | nil => cases hi
      | cons h _ ih =>
        rcases List.mem_cons.1 hi with rfl | hi
        · exact ⟨_, h⟩
        · exact ih hi
    exact List.mem_range.2 (List.getElem?_eq_some_iff.1 hK).1
  rw [h1]
  conv => rhs; rw [h2]
  obtain ⟨l, hp, hl⟩ := h3
  exact ⟨_, hp.filterMap _, hl.filterMap _⟩

theorem sum_le_of_subperm {α : Type} (f : α → Int) (hf : ∀ a, 0 ≤ f a) {E D : List α} (h : List.Subperm E D) :
    (E.map f).sum ≤ (D.map f).sum := by
  obtain ⟨l, hp, hs⟩ := h
  rw [← (hp.map f).sum_eq]
  clear hp
  induction hs with
  | slnil => simp
  | cons a _ ih => have := hf a; simp only [List.map_cons, List.sum_cons]; omega
  | cons_cons a _ ih => simp only [List.map_cons, List.sum_cons]; omega

theorem sum_le_forall2 {α : Type} {f : α → Int} {R : α → α → Prop} {C E : List α} (h : List.Forall₂ R C E)
    (hR : ∀ L K, R L K → f L ≤ f K) : (C.map f).sum ≤ (E.map f).sum := by
  induction h with
  | nil => simp
  | cons h _ ih => have := hR _ _ h; simp only [List.map_cons, List.sum_cons]; omega

theorem forall2_mem {α β : Type} {R : α → β → Prop} {C : List α} {E : List β} (h : List.Forall₂ R C E) {L : α} (hL : L ∈ C) :
    ∃ K ∈ E, R L K := by
  induction h with
  | nil => cases hL
  | cons h _ ih =>
    rcases List.mem_cons.1 hL with rfl | hL
    · exact ⟨_, by simp, h⟩
    · obtain ⟨K, hK, hR⟩ := ih hL
      exact ⟨K, by simp [hK], hR⟩

theorem images {α β γ : Type} {R : α → γ → Prop} {C : List α} {ι : List β} {g : β → Option γ}
    (h : List.Forall₂ (fun L i => ∃ K, g i = some K ∧ R L K) C ι) :
    ∃ E : List γ, List.Forall₂ (fun K i => g i = some K) E ι ∧ List.Forall₂ R C E := by
  induction h with
  | nil => exact ⟨[], .nil, .nil⟩
  | cons h _ ih =>
    obtain ⟨K, h1, h2⟩ := h
    obtain ⟨E, h3, h4⟩ := ih
    exact ⟨K :: E, .cons h1 h3, .cons h2 h4⟩

theorem countP_forall2 {α : Type} {p : α → Bool} {C E : List α} (h : List.Forall₂ (fun L K => p L = p K) C E) :
    C.countP p = E.countP p := by
  induction h with
  | nil => rfl
  | cons h _ ih => simp [List.countP_cons, h, ih]

/-- C22 for clauses with at least two literals: if some type-respecting substitution maps the literals of `C` to different
literals of `D` (respecting orientation), `ClauseSubsumesClause` reports true: no pre-check rejects the pair and the search
finds a mapping.  The literals of `D` are sorted as the code keeps them.  Missing for the full
property: unit clauses, where it is false (`unitSubsumes_incomplete`). -/
theorem subsumes_complete_partial (hfo : FirstOrder sg pp) {C D : List OLit} (h2 : 2 ≤ C.length)
    (hC : sg.WTClause (OLit.plain C)) (nC : ∀ L ∈ C, L.toLit.NF) (nD : ∀ K ∈ D, K.toLit.NF) (hs : SubsumeOrdered D)
    {σ : Nat → Term} (ht : TypedOn sg σ (OLit.plain C)) (hm : MapsIntoO σ C D) : clauseSubsumes sg pp C D = true := by
  obtain ⟨ι, hn, hf⟩ := hm
  have hT : List.Forall₂ (fun L i => ∃ K, D[i]? = some K ∧ Target sg σ L K) C ι := by
    have : ∀ (C' : List OLit) (ι' : List Nat), (∀ L ∈ C', L ∈ C) → List.Forall₂ (fun (L : OLit) i => ∃ K : OLit,
        D[i]? = some K ∧ L.pos = K.pos ∧ (L.ori = true → K.ori = true) ∧ ((L.l.subst σ = K.l ∧ L.r.subst σ = K.r) ∨
        (L.ori = false ∧ L.l.subst σ = K.r ∧ L.r.subst σ = K.l))) C' ι' →
        List.Forall₂ (fun L i => ∃ K, D[i]? = some K ∧ Target sg σ L K) C' ι' := by
      intro C' ι' hsub h
      induction h with
      | nil => exact .nil
      | cons h _ ih =>
        obtain ⟨K, h1, h2, h3, h4⟩ := h
        rename_i L i C' ι' _
        have hLC := hsub L (by simp)
        refine .cons ⟨K, h1, ?_⟩ (ih fun L hL => hsub L (by simp [hL]))
        refine target_of hfo (hC _ (List.mem_map_of_mem hLC)) (nC L hLC) (nD K (List.mem_of_getElem? h1)) ?_ h2 h3 h4
        exact fun x hx => ht x (mem_cvars.2 ⟨L.toLit, List.mem_map_of_mem hLC, hx⟩)
    exact this C ι (fun _ h => h) hf
  obtain ⟨E, hE, hCE⟩ := images hT
  have hsub := picked_subperm D E ι hn hE
  have hcount : ∀ q : Bool → Bool, C.countP (fun L => q L.pos) ≤ D.countP (fun L => q L.pos) := by
    intro q
    refine le_trans (le_of_eq (countP_forall2 (hCE.imp fun L K h => ?_))) (List.Subperm.countP_le _ hsub)
    rw [(qcmp_eq.1 h.cmp).1]
  have hsw : clauseSW C ≤ clauseSW D := by
    refine le_trans ?_ (sum_le_of_subperm (fun L : OLit => L.toLit.sw) (fun L => ?_) hsub)
    · exact sum_le_forall2 hCE fun L K h => h.sw
    · have h1 := MatchProof.sw_pos L.l
      have h2 := MatchProof.sw_pos L.r
      simp only [Lit.sw]; omega
  have hspec : (C.all fun L => findSpec sg pp L D) = true := by
    rw [List.all_eq_true]
    intro L hL
    obtain ⟨K, hK, hT⟩ := forall2_mem hCE hL
    exact findSpec_complete hfo hs (hsub.subset hK) hT
  have hrec := recSubsume_complete hfo hs hT hn SubstSt.empty [] (by simp) (fun x u h => by simp [SubstSt.empty] at h)
  unfold clauseSubsumes
  split
  · rfl
  · simp at h2
  · rw [if_neg, if_neg, if_neg]
    · exact hrec
    · rw [hspec]; simp
    · omega
    · have h1 := hcount id
      have h2 := hcount not
      simp only [id] at h1
      omega

/-- C22 for unit clauses, the part that holds: an instance with the sides in the same order is found.  Missing: the sides
exchanged (`unitSubsumes_incomplete`). -/
theorem unitSubsumes_complete_partial (hfo : FirstOrder sg pp) {L : OLit} {D : List OLit} {σ : Nat → Term}
    (ht : TypedOn sg σ [L.toLit]) {K : OLit} (hK : K ∈ D) (hp : L.pos = K.pos) (hl : L.l.subst σ = K.l)
    (hr : L.r.subst σ = K.r) : clauseSubsumes sg pp [L] D = true := by
  have hv : ∀ x ∈ L.l.vars ++ L.r.vars, sg.ty (σ x) = sg.vty x := fun x hx => ht x (mem_cvars.2 ⟨L.toLit, by simp, hx⟩)
  have htop : topSubsumes sg pp L.toLit K.l K.r = true := by
    obtain ⟨st1, h1, a1⟩ := matchC_complete (sg := sg) (pp := pp) (st := SubstSt.empty)
      (pp_ok hfo (fun x hx => hv x (List.mem_append_left _ hx)) hl)
      ⟨fun x u h => by simp [SubstSt.empty] at h, fun x hx => hv x (List.mem_append_left _ hx), hl⟩
    obtain ⟨st2, h2, -⟩ := matchC_complete (sg := sg) (pp := pp) (st := st1)
      (pp_ok hfo (fun x hx => hv x (List.mem_append_right _ hx)) hr)
      ⟨a1, fun x hx => hv x (List.mem_append_right _ hx), hr⟩
    simp [topSubsumes, h1, h2]
  show literalSubsumes sg pp L.toLit (OLit.plain D) = true
  induction D with
  | nil => cases hK
  | cons K' D ih =>
    simp only [OLit.plain, List.map_cons]
    rw [literalSubsumes, Bool.or_eq_true]
    rcases List.mem_cons.1 hK with rfl | hK
    · left
      cases hL : L.pos
      · rw [hL] at hp
        simp [← hp, htop]
      · rw [hL] at hp
        have : subsumesPair sg pp L.toLit K.l.size K.l K.r = some true := by
          obtain ⟨k, hk⟩ : ∃ k, K.l.size = k + 1 := by
            cases K.l with
            | var x => exact ⟨0, rfl⟩
            | app f ts => exact ⟨sizeL ts, by simp [size]; omega⟩
          rw [hk]
          unfold subsumesPair
          rw [if_pos htop]
        simp [← hp, this]
    · exact Or.inr (ih hK)

/-! The counterexample for unit clauses, and examples. -/

def sgS : Sig := ⟨fun _ => 0, fun f => if f ≤ 2 then 1 else 0, fun f => if f = 10 then [0, 0] else [], fun _ => false⟩

/-- `f(X,Y) = f(X,c)` -/
def unitS : OLit := ⟨⟨true, .app 10 [.var 2, .var 4], .app 10 [.var 2, .app 13 []]⟩, false⟩
/-- `f(a,c) = f(a,b)` -/
def candS : OLit := ⟨⟨true, .app 10 [.app 11 [], .app 13 []], .app 10 [.app 11 [], .app 12 []]⟩, true⟩

theorem firstOrder_sgS : FirstOrder sgS fun _ => false := ⟨fun x => by simp [sgS], fun t h => by cases h⟩

/-- C22 fails for unit clauses: `f(a,c) = f(a,b)` is an instance of `f(X,Y) = f(X,c)` with the sides exchanged, but
is not found: the left side `f(X,Y)` also matches `f(a,c)`, and after the right sides then fail to match
`eqn_topsubsumes_termpair` does not try the other orientation. -/
theorem unitSubsumes_incomplete :
    (∃ σ, TypedOn sgS σ [unitS.toLit] ∧ MapsInto σ [unitS.toLit] [candS.toLit]) ∧
      SubsumeOrdered [candS] ∧ sgS.WTClause [unitS.toLit, candS.toLit] ∧
      clauseSubsumes sgS (fun _ => false) [unitS] [candS] = false := by
  refine ⟨⟨fun x => if x = 2 then .app 11 [] else .app 12 [], ?_, [0], by decide, ?_⟩, by simp [SubsumeOrdered], ?_, by decide⟩
  · intro x _
    by_cases h : x = 2 <;> simp [h, Sig.ty, sgS]
  · exact .cons ⟨_, rfl, rfl, Or.inr ⟨by decide, by decide⟩⟩ .nil
  · intro L hL
    simp only [List.mem_cons, List.not_mem_nil, or_false] at hL
    rcases hL with rfl | rfl <;> simp [Sig.WTLit, sgS, Sig.ty, Sig.WT, Sig.WTL, unitS, candS]

private def exC : List OLit := [⟨⟨true, .app 14 [.var 2], tTrue⟩, true⟩, ⟨⟨false, .app 14 [.var 4], tTrue⟩, true⟩]
private def exD : List OLit :=
  [⟨⟨true, .app 14 [.app 11 []], tTrue⟩, true⟩, ⟨⟨true, .app 14 [.app 11 []], tTrue⟩, true⟩, ⟨⟨false, .app 14 [.var 2], tTrue⟩, true⟩]

private def sgE : Sig := ⟨fun _ => 0, fun f => if f ≤ 2 ∨ f = 14 then 1 else 0, fun f => if f = 14 then [0] else [], fun _ => false⟩

/-- `p(X) ∨ ¬p(Y)` subsumes `p(a) ∨ p(a) ∨ ¬p(X)`, but not the other way round. -/
example : clauseSubsumes sgE (fun _ => false) exC exD = true ∧ clauseSubsumes sgE (fun _ => false) exD exC = false := by decide

example : (∃ σ, TypedOn sgE σ (OLit.plain exC) ∧ MapsIntoO σ exC exD) ∧ SubsumeOrdered exD ∧ FirstOrder sgE (fun _ => false) ∧
    sgE.WTClause (OLit.plain exC) ∧ sgE.WTClause (OLit.plain exD) ∧ (∀ L ∈ exC, L.toLit.NF) ∧ ∀ K ∈ exD, K.toLit.NF := by
  refine ⟨⟨fun x => if x = 2 then .app 11 [] else .var 2, ?_, [0, 2], by decide, ?_⟩, ?_, ⟨?_, ?_⟩, ?_, ?_, by decide, by decide⟩
  · intro x _
    by_cases h : x = 2 <;> simp [h, Sig.ty, sgE]
  · exact .cons ⟨_, rfl, by decide⟩ (.cons ⟨_, rfl, by decide⟩ .nil)
  · unfold SubsumeOrdered exD; decide
  · intro x; simp [sgE]
  · intro t h; cases h
  · intro L hL
    simp only [OLit.plain, exC, List.map_cons, List.map_nil, List.mem_cons, List.not_mem_nil, or_false] at hL
    rcases hL with rfl | rfl <;> simp [Sig.WTLit, sgE, Sig.ty, Sig.WT, Sig.WTL, tTrue]
  · intro L hL
    simp only [OLit.plain, exD, List.map_cons, List.map_nil, List.mem_cons, List.not_mem_nil, or_false] at hL
    rcases hL with rfl | rfl | rfl <;> simp [Sig.WTLit, sgE, Sig.ty, Sig.WT, Sig.WTL, tTrue]

end Verif.Props
