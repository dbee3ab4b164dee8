import Verif.Clauses.GroundingProof
import Verif.Clauses.GroundingSpec

/-!
# Grounding of near-propositional clause sets: Herbrand's theorem, purity, and the final set
-/

namespace Verif
namespace Ground
open Interp SemProof

universe u

/-- Arguments are variables or ground. -/
def Flat (C : List Lit) : Prop := ∀ L ∈ C, ∀ t ∈ atomArgs L.l, (∃ x, t = .var x) ∨ t.vars = []

/-- All instances with the given terms hold. -/
def FullSat (b : Term → Bool) (S : List (List Lit)) (cs : List Term) : Prop :=
  ∀ C ∈ S, ∀ σ : Nat → Term, (∀ x ∈ cvars C, σ x ∈ cs) → CSat b (csubst σ C)

theorem ground_subst {t : Term} (h : t.vars = []) (σ : Nat → Term) : t.subst σ = t := by
  have := Term.subst_congr (σ := σ) (τ := Term.var) (t := t) (by rw [h]; simp)
  rw [this, Term.subst_id]

theorem csubst_congr' {σ τ : Nat → Term} {C : List Lit} (h : ∀ x ∈ cvars C, σ x = τ x) : csubst σ C = csubst τ C := by
  unfold csubst
  refine List.map_congr_left fun L hL => ?_
  have hx : ∀ x ∈ L.vars, σ x = τ x := fun x hx => h x (List.mem_flatMap.2 ⟨L, hL, hx⟩)
  unfold Lit.subst
  rw [Term.subst_congr (σ := σ) (τ := τ) fun x hx' => hx x (by simp [Lit.vars, hx']),
    Term.subst_congr (σ := σ) (τ := τ) fun x hx' => hx x (by simp [Lit.vars, hx'])]

theorem AtomClause.atomic {sg : Sig} {C : List Lit} (h : AtomClause sg C) (σ : Nat → Term) : Atomic (csubst σ C) := by
  intro L hL
  obtain ⟨K, hK, rfl⟩ := List.mem_map.1 hL
  obtain ⟨hr, p, ts, hl, h1, _⟩ := h.atom K hK
  simp only [Lit.subst, hr, hl]
  refine ⟨by simp [tTrue, Term.subst_app], ?_⟩
  rw [Term.subst_app, tTrue]
  simp [h1]

/-! ## From models to assignments -/

/-- The value of an argument for a place of the given type. -/
noncomputable def argVal {sg : Sig} (I : Interp.{u} sg) (v : Nat → I.D) (s : Nat) (t : Term) : I.D :=
  open Classical in if sg.ty t = s then I.eval v t else (I.inhab s).choose

/-- The assignment to ground atoms given by an interpretation. -/
noncomputable def asgOf {sg : Sig} (I : Interp.{u} sg) (v : Nat → I.D) : Term → Bool
  | .var _ => false
  | .app p ts => open Classical in decide (I.fn p (List.zipWith (argVal I v) (sg.fargs p) ts) = I.fn 1 [])

theorem model_asg {sg : Sig} {I : Interp.{u} sg} {S : List (List Lit)} {cs : List Term} (hS : ∀ C ∈ S, AtomClause sg C ∧ Flat C) (hcs : ∀ t ∈ cs, sg.WT t)
    (hm : ∀ C ∈ S, I.Models C) : ∃ b, FullSat b S cs := by
  classical
  have hv0 : ∃ v, I.Sorted v := ⟨fun x => (I.inhab (sg.vty x)).choose, fun x => (I.inhab (sg.vty x)).choose_spec⟩
  obtain ⟨v0, hv0⟩ := hv0
  refine ⟨asgOf I v0, ?_⟩
  intro C hC σ hσ
  obtain ⟨hA, hF⟩ := hS C hC
  let v : Nat → I.D := fun x => if x ∈ cvars C then argVal I v0 (sg.vty x) (σ x) else v0 x
  have hv : I.Sorted v := by
    intro x
    simp only [v]
    split
    · rename_i hx
      unfold argVal
      split
      · rename_i ht
        have := eval_mem I hv0 (hcs _ (hσ x hx))
        rwa [ht] at this
      · exact (I.inhab (sg.vty x)).choose_spec
    · exact hv0 x
  obtain ⟨L, hL, ht⟩ := hm C hC v hv
  obtain ⟨hr, p, ts, hl, hp1, hp2, hpt, hts, hsub⟩ := hA.atom L hL
  refine ⟨L.subst σ, List.mem_map.2 ⟨L, hL, rfl⟩, ?_⟩
  have hargs : List.zipWith (argVal I v0) (sg.fargs p) (ts.map (Term.subst σ)) = ts.map (I.eval v) := by
    rw [← hts, List.zipWith_map, List.zipWith_self]
    refine List.map_congr_left fun t ht => ?_
    rcases hF L hL t (by rw [hl]; exact ht) with ⟨x, rfl⟩ | hg
    · have hx : x ∈ cvars C := List.mem_flatMap.2 ⟨L, hL, by rw [Lit.vars, hl]; simp only [Term.vars, List.mem_append, Term.mem_varsL]; exact .inl ⟨_, ht, by simp [Term.vars]⟩⟩
      show argVal I v0 (sg.vty x) (σ x) = v x
      simp only [v, if_pos hx]
    · rw [ground_subst hg]
      unfold argVal
      rw [if_pos rfl]
      exact eval_congr I (by rw [hg]; simp)
  unfold LSat
  simp only [Lit.subst, hl, Term.subst_app, asgOf, hargs]
  unfold LitTrue at ht
  rw [hr, hl, eval_true, eval_app] at ht
  cases hpos : L.pos with
  | true => rw [hpos] at ht; simpa using ht
  | false => rw [hpos] at ht; simpa using ht

/-! ## From assignments to models -/

/-- The term model of an assignment; arguments of predicates are first mapped by `fix`. -/
def termFn (sg : Sig) (b : Term → Bool) (fix : Term → Term) (f : Nat) (ds : List Term) : Term :=
  if sg.fty f = sg.fty 1 ∧ f ≠ 1 ∧ f ≠ 2 then (if b (.app f (ds.map fix)) then tTrue else tFalse) else .app f ds

/-- The term model. -/
@[reducible] def termModel (sg : Sig) (hsg : SigOK sg) (hd : ∀ f, sg.distinct f → sg.fty f ≠ sg.fty 1) (b : Term → Bool) (fix : Term → Term) : Interp.{0} sg where
  D := Term
  mem := fun s d => if s = sg.fty 1 then d = tTrue ∨ d = tFalse else True
  inhab := fun s => ⟨tTrue, by split <;> simp⟩
  fn := termFn sg b fix
  fn_mem := by
    intro f ds hds
    by_cases hf : sg.fty f = sg.fty 1
    · rw [if_pos hf]
      unfold termFn
      by_cases h1 : f = 1
      · subst h1
        rw [hsg.targs] at hds
        cases hds
        simp [tTrue]
      · by_cases h2 : f = 2
        · subst h2
          rw [hsg.fargs] at hds
          cases hds
          simp [tFalse]
        · rw [if_pos ⟨hf, h1, h2⟩]
          split <;> simp
    · rw [if_neg hf]; trivial
  tf := by simp [termFn]
  bool2 := by
    intro d hd
    simpa [termFn, tTrue, tFalse] using hd
  dist := by
    intro f g hf hg hne
    have h1 := hd f hf
    have h2 := hd g hg
    simp [termFn, h1, h2, hne]

theorem termModel_eval {sg : Sig} {hsg : SigOK sg} {hd : ∀ f, sg.distinct f → sg.fty f ≠ sg.fty 1} {b : Term → Bool} {fix : Term → Term}
    (v : Nat → Term) {t : Term} (ht : ∀ u ∈ t.subterms, sg.ty u ≠ sg.fty 1) : (termModel sg hsg hd b fix).eval v t = t.subst v := by
  induction t using Term.ind with
  | hv x => rfl
  | ha f ts ih =>
    have hf : sg.fty f ≠ sg.fty 1 := ht (.app f ts) (by simp [Term.subterms])
    rw [eval_app, Term.subst_app]
    have hm : ts.map ((termModel sg hsg hd b fix).eval v) = ts.map (Term.subst v) :=
      List.map_congr_left fun t htm => ih t htm fun u hu => ht u (by simp only [Term.subterms, List.mem_cons, Term.mem_subtermsL]; exact .inr ⟨t, htm, hu⟩)
    rw [hm]
    show termFn sg b fix f _ = _
    unfold termFn
    rw [if_neg fun h => hf h.1]

theorem asg_model {sg : Sig} (hsg : SigOK sg) (hd : ∀ f, sg.distinct f → sg.fty f ≠ sg.fty 1) {S : List (List Lit)} (hS : ∀ C ∈ S, AtomClause sg C) {b : Term → Bool} {fix : Term → Term}
    (hfix : ∀ C ∈ S, ∀ L ∈ C, ∀ t ∈ atomArgs L.l, ∀ v : Nat → Term, fix (t.subst v) = t.subst fun x => fix (v x))
    (hb : ∀ C ∈ S, ∀ v : Nat → Term, CSat b (csubst (fun x => fix (v x)) C)) : ∃ I : Interp.{0} sg, ∀ C ∈ S, I.Models C := by
  refine ⟨termModel sg hsg hd b fix, ?_⟩
  intro C hC v _
  obtain ⟨K, hK, ht⟩ := hb C hC v
  obtain ⟨L, hL, rfl⟩ := List.mem_map.1 hK
  refine ⟨L, hL, ?_⟩
  obtain ⟨hr, p, ts, hl, hp1, hp2, hpt, hts, hsub⟩ := (hS C hC).atom L hL
  have hval : (termModel sg hsg hd b fix).eval v L.l = if b (L.l.subst fun x => fix (v x)) then tTrue else tFalse := by
    rw [hl, eval_app, Term.subst_app]
    show termFn sg b fix p _ = _
    unfold termFn
    rw [if_pos ⟨hpt, hp1, hp2⟩]
    have : (ts.map ((termModel sg hsg hd b fix).eval v)).map fix = ts.map (Term.subst fun x => fix (v x)) := by
      rw [List.map_map]
      refine List.map_congr_left fun t htm => ?_
      show fix ((termModel sg hsg hd b fix).eval v t) = _
      rw [termModel_eval v (hsub t htm).2]
      exact hfix C hC L hL t (by rw [hl]; exact htm) v
    rw [this]
  have htrue : (termModel sg hsg hd b fix).eval v L.r = tTrue := by
    rw [hr, eval_true]
    show termFn sg b fix 1 [] = _
    simp [termFn, tTrue]
  unfold LSat at ht
  have ht' : b (L.l.subst fun x => fix (v x)) = L.pos := ht
  unfold LitTrue
  rw [hval, htrue, ht']
  cases L.pos <;> simp [tTrue, tFalse]

/-! ## Purity -/

theorem purity {S : List (List Lit)} {cs : List Term} {b : Term → Bool} (hF : ∀ C ∈ S, Flat C) (hA : ∀ C ∈ S, ∀ L ∈ C, ∃ p ts, L.l = .app p ts)
    (hb : ∀ C ∈ S, ∀ σ : Nat → Term, (∀ x ∈ cvars C, σ x ∈ clauseConstr S cs C x) → CSat b (csubst σ C)) : ∃ b', FullSat b' S cs := by
  classical
  let Occ : Bool → Term → Prop := fun s a => ∃ C ∈ S, ∃ L ∈ C, L.pos = s ∧ ∃ σ : Nat → Term, L.l.subst σ = a
  obtain ⟨b', hb1, hb2, hb3⟩ : ∃ b' : Term → Bool, (∀ a, Occ true a → ¬ Occ false a → b' a = true) ∧ (∀ a, Occ false a → ¬ Occ true a → b' a = false) ∧
      ∀ a, Occ true a → Occ false a → b' a = b a := by
    refine ⟨fun a => if Occ true a ∧ ¬ Occ false a then true else if Occ false a ∧ ¬ Occ true a then false else b a, ?_, ?_, ?_⟩
    · intro a h1 h2
      simp [h1, h2]
    · intro a h1 h2
      simp [h1, h2]
    · intro a h1 h2
      simp [h1, h2]
  refine ⟨b', ?_⟩
  intro C hC σ hσ
  by_cases hp : ∃ L ∈ C, ¬ Occ (!L.pos) (L.l.subst σ)
  · obtain ⟨L, hL, hno⟩ := hp
    have hyes : Occ L.pos (L.l.subst σ) := ⟨C, hC, L, hL, rfl, σ, rfl⟩
    refine ⟨L.subst σ, List.mem_map.2 ⟨L, hL, rfl⟩, ?_⟩
    unfold LSat
    simp only [Lit.subst]
    cases hpos : L.pos with
    | true =>
      rw [hpos] at hno hyes
      exact hb1 _ hyes hno
    | false =>
      rw [hpos] at hno hyes
      exact hb2 _ hyes hno
  · have hp' : ∀ L ∈ C, Occ (!L.pos) (L.l.subst σ) := fun L hL => by
      by_contra h
      exact hp ⟨L, hL, h⟩
    obtain ⟨M, hM, ht⟩ := hb C hC σ (by
      intro x hx
      rw [clauseConstr_mem]
      refine ⟨hσ x hx, ?_⟩
      intro L hL j hj hcon
      obtain ⟨C', hC', K, hK, hKp, τ, hτ⟩ := hp' L hL
      cases hl : L.l with
      | var y => rw [hl] at hj; simp [atomArgs] at hj
      | app p ts =>
        rw [hl] at hj hτ hcon
        simp only [atomArgs] at hj
        cases hkl : K.l with
        | var y =>
          obtain ⟨_, _, hk⟩ := hA C' hC' K hK
          rw [hkl] at hk
          simp at hk
        | app p' us =>
          rw [hkl, Term.subst_app, Term.subst_app] at hτ
          injection hτ with hpp hargs
          subst hpp
          have hju : (us.map (Term.subst τ))[j]? = some (σ x) := by
            rw [hargs, List.getElem?_map, hj]; rfl
          rw [List.getElem?_map, Option.map_eq_some_iff] at hju
          obtain ⟨u, hu, hux⟩ := hju
          have hocc := occTable_ok (!L.pos) S p' j
          have hoc : ∃ C ∈ S, ∃ L' ∈ C, L'.pos = (!L.pos) ∧ atomPred L'.l = p' ∧ (atomArgs L'.l)[j]? = some u :=
            ⟨C', hC', K, hK, hKp, by rw [hkl]; rfl, by rw [hkl]; exact hu⟩
          have hnv := hocc.1 hcon u hoc
          rcases hF C' hC' K hK u (by rw [hkl]; exact List.mem_of_getElem? hu) with ⟨y, rfl⟩ | hg
          · simp [Term.isVar] at hnv
          · rw [ground_subst hg] at hux
            rw [← hux]
            exact hocc.2 u hoc hnv)
    obtain ⟨L, hL, rfl⟩ := List.mem_map.1 hM
    refine ⟨L.subst σ, List.mem_map.2 ⟨L, hL, rfl⟩, ?_⟩
    have hyes : Occ L.pos (L.l.subst σ) := ⟨C, hC, L, hL, rfl, σ, rfl⟩
    have hno := hp' L hL
    unfold LSat at ht ⊢
    simp only [Lit.subst] at ht ⊢
    cases hpos : L.pos with
    | true =>
      rw [hpos] at hno hyes ht
      rw [hb3 _ hyes hno, ht]
    | false =>
      rw [hpos] at hno hyes ht
      rw [hb3 _ hno hyes, ht]

/-! ## The input -/

theorem maxFunArity_zero {tb : List SymInfo} : maxFunArity tb = 0 ↔ ∀ s ∈ tb, s.pred = false → s.special = false → s.arity = 0 := by
  have key : ∀ (tb : List SymInfo) (m : Nat), tb.foldl (fun m s => if !s.pred && !s.special then max m s.arity else m) m = 0 ↔ m = 0 ∧ ∀ s ∈ tb, s.pred = false → s.special = false → s.arity = 0 := by
    intro tb
    induction tb with
    | nil => simp
    | cons s tb ih =>
      intro m
      rw [List.foldl_cons, ih, List.forall_mem_cons]
      cases hp : s.pred <;> cases hq : s.special <;> simp
      rw [and_assoc]
  have := key tb 0
  rwa [eq_self, true_and] at this

theorem nearProp_iff {tb : List SymInfo} {S : List (List Lit)} : (maxFunArity tb ≠ 0 ∧ (S.all fun C => (cvars C).isEmpty) = false) ↔ ¬ NearProp tb S := by
  unfold NearProp
  rw [← maxFunArity_zero, not_or, ← Bool.not_eq_true, List.all_eq_true]
  simp

theorem constTerms_ne {tb : List SymInfo} {sk : Nat} : constTerms tb sk ≠ [] := by
  unfold constTerms
  simp only
  split
  · simp
  · rename_i h
    rwa [List.isEmpty_iff] at h

theorem constTerms_spec {tb : List SymInfo} {sk : Nat} {t : Term} (h : t ∈ constTerms tb sk) :
    t = .app sk [] ∨ ∃ s ∈ tb, s.pred = false ∧ s.special = false ∧ s.arity = 0 ∧ t = .app s.code [] := by
  unfold constTerms at h
  simp only at h
  split at h
  · left; simpa using h
  · right
    obtain ⟨s, hs, rfl⟩ := List.mem_map.1 h
    rw [List.mem_filter] at hs
    simp only [Bool.and_eq_true, Bool.not_eq_true', beq_iff_eq] at hs
    exact ⟨s, hs.1, hs.2.1.1, hs.2.1.2, hs.2.2, rfl⟩

theorem constTerms_mem {tb : List SymInfo} {sk : Nat} {s : SymInfo} (hs : s ∈ tb) (h1 : s.pred = false) (h2 : s.special = false) (h3 : s.arity = 0) : Term.app s.code [] ∈ constTerms tb sk := by
  have : Term.app s.code [] ∈ (tb.filter fun s => !s.pred && !s.special && s.arity == 0).map fun s => Term.app s.code [] :=
    List.mem_map.2 ⟨s, List.mem_filter.2 ⟨hs, by simp [h1, h2, h3]⟩, rfl⟩
  unfold constTerms
  simp only
  split
  · rename_i h
    rw [List.isEmpty_iff] at h
    rw [h] at this
    simp at this
  · exact this

variable {sg : Sig} {tb : List SymInfo} {sk : Nat} {vs : List Lit → List Nat} {S : List (List Lit)}

theorem Input.const_wt (h : Input sg tb sk vs S) : ∀ t ∈ constTerms tb sk, sg.WT t := by
  intro t ht
  rcases constTerms_spec ht with rfl | ⟨s, hs, _, _, h0, rfl⟩
  · rw [Sig.wt_app, h.sk]; simp
  · have := h.arity s hs
    rw [h0] at this
    rw [Sig.wt_app, List.length_eq_zero_iff.1 this.symm]; simp

/-- With constants only, the arguments are variables or known constants. -/
theorem Input.args_const (h : Input sg tb sk vs S) (h0 : ∀ s ∈ tb, s.pred = false → s.special = false → s.arity = 0) {C : List Lit} (hC : C ∈ S) {L : Lit} (hL : L ∈ C)
    {t : Term} (ht : t ∈ atomArgs L.l) : (∃ x, t = .var x) ∨ (t.vars = [] ∧ t ∈ constTerms tb sk) := by
  cases t with
  | var x => exact .inl ⟨x, rfl⟩
  | app f us =>
    right
    obtain ⟨s, hs, rfl, h1, h2⟩ := h.syms C hC L hL _ ht f us (by simp [Term.subterms])
    obtain ⟨_, p, ts, hl, _, _, _, _, hsub⟩ := (h.cl C hC).atom L hL
    have hwt := (hsub (.app s.code us) (by rw [hl] at ht; exact ht)).1
    rw [Sig.wt_app] at hwt
    have hl0 := h.arity s hs
    rw [h0 s hs h1 h2] at hl0
    have : us = [] := by
      have := congrArg List.length hwt.1
      rw [List.length_map, ← hl0] at this
      exact List.length_eq_zero_iff.1 this
    subst this
    exact ⟨by simp [Term.vars, Term.varsL], constTerms_mem hs h1 h2 (h0 s hs h1 h2)⟩

theorem Input.flat (h : Input sg tb sk vs S) (hn : NearProp tb S) : ∀ C ∈ S, Flat C := by
  intro C hC L hL t ht
  rcases hn with h0 | hv
  · rcases h.args_const h0 hC hL ht with hx | hx
    · exact .inl hx
    · exact .inr hx.1
  · right
    rw [List.eq_nil_iff_forall_not_mem]
    intro x hx
    have : x ∈ cvars C := by
      refine List.mem_flatMap.2 ⟨L, hL, ?_⟩
      obtain ⟨_, p, ts, hl, _⟩ := (h.cl C hC).atom L hL
      rw [hl] at ht
      rw [Lit.vars, hl]
      simp only [Term.vars, List.mem_append, Term.mem_varsL]
      exact .inl ⟨t, ht, hx⟩
    rw [hv C hC] at this
    simp at this

/-- Herbrand's theorem for the terms used. -/
theorem Input.herbrand (h : Input sg tb sk vs S) (hn : NearProp tb S) :
    ((∃ I : Interp.{u} sg, ∀ C ∈ S, I.Models C) → ∃ b, FullSat b S (constTerms tb sk)) ∧ ((∃ b, FullSat b S (constTerms tb sk)) → ∃ I : Interp.{0} sg, ∀ C ∈ S, I.Models C) := by
  constructor
  · rintro ⟨I, hI⟩
    exact model_asg (fun C hC => ⟨h.cl C hC, h.flat hn C hC⟩) h.const_wt hI
  · rintro ⟨b, hb⟩
    rcases hn with h0 | hv
    · classical
      obtain ⟨c, hc⟩ := List.exists_mem_of_ne_nil _ (constTerms_ne (tb := tb) (sk := sk))
      let fix : Term → Term := fun d => if d ∈ constTerms tb sk then d else c
      have hfix : ∀ d, fix d ∈ constTerms tb sk := by
        intro d
        simp only [fix]
        split
        · assumption
        · exact hc
      refine asg_model h.sig h.dist h.cl (b := b) (fix := fix) ?_ fun C hC v => hb C hC _ fun x _ => hfix _
      intro C hC L hL t ht v
      rcases h.args_const h0 hC hL ht with ⟨x, rfl⟩ | ⟨hg, hm⟩
      · rfl
      · rw [ground_subst hg, ground_subst hg]
        simp only [fix, if_pos hm]
    · refine asg_model h.sig h.dist h.cl (b := b) (fix := id) (fun _ _ _ _ _ _ _ => rfl) fun C hC v => hb C hC _ fun x hx => ?_
      rw [hv C hC] at hx
      simp at hx

/-! ## The result -/

theorem cells_sat {o : Opts} {cs : List Term} {b : Term → Bool} {C : List Lit} (hv : ∀ x, x ∈ vs C ↔ x ∈ cvars C) :
    (∀ q ∈ states (varCells o S cs vs C), CSat b (csubst (vApply q) C)) ↔
      ∀ σ : Nat → Term, (∀ x ∈ cvars C, σ x ∈ if o.constraints then clauseConstr S cs C x else cs) → CSat b (csubst σ C) := by
  have hvars : (varCells o S cs vs C).map VCell.var = vs C := by simp [varCells, Function.comp_def]
  constructor
  · intro h σ hσ
    obtain ⟨q, hq, he⟩ := states_all (cs := varCells o S cs vs C) (σ := σ) (by
      intro c hc
      obtain ⟨x, hx, rfl⟩ := List.mem_map.1 hc
      exact hσ x ((hv x).1 hx))
    rw [hvars] at he
    rw [← csubst_congr' (σ := vApply q) (τ := σ) fun x hx => he x ((hv x).2 hx)]
    exact h q hq
  · intro h q hq
    refine h _ fun x hx => ?_
    have := states_alts hq x (by rw [hvars]; exact (hv x).2 hx)
    obtain ⟨c, hc, rfl, ha⟩ := this
    obtain ⟨y, hy, rfl⟩ := List.mem_map.1 hc
    exact ha

/-- The set that is computed. -/
def result (no : Term → Nat) (o : Opts) (tb : List SymInfo) (sk : Nat) (vs : List Lit → List Nat) (S : List (List Lit)) : GroundSet :=
  (runSet no o S (constTerms tb sk) vs S GroundSet.empty).2

theorem eground_result (hn : NearProp tb S) (no : Term → Nat) (o : Opts) : ∃ N, ∀ k, N ≤ k → eground k no o tb sk vs S = some (.done (result no o tb sk vs S)) := by
  refine ⟨(S.map fun C => (states (varCells o S (constTerms tb sk) vs C)).length).sum, ?_⟩
  intro k hk
  unfold eground
  rw [if_neg (by rw [nearProp_iff]; exact fun h => h hn), setInstances_eq]
  · rfl
  · intro C hC
    refine Nat.le_trans ?_ hk
    have : ∀ (l : List Nat) (a : Nat), a ∈ l → a ≤ l.sum := by
      intro l
      induction l with
      | nil => simp
      | cons b l ih =>
        intro a ha
        rw [List.sum_cons]
        rcases List.mem_cons.1 ha with rfl | ha
        · omega
        · have := ih a ha
          omega
    exact this _ _ (List.mem_map.2 ⟨C, hC, rfl⟩)

theorem instLoop_more {no : Term → Nat} {o : Opts} {C : List Lit} : ∀ {k : Nat} {q : Option (List VCell)} {gs : GroundSet} {r : Bool × GroundSet} {k' : Nat}, k ≤ k' →
    instLoop no o C k q gs = some r → instLoop no o C k' q gs = some r := by
  intro k
  induction k with
  | zero =>
    intro q gs r k' _ h
    cases q with
    | none => cases k' <;> simpa [instLoop] using h
    | some q => simp [instLoop] at h
  | succ k ih =>
    intro q gs r k' hk h
    cases q with
    | none => cases k' <;> simpa [instLoop] using h
    | some q =>
      obtain ⟨j, rfl⟩ : ∃ j, k' = j + 1 := ⟨k' - 1, by omega⟩
      simp only [instLoop] at h ⊢
      split
      · rename_i hr
        rw [if_pos hr] at h
        exact ih (by omega) h
      · rename_i hr
        rw [if_neg hr] at h
        exact h

theorem setInstances_more {no : Term → Nat} {o : Opts} {cs : List Term} {k k' : Nat} (hk : k ≤ k') {Cs : List (List Lit)} : ∀ {gs : GroundSet} {r : Bool × GroundSet},
    setInstances k no o S cs vs Cs gs = some r → setInstances k' no o S cs vs Cs gs = some r := by
  induction Cs with
  | nil => intro gs r h; exact h
  | cons C Cs ih =>
    intro gs r h
    simp only [setInstances] at h ⊢
    cases hc : clauseInstances k no o C (varCells o S cs vs C) gs with
    | none => rw [hc] at h; simp at h
    | some p =>
      rw [hc] at h
      have : clauseInstances k' no o C (varCells o S cs vs C) gs = some p := instLoop_more hk hc
      rw [this]
      obtain ⟨ok, gs'⟩ := p
      cases ok with
      | true => exact ih h
      | false => exact h

theorem eground_unique {no : Term → Nat} {o : Opts} {k k' : Nat} {gs gs' : GroundSet} (h : eground k no o tb sk vs S = some (.done gs)) (h' : eground k' no o tb sk vs S = some (.done gs'))
    (hk : k ≤ k') : gs = gs' := by
  unfold eground at h h'
  split at h
  · simp at h
  · rename_i hc
    rw [if_neg hc] at h'
    rw [Option.map_eq_some_iff] at h h'
    obtain ⟨r, h1, h2⟩ := h
    obtain ⟨r', h1', h2'⟩ := h'
    rw [setInstances_more hk h1] at h1'
    injection h1' with h1'
    subst h1'
    injection h2 with h2
    injection h2' with h2'
    rw [← h2, ← h2']

theorem result_sat (h : Input sg tb sk vs S) (hn : NearProp tb S) (no : Term → Nat) (o : Opts) :
    (∃ b, GSat b (result no o tb sk vs S)) ↔ ∃ b, FullSat b S (constTerms tb sk) := by
  have hsat : ∀ b, GSat b (result no o tb sk vs S) ↔ ∀ C ∈ S, ∀ σ : Nat → Term, (∀ x ∈ cvars C, σ x ∈ if o.constraints then clauseConstr S (constTerms tb sk) C x else constTerms tb sk) → CSat b (csubst σ C) := by
    intro b
    unfold result
    rw [(runSet_sat (b := b) fun C hC q => (h.cl C hC).atomic _).1]
    constructor
    · rintro ⟨_, h1⟩ C hC
      exact (cells_sat (h.vars C hC)).1 (h1 C hC)
    · intro h1
      exact ⟨⟨by simp [GroundSet.empty], by simp [GroundSet.empty]⟩, fun C hC => (cells_sat (h.vars C hC)).2 (h1 C hC)⟩
  constructor
  · rintro ⟨b, hb⟩
    rw [hsat] at hb
    cases ho : o.constraints with
    | false => exact ⟨b, fun C hC σ hσ => hb C hC σ (by simpa [ho] using hσ)⟩
    | true =>
      refine purity (b := b) (h.flat hn) (fun C hC L hL => ?_) (by simpa [ho] using hb)
      obtain ⟨_, p, ts, hl, _⟩ := (h.cl C hC).atom L hL
      exact ⟨p, ts, hl⟩
  · rintro ⟨b, hb⟩
    refine ⟨b, (hsat b).2 fun C hC σ hσ => hb C hC σ fun x hx => ?_⟩
    have := hσ x hx
    split at this
    · exact (clauseConstr_mem.1 this).1
    · exact this

/-! ## Which atoms, and the largest number -/

/-- All literals come from `P`, and their numbers are within the bound. -/
def GInv (no : Term → Nat) (P : Term → Prop) (gs : GroundSet) : Prop :=
  (∀ L ∈ gs.units, P L.l ∧ no L.l ≤ gs.maxLit) ∧ ∀ C ∈ gs.nonUnits, ∀ L ∈ C, P L.l ∧ no L.l ≤ gs.maxLit

theorem foldl_max_ge {no : Term → Nat} {C : List Lit} : ∀ {m : Nat}, m ≤ C.foldl (fun m L => max m (no L.l)) m ∧ ∀ L ∈ C, no L.l ≤ C.foldl (fun m L => max m (no L.l)) m := by
  induction C with
  | nil => intro m; simp
  | cons K C ih =>
    intro m
    rw [List.foldl_cons]
    have := ih (m := max m (no K.l))
    refine ⟨Nat.le_trans (Nat.le_max_left _ _) this.1, ?_⟩
    intro L hL
    rcases List.mem_cons.1 hL with rfl | hL
    · exact Nat.le_trans (Nat.le_max_right _ _) this.1
    · exact this.2 L hL

theorem insert_inv {no : Term → Nat} {P : Term → Prop} {gs : GroundSet} (hg : GInv no P gs) {D : List Lit} (hD : ∀ L ∈ D, P L.l) : GInv no P (insert no gs D) := by
  have hgen : GInv no P { gs with nonUnits := gs.nonUnits ++ [D], maxLit := max gs.maxLit (D.foldl (fun m L => max m (no L.l)) 0) } := by
    refine ⟨fun L hL => ⟨(hg.1 L hL).1, Nat.le_trans (hg.1 L hL).2 (Nat.le_max_left _ _)⟩, ?_⟩
    intro C hC L hL
    rcases List.mem_append.1 hC with hC | hC
    · exact ⟨(hg.2 C hC L hL).1, Nat.le_trans (hg.2 C hC L hL).2 (Nat.le_max_left _ _)⟩
    · rw [List.mem_singleton] at hC
      subst hC
      exact ⟨hD L hL, Nat.le_trans (foldl_max_ge.2 L hL) (Nat.le_max_right _ _)⟩
  unfold insert
  split
  · rename_i K
    split
    · exact hg
    · refine ⟨?_, fun C hC L hL => ⟨(hg.2 C hC L hL).1, Nat.le_trans (hg.2 C hC L hL).2 (Nat.le_max_left _ _)⟩⟩
      intro L hL
      rcases List.mem_append.1 hL with hL | hL
      · exact ⟨(hg.1 L hL).1, Nat.le_trans (hg.1 L hL).2 (Nat.le_max_left _ _)⟩
      · rw [List.mem_singleton] at hL
        subst hL
        exact ⟨hD _ (.head _), Nat.le_max_right _ _⟩
  · exact hgen

theorem unitSimp_mem {gs : GroundSet} {s r : Bool} {C : List Lit} : ∀ {D}, unitSimp gs s r C = some D → ∀ L ∈ D, L ∈ C := by
  induction C with
  | nil => intro D h L hL; simp [unitSimp] at h; subst h; simp at hL
  | cons K C ih =>
    intro D h L hL
    rw [unitSimp] at h
    split at h
    · simp at h
    · split at h
      · exact .tail _ (ih h L hL)
      · rw [Option.map_eq_some_iff] at h
        obtain ⟨D', h1, rfl⟩ := h
        rcases List.mem_cons.1 hL with rfl | hL
        · exact .head _
        · exact .tail _ (ih h1 L hL)

theorem addInstance_inv {no : Term → Nat} {P : Term → Prop} {o : Opts} {gs : GroundSet} (hg : GInv no P gs) {C : List Lit} (hC : ∀ L ∈ C, P L.l) : GInv no P (addInstance no o gs C).2 := by
  have hD : ∀ L ∈ removeDup C, P L.l := fun L hL => hC L (removeDup_mem [] L hL)
  unfold addInstance
  simp only
  generalize removeDup C = D at hD
  split
  · exact hg
  · cases hu : unitSimp gs o.subsume o.resolve D with
    | none => exact hg
    | some E =>
      cases E with
      | nil => exact insert_inv ⟨by simp, by simp⟩ (by simp)
      | cons L E => exact insert_inv hg fun K hK => hD K (unitSimp_mem hu K hK)

theorem runAll_inv {no : Term → Nat} {P : Term → Prop} {o : Opts} {C : List Lit} : ∀ {l : List (List VCell)} {gs : GroundSet}, GInv no P gs → (∀ q ∈ l, ∀ L ∈ csubst (vApply q) C, P L.l) → GInv no P (runAll no o C l gs).2 := by
  intro l
  induction l with
  | nil => intro gs hg _; exact hg
  | cons q l ih =>
    intro gs hg hl
    simp only [runAll]
    split
    · exact ih (addInstance_inv hg (hl q (.head _))) fun q hq => hl q (.tail _ hq)
    · exact addInstance_inv hg (hl q (.head _))

theorem runSet_inv {no : Term → Nat} {P : Term → Prop} {o : Opts} {cs : List Term} {Cs : List (List Lit)} : ∀ {gs : GroundSet}, GInv no P gs →
    (∀ C ∈ Cs, ∀ q ∈ states (varCells o S cs vs C), ∀ L ∈ csubst (vApply q) C, P L.l) → GInv no P (runSet no o S cs vs Cs gs).2 := by
  induction Cs with
  | nil => intro gs hg _; exact hg
  | cons C Cs ih =>
    intro gs hg hl
    simp only [runSet]
    split
    · exact ih (runAll_inv hg (hl C (.head _))) fun C hC => hl C (.tail _ hC)
    · exact runAll_inv hg (hl C (.head _))

theorem result_inv (h : Input sg tb sk vs S) (no : Term → Nat) (o : Opts) : GInv no (InstAtom S (constTerms tb sk)) (result no o tb sk vs S) := by
  refine runSet_inv ⟨by simp [GroundSet.empty], by simp [GroundSet.empty]⟩ ?_
  intro C hC q hq L hL
  obtain ⟨K, hK, rfl⟩ := List.mem_map.1 hL
  refine ⟨C, hC, K, hK, vApply q, ?_, rfl⟩
  intro x hx
  have hvars : (varCells o S (constTerms tb sk) vs C).map VCell.var = vs C := by simp [varCells, Function.comp_def]
  obtain ⟨c, hc, rfl, ha⟩ := states_alts hq x (by rw [hvars]; exact (h.vars C hC x).2 hx)
  obtain ⟨y, hy, rfl⟩ := List.mem_map.1 hc
  simp only at ha ⊢
  split at ha
  · exact (clauseConstr_mem.1 ha).1
  · exact ha

/-! ## DIMACS -/

theorem dimacs_clause {c : List Int} : ∀ {acc l : List Int}, (∀ i ∈ c, i ≠ 0) → dimacsClauses acc (c ++ 0 :: l) = (acc ++ c) :: dimacsClauses [] l := by
  induction c with
  | nil => intro acc l _; simp [dimacsClauses]
  | cons i c ih =>
    intro acc l h
    rw [List.cons_append, dimacsClauses, if_neg (h i (.head _)), ih fun j hj => h j (.tail _ hj)]
    simp

/-- The clauses printed. -/
def numClauses (no : Term → Nat) (gs : GroundSet) : List (List Int) :=
  gs.units.map (fun L => [litNo no L]) ++ gs.nonUnits.flatMap fun C => if C.isEmpty then [[-1], [1]] else [C.map (litNo no)]

theorem litNo_ne {no : Term → Nat} {L : Lit} (h : 0 < no L.l) : litNo no L ≠ 0 := by
  unfold litNo
  split <;> omega

theorem print_clauses {no : Term → Nat} {gs : GroundSet} (hu : ∀ L ∈ gs.units, 0 < no L.l) (hn : ∀ C ∈ gs.nonUnits, ∀ L ∈ C, 0 < no L.l) :
    dimacsClauses [] (output true (printSet no gs)) = numClauses no gs := by
  have h2 : ∀ (l : List (List Lit)), (∀ C ∈ l, ∀ L ∈ C, 0 < no L.l) → dimacsClauses [] ((l.flatMap (printClause no)).map Prod.snd) = l.flatMap fun C => if C.isEmpty then [[-1], [1]] else [C.map (litNo no)] := by
    intro l
    induction l with
    | nil => intro _; rfl
    | cons C l ih =>
      intro h
      have ih := ih fun C hC => h C (.tail _ hC)
      rw [List.flatMap_cons, List.flatMap_cons, List.map_append]
      generalize (l.flatMap (printClause no)).map Prod.snd = rest at ih
      rw [← ih]
      unfold printClause
      cases hC : C.isEmpty with
      | true =>
        simp only [if_true, List.map_cons, List.map_nil, List.cons_append, List.nil_append]
        simp [dimacsClauses]
      | false =>
        simp only [Bool.false_eq_true, if_false, List.map_append, List.map_cons, List.map_nil, List.map_map, List.append_assoc, List.singleton_append]
        have he : (Prod.snd ∘ fun L => (Stream.stdout, litNo no L)) = litNo no := rfl
        rw [he, dimacs_clause]
        · rfl
        · intro i hi
          obtain ⟨L, hL, rfl⟩ := List.mem_map.1 hi
          exact litNo_ne (h C (.head _) L hL)
  have h1 : ∀ (l : List Lit) (l' : List Int), (∀ L ∈ l, 0 < no L.l) → dimacsClauses [] ((l.flatMap fun L => [(Stream.out, litNo no L), (.out, 0)]).map Prod.snd ++ l') = l.map (fun L => [litNo no L]) ++ dimacsClauses [] l' := by
    intro l l'
    induction l with
    | nil => intro _; rfl
    | cons L l ih =>
      intro h
      have ih := ih fun L hL => h L (.tail _ hL)
      rw [List.flatMap_cons, List.map_append]
      have := dimacs_clause (c := [litNo no L]) (acc := []) (l := (l.flatMap fun L => [(Stream.out, litNo no L), (.out, 0)]).map Prod.snd ++ l') (by
        intro i hi
        rw [List.mem_singleton] at hi
        rw [hi]
        exact litNo_ne (h L (.head _)))
      simp only [List.map_cons, List.map_nil, List.cons_append, List.nil_append] at this ⊢
      rw [this, ih]
  unfold output printSet numClauses
  simp only [Bool.true_or, List.filter_true]
  rw [List.map_append, h1 _ _ hu, h2 _ hn]

theorem litNo_sat {no : Term → Nat} {L : Lit} (h : 0 < no L.l) (β : Nat → Bool) : NumSat β (litNo no L) ↔ LSat (fun a => β (no a)) L := by
  unfold NumSat litNo LSat
  cases hp : L.pos with
  | true => simp [h]
  | false =>
    have : ¬ ((no L.l : Int) < 0) := by omega
    simp [this]

/-- What is printed is satisfiable exactly if the set is. -/
theorem dimacs_sat {no : Term → Nat} {P : Term → Prop} {gs : GroundSet} (hg : GInv no P gs) (hpos : ∀ a, P a → 0 < no a) (hinj : ∀ a a', P a → P a' → no a = no a' → a = a') :
    (∃ β, DSat β (output true (printSet no gs))) ↔ ∃ b, GSat b gs := by
  classical
  have hu : ∀ L ∈ gs.units, 0 < no L.l := fun L hL => hpos _ (hg.1 L hL).1
  have hn : ∀ C ∈ gs.nonUnits, ∀ L ∈ C, 0 < no L.l := fun C hC L hL => hpos _ (hg.2 C hC L hL).1
  have key : ∀ β, DSat β (output true (printSet no gs)) ↔ GSat (fun a => β (no a)) gs := by
    intro β
    unfold DSat GSat
    rw [print_clauses hu hn, numClauses, List.forall_mem_append]
    refine and_congr ?_ ?_
    · simp only [List.forall_mem_map, List.mem_singleton, exists_eq_left]
      exact forall₂_congr fun L hL => litNo_sat (hu L hL) β
    · simp only [List.mem_flatMap]
      constructor
      · intro h C hC
        cases he : C.isEmpty with
        | true =>
          have h1 := h [-1] ⟨C, hC, by simp [he]⟩
          have h2 := h [1] ⟨C, hC, by simp [he]⟩
          simp [NumSat] at h1 h2
          rw [h1] at h2
          simp at h2
        | false =>
          obtain ⟨i, hi, ht⟩ := h (C.map (litNo no)) ⟨C, hC, by simp [he]⟩
          obtain ⟨L, hL, rfl⟩ := List.mem_map.1 hi
          exact ⟨L, hL, (litNo_sat (hn C hC L hL) β).1 ht⟩
      · rintro h c ⟨C, hC, hc⟩
        obtain ⟨L, hL, ht⟩ := h C hC
        have he : C.isEmpty = false := by cases C; simp at hL; rfl
        rw [he] at hc
        simp only [Bool.false_eq_true, if_false, List.mem_singleton] at hc
        subst hc
        exact ⟨_, List.mem_map.2 ⟨L, hL, rfl⟩, (litNo_sat (hn C hC L hL) β).2 ht⟩
  constructor
  · rintro ⟨β, hβ⟩
    exact ⟨_, (key β).1 hβ⟩
  · rintro ⟨b, hb⟩
    let β : Nat → Bool := fun n => if h : ∃ a, P a ∧ no a = n then b h.choose else false
    have hβ : ∀ a, P a → β (no a) = b a := by
      intro a ha
      have h : ∃ a', P a' ∧ no a' = no a := ⟨a, ha, rfl⟩
      simp only [β, dif_pos h]
      rw [hinj _ _ h.choose_spec.1 ha h.choose_spec.2]
    refine ⟨β, (key β).2 ⟨fun L hL => ?_, fun C hC => ?_⟩⟩
    · show β (no L.l) = L.pos
      rw [hβ _ (hg.1 L hL).1]
      exact hb.1 L hL
    · obtain ⟨L, hL, ht⟩ := hb.2 C hC
      refine ⟨L, hL, ?_⟩
      show β (no L.l) = L.pos
      rw [hβ _ (hg.2 C hC L hL).1]
      exact ht

theorem header_ok {no : Term → Nat} {P : Term → Prop} {gs : GroundSet} (hg : GInv no P gs) (hpos : ∀ a, P a → 0 < no a) (fix : Bool) :
    (dimacsClauses [] (output true (printSet no gs))).length = (header no fix gs).2 ∧
      ∀ c ∈ dimacsClauses [] (output true (printSet no gs)), ∀ i ∈ c, 1 ≤ i.natAbs ∧ i.natAbs ≤ (header no fix gs).1 := by
  have hu : ∀ L ∈ gs.units, 0 < no L.l := fun L hL => hpos _ (hg.1 L hL).1
  have hn : ∀ C ∈ gs.nonUnits, ∀ L ∈ C, 0 < no L.l := fun C hC L hL => hpos _ (hg.2 C hC L hL).1
  rw [print_clauses hu hn]
  constructor
  · have : ∀ l : List (List Lit), (l.flatMap fun C => if C.isEmpty then [[-1], [1]] else [C.map (litNo no)]).length = l.length + (l.filter List.isEmpty).length := by
      intro l
      induction l with
      | nil => rfl
      | cons C l ih =>
        rw [List.flatMap_cons, List.length_append, ih]
        cases hC : C.isEmpty <;> simp [hC] <;> omega
    simp only [numClauses, List.length_append, List.length_map, this, header]
    omega
  · have hb : ∀ L ∈ (gs.units :: gs.nonUnits).flatten, no L.l ≤ (if fix then ((gs.units :: gs.nonUnits).flatten).foldl (fun m L => max m (no L.l)) 0 else gs.maxLit) := by
      intro L hL
      cases fix with
      | true => exact foldl_max_ge.2 L hL
      | false =>
        rw [List.flatten_cons, List.mem_append] at hL
        rcases hL with hL | hL
        · exact (hg.1 L hL).2
        · obtain ⟨C, hC, hL⟩ := List.mem_flatten.1 hL
          exact (hg.2 C hC L hL).2
    have hlit : ∀ L ∈ (gs.units :: gs.nonUnits).flatten, 0 < no L.l → 1 ≤ (litNo no L).natAbs ∧ (litNo no L).natAbs ≤ (header no fix gs).1 := by
      intro L hL h0
      have he : (litNo no L).natAbs = no L.l := by unfold litNo; split <;> simp
      have := hb L hL
      rw [he]
      refine ⟨h0, ?_⟩
      unfold header
      simp only
      generalize (if fix then ((gs.units :: gs.nonUnits).flatten).foldl (fun m L => max m (no L.l)) 0 else gs.maxLit) = m at this ⊢
      split <;> omega
    have h1 : 1 ≤ (header no fix gs).1 := by
      unfold header
      simp only
      generalize (if fix then ((gs.units :: gs.nonUnits).flatten).foldl (fun m L => max m (no L.l)) 0 else gs.maxLit) = m
      split <;> omega
    intro c hc i hi
    unfold numClauses at hc
    rcases List.mem_append.1 hc with hc | hc
    · obtain ⟨L, hL, rfl⟩ := List.mem_map.1 hc
      rw [List.mem_singleton] at hi
      subst hi
      exact hlit L (by rw [List.flatten_cons]; exact List.mem_append_left _ hL) (hu L hL)
    · obtain ⟨C, hC, hc⟩ := List.mem_flatMap.1 hc
      split at hc
      · simp only [List.mem_cons, List.not_mem_nil, or_false] at hc
        rcases hc with rfl | rfl <;> (rw [List.mem_singleton] at hi; subst hi; simpa using h1)
      · rw [List.mem_singleton] at hc
        subst hc
        obtain ⟨L, hL, rfl⟩ := List.mem_map.1 hi
        exact hlit L (by rw [List.flatten_cons]; exact List.mem_append_right _ (List.mem_flatten.2 ⟨C, hC, hL⟩)) (hn C hC L hL)

end Ground
end Verif
