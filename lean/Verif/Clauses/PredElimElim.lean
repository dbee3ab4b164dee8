import Verif.Clauses.PredElimStep

/-!
# Predicate elimination: one predicate
-/

namespace Verif.PeProof
open SemProof Props CNFProof SaturateProof BceProof Term

universe u

variable {sg : Sig}

theorem lookup_iff : ∀ {V : List (Nat × List Lit)}, (V.map Prod.fst).Nodup → ∀ {i : Nat} {C : List Lit}, V.lookup i = some C ↔ (i, C) ∈ V
  | [], _, i, C => by simp
  | (j, D) :: V, h, i, C => by
    simp only [List.map_cons, List.nodup_cons] at h
    rw [List.lookup_cons]
    by_cases hij : i = j
    · subst hij
      simp only [beq_self_eq_true, List.mem_cons, Prod.mk.injEq, true_and]
      constructor
      · rintro ⟨⟩
        exact .inl rfl
      · rintro (rfl | h')
        · rfl
        · exact absurd (List.mem_map.2 ⟨_, h', rfl⟩) h.1
    · have : (i == j) = false := by simpa using hij
      simp only [this, List.mem_cons, Prod.mk.injEq, hij, false_and, false_or]
      exact lookup_iff h.2

theorem ids_unique {V : List (Nat × List Lit)} (h : (V.map Prod.fst).Nodup) {i : Nat} {C D : List Lit} (h1 : (i, C) ∈ V) (h2 : (i, D) ∈ V) : C = D := by
  have := (lookup_iff h).2 h1
  rw [(lookup_iff h).2 h2] at this
  exact (Option.some.inj this).symm

theorem mem_clauses {s : PeSt} (h : (s.passive.map Prod.fst).Nodup) {l : List Nat} {c : Nat × List Lit} : c ∈ s.clauses l ↔ c.1 ∈ l ∧ c ∈ s.passive := by
  unfold PeSt.clauses
  simp only [List.mem_filterMap, Option.map_eq_some_iff]
  constructor
  · rintro ⟨i, hi, C, hC, rfl⟩
    exact ⟨hi, (lookup_iff h).1 hC⟩
  · rintro ⟨h1, h2⟩
    exact ⟨c.1, h1, c.2, (lookup_iff h).2 h2, rfl⟩

theorem mem_cls {p : PeParams} (hord : ∀ l, (p.ord l).Perm l) {s : PeSt} (h : (s.passive.map Prod.fst).Nodup) {c : CCS} {C : List Lit} :
    C ∈ (s.clauses (p.ord c.set)).map Prod.snd ↔ ∃ i ∈ c.set, (i, C) ∈ s.passive := by
  simp only [List.mem_map, mem_clauses h, (hord _).mem_iff]
  constructor
  · rintro ⟨⟨i, C'⟩, ⟨h1, h2⟩, rfl⟩
    exact ⟨i, h1, h2⟩
  · rintro ⟨i, h1, h2⟩
    exact ⟨(i, C), ⟨h1, h2⟩, rfl⟩

open scoped Classical in
theorem set_fn (hsg : SigOK sg) (hF : FOSig sg) (I : Interp.{u} sg) {f : Nat} (hp : PredOK sg f) (S : Set (List I.D)) (ds : List I.D) :
    (setI hsg hF I hp S).fn f ds = (setI hsg hF I hp S).fn 1 [] ↔ ds ∈ S := by
  have e1 : (setI hsg hF I hp S).fn f ds = tv I (decide (ds ∈ S)) := set_self I ds
  have e2 : (setI hsg hF I hp S).fn 1 [] = I.fn 1 [] := congrFun (set_other I (Ne.symm hp.one)) []
  rw [e1, e2]
  by_cases hm : ds ∈ S
  · simp only [hm, decide_true, tv]
    exact ⟨fun _ => trivial, fun _ => rfl⟩
  · simp only [hm, decide_false, tv]
    exact ⟨fun h => absurd h.symm I.tf, fun h => h.elim⟩

/-- Demands do not depend on the meaning of the predicate. -/
theorem demands_set (hsg : SigOK sg) (hF : FOSig sg) (I : Interp.{u} sg) {f : Nat} (hp : PredOK sg f) (S : Set (List I.D)) {b : Bool} {C : List Lit} (hC : FOC sg C) (h1 : One f b C)
    {ds : List I.D} (h : Demands I f b C ds) : Demands (setI hsg hF I hp S) f b C ds := by
  obtain ⟨v, hv, ts, R, pC, e, hR⟩ := h
  obtain ⟨ts', R', q1, q2⟩ := h1
  obtain ⟨-, rfl, z⟩ := one_unique q1 q2 pC
  have h0 : cnt f R = 0 := (cnt_perm z).trans q2
  refine ⟨v, hv, ts, R, pC, ?_, fun hc => hR ((clause_set_other hsg hF I hp S v (foc_tail (foc_perm pC hC)).fo h0).1 hc)⟩
  rw [← e]
  have hw := lit_wt hC pC
  refine List.map_congr_left fun a ha => ?_
  exact eval_set hsg hF I hp S v a ((Sig.wt_app.1 hw).2 a ha) (arg_ty hF hw ha)

section
variable (p : PeParams) (hsg : SigOK p.sg) (hF : FOSig p.sg) (ha : AltTyped p.sg)
  (hT : ∀ C, (∀ K ∈ C, FOLit p.sg K) → p.taut C = true → Valid.{u} p.sg C)

/-- The resolvents of all pairs of clauses. -/
structure Pairs (f : Nat) (cond : Interp.{u} p.sg → List Term → List Term → Prop) (noeq : Prop) (Ps Ns Rs : List (List Lit)) : Prop where
  mem : ∀ P ∈ Ps, ∀ N ∈ Ns, ∃ r ts us RP RN, Res.{u} p.sg f P N (fun I => cond I ts us) r ts us RP RN ∧ ∀ R, r = some R → p.taut R = true ∨ R ∈ Rs
  only : ∀ R ∈ Rs, ∃ P ∈ Ps, ∃ N ∈ Ns, ∃ ts us RP RN, Res.{u} p.sg f P N (fun I => cond I ts us) (some R) ts us RP RN ∧
    (noeq → (∀ K ∈ P, K.equ = false) → (∀ K ∈ N, K.equ = false) → ∀ K ∈ R, K.equ = false)

include hsg hF ha in
theorem pairs_neq {f k : Nat} {Ps Ns Rs : List (List Lit)} (hp : ∀ P ∈ Ps, FOC p.sg P ∧ 0 < cnt f P) (hn : ∀ N ∈ Ns, FOC p.sg N)
    (h : singular p.taut (fun P N => buildNeq p k P N f) Ns Ps = some Rs) :
    Pairs.{u} p f (fun I ts us => (∃ d, Herb p.sg I d) ∨ distinctVars ts = true ∨ distinctVars us = true) True Ps Ns Rs := by
  obtain ⟨h1, h2⟩ := singular_spec h
  refine ⟨fun P hP N hN => ?_, fun R hR => ?_⟩
  · obtain ⟨r, hr, h'⟩ := h1 P hP N hN
    obtain ⟨ts, us, RP, RN, h3, -⟩ := buildNeq_res.{u} hsg hF ha (predOK_of hsg hF (hp P hP).1.fo (hp P hP).2) (hp P hP).1 (hn N hN) hr
    exact ⟨r, ts, us, RP, RN, h3, h'⟩
  · obtain ⟨P, hP, N, hN, hr⟩ := h2 R hR
    obtain ⟨ts, us, RP, RN, h3, h4⟩ := buildNeq_res.{u} hsg hF ha (predOK_of hsg hF (hp P hP).1.fo (hp P hP).2) (hp P hP).1 (hn N hN) hr
    exact ⟨P, hP, N, hN, ts, us, RP, RN, h3, fun _ => h4 R rfl⟩

include hsg hF ha in
theorem pairs_eq {f k : Nat} {Ps Ns Rs : List (List Lit)} (hp : ∀ P ∈ Ps, FOC p.sg P ∧ 0 < cnt f P) (hn : ∀ N ∈ Ns, FOC p.sg N)
    (h : singular p.taut (fun P N => buildEq p k P N f) Ns Ps = some Rs) : Pairs.{u} p f (fun _ _ _ => True) False Ps Ns Rs := by
  obtain ⟨h1, h2⟩ := singular_spec h
  refine ⟨fun P hP N hN => ?_, fun R hR => ?_⟩
  · obtain ⟨r, hr, h'⟩ := h1 P hP N hN
    obtain ⟨ts, us, RP, RN, h3⟩ := buildEq_res.{u} hsg hF ha (predOK_of hsg hF (hp P hP).1.fo (hp P hP).2) (hp P hP).1 (hn N hN) hr
    exact ⟨r, ts, us, RP, RN, h3, h'⟩
  · obtain ⟨P, hP, N, hN, hr⟩ := h2 R hR
    obtain ⟨ts, us, RP, RN, h3⟩ := buildEq_res.{u} hsg hF ha (predOK_of hsg hF (hp P hP).1.fo (hp P hP).2) (hp P hP).1 (hn N hN) hr
    exact ⟨P, hP, N, hN, ts, us, RP, RN, h3, fun h => h.elim⟩

variable {p}

theorem Pairs.facts {f : Nat} {cond : Interp.{u} p.sg → List Term → List Term → Prop} {noeq : Prop} {Ps Ns Rs : List (List Lit)} (h : Pairs.{u} p f cond noeq Ps Ns Rs)
    (h1 : ∀ P ∈ Ps, cnt f P = 1) (h2 : ∀ N ∈ Ns, cnt f N = 1) :
    (∀ R ∈ Rs, (∀ K ∈ R, FOLit p.sg K) ∧ cnt f R = 0) ∧ (∀ g, (∀ C ∈ Ps ++ Ns, cnt g C = 0) → ∀ R ∈ Rs, cnt g R = 0) ∧
      (noeq → (∀ C ∈ Ps ++ Ns, ∀ K ∈ C, K.equ = false) → ∀ R ∈ Rs, ∀ K ∈ R, K.equ = false) ∧
      ∀ I : Interp.{u} p.sg, (∀ C ∈ Ps ++ Ns, I.Models C) → ∀ R ∈ Rs, I.Models R := by
  refine ⟨fun R hR => ?_, fun g hg R hR => ?_, fun hne hg R hR => ?_, fun I hI R hR => ?_⟩ <;> obtain ⟨P, hP, N, hN, ts, us, RP, RN, r, ne⟩ := h.only R hR
  · refine ⟨r.fo R rfl, ?_⟩
    have := r.cnt R rfl f
    have e1 := h1 P hP
    have e2 := h2 N hN
    rw [cnt_perm r.pp, cnt_cons] at e1
    rw [cnt_perm r.nn, cnt_cons] at e2
    omega
  · have := r.cnt R rfl g
    have e1 := hg P (by simp [hP])
    have e2 := hg N (by simp [hN])
    rw [cnt_perm r.pp] at e1
    rw [cnt_perm r.nn] at e2
    have eA' : cnt g RP ≤ cnt g (⟨true, .app f ts, tTrue⟩ :: RP) := (List.sublist_cons_self _ _).countP_le
    have eB' : cnt g RN ≤ cnt g (⟨false, .app f us, tTrue⟩ :: RN) := (List.sublist_cons_self _ _).countP_le
    omega
  · exact ne hne (hg P (by simp [hP])) (hg N (by simp [hN]))
  · exact r.sound R rfl I (hI P (by simp [hP])) (hI N (by simp [hN]))

include hT in
/-- If the resolvents are true, no pair of clauses makes contradictory demands. -/
theorem Pairs.agree {f : Nat} {cond : Interp.{u} p.sg → List Term → List Term → Prop} {noeq : Prop} {Ps Ns Rs : List (List Lit)} (h : Pairs.{u} p f cond noeq Ps Ns Rs)
    (h1 : ∀ P ∈ Ps, One f true P) (h2 : ∀ N ∈ Ns, One f false N) {I : Interp.{u} p.sg} (hI : ∀ R ∈ Rs, I.Models R) {P N : List Lit} (hP : P ∈ Ps) (hN : N ∈ Ns)
    (hc : ∀ ts us RP RN, P.Perm (⟨true, .app f ts, tTrue⟩ :: RP) → N.Perm (⟨false, .app f us, tTrue⟩ :: RN) → cond I ts us) {ds : List I.D}
    (d1 : Demands I f true P ds) (d2 : Demands I f false N ds) : False := by
  obtain ⟨r, ts, us, RP, RN, hr, h'⟩ := h.mem P hP N hN
  refine res_contra hr (hc _ _ _ _ hr.pp hr.nn) (h1 P hP) (h2 N hN) (fun R hR => ?_) ds d1 d2
  rcases h' R hR with h' | h'
  · exact fun v _ => hT R (hr.fo R hR) h' I v
  · exact hI R h'

variable (p)

/-- What elimination of a predicate guarantees. -/
structure Elim (G : Prop) (eqn : Bool) (f : Nat) (V : List (Nat × List Lit)) (cls : List (List Lit)) : Prop where
  fo : ∀ C ∈ cls, (∀ K ∈ C, FOLit p.sg K) ∧ cnt f C = 0
  cnt : ∀ g, (∀ c ∈ V, cnt g c.2 = 0) → ∀ C ∈ cls, PeProof.cnt g C = 0
  noeq : eqn = false → (∀ c ∈ V, ∀ K ∈ c.2, K.equ = false) → ∀ C ∈ cls, ∀ K ∈ C, K.equ = false
  sound : ∀ I : Interp.{u} p.sg, (∀ c ∈ V, I.Models c.2) → ∀ C ∈ cls, I.Models C
  back : G → ∀ I : Interp.{u} p.sg, (eqn = false → ∃ d, Herb p.sg I d) → (∀ C ∈ cls, I.Models C) → (∀ c ∈ V, PeProof.cnt f c.2 = 0 → I.Models c.2) →
    ∃ F, ∃ h : I.FnOK F, (∀ g, g ≠ f → F g = I.fn g) ∧ (eqn = false → ∃ d, Herb p.sg (I.reint F h) d) ∧ ∀ c ∈ V, (I.reint F h).Models c.2

include hsg hF ha hT in
theorem tryElim_ok (hord : ∀ l, (p.ord l).Perm l) {G : Prop} {s : PeSt} {f : Nat} {t : PeTask} (hfo : ∀ c ∈ s.passive, FOC p.sg c.2) (hnd : (s.passive.map Prod.fst).Nodup)
    (T : TaskOK.{u} G p.sg (fun i C => (i, C) ∈ s.passive) t f) (hs : t.canSchedule = true) (hb : s.vars.Inv) {k : Nat} {eqn : Bool} {cls : List (List Lit)} {b : VarBank}
    (h : tryElim p k eqn s f t = some (cls, b)) (hag : BankAgrees p.sg b) : Elim.{u} p G eqn f s.passive cls := by
  -- the clauses of the sets
  have hpos : ∀ C, ((∃ i ∈ t.pos.set, (i, C) ∈ s.passive) ∨ ∃ i ∈ t.posG.set, (i, C) ∈ s.passive) → PeProof.cnt f C = 1 ∧ Sgn f true C := by
    rintro C (⟨i, hi, hC⟩ | ⟨i, hi, hC⟩)
    · obtain ⟨D, hD, h'⟩ := (T.reg.pos i).1 (.inl hi)
      cases ids_unique hnd hC hD
      exact h'
    · obtain ⟨D, hD, h'⟩ := (T.reg.pos i).1 (.inr hi)
      cases ids_unique hnd hC hD
      exact h'
  have hneg : ∀ C, ((∃ i ∈ t.neg.set, (i, C) ∈ s.passive) ∨ ∃ i ∈ t.negG.set, (i, C) ∈ s.passive) → PeProof.cnt f C = 1 ∧ Sgn f false C := by
    rintro C (⟨i, hi, hC⟩ | ⟨i, hi, hC⟩)
    · obtain ⟨D, hD, h'⟩ := (T.reg.neg i).1 (.inl hi)
      cases ids_unique hnd hC hD
      exact h'
    · obtain ⟨D, hD, h'⟩ := (T.reg.neg i).1 (.inr hi)
      cases ids_unique hnd hC hD
      exact h'
  -- every clause belongs to one of them
  have hcase : ∀ c ∈ s.passive, PeProof.cnt f c.2 = 0 ∨ c.1 ∈ t.pos.set ∨ c.1 ∈ t.posG.set ∨ c.1 ∈ t.neg.set ∨ c.1 ∈ t.negG.set ∨ c.1 ∈ t.off.set := by
    rintro ⟨i, C⟩ hc
    rcases Nat.lt_trichotomy (PeProof.cnt f C) 1 with h0 | h0 | h0
    · exact .inl (by show PeProof.cnt f C = 0; omega)
    · obtain ⟨L, hL, hf⟩ := cnt_pos_iff.1 (show 0 < PeProof.cnt f C by omega)
      cases hb : L.pos
      · have := (T.reg.neg i).2 ⟨C, hc, h0, L, hL, hf, hb⟩
        rcases this with h' | h'
        · exact .inr (.inr (.inr (.inl h')))
        · exact .inr (.inr (.inr (.inr (.inl h'))))
      · have := (T.reg.pos i).2 ⟨C, hc, h0, L, hL, hf, hb⟩
        rcases this with h' | h'
        · exact .inr (.inl h')
        · exact .inr (.inr (.inl h'))
    · exact .inr (.inr (.inr (.inr (.inr ((T.reg.off i).2 ⟨C, hc, h0⟩)))))
  have mem : ∀ {c : CCS} {C : List Lit}, C ∈ (s.clauses (p.ord c.set)).map Prod.snd ↔ ∃ i ∈ c.set, (i, C) ∈ s.passive := mem_cls hord hnd
  have hone : ∀ {b : Bool} {C : List Lit} {i : Nat}, (i, C) ∈ s.passive → PeProof.cnt f C = 1 ∧ Sgn f b C → One f b C := fun hc h' => one_of hsg hF (hfo _ hc).fo h'.1 h'.2
  have hsub : ∀ (X : List Lit → Prop), (∀ c ∈ s.passive, X c.2) → ∀ (c : CCS), ∀ C ∈ (s.clauses (p.ord c.set)).map Prod.snd, X C := by
    intro X hX c C hC
    obtain ⟨i, _, h'⟩ := mem.1 hC
    exact hX _ h'
  unfold tryElim at h
  dsimp only at h
  split at h
  · rename_i hg
    split at h
    · rename_i A B O b' hA hB hO
      cases h
      obtain ⟨cl, c1, c2, c3, c4⟩ := T.g hg
      have hPs : ∀ P ∈ (s.clauses (p.ord t.posG.set)).map Prod.snd, FOC p.sg P ∧ GateCl f true P := by
        intro P hP
        obtain ⟨i, hi, hP⟩ := mem.1 hP
        cases ids_unique hnd hP (c1 i hi).1
        exact ⟨hfo _ hP, (c1 i hi).2⟩
      have hNs : ∀ P ∈ (s.clauses (p.ord t.negG.set)).map Prod.snd, FOC p.sg P ∧ GateCl f false P := by
        intro P hP
        obtain ⟨i, hi, hP⟩ := mem.1 hP
        cases ids_unique hnd hP (c2 i hi).1
        exact ⟨hfo _ hP, (c2 i hi).2⟩
      have hcn1 : ∀ P ∈ (s.clauses (p.ord t.pos.set)).map Prod.snd, PeProof.cnt f P = 1 := fun P hP => (hpos P (.inl (mem.1 hP))).1
      have hcn2 : ∀ P ∈ (s.clauses (p.ord t.neg.set)).map Prod.snd, PeProof.cnt f P = 1 := fun P hP => (hneg P (.inl (mem.1 hP))).1
      have hcg1 : ∀ P ∈ (s.clauses (p.ord t.posG.set)).map Prod.snd, PeProof.cnt f P = 1 := fun P hP => (gateCl_cnt (hPs P hP).2).1
      have hcg2 : ∀ P ∈ (s.clauses (p.ord t.negG.set)).map Prod.snd, PeProof.cnt f P = 1 := fun P hP => (gateCl_cnt (hNs P hP).2).1
      have hfoc := hsub (FOC p.sg) hfo
      have pA := pairs_neq.{u} p hsg hF ha (fun P hP => ⟨(hPs P hP).1, by rw [hcg1 P hP]; omega⟩) (hfoc t.neg) hA
      have pB := pairs_neq.{u} p hsg hF ha (fun P hP => ⟨hfoc t.pos P hP, by rw [hcn1 P hP]; omega⟩) (fun N hN => (hNs N hN).1) hB
      obtain ⟨a1, a2, a3, a4⟩ := pA.facts hcg1 hcn2
      obtain ⟨b1, b2, b3, b4⟩ := pB.facts hcn1 hcg2
      obtain ⟨o1, o2, o3, o4, o5⟩ := gateLoop_spec.{u} p hsg hF ha hPs hNs hT hb (fun C hC => hfoc t.off C (List.mem_reverse.1 hC)) hO hag
      have three : ∀ (X : List Lit → Prop), (∀ C ∈ A, X C) → (∀ C ∈ B, X C) → (∀ C ∈ O, X C) → ∀ C ∈ A ++ B ++ O, X C := by
        intro X x1 x2 x3 C hC
        simp only [List.mem_append] at hC
        rcases hC with (hC | hC) | hC
        · exact x1 C hC
        · exact x2 C hC
        · exact x3 C hC
      have gl : ∀ (X : List Lit → Prop), (∀ c ∈ s.passive, X c.2) → ∀ C ∈ ((s.clauses (p.ord t.off.set)).map Prod.snd).reverse ++ (s.clauses (p.ord t.posG.set)).map Prod.snd ++
          (s.clauses (p.ord t.negG.set)).map Prod.snd, X C := by
        intro X hX C hC
        rcases List.mem_append.1 hC with hC | hC
        · rcases List.mem_append.1 hC with hC | hC
          · exact hsub X hX t.off C (List.mem_reverse.1 hC)
          · exact hsub X hX t.posG C hC
        · exact hsub X hX t.negG C hC
      have two : ∀ (X : List Lit → Prop), (∀ c ∈ s.passive, X c.2) → ∀ (c d : CCS), ∀ C ∈ (s.clauses (p.ord c.set)).map Prod.snd ++ (s.clauses (p.ord d.set)).map Prod.snd, X C := by
        intro X hX c d C hC
        rcases List.mem_append.1 hC with hC | hC
        · exact hsub X hX c C hC
        · exact hsub X hX d C hC
      refine ⟨three _ a1 b1 fun C hC => ⟨(o1 C hC).1.fo, (o1 C hC).2⟩, fun g hg => three _ (a2 g (two _ hg _ _)) (b2 g (two _ hg _ _)) (o2 g (gl _ hg)),
        fun _ hg => three _ (a3 trivial (two _ hg _ _)) (b3 trivial (two _ hg _ _)) (o3 (gl _ hg)), fun I hI => three _ (a4 I (two _ hI _ _)) (b4 I (two _ hI _ _)) (o4 I (gl _ hI)),
        fun hG I hH hI hR => ?_⟩
      by_cases hp : PredOK p.sg f
      swap
      · refine ⟨I.fn, fnOK_self I, fun _ _ => rfl, hH, fun c hc => hR c hc ?_⟩
        by_contra h0
        exact hp (predOK_of hsg hF (hfo c hc).fo (by omega))
      let S : Set (List I.D) := {ds | ∃ P ∈ (s.clauses (p.ord t.posG.set)).map Prod.snd, Demands I f true P ds}
      have hIA : ∀ R ∈ A, I.Models R := fun R hR => hI R (by simp [hR])
      have hIB : ∀ R ∈ B, I.Models R := fun R hR => hI R (by simp [hR])
      have hIO : ∀ R ∈ O, I.Models R := fun R hR => hI R (by simp [hR])
      have hcov : ∀ ds, SArgs I f ds → ds ∈ S ∨ ∃ N ∈ (s.clauses (p.ord t.negG.set)).map Prod.snd, Demands I f false N ds := by
        intro ds hds
        rcases c3 I ds hds with ⟨C, hC, hd⟩ | ⟨C, hC, hd⟩ <;> obtain ⟨i, hi, rfl⟩ := List.mem_map.1 hC
        · exact .inl ⟨cl i, mem.2 ⟨i, hi, (c1 i hi).1⟩, hd⟩
        · exact .inr ⟨cl i, mem.2 ⟨i, hi, (c2 i hi).1⟩, hd⟩
      have hagr : ∀ ds ∈ S, ∀ N ∈ (s.clauses (p.ord t.negG.set)).map Prod.snd, Demands I f false N ds → False := by
        rintro ds ⟨P, hP, d1⟩ N hN d2
        obtain ⟨i, hi, hP⟩ := mem.1 hP
        obtain ⟨j, hj, hN⟩ := mem.1 hN
        cases ids_unique hnd hP (c1 i hi).1
        cases ids_unique hnd hN (c2 j hj).1
        exact c4 hG I ds _ (List.mem_map.2 ⟨i, hi, rfl⟩) _ (List.mem_map.2 ⟨j, hj, rfl⟩) d1 d2
      have hdef : Defined (setI hsg hF I hp S) f ((s.clauses (p.ord t.posG.set)).map Prod.snd) ((s.clauses (p.ord t.negG.set)).map Prod.snd) := by
        intro ds hds
        have hfn : (setI hsg hF I hp S).fn f ds = (setI hsg hF I hp S).fn 1 [] ↔ ds ∈ S := set_fn hsg hF I hp S ds
        constructor
        · intro he
          obtain ⟨P, hP, hd⟩ := hfn.1 he
          exact ⟨P, hP, demands_set hsg hF I hp S (hPs P hP).1 (gateCl_one (hPs P hP).2) hd⟩
        · intro he
          rcases hcov ds hds with h' | ⟨N, hN, hd⟩
          · exact absurd (hfn.2 h') he
          · exact ⟨N, hN, demands_set hsg hF I hp S (hNs N hN).1 (gateCl_one (hNs N hN).2) hd⟩
      refine ⟨_, set_ok hsg hF I hp S, fun g hg => set_other I hg, fun he => (hH he).imp fun d hd => herb_set hsg hF I hp S hd, ?_⟩
      show ∀ c ∈ s.passive, (setI hsg hF I hp S).Models c.2
      rintro ⟨i, C⟩ hc
      have dargs : ∀ {b : Bool} {ds : List I.D}, Demands I f b C ds → SArgs I f ds := by
        rintro b ds ⟨v, hv, ts, R, pC, rfl, _⟩
        exact sargs_of hv (lit_wt (hfo _ hc) pC)
      rcases hcase _ hc with h' | h' | h' | h' | h' | h'
      · exact (models_set_other hsg hF I hp S (hfo _ hc).fo h').2 (hR _ hc h')
      · refine one_models hsg hF I hp S (hfo _ hc).fo (hone hc (hpos C (.inl ⟨i, h', hc⟩))) fun ds hd => ⟨fun _ => ?_, fun _ => rfl⟩
        rcases hcov ds (dargs hd) with hd' | ⟨N, hN, hd'⟩
        · exact hd'
        · exact (pB.agree hT (fun P hP => by
            obtain ⟨j, hj, hP'⟩ := mem.1 hP
            exact hone hP' (hpos P (.inl ⟨j, hj, hP'⟩))) (fun N hN => gateCl_one (hNs N hN).2) hIB (mem.2 ⟨i, h', hc⟩) hN
              (fun ts us RP RN _ q => .inr (.inr (gateCl_distinct (hNs N hN).2 q))) hd hd').elim
      · exact one_models hsg hF I hp S (hfo _ hc).fo (hone hc (hpos C (.inr ⟨i, h', hc⟩))) fun ds hd => ⟨fun _ => ⟨C, mem.2 ⟨i, h', hc⟩, hd⟩, fun _ => rfl⟩
      · refine one_models hsg hF I hp S (hfo _ hc).fo (hone hc (hneg C (.inl ⟨i, h', hc⟩))) fun ds hd => ⟨fun h => by simp at h, ?_⟩
        rintro ⟨P, hP, hd'⟩
        exact (pA.agree hT (fun P hP => gateCl_one (hPs P hP).2) (fun N hN => by
            obtain ⟨j, hj, hN'⟩ := mem.1 hN
            exact hone hN' (hneg N (.inl ⟨j, hj, hN'⟩))) hIA hP (mem.2 ⟨i, h', hc⟩)
              (fun ts us RP RN q _ => .inr (.inl (gateCl_distinct (hPs P hP).2 q))) hd' hd).elim
      · exact one_models hsg hF I hp S (hfo _ hc).fo (hone hc (hneg C (.inr ⟨i, h', hc⟩))) fun ds hd => ⟨fun h => by simp at h, fun hm =>
          (hagr ds hm C (mem.2 ⟨i, h', hc⟩) hd).elim⟩
      · exact o5 _ hdef (fun D hD => (models_set_other hsg hF I hp S (o1 D hD).1.fo (o1 D hD).2).2 (hIO D hD)) C (List.mem_reverse.2 (mem.2 ⟨i, h', hc⟩))
    · cases h
  · rename_i hg
    rw [Option.map_eq_some_iff] at h
    obtain ⟨A, hA, e⟩ := h
    cases e
    have hg' : t.gate = false := by simpa using hg
    obtain ⟨ng1, ng2⟩ := T.ng hg'
    have hoff : t.off.set = [] := by
      unfold PeTask.canSchedule at hs
      rw [hg', Bool.or_false, decide_eq_true_eq, T.reg.card] at hs
      exact List.length_eq_zero_iff.1 (by exact_mod_cast hs)
    have hcn1 : ∀ P ∈ (s.clauses (p.ord t.pos.set)).map Prod.snd, PeProof.cnt f P = 1 := fun P hP => (hpos P (.inl (mem.1 hP))).1
    have hcn2 : ∀ P ∈ (s.clauses (p.ord t.neg.set)).map Prod.snd, PeProof.cnt f P = 1 := fun P hP => (hneg P (.inl (mem.1 hP))).1
    have hfoc := hsub (FOC p.sg) hfo
    obtain ⟨cond, noeq, pA, hne, hcond⟩ : ∃ (cond : Interp.{u} p.sg → List Term → List Term → Prop) (noeq : Prop),
        Pairs.{u} p f cond noeq ((s.clauses (p.ord t.pos.set)).map Prod.snd) ((s.clauses (p.ord t.neg.set)).map Prod.snd) cls ∧ (eqn = false → noeq) ∧
          ∀ I : Interp.{u} p.sg, (eqn = false → ∃ d, Herb p.sg I d) → ∀ ts us, cond I ts us := by
      cases eqn
      · simp only [Bool.false_eq_true, if_false] at hA
        exact ⟨_, _, pairs_neq.{u} p hsg hF ha (fun P hP => ⟨hfoc t.pos P hP, by rw [hcn1 P hP]; omega⟩) (hfoc t.neg) hA, fun _ => trivial, fun I h _ _ => .inl (h rfl)⟩
      · simp only [if_true] at hA
        exact ⟨_, _, pairs_eq.{u} p hsg hF ha (fun P hP => ⟨hfoc t.pos P hP, by rw [hcn1 P hP]; omega⟩) (hfoc t.neg) hA, fun h => (by cases h), fun I h _ _ => trivial⟩
    obtain ⟨a1, a2, a3, a4⟩ := pA.facts hcn1 hcn2
    have two : ∀ (X : List Lit → Prop), (∀ c ∈ s.passive, X c.2) → ∀ (c d : CCS), ∀ C ∈ (s.clauses (p.ord c.set)).map Prod.snd ++ (s.clauses (p.ord d.set)).map Prod.snd, X C := by
      intro X hX c d C hC
      rcases List.mem_append.1 hC with hC | hC
      · exact hsub X hX c C hC
      · exact hsub X hX d C hC
    refine ⟨a1, fun g hg => a2 g (two _ hg _ _), fun he hg => a3 (hne he) (two _ hg _ _), fun I hI => a4 I (two _ hI _ _), fun _ I hH hI hR => ?_⟩
    by_cases hp : PredOK p.sg f
    swap
    · refine ⟨I.fn, fnOK_self I, fun _ _ => rfl, hH, fun c hc => hR c hc ?_⟩
      by_contra h0
      exact hp (predOK_of hsg hF (hfo c hc).fo (by omega))
    let S : Set (List I.D) := {ds | ∃ P ∈ (s.clauses (p.ord t.pos.set)).map Prod.snd, Demands I f true P ds}
    refine ⟨_, set_ok hsg hF I hp S, fun g hg => set_other I hg, fun he => (hH he).imp fun d hd => herb_set hsg hF I hp S hd, ?_⟩
    show ∀ c ∈ s.passive, (setI hsg hF I hp S).Models c.2
    rintro ⟨i, C⟩ hc
    rcases hcase _ hc with h' | h' | h' | h' | h' | h'
    · exact (models_set_other hsg hF I hp S (hfo _ hc).fo h').2 (hR _ hc h')
    · exact one_models hsg hF I hp S (hfo _ hc).fo (hone hc (hpos C (.inl ⟨i, h', hc⟩))) fun ds hd => ⟨fun _ => ⟨C, mem.2 ⟨i, h', hc⟩, hd⟩, fun _ => rfl⟩
    · rw [ng1] at h'; cases h'
    · refine one_models hsg hF I hp S (hfo _ hc).fo (hone hc (hneg C (.inl ⟨i, h', hc⟩))) fun ds hd => ⟨fun h => by simp at h, ?_⟩
      rintro ⟨P, hP, hd'⟩
      refine (pA.agree hT (fun P hP => ?_) (fun N hN => ?_) hI hP (mem.2 ⟨i, h', hc⟩) (fun ts us RP RN _ _ => hcond I hH ts us) hd' hd).elim
      · obtain ⟨j, hj, hP'⟩ := mem.1 hP
        exact hone hP' (hpos P (.inl ⟨j, hj, hP'⟩))
      · obtain ⟨j, hj, hN'⟩ := mem.1 hN
        exact hone hN' (hneg N (.inl ⟨j, hj, hN'⟩))
    · rw [ng2] at h'; cases h'
    · rw [hoff] at h'; cases h'

end

end Verif.PeProof
