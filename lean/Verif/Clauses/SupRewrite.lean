import Verif.Clauses.SupSimp

/-!
# Redundancy of rewritten clauses (proof of C62)
-/

namespace Verif.Sup
open Verif Term LitCmpProof Relation Props SubsProof Interp SemProof RewriteProof

variable {N : Nat} {gt : Term → Term → Prop} {Ns : List Lit → Prop} {x : RWCtx} {D : Demod → Prop}

/-- `τ` is the instance with which `d` rewrites `t` at the top, made ground by `ρ`. -/
def TopAt (x : RWCtx) (d : Demod) (t : Term) (ρ τ : Nat → Term) : Prop :=
  ∃ right u σ, StepBy x d right t u σ ∧ τ = fun y => (restrict (d.l.vars ++ d.r.vars) σ y).subst ρ

/-- The instances needed to rewrite `t` hold. -/
def UseAt (x : RWCtx) (N : Nat) (gt : Term → Term → Prop) (D : Demod → Prop) (I : Interp.{0} x.sg) (v : Nat → I.D) (t : Term) (ρ : Nat → Term) : Prop :=
  ∀ d, D d → ∀ τ, GSubst x.sg N τ → (gt (t.subst ρ) (d.l.subst τ) ∧ gt (t.subst ρ) (d.r.subst τ)) ∨ TopAt x d t ρ τ →
    I.eval v (d.l.subst τ) = I.eval v (d.r.subst τ)

theorem lhs_vars {d : Demod} {right : Bool} {σ ρ : Nat → Term} :
    (d.lhs right).subst (fun y => (restrict (d.l.vars ++ d.r.vars) σ y).subst ρ) = ((d.lhs right).subst σ).subst ρ ∧
    (d.rhs right).subst (fun y => (restrict (d.l.vars ++ d.r.vars) σ y).subst ρ) = ((d.rhs right).subst σ).subst ρ := by
  rw [← subst_comp, ← subst_comp, restrict_subst, restrict_subst]
  · exact ⟨rfl, rfl⟩
  · cases right <;> intro y hy <;> simp_all [Demod.rhs]
  · cases right <;> intro y hy <;> simp_all [Demod.lhs]

theorem topAt_gsubst (hO : RedOrd (sigAr x.sg) N gt) (hx : x.OK N gt) {d : Demod} (hd : d.OK x.sg N gt) {right : Bool} {t u : Term} {σ ρ : Nat → Term}
    (ht : InSig x.sg N t) (h : StepBy x d right t u σ) (hρ : GSubst x.sg N ρ) : GSubst x.sg N fun y => (restrict (d.l.vars ++ d.r.vars) σ y).subst ρ := by
  have hσ := stepBy_wt (minTyped_of hx) h ht.1
  have hu := (step_smaller hO hx hd ht ⟨σ, h⟩).2.1
  refine restrict_gsubst hρ fun y hy => ⟨(hσ y).1, (hσ y).2, ?_⟩
  have h1 := ht.2
  have h2 := hu.2
  rw [← h.inst] at h1
  rw [← h.repl] at h2
  have : y ∈ (d.lhs right).vars ∨ y ∈ (d.rhs right).vars := by
    cases right <;> simp only [Demod.lhs, Demod.rhs, if_true, if_false, Bool.false_eq_true] <;> rcases List.mem_append.1 hy with hy | hy <;> simp [hy]
  rcases this with hy | hy
  · exact symsBelow_of_subst h1 y hy
  · exact symsBelow_of_subst h2 y hy

theorem insig_gnd {sg : Sig} {ρ : Nat → Term} (hρ : GSubst sg N ρ) {t : Term} (ht : InSig sg N t) : Gnd sg N (t.subst ρ) := gnd_subst hρ ht.1 ht.2

theorem gt_rho (h : SupOrd x.sg N gt) {ρ : Nat → Term} (hρ : GSubst x.sg N ρ) {t u : Term} (ht : InSig x.sg N t) (hu : InSig x.sg N u) (hg : gt t u) :
    gt (t.subst ρ) (u.subst ρ) := h.simpl.stable _ _ _ ht hu (fun y => ⟨(hρ y).1.wt, (hρ y).1.below⟩) hg

/-- Both sides of the instance are at most the term. -/
theorem topAt_sides (h : SupOrd x.sg N gt) (hO : RedOrd (sigAr x.sg) N gt) (hx : x.OK N gt) {d : Demod} (hd : d.OK x.sg N gt) {t : Term} {ρ τ : Nat → Term}
    (ht : InSig x.sg N t) (hρ : GSubst x.sg N ρ) (hτ : TopAt x d t ρ τ) :
    (t.subst ρ = d.l.subst τ ∧ gt (t.subst ρ) (d.r.subst τ)) ∨ (t.subst ρ = d.r.subst τ ∧ gt (t.subst ρ) (d.l.subst τ)) := by
  obtain ⟨right, u, σ, hs, rfl⟩ := hτ
  have hsm := step_smaller hO hx hd ht ⟨σ, hs⟩
  have hg := gt_rho h hρ ht hsm.2.1 hsm.2.2.2
  obtain ⟨e1, e2⟩ := lhs_vars (d := d) (right := right) (σ := σ) (ρ := ρ)
  rw [hs.inst] at e1
  rw [hs.repl] at e2
  cases right
  · exact Or.inl ⟨e1.symm, by rw [← e2] at hg; exact hg⟩
  · exact Or.inr ⟨e1.symm, by rw [← e2] at hg; exact hg⟩

theorem useAt_mono (h : SupOrd x.sg N gt) (hO : RedOrd (sigAr x.sg) N gt) (hx : x.OK N gt) (hD : ∀ d, D d → d.OK x.sg N gt) {I : Interp.{0} x.sg} {v : Nat → I.D}
    {t u : Term} {ρ : Nat → Term} (hρ : GSubst x.sg N ρ) (ht : InSig x.sg N t) (hu : InSig x.sg N u) (hg : gt (t.subst ρ) (u.subst ρ)) (hU : UseAt x N gt D I v t ρ) :
    UseAt x N gt D I v u ρ := by
  intro d hd τ hτ hc
  have gt' := insig_gnd hρ ht
  have gu := insig_gnd hρ hu
  have gl := insig_gnd hτ (hD d hd).left
  have gr := insig_gnd hτ (hD d hd).right
  refine hU d hd τ hτ (Or.inl ?_)
  rcases hc with ⟨h1, h2⟩ | hc
  · exact ⟨g_trans h gt' gu gl hg h1, g_trans h gt' gu gr hg h2⟩
  · rcases topAt_sides h hO hx (hD d hd) hu hρ hc with ⟨e, hh⟩ | ⟨e, hh⟩
    · exact ⟨e ▸ hg, g_trans h gt' gu gr hg hh⟩
    · exact ⟨g_trans h gt' gu gl hg hh, e ▸ hg⟩

/-- Smaller, and equal wherever the instances needed hold. -/
def SmallerAt (x : RWCtx) (N : Nat) (gt : Term → Term → Prop) (D : Demod → Prop) (t u : Term) : Prop :=
  Smaller x.sg N gt t u ∧ ∀ ρ, GSubst x.sg N ρ → ∀ (I : Interp.{0} x.sg) (v : Nat → I.D), I.Sorted v → UseAt x N gt D I v t ρ →
    I.eval v (t.subst ρ) = I.eval v (u.subst ρ)

theorem laws_at (h : SupOrd x.sg N gt) (hO : RedOrd (sigAr x.sg) N gt) (hx : x.OK N gt) (hD : ∀ d, D d → d.OK x.sg N gt) :
    RWLaws x D (InSig x.sg N) (SmallerAt x N gt D) := by
  have hL := rwLaws_of hO hx hD
  refine ⟨fun h => hL.dom h.1, hL.arg, fun {t u d right} hw hd hs => ⟨hL.step hw hd hs, fun ρ hρ I v hv hU => ?_⟩,
    fun h1 h2 => ⟨hL.trans h1.1 h2.1, fun ρ hρ I v hv hU => (h1.2 ρ hρ I v hv hU).trans (h2.2 ρ hρ I v hv ?_)⟩, ?_, fun h => hL.noVar h.1, ?_⟩
  · obtain ⟨σ, hs⟩ := hs
    obtain ⟨e1, e2⟩ := lhs_vars (d := d) (right := right) (σ := σ) (ρ := ρ)
    have := hU _ hd _ (topAt_gsubst hO hx (hD _ hd) hw hs hρ) (Or.inr ⟨_, _, σ, hs, rfl⟩)
    rw [← hs.inst, ← hs.repl, ← e1, ← e2]
    cases right
    · exact this
    · exact this.symm
  · exact useAt_mono h hO hx hD hρ h1.1.1 h1.1.2.1 (gt_rho h hρ h1.1.1 h1.1.2.1 h1.1.2.2.2) hU
  · intro f ts us hw hf hne
    refine ⟨hL.congr hw (hf.imp fun a b hab => hab.imp id (·.1)) hne, fun ρ hρ I v hv hU => ?_⟩
    have harg : ∀ a ∈ ts, UseAt x N gt D I v a ρ := fun a ha => by
      have ia : InSig x.sg N a := hL.arg hw ha
      exact useAt_mono h hO hx hD hρ hw ia (gt_rho h hρ hw ia (h.simpl.subterm _ _ _ hw ha)) hU
    clear hU hne hw
    rw [subst_app, subst_app, eval_app, eval_app]
    congr 1
    induction hf with
    | nil => rfl
    | @cons a b as bs hab _ ih =>
      simp only [List.map_cons]
      rw [ih fun a ha => harg a (by simp [ha])]
      congr 1
      rcases hab with rfl | hab
      · rfl
      · exact hab.2 ρ hρ I v hv (harg _ (by simp))
  · refine Subrelation.wf ?_ hL.wf
    intro b a h
    exact h.imp (·.1) id

/-- Where a demodulator of `D` applies to a side of a positive literal of `C` (not to a proper subterm of it), the equation it contributes is not
greater than `C`. -/
def TopOK (x : RWCtx) (N : Nat) (gt : Term → Term → Prop) (D : Demod → Prop) (C : List Lit) : Prop :=
  ∀ L ∈ C, L.pos = true → ∀ b d right u σ, D d → StepBy x d right (L.side b) u σ → ∀ ρ, GSubst x.sg N ρ →
    ClauseLe x.sg N gt (gInst ρ [⟨true, L.side b, u⟩]) (gInst ρ C)

theorem side_in {P : Term → Prop} {L : Lit} (h : L.In P) (b : Bool) : P (L.side b) := by
  unfold Lit.side
  split
  · exact h.1
  · exact h.2

theorem forall2_mem {α β : Type} {R Q : α → β → Prop} {a : List α} {b : List β} (h : List.Forall₂ R a b) (hq : ∀ p ∈ a, ∀ q ∈ b, R p q → Q p q) :
    List.Forall₂ Q a b := by
  induction h with
  | nil => exact .nil
  | cons h _ ih => exact .cons (hq _ (by simp) _ (by simp) h) (ih fun p hp q hq' => hq p (by simp [hp]) q (by simp [hq']))

theorem forall2_right {α β : Type} {R : α → β → Prop} {a : List α} {b : List β} (h : List.Forall₂ R a b) {q : β} (hq : q ∈ b) : ∃ p ∈ a, R p q := by
  induction h with
  | nil => simp at hq
  | cons h _ ih =>
    rcases List.mem_cons.1 hq with rfl | hq
    · exact ⟨_, by simp, h⟩
    · obtain ⟨p, hp, hh⟩ := ih hq
      exact ⟨p, by simp [hp], hh⟩

/-- The original of a rewritten clause is redundant. -/
theorem red_rewrite (h : SupOrd x.sg N gt) (hO : RedOrd (sigAr x.sg) N gt) (hsg : SigOK x.sg) (hF : FOSig x.sg) (h1 : 1 < N) (hx : x.OK N gt)
    (hD : ∀ d, D d → d.OK x.sg N gt ∧ d.l ≠ tFalse ∧ d.r ≠ tFalse ∧ Red x.sg N gt Ns d.clause) {d : RWDesc} {st st' : RWSt} {C C' : List RLit}
    {n k : Nat} {lim lim' : Bool} {ds : List Demod} (hs : SetsOK x d.sets) (hl : d.level = 1 ∨ d.level = 2) (hr : RWReach x N D d.sets st)
    (hC : ∀ L ∈ C.map RLit.lit, LitOK x.sg N L) (hC' : ∀ L ∈ C'.map RLit.lit, LitOK x.sg N L) (htop : TopOK x N gt D (C.map RLit.lit))
    (hN : Ns (C'.map RLit.lit)) (he : clauseNF x d n k st lim C = some (C', lim', st', ds)) : Red x.sg N gt Ns (C.map RLit.lit) := by
  have hD' := fun d hd => (hD d hd).1
  have hL := laws_at h hO hx hD'
  have hm := minTyped_of hx
  have hin : ∀ L ∈ C.map RLit.lit, L.In (InSig x.sg N) := fun L hLm => ⟨⟨(hC L hLm).wt.1, (hC L hLm).below.1⟩, ⟨(hC L hLm).wt.2.1, (hC L hLm).below.2⟩⟩
  have hf := (clauseNF_ok.{0} hL hs (rewrite_reach_D hr) hl hm (fun _ h => h.1) (rewrite_reach_inv hL hm hr)
    (fun L hLm => hin L.lit (List.mem_map_of_mem hLm)) he).2.1
  intro ρ hρ I v hv hE
  have cwf : CWf x.sg N (C.map RLit.lit) := fun K hK => ⟨(hC K hK).wt, (hC K hK).below⟩
  have gin := gInst_in hsg h1 hρ cwf
  -- the instances needed hold
  have use : ∀ L ∈ C.map RLit.lit, ∀ b, UseAt x N gt D I v (L.side b) ρ := by
    intro L hLm b d hd τ hτ hc
    obtain ⟨okd, nl, nr, hred⟩ := hD d hd
    have wd : x.sg.WTLit ⟨true, d.l, d.r⟩ := ⟨okd.left.1, okd.right.1, okd.types⟩
    have okd' : LitOK x.sg N ⟨true, d.l, d.r⟩ := ⟨wd, ⟨okd.left.2, okd.right.2⟩, nl, nr⟩
    have it := side_in (hin L hLm) b
    have es : (L.subst ρ).side b = (L.side b).subst ρ := by cases b <;> rfl
    have hle : ClauseLe x.sg N gt (gInst τ d.clause) (gInst ρ (C.map RLit.lit)) := by
      by_cases htp : (∃ right u σ, StepBy x d right (L.side b) u σ ∧ τ = fun y => (restrict (d.l.vars ++ d.r.vars) σ y).subst ρ) ∧ L.pos = true
      · obtain ⟨⟨right, u, σ, hst, rfl⟩, hp⟩ := htp
        have := htop L hLm hp b d right u σ hd hst ρ hρ
        refine clauseLe_trans (clauseLe_part h (X := gInst ρ [⟨true, L.side b, u⟩]) ?_ (.cons ?_ .nil) (List.Subperm.refl _)) this
        · refine gInst_in hsg h1 hρ ?_
          intro M hM
          rw [List.mem_singleton.1 hM]
          have hsm := step_smaller hO hx okd it ⟨σ, hst⟩
          exact ⟨⟨it.1, hsm.2.1.1, hsm.2.2.1⟩, ⟨it.2, hsm.2.1.2⟩⟩
        · obtain ⟨e1, e2⟩ := lhs_vars (d := d) (right := right) (σ := σ) (ρ := ρ)
          rw [hst.inst] at e1
          rw [hst.repl] at e2
          simp only
          rw [← e1, ← e2]
          cases right
          · exact leq_refl _
          · exact mkEqn_swap _ _ _
      · refine use_unit h hsg hF h1 hC hρ okd' hτ hLm (Or.inr ?_)
        have hc' : (gt ((L.subst ρ).side b) (d.l.subst τ) ∧ gt ((L.subst ρ).side b) (d.r.subst τ)) ∨
            (L.pos = false ∧ TermLe gt (d.l.subst τ) ((L.subst ρ).side b) ∧ TermLe gt (d.r.subst τ) ((L.subst ρ).side b)) := by
          rw [es]
          rcases hc with hc | hc
          · exact Or.inl hc
          · refine Or.inr ⟨by by_contra hne; exact htp ⟨hc, by simpa using hne⟩, ?_⟩
            rcases topAt_sides h hO hx okd it hρ hc with ⟨e, hh⟩ | ⟨e, hh⟩
            · exact ⟨Or.inl e.symm, Or.inr hh⟩
            · exact ⟨Or.inr hh, Or.inl e.symm⟩
        rcases hc' with ⟨a, b'⟩ | ⟨hp, a, b'⟩
        · exact litLt_pos h (subst_in hτ okd') (subst_in hρ (hC L hLm)) rfl b a b'
        · exact litLt_neg h (subst_in hτ okd') (subst_in hρ (hC L hLm)) rfl hp b a b'
    have := hred τ hτ I v hv fun E θ hNE hθ hle' => hE E θ hNE hθ (clauseLe_trans hle' hle)
    rw [gInst_true hsg hv hτ (by intro M hM; rw [List.mem_singleton.1 hM]; exact wd)] at this
    obtain ⟨M, hM, ht⟩ := this
    rw [List.mem_singleton.1 hM] at ht
    unfold Interp.LitTrue at ht
    rw [if_pos (by rfl)] at ht
    exact ht
  -- sides decrease
  have side : ∀ (b : Bool) {L L' : RLit}, L ∈ C → L' ∈ C' → LitRel.{0} x (SmallerAt x N gt D) ds L L' →
      TermLe gt ((L'.lit.side b).subst ρ) ((L.lit.side b).subst ρ) ∧ I.eval v ((L'.lit.side b).subst ρ) = I.eval v ((L.lit.side b).subst ρ) := by
    intro b L L' hLm hLm' hrel
    have : Le (SmallerAt x N gt D) (L.lit.side b) (L'.lit.side b) := by
      cases b
      · exact hrel.right
      · exact hrel.left
    rcases this with e | hs
    · rw [e]; exact ⟨Or.inl rfl, rfl⟩
    · exact ⟨Or.inr (gt_rho h hρ hs.1.1 hs.1.2.1 hs.1.2.2.2), (hs.2 ρ hρ I v hv (use L.lit (List.mem_map_of_mem hLm) b)).symm⟩
  have hmem : ∀ {L L'}, L ∈ C → L' ∈ C' → LitRel.{0} x (SmallerAt x N gt D) ds L L' →
      LitLe x.sg N gt (L'.lit.subst ρ) (L.lit.subst ρ) ∧ (I.LitTrue v (L'.lit.subst ρ) → I.LitTrue v (L.lit.subst ρ)) := by
    intro L L' hLm hLm' hrel
    have a := side true hLm hLm' hrel
    have b := side false hLm hLm' hrel
    have okL := hC L.lit (List.mem_map_of_mem hLm)
    have okL' := hC' L'.lit (List.mem_map_of_mem hLm')
    refine ⟨litLe_sides h (subst_in hρ okL') (subst_in hρ okL) hrel.pos a.1 b.1, ?_⟩
    unfold Interp.LitTrue
    have e1 : I.eval v (L'.lit.subst ρ).l = I.eval v (L.lit.subst ρ).l := a.2
    have e2 : I.eval v (L'.lit.subst ρ).r = I.eval v (L.lit.subst ρ).r := b.2
    have e3 : (L'.lit.subst ρ).pos = (L.lit.subst ρ).pos := hrel.pos
    rw [e1, e2, e3]
    exact id
  have hmem' := forall2_mem hf fun L hLm L' hLm' hrel => hmem hLm hLm' hrel
  have hle : ClauseLe x.sg N gt (gInst ρ (C'.map RLit.lit)) (gInst ρ (C.map RLit.lit)) := by
    refine rtg_litLe h gin ?_
    unfold gInst
    rw [List.map_map, List.map_map, List.forall₂_map_left_iff, List.forall₂_map_right_iff]
    apply List.Forall₂.flip
    refine forall2_mem hmem' fun L hLm L' hLm' hr => ?_
    exact litLe_leq (inst_leq hsg hF hρ (hC' L'.lit (List.mem_map_of_mem hLm'))) (inst_leq hsg hF hρ (hC L.lit (List.mem_map_of_mem hLm))) hr.1
  have htrue := hE _ ρ hN hρ hle
  rw [gInst_true hsg hv hρ fun M hM => (hC' M hM).wt] at htrue
  rw [gInst_true hsg hv hρ fun M hM => (hC M hM).wt]
  obtain ⟨M, hM, ht⟩ := htrue
  simp only [csubst, List.map_map, List.mem_map, Function.comp] at hM
  obtain ⟨L', hL', rfl⟩ := hM
  obtain ⟨L, hL0, hr⟩ := forall2_right hmem' hL'
  exact ⟨L.lit.subst ρ, by simp only [csubst, List.map_map, List.mem_map, Function.comp]; exact ⟨L, hL0, rfl⟩, hr.2 ht⟩

end Verif.Sup
