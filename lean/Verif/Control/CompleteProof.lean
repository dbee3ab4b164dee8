import Verif.Control.Complete
import Verif.Clauses.SupComplete

/-!
# Proof of C62: nothing is lost in the loop
-/

namespace Verif.Sup
open Verif Term LitCmpProof Relation Props SubsProof Interp SemProof RewriteProof

variable {sg : Sig} {N : Nat} {gt : Term → Term → Prop} {Ns : List Lit → Prop} {pp : Term → Bool}

theorem _root_.Verif.ClOK.lit {C : List Lit} (h : ClOK sg N C) : ∀ L ∈ C, LitOK sg N L := fun L hL => ⟨(h L hL).1, (h L hL).2.1, (h L hL).2.2.1, (h L hL).2.2.2.1⟩

theorem _root_.Verif.ClOK.cwf {C : List Lit} (h : ClOK sg N C) : CWf sg N C := fun L hL => ⟨(h L hL).1, (h L hL).2.1⟩

theorem forall2_leq_refl (C : List Lit) : List.Forall₂ LEq C C := by
  induction C with
  | nil => exact .nil
  | cons L C ih => exact .cons (leq_refl _) ih

theorem removeDup_sublist (seen C : List Lit) : (removeDupAux seen C).Sublist C := by
  induction C generalizing seen with
  | nil => exact .slnil
  | cons L C ih =>
    rw [removeDupAux]
    split
    · exact .cons _ (ih _)
    · exact .cons_cons _ (ih _)

theorem red_of_valid (hsg : SigOK sg) {C : List Lit} (hC : sg.WTClause C) (h : Props.Valid.{0} sg C) : Red sg N gt Ns C :=
  red_of_taut hsg hC fun I _ v _ => h I v

open scoped Classical in
/-- The original of a renamed clause is redundant. -/
theorem red_of_variant (h : SupOrd sg N gt) (hsg : SigOK sg) (h1 : 1 < N) {ρ : Nat → Nat} {C : List Lit} (hC : CWf sg N C) (hN : Ns (renameClause ρ C))
    (hi : ∀ x ∈ cvars C, ∀ y ∈ cvars C, ρ x = ρ y → x = y) (ht : ∀ x ∈ cvars C, sg.vty (ρ x) = sg.vty x) : Red sg N gt Ns C := by
  let σ : Nat → Term := fun y => if hy : ∃ x ∈ cvars C, ρ x = y then .var hy.choose else .var y
  have hσ : ∀ x ∈ cvars C, σ (ρ x) = .var x := by
    intro x hx
    have hy : ∃ x' ∈ cvars C, ρ x' = ρ x := ⟨x, hx, rfl⟩
    show (if hy : ∃ x' ∈ cvars C, ρ x' = ρ x then Term.var hy.choose else .var (ρ x)) = _
    rw [dif_pos hy, hi _ hy.choose_spec.1 _ hx hy.choose_spec.2]
  have back : ∀ t : Term, (∀ x ∈ t.vars, x ∈ cvars C) → (t.subst fun x => .var (ρ x)).subst σ = t := by
    intro t hv
    rw [subst_comp]
    conv => rhs; rw [← subst_id t]
    exact subst_congr fun x hx => by rw [subst_var, hσ x (hv x hx)]
  refine red_of_maps h hsg h1 hN hC (σ := σ) ?_ ⟨List.range C.length, List.nodup_range, ?_⟩
  · intro y hy
    have : ∃ x ∈ cvars C, ρ x = y := by
      rw [mem_cvars] at hy
      obtain ⟨M, hM, hy⟩ := hy
      obtain ⟨L, hL, rfl⟩ := List.mem_map.1 hM
      simp only [List.mem_append] at hy
      rcases hy with hy | hy <;> obtain ⟨x, hx, hy⟩ := mem_vars_subst.1 hy <;> simp only [vars, List.mem_singleton] at hy
      · exact ⟨x, mem_cvars.2 ⟨L, hL, by simp [hx]⟩, hy.symm⟩
      · exact ⟨x, mem_cvars.2 ⟨L, hL, by simp [hx]⟩, hy.symm⟩
    obtain ⟨x, hx, rfl⟩ := this
    rw [hσ x hx]
    exact (ht x hx).symm
  · rw [List.forall₂_iff_get]
    refine ⟨by simp [renameClause], fun i h1 h2 => ?_⟩
    have hiC : i < C.length := by simpa using h2
    have hm : C[i] ∈ C := List.getElem_mem hiC
    refine ⟨C[i], by simp, ?_⟩
    simp only [renameClause, List.get_eq_getElem, List.getElem_map]
    refine ⟨rfl, Or.inl ⟨?_, ?_⟩⟩
    · exact back _ fun x hx => mem_cvars.2 ⟨_, hm, by simp [hx]⟩
    · exact back _ fun x hx => mem_cvars.2 ⟨_, hm, by simp [hx]⟩

/-- A changed clause makes the original redundant, together with the processed clauses. -/
theorem modify_red (h : SupOrd sg N gt) (hO : RedOrd (sigAr sg) N gt) (hs : CalcSig sg N pp) {s : LState} {C C' : List Lit} (hC : ClOK sg N C) (hC' : ClOK sg N C')
    (hp : ∀ E, s.Proc E → Ns E) (hN : Ns C') (hm : LModify sg N gt s C C') : Red sg N gt Ns C := by
  have hsg := hs.ok
  have h1 := hs.low
  have part : ∀ {E : List Lit}, Ns E → E.Subperm C → Red sg N gt Ns C := fun hE hsub => red_of_part h hsg h1 hE hC.cwf (forall2_leq_refl _) hsub
  cases hm with
  | @rewrite x D d st st' C C' n k lim lim' ds hx hok hD hsets hl hr htop he =>
    subst hx
    exact red_rewrite h hO hsg hs.fo h1 hok
      (fun d hd => ⟨(hD d hd).1, (hD d hd).2.1, (hD d hd).2.2.1, red_of_red (fun E hE => red_of_mem (hp E hE)) (hD d hd).2.2.2⟩) hsets hl hr hC.lit hC'.lit htop hN he
  | superfluous => exact part hN ((removeDup_sublist _ _).trans List.filter_sublist).subperm
  | acResolved _ hb had => exact part hN (ac_resolved_exact hb had fun L hL => (hC L hL).1).1.subperm
  | orient hf =>
    refine red_of_part h hsg h1 hN hC.cwf (X := C) ?_ (List.Subperm.refl _)
    refine (List.Forall₂.flip (R := fun K L => LEq K L) ?_)
    refine hf.imp fun L K hK => ?_
    rcases hK with rfl | rfl
    · exact leq_refl _
    · exact ⟨rfl, Or.inr ⟨rfl, rfl⟩⟩
  | sort hperm => exact part hN hperm.subperm
  | @condense pq n srt orient C D he =>
    have : clauseSubsumes sg pq D C = true := by
      unfold condenseOnce at he
      revert he
      generalize condPairs C = ps
      intro he
      induction ps with
      | nil => simp [condTry] at he
      | cons p ps ih =>
        obtain ⟨i, j, sw⟩ := p
        rw [condTry] at he
        split at he
        · cases he
        · rename_i D' ht
          simp only [Option.some.injEq] at he
          subst he
          unfold tryCondensation at ht
          split at ht
          · split at ht
            · cases ht
            · simp at ht
            · split at ht
              · cases ht
              · simp only [Option.some.injEq] at ht
                split at ht
                · simp only [Option.some.injEq] at ht
                  subst ht
                  assumption
                · cases ht
          · simp at ht
        · exact ih he
    exact red_of_subsumes h hsg hs.fo h1 hC'.lit hC.lit hN this
  | posSR => exact part hN (positiveSR_equiv.{0} fun L hL => (hC L hL).1).1.subperm
  | negSR => exact part hN (negativeSR_equiv.{0} fun L hL => (hC L hL).1).1.subperm
  | contextSR hsrt hn => exact part hN (subperm_map _ (contextSR_sound.{0} hsrt hn (fun L hL => (hC L hL).1) rfl).2.2.1)

theorem setSubsumes_ex {S : List (List OLit)} {C P : List OLit} (h : setSubsumes sg pp S C = some P) : P ∈ S ∧ clauseSubsumes sg pp P C = true := by
  unfold setSubsumes at h
  exact ⟨List.mem_of_find?_eq_some h, by simpa using List.find?_some h⟩

theorem drop_red (h : SupOrd sg N gt) (hs : CalcSig sg N pp) {s : LState} (hw : s.WF sg N) {C : List Lit} (hC : ClOK sg N C)
    (hp : ∀ E, s.Proc E → Ns E) (hm : LDrop sg s C) : Red sg N gt Ns C := by
  have hwt : sg.WTClause C := fun L hL => (hC L hL).1
  cases hm with
  | isTrivial h1 h2 h3 => exact red_of_valid hs.ok hwt (trivial_sound h1 h2 h3)
  | tautology h1 h2 h3 => exact red_of_valid hs.ok hwt (tautology_sound h1 h2 h3)
  | unitSubsumed hu he =>
    refine red_of_units h hs.ok hs.fo hs.low (fun w hw' => ?_) hC.lit he
    obtain ⟨p, hp', e⟩ := hu w hw'
    exact ⟨(hw.proc p hp').1.lit _ (by simp [e]), hp _ (Or.inl ⟨p, hp', e⟩)⟩
  | subsumed hS he =>
    obtain ⟨hP, hsub⟩ := setSubsumes_ex he
    obtain ⟨p, hp', e⟩ := hS _ hP
    exact red_of_subsumes h hs.ok hs.fo hs.low (e ▸ (hw.proc p hp').1.lit) hC.lit (hp _ (Or.inl ⟨p, hp', e⟩)) hsub

/-! ## The invariant -/

/-- The clauses that are processed or about to be, those not recorded as generated, and those generated from `o`. -/
def Av (s : LState) (o : Option (List Nat)) (D : List Lit) : Prop := s.Proc D ∨ ∃ c ∈ s.pool, c.lits = D ∧ (c.origin = none ∨ c.origin = o)

/-- The parents are processed. -/
def Alive (s : LState) (o : Option (List Nat)) : Prop := ∀ ps, o = some ps → ∀ i ∈ ps, ∃ p ∈ s.proc, p.id = i

/-- Nothing is lost from `s` to `s'`. -/
def Keeps (sg : Sig) (N : Nat) (gt : Term → Term → Prop) (s s' : LState) : Prop := ∀ o, Alive s' o → ∀ D, Av s o D → Red sg N gt (Av s' o) D

theorem eqResIn_mono {sel : Nat → Prop} {C : List Lit} {R R' : List Lit → Prop} (hR : ∀ D, R D → R' D) (h : EqResIn sg gt pp sel C R) :
    EqResIn sg gt pp sel C R' := fun i L hi hp he =>
  let ⟨b, hb, hr⟩ := h i L hi hp he
  ⟨b, hb, fun n b' D hrun => ⟨(hr n b' D hrun).1, hR D (hr n b' D hrun).2⟩⟩

theorem eqFactIn_mono {sel : Nat → Prop} {C : List Lit} {R R' : List Lit → Prop} (hR : ∀ D, R D → R' D) (h : EqFactIn sg gt pp sel C R) :
    EqFactIn sg gt pp sel C R' := fun i j L K c d hij hi hj hl hk he =>
  let ⟨g, b, hb, hg, hr⟩ := h i j L K c d hij hi hj hl hk he
  ⟨g, b, hb, hg, fun n b' D hrun => ⟨(hr n b' D hrun).1, hR D (hr n b' D hrun).2⟩⟩

theorem paraIn_mono {selF selT : Nat → Prop} {F T : List Lit} {R R' : List Lit → Prop} (hR : ∀ D, R D → R' D) (h : ParaIn sg gt pp selF selT F T R) :
    ParaIn sg gt pp selF selT F T R' :=
  let ⟨F', T', hc, h⟩ := h
  ⟨F', T', hc, fun i fs j ts pos LF LT sub h1 h2 h3 h4 h5 h6 =>
    let ⟨ty, g, b, hb, hg, hr⟩ := h i fs j ts pos LF LT sub h1 h2 h3 h4 h5 h6
    ⟨ty, g, b, hb, hg, fun n b' D hrun => ⟨(hr n b' D hrun).1, hR D (hr n b' D hrun).2⟩⟩⟩

/-- The invariant: no input clause is lost, and no result of an inference with processed clauses. -/
structure LInv (sg : Sig) (N : Nat) (gt : Term → Term → Prop) (pp : Term → Bool) (input : List (List Lit)) (s : LState) : Prop where
  inputs : ∀ C ∈ input, Red sg N gt (Av s none) C
  sel : ∀ p ∈ s.proc, ∀ i, p.sel i → ∃ L, p.lits[i]? = some L ∧ L.pos = false
  eqRes : ∀ p ∈ s.proc, EqResIn sg gt pp p.sel p.lits (Red sg N gt (Av s (some [p.id])))
  eqFact : ∀ p ∈ s.proc, EqFactIn sg gt pp p.sel p.lits (Red sg N gt (Av s (some [p.id])))
  para : ∀ p ∈ s.proc, ∀ q ∈ s.proc, ParaIn sg gt pp p.sel q.sel p.lits q.lits (Red sg N gt (Av s (some [p.id, q.id])))

theorem alive_none (s : LState) : Alive s none := fun _ h => by cases h

theorem alive_one {s : LState} {p : PCl} (hp : p ∈ s.proc) : Alive s (some [p.id]) := by
  intro ps h i hi
  simp only [Option.some.injEq] at h
  subst h
  rw [List.mem_singleton.1 hi]
  exact ⟨p, hp, rfl⟩

theorem alive_two {s : LState} {p q : PCl} (hp : p ∈ s.proc) (hq : q ∈ s.proc) : Alive s (some [p.id, q.id]) := by
  intro ps h i hi
  simp only [Option.some.injEq] at h
  subst h
  rcases List.mem_cons.1 hi with rfl | hi
  · exact ⟨p, hp, rfl⟩
  · rw [List.mem_singleton.1 hi]
    exact ⟨q, hq, rfl⟩

/-- A step that keeps everything and adds no processed clause keeps the invariant. -/
theorem inv_of_keeps {input : List (List Lit)} {s s' : LState} (hi : LInv sg N gt pp input s) (hk : Keeps sg N gt s s') (hsub : ∀ p ∈ s'.proc, p ∈ s.proc) :
    LInv sg N gt pp input s' where
  inputs C hC := red_of_red (hk none (alive_none _)) (hi.inputs C hC)
  sel p hp := hi.sel p (hsub p hp)
  eqRes p hp := eqResIn_mono (fun _ => red_of_red (hk _ (alive_one hp))) (hi.eqRes p (hsub p hp))
  eqFact p hp := eqFactIn_mono (fun _ => red_of_red (hk _ (alive_one hp))) (hi.eqFact p (hsub p hp))
  para p hp q hq := paraIn_mono (fun _ => red_of_red (hk _ (alive_two hp hq))) (hi.para p (hsub p hp) q (hsub q hq))

theorem step_inv (h : SupOrd sg N gt) (hO : RedOrd (sigAr sg) N gt) (hs : CalcSig sg N pp) {input : List (List Lit)} {s s' : LState} (hw : s.WF sg N) (hw' : s'.WF sg N)
    (hst : LStep sg N gt pp s s') (hi : s.complete = true → LInv sg N gt pp input s) (hc : s'.complete = true) : LInv sg N gt pp input s' := by
  cases hst with
  | @modify U V c C hp hm =>
    refine inv_of_keeps (hi hc) (fun o _ D hD => ?_) (fun p hp => hp)
    rcases hD with hD | ⟨e, he, rfl, ho⟩
    · exact red_of_mem (Or.inl hD)
    rw [hp] at he
    have : e = c ∨ e ∈ U ++ V := by simp only [List.mem_append, List.mem_cons] at he ⊢; tauto
    rcases this with rfl | he
    · refine modify_red (s := s) h hO hs (hw.pool e (by simp [hp])) (hw'.pool ⟨C, e.origin⟩ (by simp)) (fun E hE => Or.inl hE)
        (Or.inr ⟨⟨C, e.origin⟩, by simp, rfl, ho⟩) hm
    · refine red_of_mem (Or.inr ⟨e, ?_, rfl, ho⟩)
      simp only [List.mem_append, List.mem_cons] at he ⊢; tauto
  | @drop U V c hp hm =>
    refine inv_of_keeps (hi hc) (fun o _ D hD => ?_) (fun p hp => hp)
    rcases hD with hD | ⟨e, he, rfl, ho⟩
    · exact red_of_mem (Or.inl hD)
    rw [hp] at he
    have : e = c ∨ e ∈ U ++ V := by simp only [List.mem_append, List.mem_cons] at he ⊢; tauto
    rcases this with rfl | he
    · exact drop_red (s := s) h hs hw (hw.pool e (by simp [hp])) (fun E hE => Or.inl hE) hm
    · exact red_of_mem (Or.inr ⟨e, he, rfl, ho⟩)
  | @archive U V c hp =>
    refine inv_of_keeps (hi hc) (fun o _ D hD => red_of_mem ?_) (fun p hp => hp)
    rcases hD with hD | ⟨e, he, rfl, ho⟩
    · exact Or.inl hD
    rw [hp] at he
    have : e = c ∨ e ∈ U ++ V := by simp only [List.mem_append, List.mem_cons] at he ⊢; tauto
    rcases this with rfl | he
    · exact Or.inr ⟨⟨e.lits, none⟩, by simp, rfl, Or.inl rfl⟩
    · refine Or.inr ⟨e, ?_, rfl, ho⟩
      simp only [List.mem_append, List.mem_cons] at he ⊢; tauto
  | @orphan U V c ps i hp hor hmem hdead =>
    refine inv_of_keeps (hi hc) (fun o ha D hD => red_of_mem ?_) (fun p hp => hp)
    rcases hD with hD | ⟨e, he, rfl, ho⟩
    · exact Or.inl hD
    rw [hp] at he
    have : e = c ∨ e ∈ U ++ V := by simp only [List.mem_append, List.mem_cons] at he ⊢; tauto
    rcases this with rfl | he
    · exfalso
      rcases ho with ho | ho
      · rw [hor] at ho; cases ho
      · obtain ⟨p, hp', e'⟩ := ha ps (by rw [← ho, hor]) i hmem
        exact hdead p hp' e'
    · exact Or.inr ⟨e, he, rfl, ho⟩
  | @accept U V c ha hp =>
    refine inv_of_keeps (hi hc) (fun o _ D hD => red_of_mem ?_) (fun p hp => hp)
    rcases hD with (hD | hD) | ⟨e, he, rfl, ho⟩
    · exact Or.inl (Or.inl hD)
    · rw [ha] at hD; cases hD
    rw [hp] at he
    have : e = c ∨ e ∈ U ++ V := by simp only [List.mem_append, List.mem_cons] at he ⊢; tauto
    rcases this with rfl | he
    · exact Or.inl (Or.inr rfl)
    · exact Or.inr ⟨e, he, rfl, ho⟩
  | @backMove P Q p hp =>
    refine inv_of_keeps (hi hc) (fun o _ D hD => red_of_mem ?_) (fun q hq => ?_)
    · rcases hD with (⟨q, hq, rfl⟩ | hD) | ⟨e, he, rfl, ho⟩
      · rw [hp] at hq
        have : q = p ∨ q ∈ P ++ Q := by simp only [List.mem_append, List.mem_cons] at hq ⊢; tauto
        rcases this with rfl | hq
        · exact Or.inr ⟨⟨q.lits, none⟩, by simp, rfl, Or.inl rfl⟩
        · exact Or.inl (Or.inl ⟨q, hq, rfl⟩)
      · exact Or.inl (Or.inr hD)
      · exact Or.inr ⟨e, by simp [he], rfl, ho⟩
    · rw [hp]
      simp only [List.mem_append, List.mem_cons] at hq ⊢; tauto
  | @backSubsumed P Q p pq C D ha hp he hsub =>
    refine inv_of_keeps (hi hc) (fun o _ D' hD => ?_) (fun q hq => ?_)
    · rcases hD with (⟨q, hq, rfl⟩ | hD) | ⟨e, he', rfl, ho⟩
      · rw [hp] at hq
        have : q = p ∨ q ∈ P ++ Q := by simp only [List.mem_append, List.mem_cons] at hq ⊢; tauto
        rcases this with rfl | hq
        · rw [he]
          exact red_of_subsumes h hs.ok hs.fo hs.low (hw.active _ ha).lit (he ▸ (hw.proc q (by simp [hp])).1.lit) (Or.inl (Or.inr ha)) hsub
        · exact red_of_mem (Or.inl (Or.inl ⟨q, hq, rfl⟩))
      · exact red_of_mem (Or.inl (Or.inr hD))
      · exact red_of_mem (Or.inr ⟨e, he', rfl, ho⟩)
    · rw [hp]
      simp only [List.mem_append, List.mem_cons] at hq ⊢; tauto
  | @activate n b b' C C' sel Ds ha hb hag he hsel hg =>
    have hi := hi hc
    obtain ⟨hinv, ρ, rfl, hinj, hty⟩ := normalize_variant sg n b b' C C' hb (fun L hL => (hw.active C ha L hL).2.2) he
    have hk : ∀ o, ∀ D, Av s o D → Red sg N gt (Av { s with proc := s.proc ++ [⟨s.next, renameClause ρ C, sel⟩], active := none, pool := s.pool ++ Ds, next := s.next + 1 } o) D := by
      intro o D hD
      rcases hD with (⟨q, hq, rfl⟩ | hD) | ⟨e, he', rfl, ho⟩
      · exact red_of_mem (Or.inl (Or.inl ⟨q, by simp [hq], rfl⟩))
      · rw [ha] at hD
        cases hD
        exact red_of_variant h hs.ok hs.low (hw.active _ ha).cwf (Or.inl (Or.inl ⟨⟨s.next, renameClause ρ C, sel⟩, by simp, rfl⟩)) hinj
          fun x hx => hag _ _ (hty x hx)
      · exact red_of_mem (Or.inr ⟨e, by simp [he'], rfl, ho⟩)
    have new : ∀ ps D, (⟨D, some ps⟩ : OCl) ∈ Ds → Red sg N gt (Av { s with proc := s.proc ++ [⟨s.next, renameClause ρ C, sel⟩], active := none, pool := s.pool ++ Ds, next := s.next + 1 } (some ps)) D :=
      fun ps D hD => red_of_mem (Or.inr ⟨⟨D, some ps⟩, by simp [hD], rfl, Or.inr rfl⟩)
    refine ⟨fun E hE => red_of_red (hk none) (hi.inputs E hE), fun p hp => ?_, fun p hp => ?_, fun p hp => ?_, fun p hp q hq => ?_⟩
    · rcases List.mem_append.1 hp with hp | hp
      · exact hi.sel p hp
      · rw [List.mem_singleton.1 hp]; exact hsel
    · rcases List.mem_append.1 hp with hp | hp
      · exact eqResIn_mono (fun _ => red_of_red (hk _)) (hi.eqRes p hp)
      · rw [List.mem_singleton.1 hp]; exact eqResIn_mono (new _) hg.eqRes
    · rcases List.mem_append.1 hp with hp | hp
      · exact eqFactIn_mono (fun _ => red_of_red (hk _)) (hi.eqFact p hp)
      · rw [List.mem_singleton.1 hp]; exact eqFactIn_mono (new _) hg.eqFact
    · rcases List.mem_append.1 hp with hp' | hp'
      · rcases List.mem_append.1 hq with hq' | hq'
        · exact paraIn_mono (fun _ => red_of_red (hk _)) (hi.para p hp' q hq')
        · rw [List.mem_singleton.1 hq']; exact paraIn_mono (new _) (hg.parInto p hp)
      · rw [List.mem_singleton.1 hp']; exact paraIn_mono (new _) (hg.parFrom q hq)
  | extra c =>
    refine inv_of_keeps (hi hc) (fun o _ D hD => red_of_mem ?_) (fun p hp => hp)
    rcases hD with hD | ⟨e, he, rfl, ho⟩
    · exact Or.inl hD
    · exact Or.inr ⟨e, by simp [he], rfl, ho⟩
  | deleteBad => cases hc
  | reset ha =>
    refine inv_of_keeps (hi hc) (fun o _ D hD => red_of_mem ?_) (fun p hp => by simp at hp)
    rcases hD with (⟨q, hq, rfl⟩ | hD) | ⟨e, he, rfl, ho⟩
    · exact Or.inr ⟨⟨q.lits, none⟩, List.mem_append_right _ (List.mem_map.2 ⟨q, hq, rfl⟩), rfl, Or.inl rfl⟩
    · rw [ha] at hD; cases hD
    · exact Or.inr ⟨e, by simp [he], rfl, ho⟩

theorem reach_wf {input : List (List Lit)} {s : LState} (hr : LReach sg N gt pp input s) : s.WF sg N := by
  cases hr with
  | init h => exact h
  | step _ _ h => exact h

theorem reach_linv (h : SupOrd sg N gt) (hO : RedOrd (sigAr sg) N gt) (hs : CalcSig sg N pp) {input : List (List Lit)} {s : LState} (hr : LReach sg N gt pp input s)
    (hc : s.complete = true) : LInv sg N gt pp input s := by
  induction hr with
  | init hw =>
    refine ⟨fun C hC => red_of_mem (Or.inr ⟨⟨C, none⟩, ?_, rfl, Or.inl rfl⟩), ?_, ?_, ?_, ?_⟩
    · exact List.mem_map.2 ⟨C, hC, rfl⟩
    all_goals simp [LState.init]
  | step hr hst hw' ih => exact step_inv h hO hs (reach_wf hr) hw' hst ih hc

open scoped Classical in
/-- The selection made for a clause, if it is processed. -/
noncomputable def selOf (s : LState) (C : List Lit) : Nat → Prop := if hp : ∃ p ∈ s.proc, p.lits = C then hp.choose.sel else fun _ => False

theorem selOf_spec {s : LState} {p : PCl} (hp : p ∈ s.proc) : ∃ q ∈ s.proc, q.lits = p.lits ∧ selOf s p.lits = q.sel := by
  have : ∃ q ∈ s.proc, q.lits = p.lits := ⟨p, hp, rfl⟩
  exact ⟨this.choose, this.choose_spec.1, this.choose_spec.2, by unfold selOf; rw [dif_pos this]⟩

end Verif.Sup
