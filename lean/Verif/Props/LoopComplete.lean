import Verif.Control.CompleteProof
import Verif.Props.Complete

/-!
# C62: when the loop ends without a proof, the input is satisfiable

`LReach sg N gt pp input s`: the loop, started with the clauses `input`, can be in state `s` (`Verif.Control.Complete`).  `s.Done`: no clause is
left to process and no clause was given up.
-/

namespace Verif.Props
open Verif Term Sup RewriteProof Interp SemProof

variable {sg : Sig} {N : Nat} {gt : Term → Term → Prop} {pp : Term → Bool}

/-! ## The orderings of the prover also fit the rewriting model -/

/-- KBO as the prover computes it is a reduction ordering on well-typed terms. -/
theorem kbo_redOrd {O : KOcb} (hO : TotalCmp O.cmp) (hA : (O.par (sigAr sg)).Admissible) : RedOrd (sigAr sg) N (KGt O) := by
  have hk := redOrd_kbo (P := O.par (sigAr sg)) hO.tot.toStrictPrec hA N
  have iff : ∀ {s t : Term}, s.HasAr (sigAr sg) → t.HasAr (sigAr sg) → (KGt O s t ↔ KBO (O.par (sigAr sg)) s t) := fun hs ht => kgt_iff hO hA hs ht
  refine ⟨fun hs ht hu => kgt_trans hO hA hs ht hu, fun hs ht hσ => kgt_subst hO hA hs ht hσ, ?_, fun hs ht => kgt_arg hO hA hs ht, ?_, ?_⟩
  · intro f pre post s t hs ht h
    exact kgt_mono hO hA hs ht h
  · intro y u hu h
    exact hk.noVar hu ((iff (by simp [HasAr]) hu).1 h)
  · refine Subrelation.wf ?_ hk.wf
    rintro b a ⟨ha, hb, hg⟩
    exact ⟨ha, hb, (iff ha.1 hb.1).1 hg⟩

/-- LPO is a reduction ordering. -/
theorem lpo_redOrd {prec : Nat → Nat → Prop} (hP : StrictPrec prec) : RedOrd (sigAr sg) N (LPO prec) where
  trans _ _ _ h1 h2 := LpoOrder.LPO.trans hP h1 h2
  subst _ _ _ h := LpoOrder.lpo_subst _ h
  mono _ _ h := LpoOrder.lpo_mono h _ _ _
  arg _ h := .sub h
  noVar _ := LpoOrder.lpo_var_left
  wf := by
    refine Subrelation.wf ?_ (LpoOrder.lpo_wf_finite hP N)
    rintro b a ⟨ha, hb, hg⟩
    exact ⟨hb.2, ha.2, hg⟩

/-! ## Completeness of the loop -/

theorem reach_input {input : List (List Lit)} {s : LState} (hr : LReach sg N gt pp input s) : ∀ C ∈ input, ClOK sg N C := by
  induction hr with
  | init h => exact fun C hC => h.pool ⟨C, none⟩ (List.mem_map.2 ⟨C, hC, rfl⟩)
  | step _ _ _ ih => exact ih

/-- **C62, partial.** If the loop ends without having processed the empty clause, the input clauses have a model.  Missing: as in C61, processed
clauses with a positive literal, not the only one, that has a variable occurring nowhere else; and steps of the loop left out of
`LStep` (destructive equality resolution, AC redundancy, rewriting a whole side of a positive literal with an equation greater than the
clause, demodulators remembered in term cells although they no longer follow from the processed clauses). -/
theorem loop_complete_partial (h : SupOrd sg N gt) (hO : RedOrd (sigAr sg) N gt) (hs : CalcSig sg N pp) {input : List (List Lit)} {s : LState}
    (hr : LReach sg N gt pp input s) (hd : s.Done) (hcov : ∀ p ∈ s.proc, Covered p.lits) (hne : ∀ p ∈ s.proc, p.lits ≠ []) :
    ∃ I : Interp.{0} sg, ∀ C ∈ input, I.Models C := by
  have hi := reach_linv h hO hs hr hd.complete
  have hw := reach_wf hr
  have hav : ∀ o E, Av s o E → ∃ p ∈ s.proc, p.lits = E := by
    rintro o E ((hp | ha) | ⟨c, hc, -⟩)
    · exact hp
    · rw [hd.active] at ha; cases ha
    · rw [hd.pool] at hc; simp at hc
  have hred : ∀ o D, Red sg N gt (Av s o) D → Red sg N gt (fun C => ∃ p ∈ s.proc, p.lits = C) D := fun o D => red_of_red fun E hE => red_of_mem (hav o E hE)
  obtain ⟨I, hI, hgen⟩ := model_exists (Ns := fun C => ∃ p ∈ s.proc, p.lits = C) (sel := selOf s) (pp := pp) h hs.ok hs.fo hs.dist hs.low hs.alt hs.pred
    (by rintro C ⟨p, hp, rfl⟩; exact (hw.proc p hp).2.1)
    (by rintro C ⟨p, hp, rfl⟩ L hL; exact ((hw.proc p hp).1 L hL).2.1)
    (by rintro C ⟨p, hp, rfl⟩; exact (hw.proc p hp).2.2)
    (by rintro ⟨p, hp, he⟩; exact hne p hp he)
    (by
      rintro C ⟨p, hp, rfl⟩ i hsel
      obtain ⟨q, hq, e, e'⟩ := selOf_spec hp
      rw [e'] at hsel
      rw [← e]
      exact hi.sel q hq i hsel)
    (by
      rintro C ⟨p, hp, rfl⟩
      obtain ⟨q, hq, e, e'⟩ := selOf_spec hp
      rw [e', ← e]
      exact eqResIn_mono (hred _) (hi.eqRes q hq))
    (by
      rintro F T ⟨p, hp, rfl⟩ ⟨p', hp', rfl⟩
      obtain ⟨q, hq, e, e'⟩ := selOf_spec hp
      obtain ⟨r, hr, d, d'⟩ := selOf_spec hp'
      rw [e', ← e, d', ← d]
      exact paraIn_mono (hred _) (hi.para q hq r hr))
    (by
      rintro C ⟨p, hp, rfl⟩
      obtain ⟨q, hq, e, e'⟩ := selOf_spec hp
      rw [e', ← e]
      exact eqFactIn_mono (hred _) (hi.eqFact q hq))
    (by rintro C i j L K ⟨p, hp, rfl⟩; exact hcov p hp i j L K) hs.inhab
  refine ⟨I, fun C hC v hv => ?_⟩
  obtain ⟨ρ, hρ, hlit⟩ := hgen v hv
  have hwt : sg.WTClause C := fun L hL => (reach_input hr C hC L hL).1
  have ht : I.ClauseTrue v (gInst ρ C) := hred _ C (hi.inputs C hC) ρ hρ I v hv fun E θ hE hθ _ => by
    obtain ⟨p, hp, rfl⟩ := hE
    rw [gInst_true hs.ok hv hθ fun L hL => ((hw.proc p hp).1 L hL).1]
    exact models_subst (hI _ ⟨p, hp, rfl⟩) (fun x => ⟨(hθ x).2, (hθ x).1.wt⟩) v hv
  rw [gInst_true hs.ok hv hρ hwt] at ht
  obtain ⟨M, hM, ht⟩ := ht
  obtain ⟨L, hL, rfl⟩ := List.mem_map.1 hM
  exact ⟨L, hL, hlit L ht⟩

/-- **C62, partial** (missing: the steps left out of `LStep`).  If only Horn clauses are processed, no condition on variables is needed. -/
theorem loop_complete_horn_partial (h : SupOrd sg N gt) (hO : RedOrd (sigAr sg) N gt) (hs : CalcSig sg N pp) {input : List (List Lit)} {s : LState}
    (hr : LReach sg N gt pp input s) (hd : s.Done) (hh : ∀ p ∈ s.proc, IsHorn p.lits) (hne : ∀ p ∈ s.proc, p.lits ≠ []) :
    ∃ I : Interp.{0} sg, ∀ C ∈ input, I.Models C :=
  loop_complete_partial h hO hs hr hd (fun p hp => (hh p hp).covered) hne

/-- **C62, partial** (as above).  From an unsatisfiable set of clauses the loop does not end without the empty clause. -/
theorem loop_refutes_partial (h : SupOrd sg N gt) (hO : RedOrd (sigAr sg) N gt) (hs : CalcSig sg N pp) {input : List (List Lit)} {s : LState}
    (hr : LReach sg N gt pp input s) (hu : ∀ I : Interp.{0} sg, ∃ C ∈ input, ¬ I.Models C) (hd : s.Done) (hcov : ∀ p ∈ s.proc, Covered p.lits) :
    ∃ p ∈ s.proc, p.lits = [] := by
  by_contra hne
  push Not at hne
  obtain ⟨I, hI⟩ := loop_complete_partial h hO hs hr hd hcov hne
  obtain ⟨C, hC, hn⟩ := hu I
  exact hn (hI C hC)

/-- **C62.** No step loses anything: in every state that is complete, the input clauses follow from the clauses of the state that no orphan test can
delete, by instances that are not greater. -/
theorem loop_keeps_input (h : SupOrd sg N gt) (hO : RedOrd (sigAr sg) N gt) (hs : CalcSig sg N pp) {input : List (List Lit)} {s : LState}
    (hr : LReach sg N gt pp input s) (hc : s.complete = true) : ∀ C ∈ input,
      Red sg N gt (fun D => (∃ p ∈ s.proc, p.lits = D) ∨ s.active = some D ∨ ⟨D, none⟩ ∈ s.pool) C := by
  intro C hC
  refine red_of_red (fun E hE => red_of_mem ?_) ((reach_linv h hO hs hr hc).inputs C hC)
  rcases hE with (hE | hE) | ⟨c, hc, rfl, ho⟩
  · exact Or.inl hE
  · exact Or.inr (Or.inl hE)
  · refine Or.inr (Or.inr ?_)
    obtain ⟨l, o⟩ := c
    simp only [or_self] at ho
    rw [ho] at hc
    exact hc

/-! ## Example: a run with the clauses of `CompEx` and `¬p(a) ∨ ¬p(a)`, which is simplified and then subsumed -/

namespace CompEx

def cDouble : List Lit := cGoal ++ cGoal
def pStep : PCl := ⟨0, cStep, fun i => i = 0⟩
def pGoal : PCl := ⟨1, cGoal, fun _ => False⟩

theorem cRed : RedOrd (sigAr cSig) 13 (LPO cPrec) := by
  refine lpo_redOrd ⟨fun f => ?_, fun f g h => ?_⟩
  all_goals (unfold cPrec; omega)

theorem cBank (b : VarBank) (h : ∀ ty, ty ≠ 0 → b.vstk ty = []) : BankAgrees cSig b := by
  intro ty c hc
  by_contra hne
  rw [h ty (fun e => hne e.symm)] at hc
  simp at hc

theorem cNormStep : ∃ b', clauseNormalizeVars cSig 9 .init cStep = some (b', cStep) ∧ BankAgrees cSig b' := by
  refine ⟨_, rfl, cBank _ fun ty hty => ?_⟩
  simp [hty, VarBank.reset, VarBank.init, normVar, VarBank.getFresh, cSig, List.lookup]

theorem cNormGoal : ∃ b', clauseNormalizeVars cSig 9 .init cGoal = some (b', cGoal) ∧ BankAgrees cSig b' := by
  refine ⟨_, rfl, cBank _ fun ty hty => ?_⟩
  simp [VarBank.reset, VarBank.init]

theorem cGen {p : PCl} {ps : List PCl} (hp : p = pStep ∨ p = pGoal) (hps : ∀ q ∈ ps, q = pStep ∨ q = pGoal) :
    Generated cSig (LPO cPrec) (fun _ => false) p ps [] := by
  have par : ∀ {p q : PCl} {R : List Lit → Prop}, p = pStep ∨ p = pGoal → ParaIn cSig (LPO cPrec) (fun _ => false) p.sel q.sel p.lits q.lits R := by
    intro p q R hp
    refine ⟨_, _, Or.inr ⟨rfl, rfl⟩, fun i fs j ts pos LF LT sub hi hl hj _ _ _ => ⟨.plain, fun _ => false, .init, VarBank.inv_init, ?_, ?_⟩⟩
    · rintro st σ - ht
      rcases hp with rfl | rfl
      · exact absurd rfl (ht.fromMax.1 0)
      · rcases i with _ | i <;> simp [pGoal, cGoal] at hi
        subst hi; simp at hl
    · intro n b' D h
      exfalso
      revert h
      simp only [paramod]
      repeat' split
      all_goals simp_all
  have hc : cSet p.lits := by rcases hp with rfl | rfl; exacts [Or.inl rfl, Or.inr rfl]
  refine ⟨fun i L hi hl _ => ⟨.init, VarBank.inv_init, fun n b' D h => ?_⟩, fun i j L K c d hij hi hj hl hk => absurd (cHorn _ hc i j L K hi hj hl hk) hij,
    fun q _ => par hp, fun q hq => par (hps q hq)⟩
  exfalso
  simp only [computeEqRes, hi] at h
  have : ∃ ts, L = ⟨false, .app 12 ts, tTrue⟩ := by
    rcases hp with rfl | rfl <;> rcases i with _ | _ | i <;> simp [pStep, pGoal, cStep, cGoal] at hi <;> subst hi <;> simp at hl ⊢
  obtain ⟨ts, rfl⟩ := this
  split at h
  · simp at h
  · simp at h
  · rename_i st hu
    exact cNoUnif _ _ _ hu

theorem cOK {C : List Lit} (h : cSet C ∨ C = cDouble) : ClOK cSig 13 C := by
  have key : ∀ {C}, cSet C → ClOK cSig 13 C := fun h L hL => ⟨(cFO.fo _ h L hL).wt, cFO.below _ h L hL, (cFO.fo _ h L hL).nf⟩
  rcases h with h | rfl
  · exact key h
  · intro L hL
    rcases List.mem_append.1 hL with hL | hL <;> exact key (Or.inr rfl) L hL

theorem cWF {s : LState} (h1 : ∀ p ∈ s.proc, cSet p.lits) (h2 : ∀ C, s.active = some C → cSet C ∨ C = cDouble) (h3 : ∀ c ∈ s.pool, cSet c.lits ∨ c.lits = cDouble) :
    s.WF cSig 13 :=
  ⟨fun p hp => ⟨cOK (Or.inl (h1 p hp)), cFO.fo _ (h1 p hp), cFO.even _ (h1 p hp)⟩, fun C hC => cOK (h2 C hC), fun c hc => cOK (h3 c hc)⟩

theorem cRun : LReach cSig 13 (LPO cPrec) (fun _ => false) [cStep, cGoal, cDouble] ⟨[pStep, pGoal], none, [], 2, true⟩ := by
  have hS : cSet cStep := Or.inl rfl
  have hG : cSet cGoal := Or.inr rfl
  obtain ⟨b1, e1, a1⟩ := cNormStep
  obtain ⟨b2, e2, a2⟩ := cNormGoal
  have r0 : LReach cSig 13 (LPO cPrec) (fun _ => false) [cStep, cGoal, cDouble] ⟨[], none, [⟨cStep, none⟩, ⟨cGoal, none⟩, ⟨cDouble, none⟩], 0, true⟩ :=
    .init (cWF (by simp [LState.init]) (by simp [LState.init]) (by simp [LState.init, hS, hG]))
  have r1 := r0.step (.accept (U := []) rfl rfl) (cWF (by simp) (by simp [hS]) (by simp [hG]))
  have r2 := r1.step (.activate (sel := fun i => i = 0) (Ds := []) rfl VarBank.inv_init a1 e1 (by rintro i rfl; exact ⟨_, rfl, rfl⟩)
    (cGen (Or.inl rfl) (by simp [pStep]))) (cWF (by simp [hS]) (by simp) (by simp [hG]))
  have r3 := r2.step (.accept (U := []) rfl rfl) (cWF (by simp [hS]) (by simp [hG]) (by simp))
  have r4 := r3.step (.activate (sel := fun _ => False) (Ds := []) rfl VarBank.inv_init a2 e2 (by simp)
    (cGen (Or.inr rfl) (by simp [pStep, pGoal]))) (cWF (by simp [hS, hG]) (by simp) (by simp))
  have r5 := r4.step (.modify (U := []) (V := []) (c := ⟨cDouble, none⟩) (C := cGoal) rfl (by
      have := LModify.superfluous (sg := cSig) (N := 13) (gt := LPO cPrec) (s := ⟨[pStep, pGoal], none, [⟨cDouble, none⟩], 2, true⟩) cDouble
      rwa [show removeDup (removeResolved cSig cDouble) = cGoal by decide] at this))
    (cWF (by simp [hS, hG]) (by simp) (by simp [hG]))
  exact r5.step (.drop (U := []) (V := []) (c := ⟨cGoal, none⟩) rfl
    (.subsumed (pp := fun _ => false) (S := [[⟨⟨false, .app 12 [.app 10 []], tTrue⟩, true⟩]]) (C := [⟨⟨false, .app 12 [.app 10 []], tTrue⟩, true⟩])
      (P := [⟨⟨false, .app 12 [.app 10 []], tTrue⟩, true⟩]) (by simp [pStep, pGoal, cGoal, cStep, OLit.plain]) (by decide +kernel)))
    (cWF (by simp [pStep, pGoal, hS, hG]) (by simp) (by simp))

example : ∃ I : Interp.{0} cSig, ∀ C ∈ [cStep, cGoal, cDouble], I.Models C :=
  loop_complete_horn_partial cOrd cRed cCalc cRun ⟨rfl, rfl, rfl⟩ (by
    intro p hp
    simp only [List.mem_cons, List.not_mem_nil, or_false] at hp
    rcases hp with rfl | rfl
    · exact cHorn _ (Or.inl rfl)
    · exact cHorn _ (Or.inr rfl)) (by
    intro p hp
    simp only [List.mem_cons, List.not_mem_nil, or_false] at hp
    rcases hp with rfl | rfl <;> simp [pStep, pGoal, cStep, cGoal])

/-! A rewriting step: with `f(x) = x` processed, `¬p(f(a))` becomes `¬p(a)`. -/

def cX : RWCtx := ⟨cSig, fun _ => false, false, fun _ => .app 10 [], fun _ _ => false⟩
def cDem : Demod := ⟨1, .app 11 [.var 2], .var 2, true, 1⟩
def cSets : List DSet := [.scan [cDem] 1, .scan [] 0]

theorem cSets_ok : SetsOK cX cSets := by
  refine ⟨by simp [cSets], ?_, ?_, ?_⟩
  · intro s hs
    simp only [cSets, List.mem_cons, List.not_mem_nil, or_false] at hs
    rcases hs with rfl | rfl <;> exact scan_ok (by simp [cDem])
  · intro s hs d hd
    simp [cSets] at hs; subst hs
    simp [DSet.scan] at hd; subst hd; rfl
  · intro i s hs d hd
    cases i with
    | zero =>
      simp [cSets] at hs; subst hs
      simp [DSet.scan] at hd
    | succ i => simp [cSets] at hs

theorem cReach : RWReach cX 13 (fun d => d = cDem) cSets RWSt.fresh := by
  have h0 : RWReach cX 13 (fun d => d = cDem) [.scan [] 0, .scan [] 0] RWSt.fresh := .init (by simp [DSet.scan])
  exact h0.add (d := cDem) (Cs := []) (out := []) rfl (by simp [maxDate, DSet.scan, cDem]) (by simp) (by simp) rfl
    (by simp [DSet.scan, cSets]) (by simp [maxDate, DSet.scan, cDem, cSets])

example : LModify cSig 13 (LPO cPrec) ⟨[⟨0, cDem.clause, fun _ => False⟩], none, [⟨[⟨false, .app 12 [.app 11 [.app 10 []]], tTrue⟩], none⟩], 1, true⟩
    [⟨false, .app 12 [.app 11 [.app 10 []]], tTrue⟩] cGoal := by
  have h : (clauseNF cX ⟨cSets, 1⟩ 20 20 RWSt.fresh false [⟨⟨false, .app 12 [.app 11 [.app 10 []]], tTrue⟩, true, true⟩]).map (fun r => r.1.map RLit.lit) =
      some cGoal := by decide +kernel
  obtain ⟨⟨C', lim', st', ds⟩, h1, h2⟩ := Option.map_eq_some_iff.1 h
  simp only at h2
  rw [← h2]
  refine LModify.rewrite (x := cX) (D := fun d => d = cDem) rfl ⟨by simp [cX], by simp [cX]⟩ ?_ cSets_ok (.inl rfl) cReach ?_ h1
  · rintro d rfl
    refine ⟨⟨?_, ?_, rfl, fun _ => .sub (by simp [cDem])⟩, by decide, by decide, red_of_mem (Or.inl ⟨⟨0, cDem.clause, fun _ => False⟩, by simp, rfl⟩)⟩
    · simp [InSig, cDem, cX, cSig, Sig.WT, Sig.WTL, Sig.ty, SymsBelow, SymsBelowL]
    · simp [InSig, cDem, cX, Sig.WT, SymsBelow]
  · intro L hL hp
    simp at hL
    rw [hL] at hp
    simp at hp

end CompEx
end Verif.Props
