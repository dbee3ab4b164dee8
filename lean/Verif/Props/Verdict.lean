import Verif.Props.Preproc
import Verif.Props.Status
import Verif.Props.LoopComplete

/-!
# C69: the verdict of the prover is true of the problem

The parts of a run are put together: clausification of the problem (C55), preprocessing of the clauses (C56), saturation (C36, C62), and the
report (C38).
-/

namespace Verif.Props
open Verif PreprocProof CNFProof SaturateProof Sup RewriteProof Term

universe u

/-- The work of `main` before saturation (PROVER/eprover.c:655-830): the formulas `ws` are turned into clauses, and these into the clauses
`out` that saturation starts from.  `sg` is the signature at the end (new symbols are declared in it), the bank and the codes are those at
the beginning and at the end of the transformation. -/
structure Prepared (sg : Sig) (q : CnfParams) (p : PreParams) (ws : List PForm) (out : List (List Lit)) where
  bank : VarBank
  bank' : VarBank
  depth : Nat
  code : Nat
  code' : Nat
  clauses : List (List Lit)
  skolem : List SkDecl
  last : Nat
  symbols : List SymDecl
  dropped : List Nat
  sigOK : SigOK sg
  dist : ∀ s, sg.distinct s → sg.fargs s = []
  alt : AltTyped sg
  inv : bank.Inv
  agrees : BankAgrees sg bank'
  answer : AnswerDecl sg q.ac q.ind code
  forms : ∀ w ∈ ws, PForm.OK sg bank.fresh code w
  skDecl : Declared sg skolem
  symDecl : SymsDeclared sg symbols
  cnf : problemCNF sg q depth ws bank code = some (clauses, bank', code', skolem)
  preOK : p.OK sg
  pre : clausalPreproc sg p clauses code' = (out, last, symbols, dropped)

/-- No answers are asked for: no clause gets an answer literal. -/
def NoAnswers (q : CnfParams) (ws : List PForm) : Prop := q.addAnswers = false ∨ (q.conjQuestions = false ∧ ∀ w ∈ ws, w.ftype ≠ 6)

variable {sg : Sig} {q : CnfParams} {p : PreParams} {ws : List PForm} {out : List (List Lit)} {md : Bool} {o : MainOpts} {f : MainFacts} {s fin : SatState} {z : Szs}

/-- **C69, refutations, no answers**: if the prover reports `Theorem`, `Unsatisfiable` or `ContradictoryAxioms`, then the axioms imply one of the
goals. -/
theorem verdict_refuted (R : Prepared sg q p ws out) (hq : NoAnswers q ws) (hr : SReach sg md out fin) (hans : f.answers = [])
    (hz : z ∈ (mainReport o f s fin).1) (h : Szs.refuted z) : GoalFollows.{u} sg ws := by
  obtain ⟨w1, -, w2, -, -⟩ := problem_wellformed R.sigOK R.cnf R.inv R.agrees R.answer R.forms R.skDecl
  have h1 := R.answer.low
  have h2 := R.answer.high
  have hwt := fun C hC => ((preproc_wellformed R.sigOK R.dist (by omega) R.preOK w1 R.pre R.symDecl).1 C hC).1
  have hno := status_refuted_sound.{u} R.sigOK R.alt hwt hr hans hz h
  rw [preproc_satisfiable.{u} R.sigOK R.dist (by omega) R.preOK w1 R.pre R.symDecl] at hno
  exact (problem_plain R.sigOK R.cnf R.inv R.agrees R.answer R.forms R.skDecl hq).2 hno

/-- **C69, refutations with answers**: the same if answers are asked for, and answers found are clauses of positive answer literals. -/
theorem verdict_answered (R : Prepared sg q p ws out) (hav : ∀ w ∈ ws, w.form.Avoids q.ac) (hps : p.pseudo q.ac = true) (hr : SReach sg md out fin)
    (hans : f.answers ≠ [] → ∃ C ∈ fin.all, OnlyAnswers q.ac C) (hz : z ∈ (mainReport o f s fin).1) (h : Szs.refuted z) : GoalFollows.{u} sg ws :=
  preproc_proof R.sigOK R.dist R.cnf R.inv R.agrees R.answer R.forms R.skDecl hav R.preOK hps R.pre R.symDecl R.alt hr
    ((status_refuted hz h).imp_right hans)

/-- **C69, `Theorem` for a problem with one conjecture**: it is a logical consequence of the axioms. -/
theorem verdict_theorem (R : Prepared sg q p ws out) (hq : NoAnswers q ws) (hr : SReach sg md out fin) (hans : f.answers = [])
    (hz : .thm ∈ (mainReport o f s fin).1) {g : PForm} (hg : ∀ w ∈ ws, w.IsGoal → w = g) (I : Interp.{u} sg)
    (hI : ∀ w ∈ ws, ¬ w.IsGoal → w.form.Valid I) : g.form.Valid I := by
  obtain ⟨w, hw, hwg, hv⟩ := verdict_refuted.{u} R hq hr hans hz (Or.inl rfl) I hI
  rwa [hg w hw hwg] at hv

/-- **C69, `Unsatisfiable`**: the axioms have no model.  `negConj` counts the goals. -/
theorem verdict_unsatisfiable (R : Prepared sg q p ws out) (hq : NoAnswers q ws) (hr : SReach sg md out fin) (hans : f.answers = [])
    (hn : f.negConj = 0 → ∀ w ∈ ws, ¬ w.IsGoal) (hz : .unsatisfiable ∈ (mainReport o f s fin).1) (I : Interp.{u} sg) : ∃ w ∈ ws, ¬ w.form.Valid I := by
  by_contra hc
  push Not at hc
  obtain ⟨w, hw, hg, -⟩ := verdict_refuted.{u} R hq hr hans hz (Or.inr (Or.inr rfl)) I fun w hw _ => hc w hw
  refine hn ?_ w hw hg
  by_contra h0
  have hf : fin.success = true := (status_refuted hz (Or.inr (Or.inr rfl))).resolve_right (by simp [hans])
  cases m1 : o.syntaxOnly with
  | true =>
    simp only [mainReport, m1, if_true] at hz
    split at hz <;> simp at hz
  | false =>
    cases m2 : o.appEncode with
    | true => simp [mainReport, m1, m2] at hz
    | false =>
      cases m3 : o.pruneOnly with
      | true => simp [mainReport, m1, m2, m3] at hz
      | false =>
        rw [status_kind ⟨m1, m2, m3⟩ hf (by simp [hans])] at hz
        simp only [if_neg h0] at hz
        split at hz <;> simp at hz

/-- **C69, partial: `Satisfiable` and `CounterSatisfiable`**: there is a model of the axioms in which no goal is true.  `l` is the state of the
loop as described for C62; what `main` sees of it are the unprocessed clauses, the flag for completeness, and whether the empty clause was found.
Missing: what is missing in C61 and C62, and answers. -/
theorem verdict_saturated_partial (R : Prepared sg q p ws out) (hq : NoAnswers q ws) {N : Nat} {gt : Term → Term → Prop} {pp : Term → Bool}
    (h : SupOrd sg N gt) (hO : RedOrd (sigAr sg) N gt) (hs : CalcSig sg N pp) {l : LState} (hr : LReach sg N gt pp out l)
    (hcov : ∀ c ∈ l.proc, Covered c.lits) (h1 : s.unproc = [] → l.pool = [] ∧ l.active = none) (h2 : s.complete = l.complete)
    (h3 : (∃ c ∈ l.proc, c.lits = []) → fin.success = true) (hz : z ∈ (mainReport o f s fin).1) (hsat : Szs.saturated z) :
    ∃ I : Interp.{0} sg, (∀ w ∈ ws, ¬ w.IsGoal → w.form.Valid I) ∧ ∀ w ∈ ws, w.IsGoal → ¬ w.form.Valid I := by
  obtain ⟨e1, e2, -, -, -, -, -, -, -, -, -, e3, -⟩ := status_satisfiable hz hsat
  have hd : l.Done := ⟨(h1 e1).1, (h1 e1).2, by rw [← h2]; exact e2⟩
  have hne : ∀ c ∈ l.proc, c.lits ≠ [] := fun c hc he => by
    have := h3 ⟨c, hc, he⟩
    rw [e3] at this
    cases this
  have hm := loop_complete_partial h hO hs hr hd hcov hne
  obtain ⟨w1, -, w2, -, -⟩ := problem_wellformed R.sigOK R.cnf R.inv R.agrees R.answer R.forms R.skDecl
  have a1 := R.answer.low
  have a2 := R.answer.high
  rw [preproc_satisfiable.{0} R.sigOK R.dist (by omega) R.preOK w1 R.pre R.symDecl] at hm
  have hg : ¬ GoalFollows.{0} sg ws := fun hg => (problem_plain R.sigOK R.cnf R.inv R.agrees R.answer R.forms R.skDecl hq).1 hg hm
  simp only [GoalFollows, not_forall, not_exists, not_and] at hg
  obtain ⟨I, hI, hw⟩ := hg
  exact ⟨I, hI, hw⟩

/-! ## Examples -/

namespace VerdictEx
open CompEx

/-- No limits, no answers; the code of `$answer` must be that of some predicate (12), although it is not used. -/
def qar : CnfParams := ⟨12, 0, false, false, 24, fun _ => true, fun _ => true⟩

def bank : VarBank := (VarBank.init.getFresh 0).2

/-- `∀x (p(x) → p(f(x)))`, and the conjecture `p(a)`. -/
def inp : List PForm :=
  [⟨1, false, .qu true 2 (.bin .impl (.lit true (.app 12 [.var 2]) tTrue) (.lit true (.app 12 [.app 11 [.var 2]]) tTrue))⟩,
   ⟨3, false, .lit true (.app 12 [.app 10 []]) tTrue⟩]


theorem run : (problemCNF cSig qar 30 inp bank 13).map (fun r => (r.1, r.2.2)) = some ([cStep, cGoal], 13, []) := by decide +kernel

theorem runPre : clausalPreproc cSig PreprocEx.par [cStep, cGoal] 13 = ([cStep, cGoal], 13, [], []) := by decide +kernel

theorem run_bank : ∃ b', problemCNF cSig qar 30 inp bank 13 = some ([cStep, cGoal], b', 13, []) := by
  obtain ⟨⟨r1, r2, r3⟩, e1, e2⟩ := Option.map_eq_some_iff.1 run
  cases e2
  exact ⟨r2, e1⟩

theorem agrees {b' : VarBank} (e : problemCNF cSig qar 30 inp bank 13 = some ([cStep, cGoal], b', 13, [])) : BankAgrees cSig b' := by
  intro ty c hc
  by_contra h
  simp only [problemCNF, Option.bind_eq_some_iff] at e
  obtain ⟨ws1, -, c1, e2, e3⟩ := e
  have h0 := formulas_types (sg := cSig) (ty := ty) (fun x hx => h hx) _ e2
  have h1 : bank.vstk ty = [] := by
    have : ty ≠ 0 := fun e => h e.symm
    simp [bank, VarBank.getFresh, VarBank.init, this]
  simp only [Option.some.injEq, Prod.mk.injEq] at e3
  rw [← e3.2.1, h0, h1] at hc
  cases hc

theorem inp_ok : ∀ w ∈ inp, PForm.OK cSig bank.fresh 13 w := by
  have hf : bank.fresh = 2 := rfl
  intro w hw
  simp only [inp, List.mem_cons, List.not_mem_nil, or_false] at hw
  rcases hw with rfl | rfl
  · refine ⟨?_, ?_, ?_, by decide, fun h => (by rcases h with h | h <;> cases h), by simp⟩
    · simp [Form.WT, Form.Parts, Sig.WT, Sig.WTL, Sig.ty, cSig, tTrue]
    · rw [hf]; simp [Form.AllVars, Form.Parts, Term.vars, Term.varsL, tTrue]
    · simp [Form.SymsBelow, Form.Parts, Term.SymsBelow, Term.SymsBelowL, tTrue]
  · refine ⟨?_, ?_, ?_, by decide, fun _ => ⟨?_, rfl⟩, by simp⟩
    · simp [Form.WT, Form.Parts, Sig.WT, Sig.WTL, Sig.ty, cSig, tTrue]
    · simp [Form.AllVars, Form.Parts, Term.vars, Term.varsL, tTrue]
    · simp [Form.SymsBelow, Form.Parts, Term.SymsBelow, Term.SymsBelowL, tTrue]
    · simp [Form.Closed, Form.FV, Term.vars, Term.varsL, tTrue]

theorem prepared : Nonempty (Prepared cSig qar PreprocEx.par inp [cStep, cGoal]) := by
  obtain ⟨b', e⟩ := run_bank
  exact ⟨{ bank := bank, bank' := b', depth := 30, code := 13, code' := 13, clauses := [cStep, cGoal], skolem := [], last := 13, symbols := [], dropped := [],
           sigOK := ⟨rfl, rfl, rfl⟩, dist := fun s h => by simp [cSig] at h, alt := fun _ _ _ => rfl, inv := VarBank.inv_getFresh VarBank.inv_init _,
           agrees := agrees e, answer := ⟨rfl, rfl, by simp [cSig], by decide, by decide⟩, forms := inp_ok, skDecl := by simp [Declared],
           symDecl := by simp [SymsDeclared], cnf := e, preOK := PreprocEx.par_ok _, pre := runPre }⟩

theorem reach : LReach cSig 13 (LPO cPrec) (fun _ => false) [cStep, cGoal] ⟨[pStep, pGoal], none, [], 2, true⟩ := by
  have hS : cSet cStep := Or.inl rfl
  have hG : cSet cGoal := Or.inr rfl
  obtain ⟨b1, e1, a1⟩ := cNormStep
  obtain ⟨b2, e2, a2⟩ := cNormGoal
  have r0 : LReach cSig 13 (LPO cPrec) (fun _ => false) [cStep, cGoal] ⟨[], none, [⟨cStep, none⟩, ⟨cGoal, none⟩], 0, true⟩ :=
    .init (cWF (by simp [LState.init]) (by simp [LState.init]) (by simp [LState.init, hS, hG]))
  have r1 := r0.step (.accept (U := []) rfl rfl) (cWF (by simp) (by simp [hS]) (by simp [hG]))
  have r2 := r1.step (.activate (sel := fun i => i = 0) (Ds := []) rfl VarBank.inv_init a1 e1 (by rintro i rfl; exact ⟨_, rfl, rfl⟩)
    (cGen (Or.inl rfl) (by simp [pStep]))) (cWF (by simp [hS]) (by simp) (by simp [hG]))
  have r3 := r2.step (.accept (U := []) rfl rfl) (cWF (by simp [hS]) (by simp [hG]) (by simp))
  exact r3.step (.activate (sel := fun _ => False) (Ds := []) rfl VarBank.inv_init a2 e2 (by simp)
    (cGen (Or.inr rfl) (by simp [pStep, pGoal]))) (cWF (by simp [pStep, pGoal, hS, hG]) (by simp) (by simp))

/-- The prover saturates the clauses and reports `CounterSatisfiable`; indeed the conjecture does not follow. -/
example : ∃ I : Interp.{0} cSig, (∀ w ∈ inp, ¬ w.IsGoal → w.form.Valid I) ∧ ∀ w ∈ inp, w.IsGoal → ¬ w.form.Valid I := by
  obtain ⟨R⟩ := prepared
  refine verdict_saturated_partial (o := {}) (f := { negConj := 1 }) (s := ⟨[cStep, cGoal], none, none, [], [], [], [], true, false⟩)
    (fin := ⟨[cStep, cGoal], none, none, [], [], [], [], true, false⟩) (z := .counterSatisfiable) R (Or.inl rfl) cOrd cRed cCalc reach ?_
    (fun _ => ⟨rfl, rfl⟩) rfl ?_ (by decide) (Or.inr rfl)
  · intro c hc
    simp only [List.mem_cons, List.not_mem_nil, or_false] at hc
    rcases hc with rfl | rfl
    · exact IsHorn.covered (cHorn _ (Or.inl rfl))
    · exact IsHorn.covered (cHorn _ (Or.inr rfl))
  · rintro ⟨c, hc, he⟩
    simp only [List.mem_cons, List.not_mem_nil, or_false] at hc
    rcases hc with rfl | rfl <;> simp [pStep, pGoal, cStep, cGoal] at he

/-- The conjecture `p(a)` with the axiom `p(a)`. -/
def inpT : List PForm := [⟨1, false, .lit true (.app 12 [.app 10 []]) tTrue⟩, ⟨3, false, .lit true (.app 12 [.app 10 []]) tTrue⟩]

def cFact : List Lit := [⟨true, .app 12 [.app 10 []], tTrue⟩]

theorem runT : (problemCNF cSig qar 30 inpT bank 13).map (fun r => (r.1, r.2.2)) = some ([cFact, cGoal], 13, []) := by decide +kernel

theorem runPreT : clausalPreproc cSig PreprocEx.par [cFact, cGoal] 13 = ([cFact, cGoal], 13, [], []) := by decide +kernel

theorem runT_bank : ∃ b', problemCNF cSig qar 30 inpT bank 13 = some ([cFact, cGoal], b', 13, []) := by
  obtain ⟨⟨r1, r2, r3⟩, e1, e2⟩ := Option.map_eq_some_iff.1 runT
  cases e2
  exact ⟨r2, e1⟩

theorem agreesT {b' : VarBank} (e : problemCNF cSig qar 30 inpT bank 13 = some ([cFact, cGoal], b', 13, [])) : BankAgrees cSig b' := by
  intro ty c hc
  by_contra h
  simp only [problemCNF, Option.bind_eq_some_iff] at e
  obtain ⟨ws1, -, c1, e2, e3⟩ := e
  have h0 := formulas_types (sg := cSig) (ty := ty) (fun x hx => h hx) _ e2
  have h1 : bank.vstk ty = [] := by
    have : ty ≠ 0 := fun e => h e.symm
    simp [bank, VarBank.getFresh, VarBank.init, this]
  simp only [Option.some.injEq, Prod.mk.injEq] at e3
  rw [← e3.2.1, h0, h1] at hc
  cases hc

theorem inpT_ok : ∀ w ∈ inpT, PForm.OK cSig bank.fresh 13 w := by
  intro w hw
  have : w.form = .lit true (.app 12 [.app 10 []]) tTrue ∧ w.isClause = false ∧ w.ftype < 7 := by
    simp only [inpT, List.mem_cons, List.not_mem_nil, or_false] at hw
    rcases hw with rfl | rfl <;> simp
  obtain ⟨h1, h2, h3⟩ := this
  refine ⟨?_, ?_, ?_, h3, fun _ => ⟨?_, h2⟩, fun h => by rw [h2] at h; cases h⟩ <;> rw [h1]
  · simp [Form.WT, Form.Parts, Sig.WT, Sig.WTL, Sig.ty, cSig, tTrue]
  · simp [Form.AllVars, Form.Parts, Term.vars, Term.varsL, tTrue]
  · simp [Form.SymsBelow, Form.Parts, Term.SymsBelow, Term.SymsBelowL, tTrue]
  · simp [Form.Closed, Form.FV, Term.vars, Term.varsL, tTrue]

theorem preparedT : Nonempty (Prepared cSig qar PreprocEx.par inpT [cFact, cGoal]) := by
  obtain ⟨b', e⟩ := runT_bank
  exact ⟨{ bank := bank, bank' := b', depth := 30, code := 13, code' := 13, clauses := [cFact, cGoal], skolem := [], last := 13, symbols := [], dropped := [],
           sigOK := ⟨rfl, rfl, rfl⟩, dist := fun s h => by simp [cSig] at h, alt := fun _ _ _ => rfl, inv := VarBank.inv_getFresh VarBank.inv_init _,
           agrees := agreesT e, answer := ⟨rfl, rfl, by simp [cSig], by decide, by decide⟩, forms := inpT_ok, skDecl := by simp [Declared],
           symDecl := by simp [SymsDeclared], cnf := e, preOK := PreprocEx.par_ok _, pre := runPreT }⟩

/-- `p(a)` is processed, `¬p(a)` is selected and simplified to the empty clause. -/
theorem reachT : SReach cSig true [cFact, cGoal] ⟨[cFact], some ⟨[], false⟩, none, [], [], [cFact], [], true, true⟩ := by
  obtain ⟨b1, e1, a1⟩ : ∃ b', clauseNormalizeVars cSig 9 .init cFact = some (b', cFact) ∧ BankAgrees cSig b' :=
    ⟨_, rfl, cBank _ fun ty hty => by simp [VarBank.reset, VarBank.init]⟩
  have r1 : SReach cSig true [cFact, cGoal] ⟨[], some ⟨cFact, false⟩, none, [], [⟨cGoal, false⟩], [], [], true, false⟩ :=
    .step .init (.select (U := []) (V := [⟨cGoal, false⟩]) rfl rfl rfl)
  have r2 : SReach cSig true [cFact, cGoal] ⟨[], none, some cFact, [], [⟨cGoal, false⟩], [], [], true, false⟩ := .step r1 (.accept (c := ⟨cFact, false⟩) rfl rfl)
  have r3 : SReach cSig true [cFact, cGoal] ⟨[cFact], none, none, [], [⟨cGoal, false⟩], [cFact], [], true, false⟩ :=
    .step r2 (.activate (n := 9) (b := .init) (b' := b1) (C := cFact) (C' := cFact) rfl VarBank.inv_init a1 e1)
  have r4 : SReach cSig true [cFact, cGoal] ⟨[cFact], some ⟨cGoal, false⟩, none, [], [], [cFact], [], true, false⟩ :=
    .step r3 (.select (U := []) (V := []) rfl rfl rfl)
  have r5 : SReach cSig true [cFact, cGoal] ⟨[cFact], some ⟨[], false⟩, none, [], [], [cFact], [], true, false⟩ :=
    .step r4 (.giveModify (c := ⟨cGoal, false⟩) (C := []) rfl
      (Modify.posSR (pp := fun _ => true) (units := [⟨⟨true, .app 12 [.app 10 []], tTrue⟩, true⟩]) (strong := false) (n := 5) cGoal (by simp [cFact])))
  exact .step r5 (.giveEmpty rfl rfl)

/-- The prover reports `Theorem`. -/
example (I : Interp.{u} cSig) (hI : ∀ w ∈ inpT, ¬ w.IsGoal → w.form.Valid I) : (Form.lit true (.app 12 [.app 10 []]) tTrue).Valid I := by
  obtain ⟨R⟩ := preparedT
  refine verdict_theorem (o := {}) (f := { negConj := 1, hasConj := true }) (s := ⟨[cFact], some ⟨[], false⟩, none, [], [], [cFact], [], true, true⟩) R (Or.inl rfl)
    reachT rfl (by decide) (g := ⟨3, false, _⟩) ?_ I hI
  intro w hw hg
  simp only [inpT, List.mem_cons, List.not_mem_nil, or_false] at hw
  rcases hw with rfl | rfl
  · rcases hg with h | h <;> cases h
  · rfl

end VerdictEx

end Verif.Props
