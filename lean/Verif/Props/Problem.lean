import Verif.Formulas.ProblemProof
import Verif.Props.Saturate

/-!
# C55: from a problem to clauses and back

`problemCNF sg p k ws b n` (Formulas/Problem.lean) makes the clauses of a problem: conjectures are negated, questions and (on request) conjectures get an answer literal,
the formulas are simplified, definitions are introduced, and the result is clausified.  `GoalFollows sg ws` says that the axioms imply one of the goals.  `PForm.OK` states
what the parser ensures, `Declared` that new symbols get the types for which they are made, `BankAgrees` that variables have the types of the bank.
-/

namespace Verif.Props
open Verif CNFProof Form SaturateProof

universe u
variable {sg : Sig} {p : CnfParams} {k : Nat} {ws : List PForm} {b b' : VarBank} {n n' : Nat} {Cs : List (List Lit)} {ds : List SkDecl}

/-- **C55, with answers**: a goal follows from the axioms if and only if no interpretation that accepts no answer is a model of the clauses.  The problem must not contain
`$answer`. -/
theorem problem_answers (hs : SigOK sg) (e : problemCNF sg p k ws b n = some (Cs, b', n', ds)) (hb : b.Inv) (ha : BankAgrees sg b') (had : AnswerDecl sg p.ac p.ind n)
    (ho : ∀ w ∈ ws, PForm.OK sg b.fresh n w) (hd : Declared sg ds) (hav : ∀ w ∈ ws, w.form.Avoids p.ac) :
    GoalFollows.{u} sg ws ↔ ¬ ∃ I : Interp.{u} sg, I.NoAnswer p.ac ∧ ∀ C ∈ Cs, I.Models C := by
  have out := problem_out.{u} hs e hb ha had ho hd
  have key := goal_iff.{u} (ac := p.ac) (ind := p.ind) (n := n) (a := p.addAnswers) (q := p.conjQuestions) ho (fun I => I.NoAnswer p.ac) (fun I h => .inr h)
  have h1 : (1 : Nat) ≠ p.ac := by have := had.low; omega
  constructor
  · rintro h ⟨I, hI, hC⟩
    exact key.1 (fun I _ => h I) ⟨I, hI, out.sound I hC⟩
  · intro h I hax
    obtain ⟨F, hF, f1, f2⟩ := noAnswer_reint hs had I
    have hval : ∀ w ∈ ws, (w.form.Valid (I.reint F hF) ↔ w.form.Valid I) := fun w hw =>
      ⟨fun hV v hv => (holds_reint_avoid I hF h1 f1 w.form v (hav w hw)).1 (hV v hv), fun hV v hv => (holds_reint_avoid I hF h1 f1 w.form v (hav w hw)).2 (hV v hv)⟩
    have h3 : ∀ J : Interp.{u} sg, J.NoAnswer p.ac → (∀ w ∈ ws, ¬ w.IsGoal → w.form.Valid J) → ∃ w ∈ ws, w.IsGoal ∧ w.form.Valid J := by
      refine key.2 ?_
      rintro ⟨J, hJ, hV⟩
      obtain ⟨G, hG, g1, g2⟩ := out.extend J hV
      refine h ⟨J.reint G hG, fun d => ?_, g2⟩
      show G p.ac [d] ≠ G 1 []
      rw [g1 _ had.high, g1 1 (Nat.lt_trans (Nat.lt_trans (by decide : 1 < 2) had.low) had.high)]
      exact hJ d
    obtain ⟨w, hw, hg, hv⟩ := h3 (I.reint F hF) f2 fun w hw hg => (hval w hw).2 (hax w hw hg)
    exact ⟨w, hw, hg, (hval w hw).1 hv⟩

/-- **C55, without answers**: if no answer literals are made, a goal follows from the axioms if and only if the clauses have no model. -/
theorem problem_plain (hs : SigOK sg) (e : problemCNF sg p k ws b n = some (Cs, b', n', ds)) (hb : b.Inv) (ha : BankAgrees sg b') (had : AnswerDecl sg p.ac p.ind n)
    (ho : ∀ w ∈ ws, PForm.OK sg b.fresh n w) (hd : Declared sg ds) (hq : p.addAnswers = false ∨ (p.conjQuestions = false ∧ ∀ w ∈ ws, w.ftype ≠ 6)) :
    GoalFollows.{u} sg ws ↔ ¬ ∃ I : Interp.{u} sg, ∀ C ∈ Cs, I.Models C := by
  have out := problem_out.{u} hs e hb ha had ho hd
  have hp : (preprocConjectures p.ac p.ind p.addAnswers p.conjQuestions ws n).2.2 = [] := preprocConjectures_plain ws
    (hq.imp_right fun ⟨h1, h2⟩ => ⟨h1, fun w hw => by have h3 := h2 w hw; have h4 := (ho w hw).type; omega⟩)
  have key := goal_iff.{u} (ac := p.ac) (ind := p.ind) (n := n) (a := p.addAnswers) (q := p.conjQuestions) ho (fun _ => True) (fun I _ => .inl hp)
  constructor
  · rintro h ⟨I, hC⟩
    exact key.1 (fun I _ => h I) ⟨I, trivial, out.sound I hC⟩
  · intro h I hax
    refine key.2 ?_ I trivial hax
    rintro ⟨J, -, hV⟩
    obtain ⟨G, hG, -, g2⟩ := out.extend J hV
    exact h ⟨_, g2⟩

/-- **C55, well-formed clauses**: the clauses are well-typed and use known symbols only; each new symbol has a code of its own that was not in use. -/
theorem problem_wellformed (hs : SigOK sg) (e : problemCNF sg p k ws b n = some (Cs, b', n', ds)) (hb : b.Inv) (ha : BankAgrees sg b') (had : AnswerDecl sg p.ac p.ind n)
    (ho : ∀ w ∈ ws, PForm.OK sg b.fresh n w) (hd : Declared sg ds) :
    (∀ C ∈ Cs, sg.WTClause C ∧ ClauseBelow n' C) ∧ b'.Inv ∧ n ≤ n' ∧ (ds.map SkDecl.code).Nodup ∧ ∀ d ∈ ds, CodesIn n n' d.code := by
  have out := problem_out.{0} hs e hb ha had ho hd
  have hc := consec_problem e
  refine ⟨fun C hC => ⟨out.wt C hC, out.below C hC⟩, out.inv, out.le, ?_, fun d hd => ?_⟩
  · rw [hc.2]; exact List.nodup_range'
  · have : d.code ∈ List.range' n (n' - n) := hc.2 ▸ List.mem_map_of_mem hd
    rw [List.mem_range'_1] at this
    have h5 := hc.1
    exact ⟨this.1, by omega⟩

/-- **C55, termination**: with enough fuel the transformation has a result, and more fuel does not change it. -/
theorem problem_terminates (sg : Sig) (p : CnfParams) (ws : List PForm) (b : VarBank) (n : Nat) : ∃ r N, ∀ k ≥ N, problemCNF sg p k ws b n = some r := by
  obtain ⟨r1, N1, h1⟩ := formulasSimplify_total (preprocConjectures p.ac p.ind p.addAnswers p.conjQuestions ws n).1
  obtain ⟨r2, N2, h2⟩ := formulasCNF_total sg p.small p.cand (introduceDefs sg p.defLimit r1 (preprocConjectures p.ac p.ind p.addAnswers p.conjQuestions ws n).2.1).1 b
    (introduceDefs sg p.defLimit r1 (preprocConjectures p.ac p.ind p.addAnswers p.conjQuestions ws n).2.1).2.1
  refine ⟨(r2.1, r2.2.1, r2.2.2.1, (preprocConjectures p.ac p.ind p.addAnswers p.conjQuestions ws n).2.2 ++
    (introduceDefs sg p.defLimit r1 (preprocConjectures p.ac p.ind p.addAnswers p.conjQuestions ws n).2.1).2.2 ++ r2.2.2.2), max N1 N2, fun k hk => ?_⟩
  have a1 := h1 k (by omega)
  have a2 := h2 k (by omega)
  simp only at a1 a2
  simp only [problemCNF, a1, a2, Option.bind_some]

/-- A clause that consists of positive answer literals. -/
def OnlyAnswers (ac : Nat) (C : List Lit) : Prop := ∀ L ∈ C, ∃ t, L = ⟨true, .app ac [t], tTrue⟩

/-- **C55, proofs**: if saturation of the clauses of a problem, by whatever steps, finds the empty clause or a clause of positive answer literals, then the axioms imply one
of the goals. -/
theorem problem_proof (hs : SigOK sg) (e : problemCNF sg p k ws b n = some (Cs, b', n', ds)) (hb : b.Inv) (ha : BankAgrees sg b') (had : AnswerDecl sg p.ac p.ind n)
    (ho : ∀ w ∈ ws, PForm.OK sg b.fresh n w) (hd : Declared sg ds) (hav : ∀ w ∈ ws, w.form.Avoids p.ac) (halt : AltTyped sg) {m : Bool} {s : SatState}
    (hr : SReach sg m Cs s) (hsucc : s.success = true ∨ ∃ C ∈ s.all, OnlyAnswers p.ac C) : GoalFollows.{u} sg ws := by
  have hwt := fun C hC => ((problem_wellformed hs e hb ha had ho hd).1 C hC).1
  rw [problem_answers hs e hb ha had ho hd hav]
  rintro ⟨I, hI, hC⟩
  rcases hsucc with h | ⟨C, h, hans⟩
  · exact saturation_refutes.{u} hs halt hwt hr h ⟨I, hC⟩
  · obtain ⟨v, hv⟩ : ∃ v : Nat → I.D, I.Sorted v := ⟨fun x => (I.inhab (sg.vty x)).choose, fun x => (I.inhab (sg.vty x)).choose_spec⟩
    obtain ⟨L, hL, ht⟩ := ((saturation_sound.{u} hs halt hwt hr C h).2 I hC) v hv
    obtain ⟨t, rfl⟩ := hans L hL
    refine hI (I.eval v t) ?_
    have ht : I.eval v (.app p.ac [t]) = I.eval v tTrue := ht
    rw [SemProof.eval_app, tTrue, SemProof.eval_app] at ht
    exact ht

/-- **C55, proofs without answer literals**: the empty clause shows that the axioms imply one of the goals. -/
theorem problem_proof_plain (hs : SigOK sg) (e : problemCNF sg p k ws b n = some (Cs, b', n', ds)) (hb : b.Inv) (ha : BankAgrees sg b') (had : AnswerDecl sg p.ac p.ind n)
    (ho : ∀ w ∈ ws, PForm.OK sg b.fresh n w) (hd : Declared sg ds) (hq : p.addAnswers = false ∨ (p.conjQuestions = false ∧ ∀ w ∈ ws, w.ftype ≠ 6)) (halt : AltTyped sg) {m : Bool}
    {s : SatState} (hr : SReach sg m Cs s) (hsucc : s.success = true) : GoalFollows.{u} sg ws := by
  have hwt := fun C hC => ((problem_wellformed hs e hb ha had ho hd).1 C hC).1
  rw [problem_plain hs e hb ha had ho hd hq]
  exact saturation_refutes.{u} hs halt hwt hr hsucc

namespace ProblemEx

/-- Type 0 is Boolean, type 1 individuals; 16 is `$answer`, 20 and 21 are unary predicates, 22 is a unary function symbol. -/
def sig : Sig where
  vty _ := 1
  fty f := if f = 22 then 1 else 0
  fargs f := if f = 16 ∨ f = 20 ∨ f = 21 ∨ f = 22 then [1] else []

theorem sigOK : SigOK sig := ⟨rfl, rfl, rfl⟩

def par : CnfParams := ⟨16, 1, true, false, 24, fun _ => true, fun _ => true⟩

def bank : VarBank := ((VarBank.init.getFresh 1).2.getFresh 1).2

def P (x : Nat) : Form := .lit true (.app 20 [.var x]) tTrue
def Q (x : Nat) : Form := .lit true (.app 21 [.var x]) tTrue

/-- The axiom `∀x p(x)` and the question `∃y (p(y) ∨ q(y))`. -/
def inp : List PForm := [⟨1, false, .qu true 2 (P 2)⟩, ⟨6, false, .qu false 4 (.bin .or (P 4) (Q 4))⟩]

/-- `p(x)`; `¬q(x) ∨ $answer(f(x))`; `¬p(x) ∨ $answer(f(x))`. -/
def out : List (List Lit) :=
  [[⟨true, .app 20 [.var 2], tTrue⟩],
   [⟨false, .app 21 [.var 2], tTrue⟩, ⟨true, .app 16 [.app 22 [.var 2]], tTrue⟩],
   [⟨false, .app 20 [.var 2], tTrue⟩, ⟨true, .app 16 [.app 22 [.var 2]], tTrue⟩]]

theorem run : (problemCNF sig par 30 inp bank 22).map (fun r => (r.1, r.2.2)) = some (out, 23, [⟨22, [4], 1⟩]) := by decide +kernel

theorem run_bank : ∃ b', problemCNF sig par 30 inp bank 22 = some (out, b', 23, [⟨22, [4], 1⟩]) := by
  obtain ⟨⟨r1, r2, r3⟩, e1, e2⟩ := Option.map_eq_some_iff.1 run
  cases e2
  exact ⟨r2, e1⟩

theorem bank_inv : bank.Inv := VarBank.inv_getFresh (VarBank.inv_getFresh VarBank.inv_init _) _

theorem declared : Declared sig [⟨22, [4], 1⟩] := by simp [Declared, sig]

theorem answerDecl : AnswerDecl sig par.ac par.ind 22 := ⟨rfl, rfl, by simp [sig], by decide, by decide⟩

theorem altTyped : AltTyped sig := fun _ _ _ => rfl

theorem inp_ok : ∀ w ∈ inp, PForm.OK sig bank.fresh 22 w := by
  have hf : bank.fresh = 4 := rfl
  intro w hw
  simp only [inp, List.mem_cons, List.not_mem_nil, or_false] at hw
  rcases hw with rfl | rfl
  · refine ⟨?_, ?_, ?_, by decide, fun h => (by rcases h with h | h <;> cases h), by simp⟩
    · simp [P, Form.WT, Parts, Sig.WT, Sig.WTL, Sig.ty, sig, tTrue]
    · rw [hf]; simp [P, AllVars, Parts, Term.vars, Term.varsL, tTrue]
    · simp [P, Form.SymsBelow, Parts, Term.SymsBelow, Term.SymsBelowL, tTrue]
  · refine ⟨?_, ?_, ?_, by decide, fun _ => ⟨?_, rfl⟩, by simp⟩
    · simp [P, Q, Form.WT, Parts, Sig.WT, Sig.WTL, Sig.ty, sig, tTrue]
    · rw [hf]; simp [P, Q, AllVars, Parts, Term.vars, Term.varsL, tTrue]
    · simp [P, Q, Form.SymsBelow, Parts, Term.SymsBelow, Term.SymsBelowL, tTrue]
    · simp [P, Q, Closed, FV, Term.vars, Term.varsL, tTrue]

theorem inp_avoids : ∀ w ∈ inp, w.form.Avoids par.ac := by
  simp [inp, P, Q, Form.Avoids, Parts, Term.Avoids, Term.AvoidsL, tTrue, par]

theorem agrees {b' : VarBank} (e : problemCNF sig par 30 inp bank 22 = some (out, b', 23, [⟨22, [4], 1⟩])) : BankAgrees sig b' := by
  intro ty c hc
  by_contra h
  simp only [problemCNF, Option.bind_eq_some_iff] at e
  obtain ⟨ws1, -, c1, e2, e3⟩ := e
  have h0 := formulas_types (sg := sig) (ty := ty) (fun x hx => h hx) _ e2
  have h1 : bank.vstk ty = [] := by
    have : ty ≠ 1 := fun e => h e.symm
    simp [bank, VarBank.getFresh, VarBank.init, this]
  simp only [Option.some.injEq, Prod.mk.injEq] at e3
  rw [← e3.2.1, h0, h1] at hc
  cases hc

theorem reach_activate : SStep sig m ⟨[], none, some out[0], [], [⟨out[1], false⟩, ⟨out[2], false⟩], [], [], true, false⟩
    ⟨[out[0]], none, none, [], [⟨out[1], false⟩, ⟨out[2], false⟩], [out[0]], [], true, false⟩ := by
  obtain ⟨b', e⟩ : ∃ b', clauseNormalizeVars sig 5 bank out[0] = some (b', out[0]) := by
    have h : (clauseNormalizeVars sig 5 bank out[0]).map Prod.snd = some out[0] := by decide +kernel
    obtain ⟨⟨r1, r2⟩, e1, e2⟩ := Option.map_eq_some_iff.1 h
    cases e2
    exact ⟨r1, e1⟩
  refine SStep.activate (n := 5) (b := bank) (b' := b') (C := out[0]) (C' := out[0]) rfl bank_inv (fun ty c hc => ?_) e
  by_contra h
  have h1 : bank.vstk ty = [] := by
    have : ty ≠ 1 := fun e => h e.symm
    simp [bank, VarBank.getFresh, VarBank.init, this]
  rw [normalize_types (fun x hx => h hx) (by simp [out, Lit.NF, tTrue, tFalse]) e, h1] at hc
  cases hc

/-- The state when the last clause is selected, after `p(x)` has been processed. -/
theorem reach_given : SReach sig m out ⟨[out[0]], some ⟨out[2], false⟩, none, [], [⟨out[1], false⟩], [out[0]], [], true, false⟩ := by
  have h1 : SReach sig m out ⟨[], none, some out[0], [], [⟨out[1], false⟩, ⟨out[2], false⟩], [], [], true, false⟩ :=
    .step (.step .init (.select (U := []) (V := [⟨out[1], false⟩, ⟨out[2], false⟩]) (c := ⟨out[0], false⟩) rfl rfl rfl)) (.accept (c := ⟨out[0], false⟩) rfl rfl)
  have h2 : SReach sig m out ⟨[out[0]], none, none, [], [⟨out[1], false⟩, ⟨out[2], false⟩], [out[0]], [], true, false⟩ := by
    refine .step h1 ?_
    exact reach_activate
  exact .step h2 (.select (U := [⟨out[1], false⟩]) (V := []) (c := ⟨out[2], false⟩) rfl rfl rfl)

/-- The answer `$answer(f(x))`, found by simplification. -/
theorem reach_answer : SReach sig m out ⟨[out[0]], some ⟨[⟨true, .app 16 [.app 22 [.var 2]], tTrue⟩], false⟩, none, [], [⟨out[1], false⟩], [out[0]], [], true, false⟩ := by
  refine .step reach_given (SStep.giveModify (c := ⟨out[2], false⟩) (C := [⟨true, .app 16 [.app 22 [.var 2]], tTrue⟩]) rfl ?_)
  exact Modify.posSR (pp := fun _ => true) (units := [⟨⟨true, .app 20 [.var 2], tTrue⟩, true⟩]) (strong := false) (n := 5) out[2] (by simp [out])

/-- The axiom implies the question. -/
example : GoalFollows.{u} sig inp := by
  obtain ⟨b', e⟩ := run_bank
  exact problem_proof (m := true) sigOK e bank_inv (agrees e) answerDecl inp_ok declared inp_avoids altTyped reach_answer
    (.inr ⟨[⟨true, .app 16 [.app 22 [.var 2]], tTrue⟩], by simp [SatState.all], by simp [OnlyAnswers, par]⟩)

/-- `ClauseIsSemFalse` (CLAUSES/ccl_clauses.c:722-734) with the property set by `EqnAlloc` (CLAUSES/ccl_eqn.c:659-663): literals with `$answer`, of either sign. -/
def semFalse (ac : Nat) (C : List Lit) : Bool := C.all fun L => match L.l with | .app f _ => f == ac && L.r == tTrue | _ => false

/-- **C55, disagreement**: the test made by the code does not look at the sign.  The clause `¬$answer(x)` in the input counts as a proof, although there is nothing to prove and the
input has a model. -/
theorem problem_sign_ignored : ∃ (sg : Sig) (p : CnfParams) (ws : List PForm) (b b' : VarBank) (Cs : List (List Lit)) (C : List Lit),
    SigOK sg ∧ b.Inv ∧ BankAgrees sg b' ∧ AnswerDecl sg p.ac p.ind 22 ∧ (∀ w ∈ ws, PForm.OK sg b.fresh 22 w) ∧ problemCNF sg p 30 ws b 22 = some (Cs, b', 22, []) ∧
    C ∈ (SatState.init Cs).all ∧ semFalse p.ac C = true ∧ ¬ GoalFollows.{0} sg ws := by
  have hf : bank.fresh = 4 := rfl
  refine ⟨sig, par, [⟨1, true, .lit false (.app 16 [.var 2]) tTrue⟩], bank, bank, [[⟨false, .app 16 [.var 2], tTrue⟩]], [⟨false, .app 16 [.var 2], tTrue⟩],
    sigOK, bank_inv, ?_, answerDecl, ?_, rfl, ?_, by decide, ?_⟩
  · intro ty c hc
    by_contra h
    have h1 : bank.vstk ty = [] := by
      have : ty ≠ 1 := fun e => h e.symm
      simp [bank, VarBank.getFresh, VarBank.init, this]
    rw [h1] at hc
    cases hc
  · intro w hw
    rw [List.mem_singleton.1 hw]
    refine ⟨?_, ?_, ?_, by decide, fun h => (by rcases h with h | h <;> cases h), fun _ => trivial⟩
    · simp [Form.WT, Parts, Sig.WT, Sig.WTL, Sig.ty, sig, tTrue]
    · rw [hf]; simp [AllVars, Parts, Term.vars, Term.varsL, tTrue]
    · simp [Form.SymsBelow, Parts, Term.SymsBelow, Term.SymsBelowL, tTrue]
  · simp [SatState.all, SatState.init]
  · intro h
    let I : Interp.{0} sig := ⟨Bool, fun _ _ => True, fun _ => ⟨true, trivial⟩, fun f _ => f == 1, fun _ _ _ => trivial, by simp, by simp, by simp [sig]⟩
    obtain ⟨w, hw, hg, -⟩ := h I fun w hw _ => by
      rw [List.mem_singleton.1 hw]
      intro v _
      show I.eval v _ ≠ I.eval v _
      rw [SemProof.eval_app, tTrue, SemProof.eval_app]
      simp [I]
    rw [List.mem_singleton.1 hw] at hg
    rcases hg with h | h <;> cases h

end ProblemEx
end Verif.Props
