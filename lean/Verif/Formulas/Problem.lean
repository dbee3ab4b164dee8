import Verif.Formulas.Defs

/-!
# From a problem to clauses

Model of the treatment of conjectures (`FormulaSetPreprocConjectures`, CLAUSES/ccl_formulafunc.c:1402-1434) and of `FormulaSetCNF2` (1630-1698), called one after the other by the
prover (PROVER/eprover.c:655-675), for first-order problems without formulas in term positions.
-/

namespace Verif

universe u

/-- A formula of the input with its type: the bits `CPType1`, `CPType2`, `CPType3` (CLAUSES/ccl_clauses.h:71-90); 3 is `CPTypeConjecture`, 5 `CPTypeNegConjecture`, 6 `CPTypeQuestion`, 7
`CPTypeWatchClause`. -/
structure PForm where
  ftype : Nat
  isClause : Bool
  form : Form

/-- `FormulaQueryProp`: all bits of `p` are set. -/
def hasBits (t p : Nat) : Bool := t &&& p == p

/-- The loop of `TFormulaAnnotateQuestion` (CLAUSES/ccl_formulafunc.c:1325-1330). -/
def Form.stripEx : Form → List Nat × Form
  | .qu false x f => let r := f.stripEx; (x :: r.1, r.2)
  | f => ([], f)

/-- `answer_lit_alloc` (CLAUSES/ccl_formulafunc.c:659-672): `ac` is the code of `$answer`, `n` the new Skolem symbol. -/
def Form.answerLit (ac n : Nat) (xs : List Nat) : Form := .lit false (.app ac [.app n (xs.map .var)]) tTrue

/-- `TFormulaAnnotateQuestion` (CLAUSES/ccl_formulafunc.c:1318-1348); `ind` is the default type of the Skolem term. -/
def Form.annotateQuestion (ac ind : Nat) (f : Form) (n : Nat) : Form × Nat × List SkDecl :=
  let r := f.stripEx
  if r.1.isEmpty then (f, n, [])
  else (r.1.foldr (Form.qu false) (.bin .and r.2 (Form.answerLit ac n r.1)), n + 1, [⟨n, r.1, ind⟩])

/-- `WFormulaAnnotateQuestion` (CLAUSES/ccl_formulafunc.c:1365-1384). -/
def PForm.annotate (ac ind : Nat) (addAnswers conjQuestions : Bool) (w : PForm) (n : Nat) : PForm × Nat × List SkDecl :=
  if hasBits w.ftype 6 || (hasBits w.ftype 3 && conjQuestions) then
    if addAnswers then
      let r := w.form.annotateQuestion ac ind n
      (⟨3, w.isClause, r.1⟩, r.2)
    else (⟨3, w.isClause, w.form⟩, n, [])
  else (w, n, [])

/-- `WFormulaConjectureNegate` (CLAUSES/ccl_formulafunc.c:1286-1302). -/
def PForm.conjectureNegate (w : PForm) : PForm := if w.ftype = 3 then ⟨5, w.isClause, .not w.form⟩ else w

/-- `FormulaSetPreprocConjectures` (CLAUSES/ccl_formulafunc.c:1402-1434): the formulas, the next symbol code and the new symbols. -/
def preprocConjectures (ac ind : Nat) (addAnswers conjQuestions : Bool) : List PForm → Nat → List PForm × Nat × List SkDecl
  | [], n => ([], n, [])
  | w :: ws, n =>
    let r := w.annotate ac ind addAnswers conjQuestions n
    let s := preprocConjectures ac ind addAnswers conjQuestions ws r.2.1
    (r.1.conjectureNegate :: s.1, s.2.1, r.2.2 ++ s.2.2)

/-- `FormulaSetSimplify` (CLAUSES/ccl_formulafunc.c:1523-1561): the limit for the removal of quantifiers is 0 (1456), below the weight of every formula. -/
def formulasSimplify (k : Nat) : List PForm → Option (List WForm)
  | [] => some []
  | w :: ws =>
    (w.form.simplify (fun _ => false) k).bind fun f =>
      (formulasSimplify k ws).bind fun ws' => some (⟨w.isClause, f⟩ :: ws')

/-- The parameters of the transformation: the code of `$answer`, the default type, `answer_limit > 0`, `conjectures_are_questions`, `formula_def_limit` and the oracles of clausification. -/
structure CnfParams where
  ac : Nat
  ind : Nat
  addAnswers : Bool
  conjQuestions : Bool
  defLimit : Int
  small : Form → Bool
  cand : Form → Bool

/-- `FormulaSetPreprocConjectures` followed by `FormulaSetCNF2` (PROVER/eprover.c:655-675): the clauses, the bank, the next symbol code and the new symbols. -/
def problemCNF (sg : Sig) (p : CnfParams) (k : Nat) (ws : List PForm) (b : VarBank) (n : Nat) : Option (List (List Lit) × VarBank × Nat × List SkDecl) :=
  let r := preprocConjectures p.ac p.ind p.addAnswers p.conjQuestions ws n
  (formulasSimplify k r.1).bind fun ws1 =>
    let d := introduceDefs sg p.defLimit ws1 r.2.1
    (formulasCNF sg p.small p.cand k d.1 b d.2.1).bind fun c =>
      some (c.1, c.2.1, c.2.2.1, r.2.2 ++ d.2.2 ++ c.2.2.2)

/-! ## Specification -/

/-- Conjectures and questions. -/
def PForm.IsGoal (w : PForm) : Prop := w.ftype = 3 ∨ w.ftype = 6

/-- No free variables. -/
def Form.Closed (f : Form) : Prop := ∀ x, ¬ f.FV x

mutual
/-- The symbol does not occur. -/
def Term.Avoids (c : Nat) : Term → Prop
  | .var _ => True
  | .app f ts => f ≠ c ∧ Term.AvoidsL c ts
def Term.AvoidsL (c : Nat) : List Term → Prop
  | [] => True
  | t :: ts => t.Avoids c ∧ Term.AvoidsL c ts
end

/-- The symbol does not occur. -/
def Form.Avoids (c : Nat) : Form → Prop := Form.Parts (fun l r => l.Avoids c ∧ r.Avoids c) (fun t => t.Avoids c) (fun _ => True)

/-- What the parser ensures: well-typed formulas over known variables and symbols; conjectures and questions are closed and no clauses; there are no watchlist clauses. -/
structure PForm.OK (sg : Sig) (m n : Nat) (w : PForm) : Prop where
  wt : w.form.WT sg
  vars : w.form.AllVars (· ≤ m)
  syms : w.form.SymsBelow n
  type : w.ftype < 7
  goal : w.IsGoal → w.form.Closed ∧ w.isClause = false
  clause : w.isClause = true → w.form.IsDisj

/-- The predicate `$answer` is nowhere true: no answer is accepted. -/
def Interp.NoAnswer {sg : Sig} (ac : Nat) (I : Interp.{u} sg) : Prop := ∀ d, I.fn ac [d] ≠ I.fn 1 []

/-- The axioms imply that one of the goals is true: logical consequence if there is one goal, unsatisfiability of the axioms if there is none. -/
def GoalFollows (sg : Sig) (ws : List PForm) : Prop :=
  ∀ I : Interp.{u} sg, (∀ w ∈ ws, ¬ w.IsGoal → w.form.Valid I) → ∃ w ∈ ws, w.IsGoal ∧ w.form.Valid I

/-- The declaration of `$answer` (TERMS/cte_signature.c:251-290): a predicate on individuals with a code below those of new symbols. -/
structure AnswerDecl (sg : Sig) (ac ind n : Nat) : Prop where
  args : sg.fargs ac = [ind]
  ty : sg.fty ac = sg.fty 1
  dist : ¬ sg.distinct ac
  low : 2 < ac
  high : ac < n

end Verif
