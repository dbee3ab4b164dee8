import Verif.Formulas.Problem

/-!
# Reported answers

Model of the answers to questions printed by the prover (CONTROL/cco_interpreted.c:60-137, called in CONTROL/cco_proofproc.c:1608-1612).
-/

namespace Verif

universe u

/-- `EPPseudoLit` (set in CLAUSES/ccl_eqn.c:659-663): a literal with the predicate `$answer`, of either sign. -/
def Lit.isPseudo (ac : Nat) (L : Lit) : Bool :=
  match L.l with
  | .app f _ => f == ac && L.r == tTrue
  | .var _ => false

/-- `ClauseIsSemFalse` (CLAUSES/ccl_clauses.c:722-734). -/
def clauseSemFalse (ac : Nat) (C : List Lit) : Bool := C.all (Lit.isPseudo ac)

/-- What `answer_lit_print` (CONTROL/cco_interpreted.c:60-88) prints: the arguments of the term under `$answer`, whatever its head, or the literal. -/
inductive AnswerItem where
  | tuple (ts : List Term)
  | odd (L : Lit)

/-- `answer_lit_print` (CONTROL/cco_interpreted.c:60-88).  `SigIsSimpleAnswerPred` holds for `$answer`. -/
def answerItem (ac : Nat) (L : Lit) : AnswerItem :=
  match L.l with
  | .app f (.app _ ts :: _) => if f == ac && L.r == tTrue then .tuple ts else .odd L
  | _ => .odd L

/-- `ClausePrintAnswer` (CONTROL/cco_interpreted.c:109-137): the tuples of the printed disjunction, `none` if nothing is printed. -/
def printAnswer (ac : Nat) (C : List Lit) : Option (List AnswerItem) := if clauseSemFalse ac C && !C.isEmpty then some (C.map (answerItem ac)) else none

/-! ## Specification -/

/-- The formulas whose answers are asked for: if answers are wanted, the questions, and the conjectures if these are to be treated as questions, that begin with existential quantifiers. -/
def asked (p : CnfParams) (ws : List PForm) : List PForm :=
  ws.filter fun w => p.addAnswers && (w.ftype == 6 || (p.conjQuestions && w.ftype == 3)) && !w.form.stripEx.1.isEmpty

/-- The symbol `s` is the one made for the answers to `w`: new symbols are numbered from `n` on in the order of the questions. -/
def AnswerSymbol (p : CnfParams) (ws : List PForm) (n s : Nat) (w : PForm) : Prop := n ≤ s ∧ (asked p ws)[s - n]? = some w

/-- The values of variables after assigning new values from left to right. -/
def updvs {D : Type u} (v : Nat → D) : List Nat → List D → Nat → D
  | x :: xs, d :: ds => updvs (updv v x d) xs ds
  | _, _ => v

/-- The question `∃x₁…xₙ F` is answered by the values `es`: `F` is true if `x₁`, …, `xₙ` have these values. -/
def PForm.Answered {sg : Sig} (w : PForm) (I : Interp.{u} sg) (v : Nat → I.D) (es : List I.D) : Prop := w.form.stripEx.2.Holds I (updvs v w.form.stripEx.1 es)

/-- A conjecture or question without answer literal is true. -/
def OtherGoal {sg : Sig} (p : CnfParams) (ws : List PForm) (I : Interp.{u} sg) : Prop := ∃ w ∈ ws, w.IsGoal ∧ w ∉ asked p ws ∧ w.form.Valid I

end Verif
