import Verif.Formulas.Problem

/-!
# The predicate `$distinct`

Model of `ProofStateProcessDistinct` (CLAUSES/ccl_proofstate.c:470-500), called after parsing (PROVER/eprover.c:220), and `TFormulaExpandDistinct` (CLAUSES/ccl_tformulae.c:2793-2814).
-/

namespace Verif

universe u

/-- A formula of the input: `$distinct(c₁, …, cₖ)` with constants as whole formula (`TSTPDistinctParse`, CLAUSES/ccl_tformulae.c:2119-2170; the parser admits it nowhere else,
TERMS/cte_termfunc.c:1086) with its type, or another formula. -/
inductive InForm where
  | plain (w : PForm)
  | distinct (ftype : Nat) (cs : List Nat)

/-- One round of the outer loop of `TFormulaExpandDistinct` (CLAUSES/ccl_tformulae.c:2801-2808): what is pushed for the element `c`. -/
def disequsFrom (c : Nat) (cs : List Nat) : List Form := cs.map fun d => .lit false (.app c []) (.app d [])

/-- The loops of `TFormulaExpandDistinct` (CLAUSES/ccl_tformulae.c:2799-2809): the stack, in the order of pushing. -/
def disequs : List Nat → List Form
  | [] => []
  | c :: cs => disequsFrom c cs ++ disequs cs

/-- `TFormulaStackToForm` (CLAUSES/ccl_tformulae.c:2762-2777): the stack is emptied from its end, given as a list from top to bottom with the result so far. -/
def popToForm (op : BOp) : List Form → Form → Form
  | [], res => res
  | h :: st, res => popToForm op st (.bin op h res)

/-- `TFormulaStackToForm` (CLAUSES/ccl_tformulae.c:2762-2777); the stack in the order of pushing. -/
def stackToForm (op : BOp) (st : List Form) : Form :=
  match st.reverse with
  | [] => .atom tTrue
  | h :: st' => popToForm op st' h

/-- `TFormulaExpandDistinct` (CLAUSES/ccl_tformulae.c:2793-2814). -/
def expandDistinct (cs : List Nat) : Form := stackToForm .and (disequs cs)

/-- The formulas that are not `$distinct`. -/
def plainForms (fs : List InForm) : List PForm := fs.filterMap fun | .plain w => some w | .distinct _ _ => none

/-- The stack of `ProofStateProcessDistinct` (CLAUSES/ccl_proofstate.c:477-485). -/
def distinctForms (fs : List InForm) : List (List Nat) := fs.filterMap fun | .plain _ => none | .distinct _ cs => some cs

/-- `ProofStateProcessDistinct` (CLAUSES/ccl_proofstate.c:470-500): the formulas found are replaced by new ones at the end of the set, the last first.  `WTFormulaAlloc` (CLAUSES/
ccl_formula_wrapper.c:129-169) sets no properties; the type is 0. -/
def processDistinct (fs : List InForm) : List PForm := plainForms fs ++ (distinctForms fs).reverse.map fun cs => ⟨0, false, expandDistinct cs⟩

/-! ## Specification -/

/-- Truth of a formula of the input: different constants in the list have different values. -/
def InForm.Valid {sg : Sig} (I : Interp.{u} sg) : InForm → Prop
  | .plain w => w.form.Valid I
  | .distinct _ cs => (cs.map fun c => I.fn c []).Nodup

/-- Conjectures and questions. -/
def InForm.IsGoal : InForm → Prop
  | .plain w => w.IsGoal
  | .distinct t _ => t = 3 ∨ t = 6

/-- The axioms of the input imply one of its goals. -/
def InputFollows (sg : Sig) (fs : List InForm) : Prop :=
  ∀ I : Interp.{u} sg, (∀ f ∈ fs, ¬ f.IsGoal → f.Valid I) → ∃ f ∈ fs, f.IsGoal ∧ f.Valid I

/-- What the parser ensures: for `$distinct` constants of the same type. -/
def InForm.OK (sg : Sig) (m n : Nat) : InForm → Prop
  | .plain w => PForm.OK sg m n w
  | .distinct t cs => t < 7 ∧ ∃ ty, ∀ c ∈ cs, c < n ∧ sg.fargs c = [] ∧ sg.fty c = ty

end Verif
