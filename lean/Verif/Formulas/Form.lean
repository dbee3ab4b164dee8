import Verif.Clauses.Sem
import Verif.Orderings.Spec

/-!
# First-order formulas

A formula is a term of Boolean type over the internal symbols `$not`, `$and`, …, `$qall`, `$qex`, `$eq`, `$neq` (CLAUSES/ccl_tformulae.h;
TERMS/cte_signature.c:209-296).  Formulas occurring as arguments of ordinary symbols (FOOL, higher-order) are not modelled: the arguments
of a literal are first-order terms.  Formulas are shared terms, so pointer equality is equality.
-/

namespace Verif

universe u

/-- The binary connectives: `$and`, `$or`, `$impl`, `$equiv`, `$nand`, `$nor`, `$bimpl`, `$xor`. -/
inductive BOp where
  | and | or | impl | equiv | nand | nor | bimpl | xor
deriving DecidableEq, Repr

/-- Formulas: `lit` is `$eq`/`$neq` with two arguments (`TFormulaIsLiteral`), `atom` a Boolean term that is not encoded as an equation
(including `$true` and `$false`), `qu true` is `$qall`, `qu false` is `$qex`. -/
inductive Form where
  | lit (pos : Bool) (l r : Term)
  | atom (t : Term)
  | not (f : Form)
  | bin (op : BOp) (f g : Form)
  | qu (univ : Bool) (x : Nat) (f : Form)
deriving DecidableEq

/-! ## Meaning -/

/-- The truth table of a connective. -/
def BOp.Holds : BOp → Prop → Prop → Prop
  | .and, p, q => p ∧ q
  | .or, p, q => p ∨ q
  | .impl, p, q => p → q
  | .equiv, p, q => p ↔ q
  | .nand, p, q => ¬ (p ∧ q)
  | .nor, p, q => ¬ (p ∨ q)
  | .bimpl, p, q => q → p
  | .xor, p, q => ¬ (p ↔ q)

/-- A valuation changed at one variable. -/
def updv {D : Type u} (v : Nat → D) (x : Nat) (d : D) : Nat → D := fun y => if y = x then d else v y

namespace Form
variable {sg : Sig}

/-- Truth of a formula: quantifiers range over the elements of the type of the variable. -/
def Holds (I : Interp.{u} sg) : Form → (Nat → I.D) → Prop
  | lit pos l r, v => I.LitTrue v ⟨pos, l, r⟩
  | atom t, v => I.eval v t = I.fn 1 []
  | not f, v => ¬ f.Holds I v
  | bin op f g, v => op.Holds (f.Holds I v) (g.Holds I v)
  | qu true x f, v => ∀ d, I.mem (sg.vty x) d → f.Holds I (updv v x d)
  | qu false x f, v => ∃ d, I.mem (sg.vty x) d ∧ f.Holds I (updv v x d)

/-- The formula is true for all values of its free variables. -/
def Valid (I : Interp.{u} sg) (f : Form) : Prop := ∀ v, I.Sorted v → f.Holds I v

/-- Free variables. -/
def FV : Form → Nat → Prop
  | lit _ l r, x => x ∈ l.vars ∨ x ∈ r.vars
  | atom t, x => x ∈ t.vars
  | not f, x => f.FV x
  | bin _ f g, x => f.FV x ∨ g.FV x
  | qu _ y f, x => x ≠ y ∧ f.FV x

/-- Every literal satisfies `Pl`, every atom `Pa`, every quantified variable `Px`. -/
def Parts (Pl : Term → Term → Prop) (Pa : Term → Prop) (Px : Nat → Prop) : Form → Prop
  | lit _ l r => Pl l r
  | atom t => Pa t
  | not f => f.Parts Pl Pa Px
  | bin _ f g => f.Parts Pl Pa Px ∧ g.Parts Pl Pa Px
  | qu _ x f => Px x ∧ f.Parts Pl Pa Px

/-- Well-typed formulas: literals relate terms of the same type, atoms are of the Boolean type. -/
def WT (sg : Sig) : Form → Prop :=
  Parts (fun l r => sg.WT l ∧ sg.WT r ∧ sg.ty l = sg.ty r) (fun t => sg.WT t ∧ sg.ty t = sg.fty 1) (fun _ => True)

/-- All variables, free or quantified, satisfy `P`. -/
def AllVars (P : Nat → Prop) : Form → Prop :=
  Parts (fun l r => (∀ x ∈ l.vars, P x) ∧ ∀ x ∈ r.vars, P x) (fun t => ∀ x ∈ t.vars, P x) P

/-- All symbols have codes below `n`. -/
def SymsBelow (n : Nat) : Form → Prop :=
  Parts (fun l r => l.SymsBelow n ∧ r.SymsBelow n) (fun t => t.SymsBelow n) (fun _ => True)

/-- Negation normal form: literals, conjunctions, disjunctions and quantifiers. -/
def IsNNF : Form → Prop
  | lit _ _ _ => True
  | atom _ => False
  | not _ => False
  | bin op f g => (op = .and ∨ op = .or) ∧ f.IsNNF ∧ g.IsNNF
  | qu _ _ f => f.IsNNF

/-- No exclusive or, negated or reversed connectives. -/
def Basic : Form → Prop
  | lit _ _ _ => True
  | atom _ => True
  | not f => f.Basic
  | bin op f g => (op = .and ∨ op = .or ∨ op = .impl ∨ op = .equiv) ∧ f.Basic ∧ g.Basic
  | qu _ _ f => f.Basic

/-- All quantifiers are universal. -/
def AllQ : Form → Prop
  | .lit _ _ _ => True
  | .atom _ => True
  | .not f => AllQ f
  | .bin _ f g => AllQ f ∧ AllQ g
  | .qu q _ f => q = true ∧ AllQ f

/-- No quantifiers. -/
def QF : Form → Prop
  | .lit _ _ _ => True
  | .atom _ => True
  | .not f => QF f
  | .bin _ f g => QF f ∧ QF g
  | .qu _ _ _ => False

/-- A disjunction of literals. -/
def IsDisj : Form → Prop
  | .lit _ _ _ => True
  | .bin op f g => op = .or ∧ IsDisj f ∧ IsDisj g
  | _ => False

/-- A conjunction of disjunctions of literals. -/
def IsCNF : Form → Prop
  | .lit _ _ _ => True
  | .bin .and f g => IsCNF f ∧ IsCNF g
  | .bin .or f g => IsDisj f ∧ IsDisj g
  | _ => False

/-- The quantified variables, in order. -/
def binders : Form → List Nat
  | .lit _ _ _ => []
  | .atom _ => []
  | .not f => binders f
  | .bin _ f g => binders f ++ binders g
  | .qu _ x f => x :: binders f

/-- Equivalent in every interpretation, for all values of the free variables. -/
def Equiv (sg : Sig) (f g : Form) : Prop := ∀ (I : Interp.{u} sg) (v : Nat → I.D), f.Holds I v ↔ g.Holds I v

end Form

/-- The functions `F` may replace those of the interpretation. -/
structure Interp.FnOK {sg : Sig} (I : Interp.{u} sg) (F : Nat → List I.D → I.D) : Prop where
  mem : ∀ f ds, List.Forall₂ I.mem (sg.fargs f) ds → I.mem (sg.fty f) (F f ds)
  tf : F 1 [] ≠ F 2 []
  bool2 : ∀ d, I.mem (sg.fty 1) d → d = F 1 [] ∨ d = F 2 []
  dist : ∀ f g, sg.distinct f → sg.distinct g → f ≠ g → F f [] ≠ F g []

/-- The interpretation over the same domains with other functions. -/
def Interp.reint {sg : Sig} (I : Interp.{u} sg) (F : Nat → List I.D → I.D) (h : I.FnOK F) : Interp.{u} sg where
  D := I.D
  mem := I.mem
  inhab := I.inhab
  fn := F
  fn_mem := h.mem
  tf := h.tf
  bool2 := h.bool2
  dist := h.dist

end Verif
