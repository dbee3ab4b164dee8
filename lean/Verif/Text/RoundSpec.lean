import Verif.Text.Parse
import Verif.Text.SigSpec

/-!
# Reading what was printed: specification
-/

namespace Verif

namespace Text

/-- The symbol is of the vocabulary and has `n` arguments. -/
def SymOK (V : Vocab) (sg : SigTab) (f n : Nat) : Prop := ∃ e, sg.entry f = some e ∧ e.arity = n ∧ V.ok e.pname e.arity

/-- The vocabulary makes the symbol a predicate. -/
def isPredSym (V : Vocab) (sg : SigTab) (f : Nat) : Bool :=
  match sg.entry f with
  | some e => V.pred (rawName e.pname) e.arity
  | none => false

mutual
/-- Terms over the functions of the vocabulary. -/
def FnTerm (V : Vocab) (sg : SigTab) : Term → Prop
  | .var _ => True
  | .app f ts => SymOK V sg f ts.length ∧ isPredSym V sg f = false ∧ FnTerms V sg ts
def FnTerms (V : Vocab) (sg : SigTab) : List Term → Prop
  | [] => True
  | t :: ts => FnTerm V sg t ∧ FnTerms V sg ts
end

/-- Atoms over the predicates of the vocabulary. -/
def AtomOK (V : Vocab) (sg : SigTab) : Term → Prop
  | .var _ => False
  | .app f ts => SymOK V sg f ts.length ∧ isPredSym V sg f = true ∧ FnTerms V sg ts

/-- The sides of a literal: an atom other than `$false` and `$true`, or two terms. -/
def SidesOK (V : Vocab) (sg : SigTab) (l r : Term) : Prop :=
  (AtomOK V sg l ∧ l ≠ tFalse ∧ r = tTrue) ∨ (FnTerm V sg l ∧ FnTerm V sg r)

def ClauseOK (V : Vocab) (sg : SigTab) (C : List Lit) : Prop := ∀ L ∈ C, SidesOK V sg L.l L.r

/-- Formulas over the vocabulary. -/
def FormOK (V : Vocab) (sg : SigTab) : Form → Prop
  | .lit _ l r => SidesOK V sg l r
  | .atom t => AtomOK V sg t
  | .not f => FormOK V sg f
  | .bin _ f g => FormOK V sg f ∧ FormOK V sg g
  | .qu _ _ f => FormOK V sg f

/-- `$true` and `$false` are predicates of the vocabulary. -/
structure VocabTF (V : Vocab) : Prop where
  t_ok : V.ok "$true".toList 0
  f_ok : V.ok "$false".toList 0
  t_pred : V.pred "$true".toList 0 = true
  f_pred : V.pred "$false".toList 0 = true

/-- `$true` and `$false` have the codes 1 and 2 and are known to be predicates. -/
structure SigTF (sg : SigTab) : Prop where
  t : ∃ e, sg.entry 1 = some e ∧ e.pname = "$true".toList ∧ e.arity = 0 ∧ e.role = .pred
  f : ∃ e, sg.entry 2 = some e ∧ e.pname = "$false".toList ∧ e.arity = 0 ∧ e.role = .pred

/-- The states in which the parser is called. -/
structure ReadOK (V : Vocab) (st : PSt) : Prop where
  sig : SigFor V st.sig
  tf : SigTF st.sig
  bank : st.bank.Inv

mutual
/-- Other symbols, other variables. -/
def mapTerm (h ρ : Nat → Nat) : Term → Term
  | .var x => .var (ρ x)
  | .app f ts => .app (h f) (mapTerms h ρ ts)
def mapTerms (h ρ : Nat → Nat) : List Term → List Term
  | [] => []
  | t :: ts => mapTerm h ρ t :: mapTerms h ρ ts
end

def mapLit (h ρ : Nat → Nat) (L : Lit) : Lit := ⟨L.pos, mapTerm h ρ L.l, mapTerm h ρ L.r⟩

def mapForm (h ρ : Nat → Nat) : Form → Form
  | .lit p l r => .lit p (mapTerm h ρ l) (mapTerm h ρ r)
  | .atom t => .atom (mapTerm h ρ t)
  | .not f => .not (mapForm h ρ f)
  | .bin op f g => .bin op (mapForm h ρ f) (mapForm h ρ g)
  | .qu u x f => .qu u (ρ x) (mapForm h ρ f)

/-- The name printed for a clause. -/
def clauseName (new : Bool) (src num : Nat) : List Char :=
  (if new then 'c' else 'i') :: '_' :: (dec src ++ '_' :: dec num)

/-- `$true != $true`. -/
def falseLit : Lit := ⟨false, tTrue, tTrue⟩

/-- What a clause is read as: every `t != t` is printed as `$false`, and so is the empty clause. -/
def asRead (C : List Lit) : List Lit :=
  if C = [] then [falseLit] else C.map fun L => if L.pos = false ∧ L.l = L.r then falseLit else L

/-- What a formula is read as: a negated atom becomes a negation, a Boolean constant an equation. -/
def asReadForm : Form → Form
  | .lit p l r => if p = false ∧ r = tTrue then .not (.lit true l r) else .lit p l r
  | .atom t => if t = tFalse then .lit false tTrue tTrue else .lit true t tTrue
  | .not f => .not (asReadForm f)
  | .bin op f g => .bin op (asReadForm f) (asReadForm g)
  | .qu u x f => .qu u x (asReadForm f)

/-- The variables of a formula, free or bound. -/
def formVars : Form → List Nat
  | .lit _ l r => l.vars ++ r.vars
  | .atom t => t.vars
  | .not f => formVars f
  | .bin _ f g => formVars f ++ formVars g
  | .qu _ x f => x :: formVars f

mutual
/-- The symbols of a term. -/
def termSyms : Term → List Nat
  | .var _ => []
  | .app f ts => f :: termSymsL ts
def termSymsL : List Term → List Nat
  | [] => []
  | t :: ts => termSyms t ++ termSymsL ts
end

def litSyms (L : Lit) : List Nat := termSyms L.l ++ termSyms L.r

def formSyms : Form → List Nat
  | .lit _ l r => termSyms l ++ termSyms r
  | .atom t => termSyms t
  | .not f => formSyms f
  | .bin _ f g => formSyms f ++ formSyms g
  | .qu _ _ f => formSyms f

end Text

end Verif
