import Verif.Text.Signature
import Verif.Clauses.Lit

/-!
# Names and vocabularies: specification
-/

namespace Verif

namespace Text

/-- The inside of a quoted name as the scanner leaves it: printable characters, no delimiter, backslashes in pairs. -/
inductive StrBody (q : Char) : List Char → Prop
  | nil : StrBody q []
  | char {c : Char} {b : List Char} : c ≠ q → c ≠ '\\' → (isPrintC c = true ∨ 127 < c.toNat) → StrBody q b → StrBody q (c :: b)
  | esc {b : List Char} : StrBody q b → StrBody q ('\\' :: '\\' :: b)

/-- Lower case identifiers. -/
def LowerName (nm : List Char) : Prop :=
  ∃ c cs, nm = c :: cs ∧ c.isLower = true ∧ ∀ d ∈ cs, isIdChar d = true

/-- Names with a dollar sign, apart from the three with a syntax of their own. -/
def DollarName (nm : List Char) : Prop :=
  ∃ cs, nm = '$' :: cs ∧ cs ≠ [] ∧ (∀ d ∈ cs, isIdChar d = true) ∧
    nm ≠ "$let".toList ∧ nm ≠ "$ite".toList ∧ nm ≠ "$distinct".toList

/-- Names in quotes `q`. -/
def QuotedName (q : Char) (nm : List Char) : Prop := ∃ b, nm = q :: (b ++ [q]) ∧ StrBody q b

/-- Names of function and predicate symbols: identifiers, dollar words, single quoted names, distinct objects in double quotes.
(Numbers are not covered.) -/
def NameOK (nm : List Char) : Prop :=
  LowerName nm ∨ DollarName nm ∨ QuotedName '\'' nm ∨ QuotedName '"' nm

/-- A vocabulary: the symbols (name as written, arity) that may occur, and which of them are predicates.  A quoted name has one arity
only; no name looks like the internal key of a symbol with a second arity. -/
structure Vocab where
  ok : List Char → Nat → Prop
  pred : List Char → Nat → Bool
  name_ok : ∀ {nm n}, ok nm n → NameOK nm
  no_fix : ∀ {nm n}, ok nm n → ∀ s k, rawName nm ≠ fixName s k
  quoted : ∀ {nm n nm' n'}, ok nm n → ok nm' n' → rawName nm = rawName nm' → nm.head? = some '\'' → n = n'

/-- A name in single quotes. -/
def quote (nm : List Char) : List Char := '\'' :: (nm ++ ['\''])

/-- Two ways of writing the same name: quotes around a lower case identifier do not matter. -/
def SameName (a b : List Char) : Prop := a = b ∨ (LowerName b ∧ a = quote b) ∨ (LowerName a ∧ b = quote a)

/-- Symbols (name as written, arity) that the key of `SigInsertId` tells apart: names of the forms above, none that looks like the key of a
second arity, no dollar word or distinct object inside single quotes, and no quoted name with two arities. -/
structure GoodNames (rs : List (List Char × Nat)) : Prop where
  name_ok : ∀ p ∈ rs, NameOK p.1
  no_fix : ∀ p ∈ rs, ∀ s k, rawName p.1 ≠ fixName s k
  inner : ∀ p ∈ rs, p.1.head? = some '\'' → (rawName p.1).head? ≠ some '$' ∧ (rawName p.1).head? ≠ some '"'
  quoted : ∀ p ∈ rs, ∀ q ∈ rs, SameName p.1 q.1 → p.1.head? = some '\'' → p.2 = q.2

/-- The symbol of a code: its name without quotes and its arity. -/
def SigTab.sym (sg : SigTab) (f : Nat) : Option (List Char × Nat) :=
  (sg.entry f).map fun e => (rawName e.pname, e.arity)

/-- An entry for the first arity of a name, for a further arity, or of no symbol of the vocabulary. -/
inductive EntryFor (V : Vocab) (sg : SigTab) (e : SymEntry) : Prop
  | plain (h : e.name = rawName e.pname) (ok : V.ok e.pname e.arity)
  | fix (h : e.name = fixName e.pname e.arity) (ok : V.ok e.pname e.arity) (hq : e.pname.head? ≠ some '\'')
      (p : SymEntry) (hp : p ∈ sg) (hn : p.name = e.pname) (ha : p.arity ≠ e.arity)
  | foreign (h : ∀ nm n, V.ok nm n → e.name ≠ rawName nm ∧ e.name ≠ fixName nm n ∧ rawName e.pname ≠ rawName nm)

/-- A signature built by reading symbols of the vocabulary (in addition to internal symbols). -/
structure SigFor (V : Vocab) (sg : SigTab) : Prop where
  ent : ∀ e ∈ sg, EntryFor V sg e
  nodup : (sg.map (·.name)).Nodup
  role : ∀ e ∈ sg, V.ok e.pname e.arity →
    e.role = .unk ∨ e.role = if V.pred (rawName e.pname) e.arity then .pred else .fn

/-- The second signature has all symbols of the first under the same codes. -/
def SigExt (sg sg' : SigTab) : Prop :=
  ∀ f e, sg.entry f = some e →
    ∃ e', sg'.entry f = some e' ∧ e'.name = e.name ∧ e'.pname = e.pname ∧ e'.arity = e.arity

end Text

end Verif
