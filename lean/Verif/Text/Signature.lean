import Verif.Text.Scanner

/-!
# Symbol names

Model of the part of TERMS/cte_signature.c that turns names into symbol codes: `SigFindFCode` and `SigInsertId`.  The code of a symbol is its
position in `f_info`, starting with 1.  `f_index` is the first entry with a key (a second insertion of a key does not change the tree).
-/

namespace Verif

namespace Text

/-- What is known about the use of a symbol: nothing yet (type inferred, not fixed), a function, or a predicate
(`FPTypeFixed` and the type; TERMS/cte_signature.c:400-462). -/
inductive Role
  | unk | fn | pred
deriving DecidableEq, Repr

/-- `FuncCell` (TERMS/cte_signature.h): key, printed name, arity, role. -/
structure SymEntry where
  name : List Char
  pname : List Char
  arity : Nat
  role : Role := .unk
deriving DecidableEq, Repr

abbrev SigTab := List SymEntry

/-- Decimal digits (`DStrAppendInt`, `%ld`). -/
def dec (n : Nat) : List Char :=
  if n < 10 then [Char.ofNat (48 + n)] else dec (n / 10) ++ [Char.ofNat (48 + n % 10)]
termination_by n
decreasing_by omega

/-- A name in single quotes without the quotes: first and last character dropped (TERMS/cte_signature.c:368-373, 672-676). -/
def rawName : List Char → List Char
  | '\'' :: cs => cs.dropLast
  | cs => cs

/-- `SigFindFCode` (TERMS/cte_signature.c:362-385): position of the first entry with the key. -/
def sigFind (sg : SigTab) (name : List Char) : Option Nat :=
  (sg.findIdx? (fun e => e.name = rawName name)).map (· + 1)

/-- The entry of a code. -/
def SigTab.entry (sg : SigTab) (f : Nat) : Option SymEntry :=
  match f with
  | 0 => none
  | f + 1 => sg[f]?

/-- The key of a symbol used with a second arity (688-695). -/
def fixName (name : List Char) (arity : Nat) : List Char :=
  name ++ "_ARITYFIX".toList ++ dec arity ++ [' ']

/-- `SigInsertId` (TERMS/cte_signature.c:662-757) for first-order problems, `MULTI_ARITY_HACK` defined: code and new table. -/
def sigInsert (sg : SigTab) (name : List Char) (arity : Nat) : Nat × SigTab :=
  match sigFind sg (rawName name) with
  | some p =>
    if (sg.entry p).map (·.arity) ≠ some arity then
      match sigFind sg (fixName name arity) with
      | some q => (q, sg)
      | none => (sg.length + 1, sg ++ [{ name := fixName name arity, pname := rawName name, arity }])
    else (p, sg)
  | none => (sg.length + 1, sg ++ [{ name := rawName name, pname := name, arity }])

/-- Several symbols are read one after the other: the codes they get. -/
def sigReadAll (sg : SigTab) : List (List Char × Nat) → List Nat × SigTab
  | [] => ([], sg)
  | (nm, n) :: rs =>
    let r := sigInsert sg nm n
    let q := sigReadAll r.2 rs
    (r.1 :: q.1, q.2)

/-- The first two entries of every signature, `$true` and `$false` (TERMS/cte_signature.c:141-149). -/
def sigInit : SigTab :=
  [{ name := "$true".toList, pname := "$true".toList, arity := 0, role := .pred },
   { name := "$false".toList, pname := "$false".toList, arity := 0, role := .pred }]

end Text

end Verif
