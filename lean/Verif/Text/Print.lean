import Verif.Text.Signature
import Verif.Formulas.Form

/-!
# Printing terms, clauses and formulas

Model of the TPTP-3 output: TERMS/cte_termfunc.c, CLAUSES/ccl_eqn.c, CLAUSES/ccl_eqnlist.c, CLAUSES/ccl_clauses.c and CLAUSES/ccl_tformulae.c for
first-order problems (`problemType == PROBLEM_FO`) and `OutputFormat == TSTPFormat`, with the default settings of the printing flags
(`TermPrintLists` does not matter without list symbols, `TermPrintTypes` and `EqnPrintOriented` off).  The output is a list of
characters.  All variables are of the type of individuals, so that no types are printed.
-/

namespace Verif

namespace Text

/-- `VarPrint` (TERMS/cte_termfunc.c:644-655) for `var = -x`. -/
def varName (x : Nat) : List Char := (if x % 2 = 1 then 'Y' else 'X') :: dec ((x + 1) / 2)

/-- `SigFindName` (TERMS/cte_signature.h:397-407): the printed name. -/
def symName (sg : SigTab) (f : Nat) : List Char :=
  match sg.entry f with
  | some e => e.pname
  | none => []

mutual
/-- `TermPrintFO` (TERMS/cte_termfunc.c:669-720) without bindings, `$let` and lists. -/
def printTerm (sg : SigTab) : Term → List Char
  | .var x => varName x
  | .app f ts => symName sg f ++ printArgs sg ts
/-- `TermPrintArgList` (825-842); nothing for a constant. -/
def printArgs (sg : SigTab) : List Term → List Char
  | [] => []
  | t :: ts => '(' :: (printTerm sg t ++ printRest sg ts)
/-- The loop of `TermPrintArgList` (835-841). -/
def printRest (sg : SigTab) : List Term → List Char
  | [] => [')']
  | t :: ts => ',' :: (printTerm sg t ++ printRest sg ts)
end

/-- `EqnTSTPPrint` (CLAUSES/ccl_eqn.c:1268-1298); `EqnIsPropFalse` holds of every literal `t != t`. -/
def printLit (sg : SigTab) (L : Lit) : List Char :=
  if L.pos = false ∧ L.l = L.r then "$false".toList
  else if L.r ≠ tTrue then printTerm sg L.l ++ (if L.pos then "=".toList else "!=".toList) ++ printTerm sg L.r
  else (if L.pos then [] else ['~']) ++ printTerm sg L.l

/-- `EqnListTSTPPrint` (CLAUSES/ccl_eqnlist.c:1564-1579) with separator `|`. -/
def printLits (sg : SigTab) : List Lit → List Char
  | [] => []
  | [L] => printLit sg L
  | L :: Ls => printLit sg L ++ '|' :: printLits sg Ls

/-- `ClauseTSTPCorePrint` (CLAUSES/ccl_clauses.c:1441-1453). -/
def printClauseCore (sg : SigTab) (C : List Lit) : List Char :=
  '(' :: ((if C = [] then "$false".toList else printLits sg C) ++ [')'])

/-- The types of clauses (`CPTypeMask`, CLAUSES/ccl_clauses.h); `plain` stands for all types printed as "plain". -/
inductive CRole
  | axiom_ | hypothesis | conjecture | lemma_ | watch | negConj | plain
deriving DecidableEq, Repr

/-- The role printed by `ClauseTSTPPrint` (1486-1511). -/
def CRole.print : CRole → List Char
  | .axiom_ => "axiom".toList
  | .hypothesis => "hypothesis".toList
  | .conjecture => "conjecture".toList
  | .lemma_ => "lemma".toList
  | .watch => "watchlist".toList
  | .negConj => "negated_conjecture".toList
  | .plain => "plain".toList

/-- `ClauseTSTPPrint` (CLAUSES/ccl_clauses.c:1469-1549) of an untyped clause, `complete` set; `new` tells if the identifier is that of a
clause read or generated (`c_`) or of an input clause (`i_`), `src` and `num` are the two numbers printed. -/
def printClause (sg : SigTab) (new : Bool) (src num : Nat) (role : CRole) (C : List Lit) : List Char :=
  "cnf(".toList ++ ((if new then 'c' else 'i') :: '_' :: (dec src ++ '_' :: (dec num ++ (", ".toList ++ (role.print ++
    (", ".toList ++ (printClauseCore sg C ++ ").".toList)))))))

/-- The operators (CLAUSES/ccl_tformulae.c:1708-1743). -/
def opName : BOp → List Char
  | .and => "&".toList
  | .or => "|".toList
  | .impl => "=>".toList
  | .equiv => "<=>".toList
  | .nand => "~&".toList
  | .nor => "~|".toList
  | .bimpl => "<=".toList
  | .xor => "<~>".toList

/-- `EqnFOFPrint` (CLAUSES/ccl_eqn.c:1142-1209) of the literal made by `EqnAlloc` from a literal formula (CLAUSES/ccl_tformulae.c:1606-1617). -/
def printFLit (sg : SigTab) (pos : Bool) (l r : Term) : List Char :=
  let L := mkEqn true l r
  let positive := L.pos != !pos
  if L.r ≠ tTrue then printTerm sg L.l ++ (if positive then "=".toList else "!=".toList) ++ printTerm sg L.r
  else (if positive then [] else ['~']) ++ printTerm sg L.l

/-- What is being printed: a formula, the rest of the variable list of a quantifier with the body, or a part of a chain of disjunctions. -/
inductive PMode
  | top | tail (univ : Bool) | orc
deriving DecidableEq

/-- End of a variable list: a body that does not start with the same quantifier. -/
def PMode.wrap (m : PMode) (s : List Char) : List Char :=
  match m with
  | .tail _ => "]:(".toList ++ (s ++ [')'])
  | _ => s

/-- `TFormulaTPTPPrint` (CLAUSES/ccl_tformulae.c:1602-1749) with its loop over equal quantifiers (1651-1664, mode `tail`) and
`tformula_print_or_chain` (1546-1559, mode `orc`).  Atoms are the constants of line 1681. -/
def printForm (sg : SigTab) : Form → PMode → List Char
  | .lit pos l r, m => m.wrap (printFLit sg pos l r)
  | .atom t, m => m.wrap (printTerm sg t)
  | .not f, m => m.wrap ("~(".toList ++ (printForm sg f .top ++ [')']))
  | .bin op f g, m =>
    if op = .or then
      let chain := printForm sg f .orc ++ '|' :: printForm sg g .top
      if m = .orc then chain else m.wrap ('(' :: (chain ++ [')']))
    else m.wrap ('(' :: (printForm sg f .top ++ (opName op ++ (printForm sg g .top ++ [')']))))
  | .qu u x f, m =>
    let start := (if u then "![".toList else "?[".toList) ++ (varName x ++ printForm sg f (.tail u))
    match m with
    | .tail u' => if u = u' then ", ".toList ++ (varName x ++ printForm sg f (.tail u)) else m.wrap start
    | _ => start

end Text

end Verif
