import Mathlib.Data.List.Basic

/-!
# The scanner

Model of INOUT/cio_scanner.c: characters are grouped into tokens.  The input is the list of the characters that remain; the end of the list is
`EOF`.  Positions, the `skipped` flag and the `numval` of a token are not modelled; include files are not followed (`include_key` is `NULL`
for the TPTP-3 syntax).
-/

namespace Verif

namespace Text

/-- The token types (INOUT/cio_scanner.h:49-96). -/
inductive TokT
  | noToken | white | comment | ident | idnum | semIdent | string | sqString | posInt
  | openBracket | closeBracket | openCurly | closeCurly | openSquare | closeSquare
  | lesser | greater | equalSign | negEqualSign | tilde | exclamation | question
  | comma | semicolon | colon | hyphen | plus | mult | fullstop | dollar | slash
  | pipe | ampersand | lrImpl | rlImpl | equiv | xor | nand | nor
  | application | carret | letTok | iteTok
deriving DecidableEq, Repr

/-- A token: its type and the characters read. -/
structure Tok where
  tok : TokT
  lit : List Char
deriving DecidableEq, Repr

/-- `isstartidchar`, `isidchar` (INOUT/cio_scanner.h:181-182) in the C locale. -/
def isStartId (c : Char) : Bool := c.isAlpha || c == '_'
def isIdChar (c : Char) : Bool := c.isAlphanum || c == '_'

/-- `isspace` in the C locale. -/
def isSpaceC (c : Char) : Bool :=
  c == ' ' || c == '\t' || c == '\n' || c == '\r' || c.toNat == 11 || c.toNat == 12

/-- `isprint` in the C locale. -/
def isPrintC (c : Char) : Bool := 32 ≤ c.toNat && c.toNat < 127

/-- The loop of `scan_ident` (INOUT/cio_scanner.c:132-144) over the characters of an identifier: `i` and `numstart`. -/
def numStart : Nat → Nat → List Char → Nat
  | _, ns, [] => ns
  | i, ns, c :: cs =>
    if ns == 0 && c.isDigit then numStart (i + 1) i cs
    else if !c.isDigit then numStart (i + 1) 0 cs
    else numStart (i + 1) ns cs

/-- `scan_ident` (127-158): the longest run of identifier characters. -/
def scanIdent (cs : List Char) : Tok × List Char :=
  let w := cs.takeWhile isIdChar
  (⟨if numStart 0 0 w = 0 then .ident else .idnum, w⟩, cs.dropWhile isIdChar)

/-- The loop of `scan_string` (275-293).  `curr` is only read again from the input if `escape` is not set: after a backslash
the next character is skipped, and what is appended to the token is the backslash once more. -/
def scanStr (delim : Char) : Bool → Char → List Char → List Char → Option (List Char × List Char)
  | _, _, _, [] => none
  | true, curr, acc, _ :: cs => scanStr delim false curr (acc ++ [curr]) cs
  | false, _, acc, c :: cs =>
    if c = delim then some (acc ++ [c], cs)
    else if !isPrintC c && c.toNat ≤ 127 then none
    else scanStr delim (c = '\\') c (acc ++ [c]) cs

/-- The loop of `scan_C_comment` (242-250); at the end of the input the C loop does not stop, the model fails. -/
def scanCComment : List Char → List Char → Option (List Char × List Char)
  | acc, '*' :: '/' :: cs => some (acc ++ ['*', '/'], cs)
  | acc, c :: cs => scanCComment (acc ++ [c]) cs
  | _, [] => none

/-- The one-character tokens of the `switch` (375-512). -/
def single (c : Char) : Option TokT :=
  if c = '(' then some .openBracket
  else if c = ')' then some .closeBracket
  else if c = '{' then some .openCurly
  else if c = '}' then some .closeCurly
  else if c = '[' then some .openSquare
  else if c = ']' then some .closeSquare
  else if c = '>' then some .greater
  else if c = '?' then some .question
  else if c = ',' then some .comma
  else if c = ';' then some .semicolon
  else if c = ':' then some .colon
  else if c = '-' then some .hyphen
  else if c = '+' then some .plus
  else if c = '*' then some .mult
  else if c = '.' then some .fullstop
  else if c = '|' then some .pipe
  else if c = '/' then some .slash
  else if c = '&' then some .ampersand
  else if c = '$' then some .dollar
  else if c = '@' then some .application
  else if c = '^' then some .carret
  else none

/-- The operator tokens of the `switch` (395-470) with their look-ahead, and the one-character tokens. -/
def scanOp : Char → List Char → Option (Tok × List Char)
  | '<', '~' :: '>' :: cs => some (⟨.xor, "<~>".toList⟩, cs)
  | '<', '=' :: '>' :: cs => some (⟨.equiv, "<=>".toList⟩, cs)
  | '<', '=' :: cs => some (⟨.rlImpl, "<=".toList⟩, cs)
  | '<', cs => some (⟨.lesser, ['<']⟩, cs)
  | '=', '>' :: cs => some (⟨.lrImpl, "=>".toList⟩, cs)
  | '=', cs => some (⟨.equalSign, ['=']⟩, cs)
  | '~', '|' :: cs => some (⟨.nor, "~|".toList⟩, cs)
  | '~', '&' :: cs => some (⟨.nand, "~&".toList⟩, cs)
  | '~', cs => some (⟨.tilde, ['~']⟩, cs)
  | '!', '=' :: cs => some (⟨.negEqualSign, "!=".toList⟩, cs)
  | '!', cs => some (⟨.exclamation, ['!']⟩, cs)
  | c, cs => (single c).map fun k => (⟨k, [c]⟩, cs)

/-- `scan_token` (317-522); `none` is a reported error. -/
def scanToken : List Char → Option (Tok × List Char)
  | [] => some (⟨.noToken, []⟩, [])
  | c :: cs =>
    if isSpaceC c then some (⟨.white, (c :: cs).takeWhile isSpaceC⟩, (c :: cs).dropWhile isSpaceC)
    else if isStartId c then some (scanIdent (c :: cs))
    else if c.isDigit then some (⟨.posInt, (c :: cs).takeWhile Char.isDigit⟩, (c :: cs).dropWhile Char.isDigit)
    else if c = '#' || c = '%' then
      some (⟨.comment, (c :: cs).takeWhile (· ≠ '\n') ++ ['\n']⟩, ((c :: cs).dropWhile (· ≠ '\n')).drop 1)
    else if c = '/' && cs.head? = some '*' then
      (scanCComment [] (c :: cs)).map fun r => (⟨.comment, r.1⟩, r.2)
    else if c = '"' || c = '\'' then
      (scanStr c false c [c] cs).map fun r => (⟨if c = '\'' then .sqString else .string, r.1⟩, r.2)
    else if c = '$' && (match cs with | d :: _ => isIdChar d | [] => false) then
      let r := scanIdent cs
      let w := '$' :: r.1.lit
      some (⟨if w = "$let".toList then .letTok else if w = "$ite".toList then .iteTok else .semIdent, w⟩, r.2)
    else scanOp c cs

/-- All tokens of the input, without white space and comments (`scan_real_token`, 602-619).  The C scanner is asked for one token at a
time; the model tokenises the whole input first. -/
def scanLoop : Nat → List Char → Option (List Tok)
  | 0, _ => none
  | n + 1, cs =>
    match scanToken cs with
    | none => none
    | some (t, rest) =>
      if t.tok = .noToken then some []
      else if t.tok = .white || t.tok = .comment then scanLoop n rest
      else (scanLoop n rest).map (t :: ·)

def scan (cs : List Char) : Option (List Tok) := scanLoop (cs.length + 1) cs

end Text

end Verif
