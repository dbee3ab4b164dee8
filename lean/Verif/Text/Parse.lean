import Verif.Text.Print
import Verif.Terms.VarBank

/-!
# Parsing terms, clauses and formulas

Model of the TPTP-3 parser for first-order problems: TERMS/cte_termbanks.c, CLAUSES/ccl_eqn.c, CLAUSES/ccl_eqnlist.c, CLAUSES/ccl_clauses.c and
CLAUSES/ccl_tformulae.c.  The input is the list of tokens that remain; `none` is a reported error.  Recursion is bounded by a fuel argument;
out of fuel is also `none`.

Not modelled: type annotations, lists, `$let`, `$ite`, numbers, formulas as arguments, higher-order syntax; all of these are errors of the model.
-/

namespace Verif

namespace Text

/-- The state of the parser: symbols, variables, and the names of variables (`ext_index`, TERMS/cte_termvars.h). -/
structure PSt where
  sig : SigTab
  bank : VarBank
  ext : List (List Char × Nat)

/-- `AktToken(in)->tok`. -/
def akt : List Tok → TokT
  | [] => .noToken
  | t :: _ => t.tok

/-- `AcceptInpTok` for one type of token. -/
def accept (k : TokT) : List Tok → Option (List Tok)
  | [] => none
  | t :: ts => if t.tok = k then some ts else none

/-- `VarBankExtNameAssertAlloc` (TERMS/cte_termvars.c:602-626); `ti` is the default type. -/
def extVar (ti : Nat) (st : PSt) (nm : List Char) : Nat × PSt :=
  match st.ext.lookup nm with
  | some x => (x, st)
  | none => ((st.bank.getFresh ti).1, { st with bank := (st.bank.getFresh ti).2, ext := (nm, (st.bank.getFresh ti).1) :: st.ext })

/-- Set the role of a symbol. -/
def SigTab.setRole (sg : SigTab) (f : Nat) (r : Role) : SigTab := sg.modify (f - 1) fun e => { e with role := r }

def SigTab.roleOf (sg : SigTab) (f : Nat) : Option Role := (sg.entry f).map (·.role)

/-- A symbol is used as a function: the end of `tb_subterm_parse` (TERMS/cte_termbanks.c:504-525), `TypeDeclareIsNotPredicate`
(TERMS/cte_typecheck.c:443-450) with `SigDeclareIsFunction` (TERMS/cte_signature.c:1639-1663); an error if it is known to be a predicate. -/
def declFn (st : PSt) : Term → Option PSt
  | .var _ => some st
  | .app f _ => if st.sig.roleOf f = some .pred then none else some { st with sig := st.sig.setRole f .fn }

/-- `FuncSymbToken` (TERMS/cte_functypes.c:34-37). -/
def isFuncSym (k : TokT) : Bool := k = .ident || k = .idnum || k = .semIdent || k = .sqString || k = .string

/-- `FSIdentVar` (TERMS/cte_functypes.c:243-250, with the correction TERMS/cte_termfunc.c:1095-1102): an identifier that starts with an
upper case letter or an underscore and is not followed by a bracket. -/
def isVarTok (t : Tok) (ts : List Tok) : Bool :=
  (t.tok = .ident || t.tok = .idnum) && (match t.lit with | c :: _ => c.isUpper || c == '_' | [] => false) && akt ts ≠ .openBracket

mutual
/-- `TBTermParseReal` (TERMS/cte_termbanks.c:1716-1836). -/
def parseTerm (ti : Nat) : Nat → PSt → List Tok → Option (Term × PSt × List Tok)
  | 0, _, _ => none
  | _ + 1, _, [] => none
  | n + 1, st, t :: ts =>
    if !isFuncSym t.tok || t.lit = "$distinct".toList then none
    else if isVarTok t ts then
      if akt ts = .colon then none
      else some (.var (extVar ti st t.lit).1, (extVar ti st t.lit).2, ts)
    else if akt ts = .openBracket then
      match parseArgs ti n st ts.tail with
      | none => none
      | some (as, st', ts') =>
        let r := sigInsert st'.sig t.lit as.length
        some (.app r.1 as, { st' with sig := r.2 }, ts')
    else
      let r := sigInsert st.sig t.lit 0
      some (.app r.1 [], { st with sig := r.2 }, ts)
/-- `tb_term_parse_arglist` (678-721) after the opening bracket. -/
def parseArgs (ti : Nat) : Nat → PSt → List Tok → Option (List Term × PSt × List Tok)
  | 0, _, _ => none
  | n + 1, st, ts => if akt ts = .closeBracket then some ([], st, ts.tail) else parseArgs1 ti n st ts
/-- One or more arguments; every argument is parsed by `tb_subterm_parse` (500-527). -/
def parseArgs1 (ti : Nat) : Nat → PSt → List Tok → Option (List Term × PSt × List Tok)
  | 0, _, _ => none
  | n + 1, st, ts =>
    match parseTerm ti n st ts with
    | none => none
    | some (a, st1, ts1) =>
      match declFn st1 a with
      | none => none
      | some st2 =>
        if akt ts1 = .comma then
          match parseArgs1 ti n st2 ts1.tail with
          | none => none
          | some (as, st3, ts3) => some (a :: as, st3, ts3)
        else (accept .closeBracket ts1).map fun ts2 => ([a], st2, ts2)
end

/-- The right side of an equation (CLAUSES/ccl_eqn.c:516-527, 542-558): sign and term. -/
def parseRhs (ti : Nat) (n : Nat) (st : PSt) (ts : List Tok) : Option (Bool × Term × PSt × List Tok) :=
  if akt ts = .equalSign ∨ akt ts = .negEqualSign then
    match parseTerm ti n st ts.tail with
    | none => none
    | some (r, st', ts') => (declFn st' r).map fun st'' => (decide (akt ts = .equalSign), r, st'', ts')
  else none

/-- `EqnParseInfix` (CLAUSES/ccl_eqn.c:461-598): sign, left side, right side.  A function term that is not followed by an equality sign
is an error of the model. -/
def parseInfix (ti : Nat) (n : Nat) (st : PSt) (ts : List Tok) : Option (Bool × Term × Term × PSt × List Tok) :=
  match parseTerm ti n st ts with
  | none => none
  | some (l0, st1, ts1) =>
    let l := if l0 = tFalse then tTrue else l0
    let positive := decide (l0 ≠ tFalse)
    match l with
    | .app f as =>
      if st1.sig.roleOf f = some .pred then some (positive, l, tTrue, st1, ts1)
      else if st1.sig.roleOf f = some .fn ∨ akt ts1 = .equalSign ∨ akt ts1 = .negEqualSign then
        match declFn st1 (.app f as) with
        | none => none
        | some st2 => (parseRhs ti n st2 ts1).map fun r => (if r.1 then positive else !positive, l, r.2.1, r.2.2.1, r.2.2.2)
      else some (positive, l, tTrue, { st1 with sig := st1.sig.setRole f .pred }, ts1)
    | .var _ => (parseRhs ti n st1 ts1).map fun r => (if r.1 then positive else !positive, l, r.2.1, r.2.2.1, r.2.2.2)

/-- `EqnParse`, `eqn_parse_real` (762-772, 383-441): an optional negation, then an atom; the literal is built by `EqnAlloc`. -/
def parseLit (ti : Nat) (n : Nat) (st : PSt) (ts : List Tok) : Option (Lit × PSt × List Tok) :=
  let neg := akt ts = .tilde
  match parseInfix ti n st (if neg then ts.tail else ts) with
  | none => none
  | some (p, l, r, st', ts') => some (mkEqn (if neg then !p else p) l r, st', ts')

/-- The loop of `EqnListParse` (CLAUSES/ccl_eqnlist.c:1608-1615) with separator `|`. -/
def parseLits1 (ti : Nat) : Nat → PSt → List Tok → Option (List Lit × PSt × List Tok)
  | 0, _, _ => none
  | n + 1, st, ts =>
    match parseLit ti n st ts with
    | none => none
    | some (L, st1, ts1) =>
      if akt ts1 = .pipe then (parseLits1 ti n st1 ts1.tail).map fun r => (L :: r.1, r.2.1, r.2.2)
      else some ([L], st1, ts1)

/-- `EqnListParse` (1594-1618). -/
def parseLits (ti : Nat) (n : Nat) (st : PSt) (ts : List Tok) : Option (List Lit × PSt × List Tok) :=
  if isFuncSym (akt ts) || akt ts = .tilde || akt ts = .posInt || akt ts = .plus || akt ts = .hyphen || akt ts = .mult then
    parseLits1 ti n st ts
  else some ([], st, ts)

/-- `ClauseTypeParse` with the types allowed in TPTP-3 clauses (CLAUSES/ccl_clauses.c:1594-1639, 1705-1708). -/
def parseRole (lit : List Char) : Option CRole :=
  if lit = "axiom".toList ∨ lit = "definition".toList ∨ lit = "theorem".toList then some .axiom_
  else if lit = "assumption".toList ∨ lit = "negated_conjecture".toList then some .negConj
  else if lit = "hypothesis".toList then some .hypothesis
  else if lit = "lemma".toList then some .lemma_
  else if lit = "watchlist".toList then some .watch
  else if lit = "unknown".toList ∨ lit = "plain".toList then some .plain
  else none

/-- `ClauseParse` (CLAUSES/ccl_clauses.c:1655-1795) for the TPTP-3 format and `ClausesHaveLocalVariables`: name, role, literals.  The
optional source and annotations after the literals are an error of the model. -/
def parseClause (ti : Nat) (n : Nat) (st : PSt) (ts : List Tok) :
    Option ((List Char × CRole × List Lit) × PSt × List Tok) :=
  let st := { st with ext := [], bank := st.bank.reset }
  match ts with
  | k :: t1 :: nm :: t2 :: rl :: t3 :: ts =>
    if (k.tok = .ident ∨ k.tok = .idnum) ∧ k.lit = "cnf".toList ∧ t1.tok = .openBracket ∧
        (nm.tok = .ident ∨ nm.tok = .idnum ∨ nm.tok = .string ∨ nm.tok = .posInt ∨ nm.tok = .sqString) ∧ t2.tok = .comma ∧
        rl.tok = .ident ∧ t3.tok = .comma then
      match parseRole rl.lit with
      | none => none
      | some role =>
        let body :=
          if akt ts = .openBracket then
            match parseLits ti n st ts.tail with
            | none => none
            | some (C, st', ts') => (accept .closeBracket ts').map fun ts'' => (C, st', ts'')
          else parseLits ti n st ts
        match body with
        | none => none
        | some (C, st', ts') =>
          match accept .closeBracket ts' with
          | none => none
          | some ts2 => (accept .fullstop ts2).map fun ts3 => ((nm.lit, role, C), st', ts3)
    else none
  | _ => none

/-- `ClauseParse` on the characters of the input.  (The depth of the recursion is bounded by the number of tokens.) -/
def readClause (ti : Nat) (st : PSt) (cs : List Char) : Option ((List Char × CRole × List Lit) × PSt × List Tok) :=
  match scan cs with
  | none => none
  | some ts => parseClause ti (4 * ts.length + 4) st ts

/-- `tptp_operator_parse`, `tptp_operator_convert`: the connectives `FOFBinOp` other than the equality signs. -/
def tokOp : TokT → Option BOp
  | .ampersand => some .and
  | .pipe => some .or
  | .lrImpl => some .impl
  | .rlImpl => some .bimpl
  | .equiv => some .equiv
  | .xor => some .xor
  | .nand => some .nand
  | .nor => some .nor
  | _ => none

/-- `parse_atom` (CLAUSES/ccl_tformulae.c:398-412) and `EncodePredicateAsEqn` (1313-1356), which leaves equations as they are. -/
def parseAtom (ti : Nat) (n : Nat) (st : PSt) (ts : List Tok) : Option (Form × PSt × List Tok) :=
  (parseInfix ti n st ts).map fun r => (.lit r.1 r.2.1 r.2.2.1, r.2.2.2.1, r.2.2.2.2)

mutual
/-- `literal_tform_tstp_parse` (CLAUSES/ccl_tformulae.c:734-793). -/
def parseULit (ti : Nat) : Nat → PSt → List Tok → Option (Form × PSt × List Tok)
  | 0, _, _ => none
  | n + 1, st, ts =>
    if akt ts = .exclamation ∨ akt ts = .question then
      match accept .openSquare ts.tail with
      | none => none
      | some ts1 => parseQuant ti n (decide (akt ts = .exclamation)) st ts1
    else if akt ts = .openBracket then
      match parseForm ti n st ts.tail with
      | none => none
      | some (f, st', ts') => (accept .closeBracket ts').map fun ts'' => (f, st', ts'')
    else if akt ts = .tilde then
      match parseULit ti n st ts.tail with
      | none => none
      | some (f, st', ts') => some (.not f, st', ts')
    else parseAtom ti n st ts
/-- `quantified_tform_tstp_parse` (569-627); without types the stack of scopes (`VarBankPushEnv`, `VarBankPopEnv`) stays empty.
A formula followed by an equality sign (`absorb_infix_eqn_tstp_parse`, 531-552) is an error of the model. -/
def parseQuant (ti : Nat) : Nat → Bool → PSt → List Tok → Option (Form × PSt × List Tok)
  | 0, _, _, _ => none
  | n + 1, u, st, ts =>
    match parseTerm ti n st ts with
    | some (.var x, st1, ts1) =>
      if akt ts1 = .comma then
        (parseQuant ti n u st1 ts1.tail).map fun r => (.qu u x r.1, r.2.1, r.2.2)
      else
        match accept .closeSquare ts1 with
        | none => none
        | some ts2 =>
          match accept .colon ts2 with
          | none => none
          | some ts3 =>
            match parseULit ti n st1 ts3 with
            | none => none
            | some (f, st2, ts4) =>
              if akt ts4 = .equalSign ∨ akt ts4 = .negEqualSign then none else some (.qu u x f, st2, ts4)
    | _ => none
/-- `TFormulaTSTPParse` (1971-2010).  Equality signs between formulas are an error of the model. -/
def parseForm (ti : Nat) : Nat → PSt → List Tok → Option (Form × PSt × List Tok)
  | 0, _, _ => none
  | n + 1, st, ts =>
    match parseULit ti n st ts with
    | none => none
    | some (f, st1, ts1) =>
      if akt ts1 = .ampersand ∨ akt ts1 = .pipe then parseAssoc ti n (akt ts1) f st1 ts1
      else if akt ts1 = .equalSign ∨ akt ts1 = .negEqualSign ∨ akt ts1 = .application then none
      else
        match tokOp (akt ts1) with
        | some op => (parseULit ti n st1 ts1.tail).map fun r => (.bin op f r.1, r.2.1, r.2.2)
        | none => some (f, st1, ts1)
/-- `assoc_tform_tstp_parse` (643-659). -/
def parseAssoc (ti : Nat) : Nat → TokT → Form → PSt → List Tok → Option (Form × PSt × List Tok)
  | 0, _, _, _, _ => none
  | n + 1, k, head, st, ts =>
    if akt ts = k then
      match tokOp k, parseULit ti n st ts.tail with
      | some op, some (f, st1, ts1) => parseAssoc ti n k (.bin op head f) st1 ts1
      | _, _ => none
    else some (head, st, ts)
end

/-- `TFormulaTSTPParse` on the characters of the input. -/
def readForm (ti : Nat) (st : PSt) (cs : List Char) : Option (Form × PSt × List Tok) :=
  match scan cs with
  | none => none
  | some ts => parseForm ti (4 * ts.length + 4) st ts

end Text

end Verif
