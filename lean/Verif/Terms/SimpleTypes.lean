/-!
# Simple types

Model of TERMS/cte_simpletypes.c, of the type bank (TERMS/cte_typebanks.c) with the parser and the printer for types, and of
`term_determine_type` (TERMS/cte_typecheck.c:52-74).

Simplified: names are numbers, the input is the list of tokens; shared cells are addressed by position; the trees in which cells are stored
(C32) are a list; buckets are not modelled.  Left out: application encoding, inference of the types of undeclared symbols.
-/

namespace Verif

/-- `TypeCell` (TERMS/cte_simpletypes.h): code 0 is `ArrowTypeCons`; the last argument of an arrow type is the type of the result. -/
inductive STy where
  | con (c : Nat) (args : List STy)
deriving Inhabited

def STy.code : STy → Nat
  | .con c _ => c

def STy.args : STy → List STy
  | .con _ ts => ts

/-- `TypeIsArrow` (TERMS/cte_simpletypes.h). -/
def STy.isArrow (t : STy) : Bool := t.code == 0

/-- `TypeIsBool`, with `STBool` = 1. -/
def STy.isBool (t : STy) : Bool := t.code == 1

/-- `TypeIsPredicate`. -/
def STy.isPredicate (t : STy) : Bool :=
  t.isBool || (t.isArrow && match t.args.getLast? with
    | some r => r.isBool
    | none => false)

/-- `AllocArrowType` (TERMS/cte_simpletypes.h). -/
def allocArrow : List STy → STy
  | [t] => t
  | ts => .con 0 ts

/-- `FlattenType` (TERMS/cte_simpletypes.c:285-313). -/
def flattenType (t : STy) : STy :=
  match t.args.getLast? with
  | some r => if r.isArrow then allocArrow (t.args.dropLast ++ r.args) else t
  | none => t

/-- `ArrowTypeFlattened` (TERMS/cte_simpletypes.c:429-452). -/
def arrowFlattened (args : List STy) (ret : STy) : STy :=
  if args.isEmpty then ret else flattenType (allocArrow (args ++ [ret]))

/-- `TypeDropFirstArg` (TERMS/cte_simpletypes.c:467-487). -/
def dropFirstArg (t : STy) : STy :=
  match t.args with
  | [_, r] => r
  | ts => allocArrow (ts.drop 1)

/-- `term_determine_type` (TERMS/cte_typecheck.c:52-74): the type of a symbol of arrow type `t` applied to `n` arguments. -/
def determineType (t : STy) (n : Nat) : Option STy :=
  if t.args.length - 1 = n then t.args[n]?
  else if t.args.length - 1 < n then none
  else some (allocArrow (t.args.drop n))

/- The comparison of types in `IsChoiceType` is one of pointers to shared cells (`type_sharing`). -/
mutual
def STy.beq : STy → STy → Bool
  | .con c ts, .con d us => c == d && STy.beqL ts us
def STy.beqL : List STy → List STy → Bool
  | [], [] => true
  | t :: ts, u :: us => t.beq u && STy.beqL ts us
  | _, _ => false
end

/-- `IsChoiceType` (TERMS/cte_simpletypes.c:501-528). -/
def isChoiceType (t : STy) : Bool :=
  match t.args with
  | p :: rest =>
    if t.isArrow && t.args.length ≥ 2 && (p.isArrow && p.args.length == 2 && p.isPredicate) then
      match p.args with
      | a :: _ =>
        if a.isArrow && a.args.length == t.args.length - 1 then STy.beqL a.args rest
        else if !a.isArrow && t.args.length == 2 then
          match rest with
          | r :: _ => a.beq r
          | [] => false
        else false
      | [] => false
    else false
  | [] => false

/-! ## Shared types -/

/- `TypeBankInsertTypeShared` (TERMS/cte_typebanks.c:407-441) with `force_arg_sharing` (148-159): a cell is a code with the positions of
the arguments. -/
mutual
def insertType : STy → List (Nat × List Nat) → Nat × List (Nat × List Nat)
  | .con c ts, cs =>
    let r := insertTypes ts cs
    match r.2.findIdx? (· == (c, r.1)) with
    | some i => (i, r.2)
    | none => (r.2.length, r.2 ++ [(c, r.1)])
def insertTypes : List STy → List (Nat × List Nat) → List Nat × List (Nat × List Nat)
  | [], cs => ([], cs)
  | t :: ts, cs =>
    let r := insertType t cs
    let r' := insertTypes ts r.2
    (r.1 :: r'.1, r'.2)
end

/-! ## Parsing and printing -/

inductive TTok where
  | name (x : Nat)
  | lpar | rpar | comma | gt | star | fullstop | rsquare | eq | neq | binop | other
deriving DecidableEq

/-- `back_idx` of a type bank (`names`): name and number of arguments of each constructor; a code is a position. -/
abbrev TNames := List (Nat × Nat)

/-- `TypeBankFindTCCode`, `TypeBankFindTCArity`, `TypeBankDefineTypeConstructor` as used by `parse_single_type`
(TERMS/cte_typebanks.c:239-252, 259-271): the code of a name used with `k` arguments. -/
def tcCode (N : TNames) (x k : Nat) : Option (Nat × TNames) :=
  match N.findIdx? (·.1 == x) with
  | none => some (N.length, N ++ [(x, k)])
  | some c => if (N[c]?.map (·.2)) = some k then some (c, N) else none

/- `parse_single_type` (TERMS/cte_typebanks.c:194-277); `none` also if `n` is too small. -/
mutual
def parseSingle : Nat → List TTok → TNames → Option (STy × List TTok × TNames)
  | n + 1, .name x :: .lpar :: r, N =>
    (parseTypeArgs n r N).bind fun (ts, r, N) =>
      match r with
      | .rpar :: r => (tcCode N x ts.length).map fun (c, N) => (.con c ts, r, N)
      | _ => none
  | _ + 1, .name x :: r, N => (tcCode N x 0).map fun (c, N) => (.con c [], r, N)
  | _, _, _ => none
/-- The arguments (212-236); `ensure_not_kind` with `STKind` = 3. -/
def parseTypeArgs : Nat → List TTok → TNames → Option (List STy × List TTok × TNames)
  | n + 1, r, N =>
    (parseSingle n r N).bind fun (t, r, N) =>
      if t.code = 3 then none
      else match r with
        | .comma :: r => (parseTypeArgs n r N).map fun (ts, r, N) => (t :: ts, r, N)
        | _ => some ([t], r, N)
  | 0, _, _ => none
end

/-- The tokens after which a type is complete (TERMS/cte_typebanks.c:684-685). -/
def TTok.isEnd1 : TTok → Bool
  | .rpar | .fullstop | .rsquare | .comma | .eq | .neq | .binop => true
  | _ => false

/-- The same at the end of the loop (725). -/
def TTok.isEnd2 : TTok → Bool
  | .rpar | .fullstop | .rsquare | .comma => true
  | _ => false

/-- The end of the second branch of `TypeBankParseType` (727-746): the type of the result is flattened. -/
def finishArrow (args : List STy) : STy :=
  match args.getLast? with
  | some r => if r.isArrow then allocArrow (args.dropLast ++ r.args) else allocArrow args
  | none => allocArrow args

/- `TypeBankParseType` for higher-order problems (TERMS/cte_typebanks.c:669-749). -/
mutual
def parseHO : Nat → List TTok → TNames → Option (STy × List TTok × TNames)
  | 0, _, _ => none
  | n + 1, toks, N =>
    (parseLeft n toks N).bind fun (l, r, N) =>
      match r with
      | [] => none
      | t :: r' => if t.isEnd1 then some (l, t :: r', N) else parseLoop n [l] (t :: r') N
/-- The first argument (673-682). -/
def parseLeft : Nat → List TTok → TNames → Option (STy × List TTok × TNames)
  | 0, _, _ => none
  | n + 1, .lpar :: r, N =>
    (parseHO n r N).bind fun (l, r, N) =>
      match r with
      | .rpar :: r => some (l, r, N)
      | _ => none
  | n + 1, toks, N => parseSingle n toks N
/-- The loop (697-725). -/
def parseLoop : Nat → List STy → List TTok → TNames → Option (STy × List TTok × TNames)
  | 0, _, _, _ => none
  | n + 1, args, .gt :: r, N =>
    (parseRight n r N).bind fun (t, r, N) =>
      match r with
      | [] => none
      | e :: r' => if e.isEnd2 then some (finishArrow (args ++ [t]), e :: r', N) else parseLoop n (args ++ [t]) (e :: r') N
  | _ + 1, _, _, _ => none
/-- The argument after `>` (705-715). -/
def parseRight : Nat → List TTok → TNames → Option (STy × List TTok × TNames)
  | 0, _, _ => none
  | n + 1, .lpar :: r, N =>
    (parseHO n r N).bind fun (l, r, N) =>
      match r with
      | .rpar :: r => some (l, r, N)
      | _ => none
  | n + 1, toks, N => parseHO n toks N
end

/-- The loop over `*` (TERMS/cte_typebanks.c:616-630). -/
def parseProduct : Nat → List TTok → TNames → Option (List STy × List TTok × TNames)
  | 0, _, _ => none
  | n + 1, toks, N =>
    (parseSingle n toks N).bind fun (t, r, N) =>
      match r with
      | .star :: r => (parseProduct n r N).map fun (ts, r, N) => (t :: ts, r, N)
      | _ => some ([t], r, N)

/-- The opening parentheses (607-611): at most two. -/
def openParens : Nat → List TTok → Nat × List TTok
  | k + 1, .lpar :: r => let p := openParens k r; (p.1 + 1, p.2)
  | _, r => (0, r)

/-- `if(open_parens && TestInpTok(in, CloseBracket))` (632-636). -/
def closeOpt (k : Nat) : List TTok → Nat × List TTok
  | .rpar :: r => if k ≠ 0 then (k - 1, r) else (k, .rpar :: r)
  | r => (k, r)

/-- The result type (638-649). -/
def parseResult (n : Nat) (ts : List STy) : List TTok → TNames → Option (List STy × List TTok × TNames)
  | .gt :: r, N => (parseSingle n r N).map fun (t, r, N) => (ts ++ [t], r, N)
  | r, N => some (ts, r, N)

/-- `if(open_parens) AcceptInpTok(in, CloseBracket)` (651-655). -/
def closeReq (k : Nat) (r : List TTok) : Option (List TTok) :=
  if k ≠ 0 then
    match r with
    | .rpar :: r => some r
    | _ => none
  else some r

/-- `TypeBankParseType` for first-order problems (TERMS/cte_typebanks.c:601-668). -/
def parseFO (n : Nat) (toks : List TTok) (N : TNames) : Option (STy × List TTok × TNames) :=
  let p := openParens 2 toks
  (parseProduct n p.2 N).bind fun (ts, r, N) =>
    let q := closeOpt p.1 r
    (parseResult n ts q.2 N).bind fun (ts, r, N) =>
      (closeReq q.1 r).map fun r => (allocArrow ts, r, N)

/-- `TypeBankFindTCName`. -/
def tcName (N : TNames) (c : Nat) : Nat := (N[c]?.map (·.1)).getD 0

/- `TypePrintTSTP` for higher-order problems (TERMS/cte_typebanks.c:795-827). -/
mutual
def printHO (N : TNames) : STy → List TTok
  | .con c ts =>
    if c = 0 then printArrow N ts
    else if ts.isEmpty then [.name (tcName N c)]
    else .name (tcName N c) :: .lpar :: printArgs N ts ++ [.rpar]
/-- Arguments of an arrow type (797-810). -/
def printArrow (N : TNames) : List STy → List TTok
  | [] => []
  | [t] => printHO N t
  | t :: ts => (if t.isArrow then .lpar :: printHO N t ++ [.rpar] else printHO N t) ++ .gt :: printArrow N ts
/-- Arguments of a type constructor (816-825). -/
def printArgs (N : TNames) : List STy → List TTok
  | [] => []
  | [t] => printHO N t
  | t :: ts => printHO N t ++ .comma :: printArgs N ts
end

/-- The product in `TypePrintTSTP` (784-789). -/
def printProduct (N : TNames) : List STy → List TTok
  | [] => []
  | [t] => printHO N t
  | t :: ts => printHO N t ++ .star :: printProduct N ts

/-- `TypePrintTSTP` for first-order problems (TERMS/cte_typebanks.c:769-794); arguments are not arrow types there. -/
def printFO (N : TNames) (t : STy) : List TTok :=
  if t.isArrow then
    match t.args with
    | [a, r] => printHO N a ++ .gt :: printHO N r
    | ts => .lpar :: printProduct N ts.dropLast ++ .rpar :: .gt :: (match ts.getLast? with
      | some r => printHO N r
      | none => [])
  else printHO N t

end Verif
