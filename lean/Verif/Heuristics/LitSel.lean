import Verif.Clauses.LitCmp

/-!
# Literal selection

Model of HEURISTICS/che_litselection.c and of `DoLiteralSelection` (HEURISTICS/che_proofcontrol.c:113-142, 263-300).  A selection function sets
EPIsSelected on literals of a clause.  Most of them look at the marks of maximal literals, which are computed on demand
(`ClauseCondMarkMaximalTerms`); CPIsOriented tells that they are up to date.

A literal cell is named by its position.  Numbers of type `long` are integers, without overflow; `LONG_MAX`, with which searches for a minimum
start, is kept.  Not modelled, but arbitrary: how type predicates are recognised, range restriction, the depth of literals, and
the functions that compute the weights for `generic_uniq_selection` (`SelCtx.eval`, which may give any values, also depending on the global
counter `literal_weight_counter`).  A function returns `none` if it would set a property of the NULL pointer (an assertion excludes that).
-/

namespace Verif.LitSel

/-- `LONG_MAX` on the usual 64 bit machines. -/
def longMax : Int := 9223372036854775807

/-- `LitEvalCell` (HEURISTICS/che_litselection.h:44-52), without `exclusive`, which nobody reads. -/
structure LitEval where
  forbidden : Bool
  w1 : Int
  w2 : Int
  w3 : Int

/-- What selection functions use: the orderings for `ClauseMarkMaximalTerms`, and the tests that are not modelled (see above). -/
structure SelCtx where
  cmp : Term → Term → Cmp
  lc : FLit → FLit → Cmp
  /-- `EqnIsTypePred`, `EqnIsXTypePred`, `EqnIsRealXTypePred` (CLAUSES/ccl_eqn.h:197-202). -/
  typePred : FLit → Bool
  xTypePred : FLit → Bool
  rxTypePred : FLit → Bool
  /-- `EqnDepth` -/
  depth : FLit → Nat
  /-- `ClauseIsRangeRestricted`, `ClauseIsStronglyRangeRestricted`, `ClauseIsAntiRangeRestricted` -/
  rr : List FLit → Bool
  srr : List FLit → Bool
  arr : List FLit → Bool
  /-- The weight functions, by their names: the evaluation of a literal of the clause. -/
  eval : String → List FLit → Nat → LitEval

/-- A clause: its literals and CPIsOriented. -/
structure SCl where
  lits : List FLit
  oriented : Bool

/-! ## Features of literals -/

/-- `EqnIsGround` (CLAUSES/ccl_eqn.h:189-190). -/
def isGround (L : FLit) : Bool := L.lit.l.vars.isEmpty && L.lit.r.vars.isEmpty

/-- `EqnIsPureVar` (CLAUSES/ccl_eqn.h:191-192). -/
def isPureVar (L : FLit) : Bool := L.lit.l.isVar && L.lit.r.isVar

/-- `EqnStandardWeight` (CLAUSES/ccl_eqn.h:326-328). -/
def stdWt (L : FLit) : Int := (L.lit.l.weight 1 2 : Int) + (L.lit.r.weight 1 2 : Int)

/-- `EqnStandardDiff` (CLAUSES/ccl_eqn.h:350-354). -/
def stdDiff (L : FLit) : Int :=
  max (L.lit.l.weight 1 2 : Int) (L.lit.r.weight 1 2 : Int) - min (L.lit.l.weight 1 2 : Int) (L.lit.r.weight 1 2 : Int)

/-- `lit_sel_diff_weight` (HEURISTICS/che_litselection.c:205-206). -/
def diffWt (L : FLit) : Int := 100 * stdDiff L + stdWt L

/-- The weight of the left term, and of the right one if the literal is not oriented (4083-4087 and often), for given weights of variables and symbols. -/
def infWt (v f : Nat) (L : FLit) : Int :=
  (L.lit.l.weight v f : Int) + (if L.oriented then 0 else (L.lit.r.weight v f : Int))

/-- `EqnGetPredCodeFO` (CLAUSES/ccl_eqn.h:164); 0 also for variables, which the macro does not expect. -/
def predCode (L : FLit) : Nat :=
  if L.isEqu then 0 else match L.lit.l with | .app f _ => f | .var _ => 0

def neg (L : FLit) : Bool := !L.lit.pos

/-! ## Changing flags -/

/-- `EqnSetProp(handle, EPIsSelected)` for the literal at position `i`. -/
def setSel (i : Nat) (C : SCl) : SCl := { C with lits := C.lits.modify i fun L => { L with selected := true } }

/-- `clause_select_pos` (529-543). -/
def selectPos (C : SCl) : SCl := { C with lits := C.lits.map fun L => if L.lit.pos then { L with selected := true } else L }

/-- `EqnListDelProp(clause->literals, EPIsSelected)`. -/
def delSel (C : SCl) : SCl := { C with lits := C.lits.map fun L => { L with selected := false } }

/-- `ClauseDelProp(clause, CPIsOriented)`. -/
def delOri (C : SCl) : SCl := { C with oriented := false }

/-- `ClauseCondMarkMaximalTerms` (CLAUSES/ccl_clauses.h:328-330). -/
def condMark (x : SelCtx) (C : SCl) : SCl :=
  if C.oriented then C else { lits := markMaximalTerms x.cmp x.lc C.lits, oriented := true }

/-- `EqnListQueryPropNumber(clause->literals, EPIsMaximal)`. -/
def maxNo (C : SCl) : Nat := C.lits.countP fun L => L.maximal

/-- `EqnListQueryPropNumber(clause->literals, EPIsMaximal|EPIsPositive)`. -/
def maxPosNo (C : SCl) : Nat := C.lits.countP fun L => L.maximal && L.lit.pos

/-- `ClauseIsHorn` (CLAUSES/ccl_clauses.h:238). -/
def isHorn (C : SCl) : Bool := (C.lits.countP fun L => L.lit.pos) ≤ 1

/-- Set the property of the literal found, if any. -/
def selIf (o : Option Nat) (C : SCl) : SCl := match o with | some i => setSel i C | none => C

/-- Set the property of the literal that must have been found; with `p`, of all positive literals as well. -/
def selMust (p : Bool) (o : Option Nat) (C : SCl) : Option SCl := o.map fun i => setSel i (if p then selectPos C else C)

/-- The same if a literal has been found. -/
def selMay (p : Bool) (o : Option Nat) (C : SCl) : SCl := match o with | some i => setSel i (if p then selectPos C else C) | none => C

/-! ## Searching -/

/-- The loop used by most functions (for example 972-985): among the literals with the property `p`, the first whose weight is `better` than
those before and `sw`. -/
def scan (p : FLit → Bool) (better : Int → Int → Bool) (w : FLit → Int) : List FLit → Nat → Int → Option Nat → Option Nat
  | [], _, _, s => s
  | L :: Ls, i, sw, s => if p L && better (w L) sw then scan p better w Ls (i + 1) (w L) (some i) else scan p better w Ls (i + 1) sw s

def findMax (p : FLit → Bool) (w : FLit → Int) (start : Int) (C : SCl) : Option Nat := scan p (fun a b => a > b) w C.lits 0 start none

def findMin (p : FLit → Bool) (w : FLit → Int) (C : SCl) : Option Nat := scan p (fun a b => a < b) w C.lits 0 longMax none

/-- The first literal with the property `p`. -/
def findFirst (p : FLit → Bool) (C : SCl) : Option Nat := C.lits.findIdx? p

/-- `EqnListFindNegPureVarLit` (CLAUSES/ccl_eqnlist.c:970-981). -/
def findPureVar (C : SCl) : Option Nat := findFirst (fun L => neg L && isPureVar L) C

/-- `find_maxlcomplex_literal` (221-280), with `mx` the identity; `find_lcomplex_literal` (296-356), with `mx` negation. -/
def findLComplex (mx : Bool → Bool) (C : SCl) : Option Nat :=
  match findFirst (fun L => neg L && mx L.maximal && isPureVar L) C with
  | some i => some i
  | none =>
    match findMax (fun L => neg L && mx L.maximal && isGround L) diffWt (-1) C with
    | some i => some i
    | none => findMax (fun L => neg L && mx L.maximal) diffWt (-1) C

/-- `find_smallest_neg_ground_lit` (373-394). -/
def findSmallestGround (C : SCl) : Option Nat := findMin (fun L => neg L && isGround L) stdWt C

/-- `find_smallest_max_neg_ground_lit` (410-432); the field `weight` of a term is the standard weight. -/
def findSmallestMaxGround (C : SCl) : Option Nat := findMin (fun L => neg L && isGround L) (fun L => (L.lit.l.weight 1 2 : Int)) C

/-- `find_ng_min11_infpos_no_xtype_lit` (448-473). -/
def findNgMin11 (x : SelCtx) (C : SCl) : Option Nat := findMin (fun L => neg L && !isGround L && !x.xTypePred L) (infWt 1 1) C

/-- `find_max_xtype_no_type_lit` (489-512). -/
def findMaxXType (x : SelCtx) (C : SCl) : Option Nat :=
  findMax (fun L => neg L && x.xTypePred L && !x.typePred L) (fun L => (L.lit.l.weight 1 2 : Int)) (-1) C

/-- The loop of the functions for orientable literals (1124-1142). -/
def scanOri (better : Int → Int → Bool) : List FLit → Nat → Int → Bool → Option Nat → Option Nat
  | [], _, _, _, s => s
  | L :: Ls, i, sw, o, s =>
    if neg L && ((!o && L.oriented) || (((o && L.oriented) || (!o && !L.oriented)) && better (stdWt L) sw)) then
      scanOri better Ls (i + 1) (stdWt L) L.oriented (some i)
    else scanOri better Ls (i + 1) sw o s

/-- The loop of `SelectComplexPreferNEQ` and `SelectComplexPreferEQ` (3516-3561, 3665-3710): `eq` is the preferred kind, `q v g w` describe the
literal selected so far.  The `break`s end the loop. -/
def scanPrefer (eq : FLit → Bool) : List FLit → Nat → Bool → Bool → Bool → Int → Option Nat → Option Nat
  | [], _, _, _, _, _, s => s
  | L :: Ls, i, q, v, g, w, s =>
    if neg L then
      if q && !eq L then s
      else if eq L == q && (v && !isPureVar L) then s
      else if eq L == q && isPureVar L == v && (g && !isGround L) then s
      else if eq L == q && isPureVar L == v && isGround L == g && decide (diffWt L ≤ w) then s
      else scanPrefer eq Ls (i + 1) (eq L) (isPureVar L) (isGround L) (diffWt L) (some i)
    else scanPrefer eq Ls (i + 1) q v g w s

/-! ## Selection functions

`p` distinguishes a function `Select...` from the function `PSelect...`, which selects positive literals as well. -/

/-- A selection function. -/
abbrev SelFun := SelCtx → SCl → Option SCl

/-- `SelectNoLiterals`, `SelectNoGeneration` (833-855). -/
def selectNone : SelFun := fun _ C => some C

/-- `SelectNegativeLiterals` (870-882), `PSelectNegativeLiterals` (898-907). -/
def selectNegative (p : Bool) : SelFun := fun _ C =>
  some { C with lits := C.lits.map fun L => if p || neg L then { L with selected := true } else L }

/-- `SelectFirstVariableLiteral` (922-930). -/
def selectFirstVar : SelFun := fun _ C => some (selIf (findPureVar C) C)

/-- `PSelectFirstVariableLiteral` (946-954): the literal found is not selected. -/
def pSelectFirstVar : SelFun := fun _ C => some (match findPureVar C with | some _ => selectPos C | none => C)

/-- `SelectLargestNegativeLiteral` (969-988, 1004-1027). -/
def selectLargest (p : Bool) : SelFun := fun _ C => selMust p (findMax neg stdWt 0 C) C

/-- `SelectSmallestNegativeLiteral` (1043-1062, 1077-1100). -/
def selectSmallest (p : Bool) : SelFun := fun _ C => selMust p (findMin neg stdWt C) C

/-- `SelectLargestOrientableLiteral` (1116-1146, 1163-1197). -/
def selectLargestOri (p : Bool) : SelFun := fun x C =>
  let C := condMark x C
  (selMust p (scanOri (fun a b => a > b) C.lits 0 0 false none) C).map delOri

/-- `MSelectLargestOrientableLiteral` (1213-1223). -/
def mSelectLargestOri : SelFun := fun x C => selectLargestOri (isHorn C) x C

/-- `SelectSmallestOrientableLiteral` (1239-1269, 1286-1320). -/
def selectSmallestOri (p : Bool) : SelFun := fun x C =>
  let C := condMark x C
  (selMust p (scanOri (fun a b => a < b) C.lits 0 longMax false none) C).map delOri

/-- `MSelectSmallestOrientableLiteral` (1336-1346). -/
def mSelectSmallestOri : SelFun := fun x C => selectSmallestOri (isHorn C) x C

/-- `SelectDiffNegativeLiteral` (1361-1383). -/
def selectDiff : SelFun := fun _ C => some (selIf (findMax neg diffWt (-1) C) C)

/-- `PSelectDiffNegativeLiteral` (1399-1422). -/
def pSelectDiff : SelFun := fun _ C => selMust true (findMax neg diffWt (-1) C) C

def selectDiffP (p : Bool) : SelFun := if p then pSelectDiff else selectDiff

/-- `SelectGroundNegativeLiteral` (1438-1459). -/
def selectGround : SelFun := fun _ C => some (selIf (findMax (fun L => neg L && isGround L) diffWt (-1) C) C)

/-- `PSelectGroundNegativeLiteral` (1475-1508). -/
def pSelectGround : SelFun := fun _ C =>
  some (match findMax (fun L => neg L && isGround L) diffWt (-1) C with | some i => setSel i (selectPos C) | none => delSel (selectPos C))

/-- `SelectOptimalLiteral` (1525-1550), `PSelectOptimalLiteral` (1568-1593): the latter selects no positive literals if a ground literal is found. -/
def selectOptimal (p : Bool) : SelFun := fun x C =>
  match findMax (fun L => neg L && isGround L) diffWt (-1) C with
  | some i => some (setSel i C)
  | none => selectDiffP p x C

/-- `SelectMinOptimalLiteral` (1610-1636, 1653-1679). -/
def selectMinOptimal (p : Bool) : SelFun := fun x C =>
  match findSmallestGround C with
  | some i => some (setSel i C)
  | none => selectSmallest p x C

/-- `SelectMinOptimalNoTypePred`, `SelectMinOptimalNoXTypePred`, `SelectMinOptimalNoRXTypePred` (1696-1961), with the test `t`. -/
def selectMinOptimalNo (p : Bool) (t : SelCtx → FLit → Bool) : SelFun := fun x C =>
  match (match findSmallestGround C with | some i => some i | none => findMin (fun L => neg L && !t x L) stdWt C) with
  | some i => some (delOri (selMay p (some i) C))
  | none => some C

/-- The weights in the loop of `SelectCondOptimalLiteral` (1989-1997); `TermWeight` has the weight of variables as second and that of symbols as third
argument. -/
def condWt (L : FLit) : Bool :=
  decide ((L.lit.l.weight 1 2 : Int) + (if L.isEqu then (L.lit.r.weight 1 2 : Int) else 0) ≤
    (L.lit.l.weight 0 3 : Int) + (if L.isEqu then (L.lit.r.weight 0 3 : Int) else 0))

/-- `SelectCondOptimalLiteral` (1979-2013, 2028-2062). -/
def selectCondOptimal (p : Bool) : SelFun := fun x C =>
  if C.lits.any fun L => L.lit.pos && condWt L then some (delSel C) else selectOptimal p x C

/-- `SelectAllCondOptimalLiteral` (2078-2112, 2127-2161). -/
def selectAllCondOptimal (p : Bool) : SelFun := fun x C =>
  if C.lits.any fun L => L.lit.pos && !condWt L then selectOptimal p x C else some (delSel C)

/-- `SelectDepth2OptimalLiteral`, `SelectPDepth2OptimalLiteral`, `SelectNDepth2OptimalLiteral` (2177-2386); `t` is the test of the sign. -/
def selectDepth2 (p : Bool) (t : FLit → Bool) : SelFun := fun x C =>
  if C.lits.any fun L => t L && decide (x.depth L ≤ 2) then some (delSel C) else selectOptimal p x C

/-- `SelectNonRROptimalLiteral`, `SelectNonStrongRROptimalLiteral`, `SelectNonAntiRROptimalLiteral` (2402-2474, 2542-2570) and
`PSelectAntiRROptimalLiteral` (2520-2526): only if the test `t` succeeds. -/
def selectOptimalIf (p : Bool) (t : SelCtx → List FLit → Bool) : SelFun := fun x C =>
  if t x C.lits then selectOptimal p x C else some C

/-- `SelectAntiRROptimalLiteral` (2491-2504). -/
def selectAntiRR : SelFun := fun x C =>
  if (C.lits.any neg) = false then some C else selectOptimalIf false (fun x l => x.arr l) x C

/-- `PSelectStrongRRNonRROptimalLiteral` (2609-2620). -/
def pSelectStrongRRNonRR : SelFun := fun x C =>
  if !x.rr C.lits || x.srr C.lits then selectOptimal true x C else some (delSel C)

/-- Mark the maximal literals, apply `f` if the test `t` succeeds, and delete CPIsOriented (2636-2825, and 3806-3846, 4402-4444 for Horn clauses). -/
def unlessMax (t : SCl → Bool) (f : SelFun) : SelFun := fun x C =>
  let C := condMark x C
  if t C then (f x C).map delOri else some C

/-- The loop of `SelectUnlessUniqMaxPosOptimalLiteral` (2848-2862): it is left early. -/
def breaks : List FLit → Bool → Bool
  | [], _ => false
  | L :: Ls, found => if L.maximal then (if !L.lit.pos then true else if found then true else breaks Ls true) else breaks Ls found

/-- `SelectComplex` (2929-2963, 2981-3015). -/
def selectComplex (p : Bool) : SelFun := fun x C =>
  match (match findPureVar C with | some i => some i | none => findSmallestGround C) with
  | some i => some (setSel i C)
  | none => selectDiffP p x C

/-- `...ExceptRRHorn` (3030-3058, 5414-5486). -/
def exceptRRHorn (f : SelFun) : SelFun := fun x C => if !(isHorn C && x.rr C.lits) then f x C else some C

/-- `SelectLComplex` (3074-3108, 3123-3157). -/
def selectLComplex (p : Bool) : SelFun := fun x C =>
  match (match findPureVar C with | some i => some i | none => findMax (fun L => neg L && isGround L) diffWt (-1) C) with
  | some i => some (setSel i C)
  | none => selectDiffP p x C

/-- `SelectMaxLComplex` (3180-3204, 3220-3244). -/
def selectMaxLComplex (p : Bool) : SelFun := fun x C =>
  let C := condMark x C
  if maxNo C > 1 then
    let C := delOri C
    if maxPosNo C ≠ maxNo C then selMust false (findLComplex id C) C
    else selectLComplex p x C
  else some C

/-- `SelectMaxLComplexNoTypePred`, `SelectMaxLComplexNoXTypePred` (3270-3492), with the test `t`. -/
def selectMaxLComplexNo (p : Bool) (t : SelCtx → FLit → Bool) : SelFun := fun x C =>
  let C := condMark x C
  if maxNo C > 1 then
    let C := delOri C
    let second := fun (_ : Unit) =>
      match findLComplex (fun b => !b) C with
      | some i => if (C.lits[i]?.map (t x)) == some false then some (selMay p (some i) C) else some C
      | none => some C
    if maxPosNo C ≠ maxNo C then
      match findLComplex id C with
      | none => none
      | some i => if (C.lits[i]?.map (t x)) == some false then some (selMay p (some i) C) else second ()
    else second ()
  else some C

/-- `SelectComplexPreferNEQ` (3508-3566, 3582-3641) and `SelectComplexPreferEQ` (3657-3715, 3731-3790). -/
def selectPrefer (p : Bool) (eq : FLit → Bool) : SelFun := fun _ C =>
  some (selMay p (scanPrefer eq C.lits 0 false false false (-1) none) C)

/-- The guard of `...ExceptUniqMaxHorn` (3806-3846, 3972-4010, 5502-5541): Horn clauses with the test `t` on the marked literals are left alone.  With
`d`, CPIsOriented is deleted in the end. -/
def exceptHorn (d : Bool) (t : SCl → Bool) (f : SelFun) : SelFun := fun x C =>
  let C := if isHorn C then condMark x C else C
  if isHorn C && t C then some C else (f x C).map fun D => if d then delOri D else D

/-- `MSelectComplexExceptUniqMaxHorn` (3862-3872). -/
def mSelectComplexExcept : SelFun := fun x C => exceptHorn true (fun C => decide (maxNo C = 1)) (selectComplex (isHorn C)) x C

/-- `SelectNewComplex` (3893-3913, 3935-3956). -/
def selectNewComplex (p : Bool) : SelFun := fun x C =>
  let C := condMark x C
  match (match findSmallestMaxGround C with
    | some i => some i
    | none => match findNgMin11 x C with | some i => some i | none => findMaxXType x C) with
  | some i => some (delOri (selMay p (some i) C))
  | none => some C

/-- `SelectMinInfpos` (4026-4099), `SelectMin2Infpos` (4313-4386); `v`, `f` are the weights. -/
def selectMinInfpos (p : Bool) (v f : Nat) : SelFun := fun x C =>
  let C := condMark x C
  (selMust p (findMin neg (infWt v f) C) C).map delOri

/-- `HSelectMinInfpos` (4116-4152; `g = false`) and `GSelectMinInfpos` (4169-4205; `g = true`): positive literals are selected if it is not ground,
or is ground. -/
def hSelectMinInfpos (g : Bool) : SelFun := fun x C =>
  let C := condMark x C
  match findMin neg (infWt 1 2) C with
  | none => none
  | some i =>
    let D := delOri (setSel i C)
    some (if (C.lits[i]?.map isGround) == some g then selectPos D else D)

/-- `SelectMinInfposNoTypePred` (4222-4250, 4267-4296). -/
def selectMinInfposNo (p : Bool) : SelFun := fun x C =>
  let C := condMark x C
  match findMin (fun L => neg L && !x.typePred L) (infWt 1 2) C with
  | some i => some (delOri (selMay p (some i) C))
  | none => some C

/-! ## `generic_uniq_selection` -/

/-- `lit_eval_compare` (560-583) is negative: negative literals come first, then the weights count. -/
def evalLess (a b : FLit × LitEval) : Bool :=
  if a.1.lit.pos != b.1.lit.pos then b.1.lit.pos
  else if a.2.w1 ≠ b.2.w1 then decide (a.2.w1 < b.2.w1)
  else if a.2.w2 ≠ b.2.w2 then decide (a.2.w2 < b.2.w2)
  else decide (a.2.w3 < b.2.w3)

/-- The loop that determines the candidate (627-634). -/
def candidate : List (FLit × LitEval) → Nat → FLit × LitEval → Nat → FLit × LitEval × Nat
  | [], _, c, k => (c.1, c.2, k)
  | e :: es, i, c, k => if evalLess e c then candidate es (i + 1) e i else candidate es (i + 1) c k

/-- `generic_uniq_selection` (599-651). -/
def generic (p needsOrd : Bool) (w : String) : SelFun := fun x C =>
  let C := if needsOrd then condMark x C else C
  match C.lits.zipIdx.map fun e => (e.1, x.eval w C.lits e.2) with
  | [] => none
  | e :: es =>
    let (_, v, k) := candidate es 1 e 0
    some (if v.forbidden then C else let D := delOri (setSel k C); if p then selectPos D else D)

/-- The guard of `generic_app_var_sel` and of other functions (4599-4606, 4846-4853, 5107-5114): nothing is done if there is at most one maximal literal. -/
def ifManyMax (f : SelFun) : SelFun := fun x C =>
  if (C.lits.any neg) = false then some C
  else
    let C := condMark x C
    if maxNo C ≤ 1 then some C else f x C

/-- `SelectMaxLComplexAvoidPosUPred` (5098-5121): without the test for negative literals. -/
def avoidPosUPred : SelFun := fun x C =>
  let C := condMark x C
  if maxNo C ≤ 1 then some C else generic false true "maxlcomplexavoidpred_weight, no equations" x C

/-- `SelectVGNonCR` (5654-5696).  In the second case CPIsOriented is not deleted. -/
def selectVGNonCR : SelFun := fun x C =>
  match findPureVar C with
  | some i => some (setSel i C)
  | none =>
    let C := condMark x C
    match findSmallestGround C with
    | some i => some (setSel i C)
    | none =>
      if maxNo C = 1 ∧ maxPosNo C = 1 then some C else generic false true "new_complex_notp_ahp_ns" x C

/-- `select_unless_pdom` (6799-6860): the predicate of a negative literal is that of a maximal positive literal. -/
def unlessPDom (f : SelFun) : SelFun := fun x C =>
  let C := condMark x C
  if C.lits.any fun L => neg L && (C.lits.any fun K => K.lit.pos && K.maximal && predCode K == predCode L) then some C else f x C

/-! ## The strategies -/

/-- `name_fun_assoc` (35-191). -/
def strategies : List (String × SelFun) :=
  [("NoSelection", selectNone),
   ("NoGeneration", selectNone),
   ("SelectNegativeLiterals", selectNegative false),
   ("PSelectNegativeLiterals", selectNegative true),
   ("SelectPureVarNegLiterals", selectFirstVar),
   ("PSelectPureVarNegLiterals", pSelectFirstVar),
   ("SelectLargestNegLit", selectLargest false),
   ("PSelectLargestNegLit", selectLargest true),
   ("SelectSmallestNegLit", selectSmallest false),
   ("PSelectSmallestNegLit", selectSmallest true),
   ("SelectLargestOrientable", selectLargestOri false),
   ("PSelectLargestOrientable", selectLargestOri true),
   ("MSelectLargestOrientable", mSelectLargestOri),
   ("SelectSmallestOrientable", selectSmallestOri false),
   ("PSelectSmallestOrientable", selectSmallestOri true),
   ("MSelectSmallestOrientable", mSelectSmallestOri),
   ("SelectDiffNegLit", selectDiff),
   ("PSelectDiffNegLit", pSelectDiff),
   ("SelectGroundNegLit", selectGround),
   ("PSelectGroundNegLit", pSelectGround),
   ("SelectOptimalLit", selectOptimal false),
   ("PSelectOptimalLit", selectOptimal true),
   ("SelectMinOptimalLit", selectMinOptimal false),
   ("PSelectMinOptimalLit", selectMinOptimal true),
   ("SelectMinOptimalNoTypePred", selectMinOptimalNo false SelCtx.typePred),
   ("PSelectMinOptimalNoTypePred", selectMinOptimalNo true SelCtx.typePred),
   ("SelectMinOptimalNoXTypePred", selectMinOptimalNo false SelCtx.xTypePred),
   ("PSelectMinOptimalNoXTypePred", selectMinOptimalNo true SelCtx.xTypePred),
   ("SelectMinOptimalNoRXTypePred", selectMinOptimalNo false SelCtx.rxTypePred),
   ("PSelectMinOptimalNoRXTypePred", selectMinOptimalNo true SelCtx.rxTypePred),
   ("SelectCondOptimalLit", selectCondOptimal false),
   ("PSelectCondOptimalLit", selectCondOptimal true),
   ("SelectAllCondOptimalLit", selectAllCondOptimal false),
   ("PSelectAllCondOptimalLit", selectAllCondOptimal true),
   ("SelectOptimalRestrDepth2", selectDepth2 false fun _ => true),
   ("PSelectOptimalRestrDepth2", selectDepth2 true fun _ => true),
   ("SelectOptimalRestrPDepth2", selectDepth2 false fun L => L.lit.pos),
   ("PSelectOptimalRestrPDepth2", selectDepth2 true fun L => L.lit.pos),
   ("SelectOptimalRestrNDepth2", selectDepth2 false neg),
   ("PSelectOptimalRestrNDepth2", selectDepth2 true neg),
   ("SelectNonRROptimalLit", selectOptimalIf false fun x l => !x.rr l),
   ("PSelectNonRROptimalLit", selectOptimalIf true fun x l => !x.rr l),
   ("SelectNonStrongRROptimalLit", selectOptimalIf false fun x l => !x.srr l),
   ("PSelectNonStrongRROptimalLit", selectOptimalIf true fun x l => !x.srr l),
   ("SelectAntiRROptimalLit", selectAntiRR),
   ("PSelectAntiRROptimalLit", selectOptimalIf true fun x l => x.arr l),
   ("SelectNonAntiRROptimalLit", selectOptimalIf false fun x l => !x.arr l),
   ("PSelectNonAntiRROptimalLit", selectOptimalIf true fun x l => !x.arr l),
   ("SelectStrongRRNonRROptimalLit", selectOptimalIf false fun x l => !x.rr l || x.srr l),
   ("PSelectStrongRRNonRROptimalLit", pSelectStrongRRNonRR),
   ("SelectUnlessUniqMax", unlessMax (fun C => decide (maxNo C > 1)) (selectOptimal false)),
   ("PSelectUnlessUniqMax", unlessMax (fun C => decide (maxNo C > 1)) (selectOptimal true)),
   ("SelectUnlessPosMax", unlessMax (fun C => decide (maxPosNo C = 0)) (selectOptimal false)),
   ("PSelectUnlessPosMax", unlessMax (fun C => decide (maxPosNo C = 0)) (selectOptimal true)),
   ("SelectUnlessUniqPosMax", unlessMax (fun C => decide (maxPosNo C ≠ 1)) (selectOptimal false)),
   ("PSelectUnlessUniqPosMax", unlessMax (fun C => decide (maxPosNo C ≠ 1)) (selectOptimal true)),
   ("SelectUnlessUniqMaxPos", unlessMax (fun C => breaks C.lits false) (selectOptimal false)),
   ("PSelectUnlessUniqMaxPos", unlessMax (fun C => breaks C.lits false) (selectOptimal true)),
   ("SelectComplex", selectComplex false),
   ("PSelectComplex", selectComplex true),
   ("SelectComplexExceptRRHorn", exceptRRHorn (selectComplex false)),
   ("PSelectComplexExceptRRHorn", exceptRRHorn (selectComplex true)),
   ("SelectLComplex", selectLComplex false),
   ("PSelectLComplex", selectLComplex true),
   ("SelectMaxLComplex", selectMaxLComplex false),
   ("PSelectMaxLComplex", selectMaxLComplex true),
   ("SelectMaxLComplexNoTypePred", selectMaxLComplexNo false SelCtx.typePred),
   ("PSelectMaxLComplexNoTypePred", selectMaxLComplexNo true SelCtx.typePred),
   ("SelectMaxLComplexNoXTypePred", selectMaxLComplexNo false SelCtx.xTypePred),
   ("PSelectMaxLComplexNoXTypePred", selectMaxLComplexNo true SelCtx.xTypePred),
   ("SelectComplexPreferNEQ", selectPrefer false fun L => !L.isEqu),
   ("PSelectComplexPreferNEQ", selectPrefer true fun L => !L.isEqu),
   ("SelectComplexPreferEQ", selectPrefer false fun L => L.isEqu),
   ("PSelectComplexPreferEQ", selectPrefer true fun L => L.isEqu),
   ("SelectComplexExceptUniqMaxHorn", exceptHorn true (fun C => decide (maxNo C = 1)) (selectComplex false)),
   ("PSelectComplexExceptUniqMaxHorn", exceptHorn true (fun C => decide (maxNo C = 1)) (selectComplex true)),
   ("MSelectComplexExceptUniqMaxHorn", mSelectComplexExcept),
   ("SelectNewComplex", selectNewComplex false),
   ("PSelectNewComplex", selectNewComplex true),
   ("SelectNewComplexExceptUniqMaxHorn", exceptHorn false (fun C => decide (maxNo C = 1)) (selectNewComplex false)),
   ("PSelectNewComplexExceptUniqMaxHorn", exceptHorn false (fun C => decide (maxNo C = 1)) (selectNewComplex true)),
   ("SelectMinInfpos", selectMinInfpos false 1 2),
   ("PSelectMinInfpos", selectMinInfpos true 1 2),
   ("HSelectMinInfpos", hSelectMinInfpos false),
   ("GSelectMinInfpos", hSelectMinInfpos true),
   ("SelectMinInfposNoTypePred", selectMinInfposNo false),
   ("PSelectMinInfposNoTypePred", selectMinInfposNo true),
   ("SelectMin2Infpos", selectMinInfpos false 2 1),
   ("PSelectMin2Infpos", selectMinInfpos true 2 1),
   ("SelectComplexExceptUniqMaxPosHorn", exceptHorn true (fun C => decide (maxNo C = 1) && decide (maxPosNo C = 1)) (selectComplex false)),
   ("PSelectComplexExceptUniqMaxPosHorn", exceptHorn true (fun C => decide (maxNo C = 1) && decide (maxPosNo C = 1)) (selectComplex true)),
   ("SelectUnlessUniqMaxSmallestOrientable", unlessMax (fun C => decide (maxNo C > 1)) (selectSmallestOri false)),
   ("PSelectUnlessUniqMaxSmallestOrientable", unlessMax (fun C => decide (maxNo C > 1)) (selectSmallestOri true)),
   ("SelectDivLits", generic false false "diversification_weight"),
   ("SelectDivPreferIntoLits", generic false false "diversification_prefer_into_weight"),
   ("SelectMaxLComplexG", ifManyMax (generic false true "maxlcomplex_weight")),
   ("SelectMaxLComplexAvoidPosPred", ifManyMax (generic false true "maxlcomplexavoidpred_weight")),
   ("SelectMaxLComplexAPPNTNp", ifManyMax (generic false true "maxlcomplexappNTNp_weight")),
   ("SelectMaxLComplexAPPNoType", ifManyMax (generic false true "maxlcomplexavoidprednotype_weight")),
   ("SelectMaxLComplexAvoidPosUPred", avoidPosUPred),
   ("SelectComplexG", generic false false "complex_weight"),
   ("SelectComplexAHP", generic false true "complex_weight_ahp"),
   ("PSelectComplexAHP", generic true true "complex_weight_ahp"),
   ("SelectNewComplexAHP", generic false true "new_complex_notp_ahp"),
   ("PSelectNewComplexAHP", generic true true "new_complex_notp_ahp"),
   ("SelectComplexAHPExceptRRHorn", exceptRRHorn (generic false true "complex_weight_ahp")),
   ("PSelectComplexAHPExceptRRHorn", exceptRRHorn (generic true true "complex_weight_ahp")),
   ("SelectNewComplexAHPExceptRRHorn", exceptRRHorn (generic false true "new_complex_notp_ahp")),
   ("PSelectNewComplexAHPExceptRRHorn", exceptRRHorn (generic true true "new_complex_notp_ahp")),
   ("SelectNewComplexAHPExceptUniqMaxHorn", exceptHorn false (fun C => decide (maxNo C = 1)) (generic false true "new_complex_notp_ahp")),
   ("PSelectNewComplexAHPExceptUniqMaxHorn", exceptHorn false (fun C => decide (maxNo C = 1)) (generic true true "new_complex_notp_ahp")),
   ("SelectNewComplexAHPNS", generic false true "new_complex_notp_ahp_ns"),
   ("SelectVGNonCR", selectVGNonCR)] ++
  (["SelectCQArEqLast", "SelectCQArEqFirst", "SelectCQIArEqLast", "SelectCQIArEqFirst", "SelectCQAr", "SelectCQIAr", "SelectCQArNpEqFirst",
    "SelectCQIArNpEqFirst", "SelectGrCQArEqFirst", "SelectCQGrArEqFirst", "SelectCQArNTEqFirst", "SelectCQIArNTEqFirst",
    "SelectCQArNTNpEqFirst", "SelectCQIArNTNpEqFirst", "SelectCQArNXTEqFirst", "SelectCQIArNXTEqFirst", "SelectCQArNTNp", "SelectCQIArNTNp",
    "SelectCQArNT", "SelectCQIArNT", "SelectCQArNp", "SelectCQIArNp"].map fun s => (s, generic false true s)) ++
  [("SelectCQArNpEqFirstUnlessPDom", unlessPDom (generic false true "SelectCQArNpEqFirst")),
   ("SelectCQArNTEqFirstUnlessPDom", unlessPDom (generic false true "SelectCQArNTEqFirst")),
   ("SelectCQPrecW", generic false true "SelectCQPrecW"),
   ("SelectCQIPrecW", generic false true "SelectCQIPrecW"),
   ("SelectCQPrecWNTNp", generic false true "SelectCQPrecWNTNp"),
   ("SelectCQIPrecWNTNp", generic false true "SelectCQIPrecWNTNp"),
   ("SelectMaxLComplexAvoidAppVar", ifManyMax (generic false true "maxlcomplexavoidappvar_weight")),
   ("SelectMaxLComplexStronglyAvoidAppVar", ifManyMax (generic false true "maxlcomplexstronglyavoidappvar_weight")),
   ("SelectMaxLComplexPreferAppVar", ifManyMax (generic false true "maxlcomplexstronglypreferappvar_weight"))]

/-- `GetLitSelFun` (744-758). -/
def getLitSelFun (name : String) : Option SelFun := (strategies.find? fun e => e.1 == name).map (·.2)

/-! ## `DoLiteralSelection` -/

/-- `select_inherited_literal` (HEURISTICS/che_proofcontrol.c:113-142); `into i`: the literal has the property EPIsPMIntoLit. -/
def selectInherited (into : Nat → Bool) (C : SCl) : Option SCl :=
  if C.lits.zipIdx.any fun e => neg e.1 && into e.2 then
    some { C with lits := C.lits.zipIdx.map fun e => if into e.2 then { e.1 with selected := true } else e.1 }
  else none

/-- `DoLiteralSelection` (HEURISTICS/che_proofcontrol.c:263-300): `inherit` tells whether literals are inherited for this clause (270-273), `limits` is
the result of the tests in lines 281-290. -/
def doLiteralSelection (x : SelCtx) (f : SelFun) (inherit : Bool) (into : Nat → Bool) (limits : Bool) (C : SCl) : Option SCl :=
  let C := delOri (delSel C)
  match (if inherit then selectInherited into C else none) with
  | some D => some D
  | none => if C.lits.any neg && limits then f x C else some C

/-- The selection and the marking of the given clause (CONTROL/cco_forward_contraction.c:162-164). -/
def selectAndMark (x : SelCtx) (f : SelFun) (inherit : Bool) (into : Nat → Bool) (limits : Bool) (C : SCl) : Option (List FLit) :=
  (doLiteralSelection x f inherit into limits (delOri C)).map fun D => (condMark x D).lits

end Verif.LitSel
