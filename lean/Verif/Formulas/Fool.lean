import Verif.Formulas.Form

/-!
# Formulas as terms: `$ite` and Boolean arguments

Model of `TFormulaExpandLiterals` (CLAUSES/ccl_tcnf.c:1718-1777), `do_fool_unroll`, `find_fool_subterm`,
`fool_should_ignore`, `do_ite_unroll` (CLAUSES/ccl_formulafunc.c:765-1108), `TermFindIteSubterm` (TERMS/cte_termfunc.c:2318-2346),
`EncodePredicateAsEqn` and `TFormulaNegate` (CLAUSES/ccl_tformulae.c:1313-1357, 2728-2745).

Formulas are terms over the internal symbols and may occur as arguments.  Lambda terms, applied variables and `$let` are
left out, so `LambdaEtaReduceDB` and `FlattenApps` do nothing.  Terms are shared, so pointer equality is equality.

Not modelled: `do_bool_eqn_replace` (CLAUSES/ccl_formulafunc.c:1195-1263), which runs before the unrolling and changes nothing: its test
`TFormulaIsComplexBool` (CLAUSES/ccl_tformulae.h:66-68) applies `TypeIsBool` to the term instead of its type, and so is
only true of `$true`.
-/

namespace Verif.Fool

open Verif

/-- Terms and formulas: `$eq`/`$neq`, `$not`, the binary connectives, `$qall`/`$qex`, `$ite`, and the rest. -/
inductive FT where
  | var (x : Nat)
  | app (f : Nat) (args : List FT)
  | eqn (pos : Bool) (l r : FT)
  | not (a : FT)
  | bin (op : BOp) (a b : FT)
  | qu (univ : Bool) (x : Nat) (a : FT)
  | ite (c a b : FT)

namespace FT

/-- `bank->true_term`, `bank->false_term`. -/
def tt : FT := .app 1 []
def ff : FT := .app 2 []

/-- `term->type`. -/
def ty (sg : Sig) : FT → Nat
  | .var x => sg.vty x
  | .app f _ => sg.fty f
  | .ite _ a _ => a.ty sg
  | _ => sg.fty 1

/-- `TypeIsBool(t->type)`. -/
def isBool (sg : Sig) (t : FT) : Bool := t.ty sg == sg.fty 1

/-- `t == bank->true_term`. -/
def isTrue : FT → Bool
  | .app 1 [] => true
  | _ => false

def isVar : FT → Bool
  | .var _ => true
  | _ => false

def isIte : FT → Bool
  | .ite _ _ _ => true
  | _ => false

def isQu : FT → Bool
  | .qu _ _ _ => true
  | _ => false

end FT

open FT

/-- `f_code < internal_symbols` (CLAUSES/ccl_tcnf.c:1766); the internal symbols among ordinary terms are `$true` and
`$false`. -/
def internal : FT → Bool
  | .var _ => false
  | .app f _ => f == 1 || f == 2
  | _ => true

/-- The last part of `TFormulaExpandLiterals` (CLAUSES/ccl_tcnf.c:1755-1772) for an equation. -/
def expandEqn (sg : Sig) (l r : FT) : FT :=
  if l.isBool sg then
    if !l.isVar && !r.isTrue then .bin .equiv l r
    else if !l.isVar && internal l then l
    else .eqn true l r
  else .eqn true l r

mutual
/-- `TFormulaExpandLiterals` (CLAUSES/ccl_tcnf.c:1718-1777). -/
def expand (sg : Sig) : FT → FT
  | .var x => .var x
  | .app f ts => .app f (expandL sg ts)
  | .eqn true l r => expandEqn sg (expand sg l) (expand sg r)
  | .eqn false l r => .not (expandEqn sg (expand sg l) (expand sg r))
  | .not a => .not (expand sg a)
  | .bin op a b => .bin op (expand sg a) (expand sg b)
  | .qu u x a => .qu u x (expand sg a)
  | .ite c a b => .ite (expand sg c) (expand sg a) (expand sg b)
def expandL (sg : Sig) : List FT → List FT
  | [] => []
  | t :: ts => expand sg t :: expandL sg ts
end

/-- `fool_should_ignore`, `$true` and `$false` (CLAUSES/ccl_formulafunc.c:776-796, 823-825) for a Boolean term. -/
def ignored : FT → Bool
  | .var _ => true
  | .app f _ => f == 1 || f == 2
  | .eqn _ l r => r.isTrue && (l.isVar || l.isTrue)
  | _ => false

/-- A position in a term: the subterm there and the replacement of it (`TBTermPosReplace`, TERMS/cte_replace.c:166-243). -/
abbrev Pos := FT × (FT → FT)

/-- One argument in the loop of `find_fool_subterm` (CLAUSES/ccl_formulafunc.c:821-835); `sub` is the result for the
argument itself. -/
def tryBool (sg : Sig) (t : FT) (sub : Option Pos) : Option Pos :=
  if t.isBool sg then (if ignored t then none else some (t, fun u => u)) else sub

/-- The first of two results, below a binary symbol. -/
def first2 (mk : FT → FT → FT) (l r : FT) (pl pr : Option Pos) : Option Pos :=
  match pl with
  | some (s, k) => some (s, fun u => mk (k u) r)
  | none => pr.map fun (s, k) => (s, fun u => mk l (k u))

mutual
/-- `find_fool_subterm` (CLAUSES/ccl_formulafunc.c:809-853).  The test `TermHasBoolSubterm` only avoids
useless searches. -/
def findFool (sg : Sig) : FT → Option Pos
  | .var _ => none
  | .app f ts => (findFoolL sg ts).map fun (s, k) => (s, fun u => .app f (k u))
  | .eqn p l r => first2 (.eqn p) l r (tryBool sg l (findFool sg l)) (tryBool sg r (findFool sg r))
  | .not a => (tryBool sg a (findFool sg a)).map fun (s, k) => (s, fun u => .not (k u))
  | .bin op a b => first2 (.bin op) a b (tryBool sg a (findFool sg a)) (tryBool sg b (findFool sg b))
  | .qu q x a => (tryBool sg a (findFool sg a)).map fun (s, k) => (s, fun u => .qu q x (k u))
  | .ite c a b =>
    match tryBool sg c (findFool sg c) with
    | some (s, k) => some (s, fun u => .ite (k u) a b)
    | none => first2 (.ite c) a b (tryBool sg a (findFool sg a)) (tryBool sg b (findFool sg b))
def findFoolL (sg : Sig) : List FT → Option (FT × (FT → List FT))
  | [] => none
  | t :: ts =>
    match tryBool sg t (findFool sg t) with
    | some (s, k) => some (s, fun u => k u :: ts)
    | none => (findFoolL sg ts).map fun (s, k) => (s, fun u => t :: k u)
end

/-- `EncodePredicateAsEqn` (CLAUSES/ccl_tformulae.c:1313-1357). -/
def encode (sg : Sig) (t : FT) : FT :=
  if t.isBool sg then
    match t with
    | .var x => .eqn true (.var x) tt
    | .app f ts => if f = 2 then .eqn false tt tt else .eqn true (.app f ts) tt
    | .ite c a b => .eqn true (.ite c a b) tt
    | t => t
  else t

/-- `TFormulaNegate` (CLAUSES/ccl_tformulae.c:2728-2745). -/
def negate : FT → FT
  | .eqn p l r => .eqn (!p) l r
  | t => .not t

/-- The position of the first Boolean argument in a literal (CLAUSES/ccl_formulafunc.c:888-899). -/
def findFoolLit (sg : Sig) (p : Bool) (l r : FT) : Option Pos := first2 (.eqn p) l r (findFool sg l) (findFool sg r)

/-- `do_fool_unroll` (CLAUSES/ccl_formulafunc.c:869-963); `none` = out of fuel. -/
def doFool (sg : Sig) : Nat → FT → Option FT
  | 0, _ => none
  | n + 1, .eqn p l r =>
    match findFoolLit sg p l r with
    | none => some (.eqn p l r)
    | some (s, k) =>
      let s := encode sg s
      match doFool sg n (.bin .or (negate s) (k tt)), doFool sg n (.bin .or s (k ff)) with
      | some a, some b => some (.bin .and a b)
      | _, _ => none
  | n + 1, .qu q x a => (doFool sg n a).map (.qu q x)
  | n + 1, .not a => (doFool sg n a).map .not
  | n + 1, .bin op a b =>
    match doFool sg n a, doFool sg n b with
    | some a, some b => some (.bin op a b)
    | _, _ => none
  | _ + 1, t => some t

/-- `TFormulaUnrollFOOL` (CLAUSES/ccl_formulafunc.c:2044-2079). -/
def unrollFool (sg : Sig) (n : Nat) (t : FT) : Option FT := doFool sg n (expand sg t)

/-- One argument in the loop of `TermFindIteSubterm` (TERMS/cte_termfunc.c:2324-2334). -/
def tryIte (t : FT) (sub : Option Pos) : Option Pos := if t.isIte then some (t, fun u => u) else sub

mutual
/-- `TermFindIteSubterm` (TERMS/cte_termfunc.c:2318-2346). -/
def findIte : FT → Option Pos
  | .var _ => none
  | .app f ts => (findIteL ts).map fun (s, k) => (s, fun u => .app f (k u))
  | .eqn p l r => first2 (.eqn p) l r (tryIte l (findIte l)) (tryIte r (findIte r))
  | .not a => (tryIte a (findIte a)).map fun (s, k) => (s, fun u => .not (k u))
  | .bin op a b => first2 (.bin op) a b (tryIte a (findIte a)) (tryIte b (findIte b))
  | .qu q x a => (tryIte a (findIte a)).map fun (s, k) => (s, fun u => .qu q x (k u))
  | .ite c a b =>
    match tryIte c (findIte c) with
    | some (s, k) => some (s, fun u => .ite (k u) a b)
    | none => first2 (.ite c) a b (tryIte a (findIte a)) (tryIte b (findIte b))
def findIteL : List FT → Option (FT × (FT → List FT))
  | [] => none
  | t :: ts =>
    match tryIte t (findIte t) with
    | some (s, k) => some (s, fun u => k u :: ts)
    | none => (findIteL ts).map fun (s, k) => (s, fun u => t :: k u)
end

/-- The position of the first `$ite` in a literal (CLAUSES/ccl_formulafunc.c:1018-1034). -/
def findIteLit (p : Bool) (l r : FT) : Option Pos := first2 (.eqn p) l r (tryIte l (findIte l)) (tryIte r (findIte r))

mutual
/-- `do_ite_unroll` (CLAUSES/ccl_formulafunc.c:980-1108); `none` = out of fuel. -/
def doIte : Nat → FT → Option FT
  | 0, _ => none
  | n + 1, .ite c a b => doIte n (.bin .and (.bin .or (negate c) a) (.bin .or c b))
  | n + 1, .eqn p l r =>
    match findIteLit p l r with
    | none => some (.eqn p l r)
    | some (.ite c a b, k) =>
      match doIte n (.bin .or (negate c) (k a)), doIte n (.bin .or c (k b)) with
      | some x, some y => some (.bin .and x y)
      | _, _ => none
    | some (_, _) => none
  | n + 1, .var x => some (.var x)
  | n + 1, .app f ts => (doIteL n ts).map (.app f)
  | n + 1, .not a => (doIte n a).map .not
  | n + 1, .bin op a b =>
    match doIte n a, doIte n b with
    | some a, some b => some (.bin op a b)
    | _, _ => none
  | n + 1, .qu q x a => (doIte n a).map (.qu q x)
def doIteL : Nat → List FT → Option (List FT)
  | _, [] => some []
  | 0, _ :: _ => none
  | n + 1, t :: ts =>
    match doIte n t, doIteL n ts with
    | some t, some ts => some (t :: ts)
    | _, _ => none
end

end Verif.Fool
