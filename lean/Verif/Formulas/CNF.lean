import Verif.Formulas.Form
import Verif.Clauses.Infer

/-!
# Clausification

Model of the transformation of a formula into clauses (CLAUSES/ccl_tcnf.c, CLAUSES/ccl_tformulae.c, CLAUSES/ccl_formulafunc.c) for first-order
problems without formulas in term positions.  Loops whose number of iterations is not bounded by the structure of the formula take a fuel
argument; `none` means that it did not suffice.  Recording of the derivation is left out.
-/

namespace Verif
namespace Form

/-! ## Simplification -/

/-- `TFormulaIsPropConst` (CLAUSES/ccl_tformulae.c:1373-1383): `$true=$true`, resp. `$true!=$true`. -/
def isPropConst (b : Bool) : Form → Bool
  | lit p l r => p == b && decide (l = tTrue) && decide (r = tTrue)
  | _ => false

/-- `TFormulaPropConstantAlloc` (CLAUSES/ccl_tformulae.c:1499-1508). -/
def propConst (b : Bool) : Form := lit b tTrue tTrue

/-- `tprop_arg_return_other` (CLAUSES/ccl_tcnf.c:55-67). -/
def argReturnOther (f g : Form) (b : Bool) : Option Form :=
  if f.isPropConst b then some g else if g.isPropConst b then some f else none

/-- `tprop_arg_return` (CLAUSES/ccl_tcnf.c:82-94). -/
def argReturn (f g : Form) (b : Bool) : Option Form :=
  if f.isPropConst b then some f else if g.isPropConst b then some g else none

/-- `TFormulaNegAlloc` (CLAUSES/ccl_tcnf.c:1690-1698). -/
def negAlloc : Form → Form
  | not f => f
  | f => not f

/-- `TFormulaVarIsFree` (CLAUSES/ccl_tformulae.c:2186-2223).  The shortcut for formulas without variables is left out. -/
def varFree (x : Nat) : Form → Bool
  | lit _ l r => l.vars.contains x || r.vars.contains x
  | atom t => t.vars.contains x
  | not f => f.varFree x
  | bin _ f g => f.varFree x || g.varFree x
  | qu _ y f => if y = x then false else f.varFree x

/-- The connectives in the body of the loop of `TFormulaSimplify` (CLAUSES/ccl_tcnf.c:1874-1984): the new formula; `S` is the
recursive call. -/
def simpBin (S : Form → Option Form) (op : BOp) (f g : Form) : Option Form :=
  match op with
  | .or =>
    match argReturnOther f g false with
    | some h => some h
    | none => match argReturn f g true with
      | some h => some h
      | none => some (if f = g then f else bin .or f g)
  | .and =>
    match argReturnOther f g true with
    | some h => some h
    | none => match argReturn f g false with
      | some h => some h
      | none => some (if f = g then f else bin .and f g)
  | .equiv =>
    match argReturnOther f g true with
    | some h => some h
    | none => match argReturnOther f g false with
      | some h => some h.negAlloc
      | none => some (if f = g then propConst true else bin .equiv f g)
  | .impl =>
    some (if f.isPropConst true then g
      else if f.isPropConst false then propConst true
      else if g.isPropConst false then f.negAlloc
      else if g.isPropConst true then propConst true
      else if f = g then propConst true
      else bin .impl f g)
  | .xor => S (not (bin .equiv f g))
  | .bimpl => S (bin .impl g f)
  | .nor => S (not (bin .or f g))
  | .nand => S (not (bin .and f g))

/-- The body of the loop of `TFormulaSimplify` (CLAUSES/ccl_tcnf.c:1863-1994).  `small f` stands for `f->weight <= quopt_limit`; the test
`!form->v_count` never holds for a quantified formula, whose variable is counted. -/
def simpStep (small : Form → Bool) (S : Form → Option Form) : Form → Option Form
  | not (lit p l r) => some (lit (!p) l r)
  | bin op f g => simpBin S op f g
  | qu u x f => some (if small (qu u x f) && !f.varFree x then f else qu u x f)
  | f => some f

/-- The loop of `TFormulaSimplify` (CLAUSES/ccl_tcnf.c:1858-2001). -/
def simpLoop (small : Form → Bool) (S : Form → Option Form) : Nat → Form → Option Form
  | 0, _ => none
  | k+1, f => do
    let n ← simpStep small S f
    if n = f then return n else simpLoop small S k n

/-- `TFormulaSimplify` (CLAUSES/ccl_tcnf.c:1823-2002). -/
def simplify (small : Form → Bool) : Nat → Form → Option Form
  | 0, _ => none
  | k+1, f =>
    match f with
    | lit p l r => some (lit p l r)
    | atom t => simpLoop small (simplify small k) k (atom t)
    | not g => do
      let g' ← simplify small k g
      simpLoop small (simplify small k) k (not g')
    | bin op g h => do
      let g' ← simplify small k g
      let h' ← simplify small k h
      simpLoop small (simplify small k) k (bin op g' h')
    | qu u x g => do
      let g' ← simplify small k g
      simpLoop small (simplify small k) k (qu u x g')

/-! ## Negation normal form -/

/-- `troot_nnf` (CLAUSES/ccl_tcnf.c:233-352).  Except for the double negation no rule is applicable to the result of a rule. -/
def rootNNF (pol : Int) : Form → Form
  | not (lit p l r) => lit (!p) l r
  | not (atom t) => if t = tTrue then lit false t t else if t = tFalse then lit true t t else not (atom t)
  | not (not f) => rootNNF pol f
  | not (bin .or f g) => bin .and (not f) (not g)
  | not (bin .and f g) => bin .or (not f) (not g)
  | not (qu u x f) => qu (!u) x (not f)
  | bin .impl f g => bin .or (not f) g
  | bin .equiv f g =>
    if pol = 1 then bin .and (bin .impl f g) (bin .impl g f)
    else bin .or (bin .and f g) (bin .and (not f) (not g))
  | f => f

/-- The last branches of `TFormulaNNF` (CLAUSES/ccl_tcnf.c:2084-2106) with `EncodePredicateAsEqn` (CLAUSES/ccl_tformulae.c:1313-1356) for a Boolean
term. -/
def encodeAtom (t : Term) : Form :=
  if t = tTrue then lit true t t else if t = tFalse then lit false t t else lit true t tTrue

/-- `TFormulaNNF` (CLAUSES/ccl_tcnf.c:2035-2110).  The loop is the recursive call with the same polarity. -/
def nnf : Nat → Int → Form → Option Form
  | 0, _, _ => none
  | k+1, pol, f =>
    match rootNNF pol f with
    | not g => do
      let g' ← nnf k (-pol) g
      if g' = g then return not g else nnf k pol (not g')
    | qu u x g => do
      let g' ← nnf k pol g
      if g' = g then return qu u x g else nnf k pol (qu u x g')
    | bin op g h =>
      if op = .and ∨ op = .or then do
        let g' ← nnf k pol g
        let h' ← nnf k pol h
        if g' = g ∧ h' = h then return bin op g h else nnf k pol (bin op g' h')
      else some (bin op g h)
    | atom t => some (encodeAtom t)
    | lit p l r => some (lit p l r)

/-! ## Miniscoping -/

/-- The first part of `TFormulaMiniScope` (CLAUSES/ccl_tcnf.c:2135-2184). -/
def miniRoot : Form → Form
  | qu u x (bin op f g) =>
    if op = .and ∨ op = .or then
      if !f.varFree x then bin op f (qu u x g)
      else if !g.varFree x then bin op (qu u x f) g
      else if (op = .and ∧ u = true) ∨ (op = .or ∧ u = false) then bin op (qu u x f) (qu u x g)
      else qu u x (bin op f g)
    else qu u x (bin op f g)
  | f => f

/-- `TFormulaMiniScope` (CLAUSES/ccl_tcnf.c:2129-2206). -/
def miniScope : Nat → Form → Option Form
  | 0, _ => none
  | k+1, f =>
    match miniRoot f with
    | not g => do
      let g' ← miniScope k g
      if g' = g then return not g else miniScope k (not g')
    | bin op g h => do
      let g' ← miniScope k g
      let h' ← miniScope k h
      if g' = g ∧ h' = h then return bin op g h else miniScope k (bin op g' h')
    | qu u x g => do
      let g' ← miniScope k g
      if g' = g then return qu u x g else miniScope k (qu u x g')
    | atom t => some (atom t)
    | lit p l r => some (lit p l r)

/-- `tform_copy_mod` (CLAUSES/ccl_tcnf.c:886-917): `cand f` tells that `f` has been collected as a candidate and is bound to its miniscoped
version.  Quantified formulas have no subformulas in the sense of `TFormulaHasSubForm1/2`. -/
def copyMod (cand : Form → Bool) (k : Nat) : Form → Option Form
  | lit p l r => some (lit p l r)
  | atom t => some (atom t)
  | not f => if cand (not f) then miniScope k (not f) else (copyMod cand k f).map not
  | bin op f g =>
    if cand (bin op f g) then miniScope k (bin op f g)
    else do
      let f' ← copyMod cand k f
      let g' ← copyMod cand k g
      return bin op f' g'
  | qu u x f => if cand (qu u x f) then miniScope k (qu u x f) else some (qu u x f)

/-- `TFormulaMiniScope3` (CLAUSES/ccl_tcnf.c:2289-2327).  Which formulas `tform_find_miniscopeable` (811-870) collects is left open. -/
def miniScope3 (cand : Form → Bool) (k : Nat) (f : Form) : Option Form := copyMod cand k f

/-! ## Renaming of the quantified variables -/

end Form

/-- `VarBankSetVCountsToUsed` (TERMS/cte_termvars.c:305-322).  (All types with variables are within the array `v_counts` of the bank the
variables have been requested from.) -/
def VarBank.setUsed (b : VarBank) : VarBank := { b with vcnt := fun ty => (b.vstk ty).length }

namespace Form

/-- `TFormulaVarRename` (CLAUSES/ccl_tcnf.c:2348-2401): `ρ` are the bindings of the variables.  The new variables are not bound
themselves, so following the bindings ends there. -/
def varRename (sg : Sig) : Form → (Nat → Nat) → VarBank → Form × VarBank
  | lit p l r, ρ, b => (lit p (l.subst fun x => .var (ρ x)) (r.subst fun x => .var (ρ x)), b)
  | atom t, ρ, b => (atom (t.subst fun x => .var (ρ x)), b)
  | not f, ρ, b => let r := varRename sg f ρ b; (not r.1, r.2)
  | bin op f g, ρ, b =>
    let r := varRename sg f ρ b
    let s := varRename sg g ρ r.2
    (bin op r.1 s.1, s.2)
  | qu u x f, ρ, b =>
    let y := b.getFresh (sg.vty x)
    let r := varRename sg f (fun z => if z = x then y.1 else ρ z) y.2
    (qu u y.1 r.1, r.2)

/-! ## Skolemization -/

/-- `TermIsGround` for a formula: no variable occurs, not even a quantified one. -/
def isGround : Form → Bool
  | lit _ l r => l.vars.isEmpty && r.vars.isEmpty
  | atom t => t.vars.isEmpty
  | not f => f.isGround
  | bin _ f g => f.isGround && g.isGround
  | qu _ _ _ => false

end Form

/-- A new symbol with the variables it is applied to and its type. -/
structure SkDecl where
  code : Nat
  args : List Nat
  ty : Nat
deriving DecidableEq

namespace Form

/-- `tformula_rek_skolemize` (CLAUSES/ccl_tcnf.c:374-437) with `TermAllocNewSkolem` (TERMS/cte_termtypes.c:322-378): `vs` is the stack of universally
quantified variables (bottom first), `σ` are the bindings, `n` the next symbol code.  For Boolean terms that are not encoded as equations the
instantiated copy is made, but not used (393).  The result are the formula, the next code and the new symbols. -/
def skolemize (sg : Sig) : Form → List Nat → (Nat → Term) → Nat → Form × Nat × List SkDecl
  | lit p l r, _, σ, n => if (lit p l r).isGround then (lit p l r, n, []) else (lit p (l.subst σ) (r.subst σ), n, [])
  | atom t, _, _, n => (atom t, n, [])
  | not f, vs, σ, n =>
    if (not f).isGround then (not f, n, [])
    else let r := skolemize sg f vs σ n; (not r.1, r.2)
  | bin op f g, vs, σ, n =>
    if (bin op f g).isGround then (bin op f g, n, [])
    else
      let r := skolemize sg f vs σ n
      let s := skolemize sg g vs σ r.2.1
      (bin op r.1 s.1, s.2.1, r.2.2 ++ s.2.2)
  | qu false x f, vs, σ, n =>
    let sk := Term.app n (vs.map Term.var)
    let r := skolemize sg f vs (fun z => if z = x then sk else σ z) (n + 1)
    (r.1, r.2.1, ⟨n, vs, sg.vty x⟩ :: r.2.2)
  | qu true x f, vs, σ, n =>
    let r := skolemize sg f (vs ++ [x]) σ n
    (qu true x r.1, r.2)

/-- `tformula_collect_freevars` (CLAUSES/ccl_tformulae.c:863-904): the variables that are not quantified (`bound`), each once.  The order of the
tree (by address) is replaced by the order of occurrence. -/
def collectFree : Form → (Nat → Bool) → List Nat → List Nat
  | lit _ l r, bound, acc => (l.vars ++ r.vars).foldl (fun acc x => if bound x || acc.contains x then acc else acc ++ [x]) acc
  | atom t, bound, acc => t.vars.foldl (fun acc x => if bound x || acc.contains x then acc else acc ++ [x]) acc
  | not f, bound, acc => collectFree f bound acc
  | bin _ f g, bound, acc => collectFree g bound (collectFree f bound acc)
  | qu _ x f, bound, acc => collectFree f (fun z => if z = x then true else bound z) acc

/-- `TFormulaSkolemizeOutermost` (CLAUSES/ccl_tcnf.c:2420-2438). -/
def skolemizeOutermost (sg : Sig) (f : Form) (n : Nat) : Form × Nat × List SkDecl :=
  skolemize sg f (collectFree f (fun _ => false) []) Term.var n

/-! ## Prenex form and distribution -/

/-- `extract_formula_core` (CLAUSES/ccl_tcnf.c:540-572): the quantifiers skipped (assumed to be universal) and the rest.  If no quantifier is found
the formula is not changed. -/
def extractCore : Form → Form × List Nat
  | qu _ x f => let r := extractCore f; (r.1, x :: r.2)
  | bin op f g =>
    if op = .and ∨ op = .or then
      let r := extractCore f
      let s := extractCore g
      (bin op r.1 s.1, r.2 ++ s.2)
    else (bin op f g, [])
  | f => (f, [])

/-- `TFormulaShiftQuantors` (CLAUSES/ccl_tcnf.c:2458-2476): the variable pushed last is quantified first. -/
def shiftQuantors (f : Form) : Form := let r := extractCore f; r.2.foldr (qu true) r.1

/-- The first part of `TFormulaDistributeDisjunctions` (CLAUSES/ccl_tcnf.c:2553-2571): the subformulas; `D` is the recursive call. -/
def distSub (D : Form → Option Form) : Form → Option Form
  | not g => (D g).map not
  | bin op g h => (D g).bind fun g' => (D h).map fun h' => bin op g' h'
  | qu u x g => (D g).map (qu u x)
  | f => some f

/-- The second part of `TFormulaDistributeDisjunctions` (CLAUSES/ccl_tcnf.c:2573-2597). -/
def distRoot (D : Form → Option Form) : Form → Option Form
  | bin .or (bin .and f1 f2) f3 => D (bin .and (bin .or f1 f3) (bin .or f2 f3))
  | bin .or f1 (bin .and f2 f3) => D (bin .and (bin .or f2 f1) (bin .or f3 f1))
  | f => some f

/-- `TFormulaDistributeDisjunctions` (CLAUSES/ccl_tcnf.c:2532-2599). -/
def distribute : Nat → Form → Option Form
  | 0, _ => none
  | k+1, f => (distSub (distribute k) f).bind (distRoot (distribute k))

/-- `WTFormulaConjunctiveNF3` (CLAUSES/ccl_tcnf.c:2820-2908) without unrolling Boolean terms.  The result are the formula, the bank, the next code and the new
symbols. -/
def conjunctiveNF (sg : Sig) (small cand : Form → Bool) (k : Nat) (f : Form) (b : VarBank) (n : Nat) :
    Option (Form × VarBank × Nat × List SkDecl) := do
  let f ← simplify small k f
  let f ← nnf k 1 f
  let f ← miniScope3 cand k f
  let r := varRename sg f id b.setUsed
  let s := skolemizeOutermost sg r.1 n
  let f := shiftQuantors s.1
  let f ← nnf k 1 f
  let f ← distribute k f
  return (f, r.2, s.2)

/-! ## Clauses -/

/-- The first loop of `TFormulaToCNF` (CLAUSES/ccl_formulafunc.c:1878-1883). -/
def skipAll : Form → Form
  | qu true _ f => skipAll f
  | f => f

/-- The second loop of `TFormulaToCNF` (CLAUSES/ccl_formulafunc.c:1884-1912): the conjuncts in the order in which they are popped. -/
def conjuncts : Form → List Form
  | bin .and f g => conjuncts g ++ conjuncts f
  | f => [f]

/-- The loop of `TFormulaCollectClause` (CLAUSES/ccl_tformulae.c:2640-2678): the literals in the order of the clause.  Anything that is not a literal, `$true` or
`$false` is dropped. -/
def collectLits : Form → List Lit
  | bin .or f g => collectLits f ++ collectLits g
  | lit p l r => [mkEqn p l r]
  | atom t => if t = tTrue then [mkEqn true t t] else []
  | _ => []

end Form

/-- `EqnIsBoolVar` (CLAUSES/ccl_eqn.h:187). -/
def Lit.boolVar (L : Lit) : Option Nat :=
  match L.l with
  | .var x => if L.r = tTrue then some x else none
  | _ => none

/-- The loop of `ClauseEliminateNakedBooleanVariables` (CLAUSES/ccl_clausefunc.c:683-735): `bind x = some b` if `x` is bound to `$true`, resp. `$false`;
`none`: complementary literals.  The flag is `eliminated_var`. -/
def elimLoop : List Lit → (Nat → Option Bool) → Bool → Option ((Nat → Option Bool) × Bool)
  | [], bind, e => some (bind, e)
  | L :: C, bind, e =>
    match L.boolVar with
    | none => elimLoop C bind e
    | some x =>
      match bind x with
      | some c => if c = L.pos then none else elimLoop C bind true
      | none => elimLoop C (fun z => if z = x then some (!L.pos) else bind z) true

/-- The bindings as a substitution. -/
def elimSubst (bind : Nat → Option Bool) (x : Nat) : Term :=
  match bind x with
  | some true => tTrue
  | some false => tFalse
  | none => .var x

/-- `ClauseEliminateNakedBooleanVariables` (CLAUSES/ccl_clausefunc.c:666-750): the literals are taken from the end. -/
def elimBoolVars (sg : Sig) (C : List Lit) : List Lit :=
  match elimLoop C.reverse (fun _ => none) false with
  | none => [⟨true, tTrue, tTrue⟩]
  | some (bind, e) =>
    if e then
      let C1 := C.map fun L => if L.boolVar.isSome then ⟨false, tTrue, tTrue⟩ else L
      let C2 := C1.map fun L => mkEqn L.pos (L.l.subst (elimSubst bind)) (L.r.subst (elimSubst bind))
      removeDup (removeResolved sg C2)
    else C

/-- The loop of `TFormulaToCNF` over the conjuncts (CLAUSES/ccl_formulafunc.c:1885-1912): `TFormulaCollectClause` with normalisation of the variables
(CLAUSES/ccl_tformulae.c:2681-2690; the variables come from the bank `fresh_vars`) and elimination of Boolean variables.  A clause without variables is copied without change
there, as in `clauseNormalizeVars`. -/
def clausesOf (sg : Sig) (k : Nat) : List Form → VarBank → Option (VarBank × List (List Lit))
  | [], b => some (b, [])
  | f :: fs, b => do
    let r ← clauseNormalizeVars sg k b f.collectLits
    let s ← clausesOf sg k fs r.1
    return (s.1, elimBoolVars sg r.2 :: s.2)

/-- `TFormulaToCNF` (CLAUSES/ccl_formulafunc.c:1869-1915). -/
def formToCNF (sg : Sig) (k : Nat) (f : Form) (b : VarBank) : Option (VarBank × List (List Lit)) :=
  clausesOf sg k f.skipAll.conjuncts b

/-- `WFormulaCNF2` (CLAUSES/ccl_formulafunc.c:1482-1508) for a formula that is not a clause. -/
def formulaCNF (sg : Sig) (small cand : Form → Bool) (k : Nat) (f : Form) (b : VarBank) (n : Nat) :
    Option (List (List Lit) × VarBank × Nat × List SkDecl) := do
  let r ← f.conjunctiveNF sg small cand k b n
  let s ← formToCNF sg k r.1 r.2.1
  return (s.2, s.1, r.2.2)

/-- `WFormulaCell` (CLAUSES/ccl_formula_wrapper.h): a formula, possibly the encoding of a clause. -/
structure WForm where
  isClause : Bool
  form : Form

/-- `WFormulaCNF2` (CLAUSES/ccl_formulafunc.c:1482-1508) with `WFormClauseToClause` (CLAUSES/ccl_formula_wrapper.c:803-816), which does not normalise the variables. -/
def WForm.cnf (sg : Sig) (small cand : Form → Bool) (k : Nat) (w : WForm) (b : VarBank) (n : Nat) : Option (List (List Lit) × VarBank × Nat × List SkDecl) :=
  if w.isClause then some ([w.form.collectLits], b, n, []) else formulaCNF sg small cand k w.form b n

/-- The loop of `FormulaSetCNF2` (CLAUSES/ccl_formulafunc.c:1666-1688).  Garbage collection is left out. -/
def formulasCNF (sg : Sig) (small cand : Form → Bool) (k : Nat) : List WForm → VarBank → Nat → Option (List (List Lit) × VarBank × Nat × List SkDecl)
  | [], b, n => some ([], b, n, [])
  | w :: ws, b, n =>
    (w.cnf sg small cand k b n).bind fun r =>
      (formulasCNF sg small cand k ws r.2.1 r.2.2.1).bind fun s =>
        some (r.1 ++ s.1, s.2.1, s.2.2.1, r.2.2.2 ++ s.2.2.2)

end Verif
