import Verif.Clauses.Infer
import Verif.Clauses.Taut
import Verif.Clauses.SplitSpec
import Verif.Formulas.Form

/-!
# Preprocessing of the clause set

Model of `ClauseSetPreprocess` and `ClauseSetUnfoldEqDefNormalize` (CLAUSES/ccl_unfold_defs.c:368-414), called by `ProofStateClausalPreproc` (CONTROL/cco_preprocessing.c:61-125) between
clausification and saturation: superfluous literals and tautologies are removed, injectivity axioms are replaced by inverse functions, clauses are brought to a canonical order,
and equational definitions are unfolded and dropped.  First-order part only; the steps for higher-order problems (cco_preprocessing.c:82-102) are not modelled.

What the steps may do to a clause set is stated with `Converts`.
-/

namespace Verif

universe u

/-! ## Specification -/

/-- Every model of `Cs` becomes a model of `Ds` if only the meaning of symbols in `A` is changed. -/
def Converts (sg : Sig) (A : Nat → Prop) (Cs Ds : List (List Lit)) : Prop :=
  ∀ I : Interp.{u} sg, (∀ C ∈ Cs, I.Models C) → ∃ F, ∃ h : I.FnOK F, (∀ s, ¬ A s → F s = I.fn s) ∧ ∀ D ∈ Ds, (I.reint F h).Models D

/-! ## Definitions -/

/-- `DEFAULT_FWEIGHT + arity * DEFAULT_VWEIGHT`: the weight of a symbol applied to variables. -/
def flatWeight (ts : List Term) : Int := FW + ts.length * VW

/-- The second loop of `TermIsDefTerm` (TERMS/cte_termfunc.c:2143-2150): distinct variables; `seen` are those with `TPOpFlag`. -/
def freshVars : List Nat → List Term → Bool
  | _, [] => true
  | seen, .var x :: ts => !seen.contains x && freshVars (x :: seen) ts
  | _, .app _ _ :: _ => false

/-- `TermIsDefTerm` (TERMS/cte_termfunc.c:2121-2152), first-order. -/
def isDefTerm (minAr : Nat) : Term → Bool
  | .var _ => false
  | .app f ts => decide (minAr ≤ ts.length) && decide ((Term.app f ts).sw = flatWeight ts) && freshVars [] ts

mutual
/-- `TermHasFCode` (TERMS/cte_termfunc.c:2168-2191). -/
def Term.hasCode (f : Nat) : Term → Bool
  | .var _ => false
  | .app g ts => g == f || Term.hasCodeL f ts
def Term.hasCodeL (f : Nat) : List Term → Bool
  | [] => false
  | t :: ts => t.hasCode f || Term.hasCodeL f ts
end

/-- `EqnHasUnboundVars` (CLAUSES/ccl_eqn.c:1669-1686): a variable of `r` does not occur in `l`. -/
def unboundVars (l r : Term) : Bool := r.vars.any fun x => !l.vars.contains x

/-- One half of `EqnIsDefinition` (CLAUSES/ccl_eqn.c:1709-1715): `l` is a term to be defined by `r`; `pseudo` are the symbols with `FPPseudoPred` (`$answer`). -/
def isDefOf (pseudo : Nat → Bool) (minAr : Nat) (l r : Term) : Bool :=
  match l with
  | .var _ => false
  | .app f ts => isDefTerm minAr (.app f ts) && !pseudo f && !r.hasCode f && !unboundVars (.app f ts) r

/-- `EqnIsDefinition` (CLAUSES/ccl_eqn.c:1703-1724): the defined and the defining side. -/
def litDefinition (pseudo : Nat → Bool) (minAr : Nat) (L : Lit) : Option (Term × Term) :=
  if !L.pos then none
  else if isDefOf pseudo minAr L.l L.r then some (L.l, L.r)
  else if isDefOf pseudo minAr L.r L.l then some (L.r, L.l)
  else none

/-- `ClauseIsEqDefinition` (CLAUSES/ccl_clauses.c:905-914). -/
def clauseDefinition (pseudo : Nat → Bool) (minAr : Nat) : List Lit → Option (Term × Term)
  | [L] => litDefinition pseudo minAr L
  | _ => none

/-! ## Unfolding -/

/-- The head symbol, `none` for a variable. -/
def Term.head? : Term → Option Nat
  | .var _ => none
  | .app f _ => some f

/-- `term_top_unfold_def_fo` (CLAUSES/ccl_unfold_defs.c:56-75).  The result of the match is only asserted: the bindings are used in any case. -/
def unfoldTop (sg : Sig) (l r t : Term) : Term :=
  if l.head? = t.head? then
    match substComputeMatch sg l t false ⟨fun _ => none, []⟩ with
    | some (_, st) => instFO st.bind r
    | none => t
  else t

mutual
/-- `term_unfold_def` (CLAUSES/ccl_unfold_defs.c:139-173): the arguments first, then the term itself. -/
def unfoldTerm (sg : Sig) (l r : Term) : Term → Term
  | .var x => .var x
  | .app g ts => unfoldTop sg l r (.app g (unfoldTerms sg l r ts))
def unfoldTerms (sg : Sig) (l r : Term) : List Term → List Term
  | [] => []
  | t :: ts => unfoldTerm sg l r t :: unfoldTerms sg l r ts
end

/-- `eqn_unfold_def` (CLAUSES/ccl_unfold_defs.c:188-206). -/
def unfoldLit (sg : Sig) (l r : Term) (L : Lit) : Lit := ⟨L.pos, unfoldTerm sg l r L.l, unfoldTerm sg l r L.r⟩

/-- The body of the loop of `ClauseSetUnfoldEqDef` (CLAUSES/ccl_unfold_defs.c:289-305): superfluous literals are removed if something was unfolded.  The change of the clause type
(300-303) is not modelled.  The code sees a change by the stack of unfolded positions; an unfolded term never comes out the same, since the new one does not have the symbol. -/
def unfoldClause (sg : Sig) (l r : Term) (C : List Lit) : List Lit :=
  let C' := C.map (unfoldLit sg l r)
  if C' = C then C else removeDup (removeResolved sg C')

/-- `ClauseSetUnfoldEqDef` (CLAUSES/ccl_unfold_defs.c:274-307). -/
def unfoldSet (sg : Sig) (l r : Term) (Cs : List (List Lit)) : List (List Lit) := Cs.map (unfoldClause sg l r)

/-- `ClauseSetUnfoldAllEqDefs` (CLAUSES/ccl_unfold_defs.c:324-350): `done` are the clauses before `start`, `rest` those from there on; the result also lists the symbols whose definitions
were dropped.  Unfolding in the watchlist (340-343) is not modelled. -/
def unfoldAll (sg : Sig) (pseudo : Nat → Bool) (minAr : Nat) (limit : Int) (done : List (List Lit)) : List (List Lit) → List (List Lit) × List Nat
  | [] => (done, [])
  | C :: rest =>
    match clauseDefinition pseudo minAr C with
    | some (l, r) =>
      if r.sw - l.sw ≤ limit then
        let res := unfoldAll sg pseudo minAr limit (unfoldSet sg l r done) (unfoldSet sg l r rest)
        (res.1, l.head?.toList ++ res.2)
      else unfoldAll sg pseudo minAr limit (done ++ [C]) rest
    | none => unfoldAll sg pseudo minAr limit (done ++ [C]) rest
termination_by rest => rest.length
decreasing_by all_goals simp [unfoldSet]

/-! ## Injectivity -/

/-- A new symbol with its argument types and its type. -/
structure SymDecl where
  code : Nat
  args : List Nat
  ty : Nat
deriving DecidableEq

/-- The new symbols are declared with the types for which they are made (`SigGetNewTypedSkolem`, TERMS/cte_signature.c:1456-1472). -/
def SymsDeclared (sg : Sig) (ds : List SymDecl) : Prop := ∀ d ∈ ds, sg.fargs d.code = d.args ∧ sg.fty d.code = d.ty ∧ ¬ sg.distinct d.code

/-- The first loop of `ClauseRecognizeInjectivity` (CLAUSES/ccl_clausefunc.c:803-815): the variable of the left term at the first position where the terms have the two variables. -/
def injVar (x y : Nat) : List Term → List Term → Option Nat
  | .var a :: ts, .var b :: us => if (a = x ∧ b = y) ∨ (a = y ∧ b = x) then some a else injVar x y ts us
  | _ :: ts, _ :: us => injVar x y ts us
  | _, _ => none

/-- The second loop of `ClauseRecognizeInjectivity` (CLAUSES/ccl_clausefunc.c:828-864): `chk` are the variables with `TPCheckFlag`, `op` those with `TPOpFlag`; the result are the
variables pushed on `skolem_vars`.  The arguments are variables (asserted, and implied by the weight). -/
def injScan (chk op : List Nat) : List Term → List Term → Option (List Nat)
  | [], [] => some []
  | .var a :: ts, .var b :: us =>
    if a = b then
      if chk.contains a then none
      else if op.contains a then injScan chk op ts us
      else (injScan chk (a :: op) ts us).map (a :: ·)
    else if chk.contains a || op.contains a || chk.contains b || op.contains b then none
    else injScan (a :: b :: chk) op ts us
  | _, _ => none

/-- What `ClauseRecognizeInjectivity` makes of a positive literal `P` and a negative literal `N` (CLAUSES/ccl_clausefunc.c:787-938): `internal` is the last code of an internal
symbol, `inv f` that `f` was made as an inverse (`FPIsInjDefSkolem`), `n` the next free code. -/
def injReplace (sg : Sig) (internal : Nat) (inv : Nat → Bool) (n : Nat) (P N : Lit) : Option (List Lit × SymDecl) :=
  match P.l, P.r, N.l, N.r with
  | .var x, .var y, .app f ts, .app g us =>
    if x ≠ y ∧ Term.app g us ≠ tTrue ∧ f = g ∧ internal < f ∧ inv f = false ∧ (Term.app f ts).sw = (Term.app g us).sw ∧ (Term.app f ts).sw = flatWeight ts ∧ 0 < ts.length then
      match injVar x y ts us, injScan [] [] ts us with
      | some z, some zs =>
        some ([mkEqn true (.app n (zs.map .var ++ [.app f ts])) (.var z)], ⟨n, zs.map sg.vty ++ [sg.fty f], sg.vty x⟩)
      | _, _ => none
    else none
  | _, _, _, _ => none

/-- `ClauseRecognizeInjectivity` (CLAUSES/ccl_clausefunc.c:773-942). -/
def recognizeInj (sg : Sig) (internal : Nat) (inv : Nat → Bool) (n : Nat) : List Lit → Option (List Lit × SymDecl)
  | [A, B] => if A.pos && !B.pos then injReplace sg internal inv n A B else if B.pos && !A.pos then injReplace sg internal inv n B A else none
  | _ => none

/-- `ClauseSetReplaceInjectivityDefs` (CLAUSES/ccl_clausefunc.c:1018-1057): `tmp` are the replacements so far; `isDef tmp C` is the answer of `ClauseSetInjectivityIsDefined` (957-1003), arbitrary
here.  A recognized clause uses up a code also if it is not replaced.  Result: the clauses kept, the replacements, the next free code, the new symbols. -/
def replaceInj (sg : Sig) (internal : Nat) (isDef : List (List Lit) → List Lit → Bool) (n : Nat) (inv : Nat → Bool) (tmp : List (List Lit)) :
    List (List Lit) → List (List Lit) × List (List Lit) × Nat × List SymDecl
  | [] => ([], tmp, n, [])
  | C :: Cs =>
    match recognizeInj sg internal inv n C with
    | none => let r := replaceInj sg internal isDef n inv tmp Cs; (C :: r.1, r.2)
    | some (R, d) =>
      let inv' := fun f => inv f || f == n
      if isDef tmp R then
        let r := replaceInj sg internal isDef (n + 1) inv' tmp Cs
        (C :: r.1, r.2.1, r.2.2.1, d :: r.2.2.2)
      else
        let r := replaceInj sg internal isDef (n + 1) inv' (tmp ++ [R]) Cs
        (r.1, r.2.1, r.2.2.1, d :: r.2.2.2)

/-! ## The steps together -/

/-- The options and the parts left open: `taut` is the tautology test (`ClauseIsTautology`, C23), `swap` the decision of `EqnCanonize` (CLAUSES/ccl_eqn.c:1875-1886), `sortL` and `sortC` the
sorting of the literals of a clause and of the clauses of the set (`ClauseCanonize`, CLAUSES/ccl_clauses.c:485-497, `ClauseSetCanonize`, CLAUSES/ccl_clausefunc.c:317-331).  `limit = none` is
`eqdef_incrlimit = LONG_MIN`. -/
structure PreParams where
  noPreproc : Bool
  replInj : Bool
  limit : Option Int
  maxClauses : Nat
  internal : Nat
  pseudo : Nat → Bool
  isDef : List (List Lit) → List Lit → Bool
  taut : List Lit → Bool
  swap : Lit → Bool
  sortL : List Lit → List Lit
  sortC : List (List Lit) → List (List Lit)

/-- `ClauseRemoveSuperfluousLiterals` (CLAUSES/ccl_clausefunc.c:233-273). -/
def removeSuperfluous (sg : Sig) (C : List Lit) : List Lit := removeDup (removeResolved sg C)

/-- `ClauseSetFilterTautologies` (CLAUSES/ccl_clausesets.c:1541-1564). -/
def filterTaut (p : PreParams) (Cs : List (List Lit)) : List (List Lit) := Cs.filter fun C => !p.taut C

/-- `ClauseSetCanonize` (CLAUSES/ccl_clausefunc.c:317-331) with `ClauseCanonize` (CLAUSES/ccl_clauses.c:485-497). -/
def canonizeSet (sg : Sig) (p : PreParams) (Cs : List (List Lit)) : List (List Lit) :=
  p.sortC (Cs.map fun C => p.sortL ((removeSuperfluous sg C).map fun L => if p.swap L then ⟨L.pos, L.r, L.l⟩ else L))

/-- `ClauseSetPreprocess` (CLAUSES/ccl_unfold_defs.c:368-383). -/
def setPreprocess (sg : Sig) (p : PreParams) (Cs : List (List Lit)) (n : Nat) : List (List Lit) × Nat × List SymDecl :=
  let Cs1 := filterTaut p (Cs.map (removeSuperfluous sg))
  if p.replInj then
    let r := replaceInj sg p.internal p.isDef n (fun _ => false) [] Cs1
    (canonizeSet sg p (r.1 ++ r.2.1), r.2.2.1, r.2.2.2)
  else (canonizeSet sg p Cs1, n, [])

/-- `ClauseSetUnfoldEqDefNormalize` (CLAUSES/ccl_unfold_defs.c:397-414): the clauses and the symbols whose definitions were dropped. -/
def unfoldNormalize (sg : Sig) (p : PreParams) (Cs : List (List Lit)) : List (List Lit) × List Nat :=
  match p.limit with
  | none => (Cs, [])
  | some lim =>
    if p.maxClauses < Cs.length then (Cs, [])
    else
      let r := unfoldAll sg p.pseudo 1 lim [] Cs
      if r.2.isEmpty then (Cs, []) else (canonizeSet sg p (filterTaut p r.1), r.2)

/-- `ProofStateClausalPreproc` (CONTROL/cco_preprocessing.c:61-125) for first-order problems, without elimination of blocked clauses, predicate elimination and goal definitions (off by
default, HEURISTICS/che_hcb.c:166-189): clauses, next free code, new symbols, symbols whose definitions were dropped. -/
def clausalPreproc (sg : Sig) (p : PreParams) (Cs : List (List Lit)) (n : Nat) : List (List Lit) × Nat × List SymDecl × List Nat :=
  let r := if p.noPreproc then (Cs, n, []) else setPreprocess sg p Cs n
  let q := unfoldNormalize sg p r.1
  (q.1, r.2.1, r.2.2, q.2)

end Verif
