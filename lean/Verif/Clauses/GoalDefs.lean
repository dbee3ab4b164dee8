import Verif.Clauses.Preproc

/-!
# Definitions for goal terms

Model of `ClauseSetGDTransform` (CLAUSES/ccl_gd_transformation.c:195-243), which names ground terms of the conjectures by new constants.  Terms are shared, so that the entry number of a term,
the key of the tree of definitions, stands for the term itself.
-/

namespace Verif

/-- `TermIsGround`. -/
def Term.isGround (t : Term) : Bool := t.vars.isEmpty

/-! ## Collecting terms -/

mutual
/-- `TermCollectGroundTerms` (TERMS/cte_termfunc.c:2810-2845), without the removal of duplicates; `pp` are the terms with `TPPredPos`.  The stack of the code visits the same terms in another order. -/
def collectGround (pp : Term → Bool) (all : Bool) : Term → List Term
  | .var _ => []
  | .app f ts =>
    (if (Term.app f ts).isGround && !ts.isEmpty && !pp (.app f ts) then [.app f ts] else []) ++
      (if !(Term.app f ts).isGround || all then collectGrounds pp all ts else [])
def collectGrounds (pp : Term → Bool) (all : Bool) : List Term → List Term
  | [] => []
  | t :: ts => collectGround pp all t ++ collectGrounds pp all ts
end

/-- `EqnListCollectGroundTerms` (CLAUSES/ccl_eqnlist.c:2008-2022). -/
def collectClause (pp : Term → Bool) (pos neg all : Bool) (C : List Lit) : List Term :=
  C.flatMap fun L => if (L.pos && pos) || (!L.pos && neg) then collectGround pp all L.l ++ collectGround pp all L.r else []

/-! ## Definitions -/

/-- The tree of definitions (the newest first), the clauses that define them, the next free code, the new symbols. -/
structure GdSt where
  defs : List (Term × Term)
  out : List (List Lit)
  next : Nat
  decls : List SymDecl

mutual
/-- `gd_def_nf` (CLAUSES/ccl_gd_transformation.c:56-83). -/
def gdNF (defs : List (Term × Term)) : Term → Term
  | .var x => .var x
  | .app f ts =>
    if ts.isEmpty then .app f ts
    else
      match defs.lookup (.app f ts) with
      | some c => c
      | none => (defs.lookup (.app f (gdNFs defs ts))).getD (.app f (gdNFs defs ts))
def gdNFs (defs : List (Term × Term)) : List Term → List Term
  | [] => []
  | t :: ts => gdNF defs t :: gdNFs defs ts
end

/-- `TermIsConst`. -/
def Term.isConst : Term → Bool
  | .var _ => false
  | .app _ ts => ts.isEmpty

/-- `gd_term_define` (CLAUSES/ccl_gd_transformation.c:102-132); `NumTreeStore` leaves an entry that exists. -/
def gdDefine (sg : Sig) (t : Term) (s : GdSt) : GdSt :=
  if t.isConst || (s.defs.lookup t).isSome then s
  else
    let lhs := gdNF s.defs t
    let c := Term.app s.next []
    ⟨if (s.defs.lookup lhs).isSome then s.defs else (lhs, c) :: s.defs, s.out ++ [[mkEqn true lhs c]], s.next + 1, s.decls ++ [⟨s.next, [], sg.ty t⟩]⟩

mutual
/-- `gd_term_rek_define` (CLAUSES/ccl_gd_transformation.c:148-169). -/
def gdRekDefine (sg : Sig) : Term → GdSt → GdSt
  | .var _, s => s
  | .app f ts, s => if ts.isEmpty then s else gdDefine sg (.app f ts) (gdRekDefines sg ts s)
def gdRekDefines (sg : Sig) : List Term → GdSt → GdSt
  | [], s => s
  | t :: ts, s => gdRekDefines sg ts (gdRekDefine sg t s)
end

/-- The body of the second loop of `ClauseSetGDTransform` (CLAUSES/ccl_gd_transformation.c:222-237). -/
def gdGoal (sg : Sig) (all : Bool) (s : GdSt) (t : Term) : GdSt :=
  if (s.defs.lookup t).isNone && !t.isConst then
    if all then gdRekDefine sg t s else gdDefine sg t s
  else s

/-- `ClauseSetGDTransform` (CLAUSES/ccl_gd_transformation.c:195-243): `conj` are the conjectures among the clauses `Cs`, `order` lists a set of terms by address, `n` is the next free code.
Result: all clauses, the next free code, the new symbols. -/
def gdTransform (sg : Sig) (pp : Term → Bool) (order : List Term → List Term) (conj : List Lit → Bool) (pos neg all : Bool) (Cs : List (List Lit)) (n : Nat) :
    List (List Lit) × Nat × List SymDecl :=
  let goals := order ((Cs.filter conj).flatMap (collectClause pp pos neg all))
  let s := goals.foldl (gdGoal sg all) ⟨[], [], n, []⟩
  (Cs ++ s.out, s.next, s.decls)

end Verif
