import Verif.Clauses.ClauseIndex
import Verif.Terms.Inst

/-!
# Enumeration of the overlaps of two clauses

Model of the iterators used for paramodulation without index: TERMS/cte_termpos.c:62-85, TERMS/cte_termpos.h:134-146, CLAUSES/ccl_clausepos.c:93-271, CLAUSES/ccl_paramod.c:117-148 and
1029-1286, and the loops over pairs of positions in `ComputeClauseClauseParamodulants` (CONTROL/cco_paramodulation.c:690-727, 737-772).  First-order case (`problemType` is `PROBLEM_FO`).
The pointer `pos->literal` is the number of the literal; `NULL` ends the iteration.
-/

namespace Verif

/-- The position stack, top first: terms and argument numbers. -/
abbrev PosStack := List (Term × Nat)

/-- The loop of `TermPosFirstLIPosition` (TERMS/cte_termpos.h:134-146), also used in `TermPosNextLIPosition` (TERMS/cte_termpos.c:76-82). -/
def firstLI : Term → PosStack → Term × PosStack
  | .var x, st => (.var x, st)
  | .app f [], st => (.app f [], st)
  | .app f (t :: ts), st => firstLI t ((.app f (t :: ts), 0) :: st)

/-- The arguments of a term. -/
def Term.subArgs : Term → List Term
  | .var _ => []
  | .app _ ts => ts

/-- `TermPosNextLIPosition` (TERMS/cte_termpos.c:62-85).  In the loop the first round pushes `super` with the next index. -/
def nextLI : PosStack → Option (Term × PosStack)
  | [] => none
  | (sup, i) :: st =>
    if i + 1 < sup.subArgs.length then
      match sup.subArgs[i + 1]? with
      | some u => some (firstLI u ((sup, i + 1) :: st))
      | none => none
    else some (sup, st)

/-- `ClausePosCell` (CLAUSES/ccl_clausepos.h:38-52) with a clause given apart. -/
structure IPos where
  lit : Nat
  right : Bool
  pos : PosStack
deriving DecidableEq

/-- `ClausePosGetSide` (CLAUSES/ccl_clausepos.h:176-183). -/
def XLit.side (L : XLit) (right : Bool) : Term := if right then L.lit.r else L.lit.l

/-- `EqnIsEquLit`: the right side is not `$true`. -/
def XLit.equ (L : XLit) : Bool := L.lit.r != tTrue

/-- The loop over the literals from number `i` on for the first one with a property. -/
def findLitFrom (p : XLit → Bool) : List XLit → Nat → Option Nat
  | [], _ => none
  | L :: C, i => if p L then some i else findLitFrom p C (i + 1)

/-- `ClausePosFindMaxLiteral` (CLAUSES/ccl_clausepos.c:123-137) from literal number `i` on. -/
def findMaxLit (C : List XLit) (positive : Bool) (i : Nat) : Option Nat := findLitFrom (fun L => L.maximal && (!positive || L.lit.pos)) (C.drop i) i

/-- `ClausePosFindFirstMaximalSide` (CLAUSES/ccl_clausepos.c:153-166). -/
def findFirstMaxSide (C : List XLit) (positive : Bool) : Option IPos := (findMaxLit C positive 0).map fun i => ⟨i, false, []⟩

/-- `ClausePosFindNextMaximalSide` (CLAUSES/ccl_clausepos.c:182-208). -/
def findNextMaxSide (C : List XLit) (positive : Bool) (q : IPos) : Option IPos :=
  match C[q.lit]? with
  | none => none
  | some L => if !q.right && !L.oriented then some ⟨q.lit, true, []⟩ else (findMaxLit C positive (q.lit + 1)).map fun i => ⟨i, false, []⟩

/-- The subterm and the position after moving to the first position of a side. -/
def enterSide (C : List XLit) (q : IPos) : Option (Term × IPos) :=
  match C[q.lit]? with
  | none => none
  | some L => let r := firstLI (L.side q.right) []; some (r.1, ⟨q.lit, q.right, r.2⟩)

/-- `ClausePosFindFirstMaximalSubterm` (CLAUSES/ccl_clausepos.c:224-239). -/
def findFirstMaxSubterm (C : List XLit) : Option (Term × IPos) := (findFirstMaxSide C false).bind (enterSide C)

/-- `ClausePosFindNextMaximalSubterm` (CLAUSES/ccl_clausepos.c:255-271). -/
def findNextMaxSubterm (C : List XLit) (q : Term × IPos) : Option (Term × IPos) :=
  match nextLI q.2.pos with
  | some r => some (r.1, ⟨q.2.lit, q.2.right, r.2⟩)
  | none => (findNextMaxSide C false q.2).bind (enterSide C)

/-- `clause_pos_find_first_neg_max_lside` (CLAUSES/ccl_paramod.c:127-148) from literal number `i` on. -/
def findNegMaxLside (C : List XLit) (i : Nat) : Option (Term × IPos) :=
  match findLitFrom (fun L => L.maximal && !L.lit.pos) (C.drop i) i with
  | none => none
  | some j => (C[j]?).map fun L => (L.lit.l, ⟨j, false, []⟩)

/-- `IS_NO_PARAMOD_POS` (CLAUSES/ccl_paramod.c:1029-1036); `ft` is the side of the literal that is used. -/
def noParamodPos (C : List XLit) (noTop : Bool) (ft : Term) (q : Term × IPos) : Bool :=
  match C[q.2.lit]? with
  | none => false
  | some L => q.1.isVar || (L.lit.pos && noTop && q.2.pos.isEmpty) || (ft.isVar && !L.equ && q.2.pos.isEmpty)

/-- The loop of the iterators: skip what is unwanted.  The first argument bounds the number of rounds; `none` means more rounds are needed. -/
def skipBad {S : Type} (next : S → Option S) (bad : S → Bool) : Nat → Option S → Option (Option S)
  | _, none => some none
  | 0, some _ => none
  | k + 1, some a => if bad a then skipBad next bad k (next a) else some (some a)

/-- The step of the search in the clause (CLAUSES/ccl_paramod.c:1111-1121, 1124-1132); `equ` tells whether the literal that is used is an equation. -/
def intoStep (C : List XLit) (equ : Bool) (q : Term × IPos) : Option (Term × IPos) := if equ then findNextMaxSubterm C q else findNegMaxLside C (q.2.lit + 1)

/-- `ClausePosFirstParamodInto` (CLAUSES/ccl_paramod.c:1055-1088) for side `ft` of a literal; the properties set for simultaneous paramodulation are not modelled. -/
def firstInto (k : Nat) (C : List XLit) (equ noTop : Bool) (ft : Term) : Option (Option (Term × IPos)) :=
  skipBad (intoStep C equ) (noParamodPos C noTop ft) k (if equ then findFirstMaxSubterm C else findNegMaxLside C 0)

/-- `ClausePosNextParamodInto` (CLAUSES/ccl_paramod.c:1106-1135). -/
def nextInto (k : Nat) (C : List XLit) (equ noTop : Bool) (ft : Term) (q : Term × IPos) : Option (Option (Term × IPos)) :=
  skipBad (intoStep C equ) (noParamodPos C noTop ft) k (intoStep C equ q)

/-- The test in `ClausePosFirstParamodFromSide`, `ClausePosNextParamodFromSide` (CLAUSES/ccl_paramod.c:1162-1166, 1195-1199); `nonEq` is `ParamodOverlapNonEqLiterals`. -/
def badFrom (F : List XLit) (nonEq : Bool) (q : IPos) : Bool :=
  match F[q.lit]? with
  | none => false
  | some L => !(nonEq || L.equ) || L.selected

/-- `ClausePosFirstParamodFromSide` (CLAUSES/ccl_paramod.c:1154-1171). -/
def firstFrom (k : Nat) (F : List XLit) (nonEq : Bool) : Option (Option IPos) := skipBad (findNextMaxSide F true) (badFrom F nonEq) k (findFirstMaxSide F true)

/-- `ClausePosNextParamodFromSide` (CLAUSES/ccl_paramod.c:1190-1204). -/
def nextFrom (k : Nat) (F : List XLit) (nonEq : Bool) (q : IPos) : Option (Option IPos) := skipBad (findNextMaxSide F true) (badFrom F nonEq) k (findNextMaxSide F true q)

/-- The side `from_pos` points to and whether its literal is an equation. -/
def fromInfo (F : List XLit) (q : IPos) : Term × Bool :=
  match F[q.lit]? with
  | none => (tTrue, true)
  | some L => (L.side q.right, L.equ)

/-- The loop common to `ClausePosFirstParamodPair` (CLAUSES/ccl_paramod.c:1230-1241) and `ClausePosNextParamodPair` (1272-1282). -/
def pairLoop (k : Nat) (F T : List XLit) (nonEq noTop : Bool) : Nat → Option IPos → Option (Option (IPos × Term × IPos))
  | _, none => some none
  | 0, some _ => none
  | m + 1, some f =>
    match firstInto k T (fromInfo F f).2 noTop (fromInfo F f).1 with
    | none => none
    | some (some t) => some (some (f, t))
    | some none =>
      match nextFrom k F nonEq f with
      | none => none
      | some f' => pairLoop k F T nonEq noTop m f'

/-- `ClausePosFirstParamodPair` (CLAUSES/ccl_paramod.c:1221-1245). -/
def firstPair (k : Nat) (F T : List XLit) (nonEq noTop : Bool) : Option (Option (IPos × Term × IPos)) :=
  match firstFrom k F nonEq with
  | none => none
  | some f => pairLoop k F T nonEq noTop k f

/-- `ClausePosNextParamodPair` (CLAUSES/ccl_paramod.c:1262-1286). -/
def nextPair (k : Nat) (F T : List XLit) (nonEq noTop : Bool) (q : IPos × Term × IPos) : Option (Option (IPos × Term × IPos)) :=
  match nextInto k T (fromInfo F q.1).2 noTop (fromInfo F q.1).1 q.2 with
  | none => none
  | some (some t) => some (some (q.1, t))
  | some none =>
    match nextFrom k F nonEq q.1 with
    | none => none
    | some f => pairLoop k F T nonEq noTop k f

/-- The loops over all pairs (CONTROL/cco_paramodulation.c:690-727, 737-772): the pairs for which `variable_paramod` is called. -/
def pairsFrom (k : Nat) (F T : List XLit) (nonEq noTop : Bool) : Nat → Option (IPos × Term × IPos) → Option (List (IPos × Term × IPos))
  | _, none => some []
  | 0, some _ => none
  | m + 1, some q =>
    match nextPair k F T nonEq noTop q with
    | none => none
    | some q' => (pairsFrom k F T nonEq noTop m q').map (q :: ·)

/-- All pairs tried by one of the loops of `ComputeClauseClauseParamodulants`. -/
def allPairs (k : Nat) (F T : List XLit) (nonEq noTop : Bool) : Option (List (IPos × Term × IPos)) :=
  match firstPair k F T nonEq noTop with
  | none => none
  | some q => pairsFrom k F T nonEq noTop k q

/-! ## Specification -/

/-- The side of a literal that may be used: positive, maximal, not selected, the right side of unoriented literals only; predicate literals on request only. -/
def FromSide (F : List XLit) (nonEq : Bool) (i : Nat) (right : Bool) (L : XLit) : Prop :=
  F[i]? = some L ∧ L.maximal = true ∧ L.lit.pos = true ∧ L.selected = false ∧ (right = true → L.oriented = false) ∧ (nonEq = true ∨ L.lit.r ≠ tTrue)

/-- The positions into which an equation may be used: positions of non-variable subterms `u` of the left sides of maximal literals and of the right sides of unoriented ones; no top positions
of positive literals on request; no variables into whole atoms. -/
def IntoEqPos (T : List XLit) (noTop : Bool) (ft : Term) (j : Nat) (right : Bool) (pos : List (Term × Nat)) (u : Term) : Prop :=
  ∃ L, T[j]? = some L ∧ L.maximal = true ∧ (right = true → L.oriented = false) ∧ IsPos (L.side right) pos ∧ posSubterm (L.side right) pos = some u ∧ u.isVar = false ∧
    (pos = [] → ¬ (L.lit.pos = true ∧ noTop = true) ∧ ¬ (ft.isVar = true ∧ L.lit.r = tTrue))

/-- The positions into which an atom may be used: left sides of negative maximal literals. -/
def IntoAtomPos (T : List XLit) (ft : Term) (j : Nat) (right : Bool) (pos : List (Term × Nat)) (u : Term) : Prop :=
  ∃ L, T[j]? = some L ∧ L.maximal = true ∧ L.lit.pos = false ∧ right = false ∧ pos = [] ∧ u = L.lit.l ∧ u.isVar = false ∧ ¬ (ft.isVar = true ∧ L.lit.r = tTrue)

end Verif
