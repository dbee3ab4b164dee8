import Verif.Clauses.Infer

/-!
# Trivial clauses and tautologies

Model of CLAUSES/ccl_tautologies.c, `EqnListIsTrivial`, `EqnLongListIsTrivial` (CLAUSES/ccl_eqnlist.c:1024-1122),
`ClauseIsTrivial` (CLAUSES/ccl_clauses.c:380-395) and `PStackBinSearch` (BASICS/clb_pstacks.c:211-239).
-/

namespace Verif

/-- `EqnEqual` (CLAUSES/ccl_eqn.c:2006-2020): same sides, possibly exchanged.  (If both equations are oriented
the C omits the exchanged test, which then cannot succeed.) -/
def eqnEqual (L K : Lit) : Bool := decide ((L.l = K.l ∧ L.r = K.r) ∨ (L.l = K.r ∧ L.r = K.l))

/-- `EqnListIsTrivial` (CLAUSES/ccl_eqnlist.c:1024-1046). -/
def listIsTrivial : List Lit → Bool
  | [] => false
  | L :: C => C.any (fun K => (K.pos != L.pos) && eqnEqual K L) || listIsTrivial C

/-- `EqnSyntaxCompare` (CLAUSES/ccl_eqn.c:2290-2331); `no t` is the entry number of the term cell. -/
def eqnSyntaxCompare (no : Term → Int) (L K : Lit) : Ordering :=
  let equ (M : Lit) : Bool := decide (M.r ≠ tTrue)
  if equ L && !equ K then .lt
  else if equ K && !equ L then .gt
  else
    (compare (max (no L.l) (no L.r)) (max (no K.l) (no K.r))).then
      (compare (min (no L.l) (no L.r)) (min (no K.l) (no K.r)))

/-- `PStackBinSearch` (BASICS/clb_pstacks.c:211-239).  The bounds are `long`; a `lower - 1` below 0 ends the
loop just as 0 does.  Fuel: the interval shrinks in every round, so `upper + 1` rounds suffice. -/
def binSearch {α : Type} (cmp : α → α → Ordering) (stk : List α) (key : α) : Nat → Nat → Nat → Nat
  | 0, lower, _ => lower + 1
  | n + 1, lower, upper =>
    if lower < upper then
      let i := (lower + upper) / 2
      match stk[i]? with
      | none => lower + 1 -- outside the stack: does not happen for `upper ≤ stk.length`
      | some x =>
        match cmp key x with
        | .lt => binSearch cmp stk key n lower (i - 1)
        | .gt => binSearch cmp stk key n (i + 1) upper
        | .eq => i
    else lower + 1

/-- The loop of `EqnLongListIsTrivial` (CLAUSES/ccl_eqnlist.c:1090-1117) on the two sorted stacks. -/
def longTrivialLoop (no : Term → Int) (ps ns : List Lit) : Nat → Nat → Nat → Option Bool
  | 0, _, _ => none
  | n + 1, pp, np =>
    match ps[pp]? with
    | none => some false
    | some key =>
      let np' := binSearch (eqnSyntaxCompare no) ns key (ns.length + 1) np ns.length
      match ns[np']? with
      | none => some false
      | some key2 =>
        match eqnSyntaxCompare no key key2 with
        | .eq => some true
        | _ => longTrivialLoop no ps ns n (binSearch (eqnSyntaxCompare no) ps key2 (ps.length + 1) pp ps.length) np'

/-- `EqnLongListIsTrivial` (CLAUSES/ccl_eqnlist.c:1071-1122); `ps`, `ns` are the positive and negative
literals as left by `qsort` (any sorted arrangement, see the theorems). -/
def longListIsTrivial (no : Term → Int) (ps ns : List Lit) : Option Bool :=
  longTrivialLoop no ps ns (ps.length + 1) 0 0

/-- EQN_LIST_LONG_LIMIT (CLAUSES/ccl_eqnlist.h:40). -/
def eqnListLongLimit : Nat := 15

/-- `ClauseIsTrivial` (CLAUSES/ccl_clauses.c:380-395). -/
def clauseIsTrivial (sg : Sig) (no : Term → Int) (ps ns : List Lit) (C : List Lit) : Option Bool :=
  if findTrue sg C then some true
  else if C.any (·.pos) && C.any (!·.pos) then
    if C.length > eqnListLongLimit then longListIsTrivial no ps ns else some (listIsTrivial C)
  else some false

/-! ## Ground completion -/

/-- A (negative) literal used as ground rule; `nat` is the bit EPGONatural. -/
structure GEq where
  l : Term
  r : Term
  nat : Bool
deriving DecidableEq

/-- `f_code` of a term; negative for variables. -/
def fcode : Term → Int
  | .var x => -x
  | .app f _ => f

def arity : Term → Nat
  | .var _ => 0
  | .app _ ts => ts.length

def argsOf : Term → List Term
  | .var _ => []
  | .app _ ts => ts

/-- `TO_ground_compare` (CLAUSES/ccl_tautologies.c:56-112); the stack with the pair on top first; fuel bounds the number
of rounds (at most the size of the first term). -/
def groundCompare : Nat → List (Term × Term) → Ordering
  | 0, _ => .eq
  | _ + 1, [] => .eq
  | n + 1, (t1, t2) :: stk =>
    match compare (stdWeight t1) (stdWeight t2) with
    | .lt => .lt
    | .gt => .gt
    | .eq =>
      match compare (fcode t1) (fcode t2) with
      | .lt => .lt
      | .gt => .gt
      | .eq =>
        match compare (arity t1) (arity t2) with
        | .lt => .lt
        | .gt => .gt
        | .eq => groundCompare n (((argsOf t1).zip (argsOf t2)).reverse ++ stk)

/-- `ground_orient_eqn` (CLAUSES/ccl_tautologies.c:127-143). -/
def groundOrient (e : GEq) : GEq := { e with nat := groundCompare (e.l.size + 1) [(e.l, e.r)] == .gt }

/-- `term_compute_top_nf` (CLAUSES/ccl_tautologies.c:158-184). -/
def topNF (eqns : List GEq) (t : Term) : Option Term :=
  match eqns with
  | [] => none
  | e :: es => if (if e.nat then e.l else e.r) = t then some (if e.nat then e.r else e.l) else topNF es t

mutual
/-- `term_compute_ground_NF` (CLAUSES/ccl_tautologies.c:203-217): arguments first, then at most one step at the top.
Returns the flag "changed" and the term. -/
def groundNF (eqns : List GEq) : Term → Bool × Term
  | .var x =>
    match topNF eqns (.var x) with
    | some u => (true, u)
    | none => (false, .var x)
  | .app f ts =>
    let r := groundNFL eqns ts
    match topNF eqns (.app f r.2) with
    | some u => (true, u)
    | none => (r.1, .app f r.2)
def groundNFL (eqns : List GEq) : List Term → Bool × List Term
  | [] => (false, [])
  | t :: ts =>
    let a := groundNF eqns t
    let b := groundNFL eqns ts
    (a.1 || b.1, a.2 :: b.2)
end

/-- `ground_normalize_eqn` (CLAUSES/ccl_tautologies.c:233-259). -/
def groundNormalizeEqn (eqns : List GEq) (e : GEq) : Bool × GEq :=
  let a := groundNF eqns e.l
  let b := groundNF eqns e.r
  ((a.1 && e.nat) || (b.1 && e.nat), { e with l := a.2, r := b.2 })

/-- `ground_backward_contract` (CLAUSES/ccl_tautologies.c:274-292): equations changed by `eqns` go to the front
of `dst`. -/
def groundBackwardContract (eqns : List GEq) : List GEq → List GEq → List GEq × List GEq
  | [], dst => ([], dst)
  | e :: frm, dst =>
    let r := groundNormalizeEqn eqns e
    if r.1 then groundBackwardContract eqns frm (r.2 :: dst)
    else
      let q := groundBackwardContract eqns frm dst
      (r.2 :: q.1, q.2)

/-- `ground_complete_neg_eqns` (CLAUSES/ccl_tautologies.c:308-331). -/
def groundComplete : Nat → List GEq → List GEq → Option (List GEq)
  | 0, _, _ => none
  | _ + 1, [], proc => some proc
  | n + 1, e :: unproc, proc =>
    let e' := (groundNormalizeEqn proc e).2
    if e'.l = e'.r then groundComplete n unproc proc
    else
      let e'' := groundOrient e'
      let q := groundBackwardContract [e''] proc unproc
      groundComplete n q.2 (e'' :: q.1)

/-- MAX_EQ_TAUTOLOGY_CHECK_LITNO (CLAUSES/ccl_tautologies.h:43). -/
def maxEqTautologyLits : Nat := 1000

/-- `ClauseIsTautologyReal` (CLAUSES/ccl_tautologies.c:352-399).  `ps`, `ns`, `no`: see `clauseIsTrivial`. -/
def clauseIsTautology (sg : Sig) (no : Term → Int) (ps ns : List Lit) (n : Nat) (C : List Lit) : Option Bool :=
  if findTrue sg C then some true
  else
    let neg := C.filter fun L => !L.pos
    let pos := C.filter fun L => L.pos
    if pos = [] ∨ neg = [] then some false
    else if neg.length > maxEqTautologyLits then clauseIsTrivial sg no ps ns C
    else
      -- EqnListExtractByProps reverses the order
      let rws := neg.reverse.map fun L => (⟨L.l, L.r, false⟩ : GEq)
      let sys : Option (List GEq) :=
        match rws with
        | [e] => some [groundOrient e]
        | _ => groundComplete n rws []
      match sys with
      | none => none
      | some sys =>
        some (pos.any fun L =>
          let e := (groundNormalizeEqn sys ⟨L.l, L.r, false⟩).2
          decide (e.l = e.r))

end Verif
