import Verif.Clauses.Lit
import Verif.Orderings.Spec

/-!
# Orientation, literal comparison and maximal literals

Model of `EqnOrient`, `LiteralCompare` (CLAUSES/ccl_eqn.c) and of the marking of maximal literals (CLAUSES/ccl_eqnlist.c).
`cmp` is `TOCompare` (ORDERINGS/cto_orderings.c:118-167) on the instantiated terms (the code passes DEREF_ALWAYS; see `after_inst` in
the property file), `fcmp` is `OCBFunCompare`.  First-order only.
-/

namespace Verif

/-- A literal with the property bits that matter here (CLAUSES/ccl_eqn.h:40-71).  EPIsPositive is `lit.pos`; EPIsEquLiteral is
`lit.r ≠ $true`, as the assertions in `EqnIsEquLit` (CLAUSES/ccl_eqn.h:157-159) demand. -/
structure FLit where
  lit : Lit
  oriented : Bool := false
  upToDate : Bool := false
  maximal : Bool := false
  strictMax : Bool := false
  selected : Bool := false
  pseudo : Bool := false
  hasEquiv : Bool := false
  splitBit : Bool := false

namespace FLit

/-- `EqnIsEquLit` (CLAUSES/ccl_eqn.h:157-159). -/
def isEqu (L : FLit) : Bool := L.lit.r ≠ tTrue

/-- `EqnSwapSides` (CLAUSES/ccl_eqn.c:1339-1348). -/
def swapSides (L : FLit) : FLit :=
  { L with oriented := false, upToDate := false, lit := ⟨L.lit.pos, L.lit.r, L.lit.l⟩ }

end FLit

/-- The comparison part of `EqnOrient` (CLAUSES/ccl_eqn.c:2393-2413). -/
def orientRel (cmp : Term → Term → Cmp) (l r : Term) : Cmp :=
  if l = r then .equal
  else if l = tTrue then .lesser
  else if r = tTrue then .greater
  else cmp l r

/-- `EqnOrient` (CLAUSES/ccl_eqn.c:2384-2434); the first component is the returned value (sides were exchanged).  Results outside
the four proper ones violate an assertion there; here they change only EPMaxIsUpToDate, as the code compiled without assertions does. -/
def eqnOrient (cmp : Term → Term → Cmp) (L : FLit) : Bool × FLit :=
  if L.upToDate then (false, L)
  else
    match orientRel cmp L.lit.l L.lit.r with
    | .uncomparable => (false, { L with oriented := false, upToDate := true })
    | .equal => (false, { L with oriented := false, upToDate := true })
    | .greater => (false, { L with oriented := true, upToDate := true })
    | .lesser => (true, { L.swapSides with oriented := true, upToDate := true })
    | _ => (false, { L with upToDate := true })

/-- `GenDefLit` (CLAUSES/ccl_def_handling.c:112-148) for the atom `a`.  The constant EPIsSplitLit is 65636 (CLAUSES/ccl_eqn.h:69), not
the power of two 65536: setting it also sets the bits 64 (EPHasEquiv), 32 (EPMaxIsUpToDate) and 4 (EPIsStrictlyMaximal). -/
def genDefLit (a : Term) (pos : Bool) : FLit :=
  { lit := mkEqn pos a tTrue, splitBit := true, hasEquiv := true, upToDate := true, strictMax := true }

example : (65636 : Nat) = 65536 ||| 64 ||| 32 ||| 4 := rfl

/-- `compare_pos_eqns` (CLAUSES/ccl_eqn.c:109-178). -/
def comparePosEqns (cmp : Term → Term → Cmp) (a b : Lit) : Cmp :=
  let l1l2 := cmp a.l b.l
  let r1r2 := cmp a.r b.r
  if l1l2 = .equal ∧ r1r2 = .equal then .equal
  else if (l1l2 = .greater ∨ l1l2 = .equal) ∧ (r1r2 = .greater ∨ r1r2 = .equal) then .greater
  else if (l1l2 = .lesser ∨ l1l2 = .equal) ∧ (r1r2 = .lesser ∨ r1r2 = .equal) then .lesser
  else
    let l1r2 := cmp a.l b.r
    if l1l2 = .greater ∧ l1r2 = .greater then .greater
    else if l1r2 = .lesser ∧ r1r2 = .lesser then .lesser
    else
      let r1l2 := cmp a.r b.l
      if l1r2 = .equal ∧ r1l2 = .equal then .equal
      else if (r1l2 = .greater ∨ r1l2 = .equal) ∧ (l1r2 = .greater ∨ l1r2 = .equal) then .greater
      else if r1l2 = .greater ∧ r1r2 = .greater then .greater
      else if l1l2 = .lesser ∧ r1l2 = .lesser then .lesser
      else if (r1l2 = .lesser ∨ r1l2 = .equal) ∧ (l1r2 = .lesser ∨ l1r2 = .equal) then .lesser
      else .uncomparable

/-- `compare_poseqn_negeqn` (CLAUSES/ccl_eqn.c:210-264). -/
def comparePosNeg (cmp : Term → Term → Cmp) (a b : FLit) : Cmp :=
  let l1l2 := cmp a.lit.l b.lit.l
  if a.oriented then
    if l1l2 = .lesser ∨ l1l2 = .equal then .lesser
    else
      let l1r2 := cmp a.lit.l b.lit.r
      if l1r2 = .lesser ∨ l1r2 = .equal then .lesser
      else if l1l2 = .greater ∧ l1r2 = .greater then .greater
      else .uncomparable
  else
    let l1r2 := cmp a.lit.l b.lit.r
    if l1l2 = .greater ∧ l1r2 = .greater then .greater
    else
      let r1l2 := cmp a.lit.r b.lit.l
      let r1r2 := cmp a.lit.r b.lit.r
      if r1l2 = .greater ∧ r1r2 = .greater then .greater
      else if (l1l2 = .lesser ∨ l1l2 = .equal ∨ l1r2 = .lesser ∨ l1r2 = .equal) ∧
          (r1l2 = .lesser ∨ r1l2 = .equal ∨ r1r2 = .lesser ∨ r1r2 = .equal) then .lesser
      else .uncomparable

/-- `LiteralCmp` (ORDERINGS/cto_ocb.h:51-57). -/
inductive LitCmpMode
  | noCmp | normal | eqMax | eqMin
deriving DecidableEq

/-- The comparison of two non-equational literals by their predicate symbols in `tfo_literal_compare`
(CLAUSES/ccl_eqn.c:2505-2509, 2521-2525). -/
def predCompare (fcmp : Nat → Nat → Cmp) (a b : FLit) : Cmp :=
  match a.lit.l, b.lit.l with
  | .app f _, .app g _ => fcmp f g
  | _, _ => .unknown

/-- `tfo_literal_compare` (CLAUSES/ccl_eqn.c:2493-2528). -/
def tfoLiteralCompare (mode : LitCmpMode) (fcmp : Nat → Nat → Cmp) (a b : FLit) : Cmp :=
  match mode with
  | .eqMax =>
    if a.isEqu && !b.isEqu then .greater
    else if !a.isEqu && b.isEqu then .lesser
    else if !a.isEqu then predCompare fcmp a b
    else .unknown
  | .eqMin =>
    if a.isEqu && !b.isEqu then .lesser
    else if !a.isEqu && b.isEqu then .greater
    else if !a.isEqu then predCompare fcmp a b
    else .unknown
  | _ => .unknown

/-- The last part of `LiteralCompare` (CLAUSES/ccl_eqn.c:2609-2622). -/
def litCompareTerms (cmp : Term → Term → Cmp) (a b : FLit) : Cmp :=
  if a.lit.pos = b.lit.pos then comparePosEqns cmp a.lit b.lit
  else if a.lit.pos then comparePosNeg cmp a b
  else (comparePosNeg cmp b a).inv

/-- `LiteralCompare` (CLAUSES/ccl_eqn.c:2562-2623). -/
def literalCompare (mode : LitCmpMode) (cmp : Term → Term → Cmp) (fcmp : Nat → Nat → Cmp) (a b : FLit) : Cmp :=
  if a.pseudo && !b.pseudo then .lesser
  else if b.pseudo && !a.pseudo then .greater
  else if !a.selected && b.selected then .lesser
  else if a.selected && !b.selected then .greater
  else if (a.selected && b.selected) && a.lit.pos != b.lit.pos then .uncomparable
  else if mode = .noCmp then .uncomparable
  else
    match tfoLiteralCompare mode fcmp a b with
    | .greater => .greater
    | .lesser => .lesser
    | _ => litCompareTerms cmp a b

/-- `EqnGreater` (CLAUSES/ccl_eqn.c:2450-2478), which ignores the signs. -/
def eqnGreater (cmp : Term → Term → Cmp) (a b : Lit) : Bool := comparePosEqns cmp a b = .greater

/-- `LiteralGreater` (CLAUSES/ccl_eqn.c:2640-2647). -/
def literalGreater (mode : LitCmpMode) (cmp : Term → Term → Cmp) (fcmp : Nat → Nat → Cmp) (a b : FLit) : Bool :=
  literalCompare mode cmp fcmp a b = .greater

/-! ## Maximal literals

Literal cells are named by their positions; `lc i j` is the comparison of the `i`-th with the `j`-th literal. -/

/-- Clear a mark. -/
def clearAt (m : Nat → Bool) (i : Nat) : Nat → Bool := fun j => if j = i then false else m j

/-- The inner loop of `EqnListMaximalLiterals` (CLAUSES/ccl_eqnlist.c:1338-1367): whether the candidate survives, the remaining list
and the strictly-maximal marks. -/
def maxInner (lc : Nat → Nat → Cmp) (cand : Nat) : List Nat → (Nat → Bool) → Bool × List Nat × (Nat → Bool)
  | [], st => (true, [], st)
  | s :: rest, st =>
    match lc cand s with
    | .greater => maxInner lc cand rest (clearAt st s)
    | .lesser => (false, s :: rest, clearAt st cand)
    | .equal =>
      let (b, rest', st') := maxInner lc cand rest (clearAt (clearAt st s) cand)
      (b, s :: rest', st')
    | _ =>
      let (b, rest', st') := maxInner lc cand rest st
      (b, s :: rest', st')

theorem maxInner_length (lc : Nat → Nat → Cmp) (cand : Nat) (list : List Nat) (st : Nat → Bool) :
    (maxInner lc cand list st).2.1.length ≤ list.length := by
  fun_induction maxInner lc cand list st <;> simp_all
  all_goals omega

/-- The outer loop of `EqnListMaximalLiterals` (CLAUSES/ccl_eqnlist.c:1333-1372): the surviving literals (in reverse order) and the
strictly-maximal marks. -/
def maxOuter (lc : Nat → Nat → Cmp) : List Nat → List Nat → (Nat → Bool) → List Nat × (Nat → Bool)
  | [], maxlits, st => (maxlits, st)
  | cand :: list, maxlits, st =>
    let r := maxInner lc cand list st
    maxOuter lc r.2.1 (if r.1 then cand :: maxlits else maxlits) r.2.2
termination_by list => list.length
decreasing_by
  have := maxInner_length lc cand list st
  simp only [List.length_cons]
  omega

/-- `EqnListMaximalLiterals` (CLAUSES/ccl_eqnlist.c:1320-1377); the archive restores the order of the list (`EqnListToStack`,
`EqnListFromStack`).  The comparison sees the marks of the call (it looks at none of them), the orientation, selection and
pseudo-literal flags. -/
def maximalLiterals (lc : FLit → FLit → Cmp) (C : List FLit) : Nat × List FLit :=
  let at' := fun i => C.getD i default
  let r := maxOuter (fun i j => lc (at' i) (at' j)) (List.range C.length) [] (fun _ => true)
  (r.1.length, C.mapIdx fun i L => { L with maximal := r.1.contains i, strictMax := r.2 i })
where default : FLit := { lit := ⟨true, tTrue, tTrue⟩ }

/-- `EqnListOrient` (CLAUSES/ccl_eqnlist.c:1247-1261) and `ClauseMarkMaximalTerms` (CLAUSES/ccl_clauses.c:1846-1852). -/
def markMaximalTerms (cmp : Term → Term → Cmp) (lc : FLit → FLit → Cmp) (C : List FLit) : List FLit :=
  (maximalLiterals lc (C.map fun L => (eqnOrient cmp L).2)).2

/-- `EqnListEqnIsMaximal` (CLAUSES/ccl_eqnlist.c:1396-1420) for the `i`-th literal of the list. -/
def eqnIsMaximal (lc : FLit → FLit → Cmp) (C : List FLit) (i : Nat) (L : FLit) : Bool :=
  (C.zipIdx).all fun p => !(p.2 != i && p.1.maximal && lc p.1 L = .greater)

/-- `EqnListEqnIsStrictlyMaximal` (CLAUSES/ccl_eqnlist.c:1438-1463). -/
def eqnIsStrictlyMaximal (lc : FLit → FLit → Cmp) (C : List FLit) (i : Nat) (L : FLit) : Bool :=
  (C.zipIdx).all fun p => !(p.2 != i && p.1.maximal && (lc p.1 L = .greater || lc p.1 L = .equal))

end Verif
