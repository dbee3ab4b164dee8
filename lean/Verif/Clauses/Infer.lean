import Verif.Clauses.Lit

/-!
# Generating inferences

Model of CLAUSES/ccl_eqnresolution.c, CLAUSES/ccl_factor.c, CLAUSES/ccl_paramod.c (first-order; the
`CSU` iterator then yields exactly the most general unifier, `EqnListLambdaNormalize` does nothing).

* A literal of a clause is given by its index; a side by a Boolean (`true` = left).
* `pp t` stands for the `TPPredPos` bit of a term cell.
* Ordering conditions (`TOGreater`, `EqnListEqnIsMaximal`, `TPPotentialParamod`, …) only
  suppress conclusions; they appear as an arbitrary predicate `guard` on the
  unifier, so the theorems hold whatever they are.
* Result: `none` = out of fuel (excluded by the termination theorems), `some none` = no
  conclusion, `some (some (b, D))` = conclusion `D`, variable bank afterwards `b`.
-/

namespace Verif

/-- `TermIsConst`-and-distinct test `EqnTermsAreDistinct` (CLAUSES/ccl_eqn.c:1594-1607). -/
def termsDistinct (sg : Sig) (L : Lit) : Bool :=
  match L.l, L.r with
  | .app f [], .app g [] => sg.distinct f && sg.distinct g && decide (f ≠ g)
  | _, _ => false

/-- `EqnIsTrue` (CLAUSES/ccl_eqn.c:1622-1629). -/
def eqnIsTrue (sg : Sig) (L : Lit) : Bool :=
  if L.pos then decide (L.l = L.r) else termsDistinct sg L

/-- `EqnIsFalse` (CLAUSES/ccl_eqn.c:1644-1651). -/
def eqnIsFalse (sg : Sig) (L : Lit) : Bool :=
  if L.pos then termsDistinct sg L else decide (L.l = L.r)

/-- `LiteralSyntaxCompare` = 0 (CLAUSES/ccl_eqn.c:2290-2365): same sign, both or none
equational, and the same unordered pair of terms (entry numbers identify terms, C04). -/
def sameLit (L K : Lit) : Bool :=
  decide (L.pos = K.pos ∧ ((L.r = tTrue) ↔ (K.r = tTrue)) ∧
    ((L.l = K.l ∧ L.r = K.r) ∨ (L.l = K.r ∧ L.r = K.l)))

/-- `EqnListRemoveResolved` (CLAUSES/ccl_eqnlist.c:871-888). -/
def removeResolved (sg : Sig) (C : List Lit) : List Lit := C.filter fun L => !eqnIsFalse sg L

/-- The loop of `EqnListRemoveDuplicates` (CLAUSES/ccl_eqnlist.c:829-855); `seen` is the
tree of literals stored so far (PTreeObjStore reports an equal element). -/
def removeDupAux (seen : List Lit) : List Lit → List Lit
  | [] => []
  | L :: C => if seen.any (sameLit L) then removeDupAux seen C else L :: removeDupAux (L :: seen) C

/-- `EqnListRemoveDuplicates`: keep the first of equal literals. -/
def removeDup (C : List Lit) : List Lit := removeDupAux [] C

/-- `EqnListFindTrue` (CLAUSES/ccl_eqnlist.c:997-1010). -/
def findTrue (sg : Sig) (C : List Lit) : Bool := C.any (eqnIsTrue sg)

/-- A side of a literal (`ClausePosGetSide`/`ClausePosGetOtherSide`). -/
def Lit.side (L : Lit) (left : Bool) : Term := if left then L.l else L.r

/-- `SubstMguComplete` in the first-order case. -/
def unify (sg : Sig) (pp : Term → Bool) (n : Nat) (s t : Term) (st : SubstSt) : Option (Bool × SubstSt) :=
  substComputeMgu sg n s t (pp s) (pp t) st

/-- `build_resolvent` (CLAUSES/ccl_eqnresolution.c:56-66). -/
def buildResolvent (sg : Sig) (n : Nat) (b : VarBank) (st : SubstSt) (C : List Lit) (i : Nat) :
    Option (VarBank × List Lit) :=
  match normLits sg st.bind n (C.eraseIdx i) (b, []) with
  | none => none
  | some s =>
    match copyLits st.bind s.2.get n (C.eraseIdx i) with
    | none => none
    | some D => some (s.1, removeDup (removeResolved sg D))

/-- `ComputeEqRes` (CLAUSES/ccl_eqnresolution.c:90-127).  The C asserts that the literal is negative. -/
def computeEqRes (sg : Sig) (pp : Term → Bool) (n : Nat) (b : VarBank) (C : List Lit) (i : Nat) :
    Option (Option (VarBank × List Lit)) :=
  match C[i]? with
  | none => some none
  | some L =>
    match unify sg pp n L.l L.r .empty with
    | none => none
    | some (false, _) => some none
    | some (true, st) => (buildResolvent sg n b.reset st C i).map some

/-- `EqnUnifyDirected` (CLAUSES/ccl_eqn.c:2154-2171). -/
def eqnUnifyDirected (sg : Sig) (pp : Term → Bool) (n : Nat) (l1 r1 l2 r2 : Term) (st : SubstSt) :
    Option (Bool × SubstSt) :=
  match unify sg pp n l1 l2 st with
  | none => none
  | some (false, st1) => some (false, st1.backtrackToPos st.stack.length)
  | some (true, st1) =>
    match unify sg pp n r1 r2 st1 with
    | none => none
    | some (false, st2) => some (false, st2.backtrackToPos st.stack.length)
    | some (true, st2) => some (true, st2)

/-- `ComputeOrderedFactor` (CLAUSES/ccl_factor.c:126-166); `side2` is the side of the second
position (right: the sides are exchanged for unification). -/
def orderedFactor (sg : Sig) (pp : Term → Bool) (guard : SubstSt → Bool) (n : Nat) (b : VarBank)
    (C : List Lit) (i j : Nat) (side2 : Bool) : Option (Option (VarBank × List Lit)) :=
  match C[i]?, C[j]? with
  | some L, some K =>
    match eqnUnifyDirected sg pp n L.l L.r (K.side side2) (K.side !side2) .empty with
    | none => none
    | some (false, _) => some none
    | some (true, st) =>
      if guard st then (buildResolvent sg n b.reset st C j).map some else some none
  | _, _ => some none

/-- `ComputeEqualityFactor` (CLAUSES/ccl_factor.c:270-318); `side1`, `side2` are the sides of the
two positive literals `i`, `j`. Variables are normalised in all literals but the
second (line 299), while the copy leaves out the first (line 306).  The caller's bank is
used without reset. -/
def equalityFactor (sg : Sig) (pp : Term → Bool) (guard : SubstSt → Bool) (n : Nat) (b : VarBank)
    (C : List Lit) (i j : Nat) (side1 side2 : Bool) : Option (Option (VarBank × List Lit)) :=
  match C[i]?, C[j]? with
  | some L, some K =>
    match unify sg pp n (L.side side1) (K.side side2) .empty with
    | none => none
    | some (false, _) => some none
    | some (true, st) =>
      if guard st then
        match normLits sg st.bind n (C.eraseIdx j) (b, []) with
        | none => none
        | some s =>
          match instOpt st.bind s.2.get n (L.side !side1), instOpt st.bind s.2.get n (K.side !side2),
              copyLits st.bind s.2.get n (C.eraseIdx i) with
          | some l, some r, some D =>
            some (some (s.1, removeDup (removeResolved sg (mkEqn false l r :: D))))
          | _, _, _ => none
      else some none
  | _, _ => some none

/-- The last steps common to `ClausePlainParamodConstruct` … `ClauseOrderedSuperSimParamod`. -/
def finishParamod (sg : Sig) (b : VarBank) (D : List Lit) : Option (VarBank × List Lit) :=
  some (b, removeDup (removeResolved sg D))

/-- `EqnCopyRepl` (CLAUSES/ccl_eqn.c:1434-1453). -/
def copyRepl (bind : Nat → Option Term) (rn : Nat → Option Nat) (n : Nat) (old repl : Term) (L : Lit) :
    Option Lit :=
  match instRepl bind rn old repl n L.l, instRepl bind rn old repl n L.r with
  | some l, some r => some (mkEqn L.pos l r)
  | _, _ => none

/-- `EqnCopyReplPlain` (CLAUSES/ccl_eqn.c:1468-1488). -/
def copyReplPlain (old repl : Term) (L : Lit) : Lit :=
  mkEqn L.pos (replPlain old repl L.l) (replPlain old repl L.r)

/-- The kinds of paramodulation (`ParamodulationType`, CLAUSES/ccl_paramod.h). -/
inductive PMType | plain | sim | superSim
deriving DecidableEq

/-- The description of an overlap (`ParamodInfoCell`, CLAUSES/ccl_paramod.h): from-clause `F` with the
maximal side `fs` of literal `i`, into-clause `T` with position `pos` in side `ts` of literal `j`. -/
structure Overlap where
  F : List Lit
  i : Nat
  fs : Bool
  T : List Lit
  j : Nat
  ts : Bool
  pos : List (Term × Nat)

/-- `ClausePlainParamodConstruct` (CLAUSES/ccl_paramod.c:233-302). -/
def plainParamodConstruct (sg : Sig) (n : Nat) (b : VarBank) (st : SubstSt) (o : Overlap) (LF LT : Lit) :
    Option (Option (VarBank × List Lit)) :=
  match normLits sg st.bind n o.T (b.reset, []) with
  | none => none
  | some s1 =>
    match normLits sg st.bind n o.F s1 with
    | none => none
    | some s =>
      match instOpt st.bind s.2.get n (posReplace o.pos (LF.side !o.fs)),
          instOpt st.bind s.2.get n (LT.side !o.ts),
          copyLits st.bind s.2.get n (o.T.eraseIdx o.j), copyLits st.bind s.2.get n (o.F.eraseIdx o.i) with
      | some l, some r, some into, some frm =>
        if LT.pos = true ∧ l = r then some none
        else if findTrue sg into then some none
        else if findTrue sg frm then some none
        else some (finishParamod sg s.1 (mkEqn LT.pos l r :: (into ++ frm)))
      | _, _, _, _ => none

/-- `ClauseSimParamodConstruct` (CLAUSES/ccl_paramod.c:319-377): all occurrences of the
into-term cell are replaced. -/
def simParamodConstruct (sg : Sig) (n : Nat) (b : VarBank) (st : SubstSt) (o : Overlap) (LF : Lit)
    (sub : Term) : Option (Option (VarBank × List Lit)) :=
  match normLits sg st.bind n o.T (b.reset, []) with
  | none => none
  | some s1 =>
    match normLits sg st.bind n o.F s1 with
    | none => none
    | some s =>
      match instOpt st.bind s.2.get n (LF.side !o.fs) with
      | none => none
      | some rhs =>
        match mapOpt (copyRepl st.bind s.2.get n sub rhs) o.T,
            copyLits st.bind s.2.get n (o.F.eraseIdx o.i) with
        | some into, some frm =>
          if findTrue sg into then some none
          else if findTrue sg frm then some none
          else some (finishParamod sg s.1 (into ++ frm))
        | _, _ => none

/-- `ClauseSuperSimParamodConstruct` (CLAUSES/ccl_paramod.c:395-465): the into-clause is instantiated
first, then all occurrences of the instantiated into-term are replaced. -/
def superSimParamodConstruct (sg : Sig) (n : Nat) (b : VarBank) (st : SubstSt) (o : Overlap) (LF : Lit)
    (sub : Term) : Option (Option (VarBank × List Lit)) :=
  match normLits sg st.bind n o.T (b.reset, []) with
  | none => none
  | some s1 =>
    match normLits sg st.bind n o.F s1 with
    | none => none
    | some s =>
      match instOpt st.bind s.2.get n sub, instOpt st.bind s.2.get n (LF.side !o.fs),
          copyLits st.bind s.2.get n o.T, copyLits st.bind s.2.get n (o.F.eraseIdx o.i) with
      | some lhs, some rhs, some tmp, some frm =>
        let into := tmp.map (copyReplPlain lhs rhs)
        if findTrue sg into then some none
        else if findTrue sg frm then some none
        else some (finishParamod sg s.1 (into ++ frm))
      | _, _, _, _ => none

/-- `ClauseOrderedSuperSimParamod` (CLAUSES/ccl_paramod.c:968-1008), construction part: like
`superSimParamodConstruct`, but the second copy is made with `EqnListCopyRepl`, i.e.
it dereferences again while the substitution is still active (line 981). -/
def orderedSuperSimConstruct (sg : Sig) (n : Nat) (b : VarBank) (st : SubstSt) (o : Overlap) (LF : Lit)
    (sub : Term) : Option (Option (VarBank × List Lit)) :=
  match normLits sg st.bind n o.T (b.reset, []) with
  | none => none
  | some s1 =>
    match normLits sg st.bind n o.F s1 with
    | none => none
    | some s =>
      match instOpt st.bind s.2.get n sub, instOpt st.bind s.2.get n (LF.side !o.fs),
          copyLits st.bind s.2.get n o.T, copyLits st.bind s.2.get n (o.F.eraseIdx o.i) with
      | some lhs, some rhs, some tmp, some frm =>
        match mapOpt (copyRepl st.bind s.2.get n lhs rhs) tmp with
        | none => none
        | some into =>
          if findTrue sg into then some none
          else if findTrue sg frm then some none
          else some (finishParamod sg s.1 (into ++ frm))
      | _, _, _, _ => none

/-- The construction part of `ClauseOrderedParamod` with `EqnOrderedParamod` and
`ComputeOverlap` (CLAUSES/ccl_paramod.c:571-576, 626-635, 714-735): variables are normalised
in a different order. -/
def orderedParamodConstruct (sg : Sig) (n : Nat) (b : VarBank) (st : SubstSt) (o : Overlap) (LF LT : Lit) :
    Option (Option (VarBank × List Lit)) :=
  match normTerms sg st.bind n [LT.side o.ts, LF.side !o.fs, LT.side !o.ts] (b.reset, []) with
  | none => none
  | some s0 =>
    match normLits sg st.bind n (o.T.eraseIdx o.j) s0 with
    | none => none
    | some s1 =>
      match normLits sg st.bind n (o.F.eraseIdx o.i) s1 with
      | none => none
      | some s =>
        -- the new literal is built after the first normalisation step
        match instOpt st.bind s0.2.get n (posReplace o.pos (LF.side !o.fs)),
            instOpt st.bind s0.2.get n (LT.side !o.ts),
            copyLits st.bind s.2.get n (o.T.eraseIdx o.j), copyLits st.bind s.2.get n (o.F.eraseIdx o.i) with
        | some l, some r, some into, some frm =>
          if LT.pos = true ∧ l = r then some none
          else some (finishParamod sg s.1 (mkEqn LT.pos l r :: (into ++ frm)))
        | _, _, _, _ => none

/-- One paramodulation: look up literals and subterm, unify, test `guard`, construct.  Indexed path:
CONTROL/cco_paramodulation.c:197-274 with `ClauseParamodConstruct` (CLAUSES/ccl_paramod.c:487-512);
`direct = true` selects the functions of the unindexed path (CLAUSES/ccl_paramod.c:655-1013). -/
def paramod (sg : Sig) (pp : Term → Bool) (guard : SubstSt → Bool) (n : Nat) (b : VarBank)
    (direct : Bool) (ty : PMType) (o : Overlap) : Option (Option (VarBank × List Lit)) :=
  match o.F[o.i]?, o.T[o.j]? with
  | some LF, some LT =>
    match posSubterm (LT.side o.ts) o.pos with
    | none => some none
    | some sub =>
      match unify sg pp n (LF.side o.fs) sub .empty with
      | none => none
      | some (false, _) => some none
      | some (true, st) =>
        if guard st then
          match ty, direct with
          | .plain, false => plainParamodConstruct sg n b st o LF LT
          | .plain, true => orderedParamodConstruct sg n b st o LF LT
          | .sim, _ => simParamodConstruct sg n b st o LF sub
          | .superSim, false => superSimParamodConstruct sg n b st o LF sub
          | .superSim, true => orderedSuperSimConstruct sg n b st o LF sub
        else some none
  | _, _ => some none

/-- The test in `ClauseERNormalizeVar` (CONTROL/cco_eqnresolving.c:136-137): a negative literal between two
variables or, if `strong`, with a variable on one side. -/
def erCandidate (strong : Bool) (L : Lit) : Bool :=
  !L.pos && ((L.l.isVar && L.r.isVar) || (strong && (L.l.isVar || L.r.isVar)))

/-- The inner loop of `ClauseERNormalizeVar` (CONTROL/cco_eqnresolving.c:134-161) over the literal indices
`is`: the first candidate whose sides unify is resolved. -/
def erStep (sg : Sig) (pp : Term → Bool) (n : Nat) (strong : Bool) (b : VarBank) (C : List Lit) :
    List Nat → Option (Option (VarBank × List Lit))
  | [] => some none
  | i :: is =>
    if (C[i]?.map (erCandidate strong)).getD false then
      match computeEqRes sg pp n b C i with
      | none => none
      | some (some r) => some (some r)
      | some none => erStep sg pp n strong b C is
    else erStep sg pp n strong b C is

/-- `ClauseERNormalizeVar` (CONTROL/cco_eqnresolving.c:119-170), destructive equality resolution: repeat until no
candidate is left.  Returns bank, literals and number of steps. -/
def erNormalizeVar (sg : Sig) (pp : Term → Bool) (strong : Bool) :
    Nat → VarBank → List Lit → Option (VarBank × List Lit × Nat)
  | 0, _, _ => none
  | n + 1, b, C =>
    match erStep sg pp n strong b C (List.range C.length) with
    | none => none
    | some none => some (b, C, 0)
    | some (some (b', D)) =>
      match erNormalizeVar sg pp strong n b' D with
      | none => none
      | some (b'', E, k) => some (b'', E, k + 1)

end Verif
