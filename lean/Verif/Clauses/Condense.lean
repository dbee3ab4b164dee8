import Verif.Clauses.Subsume
import Verif.Clauses.Infer

/-!
# Condensation and contextual simplify-reflect

Model of CLAUSES/ccl_condensation.c and CLAUSES/ccl_context_sr.c (first-order).

* `srt` stands for `ClauseSubsumeOrderSortLits`; the theorems only need that it permutes the
  literals.
* `orient` gives the `EPIsOriented` bit of the copied literals (inherited by `EqnCopy`,
  CLAUSES/ccl_eqn.c:1364-1384); the theorems hold for every choice.
-/

namespace Verif

/-- `LiteralUnifyOneWay` (CLAUSES/ccl_eqn.c:2244-2271), started from the empty substitution. -/
def unifyOneWay (sg : Sig) (pp : Term → Bool) (n : Nat) (L K : Lit) (swapped : Bool) : Option (Bool × SubstSt) :=
  if L.pos = K.pos then
    eqnUnifyDirected sg pp n L.l L.r (if swapped then K.r else K.l) (if swapped then K.l else K.r) .empty
  else some (false, .empty)

/-- The candidate of `try_condensation` (CLAUSES/ccl_condensation.c:65-71): all literals but the one at `j`,
instantiated, without duplicates and resolved literals, sorted. -/
def condCand (sg : Sig) (n : Nat) (srt : List OLit → List OLit) (orient : Lit → Bool) (st : SubstSt)
    (C : List OLit) (j : Nat) : Option (List OLit) :=
  match copyLits st.bind (fun _ => none) n ((OLit.plain C).eraseIdx j) with
  | none => none
  | some D => some (srt ((removeResolved sg (removeDup D)).map fun L => ⟨L, orient L⟩))

/-- `try_condensation` (CLAUSES/ccl_condensation.c:56-91).  The parameter `swap` is not used by the C: line 63
passes `false`.  `none` = out of fuel, `some none` = the clause is left alone. -/
def tryCondensation (sg : Sig) (pp : Term → Bool) (n : Nat) (srt : List OLit → List OLit) (orient : Lit → Bool)
    (C : List OLit) (i j : Nat) (_swap : Bool) : Option (Option (List OLit)) :=
  match C[i]?, C[j]? with
  | some L, some K =>
    match unifyOneWay sg pp n L.toLit K.toLit false with
    | none => none
    | some (false, _) => some none
    | some (true, st) =>
      match condCand sg n srt orient st C j with
      | none => none
      | some D => some (if clauseSubsumes sg pp D C then some D else none)
  | _, _ => some none

/-- The pairs `l1` before `l2` with the value of `swap`, in the order in which `CondenseOnce` tries them
(CLAUSES/ccl_condensation.c:120-137). -/
def condPairs (C : List OLit) : List (Nat × Nat × Bool) :=
  (List.range C.length).flatMap fun i =>
    (List.range' (i + 1) (C.length - (i + 1))).flatMap fun j =>
      match C[i]?, C[j]? with
      | some L, some K => if L.ori && K.ori then [(i, j, false)] else [(i, j, false), (i, j, true)]
      | _, _ => []

/-- The loops of `CondenseOnce` over the pairs. -/
def condTry (sg : Sig) (pp : Term → Bool) (n : Nat) (srt : List OLit → List OLit) (orient : Lit → Bool)
    (C : List OLit) : List (Nat × Nat × Bool) → Option (Option (List OLit))
  | [] => some none
  | (i, j, s) :: ps =>
    match tryCondensation sg pp n srt orient C i j s with
    | none => none
    | some (some D) => some (some D)
    | some none => condTry sg pp n srt orient C ps

/-- `CondenseOnce` (CLAUSES/ccl_condensation.c:114-139). -/
def condenseOnce (sg : Sig) (pp : Term → Bool) (n : Nat) (srt : List OLit → List OLit) (orient : Lit → Bool)
    (C : List OLit) : Option (Option (List OLit)) :=
  condTry sg pp n srt orient C (condPairs C)

/-- The loop of `Condense` (CLAUSES/ccl_condensation.c:166-169), at most `k` rounds. -/
def condLoop (sg : Sig) (pp : Term → Bool) (n : Nat) (srt : List OLit → List OLit) (orient : Lit → Bool) :
    Nat → List OLit → Option (List OLit)
  | 0, _ => none
  | k + 1, C =>
    match condenseOnce sg pp n srt orient C with
    | none => none
    | some none => some C
    | some (some D) => condLoop sg pp n srt orient k D

/-- `Condense` (CLAUSES/ccl_condensation.c:156-178): only clauses with two literals of the same sign are tried. -/
def condense (sg : Sig) (pp : Term → Bool) (n : Nat) (srt : List OLit → List OLit) (orient : Lit → Bool)
    (k : Nat) (C : List OLit) : Option (List OLit) :=
  if C.countP (·.pos) > 1 ∨ C.countP (!·.pos) > 1 then condLoop sg pp n srt orient k (srt C) else some C

/-! ## Contextual simplify-reflect -/

/-- A literal cell: its address and its content. -/
structure Cell where
  id : Nat
  lit : OLit

/-- The literals of a list of cells. -/
def Cell.lits (C : List Cell) : List OLit := C.map (·.lit)

/-- `EqnFlipProp(lit, EPIsPositive)`. -/
def OLit.flip (L : OLit) : OLit := { L with pos := !L.pos }

/-- `ClauseFlipLiteralSign` (CLAUSES/ccl_clausefunc.c:204-217). -/
def flipCell (h : Nat) (C : List Cell) : List Cell :=
  C.map fun c => if c.id = h then ⟨c.id, c.lit.flip⟩ else c

/-- The loop of `ClauseContextualSimplifyReflect` (CLAUSES/ccl_context_sr.c:70-98).  First argument: the stack
of literals, top first.  Result: the clause, and the clauses recorded as parents (`DCContextSR`). -/
def contextSRLoop (sg : Sig) (pp : Term → Bool) (srt : List Cell → List Cell) (S : List (List OLit)) :
    List Nat → List Cell → List Cell × List (List OLit)
  | [], C => (C, [])
  | h :: hs, C =>
    match setSubsumes sg pp S (Cell.lits (srt (flipCell h C))) with
    | some P =>
      let r := contextSRLoop sg pp srt S hs ((srt (flipCell h C)).filter fun c => c.id ≠ h)
      (r.1, P :: r.2)
    | none => contextSRLoop sg pp srt S hs (flipCell h (srt (flipCell h C)))

/-- `ClauseContextualSimplifyReflect` (CLAUSES/ccl_context_sr.c:61-101); `ClauseToStack` pushes the literals in
order, so the last one is popped first. -/
def contextSR (sg : Sig) (pp : Term → Bool) (srt : List Cell → List Cell) (S : List (List OLit)) (C : List Cell) :
    List Cell × List (List OLit) :=
  contextSRLoop sg pp srt S (C.map (·.id)).reverse C

/-- `ClauseSetFindContextSRClauses` (CLAUSES/ccl_context_sr.c:119-139): clauses of the set that a clause with
one literal flipped subsumes.  Second component: the cells afterwards. -/
def findContextSR (sg : Sig) (pp : Term → Bool) (srt : List Cell → List Cell) (S : List (List OLit)) :
    List Nat → List Cell → List (List OLit)
  | [], _ => []
  | h :: hs, C =>
    S.filter (fun D => clauseSubsumes sg pp (Cell.lits (srt (flipCell h C))) D)
      ++ findContextSR sg pp srt S hs (flipCell h (srt (flipCell h C)))

end Verif
