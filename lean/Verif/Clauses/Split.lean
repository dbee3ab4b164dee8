import Verif.Clauses.Subsume
import Verif.Orderings.Spec
import Verif.Clauses.LitCmp

/-!
# Splitting clauses

Model of CLAUSES/ccl_splitting.c and of the definitions it uses (CLAUSES/ccl_def_handling.c).

A clause is split into parts that share no variables except the *split variables*; every part gets
a definition predicate `p`, the definition clause `p ∨ part`, and the clause is replaced by `¬p₁ ∨ … ∨ ¬pₙ`.

Not modelled: clause properties, derivations and documentation, the names of the new predicates
(a new symbol gets the next free code, `SigInsertId`).
-/

namespace Verif

/-- `SplitType` (CLAUSES/ccl_splitting.h:32-39). -/
inductive SplitHow where
  | groundNone | groundOne | groundFull
deriving DecidableEq

/-- `LitSplitDescCell` (CLAUSES/ccl_splitting.h:42-47). -/
structure LitDesc where
  lit : OLit
  part : Nat
  vs : List Nat

/-- Variables of a literal that are not split variables (the variables that keep TPCheckFlag,
CLAUSES/ccl_splitting.c:103-130). -/
def LitDesc.own (sv : List Nat) (L : OLit) : List Nat := L.vars.filter fun x => !sv.contains x

/-- `cond_init_lit_table`, `initialize_lit_table` (CLAUSES/ccl_splitting.c:59-130).  The variable sets are lists
here; only membership is used. -/
def initTable (how : SplitHow) (sv : List Nat) (C : List OLit) : List LitDesc :=
  C.map fun L =>
    let vs := LitDesc.own sv L
    ⟨L, if (how = .groundOne ∨ how = .groundNone) ∧ vs = [] then 1 else 0, vs⟩

/-- `find_free_literal` (CLAUSES/ccl_splitting.c:150-163); `none` is -1. -/
def findFree (T : List LitDesc) : Option Nat := T.findIdx? fun e => e.part = 0

/-- Number of literals without a part. -/
def freeCount (T : List LitDesc) : Nat := (T.filter fun e => e.part = 0).length

/-- One scan of `build_part` over the literals behind the first one (CLAUSES/ccl_splitting.c:191-204): the flag
`new_vars`, the variable set of the first literal, the literals. -/
def partPass (k : Nat) : Bool → List Nat → List LitDesc → Bool × List Nat × List LitDesc
  | new, vs, [] => (new, vs, [])
  | new, vs, e :: l =>
    if e.part = 0 ∧ e.vs.any (fun x => vs.contains x) then
      let add := e.vs.filter fun x => !vs.contains x
      let r := partPass k (!add.isEmpty || new) (vs ++ add) l
      (r.1, r.2.1, { e with part := k, vs := [] } :: r.2.2)
    else
      let r := partPass k new vs l
      (r.1, r.2.1, e :: r.2.2)

theorem partPass_free_le (k : Nat) (hk : k ≠ 0) (new : Bool) (vs : List Nat) (l : List LitDesc) :
    freeCount (partPass k new vs l).2.2 ≤ freeCount l ∧
      ((partPass k new vs l).1 = true → new = true ∨ freeCount (partPass k new vs l).2.2 < freeCount l) := by
  induction l generalizing new vs with
  | nil => simp [partPass]
  | cons e l ih =>
    by_cases h : e.part = 0 ∧ e.vs.any (fun x => vs.contains x) = true
    · rw [partPass, if_pos h]
      have := (ih (!(e.vs.filter fun x => !vs.contains x).isEmpty || new) (vs ++ e.vs.filter fun x => !vs.contains x)).1
      simp only [freeCount, List.filter_cons, h.1, hk, decide_true, decide_false, if_true] at this ⊢
      simp only [List.length_cons, Bool.false_eq_true, if_false]
      exact ⟨by omega, fun _ => Or.inr (by omega)⟩
    · rw [partPass, if_neg h]
      have := ih new vs
      simp only [freeCount, List.filter_cons] at this ⊢
      split <;> (try simp only [List.length_cons]) <;> refine ⟨by omega, fun hn => ?_⟩ <;>
        rcases this.2 hn with h' | h' <;> first | exact Or.inl h' | exact Or.inr (by omega)

/-- The loop `while(new_vars)` of `build_part` (CLAUSES/ccl_splitting.c:188-205).  (`k = 0` does not occur; the test
makes the definition total.) -/
def partLoop (k : Nat) (vs : List Nat) (l : List LitDesc) : List Nat × List LitDesc :=
  if _h : (partPass k false vs l).1 = true ∧ k ≠ 0 then partLoop k (partPass k false vs l).2.1 (partPass k false vs l).2.2
  else (partPass k false vs l).2
termination_by freeCount l
decreasing_by
  rcases (partPass_free_le k _h.2 false vs l).2 _h.1 with h' | h'
  · cases h'
  · exact h'

/-- `build_part` (CLAUSES/ccl_splitting.c:181-206) for the literal at index `i`. -/
def buildPart (T : List LitDesc) (i k : Nat) : List LitDesc :=
  match T.drop i with
  | [] => T
  | e :: l =>
    let r := partLoop k e.vs l
    T.take i ++ { e with part := k, vs := r.1 } :: r.2

theorem partLoop_free_le (k : Nat) (hk : k ≠ 0) (vs : List Nat) (l : List LitDesc) :
    freeCount (partLoop k vs l).2 ≤ freeCount l := by
  fun_induction partLoop k vs l with
  | case1 vs l h ih => exact ih.trans (partPass_free_le k hk false vs l).1
  | case2 vs l h => exact (partPass_free_le k hk false vs l).1

theorem findFree_some {T : List LitDesc} {i : Nat} (h : findFree T = some i) :
    ∃ e l, T.drop i = e :: l ∧ e.part = 0 ∧ T = T.take i ++ e :: l ∧ ∀ e' ∈ T.take i, e'.part ≠ 0 := by
  unfold findFree at h
  rw [List.findIdx?_eq_some_iff_getElem] at h
  obtain ⟨hi, h1, h2⟩ := h
  refine ⟨T[i], T.drop (i + 1), List.drop_eq_getElem_cons hi, by simpa using h1, ?_, ?_⟩
  · rw [← List.drop_eq_getElem_cons hi, List.take_append_drop]
  · intro e' he'
    obtain ⟨j, hj, rfl⟩ := List.getElem_of_mem he'
    have hj' : j < i := by simp at hj; omega
    simpa using h2 j hj'

theorem buildPart_free {T : List LitDesc} {i k : Nat} (hk : k ≠ 0) (h : findFree T = some i) :
    freeCount (buildPart T i k) < freeCount T := by
  obtain ⟨e, l, h1, h2, h3, -⟩ := findFree_some h
  have hb : buildPart T i k = T.take i ++ { e with part := k, vs := (partLoop k e.vs l).1 } :: (partLoop k e.vs l).2 := by
    unfold buildPart; rw [h1]
  have := partLoop_free_le k hk e.vs l
  rw [hb]
  conv_rhs => rw [h3]
  simp only [freeCount, List.filter_append, List.filter_cons, h2, hk, decide_true, decide_false, if_true,
    List.length_append, List.length_cons, Bool.false_eq_true, if_false] at this ⊢
  omega

/-- The loop over the free literals (CLAUSES/ccl_splitting.c:304-308): the table and the number of parts. -/
def partsLoop (T : List LitDesc) (part : Nat) : List LitDesc × Nat :=
  match h : findFree T with
  | none => (T, part)
  | some i => partsLoop (buildPart T i (part + 1)) (part + 1)
termination_by freeCount T
decreasing_by exact buildPart_free (by omega) h

/-- The parts are found (CLAUSES/ccl_splitting.c:297-308).  `find_free_literal` is used as a truth value at line 299:
-1 and indexes above 0 count as true, index 0 as false. -/
def splitTable (how : SplitHow) (sv : List Nat) (C : List OLit) : List LitDesc × Nat :=
  let T := initTable how sv C
  partsLoop T (if how = .groundOne ∧ findFree T ≠ some 0 then 1 else 0)

/-- `assemble_part_literals` (CLAUSES/ccl_splitting.c:222-237): the literals of a part, last one first. -/
def assemblePart (T : List LitDesc) (k : Nat) : List OLit :=
  ((T.filter fun e => e.part = k).map LitDesc.lit).reverse

/-- The parts into which a clause is split. -/
def splitParts (how : SplitHow) (sv : List Nat) (C : List OLit) : List (List OLit) :=
  let r := splitTable how sv C
  (List.range r.2).map fun i => assemblePart r.1 (i + 1)

/-- The state used for splitting: the next free symbol code and the definition store (`def_clauses` with the predicate
from `def_assocs`).  The archive of definition formulas is only used for printing proofs. -/
structure SplitSt where
  next : Nat
  store : List (List OLit × Nat)
deriving DecidableEq

/-- `GenDefLit` (CLAUSES/ccl_def_handling.c:112-148), without the literal properties. -/
def defLit (p : Nat) (pos : Bool) (sv : List Nat) : Lit := mkEqn pos (.app p (sv.map .var)) tTrue

/-- Parameters: the signature, the positions with TPPredPos (see `clauseSubsumes`), the sorting of
`ClauseSubsumeOrderSortLits`, equality of feature vectors in the index of the store. -/
structure SplitCtx where
  sg : Sig
  pp : Term → Bool
  srt : List OLit → List OLit
  idx : List OLit → List OLit → Bool

/-- `ClauseSetFindVariantClause` (CLAUSES/ccl_subsumption.c:1067-1130, 1663-1701). -/
def SplitCtx.variant (x : SplitCtx) (store : List (List OLit × Nat)) (D : List OLit) : Option (List OLit × Nat) :=
  store.find? fun e => x.idx e.1 D && clauseSubsumes x.sg x.pp e.1 D && clauseSubsumes x.sg x.pp D e.1

/-- What a part contributes: its definition predicate and, if new, the definition clause. -/
structure PartDef where
  pred : Nat
  clause : Option (List Lit)

/-- The definition of one part: `GetDefinitions` (CLAUSES/ccl_def_handling.c:251-315), or a fresh predicate
over the split variables (CLAUSES/ccl_splitting.c:320-339). -/
def SplitCtx.define (x : SplitCtx) (fresh : Bool) (sv : List Nat) (st : SplitSt) (body : List OLit) : PartDef × SplitSt :=
  if sv ≠ [] ∨ fresh = true then
    (⟨st.next, some (defLit st.next true sv :: OLit.plain body)⟩, { st with next := st.next + 1 })
  else
    let d := x.srt body
    match x.variant st.store d with
    | some e => (⟨e.2, none⟩, st)
    | none =>
      (⟨st.next, some (defLit st.next true [] :: OLit.plain body)⟩,
        { next := st.next + 1, store := st.store ++ [(d, st.next)] })

/-- The loop over the parts (CLAUSES/ccl_splitting.c:318-377): the new clauses and the literals of the
remaining clause (`join`, accumulated at the front). -/
def SplitCtx.defineAll (x : SplitCtx) (fresh : Bool) (sv : List Nat) :
    List (List OLit) → SplitSt → List Lit → List (List Lit) × List Lit × SplitSt
  | [], st, join => ([], join, st)
  | body :: bs, st, join =>
    let d := x.define fresh sv st body
    let r := x.defineAll fresh sv bs d.2 (defLit d.1.pred false sv :: join)
    (d.1.clause.toList ++ r.1, r.2)

/-- `ClauseHasSplitLiteral` (CLAUSES/ccl_splitting.c:477-489): `EqnQueryProp(handle, EPIsSplitLit)` asks for all bits of
65636 (BASICS/clb_properties.h:51), that is also EPHasEquiv, EPMaxIsUpToDate and EPIsStrictlyMaximal. -/
def hasSplitLiteral (C : List FLit) : Bool :=
  C.any fun L => L.splitBit && L.hasEquiv && L.upToDate && L.strictMax

/-- `clause_split_general` (CLAUSES/ccl_splitting.c:269-394): the definition clauses added, the clause that
remains, and the new state; `none` if the clause is not split.  `marked` is the answer of `ClauseHasSplitLiteral`. -/
def SplitCtx.split (x : SplitCtx) (marked : Bool) (how : SplitHow) (fresh : Bool) (sv : List Nat) (C : List OLit)
    (st : SplitSt) : Option (List (List Lit) × List Lit × SplitSt) :=
  if C.length ≤ 1 ∨ marked = true then none
  else
    let ps := splitParts how sv C
    if 1 < ps.length then some (x.defineAll fresh sv ps st []) else none

end Verif
