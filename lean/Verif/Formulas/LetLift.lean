import Mathlib.Data.List.Dedup

/-!
# Lifting of `$let`

Model of `lift_lets` and its auxiliary functions (CLAUSES/ccl_formulafunc.c:80-266), first-order: local symbols are always fully applied.
-/

namespace Verif.LetLift

/-- Formulas and terms with local definitions.  `quant q x b` is a formula with the quantifier `q`, all other logical operators are symbols.  `letIn hs rs b` is
`$let([f1(X11,...) := r1, ...], b)`: `hs` are the left sides, `rs` the right sides (TERMS/cte_termbanks.c:386-483). -/
inductive LT where
  | var (n : Nat)
  | app (f : Nat) (args : List LT)
  | quant (q n : Nat) (b : LT)
  | letIn (hs : List (Nat × List Nat)) (rs : List LT) (b : LT)

mutual
/-- `tformula_collect_freevars` (CLAUSES/ccl_tformulae.c:863-904), as a list with repetitions. -/
def fvs : LT → List Nat
  | .var n => [n]
  | .app _ ts => fvsL ts
  | .quant _ n b => (fvs b).filter (· ≠ n)
  | .letIn _ _ b => fvs b
def fvsL : List LT → List Nat
  | [] => []
  | t :: ts => fvs t ++ fvsL ts
end

/-- A global definition: `![X1,...]: g(X1,...) = rhs`, or with an equivalence (CLAUSES/ccl_formulafunc.c:186-199). -/
structure Def where
  g : Nat
  vars : List Nat
  rhs : LT

/-- An entry of `closed_defs`: the symbol, the parameters, the new symbol and the additional variables (CLAUSES/ccl_formulafunc.c:103-104). -/
structure Entry where
  f : Nat
  xs : List Nat
  g : Nat
  fv : List Nat

/-- `close_let_def` (CLAUSES/ccl_formulafunc.c:80-108): the free variables of the right side without the parameters, and a new symbol `k`.  The order of the
variables is that of their addresses in the code, that of the last occurrences here. -/
def closeDef (k : Nat) (h : Nat × List Nat) (r : LT) : Entry :=
  ⟨h.1, h.2, k, ((fvs r).filter (· ∉ h.2)).dedup⟩

/-- `NumTreeFind(closed_defs, f_code)`; `NumTreeStore` does not replace an entry. -/
def find (m : List Entry) (f : Nat) : Option Entry := m.find? (·.f = f)

/-- `SubstAddBinding` for the parameters and `TBInsertInstantiated(bank, new_def)` (CLAUSES/ccl_formulafunc.c:148-155). -/
def instDef (e : Entry) (args : List LT) : LT :=
  .app e.g ((e.fv ++ e.xs).map fun x => ((e.xs.zip args).lookup x).getD (.var x))

mutual
/-- `replace_body` (CLAUSES/ccl_formulafunc.c:122-159).  The code also visits the left sides of inner definitions, whose symbols are never in `m`
(TERMS/cte_signature.c:822: every declaration has its own code). -/
def replace (m : List Entry) : LT → LT
  | .var n => .var n
  | .app f ts =>
    match find m f with
    | none => .app f (replaceL m ts)
    | some e => instDef e (replaceL m ts)
  | .quant q n b => .quant q n (replace m b)
  | .letIn hs rs b => .letIn hs (replaceL m rs) (replace m b)
def replaceL (m : List Entry) : List LT → List LT
  | [] => []
  | t :: ts => replace m t :: replaceL m ts
end

/-- `make_fresh_defs` (CLAUSES/ccl_formulafunc.c:173-201): for every definition the entry of its symbol, with its right side. -/
def makeDefs (m : List Entry) : List (Nat × List Nat) → List LT → List Def
  | h :: hs, r :: rs =>
    (match find m h.1 with
      | some e => [⟨e.g, e.fv ++ e.xs, r⟩]
      | none => []) ++ makeDefs m hs rs
  | _, _ => []

/-- The next free function code and `fresh_defs`. -/
structure St where
  k : Nat
  defs : List Def

mutual
/-- `lift_lets` (CLAUSES/ccl_formulafunc.c:215-266); `none` = out of fuel. -/
def lift : Nat → LT → St → Option (LT × St)
  | 0, _, _ => none
  | _ + 1, .var n, st => some (.var n, st)
  | n + 1, .app f ts, st => (liftL n ts st).map fun r => (.app f r.1, r.2)
  | n + 1, .quant q x b, st => (lift n b st).map fun r => (.quant q x r.1, r.2)
  | n + 1, .letIn hs rs b, st =>
    match liftDs n hs rs st with
    | none => none
    | some (rs', m, st) => lift n (replace m b) { st with defs := st.defs ++ makeDefs m hs rs' }
def liftL : Nat → List LT → St → Option (List LT × St)
  | 0, _, _ => none
  | _ + 1, [], st => some ([], st)
  | n + 1, t :: ts, st =>
    match lift n t st with
    | none => none
    | some (t', st) => (liftL n ts st).map fun r => (t' :: r.1, r.2)
/-- The loop over the definitions (CLAUSES/ccl_formulafunc.c:226-230). -/
def liftDs : Nat → List (Nat × List Nat) → List LT → St → Option (List LT × List Entry × St)
  | 0, _, _, _ => none
  | n + 1, h :: hs, r :: rs, st =>
    match lift n r st with
    | none => none
    | some (r', st) =>
      (liftDs n hs rs { st with k := st.k + 1 }).map fun x => (r' :: x.1, closeDef st.k h r' :: x.2.1, x.2.2)
  | _ + 1, _, _, st => some ([], [], st)
end

end Verif.LetLift
