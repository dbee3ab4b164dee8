import Verif.Control.Status
import Mathlib.Data.List.Nodup

/-!
# Proof objects

Model of `DerivationCompute` and `DerivationPrint` (CLAUSES/ccl_derivation.c): extraction of the steps a proof depends on with
reference counts, topological sorting, renumbering, and the names under which the steps are printed.

The recorded derivations are those of `DGraph` (Control/Status.lean), numbered by the time of the last inference that went into a
clause.  The node of a clause or formula (`DerivationGetDerived`, 2056-2080) is represented by the number.  Left out: marking of proof
steps (`DGraph.markLoop`), the formulas themselves, and the printing of inference expressions.
-/

namespace Verif

/-- What is known when a derivation is extracted.  `isClause`: clause or formula; `acAx`: `sig->ac_axioms`; `acN`: the numeric argument of
the `DCACRes` steps of a clause (0 if there are none); `inName`: `info->name` of a formula whose input name is kept. -/
structure DerivEnv where
  g : DGraph
  isClause : Nat → Bool
  acAx : List Nat
  acN : Nat → Nat
  inName : Nat → Option (List Char)

namespace DerivEnv
variable (E : DerivEnv)

/-- `derived_get_derivation` (420-433) as a truth value. -/
def hasDeriv (n : Nat) : Bool := !(E.g.steps n).isEmpty

/-- `DerivStackExtractOptParents` (1046-1126), and `DerivStackExtractParents` (961-1026) afterwards, when the arguments have been
replaced by their originals.  The AC axioms used come without skipping copies.  Simplification: they are listed after the other
arguments. -/
def args (n : Nat) : List Nat :=
  if E.hasDeriv n then E.g.parents n ++ E.acAx.take (E.acN n) else []

/-- The order in which `DerivationExtract` and `DerivationTopoSort` pop the parents: clauses first, last pushed first. -/
def par (n : Nat) : List Nat :=
  ((E.args n).filter fun p => E.isClause p).reverse ++ ((E.args n).filter fun p => !E.isClause p).reverse

/-- `node->ref_count += d`. -/
def bump (r : Nat → Int) (p : Nat) (d : Int) : Nat → Int := fun q => if q = p then r q + d else r q

/-- The inner loops of `DerivationExtract` (2130-2153): `vis` are the nodes that are not fresh. -/
def exVisit : List Nat → List Nat → List Nat → (Nat → Int) → List Nat × List Nat × (Nat → Int)
  | [], vis, st, r => (vis, st, r)
  | p :: ps, vis, st, r =>
    if vis.contains p then exVisit ps vis st (bump r p 1)
    else exVisit ps (p :: vis) (p :: st) (bump r p 1)

/-- The main loop of `DerivationExtract` (2118-2154); the result are the reference counts; `none`: out of fuel. -/
def exLoop : Nat → List Nat → List Nat → (Nat → Int) → Option (Nat → Int)
  | 0, _, _, _ => none
  | _+1, _, [], r => some r
  | k+1, vis, n :: st, r =>
    let s := exVisit (E.par n) vis st r
    exLoop k s.1 s.2.1 s.2.2

/-- `DerivationExtract` (2097-2162); the stack is a copy of `roots`. -/
def extract (k : Nat) (roots : List Nat) : Option (Nat → Int) := E.exLoop k roots roots.reverse (fun _ => 0)

/-- The inner loops of `DerivationTopoSort` (2312-2345): queue, axioms and counts. -/
def tsVisit : List Nat → List Nat → List Nat → (Nat → Int) → List Nat × List Nat × (Nat → Int)
  | [], q, ax, r => (q, ax, r)
  | p :: ps, q, ax, r =>
    let r' := bump r p (-1)
    if r' p = 0 then
      if E.hasDeriv p then tsVisit ps (q ++ [p]) ax r'
      else tsVisit ps q (ax ++ [p]) r'
    else tsVisit ps q ax r'

/-- The main loop of `DerivationTopoSort` (2300-2348). -/
def tsLoop : Nat → List Nat → List Nat → List Nat → (Nat → Int) → Option (List Nat)
  | 0, _, _, _, _ => none
  | _+1, o, [], ax, _ => some (o ++ ax)
  | k+1, o, n :: q, ax, r =>
    let s := E.tsVisit (E.par n) q ax r
    tsLoop k (o ++ [n]) s.1 s.2.1 s.2.2

/-- `DerivationTopoSort` (2273-2357): the result is `ordered_deriv`, bottom first. -/
def topoSort (k : Nat) (roots : List Nat) (r : Nat → Int) : Option (List Nat) :=
  E.tsLoop k [] (roots.filter fun n => r n == 0) [] r

/-- `DerivationCompute` (2412-2433) for the given root clauses, followed by `DerivationPrint` (2535-2559), which starts at the top of
`ordered_deriv`: the steps in the order printed. -/
def printed (k : Nat) (rootClauses : List Nat) : Option (List Nat) := do
  let roots := rootClauses.map fun r => E.g.first r r
  let r ← E.extract k roots
  let o ← E.topoSort k roots r
  return o.reverse

end DerivEnv

/-! ## Names of the steps -/

/-- `%ld` for a number that is not negative. -/
def decDigits (n : Nat) : List Char :=
  if n < 10 then [Char.ofNat (48 + n)] else decDigits (n / 10) ++ [Char.ofNat (48 + n % 10)]

/-- The decimal digits read by `strtol`, without regard to overflow. -/
def readDigits : Nat → List Char → Nat × List Char
  | acc, [] => (acc, [])
  | acc, c :: cs => if '0' ≤ c ∧ c ≤ '9' then readDigits (acc * 10 + (c.toNat - 48)) cs else (acc, c :: cs)

/-- An optional sign. -/
def cSign : List Char → Bool × List Char
  | '-' :: u => (true, u)
  | '+' :: u => (false, u)
  | u => (false, u)

/-- `strtol` of the C library: optional white space and sign, then digits; without digits the value is 0 and nothing is consumed. -/
def cStrtol (s : List Char) : Int × List Char :=
  let t := s.dropWhile fun c => c == ' ' || c == '\t' || c == '\n'
  match (cSign t).2 with
  | [] => (0, s)
  | c :: cs =>
    if '0' ≤ c ∧ c ≤ '9' then
      let r := readDigits 0 (c :: cs)
      (if (cSign t).1 then -(r.1 : Int) else r.1, r.2)
    else (0, s)

/-- `ClauseInfoGetIdCounter` (CLAUSES/ccl_clauseinfo.c:242-276). -/
def idCounter : Option (List Char) → Int
  | none => -1
  | some (p :: '_' :: c :: rest) =>
    if p = 'i' ∨ p = 'c' then
      if '0' ≤ c ∧ c ≤ '9' then
        match (cStrtol rest).2 with
        | '_' :: e => let r := cStrtol e; if r.2.isEmpty then r.1 else -1
        | _ => -1
      else -1
    else -1
  | some _ => -1

namespace DerivEnv
variable (E : DerivEnv)

/-- `derivation_find_max_id` (CLAUSES/ccl_derivation.c:576-598): only formulas are considered. -/
def maxId (l : List Nat) : Int :=
  l.foldl (fun m n => if !E.isClause n && m < idCounter (E.inName n) then idCounter (E.inName n) else m) (-1)

/-- `DerivationRenumber` (2372-2396): the number of each step of the list in the order printed.  The counter starts at
`derivation_find_max_id + 1`, which is not negative. -/
def idents (l : List Nat) : List Nat := (List.range l.length).map fun i => (E.maxId l + 1).toNat + i

/-- The name a step is printed under in TSTP format: `ClauseTSTPPrint` (CLAUSES/ccl_clauses.c:1513-1519; clauses have source 0 in the prover),
`WFormulaGetId` (CLAUSES/ccl_formula_wrapper.c:277-301) after renumbering. -/
def stepName (n : Nat) (ident : Nat) : List Char :=
  if E.isClause n then "c_0_".toList ++ decDigits ident
  else match E.inName n with
    | some s => s
    | none => "c_0_".toList ++ decDigits ident

/-- The names in the order printed. -/
def names (l : List Nat) : List (List Char) := List.zipWith E.stepName l (E.idents l)

end DerivEnv
end Verif
