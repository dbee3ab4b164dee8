import Verif.Control.Sine

/-!
# Relevance pruning

Model of `ProofStateRelevancyProcess`: axioms are layered by the number of shared-symbol steps from
the conjectures, and only the first layers are kept.

Simplifications: an axiom is represented as in `Control/Sine.lean`; `occ` holds the symbols
`ClauseReturnFCodes`/`WFormulaReturnFCodes` return.  The symbol index over the remaining axioms
(`FIndex`) is represented by what it contains, the remaining axioms that have the symbol.
-/

namespace Verif.Relevance
open Verif.Sine

/-- `find_level_fcodes` for one axiom, CLAUSES/ccl_relevance.c:69-82: symbols that are not special and
have no level yet get the current one and are pushed on `new_codes`. -/
def codesOf (special : Nat → Bool) : List Nat → List Nat × List Nat → List Nat × List Nat
  | [], x => x
  | f :: fs, (seen, new) =>
    if !(special f) && !(seen.contains f) then codesOf special fs (f :: seen, f :: new)
    else codesOf special fs (seen, new)

/-- `find_level_fcodes`, ccl_relevance.c:57-105: the symbols with a level and the new ones. -/
def levelCodes (special : Nat → Bool) : List SAx → List Nat × List Nat → List Nat × List Nat
  | [], x => x
  | a :: as, x => levelCodes special as (codesOf special a.occ x)

/-- `extract_new_core`, ccl_relevance.c:121-146: for every new symbol all remaining axioms that have
it are moved to the core.  Returns the new core and the rest. -/
def newCore : List Nat → List SAx × List SAx → List SAx × List SAx
  | [], x => x
  | f :: fs, (core, rest) =>
    newCore fs (core ++ rest.filter (fun a => a.occ.contains f),
      rest.filter (fun a => !(a.occ.contains f)))

/-- The loop of `RelevanceDataCompute`, ccl_relevance.c:445-475: the levels and the rest.  A turn
with a non-empty core either empties the rest or leaves an empty core at some point; the number of
remaining axioms bounds the turns. -/
def levels (special : Nat → Bool) : Nat → List SAx → List SAx → List Nat →
    Option (List (List SAx) × List SAx)
  | 0, _, _, _ => none
  | n + 1, core, rest, seen =>
    if core.isEmpty then some ([], rest)
    else
      let (seen', new) := levelCodes special core (seen, [])
      let (core', rest') := newCore new ([], rest)
      (levels special n core' rest' seen').map (fun (ls, r) => (core :: ls, r))

/-- `RelevanceDataInit` and `RelevanceDataCompute`, ccl_relevance.c:413-475; the core consists of the
conjectures. -/
def relevanceData (special : Nat → Bool) (axs : List SAx) : Option (List (List SAx) × List SAx) :=
  levels special (axs.length + 2) (axs.filter (·.conj)) (axs.filter (fun a => !a.conj)) []

/-- `proofstate_rel_prune`, ccl_relevance.c:218-254: the first `level` levels, and the remaining
axioms as well if there are fewer levels. -/
def relPrune : Nat → List (List SAx) → List SAx → List SAx
  | 0, _, _ => []
  | _ + 1, [], rest => rest
  | n + 1, l :: ls, rest => l ++ relPrune n ls rest

/-- `ProofStateRelevancyProcess`, ccl_relevance.c:492-512: the new axiom set and the number of axioms
reported as pruned; nothing is done for level 0. -/
def relevancyProcess (special : Nat → Bool) (level : Nat) (axs : List SAx) :
    Option (List SAx × Nat) :=
  if level = 0 then some (axs, 0)
  else
    (relevanceData special axs).map fun (ls, rest) =>
      let new := relPrune level ls rest
      (new, axs.length - new.length)

end Verif.Relevance
