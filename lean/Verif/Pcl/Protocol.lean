import Verif.Clauses.Sem
import Verif.Formulas.CNFSkolem

/-!
# PCL protocols: proof extraction and proof checking

PCL2/pcl_protocol.c, pcl_miniprotocol.c, pcl_proofcheck.c and the drivers PROVER/epclextract.c and
PROVER/checkproof.c.

Simplifications: step identifiers are single numbers (the full protocol also has compound ones; they are
only compared); full formulas in steps are opaque, since neither tool looks into them; parsing and printing
of the steps themselves are left out; positions in justifications are left out.
-/

namespace Verif.Pcl

/-- Justifications (PCL2/pcl_expressions.h:40-100): `initial`, references to other steps, and operators. -/
inductive Expr
  | initial
  | quote (id : Nat)
  | op (code : Nat) (args : List Expr)

/-- `PCLOpSplitClause` (pcl_expressions.h:40-59); the number itself plays no role. -/
def opSplit : Nat := 17

/-- What a step states (pcl_steps.h:62-80): a clause, a full formula, or nothing (`shell` steps). -/
inductive Logic
  | clause (C : List Lit)
  | fof (code : Nat)
  | shell

structure Step where
  id : Nat
  logic : Logic
  just : Expr
  extra : Option (List Char)

/-- A protocol: the steps in ascending order of their identifiers (the tree `prot->steps` of
pcl_protocol.h, the array of pcl_miniprotocol.h).  Duplicate identifiers are refused on reading
(pcl_protocol.c:268-273). -/
abbrev Prot := List Step

/-- `PCLProtFindStep` (pcl_protocol.c:181-194). -/
def find (p : Prot) (i : Nat) : Option Step := List.find? (fun s => s.id == i) p

mutual
/-- The references of a justification, in the order `PCLExprCollectPreconds` (pcl_protocol.c:449-474) meets
them. -/
def quotes : Expr → List Nat
  | .initial => []
  | .quote i => [i]
  | .op _ args => quotesL args
def quotesL : List Expr → List Nat
  | [] => []
  | e :: es => quotes e ++ quotesL es
end

/-- `PTreeStore`: the tree holds every step once. -/
def store (s : Step) (t : List Step) : List Step := if t.any (fun x => x.id == s.id) then t else t ++ [s]

/-- `PCLExprCollectPreconds` (pcl_protocol.c:449-474, pcl_miniprotocol.c:319-351).  A dangling reference
stops the mini version with an error; the full version stores a null pointer it later dereferences.  Both
are `none`. -/
def collectPreconds (p : Prot) : List Nat → List Step → Option (List Step)
  | [], t => some t
  | i :: is, t =>
    match find p i with
    | none => none
    | some s => collectPreconds p is (store s t)

/-! ## Extraction -/

/-- `PCLStepExtract` (pcl_expressions.c:813-827). -/
def stepExtract : Option (List Char) → Bool
  | none => false
  | some cs =>
    let cs := match cs with
      | c :: r => if c = '"' ∨ c = '\'' then r else c :: r
      | [] => []
    ['p', 'r', 'o', 'o', 'f'].isPrefixOf cs || ['f', 'i', 'n', 'a', 'l'].isPrefixOf cs ||
      ['e', 'x', 't', 'r', 'a', 'c', 't'].isPrefixOf cs

/-- The test for the end of a refutation (pcl_protocol.c:535-541, pcl_miniprotocol.c:406-412). -/
def isContradiction (s : Step) : Bool :=
  match s.logic with
  | .shell => s.extra == some ['\'', 'p', 'r', 'o', 'o', 'f', '\'']
  | .clause C => C.isEmpty
  | .fof _ => false

/-- The loop of pcl_protocol.c:550-563 and pcl_miniprotocol.c:403-426.  `todo` is the stack with its top
first, `marked` the identifiers of the steps with `PCLIsProofStep`, `res` the flag of the mini version.
`ord` is the order in which `PTreeExtractRootKey` empties the tree of parents.  Outer `none`: out of
fuel; inner `none`: a dangling reference. -/
def markLoop (ord : List Step → List Step) (p : Prot) : Nat → List Step → List Nat → Bool → Option (Option (List Nat × Bool))
  | 0, _, _, _ => none
  | _ + 1, [], marked, res => some (some (marked, res))
  | n + 1, s :: todo, marked, res =>
    let res := res || isContradiction s
    if s.id ∈ marked then markLoop ord p n todo marked res
    else
      match collectPreconds p (quotes s.just) [] with
      | none => some none
      | some ps => markLoop ord p n ((ord ps).reverse ++ todo) (s.id :: marked) res

/-- `PCLProtMarkProofClauses` (pcl_protocol.c:522-566): the flag says whether the *protocol* has a
contradiction. -/
def markFull (ord : List Step → List Step) (p : Prot) (fuel : Nat) : Option (Option (List Nat × Bool)) :=
  let todo := (p.filter fun s => stepExtract s.extra).reverse
  match markLoop ord p fuel todo [] false with
  | some (some (m, _)) => some (some (m, p.any isContradiction))
  | r => r

/-- The start of the fast extraction (pcl_miniprotocol.c:377-387): the steps from the last one downwards, as
long as there are no gaps in the numbering and every step is to be extracted. -/
def fastRoots (p : Prot) : Nat → List Step
  | 0 => match find p 0 with
    | some s => if stepExtract s.extra then [s] else []
    | none => []
  | i + 1 => match find p (i + 1) with
    | some s => if stepExtract s.extra then s :: fastRoots p i else []
    | none => []

/-- `prot->max_ident` (pcl_miniprotocol.c:135). -/
def maxIdent (p : Prot) : Nat := p.foldl (fun m s => max m s.id) 0

/-- `PCLMiniProtMarkProofClauses` (pcl_miniprotocol.c:367-429). -/
def markMini (ord : List Step → List Step) (p : Prot) (fast : Bool) (fuel : Nat) : Option (Option (List Nat × Bool)) :=
  let todo := if fast then (fastRoots p (maxIdent p)).reverse else (p.filter fun s => stepExtract s.extra).reverse
  markLoop ord p fuel todo [] false

/-- `PCLProtPrintProofClauses` (pcl_protocol.c:699-725, pcl_miniprotocol.c:500-525): the steps marked, in ascending order. -/
def printProof (p : Prot) (marked : List Nat) : List Step := p.filter fun s => decide (s.id ∈ marked)

/-- The frames epclextract prints with `--competition-framing` (PROVER/epclextract.c:233-247). -/
inductive Frame
  | cnfRefutation | saturation
deriving DecidableEq

/-- epclextract (PROVER/epclextract.c:211-255) without `--no-extract`: the frame and the steps printed. -/
def extract (ord : List Step → List Step) (p : Prot) (fast : Bool) (fuel : Nat) : Option (Option (Frame × List Step)) :=
  match (if fast then markMini ord p true fuel else markFull ord p fuel) with
  | none => none
  | some none => some none
  | some (some (m, e)) => some (some (if e then .cnfRefutation else .saturation, printProof p m))

/-! ## Checking -/

/-- `SubstSkolemizeTerm` (TERMS/cte_subst.c:356-378) over the variables of a clause in the order in which they
occur: a variable not yet bound gets the next new constant (`SigGetNewSkolemCode`). -/
def skolemVars : List Nat → List (Nat × Nat) → Nat → List (Nat × Nat) × Nat
  | [], b, n => (b, n)
  | x :: xs, b, n => if (b.lookup x).isSome then skolemVars xs b n else skolemVars xs ((x, n) :: b) (n + 1)

/-- The bindings as a substitution. -/
def skolemSubst (b : List (Nat × Nat)) (x : Nat) : Term :=
  match b.lookup x with
  | some c => .app c []
  | none => .var x

/-- `ClauseSkolemize` (CLAUSES/ccl_clauses.c:1058-1075). -/
def clauseSkolemize (C : List Lit) (n : Nat) : List Lit × Nat :=
  let r := skolemVars (cvars C) [] n
  (csubst (skolemSubst r.1) C, r.2)

/-- `PCLNegSkolemizeClause` (pcl_proofcheck.c:619-646): one unit clause per literal, with the other sign;
nothing for full formulas. -/
def negSkolemize (s : Step) (n : Nat) : List (List Lit) × Nat :=
  match s.logic with
  | .clause C =>
    let r := clauseSkolemize C n
    (r.1.map fun L => [{ L with pos := !L.pos }], r.2)
  | _ => ([], n)

/-- The clause of a step. -/
def Step.clause? (s : Step) : Option (List Lit) :=
  match s.logic with
  | .clause C => some C
  | _ => none

/-- `PCLCollectPreconds` (pcl_proofcheck.c:576-602): parents that are full formulas are skipped with a
warning.  checkproof reads no shell steps (`SupportShellPCL` is false). -/
def preconds (p : Prot) (s : Step) : Option (List (List Lit)) :=
  (collectPreconds p (quotes s.just) []).map fun ps => ps.filterMap Step.clause?

/-- `PCLGenerateCheck` (pcl_proofcheck.c:663-677): the inner `none` is the null pointer. -/
def generateCheck (p : Prot) (s : Step) (n : Nat) : Option (Option (List (List Lit)) × Nat) :=
  match preconds p s with
  | none => none
  | some [] => some (none, n)
  | some (c :: cs) => let r := negSkolemize s n; some (some (c :: cs ++ r.1), r.2)

/-- `PCLCheckType` (pcl_proofcheck.h:36-42). -/
inductive Check
  | fail | ok | byAssumption | notImplemented
deriving DecidableEq

/-- The test of pcl_proofcheck.c:700. -/
def isSplit (s : Step) : Bool :=
  match s.just with
  | .op c _ => c == opSplit
  | _ => false

/-- `PCLStepCheck` (pcl_proofcheck.c:694-738).  `prover` is the external prover: whether it says that it
found a proof (pcl_verify_eprover, pcl_verify_otter, pcl_verify_spass). -/
def stepCheck (prover : List (List Lit) → Bool) (p : Prot) (s : Step) (n : Nat) : Option (Check × Nat) :=
  if isSplit s then some (.notImplemented, n)
  else match generateCheck p s n with
    | none => none
    | some (none, n') => some (.byAssumption, n')
    | some (some pb, n') => some (if prover pb then .ok else .fail, n')

/-- The loop of `PCLProtCheck` (pcl_proofcheck.c:754-808): steps checked and steps not checked. -/
def protCheck (prover : List (List Lit) → Bool) (p : Prot) : List Step → Nat → Nat → Nat → Option (Nat × Nat)
  | [], _, res, unc => some (res, unc)
  | s :: ss, n, res, unc =>
    match stepCheck prover p s n with
    | none => none
    | some (.byAssumption, n') => protCheck prover p ss n' (res + 1) unc
    | some (.ok, n') => protCheck prover p ss n' (res + 1) unc
    | some (.fail, n') => protCheck prover p ss n' res unc
    | some (.notImplemented, n') => protCheck prover p ss n' res (unc + 1)

/-- What checkproof prints (PROVER/checkproof.c:192-204). -/
inductive Verdict
  | verified | partially | failed
deriving DecidableEq

/-- checkproof (PROVER/checkproof.c:186-204); `n` is the first code not used by the protocol. -/
def checkproof (prover : List (List Lit) → Bool) (p : Prot) (n : Nat) : Option Verdict :=
  match protCheck prover p p n 0 0 with
  | none => none
  | some (res, unc) => some (if res = p.length then .verified else if res + unc = p.length then .partially else .failed)

end Verif.Pcl
