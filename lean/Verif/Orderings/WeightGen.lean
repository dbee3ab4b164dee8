import Verif.Orderings.Kbo
import Mathlib.Data.List.Sort

/-!
# Generated weights of the Knuth-Bendix ordering

Model of HEURISTICS/che_to_weightgen.c for first-order problems.  The methods that count types
(che_to_weightgen.c:568-724, 815-899, 957-1041) are for higher-order problems only and are left out, as are
weights given by the user (che_to_weightgen.c:1265-1273).  `W_DEFAULT_WEIGHT` is 1 and is left out of the products.
-/

namespace Verif

/-- `TOWeightGenMethod` (HEURISTICS/che_to_params.h:76-127), without the methods for higher-order problems. -/
inductive WMethod
  | noMethod | selectMaximal | arityWeight | arityMax0 | modArityWeight | modArityMax0 | aritySqWeight | aritySqMax0
  | invArityWeight | invArityMax0 | invAritySqWeight | invAritySqMax0 | precedence | precedenceInv | precRank5 | precRank10
  | precRank20 | frequency | invFrequency | frequencyRank | invFrequencyRank | invConjFrequencyRank | frequencyRankSq
  | invFrequencyRankSq | invModFreqRank | invModFreqRankMax0 | constantWeight
  deriving DecidableEq

/-- What the generation of weights looks at: `n` is `sig_size` (equal to `f_count` when the weights are generated),
`ar` the arities, `cmp` the precedence (`OCBFunCompare`), `freq` and `conjfreq` the number of occurrences of a symbol in the
axioms and in the conjectures (HEURISTICS/che_fcode_featurearrays.c:103-146). -/
structure WIn where
  n : Nat
  ar : Nat → Nat
  cmp : Nat → Nat → Cmp
  freq : Nat → Nat
  conjfreq : Nat → Nat

/-- `*OCBFunWeightPos(ocb, f) = v` (ORDERINGS/cto_ocb.h:130-138). -/
def setW (w : Nat → Nat) (f v : Nat) : Nat → Nat := fun g => if g = f then v else w g

/-- A loop `for(i=SIG_TRUE_CODE+1; i<=sig_size; i++)`. -/
def WIn.syms (A : WIn) : List Nat := List.range' 2 (A.n - 1)

/-- Assigning `v i` to every symbol `i` in turn. -/
def assignAll (A : WIn) (v : Nat → Nat) (w : Nat → Nat) : Nat → Nat :=
  A.syms.foldl (fun w i => setW w i (v i)) w

/-- `PStackDiscardElement` (BASICS/clb_pstacks.c:90-101): the top element moves into place `i`. -/
def discard (l : List Nat) (i : Nat) : List Nat := (l.set i (l.getLastD 0)).dropLast

/-- The inner loop of `find_max_symbols` (HEURISTICS/che_to_weightgen.c:197-211), from the top of the stack down to
position 0. -/
def maxScan (cmp : Nat → Nat → Cmp) (i : Nat) : Nat → List Nat → List Nat × Bool
  | 0, res => (res, true)
  | j + 1, res =>
    match cmp i (res.getD j 0) with
    | .lesser => (res, false)
    | .greater => maxScan cmp i j (discard res j)
    | _ => maxScan cmp i j res

/-- One round of the outer loop of `find_max_symbols` (HEURISTICS/che_to_weightgen.c:195-216). -/
def maxStep (cmp : Nat → Nat → Cmp) (res : List Nat) (i : Nat) : List Nat :=
  let (res, max) := maxScan cmp i res.length res
  if max then res ++ [i] else res

/-- `find_max_symbols` (HEURISTICS/che_to_weightgen.c:185-218). -/
def findMax (A : WIn) : List Nat := A.syms.foldl (maxStep A.cmp) []

/-- The smallest code in the stack (HEURISTICS/che_to_weightgen.c:245-253). -/
def firstOf : List Nat → Option Nat
  | [] => none
  | f :: l => some (l.foldl (fun first i => if i < first then i else first) f)

/-- `set_maximal_0` (HEURISTICS/che_to_weightgen.c:234-257). -/
def setMaximal0 (A : WIn) (w : Nat → Nat) : Nat → Nat :=
  match firstOf (findMax A) with
  | none => w
  | some f => setW w f 0

/-- `set_maximal_unary_0` (HEURISTICS/che_to_weightgen.c:272-294). -/
def setMaximalUnary0 (A : WIn) (w : Nat → Nat) : Nat → Nat :=
  match firstOf (findMax A) with
  | none => w
  | some f => if A.ar f = 1 then setW w f 0 else w

/-- `SigFindMaxUsedArity` (TERMS/cte_signature.c:1094-1104). -/
def maxArity (A : WIn) : Nat := (List.range' 1 A.n).foldl (fun r i => max r (A.ar i)) 0

/-- The `switch` of `generate_arity_weights` (HEURISTICS/che_to_weightgen.c:361-386); `W_TO_BASEWEIGHT` is 4. -/
def arityValue (m : WMethod) (maxarity arity : Nat) : Nat :=
  match m with
  | .arityWeight | .arityMax0 => arity + 1
  | .modArityWeight | .modArityMax0 => arity + 4
  | .aritySqWeight | .aritySqMax0 => arity * arity + 1
  | .invArityWeight | .invArityMax0 => maxarity - arity + 1
  | .invAritySqWeight | .invAritySqMax0 => maxarity * maxarity - arity * arity + 1
  | _ => 1

/-- `generate_arity_weights` (HEURISTICS/che_to_weightgen.c:352-395). -/
def arityWeights (A : WIn) (m : WMethod) (w : Nat → Nat) : Nat → Nat :=
  let w := assignAll A (fun i => arityValue m (maxArity A) (A.ar i)) w
  if m = .arityMax0 ∨ m = .modArityMax0 ∨ m = .invArityMax0 ∨ m = .aritySqMax0 ∨ m = .invAritySqMax0 then
    setMaximal0 A w
  else w

/-- `generate_precedence_weights` and `generate_invprecedence_weights` (HEURISTICS/che_to_weightgen.c:411-465): one more
than the number of symbols compared with result `r`. -/
def precedenceWeights (A : WIn) (r : Cmp) (w : Nat → Nat) : Nat → Nat :=
  assignAll A (fun i => A.syms.foldl (fun weight j => if A.cmp i j = r then weight + 1 else weight) 1) w

/-- `generate_precrank_weights` (HEURISTICS/che_to_weightgen.c:141-168); symbols are sorted by the precedence (for a
total one the alphabetical rank in the comparison does not matter), the division is exact here and in single precision in the
code. -/
def precRankWeights (A : WIn) (ranks : Nat) (w : Nat → Nat) : Nat → Nat :=
  ((A.syms.insertionSort fun f g => A.cmp g f ≠ .lesser).zipIdx).foldl
    (fun w p => setW w p.1 (p.2 * ranks / A.syms.length + 1)) w

/-- State of a loop that assigns ranks: the last frequencies, the current weight, the number of symbols seen, the
weights. -/
structure RankSt where
  last : Nat × Nat
  weight : Nat
  base : Nat
  w : Nat → Nat

/-- One round of the loops at HEURISTICS/che_to_weightgen.c:786-796, 928-938, 1073-1084, 1115-1124, 1154-1163, 1193-1203:
`key` is what a change is noticed by, `upd` the new weight, `fin` the value assigned. -/
def rankStep (key : Nat → Nat × Nat) (upd : Nat → Nat → Nat) (fin : Nat → Nat) (s : RankSt) (f : Nat) : RankSt :=
  let base := s.base + 1
  let weight := if s.last ≠ key f then upd s.weight base else s.weight
  ⟨key f, weight, base, setW s.w f (fin weight)⟩

def rankLoop (key : Nat → Nat × Nat) (upd : Nat → Nat → Nat) (fin : Nat → Nat) (l : List Nat) (w : Nat → Nat) : Nat → Nat :=
  (l.foldl (rankStep key upd fin) ⟨(0, 0), 0, 0, w⟩).w

/-- `FCodeFeatureArraySort` with `key1` the frequency (HEURISTICS/che_fcode_featurearrays.c:54-83, 251-257).  The position
of the first occurrence decides among symbols with the same keys; it does not influence the weights, and is left out. -/
def sortFreq (A : WIn) : List Nat := A.syms.insertionSort fun f g => A.freq f ≤ A.freq g

/-- The keys of `generate_invconjfreqrank_weights` (HEURISTICS/che_to_weightgen.c:1064-1069): symbols without occurrences
in conjectures first, then by descending number of occurrences in conjectures, then by descending frequency.  `INT_MAX` is
assumed to exceed the frequencies. -/
def conjLe (A : WIn) (f g : Nat) : Prop :=
  let k1 (i : Nat) : Int := if A.conjfreq i ≠ 0 then 2147483647 - A.conjfreq i else 0
  k1 f < k1 g ∨ (k1 f = k1 g ∧ A.freq g ≤ A.freq f)

instance (A : WIn) (f g : Nat) : Decidable (conjLe A f g) := by unfold conjLe; infer_instance

def sortConj (A : WIn) : List Nat := A.syms.insertionSort fun f g => conjLe A f g

/-- The `switch` of `TOGenerateWeights` (HEURISTICS/che_to_weightgen.c:1335-1447) without the variable weight. -/
def methodWeights (A : WIn) (m : WMethod) (w : Nat → Nat) : Nat → Nat :=
  let fkey (f : Nat) := (A.freq f, 0)
  match m with
  | .constantWeight => assignAll A (fun _ => 1) w
  | .selectMaximal | .noMethod => setMaximal0 A (assignAll A (fun _ => 1) w)
  | .modArityWeight | .modArityMax0 | .arityWeight | .arityMax0 | .aritySqWeight | .aritySqMax0 | .invArityWeight
  | .invArityMax0 | .invAritySqWeight | .invAritySqMax0 => arityWeights A m w
  | .precedence => precedenceWeights A .greater w
  | .precedenceInv => precedenceWeights A .lesser w
  | .precRank5 => precRankWeights A 5 w
  | .precRank10 => precRankWeights A 10 w
  | .precRank20 => precRankWeights A 20 w
  | .frequency => assignAll A (fun i => max (A.freq i) 1) w
  | .invFrequency =>
    let maxCount := A.syms.foldl (fun c i => max (A.freq i) c) 1 + 1
    assignAll A (fun i => maxCount - max (A.freq i) 1) w
  | .frequencyRank => rankLoop fkey (fun wt _ => wt + 1) (fun wt => max wt 1) (sortFreq A) w
  | .invFrequencyRank => rankLoop fkey (fun wt _ => wt + 1) (fun wt => max wt 1) (sortFreq A).reverse w
  | .invConjFrequencyRank =>
    rankLoop (fun f => (A.freq f, A.conjfreq f)) (fun wt _ => wt + 1) (fun wt => wt) (sortConj A) w
  | .frequencyRankSq => rankLoop fkey (fun wt _ => wt + 1) (fun wt => wt * wt) (sortFreq A) w
  | .invFrequencyRankSq => rankLoop fkey (fun wt _ => wt + 1) (fun wt => wt * wt) (sortFreq A).reverse w
  | .invModFreqRank => rankLoop fkey (fun _ base => base) (fun wt => wt) (sortFreq A).reverse w
  | .invModFreqRankMax0 =>
    setMaximalUnary0 A (rankLoop fkey (fun _ base => base) (fun wt => wt) (sortFreq A).reverse w)

/-- The variable weight set in the `switch` (HEURISTICS/che_to_weightgen.c:1343-1354; 1 otherwise, ORDERINGS/cto_ocb.c:185). -/
def methodVarWeight (m : WMethod) (constW : Option Nat) : Nat :=
  match m with
  | .modArityWeight | .modArityMax0 => constW.getD 4
  | _ => 1

/-- `TOSelectOrdering` (HEURISTICS/che_to_autoselect.c:872-875): an unset weight of constants means no special weight
(`none`).  Negative values are refused on the command line (PROVER/eprover.c:1709-1713) and are not modelled. -/
def constParam (c : Nat) : Option Nat := if c = 0 then none else some c

/-- One round of the loop over the constants (HEURISTICS/che_to_weightgen.c:1448-1462); the assertion that the weight is
positive is left out, as in a release build. -/
def constStep (A : WIn) (constW : Option Nat) (force : Bool) (s : (Nat → Nat) × Nat) (i : Nat) : (Nat → Nat) × Nat :=
  if A.ar i = 0 then
    let w := match constW with
      | some c => setW s.1 i (max c 1)
      | none => s.1
    (w, if force then min s.2 (w i) else s.2)
  else s

/-- `TOGenerateWeights` (HEURISTICS/che_to_weightgen.c:1322-1471) on the weights of `OCBAlloc` (ORDERINGS/cto_ocb.c:225-231),
without weights from the user; `force` is `force_kbo_var_weight`.  The result is the ordering as the comparison sees
it: symbols created later have weight 1 (`OCBFunWeight`, ORDERINGS/cto_ocb.h:179-186). -/
def generateWeights (A : WIn) (m : WMethod) (constW : Option Nat) (force : Bool) : KOcb :=
  let w := methodWeights A m (setW (fun _ => 1) 1 1)
  let (w, w0) := A.syms.foldl (constStep A constW force) (w, methodVarWeight m constW)
  let w := setW w 1 w0
  ⟨fun f => if f ≤ A.n then w f else 1, w0, A.cmp⟩

end Verif
