import Verif.Orderings.Spec

/-!
# The precedence in the ordering control block

Model of the precedence functions of ORDERINGS/cto_ocb.c and cto_ocb.h.

`n` is `sig_size`, `dist f` says whether a distinctness property is set for `f`; symbols are positive numbers and
`$true` has code 1 (TERMS/cte_signature.h:191).
-/

namespace Verif

/-- The mutable part of the OCB: the precedence matrix and the stack of changed pairs (newest first; the C stack holds
two integers for each pair). -/
structure PrecSt where
  mat : Nat → Nat → Cmp
  stack : List (Nat × Nat)

namespace PrecSt

/-- `OCBAlloc` (ORDERINGS/cto_ocb.c:184, 233-243). -/
def init : PrecSt := ⟨fun i j => if i = j then .equal else .uncomparable, []⟩

/-- `OCBPrecedenceGetState` (ORDERINGS/cto_ocb.h:124): the stack pointer. -/
def sp (st : PrecSt) : Nat := 2 * st.stack.length

end PrecSt

/-- Two assignments `*OCBFunComparePos(f,g) = r; *OCBFunComparePos(g,f) = r'` (ORDERINGS/cto_ocb.c:437-438, 457-458,
489-491). -/
def setPair (M : Nat → Nat → Cmp) (f g : Nat) (r r' : Cmp) : Nat → Nat → Cmp :=
  fun a b => if a = g ∧ b = f then r' else if a = f ∧ b = g then r else M a b

/-- `OCBFunCompareMatrix` (ORDERINGS/cto_ocb.c:649-668). -/
def funCmpMatrix (n : Nat) (M : Nat → Nat → Cmp) (f g : Nat) : Cmp :=
  if f ≤ n then (if g ≤ n then M f g else .greater)
  else if g ≤ n then .lesser
  else qToPart ((g : Int) - f)

/-- The part of `OCBFunCompare` before the precedence is consulted (ORDERINGS/cto_ocb.h:233-251). -/
def funCmpBase (dist : Nat → Bool) (f g : Nat) (k : Cmp) : Cmp :=
  if f = g then .equal
  else if f = 1 then .lesser
  else if g = 1 then .greater
  else if dist g = true ∧ dist f = false then .greater
  else if dist g = false ∧ dist f = true then .lesser
  else k

/-- `OCBFunCompare` (ORDERINGS/cto_ocb.h:227-260) when the precedence is a matrix. -/
def funCmp (n : Nat) (dist : Nat → Bool) (M : Nat → Nat → Cmp) (f g : Nat) : Cmp :=
  funCmpBase dist f g (funCmpMatrix n M f g)

/-- `OCBFunCompare` (ORDERINGS/cto_ocb.h:253-258) when the precedence is given by weights. -/
def funCmpW (n : Nat) (dist : Nat → Bool) (pw : Nat → Int) (f g : Nat) : Cmp :=
  funCmpBase dist f g
    (qToPart ((if f ≤ n then pw f else -(f : Int)) - (if g ≤ n then pw g else -(g : Int))))

/-- The relation implied by two adjacent ones, as in the `switch` of `ocb_trans_compute`
(ORDERINGS/cto_ocb.c:94-119). -/
def transRel (r12 r23 : Cmp) : Option Cmp :=
  match r12 with
  | .equal => if r23 ≠ .uncomparable then some r23 else none
  | .greater => if r23 = .equal ∨ r23 = .greater then some .greater else none
  | .lesser => if r23 = .equal ∨ r23 = .lesser then some .lesser else none
  | _ => none

section
variable (n : Nat) (dist : Nat → Bool)

/-- `ocb_trans_compute` (ORDERINGS/cto_ocb.c:86-121); `add` is `OCBPrecedenceAddTuple`, whose result is converted to
`bool`. -/
def transCompute (add : PrecSt → Nat → Nat → Cmp → Option (Nat × PrecSt)) (st : PrecSt) (f1 f2 f3 : Nat) :
    Option (Bool × PrecSt) :=
  match transRel (funCmp n dist st.mat f1 f2) (funCmp n dist st.mat f2 f3) with
  | none => some (true, st)
  | some r => (add st f1 f3 r).map fun p => (decide (p.1 ≠ 0), p.2)

/-- The loop over all symbols (ORDERINGS/cto_ocb.c:440-452). -/
def transLoop (add : PrecSt → Nat → Nat → Cmp → Option (Nat × PrecSt)) (f1 f2 : Nat) : List Nat → PrecSt → Option (Bool × PrecSt)
  | [], st => some (true, st)
  | i :: is, st =>
    match transCompute n dist add st f1 f2 i with
    | none => none
    | some (false, st) => some (false, st)
    | some (true, st) =>
      match transCompute n dist add st i f1 f2 with
      | none => none
      | some (false, st) => some (false, st)
      | some (true, st) => transLoop add f1 f2 is st

/-- `OCBPrecedenceAddTuple` (ORDERINGS/cto_ocb.c:411-462); `none`: out of fuel.  The variable `res` holds the truth
value 1 after a successful loop. -/
def addTuple : Nat → PrecSt → Nat → Nat → Cmp → Option (Nat × PrecSt)
  | 0, _, _, _, _ => none
  | k + 1, st, f1, f2, r =>
    if funCmp n dist st.mat f1 f2 = r then some (st.sp, st)
    else if funCmp n dist st.mat f1 f2 ≠ .uncomparable then some (0, st)
    else
      match transLoop n dist (addTuple k) f1 f2 (List.range' 1 n) ⟨setPair st.mat f1 f2 r r.inv, (f1, f2) :: st.stack⟩ with
      | none => none
      | some (true, st) => some (1, st)
      | some (false, st) =>
        match st.stack with
        | [] => some (0, st)
        | (a, b) :: stk => some (0, ⟨setPair st.mat a b .uncomparable .uncomparable, stk⟩)

end

/-- `OCBPrecedenceBacktrack` (ORDERINGS/cto_ocb.c:477-494); `none`: pop from an empty stack. -/
def precBacktrack (state : Nat) : (Nat → Nat → Cmp) → List (Nat × Nat) → Option PrecSt
  | M, [] => if state = 0 then some ⟨M, []⟩ else none
  | M, (f, g) :: stk =>
    if state = 2 * (stk.length + 1) then some ⟨M, (f, g) :: stk⟩
    else precBacktrack state (setPair M f g .uncomparable .uncomparable) stk

/-- `compute_precedence_from_array` (HEURISTICS/che_to_precgen.c:94-107) when the precedence is given by weights: the
symbol at position `i` of the sorted array, `i` from 2 on, gets weight `i` (`arr` lists positions 2 to `sig_size`).  The
choice of minimal constants is left out. -/
def precWeights (arr : List Nat) : Nat → Int :=
  let pw := (arr.zipIdx 2).foldl (fun pw p => fun f => if f = p.1 then (p.2 : Int) else pw f) fun _ => 0
  fun f => if f = 1 then -4611686018427387904 else pw f

/-- `compute_precedence_from_array` (HEURISTICS/che_to_precgen.c:108-116) when the precedence is a matrix; `k` is the fuel
of `addTuple`.  Results of the calls are ignored, as in the code. -/
def precChain (n : Nat) (dist : Nat → Bool) (k : Nat) : Nat → List Nat → PrecSt → Option PrecSt
  | _, [], st => some st
  | last, f :: arr, st =>
    match addTuple n dist k st last f .lesser with
    | none => none
    | some (_, st) => precChain n dist k f arr st

end Verif
