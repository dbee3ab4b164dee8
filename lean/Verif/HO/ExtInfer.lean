import Verif.HO.HoInferSpec

/-!
# Abstracting inferences: superposition, equality resolution and equality factoring up to extensional subterms

Terms as in HO/HoInfer.  The terms are shared in E, so that pointers are equal iff the terms are (C04); here terms are compared.  Polymorphic symbols and
abstractions are not modelled.
-/

namespace Verif
namespace HoInf

/- Equality of (shared) terms. -/
mutual
def tEq : HTm → HTm → Bool
  | .var x τ, .var y σ => x == y && decide (τ = σ)
  | .fn f as, .fn g bs => f == g && tEqL as bs
  | .papp as, .papp bs => tEqL as bs
  | _, _ => false
def tEqL : List HTm → List HTm → Bool
  | [], [] => true
  | a :: as, b :: bs => tEq a b && tEqL as bs
  | _, _ => false
end

/- The loop of `find_disagreements` (CONTROL/cco_ho_inferences.c:955-990): pairs of different subterms below equal symbols.  The stack of tasks handles the
last arguments first. -/
mutual
def disagree : HTm → HTm → List (HTm × HTm)
  | .fn f as, .fn g bs =>
    if tEq (.fn f as) (.fn g bs) then []
    else if f = g then disagreeL as bs else [(.fn f as, .fn g bs)]
  | t, s => if tEq t s then [] else [(t, s)]
def disagreeL : List HTm → List HTm → List (HTm × HTm)
  | a :: as, b :: bs => disagreeL as bs ++ disagree a b
  | _, _ => []
end

/-- `TYPE_EXT_ELIGIBLE` (CLAUSES/ccl_ext_index.h:32). -/
def extElig : HTy → Bool
  | .base n => n == 0
  | .arr _ _ => true

/-- `TermIsFreeVar`. -/
def isFreeVar : HTm → Bool
  | .var _ _ => true
  | _ => false

/-- `find_disagreements` (CONTROL/cco_ho_inferences.c:941-1000); `ty` is the stored type. -/
def findDisagreements (ty : HTm → HTy) (t s : HTm) : Option (List (HTm × HTm)) :=
  if ty t ≠ ty s ∨ tEq t s = true then none
  else if (disagree t s).any (fun p => extElig (ty p.2) && !isFreeVar p.2 && !isFreeVar p.1) then some (disagree t s) else none

/-- Literals with both sides; `$true` is the constant `SIG_TRUE_CODE`. -/
structure XLit where
  pos : Bool
  l : HTm
  r : HTm

/-- The side of a position, and the other side. -/
def XLit.side (c : XLit) (left : Bool) : HTm := if left then c.l else c.r

def XLit.other (c : XLit) (left : Bool) : HTm := if left then c.r else c.l

/-- The new conditions; they come out of the stack in reverse and are inserted first. -/
def conditions (ds : List (HTm × HTm)) : List XLit := ds.map fun p => ⟨false, p.2, p.1⟩

/-- `EqnListRemoveResolved` (CLAUSES/ccl_eqnlist.c:871-888), for negative literals with equal sides. -/
def removeResolved (cl : List XLit) : List XLit := cl.filter fun c => c.pos || !tEq c.l c.r

/-- `do_ext_eqres` (CONTROL/cco_ho_inferences.c:1107-1132), for the literal between `pre` and `suf`; `EqnListRemoveDuplicates` is left out. -/
def extEqRes (ty : HTm → HTy) (pre : List XLit) (c : XLit) (suf : List XLit) : Option (List XLit) :=
  (findDisagreements ty c.l c.r).map fun ds => removeResolved (conditions ds ++ (pre ++ suf))

/-- The literals handled by `ComputeExtEqRes` (CONTROL/cco_ho_inferences.c:1904-1922), with the other tests in `sel`. -/
def computeExtEqRes (ty : HTm → HTy) (sel : XLit → Bool) (pre : List XLit) : List XLit → List (List XLit)
  | [] => []
  | c :: cs => (if !c.pos && sel c then (extEqRes ty pre c cs).toList else []) ++ computeExtEqRes ty sel (pre ++ [c]) cs

/-- `do_ext_eq_fact` (CONTROL/cco_ho_inferences.c:1052-1092): `rest` are the literals other than `main`, `partner` is one of them. -/
def extEqFact (ty : HTm → HTy) (main : XLit) (ms : Bool) (partner : XLit) (ps : Bool) (rest : List XLit) : Option (List XLit) :=
  (findDisagreements ty (main.side ms) (partner.side ps)).map fun ds =>
    removeResolved (conditions ds ++ ⟨false, main.other ms, partner.other ps⟩ :: rest)

/-- `TermHasExtEligSubterm` as a parameter `elig`; the sides of a literal found by `advance_eq_fact_pos` (CONTROL/cco_ho_inferences.c:1011-1033): the right
side is only found after the left one. -/
def factSides (elig : HTm → Bool) (c : XLit) : List Bool :=
  if c.pos then (if elig c.l then (if elig c.r then [true, false] else [true]) else []) else []

/-- The partners of a position of `ComputeExtEqFact` (CONTROL/cco_ho_inferences.c:1948-1953). -/
def factPartners (elig : HTm → Bool) (cs : List XLit) : List (XLit × Bool) := cs.flatMap fun c => (factSides elig c).map fun s => (c, s)

/-- `ComputeExtEqFact` (CONTROL/cco_ho_inferences.c:1936-1957). -/
def computeExtEqFact (ty : HTm → HTy) (elig : HTm → Bool) (pre : List XLit) : List XLit → List (List XLit)
  | [] => []
  | c :: cs =>
    ((factSides elig c).flatMap fun s => (factPartners elig cs).flatMap fun p => (extEqFact ty c s p.1 p.2 (pre ++ cs)).toList) ++
      computeExtEqFact ty elig (pre ++ [c]) cs

/-- The subterm at a position. -/
def subAt : HTm → List Nat → Option HTm
  | t, [] => some t
  | t, i :: p => match t.args[i]? with
    | some a => subAt a p
    | none => none

/-- `TBTermPosReplace`. -/
def replaceAt : HTm → List Nat → HTm → HTm
  | _, [], u => u
  | t, i :: p, u => match t.args[i]? with
    | some a => (match t with
      | .var x τ => .var x τ
      | .fn f as => .fn f (as.set i (replaceAt a p u))
      | .papp as => .papp (as.set i (replaceAt a p u)))
    | none => t

/-- `do_ext_sup` (CONTROL/cco_ho_inferences.c:1146-1213): `fl` with side `fs` is the literal of the first clause, with other literals `fr`; `il`, `is`, `p` the
position in the second.  The renaming of variables (C06) and the test which avoids doing an inference twice are left out. -/
def extSup (ty : HTm → HTy) (fl : XLit) (fs : Bool) (fr : List XLit) (il : XLit) (is : Bool) (p : List Nat) (ir : List XLit) : Option (List XLit) :=
  if fl.pos then
    match subAt (il.side is) p with
    | some u =>
      (findDisagreements ty (fl.side fs) u).map fun ds =>
        removeResolved (conditions ds ++ (ir ++ (fr ++ [⟨il.pos, replaceAt (il.side is) p (fl.other fs), il.other is⟩])))
    | none => none
  else none

end HoInf
end Verif
