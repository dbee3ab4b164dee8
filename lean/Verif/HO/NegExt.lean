import Verif.HO.HoInfer

/-!
# Negative extensionality
-/

namespace Verif
namespace HoInf

/-- The inner loop of `ComputeNegExt` (CONTROL/cco_ho_inferences.c:1664-1692): Skolem terms over the variables `vs` of the literal are applied to both
sides; `SigGetNewTypedSkolem` gives the symbols `n`, `n + 1`, .... -/
def negExtLit (rest : List HLit) (vs : List (Nat × HTy)) : Nat → HTm → HTm → List HTy → List (List HLit)
  | _, _, _, [] => []
  | n, l, r, _ :: τs =>
    let s := HTm.fn n (vs.map fun p => .var p.1 p.2)
    let l' := applyArg l s
    let r' := applyArg r s
    (⟨false, l', some r'⟩ :: rest) :: negExtLit rest vs (n + 1) l' r' τs

/-- `ComputeNegExt` (CONTROL/cco_ho_inferences.c:1637-1701); `vars` gives the variables of a literal in the order of `PTreeToPStack`, `ty` the type of a
term, `sel` is the test of the literal.  Literals without equality sign have no missing arguments. -/
def negExt (ty : HTm → HTy) (sel : HLit → Bool) (vars : HLit → List (Nat × HTy)) : Nat → List HLit → List HLit → List (List HLit)
  | _, _, [] => []
  | n, pre, c :: cs =>
    match c.r with
    | some r =>
      if !c.pos && sel c then
        negExtLit (pre ++ cs) (vars c) n c.l r (ty c.l).args ++ negExt ty sel vars (n + (ty c.l).args.length) (pre ++ [c]) cs
      else negExt ty sel vars n (pre ++ [c]) cs
    | none => negExt ty sel vars n (pre ++ [c]) cs

end HoInf
end Verif
