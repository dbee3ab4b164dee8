/-!
# Higher-order inferences: argument congruence, extensionality, flex clauses

Terms without abstractions: `EqnListLambdaNormalize`, which is applied to the results, keeps the meaning (C63, C64).  Types are curried here; E flattens
them (C85).
-/

namespace Verif
namespace HoInf

inductive HTy where
  | base (n : Nat)
  | arr (a b : HTy)
deriving DecidableEq

/-- The argument types, `type->args` without the result. -/
def HTy.args : HTy → List HTy
  | .base _ => []
  | .arr a b => a :: b.args

/-- The type of the result. -/
def HTy.target : HTy → Nat
  | .base n => n
  | .arr _ b => b.target

/-- Term cells: free variables with their type, applied symbols, and `SIG_PHONY_APP_CODE` with the head as first argument. -/
inductive HTm where
  | var (x : Nat) (τ : HTy)
  | fn (f : Nat) (as : List HTm)
  | papp (as : List HTm)

/-- Literals; `none` is `$true` on the right-hand side (`EqnIsEquLit` is false). -/
structure HLit where
  pos : Bool
  l : HTm
  r : Option HTm

/-- `term->args`. -/
def HTm.args : HTm → List HTm
  | .var _ _ => []
  | .fn _ as => as
  | .papp as => as

/-- `TermApplyArg` (TERMS/cte_termfunc.c:3387-3412). -/
def applyArg : HTm → HTm → HTm
  | .fn f as, a => .fn f (as ++ [a])
  | .papp as, a => .papp (as ++ [a])
  | .var x τ, a => .papp [.var x τ, a]

/-- `term_drop_last_arg` (CONTROL/cco_ho_inferences.c:1542-1580). -/
def dropLastArg : HTm → HTm
  | .papp [h, _] => h
  | .papp as => .papp as.dropLast
  | .fn f as => .fn f as.dropLast
  | .var x τ => .var x τ

/- `TermHasFCode` for a variable. -/
mutual
def hasVar (x : Nat) (τ : HTy) : HTm → Bool
  | .var y σ => y == x && decide (σ = τ)
  | .fn _ as => hasVarL x τ as
  | .papp as => hasVarL x τ as
def hasVarL (x : Nat) (τ : HTy) : List HTm → Bool
  | [] => false
  | t :: ts => hasVar x τ t || hasVarL x τ ts
end

def litHasVar (x : Nat) (τ : HTy) (l : HLit) : Bool := hasVar x τ l.l || match l.r with
  | some r => hasVar x τ r
  | none => false

/-- The inner loop of `ComputeArgCong` (CONTROL/cco_ho_inferences.c:1736-1755), with the types of the arguments still to come; fresh variables are
numbered from `n`. -/
def argCongLit (rest : List HLit) : Nat → HTm → HTm → List HTy → List (List HLit)
  | _, _, _, [] => []
  | n, l, r, τ :: τs =>
    let l' := applyArg l (.var n τ)
    let r' := applyArg r (.var n τ)
    (⟨true, l', some r'⟩ :: rest) :: argCongLit rest (n + 1) l' r' τs

/-- `ComputeArgCong` (CONTROL/cco_ho_inferences.c:1721-1758); `ty` is the type of a term, `sel` the test of the literal, `pre` the literals before. -/
def argCong (ty : HTm → HTy) (sel : HLit → Bool) (n : Nat) (pre : List HLit) : List HLit → List (List HLit)
  | [] => []
  | c :: cs =>
    (match c.r with
      | some r => if c.pos && sel c then argCongLit (pre ++ cs) n c.l r (ty c.l).args else []
      | none => []) ++ argCong ty sel n (pre ++ [c]) cs

/-- The loop of `ComputePosExt` (CONTROL/cco_ho_inferences.c:1792-1844), at most `n` times. -/
def posExtLit (rest : List HLit) : Nat → HTm → HTm → List (List HLit)
  | 0, _, _ => []
  | n + 1, l, r =>
    match l.args.getLast?, r.args.getLast? with
    | some (.var x τ), some (.var y σ) =>
      if x = y ∧ τ = σ then
        if hasVarL x τ l.args.dropLast || hasVarL x τ r.args.dropLast || rest.any (litHasVar x τ) then []
        else
          let l' := dropLastArg l
          let r' := dropLastArg r
          (⟨true, l', some r'⟩ :: rest) :: posExtLit rest n l' r'
      else []
    | _, _ => []

/-- `ComputePosExt` (CONTROL/cco_ho_inferences.c:1780-1847). -/
def posExt (sel : HLit → Bool) (pre : List HLit) : List HLit → List (List HLit)
  | [] => []
  | c :: cs =>
    (match c.r with
      | some r => if c.pos && sel c then posExtLit (pre ++ cs) (c.l.args.length + 1) c.l r else []
      | none => []) ++ posExt sel (pre ++ [c]) cs

/-- `TermIsTopLevelFreeVar`, with the variable. -/
def topVar : HTm → Option (Nat × HTy)
  | .var x τ => some (x, τ)
  | .papp (.var x τ :: _) => some (x, τ)
  | _ => none

/-- `ids_to_sign`. -/
abbrev Signs := List ((Nat × HTy) × Int)

def signOf (m : Signs) (k : Nat × HTy) : Option Int := (m.find? (·.1 == k)).map (·.2)

/-- The loop of `ResolveFlexClause` (CONTROL/cco_ho_inferences.c:2327-2372); `none`: not resolvable. -/
def flexLoop (m : Signs) : List HLit → Option Signs
  | [] => some m
  | c :: cs =>
    match c.r with
    | some r =>
      if c.pos then none
      else
        match topVar c.l, topVar r with
        | some k, some k' =>
          if k.2.target = 0 then
            if (signOf m k).isSome || (signOf m k').isSome then none
            else flexLoop ((k', -1) :: (k, -1) :: m) cs
          else flexLoop m cs
        | _, _ => none
    | none =>
      match topVar c.l with
      | some k =>
        match signOf m k with
        | none => flexLoop ((k, if c.pos then 1 else 0) :: m) cs
        | some s => if s = (if c.pos then 1 else 0) then flexLoop m cs else none
      | none => none

/-- `ResolveFlexClause` (CONTROL/cco_ho_inferences.c:2321-2384). -/
def resolveFlex (cl : List HLit) : Bool := (flexLoop [] cl).isSome

end HoInf
end Verif
