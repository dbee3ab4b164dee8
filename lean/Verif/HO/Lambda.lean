import Verif.HO.Lam
import Verif.Terms.Inst

/-!
# Lambda terms and their normal forms

Model of TERMS/cte_lambda.c: terms with de Bruijn variables and abstractions, shifting, beta and eta normalisation, eta expansion, conversion
from named variables.

* `app f args`: a symbol with arguments, `f` may be applied to fewer arguments than its type allows.  `papp hd args`: the cell with
  `SIG_PHONY_APP_CODE`, whose argument 0 is the head.  `lam ty b`: `SIG_DB_LAMBDA_CODE` with arguments `db 0 ty` and `b`.
* Types are curried (the code flattens them: `ArrowTypeFlattened`, TERMS/cte_simpletypes.c:429-452).
* Terms are shared, so that "unchanged" means equal (C04); rebuilding an unchanged cell gives the same term.  The property bits are functions of
  the term (TERMS/cte_termbanks.c:175-253).
* The cache of `WHNF_step` is left out (it holds the result of the same function).
-/

namespace Verif

inductive HTerm
  | fvar (x : Nat) (ty : HTy)
  | db (i : Nat) (ty : HTy)
  | lam (ty : HTy) (body : HTerm)
  | app (f : Nat) (args : List HTerm)
  | papp (hd : HTerm) (args : List HTerm)
deriving Repr

namespace HTerm

instance : Inhabited HTerm := ⟨fvar 0 (.base 0)⟩

/-- Induction over terms with the hypothesis for all arguments. -/
theorem ind {P : HTerm → Prop} (hf : ∀ x ty, P (fvar x ty)) (hd : ∀ i ty, P (db i ty)) (hl : ∀ ty b, P b → P (lam ty b))
    (ha : ∀ f as, (∀ a ∈ as, P a) → P (app f as)) (hp : ∀ h as, P h → (∀ a ∈ as, P a) → P (papp h as)) : ∀ t, P t := by
  intro t
  induction t using HTerm.rec (motive_2 := fun ts => ∀ t ∈ ts, P t) with
  | fvar x ty => exact hf x ty
  | db i ty => exact hd i ty
  | lam ty b ih => exact hl ty b ih
  | app f ts ih => exact ha f ts ih
  | papp h ts ih1 ih2 => exact hp h ts ih1 ih2
  | nil u hu => exact absurd hu (by simp)
  | cons t ts h1 h2 u hu =>
    rcases List.mem_cons.1 hu with rfl | h
    · exact h1
    · exact h2 u h

mutual
def beq : HTerm → HTerm → Bool
  | fvar x a, fvar y b => x == y && decide (a = b)
  | db i a, db j b => i == j && decide (a = b)
  | lam a s, lam b t => decide (a = b) && beq s t
  | app f ss, app g ts => f == g && beqL ss ts
  | papp s ss, papp t ts => beq s t && beqL ss ts
  | _, _ => false
def beqL : List HTerm → List HTerm → Bool
  | [], [] => true
  | t :: ts, u :: us => beq t u && beqL ts us
  | _, _ => false
end

mutual
theorem beq_iff : ∀ s t : HTerm, beq s t = true ↔ s = t
  | fvar x a, t => by cases t <;> simp [beq]
  | db i a, t => by cases t <;> simp [beq]
  | lam a s, t => by cases t <;> simp [beq, beq_iff s]
  | app f ss, t => by cases t <;> simp [beq, beqL_iff ss]
  | papp s ss, t => by cases t <;> simp [beq, beq_iff s, beqL_iff ss]
theorem beqL_iff : ∀ s t : List HTerm, beqL s t = true ↔ s = t
  | [], t => by cases t <;> simp [beqL]
  | s :: ss, t => by cases t <;> simp [beqL, beq_iff s, beqL_iff ss]
end

instance : DecidableEq HTerm := fun s t => decidable_of_iff _ (beq_iff s t)

/-- `TermIsLambda` (TERMS/cte_termtypes.h:250-252). -/
def isLam : HTerm → Bool
  | lam _ _ => true
  | _ => false

/-- `TermIsAnyVar` (TERMS/cte_termtypes.h:253). -/
def isAnyVar : HTerm → Bool
  | fvar _ _ => true
  | db _ _ => true
  | _ => false

mutual
/-- `TPHasDBSubterm` (TERMS/cte_dbvars.c:58, TERMS/cte_termbanks.c:207; the binder of an abstraction is a de Bruijn variable). -/
def hasDB : HTerm → Bool
  | fvar _ _ => false
  | db _ _ => true
  | lam _ _ => true
  | app _ as => hasDBL as
  | papp h as => hasDB h || hasDBL as
def hasDBL : List HTerm → Bool
  | [] => false
  | a :: as => hasDB a || hasDBL as
end

mutual
/-- `TPIsBetaReducible` (TERMS/cte_termbanks.c:184-187, 206). -/
def betaRed : HTerm → Bool
  | fvar _ _ => false
  | db _ _ => false
  | lam _ b => betaRed b
  | app _ as => betaRedL as
  | papp h as => h.isLam || betaRed h || betaRedL as
def betaRedL : List HTerm → Bool
  | [] => false
  | a :: as => betaRed a || betaRedL as
end

mutual
/-- `TPHasLambdaSubterm` (TERMS/cte_termbanks.c:188-191, 214). -/
def hasLam : HTerm → Bool
  | fvar _ _ => false
  | db _ _ => false
  | lam _ _ => true
  | app _ as => hasLamL as
  | papp h as => hasLam h || hasLamL as
def hasLamL : List HTerm → Bool
  | [] => false
  | a :: as => hasLam a || hasLamL as
end

/-! ## Shifting and applying -/

mutual
/-- `do_shift_db` (TERMS/cte_lambda.c:173-230). -/
def shift (s : Int) : Nat → HTerm → HTerm
  | _, fvar x ty => fvar x ty
  | d, db i ty => if d ≤ i then db ((i : Int) + s).toNat ty else db i ty
  | d, lam ty b => lam ty (shift s (d + 1) b)
  | d, app f as => if as.isEmpty || !hasDBL as then app f as else app f (shiftL s d as)
  | d, papp h as => if !(hasDB h || hasDBL as) then papp h as else papp (shift s d h) (shiftL s d as)
def shiftL (s : Int) : Nat → List HTerm → List HTerm
  | _, [] => []
  | d, a :: as => shift s d a :: shiftL s d as
end

/-- `ShiftDB` (TERMS/cte_lambda.c:1041-1054). -/
def shiftDB (t : HTerm) (s : Int) : HTerm := if s = 0 then t else shift s 0 t

/-- `FlattenApps` (TERMS/cte_lambda.c:107-126) as used by `flatten_and_make_shared` (144-159) on a cell with a phony application: only variables and
abstractions stay heads. -/
def mkApp (h : HTerm) (as : List HTerm) : HTerm :=
  match h with
  | app f bs => app f (bs ++ as)
  | papp g bs => papp g (bs ++ as)
  | h => papp h as

/-- `ApplyTerms` (TERMS/cte_lambda.h:71-101). -/
def applyTerms (h : HTerm) (as : List HTerm) : HTerm := if as.isEmpty then h else mkApp h as

/-- `CloseWithTypePrefix` (TERMS/cte_lambda.c:963-971). -/
def closeTys : List HTy → HTerm → HTerm
  | [], t => t
  | ty :: tys, t => lam ty (closeTys tys t)

/-- `UnfoldLambda` (TERMS/cte_lambda.h:118-126): the types of the binders, outermost first, and the matrix. -/
def unfoldLam : HTerm → List HTy × HTerm
  | lam ty b => let (tys, m) := unfoldLam b; (ty :: tys, m)
  | t => ([], t)

/-! ## Beta normalisation -/

mutual
/-- `replace_bound_vars` (TERMS/cte_lambda.c:249-309): `bs` are the bindings of the de Bruijn variables, from index 0.  (The code stores the binding in
the cell for index and type; in a well-typed term the type follows from the index.) -/
def replaceBound (bs : List HTerm) : Nat → HTerm → HTerm
  | _, fvar x ty => fvar x ty
  | d, db i ty =>
    if i < d then db i ty
    else if i - d < bs.length then shiftDB (bs.getD (i - d) default) d
    else db (i - bs.length) ty
  | d, lam ty b => lam ty (replaceBound bs (d + 1) b)
  | d, app f as => if as.isEmpty || !hasDBL as then app f as else app f (replaceBoundL bs d as)
  | d, papp h as =>
    if !(hasDB h || hasDBL as) then papp h as else mkApp (replaceBound bs d h) (replaceBoundL bs d as)
def replaceBoundL (bs : List HTerm) : Nat → List HTerm → List HTerm
  | _, [] => []
  | d, a :: as => replaceBound bs d a :: replaceBoundL bs d as
end

/-- The first loop of `whnf_step_uncached` (TERMS/cte_lambda.c:1114-1123): binders are paired with arguments.  Result: matrix, arguments used,
arguments that remain. -/
def peel : HTerm → List HTerm → HTerm × List HTerm × List HTerm
  | lam _ m, a :: as => let (m', bs, r) := peel m as; (m', a :: bs, r)
  | m, as => (m, [], as)

/-- `WHNF_step` with `whnf_step_uncached` (TERMS/cte_lambda.c:1104-1190).  Argument `i` of `n` is bound to index `n-i-1` (1131). -/
def whnfStep (t : HTerm) : HTerm :=
  match t with
  | papp (lam ty b) as =>
    let (m, bs, rest) := peel (lam ty b) as
    applyTerms (replaceBound bs.reverse 0 m) rest
  | t => t

/-- `do_beta_normalize_db` (TERMS/cte_lambda.c:585-648). -/
def betaNorm : Nat → HTerm → Option HTerm
  | 0, _ => none
  | n + 1, t =>
    match t with
    | papp (lam ty b) as =>
      let r := whnfStep (papp (lam ty b) as)
      if r.betaRed then betaNorm n r else some r
    | lam ty b => if !betaRed b then some (lam ty b) else (betaNorm n b).map (lam ty)
    | app f as => if !betaRedL as then some (app f as) else (mapOpt (betaNorm n) as).map (app f)
    | papp h as =>
      if !betaRed (papp h as) then some (papp h as)
      else
        match betaNorm n h, mapOpt (betaNorm n) as with
        | some h', some as' => some (papp h' as')
        | _, _ => none
    | t => some t

/-- The symbols with a special role: `eqn_code`, `qall_code`, `qex_code`, and `SigIsLogicalSymbol`. -/
structure HSig where
  ct : Nat → HTy
  eqn : Nat
  qall : Nat
  qex : Nat
  logical : Nat → Bool

/-- The `$true` term. -/
def htrue : HTerm := app 1 []

/-- `f_code` as far as it is positive and may belong to a logical symbol (for a de Bruijn variable it is the index). -/
def code : HTerm → Nat
  | app f _ => f
  | db i _ => i
  | _ => 0

/-- TERMS/cte_lambda.c:1262-1271: an equation of a formula with `$true` is replaced by the formula. -/
def unwrapEqn (sg : HSig) : HTerm → HTerm
  | app f [a, b] => if f = sg.eqn ∧ b = htrue ∧ a ≠ htrue ∧ 0 < a.code ∧ sg.logical a.code then a else app f [a, b]
  | t => t

/-- `BetaNormalizeDB` (TERMS/cte_lambda.c:1253-1276). -/
def betaNormalize (sg : HSig) (n : Nat) (t : HTerm) : Option HTerm :=
  if t.betaRed then (betaNorm n t).map (unwrapEqn sg) else some t

/-! ## Eta reduction -/

mutual
/-- `find_min_db` (TERMS/cte_lambda.c:324-357); `none` is `DB_NOT_FOUND`.  (For a term without de Bruijn variables the loop, too, finds nothing.) -/
def findMin : Nat → HTerm → Option Nat
  | _, fvar _ _ => none
  | d, db i _ => if d ≤ i then some (i - d) else none
  | d, lam _ b => findMin (d + 1) b
  | d, app _ as => findMinL d as
  | d, papp h as => minOpt (findMin d h) (findMinL d as)
def findMinL : Nat → List HTerm → Option Nat
  | _, [] => none
  | d, a :: as => minOpt (findMin d a) (findMinL d as)
/-- The smaller of two results. -/
def minOpt : Option Nat → Option Nat → Option Nat
  | none, r => r
  | some a, none => some a
  | some a, some b => some (min a b)
end

/-- The loop at TERMS/cte_lambda.c:386-395 over the arguments from the last one: the number of arguments that are the de Bruijn variables 0, 1, …;
`lim` is the length of the loop, `e` the expected index. -/
def trail (lim : Nat) : Nat → List HTerm → Nat
  | e, db i _ :: as => if e < lim ∧ i = e then trail lim (e + 1) as else e
  | e, _ => e

/-- The arguments of a cell (`t->args`; argument 0 of a phony application is the head). -/
def cellArgs : HTerm → List HTerm
  | app _ as => as
  | papp h as => h :: as
  | _ => []

/-- `drop_args` (TERMS/cte_lambda.c:59-93). -/
def dropArgs (t : HTerm) (k : Nat) : HTerm :=
  match t with
  | app f as => app f (as.take (as.length - k))
  | papp h as => if k = as.length then h else papp h (as.take (as.length - k))
  | t => t

/-- The number of arguments and binders dropped by `reduce_eta_top_level` (TERMS/cte_lambda.c:382-421) for a matrix below `n` binders; 0 if there
is nothing to do.  `args[last_db]->f_code + 1` (419) is the length of the trail. -/
def etaDrop (n : Nat) (m : HTerm) : Nat :=
  let args := m.cellArgs
  let lo := match m with | papp _ _ => 1 | _ => 0
  let k := trail (min n (args.length - lo)) 0 args.reverse
  if k = 0 then 0
  else
    match findMinL 0 (args.take (args.length - k)) with
    | none => k
    | some i => min i k

/-- `reduce_eta_top_level` (TERMS/cte_lambda.c:371-440). -/
def etaTop (t : HTerm) : HTerm :=
  let (tys, m) := unfoldLam t
  let k := etaDrop tys.length m
  if k = 0 then t else closeTys (tys.take (tys.length - k)) (shiftDB (dropArgs m k) (-(k : Int)))

/-! ## Eta expansion -/

/-- Number of arguments (`TypeGetMaxArity`, TERMS/cte_simpletypes.c:384-387). -/
def tyArity : HTy → Nat
  | .base _ => 0
  | .arr _ b => tyArity b + 1

/-- Types of the arguments. -/
def tyArgs : HTy → List HTy
  | .base _ => []
  | .arr a b => a :: tyArgs b

/-- The type after application to `n` arguments. -/
def tyDrop : Nat → HTy → HTy
  | n + 1, .arr _ b => tyDrop n b
  | _, ty => ty

/-- The type in the cell (`TypeInferSort`). -/
def tyOf (ct : Nat → HTy) : HTerm → HTy
  | fvar _ ty => ty
  | db _ ty => ty
  | lam ty b => .arr ty (tyOf ct b)
  | app f as => tyDrop as.length (ct f)
  | papp h as => tyDrop as.length (tyOf ct h)

/-- `TypeIsArrow`. -/
def isArrow : HTy → Bool
  | .arr _ _ => true
  | .base _ => false

/-- The first loop of `LambdaEtaExpandDBTopLevel` (TERMS/cte_lambda.c:1395-1401): the new variables, those of functional type expanded
(`do_eta_expand_db` on a variable calls `LambdaEtaExpandDBTopLevel`). -/
def expArgs : HTy → List HTerm
  | .base _ => []
  | .arr a b =>
    (match a with
      | .base k => db (tyArity b) (.base k)
      | .arr a1 a2 =>
        closeTys (tyArgs (.arr a1 a2)) (papp (db (tyArity b + tyArity (.arr a1 a2)) (.arr a1 a2)) (expArgs (.arr a1 a2)))) :: expArgs b

/-- `LambdaEtaExpandDBTopLevel` (TERMS/cte_lambda.c:1389-1412). -/
def etaExpTop (ct : Nat → HTy) (t : HTerm) : HTerm :=
  if isArrow (tyOf ct t) && !t.isLam then
    closeTys (tyArgs (tyOf ct t)) (applyTerms (shiftDB t (tyArity (tyOf ct t))) (expArgs (tyOf ct t)))
  else t

mutual
/-- `TPHasEtaExpandableSubterm` (TERMS/cte_termbanks.c:192-195, 215-218, TERMS/cte_dbvars.c:59, TERMS/cte_termvars.c:489-492): heads of phony
applications and binders do not count. -/
def etaExp (ct : Nat → HTy) : HTerm → Bool
  | fvar _ ty => isArrow ty
  | db _ ty => isArrow ty
  | lam _ b => etaExp ct b
  | app f as => isArrow (tyOf ct (app f as)) || etaExpL ct as
  | papp h as => isArrow (tyOf ct (papp h as)) || etaExpL ct as
def etaExpL (ct : Nat → HTy) : List HTerm → Bool
  | [] => false
  | a :: as => etaExp ct a || etaExpL ct as
end

mutual
/-- `do_eta_expand_db` (TERMS/cte_lambda.c:454-501). -/
def doEtaExpand (ct : Nat → HTy) : HTerm → HTerm
  | fvar x ty => etaExpTop ct (fvar x ty)
  | db i ty => etaExpTop ct (db i ty)
  | lam ty b => if etaExp ct b then lam ty (doEtaExpand ct b) else lam ty b
  | app f as => etaExpTop ct (if !etaExp ct (app f as) then app f as else app f (doEtaExpandL ct as))
  | papp h as => etaExpTop ct (if !etaExp ct (papp h as) then papp h as else papp h (doEtaExpandL ct as))
def doEtaExpandL (ct : Nat → HTy) : List HTerm → List HTerm
  | [] => []
  | a :: as => doEtaExpand ct a :: doEtaExpandL ct as
end

/-- `LambdaEtaExpandDB` (TERMS/cte_lambda.c:1456-1466). -/
def etaExpand (ct : Nat → HTy) (t : HTerm) : HTerm := if etaExp ct t then doEtaExpand ct t else t

/-- TERMS/cte_lambda.c:560-568: the argument of a quantifier is kept an abstraction. -/
def quantFix (sg : HSig) : HTerm → HTerm
  | app f [a] => if (f = sg.qall ∨ f = sg.qex) ∧ a.isLam = false then app f [etaExpTop sg.ct a] else app f [a]
  | t => t

mutual
/-- `do_eta_reduce_db` (TERMS/cte_lambda.c:517-571).  `inner`: the term is below binders that are unfolded together, so that nothing is reduced at the
top if it is an abstraction itself. -/
def doEtaReduce (sg : HSig) : Bool → HTerm → HTerm
  | _, fvar x ty => fvar x ty
  | _, db i ty => db i ty
  | inner, lam ty b =>
    let r := lam ty (doEtaReduce sg true b)
    if inner then r else quantFix sg (etaTop r)
  | _, app f as => quantFix sg (if as.isEmpty || !hasLamL as then app f as else app f (doEtaReduceL sg as))
  | _, papp h as =>
    quantFix sg (if !hasLam (papp h as) then papp h as else mkApp (doEtaReduce sg false h) (doEtaReduceL sg as))
def doEtaReduceL (sg : HSig) : List HTerm → List HTerm
  | [] => []
  | a :: as => doEtaReduce sg false a :: doEtaReduceL sg as
end

/-- `LambdaEtaReduceDB` (TERMS/cte_lambda.c:1427-1442). -/
def etaReduce (sg : HSig) (t : HTerm) : HTerm := if t.hasLam then doEtaReduce sg false t else t

/-- `LambdaNormalizeDB` (TERMS/cte_lambda.c:1480-1486); `expand` tells which function `SetEtaNormalizer` has installed. -/
def lambdaNormalize (sg : HSig) (expand : Bool) (n : Nat) (t : HTerm) : Option HTerm :=
  (betaNormalize sg n t).map fun r => if expand then etaExpand sg.ct r else etaReduce sg r

end HTerm
end Verif
