import Verif.Terms.Term

/-!
# Specification vocabulary for binding states
-/

namespace Verif

/-- The bindings are finite, acyclic and type-respecting. -/
structure GoodBindings (sg : Sig) (b : Nat → Option Term) : Prop where
  finite : ∃ L : List Nat, ∀ x, b x ≠ none → x ∈ L
  acyclic : ∃ rank : Nat → Nat, ∀ x u, b x = some u → ∀ y ∈ u.vars, rank y < rank x
  typed : ∀ x u, b x = some u → sg.ty u = sg.vty x

/-- `σ` applies the bindings exhaustively. -/
structure FullInst (b : Nat → Option Term) (σ : Nat → Term) : Prop where
  bound : ∀ x u, b x = some u → σ x = u.subst σ
  free : ∀ x, b x = none → σ x = .var x

mutual
/-- Replace all occurrences of `old` (outermost first). -/
def replaceAll (old repl : Term) : Term → Term
  | .var x => if Term.var x = old then repl else .var x
  | .app f ts => if Term.app f ts = old then repl else .app f (replaceAllL old repl ts)
def replaceAllL (old repl : Term) : List Term → List Term
  | [] => []
  | t :: ts => replaceAll old repl t :: replaceAllL old repl ts
end

/-- The subterm at a path of argument indices. -/
def subtermAt : Term → List Nat → Option Term
  | t, [] => some t
  | .var _, _ :: _ => none
  | .app _ ts, i :: p =>
    match ts[i]? with
    | none => none
    | some u => subtermAt u p

/-- Replace the subterm at a path. -/
def replaceAt : Term → List Nat → Term → Term
  | _, [], r => r
  | .var x, _ :: _, _ => .var x
  | .app f ts, i :: p, r =>
    match ts[i]? with
    | none => .app f ts
    | some u => .app f (ts.set i (replaceAt u p r))

/-- `t'` is `t` with some (non-overlapping) occurrences of `old` replaced by `repl`. -/
inductive PartialRepl (old repl : Term) : Term → Term → Prop
  | same (t) : PartialRepl old repl t t
  | here : PartialRepl old repl old repl
  | args (f) {ts us} : List.Forall₂ (PartialRepl old repl) ts us →
      PartialRepl old repl (.app f ts) (.app f us)

end Verif
