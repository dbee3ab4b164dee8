import Verif.Formulas.LetLift

/-!
# The meaning of `$let`

The values of terms and formulas are in one domain `D`; a symbol is a function on lists, a quantifier a function on functions.
-/

namespace Verif.LetLift

structure Interp (D : Type) where
  fn : Nat → List D → D
  qu : Nat → (D → D) → D

variable {D : Type}

def upd1 (v : Nat → D) (n : Nat) (d : D) : Nat → D := fun m => if m = n then d else v m

/-- Parameters take the values of the arguments. -/
def updL (v : Nat → D) : List Nat → List D → Nat → D
  | x :: xs, a :: as => upd1 (updL v xs as) x a
  | _, _ => v

/-- Local symbols hide the global ones. -/
def over (I : Interp D) (fs : List (Nat × (List D → D))) : Interp D :=
  { I with fn := fun f => (fs.lookup f).getD (I.fn f) }

mutual
/-- The value of a term. -/
def val (I : Interp D) (v : Nat → D) : LT → D
  | .var n => v n
  | .app f ts => I.fn f (valL I v ts)
  | .quant q n b => I.qu q fun d => val I (upd1 v n d) b
  | .letIn hs rs b => val (over I (valF I v hs rs)) v b
def valL (I : Interp D) (v : Nat → D) : List LT → List D
  | [] => []
  | t :: ts => val I v t :: valL I v ts
/-- The functions defined by a `$let`: all right sides are evaluated outside of it. -/
def valF (I : Interp D) (v : Nat → D) (hs : List (Nat × List Nat)) : List LT → List (Nat × (List D → D))
  | [] => []
  | r :: rs =>
    match hs with
    | [] => []
    | h :: hs => (h.1, fun as => val I (updL v h.2 as) r) :: valF I v hs rs
end

/-- A global definition holds. -/
def Holds (I : Interp D) (d : Def) : Prop := ∀ v : Nat → D, I.fn d.g (d.vars.map v) = val I v d.rhs

mutual
/-- Well-formed terms: symbols have codes below `k`; variables are in scope (`S`), and no variable in scope is bound again; local symbols (`F`, with arities `ar`)
are not declared again in their scope, and are fully applied. -/
def WF (ar : Nat → Nat) (k : Nat) : List Nat → List Nat → LT → Prop
  | S, _, .var n => n ∈ S
  | S, F, .app f ts => f < k ∧ (f ∈ F → ts.length = ar f) ∧ WFL ar k S F ts
  | S, F, .quant _ n b => n ∉ S ∧ WF ar k (n :: S) F b
  | S, F, .letIn hs rs b => hs.length = rs.length ∧ (hs.map (·.1)).Nodup ∧
      (∀ h ∈ hs, h.1 ∉ F ∧ h.1 < k ∧ h.2.length = ar h.1 ∧ h.2.Nodup ∧ ∀ x ∈ h.2, x ∉ S) ∧
      WFD ar k S F hs rs ∧ WF ar k S (hs.map (·.1) ++ F) b
def WFL (ar : Nat → Nat) (k : Nat) : List Nat → List Nat → List LT → Prop
  | _, _, [] => True
  | S, F, t :: ts => WF ar k S F t ∧ WFL ar k S F ts
def WFD (ar : Nat → Nat) (k : Nat) : List Nat → List Nat → List (Nat × List Nat) → List LT → Prop
  | _, _, _, [] => True
  | _, _, [], _ :: _ => True
  | S, F, h :: hs, r :: rs => WF ar k (h.2 ++ S) F r ∧ WFD ar k S F hs rs
end

mutual
/-- No local definitions. -/
def LetFree : LT → Prop
  | .var _ => True
  | .app _ ts => LetFreeL ts
  | .quant _ _ b => LetFree b
  | .letIn _ _ _ => False
def LetFreeL : List LT → Prop
  | [] => True
  | t :: ts => LetFree t ∧ LetFreeL ts
end

end Verif.LetLift
