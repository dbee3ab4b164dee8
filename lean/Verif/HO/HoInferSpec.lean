import Verif.HO.HoInfer

/-!
# Models of higher-order clauses
-/

namespace Verif
namespace HoInf

/-- The type of a term of type `τ` applied to arguments of the given types. -/
def tyApp : HTy → List HTy → Option HTy
  | t, [] => some t
  | .arr a b, c :: cs => if a = c then tyApp b cs else none
  | .base _, _ :: _ => none

/-- The type of an application, which has at least one argument. -/
def tyApp1 (t : HTy) (ss : List HTy) : Option HTy := if ss.isEmpty then none else tyApp t ss

/- The type of a term; `G` gives the types of the symbols. -/
mutual
def tyOf (G : Nat → HTy) : HTm → Option HTy
  | .var _ τ => some τ
  | .fn f as => (tysOf G as).bind (tyApp (G f))
  | .papp [] => none
  | .papp (h :: as) => (tyOf G h).bind fun t => (tysOf G as).bind (tyApp1 t)
def tysOf (G : Nat → HTy) : List HTm → Option (List HTy)
  | [] => some []
  | t :: ts => (tyOf G t).bind fun τ => (tysOf G ts).map (τ :: ·)
end

/-- A literal with sides of one type; without an equality sign it is a formula. -/
def LitTyped (G : Nat → HTy) (c : HLit) : Prop := match c.r with
  | some r => ∃ τ, tyOf G c.l = some τ ∧ tyOf G r = some τ
  | none => tyOf G c.l = some (.base 0)

/-- Extensional models: elements of the types (`mem`), application, symbols; the base type 0 is that of the truth values. -/
structure HInt (G : Nat → HTy) where
  D : Type
  mem : HTy → D → Prop
  app : D → D → D
  I : Nat → D
  tt : D
  ff : D
  I_mem : ∀ f, mem (G f) (I f)
  app_mem : ∀ {a b f x}, mem (.arr a b) f → mem a x → mem b (app f x)
  bool_mem : ∀ d, mem (.base 0) d ↔ d = tt ∨ d = ff
  tt_ne_ff : tt ≠ ff
  inhabited : ∀ n, ∃ d, mem (.base n) d
  ext : ∀ {a b f g}, mem (.arr a b) f → mem (.arr a b) g → (∀ x, mem a x → app f x = app g x) → f = g

variable {G : Nat → HTy}

/-- All constant functions exist (as they do in every Henkin model). -/
def HInt.Constants (M : HInt G) : Prop := ∀ {a b c}, M.mem b c → ∃ f, M.mem (.arr a b) f ∧ ∀ x, M.mem a x → M.app f x = c

def HInt.apps (M : HInt G) (d : M.D) (ds : List M.D) : M.D := ds.foldl M.app d

abbrev HInt.Val (M : HInt G) := Nat → HTy → M.D

def HInt.Typed (M : HInt G) (v : M.Val) : Prop := ∀ x τ, M.mem τ (v x τ)

/- The value of a term. -/
mutual
def HInt.val (M : HInt G) (v : M.Val) : HTm → M.D
  | .var x τ => v x τ
  | .fn f as => M.apps (M.I f) (M.vals v as)
  | .papp [] => M.tt
  | .papp (h :: as) => M.apps (M.val v h) (M.vals v as)
def HInt.vals (M : HInt G) (v : M.Val) : List HTm → List M.D
  | [] => []
  | t :: ts => M.val v t :: M.vals v ts
end

def HInt.LitTrue (M : HInt G) (v : M.Val) (c : HLit) : Prop :=
  let e := M.val v c.l = (match c.r with | some r => M.val v r | none => M.tt)
  if c.pos then e else ¬ e

/-- The clause holds in the model. -/
def HInt.Holds (M : HInt G) (cl : List HLit) : Prop := ∀ v, M.Typed v → ∃ c ∈ cl, M.LitTrue v c

end HoInf
end Verif
