import Verif.Terms.Term

/-!
# Textbook term orderings

Independent specification used for C08-C16: results of comparisons, precedences, the
Knuth-Bendix ordering and the lexicographic path ordering.
-/

namespace Verif

/-- `CompareResult` (BASICS/clb_partial_orderings.h:37-46). -/
inductive Cmp
  | unknown | uncomparable | equal | greater | lesser | notgteq | notleeq
deriving DecidableEq, Repr

/-- `POInverseRelation` (BASICS/clb_partial_orderings.h:90-116); the C asserts that the argument is not
`to_unknown`. -/
def Cmp.inv : Cmp → Cmp
  | .greater => .lesser
  | .lesser => .greater
  | .notgteq => .notleeq
  | .notleeq => .notgteq
  | c => c

/-- `Q_TO_PART` (BASICS/clb_partial_orderings.h:63-64). -/
def qToPart (x : Int) : Cmp := if x < 0 then .lesser else if x > 0 then .greater else .equal

mutual
/-- Every symbol `f` has `ar f` arguments. -/
def Term.HasAr (ar : Nat → Nat) : Term → Prop
  | .var _ => True
  | .app f ts => ts.length = ar f ∧ Term.HasArL ar ts
def Term.HasArL (ar : Nat → Nat) : List Term → Prop
  | [] => True
  | t :: ts => Term.HasAr ar t ∧ Term.HasArL ar ts
end

theorem Term.hasArL_iff {ar : Nat → Nat} {ts : List Term} : Term.HasArL ar ts ↔ ∀ t ∈ ts, t.HasAr ar := by
  induction ts with
  | nil => simp [Term.HasArL]
  | cons t ts ih => simp [Term.HasArL, ih]

theorem Term.hasAr_app {ar : Nat → Nat} {f : Nat} {ts : List Term} :
    (Term.app f ts).HasAr ar ↔ ts.length = ar f ∧ ∀ t ∈ ts, t.HasAr ar := by
  rw [Term.HasAr, Term.hasArL_iff]

theorem Sig.WT.hasAr {sg : Sig} {t : Term} (h : sg.WT t) : t.HasAr fun f => (sg.fargs f).length := by
  induction t using Term.ind with
  | hv x => trivial
  | ha f ts ih =>
    rw [Sig.wt_app] at h
    exact Term.hasAr_app.2 ⟨by rw [← h.1]; simp, fun t ht => ih t ht (h.2 t ht)⟩

mutual
/-- All function symbols have a code below `N`. -/
def Term.SymsBelow (N : Nat) : Term → Prop
  | .var _ => True
  | .app f ts => f < N ∧ Term.SymsBelowL N ts
def Term.SymsBelowL (N : Nat) : List Term → Prop
  | [] => True
  | t :: ts => Term.SymsBelow N t ∧ Term.SymsBelowL N ts
end

theorem Term.symsBelow_app {N f : Nat} {ts : List Term} :
    (Term.app f ts).SymsBelow N ↔ f < N ∧ ∀ t ∈ ts, t.SymsBelow N := by
  rw [Term.SymsBelow]
  have : ∀ ts : List Term, Term.SymsBelowL N ts ↔ ∀ t ∈ ts, t.SymsBelow N := by
    intro ts
    induction ts with
    | nil => simp [Term.SymsBelowL]
    | cons t ts ih => simp [Term.SymsBelowL, ih]
  rw [this]

/-- A strict precedence. -/
structure StrictPrec (gt : Nat → Nat → Prop) : Prop where
  irrefl : ∀ f, ¬ gt f f
  trans : ∀ f g h, gt f g → gt g h → gt f h

/-- A total strict precedence. -/
structure TotalPrec (gt : Nat → Nat → Prop) : Prop extends StrictPrec gt where
  total : ∀ f g, f ≠ g → gt f g ∨ gt g f

/-- A total precedence as a comparison function presents it. -/
structure TotalCmp (cmp : Nat → Nat → Cmp) : Prop where
  tot : TotalPrec fun f g => cmp f g = .greater
  anti : ∀ f g, cmp f g = .lesser ↔ cmp g f = .greater

/-- A partial precedence as a comparison function presents it: only a symbol itself is `equal`. -/
structure StrictCmp (cmp : Nat → Nat → Cmp) : Prop where
  strict : StrictPrec fun f g => cmp f g = .greater
  eqv : ∀ f g, cmp f g = .equal ↔ f = g
  anti : ∀ f g, cmp f g = .lesser ↔ cmp g f = .greater
  ran : ∀ f g, cmp f g ≠ .unknown ∧ cmp f g ≠ .notgteq ∧ cmp f g ≠ .notleeq

/-- A partial (quasi-)ordering on the symbols in `D`, presented as a comparison function. -/
structure PrecOrder (D : Nat → Prop) (M : Nat → Nat → Cmp) : Prop where
  refl : ∀ a, D a → M a a = .equal
  inv : ∀ a b, D a → D b → M b a = (M a b).inv
  ran : ∀ a b, D a → D b → M a b = .uncomparable ∨ M a b = .equal ∨ M a b = .greater ∨ M a b = .lesser
  trans : ∀ a b c, D a → D b → D c → (M a b = .greater ∨ M a b = .equal) → (M b c = .greater ∨ M b c = .equal) →
    (M a c = .greater ∨ M a c = .equal)

/-- `M'` keeps every decided comparison of `M`. -/
def Extends (D : Nat → Prop) (M M' : Nat → Nat → Cmp) : Prop :=
  ∀ a b, D a → D b → M a b ≠ .uncomparable → M' a b = M a b

/-- `f` applied `n` times. -/
def Term.pow (f : Nat) : Nat → Term → Term
  | 0, t => t
  | n + 1, t => .app f [Term.pow f n t]

/-! ## Knuth-Bendix ordering -/

/-- Parameters: arities, symbol weights, variable weight, precedence. -/
structure KboPar where
  ar : Nat → Nat
  w : Nat → Nat
  w0 : Nat
  gt : Nat → Nat → Prop

namespace KboPar
variable (P : KboPar)

mutual
/-- Weight of a term. -/
def wt : Term → Nat
  | .var _ => P.w0
  | .app f ts => P.w f + wtL ts
def wtL : List Term → Nat
  | [] => 0
  | t :: ts => wt t + wtL ts
end

/-- Admissible weights: variables count, constants at least as much as variables, and a unary symbol of weight
0 is the largest in the precedence. -/
structure Admissible : Prop where
  w0_pos : 0 < P.w0
  const : ∀ f, P.ar f = 0 → P.w0 ≤ P.w f
  unary : ∀ f, P.ar f = 1 → P.w f = 0 → ∀ g, g ≠ f → P.gt f g

end KboPar

/-- Every variable occurs in `s` at least as often as in `t`. -/
def VarCond (s t : Term) : Prop := ∀ x, t.vars.count x ≤ s.vars.count x

/-- `KBO P s t`: `s` is greater than `t` in the Knuth-Bendix ordering. -/
inductive KBO (P : KboPar) : Term → Term → Prop
  | weight {s t} : VarCond s t → P.wt t < P.wt s → KBO P s t
  | var {f n x} : P.wt (Term.pow f (n + 1) (.var x)) = P.wt (.var x) → KBO P (Term.pow f (n + 1) (.var x)) (.var x)
  | prec {f g ss ts} : VarCond (.app f ss) (.app g ts) → P.wt (.app f ss) = P.wt (.app g ts) → P.gt f g →
      KBO P (.app f ss) (.app g ts)
  | lex {f pre s t ss ts} : VarCond (.app f (pre ++ s :: ss)) (.app f (pre ++ t :: ts)) →
      P.wt (.app f (pre ++ s :: ss)) = P.wt (.app f (pre ++ t :: ts)) → ss.length = ts.length → KBO P s t →
      KBO P (.app f (pre ++ s :: ss)) (.app f (pre ++ t :: ts))

/-! ## Lexicographic path ordering -/

/-- `LPO gt s t`: `s` is greater than `t` in the lexicographic path ordering. -/
inductive LPO (gt : Nat → Nat → Prop) : Term → Term → Prop
  | sub {f ss t} : t ∈ ss → LPO gt (.app f ss) t
  | subGt {f ss s t} : s ∈ ss → LPO gt s t → LPO gt (.app f ss) t
  | prec {f g ss ts} : gt f g → (∀ t ∈ ts, LPO gt (.app f ss) t) → LPO gt (.app f ss) (.app g ts)
  | lex {f pre s t ss ts} : ss.length = ts.length → LPO gt s t →
      (∀ u ∈ pre ++ t :: ts, LPO gt (.app f (pre ++ s :: ss)) u) →
      LPO gt (.app f (pre ++ s :: ss)) (.app f (pre ++ t :: ts))

end Verif
