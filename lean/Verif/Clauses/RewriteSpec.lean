import Verif.Clauses.Rewrite
import Verif.Clauses.Sem
import Verif.Orderings.Spec

/-!
# What rewriting should do

`TopStep x d right t u`: the term `t` is an instance of one side of the unit equation `d` and `u` the corresponding
instance of the other side, where the equation is usable in this direction: it is oriented, or the instance is decreasing
in the ordering.  `Reducible` and `Irreducible` speak about all positions of a term.
-/

namespace Verif

/-- The side that is matched and the side that replaces it. -/
def Demod.lhs (d : Demod) (right : Bool) : Term := if right then d.r else d.l
def Demod.rhs (d : Demod) (right : Bool) : Term := if right then d.l else d.r

/-- The unit clause. -/
def Demod.clause (d : Demod) : List Lit := [⟨true, d.l, d.r⟩]

/-- `σ` maps the variables in `V` to different variables. -/
def RenamesOn (V : List Nat) (σ : Nat → Term) : Prop :=
  (∀ y ∈ V, ∃ z, σ y = .var z) ∧ ∀ y ∈ V, ∀ z ∈ V, σ y = σ z → y = z

/-- The instance of `d` by `σ` rewrites `t` to `u`. -/
structure StepBy (x : RWCtx) (d : Demod) (right : Bool) (t u : Term) (σ : Nat → Term) : Prop where
  typed : ∀ y ∈ (d.lhs right).vars, x.sg.ty (σ y) = x.sg.vty y
  pred : ¬ (x.pp t = true ∧ (d.lhs right).isVar = true)
  inst : (d.lhs right).subst σ = t
  repl : (d.rhs right).subst σ = u
  /-- an oriented equation is used from left to right, other variables are not instantiated -/
  rule : d.oriented = true → right = false ∧ ∀ y, y ∉ d.l.vars → σ y = .var y
  /-- an unoriented equation is used only if the instance is decreasing; other variables of the replacing side
  are excluded or instantiated with the designated minimal term -/
  free : d.oriented = false → ∀ y ∈ (d.rhs right).vars, y ∉ (d.lhs right).vars →
    x.strong = true ∧ σ y = x.minT (x.sg.vty y)
  other : d.oriented = false → ∀ y, y ∉ (d.lhs right).vars → y ∉ (d.rhs right).vars → σ y = .var y
  decr : d.oriented = false → x.greater t u = true
  proper : d.oriented = false →
    ¬ RenamesOn ((d.lhs right).vars ++ if x.strong then (d.rhs right).vars else []) σ

/-- `d` rewrites `t` to `u` at the top. -/
def TopStep (x : RWCtx) (d : Demod) (right : Bool) (t u : Term) : Prop := ∃ σ, StepBy x d right t u σ

/-- `d` rewrites some subterm of `t`. -/
def Reducible (x : RWCtx) (d : Demod) (t : Term) : Prop := ∃ s ∈ t.subterms, ∃ right u, TopStep x d right s u

/-- What is assumed of a set of demodulators with its index: the index enumerates only members (the right side only of unoriented
ones), it enumerates every member later than the given date of which a usable side matches, and dates are consistent. -/
structure DSet.OK (x : RWCtx) (s : DSet) : Prop where
  sound : ∀ {t k d right}, (d, right) ∈ s.enum t k → d ∈ s.mem ∧ (right = true → d.oriented = false)
  complete : ∀ {t k d right sb}, d ∈ s.mem → k < d.date → (right = true → d.oriented = false) →
    matchSt x (d.lhs right) t = some sb → (d, right) ∈ s.enum t k
  dates : ∀ d ∈ s.mem, 0 < d.date ∧ d.date ≤ s.date

/-- The two sets of the prover: rules, then unoriented equations. -/
structure SetsOK (x : RWCtx) (sets : List DSet) : Prop where
  len : sets.length ≤ 2
  ok : ∀ s ∈ sets, s.OK x
  rules : ∀ s, sets[0]? = some s → ∀ d ∈ s.mem, d.oriented = true
  eqns : ∀ i s, sets[i + 1]? = some s → ∀ d ∈ s.mem, d.oriented = false

/-- `t` is in normal form with respect to the first `level` sets. -/
def Irreducible (x : RWCtx) (sets : List DSet) (level : Nat) (t : Term) : Prop :=
  ∀ s ∈ sets.take level, ∀ d ∈ s.mem, ¬ Reducible x d t

/-- What the ordering and the demodulators in `D` have to satisfy, on the terms in `W`: `S` is a strict, well-founded
relation closed under arguments that contains all rewrite steps. -/
structure RWLaws (x : RWCtx) (D : Demod → Prop) (W : Term → Prop) (S : Term → Term → Prop) : Prop where
  dom : ∀ {t u}, S t u → W t ∧ W u
  arg : ∀ {f ts t}, W (.app f ts) → t ∈ ts → W t
  step : ∀ {t u d right}, W t → D d → TopStep x d right t u → S t u
  trans : ∀ {a b c}, S a b → S b c → S a c
  congr : ∀ {f ts us}, W (.app f ts) → List.Forall₂ (fun a b => a = b ∨ S a b) ts us → ts ≠ us →
    S (.app f ts) (.app f us)
  noVar : ∀ {y u}, ¬ S (.var y) u
  wf : WellFounded fun b a => S a b ∨ (W a ∧ ∃ f ts, a = .app f ts ∧ b ∈ ts)

/-- The rewrite links stored in the cells are truthful: they are steps of `S`, made by a demodulator in `D` at the top or by
changing arguments. -/
structure LinksOK (x : RWCtx) (D : Demod → Prop) (W : Term → Prop) (S : Term → Term → Prop) (st : RWSt) : Prop where
  lt : ∀ t, W t → (st t).rewritten = true → S t (st t).repl
  top : ∀ t d, W t → (st t).rewritten = true → (st t).demod = some d → D d ∧ ∃ right, TopStep x d right t (st t).repl
  args : ∀ t, W t → (st t).rewritten = true → (st t).demod = none →
    ∃ f ts us, t = .app f ts ∧ (st t).repl = .app f us ∧ ts.length = us.length

/-- Normal-form dates are truthful: a term without rewrite link is irreducible by rules not later than `nf_date[0]` and by all
demodulators not later than `nf_date[1]`. -/
structure DatesOK (x : RWCtx) (W : Term → Prop) (sets : List DSet) (st : RWSt) : Prop where
  nf0 : ∀ t, W t → (st t).rewritten = false → ∀ s ∈ sets, ∀ d ∈ s.mem, d.oriented = true → d.date ≤ (st t).nf0 →
    ¬ Reducible x d t
  nf1 : ∀ t, W t → (st t).rewritten = false → ∀ s ∈ sets, ∀ d ∈ s.mem, d.date ≤ (st t).nf1 → ¬ Reducible x d t

/-- The latest date of the sets. -/
def maxDate (sets : List DSet) : Nat := (sets.map DSet.date).foldl max 0

/-- No normal-form date lies in the future. -/
def DatesPast (sets : List DSet) (st : RWSt) : Prop := ∀ t, (st t).nf0 ≤ maxDate sets ∧ (st t).nf1 ≤ maxDate sets

/-- A reduction ordering with the subterm property on the terms over the first `N` symbols. -/
structure RedOrd (ar : Nat → Nat) (N : Nat) (gt : Term → Term → Prop) : Prop where
  trans : ∀ {s t u : Term}, s.HasAr ar → t.HasAr ar → u.HasAr ar → gt s t → gt t u → gt s u
  subst : ∀ {s t : Term} {σ : Nat → Term}, s.HasAr ar → t.HasAr ar → (∀ y, (σ y).HasAr ar) → gt s t → gt (s.subst σ) (t.subst σ)
  mono : ∀ {f pre post} {s t : Term}, (Term.app f (pre ++ s :: post)).HasAr ar → t.HasAr ar → gt s t →
    gt (.app f (pre ++ s :: post)) (.app f (pre ++ t :: post))
  arg : ∀ {f ts t}, (Term.app f ts).HasAr ar → t ∈ ts → gt (.app f ts) t
  noVar : ∀ {y} {u : Term}, u.HasAr ar → ¬ gt (.var y) u
  wf : WellFounded fun b a : Term => (a.HasAr ar ∧ a.SymsBelow N) ∧ (b.HasAr ar ∧ b.SymsBelow N) ∧ gt a b

/-- Well-typed terms over the first `N` symbols. -/
def InSig (sg : Sig) (N : Nat) (t : Term) : Prop := sg.WT t ∧ t.SymsBelow N

/-- A demodulator the prover may hold: well-typed, and if it is marked as oriented its left side is greater. -/
structure Demod.OK (sg : Sig) (N : Nat) (gt : Term → Term → Prop) (d : Demod) : Prop where
  left : InSig sg N d.l
  right : InSig sg N d.r
  types : sg.ty d.l = sg.ty d.r
  rule : d.oriented = true → gt d.l d.r

/-- What is assumed of the surroundings: positive answers of the comparison are right, the designated minimal terms exist. -/
structure RWCtx.OK (x : RWCtx) (N : Nat) (gt : Term → Term → Prop) : Prop where
  greater : ∀ {s t}, InSig x.sg N s → InSig x.sg N t → x.greater s t = true → gt s t
  minT : x.strong = true → ∀ ty, InSig x.sg N (x.minT ty) ∧ x.sg.ty (x.minT ty) = ty

/-! ## Literals and clauses -/

/-- The terms of a literal are in `W`. -/
def RLit.In (W : Term → Prop) (L : RLit) : Prop := W L.lit.l ∧ W L.lit.r

/-- The left side is subject to the restriction. -/
def RLit.restr (L : RLit) (lim : Bool) : Bool := L.maximal && L.lit.pos && L.oriented && lim

universe u

/-- Both terms have the same value in every model of `ds`. -/
def EqIn (x : RWCtx) (ds : List Demod) (a b : Term) : Prop :=
  ∀ I : Interp.{u} x.sg, (∀ d ∈ ds, I.Models d.clause) → ∀ v, I.Sorted v → I.eval v a = I.eval v b

/-- Only an oriented demodulator whose left side is a variant of `t` rewrites `t` at the top. -/
def OnlyVariants (x : RWCtx) (d : Demod) (t : Term) : Prop :=
  ∀ right u σ, StepBy x d right t u σ → d.oriented = true ∧ RenamesOn d.l.vars σ

/-- A term without flags is irreducible by the present demodulators. -/
def RWClean (x : RWCtx) (sets : List DSet) (st : RWSt) (t : Term) : Prop :=
  (st t).rewritable = false → (st t).rrewritable = false → (st t).rewritten = false →
    ∀ s ∈ sets, ∀ e ∈ s.mem, ¬ Reducible x e t

/-- `d` does not rewrite `t`; at a restricted position it may rewrite the term as a whole if that is a variant of its left side. -/
def Kept (x : RWCtx) (d : Demod) (rs : Bool) (t : Term) : Prop :=
  if rs then (∀ f ts, t = .app f ts → ∀ s ∈ ts, ¬ Reducible x d s) ∧ OnlyVariants x d t else ¬ Reducible x d t

/-- The terms of a clause are clean. -/
def RWCleanC (x : RWCtx) (sets : List DSet) (st : RWSt) (C : List RLit) : Prop :=
  ∀ L ∈ C, ∀ s, s ∈ L.lit.l.subterms ∨ s ∈ L.lit.r.subterms → RWClean x sets st s

/-- The new demodulator does not rewrite the literal, except for variants of its left side at restricted positions. -/
def KeptLit (x : RWCtx) (d : Demod) (L : RLit) : Prop :=
  Kept x d (L.maximal && L.lit.pos && L.oriented) L.lit.l ∧ ¬ Reducible x d L.lit.r

/-- Fresh term cells. -/
def RWSt.fresh : RWSt := fun _ => ⟨false, false, false, false, 0, 0, .var 0, none⟩

/-- All states the prover can reach: terms and clauses are normalised with the present sets of demodulators, demodulators are
added (with a later date, after the search for clauses they can rewrite) and removed, cells are forgotten, and the flags
`TPIsRewritable` are changed at will. -/
inductive RWReach (x : RWCtx) (N : Nat) (D : Demod → Prop) : List DSet → RWSt → Prop
  | init {sets} : (∀ s ∈ sets, s.mem = []) → RWReach x N D sets RWSt.fresh
  | term {d : RWDesc} {n st t rs u st'} : RWReach x N D d.sets st → SetsOK x d.sets → d.level = 1 ∨ d.level = 2 → InSig x.sg N t →
      liNF x d n st t rs = some (u, st') → RWReach x N D d.sets st'
  | clause {d : RWDesc} {n k st lim C C' lim' st' ds} : RWReach x N D d.sets st → SetsOK x d.sets → d.level = 1 ∨ d.level = 2 →
      (∀ L ∈ C, RLit.In (InSig x.sg N) L) → clauseNF x d n k st lim C = some (C', lim', st', ds) → RWReach x N D d.sets st'
  | add {sets sets' d st Cs out st'} : RWReach x N D sets st → D d → maxDate sets < d.date →
      (∀ C ∈ Cs, ∀ L ∈ C, RLit.In (InSig x.sg N) L) → (∀ C ∈ Cs, RWCleanC x sets st C) →
      findRewritableClauses x d d.date st Cs = (out, st') →
      (∀ s ∈ sets', ∀ e ∈ s.mem, e = d ∨ ∃ s ∈ sets, e ∈ s.mem) → d.date ≤ maxDate sets' → RWReach x N D sets' st'
  | remove {sets sets' st} : RWReach x N D sets st → (∀ s ∈ sets', ∀ e ∈ s.mem, ∃ s ∈ sets, e ∈ s.mem) →
      maxDate sets ≤ maxDate sets' → RWReach x N D sets' st
  | forget {sets st st'} : RWReach x N D sets st → (∀ t, st' t = st t ∨ st' t = RWSt.fresh t) → RWReach x N D sets st'
  | flags {sets st} (f g : Term → Bool) : RWReach x N D sets st →
      RWReach x N D sets fun t => { st t with rewritable := f t, rrewritable := g t }

end Verif
