import Verif.Clauses.SupOrd
import Verif.Clauses.Infer
import Verif.Props.Norm
import Verif.Clauses.Bce
import Verif.Control.SaturateProof

/-!
# Redundancy and saturation (specification for C61)

Clauses are ordered through their ground instances.  A set of clauses is saturated if every conclusion that the functions of
`Infer.lean` compute for an eligible pair of literals is redundant.
-/

namespace Verif
open Term LitCmpProof

/-- An instance of a clause, literals in the form given by `EqnAlloc`. -/
def gInst (θ : Nat → Term) (C : List Lit) : List Lit := C.map fun L => mkEqn L.pos (L.l.subst θ) (L.r.subst θ)

/-- Smaller or equal ground clause. -/
def ClauseLe (sg : Sig) (N : Nat) (gt : Term → Term → Prop) (C D : List Lit) : Prop :=
  (C.map (Lit.desc gt)).Perm (D.map (Lit.desc gt)) ∨ ClauseLt sg N gt C D

/-- The ground clause `K` follows from ground instances of clauses in `Ns` that are not greater than `K`. -/
def GRed (sg : Sig) (N : Nat) (gt : Term → Term → Prop) (Ns : List Lit → Prop) (K : List Lit) : Prop :=
  ∀ (I : Interp.{0} sg) (v : Nat → I.D), I.Sorted v →
    (∀ E θ, Ns E → GSubst sg N θ → ClauseLe sg N gt (gInst θ E) K → I.ClauseTrue v (gInst θ E)) → I.ClauseTrue v K

/-- `D` is redundant: each ground instance follows from ground instances of clauses in `Ns` that are not greater.  Members of `Ns`,
tautologies and clauses with a subclause in `Ns` are redundant (`red_mem`, `red_taut`, `red_subsumed`). -/
def Red (sg : Sig) (N : Nat) (gt : Term → Term → Prop) (Ns : List Lit → Prop) (D : List Lit) : Prop :=
  ∀ ρ, GSubst sg N ρ → GRed sg N gt Ns (gInst ρ D)

namespace Sup

/-- Literal `i` of the instance `Cσ` is maximal in the sense of `LiteralCompare`: if literals are selected, it is one of them and maximal
among them; otherwise it is maximal in the clause. -/
def NegElig (gt : Term → Term → Prop) (sel : Nat → Prop) (σ : Nat → Term) (C : List Lit) (i : Nat) (L : Lit) : Prop :=
  (sel i ∨ ∀ k, ¬ sel k) ∧ ∀ (j : Nat) (K : Lit), C[j]? = some K → (sel i → sel j) → ¬ LGt gt (K.subst σ) (L.subst σ)

/-- Literal `i` is maximal in a clause without selected literals. -/
def PosElig (gt : Term → Term → Prop) (sel : Nat → Prop) (σ : Nat → Term) (C : List Lit) (L : Lit) : Prop :=
  (∀ k, ¬ sel k) ∧ ∀ (j : Nat) (K : Lit), C[j]? = some K → ¬ LGt gt (K.subst σ) (L.subst σ)

/-- Literal `i` is greater than all others in a clause without selected literals. -/
def StrictElig (gt : Term → Term → Prop) (sel : Nat → Prop) (σ : Nat → Term) (C : List Lit) (i : Nat) (L : Lit) : Prop :=
  (∀ k, ¬ sel k) ∧ ∀ (j : Nat) (K : Lit), j ≠ i → C[j]? = some K → LGt gt (L.subst σ) (K.subst σ)

/-- Literal `i` is strictly maximal in a clause without selected literals: no other literal is greater or equal. -/
def StrictMax (gt : Term → Term → Prop) (sel : Nat → Prop) (σ : Nat → Term) (C : List Lit) (i : Nat) (L : Lit) : Prop :=
  (∀ k, ¬ sel k) ∧ ∀ (j : Nat) (K : Lit), j ≠ i → C[j]? = some K → ¬ LGt gt (K.subst σ) (L.subst σ) ∧ ¬ LEq (K.subst σ) (L.subst σ)

/-- The tests made before a paramodulant is built (CONTROL/cco_paramodulation.c:231-243, 312-318) under the unifier `σ`: the from-literal is
strictly maximal, the into-literal strictly maximal if positive and maximal if negative, and the sides used are not smaller than the others. -/
structure ParaTests (gt : Term → Term → Prop) (selF selT : Nat → Prop) (o : Overlap) (LF LT : Lit) (σ : Nat → Term) : Prop where
  fromMax : StrictMax gt selF σ o.F o.i LF
  fromOrd : ¬ gt ((LF.side !o.fs).subst σ) ((LF.side o.fs).subst σ)
  intoPos : LT.pos = true → StrictMax gt selT σ o.T o.j LT
  intoNeg : LT.pos = false → NegElig gt selT σ o.T o.j LT
  intoOrd : ¬ gt ((LT.side !o.ts).subst σ) ((LT.side o.ts).subst σ)

/-- Whatever clause a generating function computes is in `R`, and the variables used have the right types. -/
def ResultIn (sg : Sig) (R : List Lit → Prop) (run : Nat → Option (Option (VarBank × List Lit))) : Prop :=
  ∀ n b' D, run n = some (some (b', D)) → Props.BankAgrees sg b' ∧ R D

/-- The results of `ComputeAllEqnResolvents` (CONTROL/cco_eqnresolving.c:63-102) for `C` are in `R`: every maximal negative literal is tried. -/
def EqResIn (sg : Sig) (gt : Term → Term → Prop) (pp : Term → Bool) (sel : Nat → Prop) (C : List Lit) (R : List Lit → Prop) : Prop :=
  ∀ i L, C[i]? = some L → L.pos = false → NegElig gt sel Term.var C i L →
    ∃ b : VarBank, b.Inv ∧ ResultIn sg R fun n => computeEqRes sg pp n b C i

/-- The results of paramodulation (CONTROL/cco_paramodulation.c:197-335) from `F` into `T` are in `R`: one of the clauses is renamed
(`ClauseCopyDisjoint`), and every overlap of a side of a positive literal with a subterm, not a variable, is tried.  The type of paramodulation may
differ from overlap to overlap.  `guard` may reject a unifier only if the tests fail.  (Simultaneous paramodulation computes the same
clause for all occurrences of a subterm, so trying one of them is enough.) -/
def ParaIn (sg : Sig) (gt : Term → Term → Prop) (pp : Term → Bool) (selF selT : Nat → Prop) (F T : List Lit) (R : List Lit → Prop) : Prop :=
  ∃ F' T', (F' = copyDisjoint F ∧ T' = T ∨ F' = F ∧ T' = copyDisjoint T) ∧
    ∀ i fs j ts pos LF LT sub, F'[i]? = some LF → LF.pos = true → T'[j]? = some LT → IsPos (LT.side ts) pos → posSubterm (LT.side ts) pos = some sub →
      sub.isVar = false →
      ∃ ty guard, ∃ b : VarBank, b.Inv ∧
        (∀ st σ, FullInst st.bind σ → ParaTests gt selF selT ⟨F', i, fs, T', j, ts, pos⟩ LF LT σ → guard st = true) ∧
        ResultIn sg R fun n => paramod sg pp guard n b false ty ⟨F', i, fs, T', j, ts, pos⟩

/-- The results of `ComputeAllEqualityFactors` (CONTROL/cco_factoring.c:114-156 with CLAUSES/ccl_factor.c:270-318) are in `R`: every maximal
positive literal with every other positive literal.  `guard` may reject a unifier only if the tests in lines 294-297 fail. -/
def EqFactIn (sg : Sig) (gt : Term → Term → Prop) (pp : Term → Bool) (sel : Nat → Prop) (C : List Lit) (R : List Lit → Prop) : Prop :=
  ∀ i j L K c d, i ≠ j → C[i]? = some L → C[j]? = some K → L.pos = true → K.pos = true → PosElig gt sel Term.var C L →
    ∃ guard, ∃ b : VarBank, b.Inv ∧
      (∀ st σ, FullInst st.bind σ → PosElig gt sel σ C L → ¬ gt ((L.side !c).subst σ) ((L.side c).subst σ) → guard st = true) ∧
      ResultIn sg R fun n => equalityFactor sg pp guard n b C i j c d

/-- `Ns` is closed under equality resolution, up to redundancy. -/
def ClosedEqRes (sg : Sig) (N : Nat) (gt : Term → Term → Prop) (pp : Term → Bool) (sel : List Lit → Nat → Prop) (Ns : List Lit → Prop) : Prop :=
  ∀ C, Ns C → EqResIn sg gt pp (sel C) C (Red sg N gt Ns)

/-- `Ns` is closed under paramodulation, up to redundancy. -/
def ClosedPara (sg : Sig) (N : Nat) (gt : Term → Term → Prop) (pp : Term → Bool) (sel : List Lit → Nat → Prop) (Ns : List Lit → Prop) : Prop :=
  ∀ F T, Ns F → Ns T → ParaIn sg gt pp (sel F) (sel T) F T (Red sg N gt Ns)

/-- `Ns` is closed under equality factoring, up to redundancy. -/
def ClosedEqFact (sg : Sig) (N : Nat) (gt : Term → Term → Prop) (pp : Term → Bool) (sel : List Lit → Nat → Prop) (Ns : List Lit → Prop) : Prop :=
  ∀ C, Ns C → EqFactIn sg gt pp (sel C) C (Red sg N gt Ns)

/-- The set of clauses is saturated. -/
structure Saturated (sg : Sig) (N : Nat) (gt : Term → Term → Prop) (pp : Term → Bool) (sel : List Lit → Nat → Prop) (Ns : List Lit → Prop) : Prop where
  eqRes : ClosedEqRes sg N gt pp sel Ns
  para : ClosedPara sg N gt pp sel Ns
  eqFact : ClosedEqFact sg N gt pp sel Ns

/-- What is assumed of the signature: `$true` and `$false` as the prover declares them, first-order, no object constants, each type of
variables has a ground term over the symbols below `N`, and `TPPredPos` is set on Boolean terms only. -/
structure CalcSig (sg : Sig) (N : Nat) (pp : Term → Bool) : Prop where
  ok : SigOK sg
  fo : FOSig sg
  dist : ∀ f, ¬ sg.distinct f
  low : 1 < N
  alt : SaturateProof.AltTyped sg
  pred : ∀ t, pp t = true → sg.ty t = sg.fty 1
  inhab : ∀ x, ∃ t, Gnd sg N t ∧ sg.ty t = sg.vty x

/-- A set of first-order clauses over the symbols below `N`, with ordinary variables. -/
structure FOSet (sg : Sig) (N : Nat) (Ns : List Lit → Prop) : Prop where
  fo : ∀ C, Ns C → ∀ L ∈ C, FOLit sg L
  below : ∀ C, Ns C → ∀ L ∈ C, L.In (Term.SymsBelow N)
  even : ∀ C, Ns C → SaturateProof.EvenVars C

/-- Only negative literals are selected. -/
def NegSel (sel : List Lit → Nat → Prop) (Ns : List Lit → Prop) : Prop := ∀ C, Ns C → ∀ i, sel C i → ∃ L, C[i]? = some L ∧ L.pos = false

/-- At most one positive literal. -/
def IsHorn (C : List Lit) : Prop :=
  ∀ (i j : Nat) (L K : Lit), C[i]? = some L → C[j]? = some K → L.pos = true → K.pos = true → i = j

/-- Every variable of a positive literal, not the only one, occurs in another literal. -/
def Covered (C : List Lit) : Prop :=
  ∀ (i j : Nat) (L K : Lit), i ≠ j → C[i]? = some L → C[j]? = some K → L.pos = true → K.pos = true → ∀ x ∈ K.vars, x ∈ cvars (C.eraseIdx j)

theorem IsHorn.covered {C : List Lit} (h : IsHorn C) : Covered C := fun i j L K hne hi hj hl hk => absurd (h i j L K hi hj hl hk) hne

end Sup
end Verif
