import Verif.Clauses.SupComplete
import Verif.Clauses.SupRed
import Verif.Props.WeightGen
import Verif.Orderings.LpoOrder

/-!
# C61: a saturated set of clauses without the empty clause is satisfiable
-/

namespace Verif.Props
open Verif Verif.Term Verif.LpoOrder Verif.LitCmpProof Verif.SaturateProof Verif.Sup

variable {sg : Sig} {N : Nat} {gt : Term → Term → Prop}

/-! ## The orderings qualify -/

/-- **C61.** `KBO6Compare` with admissible weights, total precedence and `$true` the lightest constant and least symbol. -/
theorem kbo_supOrd {O : KOcb} (hsg : SigOK sg) (hO : TotalCmp O.cmp) (hA : (O.par fun f => (sg.fargs f).length).Admissible)
    (hw : O.w 1 = O.w0) (hp : ∀ f, f ≠ 1 → O.cmp f 1 = .greater) : SupOrd sg N (KGt O) := by
  refine ⟨⟨?_, ?_, ?_, ?_, ?_, ?_, ?_⟩, ?_⟩
  · exact fun s hs => kgt_irrefl hO hA hs.1.hasAr
  · exact fun s t u hs ht hu => kgt_trans hO hA hs.1.hasAr ht.1.hasAr hu.1.hasAr
  · exact fun s t σ hs ht hσ => kgt_subst hO hA hs.1.hasAr ht.1.hasAr (fun x => (hσ x).1.hasAr)
  · exact fun f pre post s t hs ht => kgt_mono hO hA hs.1.hasAr ht.1.hasAr
  · exact fun f ts t hs ht => kgt_arg hO hA hs.1.hasAr ht
  · exact fun s t hs ht => kgt_total hO hA hs.1.hasAr ht.1.hasAr
  · rintro M ⟨c, hc, hd⟩
    exact kgt_wf hO hA M ⟨c, fun n => ⟨(hc n).1.1.hasAr, (hc n).2⟩, hd⟩
  · intro t ht hne
    have htt : tTrue.HasAr fun f => (sg.fargs f).length := by
      simp [tTrue, hasAr_app, hsg.targs]
    rcases kgt_total hO hA ht.wt.hasAr htt ht.ground (by simp [tTrue, vars, varsL]) with h | h | h
    · exact h
    · exact absurd h hne
    · exfalso
      rw [kgt_iff hO hA htt ht.wt.hasAr] at h
      rw [tTrue] at h
      generalize hs : Term.app 1 [] = s at h
      cases h with
      | weight _ h =>
        have := KboOrder.wt_ge hA ht.wt.hasAr
        subst hs
        simp [KboPar.wt, KboPar.wtL, KOcb.par] at h this
        omega
      | var h => simp [Term.pow] at hs
      | @prec f g ss ts _ _ h =>
        obtain ⟨rfl, rfl⟩ := by simpa using hs
        by_cases e : g = 1
        · subst e; exact hO.tot.irrefl _ h
        · exact hO.tot.irrefl _ (hO.tot.trans _ _ _ h (hp g e))
      | lex => simp at hs

/-- **C61, partial.** The Knuth-Bendix ordering with generated weights (C60).  Missing: the cases excluded by `WeightsOK`.  No symbol has the
code 0; its arity is immaterial. -/
theorem weights_supOrd_partial {A : WIn} {m : WMethod} {constW : Option Nat} {force : Bool} (hsg : SigOK sg)
    (h : WeightsOK A m constW force fun f => 1 ≤ f) (har : ∀ f, 1 ≤ f → (sg.fargs f).length = A.ar f) (h0 : (sg.fargs 0).length = 2)
    (hp : ∀ f, f ≠ 1 → A.cmp f 1 = .greater) : SupOrd sg N (KGt (generateWeights A m constW force)) := by
  have e : (fun f => (sg.fargs f).length) = onlyAr A.ar fun f => 1 ≤ f := by
    funext f
    unfold onlyAr
    split
    · exact har f (by assumption)
    · have : f = 0 := by omega
      rw [this, h0]
  refine kbo_supOrd hsg h.tot (by rw [e]; exact weights_admissible_partial h) ?_ hp
  simp [generateWeights, h.sig, setW]

/-- **C61.** The lexicographic path ordering with a total precedence where `$true` is the least symbol. -/
theorem lpo_supOrd {prec : Nat → Nat → Prop} (hsg : SigOK sg) (hP : TotalPrec prec) (hp : ∀ f, f ≠ 1 → prec f 1) :
    SupOrd sg N (LPO prec) := by
  refine ⟨⟨?_, ?_, ?_, ?_, ?_, ?_, ?_⟩, ?_⟩
  · exact fun s _ => lpo_irrefl hP.toStrictPrec
  · exact fun s t u _ _ _ => LpoOrder.LPO.trans hP.toStrictPrec
  · exact fun s t σ _ _ _ => lpo_subst σ
  · exact fun f pre post s t _ _ h => lpo_mono h f pre post
  · exact fun f ts t _ ht => .sub ht
  · exact fun s t hs ht gs gt => by
      by_cases e : s = t
      · exact .inr (.inl e)
      · rcases lpo_total hP _ le_rfl hs.1.hasAr ht.1.hasAr gs gt e with h | h
        · exact .inl h
        · exact .inr (.inr h)
  · rintro M ⟨c, hc, hd⟩
    obtain ⟨m, ⟨n, rfl⟩, hm⟩ := (lpo_wf_finite hP.toStrictPrec M).has_min (Set.range c) ⟨c 0, 0, rfl⟩
    exact hm (c (n + 1)) ⟨n + 1, rfl⟩ ⟨(hc _).2, (hc _).2, hd n⟩
  · intro t ht hne
    cases t with
    | var x => simpa [vars] using ht.ground
    | app f ts =>
      by_cases e : f = 1
      · subst e
        have := (gnd_app.1 ht).1
        rw [hsg.targs] at this
        exact absurd (by simpa [tTrue] using this) hne
      · exact .prec (hp f e) (by simp)

/-! ## Saturated sets -/

variable {pp : Term → Bool} {sel : List Lit → Nat → Prop} {Ns : List Lit → Prop}

/-- **C61.** Members of a set are redundant. -/
theorem red_mem {D : List Lit} (h : Ns D) : Red sg N gt Ns D := red_of_mem h

/-- **C61.** Tautologies are redundant. -/
theorem red_taut (hsg : SigOK sg) {D : List Lit} (hD : sg.WTClause D) (h : Entails.{0} sg [] D) : Red sg N gt Ns D := red_of_taut hsg hD h

/-- **C61.** A clause whose literals contain, up to the order of their sides, the literals of an instance of a clause in the set. -/
theorem red_subsumed (h : SupOrd sg N gt) (hsg : SigOK sg) (h1 : 1 < N) {σ : Nat → Term} {C D : List Lit} (hC : Ns C)
    (hD : ∀ L ∈ D, sg.WTLit L ∧ L.In (Term.SymsBelow N)) (ht : TypedOn sg σ C) (hm : MapsInto σ C D) : Red sg N gt Ns D :=
  red_of_maps h hsg h1 hC hD ht hm

/-- **C61.** What is redundant because of redundant clauses is redundant without them. -/
theorem red_trans {Ns' : List Lit → Prop} (h : ∀ E, Ns E → Red sg N gt Ns' E) {D : List Lit} (hD : Red sg N gt Ns D) : Red sg N gt Ns' D :=
  red_of_red h hD

/-- **C61, partial.** A saturated set of clauses without the empty clause has a model.  Missing: clauses with a positive literal, not the
only one, that has a variable occurring nowhere else; for these the code computes equality factors that are not most general
(`equalityFactor_not_general`). -/
theorem saturated_model_partial (h : SupOrd sg N gt) (hs : CalcSig sg N pp) (hN : FOSet sg N Ns) (hsel : NegSel sel Ns)
    (hsat : Saturated sg N gt pp sel Ns) (hcov : ∀ C, Ns C → Covered C) (hne : ¬ Ns []) : ∃ I : Interp.{0} sg, ∀ C, Ns C → I.Models C := by
  obtain ⟨I, hI, -⟩ := model_exists h hs.ok hs.fo hs.dist hs.low hs.alt hs.pred hN.fo hN.below hN.even hne hsel hsat.eqRes hsat.para hsat.eqFact
    (fun C i j L K hC => hcov C hC i j L K) hs.inhab
  exact ⟨I, hI⟩

/-- **C61.** For sets of Horn clauses nothing is missing, and equality factoring is not needed. -/
theorem horn_saturated_model (h : SupOrd sg N gt) (hs : CalcSig sg N pp) (hN : FOSet sg N Ns) (hsel : NegSel sel Ns)
    (hr : ClosedEqRes sg N gt pp sel Ns) (hp : ClosedPara sg N gt pp sel Ns) (hh : ∀ C, Ns C → IsHorn C) (hne : ¬ Ns []) :
    ∃ I : Interp.{0} sg, ∀ C, Ns C → I.Models C := by
  refine saturated_model_partial h hs hN hsel ⟨hr, hp, ?_⟩ (fun C hC => (hh C hC).covered) hne
  intro C hC i j L K _ _ hij hi hj hl hk
  exact absurd (hh C hC i j L K hi hj hl hk) hij

/-- **C61, partial** (as above).  An unsatisfiable saturated set contains the empty clause. -/
theorem unsat_saturated_partial (h : SupOrd sg N gt) (hs : CalcSig sg N pp) (hN : FOSet sg N Ns) (hsel : NegSel sel Ns)
    (hsat : Saturated sg N gt pp sel Ns) (hcov : ∀ C, Ns C → Covered C) (hu : ∀ I : Interp.{0} sg, ∃ C, Ns C ∧ ¬ I.Models C) : Ns [] := by
  by_contra hne
  obtain ⟨I, hI⟩ := saturated_model_partial h hs hN hsel hsat hcov hne
  obtain ⟨C, hC, hn⟩ := hu I
  exact hn (hI C hC)

/-- **C61.** An unsatisfiable set of Horn clauses closed under equality resolution and paramodulation contains the empty clause. -/
theorem unsat_horn_saturated (h : SupOrd sg N gt) (hs : CalcSig sg N pp) (hN : FOSet sg N Ns) (hsel : NegSel sel Ns)
    (hr : ClosedEqRes sg N gt pp sel Ns) (hp : ClosedPara sg N gt pp sel Ns) (hh : ∀ C, Ns C → IsHorn C)
    (hu : ∀ I : Interp.{0} sg, ∃ C, Ns C ∧ ¬ I.Models C) : Ns [] := by
  by_contra hne
  obtain ⟨I, hI⟩ := horn_saturated_model h hs hN hsel hr hp hh hne
  obtain ⟨C, hC, hn⟩ := hu I
  exact hn (hI C hC)

/-! ## Example: `¬p(x) ∨ p(f(x))`, with the negative literal selected, and `¬p(a)` -/

namespace CompEx

/-- `a` 10, `f` 11 on individuals, the predicate `p` 12. -/
def cSig : Sig := ⟨fun _ => 0, fun f => if f = 10 ∨ f = 11 then 0 else 1, fun f => if f = 11 ∨ f = 12 then [0] else [], fun _ => false⟩

def cStep : List Lit := [⟨false, .app 12 [.var 2], tTrue⟩, ⟨true, .app 12 [.app 11 [.var 2]], tTrue⟩]
def cGoal : List Lit := [⟨false, .app 12 [.app 10 []], tTrue⟩]
def cSet (C : List Lit) : Prop := C = cStep ∨ C = cGoal
def cSel (C : List Lit) (i : Nat) : Prop := C = cStep ∧ i = 0

/-- Higher codes are greater, `$true` is least. -/
def cPrec (f g : Nat) : Prop := f ≠ 1 ∧ (g = 1 ∨ g < f)

theorem cOrd : SupOrd cSig 13 (LPO cPrec) := by
  refine lpo_supOrd ⟨rfl, rfl, rfl⟩ ⟨⟨fun f => ?_, fun f g h => ?_⟩, fun f g => ?_⟩ fun f h => ⟨h, Or.inl rfl⟩
  all_goals (unfold cPrec; omega)

theorem cCalc : CalcSig cSig 13 fun _ => false := by
  refine ⟨⟨rfl, rfl, rfl⟩, ⟨fun f => ?_, fun x => by simp [cSig], fun f => by simp [cSig]⟩, fun f => by simp [cSig], by omega, fun x _ _ => rfl, by simp,
    fun x => ⟨.app 10 [], ⟨by simp [Sig.WT, Sig.WTL, cSig], by simp [vars, varsL], by simp [SymsBelow, SymsBelowL]⟩, rfl⟩⟩
  simp only [cSig]
  split <;> simp

theorem cFO : FOSet cSig 13 cSet := by
  constructor
  · rintro C (rfl | rfl) L hL
    all_goals
      simp only [cStep, cGoal, List.mem_cons, List.not_mem_nil, or_false] at hL
      rcases hL with rfl | rfl
    all_goals
      exact ⟨by simp [Sig.WTLit, Sig.WT, Sig.WTL, Sig.ty, cSig, tTrue], by decide, by decide, fun _ => rfl⟩
  · rintro C (rfl | rfl) L hL
    all_goals
      simp only [cStep, cGoal, List.mem_cons, List.not_mem_nil, or_false] at hL
      rcases hL with rfl | rfl
    all_goals
      exact ⟨by simp [SymsBelow, SymsBelowL, tTrue], by simp [SymsBelow, SymsBelowL, tTrue]⟩
  · rintro C (rfl | rfl) x hx
    all_goals
      revert x
      decide

theorem cNegSel : NegSel cSel cSet := by
  rintro C hC i ⟨rfl, rfl⟩
  exact ⟨_, rfl, rfl⟩

theorem cNoUnif (n : Nat) (ts : List Term) (st : SubstSt) : unify cSig (fun _ => false) n (.app 12 ts) tTrue .empty ≠ some (true, st) := by
  rcases n with _ | _ | n <;> simp [unify, substComputeMgu, mguLoop, tTrue, derefAlways, Term.isVar]

theorem cEqRes : ClosedEqRes cSig 13 (LPO cPrec) (fun _ => false) cSel cSet := by
  rintro C hC i L hi hp -
  refine ⟨.init, VarBank.inv_init, fun n b' D h => ?_⟩
  exfalso
  simp only [computeEqRes, hi] at h
  have : ∃ ts, L = ⟨false, .app 12 ts, tTrue⟩ := by
    rcases hC with rfl | rfl <;> rcases i with _ | _ | i <;> simp [cStep, cGoal] at hi <;> subst hi <;> simp at hp ⊢
  obtain ⟨ts, rfl⟩ := this
  split at h
  · simp at h
  · simp at h
  · rename_i st hu
    exact cNoUnif _ _ _ hu

theorem cPara : ClosedPara cSig 13 (LPO cPrec) (fun _ => false) cSel cSet := by
  intro F T hF hT
  refine ⟨_, _, Or.inr ⟨rfl, rfl⟩, fun i fs j ts pos LF LT sub hi hp hj _ _ _ => ⟨.plain, fun _ => false, .init, VarBank.inv_init, ?_, ?_⟩⟩
  · rintro st σ - ht
    rcases hF with rfl | rfl
    · exact absurd ⟨rfl, rfl⟩ (ht.fromMax.1 0)
    · rcases i with _ | i <;> simp [cGoal] at hi
      subst hi; simp at hp
  · intro n b' D h
    exfalso
    revert h
    simp only [paramod]
    repeat' split
    all_goals simp_all

theorem cHorn : ∀ C, cSet C → IsHorn C := by
  rintro C (rfl | rfl) i j L K hi hj hl hk
  · rcases i with _ | _ | i <;> rcases j with _ | _ | j <;> simp [cStep] at hi hj <;> subst hi hj <;> simp_all
  · rcases i with _ | i <;> rcases j with _ | j <;> simp [cGoal] at hi hj <;> subst hi hj <;> simp_all

example : ∃ I : Interp.{0} cSig, I.Models cStep ∧ I.Models cGoal := by
  obtain ⟨I, hI⟩ := horn_saturated_model cOrd cCalc cFO cNegSel cEqRes cPara cHorn (by rintro (h | h) <;> simp [cStep, cGoal] at h)
  exact ⟨I, hI _ (Or.inl rfl), hI _ (Or.inr rfl)⟩

end CompEx
end Verif.Props
