import Verif.Clauses.PredElimGate
import Verif.Props.Bce

/-!
# C59: predicate elimination
-/

namespace Verif.Props
open BceProof SaturateProof PeProof

universe u

/-- What is assumed about the signature, the order in which sets of clauses are listed, and the test for tautologies, which is that of C23. -/
structure PeCtx (p : PeParams) : Prop where
  sig : SigOK p.sg
  fo : FOSig p.sg
  alt : AltTyped p.sg
  ord : ∀ l, (p.ord l).Perm l
  taut : ∀ X, p.taut X = true → ∃ no ps ns n, Numbered no X ∧ Sorted no X ps ns ∧ clauseIsTautology p.sg no ps ns n X = some true

/-- First-order clauses with normalised variables, and a variable bank. -/
structure PeInput (p : PeParams) (Cs : List (List Lit)) (b : VarBank) : Prop where
  fo : ∀ C ∈ Cs, ∀ K ∈ C, FOLit p.sg K
  ev : ∀ C ∈ Cs, EvenVars C
  bank : b.Inv

/-- What is assumed if gates are to be recognised: the cores of the SAT solver are unsatisfiable, the test for tautologies is that of C23, and no literal has the code of the equality
symbol as predicate. -/
structure PeGates (p : PeParams) (Cs : List (List Lit)) : Prop where
  solve : ∀ Xs core, p.solve Xs = some core → ∀ α, ¬ PropSat α (core.filterMap (Xs[·]?))
  taut : ∀ X, p.tautG X = true → ∃ no ps ns n, Numbered no X ∧ Sorted no X ps ns ∧ clauseIsTautology p.sg no ps ns n X = some true
  noeq : ∀ C ∈ Cs, ∀ K ∈ C, K.predCode? ≠ some p.eqc

section
variable {p : PeParams} {Cs Ds : List (List Lit)} {b b' : VarBank} {k : Nat}

/-- The clauses before and after, the tests of gates being sufficient if `G` holds. -/
theorem pe_rel {G : Prop} (hc : PeCtx p) (hi : PeInput p Cs b) (hg : p.gates = true → PeGates p Cs ∧ (G → GatesOK.{u} p.sg (numbered Cs)))
    (h : predElim p k Cs b = some (b', Ds)) (hb : BankAgrees p.sg b') :
    ∃ V', Ds = V'.map Prod.snd ∧ (∀ c ∈ V', FOC p.sg c.2) ∧ Rel.{u} p G (p.eqnInit || eqFound Cs) (numbered Cs) V' := by
  have hv : ∀ X, p.taut X = true → Valid.{u} p.sg X := fun X hX => by
    obtain ⟨no, ps, ns, n, h1, h2, h3⟩ := hc.taut X hX
    exact tautology_sound h1 h2 h3
  unfold predElim at h
  split at h
  · cases h
  · rename_i s hs
    simp only [Option.map_eq_some_iff, Prod.mk.injEq] at h
    obtain ⟨s', h1, rfl, rfl⟩ := h
    obtain ⟨q1, q2, -⟩ := buildQueue_ok.{u} (G := G) hc.sig hc.fo hc.alt hc.ord (fun C hC => ⟨hi.fo C hC, hi.ev C hC⟩) (fun hgt => by
      obtain ⟨g1, g2⟩ := hg hgt
      refine ⟨g1.solve, fun X _ hX => ?_, fun C hC => ?_, g2⟩
      · obtain ⟨no, ps, ns, n, h1, h2, h3⟩ := g1.taut X hX
        exact tautology_sound h1 h2 h3
      · refine List.countP_eq_zero.2 fun K hK => ?_
        simpa using g1.noeq C hC K hK) hi.bank hs
    obtain ⟨r1, r2⟩ := peLoop_ok.{u} hc.sig hc.fo hc.alt (fun X _ hX => hv X hX) hc.ord q1 h1 hb
    rw [q2] at r2
    exact ⟨s'.passive, rfl, r1.fo, r2⟩

theorem mem_numbered' {C : List Lit} (h : C ∈ Cs) : ∃ c ∈ numbered Cs, c.2 = C := by
  rw [← numbered_snd (Cs := Cs)] at h
  exact List.mem_map.1 h

/-- C59: every clause of the result follows from the clauses given. -/
theorem pe_sound (hc : PeCtx p) (hi : PeInput p Cs b) (hg : p.gates = true → PeGates p Cs)
    (h : predElim p k Cs b = some (b', Ds)) (hb : BankAgrees p.sg b') : ∀ D ∈ Ds, Entails.{u} p.sg Cs D := by
  obtain ⟨V', rfl, -, r⟩ := pe_rel.{u} (G := False) hc hi (fun h => ⟨hg h, fun h => h.elim⟩) h hb
  intro D hD I hI
  obtain ⟨c, hc, rfl⟩ := List.mem_map.1 hD
  exact r.sound I (fun c hc => hI _ (mem_numbered hc).2) c hc

/-- C59: the result consists of first-order clauses with normalised variables, and has no new predicates. -/
theorem pe_wellformed (hc : PeCtx p) (hi : PeInput p Cs b) (hg : p.gates = true → PeGates p Cs)
    (h : predElim p k Cs b = some (b', Ds)) (hb : BankAgrees p.sg b') :
    (∀ D ∈ Ds, (∀ K ∈ D, FOLit p.sg K) ∧ EvenVars D) ∧ ∀ f, (∃ D ∈ Ds, ∃ K ∈ D, K.predCode? = some f) → ∃ C ∈ Cs, ∃ K ∈ C, K.predCode? = some f := by
  obtain ⟨V', rfl, h1, r⟩ := pe_rel.{0} (G := False) hc hi (fun h => ⟨hg h, fun h => h.elim⟩) h hb
  refine ⟨fun D hD => ?_, fun f ⟨D, hD, K, hK, hf⟩ => ?_⟩
  · obtain ⟨c, hc, rfl⟩ := List.mem_map.1 hD
    exact ⟨(h1 c hc).fo, (h1 c hc).ev⟩
  · obtain ⟨c, hc, rfl⟩ := List.mem_map.1 hD
    by_contra hn
    push Not at hn
    have := r.cnt f (fun d hd => List.countP_eq_zero.2 fun K hK => by simpa using hn _ (mem_numbered hd).2 K hK) c hc
    exact List.countP_eq_zero.1 this K hK (by simpa using hf)

theorem tm_herb {sg : Sig} (hsg : SigOK sg) (hF : FOSig sg) (hV : ∀ ty, ty ≠ sg.fty 1 → ∃ x, sg.vty x = ty) (I : Interp.{u} sg) (v : Nat → I.D) :
    Herb sg (termModel hsg hF hV I v) ULift.down :=
  ⟨fun _ _ h => ULift.ext _ _ h, fun _ hw => (tm_sorted hsg hF hV I v).1 hw, fun w t ht hty => by
    rw [tm_eval hsg hF hV I v w t ht hty]⟩

/-- What is shown for the satisfiability. -/
theorem pe_back {G : Prop} (hG : G) (hc : PeCtx p) (hV : ∀ ty, ty ≠ p.sg.fty 1 → ∃ x, p.sg.vty x = ty) (hi : PeInput p Cs b)
    (hg : p.gates = true → PeGates p Cs ∧ (G → GatesOK.{u} p.sg (numbered Cs)))
    (h : predElim p k Cs b = some (b', Ds)) (hb : BankAgrees p.sg b') :
    (∃ I : Interp.{u} p.sg, ∀ D ∈ Ds, I.Models D) ↔ ∃ I : Interp.{u} p.sg, ∀ C ∈ Cs, I.Models C := by
  obtain ⟨V', rfl, h1, r⟩ := pe_rel.{u} hc hi hg h hb
  constructor
  · rintro ⟨I, hI⟩
    have hI' : ∀ c ∈ V', I.Models c.2 := fun c hc => hI _ (List.mem_map_of_mem hc)
    cases he : p.eqnInit || eqFound Cs with
    | true =>
      rw [he] at r
      obtain ⟨F, hF, -, -, h2⟩ := r.back hG I (fun h => by cases h) hI'
      refine ⟨I.reint F hF, fun C hC => ?_⟩
      obtain ⟨c, hc, rfl⟩ := mem_numbered' hC
      exact h2 c hc
    | false =>
      rw [he] at r
      have hne : ∀ c ∈ numbered Cs, ∀ K ∈ c.2, K.equ = false := by
        intro c hc K hK
        have he := (Bool.or_eq_false_iff.1 he).2
        simp only [eqFound, List.any_eq_false, Bool.not_eq_true] at he
        exact he _ (mem_numbered hc).2 K hK
      have hne' := r.noeq rfl hne
      let v : Nat → I.D := fun x => (I.inhab (p.sg.vty x)).choose
      have hv : I.Sorted v := fun x => (I.inhab (p.sg.vty x)).choose_spec
      obtain ⟨F, hF, -, -, h2⟩ := r.back hG (termModel hc.sig hc.fo hV I v) (fun _ => ⟨_, tm_herb hc.sig hc.fo hV I v⟩) fun c hc' =>
        tm_models hc.sig hc.fo hV _ _ hv (h1 c hc').fo (hne' c hc') (hI' c hc')
      refine ⟨(termModel hc.sig hc.fo hV I v).reint F hF, fun C hC => ?_⟩
      obtain ⟨c, hc, rfl⟩ := mem_numbered' hC
      exact h2 c hc
  · rintro ⟨I, hI⟩
    refine ⟨I, fun D hD => ?_⟩
    obtain ⟨c, hc, rfl⟩ := List.mem_map.1 hD
    exact r.sound I (fun c hc => hI _ (mem_numbered hc).2) c hc

/-- C59: if gates are not used (the default), the result has a model if and only if the clauses given have one. -/
theorem pe_satisfiable (hc : PeCtx p) (hV : ∀ ty, ty ≠ p.sg.fty 1 → ∃ x, p.sg.vty x = ty) (hi : PeInput p Cs b) (hg : p.gates = false)
    (h : predElim p k Cs b = some (b', Ds)) (hb : BankAgrees p.sg b') :
    (∃ I : Interp.{u} p.sg, ∀ D ∈ Ds, I.Models D) ↔ ∃ I : Interp.{u} p.sg, ∀ C ∈ Cs, I.Models C :=
  pe_back trivial hc hV hi (fun h => by rw [hg] at h; cases h) h hb

/-- C59: with gates this holds for clause sets in which, for each predicate, clauses that can be part of a gate do not contradict each other, or there is at most one of each sign.
For all other clause sets it is wrong, see `pe_gates_wrong`. -/
theorem pe_gates_satisfiable_partial (hc : PeCtx p) (hV : ∀ ty, ty ≠ p.sg.fty 1 → ∃ x, p.sg.vty x = ty) (hi : PeInput p Cs b) (hg : PeGates p Cs)
    (hok : GatesOK.{u} p.sg (numbered Cs))
    (h : predElim p k Cs b = some (b', Ds)) (hb : BankAgrees p.sg b') :
    (∃ I : Interp.{u} p.sg, ∀ D ∈ Ds, I.Models D) ↔ ∃ I : Interp.{u} p.sg, ∀ C ∈ Cs, I.Models C :=
  pe_back trivial hc hV hi (fun _ => ⟨hg, fun _ => hok⟩) h hb

/-- C59: if there is an equation, or the flag `eqn_found` happens to be set from the start, every model of the result becomes a model of the clauses given, if only the meaning of predicates that have been eliminated is changed. -/
theorem pe_converts (hc : PeCtx p) (hi : PeInput p Cs b) (hg : p.gates = false) (heq : p.eqnInit = true ∨ ∃ C ∈ Cs, ∃ L ∈ C, L.r ≠ tTrue)
    (h : predElim p k Cs b = some (b', Ds)) (hb : BankAgrees p.sg b') :
    Converts.{u} p.sg (fun f => f ≠ 1 ∧ f ≠ 2 ∧ p.sg.fty f = p.sg.fty 1 ∧ (∃ C ∈ Cs, ∃ K ∈ C, K.predCode? = some f) ∧ ∀ D ∈ Ds, ∀ K ∈ D, K.predCode? ≠ some f) Ds Cs := by
  obtain ⟨V', rfl, h1, r⟩ := pe_rel.{u} (G := True) hc hi (fun h => by rw [hg] at h; cases h) h hb
  have he : (p.eqnInit || eqFound Cs) = true := by
    rcases heq with h | ⟨C, hC, L, hL, h⟩
    · rw [h, Bool.true_or]
    · rw [Bool.or_eq_true]
      exact .inr (List.any_eq_true.2 ⟨C, hC, List.any_eq_true.2 ⟨L, hL, by simpa [Lit.equ] using h⟩⟩)
  rw [he] at r
  intro I hI
  obtain ⟨F, hF, f1, -, f2⟩ := r.back trivial I (fun h => by cases h) fun c hc => hI _ (List.mem_map_of_mem hc)
  refine ⟨F, hF, fun f hf => ?_, fun C hC => ?_⟩
  · by_contra hne
    obtain ⟨⟨c, g1, g2⟩, g3⟩ := f1 f hne
    have hp := predOK_of hc.sig hc.fo (hi.fo _ (mem_numbered g1).2) (Nat.pos_of_ne_zero g2)
    refine hf ⟨hp.one, hp.two, hp.ty, ?_, fun D hD K hK => ?_⟩
    · obtain ⟨K, hK, hKf⟩ := cnt_pos_iff.1 (Nat.pos_of_ne_zero g2)
      exact ⟨_, (mem_numbered g1).2, K, hK, hKf⟩
    · obtain ⟨d, hd, rfl⟩ := List.mem_map.1 hD
      simpa using List.countP_eq_zero.1 (g3 d hd) K hK
  · obtain ⟨c, hc, rfl⟩ := mem_numbered' hC
    exact f2 c hc

/-- C59: the elimination takes no variables away from the bank; if no code has been used, it has the same variables. -/
theorem pe_bank (hb : b.Inv) (h : predElim p k Cs b = some (b', Ds)) :
    b'.Inv ∧ (∀ ty, b.vstk ty <+: b'.vstk ty) ∧ b.fresh ≤ b'.fresh ∧ (b'.fresh = b.fresh → b'.vstk = b.vstk) := by
  unfold predElim at h
  split at h
  · cases h
  · rename_i s hs
    simp only [Option.map_eq_some_iff, Prod.mk.injEq] at h
    obtain ⟨s', h1, rfl, rfl⟩ := h
    have e : s.vars = b := by
      obtain ⟨-, -, e3⟩ := scanAll_same (p := p) (numbered Cs) ⟨numbered Cs, Cs.length, fun _ => none, [], [], b⟩
      unfold buildQueue at hs
      simp only [Option.map_eq_some_iff] at hs
      obtain ⟨s1, h0, rfl⟩ := hs
      show s1.vars = b
      split at h0
      · rw [(gateStatuses_same h0).2.2.1, e3]
      · cases h0
        exact e3
    have := peLoop_bank (e ▸ hb) h1
    rw [e] at this
    exact this

end

namespace PeEx
open BceEx (sig sigOK foSig altTyped allVars a P Q inpEq inpEq_fo inpEq_even)

/-- A bank with the variables `X2`, `X4`, `X6`, `X8`. -/
def bank : VarBank := ⟨8, fun ty => if ty = 2 then [2, 4, 6, 8] else [], fun _ => 0⟩

theorem bank_inv : bank.Inv := by
  refine ⟨rfl, fun ty c hc => ?_, fun ty => ?_, fun ty ty' c hc hc' => ?_, fun ty => Nat.zero_le _⟩
  · simp only [bank] at hc ⊢
    split at hc
    · simp at hc
      omega
    · cases hc
  · simp only [bank]
    split <;> simp
  · simp only [bank] at hc hc'
    split at hc
    · split at hc'
      · omega
      · cases hc'
    · cases hc

theorem agrees {b' : VarBank} (h : b'.vstk = bank.vstk) : BankAgrees sig b' := by
  intro ty c hc
  rw [h] at hc
  simp only [bank] at hc
  split at hc
  · rename_i e
    subst e
    simp at hc
    rcases hc with rfl | rfl | rfl | rfl <;> rfl
  · cases hc

theorem bank_of {p : PeParams} {Cs Ds : List (List Lit)} {k : Nat} (hp : p.sg = sig) (h : ((predElim p k Cs bank).map fun r => (r.1.fresh, r.2)) = some (8, Ds)) :
    ∃ b', predElim p k Cs bank = some (b', Ds) ∧ BankAgrees p.sg b' := by
  simp only [Option.map_eq_some_iff, Prod.mk.injEq] at h
  obtain ⟨⟨b', Ds'⟩, h1, h2, rfl⟩ := h
  rw [hp]
  exact ⟨b', h1, agrees ((pe_bank bank_inv h1).2.2.2 h2)⟩

/-- Without gates; no tautologies are found. -/
def par : PeParams where
  sg := sig
  pp _ := false
  maxOccs := 0
  gates := false
  ignoreConj := false
  tol := 0
  forceMu := false
  conj _ := false
  taut _ := false
  tautG _ := false
  solve _ := none
  ad t := match t with | .app f _ => f | .var x => x
  eqc := 9
  ord l := l
  pick _ := 0
  eqnInit := false

theorem ctx : PeCtx par := ⟨sigOK, foSig, altTyped, fun l => List.Perm.refl l, fun X h => by cases h⟩

/-- `p(x) ∨ ¬q(x)`; `¬p(x) ∨ q(x)`; `q(a)`; `p(a) ∨ p(x)`. -/
def inp : List (List Lit) := [[P true (.var 2), Q false (.var 2)], [P false (.var 2), Q true (.var 2)], [Q true a], [P true a, P true (.var 2)]]

theorem inp_fo : ∀ C ∈ inp, ∀ K ∈ C, FOLit sig K := by
  intro C hC K hK
  have : K ∈ inp.flatten := List.mem_flatten.2 ⟨C, hC, hK⟩
  simp [inp, P, Q, a] at this
  rcases this with rfl | rfl | rfl | rfl | rfl | rfl | rfl <;>
    exact ⟨by simp [Sig.WTLit, Sig.WT, Sig.WTL, Sig.ty, sig, tTrue], by decide, by decide, fun _ => rfl⟩

theorem inp_even : ∀ C ∈ inp, EvenVars C := by
  intro C hC x hx
  simp [inp] at hC
  rcases hC with rfl | rfl | rfl | rfl <;> simp [cvars, Lit.vars, P, Q, a, tTrue, Term.vars, Term.varsL] at hx <;> subst hx <;> decide

/-- `p(a) ∨ p(x)`; `p(a)`; `¬p(x) ∨ p(x)`. -/
def out : List (List Lit) := [[P true a, P true (.var 2)], [P true a], [P false (.var 2), P true (.var 2)]]

/-- `q` is eliminated. -/
theorem run : ∃ b', predElim par 50 inp bank = some (b', out) ∧ BankAgrees par.sg b' := bank_of rfl (by decide +kernel)

theorem input : PeInput par inp bank := ⟨inp_fo, inp_even, bank_inv⟩

example : ∀ D ∈ out, Entails.{u} sig inp D := by
  obtain ⟨b', h, hb⟩ := run
  exact pe_sound ctx input (fun h => by cases h) h hb

example : (∀ D ∈ out, (∀ K ∈ D, FOLit sig K) ∧ EvenVars D) ∧ ∀ f, (∃ D ∈ out, ∃ K ∈ D, K.predCode? = some f) → ∃ C ∈ inp, ∃ K ∈ C, K.predCode? = some f := by
  obtain ⟨b', h, hb⟩ := run
  exact pe_wellformed ctx input (fun h => by cases h) h hb

example : (∃ I : Interp.{u} sig, ∀ D ∈ out, I.Models D) ↔ ∃ I : Interp.{u} sig, ∀ C ∈ inp, I.Models C := by
  obtain ⟨b', h, hb⟩ := run
  exact pe_satisfiable ctx allVars input rfl h hb

/-- `x ≠ a ∨ x = a` and the empty clause. -/
def outEq : List (List Lit) := [[⟨false, .var 2, a⟩, ⟨true, .var 2, a⟩], []]

/-- Both predicates are eliminated. -/
theorem runEq : ∃ b', predElim par 50 inpEq bank = some (b', outEq) ∧ BankAgrees par.sg b' := bank_of rfl (by decide +kernel)

example : Converts.{u} sig (fun f => f ≠ 1 ∧ f ≠ 2 ∧ sig.fty f = sig.fty 1 ∧ (∃ C ∈ inpEq, ∃ K ∈ C, K.predCode? = some f) ∧ ∀ D ∈ outEq, ∀ K ∈ D, K.predCode? ≠ some f)
    outEq inpEq := by
  obtain ⟨b', h, hb⟩ := runEq
  exact pe_converts ctx ⟨inpEq_fo, inpEq_even, bank_inv⟩ rfl (.inr ⟨_, List.mem_cons_self, ⟨false, .var 2, a⟩, by simp, by decide⟩) h hb

/-- `¬q(x) ∨ q(x)`. -/
def tnd : List Lit := [Q false (.var 2), Q true (.var 2)]

/-- With gates. -/
def parG : PeParams :=
  { par with
    gates := true
    tautG := (· == tnd)
    solve := fun Xs => if Xs.map SatClause.lits = [[1], [-1]] then some [0, 1] else none }

theorem ctxG : PeCtx parG := ⟨sigOK, foSig, altTyped, fun l => List.Perm.refl l, fun X h => by cases h⟩

/-- `q(a)`; `q(a) ∨ q(x)`. -/
def outG : List (List Lit) := [[Q true a], [Q true a, Q true (.var 2)]]

/-- `p(x) ↔ q(x)` is recognised as gate, and `p` is eliminated although it occurs twice in a clause. -/
theorem runG : ∃ b', predElim parG 50 inp bank = some (b', outG) ∧ BankAgrees par.sg b' := bank_of rfl (by decide +kernel)

theorem gates : PeGates parG inp := by
  refine ⟨fun Xs core h α hα => ?_, fun X hX => ?_, fun C hC K hK => ?_⟩
  · simp only [parG] at h
    split at h
    · rename_i e
      cases h
      obtain ⟨x, Ys, rfl, hx, e⟩ := List.map_eq_cons_iff.1 e
      obtain ⟨y, Zs, rfl, hy, -⟩ := List.map_eq_cons_iff.1 e
      obtain ⟨l, hl, h1⟩ := hα x (by simp)
      obtain ⟨m, hm, h2⟩ := hα y (by simp)
      rw [hx, List.mem_singleton] at hl
      rw [hy, List.mem_singleton] at hm
      subst hl hm
      simp [PLitTrue] at h1 h2
      exact h2 h1
    · cases h
  · have : X = tnd := by simpa [parG] using hX
    subst this
    refine ⟨fun t => match t with | .var x => x | .app f _ => f, [Q true (.var 2)], [Q false (.var 2)], 20, ?_, ⟨?_, ?_, ?_, ?_⟩, ?_⟩
    · rintro s t ⟨L, hL, hs⟩ ⟨K, hK, ht⟩ e
      simp [tnd, Q] at hL hK
      rcases hL with rfl | rfl <;> rcases hK with rfl | rfl <;> rcases hs with rfl | rfl <;> rcases ht with rfl | rfl <;> simp [tTrue] at e ⊢
    · simp [tnd, Q]
    · simp [tnd, Q]
    · simp
    · simp
    · decide +kernel
  · have : K ∈ inp.flatten := List.mem_flatten.2 ⟨C, hC, hK⟩
    simp [inp, P, Q, a] at this
    rcases this with rfl | rfl | rfl | rfl | rfl | rfl | rfl <;> decide

theorem gate_cl {c : Nat × List Lit} {f : Nat} {s : Bool} (hc : c ∈ numbered inp) (h : GateCl f s c.2) :
    (s = true ∧ (f = 20 ∧ c = (0, [P true (.var 2), Q false (.var 2)]) ∨ f = 22 ∧ c = (1, [P false (.var 2), Q true (.var 2)]))) ∨
    (s = false ∧ (f = 22 ∧ c = (0, [P true (.var 2), Q false (.var 2)]) ∨ f = 20 ∧ c = (1, [P false (.var 2), Q true (.var 2)]))) := by
  obtain ⟨ts, R, h1, h2, h3, -⟩ := h
  have hm := h1.mem_iff.2 (List.mem_cons_self ..)
  have hn : numbered inp = [(0, [P true (.var 2), Q false (.var 2)]), (1, [P false (.var 2), Q true (.var 2)]), (2, [Q true a]), (3, [P true a, P true (.var 2)])] := by decide
  rw [hn] at hc
  simp only [List.mem_cons, List.not_mem_nil, or_false] at hc
  rcases hc with rfl | rfl | rfl | rfl
  · simp [P, Q] at hm
    rcases hm with ⟨rfl, rfl, -⟩ | ⟨rfl, rfl, -⟩ <;> simp
  · simp [P, Q] at hm
    rcases hm with ⟨rfl, rfl, -⟩ | ⟨rfl, rfl, -⟩ <;> simp
  · simp [Q] at hm
    obtain ⟨-, -, rfl⟩ := hm
    exact absurd h3 (by decide)
  · have h4 := cnt_perm (f := f) h1
    have hf : f = 20 := by
      simp [P] at hm
      rcases hm with ⟨-, rfl, -⟩ | ⟨-, rfl, -⟩ <;> rfl
    subst hf
    rw [show PeProof.cnt 20 [P true a, P true (.var 2)] = 2 from rfl] at h4
    simp only [PeProof.cnt, List.countP_cons] at h4 h2
    rw [h2] at h4
    split at h4 <;> omega

theorem gatesOK : GatesOK.{u} sig (numbered inp) := by
  refine fun f => .inr ⟨fun c hc d hd h h' => ?_, fun c hc d hd h h' => ?_⟩
  · rcases gate_cl hc h with ⟨h1, ⟨h2, h3⟩ | ⟨h2, h3⟩⟩ | ⟨h1, -⟩
    · rcases gate_cl hd h' with ⟨g1, ⟨g2, g3⟩ | ⟨g2, g3⟩⟩ | ⟨g1, -⟩
      · rw [h3, g3]
      · omega
      · cases g1
    · rcases gate_cl hd h' with ⟨g1, ⟨g2, g3⟩ | ⟨g2, g3⟩⟩ | ⟨g1, -⟩
      · omega
      · rw [h3, g3]
      · cases g1
    · cases h1
  · rcases gate_cl hc h with ⟨h1, -⟩ | ⟨h1, ⟨h2, h3⟩ | ⟨h2, h3⟩⟩
    · cases h1
    · rcases gate_cl hd h' with ⟨g1, -⟩ | ⟨g1, ⟨g2, g3⟩ | ⟨g2, g3⟩⟩
      · cases g1
      · rw [h3, g3]
      · omega
    · rcases gate_cl hd h' with ⟨g1, -⟩ | ⟨g1, ⟨g2, g3⟩ | ⟨g2, g3⟩⟩
      · cases g1
      · omega
      · rw [h3, g3]

example : (∃ I : Interp.{u} sig, ∀ D ∈ outG, I.Models D) ↔ ∃ I : Interp.{u} sig, ∀ C ∈ inp, I.Models C := by
  obtain ⟨b', h, hb⟩ := runG
  exact pe_gates_satisfiable_partial ctxG allVars ⟨inp_fo, inp_even, bank_inv⟩ gates gatesOK h hb

/-- A propositional literal. -/
def A (pos : Bool) (f : Nat) : Lit := ⟨pos, .app f [], tTrue⟩

/-- `A ∨ ¬B ∨ C`; `A ∨ B`; `¬A ∨ ¬C`; `¬B`; `C`. -/
def inpW : List (List Lit) := [[A true 30, A false 31, A true 32], [A true 30, A true 31], [A false 30, A false 32], [A false 31], [A true 32]]

/-- `C ∨ ¬B ∨ ¬C`. -/
def tndW : List Lit := [A true 32, A false 31, A false 32]

def parW : PeParams :=
  { par with
    gates := true
    tautG := (· == tndW)
    solve := fun Xs => if Xs.map SatClause.lits = [[-1], [2], [-2, 1]] then some [0, 1, 2] else if (Xs.map SatClause.lits)[0]? = some [] then some [0] else none }

theorem ctxW : PeCtx parW := ⟨sigOK, foSig, altTyped, fun l => List.Perm.refl l, fun X h => by cases h⟩

theorem inpW_fo : ∀ C ∈ inpW, ∀ K ∈ C, FOLit sig K := by
  intro C hC K hK
  have : K ∈ inpW.flatten := List.mem_flatten.2 ⟨C, hC, hK⟩
  simp [inpW, A] at this
  rcases this with rfl | rfl | rfl | rfl | rfl | rfl | rfl | rfl | rfl <;>
    exact ⟨by simp [Sig.WTLit, Sig.WT, Sig.WTL, Sig.ty, sig, tTrue], by decide, by decide, fun _ => rfl⟩

theorem inpW_even : ∀ C ∈ inpW, EvenVars C := by
  intro C hC x hx
  simp [inpW] at hC
  rcases hC with rfl | rfl | rfl | rfl | rfl <;> simp [cvars, Lit.vars, A, tTrue, Term.vars, Term.varsL] at hx

/-- All clauses are removed. -/
theorem runW : ∃ b', predElim parW 50 inpW bank = some (b', []) ∧ BankAgrees parW.sg b' := bank_of rfl (by decide +kernel)

theorem gatesW : PeGates parW inpW := by
  refine ⟨fun Xs core h α hα => ?_, fun X hX => ?_, fun C hC K hK => ?_⟩
  · simp only [parW] at h
    split at h
    · rename_i e
      cases h
      obtain ⟨x, Ys, rfl, hx, e⟩ := List.map_eq_cons_iff.1 e
      obtain ⟨y, Zs, rfl, hy, e⟩ := List.map_eq_cons_iff.1 e
      obtain ⟨z, Zs, rfl, hz, -⟩ := List.map_eq_cons_iff.1 e
      obtain ⟨l, hl, h1⟩ := hα x (by simp)
      obtain ⟨m, hm, h2⟩ := hα y (by simp)
      obtain ⟨n, hn, h3⟩ := hα z (by simp)
      rw [hx, List.mem_singleton] at hl
      rw [hy, List.mem_singleton] at hm
      rw [hz] at hn
      subst hl hm
      simp at hn
      rcases hn with rfl | rfl
      · simp [PLitTrue] at h2 h3
        exact h3 h2
      · simp [PLitTrue] at h1 h3
        exact h1 h3
    · split at h
      · rename_i e
        cases h
        cases Xs with
        | nil => cases e
        | cons x Xs =>
          obtain ⟨l, hl, -⟩ := hα x (by simp)
          simp at e
          rw [e] at hl
          cases hl
      · cases h
  · have : X = tndW := by simpa [parW] using hX
    subst this
    refine ⟨fun t => match t with | .var x => x | .app f _ => f, [A true 32], [A false 31, A false 32], 20, ?_, ⟨?_, ?_, ?_, ?_⟩, ?_⟩
    · rintro s t ⟨L, hL, hs⟩ ⟨K, hK, ht⟩ e
      simp [tndW, A] at hL hK
      rcases hL with rfl | rfl | rfl <;> rcases hK with rfl | rfl | rfl <;> rcases hs with rfl | rfl <;> rcases ht with rfl | rfl <;> simp [tTrue] at e ⊢
    · simp [tndW, A]
    · simp [tndW, A]
    · simp
    · decide
    · decide +kernel
  · have : K ∈ inpW.flatten := List.mem_flatten.2 ⟨C, hC, hK⟩
    simp [inpW, A] at this
    rcases this with rfl | rfl | rfl | rfl | rfl | rfl | rfl | rfl | rfl <;> decide

theorem question_even : ∀ C ∈ BceEx.question, EvenVars C := by
  intro C hC x hx
  simp [BceEx.question] at hC
  rcases hC with rfl | rfl <;> simp [cvars, Lit.vars, P, a, tTrue, Term.vars, Term.varsL] at hx
  subst hx
  decide

theorem question_run : ∃ b', predElim par 50 BceEx.question bank = some (b', []) ∧ BankAgrees par.sg b' := bank_of rfl (by decide +kernel)

end PeEx

/-- C59: the pseudo predicate `$answer` is not exempt, as in C57: from `¬p(x) ∨ $answer(x)`, `p(a)` nothing is left, and the answer `a` is lost. -/
theorem pe_loses_answer : ∃ (p : PeParams) (Cs : List (List Lit)) (b b' : VarBank) (k : Nat), PeCtx p ∧ p.gates = false ∧ PeInput p Cs b ∧
    predElim p k Cs b = some (b', []) ∧ BankAgrees p.sg b' ∧ ∀ I : Interp.{u} p.sg, I.NoAnswer 16 → ¬ ∀ C ∈ Cs, I.Models C := by
  obtain ⟨b', h, hb⟩ := PeEx.question_run
  exact ⟨PeEx.par, BceEx.question, PeEx.bank, b', 50, PeEx.ctx, rfl, ⟨BceEx.question_fo, PeEx.question_even, PeEx.bank_inv⟩, h, hb, BceEx.question_contra⟩

/-- C59: with gates the elimination can turn an unsatisfiable clause set into a satisfiable one (here the empty one), because the inner loop of `check_tautologies`
(CLAUSES/ccl_pred_elim.c:834) increments the wrong variable, so that only one resolvent of the gate is tested. -/
theorem pe_gates_wrong : ∃ (p : PeParams) (Cs : List (List Lit)) (b b' : VarBank) (k : Nat), PeCtx p ∧ (∀ ty, ty ≠ p.sg.fty 1 → ∃ x, p.sg.vty x = ty) ∧ PeInput p Cs b ∧ PeGates p Cs ∧
    predElim p k Cs b = some (b', []) ∧ BankAgrees p.sg b' ∧ ¬ ∃ I : Interp.{u} p.sg, ∀ C ∈ Cs, I.Models C := by
  obtain ⟨b', h, hb⟩ := PeEx.runW
  refine ⟨PeEx.parW, PeEx.inpW, PeEx.bank, b', 50, PeEx.ctxW, BceEx.allVars, ⟨PeEx.inpW_fo, PeEx.inpW_even, PeEx.bank_inv⟩, PeEx.gatesW, h, hb, ?_⟩
  rintro ⟨I, hI⟩
  have hv : I.Sorted fun x => (I.inhab (BceEx.sig.vty x)).choose := fun x => (I.inhab (BceEx.sig.vty x)).choose_spec
  obtain ⟨L, hL, h1⟩ := hI [PeEx.A true 30, PeEx.A true 31] (by simp [PeEx.inpW]) _ hv
  obtain ⟨M, hM, h2⟩ := hI [PeEx.A false 30, PeEx.A false 32] (by simp [PeEx.inpW]) _ hv
  obtain ⟨K, hK, h3⟩ := hI [PeEx.A false 31] (by simp [PeEx.inpW]) _ hv
  obtain ⟨N, hN, h4⟩ := hI [PeEx.A true 32] (by simp [PeEx.inpW]) _ hv
  simp only [List.mem_cons, List.not_mem_nil, or_false] at hL hM hK hN
  subst hK hN
  have h3 : I.fn 31 [] ≠ I.fn 1 [] := h3
  have h4 : I.fn 32 [] = I.fn 1 [] := h4
  rcases hL with rfl | rfl
  · have h1 : I.fn 30 [] = I.fn 1 [] := h1
    rcases hM with rfl | rfl
    · exact (show I.fn 30 [] ≠ I.fn 1 [] from h2) h1
    · exact (show I.fn 32 [] ≠ I.fn 1 [] from h2) h4
  · exact h3 (show I.fn 31 [] = I.fn 1 [] from h1)

end Verif.Props
