import Verif.Clauses.PreprocProof
import Verif.Props.Problem

/-!
# C56: preprocessing of the clause set

`clausalPreproc sg p Cs n` (Clauses/Preproc.lean) is the preprocessing between clausification and saturation: clauses, next free code, new symbols, and the symbols whose definitions
were dropped.  `Converts sg A Cs Ds` says that every model of `Cs` becomes a model of `Ds` if only the meaning of symbols in `A` is changed.  `PreParams.OK` states that the tautology
test is `ClauseIsTautology` and that sorting permutes.
-/

namespace Verif.Props
open Verif PreprocProof CNFProof SaturateProof

universe u
variable {sg : Sig} {p : PreParams} {Cs Ds : List (List Lit)} {n n' : Nat} {ds : List SymDecl} {el : List Nat}

private theorem preproc_all (hs : SigOK sg) (hdi : ∀ s, sg.distinct s → sg.fargs s = []) (hn : 2 < n) (hp : p.OK sg) (hw : ∀ C ∈ Cs, sg.WTClause C ∧ ClauseBelow n C)
    (e : clausalPreproc sg p Cs n = (Ds, n', ds, el)) (hd : SymsDeclared sg ds) :
    n ≤ n' ∧ ds.map SymDecl.code = List.range' n (n' - n) ∧ SetOK sg n' Ds ∧ Converts.{u} sg (CodesIn n n') Cs Ds ∧ Converts.{u} sg (· ∈ el) Ds Cs ∧
    ∀ s ∈ el, p.pseudo s = false ∧ sg.fargs s ≠ [] := by
  simp only [clausalPreproc, Prod.mk.injEq] at e
  obtain ⟨rfl, rfl, rfl, rfl⟩ := e
  obtain ⟨h1, h2, h3, h4, h5⟩ : n ≤ (if p.noPreproc then (Cs, n, []) else setPreprocess sg p Cs n).2.1 ∧
      (if p.noPreproc then (Cs, n, []) else setPreprocess sg p Cs n).2.2.map SymDecl.code =
        List.range' n ((if p.noPreproc then (Cs, n, []) else setPreprocess sg p Cs n).2.1 - n) ∧
      SetOK sg (if p.noPreproc then (Cs, n, []) else setPreprocess sg p Cs n).2.1 (if p.noPreproc then (Cs, n, []) else setPreprocess sg p Cs n).1 ∧
      (∀ I : Interp.{u} sg, (∀ C ∈ (if p.noPreproc then (Cs, n, []) else setPreprocess sg p Cs n).1, I.Models C) → ∀ C ∈ Cs, I.Models C) ∧
      Converts.{u} sg (CodesIn n (if p.noPreproc then (Cs, n, []) else setPreprocess sg p Cs n).2.1) Cs
        (if p.noPreproc then (Cs, n, []) else setPreprocess sg p Cs n).1 := by
    split at hd
    · rename_i hc
      simp only [if_pos hc]
      exact ⟨Nat.le_refl n, by simp, hw, fun I h => h, conv_refl _ _⟩
    · rename_i hc
      simp only [if_neg hc]
      exact setPreprocess_ok hs hn hp hw rfl hd
  obtain ⟨u1, u2, u3, u4⟩ := unfoldNormalize_ok.{u} hs hdi hp h3
  exact ⟨h1, h2, u1, conv_trans h5 (conv_of_models u2), conv_trans u3 (conv_of_models h4), u4⟩

/-- **C56**: preprocessing loses and adds nothing.  Every model of the clauses becomes a model of the result if the new symbols get a suitable meaning, and every model of the result
becomes a model of the clauses if the symbols whose definitions were dropped get a suitable meaning. -/
theorem preproc_models (hs : SigOK sg) (hdi : ∀ s, sg.distinct s → sg.fargs s = []) (hn : 2 < n) (hp : p.OK sg) (hw : ∀ C ∈ Cs, sg.WTClause C ∧ ClauseBelow n C)
    (e : clausalPreproc sg p Cs n = (Ds, n', ds, el)) (hd : SymsDeclared sg ds) :
    Converts.{u} sg (CodesIn n n') Cs Ds ∧ Converts.{u} sg (· ∈ el) Ds Cs :=
  have h := preproc_all.{u} hs hdi hn hp hw e hd
  ⟨h.2.2.2.1, h.2.2.2.2.1⟩

/-- **C56, satisfiability**: the result has a model if and only if the clauses have one. -/
theorem preproc_satisfiable (hs : SigOK sg) (hdi : ∀ s, sg.distinct s → sg.fargs s = []) (hn : 2 < n) (hp : p.OK sg) (hw : ∀ C ∈ Cs, sg.WTClause C ∧ ClauseBelow n C)
    (e : clausalPreproc sg p Cs n = (Ds, n', ds, el)) (hd : SymsDeclared sg ds) :
    (∃ I : Interp.{u} sg, ∀ D ∈ Ds, I.Models D) ↔ ∃ I : Interp.{u} sg, ∀ C ∈ Cs, I.Models C := by
  obtain ⟨h1, h2⟩ := preproc_models.{u} hs hdi hn hp hw e hd
  constructor
  · rintro ⟨I, hI⟩; obtain ⟨F, h, -, hm⟩ := h2 I hI; exact ⟨_, hm⟩
  · rintro ⟨I, hI⟩; obtain ⟨F, h, -, hm⟩ := h1 I hI; exact ⟨_, hm⟩

/-- **C56, well-formed result**: the resulting clauses are well-typed over known symbols; each new symbol has a code of its own that was not in use; no pseudo predicate such as
`$answer` loses its clauses. -/
theorem preproc_wellformed (hs : SigOK sg) (hdi : ∀ s, sg.distinct s → sg.fargs s = []) (hn : 2 < n) (hp : p.OK sg) (hw : ∀ C ∈ Cs, sg.WTClause C ∧ ClauseBelow n C)
    (e : clausalPreproc sg p Cs n = (Ds, n', ds, el)) (hd : SymsDeclared sg ds) :
    (∀ D ∈ Ds, sg.WTClause D ∧ ClauseBelow n' D) ∧ n ≤ n' ∧ (ds.map SymDecl.code).Nodup ∧ (∀ d ∈ ds, CodesIn n n' d.code) ∧ ∀ s ∈ el, p.pseudo s = false := by
  obtain ⟨h1, h2, h3, -, -, h4⟩ := preproc_all.{0} hs hdi hn hp hw e hd
  refine ⟨h3, h1, h2 ▸ List.nodup_range', fun d hd => ?_, fun s hs => (h4 s hs).1⟩
  have : d.code ∈ List.range' n (n' - n) := h2 ▸ List.mem_map_of_mem hd
  rw [List.mem_range'_1] at this
  exact ⟨this.1, by omega⟩

/-- **C56, unfolding**: unfolding a definition in a clause leaves no occurrence of the defined symbol. -/
theorem unfold_removes {pseudo : Nat → Bool} {C D : List Lit} {l r : Term} (hdef : clauseDefinition pseudo 1 D = some (l, r)) (hD : sg.WTClause D) (hC : sg.WTClause C) :
    ∃ f ts, l = .app f ts ∧ ∀ L ∈ unfoldClause sg l r C, L.l.Avoids f ∧ L.r.Avoids f := by
  obtain ⟨⟨f, xs, hd, -⟩, hc⟩ := clauseDefinition_spec (Nat.le_refl 1) hdef
  refine ⟨f, _, hd.eq, unfoldClause_avoids hd ?_ hC⟩
  rcases hc with rfl | rfl
  · exact hD _ (List.mem_singleton.2 rfl)
  · have := hD _ (List.mem_singleton.2 rfl); exact ⟨this.2.1, this.1, this.2.2.symm⟩

private theorem noAnswer_conv {ac : Nat} {A : Nat → Prop} (h : Converts.{u} sg A Cs Ds) (h1 : ¬ A 1) (ha : ¬ A ac) :
    (∃ I : Interp.{u} sg, I.NoAnswer ac ∧ ∀ C ∈ Cs, I.Models C) → ∃ I : Interp.{u} sg, I.NoAnswer ac ∧ ∀ D ∈ Ds, I.Models D := by
  rintro ⟨I, hI, hC⟩
  obtain ⟨F, hF, f1, f2⟩ := h I hC
  refine ⟨I.reint F hF, fun d => ?_, f2⟩
  show F ac [d] ≠ F 1 []
  rw [f1 1 h1, f1 ac ha]
  exact hI d

variable {q : CnfParams} {k : Nat} {ws : List PForm} {b b' : VarBank} {m : Nat} {sk : List SkDecl}

/-- **C56, problems**: a goal follows from the axioms if and only if no interpretation that accepts no answer is a model of the preprocessed clauses. -/
theorem preproc_goal (hs : SigOK sg) (hdi : ∀ s, sg.distinct s → sg.fargs s = []) (e : problemCNF sg q k ws b m = some (Cs, b', n, sk)) (hb : b.Inv) (ha : BankAgrees sg b')
    (had : AnswerDecl sg q.ac q.ind m) (ho : ∀ w ∈ ws, PForm.OK sg b.fresh m w) (hsk : Declared sg sk) (hav : ∀ w ∈ ws, w.form.Avoids q.ac) (hp : p.OK sg) (hps : p.pseudo q.ac = true)
    (e2 : clausalPreproc sg p Cs n = (Ds, n', ds, el)) (hd : SymsDeclared sg ds) :
    GoalFollows.{u} sg ws ↔ ¬ ∃ I : Interp.{u} sg, I.NoAnswer q.ac ∧ ∀ D ∈ Ds, I.Models D := by
  obtain ⟨w1, -, w2, -, -⟩ := problem_wellformed hs e hb ha had ho hsk
  have h1 := had.low
  have h2 := had.high
  rw [problem_answers hs e hb ha had ho hsk hav, not_iff_not]
  obtain ⟨-, -, -, c1, c2, c3⟩ := preproc_all.{u} hs hdi (by omega) hp w1 e2 hd
  refine ⟨noAnswer_conv c1 (fun h => ?_) fun h => ?_, noAnswer_conv c2 (fun h => (c3 1 h).2 hs.targs) fun h => ?_⟩
  · have := h.1; omega
  · have := h.1; omega
  · have := (c3 _ h).1
    rw [hps] at this
    cases this

/-- **C56, proofs**: if saturation of the preprocessed clauses of a problem finds the empty clause or a clause of positive answer literals, then the axioms imply one of the goals. -/
theorem preproc_proof (hs : SigOK sg) (hdi : ∀ s, sg.distinct s → sg.fargs s = []) (e : problemCNF sg q k ws b m = some (Cs, b', n, sk)) (hb : b.Inv) (ha : BankAgrees sg b')
    (had : AnswerDecl sg q.ac q.ind m) (ho : ∀ w ∈ ws, PForm.OK sg b.fresh m w) (hsk : Declared sg sk) (hav : ∀ w ∈ ws, w.form.Avoids q.ac) (hp : p.OK sg) (hps : p.pseudo q.ac = true)
    (e2 : clausalPreproc sg p Cs n = (Ds, n', ds, el)) (hd : SymsDeclared sg ds) (halt : AltTyped sg) {md : Bool} {s : SatState}
    (hr : SReach sg md Ds s) (hsucc : s.success = true ∨ ∃ C ∈ s.all, OnlyAnswers q.ac C) : GoalFollows.{u} sg ws := by
  obtain ⟨w1, -, w2, -, -⟩ := problem_wellformed hs e hb ha had ho hsk
  have h1 := had.low
  have h2 := had.high
  have hwt := fun C hC => ((preproc_wellformed hs hdi (by omega) hp w1 e2 hd).1 C hC).1
  rw [preproc_goal hs hdi e hb ha had ho hsk hav hp hps e2 hd]
  rintro ⟨I, hI, hC⟩
  rcases hsucc with h | ⟨C, h, hans⟩
  · exact saturation_refutes.{u} hs halt hwt hr h ⟨I, hC⟩
  · obtain ⟨v, hv⟩ : ∃ v : Nat → I.D, I.Sorted v := ⟨fun x => (I.inhab (sg.vty x)).choose, fun x => (I.inhab (sg.vty x)).choose_spec⟩
    obtain ⟨L, hL, ht⟩ := ((saturation_sound.{u} hs halt hwt hr C h).2 I hC) v hv
    obtain ⟨t, rfl⟩ := hans L hL
    refine hI (I.eval v t) ?_
    have ht : I.eval v (.app q.ac [t]) = I.eval v tTrue := ht
    rw [SemProof.eval_app, tTrue, SemProof.eval_app] at ht
    exact ht

namespace PreprocEx

/-- No limits, no tautology test, no sorting; code 16 is `$answer`. -/
def par : PreParams := ⟨false, true, some 20, 1000, 19, (· == 16), fun _ _ => false, fun _ => false, fun _ => false, id, id⟩

theorem par_ok (sg : Sig) : par.OK sg := ⟨fun C h => by simp [par] at h, fun C => .refl _, fun Cs => .refl _⟩

/-- 20 is a unary predicate, 21, 22 and the inverse 24 are unary functions, 23 is a constant. -/
def sig : Sig where
  vty _ := 1
  fty f := if f = 21 ∨ f = 22 ∨ f = 23 ∨ f = 24 then 1 else 0
  fargs f := if f = 20 ∨ f = 21 ∨ f = 22 ∨ f = 24 then [1] else []

def c : Term := .app 23 []
def f (t : Term) : Term := .app 21 [t]
def g (t : Term) : Term := .app 22 [t]

/-- `p(f(c))`; `¬p(x)`; `f(x) = g(x)`; `g(x) ≠ g(y) ∨ x = y`. -/
def inp : List (List Lit) :=
  [[⟨true, .app 20 [f c], tTrue⟩], [⟨false, .app 20 [.var 2], tTrue⟩], [⟨true, f (.var 2), g (.var 2)⟩], [⟨false, g (.var 2), g (.var 4)⟩, ⟨true, .var 2, .var 4⟩]]

/-- `p(g(c))`; `¬p(x)`; `inv(g(x)) = x`. -/
theorem run : clausalPreproc sig par inp 24 =
    ([[⟨true, .app 20 [g c], tTrue⟩], [⟨false, .app 20 [.var 2], tTrue⟩], [⟨true, .app 24 [g (.var 2)], .var 2⟩]], 25, [⟨24, [1], 1⟩], [21]) := by decide +kernel

theorem inp_ok : ∀ C ∈ inp, sig.WTClause C ∧ ClauseBelow 24 C := by
  simp [inp, Sig.WTClause, Sig.WTLit, ClauseBelow, Sig.WT, Sig.WTL, Sig.ty, sig, f, g, c, tTrue, Term.SymsBelow, Term.SymsBelowL]

/-- The hypotheses hold for the example, where a definition is unfolded and an injectivity axiom replaced. -/
example := preproc_models.{u} (sg := sig) ⟨rfl, rfl, rfl⟩ (fun s h => by simp [sig] at h) (by decide) (par_ok sig) inp_ok run (by simp [SymsDeclared, sig])

/-- In the example of C55 the axiom `p(x)` is unfolded as the definition `p(x) = $true`, which gives the answer at once. -/
theorem run_answer : clausalPreproc ProblemEx.sig par ProblemEx.out 23 =
    ([[⟨false, .app 21 [.var 2], tTrue⟩, ⟨true, .app 16 [.app 22 [.var 2]], tTrue⟩], [⟨true, .app 16 [.app 22 [.var 2]], tTrue⟩]], 23, [], [20]) := by decide +kernel

example : GoalFollows.{u} ProblemEx.sig ProblemEx.inp := by
  obtain ⟨b', e⟩ := ProblemEx.run_bank
  exact preproc_proof (md := true) ProblemEx.sigOK (fun s h => by simp [ProblemEx.sig] at h) e ProblemEx.bank_inv (ProblemEx.agrees e) ProblemEx.answerDecl ProblemEx.inp_ok ProblemEx.declared
    ProblemEx.inp_avoids (par_ok _) rfl run_answer (by simp [SymsDeclared]) ProblemEx.altTyped .init
    (.inr ⟨[⟨true, .app 16 [.app 22 [.var 2]], tTrue⟩], by simp [SatState.all, SatState.init], by simp [OnlyAnswers, ProblemEx.par]⟩)

/-- The definition `f(x) = g(x)` unfolded in `p(f(c))`. -/
example := unfold_removes (sg := sig) (pseudo := (· == 16)) (C := [⟨true, .app 20 [f c], tTrue⟩]) (D := [⟨true, f (.var 2), g (.var 2)⟩]) (l := f (.var 2)) (r := g (.var 2)) (by decide +kernel)
  (by simp [Sig.WTClause, Sig.WTLit, Sig.WT, Sig.WTL, Sig.ty, sig, f, g]) (by simp [Sig.WTClause, Sig.WTLit, Sig.WT, Sig.WTL, Sig.ty, sig, f, c, tTrue])

end PreprocEx
end Verif.Props
