import Verif.Control.AnswersProof
import Verif.Props.Problem

/-!
# C74: reported answers are correct

If a problem has questions, the prover prints the clauses of positive answer literals that it derives as answers (`printAnswer`, Control/Answers.lean): a disjunction of tuples of terms.
`AnswerSymbol p ws n s w` says that `s` is the symbol made for the answers to the question `w`; `w.Answered I v es` that the body of `w` is true if its variables have the values
`es`.  The other conditions are those of C55.
-/

namespace Verif.Props
open Verif CNFProof Form SaturateProof AnswersProof SemProof

universe u
variable {sg : Sig} {p : CnfParams} {k : Nat} {ws : List PForm} {b b' : VarBank} {n n' : Nat} {Cs : List (List Lit)} {ds : List SkDecl}

/-- A clause of positive answer literals with terms made for questions. -/
def AnswerClause (p : CnfParams) (ws : List PForm) (n : Nat) (C : List Lit) : Prop :=
  ∀ L ∈ C, ∃ s ts w, L = ⟨true, .app p.ac [.app s ts], tTrue⟩ ∧ AnswerSymbol p ws n s w

/-- One of the printed tuples answers its question; `ev` gives the values of terms. -/
def SomeAnswered (p : CnfParams) (ws : List PForm) (n : Nat) (C : List Lit) (I : Interp.{u} sg) (v : Nat → I.D) (ev : Term → I.D) : Prop :=
  ∃ L ∈ C, ∃ s ts w, L = ⟨true, .app p.ac [.app s ts], tTrue⟩ ∧ answerItem p.ac L = .tuple ts ∧ AnswerSymbol p ws n s w ∧ w.form.stripEx.1.length = ts.length ∧
    w.Answered I v (ts.map ev)

/-- **C74, answers with new symbols**: in every model of the axioms with at least two individuals, either a goal without answer literal is true, or the symbols introduced by the
prover can be interpreted such that, whatever the values of the variables in the printed terms, one of the tuples answers its question. -/
theorem answers_hold (hs : SigOK sg) (e : problemCNF sg p k ws b n = some (Cs, b', n', ds)) (hb : b.Inv) (ha : BankAgrees sg b') (had : AnswerDecl sg p.ac p.ind n)
    (ho : ∀ w ∈ ws, PForm.OK sg b.fresh n w) (hd : Declared sg ds) (hav : ∀ w ∈ ws, w.form.Avoids p.ac) (halt : AltTyped sg) {m : Bool} {s : SatState}
    (hr : SReach sg m Cs s) {C : List Lit} (hC : C ∈ s.all) (hans : AnswerClause p ws n C) (I : Interp.{u} sg) (hax : ∀ w ∈ ws, ¬ w.IsGoal → w.form.Valid I)
    (h2 : ∃ c0 c1, I.mem p.ind c0 ∧ I.mem p.ind c1 ∧ c0 ≠ c1) :
    OtherGoal p ws I ∨ ∃ F, ∃ h : I.FnOK F, (∀ s, s < n → s ≠ p.ac → F s = I.fn s) ∧ ∀ v, I.Sorted v → SomeAnswered p ws n C I v ((I.reint F h).eval v) := by
  by_cases hother : OtherGoal p ws I
  · exact .inl hother
  refine .inr ?_
  obtain ⟨c0, c1, m0, m1, hne⟩ := h2
  have out := problem_out.{u} hs e hb ha had ho hd
  have hn2 : 2 < n := Nat.lt_trans had.low had.high
  have h1 : (1 : Nat) ≠ p.ac := by have := had.low; omega
  obtain ⟨v0, hv0⟩ : ∃ v0 : Nat → I.D, I.Sorted v0 := ⟨fun x => (I.inhab (sg.vty x)).choose, fun x => (I.inhab (sg.vty x)).choose_spec⟩
  have hdec : ∀ s w, AnswerSymbol p ws n s w → sg.fargs s = w.form.stripEx.1.map sg.vty ∧ sg.fty s = p.ind ∧ ¬ sg.distinct s := fun s w h =>
    out.declPre _ (symbol_decl ws (fun w hw => (ho w hw).type) h).1
  have hasked : ∀ s w, AnswerSymbol p ws n s w → w ∈ ws ∧ asks p w = true := fun s w h => by
    have := List.mem_of_getElem? h.2
    exact List.mem_filter.1 this
  have hclosed : ∀ s w, AnswerSymbol p ws n s w → w.form.Closed := fun s w h => ((ho w (hasked s w h).1).goal (asks_goal (hasked s w h).2)).1
  have ok1 := skFn_ok I hn2 (v0 := v0) m0 m1 (fun s w h => (hdec s w h).2)
  have low1 : ∀ s, s < n → skFn I p ws n v0 c0 c1 s = I.fn s := fun s hs => skFn_low I fun ⟨w, h⟩ => by have := h.1; omega
  obtain ⟨W, hW1, hW2, hW3⟩ : ∃ W : List I.D → I.D, (∀ ds, I.mem (sg.fty p.ac) (W ds)) ∧ W [c0] = I.fn 1 [] ∧ ∀ d, d ≠ c0 → W [d] = I.fn 2 [] := by
    classical
    refine ⟨fun ds => if ds = [c0] then I.fn 1 [] else I.fn 2 [], fun ds => ?_, if_pos rfl, fun d hd => if_neg (by simpa using hd)⟩
    rw [had.ty]
    by_cases hx : ds = [c0]
    · simp only [hx, if_true]
      exact I.fn_mem 1 [] (by rw [hs.targs]; exact .nil)
    · simp only [hx, if_false]
      rw [hs.tf]; exact I.fn_mem 2 [] (by rw [hs.fargs]; exact .nil)
  have ok2 := fnOK_update (I.reint _ ok1) (n := p.ac) had.low had.dist W hW1
  have same2 : ∀ f : Form, f.SymsBelow n → f.Avoids p.ac → ∀ v, f.Holds ((I.reint _ ok1).reint _ ok2) v ↔ f.Holds I v := fun f hf hf' v =>
    (holds_reint_avoid (I.reint _ ok1) ok2 h1 (fun s hs => if_neg hs) f v hf').trans (holds_reint I ok1 (by omega) low1 f v hf)
  have hval : ∀ w ∈ ws, (w.form.Valid ((I.reint _ ok1).reint _ ok2) ↔ w.form.Valid I) := fun w hw =>
    forall_congr' fun v => imp_congr_right fun _ => same2 w.form (ho w hw).syms (hav w hw) v
  have hfnac : ((I.reint _ ok1).reint _ ok2).fn p.ac = W := if_pos rfl
  have hfn1 : ((I.reint _ ok1).reint _ ok2).fn 1 [] = I.fn 1 [] :=
    (congrFun (if_neg h1 : (if 1 = p.ac then W else skFn I p ws n v0 c0 c1 1) = skFn I p ws n v0 c0 c1 1) []).trans (congrFun (low1 1 (by omega)) [])
  have hfns : ∀ s, s ≠ p.ac → ((I.reint _ ok1).reint _ ok2).fn s = skFn I p ws n v0 c0 c1 s := fun s hs => if_neg hs
  have hnac : ∀ s, n ≤ s → s ≠ p.ac := fun s hs => by have := had.high; omega
  have hpre := preproc_true ((I.reint _ ok1).reint _ ok2) (p := p) (n := n) ws ho (fun w hw hg => (hval w hw).2 (hax w hw hg))
    (fun w hw hg hna hV => hother ⟨w, hw, hg, (fun hm => by
      have := (List.mem_filter.1 hm).2
      change asks p w = true at this
      rw [hna] at this
      cases this), (hval w hw).1 hV⟩)
    (fun s w hw v es hv hl hA => by
      have hA : w.Answered I v es := (same2 _ (parts_matrix_syms (ho w (hasked s w hw).1).syms) (parts_matrix_avoids (hav w (hasked s w hw).1)) _).1 hA
      rw [hfns s (hnac s hw.1), hfnac, hfn1, ← hW2]
      unfold skFn
      rw [if_pos ⟨w, hw⟩, if_pos ⟨w, hw, (answered_congr I (hclosed s w hw) hl).1 hA⟩]
      rfl)
  obtain ⟨G, hG, g1, g2⟩ := out.extendPre _ hpre
  have hGI : I.FnOK G := ⟨hG.mem, hG.tf, hG.bool2, hG.dist⟩
  have hlt : ∀ s, s < n → s < (preprocConjectures p.ac p.ind p.addAnswers p.conjQuestions ws n).2.1 := fun s hs => Nat.lt_of_lt_of_le hs out.lePre
  refine ⟨G, hGI, fun s hs hsa => ?_, fun v hv => ?_⟩
  · rw [g1 s (hlt s hs), hfns s hsa]
    exact low1 s hs
  · have snd := saturation_sound.{u} hs halt out.wt hr C hC
    obtain ⟨L, hL, ht⟩ := snd.2 (((I.reint _ ok1).reint _ ok2).reint G hG) g2 v hv
    obtain ⟨s, ts, w, rfl, hw⟩ := hans L hL
    have hwt := (snd.1 _ hL).1
    rw [Sig.wt_app] at hwt
    have hwt' := Sig.wt_app.1 (hwt.2 _ (List.mem_singleton.2 rfl))
    have hlen : w.form.stripEx.1.length = ts.length := by
      have := congrArg List.length hwt'.1
      rw [(hdec s w hw).1] at this
      simpa using this.symm
    refine ⟨_, hL, s, ts, w, rfl, by simp [answerItem], hw, hlen, ?_⟩
    have ht : G p.ac [G s (ts.map ((I.reint G hGI).eval v))] = G 1 [] := answer_true _ ht
    rw [g1 _ (hlt _ had.high), g1 1 (hlt 1 (by omega)), hfn1, g1 s (symbol_decl ws (fun w hw => (ho w hw).type) hw).2, hfnac, hfns s (hnac s hw.1)] at ht
    have hc : skFn I p ws n v0 c0 c1 s (ts.map ((I.reint G hGI).eval v)) = c0 := by
      by_contra hc
      exact I.tf (ht.symm.trans (hW3 _ hc))
    unfold skFn at hc
    rw [if_pos ⟨w, hw⟩] at hc
    split at hc
    · rename_i hx
      obtain ⟨w', hw', hA⟩ := hx
      obtain rfl := symbol_unique hw hw'
      exact (answered_congr I (hclosed s w hw) (hlen.trans (List.length_map (as := ts) _).symm)).1 hA
    · exact (hne hc.symm).elim

/-- **C74**: if the terms of an answer clause contain only symbols of the problem, then in every model of the axioms either a goal without answer literal is true, or, whatever the
values of the variables in the printed terms, one of the printed tuples answers its question.  If there is only one individual, this needs that there is one question, about
individuals. -/
theorem answers_correct (hs : SigOK sg) (e : problemCNF sg p k ws b n = some (Cs, b', n', ds)) (hb : b.Inv) (ha : BankAgrees sg b') (had : AnswerDecl sg p.ac p.ind n)
    (ho : ∀ w ∈ ws, PForm.OK sg b.fresh n w) (hd : Declared sg ds) (hav : ∀ w ∈ ws, w.form.Avoids p.ac) (halt : AltTyped sg) {m : Bool} {s : SatState}
    (hr : SReach sg m Cs s) {C : List Lit} (hC : C ∈ s.all) (hans : AnswerClause p ws n C)
    (hsym : ∀ L ∈ C, ∀ ts, answerItem p.ac L = .tuple ts → ∀ t ∈ ts, t.SymsBelow n ∧ t.Avoids p.ac) (I : Interp.{u} sg) (hax : ∀ w ∈ ws, ¬ w.IsGoal → w.form.Valid I)
    (h2 : (∃ c0 c1, I.mem p.ind c0 ∧ I.mem p.ind c1 ∧ c0 ≠ c1) ∨ (C ≠ [] ∧ ∃ w, asked p ws = [w] ∧ ∀ x ∈ w.form.stripEx.1, sg.vty x = p.ind)) :
    OtherGoal p ws I ∨ ∀ v, I.Sorted v → SomeAnswered p ws n C I v (I.eval v) := by
  by_cases htwo : ∃ c0 c1, I.mem p.ind c0 ∧ I.mem p.ind c1 ∧ c0 ≠ c1
  · refine (answers_hold.{u} hs e hb ha had ho hd hav halt hr hC hans I hax htwo).imp_right ?_
    rintro ⟨F, hF, f1, f2⟩ v hv
    obtain ⟨L, hL, s, ts, w, e1, e2, hw, hl, hA⟩ := f2 v hv
    refine ⟨L, hL, s, ts, w, e1, e2, hw, hl, ?_⟩
    have : ts.map (I.eval v) = ts.map ((I.reint F hF).eval v) := List.map_congr_left fun t ht =>
      (eval_reint_both I hF f1 v t (hsym L hL ts e2 t ht).1 (hsym L hL ts e2 t ht).2).symm
    rw [this]
    exact hA
  · have hone : ∀ c0 c1, I.mem p.ind c0 → I.mem p.ind c1 → c0 = c1 := fun c0 c1 h0 h1 => by
      by_contra hne
      exact htwo ⟨c0, c1, h0, h1, hne⟩
    rcases h2 with h2 | ⟨hCne, w0, hw0, hty⟩
    · exact (htwo h2).elim
    have hgf : GoalFollows.{u} sg ws := problem_proof hs e hb ha had ho hd hav halt hr (.inr ⟨C, hC, fun L hL => by
      obtain ⟨s, ts, w, rfl, -⟩ := hans L hL
      exact ⟨_, rfl⟩⟩)
    obtain ⟨w, hw, hg, hV⟩ := hgf I hax
    by_cases hm : w ∈ asked p ws
    · refine .inr fun v hv => ?_
      rw [hw0, List.mem_singleton] at hm
      subst hm
      have out := problem_out.{u} hs e hb ha had ho hd
      have hex := hV v hv
      rw [← stripEx_eq w.form, exPrefix_holds] at hex
      obtain ⟨es, h1, h3⟩ := hex
      obtain ⟨L, hL⟩ := List.exists_mem_of_ne_nil C hCne
      obtain ⟨s, ts, w', rfl, hw'⟩ := hans L hL
      obtain rfl : w' = w := by
        have := List.mem_of_getElem? hw'.2
        rw [hw0, List.mem_singleton] at this
        exact this
      have hdec := out.declPre _ (symbol_decl ws (fun w hw => (ho w hw).type) hw').1
      have hwt := ((saturation_sound.{u} hs halt out.wt hr C hC).1 _ hL).1
      rw [Sig.wt_app] at hwt
      have hwt' := Sig.wt_app.1 (hwt.2 _ (List.mem_singleton.2 rfl))
      have hargs : ts.map sg.ty = w'.form.stripEx.1.map sg.vty := hwt'.1.trans hdec.1
      have hlen : w'.form.stripEx.1.length = ts.length := by
        have := congrArg List.length hargs
        simpa using this.symm
      refine ⟨_, hL, s, ts, w', rfl, by simp [answerItem], hw', hlen, ?_⟩
      have hes : ts.map (I.eval v) = es := by
        refine List.ext_getElem (by rw [List.length_map, ← hlen]; exact h1.length_eq) fun i hi hi' => ?_
        rw [List.getElem_map]
        have hi0 : i < ts.length := by simpa using hi
        refine hone _ _ ?_ ?_
        · have hti : sg.ty ts[i] = p.ind := by
            have h5 : (ts.map sg.ty)[i]'(by simpa using hi0) = (w'.form.stripEx.1.map sg.vty)[i]'(by simpa [hlen] using hi0) := by simp only [hargs]
            rw [List.getElem_map, List.getElem_map] at h5
            rw [h5]
            exact hty _ (List.getElem_mem _)
          rw [← hti]
          exact eval_mem I hv (hwt'.2 _ (List.getElem_mem _))
        · have h5 := List.Forall₂.get h1 (i := i) (by rw [hlen]; exact hi0) hi'
          rw [← hty _ (List.getElem_mem (by rw [hlen]; exact hi0))]
          exact h5
      show w'.form.stripEx.2.Holds I (updvs v _ _)
      rw [hes]
      exact h3
    · exact .inl ⟨w, hw, hg, hm, hV⟩

/-- **C74, the print**: for an answer clause, one tuple is printed for each literal, and it has one term for each quantified variable of the question. -/
theorem answers_printed (hs : SigOK sg) (e : problemCNF sg p k ws b n = some (Cs, b', n', ds)) (hb : b.Inv) (ha : BankAgrees sg b') (had : AnswerDecl sg p.ac p.ind n)
    (ho : ∀ w ∈ ws, PForm.OK sg b.fresh n w) (hd : Declared sg ds) (halt : AltTyped sg) {m : Bool} {s : SatState} (hr : SReach sg m Cs s) {C : List Lit} (hC : C ∈ s.all)
    (hans : AnswerClause p ws n C) (hne : C ≠ []) :
    ∃ items, printAnswer p.ac C = some items ∧ List.Forall₂ (fun L it => ∃ s ts w, L = ⟨true, .app p.ac [.app s ts], tTrue⟩ ∧ it = AnswerItem.tuple ts ∧ AnswerSymbol p ws n s w ∧
      ts.map sg.ty = w.form.stripEx.1.map sg.vty) C items := by
  have hsem : clauseSemFalse p.ac C = true := List.all_eq_true.2 fun L hL => by
    obtain ⟨s, ts, w, rfl, -⟩ := hans L hL
    simp [Lit.isPseudo]
  refine ⟨C.map (answerItem p.ac), by unfold printAnswer; rw [hsem]; simp [hne], ?_⟩
  rw [List.forall₂_map_right_iff, List.forall₂_same]
  intro L hL
  obtain ⟨s, ts, w, rfl, hw⟩ := hans L hL
  have out := problem_out.{0} hs e hb ha had ho hd
  have hdec := out.declPre _ (symbol_decl ws (fun w hw => (ho w hw).type) hw).1
  have hwt := ((saturation_sound.{0} hs halt out.wt hr C hC).1 _ hL).1
  rw [Sig.wt_app] at hwt
  have hwt' := Sig.wt_app.1 (hwt.2 _ (List.mem_singleton.2 rfl))
  exact ⟨s, ts, w, rfl, by simp [answerItem], hw, hwt'.1.trans hdec.1⟩

namespace AnswersEx
open ProblemEx

theorem asked_inp : asked par inp = [⟨6, false, .qu false 4 (.bin .or (P 4) (Q 4))⟩] := rfl

theorem answer_clause : AnswerClause par inp 22 [⟨true, .app 16 [.app 22 [.var 2]], tTrue⟩] := by
  intro L hL
  rw [List.mem_singleton] at hL
  exact ⟨22, [.var 2], ⟨6, false, .qu false 4 (.bin .or (P 4) (Q 4))⟩, hL, Nat.le_refl _, rfl⟩

/-- The answer `[x]` to the question `∃y (p(y) ∨ q(y))`: the axiom `∀x p(x)` implies `p(x) ∨ q(x)` for all `x`. -/
example (I : Interp.{u} sig) (hax : ∀ v, I.Sorted v → I.eval v (.app 20 [.var 2]) = I.fn 1 []) (v : Nat → I.D) (hv : I.Sorted v) :
    I.fn 20 [v 2] = I.fn 1 [] ∨ I.fn 21 [v 2] = I.fn 1 [] := by
  obtain ⟨b', e⟩ := run_bank
  have hax' : ∀ w ∈ inp, ¬ w.IsGoal → w.form.Valid I := by
    intro w hw hg
    simp only [inp, List.mem_cons, List.not_mem_nil, or_false] at hw
    rcases hw with rfl | rfl
    · exact fun v hv d hd => (hax _ (sorted_updv hv hd)).trans (eval_app I _ 1 []).symm
    · exact (hg (.inr rfl)).elim
  have key := answers_correct (m := true) sigOK e bank_inv (agrees e) answerDecl inp_ok declared inp_avoids altTyped reach_answer
    (C := [⟨true, .app 16 [.app 22 [.var 2]], tTrue⟩]) (by simp [SatState.all]) answer_clause
    (by
      intro L hL ts hts t ht
      rw [List.mem_singleton] at hL
      subst hL
      simp only [answerItem, par, beq_self_eq_true, Bool.and_self, if_true, AnswerItem.tuple.injEq] at hts
      subst hts
      rw [List.mem_singleton] at ht
      subst ht
      exact ⟨trivial, trivial⟩)
    I hax' (.inr ⟨by simp, _, asked_inp, fun _ _ => rfl⟩)
  rcases key with ⟨w, hw, hg, hn, -⟩ | key
  · simp only [inp, List.mem_cons, List.not_mem_nil, or_false] at hw
    rcases hw with rfl | rfl
    · rcases hg with h | h <;> cases h
    · rw [asked_inp] at hn; exact (hn (List.mem_singleton.2 rfl)).elim
  · obtain ⟨L, hL, s, ts, w, e1, -, hw, -, hA⟩ := key v hv
    rw [List.mem_singleton] at hL
    rw [hL] at e1
    simp only [Lit.mk.injEq, true_and, Term.app.injEq, List.cons.injEq, and_true] at e1
    obtain ⟨-, rfl, rfl⟩ := e1
    obtain rfl : _ = w := by simpa [asked_inp] using hw.2
    exact hA

/-- It is printed as one tuple. -/
example : printAnswer 16 [⟨true, .app 16 [.app 22 [.var 2]], tTrue⟩] = some [.tuple [.var 2]] := by simp [printAnswer, clauseSemFalse, Lit.isPseudo, answerItem]

end AnswersEx

end Verif.Props
