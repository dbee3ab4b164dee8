import Verif.Formulas.Distinct
import Verif.Formulas.ProblemProof

/-!
# C75: `$distinct`

`processDistinct fs` (Formulas/Distinct.lean) replaces the formulas `$distinct(c₁, …, cₖ)` of the input by disequations.  `InForm.Valid I` is truth in the interpretation `I`,
`InputFollows` that the axioms of the input imply one of its goals, `GoalFollows` the same for the formulas that are processed further.
-/

namespace Verif.Props
open Verif CNFProof Form SemProof

universe u
variable {sg : Sig}

private theorem popToForm_holds (I : Interp.{u} sg) (v : Nat → I.D) (st : List Form) : ∀ res : Form, (popToForm .and st res).Holds I v ↔ (∀ f ∈ st, f.Holds I v) ∧ res.Holds I v := by
  induction st with
  | nil => intro res; simp [popToForm]
  | cons h st ih =>
    intro res
    simp only [popToForm, ih, List.forall_mem_cons, Holds, BOp.Holds]
    tauto

private theorem stackToForm_holds (I : Interp.{u} sg) (v : Nat → I.D) (st : List Form) : (stackToForm .and st).Holds I v ↔ ∀ f ∈ st, f.Holds I v := by
  unfold stackToForm
  split
  · rename_i h
    have : st = [] := by simpa using h
    subst this
    simp only [Holds, tTrue, eval_app, List.map_nil, List.not_mem_nil, false_imp_iff, implies_true]
  · rename_i h st' e
    rw [popToForm_holds]
    have : ∀ f, f ∈ st ↔ f ∈ st' ∨ f = h := fun f => by rw [← List.mem_reverse, e, List.mem_cons, or_comm]
    constructor
    · rintro ⟨h1, h2⟩ f hf
      rcases (this f).1 hf with h3 | rfl
      exacts [h1 f h3, h2]
    · exact fun h1 => ⟨fun f hf => h1 f ((this f).2 (.inl hf)), h1 h ((this h).2 (.inr rfl))⟩

private theorem disequs_holds (I : Interp.{u} sg) (v : Nat → I.D) (cs : List Nat) : (∀ f ∈ disequs cs, f.Holds I v) ↔ (cs.map fun c => I.fn c []).Nodup := by
  induction cs with
  | nil => simp [disequs]
  | cons c cs ih =>
    rw [disequs, List.forall_mem_append, ih, List.map_cons, List.nodup_cons]
    refine and_congr_left fun _ => ?_
    have key : ∀ d, (Form.lit false (.app c []) (.app d [])).Holds I v ↔ I.fn c [] ≠ I.fn d [] := fun d => by
      show I.eval v (.app c []) ≠ I.eval v (.app d []) ↔ _
      rw [eval_app, eval_app]
      exact Iff.rfl
    rw [List.mem_map]
    constructor
    · rintro h ⟨d, hd, e⟩
      exact (key d).1 (h _ (List.mem_map_of_mem hd)) e.symm
    · intro h f hf
      obtain ⟨d, hd, rfl⟩ := List.mem_map.1 hf
      exact (key d).2 fun e => h ⟨d, hd, e.symm⟩

/-- **C75, expansion**: the formula made for `$distinct(c₁, …, cₖ)` is true if and only if the constants have different values. -/
theorem expandDistinct_correct (I : Interp.{u} sg) (cs : List Nat) (v : Nat → I.D) : (expandDistinct cs).Holds I v ↔ (cs.map fun c => I.fn c []).Nodup :=
  (stackToForm_holds I v _).trans (disequs_holds I v cs)

private theorem expand_valid (I : Interp.{u} sg) (cs : List Nat) : (expandDistinct cs).Valid I ↔ (cs.map fun c => I.fn c []).Nodup := by
  obtain ⟨v0, hv0⟩ : ∃ v0 : Nat → I.D, I.Sorted v0 := ⟨fun x => (I.inhab (sg.vty x)).choose, fun x => (I.inhab (sg.vty x)).choose_spec⟩
  exact ⟨fun h => (expandDistinct_correct I cs v0).1 (h v0 hv0), fun h v _ => (expandDistinct_correct I cs v).2 h⟩

private theorem mem_process {fs : List InForm} {w : PForm} : w ∈ processDistinct fs ↔ InForm.plain w ∈ fs ∨ ∃ t cs, InForm.distinct t cs ∈ fs ∧ w = ⟨0, false, expandDistinct cs⟩ := by
  unfold processDistinct plainForms distinctForms
  rw [List.mem_append]
  refine or_congr ?_ ?_
  · rw [List.mem_filterMap]
    constructor
    · rintro ⟨f, hf, e⟩
      cases f with
      | plain w' => cases e; exact hf
      | distinct t cs => cases e
    · exact fun h => ⟨_, h, rfl⟩
  · rw [List.mem_map]
    constructor
    · rintro ⟨cs, hcs, rfl⟩
      rw [List.mem_reverse, List.mem_filterMap] at hcs
      obtain ⟨f, hf, e⟩ := hcs
      cases f with
      | plain w' => cases e
      | distinct t cs' => cases e; exact ⟨t, cs, hf, rfl⟩
    · rintro ⟨t, cs, hf, rfl⟩
      exact ⟨cs, List.mem_reverse.2 (List.mem_filterMap.2 ⟨_, hf, rfl⟩), rfl⟩

/-- **C75, models**: if `$distinct` is used in axioms only, the axioms before and after have the same models, and the goals are the same. -/
theorem distinct_models {fs : List InForm} (hg : ∀ t cs, InForm.distinct t cs ∈ fs → t ≠ 3 ∧ t ≠ 6) (I : Interp.{u} sg) :
    ((∀ w ∈ processDistinct fs, ¬ w.IsGoal → w.form.Valid I) ↔ ∀ f ∈ fs, ¬ f.IsGoal → f.Valid I) ∧
    ∀ w : PForm, w.IsGoal → (w ∈ processDistinct fs ↔ InForm.plain w ∈ fs) := by
  have h0 : ∀ F : Form, ¬ (⟨0, false, F⟩ : PForm).IsGoal := fun F h => by rcases h with h | h <;> cases h
  refine ⟨⟨fun h f hf hng => ?_, fun h w hw hng => ?_⟩, fun w hw => ?_⟩
  · cases f with
    | plain w => exact h w (mem_process.2 (.inl hf)) hng
    | distinct t cs => exact (expand_valid I cs).1 (h _ (mem_process.2 (.inr ⟨t, cs, hf, rfl⟩)) (h0 _))
  · rcases mem_process.1 hw with hf | ⟨t, cs, hf, rfl⟩
    · exact h _ hf hng
    · refine (expand_valid I cs).2 (h _ hf ?_)
      rintro (e | e)
      exacts [(hg t cs hf).1 e, (hg t cs hf).2 e]
  · rw [mem_process]
    refine ⟨fun h => ?_, .inl⟩
    rcases h with h | ⟨t, cs, -, rfl⟩
    exacts [h, (h0 _ hw).elim]

/-- **C75**: if `$distinct` is used in axioms only, a goal follows from the processed formulas if and only if it follows from the input. -/
theorem distinct_follows_partial {fs : List InForm} (hg : ∀ t cs, InForm.distinct t cs ∈ fs → t ≠ 3 ∧ t ≠ 6) : GoalFollows.{u} sg (processDistinct fs) ↔ InputFollows.{u} sg fs := by
  constructor
  · intro h I hax
    obtain ⟨w, hw, hwg, hV⟩ := h I ((distinct_models hg I).1.2 hax)
    exact ⟨_, ((distinct_models hg I).2 w hwg).1 hw, hwg, hV⟩
  · intro h I hax
    obtain ⟨f, hf, hfg, hV⟩ := h I ((distinct_models hg I).1.1 hax)
    cases f with
    | plain w => exact ⟨w, ((distinct_models hg I).2 w hfg).2 hf, hfg, hV⟩
    | distinct t cs => rcases hfg with e | e; exacts [((hg t cs hf).1 e).elim, ((hg t cs hf).2 e).elim]

private theorem popToForm_parts {Pl : Term → Term → Prop} {Pa : Term → Prop} {Px : Nat → Prop} (st : List Form) : ∀ res : Form, (∀ f ∈ st, f.Parts Pl Pa Px) → res.Parts Pl Pa Px →
    (popToForm .and st res).Parts Pl Pa Px := by
  induction st with
  | nil => exact fun _ _ h => h
  | cons h st ih => exact fun res h1 h2 => ih _ (fun f hf => h1 f (List.mem_cons_of_mem _ hf)) ⟨h1 _ (List.mem_cons_self ..), h2⟩

private theorem expand_parts {Pl : Term → Term → Prop} {Pa : Term → Prop} {Px : Nat → Prop} {cs : List Nat} (ht : Pa tTrue) (hl : ∀ c ∈ cs, ∀ d ∈ cs, Pl (.app c []) (.app d [])) :
    (expandDistinct cs).Parts Pl Pa Px := by
  have h1 : ∀ f ∈ disequs cs, f.Parts Pl Pa Px := by
    induction cs with
    | nil => simp [disequs]
    | cons c cs ih =>
      rw [disequs, List.forall_mem_append]
      refine ⟨?_, ih fun c hc d hd => hl c (List.mem_cons_of_mem _ hc) d (List.mem_cons_of_mem _ hd)⟩
      intro f hf
      obtain ⟨d, hd, rfl⟩ := List.mem_map.1 hf
      exact hl c (List.mem_cons_self ..) d (List.mem_cons_of_mem _ hd)
  unfold expandDistinct stackToForm
  split
  · exact ht
  · rename_i h st' e
    have h2 : ∀ f ∈ h :: st', f.Parts Pl Pa Px := fun f hf => h1 f (by rw [← List.mem_reverse, e]; exact hf)
    exact popToForm_parts st' h (fun f hf => h2 f (List.mem_cons_of_mem _ hf)) (h2 h (List.mem_cons_self ..))

/-- **C75, well-formed formulas**: the processed formulas satisfy what clausification (C55) requires of formulas. -/
theorem distinct_wellformed (hs : SigOK sg) {m n : Nat} (hn : 1 < n) {fs : List InForm} (ho : ∀ f ∈ fs, InForm.OK sg m n f) : ∀ w ∈ processDistinct fs, PForm.OK sg m n w := by
  intro w hw
  rcases mem_process.1 hw with hf | ⟨t, cs, hf, rfl⟩
  · exact ho _ hf
  · obtain ⟨-, ty, h⟩ := ho _ hf
    refine ⟨?_, ?_, ?_, by show 0 < 7; omega, fun h => (by rcases h with h | h <;> cases h), fun h => by cases h⟩
    · refine expand_parts ⟨wt_true hs, rfl⟩ fun c hc d hd => ⟨Sig.wt_app.2 ⟨(h c hc).2.1.symm, by simp⟩, Sig.wt_app.2 ⟨(h d hd).2.1.symm, by simp⟩, ?_⟩
      show sg.fty c = sg.fty d
      rw [(h c hc).2.2, (h d hd).2.2]
    · exact expand_parts (by simp [tTrue, Term.vars, Term.varsL]) fun c _ d _ => by simp [Term.vars, Term.varsL]
    · refine expand_parts (by rw [tTrue, Term.symsBelow_app]; exact ⟨hn, by simp⟩) fun c hc d hd => ?_
      rw [Term.symsBelow_app, Term.symsBelow_app]
      exact ⟨⟨(h c hc).1, by simp⟩, (h d hd).1, by simp⟩

namespace DistinctEx

/-- Type 0 is Boolean, type 1 individuals; 20, 21, 22 are constants. -/
def sig : Sig where
  vty _ := 1
  fty f := if 20 ≤ f then 1 else 0
  fargs _ := []

theorem sigOK : SigOK sig := ⟨rfl, rfl, rfl⟩

/-- `$distinct(a, b, c)` as axiom and the conjecture `a ≠ c`. -/
def inp : List InForm := [.distinct 1 [20, 21, 22], .plain ⟨3, false, .lit false (.app 20 []) (.app 22 [])⟩]

example : expandDistinct [20, 21, 22] = .bin .and (.lit false (.app 20 []) (.app 21 [])) (.bin .and (.lit false (.app 20 []) (.app 22 [])) (.lit false (.app 21 []) (.app 22 []))) := rfl

example : GoalFollows.{u} sig (processDistinct inp) := by
  refine (distinct_follows_partial ?_).2 ?_
  · intro t cs h
    simp only [inp, List.mem_cons, InForm.distinct.injEq, reduceCtorEq, List.not_mem_nil, or_false] at h
    rw [h.1]
    decide
  · intro I hax
    refine ⟨_, List.mem_cons_of_mem _ (List.mem_cons_self ..), .inl rfl, fun v _ e => ?_⟩
    have h := hax _ (List.mem_cons_self ..) (by rintro (h | h) <;> cases h)
    have h : ([20, 21, 22].map fun c => I.fn c []).Nodup := h
    have e : I.eval v (.app 20 []) = I.eval v (.app 22 []) := e
    rw [eval_app, eval_app] at e
    simp only [List.map_nil] at e
    simp [e] at h

example : ∀ w ∈ processDistinct inp, PForm.OK sig 4 23 w := by
  refine distinct_wellformed sigOK (by decide) fun f hf => ?_
  simp only [inp, List.mem_cons, List.not_mem_nil, or_false] at hf
  rcases hf with rfl | rfl
  · exact ⟨by decide, 1, by simp [sig]⟩
  · refine ⟨?_, ?_, ?_, by decide, fun _ => ⟨?_, rfl⟩, by simp⟩
    · simp [Form.WT, Parts, Sig.WT, Sig.WTL, Sig.ty, sig]
    · simp [AllVars, Parts, Term.vars, Term.varsL]
    · simp [Form.SymsBelow, Parts, Term.SymsBelow, Term.SymsBelowL]
    · simp [Closed, FV, Term.vars, Term.varsL]

/-- **C75, disagreement**: the new formula has no type, so that a conjecture `$distinct(a, b)` is asserted instead of negated.  From the axiom `a = b` and this conjecture the processed
formulas are contradictory, although the conjecture does not follow from the axiom. -/
theorem distinct_conjecture_asserted : ∃ (sg : Sig) (fs : List InForm), SigOK sg ∧ (∀ f ∈ fs, InForm.OK sg 4 23 f) ∧ (∃ f ∈ fs, f.IsGoal) ∧
    ¬ InputFollows.{0} sg fs ∧ GoalFollows.{0} sg (processDistinct fs) ∧ ¬ ∃ w ∈ processDistinct fs, w.IsGoal := by
  refine ⟨sig, [.plain ⟨1, false, .lit true (.app 20 []) (.app 21 [])⟩, .distinct 3 [20, 21]], sigOK, ?_, ⟨_, List.mem_cons_of_mem _ (List.mem_cons_self ..), .inl rfl⟩, ?_, ?_, ?_⟩
  · intro f hf
    simp only [List.mem_cons, List.not_mem_nil, or_false] at hf
    rcases hf with rfl | rfl
    · refine ⟨?_, ?_, ?_, by decide, fun h => (by rcases h with h | h <;> cases h), by simp⟩
      · simp [Form.WT, Parts, Sig.WT, Sig.WTL, Sig.ty, sig]
      · simp [AllVars, Parts, Term.vars, Term.varsL]
      · simp [Form.SymsBelow, Parts, Term.SymsBelow, Term.SymsBelowL]
    · exact ⟨by decide, 1, by simp [sig]⟩
  · intro h
    let I : Interp.{0} sig := ⟨Bool, fun _ _ => True, fun _ => ⟨true, trivial⟩, fun f _ => f == 1, fun _ _ _ => trivial, by simp, by simp, by simp [sig]⟩
    obtain ⟨f, hf, hg, hV⟩ := h I fun f hf hng => by
      simp only [List.mem_cons, List.not_mem_nil, or_false] at hf
      rcases hf with rfl | rfl
      · intro v _
        show I.eval v _ = I.eval v _
        rw [eval_app, eval_app]
        simp [I]
      · exact (hng (.inl rfl)).elim
    simp only [List.mem_cons, List.not_mem_nil, or_false] at hf
    rcases hf with rfl | rfl
    · rcases hg with h | h <;> cases h
    · have hV : ([20, 21].map fun c => I.fn c []).Nodup := hV
      simp [I] at hV
  · intro I hax
    exfalso
    obtain ⟨v, hv⟩ : ∃ v : Nat → I.D, I.Sorted v := ⟨fun x => (I.inhab (sig.vty x)).choose, fun x => (I.inhab (sig.vty x)).choose_spec⟩
    have h1 := hax ⟨1, false, .lit true (.app 20 []) (.app 21 [])⟩ (mem_process.2 (.inl (List.mem_cons_self ..))) (by rintro (h | h) <;> cases h) v hv
    have h2 := hax ⟨0, false, .lit false (.app 20 []) (.app 21 [])⟩ (mem_process.2 (.inr ⟨3, [20, 21], by simp, rfl⟩)) (by rintro (h | h) <;> cases h) v hv
    exact h2 h1
  · rintro ⟨w, hw, hg⟩
    rcases mem_process.1 hw with h | ⟨t, cs, -, rfl⟩
    · simp only [List.mem_cons, InForm.plain.injEq, reduceCtorEq, List.not_mem_nil, or_false] at h
      subst h
      rcases hg with h | h <;> cases h
    · rcases hg with h | h <;> cases h

end DistinctEx
end Verif.Props
