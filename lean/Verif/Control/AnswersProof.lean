import Verif.Control.Answers
import Verif.Formulas.ProblemProof

/-!
# Reported answers: proofs
-/

namespace Verif.AnswersProof
open Form CNFProof SemProof Props

universe u

variable {sg : Sig}

theorem exPrefix_holds (I : Interp.{u} sg) {f : Form} (xs : List Nat) : ∀ v : Nat → I.D,
    ((xs.foldr (Form.qu false) f).Holds I v ↔ ∃ ds, List.Forall₂ (fun x d => I.mem (sg.vty x) d) xs ds ∧ f.Holds I (updvs v xs ds)) := by
  induction xs with
  | nil =>
    intro v
    constructor
    · exact fun h => ⟨[], .nil, h⟩
    · rintro ⟨ds, hd, h⟩
      cases hd
      exact h
  | cons x xs ih =>
    intro v
    constructor
    · rintro ⟨d, hd, h⟩
      obtain ⟨ds, h1, h2⟩ := (ih _).1 h
      exact ⟨d :: ds, .cons hd h1, h2⟩
    · rintro ⟨ds, hd, h⟩
      cases hd with
      | cons h1 h2 => exact ⟨_, h1, (ih _).2 ⟨_, h2, h⟩⟩

theorem updvs_out {D : Type u} (xs : List Nat) : ∀ {v : Nat → D} {ds : List D} {y : Nat}, y ∉ xs → updvs v xs ds y = v y := by
  induction xs with
  | nil => intro v ds y _; rfl
  | cons x xs ih =>
    intro v ds y hy
    cases ds with
    | nil => rfl
    | cons d ds =>
      show updvs (updv v x d) xs ds y = v y
      rw [ih fun h => hy (List.mem_cons_of_mem _ h)]
      exact if_neg fun h : y = x => hy (h ▸ List.mem_cons_self ..)

/-- The start valuation does not matter for the assigned variables. -/
theorem updvs_in {D : Type u} (xs : List Nat) : ∀ {v w : Nat → D} {ds : List D} {y : Nat}, xs.length = ds.length → y ∈ xs → updvs v xs ds y = updvs w xs ds y := by
  induction xs with
  | nil => intro v w ds y _ h; cases h
  | cons x xs ih =>
    intro v w ds y hl hy
    cases ds with
    | nil => cases hl
    | cons d ds =>
      show updvs (updv v x d) xs ds y = updvs (updv w x d) xs ds y
      by_cases hm : y ∈ xs
      · exact ih (by simpa using hl) hm
      · rw [updvs_out xs hm, updvs_out xs hm]
        rcases List.mem_cons.1 hy with rfl | h
        · simp [updv]
        · exact (hm h).elim

theorem updvs_self {D : Type u} (u : Nat → D) (xs : List Nat) : ∀ {v : Nat → D}, (∀ y, y ∉ xs → v y = u y) → updvs v xs (xs.map u) = u := by
  induction xs with
  | nil => intro v h; exact funext fun y => h y (by simp)
  | cons x xs ih =>
    intro v h
    refine ih (v := updv v x (u x)) fun y hy => ?_
    unfold updv
    split
    · rename_i e; rw [e]
    · rename_i e
      exact h y (by simp [e, hy])

/-- Reading the values of the variables and assigning them again changes nothing. -/
theorem updvs_map {D : Type u} (v : Nat → D) (xs : List Nat) (ds : List D) : updvs v xs (xs.map (updvs v xs ds)) = updvs v xs ds :=
  updvs_self _ xs fun _ hy => (updvs_out xs hy).symm

theorem updvs_sorted {I : Interp.{u} sg} {xs : List Nat} {ds : List I.D} (h : List.Forall₂ (fun x d => I.mem (sg.vty x) d) xs ds) :
    ∀ {v : Nat → I.D}, I.Sorted v → I.Sorted (updvs v xs ds) := by
  induction h with
  | nil => exact fun h => h
  | cons h1 _ ih => exact fun h => ih (sorted_updv h h1)

theorem stripEx_fv {f : Form} {x : Nat} (h : f.stripEx.2.FV x) : f.FV x ∨ x ∈ f.stripEx.1 := by
  induction f with
  | qu q y f ih =>
    cases q with
    | true => exact .inl h
    | false =>
      show (x ≠ y ∧ f.FV x) ∨ x ∈ y :: f.stripEx.1
      rcases ih h with h | h
      · by_cases e : x = y
        · exact .inr (e ▸ List.mem_cons_self ..)
        · exact .inl ⟨e, h⟩
      · exact .inr (List.mem_cons_of_mem _ h)
  | lit => exact .inl h
  | atom => exact .inl h
  | not => exact .inl h
  | bin => exact .inl h

/-- For a closed question only the values in the tuple matter. -/
theorem answered_congr (I : Interp.{u} sg) {w : PForm} (hc : w.form.Closed) {es : List I.D} (hl : w.form.stripEx.1.length = es.length) {v v' : Nat → I.D} :
    w.Answered I v es ↔ w.Answered I v' es := by
  refine holds_congr I fun x hx => ?_
  rcases stripEx_fv hx with h | h
  · exact (hc x h).elim
  · exact updvs_in _ hl h

/-! ## The questions and their symbols -/

/-- The test made by `PForm.annotate` and `annotateQuestion`. -/
def asks (p : CnfParams) (w : PForm) : Bool := p.addAnswers && (w.ftype == 6 || (p.conjQuestions && w.ftype == 3)) && !w.form.stripEx.1.isEmpty

theorem bits_asked {t : Nat} {q : Bool} (ht : t < 7) : (hasBits t 6 || (hasBits t 3 && q)) = (t == 6 || (q && t == 3)) := by
  have : t = 0 ∨ t = 1 ∨ t = 2 ∨ t = 3 ∨ t = 4 ∨ t = 5 ∨ t = 6 := by omega
  rcases this with rfl | rfl | rfl | rfl | rfl | rfl | rfl <;> cases q <;> rfl

theorem annotate_asks {p : CnfParams} {w : PForm} (ht : w.ftype < 7) (h : asks p w = true) (n : Nat) :
    w.annotate p.ac p.ind p.addAnswers p.conjQuestions n =
      (⟨3, w.isClause, w.form.stripEx.1.foldr (Form.qu false) (.bin .and w.form.stripEx.2 (answerLit p.ac n w.form.stripEx.1))⟩, n + 1, [⟨n, w.form.stripEx.1, p.ind⟩]) := by
  unfold asks at h
  simp only [Bool.and_eq_true] at h
  obtain ⟨⟨h1, h2⟩, h3⟩ := h
  unfold PForm.annotate
  rw [bits_asked ht, if_pos h2, if_pos h1]
  unfold annotateQuestion
  simp only
  rw [if_neg (by simpa using h3)]

theorem annotate_plain {p : CnfParams} {w : PForm} (ht : w.ftype < 7) (h : asks p w = false) (n : Nat) :
    (w.annotate p.ac p.ind p.addAnswers p.conjQuestions n).1.form = w.form ∧ (w.annotate p.ac p.ind p.addAnswers p.conjQuestions n).2.1 = n ∧
      (w.annotate p.ac p.ind p.addAnswers p.conjQuestions n).2.2 = [] := by
  unfold asks at h
  unfold PForm.annotate
  rw [bits_asked ht]
  split
  · rename_i h2
    split
    · rename_i h1
      rw [h2, h1] at h
      unfold annotateQuestion
      simp only
      rw [if_pos (by simpa using h)]
      exact ⟨rfl, rfl, rfl⟩
    · exact ⟨rfl, rfl, rfl⟩
  · exact ⟨rfl, rfl, rfl⟩

theorem asked_eq (p : CnfParams) (ws : List PForm) : asked p ws = ws.filter (asks p) := rfl

theorem asks_goal {p : CnfParams} {w : PForm} (h : asks p w = true) : w.IsGoal := by
  unfold asks at h
  simp only [Bool.and_eq_true, Bool.or_eq_true, beq_iff_eq] at h
  rcases h.1.2 with h | h
  exacts [.inr h, .inl h.2]

/-- Each question has a new symbol with its variables as arguments. -/
theorem symbol_decl {p : CnfParams} (ws : List PForm) : ∀ {n s : Nat} {w : PForm}, (∀ w ∈ ws, w.ftype < 7) → AnswerSymbol p ws n s w →
    (⟨s, w.form.stripEx.1, p.ind⟩ : SkDecl) ∈ (preprocConjectures p.ac p.ind p.addAnswers p.conjQuestions ws n).2.2 ∧
      s < (preprocConjectures p.ac p.ind p.addAnswers p.conjQuestions ws n).2.1 := by
  induction ws with
  | nil => rintro n s w _ ⟨-, h⟩; simp [asked] at h
  | cons w0 ws ih =>
    rintro n s w ht ⟨hn, h⟩
    simp only [preprocConjectures]
    have ht' := fun w hw => ht w (List.mem_cons_of_mem _ hw)
    rw [asked_eq, List.filter_cons] at h
    by_cases ha : asks p w0 = true
    · rw [if_pos ha] at h
      rw [annotate_asks (ht w0 (List.mem_cons_self ..)) ha]
      simp only
      by_cases e : s = n
      · subst e
        simp only [Nat.sub_self, List.getElem?_cons_zero, Option.some.injEq] at h
        subst h
        refine ⟨by simp, ?_⟩
        have := (consec_preproc (ac := p.ac) (ind := p.ind) (a := p.addAnswers) (q := p.conjQuestions) ws (n := s + 1)).1
        omega
      · have hs : s - n = (s - (n + 1)) + 1 := by omega
        rw [hs, List.getElem?_cons_succ] at h
        have := ih (n := n + 1) ht' ⟨by omega, h⟩
        exact ⟨List.mem_append_right _ this.1, this.2⟩
    · rw [if_neg ha] at h
      obtain ⟨-, e1, e2⟩ := annotate_plain (p := p) (ht w0 (List.mem_cons_self ..)) (by simpa using ha) n
      rw [e1, e2]
      exact ih ht' ⟨hn, h⟩

/-- A symbol belongs to one question. -/
theorem symbol_unique {p : CnfParams} {ws : List PForm} {n s : Nat} {w w' : PForm} (h : AnswerSymbol p ws n s w) (h' : AnswerSymbol p ws n s w') : w = w' := by
  have := h.2.symm.trans h'.2
  simpa using this

/-- The preprocessed formulas are true if the axioms are, the goals without answer literal are not, and every true answer is accepted. -/
theorem preproc_true (I : Interp.{u} sg) {p : CnfParams} {m n0 : Nat} (ws : List PForm) : ∀ {n : Nat}, (∀ w ∈ ws, PForm.OK sg m n0 w) →
    (∀ w ∈ ws, ¬ w.IsGoal → w.form.Valid I) → (∀ w ∈ ws, w.IsGoal → asks p w = false → ¬ w.form.Valid I) →
    (∀ s w, AnswerSymbol p ws n s w → ∀ v es, I.Sorted v → w.form.stripEx.1.length = es.length → w.Answered I v es → I.fn p.ac [I.fn s es] = I.fn 1 []) →
    ∀ w ∈ (preprocConjectures p.ac p.ind p.addAnswers p.conjQuestions ws n).1, w.form.Valid I := by
  induction ws with
  | nil => intro n _ _ _ _ w hw; cases hw
  | cons w0 ws ih =>
    intro n ho hax hgo hsk
    have o := ho w0 (List.mem_cons_self ..)
    simp only [preprocConjectures, List.forall_mem_cons]
    have ho' := fun w hw => ho w (List.mem_cons_of_mem _ hw)
    have hax' := fun w hw => hax w (List.mem_cons_of_mem _ hw)
    have hgo' := fun w hw => hgo w (List.mem_cons_of_mem _ hw)
    by_cases ha : asks p w0 = true
    · rw [annotate_asks o.type ha]
      simp only
      constructor
      · unfold PForm.conjectureNegate
        rw [if_pos rfl]
        intro v hv hh
        obtain ⟨ds, hd, h1, h2⟩ := (exPrefix_holds I _ v).1 hh
        have h3 := hsk n w0 ⟨Nat.le_refl _, by simp [asked_eq, ha]⟩ v (w0.form.stripEx.1.map (updvs v w0.form.stripEx.1 ds)) hv (by simp) (by
          show w0.form.stripEx.2.Holds I (updvs v _ _)
          rw [updvs_map]
          exact h1)
        have h2 : I.eval (updvs v w0.form.stripEx.1 ds) (.app p.ac [.app n (w0.form.stripEx.1.map .var)]) ≠ I.eval _ tTrue := h2
        rw [eval_app, List.map_cons, List.map_nil, eval_app, List.map_map, tTrue, eval_app] at h2
        exact h2 h3
      · refine ih ho' hax' hgo' fun s w hs => hsk s w ⟨by have := hs.1; omega, ?_⟩
        have h1 := hs.1
        have h2 := hs.2
        rw [asked_eq, List.filter_cons, if_pos ha, show s - n = (s - (n + 1)) + 1 by omega, List.getElem?_cons_succ]
        exact h2
    · have ha : asks p w0 = false := by simpa using ha
      obtain ⟨e0, e1, e2⟩ := annotate_plain (p := p) o.type ha n
      refine ⟨?_, ?_⟩
      · have := (preproc_valid I (ac := p.ac) (ind := p.ind) (n := n) (a := p.addAnswers) (q := p.conjQuestions) o (.inl e2)).2
        refine this ?_
        by_cases hg : w0.IsGoal
        · exact .inr ⟨hg, hgo w0 (List.mem_cons_self ..) hg ha⟩
        · exact .inl ⟨hg, hax w0 (List.mem_cons_self ..) hg⟩
      · rw [e1]
        refine ih ho' hax' hgo' fun s w hs => hsk s w ⟨hs.1, ?_⟩
        rw [asked_eq, List.filter_cons, if_neg (by simp [ha])]
        exact hs.2

/-! ## The interpretation in which only true answers are accepted -/

theorem parts_matrix_syms {f : Form} {n : Nat} (h : f.SymsBelow n) : f.stripEx.2.SymsBelow n := (parts_stripEx h).1
theorem parts_matrix_avoids {f : Form} {n : Nat} (h : f.Avoids n) : f.stripEx.2.Avoids n := (parts_stripEx h).1

/-- The functions of an interpretation in which the symbol of a question has the value `c0` if the arguments answer it and `c1` otherwise. -/
noncomputable def skFn (I : Interp.{u} sg) (p : CnfParams) (ws : List PForm) (n : Nat) (v0 : Nat → I.D) (c0 c1 : I.D) : Nat → List I.D → I.D := fun s es =>
  open Classical in
  if ∃ w, AnswerSymbol p ws n s w then (if ∃ w, AnswerSymbol p ws n s w ∧ w.Answered I v0 es then c0 else c1) else I.fn s es

theorem skFn_low (I : Interp.{u} sg) {p : CnfParams} {ws : List PForm} {n : Nat} {v0 : Nat → I.D} {c0 c1 : I.D} {s : Nat} (h : ¬ ∃ w, AnswerSymbol p ws n s w) :
    skFn I p ws n v0 c0 c1 s = I.fn s := by
  funext es
  unfold skFn
  rw [if_neg h]

theorem skFn_ok (I : Interp.{u} sg) {p : CnfParams} {ws : List PForm} {n : Nat} (hn : 2 < n) {v0 : Nat → I.D} {c0 c1 : I.D} (h0 : I.mem p.ind c0) (h1 : I.mem p.ind c1)
    (hd : ∀ s w, AnswerSymbol p ws n s w → sg.fty s = p.ind ∧ ¬ sg.distinct s) : I.FnOK (skFn I p ws n v0 c0 c1) := by
  have e1 : skFn I p ws n v0 c0 c1 1 = I.fn 1 := skFn_low I fun ⟨w, h⟩ => by have := h.1; omega
  have e2 : skFn I p ws n v0 c0 c1 2 = I.fn 2 := skFn_low I fun ⟨w, h⟩ => by have := h.1; omega
  refine ⟨fun f ds hf => ?_, ?_, ?_, fun f g hf hg hne => ?_⟩
  · by_cases h : ∃ w, AnswerSymbol p ws n f w
    · obtain ⟨w, hw⟩ := h
      rw [(hd f w hw).1]
      unfold skFn
      rw [if_pos ⟨w, hw⟩]
      split <;> assumption
    · rw [skFn_low I h]; exact I.fn_mem f ds hf
  · rw [e1, e2]; exact I.tf
  · rw [e1, e2]; exact I.bool2
  · rw [skFn_low I fun ⟨w, h⟩ => (hd f w h).2 hf, skFn_low I fun ⟨w, h⟩ => (hd g w h).2 hg]
    exact I.dist f g hf hg hne

theorem eval_reint_both (I : Interp.{u} sg) {F : Nat → List I.D → I.D} (h : I.FnOK F) {n ac : Nat} (hF : ∀ s, s < n → s ≠ ac → F s = I.fn s) (v : Nat → I.D) (t : Term)
    (ht : t.SymsBelow n) (ha : t.Avoids ac) : (I.reint F h).eval v t = I.eval v t := by
  induction t using Term.ind with
  | hv y => rfl
  | ha f ts ih =>
    rw [avoids_app] at ha
    rw [Term.symsBelow_app] at ht
    refine (eval_app (I.reint F h) v f ts).trans ?_
    rw [eval_app, ← hF f ht.1 ha.1]
    refine congrArg (F f) (List.map_congr_left fun t hm => ?_)
    exact ih t hm (ht.2 t hm) (ha.2 t hm)

theorem answer_true (I : Interp.{u} sg) {v : Nat → I.D} {ac s : Nat} {ts : List Term} (h : I.LitTrue v ⟨true, .app ac [.app s ts], tTrue⟩) :
    I.fn ac [I.fn s (ts.map (I.eval v))] = I.fn 1 [] := by
  have h : I.eval v (.app ac [.app s ts]) = I.eval v tTrue := h
  rw [eval_app, List.map_cons, List.map_nil, eval_app, tTrue, eval_app] at h
  exact h

end Verif.AnswersProof
