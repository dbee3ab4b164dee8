import Verif.Formulas.Problem
import Verif.Formulas.DefsProof
import Verif.Formulas.CNFTotal

/-!
# From a problem to clauses: proofs
-/

namespace Verif.CNFProof
open Form SemProof Props

universe u

variable {sg : Sig}

/-! ## Symbols that do not occur -/

theorem avoids_app {c f : Nat} {ts : List Term} : (Term.app f ts).Avoids c ↔ f ≠ c ∧ ∀ t ∈ ts, t.Avoids c := by
  have : ∀ ts : List Term, Term.AvoidsL c ts ↔ ∀ t ∈ ts, t.Avoids c := by
    intro ts
    induction ts with
    | nil => simp [Term.AvoidsL]
    | cons t ts ih => simp [Term.AvoidsL, ih]
  rw [Term.Avoids, this]

theorem eval_reint_avoid (I : Interp.{u} sg) {F : Nat → List I.D → I.D} (h : I.FnOK F) {c : Nat} (hF : ∀ s, s ≠ c → F s = I.fn s)
    (v : Nat → I.D) (t : Term) (ht : t.Avoids c) : (I.reint F h).eval v t = I.eval v t := by
  induction t using Term.ind with
  | hv y => rfl
  | ha f ts ih =>
    rw [avoids_app] at ht
    refine (eval_app (I.reint F h) v f ts).trans ?_
    rw [eval_app, ← hF f ht.1]
    refine congrArg (F f) (List.map_congr_left fun t hm => ?_)
    exact ih t hm (ht.2 t hm)

theorem holds_reint_avoid (I : Interp.{u} sg) {F : Nat → List I.D → I.D} (h : I.FnOK F) {c : Nat} (hc : 1 ≠ c) (hF : ∀ s, s ≠ c → F s = I.fn s) (f : Form) :
    ∀ v : Nat → I.D, f.Avoids c → (f.Holds (I.reint F h) v ↔ f.Holds I v) := by
  induction f with
  | lit p l r =>
    intro v hs
    have e1 := eval_reint_avoid I h hF v _ hs.1
    have e2 := eval_reint_avoid I h hF v _ hs.2
    simp only [Holds, Interp.LitTrue]
    rw [e1, e2]
    exact Iff.rfl
  | atom t =>
    intro v hs
    have e1 := eval_reint_avoid I h hF v t hs
    simp only [Holds]
    rw [e1]
    show I.eval v t = F 1 [] ↔ _
    rw [hF 1 hc]
  | not f ih => exact fun v hs => not_congr (ih v hs)
  | bin op f g ih1 ih2 => exact fun v hs => bin_congr (ih1 v hs.1) (ih2 v hs.2)
  | qu q x f ih =>
    intro v hs
    cases q with
    | true => exact forall_congr' fun d => imp_congr_right fun _ => ih _ hs.2
    | false => exact exists_congr fun d => and_congr_right fun _ => ih _ hs.2

/-! ## Annotation of questions -/

theorem stripEx_eq (f : Form) : f.stripEx.1.foldr (Form.qu false) f.stripEx.2 = f := by
  induction f with
  | qu q x f ih =>
    cases q with
    | true => rfl
    | false => simp only [stripEx, List.foldr_cons]; rw [ih]
  | _ => rfl

theorem exPrefix_congr (I : Interp.{u} sg) {f g : Form} (h : ∀ v, I.Sorted v → (f.Holds I v ↔ g.Holds I v)) (xs : List Nat) :
    ∀ v, I.Sorted v → ((xs.foldr (Form.qu false) f).Holds I v ↔ (xs.foldr (Form.qu false) g).Holds I v) := by
  induction xs with
  | nil => exact h
  | cons x xs ih => exact fun v hv => exists_congr fun d => and_congr_right fun hd => ih _ (sorted_updv hv hd)

theorem answerLit_holds (I : Interp.{u} sg) {ac : Nat} (hI : I.NoAnswer ac) (n : Nat) (xs : List Nat) (v : Nat → I.D) : (answerLit ac n xs).Holds I v := by
  show I.eval v _ ≠ I.eval v tTrue
  rw [eval_app, tTrue, eval_app]
  exact hI _

theorem annotateQuestion_holds (I : Interp.{u} sg) {ac ind n : Nat} {f : Form} (h : (f.annotateQuestion ac ind n).2.2 = [] ∨ I.NoAnswer ac) (v : Nat → I.D) (hv : I.Sorted v) :
    (f.annotateQuestion ac ind n).1.Holds I v ↔ f.Holds I v := by
  unfold annotateQuestion at h ⊢
  simp only at h ⊢
  split
  · rfl
  · rename_i he
    rw [if_neg he] at h
    rcases h with h | h
    · cases h
    · conv_rhs => rw [← stripEx_eq f]
      refine exPrefix_congr I (fun w hw => ?_) _ v hv
      exact ⟨fun h => h.1, fun h' => ⟨h', answerLit_holds I h _ _ w⟩⟩

theorem annotate_holds (I : Interp.{u} sg) {ac ind n : Nat} {a q : Bool} {w : PForm} (h : (w.annotate ac ind a q n).2.2 = [] ∨ I.NoAnswer ac) (v : Nat → I.D) (hv : I.Sorted v) :
    (w.annotate ac ind a q n).1.form.Holds I v ↔ w.form.Holds I v := by
  unfold PForm.annotate at h ⊢
  split
  · split
    · rename_i h1 h2
      rw [if_pos h1, if_pos h2] at h
      exact annotateQuestion_holds I h v hv
    · rfl
  · rfl

/-- The type after the annotation tells the goals. -/
theorem annotate_goal {ac ind n : Nat} {a q : Bool} {w : PForm} (ht : w.ftype < 7) : (w.annotate ac ind a q n).1.ftype = 3 ↔ w.IsGoal := by
  unfold PForm.annotate PForm.IsGoal
  have : w.ftype = 0 ∨ w.ftype = 1 ∨ w.ftype = 2 ∨ w.ftype = 3 ∨ w.ftype = 4 ∨ w.ftype = 5 ∨ w.ftype = 6 := by omega
  rcases this with h | h | h | h | h | h | h <;> cases q <;> cases a <;> simp [h, hasBits]

theorem annotate_same {ac ind n : Nat} {a q : Bool} {w : PForm} (ht : w.ftype < 7) (hg : ¬ w.IsGoal) : w.annotate ac ind a q n = (w, n, []) := by
  unfold PForm.annotate
  unfold PForm.IsGoal at hg
  have : w.ftype = 0 ∨ w.ftype = 1 ∨ w.ftype = 2 ∨ w.ftype = 4 ∨ w.ftype = 5 := by omega
  rcases this with h | h | h | h | h <;> cases q <;> simp [h, hasBits]

/-- A formula after the treatment of conjectures is true if an axiom is true, resp. a goal is false. -/
theorem preproc_holds (I : Interp.{u} sg) {ac ind n : Nat} {a q : Bool} {w : PForm} (ht : w.ftype < 7) (h : (w.annotate ac ind a q n).2.2 = [] ∨ I.NoAnswer ac) (v : Nat → I.D) (hv : I.Sorted v) :
    (w.annotate ac ind a q n).1.conjectureNegate.form.Holds I v ↔ ((¬ w.IsGoal ∧ w.form.Holds I v) ∨ (w.IsGoal ∧ ¬ w.form.Holds I v)) := by
  have h1 := annotate_holds I h v hv
  have h2 := annotate_goal (ac := ac) (ind := ind) (n := n) (a := a) (q := q) ht
  unfold PForm.conjectureNegate
  split
  · rename_i h3
    have hg := h2.1 h3
    simp only [Holds, h1, hg, not_true, false_and, false_or, true_and]
  · rename_i h3
    have hg : ¬ w.IsGoal := fun h => h3 (h2.2 h)
    simp only [h1, hg, not_false_iff, true_and, false_and, or_false]

theorem closed_valid (I : Interp.{u} sg) {f : Form} (hc : f.Closed) : (∀ v, I.Sorted v → ¬ f.Holds I v) ↔ ¬ f.Valid I := by
  obtain ⟨v0, hv0⟩ : ∃ v0 : Nat → I.D, I.Sorted v0 := ⟨fun x => (I.inhab (sg.vty x)).choose, fun x => (I.inhab (sg.vty x)).choose_spec⟩
  constructor
  · exact fun h hf => h v0 hv0 (hf v0 hv0)
  · exact fun h v hv hf => h fun w hw => (holds_congr I fun x hx => (hc x hx).elim).1 hf

theorem preproc_valid (I : Interp.{u} sg) {ac ind m n n0 : Nat} {a q : Bool} {w : PForm} (ho : PForm.OK sg m n0 w) (h : (w.annotate ac ind a q n).2.2 = [] ∨ I.NoAnswer ac) :
    (w.annotate ac ind a q n).1.conjectureNegate.form.Valid I ↔ ((¬ w.IsGoal ∧ w.form.Valid I) ∨ (w.IsGoal ∧ ¬ w.form.Valid I)) := by
  have key := fun v hv => preproc_holds I (n := n) ho.type h v hv
  by_cases hg : w.IsGoal
  · rw [← closed_valid I (ho.goal hg).1]
    constructor
    · intro hV; refine .inr ⟨hg, fun v hv => ?_⟩
      rcases (key v hv).1 (hV v hv) with hh | hh
      exacts [(hh.1 hg).elim, hh.2]
    · rintro (hh | hh) v hv
      exacts [(hh.1 hg).elim, (key v hv).2 (.inr ⟨hg, hh.2 v hv⟩)]
  · constructor
    · intro hV; refine .inl ⟨hg, fun v hv => ?_⟩
      rcases (key v hv).1 (hV v hv) with hh | hh
      exacts [hh.2, (hg hh.1).elim]
    · rintro (hh | hh) v hv
      exacts [(key v hv).2 (.inl ⟨hg, hh.2 v hv⟩), (hg hh.1).elim]

/-! ## Well-formedness -/

/-- The conditions on formulas after the treatment of conjectures. -/
def PreOK (sg : Sig) (m n : Nat) (w : PForm) : Prop := WForm.OK sg m n ⟨w.isClause, w.form⟩

theorem parts_stripEx {Pl : Term → Term → Prop} {Pa : Term → Prop} {Px : Nat → Prop} {f : Form} (h : f.Parts Pl Pa Px) : f.stripEx.2.Parts Pl Pa Px ∧ ∀ x ∈ f.stripEx.1, Px x := by
  induction f with
  | qu q x f ih =>
    cases q with
    | true => exact ⟨h, by simp [stripEx]⟩
    | false =>
      have := ih h.2
      refine ⟨this.1, fun y hy => ?_⟩
      rcases List.mem_cons.1 hy with rfl | hy
      exacts [h.1, this.2 y hy]
  | lit => exact ⟨h, by simp [stripEx]⟩
  | atom => exact ⟨h, by simp [stripEx]⟩
  | not => exact ⟨h, by simp [stripEx]⟩
  | bin => exact ⟨h, by simp [stripEx]⟩

theorem parts_exPrefix {Pl : Term → Term → Prop} {Pa : Term → Prop} {Px : Nat → Prop} {c : Form} {xs : List Nat} (h : c.Parts Pl Pa Px) (hx : ∀ x ∈ xs, Px x) :
    (xs.foldr (Form.qu false) c).Parts Pl Pa Px := by
  induction xs with
  | nil => exact h
  | cons x xs ih => exact ⟨hx x (List.mem_cons_self ..), ih fun y hy => hx y (List.mem_cons_of_mem _ hy)⟩

theorem annotateQuestion_ok (hs : SigOK sg) {ac ind m n : Nat} (had : AnswerDecl sg ac ind n) {f : Form} (hw : f.WT sg) (hv : f.AllVars (· ≤ m)) (hsy : f.SymsBelow n)
    (hd : Declared sg (f.annotateQuestion ac ind n).2.2) :
    n ≤ (f.annotateQuestion ac ind n).2.1 ∧ (f.annotateQuestion ac ind n).1.WT sg ∧ (f.annotateQuestion ac ind n).1.AllVars (· ≤ m) ∧
    (f.annotateQuestion ac ind n).1.SymsBelow (f.annotateQuestion ac ind n).2.1 := by
  unfold annotateQuestion at hd ⊢
  simp only at hd ⊢
  split
  · exact ⟨Nat.le_refl _, hw, hv, hsy⟩
  · rename_i he
    rw [if_neg he] at hd
    have hd := hd _ (List.mem_singleton.2 rfl)
    have p1 := parts_stripEx hw
    have p2 := parts_stripEx hv
    have p3 := parts_stripEx hsy
    refine ⟨Nat.le_succ n, parts_exPrefix ⟨p1.1, ?_⟩ (fun _ _ => trivial), parts_exPrefix ⟨p2.1, ?_⟩ p2.2, parts_exPrefix ⟨form_symsBelow_mono (Nat.le_succ n) p3.1, ?_⟩ (fun _ _ => trivial)⟩
    · refine ⟨Sig.wt_app.2 ⟨?_, ?_⟩, wt_true hs, had.ty⟩
      · simp only [List.map_cons, List.map_nil, had.args, Sig.ty]
        rw [hd.2.1]
      · intro t ht
        rw [List.mem_singleton.1 ht]
        refine Sig.wt_app.2 ⟨?_, ?_⟩
        · rw [List.map_map]; exact hd.1.symm
        · intro t ht
          obtain ⟨x, -, rfl⟩ := List.mem_map.1 ht
          trivial
    · refine ⟨fun x hx => ?_, by simp [tTrue, Term.vars, Term.varsL]⟩
      simp only [Term.vars, Term.varsL, List.append_nil] at hx
      exact p2.2 x ((vars_sk n _ x).1 (by simpa only [Term.vars] using hx))
    · have h1 := had.high
      have h2 := had.low
      refine ⟨?_, by rw [tTrue, Term.symsBelow_app]; exact ⟨show 1 < n + 1 by omega, by simp⟩⟩
      rw [Term.symsBelow_app]
      refine ⟨show ac < n + 1 by omega, fun t ht => ?_⟩
      rw [List.mem_singleton.1 ht]
      exact syms_sk

theorem annotate_ok (hs : SigOK sg) {ac ind m n : Nat} {a q : Bool} (had : AnswerDecl sg ac ind n) {w : PForm} (ho : PForm.OK sg m n w) (hd : Declared sg (w.annotate ac ind a q n).2.2) :
    n ≤ (w.annotate ac ind a q n).2.1 ∧ PreOK sg m (w.annotate ac ind a q n).2.1 (w.annotate ac ind a q n).1.conjectureNegate := by
  by_cases hg : w.IsGoal
  · have h3 := (annotate_goal (ac := ac) (ind := ind) (n := n) (a := a) (q := q) ho.type).2 hg
    have hc := (ho.goal hg).2
    have key : n ≤ (w.annotate ac ind a q n).2.1 ∧ (w.annotate ac ind a q n).1.form.WT sg ∧ (w.annotate ac ind a q n).1.form.AllVars (· ≤ m) ∧
        (w.annotate ac ind a q n).1.form.SymsBelow (w.annotate ac ind a q n).2.1 ∧ (w.annotate ac ind a q n).1.isClause = false := by
      unfold PForm.annotate at hd ⊢
      split
      · split
        · rename_i h1 h2
          rw [if_pos h1, if_pos h2] at hd
          have := annotateQuestion_ok hs had ho.wt ho.vars ho.syms hd
          exact ⟨this.1, this.2.1, this.2.2.1, this.2.2.2, hc⟩
        · exact ⟨Nat.le_refl _, ho.wt, ho.vars, ho.syms, hc⟩
      · exact ⟨Nat.le_refl _, ho.wt, ho.vars, ho.syms, hc⟩
    refine ⟨key.1, ?_⟩
    unfold PreOK PForm.conjectureNegate
    rw [if_pos h3]
    exact ⟨key.2.1, key.2.2.1, key.2.2.2.1, fun h => by simp only [key.2.2.2.2] at h; cases h⟩
  · have h1 := annotate_same (ac := ac) (ind := ind) (n := n) (a := a) (q := q) ho.type hg
    rw [h1]
    refine ⟨Nat.le_refl _, ?_⟩
    have h3 : w.ftype ≠ 3 := fun h => hg (.inl h)
    unfold PreOK PForm.conjectureNegate
    rw [if_neg h3]
    exact ⟨ho.wt, ho.vars, ho.syms, ho.clause⟩

theorem PForm.OK.mono {m n n' : Nat} {w : PForm} (h : PForm.OK sg m n w) (hn : n ≤ n') : PForm.OK sg m n' w :=
  ⟨h.wt, h.vars, form_symsBelow_mono hn h.syms, h.type, h.goal, h.clause⟩

theorem AnswerDecl.mono {ac ind n n' : Nat} (h : AnswerDecl sg ac ind n) (hn : n ≤ n') : AnswerDecl sg ac ind n' :=
  ⟨h.args, h.ty, h.dist, h.low, Nat.lt_of_lt_of_le h.high hn⟩

theorem preprocConjectures_ok (hs : SigOK sg) {ac ind m : Nat} {a q : Bool} (ws : List PForm) : ∀ {n : Nat}, AnswerDecl sg ac ind n → (∀ w ∈ ws, PForm.OK sg m n w) →
    Declared sg (preprocConjectures ac ind a q ws n).2.2 →
    n ≤ (preprocConjectures ac ind a q ws n).2.1 ∧ ∀ w ∈ (preprocConjectures ac ind a q ws n).1, PreOK sg m (preprocConjectures ac ind a q ws n).2.1 w := by
  induction ws with
  | nil => intro n _ _ _; exact ⟨Nat.le_refl _, by simp [preprocConjectures]⟩
  | cons w ws ih =>
    intro n had ho hd
    simp only [preprocConjectures] at hd ⊢
    obtain ⟨d1, d2⟩ := hd.append
    obtain ⟨h1, h2⟩ := annotate_ok hs had (ho w (List.mem_cons_self ..)) d1
    obtain ⟨h3, h4⟩ := ih (AnswerDecl.mono had h1) (fun w' hw' => PForm.OK.mono (ho w' (List.mem_cons_of_mem _ hw')) h1) d2
    refine ⟨Nat.le_trans h1 h3, fun w' hw' => ?_⟩
    rcases List.mem_cons.1 hw' with rfl | hw'
    · exact WForm.OK.mono h2 (Nat.le_refl _) h3
    · exact h4 w' hw'

theorem preprocConjectures_valid (I : Interp.{u} sg) {ac ind m n0 : Nat} {a q : Bool} (ws : List PForm) : ∀ {n : Nat}, (∀ w ∈ ws, PForm.OK sg m n0 w) →
    ((preprocConjectures ac ind a q ws n).2.2 = [] ∨ I.NoAnswer ac) →
    ((∀ w ∈ (preprocConjectures ac ind a q ws n).1, w.form.Valid I) ↔ ∀ w ∈ ws, (¬ w.IsGoal ∧ w.form.Valid I) ∨ (w.IsGoal ∧ ¬ w.form.Valid I)) := by
  induction ws with
  | nil => intro n _ _; simp [preprocConjectures]
  | cons w ws ih =>
    intro n ho hd
    simp only [preprocConjectures, List.forall_mem_cons] at hd ⊢
    simp only [List.append_eq_nil_iff] at hd
    rw [preproc_valid I (ho w (List.mem_cons_self ..)) (hd.imp_left And.left), ih (fun w' hw' => ho w' (List.mem_cons_of_mem _ hw')) (hd.imp_left And.right)]

/-! ## Simplification -/

theorem simpStep_disj {small : Form → Bool} {S : Form → Option Form} {f f' : Form} (e : simpStep small S f = some f') (h : f.IsDisj) : f'.IsDisj := by
  cases f with
  | lit p l r => simp [simpStep] at e; subst e; trivial
  | atom => exact h.elim
  | not => exact h.elim
  | qu => exact h.elim
  | bin op f g =>
    obtain ⟨rfl, h1, h2⟩ := h
    simp only [simpStep, simpBin] at e
    split at e
    · rename_i h' e'
      cases e
      rcases argReturnOther_cases e' with ⟨-, rfl⟩ | ⟨-, rfl⟩
      exacts [h2, h1]
    · split at e
      · rename_i h' e'
        cases e
        rcases argReturn_cases e' with ⟨-, rfl⟩ | ⟨-, rfl⟩
        exacts [h1, h2]
      · cases e
        split
        · exact h1
        · exact ⟨rfl, h1, h2⟩

theorem simpLoop_disj {small : Form → Bool} {S : Form → Option Form} (k : Nat) : ∀ {f f' : Form}, simpLoop small S k f = some f' → f.IsDisj → f'.IsDisj := by
  induction k with
  | zero => intro f f' e; simp [simpLoop] at e
  | succ k ih =>
    intro f f' e h
    simp only [simpLoop, Option.bind_eq_bind, Option.bind_eq_some_iff] at e
    obtain ⟨f1, e1, e2⟩ := e
    have h1 := simpStep_disj e1 h
    split at e2
    · cases e2; exact h1
    · exact ih e2 h1

theorem simplify_disj {small : Form → Bool} (k : Nat) : ∀ {f f' : Form}, f.simplify small k = some f' → f.IsDisj → f'.IsDisj := by
  induction k with
  | zero => intro f f' e; simp [simplify] at e
  | succ k ih =>
    intro f f' e h
    cases f with
    | lit p l r => simp [simplify] at e; subst e; trivial
    | atom => exact h.elim
    | not => exact h.elim
    | qu => exact h.elim
    | bin op f g =>
      simp only [simplify, Option.bind_eq_bind, Option.bind_eq_some_iff] at e
      obtain ⟨f1, e1, f2, e2, e3⟩ := e
      exact simpLoop_disj k e3 ⟨h.1, ih e1 h.2.1, ih e2 h.2.2⟩

theorem formulasSimplify_out (hs : SigOK sg) {k m n : Nat} (h2 : 2 < n) (ws : List PForm) : ∀ {ws' : List WForm}, formulasSimplify k ws = some ws' → (∀ w ∈ ws, PreOK sg m n w) →
    (∀ w ∈ ws', WForm.OK sg m n w ∧ w.form.Basic) ∧ ∀ I : Interp.{u} sg, (∀ w ∈ ws', w.form.Valid I) ↔ ∀ w ∈ ws, w.form.Valid I := by
  induction ws with
  | nil => intro ws' e _; cases e; simp
  | cons w ws ih =>
    intro ws' e ho
    simp only [formulasSimplify, Option.bind_eq_some_iff] at e
    obtain ⟨f, e1, ws1, e2, e3⟩ := e
    cases e3
    obtain ⟨i1, i2⟩ := ih e2 fun w' hw' => ho w' (List.mem_cons_of_mem _ hw')
    have o := ho w (List.mem_cons_self ..)
    refine ⟨?_, fun I => ?_⟩
    · rw [List.forall_mem_cons]
      refine ⟨⟨⟨parts_simplify (partsOK_wt hs) _ k _ _ e1 o.wt, parts_simplify partsOK_vars _ k _ _ e1 o.vars, parts_simplify (partsOK_syms h2) _ k _ _ e1 o.syms,
        fun hc => simplify_disj k e1 (o.clause hc)⟩, basic_simplify _ k _ _ e1⟩, i1⟩
    · rw [List.forall_mem_cons, List.forall_mem_cons, i2 I]
      exact and_congr_left fun _ => valid_congr (simplify_holds I _ k _ _ e1)

theorem formulasSimplify_total (ws : List PForm) : ∃ r, Ev (fun k => formulasSimplify k ws) r := by
  induction ws with
  | nil => exact ⟨[], 0, fun k _ => rfl⟩
  | cons w ws ih =>
    obtain ⟨r1, N1, h1⟩ := simplify_total (fun _ => false) w.form
    obtain ⟨r2, N2, h2⟩ := ih
    refine ⟨⟨w.isClause, r1⟩ :: r2, max N1 N2, fun k hk => ?_⟩
    have a1 := h1 k (by omega)
    have a2 := h2 k (by omega)
    simp only at a1 a2
    simp only [formulasSimplify, a1, a2, Option.bind_some]

/-! ## The whole transformation -/

/-- What is known of the clauses of a problem. -/
structure ProblemOut (sg : Sig) (p : CnfParams) (ws : List PForm) (n : Nat) (Cs : List (List Lit)) (b' : VarBank) (n' : Nat) : Prop where
  inv : b'.Inv
  le : n ≤ n'
  wt : ∀ C ∈ Cs, sg.WTClause C
  below : ∀ C ∈ Cs, ClauseBelow n' C
  sound : ∀ I : Interp.{u} sg, (∀ C ∈ Cs, I.Models C) → ∀ w ∈ (preprocConjectures p.ac p.ind p.addAnswers p.conjQuestions ws n).1, w.form.Valid I
  extend : ∀ I : Interp.{u} sg, (∀ w ∈ (preprocConjectures p.ac p.ind p.addAnswers p.conjQuestions ws n).1, w.form.Valid I) →
    ∃ F, ∃ h : I.FnOK F, (∀ s, s < n → F s = I.fn s) ∧ ∀ C ∈ Cs, (I.reint F h).Models C
  lePre : n ≤ (preprocConjectures p.ac p.ind p.addAnswers p.conjQuestions ws n).2.1
  extendPre : ∀ I : Interp.{u} sg, (∀ w ∈ (preprocConjectures p.ac p.ind p.addAnswers p.conjQuestions ws n).1, w.form.Valid I) →
    ∃ F, ∃ h : I.FnOK F, (∀ s, s < (preprocConjectures p.ac p.ind p.addAnswers p.conjQuestions ws n).2.1 → F s = I.fn s) ∧ ∀ C ∈ Cs, (I.reint F h).Models C
  declPre : Declared sg (preprocConjectures p.ac p.ind p.addAnswers p.conjQuestions ws n).2.2

theorem problem_out (hs : SigOK sg) {p : CnfParams} {k : Nat} {ws : List PForm} {b : VarBank} {n : Nat} {Cs : List (List Lit)} {b' : VarBank} {n' : Nat} {ds : List SkDecl}
    (e : problemCNF sg p k ws b n = some (Cs, b', n', ds)) (hb : b.Inv) (ha : BankAgrees sg b') (had : AnswerDecl sg p.ac p.ind n)
    (ho : ∀ w ∈ ws, PForm.OK sg b.fresh n w) (hd : Declared sg ds) : ProblemOut.{u} sg p ws n Cs b' n' := by
  simp only [problemCNF, Option.bind_eq_some_iff] at e
  obtain ⟨ws1, e1, ⟨Cs1, b1, n1, d1⟩, e2, e3⟩ := e
  simp only [Option.some.injEq, Prod.mk.injEq] at e3
  obtain ⟨rfl, rfl, rfl, rfl⟩ := e3
  obtain ⟨hd12, hd3⟩ := hd.append
  obtain ⟨hd1, hd2⟩ := hd12.append
  have h2 : 2 < n := Nat.lt_trans had.low had.high
  obtain ⟨l1, o1⟩ := preprocConjectures_ok hs ws had ho hd1
  generalize hr : preprocConjectures p.ac p.ind p.addAnswers p.conjQuestions ws n = r at *
  have h2' : 2 < r.2.1 := Nat.lt_of_lt_of_le h2 l1
  have s1 := formulasSimplify_out.{u} hs h2' r.1 e1 o1
  obtain ⟨l2, o2⟩ := introduceDefs_ok hs (limit := p.defLimit) h2' (fun w hw => (s1.1 w hw).1) hd2
  have snd := fun I => introduceDefs_sound.{u} (sg := sg) (limit := p.defLimit) (fun w hw => (s1.1 w hw).2) (fun w hw => (s1.1 w hw).1.syms) I
  have ext := fun I => introduceDefs_extend.{u} hs (limit := p.defLimit) h2' (fun w hw => (s1.1 w hw).1.syms) hd2 I
  generalize introduceDefs sg p.defLimit ws1 r.2.1 = d at *
  have q := formulas_out.{u} hs d.1 e2 hb ha o2 (Nat.lt_of_lt_of_le h2' l2) hd3
  have key : ∀ I : Interp.{u} sg, (∀ w ∈ r.1, w.form.Valid I) → ∃ F, ∃ h : I.FnOK F, (∀ s, s < r.2.1 → F s = I.fn s) ∧ ∀ C ∈ Cs1, (I.reint F h).Models C := by
    intro I h
    obtain ⟨F, hF, f1, f2⟩ := ext I ((s1.2 I).2 h)
    obtain ⟨G, hG, g1, g2⟩ := q.extend (I.reint F hF) fun f hf => by
      obtain ⟨w, hw, rfl⟩ := List.mem_map.1 hf
      exact f2 w hw
    refine ⟨G, ⟨hG.mem, hG.tf, hG.bool2, hG.dist⟩, fun s hs => ?_, g2⟩
    rw [g1 s fun hc => by have := hc.1; omega]
    exact f1 s fun hc => by have := hc.1; omega
  refine ⟨q.inv, Nat.le_trans l1 (Nat.le_trans l2 q.le), q.wt, q.below, fun I h => ?_, fun I h => ?_, by rw [hr]; exact l1, by rw [hr]; exact key, by rw [hr]; exact hd1⟩
  · rw [hr]
    exact (s1.2 I).1 (snd I fun w hw => q.sound I h _ (List.mem_map.2 ⟨w, hw, rfl⟩))
  · rw [hr] at h
    obtain ⟨F, hF, f1, f2⟩ := key I h
    exact ⟨F, hF, fun s hs => f1 s (Nat.lt_of_lt_of_le hs l1), f2⟩

/-- The goal follows from the axioms if and only if the formulas after the treatment of conjectures are unsatisfiable. -/
theorem goal_iff {ac ind m n n0 : Nat} {a q : Bool} {ws : List PForm} (ho : ∀ w ∈ ws, PForm.OK sg m n0 w) (K : Interp.{u} sg → Prop)
    (hK : ∀ I, K I → (preprocConjectures ac ind a q ws n).2.2 = [] ∨ I.NoAnswer ac) :
    (∀ I : Interp.{u} sg, K I → (∀ w ∈ ws, ¬ w.IsGoal → w.form.Valid I) → ∃ w ∈ ws, w.IsGoal ∧ w.form.Valid I) ↔
    ¬ ∃ I : Interp.{u} sg, K I ∧ ∀ w ∈ (preprocConjectures ac ind a q ws n).1, w.form.Valid I := by
  constructor
  · rintro h ⟨I, hI, hV⟩
    rw [preprocConjectures_valid I ws ho (hK I hI)] at hV
    obtain ⟨w, hw, hg, hv⟩ := h I hI fun w hw hg => by
      rcases hV w hw with hh | hh
      exacts [hh.2, (hg hh.1).elim]
    rcases hV w hw with hh | hh
    exacts [hh.1 hg, hh.2 hv]
  · intro h I hI hax
    by_contra hn
    refine h ⟨I, hI, (preprocConjectures_valid I ws ho (hK I hI)).2 fun w hw => ?_⟩
    by_cases hg : w.IsGoal
    · exact .inr ⟨hg, fun hv => hn ⟨w, hw, hg, hv⟩⟩
    · exact .inl ⟨hg, hax w hw hg⟩

/-- Without annotations no new symbols are made. -/
theorem preprocConjectures_plain {ac ind : Nat} {a q : Bool} (ws : List PForm) (h : a = false ∨ (q = false ∧ ∀ w ∈ ws, w.ftype < 6)) : ∀ {n : Nat},
    (preprocConjectures ac ind a q ws n).2.2 = [] := by
  induction ws with
  | nil => intro n; rfl
  | cons w ws ih =>
    intro n
    simp only [preprocConjectures]
    rw [ih (h.imp_right fun ⟨h1, h2⟩ => ⟨h1, fun w' hw' => h2 w' (List.mem_cons_of_mem _ hw')⟩)]
    rcases h with rfl | ⟨rfl, h⟩
    · unfold PForm.annotate
      split <;> rfl
    · have h1 := h w (List.mem_cons_self ..)
      have : w.ftype = 0 ∨ w.ftype = 1 ∨ w.ftype = 2 ∨ w.ftype = 3 ∨ w.ftype = 4 ∨ w.ftype = 5 := by omega
      unfold PForm.annotate
      rcases this with h | h | h | h | h | h <;> simp [h, hasBits]

/-- Every interpretation can be changed to accept no answer. -/
theorem noAnswer_reint (hs : SigOK sg) {ac ind n : Nat} (had : AnswerDecl sg ac ind n) (I : Interp.{u} sg) :
    ∃ F, ∃ h : I.FnOK F, (∀ s, s ≠ ac → F s = I.fn s) ∧ (I.reint F h).NoAnswer ac := by
  have h1 : (1 : Nat) ≠ ac := by have := had.low; omega
  have hok := fnOK_update I had.low had.dist (fun _ => I.fn 2 []) fun ds => by
    rw [had.ty, hs.tf]
    exact I.fn_mem 2 [] (by rw [hs.fargs]; exact .nil)
  refine ⟨_, hok, fun s hs => if_neg hs, fun d => ?_⟩
  show (if ac = ac then (fun _ => I.fn 2 []) else I.fn ac) [d] ≠ (if (1 : Nat) = ac then (fun _ => I.fn 2 []) else I.fn 1) []
  rw [if_pos rfl, if_neg h1]
  exact I.tf.symm

/-! ## Codes of new symbols -/

/-- The new symbols have consecutive codes. -/
def Consec (n n' : Nat) (ds : List SkDecl) : Prop := n ≤ n' ∧ ds.map SkDecl.code = List.range' n (n' - n)

theorem Consec.nil (n : Nat) : Consec n n [] := ⟨Nat.le_refl _, by simp⟩

theorem Consec.append {n n1 n2 : Nat} {d1 d2 : List SkDecl} (h1 : Consec n n1 d1) (h2 : Consec n1 n2 d2) : Consec n n2 (d1 ++ d2) := by
  obtain ⟨l1, e1⟩ := h1
  obtain ⟨l2, e2⟩ := h2
  refine ⟨Nat.le_trans l1 l2, ?_⟩
  rw [List.map_append, e1, e2]
  have : n1 = n + 1 * (n1 - n) := by omega
  conv_lhs => rw [this]
  rw [show n + 1 * (n1 - n) - n = n1 - n by omega, List.range'_append]
  congr 1
  omega

theorem consec_skolemize (sg : Sig) (f : Form) : ∀ (vs : List Nat) (σ : Nat → Term) (n : Nat), Consec n (f.skolemize sg vs σ n).2.1 (f.skolemize sg vs σ n).2.2 := by
  induction f with
  | lit p l r => intro vs σ n; simp only [skolemize]; split <;> exact .nil n
  | atom t => intro vs σ n; exact .nil n
  | not f ih => intro vs σ n; simp only [skolemize]; split; exacts [.nil n, ih _ _ _]
  | bin op f g ih1 ih2 =>
    intro vs σ n
    simp only [skolemize]
    split
    · exact .nil n
    · exact (ih1 _ _ _).append (ih2 _ _ _)
  | qu q x f ih =>
    intro vs σ n
    cases q with
    | true => exact ih _ _ _
    | false =>
      have h : Consec n (n + 1) [⟨n, vs, sg.vty x⟩] := ⟨Nat.le_succ n, by simp⟩
      exact h.append (ih _ _ _)

theorem consec_formula {small cand : Form → Bool} {k : Nat} {f : Form} {b b' : VarBank} {n n' : Nat} {Cs : List (List Lit)} {ds : List SkDecl}
    (e : formulaCNF sg small cand k f b n = some (Cs, b', n', ds)) : Consec n n' ds := by
  simp only [formulaCNF, conjunctiveNF, Option.bind_eq_bind, Option.bind_eq_some_iff, pure, Option.some.injEq] at e
  obtain ⟨r, ⟨f1, -, f2, -, f3, -, f4, -, f5, -, rfl⟩, s, -, e⟩ := e
  simp only [Prod.mk.injEq] at e
  obtain ⟨-, -, e⟩ := e
  obtain rfl : _ = n' := congrArg Prod.fst e
  obtain rfl : _ = ds := congrArg Prod.snd e
  exact consec_skolemize sg _ _ _ n

theorem consec_formulas {small cand : Form → Bool} {k : Nat} (ws : List WForm) : ∀ {b b' : VarBank} {n n' : Nat} {Cs : List (List Lit)} {ds : List SkDecl},
    formulasCNF sg small cand k ws b n = some (Cs, b', n', ds) → Consec n n' ds := by
  induction ws with
  | nil => intro b b' n n' Cs ds e; cases e; exact .nil n
  | cons w ws ih =>
    intro b b' n n' Cs ds e
    simp only [formulasCNF, Option.bind_eq_some_iff] at e
    obtain ⟨⟨C1, b1, n1, d1⟩, e1, ⟨C2, b2, n2, d2⟩, e2, e3⟩ := e
    cases e3
    refine Consec.append (n1 := n1) ?_ (ih e2)
    unfold WForm.cnf at e1
    split at e1
    · cases e1; exact .nil n
    · exact consec_formula e1

theorem consec_defs {limit : Int} {ws : List WForm} {n : Nat} : Consec n (introduceDefs sg limit ws n).2.1 (introduceDefs sg limit ws n).2.2 := by
  have h := formulasFindDefs_inv (n := n) (Q := fun _ => True) ⟨fun _ h => h, fun _ _ _ h => h, fun _ _ _ h => h, fun _ _ _ h => h⟩ limit ws (fun _ _ => trivial)
  unfold introduceDefs
  refine ⟨by show n ≤ (formulasFindDefs limit ws n).next; rw [h.next]; omega, ?_⟩
  show ((formulasFindDefs limit ws n).list.map (DefEntry.decl sg)).map SkDecl.code = List.range' n ((formulasFindDefs limit ws n).next - n)
  rw [h.next, Nat.add_sub_cancel_left, ← h.codes, List.map_map]
  rfl

theorem consec_preproc {ac ind : Nat} {a q : Bool} (ws : List PForm) : ∀ {n : Nat}, Consec n (preprocConjectures ac ind a q ws n).2.1 (preprocConjectures ac ind a q ws n).2.2 := by
  induction ws with
  | nil => intro n; exact .nil n
  | cons w ws ih =>
    intro n
    simp only [preprocConjectures]
    refine Consec.append ?_ ih
    unfold PForm.annotate
    split
    · split
      · show Consec n (w.form.annotateQuestion ac ind n).2.1 (w.form.annotateQuestion ac ind n).2.2
        unfold annotateQuestion
        simp only
        split
        · exact .nil n
        · exact ⟨Nat.le_succ n, by simp⟩
      · exact .nil n
    · exact .nil n

theorem consec_problem {p : CnfParams} {k : Nat} {ws : List PForm} {b : VarBank} {n : Nat} {Cs : List (List Lit)} {b' : VarBank} {n' : Nat} {ds : List SkDecl}
    (e : problemCNF sg p k ws b n = some (Cs, b', n', ds)) : Consec n n' ds := by
  simp only [problemCNF, Option.bind_eq_some_iff] at e
  obtain ⟨ws1, e1, ⟨Cs1, b1, n1, d1⟩, e2, e3⟩ := e
  cases e3
  exact ((consec_preproc ws).append consec_defs).append (consec_formulas _ e2)

end Verif.CNFProof
