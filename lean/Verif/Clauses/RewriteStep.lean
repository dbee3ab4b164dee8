import Verif.Clauses.RewriteSpec
import Verif.Clauses.SubsumeProof
import Verif.Props.Match

/-!
# The test of one demodulator is exact
-/

namespace Verif
namespace RewriteProof
open Term

variable {x : RWCtx}

/-- The stack of a substitution has no repetitions and holds exactly the bound variables. -/
structure StackOK (st : SubstSt) : Prop where
  nodup : st.stack.Nodup
  bound : ∀ y, y ∈ st.stack ↔ st.bind y ≠ none

theorem stackOK_empty : StackOK .empty := ⟨by simp [SubstSt.empty], by simp [SubstSt.empty]⟩

theorem stackOK_add {st : SubstSt} (h : StackOK st) {y : Nat} (hy : st.bind y = none) (t : Term) :
    StackOK (st.addBinding y t) := by
  have hm : y ∉ st.stack := fun hm => (h.bound y).1 hm hy
  refine ⟨by simp [SubstSt.addBinding, hm, h.nodup], fun z => ?_⟩
  by_cases hz : z = y
  · simp [SubstSt.addBinding, hz]
  · simpa [SubstSt.addBinding, hz] using h.bound z

theorem stackOK_loop {sg : Sig} {tw : Int} : ∀ {n : Nat} {jobs : List (Term × Term)} {mw : Int} {st st' : SubstSt} {b : Bool},
    StackOK st → matchLoop sg tw n jobs mw st = some (b, st') → StackOK st' := by
  intro n
  induction n with
  | zero =>
    intro jobs mw st st' b h he
    cases jobs with
    | nil => simp [matchLoop] at he; rw [← he.2]; exact h
    | cons j js => simp [matchLoop] at he
  | succ n ih =>
    intro jobs mw st st' b h he
    cases jobs with
    | nil => simp [matchLoop] at he; rw [← he.2]; exact h
    | cons j js =>
      obtain ⟨m, t⟩ := j
      cases m with
      | var y =>
        simp only [matchLoop] at he
        split at he
        · simp at he; rw [← he.2]; exact h
        · cases hb : st.bind y with
          | some u =>
            simp only [hb] at he
            split at he
            · simp at he; rw [← he.2]; exact h
            · split at he
              · simp at he; rw [← he.2]; exact h
              · exact ih h he
          | none =>
            simp only [hb] at he
            split at he
            · simp at he; rw [← he.2]; exact stackOK_add h hb t
            · exact ih (stackOK_add h hb t) he
      | app f ms =>
        cases t with
        | var z => simp [matchLoop] at he; rw [← he.2]; exact h
        | app g ts =>
          simp only [matchLoop] at he
          split at he
          · simp at he; rw [← he.2]; exact h
          · exact ih h he

structure MatchOK (x : RWCtx) (l t : Term) (sb : SubstSt) : Prop where
  inst : l.subst sb.toFun = t
  typed : ∀ y ∈ l.vars, x.sg.ty (sb.toFun y) = x.sg.vty y
  dom : ∀ y, sb.bind y ≠ none ↔ y ∈ l.vars
  stack : StackOK sb
  pred : ¬ (x.pp t = true ∧ l.isVar = true)

theorem matchSt_some {l t : Term} {sb : SubstSt} (h : matchSt x l t = some sb) : MatchOK x l t sb := by
  unfold matchSt at h
  cases hm : substComputeMatch x.sg l t (x.pp t) .empty with
  | none => simp [hm] at h
  | some p =>
    obtain ⟨b, st⟩ := p
    cases b with
    | false => simp [hm] at h
    | true =>
      simp [hm] at h; subst h
      obtain ⟨h1, h2, new, h3, h4, h5⟩ := Props.matching_success _ _ _ _ _ _ hm
      obtain ⟨res, st', h6, h7⟩ := Props.matching_exact x.sg l t (x.pp t) .empty
      rw [hm] at h6; simp at h6
      refine ⟨h1.inst, h1.typed, fun y => ⟨fun hy => ?_, fun hy => ?_⟩, ?_, (h7.1 h6.1).1⟩
      · by_contra hc
        exact hy ((h5 y fun hn => hc ((h4 y).1 hn).1).trans (by simp [SubstSt.empty]))
      · obtain ⟨u, hu⟩ := h2 y hy; simp [hu]
      · unfold substComputeMatch at hm
        split at hm
        · simp at hm
        · split at hm
          · simp at hm
          · rename_i heq; simp at hm; subst hm; exact stackOK_loop stackOK_empty heq
          · simp at hm

theorem matchSt_exists {l t : Term} {σ : Nat → Term} (h1 : l.subst σ = t) (h2 : ∀ y ∈ l.vars, x.sg.ty (σ y) = x.sg.vty y)
    (h3 : ¬ (x.pp t = true ∧ l.isVar = true)) : ∃ sb, matchSt x l t = some sb ∧ ∀ y ∈ l.vars, sb.toFun y = σ y := by
  obtain ⟨res, st', h6, h7⟩ := Props.matching_exact x.sg l t (x.pp t) .empty
  have : res = true := h7.2 ⟨h3, σ, ⟨by simp [SubstSt.empty], h2, h1⟩⟩
  subst this
  have hs : matchSt x l t = some st' := by simp [matchSt, h6]
  refine ⟨st', hs, ?_⟩
  exact fun y hy => Term.subst_eq_iff.1 ((matchSt_some hs).inst.trans h1.symm) y hy

/-- What `completeMin` adds. -/
structure MinOK (x : RWCtx) (st st' : SubstSt) (V : List Nat) : Prop where
  keep : ∀ y u, st.bind y = some u → st'.bind y = some u
  new : ∀ y, st.bind y = none → y ∈ V → st'.bind y = some (x.minT (x.sg.vty y))
  other : ∀ y, st.bind y = none → y ∉ V → st'.bind y = none
  stack : StackOK st → StackOK st'

theorem minOK_trans {a b c : SubstSt} {V V' : List Nat} (h : MinOK x a b V) (h' : MinOK x b c V') : MinOK x a c (V ++ V') := by
  refine ⟨fun y u hy => h'.keep y u (h.keep y u hy), fun y hy hv => ?_, fun y hy hv => ?_, fun hs => h'.stack (h.stack hs)⟩
  · by_cases h1 : y ∈ V
    · exact h'.keep y _ (h.new y hy h1)
    · exact h'.new y (h.other y hy h1) ((List.mem_append.1 hv).resolve_left h1)
  · simp only [List.mem_append, not_or] at hv
    exact h'.other y (h.other y hy hv.1) hv.2

mutual
theorem completeMin_ok (st : SubstSt) : ∀ t : Term, MinOK x st (completeMin x st t) t.vars
  | .var y => by
    simp only [completeMin, vars]
    cases hb : st.bind y with
    | some u =>
      simp only [Option.isNone_some, Bool.false_eq_true, if_false]
      refine ⟨fun _ _ h => h, fun z hz hm => ?_, fun z hz _ => hz, id⟩
      simp at hm; subst hm; simp [hb] at hz
    | none =>
      simp only [Option.isNone_none, if_true]
      refine ⟨fun z u hz => ?_, fun z hz hm => ?_, fun z hz hm => ?_, fun hs => stackOK_add hs hb _⟩
      · have : z ≠ y := fun h => by rw [h, hb] at hz; simp at hz
        simpa [SubstSt.addBinding, this] using hz
      · simp at hm; subst hm; simp [SubstSt.addBinding]
      · simp at hm; simpa [SubstSt.addBinding, hm] using hz
  | .app f ts => by simpa only [completeMin, vars] using completeMinL_ok st ts
theorem completeMinL_ok (st : SubstSt) : ∀ ts : List Term, MinOK x st (completeMinL x st ts) (varsL ts)
  | [] => ⟨fun _ _ h => h, fun _ _ h => by simp [varsL] at h, fun _ h _ => h, id⟩
  | t :: ts => by
    simp only [completeMinL, varsL]
    exact minOK_trans (completeMin_ok st t) (completeMinL_ok _ ts)
end

theorem isRenaming_iff {st : SubstSt} (h : StackOK st) : substIsRenaming st = true ↔ RenamesOn st.stack st.toFun := by
  unfold substIsRenaming RenamesOn
  simp only [Bool.and_eq_true, List.all_eq_true, decide_eq_true_eq]
  constructor
  · rintro ⟨h1, h2⟩
    refine ⟨fun y hy => ?_, fun y hy z hz he => ?_⟩
    · have := h1 y hy
      cases hf : st.toFun y with
      | var z => exact ⟨z, rfl⟩
      | app f ts => simp [hf, Term.isVar] at this
    · exact List.inj_on_of_nodup_map h2 hy hz he
  · rintro ⟨h1, h2⟩
    refine ⟨fun y hy => ?_, h.nodup.map_on fun y hy z hz he => h2 y hy z hz he⟩
    obtain ⟨z, hz⟩ := h1 y hy
    simp [hz, Term.isVar]

theorem renamesOn_congr {V V' : List Nat} {σ τ : Nat → Term} (h : ∀ y, y ∈ V ↔ y ∈ V') (he : ∀ y ∈ V, σ y = τ y) :
    RenamesOn V σ ↔ RenamesOn V' τ := by
  unfold RenamesOn
  constructor
  · rintro ⟨h1, h2⟩
    refine ⟨fun y hy => he y ((h y).2 hy) ▸ h1 y ((h y).2 hy), fun y hy z hz e => ?_⟩
    exact h2 y ((h y).2 hy) z ((h z).2 hz) (by rw [he y ((h y).2 hy), he z ((h z).2 hz), e])
  · rintro ⟨h1, h2⟩
    refine ⟨fun y hy => he y hy ▸ h1 y ((h y).1 hy), fun y hy z hz e => ?_⟩
    exact h2 y ((h y).1 hy) z ((h z).1 hz) (by rw [← he y hy, ← he z hz, e])

theorem instFO_eq (st : SubstSt) (t : Term) : instFO st.bind t = t.subst st.toFun := rfl

theorem toFun_some {st : SubstSt} {y : Nat} {u : Term} (h : st.bind y = some u) : st.toFun y = u := by
  simp [SubstSt.toFun, h]
theorem toFun_none {st : SubstSt} {y : Nat} (h : st.bind y = none) : st.toFun y = .var y := by
  simp [SubstSt.toFun, h]

/-- The completed substitution for an unoriented equation. -/
structure CompOK (x : RWCtx) (l r t : Term) (sb : SubstSt) : Prop where
  inst : l.subst sb.toFun = t
  typed : ∀ y ∈ l.vars, x.sg.ty (sb.toFun y) = x.sg.vty y
  free : ∀ y ∈ r.vars, y ∉ l.vars → x.strong = true ∧ sb.toFun y = x.minT (x.sg.vty y)
  other : ∀ y, y ∉ l.vars → y ∉ r.vars → sb.toFun y = .var y
  dom : ∀ y, sb.bind y ≠ none ↔ y ∈ l.vars ++ if x.strong then r.vars else []
  stack : StackOK sb

theorem compOK_of {l r t : Term} {sb : SubstSt} (h : MatchOK x l t sb)
    (hg : ¬ (!x.strong && r.vars.any (fun y => (sb.bind y).isNone)) = true) :
    CompOK x l r t (if x.strong then completeMin x sb r else sb) := by
  by_cases hs : x.strong = true
  · simp only [hs, if_true]
    have hm := completeMin_ok (x := x) sb r
    have hl : ∀ y ∈ l.vars, (completeMin x sb r).toFun y = sb.toFun y := by
      intro y hy
      obtain ⟨u, hu⟩ := Option.ne_none_iff_exists'.1 ((h.dom y).2 hy)
      rw [toFun_some hu, toFun_some (hm.keep y u hu)]
    refine ⟨by rw [subst_congr hl, h.inst], fun y hy => by rw [hl y hy]; exact h.typed y hy, fun y hy hn => ?_, fun y hl hr => ?_,
      fun y => ?_, hm.stack h.stack⟩
    · have : sb.bind y = none := by by_contra hc; exact hn ((h.dom y).1 hc)
      exact ⟨hs, toFun_some (hm.new y this hy)⟩
    · have : sb.bind y = none := by by_contra hc; exact hl ((h.dom y).1 hc)
      exact toFun_none (hm.other y this hr)
    · simp only [hs, if_true, List.mem_append]
      by_cases h1 : sb.bind y = none
      · have h2 : y ∉ l.vars := fun hc => (h.dom y).2 hc h1
        by_cases h3 : y ∈ r.vars
        · simp [h3, hm.new y h1 h3]
        · simp [h2, h3, hm.other y h1 h3]
      · have h2 := (h.dom y).1 h1
        obtain ⟨u, hu⟩ := Option.ne_none_iff_exists'.1 h1
        simp [h2, hm.keep y u hu]
  · rw [if_neg hs]
    simp only [hs, Bool.not_false, Bool.true_and, List.any_eq_true, not_exists, not_and, Option.isNone_iff_eq_none] at hg
    simp only [Bool.not_eq_true] at hs
    have hg' : ∀ y ∈ r.vars, sb.bind y ≠ none := by
      simpa [hs] using hg
    refine ⟨h.inst, h.typed, fun y hy hn => absurd ((h.dom y).1 (hg' y hy)) hn, fun y hl hr => ?_, fun y => ?_, h.stack⟩
    · have : sb.bind y = none := by by_contra hc; exact hl ((h.dom y).1 hc)
      exact toFun_none this
    · simpa [hs] using h.dom y

theorem instanceIsRule_true {l r t : Term} {sb sb1 : SubstSt} (h : MatchOK x l t sb)
    (he : instanceIsRule x l r sb = (true, sb1)) :
    CompOK x l r t sb1 ∧ x.greater t (r.subst sb1.toFun) = true ∧
      ¬ RenamesOn (l.vars ++ if x.strong then r.vars else []) sb1.toFun := by
  unfold instanceIsRule at he
  split at he
  · simp at he
  · rename_i hg
    have hc := compOK_of h hg
    generalize hst : (if x.strong then completeMin x sb r else sb) = st1 at he hc
    simp only at he
    split at he
    · simp at he
    · rename_i hn
      simp only [Prod.mk.injEq] at he
      obtain ⟨h1, rfl⟩ := he
      rw [instFO_eq, instFO_eq, hc.inst] at h1
      refine ⟨hc, h1, fun hR => hn ?_⟩
      rw [isRenaming_iff hc.stack]
      refine (renamesOn_congr (fun y => ?_) fun _ _ => rfl).2 hR
      rw [hc.stack.bound y, hc.dom y]

theorem instanceIsRule_of {l r t : Term} {sb : SubstSt} (h : MatchOK x l t sb) {σ : Nat → Term}
    (hl : ∀ y ∈ l.vars, sb.toFun y = σ y)
    (hf : ∀ y ∈ r.vars, y ∉ l.vars → x.strong = true ∧ σ y = x.minT (x.sg.vty y))
    (hn : ¬ RenamesOn (l.vars ++ if x.strong then r.vars else []) σ)
    (hg : x.greater t (r.subst σ) = true) :
    ∃ sb1, instanceIsRule x l r sb = (true, sb1) ∧ r.subst sb1.toFun = r.subst σ := by
  have hg' : ¬ (!x.strong && r.vars.any (fun y => (sb.bind y).isNone)) = true := by
    intro hc
    simp only [Bool.and_eq_true, Bool.not_eq_true', List.any_eq_true, Option.isNone_iff_eq_none] at hc
    obtain ⟨h1, y, hy, h2⟩ := hc
    have : y ∉ l.vars := fun hm => (h.dom y).2 hm h2
    have := (hf y hy this).1
    simp [h1] at this
  have hc := compOK_of h hg'
  have hlq : ∀ y ∈ l.vars, (if x.strong then completeMin x sb r else sb).toFun y = σ y :=
    fun y hy => (Term.subst_eq_iff.1 (hc.inst.trans h.inst.symm) y hy).trans (hl y hy)
  unfold instanceIsRule
  rw [if_neg hg']
  generalize (if x.strong then completeMin x sb r else sb) = st1 at hc hlq
  have hr : ∀ y ∈ r.vars, st1.toFun y = σ y := by
    intro y hy
    by_cases hy' : y ∈ l.vars
    · exact hlq y hy'
    · rw [(hf y hy hy').2, (hc.free y hy hy').2]
  have hV : ∀ y ∈ l.vars ++ (if x.strong then r.vars else []), st1.toFun y = σ y := by
    intro y hy
    rcases List.mem_append.1 hy with hy | hy
    · exact hlq y hy
    · split at hy
      · exact hr y hy
      · simp at hy
  have hnr : ¬ substIsRenaming st1 = true := by
    rw [isRenaming_iff hc.stack]
    intro hR
    refine hn ((renamesOn_congr (V' := st1.stack) (fun y => ?_) fun y hy => (hV y hy).symm).2 hR)
    rw [hc.stack.bound y, hc.dom y]
  refine ⟨st1, ?_, subst_congr hr⟩
  simp only
  rw [if_neg hnr, instFO_eq, instFO_eq, hc.inst, subst_congr hr, hg]

theorem stepBy_of_match {d : Demod} {t : Term} {sb : SubstSt} (h : MatchOK x d.l t sb) (ho : d.oriented = true) :
    StepBy x d false t (d.r.subst sb.toFun) sb.toFun := by
  refine ⟨by simpa [Demod.lhs] using h.typed, by simpa [Demod.lhs] using h.pred, by simpa [Demod.lhs] using h.inst,
    by simp [Demod.rhs], fun _ => ⟨rfl, fun y hy => ?_⟩, by simp [ho], by simp [ho], by simp [ho], by simp [ho]⟩
  refine toFun_none ?_
  by_contra hc
  exact hy ((h.dom y).1 hc)

theorem stepBy_of_comp {d : Demod} {right : Bool} {t : Term} {sb sb1 : SubstSt} (h : MatchOK x (d.lhs right) t sb)
    (ho : d.oriented = false) (he : instanceIsRule x (d.lhs right) (d.rhs right) sb = (true, sb1)) :
    StepBy x d right t ((d.rhs right).subst sb1.toFun) sb1.toFun := by
  obtain ⟨h1, h2, h3⟩ := instanceIsRule_true h he
  exact ⟨h1.typed, h.pred, h1.inst, rfl, by simp [ho], fun _ => h1.free, fun _ => h1.other, fun _ => h2, fun _ => h3⟩

/-- Every successful test is a rewrite step. -/
theorem tryDemod_sound {rs : Bool} {d : Demod} {right : Bool} {t u : Term} (hr : right = true → d.oriented = false)
    (h : tryDemod x rs d right t = some u) : TopStep x d right t u := by
  unfold tryDemod at h
  cases right with
  | true =>
    simp only [if_true] at h
    cases hm : matchSt x d.r t with
    | none => simp [hm] at h
    | some sb =>
      simp only [hm] at h
      cases hi : instanceIsRule x d.r d.l sb with
      | mk ok sb1 =>
        simp only [hi] at h
        cases ok with
        | false => simp at h
        | true =>
          simp only [if_true, Option.some.injEq] at h
          subst h
          have := stepBy_of_comp (d := d) (right := true) (by simpa [Demod.lhs] using matchSt_some hm) (hr rfl)
            (by simpa [Demod.lhs, Demod.rhs] using hi)
          exact ⟨_, by simpa [Demod.rhs, instFO_eq] using this⟩
  | false =>
    simp only [Bool.false_eq_true, if_false] at h
    cases hm : matchSt x d.l t with
    | none => simp [hm] at h
    | some sb =>
      simp only [hm] at h
      by_cases ho : d.oriented = true
      · simp only [ho, if_true, Bool.true_and] at h
        split at h
        · simp at h; subst h; exact ⟨_, stepBy_of_match (matchSt_some hm) ho⟩
        · simp at h
      · simp only [Bool.not_eq_true] at ho
        simp only [ho, Bool.false_eq_true, if_false] at h
        cases hi : instanceIsRule x d.l d.r sb with
        | mk ok sb1 =>
          simp only [hi] at h
          cases ok with
          | false => simp at h
          | true =>
            simp only [Bool.true_and] at h
            split at h
            · simp at h; subst h
              have := stepBy_of_comp (d := d) (right := false) (by simpa [Demod.lhs] using matchSt_some hm) ho
                (by simpa [Demod.lhs, Demod.rhs] using hi)
              exact ⟨_, by simpa [Demod.rhs, instFO_eq] using this⟩
            · simp at h

/-- Without the restriction every rewrite step passes the test. -/
theorem tryDemod_complete {d : Demod} {right : Bool} {t u : Term} (h : TopStep x d right t u) :
    (∃ sb, matchSt x (d.lhs right) t = some sb) ∧ ∃ u', tryDemod x false d right t = some u' := by
  obtain ⟨σ, h⟩ := h
  obtain ⟨sb, hm, hl⟩ := matchSt_exists h.inst h.typed h.pred
  refine ⟨⟨sb, hm⟩, ?_⟩
  unfold tryDemod
  by_cases ho : d.oriented = true
  · obtain ⟨hr, hn⟩ := h.rule ho
    subst hr
    simp only [Demod.lhs, Bool.false_eq_true, if_false] at hm
    simp [hm, ho]
  · simp only [Bool.not_eq_true] at ho
    obtain ⟨sb1, h1, h2⟩ := instanceIsRule_of (matchSt_some hm) hl (h.free ho) (h.proper ho) (by rw [h.repl]; exact h.decr ho)
    cases right with
    | true =>
      simp only [Demod.lhs, Demod.rhs, if_true] at hm h1
      simp [hm, h1]
    | false =>
      simp only [Demod.lhs, Demod.rhs, Bool.false_eq_true, if_false] at hm h1
      simp [hm, h1, ho]

end RewriteProof
end Verif
