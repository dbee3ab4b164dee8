import Verif.Clauses.RewriteBack
import Verif.Props.Kbo
import Verif.Props.Lpo

/-!
# Rewriting decreases terms
-/

namespace Verif
namespace RewriteProof
open Term

variable {x : RWCtx} {N : Nat} {gt : Term → Term → Prop}

/-- The arities of a signature. -/
def sigAr (sg : Sig) : Nat → Nat := fun f => (sg.fargs f).length

/-- The strict relation: smaller and of the same type. -/
def Smaller (sg : Sig) (N : Nat) (gt : Term → Term → Prop) (t u : Term) : Prop :=
  InSig sg N t ∧ InSig sg N u ∧ sg.ty t = sg.ty u ∧ gt t u

theorem symsBelow_subst {σ : Nat → Term} {t : Term} (h : t.SymsBelow N) (hσ : ∀ y ∈ t.vars, (σ y).SymsBelow N) :
    (t.subst σ).SymsBelow N := by
  induction t using Term.ind with
  | hv y => exact hσ y (by simp [vars])
  | ha f ts ih =>
    rw [subst_app, symsBelow_app]
    rw [symsBelow_app] at h
    refine ⟨h.1, fun t ht => ?_⟩
    obtain ⟨s, hs, rfl⟩ := List.mem_map.1 ht
    exact ih s hs (h.2 s hs) fun y hy => hσ y (by simp only [vars, mem_varsL]; exact ⟨s, hs, hy⟩)

theorem symsBelow_of_subst {σ : Nat → Term} {t : Term} (h : (t.subst σ).SymsBelow N) : ∀ y ∈ t.vars, (σ y).SymsBelow N := by
  induction t using Term.ind with
  | hv y => intro z hz; simp [vars] at hz; subst hz; exact h
  | ha f ts ih =>
    intro y hy
    rw [subst_app, symsBelow_app] at h
    simp only [vars, mem_varsL] at hy
    obtain ⟨s, hs, hy⟩ := hy
    exact ih s hs (h.2 _ (List.mem_map_of_mem hs)) y hy

theorem minTyped_of (hx : x.OK N gt) : MinTyped x := fun hs ty => ⟨(hx.minT hs ty).1.1, (hx.minT hs ty).2⟩

theorem step_smaller (hO : RedOrd (sigAr x.sg) N gt) (hx : x.OK N gt) {d : Demod} (hd : d.OK x.sg N gt) {t u : Term} {right : Bool}
    (ht : InSig x.sg N t) (h : TopStep x d right t u) : Smaller x.sg N gt t u := by
  obtain ⟨σ, h⟩ := h
  have hσ := stepBy_wt (minTyped_of hx) h ht.1
  have hl : InSig x.sg N (d.lhs right) := by cases right <;> simp [Demod.lhs, hd.left, hd.right]
  have hr : InSig x.sg N (d.rhs right) := by cases right <;> simp [Demod.rhs, hd.left, hd.right]
  have hty : x.sg.ty (d.lhs right) = x.sg.ty (d.rhs right) := by cases right <;> simp [Demod.lhs, Demod.rhs, hd.types]
  have hsy : ∀ y ∈ (d.rhs right).vars, (σ y).SymsBelow N := by
    intro y hy
    by_cases hy' : y ∈ (d.lhs right).vars
    · exact symsBelow_of_subst (t := d.lhs right) (by rw [h.inst]; exact ht.2) y hy'
    · by_cases ho : d.oriented = true
      · have hr := h.rule ho
        rw [hr.2 y (by have := hr.1; subst this; simpa [Demod.lhs] using hy')]
        trivial
      · have ho : d.oriented = false := by simpa using ho
        obtain ⟨h1, h2⟩ := h.free ho y hy hy'
        rw [h2]
        exact (hx.minT h1 _).1.2
  have hu : InSig x.sg N u := by
    rw [← h.repl]
    exact ⟨Sig.wt_subst hσ hr.1, symsBelow_subst hr.2 hsy⟩
  refine ⟨ht, hu, ?_, ?_⟩
  · rw [← h.inst, ← h.repl, Sig.ty_subst (fun y => (hσ y).1), Sig.ty_subst (fun y => (hσ y).1), hty]
  · by_cases ho : d.oriented = true
    · have hr := (h.rule ho).1
      subst hr
      rw [← h.inst, ← h.repl]
      simp only [Demod.lhs, Demod.rhs, Bool.false_eq_true, if_false]
      exact hO.subst hd.left.1.hasAr hd.right.1.hasAr (fun y => (hσ y).2.hasAr) (hd.rule ho)
    · have ho : d.oriented = false := by simpa using ho
      exact hx.greater ht hu (h.decr ho)

theorem smaller_args {sg : Sig} (hO : RedOrd (sigAr sg) N gt) {f : Nat} : ∀ {ts us pre : List Term},
    (Term.app f (pre ++ ts)).HasAr (sigAr sg) → List.Forall₂ (fun a b => a = b ∨ Smaller sg N gt a b) ts us → ts ≠ us →
    gt (.app f (pre ++ ts)) (.app f (pre ++ us)) ∧ (Term.app f (pre ++ us)).HasAr (sigAr sg) := by
  intro ts us pre hA h
  induction h generalizing pre with
  | nil => intro h; exact absurd rfl h
  | @cons a b as bs hab hr ih =>
    intro hne
    have hne' : a = b → as ≠ bs := fun e e' => hne (by rw [e, e'])
    have hmid : (Term.app f (pre ++ b :: as)).HasAr (sigAr sg) := by
      obtain ⟨h1, h2⟩ := hasAr_app.1 hA
      refine hasAr_app.2 ⟨by simpa using h1, fun t ht => ?_⟩
      rcases List.mem_append.1 ht with ht | ht
      · exact h2 t (by simp [ht])
      · rcases List.mem_cons.1 ht with rfl | ht
        · rcases hab with rfl | hS
          · exact h2 _ (by simp)
          · exact hS.2.1.1.hasAr
        · exact h2 t (by simp [ht])
    have hstep : a = b ∨ gt (.app f (pre ++ a :: as)) (.app f (pre ++ b :: as)) := by
      rcases hab with e | hS
      · exact .inl e
      · exact .inr (hO.mono hA hS.2.1.1.hasAr hS.2.2.2)
    by_cases he : as = bs
    · subst he
      refine ⟨hstep.resolve_left fun e => hne' e rfl, hmid⟩
    · have := ih (pre := pre ++ [b]) (by simpa using hmid) he
      simp only [List.append_assoc, List.singleton_append] at this
      refine ⟨?_, this.2⟩
      rcases hstep with e | hg
      · subst e; exact this.1
      · exact hO.trans hA hmid this.2 hg this.1

/-- All requirements of the normalisation procedure follow from those on the ordering. -/
theorem rwLaws_of (hO : RedOrd (sigAr x.sg) N gt) (hx : x.OK N gt) {D : Demod → Prop} (hD : ∀ d, D d → d.OK x.sg N gt) :
    RWLaws x D (InSig x.sg N) (Smaller x.sg N gt) where
  dom h := ⟨h.1, h.2.1⟩
  arg {f ts t} h ht := ⟨(Sig.wt_app.1 h.1).2 t ht, (symsBelow_app.1 h.2).2 t ht⟩
  step hw hd h := step_smaller hO hx (hD _ hd) hw h
  trans h h' := ⟨h.1, h'.2.1, h.2.2.1.trans h'.2.2.1, hO.trans h.1.1.hasAr h.2.1.1.hasAr h'.2.1.1.hasAr h.2.2.2 h'.2.2.2⟩
  congr {f ts us} h hf hne := by
    obtain ⟨h1, h2⟩ := smaller_args (pre := []) hO h.1.hasAr hf hne
    have hw := Sig.wt_app.1 h.1
    have hs := symsBelow_app.1 h.2
    have hty : us.map x.sg.ty = ts.map x.sg.ty := by
      clear h hne h1 h2 hw hs
      induction hf with
      | nil => rfl
      | cons hab _ ih =>
        simp only [List.map_cons, ih, List.cons.injEq, and_true]
        rcases hab with rfl | hS
        · rfl
        · exact hS.2.2.1.symm
    have hmem : ∀ u ∈ us, u ∈ ts ∨ InSig x.sg N u := by
      clear h hne h1 h2 hw hs hty
      induction hf with
      | nil => simp
      | cons hab _ ih =>
        intro u hu
        rcases List.mem_cons.1 hu with rfl | hu
        · rcases hab with rfl | hS
          · simp
          · exact .inr hS.2.1
        · exact (ih u hu).imp (fun h => by simp [h]) id
    refine ⟨h, ⟨Sig.wt_app.2 ⟨by rw [← hw.1]; exact hty, fun u hu => ?_⟩, symsBelow_app.2 ⟨hs.1, fun u hu => ?_⟩⟩, rfl, by simpa using h1⟩
    · exact (hmem u hu).elim (hw.2 u) (·.1)
    · exact (hmem u hu).elim (hs.2 u) (·.2)
  noVar h := hO.noVar h.2.1.1.hasAr h.2.2.2
  wf := by
    refine Subrelation.wf ?_ hO.wf
    intro b a h
    rcases h with h | ⟨hw, f, ts, rfl, hb⟩
    · exact ⟨⟨h.1.1.hasAr, h.1.2⟩, ⟨h.2.1.1.hasAr, h.2.1.2⟩, h.2.2.2⟩
    · exact ⟨⟨hw.1.hasAr, hw.2⟩, ⟨((Sig.wt_app.1 hw.1).2 b hb).hasAr, (symsBelow_app.1 hw.2).2 b hb⟩, hO.arg hw.1.hasAr hb⟩

/-! ### The two orderings of the prover -/

theorem redOrd_kbo {P : KboPar} (hP : StrictPrec P.gt) (hA : P.Admissible) (N : Nat) : RedOrd P.ar N (KBO P) where
  trans hs ht hu h1 h2 := KboOrder.kbo_trans hP hA hs ht hu h1 h2
  subst hs ht hσ h := KboOrder.kbo_subst hP hA hσ hs ht h
  mono _ _ h := KboOrder.kbo_mono h _ _ _
  arg hs h := KboOrder.kbo_arg hA hs h
  noVar hu := KboOrder.kbo_var_left hA hu
  wf := by
    refine Subrelation.wf ?_ (KboOrder.kbo_wf_finite hP hA N)
    rintro b a ⟨⟨h1, h2⟩, ⟨h3, h4⟩, h5⟩
    exact ⟨h4, h2, h1, h3, h5⟩

theorem redOrd_lpo {cmp : Nat → Nat → Cmp} (hc : StrictCmp cmp) (ar : Nat → Nat) (N : Nat) : RedOrd ar N (Props.LpoOf cmp) where
  trans _ _ _ h1 h2 := LpoOrder.LPO.trans hc.strict h1 h2
  subst _ _ _ h := LpoOrder.lpo_subst _ h
  mono _ _ h := LpoOrder.lpo_mono h _ _ _
  arg _ h := .sub h
  noVar _ := LpoOrder.lpo_var_left
  wf := by
    refine Subrelation.wf ?_ (LpoOrder.lpo_wf_finite hc.strict N)
    rintro b a ⟨⟨_, h2⟩, ⟨_, h4⟩, h5⟩
    exact ⟨h4, h2, h5⟩

end RewriteProof
end Verif
