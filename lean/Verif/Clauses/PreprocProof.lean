import Verif.Clauses.Preproc
import Verif.Formulas.ProblemProof
import Verif.Clauses.RewriteStep
import Verif.Props.Match
import Verif.Props.Taut
import Verif.Control.SaturateProof
import Verif.Clauses.SplitSem

/-!
# Preprocessing of the clause set: proofs
-/

namespace Verif.PreprocProof
open SemProof Props CNFProof

universe u

variable {sg : Sig}

/-! ## Converting models -/

theorem conv_refl (A : Nat → Prop) (Cs : List (List Lit)) : Converts.{u} sg A Cs Cs := fun I h => ⟨I.fn, fnOK_self I, fun _ _ => rfl, h⟩

theorem conv_of_models {A : Nat → Prop} {Cs Ds : List (List Lit)} (h : ∀ I : Interp.{u} sg, (∀ C ∈ Cs, I.Models C) → ∀ D ∈ Ds, I.Models D) :
    Converts.{u} sg A Cs Ds := fun I hI => ⟨I.fn, fnOK_self I, fun _ _ => rfl, h I hI⟩

theorem conv_trans {A : Nat → Prop} {Cs Ds Es : List (List Lit)} (h1 : Converts.{u} sg A Cs Ds) (h2 : Converts.{u} sg A Ds Es) :
    Converts.{u} sg A Cs Es := by
  intro I hI
  obtain ⟨F, hF, f1, f2⟩ := h1 I hI
  obtain ⟨G, hG, g1, g2⟩ := h2 (I.reint F hF) f2
  exact ⟨G, ⟨hG.mem, hG.tf, hG.bool2, hG.dist⟩, fun s hs => (g1 s hs).trans (f1 s hs), g2⟩

theorem conv_mono {A B : Nat → Prop} {Cs Ds : List (List Lit)} (h : Converts.{u} sg A Cs Ds) (hAB : ∀ s, A s → B s) :
    Converts.{u} sg B Cs Ds := by
  intro I hI
  obtain ⟨F, hF, f1, f2⟩ := h I hI
  exact ⟨F, hF, fun s hs => f1 s fun ha => hs (hAB s ha), f2⟩

/-! ## Definitions -/

theorem freshVars_spec : ∀ (ts : List Term) (seen : List Nat), freshVars seen ts = true → ∃ xs : List Nat, ts = xs.map .var ∧ xs.Nodup ∧ ∀ x ∈ xs, x ∉ seen
  | [], _, _ => ⟨[], rfl, List.nodup_nil, by simp⟩
  | .var x :: ts, seen, h => by
    rw [freshVars, Bool.and_eq_true] at h
    obtain ⟨xs, rfl, h1, h2⟩ := freshVars_spec ts _ h.2
    refine ⟨x :: xs, rfl, List.nodup_cons.2 ⟨fun hx => (h2 x hx) (List.mem_cons_self ..), h1⟩, ?_⟩
    intro y hy
    rcases List.mem_cons.1 hy with rfl | hy
    · simpa using h.1
    · exact fun hs => h2 y hy (List.mem_cons_of_mem _ hs)
  | .app _ _ :: _, _, h => by simp [freshVars] at h

theorem hasCode_avoids {f : Nat} (t : Term) (h : t.hasCode f = false) : t.Avoids f := by
  have hL : ∀ ts : List Term, Term.hasCodeL f ts = false ↔ ∀ t ∈ ts, t.hasCode f = false := by
    intro ts
    induction ts with
    | nil => simp [Term.hasCodeL]
    | cons t ts ih => simp [Term.hasCodeL, ih]
  induction t using Term.ind with
  | hv x => trivial
  | ha g ts ih =>
    rw [Term.hasCode, Bool.or_eq_false_iff, hL] at h
    rw [avoids_app]
    exact ⟨by simpa using h.1, fun t ht => ih t ht (h.2 t ht)⟩

/-- `l` is the term `f(x₁, …, xₖ)` defined by `r`. -/
structure IsDef (f : Nat) (xs : List Nat) (l r : Term) : Prop where
  eq : l = .app f (xs.map .var)
  ne : xs ≠ []
  nodup : xs.Nodup
  avoid : r.Avoids f
  vars : ∀ x ∈ r.vars, x ∈ xs

theorem isDefOf_spec {pseudo : Nat → Bool} {minAr : Nat} (hm : 1 ≤ minAr) {l r : Term} (h : isDefOf pseudo minAr l r = true) :
    ∃ f xs, IsDef f xs l r ∧ pseudo f = false := by
  cases l with
  | var x => simp [isDefOf] at h
  | app f ts =>
    simp only [isDefOf, isDefTerm, Bool.and_eq_true, decide_eq_true_eq, Bool.not_eq_true'] at h
    obtain ⟨⟨⟨⟨⟨h1, -⟩, h2⟩, h3⟩, h4⟩, h5⟩ := h
    obtain ⟨xs, rfl, h6, -⟩ := freshVars_spec _ _ h2
    refine ⟨f, xs, ⟨rfl, ?_, h6, hasCode_avoids r h4, ?_⟩, h3⟩
    · rintro rfl; simp at h1; omega
    · intro x hx
      by_contra hn
      refine absurd h5 ?_
      rw [Bool.not_eq_false, unboundVars, List.any_eq_true]
      exact ⟨x, hx, by simp [Term.vars, Term.varsL_eq, hn]⟩

theorem clauseDefinition_spec {pseudo : Nat → Bool} {minAr : Nat} (hm : 1 ≤ minAr) {C : List Lit} {l r : Term}
    (h : clauseDefinition pseudo minAr C = some (l, r)) :
    (∃ f xs, IsDef f xs l r ∧ pseudo f = false) ∧ (C = [⟨true, l, r⟩] ∨ C = [⟨true, r, l⟩]) := by
  match C, h with
  | [⟨p, a, b⟩], h =>
    simp only [clauseDefinition, litDefinition] at h
    cases p with
    | false => simp at h
    | true =>
      simp only [Bool.not_true, Bool.false_eq_true, if_false] at h
      split at h
      · rename_i hd; cases h; exact ⟨isDefOf_spec hm hd, .inl rfl⟩
      · split at h
        · rename_i hd; cases h; exact ⟨isDefOf_spec hm hd, .inr rfl⟩
        · cases h

/-! ## Unfolding one definition -/

variable {f : Nat} {xs : List Nat} {l r : Term}

theorem unfoldTerms_eq (ts : List Term) : unfoldTerms sg l r ts = ts.map (unfoldTerm sg l r) := by
  induction ts with
  | nil => rfl
  | cons t ts ih => rw [unfoldTerms, ih, List.map_cons]

theorem unfoldTerm_app (g : Nat) (ts : List Term) : unfoldTerm sg l r (.app g ts) = unfoldTop sg l r (.app g (ts.map (unfoldTerm sg l r))) := by
  rw [unfoldTerm, unfoldTerms_eq]

theorem unfoldTop_ne (hd : IsDef f xs l r) {g : Nat} (hg : g ≠ f) (ts : List Term) : unfoldTop sg l r (.app g ts) = .app g ts := by
  rw [unfoldTop, hd.eq]
  simp only [Term.head?, Option.some.injEq]
  exact if_neg fun h => hg h.symm

/-- The instance of the definition used for a term with the defined symbol. -/
theorem unfoldTop_eq (hd : IsDef f xs l r) (hl : sg.WT l) {ts : List Term} (ht : sg.WT (.app f ts)) :
    ∃ σ, sg.WTSubst σ ∧ l.subst σ = .app f ts ∧ unfoldTop sg l r (.app f ts) = r.subst σ := by
  obtain ⟨res, st, e, hex⟩ := matching_exact sg l (.app f ts) false ⟨fun _ => none, []⟩
  have hl' := hl
  rw [hd.eq, Sig.wt_app] at hl'
  have ht' := ht
  rw [Sig.wt_app] at ht'
  have hty : ts.map sg.ty = xs.map sg.vty := by
    rw [ht'.1, ← hl'.1, List.map_map]; rfl
  have hlen : xs.length = ts.length := by have := congrArg List.length hty; simpa using this.symm
  have hres : res = true := by
    rw [hex]
    refine ⟨by simp, fun x => (ts[xs.idxOf x]?).getD (.var x), by simp, ?_, ?_⟩
    · intro x hx
      have hx : x ∈ xs := by simpa [hd.eq, Term.vars, Term.varsL_eq] using hx
      have hi : xs.idxOf x < ts.length := hlen ▸ List.idxOf_lt_length_of_mem hx
      have h1 := congrArg (·[xs.idxOf x]?) hty
      simp only [List.getElem?_map, List.getElem?_eq_getElem hi, List.getElem?_eq_getElem (List.idxOf_lt_length_of_mem hx), Option.map_some, Option.some.injEq, List.getElem_idxOf] at h1
      simp only [List.getElem?_eq_getElem hi, Option.getD_some, h1]
    · rw [hd.eq, Term.subst_app]
      congr 1
      refine List.ext_getElem (by simp [hlen]) fun i h1 h2 => ?_
      have h3 : i < xs.length := by simpa using h1
      simp only [List.getElem_map, Term.subst_var]
      rw [List.Nodup.idxOf_getElem hd.nodup i h3, List.getElem?_eq_getElem h2]
      rfl
  subst hres
  obtain ⟨hm, hb, new, -, hn1, hn2⟩ := matching_success sg l _ false _ st e
  refine ⟨fun x => (st.bind x).getD (.var x), fun x => ?_, hm.inst, ?_⟩
  · by_cases hx : x ∈ xs
    · have hxl : x ∈ l.vars := by simpa [hd.eq, Term.vars, Term.varsL_eq] using hx
      refine ⟨hm.typed x hxl, ?_⟩
      have h1 := hm.inst
      rw [hd.eq, Term.subst_app] at h1
      injection h1 with _ h1
      have h2 : (fun x => (st.bind x).getD (.var x)) x ∈ ts := by
        rw [← h1, List.map_map, List.mem_map]
        exact ⟨x, hx, rfl⟩
      exact ht'.2 _ h2
    · have : st.bind x = none := hn2 x fun h => hx (by simpa [hd.eq, Term.vars, Term.varsL_eq] using ((hn1 x).1 h).1)
      simp only [this]
      exact ⟨rfl, trivial⟩
  · rw [unfoldTop, if_pos (by rw [hd.eq]; rfl), e]
    rfl

theorem unfold_typed (hd : IsDef f xs l r) (hw : sg.WTLit ⟨true, l, r⟩) (t : Term) (ht : sg.WT t) :
    sg.WT (unfoldTerm sg l r t) ∧ sg.ty (unfoldTerm sg l r t) = sg.ty t := by
  induction t using Term.ind with
  | hv x => exact ⟨trivial, rfl⟩
  | ha g ts ih =>
    rw [unfoldTerm_app]
    rw [Sig.wt_app] at ht
    have h1 : sg.WT (.app g (ts.map (unfoldTerm sg l r))) := by
      rw [Sig.wt_app, ← ht.1, List.map_map]
      refine ⟨List.map_congr_left fun t hm => (ih t hm (ht.2 t hm)).2, ?_⟩
      intro t hm
      obtain ⟨s, hs, rfl⟩ := List.mem_map.1 hm
      exact (ih s hs (ht.2 s hs)).1
    by_cases hg : g = f
    · subst hg
      obtain ⟨σ, h2, h3, h4⟩ := unfoldTop_eq hd hw.1 h1
      rw [h4]
      refine ⟨Sig.wt_subst h2 hw.2.1, ?_⟩
      rw [Sig.ty_subst (fun x => (h2 x).1), ← hw.2.2, ← Sig.ty_subst (fun x => (h2 x).1) l, h3]
      rfl
    · rw [unfoldTop_ne hd hg]
      exact ⟨h1, rfl⟩

/-- In a model of the definition, unfolding does not change the value of a term. -/
theorem eval_unfold (hd : IsDef f xs l r) (hw : sg.WTLit ⟨true, l, r⟩) {I : Interp.{u} sg} (hI : ∀ v, I.Sorted v → I.eval v l = I.eval v r)
    {v : Nat → I.D} (hv : I.Sorted v) (t : Term) (ht : sg.WT t) : I.eval v (unfoldTerm sg l r t) = I.eval v t := by
  induction t using Term.ind with
  | hv x => rfl
  | ha g ts ih =>
    have h0 := (unfold_typed hd hw)
    rw [unfoldTerm_app]
    rw [Sig.wt_app] at ht
    have h1 : sg.WT (.app g (ts.map (unfoldTerm sg l r))) := by
      rw [Sig.wt_app, ← ht.1, List.map_map]
      refine ⟨List.map_congr_left fun t hm => (h0 t (ht.2 t hm)).2, ?_⟩
      intro t hm
      obtain ⟨s, hs, rfl⟩ := List.mem_map.1 hm
      exact (h0 s (ht.2 s hs)).1
    have h2 : I.eval v (.app g (ts.map (unfoldTerm sg l r))) = I.eval v (.app g ts) := by
      rw [eval_app, eval_app, List.map_map]
      exact congrArg _ (List.map_congr_left fun t hm => ih t hm (ht.2 t hm))
    by_cases hg : g = f
    · subst hg
      obtain ⟨σ, h3, h4, h5⟩ := unfoldTop_eq hd hw.1 h1
      rw [h5, eval_subst, ← hI _ (sorted_subst I hv h3), ← eval_subst, h4, h2]
    · rw [unfoldTop_ne hd hg, h2]

theorem eval_unfold_lit (hd : IsDef f xs l r) (hw : sg.WTLit ⟨true, l, r⟩) {I : Interp.{u} sg} (hI : ∀ v, I.Sorted v → I.eval v l = I.eval v r)
    {v : Nat → I.D} (hv : I.Sorted v) {L : Lit} (hL : sg.WTLit L) : I.LitTrue v (unfoldLit sg l r L) ↔ I.LitTrue v L := by
  simp only [Interp.LitTrue, unfoldLit, eval_unfold hd hw hI hv _ hL.1, eval_unfold hd hw hI hv _ hL.2.1]

theorem unfoldClause_wt (hd : IsDef f xs l r) (hw : sg.WTLit ⟨true, l, r⟩) {C : List Lit} (hC : sg.WTClause C) : sg.WTClause (unfoldClause sg l r C) := by
  rw [unfoldClause]
  split
  · exact hC
  · refine InferProof.finish_wt ?_
    intro L hL
    obtain ⟨K, hK, rfl⟩ := List.mem_map.1 hL
    have h1 := unfold_typed hd hw K.l (hC K hK).1
    have h2 := unfold_typed hd hw K.r (hC K hK).2.1
    exact ⟨h1.1, h2.1, by rw [unfoldLit, h1.2, h2.2]; exact (hC K hK).2.2⟩

theorem unfoldClause_models (hd : IsDef f xs l r) (hw : sg.WTLit ⟨true, l, r⟩) {I : Interp.{u} sg} (hI : ∀ v, I.Sorted v → I.eval v l = I.eval v r)
    {C : List Lit} (hC : sg.WTClause C) : I.Models (unfoldClause sg l r C) ↔ I.Models C := by
  refine forall_congr' fun v => imp_congr_right fun hv => ?_
  have h1 : I.ClauseTrue v (C.map (unfoldLit sg l r)) ↔ I.ClauseTrue v C := by
    constructor
    · rintro ⟨K, hK, hT⟩
      obtain ⟨L, hL, rfl⟩ := List.mem_map.1 hK
      exact ⟨L, hL, (eval_unfold_lit hd hw hI hv (hC L hL)).1 hT⟩
    · rintro ⟨L, hL, hT⟩
      exact ⟨_, List.mem_map_of_mem hL, (eval_unfold_lit hd hw hI hv (hC L hL)).2 hT⟩
  rw [unfoldClause]
  split
  · exact Iff.rfl
  · rw [InferProof.finish_true, h1]

/-! ## Dropping a definition -/

theorem unfoldTerm_avoids (hd : IsDef f xs l r) (hl : sg.WTLit ⟨true, l, r⟩) (t : Term) (ht : sg.WT t) : (unfoldTerm sg l r t).Avoids f := by
  have hsub : ∀ (s : Term) (σ : Nat → Term), s.Avoids f → (∀ x ∈ s.vars, (σ x).Avoids f) → (s.subst σ).Avoids f := by
    intro s σ
    induction s using Term.ind with
    | hv x => intro _ h; exact h x (by simp [Term.vars])
    | ha g ts ih =>
      intro h1 h2
      rw [avoids_app] at h1
      rw [Term.subst_app, avoids_app]
      refine ⟨h1.1, fun t hm => ?_⟩
      obtain ⟨s, hs, rfl⟩ := List.mem_map.1 hm
      exact ih s hs (h1.2 s hs) fun x hx => h2 x (by simp only [Term.vars, Term.mem_varsL]; exact ⟨s, hs, hx⟩)
  induction t using Term.ind with
  | hv x => trivial
  | ha g ts ih =>
    rw [unfoldTerm_app]
    rw [Sig.wt_app] at ht
    have h1 : sg.WT (.app g (ts.map (unfoldTerm sg l r))) := by
      rw [Sig.wt_app, ← ht.1, List.map_map]
      refine ⟨List.map_congr_left fun t hm => (unfold_typed hd hl t (ht.2 t hm)).2, ?_⟩
      intro t hm
      obtain ⟨s, hs, rfl⟩ := List.mem_map.1 hm
      exact (unfold_typed hd hl s (ht.2 s hs)).1
    have h2 : ∀ t ∈ ts.map (unfoldTerm sg l r), t.Avoids f := by
      intro t hm
      obtain ⟨s, hs, rfl⟩ := List.mem_map.1 hm
      exact ih s hs (ht.2 s hs)
    by_cases hg : g = f
    · subst hg
      obtain ⟨σ, h3, h4, h5⟩ := unfoldTop_eq hd hl.1 h1
      rw [h5]
      refine hsub r σ hd.avoid fun x hx => h2 _ ?_
      have h6 := (congrArg (Term.subst σ) hd.eq).symm.trans h4
      rw [Term.subst_app] at h6
      injection h6 with _ h6
      rw [← h6, List.map_map, List.mem_map]
      exact ⟨x, hd.vars x hx, rfl⟩
    · rw [unfoldTop_ne hd hg, avoids_app]
      exact ⟨hg, h2⟩

/-- The clause does not contain the symbol. -/
def ClauseAvoids (c : Nat) (C : List Lit) : Prop := ∀ L ∈ C, L.l.Avoids c ∧ L.r.Avoids c

theorem models_reint_avoid (I : Interp.{u} sg) {F : Nat → List I.D → I.D} (h : I.FnOK F) {c : Nat} (hF : ∀ s, s ≠ c → F s = I.fn s) {C : List Lit} (hC : ClauseAvoids c C) :
    (I.reint F h).Models C ↔ I.Models C := by
  refine forall_congr' fun v => imp_congr_right fun hv => ?_
  refine exists_congr fun L => and_congr_right fun hL => ?_
  have e1 := eval_reint_avoid I h hF v _ (hC L hL).1
  have e2 := eval_reint_avoid I h hF v _ (hC L hL).2
  simp only [Interp.LitTrue]
  rw [e1, e2]
  exact Iff.rfl

theorem unfoldClause_avoids (hd : IsDef f xs l r) (hw : sg.WTLit ⟨true, l, r⟩) {C : List Lit} (hC : sg.WTClause C) : ClauseAvoids f (unfoldClause sg l r C) := by
  have h1 : ClauseAvoids f (C.map (unfoldLit sg l r)) := by
    intro L hL
    obtain ⟨K, hK, rfl⟩ := List.mem_map.1 hL
    exact ⟨unfoldTerm_avoids hd hw _ (hC K hK).1, unfoldTerm_avoids hd hw _ (hC K hK).2.1⟩
  rw [unfoldClause]
  split
  · rename_i h; rw [← h]; exact h1
  · exact fun L hL => h1 L (InferProof.finish_mem hL)

/-- Any interpretation can be made to satisfy a definition by changing the meaning of the defined symbol. -/
theorem define (hs : SigOK sg) (hdi : ∀ s, sg.distinct s → sg.fargs s = []) (hd : IsDef f xs l r) (hw : sg.WTLit ⟨true, l, r⟩) (I : Interp.{u} sg) :
    ∃ F, ∃ h : I.FnOK F, (∀ s, s ≠ f → F s = I.fn s) ∧ ∀ v, (I.reint F h).Sorted v → (I.reint F h).eval v l = (I.reint F h).eval v r := by
  classical
  have hl := hw.1
  rw [hd.eq, Sig.wt_app, List.map_map] at hl
  have hargs : sg.fargs f = xs.map sg.vty := hl.1.symm
  have hne : sg.fargs f ≠ [] := by rw [hargs]; simpa using hd.ne
  have hf1 : f ≠ 1 := by rintro rfl; exact hne hs.targs
  have hf2 : f ≠ 2 := by rintro rfl; exact hne hs.fargs
  let w : List I.D → Nat → I.D := fun ds x => if x ∈ xs then (ds[xs.idxOf x]?).getD (I.inhab (sg.vty x)).choose else (I.inhab (sg.vty x)).choose
  have hw1 : ∀ ds, List.Forall₂ I.mem (xs.map sg.vty) ds → I.Sorted (w ds) := by
    intro ds hds x
    show I.mem _ (if x ∈ xs then _ else _)
    split
    · rename_i hx
      have hi := List.idxOf_lt_length_of_mem hx
      have hlen : xs.length = ds.length := by simpa using hds.length_eq
      have := hds.get (i := xs.idxOf x) (by simpa using hi) (by omega)
      simp only [List.get_eq_getElem, List.getElem_map, List.getElem_idxOf] at this
      rw [List.getElem?_eq_getElem (by omega)]
      exact this
    · exact (I.inhab (sg.vty x)).choose_spec
  let F : Nat → List I.D → I.D := fun s => if s = f then fun ds => I.eval (w ds) r else I.fn s
  have hF : ∀ s, s ≠ f → F s = I.fn s := fun s hsf => if_neg hsf
  have hFf : ∀ ds, F f ds = I.eval (w ds) r := fun ds => congrFun (if_pos rfl) ds
  have h : I.FnOK F := by
    refine ⟨fun s ds hds => ?_, ?_, ?_, fun s t h1 h2 h3 => ?_⟩
    · by_cases hsf : s = f
      · subst hsf
        rw [hFf]
        have h1 := eval_mem I (hw1 ds (hargs ▸ hds)) hw.2.1
        have h2 : sg.ty r = sg.fty s := by have := hw.2.2; simp only [hd.eq] at this; exact this.symm
        exact h2 ▸ h1
      · rw [hF s hsf]; exact I.fn_mem s ds hds
    · rw [hF 1 hf1.symm, hF 2 hf2.symm]; exact I.tf
    · intro d hd; rw [hF 1 hf1.symm, hF 2 hf2.symm]; exact I.bool2 d hd
    · have e1 : s ≠ f := by rintro rfl; exact hne (hdi _ h1)
      have e2 : t ≠ f := by rintro rfl; exact hne (hdi _ h2)
      rw [hF s e1, hF t e2]
      exact I.dist s t h1 h2 h3
  refine ⟨F, h, hF, fun (v : Nat → I.D) hv => ?_⟩
  rw [eval_reint_avoid I h hF v r hd.avoid, hd.eq]
  refine (eval_app (I.reint F h) v f _).trans ?_
  refine (hFf _).trans ?_
  refine eval_congr I fun x hx => ?_
  have hx := hd.vars x hx
  show (if x ∈ xs then _ else _) = _
  rw [if_pos hx, List.map_map]
  show ((List.map v xs : List I.D)[xs.idxOf x]?).getD _ = v x
  rw [List.getElem?_map, List.getElem?_eq_getElem (List.idxOf_lt_length_of_mem hx)]
  simp only [Option.map_some, Option.getD_some, List.getElem_idxOf]

/-- Unfolding and dropping one definition. -/
theorem unfold_converts (hs : SigOK sg) (hdi : ∀ s, sg.distinct s → sg.fargs s = []) (hd : IsDef f xs l r) {C : List Lit} (hC : C = [⟨true, l, r⟩] ∨ C = [⟨true, r, l⟩])
    {Γ Δ : List (List Lit)} (hw : ∀ D ∈ Γ ++ C :: Δ, sg.WTClause D) :
    (∀ I : Interp.{u} sg, (∀ D ∈ Γ ++ C :: Δ, I.Models D) → ∀ D ∈ Γ.map (unfoldClause sg l r) ++ Δ.map (unfoldClause sg l r), I.Models D) ∧
    Converts.{u} sg (· = f) (Γ.map (unfoldClause sg l r) ++ Δ.map (unfoldClause sg l r)) (Γ ++ C :: Δ) ∧
    (∀ D ∈ Γ.map (unfoldClause sg l r) ++ Δ.map (unfoldClause sg l r), sg.WTClause D) := by
  have hwC : sg.WTLit ⟨true, l, r⟩ := by
    have := hw C (by simp)
    rcases hC with rfl | rfl
    · exact this _ (List.mem_singleton.2 rfl)
    · have := this _ (List.mem_singleton.2 rfl); exact ⟨this.2.1, this.1, this.2.2.symm⟩
  have hmC : ∀ I : Interp.{u} sg, I.Models C ↔ ∀ v, I.Sorted v → I.eval v l = I.eval v r := by
    intro I
    refine forall_congr' fun v => imp_congr_right fun hv => ?_
    rcases hC with rfl | rfl
    · simp [Interp.ClauseTrue, Interp.LitTrue]
    · refine Iff.trans ?_ (eq_comm (a := I.eval v r))
      simp [Interp.ClauseTrue, Interp.LitTrue]
  rw [← List.map_append]
  have hmem : ∀ D, D ∈ Γ ++ C :: Δ ↔ D = C ∨ D ∈ Γ ++ Δ := by intro D; simp only [List.mem_append, List.mem_cons]; tauto
  simp only [hmem] at hw ⊢
  refine ⟨fun I hI D hD => ?_, fun I hI => ?_, fun D hD => ?_⟩
  · obtain ⟨E, hE, rfl⟩ := List.mem_map.1 hD
    exact (unfoldClause_models hd hwC ((hmC I).1 (hI C (.inl rfl))) (hw E (.inr hE))).2 (hI E (.inr hE))
  · obtain ⟨F, h, h1, h2⟩ := define hs hdi hd hwC I
    refine ⟨F, h, h1, fun D hD => ?_⟩
    rcases (hmem D).1 hD with rfl | hD
    · exact (hmC _).2 h2
    · refine (unfoldClause_models hd hwC h2 (hw D (.inr hD))).1 ?_
      exact (models_reint_avoid I h h1 (unfoldClause_avoids hd hwC (hw D (.inr hD)))).2 (hI _ (List.mem_map_of_mem hD))
  · obtain ⟨E, hE, rfl⟩ := List.mem_map.1 hD
    exact unfoldClause_wt hd hwC (hw E (.inr hE))

theorem unfoldAll_ok (hs : SigOK sg) (hdi : ∀ s, sg.distinct s → sg.fargs s = []) {pseudo : Nat → Bool} {minAr : Nat} (hm : 1 ≤ minAr) {limit : Int}
    (Γ Δ : List (List Lit)) (hw : ∀ D ∈ Γ ++ Δ, sg.WTClause D) :
    (∀ I : Interp.{u} sg, (∀ D ∈ Γ ++ Δ, I.Models D) → ∀ D ∈ (unfoldAll sg pseudo minAr limit Γ Δ).1, I.Models D) ∧
    Converts.{u} sg (· ∈ (unfoldAll sg pseudo minAr limit Γ Δ).2) (unfoldAll sg pseudo minAr limit Γ Δ).1 (Γ ++ Δ) ∧
    (∀ D ∈ (unfoldAll sg pseudo minAr limit Γ Δ).1, sg.WTClause D) ∧ (∀ s ∈ (unfoldAll sg pseudo minAr limit Γ Δ).2, pseudo s = false ∧ sg.fargs s ≠ []) := by
  fun_induction unfoldAll sg pseudo minAr limit Γ Δ with
  | case1 Γ =>
    simp only [List.append_nil] at *
    exact ⟨fun I h => h, conv_refl _ _, hw, by simp⟩
  | case2 Γ C Δ l r hdef hle res ih =>
    obtain ⟨⟨f, xs, hd, hp⟩, hC⟩ := clauseDefinition_spec hm hdef
    obtain ⟨h1, h2, h3⟩ := unfold_converts.{u} hs hdi hd hC hw
    obtain ⟨i1, i2, i3, i4⟩ := ih h3
    have hhead : l.head?.toList = [f] := by rw [hd.eq]; rfl
    simp only [hhead]
    refine ⟨fun I hI => i1 I (h1 I hI), ?_, i3, ?_⟩
    · exact conv_trans (conv_mono i2 fun s h => List.mem_append_right _ h) (conv_mono h2 fun s h => by simp [h])
    · intro s hsm
      rcases List.mem_append.1 hsm with hsm | hsm
      · rw [List.mem_singleton.1 hsm]
        refine ⟨hp, ?_⟩
        have hwC : sg.WT l := by
          have := hw C (by simp)
          rcases hC with rfl | rfl
          · exact (this _ (List.mem_singleton.2 rfl)).1
          · exact (this _ (List.mem_singleton.2 rfl)).2.1
        rw [hd.eq, Sig.wt_app] at hwC
        rw [← hwC.1]
        simpa using hd.ne
      · exact i4 s hsm
  | case3 Γ C Δ l r hdef hle ih => simp only [List.append_assoc, List.singleton_append] at ih; exact ih hw
  | case4 Γ C Δ hdef ih => simp only [List.append_assoc, List.singleton_append] at ih; exact ih hw

/-! ## Injectivity -/

/-- What the scan of the arguments has found. -/
structure InjOK (sg : Sig) (chk op as bs zs : List Nat) : Prop where
  chka : ∀ x ∈ as, x ∉ chk
  sub : ∀ x ∈ zs, x ∈ as
  pair : ∀ p ∈ as.zip bs, (p.1 = p.2 ∧ (p.1 ∈ op ∨ p.1 ∈ zs)) ∨ (p.1 ≠ p.2 ∧ p.2 ∉ as ∧ p.1 ∉ op ∧ p.2 ∉ op ∧ p.2 ∉ chk)
  ren : ∃ ρ : Nat → Nat, (∀ x, ρ (ρ x) = x) ∧ (∀ x, x ∈ chk ∨ x ∈ op → ρ x = x) ∧ as.map ρ = bs ∧ (∀ z ∈ zs, ρ z = z) ∧ ∀ x, sg.vty (ρ x) = sg.vty x

theorem injScan_ok (chk op : List Nat) (ts us : List Term) {zs : List Nat} (h : injScan chk op ts us = some zs) (hty : ts.map sg.ty = us.map sg.ty) :
    ∃ as bs : List Nat, ts = as.map .var ∧ us = bs.map .var ∧ InjOK sg chk op as bs zs := by
  fun_induction injScan chk op ts us generalizing zs with
  | case1 chk op => cases h; exact ⟨[], [], rfl, rfl, by simp, by simp, by simp, id, by simp⟩
  | case2 chk op ts b us hc => cases h
  | case3 chk op ts b us hc ho ih =>
    simp only [List.map_cons, List.cons.injEq] at hty
    obtain ⟨as, bs, rfl, rfl, hk⟩ := ih h hty.2
    have hc : b ∉ chk := by simpa using hc
    have ho : b ∈ op := by simpa using ho
    refine ⟨b :: as, b :: bs, rfl, rfl, ?_, fun x hx => List.mem_cons_of_mem _ (hk.sub x hx), ?_, ?_⟩
    · intro x hx; rcases List.mem_cons.1 hx with rfl | hx
      · exact hc
      · exact hk.chka x hx
    · intro p hp
      rw [List.zip_cons_cons] at hp
      rcases List.mem_cons.1 hp with rfl | hp
      · exact .inl ⟨rfl, .inl ho⟩
      · refine (hk.pair p hp).imp_right fun ⟨h1, h2, h3, h4, h5⟩ => ⟨h1, ?_, h3, h4, h5⟩
        rw [List.mem_cons, not_or]
        exact ⟨fun e => h4 (e ▸ ho), h2⟩
    · obtain ⟨ρ, r1, r2, r3, r4, r5⟩ := hk.ren
      exact ⟨ρ, r1, r2, by rw [List.map_cons, r3, r2 b (.inr ho)], r4, r5⟩
  | case4 chk op ts b us hc ho ih =>
    simp only [List.map_cons, List.cons.injEq] at hty
    obtain ⟨zs', e, rfl⟩ := Option.map_eq_some_iff.1 h
    obtain ⟨as, bs, rfl, rfl, hk⟩ := ih e hty.2
    have hc : b ∉ chk := by simpa using hc
    refine ⟨b :: as, b :: bs, rfl, rfl, ?_, ?_, ?_, ?_⟩
    · intro x hx; rcases List.mem_cons.1 hx with rfl | hx
      · exact hc
      · exact hk.chka x hx
    · intro x hx; rcases List.mem_cons.1 hx with rfl | hx
      · exact List.mem_cons_self ..
      · exact List.mem_cons_of_mem _ (hk.sub x hx)
    · intro p hp
      rw [List.zip_cons_cons] at hp
      rcases List.mem_cons.1 hp with rfl | hp
      · exact .inl ⟨rfl, .inr (List.mem_cons_self ..)⟩
      · rcases hk.pair p hp with ⟨h1, h2⟩ | ⟨h1, h2, h3, h4, h5⟩
        · refine .inl ⟨h1, ?_⟩
          simp only [List.mem_cons] at h2 ⊢
          tauto
        · rw [List.mem_cons, not_or] at h3 h4
          refine .inr ⟨h1, ?_, h3.2, h4.2, h5⟩
          rw [List.mem_cons, not_or]
          exact ⟨h4.1, h2⟩
    · obtain ⟨ρ, r1, r2, r3, r4, r5⟩ := hk.ren
      have hb : ρ b = b := r2 b (.inr (List.mem_cons_self ..))
      refine ⟨ρ, r1, fun x hx => r2 x (hx.imp_right (List.mem_cons_of_mem _)), by rw [List.map_cons, r3, hb], ?_, r5⟩
      intro z hz; rcases List.mem_cons.1 hz with rfl | hz
      · exact hb
      · exact r4 z hz
  | case5 chk op a ts b us hab hc => cases h
  | case6 chk op a ts b us hab hc ih =>
    simp only [List.map_cons, List.cons.injEq] at hty
    obtain ⟨as, bs, rfl, rfl, hk⟩ := ih h hty.2
    simp only [Bool.or_eq_true, not_or, List.contains_iff_mem] at hc
    obtain ⟨⟨⟨c1, c2⟩, c3⟩, c4⟩ := hc
    have hka : ∀ x ∈ as, x ≠ a ∧ x ≠ b ∧ x ∉ chk := by
      intro x hx
      have := hk.chka x hx
      simpa only [List.mem_cons, not_or] using this
    refine ⟨a :: as, b :: bs, rfl, rfl, ?_, fun x hx => List.mem_cons_of_mem _ (hk.sub x hx), ?_, ?_⟩
    · intro x hx; rcases List.mem_cons.1 hx with rfl | hx
      · exact c1
      · exact (hka x hx).2.2
    · intro p hp
      rw [List.zip_cons_cons] at hp
      rcases List.mem_cons.1 hp with rfl | hp
      · refine .inr ⟨hab, ?_, c2, c4, c3⟩
        rw [List.mem_cons, not_or]
        exact ⟨fun e => hab e.symm, fun h => (hka b h).2.1 rfl⟩
      · refine (hk.pair p hp).imp_right fun ⟨h1, h2, h3, h4, h5⟩ => ?_
        simp only [List.mem_cons, not_or] at h5 ⊢
        exact ⟨h1, ⟨h5.1, h2⟩, h3, h4, h5.2.2⟩
    · obtain ⟨ρ, r1, r2, r3, r4, r5⟩ := hk.ren
      have ha : ρ a = a := r2 a (.inl (by simp))
      have hb : ρ b = b := r2 b (.inl (by simp))
      have hne : ∀ x, x ≠ a → x ≠ b → ρ x ≠ a ∧ ρ x ≠ b := fun x h1 h2 =>
        ⟨fun e => h1 (by rw [← r1 x, e, ha]), fun e => h2 (by rw [← r1 x, e, hb])⟩
      have htab : sg.vty a = sg.vty b := hty.1
      refine ⟨fun x => if x = a then b else if x = b then a else ρ x, ?_, ?_, ?_, ?_, ?_⟩
      · intro x
        by_cases h1 : x = a
        · subst h1; simp only [if_true]; rw [if_neg (fun e => hab e.symm)]
        · by_cases h2 : x = b
          · subst h2; simp [h1]
          · have := hne x h1 h2
            simp only [if_neg h1, if_neg h2, if_neg this.1, if_neg this.2, r1]
      · intro x hx
        have h1 : x ≠ a := by rintro rfl; exact hx.elim c1 c2
        have h2 : x ≠ b := by rintro rfl; exact hx.elim c3 c4
        simp only [if_neg h1, if_neg h2]
        exact r2 x (hx.imp_left fun h => List.mem_cons_of_mem _ (List.mem_cons_of_mem _ h))
      · simp only [List.map_cons, if_true, List.cons.injEq, true_and]
        rw [← r3]
        refine List.map_congr_left fun x hx => ?_
        simp only [if_neg (hka x hx).1, if_neg (hka x hx).2.1]
      · intro z hz
        have := hka z (hk.sub z hz)
        simp only [if_neg this.1, if_neg this.2.1]
        exact r4 z hz
      · intro x
        by_cases h1 : x = a
        · subst h1; simp only [if_true]; exact htab.symm
        · by_cases h2 : x = b
          · subst h2; simp only [if_neg h1, if_true]; exact htab
          · simp only [if_neg h1, if_neg h2, r5]
  | case7 => cases h

theorem injVar_ok {x y z : Nat} : ∀ (as bs : List Nat), injVar x y (as.map .var) (bs.map .var) = some z →
    ∃ b, (z, b) ∈ as.zip bs ∧ ((z = x ∧ b = y) ∨ (z = y ∧ b = x))
  | [], _, h => by simp [injVar] at h
  | _ :: _, [], h => by simp [injVar] at h
  | a :: as, b :: bs, h => by
    simp only [List.map_cons, injVar] at h
    split at h
    · rename_i hc; cases h; exact ⟨b, by simp, hc⟩
    · obtain ⟨b', h1, h2⟩ := injVar_ok as bs h
      exact ⟨b', by rw [List.zip_cons_cons]; exact List.mem_cons_of_mem _ h1, h2⟩

/-- The axiom `f(as) ≠ f(bs) ∨ z = b` and its replacement `n(zs, f(as)) = z`. -/
structure InjForm (sg : Sig) (f n : Nat) (as bs zs : List Nat) (z b : Nat) : Prop where
  ok : InjOK sg [] [] as bs zs
  len : as.length = bs.length
  mem : (z, b) ∈ as.zip bs
  ne : z ≠ b
  fn : f ≠ n

variable {n : Nat} {as bs zs : List Nat} {z b : Nat}

theorem eval_vars (I : Interp.{u} sg) (v : Nat → I.D) (as : List Nat) : (as.map Term.var).map (I.eval v) = as.map v := by
  rw [List.map_map]; rfl

theorem eval_inv (I : Interp.{u} sg) (v : Nat → I.D) :
    I.eval v (.app n (zs.map .var ++ [.app f (as.map .var)])) = I.fn n (zs.map v ++ [I.fn f (as.map v)]) := by
  rw [eval_app, List.map_append, eval_vars, List.map_singleton, eval_app, eval_vars]

theorem inj_back (hf : InjForm sg f n as bs zs z b) (I : Interp.{u} sg) (h : ∀ v, I.Sorted v → I.fn n (zs.map v ++ [I.fn f (as.map v)]) = v z)
    {v : Nat → I.D} (hv : I.Sorted v) (he : I.fn f (as.map v) = I.fn f (bs.map v)) : v z = v b := by
  obtain ⟨ρ, r1, -, r3, r4, r5⟩ := hf.ok.ren
  have hv' : I.Sorted fun x => v (ρ x) := fun x => r5 x ▸ hv (ρ x)
  have h1 := h v hv
  have h2 := h _ hv'
  have e1 : zs.map (fun x => v (ρ x)) = zs.map v := List.map_congr_left fun x hx => by rw [r4 x hx]
  have e2 : as.map (fun x => v (ρ x)) = bs.map v := by rw [← r3, List.map_map]; rfl
  have e3 : ρ z = b := by
    obtain ⟨i, hi, e⟩ := List.mem_iff_getElem.1 hf.mem
    rw [List.getElem_zip] at e
    have hi' : i < as.length ∧ i < bs.length := by simpa using hi
    have h3 := congrArg (·[i]?) r3
    simp only [List.getElem?_map, List.getElem?_eq_getElem hi'.1, List.getElem?_eq_getElem hi'.2, Option.map_some, Option.some.injEq] at h3
    rw [(Prod.mk.inj e).1, (Prod.mk.inj e).2] at h3
    exact h3
  rw [e1, e2, ← he, h1, e3] at h2
  exact h2

theorem inj_forth (hs : 2 < n) (hdn : ¬ sg.distinct n) (hty : sg.fty n = sg.vty z) (hf : InjForm sg f n as bs zs z b) (I : Interp.{u} sg)
    (h : ∀ v, I.Sorted v → I.fn f (as.map v) = I.fn f (bs.map v) → v z = v b) :
    ∃ F, ∃ _ : I.FnOK F, (∀ s, s ≠ n → F s = I.fn s) ∧ ∀ v : Nat → I.D, I.Sorted v → F n (zs.map v ++ [F f (as.map v)]) = v z := by
  classical
  let Q : List I.D → (Nat → I.D) → Prop := fun es v => I.Sorted v ∧ es = zs.map v ++ [I.fn f (as.map v)]
  let W : List I.D → I.D := fun es => if hq : ∃ v, Q es v then hq.choose z else (I.inhab (sg.fty n)).choose
  have hW : ∀ es, I.mem (sg.fty n) (W es) := by
    intro es
    show I.mem _ (if hq : ∃ v, Q es v then hq.choose z else (I.inhab (sg.fty n)).choose)
    split
    · rename_i hq; rw [hty]; exact hq.choose_spec.1 z
    · exact (I.inhab (sg.fty n)).choose_spec
  refine ⟨_, fnOK_update I hs hdn W hW, fun s hsn => if_neg hsn, fun v hv => ?_⟩
  simp only [if_neg hf.fn, if_true]
  have hq : ∃ w, Q (zs.map v ++ [I.fn f (as.map v)]) w := ⟨v, hv, rfl⟩
  show (if hq : ∃ w, Q (zs.map v ++ [I.fn f (as.map v)]) w then hq.choose z else _) = _
  rw [dif_pos hq]
  obtain ⟨q1, q2⟩ := hq.choose_spec
  generalize hq.choose = w at q1 q2 ⊢
  obtain ⟨q3, q4⟩ := List.append_inj' q2 rfl
  have q4 : I.fn f (as.map v) = I.fn f (as.map w) := by simpa using q4
  obtain ⟨ρ, r1, -, r3, r4, r5⟩ := hf.ok.ren
  let v3 : Nat → I.D := fun y => if y ∈ as then v y else w (ρ y)
  have hv3 : I.Sorted v3 := by
    intro y
    show I.mem _ (if y ∈ as then v y else w (ρ y))
    split
    · exact hv y
    · exact r5 y ▸ q1 (ρ y)
  have ea : as.map v3 = as.map v := List.map_congr_left fun x hx => if_pos hx
  have eb : bs.map v3 = as.map w := by
    refine List.ext_getElem (by simp [hf.len]) fun i h1 h2 => ?_
    have i2 : i < as.length := by simpa using h2
    have i1 : i < bs.length := by simpa using h1
    have hp := hf.ok.pair (as[i], bs[i]) (List.mem_iff_getElem.2 ⟨i, by simp; omega, by simp⟩)
    have hr : ρ as[i] = bs[i] := by
      have h3 := congrArg (·[i]?) r3
      simpa only [List.getElem?_map, List.getElem?_eq_getElem i1, List.getElem?_eq_getElem i2, Option.map_some, Option.some.injEq] using h3
    simp only [List.getElem_map]
    rcases hp with ⟨p1, p2⟩ | ⟨-, p2, -⟩
    · simp only at p1 p2
      have hz : as[i] ∈ zs := by simpa using p2
      rw [← p1]
      show (if _ then _ else _) = _
      rw [if_pos (List.getElem_mem i2)]
      exact (List.map_inj_left.1 q3) _ hz
    · show (if _ then _ else _) = _
      rw [if_neg p2, ← hr, r1]
  have hz := h v3 hv3 (by rw [ea, eb]; exact q4)
  obtain ⟨i, hi, e⟩ := List.mem_iff_getElem.1 hf.mem
  rw [List.getElem_zip] at e
  have hi' : i < as.length ∧ i < bs.length := by simpa using hi
  have h1 : v3 z = v z := if_pos ((Prod.mk.inj e).1 ▸ List.getElem_mem hi'.1)
  have h2 : v3 b = w z := by
    have := congrArg (·[i]?) eb
    simp only [List.getElem?_map, List.getElem?_eq_getElem hi'.1, List.getElem?_eq_getElem hi'.2, Option.map_some, Option.some.injEq] at this
    rwa [(Prod.mk.inj e).1, (Prod.mk.inj e).2] at this
  rw [← h1, hz, h2]

theorem injReplace_ok (hs : SigOK sg) (hn : 2 < n) {internal : Nat} {inv : Nat → Bool} {P N : Lit} {R : List Lit} {d : SymDecl}
    (e : injReplace sg internal inv n P N = some (R, d)) (hP : sg.WTLit P) (hN : sg.WTLit N) (hb : N.l.SymsBelow n) (hpP : P.pos = true) (hpN : N.pos = false)
    (hd : SymsDeclared sg [d]) : d.code = n ∧ sg.WTClause R ∧ ClauseBelow (n + 1) R ∧
    (∀ I : Interp.{u} sg, I.Models R → ∀ v, I.Sorted v → I.LitTrue v P ∨ I.LitTrue v N) ∧
    ∀ I : Interp.{u} sg, (∀ v, I.Sorted v → I.LitTrue v P ∨ I.LitTrue v N) → ∃ F, ∃ h : I.FnOK F, (∀ s, s ≠ n → F s = I.fn s) ∧ (I.reint F h).Models R := by
  obtain ⟨pp, pl, pr⟩ := P
  obtain ⟨np, nl, nr⟩ := N
  cases hpP
  cases hpN
  simp only [injReplace] at e
  split at e
  · rename_i x y f ts g us
    split at e
    · rename_i hc
      obtain ⟨hxy, -, rfl, -, -, -, -, -⟩ := hc
      split at e
      · rename_i z zs ez ezs
        simp only [Option.some.injEq, Prod.mk.injEq] at e
        obtain ⟨rfl, rfl⟩ := e
        have hd := hd _ (List.mem_singleton.2 rfl)
        simp only at hd
        obtain ⟨d1, d2, d3⟩ := hd
        have w1 := hN.1
        have w2 := hN.2.1
        simp only [Sig.wt_app] at w1 w2
        obtain ⟨as, bs, rfl, rfl, hok⟩ := injScan_ok [] [] ts us ezs (w1.1.trans w2.1.symm)
        obtain ⟨b, hm, hzb⟩ := injVar_ok as bs ez
        have hlen : as.length = bs.length := by have := congrArg List.length (w1.1.trans w2.1.symm); simpa using this
        have hfn : f ≠ n := by have := (Term.symsBelow_app.1 hb).1; omega
        have hform : InjForm sg f n as bs zs z b := ⟨hok, hlen, hm, by rcases hzb with ⟨rfl, rfl⟩ | ⟨rfl, rfl⟩ <;> first | exact hxy | exact hxy.symm, hfn⟩
        have htz : sg.vty x = sg.vty z := by
          have : sg.vty x = sg.vty y := hP.2.2
          rcases hzb with ⟨rfl, rfl⟩ | ⟨rfl, rfl⟩
          · rfl
          · exact this
        have hwl : sg.WTLit ⟨true, .app n (zs.map .var ++ [.app f (as.map .var)]), .var z⟩ := by
          refine ⟨?_, trivial, d2.trans htz⟩
          rw [Sig.wt_app, d1, List.map_append, List.map_map]
          refine ⟨rfl, fun t ht => ?_⟩
          rcases List.mem_append.1 ht with ht | ht
          · obtain ⟨x, -, rfl⟩ := List.mem_map.1 ht; trivial
          · rw [List.mem_singleton.1 ht]; exact hN.1
        have hR : ∀ I : Interp.{u} sg, I.Models [mkEqn true (.app n (zs.map .var ++ [.app f (as.map .var)])) (.var z)] ↔
            ∀ v, I.Sorted v → I.fn n (zs.map v ++ [I.fn f (as.map v)]) = v z := by
          intro I
          refine forall_congr' fun v => imp_congr_right fun hv => ?_
          rw [clauseTrue_cons, mkEqn_true hs I hv hwl]
          simp only [Interp.LitTrue, if_true, eval_inv, Interp.ClauseTrue, List.not_mem_nil, false_and, exists_false, or_false]
          rfl
        have hPN : ∀ (I : Interp.{u} sg) (v : Nat → I.D), (I.LitTrue v ⟨true, .var x, .var y⟩ ∨ I.LitTrue v ⟨false, .app f (as.map .var), .app f (bs.map .var)⟩) ↔
            (I.fn f (as.map v) = I.fn f (bs.map v) → v z = v b) := by
          intro I v
          have e1 : I.LitTrue v ⟨true, .var x, .var y⟩ ↔ v z = v b := by
            rcases hzb with ⟨rfl, rfl⟩ | ⟨rfl, rfl⟩
            · simp only [Interp.LitTrue, if_true]; exact Iff.rfl
            · simp only [Interp.LitTrue, if_true]; exact eq_comm
          have e2 : I.LitTrue v ⟨false, .app f (as.map .var), .app f (bs.map .var)⟩ ↔ ¬ I.fn f (as.map v) = I.fn f (bs.map v) := by
            simp only [Interp.LitTrue, Bool.false_eq_true, if_false, eval_app, eval_vars]
          rw [e1, e2]
          tauto
        refine ⟨rfl, fun L hL => ?_, fun L hL => ?_, fun I hI v hv => ?_, fun I hI => ?_⟩
        · rw [List.mem_singleton.1 hL]; exact mkEqn_wt hs hwl
        · rw [List.mem_singleton.1 hL]
          refine mkEqn_below (by omega) ?_ trivial
          rw [Term.symsBelow_app]
          refine ⟨by omega, fun t ht => ?_⟩
          rcases List.mem_append.1 ht with ht | ht
          · obtain ⟨x, -, rfl⟩ := List.mem_map.1 ht; trivial
          · rw [List.mem_singleton.1 ht]; exact symsBelow_mono (Nat.le_succ n) _ hb
        · exact (hPN I v).2 fun he => inj_back hform I ((hR I).1 hI) hv he
        · obtain ⟨F, h, h1, h2⟩ := inj_forth hn d3 (d2.trans htz) hform I fun v hv => (hPN I v).1 (hI v hv)
          exact ⟨F, h, h1, (hR (I.reint F h)).2 h2⟩
      · cases e
    · cases e
  · cases e

theorem recognizeInj_ok (hs : SigOK sg) (hn : 2 < n) {internal : Nat} {inv : Nat → Bool} {C R : List Lit} {d : SymDecl}
    (e : recognizeInj sg internal inv n C = some (R, d)) (hC : sg.WTClause C) (hb : ClauseBelow n C) (hd : SymsDeclared sg [d]) :
    d.code = n ∧ sg.WTClause R ∧ ClauseBelow (n + 1) R ∧ (∀ I : Interp.{u} sg, I.Models R → I.Models C) ∧
    ∀ I : Interp.{u} sg, I.Models C → ∃ F, ∃ h : I.FnOK F, (∀ s, s ≠ n → F s = I.fn s) ∧ (I.reint F h).Models R := by
  match C, e with
  | [A, B], e =>
    have hA := hC A (by simp)
    have hB := hC B (by simp)
    have bA := hb A (by simp)
    have bB := hb B (by simp)
    have hm : ∀ (I : Interp.{u} sg) v, I.ClauseTrue v [A, B] ↔ I.LitTrue v A ∨ I.LitTrue v B := by intro I v; simp [Interp.ClauseTrue]
    simp only [recognizeInj] at e
    split at e
    · rename_i hp
      simp only [Bool.and_eq_true, Bool.not_eq_true'] at hp
      obtain ⟨h1, h2, h3, h4, h5⟩ := injReplace_ok.{u} hs hn e hA hB bB.1 hp.1 hp.2 hd
      exact ⟨h1, h2, h3, fun I hI v hv => (hm I v).2 (h4 I hI v hv), fun I hI => h5 I fun v hv => (hm I v).1 (hI v hv)⟩
    · split at e
      · rename_i hp
        simp only [Bool.and_eq_true, Bool.not_eq_true'] at hp
        obtain ⟨h1, h2, h3, h4, h5⟩ := injReplace_ok.{u} hs hn e hB hA bA.1 hp.1 hp.2 hd
        exact ⟨h1, h2, h3, fun I hI v hv => (hm I v).2 (h4 I hI v hv).symm, fun I hI => h5 I fun v hv => ((hm I v).1 (hI v hv)).symm⟩
      · cases e

theorem replaceInj_ok (hs : SigOK sg) {internal : Nat} {isDef : List (List Lit) → List Lit → Bool} (Cs : List (List Lit)) :
    ∀ (n : Nat) (inv : Nat → Bool) (tmp Γ : List (List Lit)), 2 < n → (∀ C ∈ Γ ++ tmp ++ Cs, sg.WTClause C ∧ ClauseBelow n C) →
    ∀ r, replaceInj sg internal isDef n inv tmp Cs = r → SymsDeclared sg r.2.2.2 →
    n ≤ r.2.2.1 ∧ r.2.2.2.map SymDecl.code = List.range' n (r.2.2.1 - n) ∧ (∀ C ∈ Γ ++ r.1 ++ r.2.1, sg.WTClause C ∧ ClauseBelow r.2.2.1 C) ∧
    (∀ I : Interp.{u} sg, (∀ C ∈ Γ ++ r.1 ++ r.2.1, I.Models C) → ∀ C ∈ Γ ++ tmp ++ Cs, I.Models C) ∧
    Converts.{u} sg (CodesIn n r.2.2.1) (Γ ++ tmp ++ Cs) (Γ ++ r.1 ++ r.2.1) := by
  induction Cs with
  | nil =>
    intro n inv tmp Γ hn hw r e hd
    subst e
    simp only [replaceInj, List.append_nil, List.map_nil, Nat.sub_self, List.range'_zero] at *
    exact ⟨Nat.le_refl _, trivial, hw, fun I h => h, conv_refl _ _⟩
  | cons C Cs ih =>
    intro n inv tmp Γ hn hw r e hd
    subst e
    have perm1 : ∀ X : List (List Lit), ∀ D, D ∈ Γ ++ tmp ++ C :: X ↔ D ∈ (Γ ++ [C]) ++ tmp ++ X := by
      intro X D; simp only [List.mem_append, List.mem_cons, List.not_mem_nil, or_false]; tauto
    have perm2 : ∀ X Y : List (List Lit), ∀ D, D ∈ Γ ++ (C :: X) ++ Y ↔ D ∈ (Γ ++ [C]) ++ X ++ Y := by
      intro X Y D; simp only [List.mem_append, List.mem_cons, List.not_mem_nil, or_false]; tauto
    have swapc : ∀ {A : Nat → Prop} {X Y X' Y' : List (List Lit)}, (∀ D, D ∈ X' ↔ D ∈ X) → (∀ D, D ∈ Y' ↔ D ∈ Y) → Converts.{u} sg A X Y → Converts.{u} sg A X' Y' := by
      intro A X Y X' Y' h1 h2 h I hI
      obtain ⟨F, hF, f1, f2⟩ := h I fun D hD => hI D ((h1 D).2 hD)
      exact ⟨F, hF, f1, fun D hD => f2 D ((h2 D).1 hD)⟩
    simp only [replaceInj] at hd ⊢
    cases hrec : recognizeInj sg internal inv n C with
    | none =>
      simp only [hrec] at hd ⊢
      obtain ⟨h1, h2, h3, h4, h5⟩ := ih n inv tmp (Γ ++ [C]) hn (fun D hD => hw D ((perm1 Cs D).2 hD)) _ rfl hd
      exact ⟨h1, h2, fun D hD => h3 D ((perm2 _ _ D).1 hD), fun I hI D hD => h4 I (fun E hE => hI E ((perm2 _ _ E).2 hE)) D ((perm1 Cs D).1 hD),
        swapc (perm1 Cs) (perm2 _ _) h5⟩
    | some q =>
      obtain ⟨R, d⟩ := q
      have hwC := hw C (by simp)
      simp only [hrec] at hd ⊢
      have codes : ∀ {m : Nat} {ds : List SymDecl}, d.code = n → n + 1 ≤ m → ds.map SymDecl.code = List.range' (n + 1) (m - (n + 1)) →
          (d :: ds).map SymDecl.code = List.range' n (m - n) := by
        intro m ds h1 h2 h3
        rw [List.map_cons, h3, h1, show m - n = (m - (n + 1)) + 1 by omega, List.range'_succ]
      have up : ∀ D, sg.WTClause D ∧ ClauseBelow n D → sg.WTClause D ∧ ClauseBelow (n + 1) D := fun D h => ⟨h.1, SplitProof.below_mono (Nat.le_succ n) h.2⟩
      split at hd
      · rename_i hdef
        rw [if_pos hdef]
        simp only at hd ⊢
        obtain ⟨k1, k2, k3, k4, k5⟩ := recognizeInj_ok.{u} hs hn hrec hwC.1 hwC.2 fun x hx => hd x (by rw [List.mem_singleton.1 hx]; exact List.mem_cons_self ..)
        obtain ⟨h1, h2, h3, h4, h5⟩ := ih (n + 1) _ tmp (Γ ++ [C]) (by omega) (fun D hD => up D (hw D ((perm1 Cs D).2 hD))) _ rfl fun x hx => hd x (List.mem_cons_of_mem _ hx)
        exact ⟨by omega, codes k1 h1 h2, fun D hD => h3 D ((perm2 _ _ D).1 hD), fun I hI D hD => h4 I (fun E hE => hI E ((perm2 _ _ E).2 hE)) D ((perm1 Cs D).1 hD),
          swapc (perm1 Cs) (perm2 _ _) (conv_mono h5 fun s hs => ⟨by have := hs.1; omega, hs.2⟩)⟩
      · rename_i hdef
        rw [if_neg hdef]
        simp only at hd ⊢
        obtain ⟨k1, k2, k3, k4, k5⟩ := recognizeInj_ok.{u} hs hn hrec hwC.1 hwC.2 fun x hx => hd x (by rw [List.mem_singleton.1 hx]; exact List.mem_cons_self ..)
        have hmem : ∀ D, D ∈ Γ ++ (tmp ++ [R]) ++ Cs ↔ D = R ∨ D ∈ Γ ++ tmp ++ Cs := by
          intro D; simp only [List.mem_append, List.mem_cons, List.not_mem_nil, or_false]; tauto
        have hmem' : ∀ D, D ∈ Γ ++ tmp ++ C :: Cs ↔ D = C ∨ D ∈ Γ ++ tmp ++ Cs := by
          intro D; simp only [List.mem_append, List.mem_cons]; tauto
        obtain ⟨h1, h2, h3, h4, h5⟩ := ih (n + 1) _ (tmp ++ [R]) Γ (by omega) (fun D hD => ((hmem D).1 hD).elim (fun e => e ▸ ⟨k2, k3⟩)
          fun h => up D (hw D ((hmem' D).2 (.inr h)))) _ rfl fun x hx => hd x (List.mem_cons_of_mem _ hx)
        refine ⟨by omega, codes k1 h1 h2, h3, fun I hI D hD => ?_, conv_trans (Ds := Γ ++ (tmp ++ [R]) ++ Cs) ?_ (conv_mono h5 fun s hs => ⟨by have := hs.1; omega, hs.2⟩)⟩
        · rcases (hmem' D).1 hD with rfl | hD
          · exact k4 I (h4 I hI R ((hmem R).2 (.inl rfl)))
          · exact h4 I hI D ((hmem D).2 (.inr hD))
        · intro I hI
          obtain ⟨F, h, f1, f2⟩ := k5 I (hI C ((hmem' C).2 (.inl rfl)))
          refine ⟨F, h, fun s hs => f1 s fun e => hs ⟨by omega, by omega⟩, fun D hD => ?_⟩
          rcases (hmem D).1 hD with rfl | hD
          · exact f2
          · exact (models_reint I h (fun s hs => f1 s (by omega)) (hw D ((hmem' D).2 (.inr hD))).2).2 (hI D ((hmem' D).2 (.inr hD)))

/-! ## The steps together -/

/-- The parts left open: the tautology test is `ClauseIsTautology`, sorting permutes. -/
structure _root_.Verif.PreParams.OK (sg : Sig) (p : PreParams) : Prop where
  taut : ∀ C, p.taut C = true → ∃ no ps ns k, Numbered no C ∧ Sorted no C ps ns ∧ clauseIsTautology sg no ps ns k C = some true
  sortL : ∀ C, (p.sortL C).Perm C
  sortC : ∀ Cs, (p.sortC Cs).Perm Cs

/-- The same clauses up to logical equivalence in place. -/
def SameModels (sg : Sig) (Cs Ds : List (List Lit)) : Prop := ∀ I : Interp.{u} sg, (∀ D ∈ Ds, I.Models D) ↔ ∀ C ∈ Cs, I.Models C

/-- Well-typed clauses over the symbols below `n`. -/
def SetOK (sg : Sig) (n : Nat) (Cs : List (List Lit)) : Prop := ∀ C ∈ Cs, sg.WTClause C ∧ ClauseBelow n C

theorem superfluous_ok {Cs : List (List Lit)} (hw : SetOK sg n Cs) :
    SetOK sg n (Cs.map (removeSuperfluous sg)) ∧ SameModels.{u} sg Cs (Cs.map (removeSuperfluous sg)) := by
  constructor
  · intro D hD
    obtain ⟨C, hC, rfl⟩ := List.mem_map.1 hD
    exact ⟨InferProof.finish_wt (hw C hC).1, fun L hL => (hw C hC).2 L (InferProof.finish_mem hL)⟩
  · intro I
    simp only [List.forall_mem_map]
    exact forall_congr' fun C => imp_congr_right fun _ => SaturateProof.models_iff fun v _ => InferProof.finish_true I v C

theorem filterTaut_ok {p : PreParams} (hp : p.OK sg) {Cs : List (List Lit)} (hw : SetOK sg n Cs) :
    SetOK sg n (filterTaut p Cs) ∧ SameModels.{u} sg Cs (filterTaut p Cs) := by
  refine ⟨fun C hC => hw C (List.mem_of_mem_filter hC), fun I => ⟨fun h C hC => ?_, fun h C hC => h C (List.mem_of_mem_filter hC)⟩⟩
  cases ht : p.taut C with
  | false => exact h C (List.mem_filter.2 ⟨hC, by simp [ht]⟩)
  | true =>
    obtain ⟨no, ps, ns, k, h1, h2, h3⟩ := hp.taut C ht
    exact fun v _ => tautology_sound.{u} h1 h2 h3 I v

theorem canonize_ok {p : PreParams} (hp : p.OK sg) {Cs : List (List Lit)} (hw : SetOK sg n Cs) :
    SetOK sg n (canonizeSet sg p Cs) ∧ SameModels.{u} sg Cs (canonizeSet sg p Cs) := by
  have hsw : ∀ C : List Lit, List.Forall₂ Swapped C (C.map fun L => if p.swap L then ⟨L.pos, L.r, L.l⟩ else L) := by
    intro C
    rw [List.forall₂_map_right_iff, List.forall₂_same]
    intro L _
    split
    · exact .inr rfl
    · exact .inl rfl
  constructor
  · intro D hD
    have hD := (hp.sortC _).mem_iff.1 hD
    obtain ⟨C, hC, rfl⟩ := List.mem_map.1 hD
    have h1 : sg.WTClause (removeSuperfluous sg C) := InferProof.finish_wt (hw C hC).1
    refine ⟨fun L hL => SaturateProof.orient_wt (hsw _) h1 L ((hp.sortL _).mem_iff.1 hL), fun L hL => ?_⟩
    obtain ⟨K, hK, rfl⟩ := List.mem_map.1 ((hp.sortL _).mem_iff.1 hL)
    have h2 := (hw C hC).2 K (InferProof.finish_mem hK)
    split
    · exact h2.symm
    · exact h2
  · intro I
    simp only [canonizeSet, (hp.sortC _).mem_iff, List.forall_mem_map]
    refine forall_congr' fun C => imp_congr_right fun _ => SaturateProof.models_iff fun v _ => ?_
    rw [← InferProof.finish_true I v C]
    refine Iff.trans ?_ (SaturateProof.orient_true (hsw _))
    exact exists_congr fun L => and_congr_left fun _ => (hp.sortL _).mem_iff

theorem same_trans {Cs Ds Es : List (List Lit)} (h1 : SameModels.{u} sg Cs Ds) (h2 : SameModels.{u} sg Ds Es) : SameModels.{u} sg Cs Es :=
  fun I => (h2 I).trans (h1 I)

theorem setPreprocess_ok (hs : SigOK sg) (hn : 2 < n) {p : PreParams} (hp : p.OK sg) {Cs : List (List Lit)} (hw : SetOK sg n Cs)
    {r : List (List Lit) × Nat × List SymDecl} (e : setPreprocess sg p Cs n = r) (hd : SymsDeclared sg r.2.2) :
    n ≤ r.2.1 ∧ r.2.2.map SymDecl.code = List.range' n (r.2.1 - n) ∧ SetOK sg r.2.1 r.1 ∧
    (∀ I : Interp.{u} sg, (∀ C ∈ r.1, I.Models C) → ∀ C ∈ Cs, I.Models C) ∧ Converts.{u} sg (CodesIn n r.2.1) Cs r.1 := by
  subst e
  have a1 := superfluous_ok.{u} hw
  have a2 := filterTaut_ok.{u} hp a1.1
  simp only [setPreprocess] at hd ⊢
  split at hd
  · rename_i hr
    rw [if_pos hr]
    simp only at hd ⊢
    obtain ⟨h1, h2, h3, h4, h5⟩ := replaceInj_ok.{u} hs (filterTaut p (Cs.map (removeSuperfluous sg))) n (fun _ => false) [] [] hn a2.1 _ rfl hd
    simp only [List.nil_append] at h3 h4 h5
    have a3 := canonize_ok.{u} hp h3
    have a4 := same_trans a1.2 a2.2
    refine ⟨h1, h2, a3.1, fun I hI => (a4 I).1 (h4 I ((a3.2 I).1 hI)), ?_⟩
    exact conv_trans (conv_of_models fun I => (a4 I).2) (conv_trans h5 (conv_of_models fun I => (a3.2 I).2))
  · rename_i hr
    rw [if_neg hr]
    have a3 := canonize_ok.{u} hp a2.1
    have a4 := same_trans (same_trans a1.2 a2.2) a3.2
    exact ⟨Nat.le_refl _, by simp, a3.1, fun I => (a4 I).1, conv_of_models fun I => (a4 I).2⟩

theorem unfold_below (hd : IsDef f xs l r) (hw : sg.WTLit ⟨true, l, r⟩) (hr : r.SymsBelow n) (t : Term) (ht : sg.WT t) (hb : t.SymsBelow n) :
    (unfoldTerm sg l r t).SymsBelow n := by
  have hsub : ∀ (s : Term) (σ : Nat → Term), s.SymsBelow n → (∀ x ∈ s.vars, (σ x).SymsBelow n) → (s.subst σ).SymsBelow n := by
    intro s σ
    induction s using Term.ind with
    | hv x => intro _ h; exact h x (by simp [Term.vars])
    | ha g ts ih =>
      intro h1 h2
      rw [Term.symsBelow_app] at h1
      rw [Term.subst_app, Term.symsBelow_app]
      refine ⟨h1.1, fun t hm => ?_⟩
      obtain ⟨s, hs, rfl⟩ := List.mem_map.1 hm
      exact ih s hs (h1.2 s hs) fun x hx => h2 x (by simp only [Term.vars, Term.mem_varsL]; exact ⟨s, hs, hx⟩)
  induction t using Term.ind with
  | hv x => trivial
  | ha g ts ih =>
    rw [unfoldTerm_app]
    rw [Sig.wt_app] at ht
    rw [Term.symsBelow_app] at hb
    have h1 : sg.WT (.app g (ts.map (unfoldTerm sg l r))) := by
      rw [Sig.wt_app, ← ht.1, List.map_map]
      refine ⟨List.map_congr_left fun t hm => (unfold_typed hd hw t (ht.2 t hm)).2, ?_⟩
      intro t hm
      obtain ⟨s, hs, rfl⟩ := List.mem_map.1 hm
      exact (unfold_typed hd hw s (ht.2 s hs)).1
    have h2 : ∀ t ∈ ts.map (unfoldTerm sg l r), t.SymsBelow n := by
      intro t hm
      obtain ⟨s, hs, rfl⟩ := List.mem_map.1 hm
      exact ih s hs (ht.2 s hs) (hb.2 s hs)
    by_cases hg : g = f
    · subst hg
      obtain ⟨σ, h3, h4, h5⟩ := unfoldTop_eq hd hw.1 h1
      rw [h5]
      refine hsub r σ hr fun x hx => h2 _ ?_
      have h6 := (congrArg (Term.subst σ) hd.eq).symm.trans h4
      rw [Term.subst_app] at h6
      injection h6 with _ h6
      rw [← h6, List.map_map, List.mem_map]
      exact ⟨x, hd.vars x hx, rfl⟩
    · rw [unfoldTop_ne hd hg, Term.symsBelow_app]
      exact ⟨hb.1, h2⟩

theorem unfoldAll_below {pseudo : Nat → Bool} {minAr : Nat} (hm : 1 ≤ minAr) {limit : Int} (Γ Δ : List (List Lit)) (hw : SetOK sg n (Γ ++ Δ)) :
    SetOK sg n (unfoldAll sg pseudo minAr limit Γ Δ).1 := by
  fun_induction unfoldAll sg pseudo minAr limit Γ Δ with
  | case1 Γ => simpa using hw
  | case2 Γ C Δ l r hdef hle res ih =>
    obtain ⟨⟨f, xs, hd, hp⟩, hC⟩ := clauseDefinition_spec hm hdef
    refine ih fun D hD => ?_
    rw [unfoldSet, unfoldSet, ← List.map_append] at hD
    obtain ⟨E, hE, rfl⟩ := List.mem_map.1 hD
    have hE' : E ∈ Γ ++ C :: Δ := by simp only [List.mem_append, List.mem_cons] at hE ⊢; tauto
    have hCw := hw C (by simp)
    have hwC : sg.WTLit ⟨true, l, r⟩ ∧ r.SymsBelow n := by
      rcases hC with rfl | rfl
      · exact ⟨hCw.1 _ (List.mem_singleton.2 rfl), (hCw.2 _ (List.mem_singleton.2 rfl)).2⟩
      · have := hCw.1 _ (List.mem_singleton.2 rfl); exact ⟨⟨this.2.1, this.1, this.2.2.symm⟩, (hCw.2 _ (List.mem_singleton.2 rfl)).1⟩
    have hEw := hw E hE'
    refine ⟨unfoldClause_wt hd hwC.1 hEw.1, ?_⟩
    rw [unfoldClause]
    split
    · exact hEw.2
    · intro L hL
      obtain ⟨K, hK, rfl⟩ := List.mem_map.1 (InferProof.finish_mem hL)
      exact ⟨unfold_below hd hwC.1 hwC.2 _ (hEw.1 K hK).1 (hEw.2 K hK).1, unfold_below hd hwC.1 hwC.2 _ (hEw.1 K hK).2.1 (hEw.2 K hK).2⟩
  | case3 Γ C Δ l r hdef hle ih => simp only [List.append_assoc, List.singleton_append] at ih; exact ih hw
  | case4 Γ C Δ hdef ih => simp only [List.append_assoc, List.singleton_append] at ih; exact ih hw

theorem unfoldNormalize_ok (hs : SigOK sg) (hdi : ∀ s, sg.distinct s → sg.fargs s = []) {p : PreParams} (hp : p.OK sg) {Cs : List (List Lit)} (hw : SetOK sg n Cs) :
    SetOK sg n (unfoldNormalize sg p Cs).1 ∧ (∀ I : Interp.{u} sg, (∀ C ∈ Cs, I.Models C) → ∀ D ∈ (unfoldNormalize sg p Cs).1, I.Models D) ∧
    Converts.{u} sg (· ∈ (unfoldNormalize sg p Cs).2) (unfoldNormalize sg p Cs).1 Cs ∧
    ∀ s ∈ (unfoldNormalize sg p Cs).2, p.pseudo s = false ∧ sg.fargs s ≠ [] := by
  have triv : SetOK sg n Cs ∧ (∀ I : Interp.{u} sg, (∀ C ∈ Cs, I.Models C) → ∀ D ∈ Cs, I.Models D) ∧ Converts.{u} sg (· ∈ ([] : List Nat)) Cs Cs ∧
      ∀ s ∈ ([] : List Nat), p.pseudo s = false ∧ sg.fargs s ≠ [] := ⟨hw, fun I h => h, conv_refl _ _, by simp⟩
  rw [unfoldNormalize]
  split
  · exact triv
  · rename_i lim _
    split
    · exact triv
    · simp only
      split
      · exact triv
      · obtain ⟨h1, h2, h3, h4⟩ := unfoldAll_ok.{u} hs hdi (pseudo := p.pseudo) (minAr := 1) (Nat.le_refl 1) (limit := lim) [] Cs fun D hD => (hw D hD).1
        have h5 := unfoldAll_below (sg := sg) (n := n) (pseudo := p.pseudo) (minAr := 1) (Nat.le_refl 1) (limit := lim) [] Cs hw
        simp only [List.nil_append] at h1 h2
        have a1 := filterTaut_ok.{u} hp h5
        have a2 := canonize_ok.{u} hp a1.1
        have a3 := same_trans a1.2 a2.2
        exact ⟨a2.1, fun I hI => (a3 I).2 (h1 I hI), conv_trans (conv_of_models fun I => (a3 I).1) h2, h4⟩

end Verif.PreprocProof
