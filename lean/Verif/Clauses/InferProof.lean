import Verif.Clauses.Infer
import Verif.Clauses.Sem
import Verif.Props.Mgu
import Verif.Props.Norm

/-!
# Lemmas for the soundness of inferences
-/

namespace Verif.InferProof
open Verif Term Interp SemProof

universe u
variable {sg : Sig}

/-! ### Literal lists -/

theorem termsDistinct_ne {L : Lit} (h : termsDistinct sg L = true) (I : Interp.{u} sg) (v : Nat → I.D) :
    I.eval v L.l ≠ I.eval v L.r := by
  unfold termsDistinct at h
  split at h
  · rename_i f g h1 h2
    simp at h
    rw [h1, h2, eval_app, eval_app]
    exact I.dist f g h.1.1 h.1.2 h.2
  · simp at h

theorem eqnIsFalse_sound {L : Lit} (h : eqnIsFalse sg L = true) (I : Interp.{u} sg) (v : Nat → I.D) :
    ¬ I.LitTrue v L := by
  unfold eqnIsFalse at h
  unfold LitTrue
  split at h
  · rename_i hp; simp only [hp, if_true]; exact termsDistinct_ne h I v
  · rename_i hp; simp at h; simp [hp, h]

theorem eqnIsTrue_sound {L : Lit} (h : eqnIsTrue sg L = true) (I : Interp.{u} sg) (v : Nat → I.D) :
    I.LitTrue v L := by
  unfold eqnIsTrue at h
  unfold LitTrue
  split at h
  · rename_i hp; simp at h; simp [hp, h]
  · rename_i hp; simp only [hp]; exact termsDistinct_ne h I v

theorem sameLit_true {L K : Lit} (h : sameLit L K = true) (I : Interp.{u} sg) (v : Nat → I.D) :
    I.LitTrue v L ↔ I.LitTrue v K := by
  simp only [sameLit, decide_eq_true_eq] at h
  obtain ⟨h1, _, ⟨h2, h3⟩ | ⟨h2, h3⟩⟩ := h
  · simp [LitTrue, h1, h2, h3]
  · simp only [LitTrue, h1, h2, h3, ne_eq, eq_comm]

theorem removeResolved_true (I : Interp.{u} sg) (v : Nat → I.D) (C : List Lit) :
    I.ClauseTrue v (removeResolved sg C) ↔ I.ClauseTrue v C := by
  simp only [ClauseTrue, removeResolved, List.mem_filter]
  constructor
  · rintro ⟨L, h, hl⟩; exact ⟨L, h.1, hl⟩
  · rintro ⟨L, h, hl⟩
    refine ⟨L, ⟨h, ?_⟩, hl⟩
    cases hf : eqnIsFalse sg L with
    | false => rfl
    | true => exact absurd hl (eqnIsFalse_sound hf I v)

theorem removeDupAux_true (I : Interp.{u} sg) (v : Nat → I.D) (C seen : List Lit) :
    (I.ClauseTrue v seen ∨ I.ClauseTrue v (removeDupAux seen C)) ↔ (I.ClauseTrue v seen ∨ I.ClauseTrue v C) := by
  induction C generalizing seen with
  | nil => simp [removeDupAux]
  | cons L C ih =>
    rw [removeDupAux]
    split
    · rename_i h
      rw [ih, clauseTrue_cons]
      simp only [List.any_eq_true] at h
      obtain ⟨K, hK, hs⟩ := h
      have := sameLit_true hs I v
      constructor
      · rintro (h | h)
        · exact Or.inl h
        · exact Or.inr (Or.inr h)
      · rintro (h | h | h)
        · exact Or.inl h
        · exact Or.inl ⟨K, hK, this.1 h⟩
        · exact Or.inr h
    · have := ih (L :: seen)
      rw [clauseTrue_cons] at this ⊢
      rw [clauseTrue_cons]
      tauto

theorem removeDup_true (I : Interp.{u} sg) (v : Nat → I.D) (C : List Lit) :
    I.ClauseTrue v (removeDup C) ↔ I.ClauseTrue v C := by
  have := removeDupAux_true I v C []
  have he : ¬ I.ClauseTrue v [] := by simp [ClauseTrue]
  simpa [he, removeDup] using this

theorem removeDup_subset (C : List Lit) : ∀ L ∈ removeDup C, L ∈ C := by
  have : ∀ (C seen : List Lit), ∀ L ∈ removeDupAux seen C, L ∈ C := by
    intro C
    induction C with
    | nil => simp [removeDupAux]
    | cons K C ih =>
      intro seen L h
      rw [removeDupAux] at h
      split at h
      · exact List.mem_cons_of_mem _ (ih _ _ h)
      · rcases List.mem_cons.1 h with rfl | h
        · simp
        · exact List.mem_cons_of_mem _ (ih _ _ h)
  exact this C []

theorem finish_true (I : Interp.{u} sg) (v : Nat → I.D) (C : List Lit) :
    I.ClauseTrue v (removeDup (removeResolved sg C)) ↔ I.ClauseTrue v C := by
  rw [removeDup_true, removeResolved_true]

theorem finish_mem {C : List Lit} {L : Lit} (h : L ∈ removeDup (removeResolved sg C)) : L ∈ C :=
  (List.mem_filter.1 (removeDup_subset _ _ h)).1

/-! ### Unifier and renaming -/

theorem good_empty : GoodBindings sg SubstSt.empty.bind :=
  ⟨⟨[], fun x h => by simp [SubstSt.empty] at h⟩, ⟨fun _ => 0, fun x u h => by simp [SubstSt.empty] at h⟩,
    fun x u h => by simp [SubstSt.empty] at h⟩

theorem wt_empty : ∀ x u, SubstSt.empty.bind x = some u → sg.WT u := fun x u h => by simp [SubstSt.empty] at h

/-- What a successful unification provides. -/
structure Unifies (sg : Sig) (st : SubstSt) (σ : Nat → Term) : Prop where
  good : GoodBindings sg st.bind
  full : FullInst st.bind σ
  wt : sg.WTSubst σ
  bwt : ∀ x u, st.bind x = some u → sg.WT u

theorem unify_spec {pp : Term → Bool} {n : Nat} {s t : Term} {st st' : SubstSt}
    (hst : GoodBindings sg st.bind) (hB : ∀ x u, st.bind x = some u → sg.WT u)
    (hs : sg.WT s) (ht : sg.WT t)
    (h : unify sg pp n s t st = some (true, st')) :
    ∃ σ, Unifies sg st' σ ∧ s.subst σ = t.subst σ ∧ ∀ x u, st.bind x = some u → σ x = u.subst σ := by
  obtain ⟨hg, _, σ, hf, hu, _⟩ := Props.mgu_success sg n s t _ _ st st' hst h
  obtain ⟨hw1, hw2⟩ := Props.mgu_welltyped sg n s t _ _ st st' hst hB hs ht h
  exact ⟨σ, ⟨hg, hf, hw2 σ hf, hw1⟩, hu.unifies, hu.respects⟩

theorem norm_inv {bind : Nat → Option Term} {σ : Nat → Term} (hσ : FullInst bind σ) {n : Nat} {ts : List Term}
    {s s' : VarBank × Rn} (hs : NormProof.RnInv sg s.1 s.2) (h : normTerms sg bind n ts s = some s') :
    NormProof.RnInv sg s'.1 s'.2 := by
  rw [NormProof.normTerms_eq hσ h]; exact NormProof.rnInv_fold _ hs

theorem wt_full {σ : Nat → Term} (hσ : sg.WTSubst σ) {b : VarBank} {rn : Rn} (hr : NormProof.RnInv sg b rn)
    (hag : Props.BankAgrees sg b) : sg.WTSubst (InstProof.full σ rn.get) := by
  have hv : sg.WTSubst (varOut rn.get) := by
    intro y
    simp only [varOut, Rn.get, Sig.ty, Sig.WT, and_true]
    cases hl : rn.lookup y with
    | none => rfl
    | some c =>
      obtain ⟨i, _, hi⟩ := hr.ent _ (NormProof.lookup_some_mem hl)
      exact hag _ _ (List.mem_of_getElem? hi)
  intro x
  refine ⟨?_, Sig.wt_subst hv (hσ x).2⟩
  simp only [InstProof.full]
  rw [Sig.ty_subst fun y => (hv y).1, (hσ x).1]

/-- The literals of a copy, as well-typed literals with the truth value of the instance. -/
theorem copy_true (hsg : SigOK sg) {τ : Nat → Term} (hτ : sg.WTSubst τ) {C : List Lit} (hC : sg.WTClause C)
    (I : Interp.{u} sg) {v : Nat → I.D} (hv : I.Sorted v) :
    I.ClauseTrue v (C.map fun L => mkEqn L.pos (L.l.subst τ) (L.r.subst τ)) ↔
    I.ClauseTrue (fun x => I.eval v (τ x)) C := by
  rw [← clauseTrue_subst]
  simp only [ClauseTrue, csubst, List.mem_map]
  constructor
  · rintro ⟨_, ⟨L, hL, rfl⟩, ht⟩
    exact ⟨_, ⟨L, hL, rfl⟩, (mkEqn_true hsg I hv (wtLit_subst (hC L hL) hτ)).1 ht⟩
  · rintro ⟨_, ⟨L, hL, rfl⟩, ht⟩
    exact ⟨_, ⟨L, hL, rfl⟩, (mkEqn_true hsg I hv (wtLit_subst (hC L hL) hτ)).2 ht⟩

theorem copy_wt (hsg : SigOK sg) {τ : Nat → Term} (hτ : sg.WTSubst τ) {C : List Lit} (hC : sg.WTClause C) :
    sg.WTClause (C.map fun L => mkEqn L.pos (L.l.subst τ) (L.r.subst τ)) := by
  intro L hL
  obtain ⟨K, hK, rfl⟩ := List.mem_map.1 hL
  exact mkEqn_wt hsg (wtLit_subst (hC K hK) hτ)

theorem finish_wt {C : List Lit} (h : sg.WTClause C) : sg.WTClause (removeDup (removeResolved sg C)) :=
  fun L hL => h L (finish_mem hL)

theorem wt_eraseIdx {C : List Lit} (h : sg.WTClause C) (i : Nat) : sg.WTClause (C.eraseIdx i) :=
  fun L hL => h L (List.mem_of_mem_eraseIdx hL)

theorem mem_erase_or {C : List Lit} {i : Nat} {L K : Lit} (hi : C[i]? = some L) (hK : K ∈ C) :
    K = L ∨ K ∈ C.eraseIdx i := by
  rcases List.mem_iff_getElem?.1 hK with ⟨j, hj⟩
  by_cases h : j = i
  · subst h; rw [hi] at hj; exact Or.inl (Option.some.inj hj).symm
  · exact Or.inr (List.mem_eraseIdx_iff_getElem?.2 ⟨j, h, hj⟩)

theorem clauseTrue_erase (I : Interp.{u} sg) (v : Nat → I.D) {C : List Lit} {i : Nat} {L : Lit} (hi : C[i]? = some L) :
    I.ClauseTrue v C ↔ I.LitTrue v L ∨ I.ClauseTrue v (C.eraseIdx i) := by
  constructor
  · rintro ⟨K, hK, ht⟩
    rcases mem_erase_or hi hK with rfl | h
    · exact Or.inl ht
    · exact Or.inr ⟨K, h, ht⟩
  · rintro (h | ⟨K, hK, ht⟩)
    · exact ⟨L, List.mem_of_getElem? hi, h⟩
    · exact ⟨K, List.mem_of_mem_eraseIdx hK, ht⟩

theorem wt_side {L : Lit} (h : sg.WTLit L) (s : Bool) : sg.WT (L.side s) := by
  cases s
  · exact h.2.1
  · exact h.1

theorem ty_side {L : Lit} (h : sg.WTLit L) (s s' : Bool) : sg.ty (L.side s) = sg.ty (L.side s') := by
  cases s <;> cases s' <;> simp [Lit.side, h.2.2]

theorem side_true (I : Interp.{u} sg) (v : Nat → I.D) {L : Lit} (s : Bool) :
    I.LitTrue v L ↔ (if L.pos then I.eval v (L.side s) = I.eval v (L.side !s)
      else I.eval v (L.side s) ≠ I.eval v (L.side !s)) := by
  cases s
  · simp only [LitTrue, Lit.side, Bool.not_false, if_true, ne_eq, eq_comm (a := I.eval v L.l)]
    simp
  · simp [LitTrue, Lit.side]

theorem buildResolvent_spec {n : Nat} {b b' : VarBank} {st : SubstSt} {σ : Nat → Term} {C D : List Lit} {i : Nat}
    (hb : b.Inv) (hu : Unifies sg st σ) (h : buildResolvent sg n b st C i = some (b', D)) (hag : Props.BankAgrees sg b') :
    ∃ τ, sg.WTSubst τ ∧ (∃ ρ, ∀ t : Term, t.subst τ = (t.subst σ).subst ρ) ∧
      D = removeDup (removeResolved sg ((C.eraseIdx i).map fun L => mkEqn L.pos (L.l.subst τ) (L.r.subst τ))) := by
  unfold buildResolvent at h
  cases h1 : normLits sg st.bind n (C.eraseIdx i) (b, []) with
  | none => simp [h1] at h
  | some s =>
    simp only [h1] at h
    cases h2 : copyLits st.bind s.2.get n (C.eraseIdx i) with
    | none => simp [h2] at h
    | some E =>
      simp only [h2, Option.some.injEq, Prod.mk.injEq] at h
      obtain ⟨rfl, rfl⟩ := h
      have hI := norm_inv hu.full (NormProof.rnInv_nil sg hb) h1
      refine ⟨InstProof.full σ s.2.get, wt_full hu.wt hI hag, ⟨varOut s.2.get, fun t => InstProof.subst_full σ _ t⟩, ?_⟩
      rw [LitProof.copyLits_eq hu.full h2]

/-! ### Undoing the renaming -/

theorem lookup_of_key {rn : Rn} {y : Nat} (h : y ∈ rn.map Prod.fst) : ∃ c, rn.lookup y = some c := by
  cases hl : rn.lookup y with
  | none => exact absurd h (NormProof.lookup_none hl)
  | some c => exact ⟨c, rfl⟩

/-- An arbitrary instance of the variables renamed can be recovered from their images. -/
theorem undo_rn {α : Type u} {b : VarBank} {rn : Rn} (hr : NormProof.RnInv sg b rn) (θ : Nat → α) (d : Nat → α) :
    ∃ ρ : Nat → α, (∀ y ∈ rn.map Prod.fst, ρ ((rn.get y).getD y) = θ y) ∧
      ∀ c, ρ c = d c ∨ ∃ y, rn.lookup y = some c ∧ ρ c = θ y := by
  classical
  refine ⟨fun c => if h : ∃ y, rn.lookup y = some c then θ h.choose else d c, ?_, ?_⟩
  · intro y hy
    obtain ⟨c, hc⟩ := lookup_of_key hy
    simp only [Rn.get, hc, Option.getD_some]
    have hex : ∃ z, rn.lookup z = some c := ⟨y, hc⟩
    rw [dif_pos hex]
    have := hr.inj _ (NormProof.lookup_some_mem hex.choose_spec) _ (NormProof.lookup_some_mem hc) rfl
    simp only at this
    rw [this]
  · intro c
    by_cases h : ∃ y, rn.lookup y = some c
    · right; exact ⟨h.choose, h.choose_spec, by simp only; rw [dif_pos h]⟩
    · left; simp only; rw [dif_neg h]

/-! ### Simultaneous replacement -/

/-- `L'` is the instance of `L` under `τ` with some occurrences of `old` replaced. -/
def ReplLit (τ : Nat → Term) (old repl : Term) (L L' : Lit) : Prop :=
  ∃ l r, PartialRepl old repl (L.l.subst τ) l ∧ PartialRepl old repl (L.r.subst τ) r ∧ L' = mkEqn L.pos l r

theorem replLit_wt0 {τ : Nat → Term} (hτ : sg.WTSubst τ) {old repl : Term}
    (hty : sg.ty old = sg.ty repl) (hw : sg.WT repl) {L : Lit} (hL : sg.WTLit L) {l r : Term}
    (h1 : PartialRepl old repl (L.l.subst τ) l) (h2 : PartialRepl old repl (L.r.subst τ) r) :
    sg.WTLit ⟨L.pos, l, r⟩ := by
  have hL' := wtLit_subst hL hτ
  refine ⟨partialRepl_wt hty hw _ _ h1 hL'.1, partialRepl_wt hty hw _ _ h2 hL'.2.1, ?_⟩
  simp only
  rw [← partialRepl_ty hty h1, ← partialRepl_ty hty h2]
  exact hL'.2.2

theorem replLit_wt (hsg : SigOK sg) {τ : Nat → Term} (hτ : sg.WTSubst τ) {old repl : Term}
    (hty : sg.ty old = sg.ty repl) (hw : sg.WT repl) {L L' : Lit} (hL : sg.WTLit L)
    (h : ReplLit τ old repl L L') : sg.WTLit L' := by
  obtain ⟨l, r, h1, h2, rfl⟩ := h
  exact mkEqn_wt hsg (replLit_wt0 hτ hty hw hL h1 h2)

theorem replLit_true (hsg : SigOK sg) {τ : Nat → Term} (hτ : sg.WTSubst τ) {old repl : Term}
    (hty : sg.ty old = sg.ty repl) (hw : sg.WT repl) {L L' : Lit} (hL : sg.WTLit L)
    (h : ReplLit τ old repl L L') (I : Interp.{u} sg) {v : Nat → I.D} (hv : I.Sorted v)
    (he : I.eval v old = I.eval v repl) :
    I.LitTrue v L' ↔ I.LitTrue (fun x => I.eval v (τ x)) L := by
  obtain ⟨l, r, h1, h2, rfl⟩ := h
  rw [mkEqn_true hsg I hv (replLit_wt0 hτ hty hw hL h1 h2), ← litTrue_subst]
  simp only [LitTrue, Lit.subst]
  rw [eval_partialRepl I he _ _ h1, eval_partialRepl I he _ _ h2]
  exact Iff.rfl

/-- The common soundness argument for paramodulation: `T'` is the instance of the into-clause with some
occurrences of the overlapped term replaced. -/
theorem paramod_core (hsg : SigOK sg) {τ : Nat → Term} (hτ : sg.WTSubst τ)
    {F T T' : List Lit} {i : Nat} {LF : Lit} {fs : Bool} (hF : sg.WTClause F) (hT : sg.WTClause T)
    (hi : F[i]? = some LF) (hpos : LF.pos = true)
    (hT' : List.Forall₂ (ReplLit τ ((LF.side fs).subst τ) ((LF.side !fs).subst τ)) T T')
    (D : List Lit) (hD : ∀ L ∈ T' ++ (F.eraseIdx i).map (fun L => mkEqn L.pos (L.l.subst τ) (L.r.subst τ)), L ∈ D) :
    Entails.{u} sg [F, T] D := by
  have hLF := hF LF (List.mem_of_getElem? hi)
  have hty : sg.ty ((LF.side fs).subst τ) = sg.ty ((LF.side !fs).subst τ) := by
    rw [Sig.ty_subst fun x => (hτ x).1, Sig.ty_subst fun x => (hτ x).1, ty_side hLF]
  have hw : sg.WT ((LF.side !fs).subst τ) := Sig.wt_subst hτ (wt_side hLF _)
  intro I hm v hv
  have hvs := sorted_subst I hv hτ
  refine clauseTrue_of_subset I v hD ?_
  rw [clauseTrue_append]
  rcases (clauseTrue_erase I _ hi).1 (hm F (by simp) _ hvs) with h | h
  · left
    have he : I.eval v ((LF.side fs).subst τ) = I.eval v ((LF.side !fs).subst τ) := by
      rw [side_true I _ fs] at h
      simp only [hpos, if_true] at h
      rw [eval_subst, eval_subst]; exact h
    obtain ⟨L, hL, ht⟩ := hm T (by simp) _ hvs
    obtain ⟨k, hk⟩ := List.mem_iff_getElem?.1 hL
    obtain ⟨hkl, hke⟩ := List.getElem?_eq_some_iff.1 hk
    have hlen := hT'.length_eq
    have hr := hT'.get (i := k) hkl (by omega)
    simp only [List.get_eq_getElem] at hr
    rw [hke] at hr
    refine ⟨T'[k]'(by omega), List.getElem_mem _, ?_⟩
    exact (replLit_true hsg hτ hty hw (hT L hL) hr I hv he).2 ht
  · right
    exact (copy_true hsg hτ (wt_eraseIdx hF i) I hv).2 h

theorem paramod_core_wt (hsg : SigOK sg) {τ : Nat → Term} (hτ : sg.WTSubst τ)
    {F T T' : List Lit} {i : Nat} {LF : Lit} {fs : Bool} (hF : sg.WTClause F) (hT : sg.WTClause T)
    (hi : F[i]? = some LF)
    (hT' : List.Forall₂ (ReplLit τ ((LF.side fs).subst τ) ((LF.side !fs).subst τ)) T T') :
    sg.WTClause (T' ++ (F.eraseIdx i).map (fun L => mkEqn L.pos (L.l.subst τ) (L.r.subst τ))) := by
  have hLF := hF LF (List.mem_of_getElem? hi)
  have hty : sg.ty ((LF.side fs).subst τ) = sg.ty ((LF.side !fs).subst τ) := by
    rw [Sig.ty_subst fun x => (hτ x).1, Sig.ty_subst fun x => (hτ x).1, ty_side hLF]
  have hw : sg.WT ((LF.side !fs).subst τ) := Sig.wt_subst hτ (wt_side hLF _)
  intro L hL
  rcases List.mem_append.1 hL with hL | hL
  · obtain ⟨k, hk⟩ := List.mem_iff_getElem?.1 hL
    obtain ⟨hkl, hke⟩ := List.getElem?_eq_some_iff.1 hk
    have hlen := hT'.length_eq
    have hr := hT'.get (i := k) (by omega) hkl
    simp only [List.get_eq_getElem] at hr
    rw [hke] at hr
    exact replLit_wt hsg hτ hty hw (hT _ (List.getElem_mem _)) hr
  · exact copy_wt hsg hτ (wt_eraseIdx hF i) L hL

end Verif.InferProof
