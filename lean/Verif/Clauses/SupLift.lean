import Verif.Clauses.SupSpec
import Verif.Clauses.Bce
import Verif.Props.InferGen
import Mathlib.Data.List.Perm.Basic

/-!
# The code lifts ground inferences (proof of C61)

The functions of `Infer.lean`, applied to a pair of literals with a common ground instance, compute a clause that has an
instance contained in the conclusion of the ground inference.
-/

namespace Verif.Sup
open Verif Term LitCmpProof Props InferProof

variable {sg : Sig} {N : Nat}

theorem gInst_sublist {θ : Nat → Term} {C D : List Lit} (h : C.Sublist D) : (gInst θ C).Sublist (gInst θ D) := h.map _

theorem finish_sublist (C : List Lit) : (removeDup (removeResolved sg C)).Sublist C := by
  have hsubl : ∀ (C seen : List Lit), (removeDupAux seen C).Sublist C := by
    intro C
    induction C with
    | nil => intro seen; simp [removeDupAux]
    | cons L C ih =>
      intro seen
      rw [removeDupAux]
      split
      · exact (ih _).cons _
      · exact (ih _).cons_cons _
  exact (hsubl _ _).trans List.filter_sublist

/-- Undo unifier and renaming; the resulting substitution is ground and respects types. -/
theorem ground_rename {b : VarBank} {rn : Rn} (hr : NormProof.RnInv sg b rn) {σ θ : Nat → Term} (hθ : GSubst sg N θ)
    (hmg : ∀ x, (σ x).subst θ = θ x) :
    ∃ ρ : Nat → Term, (BankAgrees sg b → GSubst sg N ρ) ∧ ∀ t : Term, (∀ y ∈ (t.subst σ).vars, y ∈ rn.map Prod.fst) →
      (t.subst (InstProof.full σ rn.get)).subst ρ = t.subst θ := by
  obtain ⟨ρ, hρ, hv⟩ := undo_rn hr θ θ
  refine ⟨ρ, fun hag c => ?_, fun t ht => ?_⟩
  · rcases hv c with e | ⟨y, h1, e⟩
    · rw [e]; exact hθ c
    · rw [e]
      obtain ⟨i, -, hi⟩ := hr.ent _ (NormProof.lookup_some_mem h1)
      refine ⟨(hθ y).1, ?_⟩
      rw [(hθ y).2]
      exact (hag _ _ (List.mem_of_getElem? hi)).symm
  · rw [InstProof.subst_full, subst_comp]
    have : (t.subst σ).subst θ = t.subst θ := by rw [subst_comp]; exact subst_congr fun x _ => hmg x
    rw [← this]
    exact subst_congr fun y hy => by simp only [varOut, subst_var]; exact hρ y (ht y hy)

theorem copy_gInst {ρ θ τ : Nat → Term} {E : List Lit} (h : ∀ L ∈ E, ∀ t ∈ L.terms, (t.subst τ).subst ρ = t.subst θ) :
    gInst ρ (E.map fun L => mkEqn L.pos (L.l.subst τ) (L.r.subst τ)) = gInst θ E := by
  unfold gInst
  rw [List.map_map]
  refine List.map_congr_left fun L hL => ?_
  have := nrm_subst_mkEqn L.pos (L.l.subst τ) (L.r.subst τ) ρ
  rw [h L hL _ (by simp [Lit.terms]), h L hL _ (by simp [Lit.terms])] at this
  exact this

/-- Boolean terms and variables are never unified. -/
theorem pp_ok (hF : FOSig sg) {pp : Term → Bool} (hpp : ∀ t, pp t = true → sg.ty t = sg.fty 1) {s t : Term} (hty : sg.ty s = sg.ty t) :
    ¬ ((pp s = true ∧ t.isVar = true) ∨ (pp t = true ∧ s.isVar = true)) := by
  have hv : ∀ u : Term, u.isVar = true → sg.ty u ≠ sg.fty 1 := by
    intro u hu
    cases u with
    | var x => exact hF.vars x
    | app f ts => simp [isVar] at hu
  rintro (⟨h1, h2⟩ | ⟨h1, h2⟩)
  · exact hv t h2 (hty ▸ hpp s h1)
  · exact hv s h2 (hty ▸ hpp t h1)

theorem ty_of_unif {θ : Nat → Term} (hθ : GSubst sg N θ) {s t : Term} (h : s.subst θ = t.subst θ) : sg.ty s = sg.ty t := by
  have h1 := Sig.ty_subst (sg := sg) (fun x => (hθ x).2) s
  have h2 := Sig.ty_subst (sg := sg) (fun x => (hθ x).2) t
  rw [← h1, ← h2, h]

/-- Equality resolution. -/
theorem eqRes_lift (hF : FOSig sg) {pp : Term → Bool} (hpp : ∀ t, pp t = true → sg.ty t = sg.fty 1) {b : VarBank} (hb : b.Inv) {θ : Nat → Term}
    (hθ : GSubst sg N θ) {C : List Lit} {i : Nat} {L : Lit} (hi : C[i]? = some L) (hun : L.l.subst θ = L.r.subst θ) :
    ∃ n b' D, computeEqRes sg pp n b C i = some (some (b', D)) ∧
      (BankAgrees sg b' → ∃ ρ, GSubst sg N ρ ∧ (gInst ρ D).Sublist (gInst θ (C.eraseIdx i))) := by
  have hu : IsUnifier sg SubstSt.empty.bind L.l L.r θ := ⟨fun x => (hθ x).2, fun x u h => by simp [SubstSt.empty] at h, hun⟩
  obtain ⟨N1, st, h1, hg, σ, hσ, _, hmg⟩ := unify_total good_empty hu (pp_ok hF hpp (ty_of_unif hθ hun))
  obtain ⟨N2, s, h2⟩ := NormProof.normTerms_total sg hg.acyclic hσ ((C.eraseIdx i).flatMap Lit.terms) (b.reset, [])
  obtain ⟨N3, E, h3⟩ := LitProof.copyLits_total s.2.get hg.acyclic hσ (C.eraseIdx i)
  refine ⟨N1 + N2 + N3, s.1, removeDup (removeResolved sg E), ?_, fun hag => ?_⟩
  · simp only [computeEqRes, hi, h1 (N1 + N2 + N3) (by omega), buildResolvent, normLits, h2 (N1 + N2 + N3) (by omega), h3 (N1 + N2 + N3) (by omega), Option.map_some]
  · have hI := norm_inv hσ (NormProof.rnInv_nil sg (VarBank.inv_reset hb)) (h2 _ (le_refl _))
    obtain ⟨ρ, r1, r2⟩ := ground_rename hI hθ (hmg θ hu)
    refine ⟨ρ, r1 hag, ?_⟩
    have e : gInst ρ E = gInst θ (C.eraseIdx i) := by
      rw [LitProof.copyLits_eq hσ (h3 _ (le_refl _))]
      refine copy_gInst fun K hK t ht => r2 t fun y hy => ?_
      rw [norm_keys hσ (h2 _ (le_refl _))]
      exact Or.inr ⟨t, List.mem_flatMap.2 ⟨K, hK, ht⟩, hy⟩
    rw [← e]
    exact gInst_sublist (finish_sublist E)

/-! ## Paramodulation -/

/-- Some term `s` in `a` has become `w` in `b`. -/
def ReplAt (s w a b : Term) : Prop := ∃ q, subtermAt a q = some s ∧ subtermAt b q = some w

/-- The literal `K` is `Lθ` with some occurrences of `s` replaced by `w`, the sides exchanged only if the right side was changed. -/
def GRepl (θ : Nat → Term) (s w : Term) (L K : Lit) : Prop :=
  ∃ l r, PartialRepl s w (L.l.subst θ) l ∧ PartialRepl s w (L.r.subst θ) r ∧
    (K = mkEqn L.pos l r ∨ K = mkEqn L.pos r l ∧ ReplAt s w (L.r.subst θ) r)

/-- What paramodulation makes of the into-clause: occurrences of `s` are replaced, one of them in side `ts` of literal `j`. -/
def Replaced (θ : Nat → Term) (s w : Term) (T : List Lit) (j : Nat) (ts : Bool) (Ks : List Lit) : Prop :=
  List.Forall₂ (GRepl θ s w) T Ks ∧ ∃ LT l r, T[j]? = some LT ∧ PartialRepl s w (LT.l.subst θ) l ∧ PartialRepl s w (LT.r.subst θ) r ∧
    ReplAt s w ((LT.side ts).subst θ) (if ts then l else r) ∧ (Ks[j]? = some (mkEqn LT.pos l r) ∨ Ks[j]? = some (mkEqn LT.pos r l))

theorem partialRepl_subst {old repl : Term} (ρ : Nat → Term) (a b : Term) (h : PartialRepl old repl a b) :
    PartialRepl (old.subst ρ) (repl.subst ρ) (a.subst ρ) (b.subst ρ) := by
  induction a using Term.ind generalizing b with
  | hv x =>
    cases h with
    | same => exact .same _
    | here => exact .here
  | ha f ts ih =>
    cases h with
    | same => exact .same _
    | here => exact .here
    | @args _ _ us hus =>
      rw [subst_app, subst_app]
      refine .args f ?_
      rw [List.forall₂_map_left_iff, List.forall₂_map_right_iff]
      have : ∀ t ∈ ts, ∀ u, PartialRepl old repl t u → PartialRepl (old.subst ρ) (repl.subst ρ) (t.subst ρ) (u.subst ρ) := fun t ht u hu => ih t ht u hu
      clear ih
      induction hus with
      | nil => exact .nil
      | cons h1 _ ih2 => exact .cons (this _ (by simp) _ h1) (ih2 fun t ht => this t (by simp [ht]))

theorem replAt_subst {s w a b : Term} (ρ : Nat → Term) (h : ReplAt s w a b) : ReplAt (s.subst ρ) (w.subst ρ) (a.subst ρ) (b.subst ρ) := by
  obtain ⟨q, h1, h2⟩ := h
  exact ⟨q, (InstProof.replaceAt_subst (repl := s) h1).2, (InstProof.replaceAt_subst (repl := s) h2).2⟩

/-- The setting in which the three construction functions run. -/
structure Run (sg : Sig) (N : Nat) (b : VarBank) (o : Overlap) (LF LT : Lit) (sub : Term) (θ : Nat → Term) (st : SubstSt) (σ : Nat → Term) (s : VarBank × Rn) (M : Nat) (ρ : Nat → Term) : Prop where
  full : FullInst st.bind σ
  acyc : MguProof.Acyclic st.bind
  run : ∀ n ≥ M, ∃ s1, normLits sg st.bind n o.T (b.reset, []) = some s1 ∧ normLits sg st.bind n o.F s1 = some s
  typed : BankAgrees sg s.1 → GSubst sg N ρ
  covT : ∀ L ∈ o.T, ∀ t ∈ L.terms, (t.subst (InstProof.full σ s.2.get)).subst ρ = t.subst θ
  covF : ∀ L ∈ o.F, ∀ t ∈ L.terms, (t.subst (InstProof.full σ s.2.get)).subst ρ = t.subst θ
  covS : (sub.subst (InstProof.full σ s.2.get)).subst ρ = sub.subst θ

theorem vars_subtermAt {t : Term} {p : List Nat} {u : Term} (h : subtermAt t p = some u) : ∀ x ∈ u.vars, x ∈ t.vars := by
  induction p generalizing t with
  | nil => intro x hx; simp only [subtermAt, Option.some.injEq] at h; subst h; exact hx
  | cons i p ih =>
    cases t with
    | var x => simp [subtermAt] at h
    | app f ts =>
      simp only [subtermAt] at h
      cases hi : ts[i]? with
      | none => simp [hi] at h
      | some w =>
        simp only [hi] at h
        intro x hx
        simp only [vars, mem_varsL]
        exact ⟨w, List.mem_of_getElem? hi, ih h x hx⟩

theorem mem_side (M : Lit) (c : Bool) : M.side c ∈ M.terms := by cases c <;> simp [Lit.side, Lit.terms]

theorem run_exists {b : VarBank} (hb : b.Inv) {o : Overlap} {LF LT : Lit} {sub : Term} (hj : o.T[o.j]? = some LT)
    (hp : IsPos (LT.side o.ts) o.pos) (hsub : posSubterm (LT.side o.ts) o.pos = some sub) {θ : Nat → Term} (hθ : GSubst sg N θ)
    {st : SubstSt} {σ : Nat → Term} (hf : FullInst st.bind σ) (ha : MguProof.Acyclic st.bind) (hmg : ∀ x, (σ x).subst θ = θ x) :
    ∃ s M ρ, Run sg N b o LF LT sub θ st σ s M ρ := by
  obtain ⟨N2, s1, h2⟩ := NormProof.normTerms_total sg ha hf (o.T.flatMap Lit.terms) (b.reset, [])
  obtain ⟨N3, s, h3⟩ := NormProof.normTerms_total sg ha hf (o.F.flatMap Lit.terms) s1
  have hI := norm_inv hf (norm_inv hf (NormProof.rnInv_nil sg (VarBank.inv_reset hb)) (h2 _ (le_refl _))) (h3 _ (le_refl _))
  obtain ⟨ρ, r1, hρ⟩ := ground_rename hI hθ hmg
  have hcovT : ∀ M ∈ o.T, ∀ t ∈ M.terms, ∀ y ∈ (t.subst σ).vars, y ∈ s.2.map Prod.fst := by
    intro M hM t ht y hy
    rw [norm_keys hf (h3 _ (le_refl _)), norm_keys hf (h2 _ (le_refl _))]
    exact Or.inl (Or.inr ⟨t, List.mem_flatMap.2 ⟨M, hM, ht⟩, hy⟩)
  have hcovF : ∀ M ∈ o.F, ∀ t ∈ M.terms, ∀ y ∈ (t.subst σ).vars, y ∈ s.2.map Prod.fst := by
    intro M hM t ht y hy
    rw [norm_keys hf (h3 _ (le_refl _))]
    exact Or.inr ⟨t, List.mem_flatMap.2 ⟨M, hM, ht⟩, hy⟩
  refine ⟨s, N2 + N3, ρ, hf, ha, fun n hn => ⟨s1, h2 n (by omega), h3 n (by omega)⟩, r1, fun L hL t ht => hρ t (hcovT L hL t ht),
    fun L hL t ht => hρ t (hcovF L hL t ht), hρ _ fun y hy => ?_⟩
  rw [InstProof.posSubterm_eq hp] at hsub
  have h4 := (InstProof.replaceAt_subst (σ := σ) (repl := sub) hsub).2
  exact hcovT LT (List.mem_of_getElem? hj) _ (mem_side _ _) y (vars_subtermAt h4 y hy)

section
variable {b : VarBank} {o : Overlap} {LF LT : Lit} {sub : Term} {θ : Nat → Term} {st : SubstSt} {σ : Nat → Term} {s : VarBank × Rn} {M : Nat} {ρ : Nat → Term}

theorem findTrue_inst (hd : ∀ f, ¬ sg.distinct f) {E : List Lit} (h : findTrue sg E = true) (ρ : Nat → Term) : ∃ a, mkEqn true a a ∈ gInst ρ E := by
  obtain ⟨K, hK, ht⟩ := List.any_eq_true.1 h
  have : K.pos = true ∧ K.l = K.r := by
    unfold eqnIsTrue at ht
    split at ht
    · rename_i hp; exact ⟨hp, by simpa using ht⟩
    · exfalso
      unfold termsDistinct at ht
      split at ht
      · simp [hd] at ht
      · cases ht
  refine ⟨K.r.subst ρ, List.mem_map.2 ⟨K, hK, ?_⟩⟩
  rw [this.1, this.2]

theorem gInst_append {C D : List Lit} : gInst θ (C ++ D) = gInst θ C ++ gInst θ D := by simp [gInst]

/-- What is computed: nothing, and then the ground conclusion has a trivial literal, or a clause with an instance in the ground conclusion `K`. -/
def Covers (sg : Sig) (N : Nat) (K : List Lit) : Option (VarBank × List Lit) → Prop
  | none => ∃ a, mkEqn true a a ∈ K
  | some (b', D) => BankAgrees sg b' → ∃ ρ, GSubst sg N ρ ∧ (gInst ρ D).Subperm K

theorem finish_covers (hr : Run sg N b o LF LT sub θ st σ s M ρ) {E K : List Lit} (hE : (gInst ρ E).Perm K) : Covers sg N K (finishParamod sg s.1 E) := by
  intro hag
  exact ⟨ρ, hr.typed hag, (gInst_sublist (finish_sublist E)).subperm.trans hE.subperm⟩

theorem frm_eq (hr : Run sg N b o LF LT sub θ st σ s M ρ) :
    gInst ρ ((o.F.eraseIdx o.i).map fun L => mkEqn L.pos (L.l.subst (InstProof.full σ s.2.get)) (L.r.subst (InstProof.full σ s.2.get))) = gInst θ (o.F.eraseIdx o.i) :=
  copy_gInst fun L hL t ht => hr.covF L (List.mem_of_mem_eraseIdx hL) t ht

theorem forall2_set {α β : Type} {R : α → β → Prop} {xs : List α} {ys : List β} (h : List.Forall₂ R xs ys) {j : Nat} {x : α} {y : β} (hj : xs[j]? = some x) (hxy : R x y) :
    List.Forall₂ R xs (ys.set j y) := by
  induction h generalizing j with
  | nil => simp at hj
  | @cons a b xs ys h1 h2 ih =>
    cases j with
    | zero => simp only [List.getElem?_cons_zero, Option.some.injEq] at hj; subst hj; exact .cons hxy h2
    | succ j => exact .cons h1 (ih hj)

theorem plain_lift (hd : ∀ f, ¬ sg.distinct f) (hr : Run sg N b o LF LT sub θ st σ s M ρ) (hi : o.F[o.i]? = some LF) (hj : o.T[o.j]? = some LT)
    (hp : IsPos (LT.side o.ts) o.pos) (hsub : posSubterm (LT.side o.ts) o.pos = some sub) :
    ∃ n0 res Ks, (∀ n ≥ n0, plainParamodConstruct sg n b st o LF LT = some res) ∧
      Replaced θ (sub.subst θ) ((LF.side !o.fs).subst θ) o.T o.j o.ts Ks ∧ Covers sg N (Ks ++ gInst θ (o.F.eraseIdx o.i)) res := by
  obtain ⟨N4, l, h4⟩ := InstProof.instOpt_total s.2.get hr.acyc hr.full _ (posReplace o.pos (LF.side !o.fs)) (le_refl _)
  obtain ⟨N5, r, h5⟩ := InstProof.instOpt_total s.2.get hr.acyc hr.full _ (LT.side !o.ts) (le_refl _)
  obtain ⟨N6, into, h6⟩ := LitProof.copyLits_total s.2.get hr.acyc hr.full (o.T.eraseIdx o.j)
  obtain ⟨N7, frm, h7⟩ := LitProof.copyLits_total s.2.get hr.acyc hr.full (o.F.eraseIdx o.i)
  have hs2 := hsub
  rw [InstProof.posSubterm_eq hp] at hs2
  obtain ⟨e1, e2⟩ := InstProof.replaceAt_subst (σ := θ) (repl := LF.side !o.fs) hs2
  have hcT := hr.covT LT (List.mem_of_getElem? hj)
  have hcF := hr.covF LF (List.mem_of_getElem? hi)
  have hl : l.subst ρ = (posReplace o.pos (LF.side !o.fs)).subst θ := by
    rw [InstProof.instOpt_correct hr.full _ _ _ (h4 _ (le_refl _)), InstProof.posReplace_eq hp,
      (InstProof.replaceAt_subst (σ := InstProof.full σ s.2.get) hs2).1,
      (InstProof.replaceAt_subst (σ := ρ) (InstProof.replaceAt_subst (σ := InstProof.full σ s.2.get) (repl := LF.side !o.fs) hs2).2).1, e1,
      hcT _ (mem_side _ _), hcF _ (mem_side _ _)]
  have hrr : r.subst ρ = (LT.side !o.ts).subst θ := by
    rw [InstProof.instOpt_correct hr.full _ _ _ (h5 _ (le_refl _))]
    exact hcT _ (mem_side _ _)
  have hinto : gInst ρ into = gInst θ (o.T.eraseIdx o.j) := by
    rw [LitProof.copyLits_eq hr.full (h6 _ (le_refl _))]
    exact copy_gInst fun L hL t ht => hr.covT L (List.mem_of_mem_eraseIdx hL) t ht
  have hfrm : gInst ρ frm = gInst θ (o.F.eraseIdx o.i) := by
    rw [LitProof.copyLits_eq hr.full (h7 _ (le_refl _))]
    exact frm_eq hr
  let new := mkEqn LT.pos ((posReplace o.pos (LF.side !o.fs)).subst θ) ((LT.side !o.ts).subst θ)
  have hjl : o.j < o.T.length := (List.getElem?_eq_some_iff.1 hj).1
  have hpr : PartialRepl (sub.subst θ) ((LF.side !o.fs).subst θ) ((LT.side o.ts).subst θ) ((posReplace o.pos (LF.side !o.fs)).subst θ) := by
    rw [InstProof.posReplace_eq hp, e1]
    exact InstProof.replaceAt_partial e2
  have hat : ReplAt (sub.subst θ) ((LF.side !o.fs).subst θ) ((LT.side o.ts).subst θ) ((posReplace o.pos (LF.side !o.fs)).subst θ) := by
    refine ⟨o.pos.map Prod.snd, e2, ?_⟩
    rw [InstProof.posReplace_eq hp, e1]
    clear * - e2
    generalize o.pos.map Prod.snd = p at *
    generalize (LT.side o.ts).subst θ = t at *
    induction p generalizing t with
    | nil => cases t <;> rfl
    | cons i p ih =>
      cases t with
      | var x => simp [subtermAt] at e2
      | app f ts =>
        simp only [subtermAt] at e2
        cases hi : ts[i]? with
        | none => simp [hi] at e2
        | some u =>
          simp only [hi] at e2
          have hil := (List.getElem?_eq_some_iff.1 hi).1
          simp only [replaceAt, hi, subtermAt, List.getElem?_set_self hil]
          exact ih u e2
  refine ⟨M + N4 + N5 + N6 + N7, if LT.pos = true ∧ l = r then none else if findTrue sg into then none
        else if findTrue sg frm then none else finishParamod sg s.1 (mkEqn LT.pos l r :: (into ++ frm)), (gInst θ o.T).set o.j new, ?_, ⟨?_, ?_⟩, ?_⟩
  · intro n hn
    obtain ⟨s1, r1, r2⟩ := hr.run n (by omega)
    simp only [plainParamodConstruct, r1, r2, h4 n (by omega), h5 n (by omega), h6 n (by omega), h7 n (by omega)]
    split
    · rfl
    · split
      · rfl
      · split <;> rfl
  · refine forall2_set (x := LT) ?_ hj ?_
    · unfold gInst
      rw [List.forall₂_map_right_iff, List.forall₂_same]
      exact fun L _ => ⟨_, _, .same _, .same _, Or.inl rfl⟩
    · cases hts : o.ts with
      | true =>
        simp only [hts, Lit.side, if_true] at hpr hat
        exact ⟨_, _, hpr, .same _, Or.inl (by simp [new, hts, Lit.side])⟩
      | false =>
        simp only [hts, Lit.side, Bool.false_eq_true, if_false] at hpr hat
        exact ⟨_, _, .same _, hpr, Or.inr ⟨by simp [new, hts, Lit.side], hat⟩⟩
  · have hset : ((gInst θ o.T).set o.j new)[o.j]? = some new := by
      rw [List.getElem?_set_self (by simpa [gInst] using hjl)]
    cases hts : o.ts with
    | true =>
      simp only [hts, Lit.side, if_true] at hpr hat
      exact ⟨LT, _, _, hj, hpr, .same _, by simpa [Lit.side] using hat, Or.inl (by rw [hset]; simp [new, hts, Lit.side])⟩
    | false =>
      simp only [hts, Lit.side, Bool.false_eq_true, if_false] at hpr hat
      exact ⟨LT, _, _, hj, .same _, hpr, by simpa [Lit.side] using hat, Or.inr (by rw [hset]; simp [new, hts, Lit.side])⟩
  · have hperm : ((gInst θ o.T).set o.j new ++ gInst θ (o.F.eraseIdx o.i)).Perm (new :: (gInst θ (o.T.eraseIdx o.j) ++ gInst θ (o.F.eraseIdx o.i))) := by
      have h1 := List.set_perm_cons_eraseIdx (l := gInst θ o.T) (n := o.j) (by simpa [gInst] using hjl) new
      have h2 : (gInst θ o.T).eraseIdx o.j = gInst θ (o.T.eraseIdx o.j) := by simp [gInst, List.eraseIdx_map]
      rw [h2] at h1
      exact h1.append_right _
    have hnew : mkEqn LT.pos (l.subst ρ) (r.subst ρ) = new := by rw [hl, hrr]
    by_cases c1 : LT.pos = true ∧ l = r
    · rw [if_pos c1]
      refine ⟨r.subst ρ, hperm.symm.subset ?_⟩
      rw [← hnew, c1.1, c1.2]
      exact List.mem_cons_self
    rw [if_neg c1]
    by_cases c2 : findTrue sg into = true
    · rw [if_pos c2]
      obtain ⟨a, h⟩ := findTrue_inst hd c2 ρ
      rw [hinto] at h
      exact ⟨a, hperm.symm.subset (by simp [h])⟩
    rw [if_neg c2]
    by_cases c3 : findTrue sg frm = true
    · rw [if_pos c3]
      obtain ⟨a, h⟩ := findTrue_inst hd c3 ρ
      rw [hfrm] at h
      exact ⟨a, by simp [h]⟩
    rw [if_neg c3]
    refine finish_covers hr ?_
    refine List.Perm.trans ?_ hperm.symm
    have e3 : gInst ρ (mkEqn LT.pos l r :: (into ++ frm)) = new :: (gInst θ (o.T.eraseIdx o.j) ++ gInst θ (o.F.eraseIdx o.i)) := by
      rw [← hinto, ← hfrm, ← gInst_append]
      show nrm ((mkEqn LT.pos l r).subst ρ) :: _ = _
      rw [nrm_subst_mkEqn, hnew]
      rfl
    rw [e3]

theorem replaced_of (hr : Run sg N b o LF LT sub θ st σ s M ρ) (hi : o.F[o.i]? = some LF) (hj : o.T[o.j]? = some LT) {into : List Lit}
    (hinto : List.Forall₂ (ReplLit (InstProof.full σ s.2.get) (sub.subst (InstProof.full σ s.2.get)) ((LF.side !o.fs).subst (InstProof.full σ s.2.get))) o.T into)
    {l r : Term} (hl : PartialRepl (sub.subst (InstProof.full σ s.2.get)) ((LF.side !o.fs).subst (InstProof.full σ s.2.get)) (LT.l.subst (InstProof.full σ s.2.get)) l)
    (hrr : PartialRepl (sub.subst (InstProof.full σ s.2.get)) ((LF.side !o.fs).subst (InstProof.full σ s.2.get)) (LT.r.subst (InstProof.full σ s.2.get)) r)
    (hat : ReplAt (sub.subst (InstProof.full σ s.2.get)) ((LF.side !o.fs).subst (InstProof.full σ s.2.get)) ((LT.side o.ts).subst (InstProof.full σ s.2.get)) (if o.ts then l else r))
    (hm : into[o.j]? = some (mkEqn LT.pos l r)) : Replaced θ (sub.subst θ) ((LF.side !o.fs).subst θ) o.T o.j o.ts (gInst ρ into) := by
  have hcT := hr.covT LT (List.mem_of_getElem? hj)
  have hw := hr.covF LF (List.mem_of_getElem? hi) _ (mem_side _ (!o.fs))
  have hpr : ∀ L ∈ o.T, ∀ t ∈ L.terms, ∀ u, PartialRepl (sub.subst (InstProof.full σ s.2.get)) ((LF.side !o.fs).subst (InstProof.full σ s.2.get)) (t.subst (InstProof.full σ s.2.get)) u →
      PartialRepl (sub.subst θ) ((LF.side !o.fs).subst θ) (t.subst θ) (u.subst ρ) := by
    intro L hL t ht u hu
    have := partialRepl_subst ρ _ _ hu
    rwa [hr.covS, hw, hr.covT L hL t ht] at this
  refine ⟨?_, LT, l.subst ρ, r.subst ρ, hj, hpr _ (List.mem_of_getElem? hj) _ (by simp [Lit.terms]) _ hl, hpr _ (List.mem_of_getElem? hj) _ (by simp [Lit.terms]) _ hrr, ?_, ?_⟩
  · unfold gInst
    rw [List.forall₂_map_right_iff]
    have : ∀ Ts into', (∀ L ∈ Ts, L ∈ o.T) → List.Forall₂ (ReplLit (InstProof.full σ s.2.get) (sub.subst (InstProof.full σ s.2.get)) ((LF.side !o.fs).subst (InstProof.full σ s.2.get))) Ts into' →
        List.Forall₂ (fun L K => GRepl θ (sub.subst θ) ((LF.side !o.fs).subst θ) L (mkEqn K.pos (K.l.subst ρ) (K.r.subst ρ))) Ts into' := by
      intro Ts into' hsub h
      induction h with
      | nil => exact .nil
      | @cons L K Ts into' h1 _ ih =>
        refine .cons ?_ (ih fun L hL => hsub L (by simp [hL]))
        obtain ⟨l, r, p1, p2, rfl⟩ := h1
        refine ⟨l.subst ρ, r.subst ρ, hpr L (hsub L (by simp)) _ (by simp [Lit.terms]) _ p1, hpr L (hsub L (by simp)) _ (by simp [Lit.terms]) _ p2, Or.inl ?_⟩
        exact nrm_subst_mkEqn L.pos l r ρ
    exact this _ _ (fun L h => h) hinto
  · have := replAt_subst ρ hat
    rw [hr.covS, hw, hcT _ (mem_side _ _)] at this
    cases hts : o.ts <;> simpa [hts] using this
  · left
    rw [gInst, List.getElem?_map, hm]
    exact congrArg some (nrm_subst_mkEqn LT.pos l r ρ)

theorem covers_of (hd : ∀ f, ¬ sg.distinct f) (hr : Run sg N b o LF LT sub θ st σ s M ρ) {into frm : List Lit} (hfrm : gInst ρ frm = gInst θ (o.F.eraseIdx o.i)) :
    Covers sg N (gInst ρ into ++ gInst θ (o.F.eraseIdx o.i))
      (if findTrue sg into then none else if findTrue sg frm then none else finishParamod sg s.1 (into ++ frm)) := by
  by_cases c2 : findTrue sg into = true
  · rw [if_pos c2]
    obtain ⟨a, h⟩ := findTrue_inst hd c2 ρ
    exact ⟨a, by simp [h]⟩
  rw [if_neg c2]
  by_cases c3 : findTrue sg frm = true
  · rw [if_pos c3]
    obtain ⟨a, h⟩ := findTrue_inst hd c3 ρ
    rw [hfrm] at h
    exact ⟨a, by simp [h]⟩
  rw [if_neg c3]
  refine finish_covers hr ?_
  rw [gInst_append, hfrm]

theorem subterm_ne {t u : Term} {i : Nat} {p : List Nat} (h : subtermAt t (i :: p) = some u) : t ≠ u := by
  have hs : ∀ (p : List Nat) (t u : Term), subtermAt t p = some u → u.size ≤ t.size := by
    intro p
    induction p with
    | nil => intro t u h; simp only [subtermAt, Option.some.injEq] at h; rw [h]
    | cons i p ih =>
      intro t u h
      cases t with
      | var x => simp [subtermAt] at h
      | app f ts =>
        simp only [subtermAt] at h
        cases hi : ts[i]? with
        | none => simp [hi] at h
        | some w =>
          simp only [hi] at h
          exact (ih w u h).trans (size_arg_lt (f := f) (List.mem_of_getElem? hi)).le
  cases t with
  | var x => simp [subtermAt] at h
  | app f ts =>
    simp only [subtermAt] at h
    cases hi : ts[i]? with
    | none => simp [hi] at h
    | some w =>
      simp only [hi] at h
      have h1 := hs _ _ _ h
      have h2 := size_arg_lt (f := f) (List.mem_of_getElem? hi)
      rintro rfl
      omega

theorem instRepl_total {bind : Nat → Option Term} (rn : Nat → Option Nat) {σ : Nat → Term} (hac : MguProof.Acyclic bind) (hσ : FullInst bind σ) (old repl : Term) :
    ∀ (k : Nat) (t : Term), (t.subst σ).size ≤ k → ∃ N r, ∀ n ≥ N, instRepl bind rn old repl n t = some r := by
  intro k
  induction k with
  | zero => intro t h; have := size_pos (t.subst σ); omega
  | succ k ih =>
    intro t hsz
    by_cases heq : t = old
    · refine ⟨1, repl, fun n hn => ?_⟩
      obtain ⟨m, rfl⟩ : ∃ m, n = m + 1 := ⟨n - 1, by omega⟩
      simp only [instRepl, if_pos heq]
    obtain ⟨N, r, hN⟩ := MguProof.deref_total hac t
    have hs := InstProof.deref_full hσ (hN N (le_refl _))
    cases r with
    | var y =>
      refine ⟨N + 1, varOut rn y, fun n hn => ?_⟩
      obtain ⟨m, rfl⟩ : ∃ m, n = m + 1 := ⟨n - 1, by omega⟩
      simp only [instRepl, if_neg heq, hN m (by omega)]
    | app f ts =>
      rw [← hs, subst_app] at hsz
      have hL : ∀ us : List Term, (∀ u ∈ us, u ∈ ts) →
          ∃ N r, ∀ n ≥ N, mapOpt (fun u => instRepl bind rn old repl n u) us = some r := by
        intro us
        induction us with
        | nil => intro _; exact ⟨0, [], fun n _ => rfl⟩
        | cons u us ihu =>
          intro hus
          have hu : (u.subst σ).size ≤ k := by
            have := size_arg_lt (f := f) (List.mem_map_of_mem (f := subst σ) (hus u (by simp)))
            omega
          obtain ⟨N1, b1, h1⟩ := ih u hu
          obtain ⟨N2, b2, h2⟩ := ihu fun v hv => hus v (by simp [hv])
          refine ⟨N1 + N2, b1 :: b2, fun n hn => ?_⟩
          simp only [mapOpt, h1 n (by omega), h2 n (by omega)]
      obtain ⟨N2, b, h2⟩ := hL ts fun _ h => h
      refine ⟨N + N2 + 1, .app f b, fun n hn => ?_⟩
      obtain ⟨m, rfl⟩ : ∃ m, n = m + 1 := ⟨n - 1, by omega⟩
      simp only [instRepl, if_neg heq, hN m (by omega), h2 m (by omega), Option.map_some]

theorem instRepl_at {bind : Nat → Option Term} {rn : Nat → Option Nat} {old repl : Term} (p : List Nat) :
    ∀ (n : Nat) (t r : Term), subtermAt t p = some old → instRepl bind rn old repl n t = some r → subtermAt r p = some repl := by
  induction p with
  | nil =>
    intro n t r h1 h2
    simp only [subtermAt, Option.some.injEq] at h1
    cases n with
    | zero => simp [instRepl] at h2
    | succ n => simp only [instRepl, if_pos h1, Option.some.injEq] at h2; simp [subtermAt, h2]
  | cons i p ih =>
    intro n t r h1 h2
    have hne := subterm_ne h1
    cases n with
    | zero => simp [instRepl] at h2
    | succ n =>
      simp only [instRepl, if_neg hne] at h2
      cases t with
      | var x => simp [subtermAt] at h1
      | app f ts =>
        simp only [subtermAt] at h1
        cases hi : ts[i]? with
        | none => simp [hi] at h1
        | some w =>
          simp only [hi] at h1
          have hdr : derefAlways bind n (app f ts) = some (app f ts) := by cases n <;> simp [derefAlways]
          simp only [hdr] at h2
          cases hm : mapOpt (fun u => instRepl bind rn old repl n u) ts with
          | none => simp [hm] at h2
          | some us =>
            simp only [hm, Option.map_some, Option.some.injEq] at h2
            subst h2
            have hF := InstProof.mapOpt_some hm
            obtain ⟨hil, hw⟩ := List.getElem?_eq_some_iff.1 hi
            have hiu : i < us.length := hF.length_eq ▸ hil
            have := (List.forall₂_iff_get.1 hF).2 i hil hiu
            simp only [subtermAt, List.getElem?_eq_getElem hiu]
            refine ih n w _ h1 ?_
            rw [← hw]
            exact this

theorem mapOpt_total {α β : Type} {f : Nat → α → Option β} {xs : List α} (h : ∀ x ∈ xs, ∃ N r, ∀ n ≥ N, f n x = some r) :
    ∃ N r, ∀ n ≥ N, mapOpt (f n) xs = some r := by
  induction xs with
  | nil => exact ⟨0, [], fun _ _ => rfl⟩
  | cons x xs ih =>
    obtain ⟨N1, r1, h1⟩ := h x (by simp)
    obtain ⟨N2, r2, h2⟩ := ih fun y hy => h y (by simp [hy])
    exact ⟨N1 + N2, r1 :: r2, fun n hn => by simp only [mapOpt, h1 n (by omega), h2 n (by omega)]⟩

theorem sim_lift (hd : ∀ f, ¬ sg.distinct f) (hr : Run sg N b o LF LT sub θ st σ s M ρ) (hi : o.F[o.i]? = some LF) (hj : o.T[o.j]? = some LT)
    (hp : IsPos (LT.side o.ts) o.pos) (hsub : posSubterm (LT.side o.ts) o.pos = some sub) :
    ∃ n0 res Ks, (∀ n ≥ n0, simParamodConstruct sg n b st o LF sub = some res) ∧
      Replaced θ (sub.subst θ) ((LF.side !o.fs).subst θ) o.T o.j o.ts Ks ∧ Covers sg N (Ks ++ gInst θ (o.F.eraseIdx o.i)) res := by
  obtain ⟨N4, rhs, h4⟩ := InstProof.instOpt_total s.2.get hr.acyc hr.full _ (LF.side !o.fs) (le_refl _)
  obtain ⟨N6, into, h6⟩ := mapOpt_total (f := fun n => copyRepl st.bind s.2.get n sub rhs) (xs := o.T) (by
    intro L _
    obtain ⟨N1, l, h1⟩ := instRepl_total s.2.get hr.acyc hr.full sub rhs _ L.l (le_refl _)
    obtain ⟨N2, r, h2⟩ := instRepl_total s.2.get hr.acyc hr.full sub rhs _ L.r (le_refl _)
    exact ⟨N1 + N2, mkEqn L.pos l r, fun n hn => by simp only [copyRepl, h1 n (by omega), h2 n (by omega)]⟩)
  obtain ⟨N7, frm, h7⟩ := LitProof.copyLits_total s.2.get hr.acyc hr.full (o.F.eraseIdx o.i)
  have hrhs := InstProof.instOpt_correct hr.full _ _ _ (h4 _ (le_refl _))
  have hfrm : gInst ρ frm = gInst θ (o.F.eraseIdx o.i) := by
    rw [LitProof.copyLits_eq hr.full (h7 _ (le_refl _))]
    exact frm_eq hr
  have hF := InstProof.mapOpt_some (h6 _ (le_refl _))
  have hs2 := hsub
  rw [InstProof.posSubterm_eq hp] at hs2
  refine ⟨M + N4 + N6 + N7, if findTrue sg into then none else if findTrue sg frm then none else finishParamod sg s.1 (into ++ frm), gInst ρ into, ?_, ?_, covers_of hd hr hfrm⟩
  · intro n hn
    obtain ⟨s1, r1, r2⟩ := hr.run n (by omega)
    simp only [simParamodConstruct, r1, r2, h4 n (by omega), h6 n (by omega), h7 n (by omega)]
    split
    · rfl
    · split <;> rfl
  · obtain ⟨hjl, hje⟩ := List.getElem?_eq_some_iff.1 hj
    have hju : o.j < into.length := hF.length_eq ▸ hjl
    have hcj := (List.forall₂_iff_get.1 hF).2 o.j hjl hju
    simp only [List.get_eq_getElem, hje] at hcj
    unfold copyRepl at hcj
    split at hcj
    case h_2 => simp at hcj
    rename_i l r hl hrr
    simp only [Option.some.injEq] at hcj
    refine replaced_of hr hi hj (hF.imp fun L K h => ?_) (l := l) (r := r) ?_ ?_ ?_ ?_
    · rw [← hrhs]; exact copyRepl_spec hr.full h
    · rw [← hrhs]; exact InstProof.instRepl_partial hr.full _ _ _ hl
    · rw [← hrhs]; exact InstProof.instRepl_partial hr.full _ _ _ hrr
    · refine ⟨o.pos.map Prod.snd, (InstProof.replaceAt_subst (repl := sub) hs2).2, ?_⟩
      rw [← hrhs]
      cases hts : o.ts with
      | true => simp only [hts, Lit.side, if_true] at hs2 ⊢; exact instRepl_at _ _ _ _ hs2 hl
      | false => simp only [hts, Lit.side, Bool.false_eq_true, if_false] at hs2 ⊢; exact instRepl_at _ _ _ _ hs2 hrr
    · rw [hcj, List.getElem?_eq_getElem hju]

theorem replaceAll_at {old repl : Term} (p : List Nat) (t : Term) (h : subtermAt t p = some old) : subtermAt (replaceAll old repl t) p = some repl := by
  induction p generalizing t with
  | nil => simp only [subtermAt, Option.some.injEq] at h; subst h; cases t <;> simp [replaceAll, subtermAt]
  | cons i p ih =>
    have hne := subterm_ne h
    cases t with
    | var x => simp [subtermAt] at h
    | app f ts =>
      simp only [subtermAt] at h
      cases hi : ts[i]? with
      | none => simp [hi] at h
      | some w =>
        simp only [hi] at h
        simp only [replaceAll, if_neg hne, subtermAt, InstProof.replaceAllL_eq, List.getElem?_map, hi, Option.map_some]
        exact ih w h

theorem superSim_lift (hd : ∀ f, ¬ sg.distinct f) (hr : Run sg N b o LF LT sub θ st σ s M ρ) (hi : o.F[o.i]? = some LF) (hj : o.T[o.j]? = some LT)
    (hp : IsPos (LT.side o.ts) o.pos) (hsub : posSubterm (LT.side o.ts) o.pos = some sub)
    (hnf : ∀ L ∈ o.T, L.l.subst θ ≠ tTrue ∧ L.l.subst θ ≠ tFalse ∧ L.r.subst θ ≠ tFalse) :
    ∃ n0 res Ks, (∀ n ≥ n0, superSimParamodConstruct sg n b st o LF sub = some res) ∧
      Replaced θ (sub.subst θ) ((LF.side !o.fs).subst θ) o.T o.j o.ts Ks ∧ Covers sg N (Ks ++ gInst θ (o.F.eraseIdx o.i)) res := by
  obtain ⟨N3, lhs, h3⟩ := InstProof.instOpt_total s.2.get hr.acyc hr.full _ sub (le_refl _)
  obtain ⟨N4, rhs, h4⟩ := InstProof.instOpt_total s.2.get hr.acyc hr.full _ (LF.side !o.fs) (le_refl _)
  obtain ⟨N6, tmp, h6⟩ := LitProof.copyLits_total s.2.get hr.acyc hr.full o.T
  obtain ⟨N7, frm, h7⟩ := LitProof.copyLits_total s.2.get hr.acyc hr.full (o.F.eraseIdx o.i)
  have hlhs := InstProof.instOpt_correct hr.full _ _ _ (h3 _ (le_refl _))
  have hrhs := InstProof.instOpt_correct hr.full _ _ _ (h4 _ (le_refl _))
  have htmp := LitProof.copyLits_eq hr.full (h6 _ (le_refl _))
  have hfrm : gInst ρ frm = gInst θ (o.F.eraseIdx o.i) := by
    rw [LitProof.copyLits_eq hr.full (h7 _ (le_refl _))]
    exact frm_eq hr
  have hs2 := hsub
  rw [InstProof.posSubterm_eq hp] at hs2
  have hplain : ∀ L ∈ o.T, mkEqn L.pos (L.l.subst (InstProof.full σ s.2.get)) (L.r.subst (InstProof.full σ s.2.get)) =
      ⟨L.pos, L.l.subst (InstProof.full σ s.2.get), L.r.subst (InstProof.full σ s.2.get)⟩ := by
    intro L hL
    obtain ⟨n1, n2, n3⟩ := hnf L hL
    refine LitProof.mkEqn_of_nf (L := ⟨L.pos, L.l.subst (InstProof.full σ s.2.get), L.r.subst (InstProof.full σ s.2.get)⟩) ⟨fun h => n2 ?_, fun h => n3 ?_, fun h => absurd ?_ n1⟩
    · rw [← hr.covT L hL _ (by simp [Lit.terms])]
      exact (congrArg (subst ρ) h).trans (by simp [tFalse, subst_app])
    · rw [← hr.covT L hL _ (by simp [Lit.terms])]
      exact (congrArg (subst ρ) h).trans (by simp [tFalse, subst_app])
    · rw [← hr.covT L hL _ (by simp [Lit.terms])]
      exact (congrArg (subst ρ) h).trans (by simp [tTrue, subst_app])
  refine ⟨M + N3 + N4 + N6 + N7, if findTrue sg (tmp.map (copyReplPlain lhs rhs)) then none else if findTrue sg frm then none else finishParamod sg s.1 (tmp.map (copyReplPlain lhs rhs) ++ frm),
    gInst ρ (tmp.map (copyReplPlain lhs rhs)), ?_, ?_, covers_of hd hr hfrm⟩
  · intro n hn
    obtain ⟨s1, r1, r2⟩ := hr.run n (by omega)
    simp only [superSimParamodConstruct, r1, r2, h3 n (by omega), h4 n (by omega), h6 n (by omega), h7 n (by omega)]
    split
    · rfl
    · split <;> rfl
  · have hcr : ∀ L ∈ o.T, copyReplPlain lhs rhs (mkEqn L.pos (L.l.subst (InstProof.full σ s.2.get)) (L.r.subst (InstProof.full σ s.2.get))) =
        mkEqn L.pos (replaceAll lhs rhs (L.l.subst (InstProof.full σ s.2.get))) (replaceAll lhs rhs (L.r.subst (InstProof.full σ s.2.get))) := by
      intro L hL
      rw [hplain L hL]
      simp only [copyReplPlain, InstProof.replPlain_eq]
    have hat := (InstProof.replaceAt_subst (σ := InstProof.full σ s.2.get) (repl := sub) hs2).2
    rw [← hlhs] at hat
    refine replaced_of hr hi hj ?_ (l := replaceAll lhs rhs (LT.l.subst (InstProof.full σ s.2.get))) (r := replaceAll lhs rhs (LT.r.subst (InstProof.full σ s.2.get))) ?_ ?_ ?_ ?_
    · rw [htmp, List.map_map, List.forall₂_map_right_iff, List.forall₂_same]
      intro L hL
      refine ⟨_, _, ?_, ?_, hcr L hL⟩
      · rw [← hlhs, ← hrhs]; exact InstProof.replaceAll_partial _ _ _
      · rw [← hlhs, ← hrhs]; exact InstProof.replaceAll_partial _ _ _
    · rw [← hlhs, ← hrhs]; exact InstProof.replaceAll_partial _ _ _
    · rw [← hlhs, ← hrhs]; exact InstProof.replaceAll_partial _ _ _
    · rw [← hlhs, ← hrhs]
      refine ⟨o.pos.map Prod.snd, hat, ?_⟩
      have := replaceAll_at (repl := rhs) _ _ hat
      cases hts : o.ts with
      | true => simpa [hts, Lit.side] using this
      | false => simpa [hts, Lit.side] using this
    · rw [htmp, List.map_map, List.getElem?_map, hj]
      exact congrArg some (hcr LT (List.mem_of_getElem? hj))

end

/-- Paramodulation.  `guard` stands for the ordering tests. -/
theorem para_lift (hF : FOSig sg) (hd : ∀ f, ¬ sg.distinct f) {pp : Term → Bool} (hpp : ∀ t, pp t = true → sg.ty t = sg.fty 1) {b : VarBank} (hb : b.Inv) {o : Overlap} {LF LT : Lit} {sub : Term}
    (hi : o.F[o.i]? = some LF) (hj : o.T[o.j]? = some LT) (hp : IsPos (LT.side o.ts) o.pos) (hsub : posSubterm (LT.side o.ts) o.pos = some sub)
    {θ : Nat → Term} (hθ : GSubst sg N θ) (hnf : ∀ L ∈ o.T, L.l.subst θ ≠ tTrue ∧ L.l.subst θ ≠ tFalse ∧ L.r.subst θ ≠ tFalse)
    (hun : (LF.side o.fs).subst θ = sub.subst θ) {guard : SubstSt → Bool}
    (hguard : ∀ st σ, FullInst st.bind σ → (∀ x, (σ x).subst θ = θ x) → guard st = true) (ty : PMType) :
    ∃ n res Ks, paramod sg pp guard n b false ty o = some res ∧ Replaced θ (sub.subst θ) ((LF.side !o.fs).subst θ) o.T o.j o.ts Ks ∧
      Covers sg N (Ks ++ gInst θ (o.F.eraseIdx o.i)) res := by
  have hu : IsUnifier sg SubstSt.empty.bind (LF.side o.fs) sub θ := ⟨fun x => (hθ x).2, fun x u h => by simp [SubstSt.empty] at h, hun⟩
  obtain ⟨N1, st, h1, hg, σ, hσ, _, hmg⟩ := unify_total good_empty hu (pp_ok hF hpp (ty_of_unif hθ hun))
  have hgd := hguard st σ hσ (hmg θ hu)
  obtain ⟨s, M, ρ, hr⟩ := run_exists (LF := LF) hb hj hp hsub hθ hσ hg.acyclic (hmg θ hu)
  cases ty with
  | plain =>
    obtain ⟨n0, res, Ks, k1, k2, k3⟩ := plain_lift hd hr hi hj hp hsub
    refine ⟨N1 + n0, res, Ks, ?_, k2, k3⟩
    simp only [paramod, hi, hj, hsub, h1 (N1 + n0) (by omega), hgd, if_true]
    exact k1 (N1 + n0) (by omega)
  | sim =>
    obtain ⟨n0, res, Ks, k1, k2, k3⟩ := sim_lift hd hr hi hj hp hsub
    refine ⟨N1 + n0, res, Ks, ?_, k2, k3⟩
    simp only [paramod, hi, hj, hsub, h1 (N1 + n0) (by omega), hgd, if_true]
    exact k1 (N1 + n0) (by omega)
  | superSim =>
    obtain ⟨n0, res, Ks, k1, k2, k3⟩ := superSim_lift hd hr hi hj hp hsub hnf
    refine ⟨N1 + n0, res, Ks, ?_, k2, k3⟩
    simp only [paramod, hi, hj, hsub, h1 (N1 + n0) (by omega), hgd, if_true]
    exact k1 (N1 + n0) (by omega)

end Verif.Sup
