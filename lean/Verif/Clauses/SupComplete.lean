import Verif.Clauses.SupGround
import Verif.Clauses.SupLift
import Verif.Clauses.BceProof
import Verif.Control.SaturateProof

/-!
# A saturated set without the empty clause has a model (proof of C61)
-/

namespace Verif.Sup
open Verif Term LitCmpProof Props InferProof Relation SaturateProof

variable {sg : Sig} {N : Nat} {gt : Term → Term → Prop}

/-! ## Equality factoring -/

theorem eqFact_lift (hF : FOSig sg) {pp : Term → Bool} (hpp : ∀ t, pp t = true → sg.ty t = sg.fty 1) {b : VarBank} (hb : b.Inv) {θ : Nat → Term}
    (hθ : GSubst sg N θ) {C : List Lit} {i j : Nat} {L K : Lit} {c d : Bool} (hij : i ≠ j) (hi : C[i]? = some L) (hj : C[j]? = some K)
    (hun : (L.side c).subst θ = (K.side d).subst θ) (hcov : ∀ x ∈ K.vars, x ∈ cvars (C.eraseIdx j)) {guard : SubstSt → Bool}
    (hguard : ∀ st σ, FullInst st.bind σ → (∀ x, (σ x).subst θ = θ x) → guard st = true) :
    ∃ n b' D, equalityFactor sg pp guard n b C i j c d = some (some (b', D)) ∧
      (BankAgrees sg b' → ∃ ρ, GSubst sg N ρ ∧ (gInst ρ D).Sublist (mkEqn false ((L.side !c).subst θ) ((K.side !d).subst θ) :: gInst θ (C.eraseIdx i))) := by
  have hu : IsUnifier sg SubstSt.empty.bind (L.side c) (K.side d) θ := ⟨fun x => (hθ x).2, fun x u h => by simp [SubstSt.empty] at h, hun⟩
  obtain ⟨N1, st, h1, hg, σ, hσ, _, hmg⟩ := unify_total good_empty hu (pp_ok hF hpp (ty_of_unif hθ hun))
  have hgd := hguard st σ hσ (hmg θ hu)
  obtain ⟨N2, s, h2⟩ := NormProof.normTerms_total sg hg.acyclic hσ ((C.eraseIdx j).flatMap Lit.terms) (b, [])
  obtain ⟨N3, E, h3⟩ := LitProof.copyLits_total s.2.get hg.acyclic hσ (C.eraseIdx i)
  obtain ⟨N4, l, h4⟩ := InstProof.instOpt_total s.2.get hg.acyclic hσ _ (L.side !c) (le_refl _)
  obtain ⟨N5, r, h5⟩ := InstProof.instOpt_total s.2.get hg.acyclic hσ _ (K.side !d) (le_refl _)
  refine ⟨N1 + N2 + N3 + N4 + N5, s.1, removeDup (removeResolved sg (mkEqn false l r :: E)), ?_, fun hag => ?_⟩
  · simp only [equalityFactor, hi, hj, h1 _ (show N1 + N2 + N3 + N4 + N5 ≥ N1 by omega), hgd, if_true, normLits,
      h2 _ (show N1 + N2 + N3 + N4 + N5 ≥ N2 by omega), h3 _ (show N1 + N2 + N3 + N4 + N5 ≥ N3 by omega), h4 _ (show N1 + N2 + N3 + N4 + N5 ≥ N4 by omega),
      h5 _ (show N1 + N2 + N3 + N4 + N5 ≥ N5 by omega)]
  · have hI := norm_inv hσ (NormProof.rnInv_nil sg hb) (h2 _ (le_refl _))
    obtain ⟨ρ, r1, r2⟩ := ground_rename hI hθ (hmg θ hu)
    refine ⟨ρ, r1 hag, ?_⟩
    have hkey : ∀ M ∈ C.eraseIdx j, ∀ t ∈ M.terms, ∀ y ∈ (t.subst σ).vars, y ∈ s.2.map Prod.fst := by
      intro M hM t ht y hy
      rw [norm_keys hσ (h2 _ (le_refl _))]
      exact Or.inr ⟨t, List.mem_flatMap.2 ⟨M, hM, ht⟩, hy⟩
    have hcv : ∀ M ∈ C, ∀ t ∈ M.terms, ∀ y ∈ (t.subst σ).vars, y ∈ s.2.map Prod.fst := by
      intro M hM t ht y hy
      obtain ⟨m, hm⟩ := List.getElem?_of_mem hM
      by_cases e : m = j
      · subst e
        rw [hj] at hm
        obtain rfl : K = M := by simpa using hm
        obtain ⟨x, hx, hy⟩ := mem_vars_subst.1 hy
        have hxK : x ∈ K.vars := by
          simp only [Lit.terms, List.mem_cons, List.not_mem_nil, or_false] at ht
          simp only [Lit.vars, List.mem_append]
          rcases ht with rfl | rfl
          · exact Or.inl hx
          · exact Or.inr hx
        have := hcov x hxK
        simp only [cvars, List.mem_flatMap, Lit.vars, List.mem_append] at this
        obtain ⟨M', hM', hx' | hx'⟩ := this
        · exact hkey M' hM' M'.l (by simp [Lit.terms]) y (mem_vars_subst.2 ⟨x, hx', hy⟩)
        · exact hkey M' hM' M'.r (by simp [Lit.terms]) y (mem_vars_subst.2 ⟨x, hx', hy⟩)
      · refine hkey M ?_ t ht y hy
        exact (List.mem_eraseIdx_iff_getElem?).2 ⟨m, e, hm⟩
    have hL := List.mem_of_getElem? hi
    have hK := List.mem_of_getElem? hj
    have e : gInst ρ E = gInst θ (C.eraseIdx i) := by
      rw [LitProof.copyLits_eq hσ (h3 _ (le_refl _))]
      exact copy_gInst fun M hM t ht => r2 t (hcv M (List.mem_of_mem_eraseIdx hM) t ht)
    have e2 : gInst ρ (mkEqn false l r :: E) = mkEqn false ((L.side !c).subst θ) ((K.side !d).subst θ) :: gInst θ (C.eraseIdx i) := by
      rw [← e]
      show nrm ((mkEqn false l r).subst ρ) :: _ = _
      rw [nrm_subst_mkEqn, InstProof.instOpt_correct hσ _ _ _ (h4 _ (le_refl _)), InstProof.instOpt_correct hσ _ _ _ (h5 _ (le_refl _)),
        r2 _ (hcv L hL _ (mem_side _ _)), r2 _ (hcv K hK _ (mem_side _ _))]
      rfl
    rw [← e2]
    exact gInst_sublist (finish_sublist _)

/-! ## Tests under the unifier -/

theorem wt_of_inst {θ : Nat → Term} (hθ : GSubst sg N θ) (t : Term) (h : Gnd sg N (t.subst θ)) : sg.WT t ∧ t.SymsBelow N := by
  induction t using Term.ind with
  | hv x => exact ⟨trivial, trivial⟩
  | ha f ts ih =>
    rw [subst_app, gnd_app] at h
    rw [Sig.wt_app, symsBelow_app]
    have hk := fun t ht => ih t ht (h.2.2 _ (List.mem_map_of_mem ht))
    refine ⟨⟨?_, fun t ht => (hk t ht).1⟩, h.2.1, fun t ht => (hk t ht).2⟩
    rw [← h.1, List.map_map]
    exact List.map_congr_left fun t _ => (Sig.ty_subst (fun x => (hθ x).2) t).symm

theorem subst_mg {σ θ : Nat → Term} (hmg : ∀ x, (σ x).subst θ = θ x) (t : Term) : (t.subst σ).subst θ = t.subst θ := by
  rw [subst_comp]; exact subst_congr fun x _ => hmg x

section
variable (h : SupOrd sg N gt)
include h

theorem gt_inst {θ σ : Nat → Term} (hθ : GSubst sg N θ) (hmg : ∀ x, (σ x).subst θ = θ x) {s t : Term} (hs : Gnd sg N (s.subst θ)) (ht : Gnd sg N (t.subst θ))
    (hgt : gt (s.subst σ) (t.subst σ)) : gt (s.subst θ) (t.subst θ) := by
  have h1 := wt_of_inst hθ (s.subst σ) (by rw [subst_mg hmg]; exact hs)
  have h2 := wt_of_inst hθ (t.subst σ) (by rw [subst_mg hmg]; exact ht)
  have := h.simpl.stable _ _ θ h1 h2 (fun x => ⟨(hθ x).1.wt, (hθ x).1.below⟩) hgt
  rwa [subst_mg hmg, subst_mg hmg] at this

theorem lgt_inst {θ σ : Nat → Term} (hθ : GSubst sg N θ) (hmg : ∀ x, (σ x).subst θ = θ x) {K L : Lit} (hK : (K.subst θ).In (Gnd sg N)) (hL : (L.subst θ).In (Gnd sg N))
    (hgt : LGt gt (K.subst σ) (L.subst σ)) : LGt gt (K.subst θ) (L.subst θ) := by
  obtain ⟨pa, al, ar⟩ := K
  obtain ⟨pb, bl, br⟩ := L
  obtain ⟨k1, k2⟩ := hK
  obtain ⟨l1, l2⟩ := hL
  simp only [Lit.subst] at k1 k2 l1 l2
  have s1 := gt_inst h hθ hmg k1 l1
  have s2 := gt_inst h hθ hmg k1 l2
  have s3 := gt_inst h hθ hmg k2 l1
  have s4 := gt_inst h hθ hmg k2 l2
  have s5 := gt_inst h hθ hmg l1 k1
  have s6 := gt_inst h hθ hmg l2 k1
  have s7 := gt_inst h hθ hmg l1 k2
  have s8 := gt_inst h hθ hmg l2 k2
  have e : ∀ s t : Term, s.subst σ = t.subst σ → s.subst θ = t.subst θ := fun s t hst => by rw [← subst_mg hmg s, ← subst_mg hmg t, hst]
  have e1 := e al bl
  have e2 := e ar br
  have e3 := e al br
  have e4 := e ar bl
  clear e k1 k2 l1 l2 hmg hθ h
  simp only [LGt, PosGt, PNGt, PNLt, Lit.subst] at *
  cases pa <;> cases pb <;> simp only [reduceIte, Bool.false_eq_true, Bool.true_eq_false] at hgt ⊢ <;> grind

omit h in
theorem leq_inst {θ σ : Nat → Term} (hmg : ∀ x, (σ x).subst θ = θ x) {K L : Lit} (hq : LEq (K.subst σ) (L.subst σ)) : LEq (K.subst θ) (L.subst θ) := by
  have e : ∀ s t : Term, s.subst σ = t.subst σ → s.subst θ = t.subst θ := fun s t hst => by rw [← subst_mg hmg s, ← subst_mg hmg t, hst]
  refine ⟨hq.1, ?_⟩
  rcases hq.2 with ⟨e1, e2⟩ | ⟨e1, e2⟩
  · exact Or.inl ⟨e _ _ e1, e _ _ e2⟩
  · exact Or.inr ⟨e _ _ e1, e _ _ e2⟩

theorem negElig_inst {θ σ : Nat → Term} (hθ : GSubst sg N θ) (hmg : ∀ x, (σ x).subst θ = θ x) {sel : Nat → Prop} {C : List Lit} {i : Nat} {L : Lit} (hL : L ∈ C)
    (hg : ∀ K ∈ C, (K.subst θ).In (Gnd sg N)) (he : NegElig gt sel θ C i L) : NegElig gt sel σ C i L :=
  ⟨he.1, fun j K hj hs hgt => he.2 j K hj hs (lgt_inst h hθ hmg (hg K (List.mem_of_getElem? hj)) (hg L hL) hgt)⟩

theorem posElig_inst {θ σ : Nat → Term} (hθ : GSubst sg N θ) (hmg : ∀ x, (σ x).subst θ = θ x) {sel : Nat → Prop} {C : List Lit} {L : Lit} (hL : L ∈ C)
    (hg : ∀ K ∈ C, (K.subst θ).In (Gnd sg N)) (he : PosElig gt sel θ C L) : PosElig gt sel σ C L :=
  ⟨he.1, fun j K hj hgt => he.2 j K hj (lgt_inst h hθ hmg (hg K (List.mem_of_getElem? hj)) (hg L hL) hgt)⟩

theorem strictMax_inst {θ σ : Nat → Term} (hθ : GSubst sg N θ) (hmg : ∀ x, (σ x).subst θ = θ x) {sel : Nat → Prop} {C : List Lit} {i : Nat} {L : Lit} (hL : L ∈ C)
    (hg : ∀ K ∈ C, (K.subst θ).In (Gnd sg N)) (he : StrictElig gt sel θ C i L) : StrictMax gt sel σ C i L := by
  refine ⟨he.1, fun j K hji hj => ?_⟩
  have h1 := he.2 j K hji hj
  have hK := hg K (List.mem_of_getElem? hj)
  have hlt : LitLt sg N gt (K.subst θ) (L.subst θ) := ⟨hK, hg L hL, h1⟩
  constructor
  · intro hgt
    exact litLt_irrefl h (litLt_trans h hlt ⟨hg L hL, hK, lgt_inst h hθ hmg hK (hg L hL) hgt⟩)
  · intro hq
    have hq := leq_inst hmg hq
    exact litLt_irrefl h (litLt_leq (leq_symm hq) hlt)

theorem side_inst {θ σ : Nat → Term} (hθ : GSubst sg N θ) (hmg : ∀ x, (σ x).subst θ = θ x) {s t : Term} (hs : Gnd sg N (s.subst θ)) (ht : Gnd sg N (t.subst θ))
    (hgt : gt (s.subst θ) (t.subst θ)) : ¬ gt (t.subst σ) (s.subst σ) := fun h1 =>
  g_irrefl h hs (g_trans h hs ht hs hgt (gt_inst h hθ hmg ht hs h1))

end

/-! ## First-order clauses under ground substitutions -/

section
variable (hsg : SigOK sg) (hF : FOSig sg)
include hsg hF

theorem fo_inst {θ : Nat → Term} (hθ : GSubst sg N θ) {L : Lit} (hL : FOLit sg L) :
    L.l.subst θ ≠ tTrue ∧ L.l.subst θ ≠ tFalse ∧ L.r.subst θ ≠ tFalse := by
  have key : ∀ (t : Term) (f : Nat), sg.fty f = sg.fty 1 → t ≠ .app f [] → t.subst θ ≠ .app f [] := by
    intro t f hf hne he
    cases t with
    | var x =>
      have := (hθ x).2
      rw [subst_var] at he
      rw [he] at this
      exact hF.vars x (this.symm.trans hf)
    | app g ts =>
      rw [subst_app] at he
      simp only [Term.app.injEq, List.map_eq_nil_iff] at he
      exact hne (by rw [he.1, he.2])
  exact ⟨key _ 1 rfl hL.nontriv, key _ 2 hsg.tf.symm hL.nf.1, key _ 2 hsg.tf.symm hL.nf.2.1⟩

theorem fo_mkEqn {θ : Nat → Term} (hθ : GSubst sg N θ) {L : Lit} (hL : FOLit sg L) : mkEqn L.pos (L.l.subst θ) (L.r.subst θ) = L.subst θ := by
  obtain ⟨h1, h2, h3⟩ := fo_inst hsg hF hθ hL
  exact LitProof.mkEqn_of_nf (L := L.subst θ) ⟨h2, h3, fun e => absurd e h1⟩

theorem gInst_eq {θ : Nat → Term} (hθ : GSubst sg N θ) {C : List Lit} (hC : ∀ L ∈ C, FOLit sg L) : gInst θ C = csubst θ C :=
  List.map_congr_left fun L hL => fo_mkEqn hsg hF hθ (hC L hL)

theorem fo_glit {θ : Nat → Term} (hθ : GSubst sg N θ) {L : Lit} (hL : FOLit sg L) : GLit sg (L.subst θ) := by
  obtain ⟨h1, h2, h3⟩ := fo_inst hsg hF hθ hL
  have ht : ∀ t, sg.ty (t.subst θ) = sg.ty t := Sig.ty_subst fun x => (hθ x).2
  refine ⟨⟨h2, h3⟩, (ht _).trans (hL.wt.2.2.trans (ht _).symm), fun e => ?_⟩
  show L.r.subst θ = tTrue
  rw [hL.atom ((ht _).symm.trans e)]
  simp [tTrue, subst_app]

end

theorem glit_mkEqn {p : Bool} {l r : Term} (h1 : l ≠ tFalse) (h2 : r ≠ tFalse) (ht : sg.ty l = sg.ty r) (hb : sg.ty l = sg.fty 1 → l = tTrue ∨ r = tTrue) :
    GLit sg (mkEqn p l r) := by
  by_cases e : l = tTrue
  · have : mkEqn p l r = ⟨p, r, l⟩ := by simp only [mkEqn, if_neg h1, if_neg h2, if_pos e]
    rw [this]
    exact ⟨⟨h2, h1⟩, ht.symm, fun _ => e⟩
  · have : mkEqn p l r = ⟨p, l, r⟩ := by simp only [mkEqn, if_neg h1, if_neg h2, if_neg e]
    rw [this]
    exact ⟨⟨h1, h2⟩, ht, fun e' => (hb e').resolve_left e⟩

theorem gtrue_triv (g : Term → Term) (a : Term) : GTrue g (mkEqn true a a) := by
  have h12 : tTrue ≠ tFalse := by decide
  unfold mkEqn GTrue
  by_cases e : a = tFalse
  · simp [e]
  · by_cases e2 : a = tTrue <;> simp [e, e2, h12]

theorem partial_ne_false {s w a b : Term} (hw : w ≠ tFalse) (ha : a ≠ tFalse) (h : PartialRepl s w a b) : b ≠ tFalse := by
  cases h with
  | same => exact ha
  | here => exact hw
  | @args f ts us hF =>
    intro e
    simp only [tFalse, Term.app.injEq] at e
    obtain ⟨rfl, rfl⟩ := e
    cases hF
    exact ha rfl

theorem replAt_ne {s w a b : Term} (h : ReplAt s w a b) (hne : s ≠ w) : b ≠ a := by
  rintro rfl
  obtain ⟨q, h1, h2⟩ := h
  rw [h1] at h2
  exact hne (by simpa using h2)

/-! ## The argument -/

section
variable (h : SupOrd sg N gt) {G : List Lit → Prop} (hG : GClauses sg N G) (hsg : SigOK sg) (hF : FOSig sg)
include h hG hsg hF

/-- One literal of the into-clause after replacement. -/
theorem grepl_lit {θ : Nat → Term} (hθ : GSubst sg N θ) {s w : Term} (hw : Gnd sg N w) (hwf : w ≠ tFalse) (ht : sg.ty w = sg.ty s) (hn : nf h G w = nf h G s) (hgt : gt s w)
    {L : Lit} (hL : FOLit sg L) (hg : (L.subst θ).In (Gnd sg N)) {l r : Term} (hl : PartialRepl s w (L.l.subst θ) l) (hr : PartialRepl s w (L.r.subst θ) r) (h1 : 1 < N)
    {K : Lit} (hK : K = mkEqn L.pos l r ∨ K = mkEqn L.pos r l) :
    K.In (Gnd sg N) ∧ GLit sg K ∧ (GTrue (nf h G) K ↔ GTrue (nf h G) (L.subst θ)) ∧
      ((l = L.l.subst θ ∧ r = L.r.subst θ) ∨ LitLt sg N gt K (L.subst θ)) := by
  obtain ⟨n1, n2, n3⟩ := fo_inst hsg hF hθ hL
  have hG' := fo_glit hsg hF hθ hL
  obtain ⟨l1, l2, l3, l4⟩ := partial_le h hG hw ht hn hgt _ _ hl hg.1
  obtain ⟨r1, r2, r3, r4⟩ := partial_le h hG hw ht hn hgt _ _ hr hg.2
  have lf := partial_ne_false hwf n2 hl
  have rf := partial_ne_false hwf n3 hr
  have hq : LEq K ⟨L.pos, l, r⟩ := by
    rcases hK with rfl | rfl
    · exact mkEqn_leq lf rf
    · obtain ⟨e1, e2⟩ := mkEqn_leq (p := L.pos) rf lf
      exact ⟨e1, by rcases e2 with ⟨a, b⟩ | ⟨a, b⟩ <;> [exact Or.inr ⟨a, b⟩; exact Or.inl ⟨a, b⟩]⟩
  have hty : sg.ty l = sg.ty r := l2.trans (hG'.ty.trans r2.symm)
  have hbool : sg.ty l = sg.fty 1 → r = tTrue := by
    intro e
    have : (L.subst θ).r = tTrue := hG'.atom (l2.symm.trans e)
    have this : L.r.subst θ = tTrue := this
    rw [this] at r4
    have hgT : Gnd sg N tTrue := gnd_app.2 ⟨by simp [hsg.targs], h1, by simp⟩
    rcases r4 with r4 | r4
    · exact r4
    · by_contra hne
      exact g_irrefl h hgT (g_trans h hgT r1 hgT r4 (h.least _ r1 hne))
  refine ⟨leq_in hq ⟨l1, r1⟩, ?_, ?_, ?_⟩
  · rcases hK with rfl | rfl
    · exact glit_mkEqn lf rf hty fun e => Or.inr (hbool e)
    · exact glit_mkEqn rf lf hty.symm fun e => Or.inl (hbool (hty.trans e))
  · rw [gtrue_leq hq]
    unfold GTrue
    simp only [Lit.subst, l3, r3]
    exact Iff.rfl
  · rcases lit_le (K := ⟨L.pos, l, r⟩) (L := L.subst θ) ⟨l1, r1⟩ hg rfl l4 r4 with e | e
    · have e1 : l = L.l.subst θ := congrArg Lit.l e
      have e2 : r = L.r.subst θ := congrArg Lit.r e
      exact Or.inl ⟨e1, e2⟩
    · exact Or.inr (litLt_leq hq e)

end

/-- Replacing one literal by smaller ones. -/
theorem clauseLt_erase {C R : List Lit} {i : Nat} {L : Lit} (hi : C[i]? = some L) (hR : ∀ K ∈ R, LitLt sg N gt K L) : ClauseLt sg N gt (R ++ C.eraseIdx i) C := by
  refine clauseLt_of ?_
  obtain ⟨hl, rfl⟩ := List.getElem?_eq_some_iff.1 hi
  have hp := List.getElem_cons_eraseIdx_perm hl
  rw [← Multiset.coe_eq_coe] at hp
  rw [← hp, ← Multiset.coe_add, ← Multiset.cons_coe, ← Multiset.singleton_add, add_comm, add_comm ({_} : Multiset Lit)]
  exact .single ((cutExpand_add_left _).2 (cutExpand_singleton fun x hx => hR x (by simpa using hx)))

/-- A position in an instance of a term by a renaming. -/
theorem pos_rename {κ : Nat → Term} {t : Term} {pos : List (Term × Nat)} {sub : Term} (hp : IsPos t pos) (hs : posSubterm t pos = some sub) :
    IsPos (t.subst κ) (pos.map fun p => (p.1.subst κ, p.2)) ∧ posSubterm (t.subst κ) (pos.map fun p => (p.1.subst κ, p.2)) = some (sub.subst κ) := by
  induction pos generalizing t with
  | nil =>
    simp only [posSubterm, List.getLast?_nil, Option.some.injEq] at hs
    subst hs
    exact ⟨trivial, rfl⟩
  | cons p pos ih =>
    obtain ⟨p1, i⟩ := p
    obtain ⟨rfl, f, ts, u, rfl, hi, hpos⟩ := hp
    rw [posSubterm_cons hi] at hs
    obtain ⟨g1, g2⟩ := ih hpos hs
    have hi' : (ts.map (subst κ))[i]? = some (u.subst κ) := by rw [List.getElem?_map, hi]; rfl
    refine ⟨⟨rfl, f, ts.map (subst κ), u.subst κ, subst_app .., hi', g1⟩, ?_⟩
    rw [List.map_cons, subst_app, posSubterm_cons hi']
    exact g2

theorem csubst_comp {κ θ θ' : Nat → Term} {C : List Lit} (hk : ∀ x ∈ cvars C, (κ x).subst θ = θ' x) {L : Lit} (hL : L ∈ C) : (L.subst κ).subst θ = L.subst θ' := by
  have key : ∀ t : Term, (∀ x ∈ t.vars, x ∈ L.vars) → (t.subst κ).subst θ = t.subst θ' := by
    intro t ht
    rw [subst_comp]
    exact subst_congr fun x hx => hk x (by simp only [cvars, List.mem_flatMap]; exact ⟨L, hL, ht x hx⟩)
  simp only [Lit.subst]
  rw [key _ (fun x hx => by simp [Lit.vars, hx]), key _ (fun x hx => by simp [Lit.vars, hx])]

theorem sub_vars {t sub : Term} {pos : List (Term × Nat)} (hp : IsPos t pos) (hs : posSubterm t pos = some sub) : ∀ x ∈ sub.vars, x ∈ t.vars := by
  rw [InstProof.posSubterm_eq hp] at hs
  exact vars_subtermAt hs

theorem side_subst (κ : Nat → Term) (L : Lit) (c : Bool) : (L.subst κ).side c = (L.side c).subst κ := by cases c <;> rfl

theorem hi_of_gt (h : SupOrd sg N gt) {L : Lit} (hL : L.In (Gnd sg N)) {c : Bool} (hg : gt (L.side c) (L.side !c)) : hiSide gt L = L.side c ∧ loSide gt L = L.side !c := by
  rcases hi_lo (gt := gt) L with ⟨e1, e2, e3⟩ | ⟨e1, e2, e3⟩
  · cases c
    · exact absurd hg e3
    · exact ⟨e1, e2⟩
  · cases c
    · exact ⟨e1, e2⟩
    · exact absurd (g_trans h hL.1 hL.2 hL.1 hg e3) (g_irrefl h hL.1)

/-- Renamings and a joint substitution for two clauses. -/
theorem join_exists (ha : AltTyped sg) {F C F' T' : List Lit} (hF : ∀ L ∈ F, FOLit sg L) (hC : ∀ L ∈ C, FOLit sg L) (eF : EvenVars F) (eC : EvenVars C)
    (hd : F' = copyDisjoint F ∧ T' = C ∨ F' = F ∧ T' = copyDisjoint C) {θF θ : Nat → Term} (h1 : GSubst sg N θF) (h2 : GSubst sg N θ) :
    ∃ κF κT θj : Nat → Term, F' = csubst κF F ∧ T' = csubst κT C ∧ GSubst sg N θj ∧ (∀ x, (κF x).isVar = true) ∧ (∀ x, (κT x).isVar = true) ∧
      (∀ x ∈ cvars F, (κF x).subst θj = θF x) ∧ ∀ x ∈ cvars C, (κT x).subst θj = θ x := by
  have hid : ∀ D : List Lit, csubst Term.var D = D := by
    intro D
    unfold csubst
    conv_rhs => rw [← List.map_id D]
    refine List.map_congr_left fun L _ => ?_
    simp [Lit.subst, subst_id]
  have hj : ∀ {v w : Nat → Term}, GSubst sg N v → GSubst sg N w → GSubst sg N (BceProof.joinV v w) := by
    intro v w hv hw x
    unfold BceProof.joinV
    split
    · exact hw x
    · rename_i hx
      refine ⟨(hv (x + 1)).1, (hv (x + 1)).2.trans ?_⟩
      have := ha (x + 1) (by omega) (by omega)
      simpa using this.symm
  rcases hd with ⟨rfl, rfl⟩ | ⟨rfl, rfl⟩
  · refine ⟨fun x => .var (x - 1), Term.var, BceProof.joinV θF θ, BceProof.copy_eq hF, (hid _).symm, hj h1 h2, fun _ => rfl, fun _ => rfl, ?_, ?_⟩
    · intro x hx; exact BceProof.joinV_pred _ _ (eF x hx)
    · intro x hx; exact BceProof.joinV_even _ _ (eC x hx).1
  · refine ⟨Term.var, fun x => .var (x - 1), BceProof.joinV θ θF, (hid _).symm, BceProof.copy_eq hC, hj h2 h1, fun _ => rfl, fun _ => rfl, ?_, ?_⟩
    · intro x hx; exact BceProof.joinV_even _ _ (eF x hx).1
    · intro x hx; exact BceProof.joinV_pred _ _ (eC x hx)

theorem csubst_get {κ : Nat → Term} {C : List Lit} {i : Nat} {K : Lit} (h : (csubst κ C)[i]? = some K) : ∃ L, C[i]? = some L ∧ K = L.subst κ := by
  simp only [csubst, List.getElem?_map, Option.map_eq_some_iff] at h
  obtain ⟨L, h1, h2⟩ := h
  exact ⟨L, h1, h2.symm⟩

section
variable (h : SupOrd sg N gt) (hsg : SigOK sg) (hF : FOSig sg) (hd : ∀ f, ¬ sg.distinct f) (h1 : 1 < N) (ha : AltTyped sg)
  {pp : Term → Bool} (hpp : ∀ t, pp t = true → sg.ty t = sg.fty 1) {sel : List Lit → Nat → Prop} {Ns : List Lit → Prop}
  (hfo : ∀ C, Ns C → ∀ L ∈ C, FOLit sg L) (hb : ∀ C, Ns C → ∀ L ∈ C, L.In (Term.SymsBelow N)) (hev : ∀ C, Ns C → EvenVars C) (hne : ¬ Ns [])
  (hsel : ∀ C, Ns C → ∀ i, sel C i → ∃ L, C[i]? = some L ∧ L.pos = false)
  (c1 : ClosedEqRes sg N gt pp sel Ns) (c2 : ClosedPara sg N gt pp sel Ns) (c3 : ClosedEqFact sg N gt pp sel Ns)
  (hcov : ∀ C i j L K, Ns C → i ≠ j → C[i]? = some L → C[j]? = some K → L.pos = true → K.pos = true → ∀ x ∈ K.vars, x ∈ cvars (C.eraseIdx j))

/-- Ground instances of the clauses without selected literals. -/
def Gset (sg : Sig) (N : Nat) (sel : List Lit → Nat → Prop) (Ns : List Lit → Prop) (D : List Lit) : Prop :=
  ∃ C θ, Ns C ∧ GSubst sg N θ ∧ (∀ k, ¬ sel C k) ∧ D = csubst θ C

include hfo hb in
theorem gset_ok : GClauses sg N (Gset sg N sel Ns) := by
  rintro D ⟨C, θ, hC, hθ, -, rfl⟩ L hL
  obtain ⟨K, hK, rfl⟩ := List.mem_map.1 hL
  have hw := (hfo C hC K hK).wt
  refine ⟨⟨gnd_subst hθ hw.1 (hb C hC K hK).1, gnd_subst hθ hw.2.1 (hb C hC K hK).2⟩, ?_⟩
  show sg.ty (K.l.subst θ) = sg.ty (K.r.subst θ)
  rw [Sig.ty_subst (fun x => (hθ x).2), Sig.ty_subst (fun x => (hθ x).2)]
  exact hw.2.2

include h hsg hF hd h1 ha hpp hfo hb hev hne hsel c1 c2 c3 hcov

/-- Every ground instance is true. -/
theorem inst_true (hG : GClauses sg N (Gset sg N sel Ns)) (v : Nat → (ginterp h hG hsg hd).D) (hv : (ginterp h hG hsg hd).Sorted v) :
    ∀ (K C : List Lit) (θ : Nat → Term), Ns C → GSubst sg N θ → gInst θ C = K → (ginterp h hG hsg hd).ClauseTrue v (gInst θ C) := by
  intro K
  induction K using (clauseLt_wf h).induction with
  | h K IH =>
  intro C θ hC hθ hK
  subst hK
  have IH : ∀ E θ', Ns E → GSubst sg N θ' → ClauseLt sg N gt (gInst θ' E) (gInst θ C) → (ginterp h hG hsg hd).ClauseTrue v (gInst θ' E) :=
    fun E θ' hE hθ' hlt => IH _ hlt E θ' hE hθ' rfl
  by_contra hfalse
  have hCf := hfo C hC
  have hgl : ∀ L ∈ C, ∀ {θ : Nat → Term}, GSubst sg N θ → (L.subst θ).In (Gnd sg N) := fun L hL _ hθ =>
    ⟨gnd_subst hθ (hCf L hL).wt.1 (hb C hC L hL).1, gnd_subst hθ (hCf L hL).wt.2.1 (hb C hC L hL).2⟩
  have hf : ∀ L ∈ C, ¬ GTrue (nf h (Gset sg N sel Ns)) (L.subst θ) := by
    intro L hL ht
    apply hfalse
    rw [gInst_eq hsg hF hθ hCf]
    exact ⟨L.subst θ, List.mem_map_of_mem hL, (lit_iff h hG hsg hF hd h1 v (fo_glit hsg hF hθ (hCf L hL)) (hgl L hL hθ)).2 ht⟩
  -- the substitution is normalised
  have hirr : ∀ x ∈ cvars C, nf h (Gset sg N sel Ns) (θ x) = θ x := by
    intro x hx
    by_contra hnx
    let θ' : Nat → Term := fun y => nf h (Gset sg N sel Ns) (θ y)
    have hθ' : GSubst sg N θ' := fun y => ⟨nf_gnd h hG (hθ y).1, (nf_ty h hG (hθ y).1).trans (hθ y).2⟩
    have key := fun L hL => nf_inst h hG hθ (θ' := θ') (fun y => Or.inr rfl) (t := Lit.l L) (hCf L hL).wt.1 (hb C hC L hL).1
    have key2 := fun L hL => nf_inst h hG hθ (θ' := θ') (fun y => Or.inr rfl) (t := Lit.r L) (hCf L hL).wt.2.1 (hb C hC L hL).2
    have hle : ∀ L ∈ C, L.subst θ' = L.subst θ ∨ LitLt sg N gt (L.subst θ') (L.subst θ) := fun L hL =>
      lit_le (hgl L hL hθ') (hgl L hL hθ) rfl (key L hL).2.2.2.1 (key2 L hL).2.2.2.1
    simp only [cvars, List.mem_flatMap] at hx
    obtain ⟨L, hL, hxL⟩ := hx
    obtain ⟨j, hj⟩ := List.getElem?_of_mem hL
    have hlt : LitLt sg N gt (L.subst θ') (L.subst θ) := by
      refine (hle L hL).resolve_left fun e => ?_
      simp only [Lit.vars, List.mem_append] at hxL
      rcases hxL with hx | hx
      · have h2 := (key L hL).2.2.2.2 x hx hnx
        have e : L.l.subst θ' = L.l.subst θ := congrArg Lit.l e
        rw [e] at h2
        exact g_irrefl h (hgl L hL hθ).1 h2
      · have h2 := (key2 L hL).2.2.2.2 x hx hnx
        have e : L.r.subst θ' = L.r.subst θ := congrArg Lit.r e
        rw [e] at h2
        exact g_irrefl h (hgl L hL hθ).2 h2
    have hlt2 : ClauseLt sg N gt (csubst θ' C ++ []) (csubst θ C) := by
      refine clauseLt_replace (j := j) (M := L.subst θ') (L := L.subst θ) ?_ (by simp [csubst, hj]) (by simp [csubst, hj]) hlt (by simp)
      unfold csubst
      rw [List.forall₂_map_left_iff, List.forall₂_map_right_iff, List.forall₂_same]
      exact hle
    rw [List.append_nil] at hlt2
    have := IH C θ' hC hθ' (by rw [gInst_eq hsg hF hθ' hCf, gInst_eq hsg hF hθ hCf]; exact hlt2)
    rw [gInst_eq hsg hF hθ' hCf] at this
    obtain ⟨M, hM, ht⟩ := this
    obtain ⟨M, hMC, rfl⟩ := List.mem_map.1 hM
    rw [lit_iff h hG hsg hF hd h1 v (fo_glit hsg hF hθ' (hCf M hMC)) (hgl M hMC hθ')] at ht
    refine hf M hMC ?_
    unfold GTrue at ht ⊢
    simp only [Lit.subst] at ht ⊢
    rwa [(key M hMC).2.2.1, (key2 M hMC).2.2.1] at ht
  -- a conclusion that is false and smaller cannot be redundant
  have hcon : ∀ (K D : List Lit) (ρ : Nat → Term), ClauseLt sg N gt K (gInst θ C) →
      (∀ M ∈ K, M.In (Gnd sg N) ∧ GLit sg M ∧ ¬ GTrue (nf h (Gset sg N sel Ns)) M) → GSubst sg N ρ → (gInst ρ D).Subperm K → Red sg N gt Ns D → False := by
    intro K D ρ hlt hK hρ hsp hred
    have ht := hred ρ hρ (ginterp h hG hsg hd) v hv (fun E θ' hE hθ' hle => IH E θ' hE hθ' (clauseLe_lt (clauseLe_trans hle ?_) hlt))
    · obtain ⟨M, hM, ht⟩ := ht
      obtain ⟨k1, k2, k3⟩ := hK M (hsp.subset hM)
      exact k3 ((lit_iff h hG hsg hF hd h1 v k2 k1).1 ht)
    · obtain ⟨l, hp, hs⟩ := hsp
      exact clauseLe_trans (Or.inl (hp.symm.map _)) (clauseLe_sublist hs)
  have hCne : C ≠ [] := fun e => hne (e ▸ hC)
  have hrestC : ∀ i, ∀ M ∈ gInst θ (C.eraseIdx i), M.In (Gnd sg N) ∧ GLit sg M ∧ ¬ GTrue (nf h (Gset sg N sel Ns)) M := by
    intro i M hM
    rw [gInst_eq hsg hF hθ (fun L hL => hCf L (List.mem_of_mem_eraseIdx hL))] at hM
    obtain ⟨L, hL, rfl⟩ := List.mem_map.1 hM
    have hL := List.mem_of_mem_eraseIdx hL
    exact ⟨hgl L hL hθ, fo_glit hsg hF hθ (hCf L hL), hf L hL⟩
  have herase : ∀ i, gInst θ (C.eraseIdx i) = (gInst θ C).eraseIdx i := fun i => by simp [gInst, List.eraseIdx_map]
  have hgI : ∀ (i : Nat) (L : Lit), C[i]? = some L → (gInst θ C)[i]? = some (L.subst θ) := by
    intro i L hi
    rw [gInst_eq hsg hF hθ hCf]; simp [csubst, hi]
  rcases false_case h hG hθ (fun L hL => (hCf L hL).wt) (hb C hC) hirr hCne hf (hsel C hC) (fun hs => ⟨C, θ, hC, hθ, hs, rfl⟩) with
    ⟨i, L, hi, hneg, he, heq⟩ | ⟨i, L, c, pos, sub, t, D, k, K, hi, hneg, hpos, hc, hp, hsub, hvr, hprod, hν, htop⟩ |
    ⟨i, j, L, K, c, d, hij, hi, hj, hpi, hpj, he, hs, hgt, hle, hν⟩
  · -- equality resolution
    have hL := List.mem_of_getElem? hi
    obtain ⟨b, hbi, hrr⟩ := c1 C hC i L hi hneg (negElig_inst h hθ (fun x => rfl) hL (fun K hK => hgl K hK hθ) he)
    obtain ⟨n, b', D, hn, hlift⟩ := eqRes_lift hF hpp hbi hθ hi heq
    obtain ⟨hag, hred⟩ := hrr n b' D hn
    obtain ⟨ρ, hρ, hsl⟩ := hlift hag
    refine hcon (gInst θ (C.eraseIdx i)) D ρ ?_ (hrestC i) hρ hsl.subperm hred
    rw [herase]
    exact clauseLt_erase (R := []) (hgI i L hi) (by simp)
  · -- superposition
    obtain ⟨F, θF, hFN, hθF, hselF, rfl⟩ := hprod.mem
    obtain ⟨LF, hLF, rfl⟩ := csubst_get hprod.lit
    have hFf := hfo F hFN
    have hLFm := List.mem_of_getElem? hLF
    have hLm := List.mem_of_getElem? hi
    have hglF : ∀ M ∈ F, (M.subst θF).In (Gnd sg N) := fun M hM =>
      ⟨gnd_subst hθF (hFf M hM).wt.1 (hb F hFN M hM).1, gnd_subst hθF (hFf M hM).wt.2.1 (hb F hFN M hM).2⟩
    obtain ⟨F', T', hdis, hcl⟩ := c2 F C hFN hC
    obtain ⟨κF, κT, θj, rfl, rfl, hθj, hκF, hκT, hjF, hjT⟩ := join_exists (N := N) ha hFf hCf (hev F hFN) (hev C hC) hdis hθF hθ
    obtain ⟨fs, hfs1, hfs2⟩ := sides_of (gt := gt) θF LF
    rw [hprod.hi] at hfs1
    rw [hprod.lo] at hfs2
    have lF : ∀ M ∈ F, (M.subst κF).subst θj = M.subst θF := fun M hM => csubst_comp hjF hM
    have lT : ∀ M ∈ C, (M.subst κT).subst θj = M.subst θ := fun M hM => csubst_comp hjT hM
    have sF : ∀ M ∈ F, ∀ c, ((M.subst κF).side c).subst θj = (M.side c).subst θF := fun M hM c => by
      rw [← side_subst, lF M hM, side_subst]
    have sT : ∀ M ∈ C, ∀ c, ((M.subst κT).side c).subst θj = (M.side c).subst θ := fun M hM c => by
      rw [← side_subst, lT M hM, side_subst]
    obtain ⟨hp', hsub'⟩ := pos_rename (κ := κT) hp hsub
    rw [← side_subst] at hp' hsub'
    have hsubθ : (sub.subst κT).subst θj = sub.subst θ := by
      rw [subst_comp]
      refine subst_congr fun x hx => hjT x ?_
      have hx := sub_vars hp hsub x hx
      simp only [cvars, List.mem_flatMap]
      refine ⟨L, hLm, ?_⟩
      cases c
      · simp only [Lit.vars, List.mem_append]; exact Or.inr hx
      · simp only [Lit.vars, List.mem_append]; exact Or.inl hx
    have hsv : (sub.subst κT).isVar = false := by
      cases sub with
      | var x => simp [isVar] at hvr
      | app f ts => rw [subst_app]; rfl
    have hiF' : (csubst κF F)[k]? = some (LF.subst κF) := by simp [csubst, hLF]
    have hiT' : (csubst κT C)[i]? = some (L.subst κT) := by simp [csubst, hi]
    obtain ⟨ty, guard, b, hbi, hgd, hrr⟩ := hcl k fs i c _ (LF.subst κF) (L.subst κT) _ hiF' hprod.pos hiT' hp' hsub' hsv
    have hgF' : ∀ M ∈ csubst κF F, (M.subst θj).In (Gnd sg N) := by
      intro M hM
      obtain ⟨M, hM', rfl⟩ := List.mem_map.1 hM
      replace hM := hM'
      rw [lF M hM]; exact hglF M hM
    have hgT' : ∀ M ∈ csubst κT C, (M.subst θj).In (Gnd sg N) := by
      intro M hM
      obtain ⟨M, hM', rfl⟩ := List.mem_map.1 hM
      replace hM := hM'
      rw [lT M hM]; exact hgl M hM hθ
    have hgs : Gnd sg N (sub.subst θ) := by rw [← hprod.hi]; exact (hi_in (hglF LF hLFm)).1
    have hgt' : Gnd sg N t := by rw [← hprod.lo]; exact (hi_in (hglF LF hLFm)).2
    have htests : ∀ σ : Nat → Term, (∀ x, (σ x).subst θj = θj x) →
        ParaTests gt (sel F) (sel C) ⟨csubst κF F, k, fs, csubst κT C, i, c, pos.map fun p => (p.1.subst κT, p.2)⟩ (LF.subst κF) (L.subst κT) σ := by
      intro σ hmg
      refine ⟨strictMax_inst h hθj hmg (List.mem_of_getElem? hiF') hgF' ⟨hselF, ?_⟩, ?_,
        fun hp0 => strictMax_inst h hθj hmg (List.mem_of_getElem? hiT') hgT' ⟨(hpos hp0).1, ?_⟩,
        fun hp0 => negElig_inst h hθj hmg (List.mem_of_getElem? hiT') hgT' ⟨(hneg hp0).1, ?_⟩, ?_⟩
      · intro m M hm hM
        obtain ⟨M, hM', rfl⟩ := csubst_get hM
        replace hM := hM'
        rw [lF M (List.mem_of_getElem? hM), lF LF hLFm]
        exact (hprod.max m (M.subst θF) hm (by simp [csubst, hM])).2.2
      · have e := side_inst h hθj hmg (s := (LF.subst κF).side fs) (t := (LF.subst κF).side !fs)
        rw [sF LF hLFm, sF LF hLFm, hfs1, hfs2] at e
        exact e hgs hgt' hprod.ord
      · intro m M hm hM
        obtain ⟨M, hM', rfl⟩ := csubst_get hM
        replace hM := hM'
        rw [lT M (List.mem_of_getElem? hM), lT L hLm]
        exact (hpos hp0).2 m M hm hM
      · intro m M hM hs
        obtain ⟨M, hM', rfl⟩ := csubst_get hM
        replace hM := hM'
        rw [lT M (List.mem_of_getElem? hM), lT L hLm]
        exact (hneg hp0).2 m M hM hs
      · have e := side_inst h hθj hmg (s := (L.subst κT).side c) (t := (L.subst κT).side !c)
        rw [sT L hLm, sT L hLm] at e
        refine e ?_ ?_ hc
        · rw [← side_subst]; cases c <;> [exact (hgl L hLm hθ).2; exact (hgl L hLm hθ).1]
        · rw [← side_subst]; cases c <;> [exact (hgl L hLm hθ).1; exact (hgl L hLm hθ).2]
    obtain ⟨n, res, Ks, hn, hrep, hcovr⟩ := para_lift (o := ⟨csubst κF F, k, fs, csubst κT C, i, c, pos.map fun p => (p.1.subst κT, p.2)⟩) (LF := LF.subst κF) (LT := L.subst κT)
      (sub := sub.subst κT) hF hd hpp hbi hiF' hiT' hp' hsub' hθj (by
        intro M hM
        obtain ⟨M, hM', rfl⟩ := List.mem_map.1 hM
        replace hM := hM'
        have e1 : (M.subst κT).l.subst θj = M.l.subst θ := sT M hM true
        have e2 : (M.subst κT).r.subst θj = M.r.subst θ := sT M hM false
        rw [e1, e2]
        exact fo_inst hsg hF hθ (hCf M hM)) (by rw [sF LF hLFm, hfs1, hsubθ]) (guard := guard) (fun st σ hσ hmg => hgd st σ hσ (htests σ hmg)) ty
    simp only at hrep hcovr
    rw [hsubθ, sF LF hLFm, hfs2] at hrep
    have hFr : gInst θj ((csubst κF F).eraseIdx k) = csubst θF (F.eraseIdx k) := by
      have : (csubst κF F).eraseIdx k = csubst κF (F.eraseIdx k) := by simp [csubst, List.eraseIdx_map]
      rw [this]
      unfold gInst csubst
      rw [List.map_map]
      refine List.map_congr_left fun M hM => ?_
      have hM := List.mem_of_mem_eraseIdx hM
      have e1 : (M.subst κF).l.subst θj = M.l.subst θF := sF M hM true
      have e2 : (M.subst κF).r.subst θj = M.r.subst θF := sF M hM false
      show mkEqn M.pos ((M.subst κF).l.subst θj) ((M.subst κF).r.subst θj) = _
      rw [e1, e2, fo_mkEqn hsg hF hθF (hFf M hM)]
    rw [hFr] at hcovr
    have htf : t ≠ tFalse := by
      rw [← hfs2]
      obtain ⟨-, n2, n3⟩ := fo_inst hsg hF hθF (hFf LF hLFm)
      cases fs
      · exact n2
      · exact n3
    have htty : sg.ty t = sg.ty (sub.subst θ) := by
      rw [← hfs2, ← hfs1, Sig.ty_subst (fun x => (hθF x).2), Sig.ty_subst (fun x => (hθF x).2)]
      have := (hFf LF hLFm).wt.2.2
      cases fs
      · exact this
      · exact this.symm
    have hlit : ∀ M ∈ C, ∀ {l r : Term}, PartialRepl (sub.subst θ) t (M.l.subst θ) l → PartialRepl (sub.subst θ) t (M.r.subst θ) r → ∀ {K : Lit},
        K = mkEqn M.pos l r ∨ K = mkEqn M.pos r l → K.In (Gnd sg N) ∧ GLit sg K ∧ (GTrue (nf h (Gset sg N sel Ns)) K ↔ GTrue (nf h (Gset sg N sel Ns)) (M.subst θ)) ∧
          ((l = M.l.subst θ ∧ r = M.r.subst θ) ∨ LitLt sg N gt K (M.subst θ)) :=
      fun M hM _ _ hl hr _ hK => grepl_lit h hG hsg hF hθ hgt' htf htty hν.symm hprod.ord (hCf M hM) (hgl M hM hθ) hl hr h1 hK
    have hst : sub.subst θ ≠ t := fun e => g_irrefl h hgt' (by have := hprod.ord; rwa [e] at this)
    -- literals of the into-clause
    obtain ⟨hrep1, LT0, l, r, hLT0, hpl, hpr, hat, hKsj⟩ := hrep
    have hinto : List.Forall₂ (fun K M => (K = M.subst θ ∨ LitLt sg N gt K (M.subst θ)) ∧ M ∈ C ∧ K.In (Gnd sg N) ∧ GLit sg K ∧
        (GTrue (nf h (Gset sg N sel Ns)) K ↔ GTrue (nf h (Gset sg N sel Ns)) (M.subst θ))) Ks C := by
      unfold csubst at hrep1
      rw [List.forall₂_map_left_iff] at hrep1
      have hgen : ∀ (C' Ks' : List Lit), (∀ M ∈ C', M ∈ C) → List.Forall₂ (fun M K => GRepl θj (sub.subst θ) t (M.subst κT) K) C' Ks' →
          List.Forall₂ (fun K M => (K = M.subst θ ∨ LitLt sg N gt K (M.subst θ)) ∧ M ∈ C ∧ K.In (Gnd sg N) ∧ GLit sg K ∧
            (GTrue (nf h (Gset sg N sel Ns)) K ↔ GTrue (nf h (Gset sg N sel Ns)) (M.subst θ))) Ks' C' := by
        intro C' Ks' hsubl hfa
        induction hfa with
        | nil => exact .nil
        | @cons M K C' Ks' hMK _ ih =>
          refine .cons ?_ (ih fun M hM => hsubl M (by simp [hM]))
          have hM := hsubl M (by simp)
          obtain ⟨l, r, p1, p2, p3⟩ := hMK
          have e1 : (M.subst κT).l.subst θj = M.l.subst θ := sT M hM true
          have e2 : (M.subst κT).r.subst θj = M.r.subst θ := sT M hM false
          rw [e1] at p1
          rw [e2] at p2 p3
          have hK' : K = mkEqn M.pos l r ∨ K = mkEqn M.pos r l := p3.imp id And.left
          obtain ⟨g1, g2, g3, g4⟩ := hlit M hM p1 p2 hK'
          refine ⟨?_, hM, g1, g2, g3⟩
          rcases g4 with ⟨rfl, rfl⟩ | g4
          · left
            rcases p3 with p3 | ⟨-, p3⟩
            · rw [p3]; exact fo_mkEqn hsg hF hθ (hCf M hM)
            · exact absurd rfl (replAt_ne p3 hst)
          · exact Or.inr g4
      exact hgen C Ks (fun M h => h) hrep1
    obtain rfl : L.subst κT = LT0 := by rw [hiT'] at hLT0; simpa using hLT0
    have hjM : ∃ M, Ks[i]? = some M ∧ LitLt sg N gt M (L.subst θ) := by
      have e1 : (L.subst κT).l.subst θj = L.l.subst θ := sT L hLm true
      have e2 : (L.subst κT).r.subst θj = L.r.subst θ := sT L hLm false
      rw [e1] at hpl
      rw [e2] at hpr
      rw [sT L hLm] at hat
      have hne2 := replAt_ne hat hst
      have fin : ∀ M, (M = mkEqn L.pos l r ∨ M = mkEqn L.pos r l) → LitLt sg N gt M (L.subst θ) := by
        intro M hM
        refine (hlit L hLm hpl hpr hM).2.2.2.resolve_left ?_
        rintro ⟨rfl, rfl⟩
        apply hne2
        cases c <;> rfl
      rcases hKsj with e | e
      · exact ⟨_, e, fin _ (Or.inl rfl)⟩
      · exact ⟨_, e, fin _ (Or.inr rfl)⟩
    obtain ⟨M0, hM0, hM0lt⟩ := hjM
    -- literals of the from-clause
    obtain ⟨hhi, hlo⟩ := hi_of_gt h (hgl L hLm hθ) (c := c) (by rw [side_subst, side_subst]; exact hc)
    have hLFlt : LitLt sg N gt (LF.subst θF) (L.subst θ) := by
      refine litLt_of_key h (hglF LF hLFm) (hgl L hLm hθ) ?_
      rw [hprod.hi, hprod.lo, hhi, hlo, side_subst, side_subst]
      have hts : t.subst θ = t := (subst_congr (τ := Term.var) fun x hx => by rw [hgt'.ground] at hx; cases hx).trans (subst_id t)
      have hws : sg.WT (L.side c) ∧ (L.side c).SymsBelow N := by
        cases c
        · exact ⟨(hCf L hLm).wt.2.1, (hb C hC L hLm).2⟩
        · exact ⟨(hCf L hLm).wt.1, (hb C hC L hLm).1⟩
      rcases (repl_spec h hG hθ (w := t) (sub := sub) (by rw [hts]; exact hgt') (by rw [hts]; exact htty) (by rw [hts]; exact hν.symm) (by rw [hts]; exact hprod.ord)
        hws.1 hws.2 hp hsub).2.2.2.2 with e | e
      · right
        refine ⟨e, ?_⟩
        cases hLp : L.pos with
        | false => exact Or.inl ⟨hprod.pos, hLp⟩
        | true => exact Or.inr ⟨(show LF.pos = L.pos from (show LF.pos = true from hprod.pos).trans hLp.symm), htop hLp e⟩
      · exact Or.inl e
    have hrest : ∀ M ∈ csubst θF (F.eraseIdx k), M.In (Gnd sg N) ∧ GLit sg M ∧ ¬ GTrue (nf h (Gset sg N sel Ns)) M ∧ LitLt sg N gt M (L.subst θ) := by
      intro M hM
      obtain ⟨M, hM', rfl⟩ := List.mem_map.1 hM
      replace hM := hM'
      obtain ⟨m, hmk, hm⟩ := (List.mem_eraseIdx_iff_getElem?).1 hM
      have hM := List.mem_of_getElem? hm
      have hm' : (csubst θF F)[m]? = some (M.subst θF) := by simp [csubst, hm]
      exact ⟨hglF M hM, fo_glit hsg hF hθF (hFf M hM), rest_false h hprod hν hmk hm', litLt_trans h (hprod.max m _ hmk hm') hLFlt⟩
    have hall : ∀ M ∈ Ks ++ csubst θF (F.eraseIdx k), M.In (Gnd sg N) ∧ GLit sg M ∧ ¬ GTrue (nf h (Gset sg N sel Ns)) M := by
      intro M hM
      rcases List.mem_append.1 hM with hM | hM
      · obtain ⟨m, hm⟩ := List.getElem?_of_mem hM
        obtain ⟨hml, rfl⟩ := List.getElem?_eq_some_iff.1 hm
        have := (List.forall₂_iff_get.1 hinto).2 m hml (hinto.length_eq ▸ hml)
        simp only [List.get_eq_getElem] at this
        exact ⟨this.2.2.1, this.2.2.2.1, fun ht => hf _ this.2.1 (this.2.2.2.2.1 ht)⟩
      · exact ⟨(hrest M hM).1, (hrest M hM).2.1, (hrest M hM).2.2.1⟩
    have hlt : ClauseLt sg N gt (Ks ++ csubst θF (F.eraseIdx k)) (gInst θ C) := by
      refine clauseLt_replace (j := i) ?_ (hgI i L hi) hM0 hM0lt (fun M hM => (hrest M hM).2.2.2)
      rw [gInst_eq hsg hF hθ hCf]
      unfold csubst
      rw [List.forall₂_map_right_iff]
      exact hinto.imp fun K M hh => hh.1
    cases res with
    | none =>
      obtain ⟨a, hm⟩ := hcovr
      exact (hall _ hm).2.2 (gtrue_triv _ a)
    | some p =>
      obtain ⟨b', D⟩ := p
      obtain ⟨hag, hred⟩ := hrr n b' D hn
      obtain ⟨ρ, hρ, hsp⟩ := hcovr hag
      exact hcon _ D ρ hlt hall hρ hsp hred
  · -- equality factoring
    have hL := List.mem_of_getElem? hi
    have hK := List.mem_of_getElem? hj
    obtain ⟨guard, b, hbi, hgd, hrr⟩ := c3 C hC i j L K c d hij hi hj hpi hpj (posElig_inst h hθ (fun x => rfl) hL (fun K hK => hgl K hK hθ) he)
    have hgs : ∀ M ∈ C, ∀ c, Gnd sg N ((M.side c).subst θ) := fun M hM c => by
      rw [← side_subst]; cases c <;> [exact (hgl M hM hθ).2; exact (hgl M hM hθ).1]
    have hnfs : ∀ M ∈ C, ∀ c, (M.side c).subst θ ≠ tFalse := fun M hM c => by
      obtain ⟨-, n2, n3⟩ := fo_inst hsg hF hθ (hCf M hM)
      cases c
      · exact n3
      · exact n2
    have htys : ∀ M ∈ C, ∀ c, sg.ty ((M.side !c).subst θ) = sg.ty ((M.side c).subst θ) := fun M hM c => by
      have := (fo_glit hsg hF hθ (hCf M hM)).ty
      cases c
      · exact this
      · exact this.symm
    obtain ⟨n, b', D, hn, hlift⟩ := eqFact_lift hF hpp hbi hθ hij hi hj hs (hcov C i j L K hC hij hi hj hpi hpj) (guard := guard) (fun st σ hσ hmg =>
      hgd st σ hσ (posElig_inst h hθ hmg hL (fun K hK => hgl K hK hθ) he) (side_inst h hθ hmg (hgs L hL c) (hgs L hL !c) hgt))
    obtain ⟨hag, hred⟩ := hrr n b' D hn
    obtain ⟨ρ, hρ, hsl⟩ := hlift hag
    have hq : LEq (mkEqn false ((L.side !c).subst θ) ((K.side !d).subst θ)) ⟨false, (L.side !c).subst θ, (K.side !d).subst θ⟩ :=
      mkEqn_leq (hnfs L hL !c) (hnfs K hK !d)
    obtain ⟨hhi, hlo⟩ := hi_of_gt h (hgl L hL hθ) (c := c) (by rw [side_subst, side_subst]; exact hgt)
    refine hcon (mkEqn false ((L.side !c).subst θ) ((K.side !d).subst θ) :: gInst θ (C.eraseIdx i)) D ρ ?_ ?_ hρ hsl.subperm hred
    · rw [herase]
      refine clauseLt_erase (R := [_]) (hgI i L hi) ?_
      intro M hM
      obtain rfl := List.mem_singleton.1 hM
      refine litLt_leq hq (lit_lt_hi h ⟨hgs L hL !c, hgs K hK !d⟩ (hgl L hL hθ) ?_ ?_)
      · rw [hhi, side_subst]; exact hgt
      · rw [hhi, side_subst]
        rcases hle with e | e
        · rw [← e]; exact hgt
        · exact g_trans h (hgs L hL c) (hgs L hL !c) (hgs K hK !d) hgt e
    · intro M hM
      rcases List.mem_cons.1 hM with rfl | hM
      · refine ⟨leq_in hq ⟨hgs L hL !c, hgs K hK !d⟩, glit_mkEqn (hnfs L hL !c) (hnfs K hK !d) ?_ ?_, ?_⟩
        · rw [htys L hL, hs, htys K hK]
        · intro e
          left
          have hgT : Gnd sg N tTrue := gnd_app.2 ⟨by simp [hsg.targs], h1, by simp⟩
          have hat := (fo_glit hsg hF hθ (hCf L hL)).atom
          cases c
          · exfalso
            have e2 : L.r.subst θ = tTrue := hat e
            have hgt : gt (L.r.subst θ) (L.l.subst θ) := hgt
            rw [e2] at hgt
            exact g_irrefl h hgT (g_trans h hgT (hgs L hL true) hgT hgt (h.least _ (hgs L hL true) (fo_inst hsg hF hθ (hCf L hL)).1))
          · exact hat ((htys L hL true).symm.trans e)
        · rw [gtrue_leq hq]
          unfold GTrue
          simpa using hν
      · exact hrestC i M hM

/-- A saturated set without the empty clause has a model.  All elements of it are values of ground terms. -/
theorem model_exists (hinh : ∀ x, ∃ t, Gnd sg N t ∧ sg.ty t = sg.vty x) : ∃ I : Interp.{0} sg, (∀ C, Ns C → I.Models C) ∧
    ∀ v, I.Sorted v → ∃ ρ, GSubst sg N ρ ∧ ∀ L : Lit, I.LitTrue v (L.subst ρ) → I.LitTrue v L := by
  have hG := gset_ok (sg := sg) (N := N) (sel := sel) hfo hb
  refine ⟨ginterp h hG hsg hd, fun C hC v hv => ?_, fun v hv => ⟨v, (sorted_norm h hG hsg hF hd hinh hv).1,
    fun L => (eval_self h hG hsg hF hd h1 hinh hv L).1⟩⟩
  have hs := (sorted_norm h hG hsg hF hd hinh hv).1
  have := inst_true h hsg hF hd h1 ha hpp hfo hb hev hne hsel c1 c2 c3 hcov hG v hv _ C v hC hs rfl
  rw [gInst_eq hsg hF hs (hfo C hC)] at this
  obtain ⟨M, hM, ht⟩ := this
  obtain ⟨M, hM', rfl⟩ := List.mem_map.1 hM
  replace hM := hM'
  exact ⟨M, hM, (eval_self h hG hsg hF hd h1 hinh hv M).1 ht⟩

end

end Verif.Sup
