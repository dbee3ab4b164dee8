import Verif.Clauses.SupGround
import Verif.Clauses.RewriteOrd
import Verif.Props.Subsume

/-!
# Redundancy by simplification (proof of C61 and C62)
-/

namespace Verif.Sup
open Verif Term LitCmpProof Relation Props SubsProof Interp SemProof

variable {sg : Sig} {N : Nat} {gt : Term → Term → Prop} {Ns : List Lit → Prop}

/-- Well-typed and over the symbols below `N`. -/
def CWf (sg : Sig) (N : Nat) (C : List Lit) : Prop := ∀ L ∈ C, sg.WTLit L ∧ L.In (Term.SymsBelow N)

theorem leq_trans {a b c : Lit} (h1 : LEq a b) (h2 : LEq b c) : LEq a c := by
  refine ⟨h1.1.trans h2.1, ?_⟩
  rcases h1.2 with ⟨a1, a2⟩ | ⟨a1, a2⟩ <;> rcases h2.2 with ⟨b1, b2⟩ | ⟨b1, b2⟩
  · exact Or.inl ⟨a1.trans b1, a2.trans b2⟩
  · exact Or.inr ⟨a1.trans b1, a2.trans b2⟩
  · exact Or.inr ⟨a1.trans b2, a2.trans b1⟩
  · exact Or.inl ⟨a1.trans b2, a2.trans b1⟩

theorem leq_true {K L : Lit} (h : LEq K L) (I : Interp.{0} sg) (v : Nat → I.D) : I.LitTrue v K ↔ I.LitTrue v L := by
  unfold Interp.LitTrue
  rw [h.1]
  rcases h.2 with ⟨e1, e2⟩ | ⟨e1, e2⟩ <;> rw [e1, e2]
  split
  · exact eq_comm
  · exact ne_comm

/-- The order of the sides does not matter to `EqnAlloc`. -/
theorem mkEqn_swap (p : Bool) (l r : Term) : LEq (mkEqn p l r) (mkEqn p r l) := by
  have h12 : tTrue ≠ tFalse := by decide
  unfold mkEqn LEq SameSides
  by_cases a : l = tFalse <;> by_cases b : r = tFalse <;> by_cases c : l = tTrue <;> by_cases d : r = tTrue <;>
    simp_all

theorem mkEqn_leq_of {K L : Lit} (h : LEq K L) (ρ : Nat → Term) :
    LEq (mkEqn K.pos (K.l.subst ρ) (K.r.subst ρ)) (mkEqn L.pos (L.l.subst ρ) (L.r.subst ρ)) := by
  rw [h.1]
  rcases h.2 with ⟨e1, e2⟩ | ⟨e1, e2⟩ <;> rw [e1, e2]
  · exact leq_refl _
  · exact mkEqn_swap _ _ _

theorem gnd_true (hsg : SigOK sg) (h1 : 1 < N) : Gnd sg N tTrue := by
  rw [tTrue, gnd_app]
  exact ⟨by simp [hsg.targs], h1, by simp⟩

theorem mkEqn_in (hsg : SigOK sg) (h1 : 1 < N) {p : Bool} {l r : Term} (hl : Gnd sg N l) (hr : Gnd sg N r) : (mkEqn p l r).In (Gnd sg N) := by
  have ht := gnd_true hsg h1
  unfold mkEqn
  by_cases a : l = tFalse <;> by_cases b : r = tFalse <;> simp only [a, b, if_true, if_false]
  · exact ⟨ht, ht⟩
  · exact ⟨hr, ht⟩
  · split <;> first | exact ⟨ht, hl⟩ | exact ⟨hl, ht⟩
  · split <;> first | exact ⟨hr, hl⟩ | exact ⟨hl, hr⟩

theorem gInst_in (hsg : SigOK sg) (h1 : 1 < N) {ρ : Nat → Term} (hρ : GSubst sg N ρ) {C : List Lit} (hC : CWf sg N C) :
    ∀ M ∈ gInst ρ C, M.In (Gnd sg N) := by
  intro M hM
  obtain ⟨L, hL, rfl⟩ := List.mem_map.1 hM
  obtain ⟨hw, hb⟩ := hC L hL
  exact mkEqn_in hsg h1 (gnd_subst hρ hw.1 hb.1) (gnd_subst hρ hw.2.1 hb.2)

theorem gInst_comp (σ ρ : Nat → Term) (C : List Lit) : gInst ρ (csubst σ C) = gInst (fun x => (σ x).subst ρ) C := by
  simp [gInst, csubst, Lit.subst, subst_comp, Function.comp_def]

theorem desc_of_leq (h : SupOrd sg N gt) {K L : Lit} (hL : L.In (Gnd sg N)) (he : LEq K L) : K.desc gt = L.desc gt := by
  obtain ⟨kp, kl, kr⟩ := K
  obtain ⟨lp, ll, lr⟩ := L
  obtain ⟨e, ⟨e1, e2⟩ | ⟨e1, e2⟩⟩ := he <;> simp only at e e1 e2 <;> subst e e1 e2
  · rfl
  · obtain ⟨g1, g2⟩ := hL
    simp only at g1 g2
    unfold Lit.desc
    simp only
    rcases g_total h g1 g2 with ht | rfl | ht
    · have hn : ¬ gt kl kr := fun h' => g_irrefl h g1 (g_trans h g1 g2 g1 ht h')
      rw [if_pos ht, if_neg hn]
    · rfl
    · have hn : ¬ gt kr kl := fun h' => g_irrefl h g1 (g_trans h g1 g2 g1 h' ht)
      rw [if_pos ht, if_neg hn]

theorem rtg_sublist {C D : List Lit} (h : C.Sublist D) : ReflTransGen (CutExpand (LitLt sg N gt)) (C : Multiset Lit) (D : Multiset Lit) := by
  induction h with
  | slnil => exact .refl
  | @cons C D a _ ih =>
    refine ih.trans (.single ?_)
    exact ⟨0, a, by simp, by rw [← Multiset.cons_coe, ← Multiset.singleton_add, add_zero, add_comm]⟩
  | @cons_cons C D a _ ih =>
    rw [← Multiset.cons_coe, ← Multiset.cons_coe, ← Multiset.singleton_add, ← Multiset.singleton_add]
    exact rtg_add _ ih

theorem subperm_map {α β : Type} (f : α → β) {l m : List α} (h : l.Subperm m) : (l.map f).Subperm (m.map f) := by
  obtain ⟨k, hp, hs⟩ := h
  exact ⟨k.map f, hp.map f, hs.map f⟩

/-- A part of a clause, possibly with sides exchanged, is not greater. -/
theorem clauseLe_part (h : SupOrd sg N gt) {C X D : List Lit} (hD : ∀ L ∈ D, L.In (Gnd sg N)) (h2 : List.Forall₂ LEq C X) (hs : X.Subperm D) :
    ClauseLe sg N gt C D := by
  have e : C.map (Lit.desc gt) = X.map (Lit.desc gt) := by
    have hX : ∀ L ∈ X, L.In (Gnd sg N) := fun L hL => hD L (hs.subset hL)
    clear hs
    induction h2 with
    | nil => rfl
    | cons h1 _ ih =>
      rw [List.map_cons, List.map_cons, desc_of_leq h (hX _ (by simp)) h1, ih fun L hL => hX L (by simp [hL])]
  rw [clauseLe_iff, e]
  obtain ⟨l, hp, hl⟩ := hs
  have := rtg_sublist (sg := sg) (N := N) (gt := gt) (hl.map (Lit.desc gt))
  rwa [Multiset.coe_eq_coe.2 (hp.map (Lit.desc gt))] at this

theorem part_true {C X D : List Lit} (h2 : List.Forall₂ LEq C X) (hs : ∀ L ∈ X, L ∈ D) (I : Interp.{0} sg) (v : Nat → I.D)
    (ht : I.ClauseTrue v C) : I.ClauseTrue v D := by
  obtain ⟨L, hL, ht⟩ := ht
  have : ∃ K ∈ X, LEq L K := by
    clear hs
    induction h2 with
    | nil => cases hL
    | cons h1 _ ih =>
      rcases List.mem_cons.1 hL with rfl | hL
      · exact ⟨_, by simp, h1⟩
      · obtain ⟨K, hK, h⟩ := ih hL
        exact ⟨K, by simp [hK], h⟩
  obtain ⟨K, hK, he⟩ := this
  exact ⟨K, hs K hK, (leq_true he I v).1 ht⟩

/-! ## Redundancy -/

theorem clauseLe_refl (C : List Lit) : ClauseLe sg N gt C C := Or.inl (.refl _)

theorem red_of_mem {D : List Lit} (h : Ns D) : Red sg N gt Ns D :=
  fun ρ hρ _ _ _ hE => hE D ρ h hρ (clauseLe_refl _)

theorem red_of_red {Ns' : List Lit → Prop} (h : ∀ E, Ns E → Red sg N gt Ns' E) {D : List Lit} (hD : Red sg N gt Ns D) : Red sg N gt Ns' D :=
  fun ρ hρ I v hv hE => hD ρ hρ I v hv fun E θ hNE hθ hle => h E hNE θ hθ I v hv fun E' θ' hNE' hθ' hle' =>
    hE E' θ' hNE' hθ' (clauseLe_trans hle' hle)

theorem gInst_true (hsg : SigOK sg) {I : Interp.{0} sg} {v : Nat → I.D} (hv : I.Sorted v) {ρ : Nat → Term} (hρ : GSubst sg N ρ) {C : List Lit}
    (hC : sg.WTClause C) : I.ClauseTrue v (gInst ρ C) ↔ I.ClauseTrue v (csubst ρ C) := by
  have hw : sg.WTSubst ρ := fun x => ⟨(hρ x).2, (hρ x).1.wt⟩
  unfold Interp.ClauseTrue gInst csubst
  constructor
  · rintro ⟨M, hM, ht⟩
    obtain ⟨L, hL, rfl⟩ := List.mem_map.1 hM
    exact ⟨L.subst ρ, List.mem_map_of_mem hL, (mkEqn_true hsg I hv (wtLit_subst (hC L hL) hw)).1 ht⟩
  · rintro ⟨M, hM, ht⟩
    obtain ⟨L, hL, rfl⟩ := List.mem_map.1 hM
    exact ⟨_, List.mem_map_of_mem hL, (mkEqn_true hsg I hv (wtLit_subst (hC L hL) hw)).2 ht⟩

theorem red_of_taut (hsg : SigOK sg) {D : List Lit} (hD : sg.WTClause D) (h : Entails.{0} sg [] D) : Red sg N gt Ns D := by
  intro ρ hρ I v hv _
  rw [gInst_true hsg hv hρ hD]
  exact models_subst (h I (by simp)) (fun x => ⟨(hρ x).2, (hρ x).1.wt⟩) v hv

theorem red_of_part (h : SupOrd sg N gt) (hsg : SigOK sg) (h1 : 1 < N) {E X D : List Lit} (hE : Ns E) (hD : CWf sg N D)
    (h2 : List.Forall₂ LEq E X) (hs : X.Subperm D) : Red sg N gt Ns D := by
  intro ρ hρ I v hv hN
  have h2' : List.Forall₂ LEq (gInst ρ E) (gInst ρ X) := by
    unfold gInst
    rw [List.forall₂_map_left_iff, List.forall₂_map_right_iff]
    exact h2.imp fun a b hab => mkEqn_leq_of hab ρ
  have hs' : (gInst ρ X).Subperm (gInst ρ D) := subperm_map _ hs
  exact part_true h2' (fun L hL => hs'.subset hL) I v (hN E ρ hE hρ (clauseLe_part h (gInst_in hsg h1 hρ hD) h2' hs'))

theorem subperm_of_index {α : Type} (d : α) {A Xs : List α} {ι : List Nat} (hn : ι.Nodup) (hf : List.Forall₂ (fun X i => A[i]? = some X) Xs ι) :
    Xs.Subperm A := by
  have e : Xs = ι.map fun i => A.getD i d := by
    clear hn
    induction hf with
    | nil => rfl
    | cons h1 _ ih => rw [List.map_cons, ← ih, List.getD_eq_getElem?_getD, h1, Option.getD_some]
  have hr : A = (List.range A.length).map fun i => A.getD i d := by
    refine List.ext_getElem (by simp) fun i h1 h2 => ?_
    simp [List.getD_eq_getElem?_getD, h1]
  have hsub : ι.Subperm (List.range A.length) := by
    refine List.subperm_of_subset hn fun i hi => ?_
    rw [List.mem_range]
    clear hn e
    induction hf with
    | nil => cases hi
    | cons h1 _ ih =>
      rcases List.mem_cons.1 hi with rfl | hi
      · exact (List.getElem?_eq_some_iff.1 h1).1
      · exact ih hi
  rw [e]
  conv => rhs; rw [hr]
  exact subperm_map _ hsub

theorem restrict_gsubst {σ ρ : Nat → Term} {V : List Nat} (hρ : GSubst sg N ρ) (h : ∀ x ∈ V, sg.ty (σ x) = sg.vty x ∧ sg.WT (σ x) ∧ (σ x).SymsBelow N) :
    GSubst sg N fun x => (restrict V σ x).subst ρ := by
  intro x
  by_cases hx : x ∈ V
  · simp only [restrict, if_pos hx]
    obtain ⟨a, b, c⟩ := h x hx
    exact ⟨gnd_subst hρ b c, by rw [Sig.ty_subst (fun x => (hρ x).2)]; exact a⟩
  · simp only [restrict, if_neg hx]
    exact hρ x

theorem red_of_maps (h : SupOrd sg N gt) (hsg : SigOK sg) (h1 : 1 < N) {σ : Nat → Term} {C D : List Lit} (hC : Ns C) (hD : CWf sg N D)
    (ht : TypedOn sg σ C) (hm : MapsInto σ C D) : Red sg N gt Ns D := by
  obtain ⟨ι, hn, hf⟩ := hm
  have hm : ∀ L ∈ C, ∃ K ∈ D, LitInst σ L K := by
    intro L hL
    clear hn ht hC
    induction hf with
    | nil => cases hL
    | cons h1 _ ih =>
      rcases List.mem_cons.1 hL with rfl | hL
      · obtain ⟨K, hK, hi⟩ := h1
        exact ⟨K, List.mem_of_getElem? hK, hi⟩
      · exact ih hL
  intro ρ hρ I v hv hN
  have hθ : GSubst sg N fun x => (restrict (cvars C) σ x).subst ρ := by
    refine restrict_gsubst hρ fun x hx => ⟨ht x hx, ?_⟩
    obtain ⟨L, hL, hx⟩ := mem_cvars.1 hx
    obtain ⟨K, hK, -, hi⟩ := hm L hL
    obtain ⟨⟨w1, w2, -⟩, b1, b2⟩ := hD K hK
    rcases List.mem_append.1 hx with hx | hx <;> rcases hi with ⟨e1, e2⟩ | ⟨e1, e2⟩
    · exact ⟨wt_of_subst (m := L.l) (by rw [e1]; exact w1) x hx, RewriteProof.symsBelow_of_subst (t := L.l) (by rw [e1]; exact b1) x hx⟩
    · exact ⟨wt_of_subst (m := L.l) (by rw [e1]; exact w2) x hx, RewriteProof.symsBelow_of_subst (t := L.l) (by rw [e1]; exact b2) x hx⟩
    · exact ⟨wt_of_subst (m := L.r) (by rw [e2]; exact w2) x hx, RewriteProof.symsBelow_of_subst (t := L.r) (by rw [e2]; exact b2) x hx⟩
    · exact ⟨wt_of_subst (m := L.r) (by rw [e2]; exact w1) x hx, RewriteProof.symsBelow_of_subst (t := L.r) (by rw [e2]; exact b1) x hx⟩
  have hrs : ∀ L ∈ C, L.subst (restrict (cvars C) σ) = L.subst σ := by
    intro L hL
    unfold Lit.subst
    rw [restrict_subst fun x hx => mem_cvars.2 ⟨L, hL, List.mem_append_left _ hx⟩,
      restrict_subst fun x hx => mem_cvars.2 ⟨L, hL, List.mem_append_right _ hx⟩]
  have hgi : gInst (fun x => (restrict (cvars C) σ x).subst ρ) C = gInst ρ (csubst σ C) := by
    rw [← gInst_comp]
    congr 1
    exact List.map_congr_left hrs
  have key : ∃ X, List.Forall₂ LEq (gInst ρ (csubst σ C)) X ∧ List.Forall₂ (fun K i => (gInst ρ D)[i]? = some K) X ι := by
    clear hm hn hgi hrs hθ hN ht hC
    induction hf with
    | nil => exact ⟨[], .nil, .nil⟩
    | cons h1 _ ih =>
      obtain ⟨X, x1, x2⟩ := ih
      obtain ⟨K, hK, hp, hi⟩ := h1
      refine ⟨mkEqn K.pos (K.l.subst ρ) (K.r.subst ρ) :: X, .cons ?_ x1, .cons (by simp [gInst, hK]) x2⟩
      exact mkEqn_leq_of (K := Lit.subst σ _) (L := K) ⟨hp, hi⟩ ρ
  obtain ⟨X, x1, x2⟩ := key
  have hs := subperm_of_index (tTrue |> fun t => (⟨true, t, t⟩ : Lit)) hn x2
  have := hN C _ hC hθ (by rw [hgi]; exact clauseLe_part h (gInst_in hsg h1 hρ hD) x1 hs)
  rw [hgi] at this
  exact part_true x1 (fun L hL => hs.subset hL) I v this

/-! ## Literals, ordered -/

/-- Equal up to the order of sides, or smaller. -/
def LitLe (sg : Sig) (N : Nat) (gt : Term → Term → Prop) (K L : Lit) : Prop := LEq K L ∨ LitLt sg N gt K L

/-- Equal or smaller. -/
def TermLe (gt : Term → Term → Prop) (s t : Term) : Prop := s = t ∨ gt t s

theorem rtg_litLe (h : SupOrd sg N gt) {Ks Ls : List Lit} (hL : ∀ L ∈ Ls, L.In (Gnd sg N)) (hf : List.Forall₂ (LitLe sg N gt) Ks Ls) :
    ClauseLe sg N gt Ks Ls := by
  rw [clauseLe_iff]
  refine rtg_forall2 ?_
  rw [List.forall₂_map_left_iff, List.forall₂_map_right_iff]
  induction hf with
  | nil => exact .nil
  | cons h1 _ ih =>
    refine .cons ?_ (ih fun L hl => hL L (by simp [hl]))
    rcases h1 with he | hl
    · exact Or.inl (desc_of_leq h (hL _ (by simp)) he)
    · exact Or.inr (litLt_desc hl)

theorem clauseLe_single (h : SupOrd sg N gt) {M L : Lit} {D : List Lit} (hL : L ∈ D) (hD : ∀ L ∈ D, L.In (Gnd sg N)) (hle : LitLe sg N gt M L) :
    ClauseLe sg N gt [M] D :=
  clauseLe_trans (rtg_litLe h (Ls := [L]) (fun K hK => by rw [List.mem_singleton.1 hK]; exact hD L hL) (.cons hle .nil))
    (clauseLe_sublist (List.singleton_sublist.2 hL))

/-- A literal does not become greater when its sides do not. -/
theorem litLe_sides (h : SupOrd sg N gt) {K L : Lit} (hK : K.In (Gnd sg N)) (hL : L.In (Gnd sg N)) (hp : K.pos = L.pos) (h1 : TermLe gt K.l L.l)
    (h2 : TermLe gt K.r L.r) : LitLe sg N gt K L := by
  by_cases he : LEq K L
  · exact Or.inl he
  refine Or.inr ⟨hK, hL, ?_⟩
  obtain ⟨kp, kl, kr⟩ := K
  obtain ⟨lp, ll, lr⟩ := L
  obtain ⟨k1, k2⟩ := hK
  obtain ⟨l1, l2⟩ := hL
  simp only at hp h1 h2 k1 k2 l1 l2
  subst hp
  simp only [LEq, SameSides, true_and] at he
  have t1 := g_total h k1 k2
  have t2 := g_total h l1 l2
  have t3 := g_total h k1 l2
  have t4 := g_total h k2 l1
  have i1 := g_irrefl h k1
  have i2 := g_irrefl h k2
  have i3 := g_irrefl h l1
  have i4 := g_irrefl h l2
  have tr : ∀ {s t u}, Gnd sg N s → Gnd sg N t → Gnd sg N u → gt s t → gt t u → gt s u := fun hs ht hu => g_trans h hs ht hu
  clear h
  unfold TermLe at h1 h2
  simp only [LGt, if_true, PosGt]
  grind

/-- A positive literal with both sides at most one side of a negative literal is smaller. -/
theorem litLt_neg (h : SupOrd sg N gt) {K L : Lit} (hK : K.In (Gnd sg N)) (hL : L.In (Gnd sg N)) (hk : K.pos = true) (hl : L.pos = false) (b : Bool)
    (h1 : TermLe gt K.l (L.side b)) (h2 : TermLe gt K.r (L.side b)) : LitLt sg N gt K L := by
  refine ⟨hK, hL, ?_⟩
  obtain ⟨kp, kl, kr⟩ := K
  obtain ⟨lp, ll, lr⟩ := L
  obtain ⟨k1, k2⟩ := hK
  obtain ⟨l1, l2⟩ := hL
  simp only at hk hl k1 k2 l1 l2
  subst hk hl
  have tr : ∀ {s t u}, Gnd sg N s → Gnd sg N t → Gnd sg N u → gt s t → gt t u → gt s u := fun hs ht hu => g_trans h hs ht hu
  clear h
  unfold TermLe at h1 h2
  cases b <;> simp only [Lit.side, if_true, if_false, Bool.false_eq_true] at h1 h2 <;>
    simp only [LGt, PNLt, Bool.false_eq_true, if_false] <;> grind

/-! ## Unit clauses -/

/-- The instances of the unit clause `L` that a subsumed pair needs are not greater than the pair. -/
theorem pair_eval (h : SupOrd sg N gt) (hsg : SigOK sg) {L : Lit} (hLw : sg.WTLit L) (hLb : L.In (Term.SymsBelow N)) {pp : Term → Bool}
    {ρ : Nat → Term} (hρ : GSubst sg N ρ) {I : Interp.{0} sg} {v : Nat → I.D} (hv : I.Sorted v) {n : Nat} {t1 t2 : Term} (w1 : sg.WT t1) (w2 : sg.WT t2)
    (b1 : t1.SymsBelow N) (b2 : t2.SymsBelow N)
    (hU : ∀ θ, GSubst sg N θ → (TermLe gt (L.l.subst θ) (t1.subst ρ) ∧ TermLe gt (L.r.subst θ) (t2.subst ρ) ∨
      TermLe gt (L.l.subst θ) (t2.subst ρ) ∧ TermLe gt (L.r.subst θ) (t1.subst ρ)) → I.eval v (L.l.subst θ) = I.eval v (L.r.subst θ))
    (hs : subsumesPair sg pp L n t1 t2 = some true) : I.eval v (t1.subst ρ) = I.eval v (t2.subst ρ) := by
  induction n generalizing t1 t2 with
  | zero => simp [subsumesPair] at hs
  | succ n ih =>
    have hinst : ∀ {s t : Term}, s.SymsBelow N → t.SymsBelow N → PairInst sg L.l L.r s t →
        ∃ θ, GSubst sg N θ ∧ L.l.subst θ = s.subst ρ ∧ L.r.subst θ = t.subst ρ := by
      rintro s t hs ht ⟨τ, hτ, rfl, rfl⟩
      refine ⟨fun x => (restrict (L.l.vars ++ L.r.vars) τ x).subst ρ, restrict_gsubst hρ fun x hx => ⟨(hτ x).1, (hτ x).2, ?_⟩, ?_, ?_⟩
      · rcases List.mem_append.1 hx with hx | hx
        · exact RewriteProof.symsBelow_of_subst hs x hx
        · exact RewriteProof.symsBelow_of_subst ht x hx
      · rw [← subst_comp, restrict_subst fun x hx => List.mem_append_left _ hx]
      · rw [← subst_comp, restrict_subst fun x hx => List.mem_append_right _ hx]
    unfold subsumesPair at hs
    split at hs
    · rename_i ht
      rcases topSubsumes_inst w1 w2 ht with hi | hi
      · obtain ⟨θ, hθ, e1, e2⟩ := hinst b1 b2 hi
        rw [← e1, ← e2]
        exact hU θ hθ (Or.inl ⟨Or.inl e1, Or.inl e2⟩)
      · obtain ⟨θ, hθ, e1, e2⟩ := hinst b2 b1 hi
        rw [← e1, ← e2]
        exact (hU θ hθ (Or.inr ⟨Or.inl e1, Or.inl e2⟩)).symm
    · split at hs
      · rename_i f ss g ts
        split at hs
        · simp at hs
        · rename_i hc
          rw [not_or, not_or, not_not, not_not] at hc
          obtain ⟨rfl, -, hl⟩ := hc
          split at hs
          · simp at hs
          · rename_i hd
            rw [argDiff_none hl hd]
          · rename_i s t hd
            obtain ⟨a, b, rfl, rfl⟩ := argDiff_one hl hd
            have g1 := gnd_subst hρ w1 b1
            have g2 := gnd_subst hρ w2 b2
            rw [subst_app] at g1 g2
            have m1 : s.subst ρ ∈ (a ++ s :: b).map (subst ρ) := by simp
            have m2 : t.subst ρ ∈ (a ++ t :: b).map (subst ρ) := by simp
            have k1 := g_sub h g1 m1
            have k2 := g_sub h g2 m2
            rw [symsBelow_app] at b1 b2
            have gs := gnd_subst hρ (wt_args w1 s (by simp)) (b1.2 s (by simp))
            have gt' := gnd_subst hρ (wt_args w2 t (by simp)) (b2.2 t (by simp))
            have lift : ∀ {u w W : Term}, Gnd sg N u → Gnd sg N w → Gnd sg N W → TermLe gt u w → gt W w → TermLe gt u W := by
              rintro u w W hu hw hW (rfl | hh) hg
              · exact Or.inr hg
              · exact Or.inr (g_trans h hW hw hu hg hh)
            have := ih (wt_args w1 s (by simp)) (wt_args w2 t (by simp)) (b1.2 s (by simp)) (b2.2 t (by simp)) (fun θ hθ hle => hU θ hθ ?_) hs
            · rw [subst_app, subst_app, eval_app, eval_app]
              simp [this]
            · rw [subst_app, subst_app]
              have l1 := gnd_subst hθ hLw.1 hLb.1
              have l2 := gnd_subst hθ hLw.2.1 hLb.2
              rcases hle with ⟨p1, p2⟩ | ⟨p1, p2⟩
              · exact Or.inl ⟨lift l1 gs g1 p1 k1, lift l2 gt' g2 p2 k2⟩
              · exact Or.inr ⟨lift l1 gt' g2 p1 k2, lift l2 gs g1 p2 k1⟩
      · simp at hs

end Verif.Sup
