import Verif.Clauses.SupInterp
import Verif.Clauses.InferProof
import Verif.Clauses.SupSpec

/-!
# Conclusions of ground inferences are false and smaller (proof of C61)
-/

namespace Verif.Sup
open Verif Term LitCmpProof Relation

variable {sg : Sig} {N : Nat} {gt : Term → Term → Prop}

/-! ## The clause ordering -/

local notation "CE" => CutExpand (LitLt sg N gt)

theorem tg_add {a b : Multiset Lit} (s : Multiset Lit) (h : TransGen CE a b) : TransGen CE (s + a) (s + b) :=
  h.lift (s + ·) (fun _ _ h => (cutExpand_add_left s).2 h)

theorem rtg_add {a b : Multiset Lit} (s : Multiset Lit) (h : ReflTransGen CE a b) : ReflTransGen CE (s + a) (s + b) :=
  h.lift (s + ·) (fun _ _ h => (cutExpand_add_left s).2 h)

theorem clauseLe_iff {C D : List Lit} : ClauseLe sg N gt C D ↔ ReflTransGen CE (C.map (Lit.desc gt) : Multiset Lit) (D.map (Lit.desc gt) : Multiset Lit) := by
  unfold ClauseLe ClauseLt
  rw [reflTransGen_iff_eq_or_transGen, ← Multiset.coe_eq_coe]
  constructor
  · rintro (h | h)
    · exact Or.inl h.symm
    · exact Or.inr h
  · rintro (h | h)
    · exact Or.inl h.symm
    · exact Or.inr h

theorem clauseLe_trans {C D E : List Lit} (h1 : ClauseLe sg N gt C D) (h2 : ClauseLe sg N gt D E) : ClauseLe sg N gt C E := by
  rw [clauseLe_iff] at *
  exact h1.trans h2

theorem clauseLe_lt {C D E : List Lit} (h1 : ClauseLe sg N gt C D) (h2 : ClauseLt sg N gt D E) : ClauseLt sg N gt C E := by
  rw [clauseLe_iff] at h1
  exact TransGen.trans_right h1 h2

theorem clauseLe_sublist {C D : List Lit} (h : C.Sublist D) : ClauseLe sg N gt C D := by
  rw [clauseLe_iff]
  replace h := h.map (Lit.desc gt)
  generalize C.map (Lit.desc gt) = C' at *
  generalize D.map (Lit.desc gt) = D' at *
  induction h with
  | slnil => exact .refl
  | @cons C D a _ ih =>
    refine ih.trans (.single ?_)
    exact ⟨0, a, by simp, by rw [← Multiset.cons_coe, ← Multiset.singleton_add, add_zero, add_comm]⟩
  | @cons_cons C D a _ ih =>
    rw [← Multiset.cons_coe, ← Multiset.cons_coe, ← Multiset.singleton_add, ← Multiset.singleton_add]
    exact rtg_add _ ih

theorem rtg_forall2 {Ks Ls : List Lit} (h : List.Forall₂ (fun K L => K = L ∨ LitLt sg N gt K L) Ks Ls) :
    ReflTransGen CE (Ks : Multiset Lit) (Ls : Multiset Lit) := by
  induction h with
  | nil => exact .refl
  | @cons K L Ks Ls h1 _ ih =>
    rw [← Multiset.cons_coe, ← Multiset.cons_coe, ← Multiset.singleton_add, ← Multiset.singleton_add]
    refine (rtg_add _ ih).trans ?_
    rcases h1 with rfl | h1
    · exact .refl
    · rw [add_comm, add_comm ({L} : Multiset Lit)]
      exact rtg_add _ (.single (cutExpand_singleton_singleton h1))

theorem desc_leq (L : Lit) : LEq (L.desc gt) L := by
  unfold Lit.desc
  split
  · exact ⟨rfl, Or.inr ⟨rfl, rfl⟩⟩
  · exact ⟨rfl, Or.inl ⟨rfl, rfl⟩⟩

theorem leq_in {D : Term → Prop} {K L : Lit} (h : LEq K L) (hL : L.In D) : K.In D := by
  rcases h.2 with ⟨e1, e2⟩ | ⟨e1, e2⟩ <;> unfold Lit.In <;> rw [e1, e2]
  · exact hL
  · exact hL.symm

theorem litLt_desc {K L : Lit} (h : LitLt sg N gt K L) : LitLt sg N gt (K.desc gt) (L.desc gt) :=
  ⟨leq_in (desc_leq K) h.1, leq_in (desc_leq L) h.2.1, lgt_leq (leq_lgt (desc_leq L) h.2.2) (leq_symm (desc_leq K))⟩

/-- The order of sides does not matter. -/
theorem clauseLt_of {C D : List Lit} (h : TransGen CE (C : Multiset Lit) (D : Multiset Lit)) : ClauseLt sg N gt C D := by
  unfold ClauseLt
  rw [← Multiset.map_coe, ← Multiset.map_coe]
  refine h.lift (Multiset.map (Lit.desc gt)) ?_
  rintro a b ⟨t, x, hx, e⟩
  refine ⟨t.map (Lit.desc gt), x.desc gt, ?_, ?_⟩
  · intro y hy
    obtain ⟨z, hz, rfl⟩ := Multiset.mem_map.1 hy
    exact litLt_desc (hx z hz)
  · rw [← Multiset.map_singleton, ← Multiset.map_add, e, Multiset.map_add]

/-- Replacing literals by smaller or equal ones, one of them by several smaller ones. -/
theorem clauseLt_replace {Ks C R : List Lit} (h : List.Forall₂ (fun K L => K = L ∨ LitLt sg N gt K L) Ks C) {j : Nat} {M L : Lit}
    (hj : C[j]? = some L) (hM : Ks[j]? = some M) (hlt : LitLt sg N gt M L) (hR : ∀ K ∈ R, LitLt sg N gt K L) :
    ClauseLt sg N gt (Ks ++ R) C := by
  refine clauseLt_of ?_
  rw [← Multiset.coe_add]
  induction h generalizing j with
  | nil => simp at hj
  | @cons K L' Ks Ls h1 h2 ih =>
    rw [← Multiset.cons_coe, ← Multiset.cons_coe, ← Multiset.singleton_add, ← Multiset.singleton_add]
    cases j with
    | zero =>
      simp only [List.getElem?_cons_zero, Option.some.injEq] at hj hM
      subst hj hM
      have e : ({K} + (Ks : Multiset Lit)) + (R : Multiset Lit) = (Ks : Multiset Lit) + ({K} + (R : Multiset Lit)) := by
        rw [add_assoc, add_left_comm]
      rw [e, add_comm ({L'} : Multiset Lit)]
      refine TransGen.head' (b := (Ks : Multiset Lit) + {L'}) ?_ ?_
      · refine (cutExpand_add_left _).2 (cutExpand_singleton ?_)
        intro x hx
        simp only [Multiset.mem_add, Multiset.mem_singleton, Multiset.mem_coe] at hx
        rcases hx with rfl | hx
        · exact hlt
        · exact hR x hx
      · rw [add_comm, add_comm (Ls : Multiset Lit)]
        exact rtg_add _ (rtg_forall2 h2)
    | succ j =>
      simp only [List.getElem?_cons_succ] at hj hM
      have := ih hj hM
      rw [add_assoc]
      refine TransGen.trans_left (tg_add ({K} : Multiset Lit) this) ?_
      rcases h1 with rfl | h1
      · exact .refl
      · rw [add_comm, add_comm ({L'} : Multiset Lit)]
        exact rtg_add _ (.single (cutExpand_singleton_singleton h1))

/-! ## Literals -/

theorem mkEqn_leq {p : Bool} {l r : Term} (hl : l ≠ tFalse) (hr : r ≠ tFalse) : LEq (mkEqn p l r) ⟨p, l, r⟩ := by
  unfold mkEqn LEq SameSides
  have h12 : tTrue ≠ tFalse := by decide
  by_cases e : l = tTrue <;> simp [hl, hr, e, h12]

theorem leq_refl (L : Lit) : LEq L L := ⟨rfl, Or.inl ⟨rfl, rfl⟩⟩

theorem litLt_leq {K L M : Lit} (h1 : LEq K L) (h2 : LitLt sg N gt L M) : LitLt sg N gt K M :=
  ⟨leq_in h1 h2.1, h2.2.1, lgt_leq h2.2.2 (leq_symm h1)⟩

theorem gtrue_leq {g : Term → Term} {K L : Lit} (h : LEq K L) : GTrue g K ↔ GTrue g L := by
  unfold GTrue
  rw [h.1]
  rcases h.2 with ⟨e1, e2⟩ | ⟨e1, e2⟩ <;> rw [e1, e2]
  split
  · exact eq_comm
  · exact ne_comm

/-- A literal with smaller or equal sides. -/
theorem lit_le {K L : Lit} (hK : K.In (Gnd sg N)) (hL : L.In (Gnd sg N)) (hp : K.pos = L.pos) (hl : K.l = L.l ∨ gt L.l K.l) (hr : K.r = L.r ∨ gt L.r K.r) :
    K = L ∨ LitLt sg N gt K L := by
  by_cases e : K = L
  · exact Or.inl e
  · right
    refine ⟨hK, hL, ?_⟩
    unfold LGt
    rw [if_pos hp.symm]
    unfold PosGt
    rcases hl with hl | hl <;> rcases hr with hr | hr
    · exact absurd (by cases K; cases L; simp_all) e
    · simp [hl, hr]
    · simp [hl, hr]
    · simp [hl, hr]

/-- A literal with smaller greater side. -/
theorem lit_lt_hi (h : SupOrd sg N gt) {K L : Lit} (hK : K.In (Gnd sg N)) (hL : L.In (Gnd sg N)) (h1 : gt (hiSide gt L) K.l) (h2 : gt (hiSide gt L) K.r) : LitLt sg N gt K L := by
  refine litLt_of_key h hK hL (Or.inl ?_)
  rcases hi_lo (gt := gt) K with ⟨e1, -, -⟩ | ⟨e1, -, -⟩ <;> rw [e1]
  · exact h1
  · exact h2

section
variable (h : SupOrd sg N gt) {G : List Lit → Prop} (hG : GClauses sg N G)
include h hG

/-- Replacing some occurrences of `s` by the smaller `w` with the same normal form. -/
theorem partial_le {s w : Term} (hw : Gnd sg N w) (ht : sg.ty w = sg.ty s) (hn : nf h G w = nf h G s) (hgt : gt s w) (a b : Term)
    (hp : PartialRepl s w a b) (ha : Gnd sg N a) :
    Gnd sg N b ∧ sg.ty b = sg.ty a ∧ nf h G b = nf h G a ∧ (b = a ∨ gt a b) := by
  induction a using Term.ind generalizing b with
  | hv x => exact absurd ha.ground (by simp [vars])
  | ha f ts ih =>
    cases hp with
    | same => exact ⟨ha, rfl, rfl, Or.inl rfl⟩
    | here => exact ⟨hw, ht, hn, Or.inr hgt⟩
    | @args _ _ us hus =>
      have ha' := gnd_app.1 ha
      have key : List.Forall₂ (fun t u => Gnd sg N u ∧ sg.ty u = sg.ty t ∧ nf h G u = nf h G t ∧ (u = t ∨ gt t u)) ts us := by
        have : ∀ t ∈ ts, ∀ u, PartialRepl s w t u → Gnd sg N u ∧ sg.ty u = sg.ty t ∧ nf h G u = nf h G t ∧ (u = t ∨ gt t u) :=
          fun t ht u hu => ih t ht u hu (ha'.2.2 t ht)
        clear ih ha ha'
        induction hus with
        | nil => exact .nil
        | cons h1 _ ih2 => exact .cons (this _ (by simp) _ h1) (ih2 fun t ht => this t (by simp [ht]))
      obtain ⟨g1, g2⟩ := app_le h (f := f) (pre := []) (ts := ts) (us := us) ha (key.imp fun _ _ hh => ⟨hh.1, hh.2.1, hh.2.2.2⟩)
      refine ⟨g1, rfl, nf_congr h hG g1 ha ?_, ?_⟩
      · clear ih ha ha' hus g1 g2
        induction key with
        | nil => rfl
        | cons h1 _ ih2 => simp only [List.map_cons, ih2, h1.2.2.1]
      · rcases g2 with g2 | g2
        · exact Or.inl (by rw [g2])
        · exact Or.inr g2

/-- Normalising the values of a substitution. -/
theorem nf_inst {θ θ' : Nat → Term} (hθ : GSubst sg N θ) (he : ∀ x, θ' x = θ x ∨ θ' x = nf h G (θ x)) {t : Term} (hw : sg.WT t) (hb : t.SymsBelow N) :
    Gnd sg N (t.subst θ') ∧ sg.ty (t.subst θ') = sg.ty (t.subst θ) ∧ nf h G (t.subst θ') = nf h G (t.subst θ) ∧
      (t.subst θ' = t.subst θ ∨ gt (t.subst θ) (t.subst θ')) ∧ ∀ x ∈ t.vars, θ' x ≠ θ x → gt (t.subst θ) (t.subst θ') := by
  induction t using Term.ind with
  | hv x =>
    simp only [subst_var, vars, List.mem_singleton, forall_eq]
    rcases he x with e | e
    · rw [e]
      exact ⟨(hθ x).1, rfl, rfl, Or.inl rfl, fun hne => absurd rfl hne⟩
    · rw [e]
      refine ⟨nf_gnd h hG (hθ x).1, nf_ty h hG (hθ x).1, nf_idem h hG (hθ x).1, nf_le h hG (hθ x).1, fun hne => ?_⟩
      exact (nf_le h hG (hθ x).1).resolve_left hne
  | ha f ts ih =>
    have hg := gnd_subst hθ hw hb
    rw [Sig.wt_app] at hw
    rw [symsBelow_app] at hb
    rw [subst_app] at hg ⊢
    rw [subst_app]
    have key : List.Forall₂ (fun t u => Gnd sg N u ∧ sg.ty u = sg.ty t ∧ nf h G u = nf h G t ∧ (u = t ∨ gt t u)) (ts.map (subst θ)) (ts.map (subst θ')) := by
      rw [List.forall₂_map_left_iff, List.forall₂_map_right_iff, List.forall₂_same]
      intro t ht
      obtain ⟨g1, g2, g3, g4, -⟩ := ih t ht (hw.2 t ht) (hb.2 t ht)
      exact ⟨g1, g2, g3, g4⟩
    obtain ⟨g1, g2⟩ := app_le h (f := f) (pre := []) (ts := ts.map (subst θ)) (us := ts.map (subst θ')) hg (key.imp fun _ _ hh => ⟨hh.1, hh.2.1, hh.2.2.2⟩)
    refine ⟨g1, rfl, nf_congr h hG g1 hg ?_, ?_, ?_⟩
    · rw [List.map_map, List.map_map]
      exact List.map_congr_left fun t ht => (ih t ht (hw.2 t ht) (hb.2 t ht)).2.2.1
    · rcases g2 with g2 | g2
      · exact Or.inl (by rw [g2])
      · exact Or.inr g2
    · intro x hx hne
      refine g2.resolve_left fun e => ?_
      simp only [vars, mem_varsL] at hx
      obtain ⟨t, ht, hx⟩ := hx
      have h1 := (ih t ht (hw.2 t ht) (hb.2 t ht)).2.2.2.2 x hx hne
      have h2 : t.subst θ' = t.subst θ := List.map_inj_left.1 e t ht
      rw [h2] at h1
      exact g_irrefl h (gnd_subst hθ (hw.2 t ht) (hb.2 t ht)) h1

end
end Verif.Sup
