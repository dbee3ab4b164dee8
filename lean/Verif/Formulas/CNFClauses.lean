import Verif.Formulas.CNFSkolem
import Verif.Clauses.InferProof

/-!
# From the Skolemized formula to clauses
-/

namespace Verif.CNFProof
open Form SemProof Props

universe u
variable {sg : Sig}

/-! ## Shape of the Skolemized formula -/

theorem qf_allQ {f : Form} (h : QF f) : AllQ f := by
  induction f with
  | lit => trivial
  | atom => trivial
  | not f ih => exact ih h
  | bin op f g ih1 ih2 => exact ⟨ih1 h.1, ih2 h.2⟩
  | qu => exact h.elim

theorem skolem_shape {f : Form} (hf : f.IsNNF) : ∀ (vs : List Nat) (σ : Nat → Term) (n : Nat),
    (skolemize sg f vs σ n).1.IsNNF ∧ AllQ (skolemize sg f vs σ n).1 := by
  induction f with
  | lit p l r => intro vs σ n; simp only [skolemize]; split <;> exact ⟨trivial, trivial⟩
  | atom => exact hf.elim
  | not => exact hf.elim
  | bin op f g ih1 ih2 =>
    intro vs σ n
    by_cases hg : (bin op f g).isGround = true
    · rw [skolem_ground hg]; exact ⟨hf, qf_allQ (isGround_qf hg)⟩
    · simp only [skolemize, if_neg hg]
      obtain ⟨h1, h2⟩ := ih1 hf.2.1 vs σ n
      obtain ⟨h3, h4⟩ := ih2 hf.2.2 vs σ (skolemize sg f vs σ n).2.1
      exact ⟨⟨hf.1, h1, h3⟩, h2, h4⟩
  | qu q x f ih =>
    intro vs σ n
    cases q with
    | true =>
      obtain ⟨h1, h2⟩ := ih hf (vs ++ [x]) σ n
      exact ⟨h1, rfl, h2⟩
    | false => exact ih hf _ _ _

theorem skolem_binders (f : Form) : ∀ (vs : List Nat) (σ : Nat → Term) (n : Nat),
    (binders (skolemize sg f vs σ n).1).Sublist (binders f) := by
  induction f with
  | lit p l r => intro vs σ n; simp only [skolemize]; split <;> exact List.Sublist.refl _
  | atom => intro vs σ n; exact List.Sublist.refl _
  | not f ih => intro vs σ n; simp only [skolemize]; split; exact List.Sublist.refl _; exact ih vs σ n
  | bin op f g ih1 ih2 =>
    intro vs σ n
    simp only [skolemize]
    split
    · exact List.Sublist.refl _
    · exact (ih1 vs σ n).append (ih2 vs σ _)
  | qu q x f ih =>
    intro vs σ n
    cases q with
    | true => exact (ih _ σ n).cons_cons x
    | false => exact (ih _ _ _).cons x

theorem skolem_fv (f : Form) : ∀ (vs : List Nat) (σ : Nat → Term) (n : Nat), f.IsNNF → (∀ z, f.FV z → ∀ y ∈ (σ z).vars, y ∈ vs) →
    SkInv f vs σ → ∀ y, (skolemize sg f vs σ n).1.FV y → y ∈ vs := by
  induction f with
  | lit p l r =>
    intro vs σ n hn h hi y hy
    by_cases hg : (lit p l r).isGround = true
    · rw [skolem_ground hg] at hy; exact absurd hy (isGround_fv hg y)
    · simp only [skolemize, if_neg hg] at hy
      rcases hy with hy | hy
      · obtain ⟨z, hz, hy⟩ := Term.mem_vars_subst.1 hy; exact h z (.inl hz) y hy
      · obtain ⟨z, hz, hy⟩ := Term.mem_vars_subst.1 hy; exact h z (.inr hz) y hy
  | atom => intro vs σ n hn; exact hn.elim
  | not => intro vs σ n hn; exact hn.elim
  | bin op f g ih1 ih2 =>
    intro vs σ n hn h hi y hy
    by_cases hg : (bin op f g).isGround = true
    · rw [skolem_ground hg] at hy; exact absurd hy (isGround_fv hg y)
    · simp only [skolemize, if_neg hg] at hy
      rcases hy with hy | hy
      · exact ih1 vs σ n hn.2.1 (fun z hz => h z (.inl hz)) hi.left y hy
      · exact ih2 vs σ _ hn.2.2 (fun z hz => h z (.inr hz)) hi.right y hy
  | qu q x f ih =>
    intro vs σ n hn h hi y hy
    cases q with
    | true =>
      obtain ⟨hne, hy⟩ := hy
      have hfv : ∀ z, f.FV z → ∀ y ∈ (σ z).vars, y ∈ vs ++ [x] := by
        intro z hz w hw
        by_cases hzx : z = x
        · subst hzx
          rw [hi.self z (List.mem_cons_self ..)] at hw
          simp [Term.vars] at hw; simp [hw]
        · exact List.mem_append_left _ (h z ⟨hzx, hz⟩ w hw)
      have := ih (vs ++ [x]) σ n hn hfv hi.all y hy
      simpa [hne] using this
    | false =>
      refine ih vs _ (n + 1) hn (fun z hz y hy => ?_) hi.ex y hy
      by_cases hzx : z = x
      · rw [if_pos hzx, vars_sk] at hy; exact hy
      · rw [if_neg hzx] at hy; exact h z ⟨hzx, hz⟩ y hy

theorem wtLitF_subst {σ : Nat → Term} (hσ : sg.WTSubst σ) {l r : Term} (h : sg.WT l ∧ sg.WT r ∧ sg.ty l = sg.ty r) :
    sg.WT (l.subst σ) ∧ sg.WT (r.subst σ) ∧ sg.ty (l.subst σ) = sg.ty (r.subst σ) :=
  ⟨Sig.wt_subst hσ h.1, Sig.wt_subst hσ h.2.1,
    ((Sig.ty_subst (fun x => (hσ x).1) _).trans h.2.2).trans (Sig.ty_subst (fun x => (hσ x).1) _).symm⟩

theorem skolem_wt (f : Form) : ∀ (vs : List Nat) (σ : Nat → Term) (n : Nat), sg.WTSubst σ → Declared sg (skolemize sg f vs σ n).2.2 →
    f.WT sg → (skolemize sg f vs σ n).1.WT sg := by
  induction f with
  | lit p l r =>
    intro vs σ n hσ hd hw
    simp only [skolemize]
    split
    · exact hw
    · exact wtLitF_subst hσ hw
  | atom => intro vs σ n hσ hd hw; exact hw
  | not f ih =>
    intro vs σ n hσ hd hw
    by_cases hg : (not f).isGround = true
    · rw [skolem_ground hg]; exact hw
    · simp only [skolemize, if_neg hg] at hd ⊢
      exact ih vs σ n hσ hd hw
  | bin op f g ih1 ih2 =>
    intro vs σ n hσ hd hw
    by_cases hg : (bin op f g).isGround = true
    · rw [skolem_ground hg]; exact hw
    · simp only [skolemize, if_neg hg] at hd ⊢
      exact ⟨ih1 vs σ n hσ hd.append.1 hw.1, ih2 vs σ _ hσ hd.append.2 hw.2⟩
  | qu q x f ih =>
    intro vs σ n hσ hd hw
    cases q with
    | true => exact ⟨trivial, ih _ σ n hσ hd hw.2⟩
    | false =>
      simp only [skolemize] at hd ⊢
      have hdx := hd ⟨n, vs, sg.vty x⟩ (List.mem_cons_self ..)
      exact ih vs _ (n + 1) (wtSubst_sk hσ ⟨hdx.1, hdx.2.1⟩) (fun d hm => hd d (List.mem_cons_of_mem _ hm)) hw.2

/-! ## Free variables -/

theorem mem_foldl_free {bound : Nat → Bool} {xs acc : List Nat} {x : Nat} :
    x ∈ xs.foldl (fun acc x => if bound x || acc.contains x then acc else acc ++ [x]) acc ↔ x ∈ acc ∨ (x ∈ xs ∧ bound x = false) := by
  induction xs generalizing acc with
  | nil => simp
  | cons y xs ih =>
    rw [List.foldl_cons, ih]
    split
    · rename_i h
      simp only [Bool.or_eq_true, List.contains_iff_mem] at h
      constructor
      · rintro (h1 | h1)
        · exact .inl h1
        · exact .inr ⟨List.mem_cons_of_mem _ h1.1, h1.2⟩
      · rintro (h1 | ⟨h1, h2⟩)
        · exact .inl h1
        · rcases List.mem_cons.1 h1 with rfl | h1
          · rcases h with h | h
            · simp [h] at h2
            · exact .inl h
          · exact .inr ⟨h1, h2⟩
    · rename_i h
      simp only [Bool.or_eq_true, List.contains_iff_mem, not_or] at h
      simp only [List.mem_append, List.mem_singleton, List.mem_cons, List.not_mem_nil, or_false]
      constructor
      · rintro ((h1 | h1) | h1)
        · exact .inl h1
        · exact .inr ⟨.inl h1, by rw [h1]; simpa using h.1⟩
        · exact .inr ⟨.inr h1.1, h1.2⟩
      · rintro (h1 | ⟨h1 | h1, h2⟩)
        · exact .inl (.inl h1)
        · exact .inl (.inr h1)
        · exact .inr ⟨h1, h2⟩

theorem mem_collectFree (f : Form) : ∀ (bound : Nat → Bool) (acc : List Nat) (x : Nat),
    x ∈ collectFree f bound acc ↔ x ∈ acc ∨ (f.FV x ∧ bound x = false) := by
  induction f with
  | lit p l r => intro bound acc x; rw [collectFree, mem_foldl_free, List.mem_append]; rfl
  | atom t => intro bound acc x; rw [collectFree, mem_foldl_free]; rfl
  | not f ih => intro bound acc x; exact ih bound acc x
  | bin op f g ih1 ih2 =>
    intro bound acc x
    rw [collectFree, ih2, ih1]
    simp only [FV]; tauto
  | qu q y f ih =>
    intro bound acc x
    rw [collectFree, ih]
    simp only [FV]
    by_cases hx : x = y
    · simp [hx]
    · simp [hx]

theorem mem_freeVars {f : Form} {x : Nat} : x ∈ collectFree f (fun _ => false) [] ↔ f.FV x := by
  rw [mem_collectFree]; simp

/-! ## Prenex form -/

theorem extractCore_binders {f : Form} (h : f.IsNNF) : (extractCore f).2 = binders f := by
  induction f with
  | lit => rfl
  | atom => exact h.elim
  | not => exact h.elim
  | bin op f g ih1 ih2 => simp only [extractCore, if_pos h.1, binders, ih1 h.2.1, ih2 h.2.2]
  | qu q x f ih => have h : f.IsNNF := h; simp only [extractCore, binders, ih h]

theorem extractCore_shape {f : Form} (h : f.IsNNF) : QF (extractCore f).1 ∧ (extractCore f).1.IsNNF := by
  induction f with
  | lit => exact ⟨trivial, trivial⟩
  | atom => exact h.elim
  | not => exact h.elim
  | bin op f g ih1 ih2 =>
    simp only [extractCore, if_pos h.1]
    exact ⟨⟨(ih1 h.2.1).1, (ih2 h.2.2).1⟩, h.1, (ih1 h.2.1).2, (ih2 h.2.2).2⟩
  | qu q x f ih => have h : f.IsNNF := h; simpa only [extractCore] using ih h

theorem extractCore_fv {f : Form} (h : f.IsNNF) (x : Nat) (hx : (extractCore f).1.FV x) : f.FV x ∨ x ∈ binders f := by
  induction f with
  | lit => exact .inl hx
  | atom => exact h.elim
  | not => exact h.elim
  | bin op f g ih1 ih2 =>
    simp only [extractCore, if_pos h.1] at hx
    rcases hx with hx | hx
    · rcases ih1 h.2.1 hx with h1 | h1
      · exact .inl (.inl h1)
      · exact .inr (List.mem_append_left _ h1)
    · rcases ih2 h.2.2 hx with h1 | h1
      · exact .inl (.inr h1)
      · exact .inr (List.mem_append_right _ h1)
  | qu q y f ih =>
    have h : f.IsNNF := h
    rcases ih h hx with h1 | h1
    · by_cases hxy : x = y
      · exact .inr (by simp [binders, hxy])
      · exact .inl ⟨hxy, h1⟩
    · exact .inr (List.mem_cons_of_mem _ h1)

theorem parts_extractCore {Pl : Term → Term → Prop} {Pa : Term → Prop} {Px : Nat → Prop} {f : Form} (h : f.Parts Pl Pa Px) :
    (extractCore f).1.Parts Pl Pa Px ∧ ∀ x ∈ (extractCore f).2, Px x := by
  induction f with
  | lit => exact ⟨h, by simp [extractCore]⟩
  | atom => exact ⟨h, by simp [extractCore]⟩
  | not => exact ⟨h, by simp [extractCore]⟩
  | bin op f g ih1 ih2 =>
    simp only [extractCore]
    split
    · refine ⟨⟨(ih1 h.1).1, (ih2 h.2).1⟩, fun x hx => ?_⟩
      rcases List.mem_append.1 hx with hx | hx
      · exact (ih1 h.1).2 x hx
      · exact (ih2 h.2).2 x hx
    · exact ⟨h, by simp⟩
  | qu q x f ih =>
    refine ⟨(ih h.2).1, fun y hy => ?_⟩
    rcases List.mem_cons.1 hy with rfl | hy
    · exact h.1
    · exact (ih h.2).2 y hy

theorem parts_prefix {Pl : Term → Term → Prop} {Pa : Term → Prop} {Px : Nat → Prop} {c : Form} {xs : List Nat} (h : c.Parts Pl Pa Px) (hx : ∀ x ∈ xs, Px x) :
    (xs.foldr (qu true) c).Parts Pl Pa Px := by
  induction xs with
  | nil => exact h
  | cons x xs ih => exact ⟨hx x (List.mem_cons_self ..), ih fun y hy => hx y (List.mem_cons_of_mem _ hy)⟩

theorem parts_of_prefix {Pl : Term → Term → Prop} {Pa : Term → Prop} {Px : Nat → Prop} {c : Form} {xs : List Nat} (h : (xs.foldr (qu true) c).Parts Pl Pa Px) :
    c.Parts Pl Pa Px := by
  induction xs with
  | nil => exact h
  | cons x xs ih => exact ih h.2

theorem prefix_congr (I : Interp.{u} sg) {c c' : Form} (h : ∀ v, c.Holds I v ↔ c'.Holds I v) (xs : List Nat) (v : Nat → I.D) :
    (xs.foldr (qu true) c).Holds I v ↔ (xs.foldr (qu true) c').Holds I v := by
  induction xs generalizing v with
  | nil => exact h v
  | cons x xs ih => exact qu_congr I ih true x v

theorem pull_left (I : Interp.{u} sg) {op : BOp} (ho : op = .and ∨ op = .or) {c g : Form} {xs : List Nat} (hx : ∀ x ∈ xs, ¬ g.FV x) (v : Nat → I.D) :
    (bin op (xs.foldr (qu true) c) g).Holds I v ↔ (xs.foldr (qu true) (bin op c g)).Holds I v := by
  induction xs generalizing v with
  | nil => rfl
  | cons x xs ih =>
    have h1 := fun v => ih (fun y hy => hx y (List.mem_cons_of_mem _ hy)) v
    have hg := hx x (List.mem_cons_self ..)
    obtain ⟨d0, hd0⟩ := I.inhab (sg.vty x)
    simp only [List.foldr_cons]
    rw [← qu_congr I h1 true x v]
    rcases ho with rfl | rfl
    · simp only [Holds, BOp.Holds, holds_updv I hg]
      exact ⟨fun h d hd => ⟨h.1 d hd, h.2⟩, fun h => ⟨fun d hd => (h d hd).1, (h d0 hd0).2⟩⟩
    · simp only [Holds, BOp.Holds, holds_updv I hg]
      constructor
      · rintro (h | h) d hd
        · exact .inl (h d hd)
        · exact .inr h
      · intro h
        by_cases hgv : g.Holds I v
        · exact .inr hgv
        · exact .inl fun d hd => (h d hd).resolve_right hgv

theorem bin_comm (I : Interp.{u} sg) {op : BOp} (ho : op = .and ∨ op = .or) (f g : Form) (v : Nat → I.D) :
    (bin op f g).Holds I v ↔ (bin op g f).Holds I v := by
  rcases ho with rfl | rfl
  · exact and_comm
  · exact or_comm

theorem pull_right (I : Interp.{u} sg) {op : BOp} (ho : op = .and ∨ op = .or) {c g : Form} {xs : List Nat} (hx : ∀ x ∈ xs, ¬ g.FV x) (v : Nat → I.D) :
    (bin op g (xs.foldr (qu true) c)).Holds I v ↔ (xs.foldr (qu true) (bin op g c)).Holds I v := by
  rw [bin_comm I ho, pull_left I ho hx]
  exact prefix_congr I (fun v => bin_comm I ho c g v) xs v

theorem fv_prefix {c : Form} {xs : List Nat} {x : Nat} : (xs.foldr (qu true) c).FV x ↔ c.FV x ∧ x ∉ xs := by
  induction xs with
  | nil => simp
  | cons y xs ih => simp only [List.foldr_cons, FV, ih, List.mem_cons]; tauto

/-- Moving the quantifiers to the front keeps the meaning if all quantified variables are different and different from the free ones. -/
theorem shift_holds (I : Interp.{u} sg) (f : Form) (hn : f.IsNNF) (ha : AllQ f) (hb : (binders f).Nodup) (hf : ∀ y ∈ binders f, ¬ f.FV y) :
    ∀ v, (shiftQuantors f).Holds I v ↔ f.Holds I v := by
  induction f with
  | lit => intro v; rfl
  | atom => exact hn.elim
  | not => exact hn.elim
  | bin op f g ih1 ih2 =>
    intro v
    obtain ⟨b1, b2, b3⟩ := List.nodup_append.1 hb
    have h1 := ih1 hn.2.1 ha.1 b1 fun y hy h => hf y (List.mem_append_left _ hy) (.inl h)
    have h2 := ih2 hn.2.2 ha.2 b2 fun y hy h => hf y (List.mem_append_right _ hy) (.inr h)
    simp only [shiftQuantors] at h1 h2 ⊢
    simp only [extractCore, if_pos hn.1, extractCore_binders hn.2.1, extractCore_binders hn.2.2, List.foldr_append] at h1 h2 ⊢
    have e1 : (bin op f g).Holds I v ↔ (bin op ((binders f).foldr (qu true) (extractCore f).1) ((binders g).foldr (qu true) (extractCore g).1)).Holds I v :=
      bin_congr (h1 v).symm (h2 v).symm
    rw [e1, pull_left I hn.1]
    · refine prefix_congr I (fun v => ?_) _ v
      rw [pull_right I hn.1]
      intro y hy hc
      rcases extractCore_fv hn.2.1 y hc with h | h
      · exact hf y (List.mem_append_right _ hy) (.inl h)
      · exact b3 y h y hy rfl
    · intro y hy hc
      rw [fv_prefix] at hc
      rcases extractCore_fv hn.2.2 y hc.1 with h | h
      · exact hf y (List.mem_append_left _ hy) (.inr h)
      · exact hc.2 h
  | qu q x f ih =>
    intro v
    obtain ⟨rfl, ha⟩ := ha
    have hb' := List.nodup_cons.1 hb
    have := ih hn ha hb'.2 fun y hy h => hf y (List.mem_cons_of_mem _ hy) ⟨fun e => hb'.1 (e ▸ hy), h⟩
    exact qu_congr I this true x v

theorem valid_prefix (I : Interp.{u} sg) (c : Form) (xs : List Nat) : (xs.foldr (qu true) c).Valid I ↔ c.Valid I := by
  induction xs with
  | nil => rfl
  | cons x xs ih =>
    rw [← ih]
    constructor
    · intro h v hv
      have := h v hv (v x) (hv x)
      have e : updv v x (v x) = v := by funext z; by_cases hz : z = x <;> simp [updv, hz]
      rwa [e] at this
    · intro h v hv d hd
      refine h _ fun z => ?_
      by_cases hz : z = x
      · subst hz; simpa [updv] using hd
      · simpa [updv, hz] using hv z

/-! ## Literals and clauses -/

theorem conjuncts_holds (I : Interp.{u} sg) (f : Form) (v : Nat → I.D) : f.Holds I v ↔ ∀ c ∈ conjuncts f, c.Holds I v := by
  fun_induction conjuncts f with
  | case1 f g ih1 ih2 =>
    simp only [List.mem_append]
    constructor
    · intro h c hc
      rcases hc with hc | hc
      · exact ih1.1 h.2 c hc
      · exact ih2.1 h.1 c hc
    · intro h
      exact ⟨ih2.2 fun c hc => h c (.inr hc), ih1.2 fun c hc => h c (.inl hc)⟩
  | case2 f => simp

theorem conjuncts_disj {f : Form} (h : IsCNF f) : ∀ c ∈ conjuncts f, IsDisj c := by
  fun_induction conjuncts f with
  | case1 f g ih1 ih2 =>
    intro c hc
    rcases List.mem_append.1 hc with hc | hc
    · exact ih1 h.2 c hc
    · exact ih2 h.1 c hc
  | case2 f hne => intro c hc; simp at hc; subst hc; exact cnf_disj h fun a b e => hne a b e

theorem conjuncts_parts {Pl : Term → Term → Prop} {Pa : Term → Prop} {Px : Nat → Prop} {f : Form} (h : f.Parts Pl Pa Px) : ∀ c ∈ conjuncts f, c.Parts Pl Pa Px := by
  fun_induction conjuncts f with
  | case1 f g ih1 ih2 =>
    intro c hc
    rcases List.mem_append.1 hc with hc | hc
    · exact ih1 h.2 c hc
    · exact ih2 h.1 c hc
  | case2 f hne => intro c hc; simp at hc; subst hc; exact h

theorem collectLits_true (hs : SigOK sg) (I : Interp.{u} sg) {v : Nat → I.D} (hv : I.Sorted v) {f : Form} (hf : IsDisj f) (hw : f.WT sg) :
    I.ClauseTrue v (collectLits f) ↔ f.Holds I v := by
  induction f with
  | lit p l r =>
    have := mkEqn_true hs I hv (pos := p) hw
    simp only [Interp.ClauseTrue, collectLits, List.mem_singleton, exists_eq_left, this]; rfl
  | atom => exact hf.elim
  | not => exact hf.elim
  | qu => exact hf.elim
  | bin op f g ih1 ih2 =>
    obtain ⟨rfl, h1, h2⟩ := hf
    rw [collectLits, clauseTrue_append, ih1 h1 hw.1, ih2 h2 hw.2]
    rfl

theorem collectLits_wt (hs : SigOK sg) {f : Form} (hf : IsDisj f) (hw : f.WT sg) : sg.WTClause (collectLits f) := by
  induction f with
  | lit p l r => intro L hL; simp only [collectLits, List.mem_singleton] at hL; subst hL; exact mkEqn_wt hs hw
  | atom => exact hf.elim
  | not => exact hf.elim
  | qu => exact hf.elim
  | bin op f g ih1 ih2 =>
    obtain ⟨rfl, h1, h2⟩ := hf
    intro L hL
    rcases List.mem_append.1 hL with hL | hL
    · exact ih1 h1 hw.1 L hL
    · exact ih2 h2 hw.2 L hL

theorem collectLits_nf (f : Form) : ∀ L ∈ collectLits f, L.NF := by
  fun_induction collectLits f with
  | case1 f g ih1 ih2 =>
    intro L hL
    rcases List.mem_append.1 hL with hL | hL
    · exact ih1 L hL
    · exact ih2 L hL
  | case2 p l r => intro L hL; simp at hL; subst hL; exact LitProof.mkEqn_nf _ _ _
  | case3 => intro L hL; simp at hL; subst hL; exact LitProof.mkEqn_nf _ _ _
  | case4 => simp
  | case5 => simp

theorem mkEqn_below {n : Nat} (hn : 1 < n) {p : Bool} {l r : Term} (hl : l.SymsBelow n) (hr : r.SymsBelow n) :
    (mkEqn p l r).l.SymsBelow n ∧ (mkEqn p l r).r.SymsBelow n := by
  have ht : tTrue.SymsBelow n := by rw [tTrue, Term.symsBelow_app]; exact ⟨hn, by simp⟩
  unfold mkEqn
  by_cases c1 : l = tFalse <;> by_cases c2 : r = tFalse <;> by_cases c3 : l = tTrue <;> simp_all

theorem collectLits_below {n : Nat} (hn : 1 < n) {f : Form} (hs : f.SymsBelow n) : ClauseBelow n (collectLits f) := by
  fun_induction collectLits f with
  | case1 f g ih1 ih2 =>
    intro L hL
    rcases List.mem_append.1 hL with hL | hL
    · exact ih1 hs.1 L hL
    · exact ih2 hs.2 L hL
  | case2 p l r => intro L hL; simp at hL; subst hL; exact mkEqn_below hn hs.1 hs.2
  | case3 => intro L hL; simp at hL; subst hL; exact mkEqn_below hn hs hs
  | case4 => intro L hL; simp at hL
  | case5 => intro L hL; simp at hL

/-! ## Renaming the variables of a clause -/

theorem clauseTrue_congr (I : Interp.{u} sg) {v w : Nat → I.D} {C : List Lit} (h : ∀ x ∈ cvars C, v x = w x) :
    I.ClauseTrue v C ↔ I.ClauseTrue w C := by
  refine exists_congr fun L => and_congr_right fun hL => litTrue_congr I fun x hx => h x ?_
  exact List.mem_flatMap.2 ⟨L, hL, by simpa [Lit.vars] using hx⟩

theorem rename_true (I : Interp.{u} sg) (v : Nat → I.D) (ρ : Nat → Nat) (C : List Lit) :
    I.ClauseTrue v (renameClause ρ C) ↔ I.ClauseTrue (fun x => v (ρ x)) C := by
  have : renameClause ρ C = csubst (fun x => .var (ρ x)) C := rfl
  rw [this, clauseTrue_subst]; rfl

theorem rename_models (I : Interp.{u} sg) {ρ : Nat → Nat} {C : List Lit} (hi : ∀ x ∈ cvars C, ∀ y ∈ cvars C, ρ x = ρ y → x = y)
    (ht : ∀ x ∈ cvars C, sg.vty (ρ x) = sg.vty x) : I.Models (renameClause ρ C) ↔ I.Models C := by
  classical
  have hdef : ∃ v0 : Nat → I.D, I.Sorted v0 := ⟨fun x => (I.inhab (sg.vty x)).choose, fun x => (I.inhab (sg.vty x)).choose_spec⟩
  obtain ⟨v0, hv0⟩ := hdef
  constructor
  · intro h w hw
    let v : Nat → I.D := fun y => if hy : ∃ x ∈ cvars C, ρ x = y then w hy.choose else v0 y
    have hv : I.Sorted v := by
      intro y
      by_cases hy : ∃ x ∈ cvars C, ρ x = y
      · have h1 := hy.choose_spec
        simp only [v, dif_pos hy]
        have h2 : sg.vty y = sg.vty hy.choose := by rw [← ht _ h1.1, h1.2]
        exact h2.symm ▸ hw hy.choose
      · simp only [v, dif_neg hy]; exact hv0 y
    have := (rename_true I v ρ C).1 (h v hv)
    refine (clauseTrue_congr I fun x hx => ?_).1 this
    have hy : ∃ x' ∈ cvars C, ρ x' = ρ x := ⟨x, hx, rfl⟩
    simp only [v, dif_pos hy]
    rw [hi _ hy.choose_spec.1 _ hx hy.choose_spec.2]
  · intro h v hv
    rw [rename_true]
    let w : Nat → I.D := fun x => if x ∈ cvars C then v (ρ x) else v0 x
    have hw : I.Sorted w := by
      intro x
      by_cases hx : x ∈ cvars C
      · simp only [w, if_pos hx]; rw [← ht x hx]; exact hv _
      · simp only [w, if_neg hx]; exact hv0 x
    refine (clauseTrue_congr I fun x hx => ?_).1 (h w hw)
    simp [w, hx]

theorem rename_wt {ρ : Nat → Nat} {C : List Lit} (ht : ∀ x ∈ cvars C, sg.vty (ρ x) = sg.vty x) (hw : sg.WTClause C) : sg.WTClause (renameClause ρ C) := by
  classical
  let ρ' : Nat → Nat := fun x => if x ∈ cvars C then ρ x else x
  have e : renameClause ρ C = csubst (fun x => .var (ρ' x)) C := by
    refine List.map_congr_left fun L hL => ?_
    have h1 : ∀ x, x ∈ L.l.vars ∨ x ∈ L.r.vars → ρ' x = ρ x := by
      intro x hx
      have : x ∈ cvars C := List.mem_flatMap.2 ⟨L, hL, by simpa [Lit.vars] using hx⟩
      simp [ρ', this]
    simp only [Lit.subst, Lit.mk.injEq, true_and]
    exact ⟨Term.subst_congr fun x hx => by rw [h1 x (.inl hx)], Term.subst_congr fun x hx => by rw [h1 x (.inr hx)]⟩
  rw [e]
  refine wtClause_subst hw (wt_ren fun z => ?_)
  by_cases hz : z ∈ cvars C
  · simp only [ρ', if_pos hz]; exact ht z hz
  · simp [ρ', hz]

/-! ## Elimination of Boolean variables -/

theorem boolVar_iff {L : Lit} {x : Nat} : L.boolVar = some x ↔ L.l = .var x ∧ L.r = tTrue := by
  unfold Lit.boolVar
  cases h : L.l with
  | var y =>
    by_cases hr : L.r = tTrue
    · simp [hr]
    · simp [hr]
  | app f ts => simp

/-- The bindings made so far come from literals. -/
def BindFrom (C : List Lit) (bind : Nat → Option Bool) : Prop :=
  ∀ x b, bind x = some b → ∃ L ∈ C, L.boolVar = some x ∧ L.pos = !b

/-- All literals seen are false under the bindings. -/
def BindAll (C : List Lit) (bind : Nat → Option Bool) : Prop :=
  ∀ L ∈ C, ∀ x, L.boolVar = some x → bind x = some (!L.pos)

theorem elimLoop_none {D : List Lit} (C : List Lit) : ∀ {bind : Nat → Option Bool} {e : Bool}, (∀ L ∈ C, L ∈ D) → BindFrom D bind → elimLoop C bind e = none →
    ∃ L ∈ D, ∃ K ∈ D, ∃ x, L.boolVar = some x ∧ K.boolVar = some x ∧ L.pos = !K.pos := by
  induction C with
  | nil => intro bind e _ _ h; simp [elimLoop] at h
  | cons L C ih =>
    intro bind e hsub hb h
    have hsub' : ∀ K ∈ C, K ∈ D := fun K hK => hsub K (List.mem_cons_of_mem _ hK)
    simp only [elimLoop] at h
    split at h
    · exact ih hsub' hb h
    · rename_i x hx
      split at h
      · rename_i c hc
        split at h
        · rename_i hcp
          obtain ⟨K, hK, h1, h2⟩ := hb x c hc
          exact ⟨L, hsub L (List.mem_cons_self ..), K, hK, x, hx, h1, by simp [h2, hcp]⟩
        · exact ih hsub' hb h
      · refine ih hsub' (fun y b hy => ?_) h
        by_cases hyx : y = x
        · subst hyx
          simp at hy
          exact ⟨L, hsub L (List.mem_cons_self ..), hx, by simp [← hy]⟩
        · simp [hyx] at hy; exact hb y b hy

theorem elimLoop_some (C : List Lit) : ∀ {D : List Lit} {bind : Nat → Option Bool} {e : Bool} {bind' e'}, BindFrom D bind → BindAll D bind →
    (e = false → ∀ L ∈ D, L.boolVar = none) → elimLoop C bind e = some (bind', e') →
    BindFrom (D ++ C) bind' ∧ BindAll (D ++ C) bind' ∧ (e' = false → ∀ L ∈ D ++ C, L.boolVar = none) := by
  induction C with
  | nil => intro D bind e bind' e' h1 h2 h3 h; simp [elimLoop] at h; obtain ⟨rfl, rfl⟩ := h; simpa using ⟨h1, h2, h3⟩
  | cons L C ih =>
    intro D bind e bind' e' h1 h2 h3 h
    have hassoc : D ++ L :: C = (D ++ [L]) ++ C := by simp
    rw [hassoc]
    have h1' : BindFrom (D ++ [L]) bind := fun x b hx => by
      obtain ⟨K, hK, h⟩ := h1 x b hx; exact ⟨K, List.mem_append_left _ hK, h⟩
    simp only [elimLoop] at h
    split at h
    · rename_i hx
      refine ih h1' (fun K hK x hKx => ?_) (fun he K hK => ?_) h
      · rcases List.mem_append.1 hK with hK | hK
        · exact h2 K hK x hKx
        · simp at hK; subst hK; rw [hx] at hKx; simp at hKx
      · rcases List.mem_append.1 hK with hK | hK
        · exact h3 he K hK
        · simp at hK; subst hK; exact hx
    · rename_i x hx
      split at h
      · rename_i c hc
        split at h
        · simp at h
        · rename_i hcp
          refine ih h1' (fun K hK y hKy => ?_) (by simp) h
          rcases List.mem_append.1 hK with hK | hK
          · exact h2 K hK y hKy
          · simp at hK; subst hK; rw [hx] at hKy; simp at hKy; subst hKy
            rw [hc]; revert hcp; cases c <;> cases K.pos <;> simp
      · rename_i hn
        refine ih (fun y b hy => ?_) (fun K hK y hKy => ?_) (by simp) h
        · by_cases hyx : y = x
          · subst hyx
            simp at hy
            exact ⟨L, by simp, hx, by simp [← hy]⟩
          · simp [hyx] at hy; exact h1' y b hy
        · rcases List.mem_append.1 hK with hK | hK
          · have := h2 K hK y hKy
            by_cases hyx : y = x
            · subst hyx; rw [hn] at this; simp at this
            · simpa [hyx] using this
          · simp at hK; subst hK; rw [hx] at hKy; simp at hKy; subst hKy; simp

theorem elimSubst_wt (hs : SigOK sg) {C : List Lit} (hw : sg.WTClause C) {bind : Nat → Option Bool} (hb : BindFrom C bind) : sg.WTSubst (elimSubst bind) := by
  intro x
  unfold elimSubst
  have hty : ∀ b, bind x = some b → sg.vty x = sg.fty 1 := by
    intro b hx
    obtain ⟨L, hL, h1, _⟩ := hb x b hx
    obtain ⟨h3, h4⟩ := boolVar_iff.1 h1
    have := (hw L hL).2.2
    rw [h3, h4] at this; exact this
  cases hx : bind x with
  | none => exact ⟨rfl, trivial⟩
  | some b =>
    cases b with
    | true => exact ⟨(hty _ hx).symm, wt_true hs⟩
    | false => exact ⟨hs.tf.symm.trans (hty _ hx).symm, by simp [tFalse, Sig.wt_app, hs.fargs]⟩

/-- A literal over a Boolean variable. -/
theorem boolVar_true {I : Interp.{u} sg} {v : Nat → I.D} {L : Lit} {x : Nat} (h : L.boolVar = some x) :
    I.LitTrue v L ↔ (if L.pos then v x = I.fn 1 [] else v x ≠ I.fn 1 []) := by
  obtain ⟨h1, h2⟩ := boolVar_iff.1 h
  unfold Interp.LitTrue
  rw [h1, h2, eval_true]; rfl

theorem elim_models (hs : SigOK sg) (I : Interp.{u} sg) {C : List Lit} (hw : sg.WTClause C) : I.Models (elimBoolVars sg C) ↔ I.Models C := by
  unfold elimBoolVars
  cases hl : elimLoop C.reverse (fun _ => none) false with
  | none =>
    obtain ⟨L, hL, K, hK, x, h1, h2, h3⟩ := elimLoop_none (D := C) C.reverse (by simp) (by intro x b h; simp at h) hl
    constructor
    · intro _ v hv
      have e1 := boolVar_true (I := I) (v := v) h1
      have e2 := boolVar_true (I := I) (v := v) h2
      by_cases hc : I.LitTrue v L
      · exact ⟨L, hL, hc⟩
      · refine ⟨K, hK, e2.2 ?_⟩
        rw [e1, h3] at hc
        revert hc
        cases K.pos <;> simp
    · intro _ v hv
      exact ⟨_, List.mem_singleton.2 rfl, by simp [Interp.LitTrue]⟩
  | some r =>
    obtain ⟨bind, e⟩ := r
    obtain ⟨k1, k2, k3⟩ := elimLoop_some (D := []) C.reverse (by intro x b h; simp at h) (by intro L h; simp at h) (by simp) hl
    simp only [List.nil_append] at k1 k2 k3
    have k1' : BindFrom C bind := fun x b hx => by obtain ⟨L, hL, h⟩ := k1 x b hx; exact ⟨L, List.mem_reverse.1 hL, h⟩
    cases e with
    | false => rfl
    | true =>
      simp only [if_true]
      have hsub := elimSubst_wt hs hw k1'
      -- truth of the instantiated literals
      have key : ∀ v, I.Sorted v → ∀ L ∈ C, L.boolVar = none →
          (I.LitTrue v (mkEqn L.pos (L.l.subst (elimSubst bind)) (L.r.subst (elimSubst bind))) ↔ I.LitTrue (fun x => I.eval v (elimSubst bind x)) L) := by
        intro v hv L hL _
        have hwl : sg.WTLit (L.subst (elimSubst bind)) := wtLit_subst (hw L hL) hsub
        rw [mkEqn_true hs I hv hwl]
        exact litTrue_subst I v _ L
      have htt : ∀ v, I.Sorted v → ¬ I.LitTrue v (mkEqn false (tTrue.subst (elimSubst bind)) (tTrue.subst (elimSubst bind))) := by
        intro v hv
        have : mkEqn false (tTrue.subst (elimSubst bind)) (tTrue.subst (elimSubst bind)) = ⟨false, tTrue, tTrue⟩ := by
          simp [mkEqn, tTrue, tFalse, Term.subst, Term.substL]
        rw [this]; simp [Interp.LitTrue]
      have hmem : ∀ v, I.Sorted v → (I.ClauseTrue v (removeDup (removeResolved sg ((C.map fun L => if L.boolVar.isSome then ⟨false, tTrue, tTrue⟩ else L).map
          fun L => mkEqn L.pos (L.l.subst (elimSubst bind)) (L.r.subst (elimSubst bind))))) ↔
          ∃ L ∈ C, L.boolVar = none ∧ I.LitTrue (fun x => I.eval v (elimSubst bind x)) L) := by
        intro v hv
        rw [InferProof.finish_true]
        simp only [Interp.ClauseTrue, List.mem_map]
        constructor
        · rintro ⟨M, ⟨K, ⟨L, hL, rfl⟩, rfl⟩, ht⟩
          cases hb : L.boolVar with
          | none => simp only [hb, Option.isSome_none, Bool.false_eq_true, if_false] at ht; exact ⟨L, hL, hb, (key v hv L hL hb).1 ht⟩
          | some x => simp only [hb, Option.isSome_some, if_true] at ht; exact absurd ht (htt v hv)
        · rintro ⟨L, hL, hb, ht⟩
          exact ⟨_, ⟨_, ⟨L, hL, rfl⟩, rfl⟩, by simp only [hb, Option.isSome_none, Bool.false_eq_true, if_false]; exact (key v hv L hL hb).2 ht⟩
      constructor
      · intro h v hv
        by_cases hc : ∃ L ∈ C, L.boolVar.isSome ∧ I.LitTrue v L
        · obtain ⟨L, hL, _, ht⟩ := hc; exact ⟨L, hL, ht⟩
        · obtain ⟨L, hL, hb, ht⟩ := (hmem v hv).1 (h v hv)
          refine ⟨L, hL, ?_⟩
          have e : (fun x => I.eval v (elimSubst bind x)) = v := by
            funext x
            cases hx : bind x with
            | none => simp [elimSubst, hx, Interp.eval]
            | some b =>
              obtain ⟨K, hK, h1, h2⟩ := k1' x b hx
              have hf : ¬ I.LitTrue v K := fun ht => hc ⟨K, hK, by simp [h1], ht⟩
              rw [boolVar_true h1, h2] at hf
              cases b with
              | true => simp at hf; simp [elimSubst, hx, eval_true, hf]
              | false =>
                simp at hf
                have hty := (hw K hK).2.2
                obtain ⟨h3, h4⟩ := boolVar_iff.1 h1
                rw [h3, h4] at hty
                have hmx : I.mem (sg.fty 1) (v x) := by have := hv x; rwa [show sg.vty x = sg.fty 1 from hty] at this
                simp only [elimSubst, hx, eval_false]
                exact ((I.bool2 _ hmx).resolve_left hf).symm
          rwa [e] at ht
      · intro h v hv
        refine (hmem v hv).2 ?_
        obtain ⟨L, hL, ht⟩ := h _ (sorted_subst I hv hsub)
        refine ⟨L, hL, ?_, ht⟩
        cases hb : L.boolVar with
        | none => rfl
        | some x =>
          exfalso
          have hx := k2 L (List.mem_reverse.2 hL) x hb
          rw [boolVar_true hb] at ht
          cases hp : L.pos with
          | true =>
            rw [hp] at hx
            simp only [hp, if_true, elimSubst, hx, Bool.not_true, eval_false] at ht
            exact I.tf ht.symm
          | false =>
            rw [hp] at hx
            simp [hp, elimSubst, hx, eval_true] at ht

theorem elim_mem {C : List Lit} {M : Lit} (h : M ∈ elimBoolVars sg C) : M = ⟨true, tTrue, tTrue⟩ ∨ M ∈ C ∨
    ∃ bind, BindFrom C bind ∧ ∃ L : Lit, (L ∈ C ∨ L = ⟨false, tTrue, tTrue⟩) ∧ M = mkEqn L.pos (L.l.subst (elimSubst bind)) (L.r.subst (elimSubst bind)) := by
  unfold elimBoolVars at h
  cases hl : elimLoop C.reverse (fun _ => none) false with
  | none => rw [hl] at h; simp at h; exact .inl h
  | some r =>
    obtain ⟨bind, e⟩ := r
    rw [hl] at h
    obtain ⟨k1, k2, k3⟩ := elimLoop_some (D := []) C.reverse (by intro x b h; simp at h) (by intro L h; simp at h) (by simp) hl
    simp only [List.nil_append] at k1
    have k1' : BindFrom C bind := fun x b hx => by obtain ⟨L, hL, h⟩ := k1 x b hx; exact ⟨L, List.mem_reverse.1 hL, h⟩
    cases e with
    | false => exact .inr (.inl h)
    | true =>
      simp only [if_true] at h
      have := InferProof.finish_mem h
      simp only [List.mem_map] at this
      obtain ⟨K, ⟨L, hL, rfl⟩, rfl⟩ := this
      refine .inr (.inr ⟨bind, k1', ?_⟩)
      cases hb : L.boolVar with
      | none => exact ⟨L, .inl hL, by simp⟩
      | some x => exact ⟨_, .inr rfl, by simp⟩

theorem elim_wt (hs : SigOK sg) {C : List Lit} (hw : sg.WTClause C) : sg.WTClause (elimBoolVars sg C) := by
  intro M hM
  have htt : ∀ p, sg.WTLit ⟨p, tTrue, tTrue⟩ := fun p => ⟨wt_true hs, wt_true hs, rfl⟩
  rcases elim_mem hM with rfl | hM | ⟨bind, hb, L, hL, rfl⟩
  · exact htt true
  · exact hw M hM
  · have hwl : sg.WTLit L := by rcases hL with hL | rfl; exact hw L hL; exact htt false
    exact mkEqn_wt hs (wtLit_subst hwl (elimSubst_wt hs hw hb))

theorem elim_below {n : Nat} (hn : 2 < n) {C : List Lit} (hw : ClauseBelow n C) : ClauseBelow n (elimBoolVars sg C) := by
  intro M hM
  have ht : tTrue.SymsBelow n := by rw [tTrue, Term.symsBelow_app]; exact ⟨by omega, by simp⟩
  have hf : tFalse.SymsBelow n := by rw [tFalse, Term.symsBelow_app]; exact ⟨hn, by simp⟩
  rcases elim_mem hM with rfl | hM | ⟨bind, hb, L, hL, rfl⟩
  · exact ⟨ht, ht⟩
  · exact hw M hM
  · have hwl : L.l.SymsBelow n ∧ L.r.SymsBelow n := by rcases hL with hL | rfl; exact hw L hL; exact ⟨ht, ht⟩
    have hsub : ∀ y, (elimSubst bind y).SymsBelow n := by
      intro y; unfold elimSubst
      split
      · exact ht
      · exact hf
      · trivial
    exact mkEqn_below (by omega) (symsBelow_subst hwl.1 fun _ _ => hsub _) (symsBelow_subst hwl.2 fun _ _ => hsub _)

end Verif.CNFProof
