import Verif.Formulas.CNFRename
import Verif.Clauses.SplitSpec
import Mathlib.Tactic.Choose

/-!
# Skolemization
-/

namespace Verif.CNFProof
open Form SemProof Props

universe u
variable {sg : Sig}

/-- The new symbols are declared with the types of the variables they are applied to and of the variable they replace. -/
def Declared (sg : Sig) (ds : List SkDecl) : Prop :=
  ∀ d ∈ ds, sg.fargs d.code = d.args.map sg.vty ∧ sg.fty d.code = d.ty ∧ ¬ sg.distinct d.code

theorem Declared.append {a b : List SkDecl} (h : Declared sg (a ++ b)) : Declared sg a ∧ Declared sg b :=
  ⟨fun d hd => h d (List.mem_append_left _ hd), fun d hd => h d (List.mem_append_right _ hd)⟩

theorem isGround_fv {f : Form} (h : f.isGround = true) (x : Nat) : ¬ f.FV x := by
  induction f with
  | lit p l r =>
    simp [isGround] at h
    intro hx; simp [FV, h] at hx
  | atom t => simp [isGround] at h; intro hx; simp [FV, h] at hx
  | not f ih => exact ih h
  | bin op f g ih1 ih2 =>
    simp [isGround] at h
    rintro (hx | hx)
    · exact ih1 h.1 hx
    · exact ih2 h.2 hx
  | qu => simp [isGround] at h

theorem isGround_binders {f : Form} (h : f.isGround = true) : binders f = [] := by
  induction f with
  | lit p l r => rfl
  | atom t => rfl
  | not f ih => exact ih h
  | bin op f g ih1 ih2 => simp [isGround] at h; simp [binders, ih1 h.1, ih2 h.2]
  | qu => simp [isGround] at h

theorem isGround_qf {f : Form} (h : f.isGround = true) : QF f := by
  induction f with
  | lit p l r => trivial
  | atom t => trivial
  | not f ih => exact ih h
  | bin op f g ih1 ih2 => simp [isGround] at h; exact ⟨ih1 h.1, ih2 h.2⟩
  | qu => simp [isGround] at h

/-- Where the variables bound by quantifiers stand in the bindings. -/
structure SkInv (f : Form) (vs : List Nat) (σ : Nat → Term) : Prop where
  nodup : (binders f).Nodup
  new : ∀ y ∈ binders f, y ∉ vs
  self : ∀ y ∈ binders f, σ y = .var y
  apart : ∀ y ∈ binders f, ∀ z, z ≠ y → y ∉ (σ z).vars

theorem SkInv.left {op : BOp} {f g : Form} {vs : List Nat} {σ : Nat → Term} (h : SkInv (bin op f g) vs σ) : SkInv f vs σ :=
  ⟨(List.nodup_append.1 h.nodup).1, fun y hy => h.new y (List.mem_append_left _ hy), fun y hy => h.self y (List.mem_append_left _ hy),
    fun y hy => h.apart y (List.mem_append_left _ hy)⟩

theorem SkInv.right {op : BOp} {f g : Form} {vs : List Nat} {σ : Nat → Term} (h : SkInv (bin op f g) vs σ) : SkInv g vs σ :=
  ⟨(List.nodup_append.1 h.nodup).2.1, fun y hy => h.new y (List.mem_append_right _ hy), fun y hy => h.self y (List.mem_append_right _ hy),
    fun y hy => h.apart y (List.mem_append_right _ hy)⟩

theorem SkInv.all {x : Nat} {q : Bool} {f : Form} {vs : List Nat} {σ : Nat → Term} (h : SkInv (qu q x f) vs σ) : SkInv f (vs ++ [x]) σ := by
  have hn := List.nodup_cons.1 h.nodup
  refine ⟨hn.2, fun y hy => ?_, fun y hy => h.self y (List.mem_cons_of_mem _ hy), fun y hy => h.apart y (List.mem_cons_of_mem _ hy)⟩
  have h1 := h.new y (List.mem_cons_of_mem _ hy)
  have h2 : y ≠ x := fun e => hn.1 (e ▸ hy)
  simp [h1, h2]

theorem vars_sk (n : Nat) (vs : List Nat) (y : Nat) : y ∈ (Term.app n (vs.map Term.var)).vars ↔ y ∈ vs := by
  simp only [Term.vars, Term.mem_varsL, List.mem_map]
  constructor
  · rintro ⟨t, ⟨a, ha, rfl⟩, hy⟩
    simp [Term.vars] at hy; subst hy; exact ha
  · intro hy; exact ⟨.var y, ⟨y, hy, rfl⟩, by simp [Term.vars]⟩

theorem SkInv.ex {x n : Nat} {q : Bool} {f : Form} {vs : List Nat} {σ : Nat → Term} (h : SkInv (qu q x f) vs σ) :
    SkInv f vs (fun z => if z = x then .app n (vs.map .var) else σ z) := by
  have hn := List.nodup_cons.1 h.nodup
  have hne : ∀ y ∈ binders f, y ≠ x := fun y hy e => hn.1 (e ▸ hy)
  refine ⟨hn.2, fun y hy => h.new y (List.mem_cons_of_mem _ hy), fun y hy => ?_, fun y hy z hz => ?_⟩
  · simp only [if_neg (hne y hy)]; exact h.self y (List.mem_cons_of_mem _ hy)
  · split
    · rw [vars_sk]; exact h.new y (List.mem_cons_of_mem _ hy)
    · exact h.apart y (List.mem_cons_of_mem _ hy) z hz

/-- The two valuations below a universal quantifier. -/
theorem updv_all (I : Interp.{u} sg) {x : Nat} {q : Bool} {f : Form} {vs : List Nat} {σ : Nat → Term} (h : SkInv (qu q x f) vs σ) (v : Nat → I.D) (d : I.D) :
    (fun z => I.eval (updv v x d) (σ z)) = updv (fun z => I.eval v (σ z)) x d := by
  funext z
  by_cases hz : z = x
  · subst hz
    rw [h.self z (List.mem_cons_self ..)]
    simp [updv, Interp.eval]
  · simp only [updv, if_neg hz]
    refine eval_congr I fun y hy => ?_
    have : y ≠ x := fun e => h.apart x (List.mem_cons_self ..) z hz (e ▸ hy)
    show updv v x d y = v y
    simp [updv, this]

theorem wt_sk {n x : Nat} {vs : List Nat} (h : sg.fargs n = vs.map sg.vty ∧ sg.fty n = sg.vty x) :
    sg.ty (.app n (vs.map .var)) = sg.vty x ∧ sg.WT (.app n (vs.map .var)) := by
  refine ⟨h.2, Sig.wt_app.2 ⟨?_, ?_⟩⟩
  · rw [h.1, List.map_map]; rfl
  · intro t ht
    obtain ⟨y, _, rfl⟩ := List.mem_map.1 ht
    trivial

theorem wtSubst_sk {σ : Nat → Term} (hσ : sg.WTSubst σ) {n x : Nat} {vs : List Nat} (h : sg.fargs n = vs.map sg.vty ∧ sg.fty n = sg.vty x) :
    sg.WTSubst (fun z => if z = x then .app n (vs.map .var) else σ z) := by
  intro z
  by_cases hz : z = x
  · subst hz; simp only [if_true]; exact wt_sk h
  · simp only [if_neg hz]; exact hσ z

theorem skolem_ground {f : Form} (h : f.isGround = true) (vs : List Nat) (σ : Nat → Term) (n : Nat) : skolemize sg f vs σ n = (f, n, []) := by
  cases f with
  | lit => simp only [skolemize, h, if_true]
  | atom => rfl
  | not => simp only [skolemize, h, if_true]
  | bin => simp only [skolemize, h, if_true]
  | qu => simp [isGround] at h

/-- The result implies the formula. -/
theorem skolem_sound (I : Interp.{u} sg) (f : Form) : ∀ (vs : List Nat) (σ : Nat → Term) (n : Nat), f.IsNNF → SkInv f vs σ → sg.WTSubst σ →
    Declared sg (skolemize sg f vs σ n).2.2 → ∀ v, I.Sorted v → (skolemize sg f vs σ n).1.Holds I v → f.Holds I (fun x => I.eval v (σ x)) := by
  induction f with
  | lit p l r =>
    intro vs σ n hn hi hσ hd v hv h
    by_cases hg : (lit p l r).isGround = true
    · rw [skolem_ground hg] at h
      exact (holds_congr I fun x hx => absurd hx (isGround_fv hg x)).1 h
    · simp only [skolemize, if_neg hg, Holds, Interp.LitTrue, eval_subst] at h
      exact h
  | atom t => intro vs σ n hn; exact hn.elim
  | not f ih => intro vs σ n hn; exact hn.elim
  | bin op f g ih1 ih2 =>
    intro vs σ n hn hi hσ hd v hv h
    by_cases hg : (bin op f g).isGround = true
    · rw [skolem_ground hg] at h
      exact (holds_congr I fun x hx => absurd hx (isGround_fv hg x)).1 h
    · simp only [skolemize, if_neg hg] at h hd
      have h1 := ih1 vs σ n hn.2.1 hi.left hσ hd.append.1 v hv
      have h2 := ih2 vs σ _ hn.2.2 hi.right hσ hd.append.2 v hv
      rcases hn.1 with rfl | rfl
      · exact ⟨h1 h.1, h2 h.2⟩
      · exact h.imp h1 h2
  | qu q x f ih =>
    intro vs σ n hn hi hσ hd v hv h
    cases q with
    | true =>
      simp only [skolemize] at h hd
      intro d hdm
      have hvd : I.Sorted (updv v x d) := by
        intro z
        by_cases hz : z = x
        · subst hz; simpa [updv] using hdm
        · simpa [updv, hz] using hv z
      rw [← updv_all I hi]
      exact ih _ σ n hn hi.all hσ hd _ hvd (h d hdm)
    | false =>
      simp only [skolemize] at h hd
      have hdx := hd ⟨n, vs, sg.vty x⟩ (List.mem_cons_self ..)
      have hw := wtSubst_sk (x := x) hσ ⟨hdx.1, hdx.2.1⟩
      have := ih vs _ (n + 1) hn hi.ex hw (fun d hm => hd d (List.mem_cons_of_mem _ hm)) v hv h
      have hwx := wt_sk (x := x) ⟨hdx.1, hdx.2.1⟩
      refine ⟨I.eval v (.app n (vs.map .var)), hwx.1 ▸ eval_mem I hv hwx.2, ?_⟩
      have e : (fun z => I.eval v (if z = x then .app n (vs.map .var) else σ z)) =
          updv (fun z => I.eval v (σ z)) x (I.eval v (.app n (vs.map .var))) := by
        funext z
        by_cases hz : z = x <;> simp [updv, hz]
      rwa [e] at this

/-! ## Models of the formula can be extended -/

theorem skolem_next (f : Form) : ∀ (vs : List Nat) (σ : Nat → Term) (n : Nat), n ≤ (skolemize sg f vs σ n).2.1 ∧
    ∀ d ∈ (skolemize sg f vs σ n).2.2, n ≤ d.code ∧ d.code < (skolemize sg f vs σ n).2.1 := by
  induction f with
  | lit p l r => intro vs σ n; simp only [skolemize]; split <;> simp
  | atom t => intro vs σ n; simp [skolemize]
  | not f ih => intro vs σ n; simp only [skolemize]; split; simp; exact ih vs σ n
  | bin op f g ih1 ih2 =>
    intro vs σ n
    simp only [skolemize]
    split
    · simp
    · obtain ⟨h1, h2⟩ := ih1 vs σ n
      obtain ⟨h3, h4⟩ := ih2 vs σ (skolemize sg f vs σ n).2.1
      refine ⟨Nat.le_trans h1 h3, fun d hd => ?_⟩
      rcases List.mem_append.1 hd with hd | hd
      · have := h2 d hd; show n ≤ _ ∧ _ < (skolemize sg g vs σ _).2.1; omega
      · have := h4 d hd; show n ≤ _ ∧ _ < (skolemize sg g vs σ _).2.1; omega
  | qu q x f ih =>
    intro vs σ n
    cases q with
    | true => exact ih _ _ _
    | false =>
      simp only [skolemize]
      obtain ⟨h1, h2⟩ := ih vs (fun z => if z = x then .app n (vs.map .var) else σ z) (n + 1)
      refine ⟨by show n ≤ (skolemize sg f vs _ _).2.1; omega, fun d hd => ?_⟩
      rcases List.mem_cons.1 hd with rfl | hd
      · show n ≤ n ∧ n < (skolemize sg f vs _ _).2.1; omega
      · have := h2 d hd; show n ≤ _ ∧ _ < (skolemize sg f vs _ _).2.1; omega

theorem symsBelow_mono {n m : Nat} (h : n ≤ m) (t : Term) (ht : t.SymsBelow n) : t.SymsBelow m := by
  induction t using Term.ind with
  | hv y => trivial
  | ha f ts ih =>
    rw [Term.symsBelow_app] at ht ⊢
    exact ⟨by omega, fun t hm => ih t hm (ht.2 t hm)⟩

theorem form_symsBelow_mono {n m : Nat} (h : n ≤ m) {f : Form} (hf : f.SymsBelow n) : f.SymsBelow m := by
  induction f with
  | lit p l r => exact ⟨symsBelow_mono h _ hf.1, symsBelow_mono h _ hf.2⟩
  | atom t => exact symsBelow_mono h _ hf
  | not f ih => exact ih hf
  | bin op f g ih1 ih2 => exact ⟨ih1 hf.1, ih2 hf.2⟩
  | qu q x f ih => exact ⟨trivial, ih hf.2⟩

theorem syms_sk {n : Nat} {vs : List Nat} : (Term.app n (vs.map .var)).SymsBelow (n + 1) := by
  rw [Term.symsBelow_app]
  refine ⟨Nat.lt_succ_self n, fun t ht => ?_⟩
  obtain ⟨y, _, rfl⟩ := List.mem_map.1 ht
  trivial

theorem syms_skSubst {σ : Nat → Term} {n x : Nat} {vs : List Nat} (h : ∀ z, (σ z).SymsBelow n) (z : Nat) :
    (if z = x then Term.app n (vs.map .var) else σ z).SymsBelow (n + 1) := by
  split
  · exact syms_sk
  · exact symsBelow_mono (Nat.le_succ n) _ (h z)

theorem skolem_syms (f : Form) : ∀ (vs : List Nat) (σ : Nat → Term) (n : Nat), f.SymsBelow n → (∀ z, (σ z).SymsBelow n) →
    (skolemize sg f vs σ n).1.SymsBelow (skolemize sg f vs σ n).2.1 := by
  induction f with
  | lit p l r =>
    intro vs σ n hf hσ
    simp only [skolemize]
    split
    · exact hf
    · exact ⟨symsBelow_subst hf.1 fun _ _ => hσ _, symsBelow_subst hf.2 fun _ _ => hσ _⟩
  | atom t => intro vs σ n hf hσ; exact hf
  | not f ih =>
    intro vs σ n hf hσ
    simp only [skolemize]
    split
    · exact hf
    · exact ih vs σ n hf hσ
  | bin op f g ih1 ih2 =>
    intro vs σ n hf hσ
    simp only [skolemize]
    split
    · exact hf
    · have h1 := (skolem_next (sg := sg) f vs σ n).1
      have h2 := (skolem_next (sg := sg) g vs σ (skolemize sg f vs σ n).2.1).1
      exact ⟨form_symsBelow_mono h2 (ih1 vs σ n hf.1 hσ),
        ih2 vs σ _ (form_symsBelow_mono h1 hf.2) fun z => symsBelow_mono h1 _ (hσ z)⟩
  | qu q x f ih =>
    intro vs σ n hf hσ
    cases q with
    | true => exact ⟨trivial, ih _ _ _ hf.2 hσ⟩
    | false => exact ih _ _ _ (form_symsBelow_mono (Nat.le_succ n) hf.2) (syms_skSubst hσ)

/-- Evaluation does not depend on symbols that do not occur. -/
theorem eval_reint (I : Interp.{u} sg) {F : Nat → List I.D → I.D} (h : I.FnOK F) {n : Nat} (hF : ∀ s, s < n → F s = I.fn s)
    (v : Nat → I.D) (t : Term) (ht : t.SymsBelow n) : (I.reint F h).eval v t = I.eval v t := by
  induction t using Term.ind with
  | hv y => rfl
  | ha f ts ih =>
    rw [Term.symsBelow_app] at ht
    have : ts.map ((I.reint F h).eval v) = ts.map (I.eval v) := List.map_congr_left fun t hm => ih t hm (ht.2 t hm)
    refine (eval_app (I.reint F h) v f ts).trans ?_
    rw [this, eval_app I v f ts]
    show F f _ = _
    rw [hF f ht.1]

theorem litTrue_reint (I : Interp.{u} sg) {F : Nat → List I.D → I.D} (h : I.FnOK F) {n : Nat} (hF : ∀ s, s < n → F s = I.fn s)
    (v : Nat → I.D) (L : Lit) (h1 : L.l.SymsBelow n) (h2 : L.r.SymsBelow n) : (I.reint F h).LitTrue v L ↔ I.LitTrue v L := by
  have e1 := eval_reint I h hF v _ h1
  have e2 := eval_reint I h hF v _ h2
  unfold Interp.LitTrue
  rw [e1, e2]; rfl

theorem holds_reint (I : Interp.{u} sg) {F : Nat → List I.D → I.D} (h : I.FnOK F) {n : Nat} (hn : 1 < n) (hF : ∀ s, s < n → F s = I.fn s)
    (f : Form) : ∀ v : Nat → I.D, f.SymsBelow n → (f.Holds (I.reint F h) v ↔ f.Holds I v) := by
  induction f with
  | lit p l r => intro v hs; exact litTrue_reint I h hF v _ hs.1 hs.2
  | atom t =>
    intro v hs
    have e := eval_reint I h hF v t hs
    have e1 : (I.reint F h).fn 1 [] = I.fn 1 [] := by show F 1 [] = _; rw [hF 1 hn]
    simp only [Holds]
    rw [e, e1]; rfl
  | not f ih => intro v hs; exact not_congr (ih v hs)
  | bin op f g ih1 ih2 => intro v hs; exact bin_congr (ih1 v hs.1) (ih2 v hs.2)
  | qu q x f ih =>
    intro v hs
    cases q with
    | true => exact forall_congr' fun d => imp_congr_right fun _ => ih _ hs.2
    | false => exact exists_congr fun d => and_congr_right fun _ => ih _ hs.2

open Classical in
/-- One more function. -/
theorem fnOK_update (I : Interp.{u} sg) {n : Nat} (hn : 2 < n) (hd : ¬ sg.distinct n) (W : List I.D → I.D) (hW : ∀ ds, I.mem (sg.fty n) (W ds)) :
    I.FnOK (fun s => if s = n then W else I.fn s) := by
  have h1 : (1 : Nat) ≠ n := by omega
  have h2 : (2 : Nat) ≠ n := by omega
  constructor
  · intro f ds h
    by_cases hf : f = n
    · subst hf; simpa using hW ds
    · simpa [hf] using I.fn_mem f ds h
  · simpa [h1, h2] using I.tf
  · simpa [h1, h2] using I.bool2
  · intro f g hf hg hne
    have h3 : f ≠ n := fun e => hd (e ▸ hf)
    have h4 : g ≠ n := fun e => hd (e ▸ hg)
    simpa [h3, h4] using I.dist f g hf hg hne

theorem fnOK_self (I : Interp.{u} sg) : I.FnOK I.fn := ⟨I.fn_mem, I.tf, I.bool2, I.dist⟩

/-- Every model of the formula becomes a model of the result if the new symbols are interpreted suitably. -/
theorem skolem_extend (f : Form) : ∀ (I : Interp.{u} sg) (vs : List Nat) (σ : Nat → Term) (n : Nat), 2 < n → f.IsNNF → SkInv f vs σ →
    (∀ z, f.FV z → ∀ y ∈ (σ z).vars, y ∈ vs) → f.SymsBelow n → (∀ z, (σ z).SymsBelow n) → Declared sg (skolemize sg f vs σ n).2.2 →
    ∃ F, ∃ h : I.FnOK F, (∀ s, ¬ CodesIn n (skolemize sg f vs σ n).2.1 s → F s = I.fn s) ∧
      ∀ v, I.Sorted v → f.Holds I (fun x => I.eval v (σ x)) → (skolemize sg f vs σ n).1.Holds (I.reint F h) v := by
  induction f with
  | lit p l r =>
    intro I vs σ n hn hnn hi hfv hs hσ hd
    refine ⟨I.fn, fnOK_self I, fun _ _ => rfl, fun v hv h => ?_⟩
    by_cases hg : (lit p l r).isGround = true
    · rw [skolem_ground hg]
      exact (holds_congr I fun x hx => absurd hx (isGround_fv hg x)).1 h
    · simp only [skolemize, if_neg hg]
      show Holds I _ v
      simp only [Holds, Interp.LitTrue, eval_subst]
      exact h
  | atom t => intro I vs σ n _ hnn; exact hnn.elim
  | not f ih => intro I vs σ n _ hnn; exact hnn.elim
  | bin op f g ih1 ih2 =>
    intro I vs σ n hn hnn hi hfv hs hσ hd
    by_cases hg : (bin op f g).isGround = true
    · refine ⟨I.fn, fnOK_self I, fun _ _ => rfl, fun v hv h => ?_⟩
      rw [skolem_ground hg]
      exact (holds_congr I fun x hx => absurd hx (isGround_fv hg x)).1 h
    · simp only [skolemize, if_neg hg] at hd ⊢
      have hn1 := (skolem_next (sg := sg) f vs σ n).1
      have hn2 := (skolem_next (sg := sg) g vs σ (skolemize sg f vs σ n).2.1).1
      have hsy := skolem_syms (sg := sg) f vs σ n hs.1 hσ
      obtain ⟨F1, k1, a1, b1⟩ := ih1 I vs σ n hn hnn.2.1 hi.left (fun z hz => hfv z (.inl hz)) hs.1 hσ hd.append.1
      generalize skolemize sg f vs σ n = r at *
      obtain ⟨F2, k2, a2, b2⟩ := ih2 (I.reint F1 k1) vs σ r.2.1 (by omega) hnn.2.2 hi.right (fun z hz => hfv z (.inr hz))
        (form_symsBelow_mono hn1 hs.2) (fun z => symsBelow_mono hn1 _ (hσ z)) hd.append.2
      have hF1 : ∀ s, s < n → F1 s = I.fn s := fun s hlt => a1 s fun hc => by have := hc.1; omega
      have hF2 : ∀ s, s < r.2.1 → F2 s = (I.reint F1 k1).fn s := fun s hlt => a2 s fun hc => by have := hc.1; omega
      have hk2 : I.FnOK F2 := ⟨k2.mem, k2.tf, k2.bool2, k2.dist⟩
      refine ⟨F2, hk2, fun s hc => ?_, fun v hv h => ?_⟩
      · rw [a2 s fun hc' => hc ⟨Nat.le_trans hn1 hc'.1, hc'.2⟩]
        exact a1 s fun hc' => hc ⟨hc'.1, Nat.lt_of_lt_of_le hc'.2 hn2⟩
      · have e1 : f.Holds I (fun x => I.eval v (σ x)) → r.1.Holds (I.reint F2 hk2) v := fun hf =>
          (holds_reint (I.reint F1 k1) k2 (by omega) hF2 r.1 v hsy).2 (b1 v hv hf)
        have e2 : g.Holds I (fun x => I.eval v (σ x)) → (skolemize sg g vs σ r.2.1).1.Holds (I.reint F2 hk2) v := by
          intro hgh
          refine b2 v hv ?_
          have : (fun x => (I.reint F1 k1).eval v (σ x)) = fun x => I.eval v (σ x) := by
            funext x; exact eval_reint I k1 hF1 v _ (hσ x)
          rw [this]
          exact (holds_reint I k1 (by omega) hF1 g _ hs.2).2 hgh
        rcases hnn.1 with rfl | rfl
        · exact ⟨e1 h.1, e2 h.2⟩
        · exact h.imp e1 e2
  | qu q x f ih =>
    intro I vs σ n hn hnn hi hfv hs hσ hd
    cases q with
    | true =>
      simp only [skolemize] at hd ⊢
      have hfv' : ∀ z, f.FV z → ∀ y ∈ (σ z).vars, y ∈ vs ++ [x] := by
        intro z hz y hy
        by_cases hzx : z = x
        · subst hzx
          rw [hi.self z (List.mem_cons_self ..)] at hy
          simp [Term.vars] at hy; simp [hy]
        · exact List.mem_append_left _ (hfv z ⟨hzx, hz⟩ y hy)
      obtain ⟨F, k, a, b⟩ := ih I (vs ++ [x]) σ n hn hnn hi.all hfv' hs.2 hσ hd
      refine ⟨F, k, a, fun v hv h => ?_⟩
      intro (d : I.D) (hdm : I.mem (sg.vty x) d)
      have hvd : I.Sorted (updv v x d) := by
        intro z
        by_cases hz : z = x
        · subst hz; simpa [updv] using hdm
        · simpa [updv, hz] using hv z
      have := h d hdm
      rw [← updv_all I hi] at this
      exact b _ hvd this
    | false =>
      simp only [skolemize] at hd ⊢
      have hdx := hd ⟨n, vs, sg.vty x⟩ (List.mem_cons_self ..)
      simp only at hdx
      -- the choice of a witness
      have hex : ∀ ds : List I.D, ∃ d, I.mem (sg.vty x) d ∧
          ((∃ e, I.mem (sg.vty x) e ∧ ∃ v : Nat → I.D, vs.map v = ds ∧ f.Holds I (updv (fun z => I.eval v (σ z)) x e)) →
            ∃ v : Nat → I.D, vs.map v = ds ∧ f.Holds I (updv (fun z => I.eval v (σ z)) x d)) := by
        intro ds
        by_cases hc : ∃ e, I.mem (sg.vty x) e ∧ ∃ v : Nat → I.D, vs.map v = ds ∧ f.Holds I (updv (fun z => I.eval v (σ z)) x e)
        · obtain ⟨e, he, hx⟩ := hc
          exact ⟨e, he, fun _ => hx⟩
        · obtain ⟨d, hdm⟩ := I.inhab (sg.vty x)
          exact ⟨d, hdm, fun h => absurd h hc⟩
      choose W hW1 hW2 using hex
      have k1 := fnOK_update I hn hdx.2.2 W (fun ds => hdx.2.1 ▸ hW1 ds)
      generalize hF1 : (fun s => if s = n then W else I.fn s) = F1 at k1
      have hF1n : F1 n = W := by rw [← hF1]; simp
      have hF1o : ∀ s, s ≠ n → F1 s = I.fn s := by intro s hne; rw [← hF1]; simp [hne]
      have hF1l : ∀ s, s < n → F1 s = I.fn s := fun s hlt => hF1o s (by omega)
      have hfv' : ∀ z, f.FV z → ∀ y ∈ (if z = x then Term.app n (vs.map .var) else σ z).vars, y ∈ vs := by
        intro z hz y hy
        by_cases hzx : z = x
        · rw [if_pos hzx, vars_sk] at hy; exact hy
        · rw [if_neg hzx] at hy; exact hfv z ⟨hzx, hz⟩ y hy
      obtain ⟨F2, k2, a2, b2⟩ := ih (I.reint F1 k1) vs _ (n + 1) (by omega) hnn hi.ex hfv' (form_symsBelow_mono (Nat.le_succ n) hs.2)
        (syms_skSubst hσ) (fun d hm => hd d (List.mem_cons_of_mem _ hm))
      have hnx := (skolem_next (sg := sg) f vs (fun z => if z = x then .app n (vs.map .var) else σ z) (n + 1)).1
      refine ⟨F2, ⟨k2.mem, k2.tf, k2.bool2, k2.dist⟩, fun s hc => ?_, fun v hv h => ?_⟩
      · have h1 : s ≠ n := fun e => hc ⟨by omega, by show s < (skolemize sg f vs _ (n + 1)).2.1; omega⟩
        have h2 := a2 s fun hc' => hc ⟨by have := hc'.1; omega, hc'.2⟩
        rw [h2]; exact hF1o s h1
      · refine b2 v hv ?_
        obtain ⟨d, hdm, hh⟩ := h
        obtain ⟨v', hv', hh'⟩ := hW2 (vs.map v) ⟨d, hdm, v, rfl, hh⟩
        have e : ∀ z, f.FV z → updv (fun z => I.eval v' (σ z)) x (W (vs.map v)) z =
            (I.reint F1 k1).eval v (if z = x then Term.app n (vs.map .var) else σ z) := by
          intro z hz
          by_cases hzx : z = x
          · simp only [updv, if_pos hzx]
            refine Eq.trans ?_ (eval_app (I.reint F1 k1) v n (vs.map .var)).symm
            show _ = F1 n _
            rw [hF1n, List.map_map]
            rfl
          · simp only [updv, if_neg hzx]
            rw [eval_reint I k1 hF1l v _ (hσ z)]
            refine eval_congr I fun y hy => ?_
            have := hfv z ⟨hzx, hz⟩ y hy
            exact List.map_inj_left.1 hv' y this
        exact (holds_reint I k1 (by omega) hF1l f _ hs.2).2 ((holds_congr I e).1 hh')

end Verif.CNFProof
