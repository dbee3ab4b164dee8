import Verif.HO.NegExtSpec
import Verif.HO.HoInferProof
import Verif.HO.HoInferFlex
import Verif.HO.HoInferComplete
import Mathlib.Tactic.Choose

/-!
# Negative extensionality: the values of the Skolem symbols
-/

namespace Verif
namespace HoInf

variable {G : Nat → HTy}

theorem full_inhabited {M : HInt G} (hF : M.Full) (τ : HTy) : ∃ d, M.mem τ d := by
  induction τ with
  | base n => exact M.inhabited n
  | arr a b _ ih =>
    obtain ⟨d, hd⟩ := ih
    obtain ⟨f, hf, _⟩ := hF a b (fun _ => d) fun _ _ => hd
    exact ⟨f, hf⟩

/-- Functions of several arguments exist. -/
theorem full_arrows {M : HInt G} (hF : M.Full) {τ : HTy} (ss : List HTy) : ∀ (F : List M.D → M.D), (∀ ds, List.Forall₂ M.mem ss ds → M.mem τ (F ds)) →
    ∃ f, M.mem (arrows ss τ) f ∧ ∀ ds, List.Forall₂ M.mem ss ds → M.apps f ds = F ds := by
  induction ss with
  | nil =>
    intro F h
    refine ⟨F [], h [] .nil, fun ds hd => ?_⟩
    cases hd
    rfl
  | cons s ss ih =>
    intro F h
    have h1 : ∀ x, ∃ g, M.mem s x → M.mem (arrows ss τ) g ∧ ∀ ds, List.Forall₂ M.mem ss ds → M.apps g ds = F (x :: ds) := by
      intro x
      by_cases hx : M.mem s x
      · obtain ⟨g, hg⟩ := ih (fun ds => F (x :: ds)) fun ds hd => h _ (.cons hx hd)
        exact ⟨g, fun _ => hg⟩
      · exact ⟨x, fun h => absurd h hx⟩
    choose g hg using h1
    obtain ⟨f, hf, ha⟩ := hF s (arrows ss τ) g fun x hx => (hg x hx).1
    refine ⟨f, hf, fun ds hd => ?_⟩
    cases hd with
    | cons h1 h2 =>
      show M.apps (M.app f _) _ = _
      rw [ha _ h1]
      exact (hg _ h1).2 _ h2

theorem val_agree (M : HInt G) {v w : M.Val} (t : HTm) : (∀ x τ, hasVar x τ t = true → v x τ = w x τ) → M.val v t = M.val w t := by
  induction t using HTm.rec (motive_2 := fun as => (∀ x τ, hasVarL x τ as = true → v x τ = w x τ) → M.vals v as = M.vals w as ∧
      M.val v (.papp as) = M.val w (.papp as)) with
  | var y σ =>
    intro h
    rw [HInt.val, HInt.val]
    exact h y σ (by simp [hasVar])
  | fn f as ih =>
    intro h
    rw [HInt.val, HInt.val, (ih fun x τ hx => h x τ (by rw [hasVar]; exact hx)).1]
  | papp as ih => intro h; exact (ih fun x τ hx => h x τ (by rw [hasVar]; exact hx)).2
  | nil => exact ⟨rfl, rfl⟩
  | cons t ts ih1 ih2 =>
    rename_i h
    have h1 := ih1 fun x τ hx => h x τ (by rw [hasVarL, hx]; rfl)
    have h2 := ih2 fun x τ hx => h x τ (by rw [hasVarL, hx, Bool.or_true])
    exact ⟨by rw [HInt.vals, HInt.vals, h1, h2.1], by rw [HInt.val, HInt.val, h1, h2.1]⟩

theorem val_reI (M : HInt G) {n : Nat} {I : Nat → M.D} {hI : ∀ f, M.mem (G f) (I f)} (h : ∀ f, f < n → I f = M.I f) (v : M.Val) (t : HTm) :
    symBelow n t → (M.reI I hI).val v t = M.val v t := by
  induction t using HTm.rec (motive_2 := fun as => symBelowL n as → (M.reI I hI).vals v as = M.vals v as ∧
      (M.reI I hI).val v (.papp as) = M.val v (.papp as)) with
  | var y σ => intro _; rfl
  | fn f as ih =>
    intro hs
    rw [symBelow] at hs
    show M.apps (I f) ((M.reI I hI).vals v as) = M.apps (M.I f) (M.vals v as)
    rw [h f hs.1]
    exact congrArg (M.apps (M.I f)) (ih hs.2).1
  | papp as ih => intro hs; rw [symBelow] at hs; exact (ih hs).2
  | nil => exact ⟨rfl, rfl⟩
  | cons t ts ih1 ih2 =>
    rename_i hs
    rw [symBelowL] at hs
    exact ⟨congrArg₂ List.cons (ih1 hs.1) (ih2 hs.2).1, congrArg₂ M.apps (ih1 hs.1) (ih2 hs.2).1⟩

theorem lit_reI (M : HInt G) {n : Nat} {I : Nat → M.D} {hI : ∀ f, M.mem (G f) (I f)} (h : ∀ f, f < n → I f = M.I f) (v : M.Val) {c : HLit}
    (hc : litBelow n c) : (M.reI I hI).LitTrue v c ↔ M.LitTrue v c := by
  obtain ⟨p, l, r⟩ := c
  obtain ⟨h1, h2⟩ := hc
  simp only at h1 h2
  cases r with
  | none =>
    simp only [HInt.LitTrue]
    rw [val_reI M h v l h1]
    exact Iff.rfl
  | some r =>
    simp only [HInt.LitTrue]
    rw [val_reI M h v l h1, val_reI M h v r (h2 r rfl)]
    exact Iff.rfl

theorem holds_reI (M : HInt G) {n : Nat} {I : Nat → M.D} {hI : ∀ f, M.mem (G f) (I f)} (h : ∀ f, f < n → I f = M.I f) {cl : List HLit}
    (hc : ∀ c ∈ cl, litBelow n c) : (M.reI I hI).Holds cl ↔ M.Holds cl := by
  constructor
  · intro hh v hv
    obtain ⟨c, hm, ht⟩ := hh v hv
    exact ⟨c, hm, (lit_reI M h v (hc c hm)).1 ht⟩
  · intro hh v hv
    obtain ⟨c, hm, ht⟩ := hh v hv
    exact ⟨c, hm, (lit_reI M h v (hc c hm)).2 ht⟩

theorem symBelow_mono {m n : Nat} (h : m ≤ n) (t : HTm) : symBelow m t → symBelow n t := by
  induction t using HTm.rec (motive_2 := fun as => symBelowL m as → symBelowL n as) with
  | var y σ => intro _; rw [symBelow]; trivial
  | fn f as ih => intro hs; rw [symBelow] at hs ⊢; exact ⟨by omega, ih hs.2⟩
  | papp as ih => intro hs; rw [symBelow] at hs ⊢; exact ih hs
  | nil => rw [symBelowL]; trivial
  | cons t ts ih1 ih2 => rename_i hs; rw [symBelowL] at hs ⊢; exact ⟨ih1 hs.1, ih2 hs.2⟩

theorem litBelow_mono {m n : Nat} (h : m ≤ n) {c : HLit} (hc : litBelow m c) : litBelow n c :=
  ⟨symBelow_mono h _ hc.1, fun r hr => symBelow_mono h _ (hc.2 r hr)⟩

theorem symBelowL_append {n : Nat} {as bs : List HTm} (h1 : symBelowL n as) (h2 : symBelowL n bs) : symBelowL n (as ++ bs) := by
  induction as with
  | nil => exact h2
  | cons a as ih => rw [symBelowL] at h1; rw [List.cons_append, symBelowL]; exact ⟨h1.1, ih h1.2⟩

theorem applyArg_below {n : Nat} {s a : HTm} (h1 : symBelow n s) (h2 : symBelow n a) : symBelow n (applyArg s a) := by
  have h3 : symBelowL n [a] := by rw [symBelowL, symBelowL]; exact ⟨h2, trivial⟩
  cases s with
  | var x τ => rw [applyArg, symBelow, symBelowL]; exact ⟨h1, h3⟩
  | fn f as => rw [symBelow] at h1; rw [applyArg, symBelow]; exact ⟨h1.1, symBelowL_append h1.2 h3⟩
  | papp as => rw [symBelow] at h1; rw [applyArg, symBelow]; exact symBelowL_append h1 h3

/-- The Skolem term. -/
def skTm (n : Nat) (vs : List (Nat × HTy)) : HTm := .fn n (vs.map fun p => .var p.1 p.2)

theorem skTm_below (n : Nat) (vs : List (Nat × HTy)) : symBelow (n + 1) (skTm n vs) := by
  rw [skTm, symBelow]
  refine ⟨by omega, ?_⟩
  induction vs with
  | nil => rw [List.map_nil, symBelowL]; trivial
  | cons p vs ih => rw [List.map_cons, symBelowL, symBelow]; exact ⟨trivial, ih⟩

theorem tyApp_arrows (ss : List HTy) (τ : HTy) : tyApp (arrows ss τ) ss = some τ := by
  induction ss with
  | nil => simp [arrows, tyApp]
  | cons s ss ih => show tyApp (.arr s (arrows ss τ)) (s :: ss) = _; rw [tyApp, if_pos rfl]; exact ih

theorem tysOf_vars (vs : List (Nat × HTy)) : tysOf G (vs.map fun p => .var p.1 p.2) = some (vs.map (·.2)) := by
  induction vs with
  | nil => rfl
  | cons p vs ih => rw [List.map_cons, tysOf, tyOf, ih]; rfl

theorem skTm_ty {n : Nat} {vs : List (Nat × HTy)} {τ : HTy} (h : G n = arrows (vs.map (·.2)) τ) : tyOf G (skTm n vs) = some τ := by
  rw [skTm, tyOf, tysOf_vars, Option.bind_some, h, tyApp_arrows]

theorem vars_skTm {n : Nat} {vs : List (Nat × HTy)} {x : Nat} {σ : HTy} (h : hasVar x σ (skTm n vs) = true) : (x, σ) ∈ vs := by
  rw [skTm, hasVar] at h
  induction vs with
  | nil => simp [hasVarL] at h
  | cons p vs ih =>
    rw [List.map_cons, hasVarL, Bool.or_eq_true] at h
    rcases h with h | h
    · rw [hasVar] at h
      simp only [Bool.and_eq_true, beq_iff_eq, decide_eq_true_eq] at h
      exact List.mem_cons.2 (.inl (Prod.ext h.1.symm h.2.symm))
    · exact List.mem_cons_of_mem _ (ih h)

theorem vars_applyArg {vs : List (Nat × HTy)} {s a : HTm} (h1 : ∀ x σ, hasVar x σ s = true → (x, σ) ∈ vs) (h2 : ∀ x σ, hasVar x σ a = true → (x, σ) ∈ vs)
    (x : Nat) (σ : HTy) (h : hasVar x σ (applyArg s a) = true) : (x, σ) ∈ vs := by
  by_contra hn
  have a1 : hasVar x σ s = false := Bool.eq_false_iff.2 fun h => hn (h1 x σ h)
  have a2 : hasVar x σ a = false := Bool.eq_false_iff.2 fun h => hn (h2 x σ h)
  rw [applyArg_hasVar a1 a2] at h
  cases h

theorem forall2_vals {M : HInt G} {v : M.Val} (hv : M.Typed v) (vs : List (Nat × HTy)) : List.Forall₂ M.mem (vs.map (·.2)) (vs.map fun p => v p.1 p.2) := by
  induction vs with
  | nil => exact .nil
  | cons p vs ih => exact .cons (hv _ _) ih

theorem vals_vars (M : HInt G) (v : M.Val) (vs : List (Nat × HTy)) : M.vals v (vs.map fun p => .var p.1 p.2) = vs.map fun p => v p.1 p.2 := by
  induction vs with
  | nil => rfl
  | cons p vs ih => exact congrArg₂ List.cons rfl ih

/-- One Skolem symbol. -/
theorem negExt_step (M : HInt G) (hF : M.Full) {rest : List HLit} {vs : List (Nat × HTy)} {n : Nat} {l r : HTm} {τ β : HTy}
    (hl : tyOf G l = some (.arr τ β)) (hr : tyOf G r = some (.arr τ β)) (hG : G n = arrows (vs.map (·.2)) τ)
    (vl : ∀ x σ, hasVar x σ l = true → (x, σ) ∈ vs) (vr : ∀ x σ, hasVar x σ r = true → (x, σ) ∈ vs)
    (bl : symBelow n l) (br : symBelow n r) (hb : ∀ c ∈ rest, litBelow n c) (h : M.Holds (⟨false, l, some r⟩ :: rest)) :
    ∃ (I : Nat → M.D) (hI : ∀ f, M.mem (G f) (I f)), (∀ f, f ≠ n → I f = M.I f) ∧
      (M.reI I hI).Holds (⟨false, applyArg l (skTm n vs), some (applyArg r (skTm n vs))⟩ :: rest) := by
  have h1 : ∀ ds, ∃ x, M.mem τ x ∧ ∀ v, M.Typed v → (vs.map fun p => v p.1 p.2) = ds → M.val v l ≠ M.val v r →
      M.app (M.val v l) x ≠ M.app (M.val v r) x := by
    intro ds
    by_cases hd : ∃ v, M.Typed v ∧ (vs.map fun p => v p.1 p.2) = ds ∧ M.val v l ≠ M.val v r
    · obtain ⟨v, hv, he, hn⟩ := hd
      have : ∃ x, M.mem τ x ∧ M.app (M.val v l) x ≠ M.app (M.val v r) x := by
        by_contra hc
        refine hn (M.ext (val_mem M hv l hl) (val_mem M hv r hr) fun x hx => ?_)
        by_contra hq
        exact hc ⟨x, hx, hq⟩
      obtain ⟨x, hx, hq⟩ := this
      refine ⟨x, hx, fun w hw he' _ => ?_⟩
      have ag : ∀ p ∈ vs, v p.1 p.2 = w p.1 p.2 := by
        have : (vs.map fun p => v p.1 p.2) = vs.map fun p => w p.1 p.2 := by rw [he, he']
        exact List.map_inj_left.1 this
      rw [← val_agree M l fun x σ hx => ag (x, σ) (vl x σ hx), ← val_agree M r fun x σ hx => ag (x, σ) (vr x σ hx)]
      exact hq
    · obtain ⟨x, hx⟩ := full_inhabited hF τ
      exact ⟨x, hx, fun v hv he hn => absurd ⟨v, hv, he, hn⟩ hd⟩
  choose F hF1 hF2 using h1
  obtain ⟨f, hf, ha⟩ := full_arrows hF (τ := τ) (vs.map (·.2)) F fun ds _ => hF1 ds
  have hI : ∀ g, M.mem (G g) (if g = n then f else M.I g) := by
    intro g
    split
    · rename_i e; subst e; rw [hG]; exact hf
    · exact M.I_mem g
  have hlow : ∀ g, g < n → (fun g => if g = n then f else M.I g) g = M.I g := fun g hg => if_neg (by omega)
  refine ⟨fun g => if g = n then f else M.I g, hI, fun g hg => if_neg hg, fun v hv => ?_⟩
  obtain ⟨c, hc, ht⟩ := h v hv
  rcases List.mem_cons.1 hc with rfl | hc
  · refine ⟨_, List.mem_cons_self, ?_⟩
    simp only [HInt.LitTrue, Bool.false_eq_true, if_false] at ht ⊢
    rw [applyArg_val _ v hl, applyArg_val _ v hr, val_reI M hlow v l bl, val_reI M hlow v r br]
    have es : (M.reI _ hI).val v (skTm n vs) = F (vs.map fun p => v p.1 p.2) := by
      refine (congrArg (M.apps (if n = n then f else M.I n)) (vals_vars _ v vs)).trans ?_
      rw [if_pos rfl]
      exact ha _ (forall2_vals (M := M) hv vs)
    rw [es]
    exact hF2 _ v hv rfl ht
  · exact ⟨c, List.mem_cons_of_mem _ hc, (lit_reI M hlow v (hb c hc)).2 ht⟩

theorem negExtLit_below {rest : List HLit} {vs : List (Nat × HTy)} (τs : List HTy) : ∀ {n : Nat} {l r : HTm}, symBelow n l → symBelow n r →
    (∀ c ∈ rest, litBelow n c) → ∀ cl ∈ negExtLit rest vs n l r τs, ∀ c ∈ cl, litBelow (n + τs.length) c := by
  induction τs with
  | nil => intro n l r _ _ _ cl h; simp [negExtLit] at h
  | cons τ τs ih =>
    intro n l r hl hr hb cl hcl c hc
    rw [negExtLit] at hcl
    have hl' : symBelow (n + 1) (applyArg l (skTm n vs)) := applyArg_below (symBelow_mono (by omega) _ hl) (skTm_below n vs)
    have hr' : symBelow (n + 1) (applyArg r (skTm n vs)) := applyArg_below (symBelow_mono (by omega) _ hr) (skTm_below n vs)
    rcases List.mem_cons.1 hcl with rfl | hcl
    · rcases List.mem_cons.1 hc with rfl | hc
      · refine ⟨symBelow_mono (by simp) _ hl', fun t ht => ?_⟩
        cases ht
        exact symBelow_mono (by simp) _ hr'
      · exact litBelow_mono (by omega) (hb c hc)
    · have := ih hl' hr' (fun d hd => litBelow_mono (by omega) (hb d hd)) cl hcl c hc
      exact litBelow_mono (by simp; omega) this

theorem negExtLit_sound {rest : List HLit} {vs : List (Nat × HTy)} (τs : List HTy) : ∀ (M : HInt G) (_ : M.Full) {n : Nat} {l r : HTm} {τ : HTy},
    tyOf G l = some (arrows τs τ) → tyOf G r = some (arrows τs τ) → (∀ i (h : i < τs.length), G (n + i) = arrows (vs.map (·.2)) τs[i]) →
    (∀ x σ, hasVar x σ l = true → (x, σ) ∈ vs) → (∀ x σ, hasVar x σ r = true → (x, σ) ∈ vs) →
    symBelow n l → symBelow n r → (∀ c ∈ rest, litBelow n c) → M.Holds (⟨false, l, some r⟩ :: rest) →
    ∃ (I : Nat → M.D) (hI : ∀ f, M.mem (G f) (I f)), (∀ f, f < n → I f = M.I f) ∧ ∀ cl ∈ negExtLit rest vs n l r τs, (M.reI I hI).Holds cl := by
  induction τs with
  | nil => intro M _ n l r τ _ _ _ _ _ _ _ _ _; exact ⟨M.I, M.I_mem, fun _ _ => rfl, by simp [negExtLit]⟩
  | cons σ τs ih =>
    intro M hF n l r τ hl hr hG vl vr bl br hb h
    have hG0 : G n = arrows (vs.map (·.2)) σ := hG 0 (by simp)
    obtain ⟨I, hI, e1, h1⟩ := negExt_step M hF hl hr hG0 vl vr bl br hb h
    have hl' : symBelow (n + 1) (applyArg l (skTm n vs)) := applyArg_below (symBelow_mono (by omega) _ bl) (skTm_below n vs)
    have hr' : symBelow (n + 1) (applyArg r (skTm n vs)) := applyArg_below (symBelow_mono (by omega) _ br) (skTm_below n vs)
    have hb' : ∀ c ∈ rest, litBelow (n + 1) c := fun d hd => litBelow_mono (by omega) (hb d hd)
    obtain ⟨J, hJ, e2, h2⟩ := ih (M.reI I hI) hF (n := n + 1) (applyArg_ty hl (skTm_ty hG0)) (applyArg_ty hr (skTm_ty hG0))
      (fun i hi => by
        have := hG (i + 1) (by simpa using hi)
        rw [show n + 1 + i = n + (i + 1) by omega, this]
        rfl)
      (vars_applyArg vl fun _ _ => vars_skTm) (vars_applyArg vr fun _ _ => vars_skTm) hl' hr' hb' h1
    refine ⟨J, hJ, fun f hf => (e2 f (by omega)).trans (e1 f (by omega)), fun cl hcl => ?_⟩
    rw [negExtLit] at hcl
    rcases List.mem_cons.1 hcl with rfl | hcl
    · refine (holds_reI (M.reI I hI) (I := J) (hI := hJ) e2 fun c hc => ?_).2 h1
      rcases List.mem_cons.1 hc with rfl | hc
      · exact ⟨hl', fun t ht => by cases ht; exact hr'⟩
      · exact hb' c hc
    · exact h2 cl hcl

theorem arrows_args (τ : HTy) : arrows τ.args (.base τ.target) = τ := by
  induction τ with
  | base n => rfl
  | arr a b _ ih => show HTy.arr a (arrows b.args (.base b.target)) = _; rw [ih]

theorem negExt_sound {ty : HTm → HTy} {sel : HLit → Bool} {vars : HLit → List (Nat × HTy)} (cs : List HLit) : ∀ (M : HInt G) (_ : M.Full) (n : Nat)
    (pre : List HLit), (∀ c ∈ pre ++ cs, LitTyped G c) → (∀ c ∈ cs, tyOf G c.l = some (ty c.l)) →
    (∀ c ∈ cs, ∀ x σ, litHasVar x σ c = true → (x, σ) ∈ vars c) → (∀ c ∈ pre ++ cs, litBelow n c) → SkolemTypes G ty sel vars n cs → M.Holds (pre ++ cs) →
    ∃ (I : Nat → M.D) (hI : ∀ f, M.mem (G f) (I f)), (∀ f, f < n → I f = M.I f) ∧ ∀ cl ∈ negExt ty sel vars n pre cs, (M.reI I hI).Holds cl := by
  induction cs with
  | nil => intro M _ n pre _ _ _ _ _ _; exact ⟨M.I, M.I_mem, fun _ _ => rfl, by simp [negExt]⟩
  | cons c cs ih =>
    intro M hF n pre hT ht hv hb hS h
    have skip : SkolemTypes G ty sel vars n cs → ∃ (I : Nat → M.D) (hI : ∀ f, M.mem (G f) (I f)), (∀ f, f < n → I f = M.I f) ∧
        ∀ cl ∈ negExt ty sel vars n (pre ++ [c]) cs, (M.reI I hI).Holds cl := fun hS =>
      ih M hF n (pre ++ [c]) (by simpa using hT) (fun d hd => ht d (List.mem_cons_of_mem _ hd)) (fun d hd => hv d (List.mem_cons_of_mem _ hd))
        (by simpa using hb) hS (by simpa using h)
    rw [negExt]
    rw [SkolemTypes] at hS
    cases hr : c.r with
    | none =>
      rw [hr] at hS
      exact skip hS
    | some r =>
      rw [hr] at hS
      simp only [Option.isSome_some, Bool.true_and] at hS
      simp only
      by_cases hp : (!c.pos && sel c) = true
      · rw [if_pos hp] at hS
        rw [if_pos hp]
        have hpos : c.pos = false := by
          rw [Bool.and_eq_true] at hp
          simpa using hp.1
        have ec : c = ⟨false, c.l, some r⟩ := by cases c; simp only at hr hpos; rw [hr, hpos]
        have hc := hT c (by simp)
        unfold LitTyped at hc
        rw [hr] at hc
        obtain ⟨τ, h1, h2⟩ := hc
        have h3 := ht c List.mem_cons_self
        rw [h1] at h3
        have h3 : τ = ty c.l := Option.some.inj h3
        rw [h3, ← arrows_args (ty c.l)] at h1 h2
        have hvc := hv c List.mem_cons_self
        have hbc := hb c (by simp)
        have hbr : ∀ d ∈ pre ++ cs, litBelow n d := fun d hd => hb d (by
          simp only [List.mem_append, List.mem_cons] at hd ⊢
          tauto)
        obtain ⟨I, hI, e1, k1⟩ := negExtLit_sound (rest := pre ++ cs) (vs := vars c) (ty c.l).args M hF (n := n) h1 h2 hS.1
          (fun x σ hx => hvc x σ (by rw [litHasVar, hx]; rfl)) (fun x σ hx => hvc x σ (by rw [litHasVar, hr]; simp [hx])) hbc.1 (hbc.2 r hr) hbr
          (holds_subset h fun d hd => by
            rw [← ec]
            simp only [List.mem_append, List.mem_cons] at hd ⊢
            tauto)
        have hcl : (M.reI I hI).Holds (pre ++ c :: cs) := (holds_reI M e1 hb).2 h
        obtain ⟨J, hJ, e2, k2⟩ := ih (M.reI I hI) hF (n + (ty c.l).args.length) (pre ++ [c]) (by simpa using hT)
          (fun d hd => ht d (List.mem_cons_of_mem _ hd)) (fun d hd => hv d (List.mem_cons_of_mem _ hd))
          (fun d hd => litBelow_mono (by omega) (hb d (by simpa using hd))) hS.2 (by simpa using hcl)
        refine ⟨J, hJ, fun f hf => (e2 f (by omega)).trans (e1 f hf), fun cl hm => ?_⟩
        rcases List.mem_append.1 hm with hm | hm
        · exact (holds_reI (M.reI I hI) (I := J) (hI := hJ) e2 fun d hd =>
            negExtLit_below _ hbc.1 (hbc.2 r hr) hbr cl hm d hd).2 (k1 cl hm)
        · exact k2 cl hm
      · rw [if_neg hp] at hS
        rw [if_neg hp]
        exact skip hS

/-! ## Which clauses are made -/

theorem negExtLit_mem (rest : List HLit) (vs : List (Nat × HTy)) (τs : List HTy) : ∀ (n : Nat) (l r : HTm) (i : Nat), i < τs.length →
    ∃ ss : List HTm, ss = (List.range' n (i + 1)).map (fun j => skTm j vs) ∧
      (⟨false, ss.foldl applyArg l, some (ss.foldl applyArg r)⟩ :: rest) ∈ negExtLit rest vs n l r τs := by
  induction τs with
  | nil => intro n l r i h; simp at h
  | cons τ τs ih =>
    intro n l r i hi
    refine ⟨_, rfl, ?_⟩
    rw [negExtLit]
    cases i with
    | zero => exact List.mem_cons_self
    | succ i =>
      obtain ⟨ss, hs, hm⟩ := ih (n + 1) (applyArg l (skTm n vs)) (applyArg r (skTm n vs)) i (by simpa using hi)
      refine List.mem_cons_of_mem _ ?_
      rw [List.range'_succ, List.map_cons, ← hs]
      exact hm

theorem negExt_mem {ty : HTm → HTy} {sel : HLit → Bool} {vars : HLit → List (Nat × HTy)} {l r : HTm} {suf : List HLit}
    (hs : sel ⟨false, l, some r⟩ = true) (mid : List HLit) : ∀ (n : Nat) (pre : List HLit),
    ∃ m, n ≤ m ∧ ∀ new ∈ negExtLit (pre ++ mid ++ suf) (vars ⟨false, l, some r⟩) m l r (ty l).args,
      new ∈ negExt ty sel vars n pre (mid ++ ⟨false, l, some r⟩ :: suf) := by
  induction mid with
  | nil =>
    intro n pre
    refine ⟨n, Nat.le_refl _, fun new h => ?_⟩
    rw [List.nil_append, negExt]
    simp only [hs, Bool.not_false, Bool.and_self, if_true]
    refine List.mem_append_left _ ?_
    simpa using h
  | cons c mid ih =>
    intro n pre
    rw [List.cons_append, negExt]
    have e : pre ++ c :: mid ++ suf = pre ++ [c] ++ mid ++ suf := by simp
    rw [e]
    split
    · split
      · obtain ⟨m, hm, h⟩ := ih (n + (ty c.l).args.length) (pre ++ [c])
        exact ⟨m, by omega, fun new hn => List.mem_append_right _ (h new hn)⟩
      · exact ih n (pre ++ [c])
    · exact ih n (pre ++ [c])

end HoInf
end Verif
