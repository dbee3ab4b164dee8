import Verif.Text.FormProof

/-!
# The meaning of what is read
-/

namespace Verif

namespace Text

universe u
variable {S : Sig}

mutual
theorem eval_map (I : Interp.{u} S) {h : Nat → Nat} {ρ : Nat → Nat} {v w : Nat → I.D} : ∀ (t : Term), (∀ f ∈ termSyms t, h f = f) →
    (∀ x ∈ t.vars, v (ρ x) = w x) → I.eval v (mapTerm h ρ t) = I.eval w t
  | .var x, _, hv => by simpa [mapTerm, Interp.eval] using hv x (by simp [Term.vars])
  | .app f ts, hf, hv => by
    simp only [mapTerm, Interp.eval]
    rw [hf f (by simp [termSyms]), evalL_map I ts (fun g hg => hf g (by simp [termSyms, hg])) (fun x hx => hv x (by simpa [Term.vars] using hx))]
theorem evalL_map (I : Interp.{u} S) {h : Nat → Nat} {ρ : Nat → Nat} {v w : Nat → I.D} : ∀ (ts : List Term), (∀ f ∈ termSymsL ts, h f = f) →
    (∀ x ∈ Term.varsL ts, v (ρ x) = w x) → I.evalL v (mapTerms h ρ ts) = I.evalL w ts
  | [], _, _ => by simp [mapTerms, Interp.evalL]
  | t :: ts, hf, hv => by
    simp only [mapTerms, Interp.evalL]
    rw [eval_map I t (fun g hg => hf g (by simp [termSymsL, hg])) (fun x hx => hv x (by simp only [Term.varsL, List.mem_append]; exact Or.inl hx)),
      evalL_map I ts (fun g hg => hf g (by simp [termSymsL, hg])) (fun x hx => hv x (by simp only [Term.varsL, List.mem_append]; exact Or.inr hx))]
end

theorem litTrue_map (I : Interp.{u} S) {h : Nat → Nat} {ρ : Nat → Nat} {v w : Nat → I.D} {L : Lit} (hf : ∀ f ∈ litSyms L, h f = f)
    (hv : ∀ x ∈ L.vars, v (ρ x) = w x) : I.LitTrue v (mapLit h ρ L) ↔ I.LitTrue w L := by
  have h1 := eval_map I (h := h) (ρ := ρ) (v := v) (w := w) L.l (fun f hm => hf f (by simp [litSyms, hm])) (fun x hx => hv x (by simp [Lit.vars, hx]))
  have h2 := eval_map I (h := h) (ρ := ρ) (v := v) (w := w) L.r (fun f hm => hf f (by simp [litSyms, hm])) (fun x hx => hv x (by simp [Lit.vars, hx]))
  simp only [Interp.LitTrue, mapLit, h1, h2]

theorem clauseTrue_map (I : Interp.{u} S) {h : Nat → Nat} {ρ : Nat → Nat} {v w : Nat → I.D} {C : List Lit} (hf : ∀ L ∈ C, ∀ f ∈ litSyms L, h f = f)
    (hv : ∀ x ∈ cvars C, v (ρ x) = w x) : I.ClauseTrue v (C.map (mapLit h ρ)) ↔ I.ClauseTrue w C := by
  have key : ∀ L ∈ C, (I.LitTrue v (mapLit h ρ L) ↔ I.LitTrue w L) := fun L hL =>
    litTrue_map I (hf L hL) (fun x hx => hv x (by simp only [cvars, List.mem_flatMap]; exact ⟨L, hL, hx⟩))
  constructor
  · rintro ⟨K, hK, ht⟩
    obtain ⟨L, hL, rfl⟩ := List.mem_map.1 hK
    exact ⟨L, hL, (key L hL).1 ht⟩
  · rintro ⟨L, hL, ht⟩
    exact ⟨_, List.mem_map.2 ⟨L, hL, rfl⟩, (key L hL).2 ht⟩

/-- A valuation moved along an injective renaming. -/
theorem exists_pull {D : Type u} {ρ : Nat → Nat} {xs : List Nat} (hinj : ∀ x ∈ xs, ∀ y ∈ xs, ρ x = ρ y → x = y) (w : Nat → D) (P : D → Prop)
    (hw : ∀ x, P (w x)) : ∃ v : Nat → D, (∀ x, P (v x)) ∧ ∀ x ∈ xs, v (ρ x) = w x := by
  classical
  refine ⟨fun y => if h : ∃ x ∈ xs, ρ x = y then w h.choose else w y, ?_, ?_⟩
  · intro y
    by_cases h : ∃ x ∈ xs, ρ x = y
    · simp only [dif_pos h]; exact hw _
    · simp only [dif_neg h]; exact hw _
  · intro x hx
    have h : ∃ x' ∈ xs, ρ x' = ρ x := ⟨x, hx, rfl⟩
    simp only [dif_pos h]
    rw [hinj _ h.choose_spec.1 x hx h.choose_spec.2]

theorem models_map (I : Interp.{u} S) {ti : Nat} (hty : ∀ x, S.vty x = ti) {h : Nat → Nat} {ρ : Nat → Nat} {C : List Lit}
    (hf : ∀ L ∈ C, ∀ f ∈ litSyms L, h f = f) (hinj : ∀ x ∈ cvars C, ∀ y ∈ cvars C, ρ x = ρ y → x = y) :
    I.Models (C.map (mapLit h ρ)) ↔ I.Models C := by
  constructor
  · intro hm w hw
    obtain ⟨v, hv, hvw⟩ := exists_pull hinj w (I.mem ti) (fun x => by have := hw x; rwa [hty] at this)
    exact (clauseTrue_map I hf hvw).1 (hm v (fun x => by rw [hty]; exact hv x))
  · intro hm v hv
    exact (clauseTrue_map I (w := fun x => v (ρ x)) hf (fun _ _ => rfl)).2 (hm _ (fun x => by have := hv (ρ x); rwa [hty] at this ⊢))

theorem clauseTrue_asRead (I : Interp.{u} S) (v : Nat → I.D) (C : List Lit) : I.ClauseTrue v (asRead C) ↔ I.ClauseTrue v C := by
  have hfl : ¬ I.LitTrue v falseLit := by simp [Interp.LitTrue, falseLit]
  unfold asRead
  split
  · next h =>
    subst h
    simp [Interp.ClauseTrue, hfl]
  · constructor
    · rintro ⟨K, hK, ht⟩
      obtain ⟨L, hL, rfl⟩ := List.mem_map.1 hK
      split at ht
      · exact absurd ht hfl
      · exact ⟨L, hL, ht⟩
    · rintro ⟨L, hL, ht⟩
      refine ⟨_, List.mem_map.2 ⟨L, hL, rfl⟩, ?_⟩
      split
      · next hc => simp [Interp.LitTrue, hc.1, hc.2] at ht
      · exact ht

/-! ## Formulas -/

theorem holds_asRead (I : Interp.{u} S) : ∀ (f : Form) (v : Nat → I.D), (asReadForm f).Holds I v ↔ f.Holds I v
  | .lit p l r, v => by
    simp only [asReadForm]
    split
    · next hc => simp [Form.Holds, Interp.LitTrue, hc.1]
    · exact Iff.rfl
  | .atom t, v => by
    simp only [asReadForm]
    have ht : I.eval v tTrue = I.fn 1 [] := by simp [tTrue, Interp.eval, Interp.evalL]
    split
    · next hc =>
      subst hc
      have hf : I.eval v tFalse = I.fn 2 [] := by simp [tFalse, Interp.eval, Interp.evalL]
      simp only [Form.Holds, Interp.LitTrue, hf]
      simpa using fun e => I.tf e.symm
    · simp [Form.Holds, Interp.LitTrue, ht]
  | .not f, v => by simp only [asReadForm, Form.Holds]; rw [holds_asRead I f v]
  | .bin op f g, v => by simp only [asReadForm, Form.Holds]; rw [holds_asRead I f v, holds_asRead I g v]
  | .qu true x f, v => by
    simp only [asReadForm, Form.Holds]
    exact forall_congr' fun d => imp_congr_right fun _ => holds_asRead I f _
  | .qu false x f, v => by
    simp only [asReadForm, Form.Holds]
    exact exists_congr fun d => and_congr_right fun _ => holds_asRead I f _

theorem holds_map (I : Interp.{u} S) {ti : Nat} (hty : ∀ x, S.vty x = ti) {h : Nat → Nat} {ρ : Nat → Nat} : ∀ (f : Form) {v w : Nat → I.D},
    (∀ k ∈ formSyms f, h k = k) → (∀ x ∈ formVars f, ∀ y ∈ formVars f, ρ x = ρ y → x = y) → (∀ x ∈ formVars f, v (ρ x) = w x) →
    ((mapForm h ρ f).Holds I v ↔ f.Holds I w)
  | .lit p l r, v, w, hf, _, hv => by
    simp only [mapForm, Form.Holds]
    exact litTrue_map I (L := ⟨p, l, r⟩) hf hv
  | .atom t, v, w, hf, _, hv => by
    simp only [mapForm, Form.Holds]
    rw [eval_map I t hf hv]
  | .not f, v, w, hf, hi, hv => by
    simp only [mapForm, Form.Holds]
    rw [holds_map I hty f hf hi hv]
  | .bin op f g, v, w, hf, hi, hv => by
    simp only [formSyms, formVars, List.mem_append] at hf hi hv
    simp only [mapForm, Form.Holds]
    rw [holds_map I hty f (fun k hk => hf k (Or.inl hk)) (fun x hx y hy => hi x (Or.inl hx) y (Or.inl hy)) (fun x hx => hv x (Or.inl hx)),
      holds_map I hty g (fun k hk => hf k (Or.inr hk)) (fun x hx y hy => hi x (Or.inr hx) y (Or.inr hy)) (fun x hx => hv x (Or.inr hx))]
  | .qu u x f, v, w, hf, hi, hv => by
    have hi' : ∀ a ∈ formVars f, ∀ b ∈ formVars f, ρ a = ρ b → a = b := fun a ha b hb =>
      hi a (List.mem_cons_of_mem _ ha) b (List.mem_cons_of_mem _ hb)
    have hup : ∀ d, ∀ y ∈ formVars f, updv v (ρ x) d (ρ y) = updv w x d y := by
      intro d y hy
      by_cases hxy : y = x
      · subst hxy; simp [updv]
      · have : ρ y ≠ ρ x := fun e => hxy (hi y (List.mem_cons_of_mem _ hy) x (List.mem_cons_self ..) e)
        simp only [updv, if_neg this, if_neg hxy]
        exact hv y (List.mem_cons_of_mem _ hy)
    have hs : S.vty (ρ x) = S.vty x := by rw [hty, hty]
    cases u with
    | true =>
      simp only [mapForm, Form.Holds, hs]
      exact forall_congr' fun d => imp_congr_right fun _ => holds_map I hty f hf hi' (hup d)
    | false =>
      simp only [mapForm, Form.Holds, hs]
      exact exists_congr fun d => and_congr_right fun _ => holds_map I hty f hf hi' (hup d)

theorem valid_map (I : Interp.{u} S) {ti : Nat} (hty : ∀ x, S.vty x = ti) {h : Nat → Nat} {ρ : Nat → Nat} {f : Form}
    (hf : ∀ k ∈ formSyms f, h k = k) (hinj : ∀ x ∈ formVars f, ∀ y ∈ formVars f, ρ x = ρ y → x = y) :
    (mapForm h ρ f).Valid I ↔ f.Valid I := by
  constructor
  · intro hm w hw
    obtain ⟨v, hv, hvw⟩ := exists_pull hinj w (I.mem ti) (fun x => by have := hw x; rwa [hty] at this)
    exact (holds_map I hty f hf hinj hvw).1 (hm v (fun x => by rw [hty]; exact hv x))
  · intro hm v hv
    exact (holds_map I hty f (w := fun x => v (ρ x)) hf hinj (fun _ _ => rfl)).2
      (hm _ (fun x => by have := hv (ρ x); rwa [hty] at this ⊢))

end Text

end Verif
