import Verif.Terms.FPIndexProof

/-!
# Fingerprints of instances, and the index invariant
-/

namespace Verif.FPProof

variable {ar : Nat → Nat}

/-- Codes of ordinary first-order symbols. -/
def GoodCode (k : Int) : Prop := 0 < k ∧ k ≠ 19

theorem uv_of_good {isPred : Int → Bool} {k : Int} (h : GoodCode k) : symUnifiesVar isPred k = true := by
  have : k ≠ dbLambdaCode := h.2
  simp [symUnifiesVar, this]

theorem ok_app {f : Nat} {ts : List Term} : FPTermOK ar (.app f ts) ↔
    (0 < f ∧ f ≠ 17 ∧ f ≠ 19 ∧ ts.length = ar f) ∧ ∀ u ∈ ts, FPTermOK ar u := by
  constructor
  · intro h
    exact ⟨h f ts (by simp [Term.subterms]), fun u hu g us hm =>
      h g us (by simp only [Term.subterms, List.mem_cons]; exact Or.inr (Term.mem_subtermsL.2 ⟨u, hu, hm⟩))⟩
  · rintro ⟨h1, h2⟩ g us hm
    simp only [Term.subterms, List.mem_cons] at hm
    rcases hm with hm | hm
    · cases hm; exact h1
    · obtain ⟨u, hu, hm⟩ := Term.mem_subtermsL.1 hm
      exact h2 u hu g us hm

theorem ok_good {f : Nat} {ts : List Term} (h : FPTermOK ar (.app f ts)) : GoodCode (f : Int) := by
  have := (ok_app.1 h).1
  refine ⟨by omega, by omega⟩

theorem sample_ok : ∀ (p : List Nat) (t : Term), FPTermOK ar t →
    fpSample t p = belowVar ∨ fpSample t p = anyVar ∨ fpSample t p = notInTerm ∨ GoodCode (fpSample t p)
  | [], .var x, _ => by simp [fpSample]
  | [], .app f ts, h => by simp only [fpSample]; exact Or.inr (Or.inr (Or.inr (ok_good h)))
  | i :: p, .var x, _ => by simp [fpSample]
  | i :: p, .app f ts, h => by
    rw [fpSample]
    split
    · simp
    · rename_i u hu
      exact sample_ok p u ((ok_app.1 h).2 u (List.mem_of_getElem? hu))

/-- The sample of an instance. -/
theorem sample_subst (σ : Nat → Term) : ∀ (p : List Nat) (t : Term), FPTermOK ar (t.subst σ) →
    (0 < fpSample t p → fpSample (t.subst σ) p = fpSample t p) ∧
    (fpSample t p = notInTerm → fpSample (t.subst σ) p = notInTerm) ∧
    (fpSample t p = anyVar → fpSample (t.subst σ) p = anyVar ∨ 0 < fpSample (t.subst σ) p)
  | [], .var x, h => by
    refine ⟨fun h => absurd h (by simp [fpSample]), fun h => absurd h (by simp [fpSample]), fun _ => ?_⟩
    rw [Term.subst_var] at h ⊢
    cases hs : σ x with
    | var y => simp [fpSample]
    | app f ts => rw [hs] at h; exact Or.inr (ok_good h).1
  | [], .app f ts, h => by
    rw [Term.subst_app] at h ⊢
    have := (ok_good h).1
    simp only [fpSample]
    refine ⟨fun _ => trivial, fun h => ?_, fun h => ?_⟩
    · exact h
    · simp only [anyVar] at h; omega
  | i :: p, .var x, h => by simp [fpSample]
  | i :: p, .app f ts, h => by
    rw [Term.subst_app] at h ⊢
    rw [fpSample, fpSample, List.getElem?_map]
    rcases hu : ts[i]? with _ | u
    · simp
    · simp only [Option.map_some]
      exact sample_subst σ p u ((ok_app.1 h).2 _ (List.mem_map.2 ⟨u, List.mem_of_getElem? hu, rfl⟩))

theorem sample_compatM {isPred : Int → Bool} {q t : Term} {σ : Nat → Term} (ht : t = q.subst σ) (hq : FPTermOK ar q) (hot : FPTermOK ar t)
    (p : List Nat) : compatM (symUnifiesVar isPred) (fpSample q p) (fpSample t p) = true := by
  obtain ⟨h1, h2, h3⟩ := sample_subst (ar := ar) σ p q (ht ▸ hot)
  rw [← ht] at h1 h2 h3
  have k1 := sample_ok p q hq
  have k2 := sample_ok p t hot
  generalize fpSample q p = v at *
  generalize fpSample t p = w at *
  unfold compatM
  rcases k1 with rfl | rfl | rfl | hv
  · rcases k2 with rfl | rfl | rfl | hw
    · rfl
    · rfl
    · rfl
    · have := hw.1
      simp [uv_of_good hw, belowVar, anyVar, notInTerm]
      omega
  · rcases h3 rfl with rfl | hw
    · rfl
    · rcases k2 with rfl | rfl | rfl | hw'
      · exact absurd hw (by decide)
      · rfl
      · exact absurd hw (by decide)
      · simp [uv_of_good hw', belowVar, anyVar, notInTerm]
        omega
  · rw [h2 rfl]; rfl
  · rw [h1 hv.1, if_pos hv.1]; simp

theorem sample_compatU {isPred : Int → Bool} {q t : Term} {σ τ : Nat → Term} (he : t.subst σ = q.subst τ) (hq : FPTermOK ar q)
    (ht : FPTermOK ar t) (hc : FPTermOK ar (q.subst τ)) (p : List Nat) :
    compatU (symUnifiesVar isPred) (fpSample q p) (fpSample t p) = true := by
  obtain ⟨h1, h2, h3⟩ := sample_subst (ar := ar) τ p q hc
  obtain ⟨h4, h5, h6⟩ := sample_subst (ar := ar) σ p t (he ▸ hc)
  rw [he] at h4 h5 h6
  have k1 := sample_ok p q hq
  have k2 := sample_ok p t ht
  generalize fpSample q p = v at *
  generalize fpSample t p = u at *
  generalize fpSample (q.subst τ) p = w at *
  unfold compatU
  rcases k1 with rfl | rfl | rfl | hv
  · rcases k2 with rfl | rfl | rfl | hw
    · rfl
    · rfl
    · rfl
    · have := hw.1
      simp [uv_of_good hw, belowVar, anyVar, notInTerm]
      omega
  · rcases k2 with rfl | rfl | rfl | hw'
    · rfl
    · rfl
    · have := h5 rfl
      subst this
      rcases h3 rfl with h | h
      · exact absurd h (by decide)
      · exact absurd h (by decide)
    · have := hw'.1
      simp [uv_of_good hw', belowVar, anyVar, notInTerm]
      omega
  · have := h2 rfl
    subst this
    rcases k2 with rfl | rfl | rfl | hw'
    · rfl
    · rcases h6 rfl with h | h
      · exact absurd h (by decide)
      · exact absurd h (by decide)
    · rfl
    · have h7 := h4 hw'.1
      have := hw'.1
      simp only [notInTerm] at h7; omega
  · have hw := h1 hv.1
    rw [if_pos hv.1]
    rcases k2 with rfl | rfl | rfl | hw'
    · simp [uv_of_good hv]
    · simp [uv_of_good hv]
    · have h7 := h5 rfl
      have := hv.1
      simp only [notInTerm] at h7; omega
    · have h7 := h4 hw'.1
      simp [← h7, hw]

theorem accept_map {c : Int → Int → Bool} {q t : Term} (h : ∀ p, c (fpSample q p) (fpSample t p) = true) :
    ∀ l : List (List Nat), accept c (l.map (fpSample q)) (l.map (fpSample t)) = true
  | [] => rfl
  | p :: l => by simp [accept, h p, accept_map h l]

/-! ## Discrimination tree keys -/

theorem symArity_nat {f : Nat} (h : 0 < f) : symArity ar (f : Int) = ar f := by
  have : 0 < (f : Int) := by omega
  rw [symArity, if_pos this]
  simp

theorem symArity_any : symArity ar anyVar = 0 := rfl

theorem pushL_append : ∀ ts us : List Term, pushFCodesL (ts ++ us) = pushFCodesL ts ++ pushFCodesL us
  | [], us => rfl
  | t :: ts, us => by simp [pushFCodesL, pushL_append ts us]

mutual
theorem push_cancel : ∀ t t' : Term, FPTermOK ar t → FPTermOK ar t' → ∀ p p' : List Int,
    pushFCodes t ++ p = pushFCodes t' ++ p' → p = p'
  | .var x, .var y, _, _, p, p', h => by simpa [pushFCodes] using h
  | .var x, .app g us, _, h', p, p', h => by
    have := (ok_good h').1
    simp only [pushFCodes, List.cons_append, List.cons.injEq, anyVar] at h
    omega
  | .app f ts, .var y, h', _, p, p', h => by
    have := (ok_good h').1
    simp only [pushFCodes, List.cons_append, List.cons.injEq, anyVar] at h
    omega
  | .app f ts, .app g us, h1, h2, p, p', h => by
    simp only [pushFCodes, List.cons_append, List.cons.injEq] at h
    have hfg : f = g := by omega
    subst hfg
    refine pushL_cancel ts us ?_ (ok_app.1 h1).2 (ok_app.1 h2).2 p p' h.2
    rw [(ok_app.1 h1).1.2.2.2, (ok_app.1 h2).1.2.2.2]
theorem pushL_cancel : ∀ ts us : List Term, ts.length = us.length → (∀ u ∈ ts, FPTermOK ar u) → (∀ u ∈ us, FPTermOK ar u) →
    ∀ p p' : List Int, pushFCodesL ts ++ p = pushFCodesL us ++ p' → p = p'
  | [], [], _, _, _, p, p', h => by simpa [pushFCodesL] using h
  | t :: ts, u :: us, hl, h1, h2, p, p', h => by
    simp only [pushFCodesL, List.append_assoc] at h
    exact pushL_cancel ts us (by simpa using hl) (fun v hv => h1 v (by simp [hv])) (fun v hv => h2 v (by simp [hv])) p p'
      (push_cancel t u (h1 t (by simp)) (h2 u (by simp)) _ _ h)
  | [], u :: us, hl, _, _, _, _, _ => by simp at hl
  | t :: ts, [], hl, _, _, _, _, _ => by simp at hl
end

/-! ### Skipping -/

mutual
theorem dropKey_term : ∀ (t : Term), FPTermOK ar t → ∀ (n : Nat) (p : List Int), dropKey ar (n + 1) (pushFCodes t ++ p) = dropKey ar n p
  | .var x, _, n, p => by simp [pushFCodes, dropKey, symArity_any]
  | .app f ts, h, n, p => by
    have h' := (ok_app.1 h).1
    simp only [pushFCodes, List.cons_append, dropKey]
    rw [symArity_nat h'.1, ← h'.2.2.2]
    exact dropKey_list ts (ok_app.1 h).2 n p
theorem dropKey_list : ∀ (ts : List Term), (∀ u ∈ ts, FPTermOK ar u) → ∀ (n : Nat) (p : List Int),
    dropKey ar (n + ts.length) (pushFCodesL ts ++ p) = dropKey ar n p
  | [], _, n, p => by simp [pushFCodesL]
  | t :: ts, h, n, p => by
    simp only [pushFCodesL, List.append_assoc, List.length_cons]
    rw [← Nat.add_assoc, dropKey_term t (h t (by simp)) (n + ts.length), dropKey_list ts (fun u hu => h u (by simp [hu])) n p]
end

theorem below_le_any : belowVar ≤ anyVar := by decide
theorem below_le_nat (f : Nat) : belowVar ≤ (f : Int) := by
  have : belowVar = -2 := rfl
  omega

mutual
theorem skipM_term {uv : Int → Bool} : ∀ (t : Term), FPTermOK ar t → ∀ (n : Nat) (p key : List Int),
    dtAccM uv ar (pushFCodes t ++ p) key (n + 1) = dtAccM uv ar p key n
  | .var x, _, n, p, key => by
    cases key <;> simp [pushFCodes, dtAccM, symArity_any]
  | .app f ts, h, n, p, key => by
    have h' := (ok_app.1 h).1
    have := skipM_list (uv := uv) ts (ok_app.1 h).2 n p key
    rw [h'.2.2.2] at this
    cases key <;> simpa [pushFCodes, dtAccM, symArity_nat h'.1, below_le_nat f] using this
theorem skipM_list {uv : Int → Bool} : ∀ (ts : List Term), (∀ u ∈ ts, FPTermOK ar u) → ∀ (n : Nat) (p key : List Int),
    dtAccM uv ar (pushFCodesL ts ++ p) key (n + ts.length) = dtAccM uv ar p key n
  | [], _, n, p, key => by simp [pushFCodesL]
  | t :: ts, h, n, p, key => by
    simp only [pushFCodesL, List.append_assoc, List.length_cons]
    rw [← Nat.add_assoc, skipM_term t (h t (by simp)) (n + ts.length), skipM_list ts (fun u hu => h u (by simp [hu])) n p key]
end

mutual
theorem skipU_term {uv : Int → Bool} : ∀ (t : Term), FPTermOK ar t → ∀ (n : Nat) (p key : List Int),
    dtAccU uv ar (pushFCodes t ++ p) key (n + 1) = dtAccU uv ar p key n
  | .var x, _, n, p, key => by
    cases key <;> simp [pushFCodes, dtAccU, symArity_any]
  | .app f ts, h, n, p, key => by
    have h' := (ok_app.1 h).1
    have := skipU_list (uv := uv) ts (ok_app.1 h).2 n p key
    rw [h'.2.2.2] at this
    cases key <;> simpa [pushFCodes, dtAccU, symArity_nat h'.1, below_le_nat f] using this
theorem skipU_list {uv : Int → Bool} : ∀ (ts : List Term), (∀ u ∈ ts, FPTermOK ar u) → ∀ (n : Nat) (p key : List Int),
    dtAccU uv ar (pushFCodesL ts ++ p) key (n + ts.length) = dtAccU uv ar p key n
  | [], _, n, p, key => by simp [pushFCodesL]
  | t :: ts, h, n, p, key => by
    simp only [pushFCodesL, List.append_assoc, List.length_cons]
    rw [← Nat.add_assoc, skipU_term t (h t (by simp)) (n + ts.length), skipU_list ts (fun u hu => h u (by simp [hu])) n p key]
end

section
variable {isPred : Int → Bool}

/-- A variable of the query is compatible with any term. -/
theorem accM_var (t : Term) (h : FPTermOK ar t) (p ks : List Int) (hp : dtAccM (symUnifiesVar isPred) ar p ks 0 = true) :
    dtAccM (symUnifiesVar isPred) ar (pushFCodes t ++ p) (anyVar :: ks) 0 = true := by
  cases t with
  | var x => simpa [pushFCodes, dtAccM, symArity_any] using hp
  | app f ts =>
    have h' := (ok_app.1 h).1
    have := skipM_list (uv := symUnifiesVar isPred) ts (ok_app.1 h).2 0 p ks
    rw [h'.2.2.2, Nat.zero_add] at this
    simp [pushFCodes, dtAccM, symArity_nat h'.1, below_le_nat f, uv_of_good (ok_good h), this, hp]

mutual
theorem accM_term (σ : Nat → Term) : ∀ (q : Term), FPTermOK ar q → FPTermOK ar (q.subst σ) → ∀ (p ks : List Int),
    dtAccM (symUnifiesVar isPred) ar p ks 0 = true →
    dtAccM (symUnifiesVar isPred) ar (pushFCodes (q.subst σ) ++ p) (pushFCodes q ++ ks) 0 = true
  | .var x, _, h2, p, ks, hp => accM_var (σ x) h2 p ks hp
  | .app f ts, h1, h2, p, ks, hp => by
    rw [Term.subst_app] at h2 ⊢
    have hf := (ok_good h1).1
    have hne : (f : Int) ≠ anyVar := by simp only [anyVar]; omega
    simp only [pushFCodes, List.cons_append]
    rw [dtAccM]
    simp only [ne_eq, not_true_eq_false, if_false, hne, beq_self_eq_true, Bool.true_and]
    exact accM_list σ ts (ok_app.1 h1).2 (fun u hu => (ok_app.1 h2).2 _ (List.mem_map.2 ⟨u, hu, rfl⟩)) p ks hp
theorem accM_list (σ : Nat → Term) : ∀ (ts : List Term), (∀ u ∈ ts, FPTermOK ar u) → (∀ u ∈ ts, FPTermOK ar (u.subst σ)) → ∀ (p ks : List Int),
    dtAccM (symUnifiesVar isPred) ar p ks 0 = true →
    dtAccM (symUnifiesVar isPred) ar (pushFCodesL (ts.map (Term.subst σ)) ++ p) (pushFCodesL ts ++ ks) 0 = true
  | [], _, _, p, ks, hp => hp
  | t :: ts, h1, h2, p, ks, hp => by
    simp only [pushFCodesL, List.map_cons, List.append_assoc]
    exact accM_term σ t (h1 t (by simp)) (h2 t (by simp)) _ _
      (accM_list σ ts (fun u hu => h1 u (by simp [hu])) (fun u hu => h2 u (by simp [hu])) p ks hp)
end

theorem accU_var (t : Term) (h : FPTermOK ar t) (p ks : List Int) (hp : dtAccU (symUnifiesVar isPred) ar p ks 0 = true) :
    dtAccU (symUnifiesVar isPred) ar (pushFCodes t ++ p) (anyVar :: ks) 0 = true := by
  cases t with
  | var x => simpa [pushFCodes, dtAccU, symArity_any] using hp
  | app f ts =>
    have h' := (ok_app.1 h).1
    have := skipU_list (uv := symUnifiesVar isPred) ts (ok_app.1 h).2 0 p ks
    rw [h'.2.2.2, Nat.zero_add] at this
    simp [pushFCodes, dtAccU, symArity_nat h'.1, below_le_nat f, uv_of_good (ok_good h), this, hp]

mutual
theorem accU_term (σ τ : Nat → Term) : ∀ (q t : Term), FPTermOK ar q → FPTermOK ar t → t.subst σ = q.subst τ → ∀ (p ks : List Int),
    dtAccU (symUnifiesVar isPred) ar p ks 0 = true →
    dtAccU (symUnifiesVar isPred) ar (pushFCodes t ++ p) (pushFCodes q ++ ks) 0 = true
  | .var x, t, _, h2, _, p, ks, hp => accU_var t h2 p ks hp
  | .app f ts, .var y, h1, _, _, p, ks, hp => by
    have h' := (ok_app.1 h1).1
    have hf := (ok_good h1).1
    have hne : (f : Int) ≠ anyVar := by simp only [anyVar]; omega
    have hd := dropKey_list ts (ok_app.1 h1).2 0 ks
    rw [h'.2.2.2, Nat.zero_add] at hd
    simp only [pushFCodes, List.cons_append, List.nil_append]
    rw [dtAccU]
    simp only [ne_eq, not_true_eq_false, if_false, hne, uv_of_good (ok_good h1), beq_self_eq_true, Bool.true_and, Bool.or_true]
    rw [symArity_nat h'.1, hd, dropKey, hp, Bool.or_true]
  | .app f ts, .app g us, h1, h2, he, p, ks, hp => by
    rw [Term.subst_app, Term.subst_app, Term.app.injEq] at he
    obtain ⟨rfl, he⟩ := he
    have hf := (ok_good h1).1
    have hne : (g : Int) ≠ anyVar := by simp only [anyVar]; omega
    simp only [pushFCodes, List.cons_append]
    rw [dtAccU]
    simp only [ne_eq, not_true_eq_false, if_false, hne, beq_self_eq_true, Bool.true_and]
    rw [accU_list σ τ ts us (ok_app.1 h1).2 (ok_app.1 h2).2 he p ks hp, Bool.true_or]
theorem accU_list (σ τ : Nat → Term) : ∀ (ts us : List Term), (∀ u ∈ ts, FPTermOK ar u) → (∀ u ∈ us, FPTermOK ar u) →
    us.map (Term.subst σ) = ts.map (Term.subst τ) → ∀ (p ks : List Int),
    dtAccU (symUnifiesVar isPred) ar p ks 0 = true →
    dtAccU (symUnifiesVar isPred) ar (pushFCodesL us ++ p) (pushFCodesL ts ++ ks) 0 = true
  | [], [], _, _, _, p, ks, hp => hp
  | t :: ts, u :: us, h1, h2, he, p, ks, hp => by
    simp only [List.map_cons, List.cons.injEq] at he
    simp only [pushFCodesL, List.append_assoc]
    exact accU_term σ τ t u (h1 t (by simp)) (h2 u (by simp)) he.1 _ _
      (accU_list σ τ ts us (fun v hv => h1 v (by simp [hv])) (fun v hv => h2 v (by simp [hv])) he.2 p ks hp)
  | [], _ :: _, _, _, he, _, _, _ => by simp at he
  | _ :: _, [], _, _, he, _, _, _ => by simp at he
end
end

end Verif.FPProof
