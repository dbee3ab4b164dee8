import Verif.Terms.SimpleTypesSpec

/-!
# Numbers of arguments in types that are read
-/

namespace Verif

/- All constructors are used with the number of arguments in the table. -/
mutual
def STy.Aritied (N : TNames) : STy → Prop
  | .con c ts => STy.AritiedL N ts ∧ (c ≠ 0 → (N[c]?.map (·.2)) = some ts.length)
def STy.AritiedL (N : TNames) : List STy → Prop
  | [] => True
  | t :: ts => t.Aritied N ∧ STy.AritiedL N ts
end

namespace STyProof

theorem aritiedL_iff {N : TNames} (ts : List STy) : STy.AritiedL N ts ↔ ∀ t ∈ ts, t.Aritied N := by
  induction ts with
  | nil => simp [STy.AritiedL]
  | cons t ts ih => simp [STy.AritiedL, ih]

theorem prefix_get {N N' : TNames} (h : N <+: N') {c k : Nat} (hc : (N[c]?.map (·.2)) = some k) : (N'[c]?.map (·.2)) = some k := by
  obtain ⟨M, rfl⟩ := h
  cases hn : N[c]? with
  | none => rw [hn] at hc; cases hc
  | some p =>
    rw [hn] at hc
    have hl := (List.getElem?_eq_some_iff.1 hn).1
    rw [List.getElem?_append_left hl, hn]
    exact hc

theorem aritied_mono {N N' : TNames} (h : N <+: N') (t : STy) : t.Aritied N → t.Aritied N' := by
  induction t using STy.rec (motive_2 := fun ts => STy.AritiedL N ts → STy.AritiedL N' ts) with
  | con c ts ih =>
    intro ht
    rw [STy.Aritied] at ht ⊢
    exact ⟨ih ht.1, fun hc => prefix_get h (ht.2 hc)⟩
  | nil => trivial
  | cons t ts ih1 ih2 => rename_i ht; exact ⟨ih1 ht.1, ih2 ht.2⟩

theorem tcCode_arity {N N' : TNames} {x k c : Nat} (h : tcCode N x k = some (c, N')) : N <+: N' ∧ (N'[c]?.map (·.2)) = some k := by
  unfold tcCode at h
  split at h
  · cases h; exact ⟨List.prefix_append _ _, by simp⟩
  · split at h
    · rename_i hk; cases h; exact ⟨List.prefix_refl _, hk⟩
    · cases h

theorem single_arity (n : Nat) :
    (∀ {toks r : List TTok} {N N' : TNames} {t : STy}, parseSingle n toks N = some (t, r, N') → N <+: N' ∧ t.Aritied N') ∧
    ∀ {toks r : List TTok} {N N' : TNames} {ts : List STy}, parseTypeArgs n toks N = some (ts, r, N') → N <+: N' ∧ ∀ t ∈ ts, t.Aritied N' := by
  induction n with
  | zero =>
    refine ⟨?_, ?_⟩
    · intro toks r N N' t h; simp [parseSingle] at h
    · intro toks r N N' t h; simp [parseTypeArgs] at h
  | succ n ih =>
    refine ⟨?_, ?_⟩
    · intro toks r N N' t h
      unfold parseSingle at h
      split at h
      · rename_i m x r0 heq
        cases heq
        obtain ⟨⟨ts, r1, N1⟩, h1, h2⟩ := Option.bind_eq_some_iff.1 h
        obtain ⟨p1, a1⟩ := ih.2 h1
        simp only at h2
        split at h2
        · obtain ⟨⟨c, N2⟩, h3, h4⟩ := Option.map_eq_some_iff.1 h2
          cases h4
          obtain ⟨p2, a2⟩ := tcCode_arity h3
          refine ⟨p1.trans p2, ?_⟩
          rw [STy.Aritied, aritiedL_iff]
          exact ⟨fun t ht => aritied_mono p2 t (a1 t ht), fun _ => a2⟩
        · cases h2
      · obtain ⟨⟨c, N2⟩, h3, h4⟩ := Option.map_eq_some_iff.1 h
        cases h4
        obtain ⟨p2, a2⟩ := tcCode_arity h3
        refine ⟨p2, ?_⟩
        rw [STy.Aritied, aritiedL_iff]
        exact ⟨by simp, fun _ => a2⟩
      · cases h
    · intro toks r N N' ts h
      rw [parseTypeArgs] at h
      obtain ⟨⟨t, r1, N1⟩, h1, h2⟩ := Option.bind_eq_some_iff.1 h
      obtain ⟨p1, a1⟩ := ih.1 h1
      simp only at h2
      split at h2
      · cases h2
      · split at h2
        · obtain ⟨⟨ts', r2, N2⟩, h3, h4⟩ := Option.map_eq_some_iff.1 h2
          cases h4
          obtain ⟨p2, a2⟩ := ih.2 h3
          refine ⟨p1.trans p2, fun u hu => ?_⟩
          rcases List.mem_cons.1 hu with rfl | hu
          · exact aritied_mono p2 _ a1
          · exact a2 u hu
        · cases h2
          exact ⟨p1, fun u hu => by rw [List.mem_singleton.1 hu]; exact a1⟩

theorem allocArrow_arity {N : TNames} {ts : List STy} (h : ∀ t ∈ ts, t.Aritied N) : (allocArrow ts).Aritied N := by
  unfold allocArrow
  split
  · exact h _ (List.mem_singleton.2 rfl)
  · rw [STy.Aritied, aritiedL_iff]; exact ⟨h, fun hc => absurd rfl hc⟩

theorem finishArrow_arity {N : TNames} {ts : List STy} (h : ∀ t ∈ ts, t.Aritied N) : (finishArrow ts).Aritied N := by
  unfold finishArrow
  split
  · rename_i r hr
    split
    · refine allocArrow_arity fun t ht => ?_
      rcases List.mem_append.1 ht with ht | ht
      · exact h t (List.dropLast_subset _ ht)
      · have hr' := h r (List.mem_of_getLast? hr)
        cases r with
        | con c us =>
          rw [STy.Aritied, aritiedL_iff] at hr'
          exact hr'.1 t ht
    · exact allocArrow_arity h
  · exact allocArrow_arity h

theorem ho_arity (n : Nat) :
    (∀ {toks r : List TTok} {N N' : TNames} {t : STy}, parseHO n toks N = some (t, r, N') → N <+: N' ∧ t.Aritied N') ∧
    (∀ {toks r : List TTok} {N N' : TNames} {t : STy}, parseLeft n toks N = some (t, r, N') → N <+: N' ∧ t.Aritied N') ∧
    (∀ {args : List STy} {toks r : List TTok} {N N' : TNames} {t : STy}, (∀ t ∈ args, t.Aritied N) → parseLoop n args toks N = some (t, r, N') →
      N <+: N' ∧ t.Aritied N') ∧
    ∀ {toks r : List TTok} {N N' : TNames} {t : STy}, parseRight n toks N = some (t, r, N') → N <+: N' ∧ t.Aritied N' := by
  induction n with
  | zero =>
    refine ⟨?_, ?_, ?_, ?_⟩
    · intro toks r N N' t h; simp [parseHO] at h
    · intro toks r N N' t h; simp [parseLeft] at h
    · intro args toks r N N' t _ h; simp [parseLoop] at h
    · intro toks r N N' t h; simp [parseRight] at h
  | succ n ih =>
    obtain ⟨i1, i2, i3, i4⟩ := ih
    refine ⟨?_, ?_, ?_, ?_⟩
    · intro toks r N N' t h
      rw [parseHO] at h
      obtain ⟨⟨l, r1, N1⟩, h1, h2⟩ := Option.bind_eq_some_iff.1 h
      obtain ⟨p1, a1⟩ := i2 h1
      simp only at h2
      split at h2
      · cases h2
      · split at h2
        · cases h2; exact ⟨p1, a1⟩
        · obtain ⟨p2, a2⟩ := i3 (fun u hu => by rw [List.mem_singleton.1 hu]; exact a1) h2
          exact ⟨p1.trans p2, a2⟩
    · intro toks r N N' t h
      unfold parseLeft at h
      split at h
      · cases ‹_ + 1 = 0›
      · rename_i m r0 _ heq
        cases heq
        obtain ⟨⟨l, r1, N1⟩, h1, h2⟩ := Option.bind_eq_some_iff.1 h
        obtain ⟨p1, a1⟩ := i1 h1
        simp only at h2
        split at h2
        · cases h2; exact ⟨p1, a1⟩
        · cases h2
      · rename_i m heq _
        cases heq
        exact (single_arity n).1 h
    · intro args toks r N N' t ha h
      unfold parseLoop at h
      split at h
      · cases ‹_ + 1 = 0›
      · rename_i args N0 _ _ _ _ m r0 heq
        cases heq
        obtain ⟨⟨u, r1, N1⟩, h1, h2⟩ := Option.bind_eq_some_iff.1 h
        obtain ⟨p1, a1⟩ := i4 h1
        have hall : ∀ v ∈ args ++ [u], v.Aritied N1 := by
          intro v hv
          rcases List.mem_append.1 hv with hv | hv
          · exact aritied_mono p1 v (ha v hv)
          · rw [List.mem_singleton.1 hv]; exact a1
        simp only at h2
        split at h2
        · cases h2
        · split at h2
          · cases h2; exact ⟨p1, finishArrow_arity hall⟩
          · obtain ⟨p2, a2⟩ := i3 hall h2
            exact ⟨p1.trans p2, a2⟩
      · cases h
    · intro toks r N N' t h
      unfold parseRight at h
      split at h
      · cases ‹_ + 1 = 0›
      · rename_i m r0 _ heq
        cases heq
        obtain ⟨⟨l, r1, N1⟩, h1, h2⟩ := Option.bind_eq_some_iff.1 h
        obtain ⟨p1, a1⟩ := i1 h1
        simp only at h2
        split at h2
        · cases h2; exact ⟨p1, a1⟩
        · cases h2
      · rename_i m heq _
        cases heq
        exact i1 h

theorem product_arity (n : Nat) : ∀ {toks r : List TTok} {N N' : TNames} {ts : List STy}, parseProduct n toks N = some (ts, r, N') →
    N <+: N' ∧ ∀ t ∈ ts, t.Aritied N' := by
  induction n with
  | zero => intro toks r N N' ts h; simp [parseProduct] at h
  | succ n ih =>
    intro toks r N N' ts h
    rw [parseProduct] at h
    obtain ⟨⟨t, r1, N1⟩, h1, h2⟩ := Option.bind_eq_some_iff.1 h
    obtain ⟨p1, a1⟩ := (single_arity n).1 h1
    simp only at h2
    split at h2
    · obtain ⟨⟨ts', r2, N2⟩, h3, h4⟩ := Option.map_eq_some_iff.1 h2
      cases h4
      obtain ⟨p2, a2⟩ := ih h3
      refine ⟨p1.trans p2, fun u hu => ?_⟩
      rcases List.mem_cons.1 hu with rfl | hu
      · exact aritied_mono p2 _ a1
      · exact a2 u hu
    · cases h2
      exact ⟨p1, fun u hu => by rw [List.mem_singleton.1 hu]; exact a1⟩

theorem fo_arity {n : Nat} {toks r : List TTok} {N N' : TNames} {t : STy} (h : parseFO n toks N = some (t, r, N')) : N <+: N' ∧ t.Aritied N' := by
  simp only [parseFO] at h
  obtain ⟨⟨ts, r1, N1⟩, h1, h2⟩ := Option.bind_eq_some_iff.1 h
  obtain ⟨p1, a1⟩ := product_arity n h1
  obtain ⟨⟨us, r2, N2⟩, h3, h4⟩ := Option.bind_eq_some_iff.1 h2
  obtain ⟨r3, _, h5⟩ := Option.map_eq_some_iff.1 h4
  cases h5
  unfold parseResult at h3
  split at h3
  · obtain ⟨⟨u, r4, N3⟩, h6, h7⟩ := Option.map_eq_some_iff.1 h3
    cases h7
    obtain ⟨p2, a2⟩ := (single_arity n).1 h6
    refine ⟨p1.trans p2, allocArrow_arity fun v hv => ?_⟩
    rcases List.mem_append.1 hv with hv | hv
    · exact aritied_mono p2 v (a1 v hv)
    · rw [List.mem_singleton.1 hv]; exact a2
  · cases h3
    exact ⟨p1, allocArrow_arity a1⟩

end STyProof
end Verif
