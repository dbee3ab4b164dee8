import Verif.Text.SigProof

/-!
# Reading symbols
-/

namespace Verif

namespace Text

theorem nameOK_cases {nm : List Char} (h : NameOK nm) :
    (nm.head? ≠ some '\'' ∧ rawName nm = nm) ∨ (nm.head? = some '\'' ∧ nm = quote (rawName nm)) := by
  rcases h with ⟨c, cs, rfl, hc, _⟩ | ⟨cs, rfl, _⟩ | ⟨b, rfl, hb⟩ | ⟨b, rfl, hb⟩
  · have : c ≠ '\'' := by rintro rfl; revert hc; decide
    exact Or.inl ⟨by simpa using this, rawName_of_ne (by simpa using this)⟩
  · exact Or.inl ⟨by simp, rawName_of_ne (by simp)⟩
  · exact Or.inr ⟨rfl, by rw [rawName_quoted]; rfl⟩
  · exact Or.inl ⟨by simp, rawName_of_ne (by simp)⟩

theorem rawName_quote (nm : List Char) : rawName (quote nm) = nm := rawName_quoted nm

theorem lower_raw {nm : List Char} (h : LowerName nm) : rawName nm = nm := by
  obtain ⟨c, cs, rfl, hc, _⟩ := h
  have : c ≠ '\'' := by rintro rfl; revert hc; decide
  exact rawName_of_ne (by simpa using this)

theorem SameName.raw {a b : List Char} (h : SameName a b) : rawName a = rawName b := by
  rcases h with rfl | ⟨h, rfl⟩ | ⟨h, rfl⟩
  · rfl
  · rw [rawName_quote, lower_raw h]
  · rw [rawName_quote, lower_raw h]

theorem sameName_of_raw {a b : List Char} (ha : NameOK a) (hb : NameOK b)
    (ia : a.head? = some '\'' → (rawName a).head? ≠ some '$' ∧ (rawName a).head? ≠ some '"')
    (ib : b.head? = some '\'' → (rawName b).head? ≠ some '$' ∧ (rawName b).head? ≠ some '"') (h : rawName a = rawName b) : SameName a b := by
  have key : ∀ {a b : List Char}, NameOK b → b.head? ≠ some '\'' → rawName b = b → rawName a = rawName b →
      ((rawName a).head? ≠ some '$' ∧ (rawName a).head? ≠ some '"') → LowerName b := by
    intro a b hb h1 h2 h3 h4
    rw [h3, h2] at h4
    rcases hb with hb | ⟨cs, rfl, _⟩ | ⟨c, rfl, _⟩ | ⟨c, rfl, _⟩
    · exact hb
    · exact absurd rfl h4.1
    · exact absurd rfl h1
    · exact absurd rfl h4.2
  rcases nameOK_cases ha with ⟨a1, a2⟩ | ⟨a1, a2⟩ <;> rcases nameOK_cases hb with ⟨b1, b2⟩ | ⟨b1, b2⟩
  · exact Or.inl (by rw [← a2, h, b2])
  · exact Or.inr (Or.inr ⟨key ha a1 a2 h.symm (ib b1), by rw [b2, ← h, a2]⟩)
  · exact Or.inr (Or.inl ⟨key hb b1 b2 h (ia a1), by rw [a2, h, b2]⟩)
  · exact Or.inl (by rw [a2, b2, h])

/-- The vocabulary of a list of symbols. -/
def GoodNames.vocab {rs : List (List Char × Nat)} (h : GoodNames rs) (P : List Char → Nat → Bool) : Vocab where
  ok nm n := (nm, n) ∈ rs
  pred := P
  name_ok hm := h.name_ok _ hm
  no_fix hm := h.no_fix _ hm
  quoted hm hm' hr hq :=
    h.quoted _ hm _ hm' (sameName_of_raw (h.name_ok _ hm) (h.name_ok _ hm') (h.inner _ hm) (h.inner _ hm') hr) hq

theorem sigFor_init {V : Vocab} (ht : V.ok "$true".toList 0) (hf : V.ok "$false".toList 0) (pt : V.pred "$true".toList 0 = true)
    (pf : V.pred "$false".toList 0 = true) : SigFor V sigInit := by
  refine ⟨?_, by decide, ?_⟩
  · intro e he
    simp only [sigInit, List.mem_cons, List.not_mem_nil, or_false] at he
    rcases he with rfl | rfl
    · exact .plain (by decide) ht
    · exact .plain (by decide) hf
  · intro e he _
    simp only [sigInit, List.mem_cons, List.not_mem_nil, or_false] at he
    rcases he with rfl | rfl
    · right
      have : rawName "$true".toList = "$true".toList := by decide
      simp only [this, pt]; rfl
    · right
      have : rawName "$false".toList = "$false".toList := by decide
      simp only [this, pf]; rfl

theorem readAll_spec {V : Vocab} : ∀ {rs : List (List Char × Nat)} {sg : SigTab}, SigFor V sg → (∀ p ∈ rs, V.ok p.1 p.2) →
    SigFor V (sigReadAll sg rs).2 ∧ SigExt sg (sigReadAll sg rs).2 ∧
      ∀ (i : Nat) (p : List Char × Nat), rs[i]? = some p → ∃ a e, (sigReadAll sg rs).1[i]? = some a ∧ (sigReadAll sg rs).2.entry a = some e ∧
        rawName e.pname = rawName p.1 ∧ e.arity = p.2
  | [], sg, h, _ => ⟨h, sigExt_refl sg, fun i p hi => by simp at hi⟩
  | (nm, n) :: rs, sg, h, hok => by
    obtain ⟨h1, h2, e, h3, _, _, h5, h6⟩ := sigInsert_spec h (hok (nm, n) (by simp))
    obtain ⟨k1, k2, k3⟩ := readAll_spec (rs := rs) h1 (fun p hp => hok p (List.mem_cons_of_mem _ hp))
    refine ⟨k1, h2.trans k2, ?_⟩
    intro i p hi
    cases i with
    | zero =>
      simp only [List.getElem?_cons_zero, Option.some.injEq] at hi
      subst hi
      obtain ⟨e', g1, g2, g3, g4⟩ := k2 _ e h3
      exact ⟨_, e', rfl, g1, by rw [g3]; exact h5, by rw [g4]; exact h6⟩
    | succ i =>
      simp only [List.getElem?_cons_succ] at hi
      obtain ⟨a, e', g1, g2, g3, g4⟩ := k3 i p hi
      exact ⟨a, e', g1, g2, g3, g4⟩

end Text

end Verif
