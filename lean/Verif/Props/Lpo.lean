import Verif.Orderings.LpoProof

/-!
# C10, C11: the lexicographic path ordering

`lim` is `LPORecursionDepthLimit` (1000 unless changed).  `WithinLimit lim s t` says that the comparison cannot reach it.
-/

namespace Verif.Props
open Verif Term LpoOrder LpoProof

variable {cmp : Nat → Nat → Cmp} {ar : Nat → Nat} {lim : Nat}

/-- The comparison of `s` and `t` stays within the recursion limit. -/
def WithinLimit (lim : Nat) (s t : Term) : Prop := s.depth + t.depth ≤ lim + 2

/-- The path ordering of a comparison function. -/
abbrev LpoOf (cmp : Nat → Nat → Cmp) : Term → Term → Prop := LPO fun f g => cmp f g = .greater

/-- **C10.** `LPO4Greater` decides the textbook ordering. -/
theorem lpo4Greater_correct (hc : StrictCmp cmp) {s t : Term} (hs : s.HasAr ar) (ht : t.HasAr ar) (hd : WithinLimit lim s t) :
    lpo4Greater cmp lim s t = true ↔ LpoOf cmp s t :=
  ⟨lpo4_sound hc _ hs ht, lpo4_complete hc _ hs ht hd⟩

/-- **C10.** Also beyond the limit, a positive answer is right. -/
theorem lpo4Greater_sound (hc : StrictCmp cmp) {s t : Term} (hs : s.HasAr ar) (ht : t.HasAr ar)
    (h : lpo4Greater cmp lim s t = true) : LpoOf cmp s t :=
  lpo4_sound hc _ hs ht h

/-- **C10.** `LPO4Compare` answers exactly the textbook relation. -/
theorem lpo4Compare_correct (hc : StrictCmp cmp) {s t : Term} (hs : s.HasAr ar) (ht : t.HasAr ar) (hd : WithinLimit lim s t) :
    (lpo4Compare cmp lim s t = .greater ↔ LpoOf cmp s t) ∧ (lpo4Compare cmp lim s t = .lesser ↔ LpoOf cmp t s) ∧
    (lpo4Compare cmp lim s t = .equal ↔ s = t) ∧
    (lpo4Compare cmp lim s t = .uncomparable ↔ s ≠ t ∧ ¬ LpoOf cmp s t ∧ ¬ LpoOf cmp t s) := by
  have hd' : WithinLimit lim t s := by unfold WithinLimit at *; omega
  have h1 := lpo4Greater_correct hc hs ht hd
  have h2 := lpo4Greater_correct hc ht hs hd'
  simp only [lpo4Greater] at h1 h2
  unfold lpo4Compare
  by_cases he : s = t
  · subst he
    have := lpo_irrefl hc.strict (s := s)
    simp [this]
  · rw [if_neg he]
    by_cases hg : LpoOf cmp s t
    · have := lpo_asymm hc.strict hg
      simp [h1.2 hg, hg, this, he]
    · rw [if_neg (fun h => hg (h1.1 h))]
      by_cases hl : LpoOf cmp t s
      · simp [h2.2 hl, hl, hg, he]
      · rw [if_neg (fun h => hl (h2.1 h))]
        simp [hl, hg, he]

/-- **C10.** Whatever the limit: `greater`, `lesser` and `equal` are right answers. -/
theorem lpo4Compare_sound (hc : StrictCmp cmp) {s t : Term} (hs : s.HasAr ar) (ht : t.HasAr ar) :
    (lpo4Compare cmp lim s t = .greater → LpoOf cmp s t) ∧ (lpo4Compare cmp lim s t = .lesser → LpoOf cmp t s) ∧
    (lpo4Compare cmp lim s t = .equal ↔ s = t) := by
  unfold lpo4Compare
  refine ⟨fun h => ?_, fun h => ?_, ?_⟩
  · split_ifs at h with h1 h2
    exact lpo4_sound hc _ hs ht h2
  · split_ifs at h with h1 h2 h3
    exact lpo4_sound hc _ ht hs h3
  · split_ifs with h1 <;> simp [h1]

/-- **C10.** The older `LPOCompare` gives the same answers as `LPO4Compare` (the commented-out assertions of
cto_lpo.c:892 and 935 hold). -/
theorem lpoCompare_agrees (hc : StrictCmp cmp) {s t : Term} (hs : s.HasAr ar) (ht : t.HasAr ar) (hd : WithinLimit lim s t) :
    lpoCompare cmp lim s t = lpo4Compare cmp lim s t := by
  have hd' : WithinLimit lim t s := by unfold WithinLimit at *; omega
  obtain ⟨c1, c2, c3, c4⟩ := lpo4Compare_correct hc hs ht hd
  obtain ⟨s1, s2, s3, s4, s5⟩ := lpoG_sound hc (lim + 1) hs ht
  obtain ⟨k1, k2⟩ := lpoG_complete hc (lim + 1) hs ht hd
  obtain ⟨r1, r2, r3, r4, r5⟩ := lpoG_sound hc (lim + 1) ht hs
  obtain ⟨m1, m2⟩ := lpoG_complete hc (lim + 1) ht hs hd'
  unfold lpoCompare
  cases h : lpoG cmp (lim + 1) s t with
  | greater => exact (c1.2 (s1 h)).symm
  | equal => exact (c3.2 (s2 h)).symm
  | lesser => exact absurd h s3
  | unknown => exact absurd h s4
  | notleeq => exact absurd h s5
  | uncomparable =>
    refine (c4.2 ⟨fun e => ?_, fun g => ?_, lpoG_uncomparable h hc⟩).symm
    · rw [k2 e] at h; cases h
    · rw [k1 g] at h; cases h
  | notgteq =>
    have n1 : s ≠ t := fun e => by rw [k2 e] at h; cases h
    have n2 : ¬ LpoOf cmp s t := fun g => by rw [k1 g] at h; cases h
    simp only
    cases h' : lpoG cmp (lim + 1) t s with
    | greater => exact (c2.2 (r1 h')).symm
    | equal => exact absurd (r2 h').symm n1
    | lesser => exact absurd h' r3
    | unknown => exact absurd h' r4
    | notleeq => exact absurd h' r5
    | uncomparable => exact (c4.2 ⟨n1, n2, fun g => by rw [m1 g] at h'; cases h'⟩).symm
    | notgteq => exact (c4.2 ⟨n1, n2, fun g => by rw [m1 g] at h'; cases h'⟩).symm

/-- **C10.** Likewise `LPOGreater` and `LPO4Greater`. -/
theorem lpoGreater_agrees (hc : StrictCmp cmp) {s t : Term} (hs : s.HasAr ar) (ht : t.HasAr ar) (hd : WithinLimit lim s t) :
    lpoGreater cmp lim s t = lpo4Greater cmp lim s t := by
  have h1 := lpo4Greater_correct hc hs ht hd
  have h2 := (lpoG_sound hc (lim + 1) hs ht).1
  have h3 := (lpoG_complete hc (lim + 1) hs ht hd).1
  rw [Bool.eq_iff_iff, h1]
  simp only [lpoGreater, decide_eq_true_eq]
  exact ⟨h2, h3⟩

/-- The limit matters: whatever it is, there are terms related by the ordering for which both directions answer no. -/
theorem lpo4_limit_incomplete (lim : Nat) :
    ∃ cmp : Nat → Nat → Cmp, ∃ s t : Term, StrictCmp cmp ∧ LpoOf cmp s t ∧ lpo4Greater cmp lim s t = false := by
  let cmp : Nat → Nat → Cmp := fun f g => qToPart (f - g)
  have hc : StrictCmp cmp := by
    refine ⟨⟨?_, ?_⟩, ?_, ?_, ?_⟩
    · intro f; simp [cmp, qToPart]
    · intro f g h
      simp only [cmp, qToPart]
      split_ifs <;> first | omega | simp_all
    · intro f g
      simp only [cmp, qToPart]
      split_ifs <;> simp <;> omega
    · intro f g
      simp only [cmp, qToPart]
      split_ifs <;> first | omega | simp_all
    · intro f g
      simp only [cmp, qToPart]
      split_ifs <;> simp
  have hlpo : ∀ n, LpoOf cmp (pow 0 n (.app 2 [])) (pow 0 n (.app 1 [])) := by
    intro n
    induction n with
    | zero => exact .prec (by decide) (by simp)
    | succ n ih => exact lpo_mono ih 0 [] []
  refine ⟨cmp, pow 0 (lim + 1) (.app 2 []), pow 0 (lim + 1) (.app 1 []), hc, hlpo _, ?_⟩
  have : ∀ d n, d ≤ n → lpo4 cmp d (pow 0 n (.app 2 [])) (pow 0 n (.app 1 [])) = false := by
    intro d
    induction d with
    | zero => intro n _; simp [lpo4]
    | succ d ih =>
      intro n hn
      obtain ⟨n, rfl⟩ : ∃ m, n = m + 1 := ⟨n - 1, by omega⟩
      rw [pow, pow, lpo4]
      rw [if_neg (by decide), if_pos (by decide), lpoLexMa]
      rw [if_neg (fun e => by have := hlpo n; rw [e] at this; exact lpo_irrefl hc.strict this), ih n (by omega)]
      simp [lpoAlpha]
  exact this _ _ (le_refl _)

/-! ## C11: a simplification ordering -/

/-- **C11.** Irreflexive. -/
theorem lpo4Greater_irrefl (hc : StrictCmp cmp) {s : Term} (hs : s.HasAr ar) : lpo4Greater cmp lim s s = false := by
  rw [Bool.eq_false_iff]
  exact fun h => lpo_irrefl hc.strict (lpo4_sound hc _ hs hs h)

/-- **C11.** Transitive (if the last comparison stays within the limit). -/
theorem lpo4Greater_trans (hc : StrictCmp cmp) {s t u : Term} (hs : s.HasAr ar) (ht : t.HasAr ar) (hu : u.HasAr ar)
    (hd : WithinLimit lim s u) (h1 : lpo4Greater cmp lim s t = true) (h2 : lpo4Greater cmp lim t u = true) :
    lpo4Greater cmp lim s u = true :=
  (lpo4Greater_correct hc hs hu hd).2 (LPO.trans hc.strict (lpo4_sound hc _ hs ht h1) (lpo4_sound hc _ ht hu h2))

/-- **C11.** Stable under substitutions. -/
theorem lpo4Greater_subst (hc : StrictCmp cmp) {s t : Term} (hs : s.HasAr ar) (ht : t.HasAr ar) {σ : Nat → Term}
    (hσ : ∀ x, (σ x).HasAr ar) (hd : WithinLimit lim (s.subst σ) (t.subst σ)) (h : lpo4Greater cmp lim s t = true) :
    lpo4Greater cmp lim (s.subst σ) (t.subst σ) = true :=
  (lpo4Greater_correct hc (KboOrder.hasAr_subst hσ hs) (KboOrder.hasAr_subst hσ ht) hd).2
    (lpo_subst σ (lpo4_sound hc _ hs ht h))

/-- **C11.** Compatible with contexts. -/
theorem lpo4Greater_mono (hc : StrictCmp cmp) {s t : Term} {f : Nat} {pre post : List Term}
    (hs : (Term.app f (pre ++ s :: post)).HasAr ar) (ht : t.HasAr ar)
    (hd : WithinLimit lim (.app f (pre ++ s :: post)) (.app f (pre ++ t :: post))) (h : lpo4Greater cmp lim s t = true) :
    lpo4Greater cmp lim (.app f (pre ++ s :: post)) (.app f (pre ++ t :: post)) = true := by
  obtain ⟨hl, ha⟩ := hasAr_app.1 hs
  have ht' : (Term.app f (pre ++ t :: post)).HasAr ar := by
    refine hasAr_app.2 ⟨by simpa using hl, fun u hu => ?_⟩
    rcases List.mem_append.1 hu with hu | hu
    · exact ha u (by simp [hu])
    · rcases List.mem_cons.1 hu with rfl | hu
      · exact ht
      · exact ha u (by simp [hu])
  exact (lpo4Greater_correct hc hs ht' hd).2 (lpo_mono (lpo4_sound hc _ (ha s (by simp)) ht h) f pre post)

/-- **C11.** A term is greater than its arguments. -/
theorem lpo4Greater_arg (hc : StrictCmp cmp) {f : Nat} {ts : List Term} (hs : (Term.app f ts).HasAr ar) {t : Term} (h : t ∈ ts)
    (hd : WithinLimit lim (.app f ts) t) : lpo4Greater cmp lim (.app f ts) t = true :=
  (lpo4Greater_correct hc hs ((hasAr_app.1 hs).2 t h) hd).2 (.sub h)

/-- **C11.** Total on ground terms if the precedence is total. -/
theorem lpo4Greater_total (hc : StrictCmp cmp) (ht : ∀ f g, f ≠ g → cmp f g = .greater ∨ cmp g f = .greater) {s t : Term}
    (hs : s.HasAr ar) (ht' : t.HasAr ar) (gs : s.vars = []) (gt : t.vars = []) (hd : WithinLimit lim s t) :
    lpo4Greater cmp lim s t = true ∨ s = t ∨ lpo4Greater cmp lim t s = true := by
  have hd' : WithinLimit lim t s := by unfold WithinLimit at *; omega
  rw [lpo4Greater_correct hc hs ht' hd, lpo4Greater_correct hc ht' hs hd']
  by_cases he : s = t
  · exact Or.inr (Or.inl he)
  · rcases lpo_total ⟨hc.strict, ht⟩ _ (le_refl _) hs ht' gs gt he with h | h
    · exact Or.inl h
    · exact Or.inr (Or.inr h)

/-- **C11.** No infinite descending chain of terms over finitely many symbols. -/
theorem lpo4Greater_wf (hc : StrictCmp cmp) (N : Nat) :
    ¬ ∃ c : Nat → Term, (∀ n, (c n).HasAr ar ∧ (c n).SymsBelow N) ∧ ∀ n, lpo4Greater cmp lim (c n) (c (n + 1)) = true := by
  rintro ⟨c, hc', h⟩
  have hwf := lpo_wf_finite hc.strict N
  obtain ⟨m, ⟨n, rfl⟩, hm⟩ := hwf.has_min (Set.range c) ⟨c 0, 0, rfl⟩
  exact hm (c (n + 1)) ⟨n + 1, rfl⟩ ⟨(hc' _).2, (hc' _).2, lpo4_sound hc _ (hc' _).1 (hc' _).1 (h n)⟩

/-! ## Examples -/

/-- Precedence by code. -/
private def exCmp (f g : Nat) : Cmp := qToPart (f - g)

private theorem exStrict : StrictCmp exCmp := by
  refine ⟨⟨?_, ?_⟩, ?_, ?_, ?_⟩
  · intro f; simp [exCmp, qToPart]
  · intro f g h
    simp only [exCmp, qToPart]
    split_ifs <;> first | omega | simp_all
  · intro f g
    simp only [exCmp, qToPart]
    split_ifs <;> simp <;> omega
  · intro f g
    simp only [exCmp, qToPart]
    split_ifs <;> first | omega | simp_all
  · intro f g
    simp only [exCmp, qToPart]
    split_ifs <;> simp

private def exArity (f : Nat) : Nat := if f ≤ 2 then f else 0

-- associativity, left to right: (x * y) * z > x * (y * z)
example : (Term.app 2 [.app 2 [.var 0, .var 1], .var 2]).HasAr exArity ∧
    WithinLimit 1000 (.app 2 [.app 2 [.var 0, .var 1], .var 2]) (.app 2 [.var 0, .app 2 [.var 1, .var 2]]) ∧
    lpo4Greater exCmp 1000 (.app 2 [.app 2 [.var 0, .var 1], .var 2]) (.app 2 [.var 0, .app 2 [.var 1, .var 2]]) = true ∧
    lpoCompare exCmp 1000 (.app 2 [.var 0, .app 2 [.var 1, .var 2]]) (.app 2 [.app 2 [.var 0, .var 1], .var 2]) = .lesser := by
  refine ⟨by simp [HasAr, HasArL, exArity], by simp [WithinLimit, Term.depth, Term.depthL], by decide, by decide⟩

example : LpoOf exCmp (.app 2 [.app 2 [.var 0, .var 1], .var 2]) (.app 2 [.var 0, .app 2 [.var 1, .var 2]]) :=
  lpo4Greater_sound (ar := exArity) (lim := 1000) exStrict (by simp [HasAr, HasArL, exArity]) (by simp [HasAr, HasArL, exArity]) (by decide)

end Verif.Props
