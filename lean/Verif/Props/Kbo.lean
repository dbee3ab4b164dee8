import Verif.Orderings.KboProof

/-!
# C08, C09: the Knuth-Bendix comparison

`after O hist` is the work state of the ordering object after the comparisons in `hist`; the theorems hold for every
history, so no comparison is influenced by an earlier one.
-/

namespace Verif.Props
open Verif Term KboOrder KboProof

/-- The work state after a sequence of comparisons, starting from a new OCB. -/
def after (O : KOcb) : List (Term × Term) → BalSt
  | [] => BalSt.init
  | (s, t) :: hist => (kbo6Compare O (after O hist) s t).2

/-- All terms of a history respect the arities. -/
def HistOK (ar : Nat → Nat) (hist : List (Term × Term)) : Prop := ∀ p ∈ hist, p.1.HasAr ar ∧ p.2.HasAr ar

variable {O : KOcb} {ar : Nat → Nat}

private theorem after_clean (hO : TotalCmp O.cmp) (hA : (O.par ar).Admissible) {hist : List (Term × Term)}
    (hh : HistOK ar hist) : Clean (after O hist) := by
  induction hist with
  | nil => exact clean_init
  | cons p hist ih =>
    obtain ⟨s, t⟩ := p
    have hc := ih fun q hq => hh q (by simp [hq])
    obtain ⟨h1, h2, h3⟩ := clean_reset hc
    obtain ⟨hs, ht⟩ := hh (s, t) (by simp)
    exact (kbolin_spec hO hA s t _ hs ht ⟨h1, h2, h3⟩).2.clean

private theorem zero_after (hO : TotalCmp O.cmp) (hA : (O.par ar).Admissible) {hist : List (Term × Term)}
    (hh : HistOK ar hist) : Zero (after O hist).reset := by
  obtain ⟨h1, h2, h3⟩ := clean_reset (after_clean hO hA hh)
  exact ⟨h1, h2, h3⟩

private theorem right_iff {P : KboPar} (hP : StrictPrec P.gt) (hA : P.Admissible) {r : Cmp} {s t : Term}
    (hs : s.HasAr P.ar) (ht : t.HasAr P.ar) (h : Right P r s t) :
    (r = .greater ↔ KBO P s t) ∧ (r = .lesser ↔ KBO P t s) ∧ (r = .equal ↔ s = t) ∧
      (r = .uncomparable ↔ s ≠ t ∧ ¬ KBO P s t ∧ ¬ KBO P t s) := by
  cases r with
  | greater =>
    have h : KBO P s t := h
    have h1 := kbo_asymm hP hA hs ht h
    have h2 : s ≠ t := by rintro rfl; exact kbo_irrefl hP h
    simp [h, h1, h2]
  | lesser =>
    have h : KBO P t s := h
    have h1 := kbo_asymm hP hA ht hs h
    have h2 : s ≠ t := by rintro rfl; exact kbo_irrefl hP h
    simp [h, h1, h2]
  | equal =>
    have h : s = t := h
    subst h
    simp [kbo_irrefl hP]
  | uncomparable =>
    have h : s ≠ t ∧ ¬ KBO P s t ∧ ¬ KBO P t s := h
    simp [h.1, h.2.1, h.2.2]
  | _ => exact h.elim

/-- **C08.** After any sequence of comparisons, `KBO6Compare` answers exactly the textbook relation of the two terms. -/
theorem kbo6Compare_correct (hO : TotalCmp O.cmp) (hA : (O.par ar).Admissible) {hist : List (Term × Term)}
    (hh : HistOK ar hist) {s t : Term} (hs : s.HasAr ar) (ht : t.HasAr ar) :
    ((kbo6Compare O (after O hist) s t).1 = .greater ↔ KBO (O.par ar) s t) ∧
    ((kbo6Compare O (after O hist) s t).1 = .lesser ↔ KBO (O.par ar) t s) ∧
    ((kbo6Compare O (after O hist) s t).1 = .equal ↔ s = t) ∧
    ((kbo6Compare O (after O hist) s t).1 = .uncomparable ↔ s ≠ t ∧ ¬ KBO (O.par ar) s t ∧ ¬ KBO (O.par ar) t s) :=
  right_iff hO.tot.toStrictPrec hA hs ht (kbolin_spec hO hA s t _ hs ht (zero_after hO hA hh)).1

/-- **C08.** `KBO6Greater` answers true exactly for the textbook relation. -/
theorem kbo6Greater_correct (hO : TotalCmp O.cmp) (hA : (O.par ar).Admissible) {hist : List (Term × Term)}
    (hh : HistOK ar hist) {s t : Term} (hs : s.HasAr ar) (ht : t.HasAr ar) :
    (kbo6Greater O (after O hist) s t).1 = true ↔ KBO (O.par ar) s t := by
  rw [← (kbo6Compare_correct hO hA hh hs ht).1]
  simp [kbo6Greater, kbo6Compare]

/-- **C08.** A comparison does not depend on earlier ones. -/
theorem kbo6Compare_history (hO : TotalCmp O.cmp) (hA : (O.par ar).Admissible) {h1 h2 : List (Term × Term)}
    (hh1 : HistOK ar h1) (hh2 : HistOK ar h2) {s t : Term} (hs : s.HasAr ar) (ht : t.HasAr ar) :
    (kbo6Compare O (after O h1) s t).1 = (kbo6Compare O (after O h2) s t).1 := by
  obtain ⟨a1, a2, a3, a4⟩ := kbo6Compare_correct hO hA hh1 hs ht
  obtain ⟨b1, b2, b3, b4⟩ := kbo6Compare_correct hO hA hh2 hs ht
  have := right_cases (kbolin_spec hO hA s t _ hs ht (zero_after hO hA hh1)).1
  rcases this with h | h | h | h
  · exact h.trans (b3.2 (a3.1 h)).symm
  · exact h.trans (b1.2 (a1.1 h)).symm
  · exact h.trans (b2.2 (a2.1 h)).symm
  · exact h.trans (b4.2 (a4.1 h)).symm

/-- **C08.** The reference version gives the same answer, so the assertions of cto_kbolin.c:1291 and 1332 hold. -/
theorem kbo6cmp_agrees (hO : TotalCmp O.cmp) (hA : (O.par ar).Admissible) {hist : List (Term × Term)}
    (hh : HistOK ar hist) {s t : Term} (hs : s.HasAr ar) (ht : t.HasAr ar) :
    (kbo6cmp O s t (after O hist).reset).1 = (kbo6Compare O (after O hist) s t).1 := by
  have h := (kbo6cmp_spec hO hA s t _ hs ht (zero_after hO hA hh)).1
  obtain ⟨a1, a2, a3, a4⟩ := right_iff hO.tot.toStrictPrec hA hs ht h
  obtain ⟨b1, b2, b3, b4⟩ := kbo6Compare_correct hO hA hh hs ht
  rcases right_cases h with h | h | h | h
  · exact h.trans (b3.2 (a3.1 h)).symm
  · exact h.trans (b1.2 (a1.1 h)).symm
  · exact h.trans (b2.2 (a2.1 h)).symm
  · exact h.trans (b4.2 (a4.1 h)).symm

/-! ## C09: a simplification ordering -/

/-- `s` is reported greater than `t` by a fresh ordering object. -/
def KGt (O : KOcb) (s t : Term) : Prop := (kbo6Compare O BalSt.init s t).1 = .greater

theorem kgt_iff (hO : TotalCmp O.cmp) (hA : (O.par ar).Admissible) {s t : Term} (hs : s.HasAr ar) (ht : t.HasAr ar) :
    KGt O s t ↔ KBO (O.par ar) s t :=
  (kbo6Compare_correct (hist := []) hO hA (by simp [HistOK]) hs ht).1

/-- **C09.** Irreflexive. -/
theorem kgt_irrefl (hO : TotalCmp O.cmp) (hA : (O.par ar).Admissible) {s : Term} (hs : s.HasAr ar) : ¬ KGt O s s := by
  rw [kgt_iff hO hA hs hs]; exact kbo_irrefl hO.tot.toStrictPrec

/-- **C09.** Transitive. -/
theorem kgt_trans (hO : TotalCmp O.cmp) (hA : (O.par ar).Admissible) {s t u : Term} (hs : s.HasAr ar) (ht : t.HasAr ar)
    (hu : u.HasAr ar) (h1 : KGt O s t) (h2 : KGt O t u) : KGt O s u := by
  rw [kgt_iff hO hA hs ht] at h1
  rw [kgt_iff hO hA ht hu] at h2
  rw [kgt_iff hO hA hs hu]
  exact kbo_trans hO.tot.toStrictPrec hA hs ht hu h1 h2

/-- **C09.** Stable under substitutions. -/
theorem kgt_subst (hO : TotalCmp O.cmp) (hA : (O.par ar).Admissible) {s t : Term} (hs : s.HasAr ar) (ht : t.HasAr ar)
    {σ : Nat → Term} (hσ : ∀ x, (σ x).HasAr ar) (h : KGt O s t) : KGt O (s.subst σ) (t.subst σ) := by
  rw [kgt_iff hO hA hs ht] at h
  rw [kgt_iff hO hA (hasAr_subst hσ hs) (hasAr_subst hσ ht)]
  exact kbo_subst hO.tot.toStrictPrec hA hσ hs ht h

/-- **C09.** Compatible with contexts. -/
theorem kgt_mono (hO : TotalCmp O.cmp) (hA : (O.par ar).Admissible) {s t : Term} {f : Nat} {pre post : List Term}
    (hs : (Term.app f (pre ++ s :: post)).HasAr ar) (ht : t.HasAr ar) (h : KGt O s t) :
    KGt O (.app f (pre ++ s :: post)) (.app f (pre ++ t :: post)) := by
  obtain ⟨hl, ha⟩ := hasAr_app.1 hs
  have hs1 : s.HasAr ar := ha s (by simp)
  have ht' : (Term.app f (pre ++ t :: post)).HasAr ar := by
    refine hasAr_app.2 ⟨by simpa using hl, fun u hu => ?_⟩
    rcases List.mem_append.1 hu with hu | hu
    · exact ha u (by simp [hu])
    · rcases List.mem_cons.1 hu with rfl | hu
      · exact ht
      · exact ha u (by simp [hu])
  rw [kgt_iff hO hA hs1 ht] at h
  rw [kgt_iff hO hA hs ht']
  exact kbo_mono h f pre post

/-- **C09.** A term is greater than its arguments (hence, with transitivity, than its proper subterms). -/
theorem kgt_arg (hO : TotalCmp O.cmp) (hA : (O.par ar).Admissible) {f : Nat} {ts : List Term}
    (hs : (Term.app f ts).HasAr ar) {t : Term} (h : t ∈ ts) : KGt O (.app f ts) t := by
  rw [kgt_iff hO hA hs ((hasAr_app.1 hs).2 t h)]
  exact kbo_arg hA hs h

/-- **C09.** Total on ground terms. -/
theorem kgt_total (hO : TotalCmp O.cmp) (hA : (O.par ar).Admissible) {s t : Term} (hs : s.HasAr ar) (ht : t.HasAr ar)
    (gs : s.vars = []) (gt : t.vars = []) : KGt O s t ∨ s = t ∨ KGt O t s := by
  rw [kgt_iff hO hA hs ht, kgt_iff hO hA ht hs]
  by_cases he : s = t
  · exact Or.inr (Or.inl he)
  · rcases kbo_total (P := O.par ar) hO.tot hs ht gs gt he with h | h
    · exact Or.inl h
    · exact Or.inr (Or.inr h)

/-- **C09.** No infinite descending chain of terms over finitely many symbols. -/
theorem kgt_wf (hO : TotalCmp O.cmp) (hA : (O.par ar).Admissible) (N : Nat) :
    ¬ ∃ c : Nat → Term, (∀ n, (c n).HasAr ar ∧ (c n).SymsBelow N) ∧ ∀ n, KGt O (c n) (c (n + 1)) := by
  rintro ⟨c, hc, h⟩
  have hwf := kbo_wf_finite (P := O.par ar) hO.tot.toStrictPrec hA N
  obtain ⟨m, ⟨n, rfl⟩, hm⟩ := hwf.has_min (Set.range c) ⟨c 0, 0, rfl⟩
  exact hm (c (n + 1)) ⟨n + 1, rfl⟩
    ⟨(hc _).2, (hc _).2, (hc _).1, (hc _).1, (kgt_iff hO hA (hc _).1 (hc _).1).1 (h n)⟩

/-! ## The hypotheses are needed -/

/-- The comparison of two symbols by their codes, except that `1` and `2` are incomparable. -/
private def partialCmp (f g : Nat) : Cmp :=
  if f = g then .equal else if f = 1 ∧ g = 2 ∨ f = 2 ∧ g = 1 then .uncomparable else qToPart (f - g)

/-- **C08, partial precedence.** With two incomparable constants of the same weight, `KBO6Compare` reports two different
terms as equal, while the reference version used in the assertion says incomparable. -/
theorem kbo6Compare_partial_precedence :
    ∃ O : KOcb, StrictPrec (fun f g => O.cmp f g = .greater) ∧ (O.par fun _ => 0).Admissible ∧
      ∃ s t : Term, s ≠ t ∧ (kbo6Compare O BalSt.init s t).1 = .equal ∧ (kbo6cmp O s t BalSt.init.reset).1 = .uncomparable := by
  refine ⟨⟨fun _ => 1, 1, partialCmp⟩, ⟨?_, ?_⟩, ⟨by decide, fun _ _ => le_refl _, ?_⟩, .app 1 [], .app 2 [], by simp, by decide, by decide⟩
  · intro f; simp [partialCmp]
  · intro f g h h1 h2
    simp only [partialCmp, qToPart] at *
    split_ifs at * <;> omega
  · simp [KOcb.par]

/-- Weights of `WModArityWeight` (arity + 4) for the symbols `1`, `2`, `3` with arities 1, 2, 0, and weight 1 for every
symbol created later (`OCBFunWeight`, ORDERINGS/cto_ocb.h:190-206); precedence by code. -/
private def lateOcb : KOcb where
  w f := if f = 1 then 5 else if f = 2 then 6 else if f = 3 then 4 else 1
  w0 := 4
  cmp f g := qToPart (g - f)

private def lateAr (f : Nat) : Nat := if f = 1 then 1 else if f = 2 then 2 else 0

/-- **C09, symbols created after the weights.** A constant created later gets weight 1, below the variable weight, and
the comparison is then not stable under substitution. -/
theorem kgt_subst_fails_for_new_constants :
    TotalCmp lateOcb.cmp ∧ ∃ (s t : Term) (σ : Nat → Term), s.HasAr lateAr ∧ t.HasAr lateAr ∧ (∀ x, (σ x).HasAr lateAr) ∧
      KGt lateOcb s t ∧ ¬ KGt lateOcb (s.subst σ) (t.subst σ) ∧ KGt lateOcb (t.subst σ) (s.subst σ) := by
  refine ⟨⟨⟨⟨?_, ?_⟩, ?_⟩, ?_⟩, .app 1 [.app 1 [.var 0]], .app 2 [.app 3 [], .app 3 []], fun _ => .app 4 [],
    ?_, ?_, ?_, ?_, ?_, ?_⟩
  · intro f; simp [lateOcb, qToPart]
  · intro f g h
    simp only [lateOcb, qToPart]
    split_ifs <;> first | omega | simp_all
  · intro f g h
    simp only [lateOcb, qToPart]
    split_ifs <;> first | omega | simp_all
  · intro f g
    simp only [lateOcb, qToPart]
    split_ifs <;> first | omega | simp_all
  · simp [HasAr, HasArL, lateAr]
  · simp [HasAr, HasArL, lateAr]
  · intro x; simp [HasAr, HasArL, lateAr]
  · unfold KGt; decide
  · unfold KGt; decide
  · unfold KGt; decide

/-! ## Examples -/

/-- An admissible OCB: `1` is unary of weight 0 and largest, `2` is a binary symbol, other symbols are constants. -/
private def exOcb : KOcb where
  w f := if f = 1 then 0 else 1
  w0 := 1
  cmp f g := if f = g then .equal else if f = 1 then .greater else if g = 1 then .lesser else qToPart (f - g)

private def exAr (f : Nat) : Nat := if f = 1 then 1 else if f = 2 then 2 else 0

private theorem exTotal : TotalCmp exOcb.cmp := by
  refine ⟨⟨⟨?_, ?_⟩, ?_⟩, ?_⟩
  · intro f; simp [exOcb]
  · intro f g h
    simp only [exOcb, qToPart]
    split_ifs <;> first | omega | simp_all
  · intro f g h
    simp only [exOcb, qToPart]
    split_ifs <;> first | omega | simp_all
  · intro f g
    simp only [exOcb, qToPart]
    split_ifs <;> first | omega | simp_all

private theorem exAdm : (exOcb.par exAr).Admissible := by
  refine ⟨by decide, ?_, ?_⟩
  · intro f; simp only [KOcb.par, exOcb, exAr]; split_ifs <;> simp
  · intro f hf hw g hg
    simp only [KOcb.par, exOcb, exAr] at *
    split_ifs at * <;> simp_all

example : KGt exOcb (.app 1 [.app 2 [.var 0, .app 3 []]]) (.app 2 [.var 0, .app 3 []]) ∧
    HistOK exAr [(.app 1 [.var 7], .var 3)] ∧
    (kbo6Compare exOcb (after exOcb [(.app 1 [.var 7], .var 3)]) (.app 2 [.var 0, .app 4 []]) (.app 2 [.var 0, .app 3 []])).1 = .greater := by
  refine ⟨by unfold KGt; decide, by simp [HistOK, HasAr, HasArL, exAr], by decide⟩

example : ∃ s t : Term, s.HasAr exAr ∧ t.HasAr exAr ∧ KGt exOcb s t ∧
    ∀ σ : Nat → Term, (∀ x, (σ x).HasAr exAr) → KGt exOcb (s.subst σ) (t.subst σ) := by
  have hs : (Term.app 1 [.app 2 [.var 0, .app 3 []]]).HasAr exAr := by simp [HasAr, HasArL, exAr]
  have ht : (Term.app 2 [.var 0, .app 3 []]).HasAr exAr := by simp [HasAr, HasArL, exAr]
  exact ⟨_, _, hs, ht, by unfold KGt; decide, fun σ hσ => kgt_subst exTotal exAdm hs ht hσ (by unfold KGt; decide)⟩

end Verif.Props
