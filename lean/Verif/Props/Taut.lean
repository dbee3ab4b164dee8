import Verif.Clauses.Taut
import Verif.Clauses.InferProof

/-!
# C23, C24: tautologies and trivial clauses
-/

namespace Verif.Props
open Verif Term Interp SemProof InferProof

universe u

/-- The clause holds under every valuation of every interpretation. -/
def Valid (sg : Sig) (C : List Lit) : Prop := ∀ (I : Interp.{u} sg) (v : Nat → I.D), I.ClauseTrue v C

/-- `C` contains two literals of opposite sign with the same sides. -/
def Complementary (C : List Lit) : Prop :=
  ∃ L ∈ C, ∃ K ∈ C, L.pos = true ∧ K.pos = false ∧ ((L.l = K.l ∧ L.r = K.r) ∨ (L.l = K.r ∧ L.r = K.l))

/-! ## C24: the simple test -/

/-- C24: `EqnListIsTrivial` reports true exactly if the list contains two complementary literals. -/
theorem listIsTrivial_iff (C : List Lit) : listIsTrivial C = true ↔ Complementary C := by
  induction C with
  | nil => simp [listIsTrivial, Complementary]
  | cons L C ih =>
    rw [listIsTrivial, Bool.or_eq_true, ih, List.any_eq_true]
    constructor
    · rintro (⟨K, hK, h⟩ | ⟨M, hM, K, hK, h⟩)
      · simp only [Bool.and_eq_true, bne_iff_ne, ne_eq, eqnEqual, decide_eq_true_eq] at h
        cases hp : L.pos with
        | true =>
          refine ⟨L, by simp, K, by simp [hK], hp, ?_, ?_⟩
          · have := h.1; rw [hp] at this; simpa using this
          · rcases h.2 with ⟨e1, e2⟩ | ⟨e1, e2⟩
            · exact Or.inl ⟨e1.symm, e2.symm⟩
            · exact Or.inr ⟨e2.symm, e1.symm⟩
        | false =>
          refine ⟨K, by simp [hK], L, by simp, ?_, hp, h.2⟩
          have := h.1; rw [hp] at this; simpa using this
      · exact ⟨M, by simp [hM], K, by simp [hK], h⟩
    · rintro ⟨M, hM, K, hK, hpM, hpK, h⟩
      rcases List.mem_cons.1 hM with rfl | hM <;> rcases List.mem_cons.1 hK with rfl | hK
      · rw [hpM] at hpK; cases hpK
      · left
        refine ⟨K, hK, ?_⟩
        simp only [Bool.and_eq_true, bne_iff_ne, ne_eq, eqnEqual, decide_eq_true_eq, hpM, hpK]
        refine ⟨by decide, ?_⟩
        rcases h with ⟨e1, e2⟩ | ⟨e1, e2⟩
        · exact Or.inl ⟨e1.symm, e2.symm⟩
        · exact Or.inr ⟨e2.symm, e1.symm⟩
      · left
        refine ⟨M, by assumption, ?_⟩
        simp only [Bool.and_eq_true, bne_iff_ne, ne_eq, eqnEqual, decide_eq_true_eq, hpM, hpK]
        exact ⟨by decide, h⟩
      · exact Or.inr ⟨M, hM, K, hK, hpM, hpK, h⟩

/-! ## C24: the long test -/

/-- Different terms occurring in `C` have different entry numbers (they are shared, C04). -/
def Numbered (no : Term → Int) (C : List Lit) : Prop :=
  ∀ s t : Term, (∃ L ∈ C, s = L.l ∨ s = L.r) → (∃ L ∈ C, t = L.l ∨ t = L.r) → no s = no t → s = t

theorem syntaxCompare_eq {no : Term → Int} {C : List Lit} (hno : Numbered no C) {L K : Lit} (hL : L ∈ C) (hK : K ∈ C) :
    eqnSyntaxCompare no L K = .eq ↔
      ((L.r = tTrue ↔ K.r = tTrue) ∧ ((L.l = K.l ∧ L.r = K.r) ∨ (L.l = K.r ∧ L.r = K.l))) := by
  have key : (max (no L.l) (no L.r) = max (no K.l) (no K.r) ∧ min (no L.l) (no L.r) = min (no K.l) (no K.r)) ↔
      ((L.l = K.l ∧ L.r = K.r) ∨ (L.l = K.r ∧ L.r = K.l)) := by
    have i1 : L.l = K.l ↔ no L.l = no K.l := ⟨congrArg no, hno _ _ ⟨L, hL, Or.inl rfl⟩ ⟨K, hK, Or.inl rfl⟩⟩
    have i2 : L.r = K.r ↔ no L.r = no K.r := ⟨congrArg no, hno _ _ ⟨L, hL, Or.inr rfl⟩ ⟨K, hK, Or.inr rfl⟩⟩
    have i3 : L.l = K.r ↔ no L.l = no K.r := ⟨congrArg no, hno _ _ ⟨L, hL, Or.inl rfl⟩ ⟨K, hK, Or.inr rfl⟩⟩
    have i4 : L.r = K.l ↔ no L.r = no K.l := ⟨congrArg no, hno _ _ ⟨L, hL, Or.inr rfl⟩ ⟨K, hK, Or.inl rfl⟩⟩
    rw [i1, i2, i3, i4]
    omega
  rw [← key]
  unfold eqnSyntaxCompare
  by_cases h1 : L.r = tTrue <;> by_cases h2 : K.r = tTrue <;>
    simp [h1, h2, Ordering.then_eq_eq]

theorem binSearch_spec {α : Type} {cmp : α → α → Ordering} {stk : List α} {key : α} {n lower upper : Nat} :
    lower + 1 ≤ binSearch cmp stk key n lower upper ∨
      (lower ≤ binSearch cmp stk key n lower upper ∧
        ∃ x, stk[binSearch cmp stk key n lower upper]? = some x ∧ cmp key x = .eq) := by
  induction n generalizing lower upper with
  | zero => simp [binSearch]
  | succ n ih =>
    rw [binSearch]
    split
    · simp only
      split
      · exact Or.inl (le_refl _)
      · rename_i x hx
        split
        · exact ih
        · rcases ih (lower := (lower + upper) / 2 + 1) (upper := upper) with h | ⟨h, hx⟩
          · left; omega
          · exact Or.inr ⟨by omega, hx⟩
        · exact Or.inr ⟨by omega, x, hx, by assumption⟩
    · exact Or.inl (le_refl _)

theorem longLoop_total {no : Term → Int} {ps ns : List Lit} (hno : Numbered no (ps ++ ns)) (n pp np : Nat)
    (h : ps.length - pp < n) : ∃ r, longTrivialLoop no ps ns n pp np = some r := by
  induction n generalizing pp np with
  | zero => omega
  | succ n ih =>
    rw [longTrivialLoop]
    split
    · exact ⟨_, rfl⟩
    · rename_i key hkey
      simp only
      split
      · exact ⟨_, rfl⟩
      · rename_i key2 hkey2
        have hm : key ∈ ps ++ ns := List.mem_append_left _ (List.mem_of_getElem? hkey)
        have hm2 : key2 ∈ ps ++ ns := List.mem_append_right _ (List.mem_of_getElem? hkey2)
        have hlt : pp < ps.length := (List.getElem?_eq_some_iff.1 hkey).1
        split
        · exact ⟨_, rfl⟩
        · rename_i hne
          apply ih
          have := binSearch_spec (cmp := eqnSyntaxCompare no) (stk := ps) (key := key2) (n := ps.length + 1)
            (lower := pp) (upper := ps.length)
          rcases this with h1 | ⟨h1, x, hx, hxe⟩
          · omega
          · by_cases he : binSearch (eqnSyntaxCompare no) ps key2 (ps.length + 1) pp ps.length = pp
            · exfalso
              rw [he, hkey] at hx
              cases hx
              apply hne
              rw [syntaxCompare_eq hno hm2 hm] at hxe
              rw [syntaxCompare_eq hno hm hm2]
              obtain ⟨e1, e2⟩ := hxe
              refine ⟨e1.symm, ?_⟩
              rcases e2 with ⟨a, b⟩ | ⟨a, b⟩
              · exact Or.inl ⟨a.symm, b.symm⟩
              · exact Or.inr ⟨b.symm, a.symm⟩
            · omega

theorem longLoop_sound {no : Term → Int} {ps ns : List Lit} (hno : Numbered no (ps ++ ns)) {n pp np : Nat}
    (h : longTrivialLoop no ps ns n pp np = some true) :
    ∃ L ∈ ps, ∃ K ∈ ns, (L.l = K.l ∧ L.r = K.r) ∨ (L.l = K.r ∧ L.r = K.l) := by
  induction n generalizing pp np with
  | zero => simp [longTrivialLoop] at h
  | succ n ih =>
    rw [longTrivialLoop] at h
    split at h
    · simp at h
    · rename_i key hkey
      simp only at h
      split at h
      · simp at h
      · rename_i key2 hkey2
        have hm := List.mem_of_getElem? hkey
        have hm2 := List.mem_of_getElem? hkey2
        split at h
        · rename_i he
          rw [syntaxCompare_eq hno (List.mem_append_left _ hm) (List.mem_append_right _ hm2)] at he
          exact ⟨key, hm, key2, hm2, he.2⟩
        · exact ih h

/-- `ps` and `ns` are the positive and negative literals of `C`, each sorted by `EqnSyntaxCompare` (what
`EqnListSplitToStacks` and `PStackSort` leave). -/
structure Sorted (no : Term → Int) (C ps ns : List Lit) : Prop where
  pos : ps.Perm (C.filter (·.pos))
  neg : ns.Perm (C.filter (!·.pos))
  psort : ps.Pairwise fun L K => eqnSyntaxCompare no L K ≠ .gt
  nsort : ns.Pairwise fun L K => eqnSyntaxCompare no L K ≠ .gt

theorem Sorted.mem {no : Term → Int} {C ps ns : List Lit} (h : Sorted no C ps ns) :
    (∀ L ∈ ps, L ∈ C ∧ L.pos = true) ∧ ∀ L ∈ ns, L ∈ C ∧ L.pos = false := by
  refine ⟨fun L hL => ?_, fun L hL => ?_⟩
  · have := h.pos.mem_iff.1 hL; simpa using this
  · have := h.neg.mem_iff.1 hL; simpa using this

theorem Numbered.sub {no : Term → Int} {C ps ns : List Lit} (hno : Numbered no C) (h : Sorted no C ps ns) :
    Numbered no (ps ++ ns) := by
  rintro s t ⟨L, hL, hs⟩ ⟨K, hK, ht⟩ he
  have hm : ∀ M ∈ ps ++ ns, M ∈ C := fun M hM => by
    rcases List.mem_append.1 hM with hM | hM
    · exact (h.mem.1 M hM).1
    · exact (h.mem.2 M hM).1
  exact hno s t ⟨L, hm L hL, hs⟩ ⟨K, hm K hK, ht⟩ he

/-- C24, the direction that holds: the test for long lists always returns, and if it reports true the clause
contains complementary literals.  Missing for the full property: the converse, which is false
(`longTrivial_incomplete`). -/
theorem longTrivial_sound_partial {no : Term → Int} {C ps ns : List Lit} (hno : Numbered no C)
    (hs : Sorted no C ps ns) :
    (∃ r, longListIsTrivial no ps ns = some r) ∧ (longListIsTrivial no ps ns = some true → Complementary C) := by
  refine ⟨longLoop_total (hno.sub hs) _ _ _ (by omega), fun h => ?_⟩
  obtain ⟨L, hL, K, hK, he⟩ := longLoop_sound (hno.sub hs) h
  exact ⟨L, (hs.mem.1 L hL).1, K, (hs.mem.2 K hK).1, (hs.mem.1 L hL).2, (hs.mem.2 K hK).2, he⟩

/-! The counterexample: `p0 ∨ ¬p0 ∨ ¬p1 ∨ … ∨ ¬p14`. -/

def atomLit (pos : Bool) (i : Nat) : Lit := ⟨pos, .app (10 + i) [], tTrue⟩

def entryNo : Term → Int
  | .app f [] => f
  | _ => 0

def longNeg : List Lit := (List.range 15).map (atomLit false)

def longClause : List Lit := atomLit true 0 :: longNeg

/-- C24 fails: a clause with 16 literals that contains `p0` and `¬p0`, sorted as the code sorts it, is not
recognised (`PStackBinSearch` treats its upper bound as exclusive but continues with `i - 1`, and
returns `lower + 1` when the key is not found). -/
theorem longTrivial_incomplete :
    Complementary longClause ∧ Numbered entryNo longClause ∧ Sorted entryNo longClause [atomLit true 0] longNeg ∧
      longListIsTrivial entryNo [atomLit true 0] longNeg = some false ∧
      ∀ sg : Sig, sg.distinct 1 = false → clauseIsTrivial sg entryNo [atomLit true 0] longNeg longClause = some false := by
  refine ⟨?_, ?_, ?_, by decide, ?_⟩
  · exact ⟨atomLit true 0, by decide, atomLit false 0, by decide, rfl, rfl, Or.inl ⟨rfl, rfl⟩⟩
  · have hc : ∀ t, (∃ L ∈ longClause, t = L.l ∨ t = L.r) → ∃ f, t = .app f [] := by
      rintro t ⟨L, hL, ht⟩
      simp only [longClause, longNeg, List.mem_cons, List.mem_map] at hL
      rcases hL with rfl | ⟨i, -, rfl⟩ <;> rcases ht with rfl | rfl <;> exact ⟨_, rfl⟩
    intro s t hs ht he
    obtain ⟨f, rfl⟩ := hc s hs
    obtain ⟨g, rfl⟩ := hc t ht
    simp only [entryNo, Int.natCast_inj] at he
    rw [he]
  · refine ⟨by decide, by decide, by decide, by decide⟩
  · intro sg hd
    have hf : findTrue sg longClause = false := by
      rw [Bool.eq_false_iff]
      intro h
      simp [findTrue, longClause, longNeg, atomLit, eqnIsTrue, termsDistinct, tTrue, hd] at h
    rw [clauseIsTrivial, hf]
    decide

/-! ## C23: soundness -/

theorem valid_of_complementary {sg : Sig} {C : List Lit} (h : Complementary C) : Valid.{u} sg C := by
  intro I v
  obtain ⟨L, hL, K, hK, pL, pK, he⟩ := h
  by_cases ht : I.eval v L.l = I.eval v L.r
  · exact ⟨L, hL, by simp [LitTrue, pL, ht]⟩
  · refine ⟨K, hK, ?_⟩
    simp only [LitTrue, pK]
    rcases he with ⟨a, b⟩ | ⟨a, b⟩
    · simpa [← a, ← b] using ht
    · simpa [← a, ← b] using fun h => ht h.symm

theorem valid_of_findTrue {sg : Sig} {C : List Lit} (h : findTrue sg C = true) : Valid.{u} sg C := by
  intro I v
  rw [findTrue, List.any_eq_true] at h
  obtain ⟨L, hL, ht⟩ := h
  exact ⟨L, hL, eqnIsTrue_sound ht I v⟩

/-- C23 for `ClauseIsTrivial`: a clause reported trivial is valid. -/
theorem trivial_sound {sg : Sig} {no : Term → Int} {C ps ns : List Lit} (hno : Numbered no C)
    (hs : Sorted no C ps ns) (h : clauseIsTrivial sg no ps ns C = some true) : Valid.{u} sg C := by
  unfold clauseIsTrivial at h
  split at h
  · exact valid_of_findTrue ‹_›
  · split at h
    · split at h
      · exact valid_of_complementary ((longTrivial_sound_partial hno hs).2 h)
      · exact valid_of_complementary ((listIsTrivial_iff C).1 (by simpa using h))
    · simp at h

/-- All rules hold. -/
def Holds {sg : Sig} (I : Interp.{u} sg) (v : Nat → I.D) (es : List GEq) : Prop :=
  ∀ e ∈ es, I.eval v e.l = I.eval v e.r

theorem topNF_eval {sg : Sig} {I : Interp.{u} sg} {v : Nat → I.D} {es : List GEq} (h : Holds I v es) {t t' : Term}
    (ht : topNF es t = some t') : I.eval v t' = I.eval v t := by
  induction es with
  | nil => simp [topNF] at ht
  | cons e es ih =>
    rw [topNF] at ht
    by_cases hc : (if e.nat then e.l else e.r) = t
    · rw [if_pos hc] at ht
      have he := h e (by simp)
      have ht := Option.some.inj ht
      rw [← ht, ← hc]
      cases e.nat
      · exact he
      · exact he.symm
    · rw [if_neg hc] at ht
      exact ih (fun e he => h e (by simp [he])) ht

theorem groundNFL_eq (es : List GEq) (ts : List Term) : (groundNFL es ts).2 = ts.map fun t => (groundNF es t).2 := by
  induction ts with
  | nil => rfl
  | cons t ts ih => simp [groundNFL, ih]

theorem groundNF_eval {sg : Sig} {I : Interp.{u} sg} {v : Nat → I.D} {es : List GEq} (h : Holds I v es) (t : Term) :
    I.eval v (groundNF es t).2 = I.eval v t := by
  induction t using Term.ind with
  | hv x =>
    rw [groundNF]
    split
    · exact topNF_eval h ‹_›
    · rfl
  | ha f ts ih =>
    have hargs : I.eval v (.app f (groundNFL es ts).2) = I.eval v (.app f ts) := by
      rw [groundNFL_eq, eval_app, eval_app, List.map_map]
      congr 1
      exact List.map_congr_left ih
    rw [groundNF]
    split
    · rw [topNF_eval h ‹_›, hargs]
    · exact hargs

theorem normEqn_eval {sg : Sig} {I : Interp.{u} sg} {v : Nat → I.D} {es : List GEq} (h : Holds I v es) (e : GEq) :
    I.eval v (groundNormalizeEqn es e).2.l = I.eval v e.l ∧ I.eval v (groundNormalizeEqn es e).2.r = I.eval v e.r :=
  ⟨groundNF_eval h e.l, groundNF_eval h e.r⟩

theorem backward_holds {sg : Sig} {I : Interp.{u} sg} {v : Nat → I.D} {es : List GEq} (h : Holds I v es) (frm dst : List GEq)
    (hf : Holds I v frm) (hd : Holds I v dst) :
    Holds I v (groundBackwardContract es frm dst).1 ∧ Holds I v (groundBackwardContract es frm dst).2 := by
  induction frm generalizing dst with
  | nil => exact ⟨hf, hd⟩
  | cons e frm ih =>
    have he : I.eval v (groundNormalizeEqn es e).2.l = I.eval v (groundNormalizeEqn es e).2.r := by
      rw [(normEqn_eval h e).1, (normEqn_eval h e).2, hf e (by simp)]
    have hf' : Holds I v frm := fun e he => hf e (by simp [he])
    rw [groundBackwardContract]
    simp only
    split
    · refine ih _ hf' fun e' he' => ?_
      rcases List.mem_cons.1 he' with rfl | he'
      · exact he
      · exact hd e' he'
    · refine ⟨fun e' he' => ?_, (ih dst hf' hd).2⟩
      rcases List.mem_cons.1 he' with rfl | he'
      · exact he
      · exact (ih dst hf' hd).1 e' he'

theorem complete_holds {sg : Sig} {I : Interp.{u} sg} {v : Nat → I.D} {n : Nat} {unproc proc res : List GEq}
    (hu : Holds I v unproc) (hp : Holds I v proc) (h : groundComplete n unproc proc = some res) : Holds I v res := by
  induction n generalizing unproc proc with
  | zero => simp [groundComplete] at h
  | succ n ih =>
    cases unproc with
    | nil => simp [groundComplete] at h; exact h ▸ hp
    | cons e unproc =>
      rw [groundComplete] at h
      simp only at h
      have hu' : Holds I v unproc := fun e he => hu e (by simp [he])
      split at h
      · exact ih hu' hp h
      · have he : I.eval v (groundNormalizeEqn proc e).2.l = I.eval v (groundNormalizeEqn proc e).2.r := by
          rw [(normEqn_eval hp e).1, (normEqn_eval hp e).2, hu e (by simp)]
        have hs : Holds I v [groundOrient (groundNormalizeEqn proc e).2] := by
          intro e' he'
          rw [List.mem_singleton.1 he']
          exact he
        have hb := backward_holds hs proc unproc hp hu'
        refine ih hb.2 ?_ h
        intro e' he'
        rcases List.mem_cons.1 he' with rfl | he'
        · exact hs _ (by simp)
        · exact hb.1 e' he'

/-- C23: whenever `ClauseIsTautology` reports true, the clause holds under every valuation of every
interpretation. -/
theorem tautology_sound {sg : Sig} {no : Term → Int} {n : Nat} {C ps ns : List Lit} (hno : Numbered no C)
    (hs : Sorted no C ps ns) (h : clauseIsTautology sg no ps ns n C = some true) : Valid.{u} sg C := by
  unfold clauseIsTautology at h
  split at h
  · exact valid_of_findTrue ‹_›
  · simp only at h
    split at h
    · simp at h
    · split at h
      · exact trivial_sound hno hs h
      · split at h
        · simp at h
        · rename_i sys hsys
          intro I v
          by_contra hc
          -- all negative literals are false: their equations hold
          have hr : Holds I v ((C.filter fun L => !L.pos).reverse.map fun L => (⟨L.l, L.r, false⟩ : GEq)) := by
            intro e he
            simp only [List.mem_map, List.mem_reverse, List.mem_filter, Bool.not_eq_true'] at he
            obtain ⟨L, ⟨hL, hp⟩, rfl⟩ := he
            by_contra hne
            exact hc ⟨L, hL, by simpa [LitTrue, hp] using hne⟩
          have hsy : Holds I v sys := by
            split at hsys
            · rename_i e heq
              simp only [Option.some.injEq] at hsys
              subst hsys
              rw [heq] at hr
              intro e' he'
              rw [List.mem_singleton.1 he']
              exact hr e (by simp)
            · exact complete_holds hr (by intro e he; simp at he) hsys
          simp only [Option.some.injEq, List.any_eq_true, List.mem_filter, decide_eq_true_eq] at h
          obtain ⟨L, ⟨hL, hp⟩, he⟩ := h
          refine hc ⟨L, hL, ?_⟩
          have := normEqn_eval hsy ⟨L.l, L.r, false⟩
          simp only [LitTrue, hp, if_true]
          rw [← this.1, ← this.2, he]

/-! Non-vacuity: `a ≠ b ∨ b ≠ c ∨ f(a) = f(c)` is recognised. -/

private def tautEx : List Lit :=
  [⟨false, .app 10 [], .app 11 []⟩, ⟨false, .app 11 [], .app 12 []⟩, ⟨true, .app 13 [.app 10 []], .app 13 [.app 12 []]⟩]

private def tautSig : Sig := ⟨fun _ => 0, fun _ => 0, fun _ => [], fun _ => false⟩

example : ∃ n, clauseIsTautology tautSig (fun _ => 0) [] [] n tautEx = some true ∧ listIsTrivial tautEx = false :=
  ⟨5, by decide, by decide⟩

example : clauseIsTrivial tautSig entryNo [] [] [atomLit true 1, atomLit false 0, atomLit false 1] = some true := by decide

/-- Two positive and 15 negative literals, recognised by the long test. -/
example : longListIsTrivial entryNo [atomLit true 7, atomLit true 20] longNeg = some true := by decide

end Verif.Props
