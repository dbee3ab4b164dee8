import Verif.Heuristics.LitSelTable
import Verif.Props.MaxLits
import Verif.Clauses.SupSpec

/-!
# C73: literal selection
-/

namespace Verif.Props
open Verif LitSel LitCmpProof

/-- The same literals in the same order; sides may be exchanged. -/
def SameClause (C D : List FLit) : Prop :=
  List.Forall₂ (fun K L => L.lit = K.lit ∨ L.lit = ⟨K.lit.pos, K.lit.r, K.lit.l⟩) C D

/-- If literals are selected, so is a negative one. -/
def NegIfSel (C : List FLit) : Prop :=
  (∃ L ∈ C, L.selected = true) → ∃ L ∈ C, L.selected = true ∧ L.lit.pos = false

private theorem rel_same {x : SelCtx} {C D : List FLit} (h : Rel x C D) : SameClause C D := List.Forall₂.imp (fun _ _ r => r.lit) h

private theorem one_neg {b : Bool} {C : List FLit} (h : OneSel b C) : NegIfSel C := fun _ =>
  let ⟨_, L, h1, h2, h3, _⟩ := h
  ⟨L, List.mem_of_getElem? h1, h3, h2⟩

private theorem none_neg {C : List FLit} (h : ∀ L ∈ C, L.selected = false) : NegIfSel C := by
  rintro ⟨L, hL, hs⟩
  rw [h L hL] at hs; cases hs

private theorem one_only {C : List FLit} (h : OneSel false C) : ∀ L ∈ C, L.selected = true → L.lit.pos = false := by
  obtain ⟨i, L, h1, h2, h3, h4⟩ := h
  intro K hK hs
  obtain ⟨j, hj⟩ := List.getElem?_of_mem hK
  rcases h4 j K hj hs with rfl | ⟨e, -⟩
  · rw [h1] at hj; cases hj; exact h2
  · cases e

/-- What all strategies but one do. -/
private theorem strategy_cases {e : String × SelFun} (he : e ∈ strategies) (hne : e.1 ≠ "PSelectPureVarNegLiterals") (x : SelCtx) (C : SCl)
    (hn : C.lits.any neg = true) (hs : ∀ L ∈ C.lits, SmallLit L) (h0 : ∀ L ∈ C.lits, L.selected = false) (ho : C.oriented = false) :
    ∃ D, e.2 x C = some D ∧ Rel x C.lits D.lits ∧
      ((Inv0 x C.lits D ∨ OneSel (mayPos e.1) D.lits ∧ (e.1 = "SelectVGNonCR" ∨ D.oriented = false)) ∨
       ((e.1 = "SelectNegativeLiterals" ∨ e.1 = "PSelectNegativeLiterals") ∧ D.oriented = false ∧
        ∀ L ∈ D.lits, L.selected = (mayPos e.1 || neg L))) := by
  rcases strategies_good e he with hsp | hg
  · obtain ⟨s, f⟩ := e
    have hfind : ∀ (s : String) (g : SelFun), (strategies.filter fun e => e.1 == s).map (·.2) = [g] → ∀ f, (s, f) ∈ strategies → f = g := by
      intro s g hg f hf
      have : f ∈ (strategies.filter fun e => e.1 == s).map (·.2) :=
        List.mem_map.2 ⟨(s, f), List.mem_filter.2 ⟨hf, by simp⟩, rfl⟩
      rw [hg] at this
      simpa using this
    simp only [special, List.mem_cons, List.not_mem_nil, or_false] at hsp
    rcases hsp with h | h | h | h
    · exact absurd h hne
    · subst h
      have hf : f = selectVGNonCR := hfind _ _ rfl f he
      subst hf
      obtain ⟨D, e, hr, hd⟩ := vg_good (x := x) hn hs h0 ho
      exact ⟨D, e, hr, .inl (hd.imp id fun r => ⟨r, .inl rfl⟩)⟩
    · subst h
      have hf : f = selectNegative false := hfind _ _ rfl f he
      subst hf
      obtain ⟨D, e, hr, hor, hd⟩ := selectNegative_spec false x C h0
      exact ⟨D, e, hr, .inr ⟨.inl rfl, hor.trans ho, hd⟩⟩
    · subst h
      have hf : f = selectNegative true := hfind _ _ rfl f he
      subst hf
      obtain ⟨D, e, hr, hor, hd⟩ := selectNegative_spec true x C h0
      exact ⟨D, e, hr, .inr ⟨.inr rfl, hor.trans ho, hd⟩⟩
  · obtain ⟨D, e, o⟩ := hg x C hn hs h0 ho
    exact ⟨D, e, o.rel, .inl (o.res.imp id fun r => ⟨r.1, .inr r.2⟩)⟩

/-- **C73.** Every selection strategy of the table but PSelectPureVarNegLiterals, whatever the ordering and the weights: applied to a clause with a
negative literal and nothing selected (the situation in `DoLiteralSelection`), it terminates without an error, keeps the literals, and if it selects
anything, it selects a negative literal.  Strategies called `Select...` select negative literals only. -/
theorem selection_negative_partial {e : String × SelFun} (he : e ∈ strategies) (hne : e.1 ≠ "PSelectPureVarNegLiterals") (x : SelCtx) (C : SCl)
    (hn : ∃ L ∈ C.lits, L.lit.pos = false) (hs : ∀ L ∈ C.lits, SmallLit L) (h0 : ∀ L ∈ C.lits, L.selected = false) (ho : C.oriented = false) :
    ∃ D, e.2 x C = some D ∧ SameClause C.lits D.lits ∧ NegIfSel D.lits ∧
      (mayPos e.1 = false → ∀ L ∈ D.lits, L.selected = true → L.lit.pos = false) := by
  have hn' : C.lits.any neg = true := by
    obtain ⟨L, hL, hp⟩ := hn
    exact List.any_eq_true.2 ⟨L, hL, by simp [neg, hp]⟩
  obtain ⟨D, e', hr, hd⟩ := strategy_cases he hne x C hn' hs h0 ho
  refine ⟨D, e', rel_same hr, ?_, ?_⟩
  · rcases hd with (hd | ⟨hd, -⟩) | ⟨-, -, hd⟩
    · exact none_neg hd.none
    · exact one_neg hd
    · rintro -
      obtain ⟨L, hL, hLn⟩ := List.any_eq_true.1 (hr.any_neg ▸ hn')
      refine ⟨L, hL, by rw [hd L hL, hLn]; simp, by simpa [neg] using hLn⟩
  · intro hm L hL hsel
    rcases hd with (hd | ⟨hd, -⟩) | ⟨-, -, hd⟩
    · rw [hd.none L hL] at hsel; cases hsel
    · rw [hm] at hd; exact one_only hd L hL hsel
    · rw [hd L hL, hm] at hsel; simpa [neg] using hsel

/-- **C73.** All strategies but three select at most one negative literal; SelectNegativeLiterals selects exactly the negative ones,
PSelectNegativeLiterals all. -/
theorem selection_one_negative {e : String × SelFun} (he : e ∈ strategies) (hne : e.1 ≠ "PSelectPureVarNegLiterals") (x : SelCtx) (C : SCl)
    (hn : ∃ L ∈ C.lits, L.lit.pos = false) (hs : ∀ L ∈ C.lits, SmallLit L) (h0 : ∀ L ∈ C.lits, L.selected = false) (ho : C.oriented = false) :
    ∃ D, e.2 x C = some D ∧
      (e.1 ≠ "SelectNegativeLiterals" → e.1 ≠ "PSelectNegativeLiterals" → ∀ (i j : Nat) (K L : FLit), D.lits[i]? = some K → D.lits[j]? = some L →
        K.selected = true → L.selected = true → K.lit.pos = false → L.lit.pos = false → i = j) ∧
      (e.1 = "SelectNegativeLiterals" → ∀ L ∈ D.lits, (L.selected = true ↔ L.lit.pos = false)) ∧
      (e.1 = "PSelectNegativeLiterals" → ∀ L ∈ D.lits, L.selected = true) := by
  have hn' : C.lits.any neg = true := by
    obtain ⟨L, hL, hp⟩ := hn
    exact List.any_eq_true.2 ⟨L, hL, by simp [neg, hp]⟩
  by_cases hm : e.1 = "SelectNegativeLiterals" ∨ e.1 = "PSelectNegativeLiterals"
  · have hget : ∃ f, e.2 = selectNegative f ∧ f = mayPos e.1 := by
      obtain ⟨s, f⟩ := e
      have hfind : ∀ (s : String) (g : SelFun), (strategies.filter fun e => e.1 == s).map (·.2) = [g] → ∀ f, (s, f) ∈ strategies → f = g := by
        intro s g hg f hf
        have : f ∈ (strategies.filter fun e => e.1 == s).map (·.2) :=
          List.mem_map.2 ⟨(s, f), List.mem_filter.2 ⟨hf, by simp⟩, rfl⟩
        rw [hg] at this
        simpa using this
      simp only at hm
      rcases hm with rfl | rfl
      · exact ⟨false, hfind _ _ rfl f he, (show mayPos "SelectNegativeLiterals" = false by decide).symm⟩
      · exact ⟨true, hfind _ _ rfl f he, (show mayPos "PSelectNegativeLiterals" = true by decide).symm⟩
    obtain ⟨f, hf, hf'⟩ := hget
    obtain ⟨D, e', -, -, hd⟩ := selectNegative_spec f x C h0
    refine ⟨D, by rw [hf]; exact e', fun h1 h2 => by rcases hm with h | h <;> contradiction, fun h L hL => ?_, fun h L hL => ?_⟩
    · rw [hd L hL, hf', h]; simp [mayPos, neg]
    · rw [hd L hL, hf', h]; simp [mayPos]
  · obtain ⟨D, e', hr, hd⟩ := strategy_cases he hne x C hn' hs h0 ho
    refine ⟨D, e', fun _ _ i j K L hK hL h1 h2 h3 h4 => ?_, fun h => absurd (.inl h) hm, fun h => absurd (.inr h) hm⟩
    rcases hd with (hd | ⟨hd, -⟩) | ⟨h, -⟩
    · rw [hd.none K (List.mem_of_getElem? hK)] at h1; cases h1
    · obtain ⟨k, M, -, -, -, hu⟩ := hd
      rcases hu i K hK h1 with rfl | ⟨-, hp⟩
      · rcases hu j L hL h2 with rfl | ⟨-, hp⟩
        · rfl
        · rw [hp] at h4; cases h4
      · rw [hp] at h3; cases h3
    · exact absurd h hm

/-- **C73.** The names in the table are distinct: `GetLitSelFun` finds each strategy. -/
theorem getLitSelFun_correct {e : String × SelFun} (he : e ∈ strategies) : getLitSelFun e.1 = some e.2 := by
  have hnd : (strategies.map (·.1)).Nodup := by decide +kernel
  unfold getLitSelFun
  generalize strategies = l at *
  induction l with
  | nil => cases he
  | cons a l ih =>
    rw [List.map_cons, List.nodup_cons] at hnd
    rw [List.find?_cons]
    rcases List.mem_cons.1 he with rfl | he
    · simp
    · have : (a.1 == e.1) = false := by
        simp only [beq_eq_false_iff_ne]
        intro h
        exact hnd.1 (h ▸ List.mem_map_of_mem he)
      rw [this]
      exact ih he hnd.2

/-! ## `DoLiteralSelection` and the marks -/

private theorem mark_negIfSel {cmp : Term → Term → Cmp} {lc : FLit → FLit → Cmp} {C : List FLit} (h : NegIfSel C) :
    NegIfSel (markMaximalTerms cmp lc C) := by
  rintro ⟨L, hL, hs⟩
  obtain ⟨i, hi⟩ := List.getElem?_of_mem hL
  obtain ⟨a, b, e⟩ := markMax_getElem? cmp lc C i
  rw [e, Option.map_eq_some_iff] at hi
  obtain ⟨K, hK, rfl⟩ := hi
  obtain ⟨M, hM, hMs, hMn⟩ := h ⟨K, List.mem_of_getElem? hK, by simpa [eqnOrient_selected] using hs⟩
  obtain ⟨j, hj⟩ := List.getElem?_of_mem hM
  obtain ⟨a, b, e⟩ := markMax_getElem? cmp lc C j
  rw [hj] at e
  refine ⟨_, List.mem_of_getElem? e, by simpa [eqnOrient_selected] using hMs, ?_⟩
  rcases eqnOrient_lit cmp M with e' | e' <;> simp [e', hMn]

/-- What is known after `DoLiteralSelection` and marking. -/
private theorem selectAndMark_cases {f : SelFun} {x : SelCtx}
    (hf : ∀ C : SCl, C.lits.any neg = true → (∀ L ∈ C.lits, SmallLit L) → (∀ L ∈ C.lits, L.selected = false) → C.oriented = false →
      ∃ D, f x C = some D ∧ Rel x C.lits D.lits ∧ NegIfSel D.lits ∧ (D.oriented = true → Marked x C.lits D.lits))
    (inherit : Bool) (into : Nat → Bool) (limits : Bool) (C : SCl) (hs : ∀ L ∈ C.lits, SmallLit L) :
    ∃ M, selectAndMark x f inherit into limits C = some M ∧ Marked x C.lits M ∧ Rel x C.lits M ∧ NegIfSel M := by
  have hsel : ∀ C' : SCl, C' = LitSel.delOri (delSel (LitSel.delOri C)) → Rel x C.lits C'.lits ∧ (∀ L ∈ C'.lits, L.selected = false) ∧ C'.oriented = false := by
    rintro _ rfl
    refine ⟨(Rel.refl x C.lits).map _ fun K L h => .sel false h, fun L hL => ?_, rfl⟩
    simp only [LitSel.delOri, delSel, List.mem_map] at hL
    obtain ⟨K, -, rfl⟩ := hL
    rfl
  have hD : ∃ D, doLiteralSelection x f inherit into limits (LitSel.delOri C) = some D ∧ Rel x C.lits D.lits ∧ NegIfSel D.lits ∧
      (D.oriented = true → Marked x C.lits D.lits) := by
    unfold doLiteralSelection
    simp only
    generalize hC' : LitSel.delOri (delSel (LitSel.delOri C)) = C'
    obtain ⟨hr, h0, ho⟩ := hsel C' hC'.symm
    split
    · rename_i D hi
      refine ⟨D, rfl, ?_⟩
      cases inherit with
      | false => simp at hi
      | true =>
        simp only [if_true, selectInherited] at hi
        split at hi
        · rename_i hany
          cases hi
          refine ⟨?_, ?_, ?_⟩
          · refine forall2_of_getElem? (by simp [hr.length_eq]) fun i K L hK hL => ?_
            simp only [List.getElem?_map, List.getElem?_zipIdx, Option.map_map, Option.map_eq_some_iff] at hL
            obtain ⟨M, hM, rfl⟩ := hL
            simp only [Function.comp]
            split
            · exact .sel true (hr.get hK hM)
            · exact hr.get hK hM
          · rintro -
            obtain ⟨⟨L, i⟩, hL, hp⟩ := List.any_eq_true.1 hany
            simp only [Bool.and_eq_true] at hp
            refine ⟨{ L with selected := true }, List.mem_map.2 ⟨(L, i), hL, by simp [hp.2]⟩, rfl, by simpa [neg] using hp.1⟩
          · intro e; rw [show _ = false from ho] at e; cases e
        · cases hi
    · split
      · rename_i hc
        rw [Bool.and_eq_true] at hc
        obtain ⟨D, e, h1, h2, h3⟩ := hf C' hc.1 (fun L hL => let ⟨K, hK, hKL⟩ := hr.mem hL; hKL.small (hs K hK)) h0 ho
        exact ⟨D, e, hr.trans h1, h2, fun e => let ⟨E, hE, e'⟩ := h3 e; ⟨E, hr.trans hE, e'⟩⟩
      · exact ⟨C', rfl, hr, none_neg h0, by rw [ho]; simp⟩
  obtain ⟨D, e, hr, hn, ho⟩ := hD
  refine ⟨(condMark x D).lits, by rw [selectAndMark, e]; rfl, ?_⟩
  unfold condMark
  split
  · rename_i h
    exact ⟨ho h, hr, hn⟩
  · exact ⟨⟨D.lits, hr, rfl⟩, hr.mark, mark_negIfSel hn⟩

variable {D : Term → Prop} {cmp : Term → Term → Cmp} {gt : Term → Term → Prop}

private theorem reach_ok (h : OrdCmp D cmp gt) {K L : FLit} (hr : Reach cmp K L) (hin : K.lit.In D)
    (hf : K.upToDate = true → OrientRight gt K) : L.lit.In D ∧ (L.upToDate = true → OrientRight gt L) := by
  induction hr with
  | refl => exact ⟨hin, hf⟩
  | @orient L _ ih =>
    refine ⟨?_, fun _ => (eqnOrient_correct h ih.1 ih.2).1⟩
    rcases eqnOrient_lit cmp L with e | e <;> rw [e]
    · exact ih.1
    · exact ⟨ih.1.2, ih.1.1⟩
  | marks _ _ _ ih => exact ih
  | sel _ _ ih => exact ih

private theorem normal_compare {fcmp : Nat → Nat → Cmp} {a b : FLit} (pa : a.pseudo = false) (pb : b.pseudo = false) :
    literalCompare .normal cmp fcmp a b = if !a.selected && b.selected then .lesser else if a.selected && !b.selected then .greater
      else if (a.selected && b.selected) && a.lit.pos != b.lit.pos then .uncomparable else litCompareTerms cmp a b := by
  simp [literalCompare, pa, pb, tfoLiteralCompare]

/-- **C73.** For every strategy but the two named, with or without inherited literals and whatever the limits on sizes: after selection and marking,
the literals marked as maximal are exactly those that may be used for inferences in the calculus with the selection function that selects the
negative literals selected here.  Negative literals are marked iff they are eligible (`NegElig`); positive literals are marked and
not selected iff they are eligible (`PosElig`).  So the marks fit the selection, which is as C61 and C62 need it. -/
theorem selection_eligible_partial {e : String × SelFun} (he : e ∈ strategies) (hne : e.1 ≠ "PSelectPureVarNegLiterals") (hne' : e.1 ≠ "SelectVGNonCR")
    (h : OrdCmp D cmp gt) (hT : D tTrue) (hmin : ∀ t, D t → t ≠ tTrue → gt t tTrue) {fcmp : Nat → Nat → Cmp}
    {x : SelCtx} (hx : x.cmp = cmp) (hx' : x.lc = literalCompare .normal cmp fcmp)
    (inherit : Bool) (into : Nat → Bool) (limits : Bool) (C : SCl) (hs : ∀ L ∈ C.lits, SmallLit L)
    (hin : ∀ L ∈ C.lits, L.lit.In D) (hf : ∀ L ∈ C.lits, L.upToDate = true → OrientRight gt L) (hps : ∀ L ∈ C.lits, L.pseudo = false) :
    ∃ M, selectAndMark x e.2 inherit into limits C = some M ∧ SameClause C.lits M ∧ NegIfSel M ∧
      let sel := fun k => ∃ K, M[k]? = some K ∧ K.selected = true ∧ K.lit.pos = false
      ∀ (i : Nat) L, M[i]? = some L →
        (L.lit.pos = false → (L.maximal = true ↔ Sup.NegElig gt sel Term.var (M.map (·.lit)) i L.lit)) ∧
        (L.lit.pos = true → (L.maximal = true ∧ L.selected = false ↔ Sup.PosElig gt sel Term.var (M.map (·.lit)) L.lit)) := by
  have hcases := fun (C' : SCl) hn hs h0 ho => strategy_cases he hne x C' hn hs h0 ho
  obtain ⟨M, hM, ⟨E, hE, hME⟩, hr, hneg⟩ := selectAndMark_cases (x := x) (f := e.2) (by
    intro C' hn hs h0 ho
    obtain ⟨D', e', hr, hd⟩ := hcases C' hn hs h0 ho
    refine ⟨D', e', hr, ?_, ?_⟩
    · rcases hd with (hd | ⟨hd, -⟩) | ⟨-, -, hd⟩
      · exact none_neg hd.none
      · exact one_neg hd
      · rintro -
        obtain ⟨L, hL, hLn⟩ := List.any_eq_true.1 (hr.any_neg ▸ hn)
        exact ⟨L, hL, by rw [hd L hL, hLn]; simp, by simpa [neg] using hLn⟩
    · intro ho'
      rcases hd with (hd | ⟨-, hd⟩) | ⟨-, hd, -⟩
      · exact hd.ori ho'
      · rcases hd with hd | hd
        · exact absurd hd hne'
        · rw [hd] at ho'; cases ho'
      · rw [hd] at ho'; cases ho') inherit into limits C hs
  refine ⟨M, hM, rel_same hr, hneg, ?_⟩
  intro sel
  have hEok : ∀ L ∈ E, L.lit.In D ∧ (L.upToDate = true → OrientRight gt L) := fun L hL => by
    obtain ⟨K, hK, hKL⟩ := hE.mem hL
    rw [hx] at hKL
    exact reach_ok h hKL (hin K hK) (hf K hK)
  have hmark := markMaximalTerms_correct h hT hmin (mode := .normal) (fcmp := fcmp) (C := E) (fun L hL => (hEok L hL).1)
    (fun L hL => (hEok L hL).2) (by intro h; rcases h with h | h <;> cases h)
  simp only at hmark
  rw [hx, hx'] at hME
  rw [← hME] at hmark
  obtain ⟨hlen, hor, hmax, -⟩ := hmark
  have hMps : ∀ L ∈ M, L.pseudo = false := fun L hL => let ⟨K, hK, hKL⟩ := hr.mem hL; hKL.pseudo.trans (hps K hK)
  have hMin : ∀ L ∈ M, L.lit.In D := fun L hL => by
    obtain ⟨K, hK, hKL⟩ := hr.mem hL
    rw [hx] at hKL
    exact (reach_ok h hKL (hin K hK) (hf K hK)).1
  have hMor : ∀ L ∈ M, L.oriented = true → gt L.lit.l L.lit.r := by
    intro L hL
    obtain ⟨i, hi, rfl⟩ := List.mem_iff_getElem.1 hL
    exact (hor i (hlen ▸ hi) hi).2.1.1
  have hgr : ∀ K ∈ M, ∀ L ∈ M, literalCompare .normal cmp fcmp K L = .greater ↔
      (K.selected = true ∧ L.selected = false) ∨ (K.selected = L.selected ∧ (K.selected = true → K.lit.pos = L.lit.pos) ∧ LGt gt K.lit L.lit) := by
    intro K hK L hL
    rw [normal_compare (hMps K hK) (hMps L hL)]
    have hsp := (litCompareTerms_spec h (hMin K hK) (hMin L hL) (hMor K hK) (hMor L hL)).1
    cases hk : K.selected <;> cases hl : L.selected <;> simp [hsp]
    by_cases hpp : K.lit.pos = L.lit.pos
    · simp [hpp, hsp]
    · simp [hpp]
  have hmx : ∀ (i : Nat) L, M[i]? = some L → (L.maximal = true ↔ ∀ K ∈ M, ¬ ((K.selected = true ∧ L.selected = false) ∨
      (K.selected = L.selected ∧ (K.selected = true → K.lit.pos = L.lit.pos) ∧ LGt gt K.lit L.lit))) := by
    intro i L hi
    obtain ⟨hi', rfl⟩ := List.getElem?_eq_some_iff.1 hi
    rw [hmax i hi']
    constructor
    · intro hj K hK hc
      obtain ⟨j, hj', rfl⟩ := List.mem_iff_getElem.1 hK
      exact hj j hj' ((hgr _ (List.getElem_mem hj') _ (List.getElem_mem hi')).2 hc)
    · intro hj j hj' hc
      exact hj _ (List.getElem_mem hj') ((hgr _ (List.getElem_mem hj') _ (List.getElem_mem hi')).1 hc)
  have hsubst : ∀ K : Lit, K.subst Term.var = K := fun K => by simp [Lit.subst, Term.subst_id]
  have hnone : (∀ k, ¬ sel k) ↔ ∀ K ∈ M, K.selected = false := by
    constructor
    · intro hk K hK
      cases hs : K.selected with
      | false => rfl
      | true =>
        obtain ⟨L, hL, h1, h2⟩ := hneg ⟨K, hK, hs⟩
        obtain ⟨j, hj⟩ := List.getElem?_of_mem hL
        exact absurd ⟨L, hj, h1, h2⟩ (hk j)
    · rintro hk k ⟨K, hK, h1, -⟩
      rw [hk K (List.mem_of_getElem? hK)] at h1; cases h1
  intro i L hi
  have hLmem := List.mem_of_getElem? hi
  refine ⟨fun hp => ?_, fun hp => ?_⟩
  · rw [hmx i L hi]
    have hseli : sel i ↔ L.selected = true := by
      constructor
      · rintro ⟨K, hK, h1, -⟩; rw [hi] at hK; cases hK; exact h1
      · intro h1; exact ⟨L, hi, h1, hp⟩
    unfold Sup.NegElig
    simp only [hsubst, List.getElem?_map, Option.map_eq_some_iff]
    constructor
    · intro hk
      have hfirst : sel i ∨ ∀ k, ¬ sel k := by
        rw [hseli, hnone]
        cases hLs : L.selected with
        | true => exact .inl rfl
        | false =>
          right
          intro K hK
          cases hKs : K.selected with
          | false => rfl
          | true => exact absurd (.inl ⟨hKs, hLs⟩) (hk K hK)
      refine ⟨hfirst, ?_⟩
      rintro j K ⟨K', hj, rfl⟩ hsel hgt
      refine hk K' (List.mem_of_getElem? hj) (.inr ⟨?_, ?_, hgt⟩)
      · rcases hfirst with h1 | h1
        · obtain ⟨K'', hK'', h2, -⟩ := hsel h1
          rw [hj] at hK''; cases hK''
          rw [h2, hseli.1 h1]
        · rw [hnone.1 h1 K' (List.mem_of_getElem? hj), hnone.1 h1 L hLmem]
      · intro h1
        rcases hfirst with h2 | h2
        · obtain ⟨K'', hK'', -, h3⟩ := hsel h2
          rw [hj] at hK''; cases hK''
          rw [h3, hp]
        · rw [hnone.1 h2 K' (List.mem_of_getElem? hj)] at h1; cases h1
    · rintro ⟨hfirst, hk⟩ K hK (⟨h1, h2⟩ | ⟨h1, h2, h3⟩)
      · rcases hfirst with h4 | h4
        · rw [hseli.1 h4] at h2; cases h2
        · rw [hnone.1 h4 K hK] at h1; cases h1
      · obtain ⟨j, hj⟩ := List.getElem?_of_mem hK
        refine hk j K.lit ⟨K, hj, rfl⟩ (fun h4 => ?_) h3
        have : K.selected = true := h1.trans (hseli.1 h4)
        exact ⟨K, hj, this, (h2 this).trans hp⟩
  · rw [hmx i L hi]
    unfold Sup.PosElig
    simp only [hsubst, List.getElem?_map, Option.map_eq_some_iff]
    rw [hnone]
    constructor
    · rintro ⟨hk, hLs⟩
      have h1 : ∀ K ∈ M, K.selected = false := fun K hK => by
        cases hKs : K.selected with
        | false => rfl
        | true => exact absurd (.inl ⟨hKs, hLs⟩) (hk K hK)
      refine ⟨h1, ?_⟩
      rintro j K ⟨K', hj, rfl⟩ hgt
      have h2 := h1 K' (List.mem_of_getElem? hj)
      exact hk K' (List.mem_of_getElem? hj) (.inr ⟨h2.trans hLs.symm, by rw [h2]; simp, hgt⟩)
    · rintro ⟨h1, hk⟩
      refine ⟨?_, h1 L hLmem⟩
      rintro K hK (⟨h2, -⟩ | ⟨-, -, h3⟩)
      · rw [h1 K hK] at h2; cases h2
      · obtain ⟨j, hj⟩ := List.getElem?_of_mem hK
        exact hk j K.lit ⟨K, hj, rfl⟩ h3

/-! ## Which literal is chosen -/

/-- Among the negative literals exactly one is selected; it has the property `p`, and the greatest weight `w` of all literals that have it. -/
def Picks (C D : List FLit) (p : FLit → Prop) (w : FLit → Int) : Prop :=
  ∃ i L, C[i]? = some L ∧ p L ∧ (∀ K ∈ C, p K → w K ≤ w L) ∧
    ∀ (j : Nat) K, D[j]? = some K → K.lit.pos = false → (K.selected = true ↔ j = i)

def IsNeg (L : FLit) : Prop := L.lit.pos = false
def GroundNeg (L : FLit) : Prop := L.lit.pos = false ∧ L.lit.l.vars = [] ∧ L.lit.r.vars = []
def VarNeg (L : FLit) : Prop := L.lit.pos = false ∧ (∃ a, L.lit.l = .var a) ∧ ∃ b, L.lit.r = .var b

/-- Number of symbols, with weights `v` for variables and `f` for function symbols, of both sides. -/
def symWt (v f : Nat) (L : FLit) : Int := (L.lit.l.weight v f : Int) + (L.lit.r.weight v f : Int)

/-- The size difference of the sides counts a hundred times. -/
def diffSpec (L : FLit) : Int := 100 * |(L.lit.l.weight 1 2 : Int) - (L.lit.r.weight 1 2 : Int)| + symWt 1 2 L

private theorem neg_iff (L : FLit) : neg L = true ↔ IsNeg L := by simp [neg, IsNeg]

private theorem groundNeg_iff (L : FLit) : (neg L && isGround L) = true ↔ GroundNeg L := by
  simp [neg, isGround, GroundNeg, List.isEmpty_iff]

private theorem isVar_iff (t : Term) : t.isVar = true ↔ ∃ a, t = .var a := by cases t <;> simp [Term.isVar]

private theorem varNeg_iff (L : FLit) : (neg L && isPureVar L) = true ↔ VarNeg L := by
  simp [neg, isPureVar, VarNeg, isVar_iff]

private theorem diff_eq (L : FLit) : diffWt L = diffSpec L := by
  unfold diffWt diffSpec stdDiff stdWt symWt
  rw [max_sub_min_eq_abs']

private theorem picks_max {q : FLit → Bool} {p : FLit → Prop} {w w' : FLit → Int} {st : Int} {C : SCl} {i : Nat} {b : Bool}
    (hq : ∀ L, q L = true ↔ p L) (hw : ∀ L, w L = w' L) (h0 : ∀ L ∈ C.lits, L.selected = false) (h : findMax q w st C = some i) :
    Picks C.lits (setSel i (if b then selectPos C else C)).lits p w' := by
  obtain ⟨L, h1, h2, h3, -⟩ := findMax_best h
  exact ⟨i, L, h1, (hq L).1 h2, fun K hK hp => by rw [← hw, ← hw]; exact h3 K hK ((hq K).2 hp), fun j K hK hn => setSel_neg h0 hK hn⟩

private theorem picks_min {q : FLit → Bool} {p : FLit → Prop} {w w' : FLit → Int} {C : SCl} {i : Nat} {b : Bool}
    (hq : ∀ L, q L = true ↔ p L) (hw : ∀ L, w L = w' L) (h0 : ∀ L ∈ C.lits, L.selected = false) (h : findMin q w C = some i) :
    Picks C.lits (setSel i (if b then selectPos C else C)).lits p (fun L => - w' L) := by
  obtain ⟨L, h1, h2, h3, -⟩ := findMin_best h
  refine ⟨i, L, h1, (hq L).1 h2, fun K hK hp => ?_, fun j K hK hn => setSel_neg h0 hK hn⟩
  have := h3 K hK ((hq K).2 hp)
  rw [hw, hw] at this
  show - w' K ≤ - w' L
  omega

private theorem picks_first {q : FLit → Bool} {p : FLit → Prop} {C : SCl} {i : Nat} {b : Bool}
    (hq : ∀ L, q L = true ↔ p L) (h0 : ∀ L ∈ C.lits, L.selected = false) (h : findFirst q C = some i) :
    Picks C.lits (setSel i (if b then selectPos C else C)).lits p (fun _ => 0) := by
  obtain ⟨L, h1, h2⟩ := findFirst_finds q C i h
  exact ⟨i, L, h1, (hq L).1 h2, fun K hK hp => le_refl _, fun j K hK hn => setSel_neg h0 hK hn⟩

/-- **C73.** (P)SelectLargestNegLit and (P)SelectSmallestNegLit select a negative literal of largest or smallest weight. -/
theorem selectLargest_picks {p : Bool} {x : SelCtx} {C D : SCl} (h0 : ∀ L ∈ C.lits, L.selected = false) :
    (selectLargest p x C = some D → Picks C.lits D.lits IsNeg (symWt 1 2)) ∧
    (selectSmallest p x C = some D → Picks C.lits D.lits IsNeg fun L => - symWt 1 2 L) := by
  constructor
  · intro h
    unfold selectLargest selMust at h
    obtain ⟨i, hi, rfl⟩ := Option.map_eq_some_iff.1 h
    exact picks_max neg_iff (fun _ => rfl) h0 hi
  · intro h
    unfold selectSmallest selMust at h
    obtain ⟨i, hi, rfl⟩ := Option.map_eq_some_iff.1 h
    exact picks_min neg_iff (fun _ => rfl) h0 hi

private theorem diff_picks {p : Bool} {x : SelCtx} {C D : SCl} (h0 : ∀ L ∈ C.lits, L.selected = false) (hn : ∃ L ∈ C.lits, IsNeg L)
    (h : selectDiffP p x C = some D) : Picks C.lits D.lits IsNeg diffSpec := by
  obtain ⟨L, hL, hLn⟩ := hn
  obtain ⟨i, hi⟩ := findMax_some (w := diffWt) (p := neg) hL ((neg_iff L).2 hLn) (diffWt_pos L)
  cases p with
  | true =>
    simp only [selectDiffP, if_true, pSelectDiff, selMust, hi, Option.map_some, Option.some.injEq] at h
    subst h
    exact picks_max (b := true) neg_iff diff_eq h0 hi
  | false =>
    have : D = setSel i C := by
      simp only [selectDiffP, Bool.false_eq_true, if_false, selectDiff, hi, selIf, Option.some.injEq] at h
      exact h.symm
    subst this
    exact picks_max (b := false) neg_iff diff_eq h0 hi

/-- **C73.** (P)SelectOptimalLit: the ground negative literal with the greatest difference, if there is one, otherwise the negative literal with the
greatest difference. -/
theorem selectOptimal_picks {p : Bool} {x : SelCtx} {C D : SCl} (h0 : ∀ L ∈ C.lits, L.selected = false) (hn : ∃ L ∈ C.lits, IsNeg L)
    (h : selectOptimal p x C = some D) :
    ((∃ L ∈ C.lits, GroundNeg L) → Picks C.lits D.lits GroundNeg diffSpec) ∧
    (¬ (∃ L ∈ C.lits, GroundNeg L) → Picks C.lits D.lits IsNeg diffSpec) := by
  unfold selectOptimal at h
  split at h
  · rename_i i hi
    cases h
    have hp := picks_max (b := false) groundNeg_iff diff_eq h0 hi
    refine ⟨fun _ => hp, fun hno => ?_⟩
    obtain ⟨_, L, h1, h2, -⟩ := hp
    exact absurd ⟨L, List.mem_of_getElem? h1, h2⟩ hno
  · rename_i hi
    refine ⟨?_, fun _ => diff_picks h0 hn h⟩
    rintro ⟨L, hL, hLg⟩
    obtain ⟨i, hi'⟩ := findMax_some (w := diffWt) (p := fun L => neg L && isGround L) hL ((groundNeg_iff L).2 hLg) (diffWt_pos L)
    rw [hi'] at hi; cases hi

/-- **C73.** (P)SelectComplex: a negative literal between two variables, if there is one; otherwise the smallest ground negative literal; otherwise
the negative literal with the greatest difference. -/
theorem selectComplex_picks {p : Bool} {x : SelCtx} {C D : SCl} (h0 : ∀ L ∈ C.lits, L.selected = false) (hn : ∃ L ∈ C.lits, IsNeg L)
    (hs : ∀ L ∈ C.lits, SmallLit L) (h : selectComplex p x C = some D) :
    ((∃ L ∈ C.lits, VarNeg L) → Picks C.lits D.lits VarNeg fun _ => 0) ∧
    (¬ (∃ L ∈ C.lits, VarNeg L) → (∃ L ∈ C.lits, GroundNeg L) → Picks C.lits D.lits GroundNeg fun L => - symWt 1 2 L) ∧
    (¬ (∃ L ∈ C.lits, VarNeg L) → ¬ (∃ L ∈ C.lits, GroundNeg L) → Picks C.lits D.lits IsNeg diffSpec) := by
  have hvar : (∃ L ∈ C.lits, VarNeg L) ↔ findPureVar C ≠ none := by
    constructor
    · rintro ⟨L, hL, hv⟩ hnone
      rw [findPureVar, findFirst, List.findIdx?_eq_none_iff] at hnone
      have := hnone L hL
      rw [(varNeg_iff L).2 hv] at this; cases this
    · intro hne
      obtain ⟨i, hi⟩ := Option.ne_none_iff_exists'.1 hne
      obtain ⟨L, h1, h2⟩ := findFirst_finds _ C i hi
      exact ⟨L, List.mem_of_getElem? h1, (varNeg_iff L).1 h2⟩
  have hgr : (∃ L ∈ C.lits, GroundNeg L) ↔ findSmallestGround C ≠ none := by
    constructor
    · rintro ⟨L, hL, hv⟩ hnone
      obtain ⟨i, hi⟩ := findMin_some (w := stdWt) (p := fun L => neg L && isGround L) hL ((groundNeg_iff L).2 hv) (hs L hL).std
      rw [findSmallestGround, hi] at hnone; cases hnone
    · intro hne
      obtain ⟨i, hi⟩ := Option.ne_none_iff_exists'.1 hne
      obtain ⟨L, h1, h2, -⟩ := findMin_best hi
      exact ⟨L, List.mem_of_getElem? h1, (groundNeg_iff L).1 h2⟩
  rw [hvar, hgr]
  unfold selectComplex at h
  cases hv : findPureVar C with
  | some i =>
    simp only [hv, Option.some.injEq] at h
    subst h
    exact ⟨fun _ => picks_first (b := false) varNeg_iff h0 hv, fun hc => absurd (by simp) hc, fun hc => absurd (by simp) hc⟩
  | none =>
    simp only [hv] at h
    cases hg : findSmallestGround C with
    | some i =>
      simp only [hg, Option.some.injEq] at h
      subst h
      exact ⟨fun hc => absurd rfl hc, fun _ _ => picks_min (b := false) groundNeg_iff (fun _ => rfl) h0 hg, fun _ hc => absurd (by simp) hc⟩
    | none =>
      simp only [hg] at h
      exact ⟨fun hc => absurd rfl hc, fun _ hc => absurd rfl hc, fun _ _ => diff_picks h0 hn h⟩

/-- The weight that counts for inferences into the literal: of the left side, and of the right one if the literal is not oriented. -/
def intoWt (v f : Nat) (L : FLit) : Int := (L.lit.l.weight v f : Int) + (if L.oriented then 0 else (L.lit.r.weight v f : Int))

/-- **C73.** (P)SelectMinInfpos and (P)SelectMin2Infpos, after orienting the literals: a negative literal with the fewest positions for inferences. -/
theorem selectMinInfpos_picks {p : Bool} {v f : Nat} {x : SelCtx} {C D : SCl} (h0 : ∀ L ∈ C.lits, L.selected = false)
    (h : selectMinInfpos p v f x C = some D) : Picks (condMark x C).lits D.lits IsNeg fun L => - intoWt v f L := by
  have h0' : ∀ L ∈ (condMark x C).lits, L.selected = false := by
    unfold condMark
    split
    · exact h0
    · exact markMax_sel h0
  unfold selectMinInfpos selMust at h
  simp only [Option.map_map] at h
  obtain ⟨i, hi, rfl⟩ := Option.map_eq_some_iff.1 h
  exact picks_min neg_iff (fun _ => rfl) h0' hi

/-- **C73.** All strategies that use `generic_uniq_selection`: the literal considered is a negative one whose three weights are lexicographically
least among the negative literals; it is selected, and no other negative literal, unless its evaluation forbids that. -/
theorem generic_picks {p nO : Bool} {w : String} {x : SelCtx} {C D : SCl} (h0 : ∀ L ∈ C.lits, L.selected = false) (hn : ∃ L ∈ C.lits, IsNeg L)
    (h : generic p nO w x C = some D) :
    ∃ C', C' = (if nO then condMark x C else C) ∧ ∃ i L, C'.lits[i]? = some L ∧ IsNeg L ∧
      (∀ (j : Nat) K, C'.lits[j]? = some K → IsNeg K → LexLe (x.eval w C'.lits i) (x.eval w C'.lits j)) ∧
      ((x.eval w C'.lits i).forbidden = true → D = C') ∧
      ((x.eval w C'.lits i).forbidden = false → ∀ (j : Nat) K, D.lits[j]? = some K → K.lit.pos = false → (K.selected = true ↔ j = i)) := by
  refine ⟨_, rfl, ?_⟩
  have hrel : Rel x C.lits (if nO = true then condMark x C else C).lits ∧ ∀ L ∈ (if nO = true then condMark x C else C).lits, L.selected = false := by
    split
    · unfold condMark
      split
      · exact ⟨Rel.refl x _, h0⟩
      · exact ⟨(Rel.refl x _).mark, markMax_sel h0⟩
    · exact ⟨Rel.refl x _, h0⟩
  unfold generic at h
  simp only at h
  generalize (if nO = true then condMark x C else C) = C' at h hrel
  obtain ⟨hr, h0'⟩ := hrel
  obtain ⟨L0, hL0, hL0n⟩ : ∃ L ∈ C'.lits, neg L = true := by
    obtain ⟨L, hL, hLn⟩ := hn
    have : C'.lits.any neg = true := by
      rw [hr.any_neg]; exact List.any_eq_true.2 ⟨L, hL, (neg_iff L).2 hLn⟩
    exact List.any_eq_true.1 this
  cases hl : C'.lits.zipIdx.map fun e => (e.1, x.eval w C'.lits e.2) with
  | nil =>
    simp only [List.map_eq_nil_iff, List.zipIdx_eq_nil_iff] at hl
    rw [hl] at hL0; cases hL0
  | cons e es =>
    have hget : ∀ (j : Nat) (a : FLit × LitEval), (e :: es)[j]? = some a → C'.lits[j]? = some a.1 ∧ a.2 = x.eval w C'.lits j := by
      intro j a ha
      rw [← hl] at ha
      simp only [List.getElem?_map, List.getElem?_zipIdx, Option.map_map, Option.map_eq_some_iff] at ha
      obtain ⟨K, hK, rfl⟩ := ha
      exact ⟨hK, by simp⟩
    have hput : ∀ (j : Nat) K, C'.lits[j]? = some K → (K, x.eval w C'.lits j) ∈ e :: es := by
      intro j K hK
      rw [← hl]
      exact List.mem_map.2 ⟨(K, j), by rw [List.mem_zipIdx_iff_getElem?]; exact hK, rfl⟩
    obtain ⟨h1, h2⟩ := @candidate_spec es 1 e 0
    have hbest := @candidate_best es 1 e 0
    simp only at h1 h2 hbest
    obtain ⟨j0, hj0⟩ := List.getElem?_of_mem hL0
    have hneg := h2 _ (hput j0 L0 hj0) hL0n
    have hk : C'.lits[(candidate es 1 e 0).2.2]? = some (candidate es 1 e 0).1 ∧
        (candidate es 1 e 0).2.1 = x.eval w C'.lits (candidate es 1 e 0).2.2 := by
      rcases h1 with ⟨h1, h1'⟩ | ⟨j, h1, h1'⟩
      · rw [h1']; exact hget 0 (_, _) (by rw [h1]; rfl)
      · rw [h1']; exact hget (1 + j) (_, _) (by rw [Nat.add_comm]; exact h1)
    simp only [hl, Option.some.injEq] at h
    refine ⟨_, _, hk.1, (neg_iff _).1 hneg, fun j K hK hKn => ?_, fun hf => ?_, fun hf => ?_⟩
    · rw [← hk.2]
      exact hbest _ (hput j K hK) (hKn.trans ((neg_iff _).1 hneg).symm)
    · rw [← hk.2] at hf
      rw [hf] at h
      exact h.symm
    · rw [← hk.2] at hf
      rw [hf] at h
      simp only [Bool.false_eq_true, if_false] at h
      intro j K hK hKn
      have hD : D.lits = (setSel (candidate es 1 e 0).2.2 (if p = true then selectPos C' else C')).lits := by
        rw [← h]
        cases p with
        | false => rfl
        | true => simp only [if_true, setSel_selectPos_comm]; rfl
      rw [hD] at hK
      exact setSel_neg h0' hK hKn

/-! ## Strategies that do not do what they should, and examples

The ordering is the lexicographic path ordering with the precedence by symbol code. -/

private def sCmp (f g : Nat) : Cmp := qToPart (f - g)

private theorem sCmp_strict : StrictCmp sCmp := by
  refine ⟨⟨?_, ?_⟩, ?_, ?_, ?_⟩
  · intro f; simp [sCmp, qToPart]
  · intro f g h
    simp only [sCmp, qToPart]
    split_ifs <;> first | omega | simp_all
  · intro f g
    simp only [sCmp, qToPart]
    split_ifs <;> simp_all <;> omega
  · intro f g
    simp only [sCmp, qToPart]
    split_ifs <;> first | omega | simp_all
  · intro f g
    simp only [sCmp, qToPart]
    split_ifs <;> simp

private def sCtx : SelCtx where
  cmp := lpo4Compare sCmp 1000
  lc := literalCompare .normal (lpo4Compare sCmp 1000) sCmp
  typePred _ := false
  xTypePred _ := false
  rxTypePred _ := false
  depth _ := 0
  rr _ := false
  srr _ := false
  arr _ := false
  eval _ _ i := ⟨false, (i : Int), 0, 0⟩

/-- The constant `a`, the function `f` and the predicates `p`, `q`. -/
private def sa : Term := .app 3 []
private def sf (t : Term) : Term := .app 4 [t]
private def sp (t : Term) : Term := .app 6 [t]
private def sq (t : Term) : Term := .app 5 [t]
private def cls (l : List Lit) : SCl := ⟨l.map fun L => { lit := L }, false⟩

/-- Marks and selections after `DoLiteralSelection` and `ClauseCondMarkMaximalTerms` with the strategy of the given name. -/
private def outcome (s : String) (l : List Lit) : Option (List (Bool × Bool)) :=
  (getLitSelFun s).bind fun f => (selectAndMark sCtx f false (fun _ => false) true (cls l)).map (·.map fun L => (L.maximal, L.selected))

/-- PSelectPureVarNegLiterals selects positive literals only: in `x ≠ y ∨ p(a)` the negative literal is neither selected nor marked, and the positive one is selected, hence not used for inferences.  With `¬ p(a)` (and
reflexivity of equality) the clause is unsatisfiable, but it takes part in no inference. -/
theorem pureVar_blocks : outcome "PSelectPureVarNegLiterals" [⟨false, .var 0, .var 1⟩, ⟨true, sp sa, tTrue⟩] = some [(false, false), (true, true)] := by
  decide +kernel

/-- SelectVGNonCR leaves the marks of the unselected clause if it has found a ground literal: in `p(f(a)) ∨ ¬ q(a)` the negative literal is selected, but the
positive one is still marked as maximal and the selected one is not. -/
theorem vgNonCR_marks : outcome "SelectVGNonCR" [⟨true, sp (sf sa), tTrue⟩, ⟨false, sq sa, tTrue⟩] = some [(true, false), (false, true)] := by
  decide +kernel

/-- SelectComplexPreferNEQ ends its loop at the first literal that is not better than the one before, and so misses better ones: in
`¬ p(f(x)) ∨ ¬ p(x) ∨ ¬ q(a)` the first literal is selected, though the last one is ground (and is selected if the second literal is left out). -/
theorem preferNEQ_misses :
    outcome "SelectComplexPreferNEQ" [⟨false, sp (sf (.var 0)), tTrue⟩, ⟨false, sp (.var 0), tTrue⟩, ⟨false, sq sa, tTrue⟩] =
      some [(true, true), (false, false), (false, false)] ∧
    outcome "SelectComplexPreferNEQ" [⟨false, sp (sf (.var 0)), tTrue⟩, ⟨false, sq sa, tTrue⟩] = some [(false, false), (true, true)] := by
  constructor <;> decide +kernel

/-- SelectCondOptimalLit means to leave clauses alone that have a positive literal with many variables; the arguments of `TermWeight` are exchanged, and it leaves
alone clauses with ground positive literals: nothing is selected in `p(a) ∨ ¬ q(a)`, but `¬ q(a)` is in `r(x, y, z) ∨ ¬ q(a)`. -/
theorem condOptimal_inverted :
    outcome "SelectCondOptimalLit" [⟨true, sp sa, tTrue⟩, ⟨false, sq sa, tTrue⟩] = some [(true, false), (false, false)] ∧
    outcome "SelectCondOptimalLit" [⟨true, .app 7 [.var 0, .var 1, .var 2], tTrue⟩, ⟨false, sq sa, tTrue⟩] = some [(false, false), (true, true)] := by
  constructor <;> decide +kernel

private def sAr (f : Nat) : Nat := if f = 4 ∨ f = 5 ∨ f = 6 then 1 else 0

/-- `p(f(x)) ∨ ¬ q(x) ∨ ¬ q(a)`. -/
private def exLits : List Lit := [⟨true, sp (sf (.var 0)), tTrue⟩, ⟨false, sq (.var 0), tTrue⟩, ⟨false, sq sa, tTrue⟩]

/-- The hypotheses of the theorems above are met, and the ground literal is selected and the only one marked. -/
example : ∃ f, ("SelectComplex", f) ∈ strategies ∧
    OrdCmp (fun t => t.HasAr sAr ∧ 2 * t.depth ≤ 1002) sCtx.cmp (LpoOf sCmp) ∧
    (∀ L ∈ (cls exLits).lits, SmallLit L) ∧ (∀ L ∈ (cls exLits).lits, L.selected = false ∧ L.pseudo = false ∧ L.upToDate = false) ∧
    (cls exLits).oriented = false ∧
    (∀ L ∈ (cls exLits).lits, L.lit.In fun t => t.HasAr sAr ∧ 2 * t.depth ≤ 1002) ∧
    outcome "SelectComplex" exLits = some [(false, false), (false, false), (true, true)] := by
  refine ⟨selectComplex false, ?_, lpo_decides sCmp_strict, ?_, ?_, rfl, ?_, by decide +kernel⟩
  · have h : getLitSelFun "SelectComplex" = some (selectComplex false) := by rfl
    obtain ⟨⟨n, f⟩, h1, h2⟩ := Option.map_eq_some_iff.1 h
    have h3 := List.find?_some h1
    simp only [beq_iff_eq] at h3 h2
    subst h2; subst h3
    exact List.mem_of_find?_eq_some h1
  · simp [cls, exLits, SmallLit, longMax, Term.weight, Term.weightL, sp, sf, sq, sa, tTrue]
  · decide +kernel
  · simp [cls, exLits, Lit.In, Term.HasAr, Term.HasArL, Term.depth, Term.depthL, sp, sf, sq, sa, sAr, tTrue]

/-- `generic_picks`: `¬ q(x)` has the least evaluation. -/
example : (∃ L ∈ (cls exLits).lits, IsNeg L) ∧
    (generic false true "w" sCtx (cls exLits)).map (·.lits.map (·.selected)) = some [false, true, false] := by
  constructor
  · exact ⟨_, List.mem_cons_of_mem _ (List.mem_cons_self ..), rfl⟩
  · decide +kernel

end Verif.Props
