import Verif.Props.Subsume

/-!
# C26: unit simplification
-/

namespace Verif.Props
open Verif Term SubstSt Interp SemProof SubsProof

universe u

variable {sg : Sig} {pp : Term → Bool}

/-- All units hold in `I`. -/
def UnitsHold (I : Interp.{u} sg) (us : List UnitPos) : Prop := ∀ w ∈ us, UnitHolds I w.lit

theorem findTopUnit_spec {units : List UnitPos} {sign : Option Bool} {t1 t2 : Term} {w : UnitPos} (w1 : sg.WT t1)
    (w2 : sg.WT t2) (h : findTopUnit sg pp units sign t1 t2 = some w) :
    w ∈ units ∧ (∀ s, sign = some s → w.lit.pos = s) ∧ PairInst sg w.this w.other t1 t2 := by
  have hm := List.mem_of_find?_eq_some h
  have hf := List.find?_some h
  simp only [Bool.and_eq_true] at hf
  obtain ⟨⟨h1, h2⟩, h3⟩ := hf
  refine ⟨hm, ?_, ?_⟩
  · rintro s rfl; simpa using h2
  · cases e1 : matchC sg pp w.this t1 SubstSt.empty with
    | mk b st1 =>
      rw [e1] at h1 h3
      simp only at h1 h3
      subst h1
      cases e2 : matchC sg pp w.other t2 st1 with
      | mk b st2 =>
        rw [e2] at h3
        simp only at h3
        subst h3
        exact pairInst_of (matched2_of (matchC_true e1) (matchC_true e2)) w1 w2

/-- A unit found for a pair of terms decides the equation between them. -/
theorem unit_decides {w : UnitPos} {t1 t2 : Term} (h : PairInst sg w.this w.other t1 t2) {I : Interp.{u} sg}
    (hI : UnitHolds I w.lit) {v : Nat → I.D} (hv : I.Sorted v) : I.LitTrue v ⟨w.lit.pos, t1, t2⟩ := by
  unfold UnitPos.this UnitPos.other at h
  cases hl : w.left
  · simp only [hl] at h
    have : PairInst sg w.lit.l w.lit.r t2 t1 := by
      obtain ⟨τ, hτ, e1, e2⟩ := h
      exact ⟨τ, hτ, e2, e1⟩
    have := pairInst_true hI this hv
    simp only [LitTrue] at this ⊢
    split
    · rename_i hp; rw [if_pos hp] at this; exact this.symm
    · rename_i hp; rw [if_neg hp] at this; exact this.symm
  · simp only [hl] at h
    exact pairInst_true hI h hv

theorem argDiff_one' {ss ts : List Term} {s t : Term} (hl : ss.length = ts.length) (h : argDiff ss ts = .one s t) :
    s ∈ ss ∧ t ∈ ts := by
  obtain ⟨a, b, rfl, rfl⟩ := argDiff_one hl h
  simp

theorem len_of_wt {f : Nat} {ss ts : List Term} (h1 : sg.WT (.app f ss)) (h2 : sg.WT (.app f ts)) :
    ss.length = ts.length := by
  have e1 := (Sig.wt_app.1 h1).1
  have e2 := (Sig.wt_app.1 h2).1
  have := congrArg List.length (e1.trans e2.symm)
  simpa using this

theorem findUnitLoop_sound {units : List UnitPos} {n : Nat} {t1 t2 : Term} {w : UnitPos} (w1 : sg.WT t1) (w2 : sg.WT t2)
    (h : findUnitLoop sg pp units n t1 t2 = some w) :
    w ∈ units ∧ w.lit.pos = true ∧
      ∀ I : Interp.{u} sg, UnitHolds I w.lit → ∀ v, I.Sorted v → I.eval v t1 = I.eval v t2 := by
  induction n generalizing t1 t2 with
  | zero => simp [findUnitLoop] at h
  | succ n ih =>
    unfold findUnitLoop at h
    split at h
    · rename_i f ss g ts
      split at h
      · cases h
      · rename_i hc
        rw [not_or, not_not] at hc
        obtain ⟨rfl, -⟩ := hc
        have hl := len_of_wt w1 w2
        split at h
        · rename_i s t hd
          have hst := argDiff_one' hl hd
          obtain ⟨a, b, rfl, rfl⟩ := argDiff_one hl hd
          have ws := wt_args w1 s hst.1
          have wt := wt_args w2 t hst.2
          have lift : ∀ I : Interp.{u} sg, ∀ v : Nat → I.D, I.eval v s = I.eval v t →
              I.eval v (.app f (a ++ s :: b)) = I.eval v (.app f (a ++ t :: b)) := by
            intro I v he
            rw [eval_app, eval_app]; simp [he]
          split at h
          · rename_i w' hw
            cases h
            obtain ⟨h1, h2, h3⟩ := findTopUnit_spec ws wt hw
            refine ⟨h1, h2 true rfl, fun I hI v hv => lift I v ?_⟩
            simpa [LitTrue, h2 true rfl] using unit_decides h3 hI hv
          · obtain ⟨h1, h2, h3⟩ := ih ws wt h
            exact ⟨h1, h2, fun I hI v hv => lift I v (h3 I hI v hv)⟩
        · cases h
    · cases h

/-- The unit found by `FindSimplifyingUnit` decides the equation between the two terms. -/
theorem findUnit_sound {units : List UnitPos} {po : Bool} {t1 t2 : Term} {w : UnitPos} (w1 : sg.WT t1) (w2 : sg.WT t2)
    (h : findUnit sg pp units po t1 t2 = some w) :
    w ∈ units ∧ (po = true → w.lit.pos = true) ∧
      ∀ I : Interp.{u} sg, UnitHolds I w.lit → ∀ v, I.Sorted v → I.LitTrue v ⟨w.lit.pos, t1, t2⟩ := by
  unfold findUnit at h
  split at h
  · rename_i w' hw
    cases h
    obtain ⟨h1, h2, h3⟩ := findTopUnit_spec w1 w2 hw
    refine ⟨h1, fun hp => h2 true (by simp [hp]), fun I hI v hv => unit_decides h3 hI hv⟩
  · obtain ⟨h1, h2, h3⟩ := findUnitLoop_sound.{u} w1 w2 h
    exact ⟨h1, fun _ => h2, fun I hI v hv => by simpa [LitTrue, h2] using h3 I hI v hv⟩

theorem strongUnit_sound {units : List UnitPos} {n : Nat} {stk : List (Term × Term)} {res : Option UnitPos} {w : UnitPos}
    (hw : ∀ p ∈ stk, sg.WT p.1 ∧ sg.WT p.2) (hres : ∀ w, res = some w → w ∈ units ∧ w.lit.pos = true)
    (h : strongUnit sg pp units true n stk res = some w) :
    w ∈ units ∧ w.lit.pos = true ∧
      ∀ I : Interp.{u} sg, UnitsHold I units → ∀ v, I.Sorted v → ∀ p ∈ stk, I.eval v p.1 = I.eval v p.2 := by
  induction n generalizing stk res with
  | zero => simp [strongUnit] at h
  | succ n ih =>
    cases stk with
    | nil =>
      simp only [strongUnit] at h
      exact ⟨(hres w h).1, (hres w h).2, fun I hI v hv p hp => by cases hp⟩
    | cons p stk =>
      obtain ⟨t1, t2⟩ := p
      obtain ⟨w1, w2⟩ := hw (t1, t2) (by simp)
      have hw' : ∀ p ∈ stk, sg.WT p.1 ∧ sg.WT p.2 := fun p hp => hw p (by simp [hp])
      unfold strongUnit at h
      split at h
      · rename_i w' hf
        obtain ⟨h1, h2, h3⟩ := findTopUnit_spec w1 w2 hf
        obtain ⟨g1, g2, g3⟩ := ih hw' (fun w hw => by cases hw; exact ⟨h1, h2 true rfl⟩) h
        refine ⟨g1, g2, fun I hI v hv p hp => ?_⟩
        rcases List.mem_cons.1 hp with rfl | hp
        · simpa [LitTrue, h2 true rfl] using unit_decides h3 (hI w' h1) hv
        · exact g3 I hI v hv p hp
      · cases t1 with
        | var x => simp at h
        | app f ss =>
        cases t2 with
        | var x => simp at h
        | app g ts =>
          simp only at h
          split at h
          · cases h
          · rename_i hc
            rw [not_or, not_not] at hc
            obtain ⟨rfl, -⟩ := hc
            have hl := len_of_wt w1 w2
            have hmem : ∀ p ∈ ss.zip ts, p.1 ∈ ss ∧ p.2 ∈ ts := fun p hp => ⟨(List.of_mem_zip hp).1, (List.of_mem_zip hp).2⟩
            obtain ⟨g1, g2, g3⟩ := ih (stk := ((ss.zip ts).filter fun p => decide (p.1 ≠ p.2)).reverse ++ stk) (fun p hp => by
              rcases List.mem_append.1 hp with hp | hp
              · have := hmem p (List.mem_of_mem_filter (List.mem_reverse.1 hp))
                exact ⟨wt_args w1 _ this.1, wt_args w2 _ this.2⟩
              · exact hw' p hp) (by simp) h
            refine ⟨g1, g2, fun I hI v hv p hp => ?_⟩
            rcases List.mem_cons.1 hp with rfl | hp
            · have hz : ∀ p ∈ ss.zip ts, I.eval v p.1 = I.eval v p.2 := by
                intro p hp
                by_cases he : p.1 = p.2
                · rw [he]
                · exact g3 I hI v hv p (List.mem_append_left _ (List.mem_reverse.2 (List.mem_filter.2 ⟨hp, by simpa using he⟩)))
              rw [eval_app, eval_app]
              congr 1
              apply List.ext_getElem (by simpa using hl)
              intro i h1 h2
              simp only [List.length_map] at h1 h2
              simp only [List.getElem_map]
              exact hz (ss[i], ts[i]) (by
                rw [List.mem_iff_getElem]
                exact ⟨i, by simp; omega, by simp⟩)
            · exact g3 I hI v hv p (List.mem_append_right _ hp)

theorem findPosUnit_sound {units : List UnitPos} {strong : Bool} {n : Nat} {t1 t2 : Term} {w : UnitPos} (w1 : sg.WT t1)
    (w2 : sg.WT t2) (h : findPosUnit sg pp units strong n t1 t2 = some w) :
    w ∈ units ∧ w.lit.pos = true ∧ ∀ I : Interp.{u} sg, (UnitsHold I units ∨ (strong = false ∧ UnitHolds I w.lit)) →
      ∀ v, I.Sorted v → I.eval v t1 = I.eval v t2 := by
  unfold findPosUnit at h
  split at h
  · rename_i hs
    obtain ⟨h1, h2, h3⟩ := strongUnit_sound.{u} (by simp [w1, w2]) (by simp) h
    refine ⟨h1, h2, fun I hI v hv => ?_⟩
    rcases hI with hI | ⟨hf, -⟩
    · exact h3 I hI v hv (t1, t2) (by simp)
    · rw [hs] at hf; cases hf
  · obtain ⟨h1, h2, h3⟩ := findUnit_sound.{u} w1 w2 h
    refine ⟨h1, h2 rfl, fun I hI v hv => ?_⟩
    have hw : UnitHolds I w.lit := by
      rcases hI with hI | ⟨-, hI⟩
      · exact hI w h1
      · exact hI
    simpa [LitTrue, h2 rfl] using h3 I hw v hv

/-- C26, positive simplify-reflect: the result is a sub-list, and in every model of the units it is true exactly where the
original clause is; without strong unit subsumption the units recorded in the derivation suffice. -/
theorem positiveSR_equiv {units : List UnitPos} {strong : Bool} {n : Nat} {C : List Lit} (hC : sg.WTClause C) :
    (positiveSR sg pp units strong n C).1.Sublist C ∧ (∀ w ∈ (positiveSR sg pp units strong n C).2, w ∈ units) ∧
    ∀ I : Interp.{u} sg, (UnitsHold I units ∨ (strong = false ∧ UnitsHold I (positiveSR sg pp units strong n C).2)) →
      ∀ v, I.Sorted v → (I.ClauseTrue v (positiveSR sg pp units strong n C).1 ↔ I.ClauseTrue v C) := by
  induction C with
  | nil => exact ⟨by simp [positiveSR], by simp [positiveSR], fun I _ v _ => Iff.rfl⟩
  | cons K C ih =>
    obtain ⟨ih1, ih2, ih3⟩ := ih fun L hL => hC L (by simp [hL])
    obtain ⟨w1, w2, -⟩ := hC K (by simp)
    rw [positiveSR]
    split
    · refine ⟨ih1.cons_cons K, ih2, fun I hI v hv => ?_⟩
      rw [clauseTrue_cons, clauseTrue_cons, ih3 I hI v hv]
    · rename_i hp
      split
      · rename_i w hw
        obtain ⟨h1, h2, h3⟩ := findPosUnit_sound.{u} w1 w2 hw
        refine ⟨ih1.cons K, ?_, fun I hI v hv => ?_⟩
        · intro w' hw'
          rcases List.mem_cons.1 hw' with rfl | hw'
          · exact h1
          · exact ih2 w' hw'
        · have hI' : UnitsHold I units ∨ strong = false ∧ UnitsHold I (positiveSR sg pp units strong n C).2 :=
            hI.imp id fun h => ⟨h.1, fun w hw => h.2 w (by simp [hw])⟩
          have he := h3 I (hI.imp id fun h => ⟨h.1, h.2 w (by simp)⟩) v hv
          rw [clauseTrue_cons, ih3 I hI' v hv]
          simp [LitTrue, hp, he]
      · refine ⟨ih1.cons_cons K, ih2, fun I hI v hv => ?_⟩
        rw [clauseTrue_cons, clauseTrue_cons, ih3 I hI v hv]

/-- C26, negative simplify-reflect. -/
theorem negativeSR_equiv {units : List UnitPos} {C : List Lit} (hC : sg.WTClause C) :
    (negativeSR sg pp units C).1.Sublist C ∧ (∀ w ∈ (negativeSR sg pp units C).2, w ∈ units) ∧
    ∀ I : Interp.{u} sg, UnitsHold I (negativeSR sg pp units C).2 →
      ∀ v, I.Sorted v → (I.ClauseTrue v (negativeSR sg pp units C).1 ↔ I.ClauseTrue v C) := by
  induction C with
  | nil => exact ⟨by simp [negativeSR], by simp [negativeSR], fun I _ v _ => Iff.rfl⟩
  | cons K C ih =>
    obtain ⟨ih1, ih2, ih3⟩ := ih fun L hL => hC L (by simp [hL])
    obtain ⟨w1, w2, -⟩ := hC K (by simp)
    rw [negativeSR]
    split
    · rename_i hp
      split
      · rename_i w hw
        obtain ⟨h1, h2, h3⟩ := findTopUnit_spec w1 w2 hw
        refine ⟨ih1.cons K, ?_, fun I hI v hv => ?_⟩
        · intro w' hw'
          rcases List.mem_cons.1 hw' with rfl | hw'
          · exact h1
          · exact ih2 w' hw'
        · have he := unit_decides h3 (hI w (by simp)) hv
          rw [clauseTrue_cons, ih3 I (fun w hw => hI w (by simp [hw])) v hv]
          simp only [LitTrue, h2 false rfl] at he
          simp only [LitTrue, hp]
          simp at he
          simp [he]
      · refine ⟨ih1.cons_cons K, ih2, fun I hI v hv => ?_⟩
        rw [clauseTrue_cons, clauseTrue_cons, ih3 I hI v hv]
    · refine ⟨ih1.cons_cons K, ih2, fun I hI v hv => ?_⟩
      rw [clauseTrue_cons, clauseTrue_cons, ih3 I hI v hv]

/-- What `ClauseSimplifyWithUnitSet` promises: if the clause is reported subsumed it follows from the unit named; otherwise
the result is a sub-list, equivalent in every model of the units used. -/
def UnitSpec (sg : Sig) (units : List UnitPos) (C : List Lit) : UnitRes → Prop
  | .subsumed w => w ∈ units ∧ Entails.{u} sg [[w.lit]] C
  | .clause D us => D.Sublist C ∧ (∀ w ∈ us, w ∈ units) ∧
      ∀ I : Interp.{u} sg, UnitsHold I us → ∀ v, I.Sorted v → (I.ClauseTrue v D ↔ I.ClauseTrue v C)

/-- C26 for `ClauseSimplifyWithUnitSet`. -/
theorem simplifyWithUnits_sound {units : List UnitPos} {top : Bool} {C : List Lit} (hC : sg.WTClause C) :
    UnitSpec.{u} sg units C (simplifyWithUnits sg pp units top C) := by
  induction C with
  | nil => exact ⟨by simp, by simp, fun I _ v _ => Iff.rfl⟩
  | cons K C ih =>
    have ih := ih fun L hL => hC L (by simp [hL])
    obtain ⟨w1, w2, -⟩ := hC K (by simp)
    have hmono : ∀ w : UnitPos, Entails.{u} sg [[w.lit]] C → Entails.{u} sg [[w.lit]] (K :: C) := by
      intro w he I hI v hv
      obtain ⟨L, hL, ht⟩ := he I hI v hv
      exact ⟨L, by simp [hL], ht⟩
    rw [simplifyWithUnits]
    cases hw : (if top then findTopUnit sg pp units none K.l K.r else findUnit sg pp units false K.l K.r) with
    | some w =>
      have hsound : w ∈ units ∧
          ∀ I : Interp.{u} sg, UnitHolds I w.lit → ∀ v, I.Sorted v → I.LitTrue v ⟨w.lit.pos, K.l, K.r⟩ := by
        split at hw
        · obtain ⟨h1, h2, h3⟩ := findTopUnit_spec w1 w2 hw
          exact ⟨h1, fun I hI v hv => unit_decides h3 hI hv⟩
        · obtain ⟨h1, h2, h3⟩ := findUnit_sound.{u} w1 w2 hw
          exact ⟨h1, h3⟩
      obtain ⟨hm, hd⟩ := hsound
      simp only
      by_cases hp : K.pos = w.lit.pos
      · rw [if_pos hp]
        refine ⟨hm, fun I hI v hv => ⟨K, by simp, ?_⟩⟩
        have hU : UnitHolds I w.lit := fun x hx => by
          obtain ⟨L, hL, ht⟩ := hI [w.lit] (by simp) x hx
          rw [List.mem_singleton.1 hL] at ht
          exact ht
        have := hd I hU v hv
        rw [← hp] at this
        exact this
      · rw [if_neg hp]
        cases hs : simplifyWithUnits sg pp units top C with
        | subsumed w' => rw [hs] at ih; exact ⟨ih.1, hmono _ ih.2⟩
        | clause D us =>
          rw [hs] at ih
          obtain ⟨i1, i2, i3⟩ := ih
          refine ⟨i1.cons K, ?_, fun I hI v hv => ?_⟩
          · intro x hx
            rcases List.mem_cons.1 hx with rfl | hx
            · exact hm
            · exact i2 x hx
          · rw [clauseTrue_cons, i3 I (fun x hx => hI x (by simp [hx])) v hv]
            have := hd I (hI w (by simp)) v hv
            have hnot : ¬ I.LitTrue v K := by
              cases hk : K.pos <;> cases hu : w.lit.pos <;> simp_all [LitTrue]
            simp [hnot]
    | none =>
      simp only
      cases hs : simplifyWithUnits sg pp units top C with
      | subsumed w' => rw [hs] at ih; exact ⟨ih.1, hmono _ ih.2⟩
      | clause D us =>
        rw [hs] at ih
        obtain ⟨i1, i2, i3⟩ := ih
        refine ⟨i1.cons_cons K, i2, fun I hI v hv => ?_⟩
        rw [clauseTrue_cons, clauseTrue_cons, i3 I hI v hv]

/-- C21 for unit sets (`UnitClauseSetSubsumesClause`): the clause follows from the units; without strong unit subsumption,
from the unit returned. -/
theorem unitSetSubsumes_sound {units : List UnitPos} {strong : Bool} {n : Nat} {D : List Lit} (hD : sg.WTClause D) {w : UnitPos}
    (h : unitSetSubsumes sg pp units strong n D = some w) :
    w ∈ units ∧ ∀ I : Interp.{u} sg, (UnitsHold I units ∨ (strong = false ∧ UnitHolds I w.lit)) → I.Models D := by
  induction D with
  | nil => simp [unitSetSubsumes] at h
  | cons K D ih =>
    obtain ⟨w1, w2, -⟩ := hD K (by simp)
    rw [unitSetSubsumes] at h
    split at h
    · rename_i w' hw
      cases h
      split at hw
      · rename_i hp
        obtain ⟨h1, h2, h3⟩ := findPosUnit_sound.{u} w1 w2 hw
        exact ⟨h1, fun I hI v hv => ⟨K, by simp, by simpa [LitTrue, hp] using h3 I hI v hv⟩⟩
      · rename_i hp
        obtain ⟨h1, h2, h3⟩ := findTopUnit_spec w1 w2 hw
        refine ⟨h1, fun I hI v hv => ⟨K, by simp, ?_⟩⟩
        have hU : UnitHolds I w.lit := by
          rcases hI with hI | ⟨-, hI⟩
          · exact hI w h1
          · exact hI
        have := unit_decides h3 hU hv
        simpa [LitTrue, hp, h2 false rfl] using this
    · obtain ⟨h1, h2⟩ := ih (fun L hL => hD L (by simp [hL])) h
      refine ⟨h1, fun I hI v hv => ?_⟩
      obtain ⟨L, hL, ht⟩ := h2 I hI v hv
      exact ⟨L, by simp [hL], ht⟩

/-! ## Strong unit subsumption records too few parents

`unit_clause_set_strongsubsumes_termpair` returns only the unit used last, and this is what simplify-reflect records in
the derivation. -/

/-- `a = b` and `c = d` -/
def unitsW : List UnitPos :=
  [⟨⟨true, .app 11 [], .app 12 []⟩, true⟩, ⟨⟨true, .app 13 [], .app 14 []⟩, true⟩]

/-- `f(a,c) ≠ f(b,d)` -/
def clauseW : List Lit := [⟨false, .app 10 [.app 11 [], .app 13 []], .app 10 [.app 12 [], .app 14 []]⟩]

/-- `a`, `b`, `c` denote 0, `d` denotes 1, `f(x,y) = y`. -/
def interpW : Interp.{0} sgS where
  D := Nat
  mem ty d := ty = 1 → d < 2
  inhab ty := ⟨0, by omega⟩
  fn f ds := if f = 10 then ds.getLastD 0 else if f = 2 ∨ f = 14 then 1 else 0
  fn_mem f ds h := by
    intro h1
    by_cases hf : f = 10
    · subst hf; simp [sgS] at h1
    · simp only [hf, if_false]; split <;> omega
  tf := by decide
  bool2 d h := by
    have h : d < 2 := by simpa [sgS] using h
    simp; omega
  dist f g h := by simp [sgS] at h

/-- With strong unit subsumption `f(a,c) ≠ f(b,d)` is reduced to the empty clause, but the only unit recorded in the
derivation is `a = b`; the empty clause does not follow from the clause and that unit. -/
theorem strongSR_records_too_little :
    ∃ w, positiveSR sgS (fun _ => false) unitsW true 5 clauseW = ([], [w]) ∧ w.lit = ⟨true, .app 11 [], .app 12 []⟩ ∧
      ¬ Entails.{0} sgS [clauseW, [w.lit]] [] := by
  refine ⟨⟨⟨true, .app 11 [], .app 12 []⟩, true⟩, ?_, rfl, ?_⟩
  · rfl
  · intro h
    have := h interpW (by
      intro C hC v hv
      simp only [List.mem_cons, List.not_mem_nil, or_false] at hC
      rcases hC with rfl | rfl
      · refine ⟨_, List.mem_singleton.2 rfl, ?_⟩
        simp [LitTrue, eval, evalL, interpW]
      · refine ⟨_, List.mem_singleton.2 rfl, ?_⟩
        simp [LitTrue, eval, evalL, interpW]) (fun _ => (0 : Nat)) (fun x => by intro _; exact Nat.zero_lt_two)
    obtain ⟨L, hL, -⟩ := this
    cases hL

/-! Non-vacuity -/

example : sgS.WTClause clauseW := by
  intro L hL
  rw [List.mem_singleton.1 hL]
  simp [Sig.WTLit, sgS, Sig.ty, Sig.WT, Sig.WTL]

/-- Ordinary positive simplify-reflect: `f(a,e) ≠ f(b,e)` is removed using `a = b`. -/
example : (positiveSR sgS (fun _ => false) unitsW false 0
    [⟨false, .app 10 [.app 11 [], .var 2], .app 10 [.app 12 [], .var 2]⟩]).1 = [] := by decide

example : (negativeSR sgS (fun _ => false) [⟨⟨false, .app 10 [.var 2, .app 11 []], .app 12 []⟩, false⟩]
    [⟨true, .app 12 [], .app 10 [.app 13 [], .app 11 []]⟩]).1 = [] := by decide

end Verif.Props
