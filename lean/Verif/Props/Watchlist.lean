import Verif.Control.Watchlist
import Verif.Props.Saturate
import Verif.Props.FVIndex

/-!
# C84: the watch list

`WReach sg m isStatic input W w`: the state `w` can be reached from the clauses `input` with the watch list `W`.
-/

namespace Verif.Props
open Verif Term SubstSt Interp SemProof SubsProof SaturateProof

universe u
variable {sg : Sig} {m st : Bool} {input : List (List Lit)} {W : Option (List WEntry)} {pp : Term → Bool}

/-- `C` and `D` are true in the same models of the input. -/
def SameOver (sg : Sig) (input : List (List Lit)) (C D : List Lit) : Prop :=
  ∀ I : Interp.{u} sg, (∀ A ∈ input, I.Models A) → (I.Models C ↔ I.Models D)

/-! ## One test -/

/-- C84: a test of a dynamic list with distinct entries removes exactly the clauses subsumed. -/
theorem watchlist_check_exact (C : List OLit) {l : List WEntry} (hl : (l.map (·.id)).Nodup) :
    (checkWatchlist sg pp false C l).1 = l.filter fun e => !clauseSubsumes sg pp C e.lits := by
  have key : wlExtract (wlFind sg pp C l) l = l.filter fun e => !clauseSubsumes sg pp C e.lits := by
    refine List.filter_congr fun e he => ?_
    congr 1
    rw [Bool.eq_iff_iff]
    simp only [wlFind, List.contains_iff_mem, List.mem_map, List.mem_filter]
    constructor
    · rintro ⟨e', ⟨he', hs⟩, hid⟩
      rw [List.inj_on_of_nodup_map hl he' he hid] at hs
      exact hs
    · exact fun h => ⟨e, ⟨he, h⟩, rfl⟩
  simp only [checkWatchlist, Bool.false_eq_true, if_false]
  split
  · exact key
  · rename_i h
    have h0 : wlFind sg pp C l = [] := List.length_eq_zero_iff.1 (not_not.1 h)
    rw [← key, h0]
    simp [wlExtract]

/-- C84: the clause is marked iff it subsumes a clause of the list; in the dynamic case the number reported is the number of clauses
removed. -/
theorem watchlist_check_mark (isStatic : Bool) (C : List OLit) {l : List WEntry} (hl : (l.map (·.id)).Nodup) :
    ((checkWatchlist sg pp isStatic C l).2.1 = true ↔ ∃ e ∈ l, clauseSubsumes sg pp C e.lits = true) ∧
    (checkWatchlist sg pp isStatic C l).1.length + (checkWatchlist sg pp isStatic C l).2.2 = l.length := by
  cases isStatic with
  | true => simp [checkWatchlist]
  | false =>
    have h1 := watchlist_check_exact (sg := sg) (pp := pp) C hl
    have h2 : (checkWatchlist sg pp false C l).2.2 = (l.filter fun e => clauseSubsumes sg pp C e.lits).length := by
      simp only [checkWatchlist, Bool.false_eq_true, if_false, wlFind, List.length_map]
      split
      · rfl
      · rename_i h
        exact (not_not.1 h).symm
    have h3 : (checkWatchlist sg pp false C l).2.1 = true ↔ (l.filter fun e => clauseSubsumes sg pp C e.lits).length ≠ 0 := by
      simp only [checkWatchlist, Bool.false_eq_true, if_false, wlFind, List.length_map]
      split
      · rename_i h; simp only [true_iff]; exact h
      · rename_i h; simp only [Bool.false_eq_true, false_iff]; exact h
    refine ⟨?_, ?_⟩
    · rw [h3, Ne, List.length_eq_zero_iff, List.filter_eq_nil_iff]
      push Not
      exact ⟨fun ⟨e, he, h⟩ => ⟨e, he, h⟩, fun ⟨e, he, h⟩ => ⟨e, he, h⟩⟩
    · rw [h1, h2]
      induction l with
      | nil => rfl
      | cons e l ih =>
        have := ih (List.nodup_cons.1 hl).2 (watchlist_check_exact C (List.nodup_cons.1 hl).2) (by
          simp only [checkWatchlist, Bool.false_eq_true, if_false, wlFind, List.length_map]
          split
          · rfl
          · rename_i h
            exact (not_not.1 h).symm) (by
          simp only [checkWatchlist, Bool.false_eq_true, if_false, wlFind, List.length_map]
          split
          · rename_i h; simp only [true_iff]; exact h
          · rename_i h; simp only [Bool.false_eq_true, false_iff]; exact h)
        cases h : clauseSubsumes sg pp C e.lits <;> simp [h] <;> omega

/-- C84: with a feature vector index over the list, in any reachable state of the index, the same clauses are removed. -/
theorem watchlist_index_agrees {cs : FVCollect} {perm : Option (List Nat)} {full full' : Arr} {T : FVTree Nat} {H : Nat → List OLit}
    {l : List WEntry} {C : List OLit} {v : List Nat} (h : FVReach cs perm full T (l.map (·.id)) H) (hH : ∀ e ∈ l, H e.id = e.lits)
    (hl : ∀ e ∈ l, sg.WTClause (OLit.plain e.lits) ∧ NoTrivial e.lits) (hv : fvVector cs perm full (OLit.plain C) = (some v, full')) :
    wlExtract (fvFindSubsumed (fun a => clauseSubsumes sg pp C (H a)) T v) l = wlExtract (wlFind sg pp C l) l ∧
    (fvFindSubsumed (fun a => clauseSubsumes sg pp C (H a)) T v).length = (wlFind sg pp C l).length := by
  have hp := fv_backward_exact (sg := sg) (pp := pp) h (C := C) (by
    intro a ha
    obtain ⟨e, he, rfl⟩ := List.mem_map.1 ha
    rw [hH e he]
    exact hl e he) hv
  have he : (l.map (·.id)).filter (fun a => clauseSubsumes sg pp C (H a)) = wlFind sg pp C l := by
    rw [List.filter_map, wlFind]
    congr 1
    refine List.filter_congr fun e he => ?_
    simp only [Function.comp_apply, hH e he]
  rw [he] at hp
  refine ⟨?_, hp.length_eq⟩
  unfold wlExtract
  refine List.filter_congr fun e _ => ?_
  congr 1
  rw [Bool.eq_iff_iff, List.contains_iff_mem, List.contains_iff_mem, hp.mem_iff]

/-! ## All states -/

/-- What is true of every clause of the original list `l0` and the present list `l`. -/
private structure WInv (sg : Sig) (input : List (List Lit)) (st : Bool) (l0 l : List WEntry) : Prop where
  nodup : (l.map (·.id)).Nodup
  wt : ∀ e ∈ l, sg.WTClause (OLit.plain e.lits)
  back : ∀ e ∈ l, ∃ e0 ∈ l0, e0.id = e.id
  stat : st = true → (l.map (·.id)).Perm (l0.map (·.id))
  ok : ∀ e0 ∈ l0, (∃ e ∈ l, e.id = e0.id ∧ SameOver.{u} sg input (OLit.plain e.lits) (OLit.plain e0.lits)) ∨
    (e0.id ∉ l.map (·.id) ∧ Entails.{u} sg input (OLit.plain e0.lits))

theorem wreach_sreach {w : WState} (h : WReach sg m st input W w) : SReach sg m input w.st := by
  induction h with
  | init => exact .init
  | step _ h ih => cases h with
    | loop h => exact .step ih h
    | check => exact ih
    | simplify => exact ih

private theorem perm_models {C D : List Lit} (h : C.Perm D) (I : Interp.{u} sg) : I.Models C ↔ I.Models D := by
  simp only [Interp.Models, Interp.ClauseTrue, h.mem_iff]

private theorem perm_wt {C D : List Lit} (h : C.Perm D) (hD : sg.WTClause D) : sg.WTClause C := by
  intro L hL
  exact hD L (h.mem_iff.1 hL)

private theorem check_nodup {l : List WEntry} (hl : (l.map (·.id)).Nodup) (C : List OLit) (st : Bool) :
    (checkWatchlist sg pp st C l).1 = if st then l else l.filter fun e => !clauseSubsumes sg pp C e.lits := by
  cases st with
  | true => simp [checkWatchlist]
  | false => simpa using watchlist_check_exact C hl

/-- A clause tested is one of the proof state. -/
private theorem tested_sound (hsg : SigOK sg) (ha : AltTyped sg) (hin : ∀ C ∈ input, sg.WTClause C) {s : SatState} (h : SReach sg m input s)
    {C : List OLit} {D : List Lit} (h1 : (∃ c ∈ s.unproc, c.lits = D) ∨ (∃ c ∈ s.tmp, c.lits = D) ∨ s.active = some D)
    (h2 : (OLit.plain C).Perm D) : Entails.{u} sg input (OLit.plain C) := by
  have hm : D ∈ s.all := by
    simp only [SatState.all, List.mem_append, List.mem_map, Option.mem_toList]
    rcases h1 with ⟨c, hc, rfl⟩ | ⟨c, hc, rfl⟩ | h1
    · exact .inl (.inl (.inr ⟨c, .inr hc, rfl⟩))
    · exact .inl (.inl (.inr ⟨c, .inl (.inr hc), rfl⟩))
    · exact .inl (.inl (.inl (.inr h1)))
  exact fun I hI => (perm_models h2 I).2 ((saturation_sound.{u} hsg ha hin h D hm).2 I hI)

private theorem winv (hsg : SigOK sg) (ha : AltTyped sg) (hin : ∀ C ∈ input, sg.WTClause C) {l0 : List WEntry}
    (hw : ∀ e ∈ l0, sg.WTClause (OLit.plain e.lits)) (hn : (l0.map (·.id)).Nodup) {w : WState} (h : WReach sg m st input (some l0) w) :
    (∃ l, w.wl = some l ∧ WInv.{u} sg input st l0 l) ∧
    ∀ p ∈ w.marked, Entails.{u} sg input (OLit.plain p.1) ∧ ∃ e0 ∈ l0, Entails.{u} sg input (OLit.plain e0.lits) := by
  induction h with
  | init => exact ⟨⟨l0, rfl, hn, hw, fun e he => ⟨e, he, rfl⟩, fun _ => .refl _, fun e0 he0 => .inl ⟨e0, he0, rfl, fun _ _ => .rfl⟩⟩, by
      simp [WState.init]⟩
  | @step w w' hr h ih =>
    obtain ⟨⟨l, hl, inv⟩, hm⟩ := ih
    have hs := wreach_sreach hr
    cases h with
    | loop h => exact ⟨⟨l, hl, inv⟩, hm⟩
    | @check W pp C D hW h1 h2 =>
      obtain rfl : l = W := by rw [hl] at hW; exact Option.some.inj hW
      have hC := tested_sound.{u} hsg ha hin hs h1 h2
      have hsub : ∀ e ∈ l, clauseSubsumes sg pp C e.lits = true → Entails.{u} sg input (OLit.plain e.lits) := by
        intro e he hse I hI
        exact subsumes_sound.{u} (inv.wt e he) hse I (by simpa using hC I hI)
      have horig : ∀ e ∈ l, clauseSubsumes sg pp C e.lits = true → ∀ e0 ∈ l0, e0.id = e.id → Entails.{u} sg input (OLit.plain e0.lits) := by
        intro e he hse e0 he0 hid
        rcases inv.ok e0 he0 with ⟨e1, he1, hid1, hsame⟩ | ⟨hno, -⟩
        · obtain rfl := List.inj_on_of_nodup_map inv.nodup he1 he (hid1.trans hid)
          exact fun I hI => (hsame I hI).1 (hsub e1 he1 hse I hI)
        · exact absurd (List.mem_map_of_mem (f := (·.id)) he) (hid ▸ hno)
      refine ⟨⟨_, rfl, ?_⟩, ?_⟩
      · rw [check_nodup inv.nodup]
        cases st with
        | true => exact inv
        | false =>
          simp only [Bool.false_eq_true, if_false]
          refine ⟨inv.nodup.sublist (List.filter_sublist.map _), fun e he => inv.wt e (List.mem_filter.1 he).1,
            fun e he => inv.back e (List.mem_filter.1 he).1, by simp, fun e0 he0 => ?_⟩
          rcases inv.ok e0 he0 with ⟨e, he, hid, hsame⟩ | ⟨hno, hent⟩
          · cases hse : clauseSubsumes sg pp C e.lits with
            | false => exact .inl ⟨e, List.mem_filter.2 ⟨he, by simp [hse]⟩, hid, hsame⟩
            | true =>
              refine .inr ⟨fun hmem => ?_, horig e he hse e0 he0 hid.symm⟩
              obtain ⟨e1, he1, hid1⟩ := List.mem_map.1 hmem
              obtain ⟨he1, hs1⟩ := List.mem_filter.1 he1
              obtain rfl := List.inj_on_of_nodup_map inv.nodup he1 he (hid1.trans hid.symm)
              simp [hse] at hs1
          · exact .inr ⟨fun hmem => hno ((List.filter_sublist.map _).subset hmem), hent⟩
      · intro p hp
        simp only at hp
        split at hp
        · rename_i hmk
          rcases List.mem_append.1 hp with hp | hp
          · exact hm p hp
          · rw [List.mem_singleton.1 hp]
            obtain ⟨e, he, hse⟩ := (watchlist_check_mark st C inv.nodup).1.1 hmk
            obtain ⟨e0, he0, hid⟩ := inv.back e he
            exact ⟨hC, e0, he0, horig e he hse e0 he0 hid⟩
        · exact hm p hp
    | @simplify U V e e' hW hid hmod =>
      obtain rfl : l = U ++ e :: V := by rw [hl] at hW; exact Option.some.inj hW
      have hall := saturation_sound.{u} hsg ha hin hs
      have hmem : ∀ A ∈ w.st.avail m, A ∈ w.st.all := by
        intro A hA
        simp only [SatState.all, List.mem_append]
        rcases List.mem_append.1 hA with hA | hA
        · tauto
        · cases m with
          | false => simp at hA
          | true =>
            rcases List.mem_append.1 hA with hA | hA <;> tauto
      have hac : ∀ A ∈ w.st.ac, sg.WTClause A := fun A hA => (hall A (by simp only [SatState.all, List.mem_append]; tauto)).1
      obtain ⟨hwt, hmo⟩ := modify_ok.{u} hsg hac hmod (inv.wt e (by simp))
      have hsame : SameOver.{u} sg input (OLit.plain e'.lits) (OLit.plain e.lits) := fun I hI =>
        hmo I fun A hA => (hall A (hmem A hA)).2 I hI
      have hperm : ((U ++ V ++ [e']).map (·.id)).Perm ((U ++ e :: V).map (·.id)) := by
        simp only [List.map_append, List.map_cons, List.map_nil, hid, List.append_assoc]
        exact List.Perm.append_left _ (List.perm_append_singleton _ _)
      refine ⟨⟨_, rfl, hperm.nodup_iff.2 inv.nodup, ?_, ?_, fun hst => hperm.trans (inv.stat hst), fun e0 he0 => ?_⟩, hm⟩
      · intro x hx
        simp only [List.mem_append, List.mem_singleton] at hx
        rcases hx with (hx | hx) | rfl
        · exact inv.wt x (by simp [hx])
        · exact inv.wt x (by simp [hx])
        · exact hwt
      · intro x hx
        simp only [List.mem_append, List.mem_singleton] at hx
        rcases hx with (hx | hx) | rfl
        · exact inv.back x (by simp [hx])
        · exact inv.back x (by simp [hx])
        · obtain ⟨e0, he0, h0⟩ := inv.back e (by simp)
          exact ⟨e0, he0, h0.trans hid.symm⟩
      · rcases inv.ok e0 he0 with ⟨e1, he1, hid1, hsame1⟩ | ⟨hno, hent⟩
        · left
          simp only [List.mem_append, List.mem_cons] at he1
          rcases he1 with he1 | rfl | he1
          · exact ⟨e1, by simp [he1], hid1, hsame1⟩
          · exact ⟨e', by simp, hid.trans hid1, fun I hI => (hsame I hI).trans (hsame1 I hI)⟩
          · exact ⟨e1, by simp [he1], hid1, hsame1⟩
        · exact .inr ⟨fun hx => hno (hperm.mem_iff.1 hx), hent⟩

variable {l0 : List WEntry}

/-- **C84.** Nothing is lost from the watch list: in every reachable state every clause of the original list is still there, in a form that
is true in the same models of the input, or it follows from the input. -/
theorem watchlist_sound (hsg : SigOK sg) (ha : AltTyped sg) (hin : ∀ C ∈ input, sg.WTClause C)
    (hw : ∀ e ∈ l0, sg.WTClause (OLit.plain e.lits)) (hn : (l0.map (·.id)).Nodup) {w : WState} (h : WReach sg m st input (some l0) w) :
    ∃ l, w.wl = some l ∧ ∀ e0 ∈ l0, (∃ e ∈ l, e.id = e0.id ∧ SameOver.{u} sg input (OLit.plain e.lits) (OLit.plain e0.lits)) ∨
      Entails.{u} sg input (OLit.plain e0.lits) := by
  obtain ⟨⟨l, hl, inv⟩, -⟩ := winv.{u} hsg ha hin hw hn h
  exact ⟨l, hl, fun e0 he0 => (inv.ok e0 he0).imp_right (·.2)⟩

/-- **C84.** If the prover reports that the watch list is empty, every clause of the list follows from the input. -/
theorem watchlist_empty (hsg : SigOK sg) (ha : AltTyped sg) (hin : ∀ C ∈ input, sg.WTClause C)
    (hw : ∀ e ∈ l0, sg.WTClause (OLit.plain e.lits)) (hn : (l0.map (·.id)).Nodup) {w : WState} (h : WReach sg m st input (some l0) w)
    (hr : w.report = .watchlistEmpty) : ∀ e ∈ l0, Entails.{u} sg input (OLit.plain e.lits) := by
  obtain ⟨l, hl, hok⟩ := watchlist_sound.{u} hsg ha hin hw hn h
  have he : l = [] := by
    unfold WState.report at hr
    rw [hl] at hr
    cases hs : w.st.success <;> simp [hs] at hr
    exact hr
  subst he
  intro e he
  rcases hok e he with ⟨e', he', -⟩ | h
  · simp at he'
  · exact h

/-- **C84.** A marked clause follows from the input, and some clause of the original list follows with it. -/
theorem watchlist_marked (hsg : SigOK sg) (ha : AltTyped sg) (hin : ∀ C ∈ input, sg.WTClause C)
    (hw : ∀ e ∈ l0, sg.WTClause (OLit.plain e.lits)) (hn : (l0.map (·.id)).Nodup) {w : WState} (h : WReach sg m st input (some l0) w) :
    ∀ p ∈ w.marked, Entails.{u} sg input (OLit.plain p.1) ∧ ∃ e0 ∈ l0, Entails.{u} sg input (OLit.plain e0.lits) :=
  (winv.{u} hsg ha hin hw hn h).2

/-- **C84.** A static list keeps all its clauses; so it is reported empty only if it was empty from the start. -/
theorem watchlist_static (hsg : SigOK sg) (ha : AltTyped sg) (hin : ∀ C ∈ input, sg.WTClause C)
    (hw : ∀ e ∈ l0, sg.WTClause (OLit.plain e.lits)) (hn : (l0.map (·.id)).Nodup) {w : WState} (h : WReach sg m true input (some l0) w) :
    (∃ l, w.wl = some l ∧ (l.map (·.id)).Perm (l0.map (·.id))) ∧ (w.report = .watchlistEmpty → l0 = []) := by
  obtain ⟨⟨l, hl, inv⟩, -⟩ := winv.{0} hsg ha hin hw hn h
  refine ⟨⟨l, hl, inv.stat rfl⟩, fun hr => ?_⟩
  have he : l = [] := by
    unfold WState.report at hr
    rw [hl] at hr
    cases hs : w.st.success <;> simp [hs] at hr
    exact hr
  subst he
  exact List.map_eq_nil_iff.1 ((inv.stat rfl).symm.eq_nil)

/-! ## Example: the input `a = b`, `b ≠ a`, the list `c ≠ d | a = b | a = b` -/

namespace WatchEx
open SatEx

def w0 : List WEntry := [⟨7, [⟨⟨false, .app 12 [], .app 13 []⟩, false⟩, ⟨⟨true, .app 10 [], .app 11 []⟩, false⟩, ⟨⟨true, .app 10 [], .app 11 []⟩, false⟩]⟩]

/-- The same after `ClauseRemoveSuperfluousLiterals`. -/
def w1 : List WEntry := [⟨7, [⟨⟨false, .app 12 [], .app 13 []⟩, false⟩, ⟨⟨true, .app 10 [], .app 11 []⟩, false⟩]⟩]

def cAB : List OLit := [⟨⟨true, .app 10 [], .app 11 []⟩, true⟩]

theorem w0_wt : ∀ e ∈ w0, sSig.WTClause (OLit.plain e.lits) := by
  simp [w0, OLit.plain, Sig.WTClause, Sig.WTLit, Sig.wt_app, sSig, Sig.ty]

theorem reach_w1 : WReach sSig true st [eqAB, neBA] (some w0) ⟨.init [eqAB, neBA], some w1, []⟩ := by
  refine .step .init (WStep.simplify (U := []) (V := []) (e := ⟨7, _⟩) (e' := ⟨7, _⟩) rfl rfl ?_)
  exact Modify.superfluous _

theorem reach_empty : WReach sSig true false [eqAB, neBA] (some w0) ⟨.init [eqAB, neBA], some [], [(cAB, w1)]⟩ :=
  .step reach_w1 (WStep.check (W := w1) (pp := fun _ => false) (C := cAB) (D := eqAB) rfl (.inl ⟨⟨eqAB, false⟩, by simp [SatState.init], rfl⟩) (.refl _))

example : ∀ e ∈ w0, Entails.{u} sSig [eqAB, neBA] (OLit.plain e.lits) :=
  watchlist_empty sSig_ok sSig_alt sIn_wt w0_wt (by decide) reach_empty rfl

example : Entails.{u} sSig [eqAB, neBA] eqAB :=
  (watchlist_marked sSig_ok sSig_alt sIn_wt w0_wt (by decide) reach_empty (cAB, w1) (by simp)).1

theorem reach_static : WReach sSig true true [eqAB, neBA] (some w0) ⟨.init [eqAB, neBA], some w1, [(cAB, w1)]⟩ :=
  .step reach_w1 (WStep.check (W := w1) (pp := fun _ => false) (C := cAB) (D := eqAB) rfl (.inl ⟨⟨eqAB, false⟩, by simp [SatState.init], rfl⟩) (.refl _))

example : WState.report ⟨.init [eqAB, neBA], some w1, [(cAB, w1)]⟩ = .watchlistEmpty → w0 = [] :=
  (watchlist_static sSig_ok sSig_alt sIn_wt w0_wt (by decide) reach_static).2

/-- C84: an empty list is reported as emptied although nothing was done (the loop is not entered either, CONTROL/cco_proofproc.c:1760),
whatever the input is. -/
theorem watchlist_initially_empty (input : List (List Lit)) : (WState.init input (some [])).report = .watchlistEmpty := rfl

end WatchEx

end Verif.Props
