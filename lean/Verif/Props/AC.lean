import Verif.Clauses.ACClause
import Verif.Terms.ACProof
import Verif.Clauses.Sem
import Mathlib.Data.List.Induction

/-!
# C40: equality modulo AC; C25: AC-resolved literals
-/

namespace Verif.Props
open Verif ACProof Term

universe u

/-! ## Comparison modulo AC -/

/-- C40: the comparison is exact, for all terms, all sets of marked symbols, and whatever the addresses of the cells. -/
theorem ac_equal_exact {s : ACSig} {sg : Sig} (hb : s.Binary sg) {t u : Term} (ht : sg.WT t) (hu : sg.WT u) {ad1 ad2 : List Nat → Nat → Nat}
    (h1 : Addresses ad1) (h2 : Addresses ad2) : termACEqual s ad1 ad2 t u = true ↔ ACEq s t u := by
  unfold termACEqual
  constructor
  · intro h
    split at h
    · cases h
    · split at h
      · cases h
      · next hc =>
        simp only [ne_eq, Decidable.not_not] at hc
        have := (cmp_eq _ _).1 hc
        have e1 := (back_norm hb h1 ht []).1
        have e2 := (back_norm hb h2 hu []).1
        rw [this] at e1
        exact e1.trans e2.symm
  · intro h
    have hw : t.sw = u.sw := by simp only [sw, acEq_weight h VW FW]
    rw [if_neg (by simpa using hw), if_neg]
    simp only [ne_eq, Decidable.not_not]
    rw [cmp_eq]
    exact (same_of_acEq h ad1 ad2 h1 h2 [] []).1

/-- C40: terms that are equal modulo AC are always recognised, also if they are not well-typed. -/
theorem ac_equal_complete {s : ACSig} {t u : Term} {ad1 ad2 : List Nat → Nat → Nat} (h1 : Addresses ad1) (h2 : Addresses ad2)
    (h : ACEq s t u) : termACEqual s ad1 ad2 t u = true := by
  unfold termACEqual
  have hw : t.sw = u.sw := by simp only [sw, acEq_weight h VW FW]
  rw [if_neg (by simpa using hw), if_neg]
  simp only [ne_eq, Decidable.not_not]
  rw [cmp_eq]
  exact (same_of_acEq h ad1 ad2 h1 h2 [] []).1

/-! ## Detection of the axioms -/

/-- The clause `f(x,y) = f(y,x)`. -/
def IsCommAx (f : Nat) (C : List Lit) : Prop := ∃ x y, x ≠ y ∧ C = [⟨true, app f [var x, var y], app f [var y, var x]⟩]

/-- The clause `f(f(x,y),z) = f(x,f(y,z))`, in either direction. -/
def IsAssocAx (f : Nat) (C : List Lit) : Prop := ∃ x y z, x ≠ y ∧ x ≠ z ∧ y ≠ z ∧
  (C = [⟨true, app f [app f [var x, var y], var z], app f [var x, app f [var y, var z]]⟩] ∨
   C = [⟨true, app f [var x, app f [var y, var z]], app f [app f [var x, var y], var z]⟩])

theorem detect_comm_exact (C : List Lit) (f : Nat) : detectComm C = some f ↔ IsCommAx f C := by
  constructor
  · intro h
    unfold detectComm at h
    split at h
    · next L =>
      obtain ⟨pos, l, r⟩ := L
      split at h
      · cases h
      · next hp =>
        simp only [Bool.not_eq_true, Bool.not_eq_false'] at hp
        subst hp
        dsimp only at h
        split at h
        · next f a b g c d =>
          split at h
          · cases h
          · split at h
            · cases h
            · split at h
              · cases h
              · next h1 h2 h3 =>
                cases h
                push Not at h1 h3
                exact ⟨a, b, h2, by rw [h1, ← h3.1, ← h3.2]⟩
        · cases h
    · cases h
  · rintro ⟨x, y, hxy, rfl⟩
    simp [detectComm, hxy]

theorem detectAssocSides_iff {f : Nat} {l0 l1 r0 r1 : Term} {g : Nat} : detectAssocSides f l0 l1 r0 r1 = some g ↔
    g = f ∧ ∃ x y z, x ≠ y ∧ x ≠ z ∧ y ≠ z ∧ l0 = app f [var x, var y] ∧ l1 = var z ∧ r0 = var x ∧ r1 = app f [var y, var z] := by
  constructor
  · intro h
    unfold detectAssocSides at h
    split at h
    · next f' v1 v2 v3 =>
      split at h
      · cases h
      · split at h
        · cases h
        · next h1 h2 =>
          push Not at h1 h2
          split at h
          · next f'' x y =>
            split at h
            · cases h
            · split at h
              · cases h
              · split at h
                · cases h
                · split at h
                  · cases h
                  · next h3 h4 h5 h6 =>
                    cases h
                    push Not at h3 h4 h5 h6
                    exact ⟨rfl, v1, v2, v3, h2.1, h2.2.1, h2.2.2, by rw [h1], rfl, h4, by rw [h3, h5, h6]⟩
          · cases h
    · cases h
  · rintro ⟨rfl, x, y, z, h1, h2, h3, rfl, rfl, rfl, rfl⟩
    simp [detectAssocSides, h1, h2, h3]

theorem detect_assoc_exact (C : List Lit) (f : Nat) : detectAssoc C = some f ↔ IsAssocAx f C := by
  constructor
  · intro h
    unfold detectAssoc at h
    split at h
    · next L =>
      obtain ⟨pos, l, r⟩ := L
      split at h
      · cases h
      · next hp =>
        simp only [Bool.not_eq_true, Bool.not_eq_false'] at hp
        subst hp
        split at h
        · cases h
        · dsimp only at h
          split at h
          · next f a0 a1 g b0 b1 =>
            split at h
            · cases h
            · next hfg =>
              push Not at hfg
              subst hfg
              split at h
              · obtain ⟨rfl, x, y, z, e1, e2, e3, rfl, rfl, rfl, rfl⟩ := detectAssocSides_iff.1 h
                exact ⟨x, y, z, e1, e2, e3, .inr rfl⟩
              · obtain ⟨rfl, x, y, z, e1, e2, e3, rfl, rfl, rfl, rfl⟩ := detectAssocSides_iff.1 h
                exact ⟨x, y, z, e1, e2, e3, .inl rfl⟩
          · cases h
    · cases h
  · rintro ⟨x, y, z, e1, e2, e3, rfl | rfl⟩
    · simp [detectAssoc, detectAssocSides, sw, weight, weightL, isVar, e1, e2, e3, FW, VW]
    · simp [detectAssoc, detectAssocSides, sw, weight, weightL, isVar, e1, e2, e3, FW, VW]

theorem scanACSet_append (s : ACSig) (Cs : List (List Lit)) (C : List Lit) :
    scanACSet s (Cs ++ [C]) = ((scanACSet s Cs).1 || (scanAC (scanACSet s Cs).2 C).1, (scanAC (scanACSet s Cs).2 C).2) := by
  simp [scanACSet]

/-- C40: a symbol is marked exactly if its axiom was among the clauses scanned (or it was marked before); and handling of AC is switched on exactly
if there is a commutative symbol among them. -/
theorem scan_marks_exact (s : ACSig) (Cs : List (List Lit)) :
    (∀ f, (scanACSet s Cs).2.comm f = true ↔ s.comm f = true ∨ ∃ C ∈ Cs, IsCommAx f C) ∧
    (∀ f, (scanACSet s Cs).2.assoc f = true ↔ s.assoc f = true ∨ ∃ C ∈ Cs, IsAssocAx f C) ∧
    ((scanACSet s Cs).1 = true ↔ ∃ f, ∃ C ∈ Cs, IsCommAx f C) := by
  induction Cs using List.reverseRecOn with
  | nil => simp [scanACSet]
  | append_singleton Cs C ih =>
    obtain ⟨h1, h2, h3⟩ := ih
    rw [scanACSet_append]
    generalize scanACSet s Cs = r at h1 h2 h3
    have hC := detect_comm_exact C
    have hA := detect_assoc_exact C
    have hdisj : ∀ f g, IsCommAx f C → IsAssocAx g C → False := by
      rintro f g ⟨x, y, -, rfl⟩ ⟨x', y', z', -, -, -, h | h⟩ <;> simp at h
    have hex : ∀ (P : List Lit → Prop), (∃ D ∈ Cs ++ [C], P D) ↔ (∃ D ∈ Cs, P D) ∨ P C := by
      intro P
      constructor
      · rintro ⟨D, hD, hP⟩
        rcases List.mem_append.1 hD with h | h
        · exact .inl ⟨D, h, hP⟩
        · rw [List.mem_singleton.1 h] at hP; exact .inr hP
      · rintro (⟨D, hD, hP⟩ | hP)
        · exact ⟨D, by simp [hD], hP⟩
        · exact ⟨C, by simp, hP⟩
    simp only [hex]
    unfold scanAC
    cases hc : detectComm C with
    | some g =>
      have hg := (hC g).1 hc
      have hu : ∀ f, IsCommAx f C ↔ f = g := fun f => by rw [← hC, hc]; simp [eq_comm]
      have hn : ∀ f, ¬ IsAssocAx f C := fun f h => hdisj g f hg h
      refine ⟨fun f => ?_, fun f => ?_, ?_⟩
      · simp only [Bool.or_eq_true, beq_iff_eq, h1 f, hu]; grind
      · simp only [h2 f, hn]; grind
      · simp only [Bool.or_true, true_iff]; exact ⟨g, .inr hg⟩
    | none =>
      have hn : ∀ f, ¬ IsCommAx f C := fun f h => by rw [(hC f).2 h] at hc; cases hc
      cases ha : detectAssoc C with
      | some g =>
        have hu : ∀ f, IsAssocAx f C ↔ f = g := fun f => by rw [← hA, ha]; simp [eq_comm]
        refine ⟨fun f => ?_, fun f => ?_, ?_⟩
        · simp only [h1 f, hn]; grind
        · simp only [Bool.or_eq_true, beq_iff_eq, h2 f, hu]; grind
        · simp only [Bool.or_false, h3, hn]; grind
      | none =>
        have hn' : ∀ f, ¬ IsAssocAx f C := fun f h => by rw [(hA f).2 h] at ha; cases ha
        refine ⟨fun f => ?_, fun f => ?_, ?_⟩
        · simp only [h1 f, hn]; grind
        · simp only [h2 f, hn']; grind
        · simp only [Bool.or_false, h3, hn]; grind

/-! ## Meaning -/

/-- The properties after scanning the clauses, nothing being marked before. -/
def scanned (Cs : List (List Lit)) : ACSig := (scanACSet ⟨fun _ => false, fun _ => false⟩ Cs).2

theorem scanned_comm {Cs : List (List Lit)} {f : Nat} : (scanned Cs).comm f = true ↔ ∃ C ∈ Cs, IsCommAx f C := by
  rw [scanned, (scan_marks_exact _ Cs).1 f]; simp

theorem scanned_assoc {Cs : List (List Lit)} {f : Nat} : (scanned Cs).assoc f = true ↔ ∃ C ∈ Cs, IsAssocAx f C := by
  rw [scanned, (scan_marks_exact _ Cs).2.1 f]; simp

theorem commAx_typed {sg : Sig} {f : Nat} {C : List Lit} (h : IsCommAx f C) (hw : sg.WTClause C) : ∃ A, sg.fargs f = [A, A] ∧
    ∀ I : Interp.{u} sg, I.Models C → ∀ d e, I.mem A d → I.mem A e → I.fn f [d, e] = I.fn f [e, d] := by
  obtain ⟨x, y, hxy, rfl⟩ := h
  obtain ⟨h1, h2, -⟩ := hw _ (List.mem_singleton.2 rfl)
  rw [Sig.wt_app] at h1 h2
  have e1 : [sg.vty x, sg.vty y] = sg.fargs f := h1.1
  have e2 : [sg.vty y, sg.vty x] = sg.fargs f := h2.1
  have e3 : sg.vty y = sg.vty x := by
    rw [← e2] at e1
    simp only [List.cons.injEq] at e1
    exact e1.1.symm
  refine ⟨sg.vty x, by rw [← e1, e3], fun I hI d e hd he => ?_⟩
  have inh := fun ty => I.inhab ty
  choose w hw using inh
  let v : Nat → I.D := fun z => if z = x then d else if z = y then e else w (sg.vty z)
  have hv : I.Sorted v := by
    intro z
    simp only [v]
    split
    · next h => rw [h]; exact hd
    · split
      · next h => rw [h, e3]; exact he
      · exact hw _
  obtain ⟨L, hL, ht⟩ := hI v hv
  rw [List.mem_singleton.1 hL] at ht
  have hvx : v x = d := by simp [v]
  have hvy : v y = e := by simp [v, Ne.symm hxy]
  simpa [Interp.LitTrue, Interp.eval, Interp.evalL, hvx, hvy] using ht

theorem assocAx_typed {sg : Sig} {f : Nat} {C : List Lit} (h : IsAssocAx f C) (hw : sg.WTClause C) : ∃ A, sg.fargs f = [A, A] ∧ sg.fty f = A ∧
    ∀ I : Interp.{u} sg, I.Models C → ∀ d e k, I.mem A d → I.mem A e → I.mem A k → I.fn f [I.fn f [d, e], k] = I.fn f [d, I.fn f [e, k]] := by
  obtain ⟨x, y, z, h1, h2, h3, hC⟩ := h
  have hw' : sg.WT (app f [app f [var x, var y], var z]) ∧ sg.WT (app f [var x, app f [var y, var z]]) := by
    rcases hC with rfl | rfl
    · exact ⟨(hw _ (List.mem_singleton.2 rfl)).1, (hw _ (List.mem_singleton.2 rfl)).2.1⟩
    · exact ⟨(hw _ (List.mem_singleton.2 rfl)).2.1, (hw _ (List.mem_singleton.2 rfl)).1⟩
  obtain ⟨g1, g2⟩ := hw'
  rw [Sig.wt_app] at g1 g2
  have g3 := g1.2 (app f [var x, var y]) (by simp)
  have g4 := g2.2 (app f [var y, var z]) (by simp)
  rw [Sig.wt_app] at g3 g4
  have e1 : [sg.fty f, sg.vty z] = sg.fargs f := g1.1
  have e2 : [sg.vty x, sg.fty f] = sg.fargs f := g2.1
  have e3 : [sg.vty x, sg.vty y] = sg.fargs f := g3.1
  have e4 : [sg.vty y, sg.vty z] = sg.fargs f := g4.1
  have a1 : sg.vty z = sg.fty f := by rw [← e1] at e2; simp only [List.cons.injEq] at e2; exact e2.2.1.symm
  have a2 : sg.vty x = sg.fty f := by rw [← e1] at e2; simp only [List.cons.injEq] at e2; exact e2.1
  have a3 : sg.vty y = sg.fty f := by rw [← e1] at e4; simp only [List.cons.injEq] at e4; exact e4.1
  refine ⟨sg.fty f, by rw [← e1, a1], rfl, fun I hI d e k hd he hk => ?_⟩
  have inh := fun ty => I.inhab ty
  choose w hw using inh
  let v : Nat → I.D := fun t => if t = x then d else if t = y then e else if t = z then k else w (sg.vty t)
  have hv : I.Sorted v := by
    intro t
    simp only [v]
    split
    · next h => rw [h, a2]; exact hd
    · split
      · next h => rw [h, a3]; exact he
      · split
        · next h => rw [h, a1]; exact hk
        · exact hw _
  obtain ⟨L, hL, ht⟩ := hI v hv
  have hvx : v x = d := by simp [v]
  have hvy : v y = e := by simp [v, Ne.symm h1]
  have hvz : v z = k := by simp [v, Ne.symm h2, Ne.symm h3]
  rcases hC with rfl | rfl
  · rw [List.mem_singleton.1 hL] at ht
    simpa [Interp.LitTrue, Interp.eval, Interp.evalL, hvx, hvy, hvz] using ht
  · rw [List.mem_singleton.1 hL] at ht
    simpa [Interp.LitTrue, Interp.eval, Interp.evalL, hvx, hvy, hvz, eq_comm] using ht

/-- C40: the symbols marked are binary. -/
theorem scanned_binary {sg : Sig} {Cs : List (List Lit)} (hw : ∀ C ∈ Cs, sg.WTClause C) : (scanned Cs).Binary sg := by
  intro f hf
  simp only [ACSig.isAC, Bool.and_eq_true] at hf
  obtain ⟨C, hC, hax⟩ := scanned_comm.1 hf.2
  obtain ⟨A, hA, -⟩ := commAx_typed.{0} hax (hw C hC)
  rw [hA]; rfl

/-- C40: terms equal modulo the marked symbols have the same value in every model of the clauses scanned. -/
theorem ac_equal_valid {sg : Sig} {Cs : List (List Lit)} (hw : ∀ C ∈ Cs, sg.WTClause C) {I : Interp.{u} sg} (hI : ∀ C ∈ Cs, I.Models C)
    {t u : Term} (h : ACEq (scanned Cs) t u) : sg.ty t = sg.ty u ∧ (sg.WT t ↔ sg.WT u) ∧
      (sg.WT t → ∀ v, I.Sorted v → I.eval v t = I.eval v u) := by
  induction h with
  | refl => exact ⟨rfl, Iff.rfl, fun _ _ _ => rfl⟩
  | symm _ ih => exact ⟨ih.1.symm, ih.2.1.symm, fun hu v hv => (ih.2.2 (ih.2.1.2 hu) v hv).symm⟩
  | trans _ _ ih1 ih2 =>
    exact ⟨ih1.1.trans ih2.1, ih1.2.1.trans ih2.2.1, fun ht v hv => (ih1.2.2 ht v hv).trans (ih2.2.2 (ih1.2.1.1 ht) v hv)⟩
  | @arg t u f l r _ ih =>
    refine ⟨rfl, ?_, fun ht v hv => ?_⟩
    · rw [Sig.wt_app, Sig.wt_app]
      simp only [List.map_append, List.map_cons, ih.1, List.mem_append, List.mem_cons, or_imp, forall_and, forall_eq, ih.2.1]
    · rw [SemProof.eval_app, SemProof.eval_app]
      rw [Sig.wt_app] at ht
      simp only [List.map_append, List.map_cons, ih.2.2 (ht.2 t (by simp)) v hv]
  | @comm f a b hc =>
    obtain ⟨C, hC, hax⟩ := scanned_comm.1 hc
    obtain ⟨A, hA, hcomm⟩ := commAx_typed.{u} hax (hw C hC)
    refine ⟨rfl, ?_, fun ht v hv => ?_⟩
    · rw [Sig.wt_app, Sig.wt_app, hA]
      simp
      grind
    · rw [Sig.wt_app, hA] at ht
      have h1 : sg.ty a = A ∧ sg.ty b = A := by simpa using ht.1
      have ma := SemProof.eval_mem I hv (ht.2 a (by simp))
      have mb := SemProof.eval_mem I hv (ht.2 b (by simp))
      rw [h1.1] at ma
      rw [h1.2] at mb
      rw [SemProof.eval_app, SemProof.eval_app]
      exact hcomm I (hI C hC) _ _ ma mb
  | @assoc f a b c ha hc =>
    obtain ⟨C, hC, hax⟩ := scanned_assoc.1 ha
    obtain ⟨A, hA, hty, hassoc⟩ := assocAx_typed.{u} hax (hw C hC)
    have tyapp : ∀ ts, sg.ty (app f ts) = A := fun ts => hty
    refine ⟨rfl, ?_, fun ht v hv => ?_⟩
    · simp [Sig.wt_app, hA, tyapp]
      grind
    · have h1 : (sg.ty c = A ∧ (sg.ty a = A ∧ sg.ty b = A) ∧ (sg.WT a ∧ sg.WT b)) ∧ sg.WT c := by
        simp [Sig.wt_app, hA, tyapp] at ht
        grind
      obtain ⟨⟨tc, ⟨ta, tb⟩, wa, wb⟩, wc⟩ := h1
      have ma := SemProof.eval_mem I hv wa
      have mb := SemProof.eval_mem I hv wb
      have mc := SemProof.eval_mem I hv wc
      rw [ta] at ma
      rw [tb] at mb
      rw [tc] at mc
      simp only [SemProof.eval_app, List.map_cons, List.map_nil]
      exact hassoc I (hI C hC) _ _ _ ma mb mc

theorem acTrivial_valid {sg : Sig} {Cs : List (List Lit)} (hw : ∀ C ∈ Cs, sg.WTClause C) {I : Interp.{u} sg} (hI : ∀ C ∈ Cs, I.Models C)
    {ad : Bool → List Nat → Nat → Nat} (had : ∀ b, Addresses (ad b)) {L : Lit} (hL : sg.WTLit L) (h : L.acTrivial (scanned Cs) ad = true)
    {v : Nat → I.D} (hv : I.Sorted v) : I.eval v L.l = I.eval v L.r := by
  rw [Lit.acTrivial, ac_equal_exact (scanned_binary hw) hL.1 hL.2.1 (had _) (had _)] at h
  exact (ac_equal_valid hw hI h).2.2 hL.1 v hv

theorem removeACResolved_mem {s : ACSig} {sg : Sig} (hb : s.Binary sg) {ad : Nat → Bool → List Nat → Nat → Nat} (had : ∀ k b, Addresses (ad k b))
    {C : List Lit} (hC : sg.WTClause C) : ∀ k, removeACResolved s ad k C = C.filter fun L => !(!L.pos && L.acTrivial s (ad 0)) := by
  induction C with
  | nil => intro k; rfl
  | cons L C ih =>
    intro k
    have hL := hC L (by simp)
    have hind : L.acTrivial s (ad k) = L.acTrivial s (ad 0) := by
      rw [Bool.eq_iff_iff, Lit.acTrivial, Lit.acTrivial, ac_equal_exact hb hL.1 hL.2.1 (had _ _) (had _ _),
        ac_equal_exact hb hL.1 hL.2.1 (had _ _) (had _ _)]
    rw [removeACResolved, hind, ih (fun M hM => hC M (by simp [hM])) (k + 1), List.filter_cons]
    cases (!L.pos && L.acTrivial s (ad 0)) <;> simp

/-- C25: removing AC-resolved literals keeps exactly the literals that are positive or whose sides are not equal modulo AC. -/
theorem ac_resolved_exact {s : ACSig} {sg : Sig} (hb : s.Binary sg) {ad : Nat → Bool → List Nat → Nat → Nat} (had : ∀ k b, Addresses (ad k b))
    {C : List Lit} (hC : sg.WTClause C) : (clauseRemoveACResolved s ad C).Sublist C ∧
      ∀ L, L ∈ clauseRemoveACResolved s ad C ↔ L ∈ C ∧ ¬ (L.pos = false ∧ ACEq s L.l L.r) := by
  rw [clauseRemoveACResolved]
  split
  · next hall =>
    refine ⟨List.Sublist.refl _, fun L => ⟨fun h => ⟨h, fun hn => ?_⟩, fun h => h.1⟩⟩
    rw [List.all_eq_true] at hall
    rw [hall L h] at hn
    exact Bool.noConfusion hn.1
  · rw [removeACResolved_mem hb had hC]
    refine ⟨List.filter_sublist, fun L => ?_⟩
    rw [List.mem_filter]
    refine and_congr_right fun hL => ?_
    have := ac_equal_exact hb (hC L hL).1 (hC L hL).2.1 (had 0 false) (had 0 true)
    rw [← this]
    simp only [Lit.acTrivial, Bool.not_eq_true', Bool.and_eq_false_iff, Bool.not_eq_false', not_and_or, Bool.not_eq_true, Bool.not_eq_false]

/-- C25: removing AC-resolved literals keeps the meaning in all models of the clauses that were scanned for AC axioms. -/
theorem ac_resolved_equiv {sg : Sig} {Cs : List (List Lit)} (hw : ∀ C ∈ Cs, sg.WTClause C) {I : Interp.{u} sg} (hI : ∀ C ∈ Cs, I.Models C)
    {ad : Nat → Bool → List Nat → Nat → Nat} (had : ∀ k b, Addresses (ad k b)) {C : List Lit} (hC : sg.WTClause C)
    {v : Nat → I.D} (hv : I.Sorted v) : I.ClauseTrue v (clauseRemoveACResolved (scanned Cs) ad C) ↔ I.ClauseTrue v C := by
  have hex := (ac_resolved_exact (scanned_binary hw) had hC).2
  constructor
  · rintro ⟨L, hL, ht⟩
    exact ⟨L, ((hex L).1 hL).1, ht⟩
  · rintro ⟨L, hL, ht⟩
    refine ⟨L, (hex L).2 ⟨hL, ?_⟩, ht⟩
    rintro ⟨hn, hac⟩
    have := (ac_equal_valid hw hI hac).2.2 (hC L hL).1 v hv
    rw [Interp.LitTrue, hn] at ht
    exact ht this

/-- C25: a clause deleted as AC-redundant holds in all models of the clauses scanned. -/
theorem ac_redundant_valid {sg : Sig} {Cs : List (List Lit)} (hw : ∀ C ∈ Cs, sg.WTClause C) {ad : Nat → Bool → List Nat → Nat → Nat}
    (had : ∀ k b, Addresses (ad k b)) {C : List Lit} (hC : sg.WTClause C) (h : isACRedundant (scanned Cs) ad C = true) : Entails.{u} sg Cs C := by
  intro I hI v hv
  have h' : listACTrivial (scanned Cs) ad 0 C = true := by
    unfold isACRedundant at h
    split at h
    · split at h
      · split at h
        · cases h
        · exact h
      · exact h
    · exact h
  have gen : ∀ (C : List Lit), sg.WTClause C → ∀ k, listACTrivial (scanned Cs) ad k C = true → I.ClauseTrue v C := by
    intro C
    induction C with
    | nil => intro _ k h; cases h
    | cons L C ih =>
      intro hC k h
      rw [listACTrivial] at h
      split at h
      · next hL =>
        simp only [Bool.and_eq_true] at hL
        refine ⟨L, by simp, ?_⟩
        rw [Interp.LitTrue, if_pos hL.1]
        exact acTrivial_valid hw hI (had k) (hC L (by simp)) hL.2 hv
      · obtain ⟨M, hM, ht⟩ := ih (fun M hM => hC M (by simp [hM])) _ h
        exact ⟨M, by simp [hM], ht⟩
  exact gen C hC 0 h'

/-- C25: the axioms that justify AC handling are themselves never deleted as AC-redundant. -/
theorem ac_axioms_kept (s : ACSig) (ad : Nat → Bool → List Nat → Nat → Nat) {f : Nat} {C : List Lit} (h : IsCommAx f C ∨ IsAssocAx f C) :
    isACRedundant s ad C = false := by
  rcases h with ⟨x, y, -, rfl⟩ | ⟨x, y, z, -, -, -, rfl | rfl⟩ <;> simp [isACRedundant, sw, weight, weightL, FW, VW]

/-! ## Cases that meet the hypotheses -/

namespace ACEx

/-- `f` (3) is AC, `g` (4) is commutative, `a` (5), `b` (6) and `c` (7) are constants. -/
def s : ACSig := ⟨fun f => f == 3, fun f => f == 3 || f == 4⟩

def sig : Sig := ⟨fun _ => 0, fun f => if f ≤ 2 then 1 else 0, fun f => if f = 3 ∨ f = 4 then [0, 0] else [], fun _ => false⟩

def f (x y : Term) : Term := app 3 [x, y]
def g (x y : Term) : Term := app 4 [x, y]
def a : Term := app 5 []
def b : Term := app 6 []
def c : Term := app 7 []

def ad (p : List Nat) (k : Nat) : Nat := 100 * p.length + 7 * k

theorem ad_ok : Addresses ad := fun p x y h => by simp only [ad] at h; omega

theorem binary : s.Binary sig := by
  intro f hf
  have : f = 3 := by simp [s, ACSig.isAC] at hf; exact hf.1
  subst this
  rfl

/-- Equal modulo AC, with equal arguments collected. -/
example : termACEqual s ad ad (f (g a b) (f c (f c (g b a)))) (f (f c (g a b)) (f (g a b) c)) = true := by decide +kernel

/-- `g` is not associative. -/
example : termACEqual s ad ad (g a (g b c)) (g (g a b) c) = false := by decide +kernel

example : ACEq s (f (g a b) c) (f c (g b a)) ∧ termACEqual s ad ad (f (g a b) c) (f c (g b a)) = true := by
  have h : ACEq s (f (g a b) c) (f c (g b a)) :=
    (ACEq.comm _ _ rfl).trans (.arg 3 [c] [] (.comm _ _ rfl))
  exact ⟨h, (ac_equal_exact binary (sg := sig) (by simp [Sig.wt_app, f, g, a, b, c, sig, Sig.ty]) (by simp [Sig.wt_app, f, g, a, b, c, sig, Sig.ty]) ad_ok ad_ok).2 h⟩

def axioms : List (List Lit) :=
  [[⟨true, f (var 1) (var 2), f (var 2) (var 1)⟩], [⟨true, f (f (var 1) (var 2)) (var 3), f (var 1) (f (var 2) (var 3))⟩]]

example : (scanned axioms).isAC 3 = true ∧ (scanned axioms).isAC 4 = false := by decide +kernel

/-- The literal `f(a,f(b,c)) != f(c,f(b,a))` is removed, `a != b` is not. -/
example : clauseRemoveACResolved (scanned axioms) (fun _ _ => ad) [⟨false, f a (f b c), f c (f b a)⟩, ⟨false, a, b⟩] = [⟨false, a, b⟩] := by
  decide +kernel

/-- Numbers with addition for `f`. -/
def model : Interp.{0} sig where
  D := Nat
  mem ty d := ty = 0 ∨ d = 0 ∨ d = 1
  inhab ty := ⟨0, .inr (.inl rfl)⟩
  fn k ds := match k, ds with
    | 1, _ => 1
    | 2, _ => 0
    | 3, [x, y] => x + y
    | 4, [x, y] => x * y
    | k, _ => k
  fn_mem k ds _ := by
    by_cases h : k ≤ 2
    · refine .inr ?_
      have : k = 0 ∨ k = 1 ∨ k = 2 := by omega
      rcases this with rfl | rfl | rfl
      · exact .inl rfl
      · exact .inr rfl
      · exact .inl rfl
    · exact .inl (if_neg h)
  tf := by simp
  bool2 d h := by simp [sig] at h; exact h.symm
  dist _ _ h := by cases h

theorem axioms_wt : ∀ C ∈ axioms, sig.WTClause C := by
  simp [axioms, Sig.WTClause, Sig.WTLit, Sig.ty, sig, f, Sig.WT, Sig.WTL]

theorem axioms_hold : ∀ C ∈ axioms, model.Models C := by
  simp only [axioms, List.mem_cons, List.not_mem_nil, or_false, forall_eq_or_imp, forall_eq]
  refine ⟨fun v _ => ⟨_, List.mem_singleton.2 rfl, ?_⟩, fun v _ => ⟨_, List.mem_singleton.2 rfl, ?_⟩⟩
  · exact Nat.add_comm _ _
  · exact Nat.add_assoc _ _ _

example := fun v hv => ac_resolved_equiv axioms_wt axioms_hold (ad := fun _ _ => ad) (fun _ _ => ad_ok) (v := v)
  (C := [⟨false, f a (f b c), f c (f b a)⟩, ⟨false, a, b⟩]) (by simp [Sig.WTClause, Sig.WTLit, Sig.wt_app, Sig.ty, sig, f, a, b, c]) hv

/-- A redundant clause. -/
example : isACRedundant (scanned axioms) (fun _ _ => ad) [⟨true, f a (f b (f c a)), f (f a a) (f b c)⟩] = true := by decide +kernel

end ACEx

end Verif.Props
