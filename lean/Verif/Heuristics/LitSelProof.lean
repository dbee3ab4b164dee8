import Verif.Heuristics.LitSel
import Mathlib.Data.List.Forall2
import Mathlib.Tactic.Linarith

/-!
# Literal selection: what selection functions do

Helper lemmas for `Verif.Props.LitSel`.
-/

namespace Verif.LitSel

/-- `L` arises from `K` by orienting it and changing marks and selection. -/
inductive Reach (cmp : Term → Term → Cmp) (K : FLit) : FLit → Prop
  | refl : Reach cmp K K
  | orient {L : FLit} : Reach cmp K L → Reach cmp K (eqnOrient cmp L).2
  | marks {L : FLit} (a b : Bool) : Reach cmp K L → Reach cmp K { L with maximal := a, strictMax := b }
  | sel {L : FLit} (a : Bool) : Reach cmp K L → Reach cmp K { L with selected := a }

/-- The same for all literals of a clause. -/
abbrev Rel (x : SelCtx) (C D : List FLit) : Prop := List.Forall₂ (Reach x.cmp) C D

theorem eqnOrient_lit (cmp : Term → Term → Cmp) (L : FLit) :
    (eqnOrient cmp L).2.lit = L.lit ∨ (eqnOrient cmp L).2.lit = ⟨L.lit.pos, L.lit.r, L.lit.l⟩ := by
  unfold eqnOrient
  split
  · exact .inl rfl
  · cases orientRel cmp L.lit.l L.lit.r <;> simp [FLit.swapSides]

theorem eqnOrient_selected (cmp : Term → Term → Cmp) (L : FLit) : (eqnOrient cmp L).2.selected = L.selected := by
  unfold eqnOrient
  split
  · rfl
  · cases orientRel cmp L.lit.l L.lit.r <;> simp [FLit.swapSides]

theorem eqnOrient_pseudo (cmp : Term → Term → Cmp) (L : FLit) : (eqnOrient cmp L).2.pseudo = L.pseudo := by
  unfold eqnOrient
  split
  · rfl
  · cases orientRel cmp L.lit.l L.lit.r <;> simp [FLit.swapSides]

theorem Reach.lit {cmp : Term → Term → Cmp} {K L : FLit} (h : Reach cmp K L) :
    L.lit = K.lit ∨ L.lit = ⟨K.lit.pos, K.lit.r, K.lit.l⟩ := by
  induction h with
  | refl => exact .inl rfl
  | @orient L _ ih =>
    rcases eqnOrient_lit cmp L with e | e <;> rcases ih with e' | e' <;> rw [e, e'] <;> simp
  | marks _ _ _ ih => exact ih
  | sel _ _ ih => exact ih

theorem Reach.pos {cmp : Term → Term → Cmp} {K L : FLit} (h : Reach cmp K L) : L.lit.pos = K.lit.pos := by
  rcases h.lit with e | e <;> rw [e]

theorem Reach.neg {cmp : Term → Term → Cmp} {K L : FLit} (h : Reach cmp K L) : neg L = neg K := by
  unfold LitSel.neg; rw [h.pos]

theorem Reach.pseudo {cmp : Term → Term → Cmp} {K L : FLit} (h : Reach cmp K L) : L.pseudo = K.pseudo := by
  induction h with
  | refl => rfl
  | @orient L _ ih => rw [eqnOrient_pseudo, ih]
  | marks _ _ _ ih => exact ih
  | sel _ _ ih => exact ih

/-! ## Marking -/

theorem markMax_length (cmp : Term → Term → Cmp) (lc : FLit → FLit → Cmp) (C : List FLit) : (markMaximalTerms cmp lc C).length = C.length := by
  simp [markMaximalTerms, maximalLiterals]

theorem markMax_getElem? (cmp : Term → Term → Cmp) (lc : FLit → FLit → Cmp) (C : List FLit) (i : Nat) :
    ∃ a b, (markMaximalTerms cmp lc C)[i]? = C[i]?.map fun L => { (eqnOrient cmp L).2 with maximal := a, strictMax := b } := by
  simp only [markMaximalTerms, maximalLiterals, List.getElem?_mapIdx, List.getElem?_map, Option.map_map]
  exact ⟨_, _, rfl⟩

theorem markMax_sel {cmp : Term → Term → Cmp} {lc : FLit → FLit → Cmp} {C : List FLit} (h : ∀ L ∈ C, L.selected = false) :
    ∀ L ∈ markMaximalTerms cmp lc C, L.selected = false := by
  intro L hL
  obtain ⟨i, hi⟩ := List.getElem?_of_mem hL
  obtain ⟨a, b, e⟩ := markMax_getElem? cmp lc C i
  rw [e, Option.map_eq_some_iff] at hi
  obtain ⟨K, hK, rfl⟩ := hi
  have := h K (List.mem_of_getElem? hK)
  simpa [eqnOrient_selected] using this

/-- From the positions to `Forall₂`. -/
theorem forall2_of_getElem? {α β : Type} {R : α → β → Prop} : ∀ {l : List α} {m : List β}, m.length = l.length →
    (∀ (i : Nat) (a : α) (b : β), l[i]? = some a → m[i]? = some b → R a b) → List.Forall₂ R l m
  | [], [], _, _ => .nil
  | a :: l, b :: m, hl, h => .cons (h 0 a b rfl rfl) (forall2_of_getElem? (by simpa using hl) fun i c d hc hd => h (i + 1) c d hc hd)
  | [], _ :: _, hl, _ => by simp at hl
  | _ :: _, [], hl, _ => by simp at hl

theorem Rel.get {x : SelCtx} {C D : List FLit} (h : Rel x C D) {i : Nat} {K L : FLit} (hK : C[i]? = some K) (hL : D[i]? = some L) :
    Reach x.cmp K L := by
  obtain ⟨hi, rfl⟩ := List.getElem?_eq_some_iff.1 hK
  obtain ⟨hj, rfl⟩ := List.getElem?_eq_some_iff.1 hL
  exact List.Forall₂.get h hi hj

theorem Rel.map {x : SelCtx} {C D : List FLit} (h : Rel x C D) (g : FLit → FLit)
    (hg' : ∀ K L, Reach x.cmp K L → Reach x.cmp K (g L)) : Rel x C (D.map g) := by
  show List.Forall₂ _ _ _
  rw [List.forall₂_map_right_iff]
  exact List.Forall₂.imp (fun K L => hg' K L) h

theorem Rel.refl (x : SelCtx) (C : List FLit) : Rel x C C := List.forall₂_same.2 fun _ _ => .refl

theorem Rel.mark {x : SelCtx} {C D : List FLit} (h : Rel x C D) : Rel x C (markMaximalTerms x.cmp x.lc D) := by
  refine forall2_of_getElem? ((markMax_length ..).trans h.length_eq.symm) fun i K L hK hL => ?_
  obtain ⟨a, b, e⟩ := markMax_getElem? x.cmp x.lc D i
  rw [e, Option.map_eq_some_iff] at hL
  obtain ⟨M, hM, rfl⟩ := hL
  exact .marks a b (.orient (h.get hK hM))

theorem Rel.any_neg {x : SelCtx} {C D : List FLit} (h : Rel x C D) : D.any neg = C.any neg := by
  induction h with
  | nil => rfl
  | cons h _ ih => simp only [List.any_cons, ih, h.neg]

/-! ## Weights -/

theorem weight_mono {v f v' f' : Nat} (hv : v ≤ v') (hf : f ≤ f') (t : Term) : t.weight v f ≤ t.weight v' f' := by
  induction t using Term.ind with
  | hv x => simpa [Term.weight] using hv
  | ha g ts ih =>
    simp only [Term.weight]
    have : Term.weightL v f ts ≤ Term.weightL v' f' ts := by
      clear hv
      induction ts with
      | nil => simp [Term.weightL]
      | cons t ts ih' =>
        simp only [Term.weightL]
        have h1 := ih t (List.mem_cons_self ..)
        have h2 := ih' fun s hs => ih s (List.mem_cons_of_mem _ hs)
        omega
    omega

theorem weight_pos (t : Term) : 1 ≤ t.weight 1 2 := by
  cases t <;> simp only [Term.weight] <;> omega

/-- All weights of the literal that are compared with `LONG_MAX` are smaller. -/
def SmallLit (L : FLit) : Prop := (L.lit.l.weight 2 2 : Int) + (L.lit.r.weight 2 2 : Int) < longMax

theorem Reach.small {cmp : Term → Term → Cmp} {K L : FLit} (h : Reach cmp K L) (hs : SmallLit K) : SmallLit L := by
  unfold SmallLit at *
  rcases h.lit with e | e <;> rw [e]
  · exact hs
  · show (K.lit.r.weight 2 2 : Int) + (K.lit.l.weight 2 2 : Int) < longMax
    rw [Int.add_comm]; exact hs

theorem SmallLit.std {L : FLit} (h : SmallLit L) : stdWt L < longMax := by
  unfold SmallLit at h; unfold stdWt
  have := weight_mono (v := 1) (v' := 2) (f := 2) (f' := 2) (by omega) (by omega) L.lit.l
  have := weight_mono (v := 1) (v' := 2) (f := 2) (f' := 2) (by omega) (by omega) L.lit.r
  omega

theorem SmallLit.inf {L : FLit} (h : SmallLit L) {v f : Nat} (hv : v ≤ 2) (hf : f ≤ 2) : infWt v f L < longMax := by
  unfold SmallLit at h; unfold infWt
  have := weight_mono hv hf L.lit.l
  have := weight_mono hv hf L.lit.r
  split <;> omega

theorem stdWt_pos (L : FLit) : 0 < stdWt L := by
  unfold stdWt
  have := weight_pos L.lit.l
  have := weight_pos L.lit.r
  omega

theorem diffWt_pos (L : FLit) : -1 < diffWt L := by
  have := stdWt_pos L
  unfold diffWt stdDiff
  omega

/-! ## Searching -/

theorem scan_spec {p : FLit → Bool} {better : Int → Int → Bool} {w : FLit → Int} {ls : List FLit} {n : Nat} {sw : Int} {s : Option Nat} {k : Nat}
    (h : scan p better w ls n sw s = some k) : s = some k ∨ ∃ j L, ls[j]? = some L ∧ k = n + j ∧ p L = true := by
  induction ls generalizing n sw s with
  | nil => exact .inl h
  | cons L ls ih =>
    rw [scan] at h
    split at h
    · rename_i hp
      rw [Bool.and_eq_true] at hp
      rcases ih h with e | ⟨j, M, hj, hk, hM⟩
      · exact .inr ⟨0, L, rfl, by simpa using e.symm, hp.1⟩
      · exact .inr ⟨j + 1, M, hj, by omega, hM⟩
    · rcases ih h with e | ⟨j, M, hj, hk, hM⟩
      · exact .inl e
      · exact .inr ⟨j + 1, M, hj, by omega, hM⟩

theorem scan_some {p : FLit → Bool} {better : Int → Int → Bool} {w : FLit → Int} {ls : List FLit} {n : Nat} {sw : Int} {s : Option Nat}
    (h : s ≠ none ∨ ∃ L ∈ ls, p L = true ∧ better (w L) sw = true) : scan p better w ls n sw s ≠ none := by
  induction ls generalizing n sw s with
  | nil => simpa [scan] using h
  | cons L ls ih =>
    rw [scan]
    split
    · exact ih (.inl (by simp))
    · rename_i hp
      rcases h with h | ⟨M, hM, h1, h2⟩
      · exact ih (.inl h)
      · rcases List.mem_cons.1 hM with rfl | hM
        · simp [h1, h2] at hp
        · exact ih (.inr ⟨M, hM, h1, h2⟩)

/-- The literal found exists and has the property. -/
def Finds (p : FLit → Bool) (C : SCl) (o : Option Nat) : Prop := ∀ i, o = some i → ∃ L, C.lits[i]? = some L ∧ p L = true

theorem findMax_finds (p : FLit → Bool) (w : FLit → Int) (st : Int) (C : SCl) : Finds p C (findMax p w st C) := by
  intro i h
  rcases scan_spec h with e | ⟨j, L, hj, hk, hL⟩
  · cases e
  · exact ⟨L, by rw [hk, Nat.zero_add]; exact hj, hL⟩

theorem findMin_finds (p : FLit → Bool) (w : FLit → Int) (C : SCl) : Finds p C (findMin p w C) := by
  intro i h
  rcases scan_spec h with e | ⟨j, L, hj, hk, hL⟩
  · cases e
  · exact ⟨L, by rw [hk, Nat.zero_add]; exact hj, hL⟩

theorem findFirst_finds (p : FLit → Bool) (C : SCl) : Finds p C (findFirst p C) := by
  intro i h
  rw [findFirst, List.findIdx?_eq_some_iff_getElem] at h
  obtain ⟨hi, hp, _⟩ := h
  exact ⟨_, List.getElem?_eq_getElem hi, hp⟩

theorem Finds.mono {p q : FLit → Bool} {C : SCl} {o : Option Nat} (h : Finds p C o) (hpq : ∀ L, p L = true → q L = true) : Finds q C o :=
  fun i hi => let ⟨L, h1, h2⟩ := h i hi; ⟨L, h1, hpq L h2⟩

/-- The first, or else the second. -/
abbrev firstOf (o o' : Option Nat) : Option Nat := match o with | some i => some i | none => o'

theorem Finds.or {p : FLit → Bool} {C : SCl} {o o' : Option Nat} (h : Finds p C o) (h' : Finds p C o') :
    Finds p C (firstOf o o') := by
  cases o with
  | none => exact h'
  | some i => exact h

theorem findMax_some {p : FLit → Bool} {w : FLit → Int} {st : Int} {C : SCl} {L : FLit} (hL : L ∈ C.lits) (hp : p L = true) (hw : st < w L) :
    ∃ i, findMax p w st C = some i :=
  Option.ne_none_iff_exists'.1 (scan_some (.inr ⟨L, hL, hp, by simpa using hw⟩))

theorem findMin_some {p : FLit → Bool} {w : FLit → Int} {C : SCl} {L : FLit} (hL : L ∈ C.lits) (hp : p L = true) (hw : w L < longMax) :
    ∃ i, findMin p w C = some i :=
  Option.ne_none_iff_exists'.1 (scan_some (.inr ⟨L, hL, hp, by simpa using hw⟩))

theorem pureVar_finds (C : SCl) : Finds neg C (findPureVar C) :=
  (findFirst_finds _ C).mono fun L h => by simp only [Bool.and_eq_true] at h; exact h.1

theorem lcomplex_finds (mx : Bool → Bool) (C : SCl) : Finds neg C (findLComplex mx C) := by
  have h1 : Finds neg C (findFirst (fun L => neg L && mx L.maximal && isPureVar L) C) :=
    (findFirst_finds _ C).mono fun L h => by simp only [Bool.and_eq_true] at h; exact h.1.1
  have h2 : Finds neg C (findMax (fun L => neg L && mx L.maximal && isGround L) diffWt (-1) C) :=
    (findMax_finds _ _ _ C).mono fun L h => by simp only [Bool.and_eq_true] at h; exact h.1.1
  have h3 : Finds neg C (findMax (fun L => neg L && mx L.maximal) diffWt (-1) C) :=
    (findMax_finds _ _ _ C).mono fun L h => by simp only [Bool.and_eq_true] at h; exact h.1
  have := h1.or (h2.or h3)
  unfold findLComplex
  exact this

theorem lcomplex_some {mx : Bool → Bool} {C : SCl} {L : FLit} (hL : L ∈ C.lits) (hn : neg L = true) (hm : mx L.maximal = true) :
    ∃ i, findLComplex mx C = some i := by
  unfold findLComplex
  cases findFirst (fun L => neg L && mx L.maximal && isPureVar L) C with
  | some i => exact ⟨i, rfl⟩
  | none =>
    cases findMax (fun L => neg L && mx L.maximal && isGround L) diffWt (-1) C with
    | some i => exact ⟨i, rfl⟩
    | none => exact findMax_some hL (by simp [hn, hm]) (diffWt_pos L)

theorem smallestGround_finds (C : SCl) : Finds neg C (findSmallestGround C) :=
  (findMin_finds _ _ C).mono fun L h => by simp only [Bool.and_eq_true] at h; exact h.1

theorem smallestMaxGround_finds (C : SCl) : Finds neg C (findSmallestMaxGround C) :=
  (findMin_finds _ _ C).mono fun L h => by simp only [Bool.and_eq_true] at h; exact h.1

theorem ngMin11_finds (x : SelCtx) (C : SCl) : Finds neg C (findNgMin11 x C) :=
  (findMin_finds _ _ C).mono fun L h => by simp only [Bool.and_eq_true] at h; exact h.1.1

theorem maxXType_finds (x : SelCtx) (C : SCl) : Finds neg C (findMaxXType x C) :=
  (findMax_finds _ _ _ C).mono fun L h => by simp only [Bool.and_eq_true] at h; exact h.1.1

theorem scanOri_spec {better : Int → Int → Bool} {ls : List FLit} {n : Nat} {sw : Int} {o : Bool} {s : Option Nat} {k : Nat}
    (h : scanOri better ls n sw o s = some k) : s = some k ∨ ∃ j L, ls[j]? = some L ∧ k = n + j ∧ neg L = true := by
  induction ls generalizing n sw o s with
  | nil => exact .inl h
  | cons L ls ih =>
    rw [scanOri] at h
    split at h
    · rename_i hp
      rw [Bool.and_eq_true] at hp
      rcases ih h with e | ⟨j, M, hj, hk, hM⟩
      · exact .inr ⟨0, L, rfl, by simpa using e.symm, hp.1⟩
      · exact .inr ⟨j + 1, M, hj, by omega, hM⟩
    · rcases ih h with e | ⟨j, M, hj, hk, hM⟩
      · exact .inl e
      · exact .inr ⟨j + 1, M, hj, by omega, hM⟩

theorem scanOri_some {better : Int → Int → Bool} {ls : List FLit} {n : Nat} {sw : Int} {o : Bool} {s : Option Nat}
    (h : s ≠ none ∨ (o = false ∧ ∃ L ∈ ls, neg L = true ∧ better (stdWt L) sw = true)) : scanOri better ls n sw o s ≠ none := by
  induction ls generalizing n sw o s with
  | nil => simpa [scanOri] using h
  | cons L ls ih =>
    rw [scanOri]
    split
    · exact ih (.inl (by simp))
    · rename_i hp
      rcases h with h | ⟨rfl, M, hM, h1, h2⟩
      · exact ih (.inl h)
      · rcases List.mem_cons.1 hM with rfl | hM
        · cases ho : M.oriented <;> simp [h1, h2, ho] at hp
        · exact ih (.inr ⟨rfl, M, hM, h1, h2⟩)

theorem scanOri_finds (better : Int → Int → Bool) (sw : Int) (C : SCl) : Finds neg C (scanOri better C.lits 0 sw false none) := by
  intro i h
  rcases scanOri_spec h with e | ⟨j, L, hj, hk, hL⟩
  · cases e
  · exact ⟨L, by rw [hk, Nat.zero_add]; exact hj, hL⟩

theorem scanPrefer_spec {eq : FLit → Bool} {ls : List FLit} {n : Nat} {q v g : Bool} {w : Int} {s : Option Nat} {k : Nat}
    (h : scanPrefer eq ls n q v g w s = some k) : s = some k ∨ ∃ j L, ls[j]? = some L ∧ k = n + j ∧ neg L = true := by
  induction ls generalizing n q v g w s with
  | nil => exact .inl h
  | cons L ls ih =>
    rw [scanPrefer] at h
    split at h
    · rename_i hp
      split at h
      · exact .inl h
      split at h
      · exact .inl h
      split at h
      · exact .inl h
      split at h
      · exact .inl h
      rcases ih h with e | ⟨j, M, hj, hk, hM⟩
      · exact .inr ⟨0, L, rfl, by simpa using e.symm, hp⟩
      · exact .inr ⟨j + 1, M, hj, by omega, hM⟩
    · rcases ih h with e | ⟨j, M, hj, hk, hM⟩
      · exact .inl e
      · exact .inr ⟨j + 1, M, hj, by omega, hM⟩

theorem scanPrefer_finds (eq : FLit → Bool) (C : SCl) : Finds neg C (scanPrefer eq C.lits 0 false false false (-1) none) := by
  intro i h
  rcases scanPrefer_spec h with e | ⟨j, L, hj, hk, hL⟩
  · cases e
  · exact ⟨L, by rw [hk, Nat.zero_add]; exact hj, hL⟩

/-! ## States -/

/-- One negative literal is selected, besides it at most positive literals, and these only with `b`. -/
def OneSel (b : Bool) (C : List FLit) : Prop :=
  ∃ i L, C[i]? = some L ∧ L.lit.pos = false ∧ L.selected = true ∧
    ∀ (j : Nat) K, C[j]? = some K → K.selected = true → j = i ∨ (b = true ∧ K.lit.pos = true)

/-- The literals were marked with the present selection. -/
def Marked (x : SelCtx) (C0 M : List FLit) : Prop := ∃ E, Rel x C0 E ∧ M = markMaximalTerms x.cmp x.lc E

/-- Nothing is selected, and CPIsOriented is right. -/
structure Inv0 (x : SelCtx) (C0 : List FLit) (C : SCl) : Prop where
  rel : Rel x C0 C.lits
  none : ∀ L ∈ C.lits, L.selected = false
  ori : C.oriented = true → Marked x C0 C.lits

theorem Inv0.condMark {x : SelCtx} {C0 : List FLit} {C : SCl} (h : Inv0 x C0 C) : Inv0 x C0 (condMark x C) := by
  unfold LitSel.condMark
  split
  · exact h
  · exact ⟨h.rel.mark, markMax_sel h.none, fun _ => ⟨_, h.rel, rfl⟩⟩

theorem Inv0.delOri {x : SelCtx} {C0 : List FLit} {C : SCl} (h : Inv0 x C0 C) : Inv0 x C0 (delOri C) :=
  ⟨h.rel, h.none, fun e => by cases e⟩

theorem delSel_of_none {C : SCl} (h : ∀ L ∈ C.lits, L.selected = false) : delSel C = C := by
  unfold delSel
  have : (C.lits.map fun L => { L with selected := false }) = C.lits := by
    conv_rhs => rw [← List.map_id C.lits]
    refine List.map_congr_left fun L hL => ?_
    have := h L hL
    cases L
    simp_all
  rw [this]

theorem delSel_selectPos {C : SCl} (h : ∀ L ∈ C.lits, L.selected = false) : delSel (selectPos C) = C := by
  conv_rhs => rw [← delSel_of_none h]
  unfold delSel selectPos
  simp only [List.map_map]
  congr 1
  refine List.map_congr_left fun L _ => ?_
  simp only [Function.comp]
  split <;> rfl

theorem setSel_get (i : Nat) (C : SCl) (j : Nat) :
    (setSel i C).lits[j]? = C.lits[j]?.map fun L => if i = j then { L with selected := true } else L := by
  simp only [setSel, List.getElem?_modify]
  rfl

theorem rel_setSel {x : SelCtx} {C0 : List FLit} {C : SCl} (h : Rel x C0 C.lits) (i : Nat) : Rel x C0 (setSel i C).lits := by
  refine forall2_of_getElem? (by simp [setSel, h.length_eq]) fun j K L hK hL => ?_
  rw [setSel_get, Option.map_eq_some_iff] at hL
  obtain ⟨M, hM, rfl⟩ := hL
  have := h.get hK hM
  split
  · exact .sel true this
  · exact this

theorem rel_selectPos {x : SelCtx} {C0 : List FLit} {C : SCl} (h : Rel x C0 C.lits) : Rel x C0 (selectPos C).lits :=
  h.map _ fun K L hr => by
    split
    · exact .sel true hr
    · exact hr

theorem one_setSel {C : SCl} (h : ∀ L ∈ C.lits, L.selected = false) {i : Nat} {L : FLit} (hi : C.lits[i]? = some L) (hn : neg L = true)
    (b : Bool) : OneSel b (setSel i C).lits := by
  refine ⟨i, { L with selected := true }, by simp [setSel, hi], by simpa [neg] using hn, rfl, fun j K hK hs => ?_⟩
  rw [setSel_get, Option.map_eq_some_iff] at hK
  obtain ⟨M, hM, rfl⟩ := hK
  by_cases hij : i = j
  · exact .inl hij.symm
  · rw [if_neg hij] at hs
    rw [show M.selected = false from h M (List.mem_of_getElem? hM)] at hs
    cases hs

theorem one_selectPos {C : SCl} {b : Bool} (h : OneSel b C.lits) : OneSel true (selectPos C).lits := by
  obtain ⟨i, L, hi, hn, hs, hu⟩ := h
  refine ⟨i, L, by simp [selectPos, hi, hn], hn, hs, fun j K hK hsK => ?_⟩
  simp only [selectPos, List.getElem?_map, Option.map_eq_some_iff] at hK
  obtain ⟨M, hM, rfl⟩ := hK
  by_cases hp : M.lit.pos = true
  · right; rw [if_pos hp]; exact ⟨rfl, hp⟩
  · rw [if_neg hp] at hsK ⊢
    rcases hu j M hM hsK with e | e
    · exact .inl e
    · exact absurd e.2 hp

theorem setSel_selectPos_comm {C : SCl} {i : Nat} : setSel i (selectPos C) = selectPos (setSel i C) := by
  unfold setSel selectPos
  congr 1
  refine List.ext_getElem? fun j => ?_
  simp only [List.getElem?_modify, List.getElem?_map]
  cases C.lits[j]? with
  | none => rfl
  | some L =>
    simp only [Option.map_some]
    by_cases h : i = j <;> by_cases h' : L.lit.pos = true <;> simp [h, h']

theorem one_selMay {C : SCl} (h : ∀ L ∈ C.lits, L.selected = false) {i : Nat} {L : FLit} (hi : C.lits[i]? = some L) (hn : neg L = true)
    (p : Bool) : OneSel p (setSel i (if p then selectPos C else C)).lits := by
  cases p with
  | false => exact one_setSel h hi hn false
  | true =>
    simp only [if_true, setSel_selectPos_comm]
    exact one_selectPos (one_setSel h hi hn false)

theorem rel_selMay {x : SelCtx} {C0 : List FLit} {C : SCl} (h : Rel x C0 C.lits) (i : Nat) (p : Bool) :
    Rel x C0 (setSel i (if p then selectPos C else C)).lits := by
  cases p with
  | false => exact rel_setSel h i
  | true => exact rel_setSel (rel_selectPos h) i

/-- The state after a selection function. -/
structure Out (b : Bool) (x : SelCtx) (C0 : List FLit) (D : SCl) (o : Bool) : Prop where
  rel : Rel x C0 D.lits
  res : Inv0 x C0 D ∨ (OneSel b D.lits ∧ D.oriented = o)

/-- A selection function that does not change CPIsOriented when it selects. -/
def Base (b : Bool) (f : SelFun) : Prop :=
  ∀ x C0 C, C0.any neg = true → (∀ L ∈ C0, SmallLit L) → Inv0 x C0 C → ∃ D, f x C = some D ∧ Out b x C0 D C.oriented

/-- A selection function that deletes CPIsOriented when it selects. -/
def Full (b : Bool) (f : SelFun) : Prop :=
  ∀ x C0 C, C0.any neg = true → (∀ L ∈ C0, SmallLit L) → Inv0 x C0 C → ∃ D, f x C = some D ∧ Out b x C0 D false

theorem OneSel.mono {b b' : Bool} (h : b = true → b' = true) {C : List FLit} (hC : OneSel b C) : OneSel b' C :=
  let ⟨i, L, h1, h2, h3, h4⟩ := hC
  ⟨i, L, h1, h2, h3, fun j K hK hs => (h4 j K hK hs).imp id fun e => ⟨h e.1, e.2⟩⟩

theorem Base.mono {b b' : Bool} {f : SelFun} (h : b = true → b' = true) (hf : Base b f) : Base b' f := fun x C0 C hn hs hi =>
  let ⟨D, e, o⟩ := hf x C0 C hn hs hi
  ⟨D, e, o.rel, o.res.imp id fun r => ⟨r.1.mono h, r.2⟩⟩

theorem Full.mono {b b' : Bool} {f : SelFun} (h : b = true → b' = true) (hf : Full b f) : Full b' f := fun x C0 C hn hs hi =>
  let ⟨D, e, o⟩ := hf x C0 C hn hs hi
  ⟨D, e, o.rel, o.res.imp id fun r => ⟨r.1.mono h, r.2⟩⟩

theorem Out.stay {b : Bool} {x : SelCtx} {C0 : List FLit} {D : SCl} {o : Bool} (h : Inv0 x C0 D) : Out b x C0 D o := ⟨h.rel, .inl h⟩

theorem Out.delOri {b : Bool} {x : SelCtx} {C0 : List FLit} {D : SCl} {o : Bool} (h : Out b x C0 D o) : Out b x C0 (delOri D) false :=
  ⟨h.rel, h.res.imp (fun r => r.delOri) fun r => ⟨r.1, rfl⟩⟩

/-- A literal found is selected. -/
theorem Out.may {b : Bool} {x : SelCtx} {C0 : List FLit} {C : SCl} (h : Inv0 x C0 C) {o : Option Nat} (ho : Finds neg C o) {p : Bool}
    (hp : p = true → b = true) : Out b x C0 (selMay p o C) C.oriented := by
  cases o with
  | none => exact .stay h
  | some i =>
    obtain ⟨L, hi, hL⟩ := ho i rfl
    refine ⟨rel_selMay h.rel i p, .inr ⟨(one_selMay h.none hi hL p).mono hp, ?_⟩⟩
    cases p <;> rfl

theorem Out.setSel {b : Bool} {x : SelCtx} {C0 : List FLit} {C : SCl} (h : Inv0 x C0 C) {i : Nat} {o : Option Nat} (ho : Finds neg C o)
    (hi : o = some i) : Out b x C0 (setSel i C) C.oriented := by
  subst hi
  exact Out.may (p := false) h ho (by simp)

theorem selMust_some {p : Bool} {o : Option Nat} {C : SCl} {i : Nat} (h : o = some i) : selMust p o C = some (selMay p o C) := by
  subst h; rfl

theorem exists_neg {x : SelCtx} {C0 : List FLit} {C : SCl} (hn : C0.any neg = true) (hs : ∀ L ∈ C0, SmallLit L) (h : Rel x C0 C.lits) :
    ∃ L ∈ C.lits, neg L = true ∧ SmallLit L := by
  obtain ⟨K, hK, hKn⟩ := List.any_eq_true.1 hn
  obtain ⟨i, hi⟩ := List.getElem?_of_mem hK
  have hlt : i < C.lits.length := by
    rw [← h.length_eq]; exact (List.getElem?_eq_some_iff.1 hi).1
  have hr := h.get hi (List.getElem?_eq_getElem hlt)
  exact ⟨_, List.getElem_mem hlt, by rw [hr.neg]; exact hKn, hr.small (hs K hK)⟩

/-! ## The selection functions -/

theorem base_none (b : Bool) : Base b selectNone := fun _ _ C _ _ h => ⟨C, rfl, .stay h⟩

theorem base_firstVar (b : Bool) : Base b selectFirstVar := fun _ _ C _ _ h =>
  ⟨_, rfl, by
    have := Out.may (b := b) (p := false) h (pureVar_finds C) (by simp)
    unfold selMay at this
    unfold selIf
    exact this⟩

theorem base_must {b p : Bool} {g : SCl → Option Nat} (hf : ∀ C, Finds neg C (g C))
    (hs : ∀ C : SCl, (∃ L ∈ C.lits, neg L = true ∧ SmallLit L) → ∃ i, g C = some i) (hp : p = true → b = true) :
    Base b fun _ C => selMust p (g C) C := fun _ _ C hn hsm h => by
  obtain ⟨i, hi⟩ := hs C (exists_neg hn hsm h.rel)
  exact ⟨_, selMust_some hi, .may h (hf C) hp⟩

theorem base_largest (p : Bool) : Base p (selectLargest p) :=
  base_must (fun C => findMax_finds _ _ _ C) (fun _ ⟨L, h1, h2, _⟩ => findMax_some h1 h2 (stdWt_pos L)) id

theorem base_smallest (p : Bool) : Base p (selectSmallest p) :=
  base_must (fun C => findMin_finds _ _ C) (fun _ ⟨_, h1, h2, h3⟩ => findMin_some h1 h2 h3.std) id

theorem base_diff (p : Bool) : Base p (selectDiffP p) := by
  have hf : ∀ C, Finds neg C (findMax neg diffWt (-1) C) := fun C => findMax_finds _ _ _ C
  have hs : ∀ C : SCl, (∃ L ∈ C.lits, neg L = true ∧ SmallLit L) → ∃ i, findMax neg diffWt (-1) C = some i :=
    fun _ ⟨L, h1, h2, _⟩ => findMax_some h1 h2 (diffWt_pos L)
  cases p with
  | true => exact base_must (p := true) hf hs id
  | false =>
    intro x C0 C hn hsm h
    obtain ⟨i, hi⟩ := hs C (exists_neg hn hsm h.rel)
    refine ⟨setSel i C, ?_, .setSel h (hf C) hi⟩
    show some (selIf _ _) = _
    rw [hi]; rfl

theorem full_must {b p : Bool} {g : SCl → Option Nat} (hf : ∀ C, Finds neg C (g C))
    (hs : ∀ C : SCl, (∃ L ∈ C.lits, neg L = true ∧ SmallLit L) → ∃ i, g C = some i) (hp : p = true → b = true) :
    Full b fun x C => (selMust p (g (condMark x C)) (condMark x C)).map delOri := fun x _ C hn hsm h => by
  obtain ⟨i, hi⟩ := hs (condMark x C) (exists_neg hn hsm h.condMark.rel)
  refine ⟨delOri (selMay p (g (condMark x C)) (condMark x C)), ?_, (Out.may h.condMark (hf _) hp).delOri⟩
  simp only [selMust_some hi]; rfl

theorem full_largestOri {b p : Bool} (hp : p = true → b = true) : Full b (selectLargestOri p) :=
  full_must (fun C => scanOri_finds _ _ C)
    (fun _ ⟨L, h1, h2, _⟩ => Option.ne_none_iff_exists'.1 (scanOri_some (.inr ⟨rfl, L, h1, h2, by simpa using stdWt_pos L⟩))) hp

theorem full_smallestOri {b p : Bool} (hp : p = true → b = true) : Full b (selectSmallestOri p) :=
  full_must (fun C => scanOri_finds _ _ C)
    (fun _ ⟨L, h1, h2, h3⟩ => Option.ne_none_iff_exists'.1 (scanOri_some (.inr ⟨rfl, L, h1, h2, by simpa using h3.std⟩))) hp

theorem full_mLargestOri : Full true mSelectLargestOri := fun x C0 C hn hs h => full_largestOri (p := isHorn C) (by simp) x C0 C hn hs h

theorem full_mSmallestOri : Full true mSelectSmallestOri := fun x C0 C hn hs h => full_smallestOri (p := isHorn C) (by simp) x C0 C hn hs h

theorem full_minInfpos (p : Bool) {v f : Nat} (hv : v ≤ 2) (hf : f ≤ 2) : Full p (selectMinInfpos p v f) :=
  full_must (fun C => findMin_finds _ _ C) (fun _ ⟨_, h1, h2, h3⟩ => findMin_some h1 h2 (h3.inf hv hf)) id

theorem ground_finds (C : SCl) : Finds neg C (findMax (fun L => neg L && isGround L) diffWt (-1) C) :=
  (findMax_finds _ _ _ C).mono fun L h => by simp only [Bool.and_eq_true] at h; exact h.1

theorem base_ground (b : Bool) : Base b selectGround := fun _ _ C _ _ h =>
  ⟨_, rfl, by
    have := Out.may (b := b) (p := false) h (ground_finds C) (by simp)
    unfold selMay at this
    unfold selIf
    exact this⟩

theorem base_pGround : Base true pSelectGround := fun _ _ C _ _ h => by
  refine ⟨_, rfl, ?_⟩
  cases hg : findMax (fun L => neg L && isGround L) diffWt (-1) C with
  | some i =>
    have := Out.may (b := true) (p := true) h (ground_finds C) (by simp)
    rw [hg] at this
    exact this
  | none => simp only [delSel_selectPos h.none]; exact .stay h

/-- Select a literal found by `g`, or call another function. -/
theorem base_or {b : Bool} {g : SCl → Option Nat} {f : SelFun} (hg : ∀ C, Finds neg C (g C)) (hf : Base b f) :
    Base b fun x C => match g C with | some i => some (setSel i C) | none => f x C := fun x C0 C hn hs h => by
  cases hi : g C with
  | some i => exact ⟨_, by simp only [hi], .setSel h (hg C) hi⟩
  | none => simp only [hi]; exact hf x C0 C hn hs h

theorem base_optimal (p : Bool) : Base p (selectOptimal p) := base_or ground_finds (base_diff p)

theorem base_minOptimal (p : Bool) : Base p (selectMinOptimal p) := base_or smallestGround_finds (base_smallest p)

theorem base_complex (p : Bool) : Base p (selectComplex p) :=
  base_or (fun C => (pureVar_finds C).or (smallestGround_finds C)) (base_diff p)

theorem base_lcomplex (p : Bool) : Base p (selectLComplex p) :=
  base_or (fun C => (pureVar_finds C).or (ground_finds C)) (base_diff p)

/-- Select a literal found by `g`, if any, and delete CPIsOriented. -/
theorem full_may {b p : Bool} {g : SelCtx → SCl → Option Nat} (hg : ∀ x C, Finds neg C (g x C)) (hp : p = true → b = true) {x : SelCtx}
    {C0 : List FLit} {C : SCl} (h : Inv0 x C0 C) :
    ∃ D, (match g x C with | some i => some (delOri (selMay p (some i) C)) | none => some C) = some D ∧ Out b x C0 D false := by
  cases hi : g x C with
  | none => exact ⟨C, rfl, .stay h⟩
  | some i =>
    refine ⟨_, rfl, ?_⟩
    have := Out.may (p := p) h (hg x C) hp
    rw [hi] at this
    exact this.delOri

theorem full_minOptimalNo (p : Bool) (t : SelCtx → FLit → Bool) : Full p (selectMinOptimalNo p t) := fun x _ C _ _ h =>
  full_may (g := fun x (C : SCl) => match findSmallestGround C with | some i => some i | none => findMin (fun L => neg L && !t x L) stdWt C)
    (fun x C => (smallestGround_finds C).or
      ((findMin_finds (fun L => neg L && !t x L) _ C).mono fun L h => by simp only [Bool.and_eq_true] at h; exact h.1)) id h

theorem full_newComplex (p : Bool) : Full p (selectNewComplex p) := fun _ _ _ _ _ h =>
  full_may (g := fun x C => match findSmallestMaxGround C with
    | some i => some i
    | none => match findNgMin11 x C with | some i => some i | none => findMaxXType x C)
    (fun x C => (smallestMaxGround_finds C).or ((ngMin11_finds x C).or (maxXType_finds x C))) id h.condMark

theorem full_minInfposNo (p : Bool) : Full p (selectMinInfposNo p) := fun x _ C _ _ h =>
  full_may (g := fun x C => findMin (fun L => neg L && !x.typePred L) (infWt 1 2) C)
    (fun x C => (findMin_finds _ _ C).mono fun L h => by simp only [Bool.and_eq_true] at h; exact h.1) id h.condMark

theorem full_hMinInfpos (g : Bool) : Full true (hSelectMinInfpos g) := fun x C0 C hn hsm h => by
  have hm := h.condMark
  obtain ⟨L, h1, h2, h3⟩ := exists_neg hn hsm hm.rel
  obtain ⟨i, hi⟩ := findMin_some h1 h2 (h3.inf (v := 1) (f := 2) (by omega) (by omega))
  unfold hSelectMinInfpos
  simp only [hi]
  refine ⟨_, rfl, ?_⟩
  have ho : Out true x C0 (setSel i (condMark x C)) (condMark x C).oriented := .setSel hm (findMin_finds _ _ _) hi
  split
  · have hpos := Out.may (b := true) (p := true) hm (findMin_finds neg (infWt 1 2) (condMark x C)) (by simp)
    rw [hi] at hpos
    have := hpos.delOri
    simp only [selMay, if_true, setSel_selectPos_comm] at this
    exact this
  · exact ho.delOri

/-- Nothing is done, or a function is applied. -/
theorem base_ite {b : Bool} {f : SelFun} (hf : Base b f) (t : SelCtx → SCl → Bool) : Base b fun x C => if t x C = true then f x C else some C :=
  fun x C0 C hn hs h => by
    simp only
    split
    · exact hf x C0 C hn hs h
    · exact ⟨C, rfl, .stay h⟩

theorem base_condOptimal (p : Bool) : Base p (selectCondOptimal p) := fun x C0 C hn hs h => by
  unfold selectCondOptimal
  split
  · exact ⟨_, rfl, by rw [delSel_of_none h.none]; exact .stay h⟩
  · exact base_optimal p x C0 C hn hs h

theorem base_allCondOptimal (p : Bool) : Base p (selectAllCondOptimal p) := fun x C0 C hn hs h => by
  unfold selectAllCondOptimal
  split
  · exact base_optimal p x C0 C hn hs h
  · exact ⟨_, rfl, by rw [delSel_of_none h.none]; exact .stay h⟩

theorem base_depth2 (p : Bool) (t : FLit → Bool) : Base p (selectDepth2 p t) := fun x C0 C hn hs h => by
  unfold selectDepth2
  split
  · exact ⟨_, rfl, by rw [delSel_of_none h.none]; exact .stay h⟩
  · exact base_optimal p x C0 C hn hs h

theorem base_optimalIf (p : Bool) (t : SelCtx → List FLit → Bool) : Base p (selectOptimalIf p t) := base_ite (base_optimal p) fun x C => t x C.lits

theorem base_antiRR : Base false selectAntiRR := fun x C0 C hn hs h => by
  unfold selectAntiRR
  split
  · exact ⟨C, rfl, .stay h⟩
  · exact base_optimalIf false _ x C0 C hn hs h

theorem base_strongRRNonRR : Base true pSelectStrongRRNonRR := fun x C0 C hn hs h => by
  unfold pSelectStrongRRNonRR
  split
  · exact base_optimal true x C0 C hn hs h
  · exact ⟨_, rfl, by rw [delSel_of_none h.none]; exact .stay h⟩

theorem Base.map_delOri {b : Bool} {f : SelFun} (hf : Base b f) {x : SelCtx} {C0 : List FLit} {C : SCl} (hn : C0.any LitSel.neg = true)
    (hs : ∀ L ∈ C0, SmallLit L) (h : Inv0 x C0 C) : ∃ D, (f x C).map LitSel.delOri = some D ∧ Out b x C0 D false :=
  let ⟨D, e, o⟩ := hf x C0 C hn hs h
  ⟨LitSel.delOri D, by rw [e]; rfl, o.delOri⟩

theorem Full.map_delOri {b : Bool} {f : SelFun} (hf : Full b f) {x : SelCtx} {C0 : List FLit} {C : SCl} (hn : C0.any LitSel.neg = true)
    (hs : ∀ L ∈ C0, SmallLit L) (h : Inv0 x C0 C) : ∃ D, (f x C).map LitSel.delOri = some D ∧ Out b x C0 D false :=
  let ⟨D, e, o⟩ := hf x C0 C hn hs h
  ⟨LitSel.delOri D, by rw [e]; rfl, o.delOri⟩

theorem full_unless {b : Bool} {f : SelFun} (hf : Base b f ∨ Full b f) (t : SCl → Bool) : Full b (unlessMax t f) := fun x C0 C hn hs h => by
  unfold unlessMax
  simp only
  split
  · rcases hf with hf | hf
    · exact hf.map_delOri hn hs h.condMark
    · exact hf.map_delOri hn hs h.condMark
  · exact ⟨_, rfl, .stay h.condMark⟩

theorem base_exceptRRHorn {b : Bool} {f : SelFun} (hf : Base b f) : Base b (exceptRRHorn f) :=
  base_ite hf fun x C => !(isHorn C && x.rr C.lits)

theorem full_exceptRRHorn {b : Bool} {f : SelFun} (hf : Full b f) : Full b (exceptRRHorn f) := fun x C0 C hn hs h => by
  unfold exceptRRHorn
  split
  · exact hf x C0 C hn hs h
  · exact ⟨C, rfl, .stay h⟩

theorem full_exceptHorn {b : Bool} {f : SelFun} {d : Bool} (hf : Full b f ∨ (Base b f ∧ d = true)) (t : SCl → Bool) :
    Full b (exceptHorn d t f) := fun x C0 C hn hs h => by
  unfold exceptHorn
  simp only
  have h' : Inv0 x C0 (if isHorn C = true then condMark x C else C) := by
    split
    · exact h.condMark
    · exact h
  generalize (if isHorn C = true then condMark x C else C) = C' at h'
  split
  · exact ⟨_, rfl, .stay h'⟩
  · rcases hf with hf | ⟨hf, rfl⟩
    · obtain ⟨D, e, o⟩ := hf x C0 _ hn hs h'
      rw [e]
      refine ⟨_, rfl, ?_⟩
      simp only
      split
      · exact o.delOri
      · exact o
    · obtain ⟨D, e, o⟩ := hf x C0 _ hn hs h'
      rw [e]
      exact ⟨_, rfl, o.delOri⟩

theorem full_mComplexExcept : Full true mSelectComplexExcept := fun x C0 C hn hs h =>
  full_exceptHorn (.inr ⟨(base_complex (isHorn C)).mono (b' := true) (by simp), rfl⟩) _ x C0 C hn hs h

theorem exists_max_neg {C : SCl} (h : maxPosNo C ≠ maxNo C) : ∃ L ∈ C.lits, neg L = true ∧ L.maximal = true := by
  by_contra hc
  refine h ?_
  unfold maxPosNo maxNo
  refine List.countP_congr fun L hL => ?_
  by_cases hm : L.maximal = true
  · by_cases hp : L.lit.pos = true
    · simp [hm, hp]
    · exact absurd ⟨L, hL, by simpa [neg] using hp, hm⟩ hc
  · simp [hm]

theorem full_maxLComplex (p : Bool) : Full p (selectMaxLComplex p) := fun x C0 C hn hs h => by
  have hm := h.condMark
  unfold selectMaxLComplex
  simp only
  split
  · split
    · rename_i hne
      obtain ⟨L, h1, h2, h3⟩ := exists_max_neg hne
      obtain ⟨i, hi⟩ := lcomplex_some (mx := id) h1 h2 h3
      exact ⟨_, selMust_some hi, .may hm.delOri (lcomplex_finds id _) (by simp)⟩
    · exact base_lcomplex p x C0 _ hn hs hm.delOri
  · exact ⟨_, rfl, .stay hm⟩

theorem full_maxLComplexNo (p : Bool) (t : SelCtx → FLit → Bool) : Full p (selectMaxLComplexNo p t) := fun x C0 C hn hs h => by
  have hm := h.condMark
  unfold selectMaxLComplexNo
  simp only
  split
  · have hsec : ∃ D, (match findLComplex (fun b => !b) (delOri (condMark x C)) with
        | some i => if (Option.map (t x) (delOri (condMark x C)).lits[i]? == some false) = true then some (selMay p (some i) (delOri (condMark x C)))
          else some (delOri (condMark x C))
        | none => some (delOri (condMark x C))) = some D ∧ Out p x C0 D false := by
      split
      · rename_i i hi
        split
        · refine ⟨_, rfl, ?_⟩
          rw [← hi]
          exact Out.may hm.delOri (lcomplex_finds _ _) id
        · exact ⟨_, rfl, .stay hm.delOri⟩
      · exact ⟨_, rfl, .stay hm.delOri⟩
    split
    · rename_i hne
      obtain ⟨L, h1, h2, h3⟩ := exists_max_neg hne
      obtain ⟨i, hi⟩ := lcomplex_some (mx := id) h1 h2 h3
      simp only [hi]
      split
      · refine ⟨_, rfl, ?_⟩
        rw [← hi]
        exact Out.may hm.delOri (lcomplex_finds _ _) id
      · exact hsec
    · exact hsec
  · exact ⟨_, rfl, .stay hm⟩

theorem base_prefer (p : Bool) (eq : FLit → Bool) : Base p (selectPrefer p eq) := fun _ _ C _ _ h =>
  ⟨_, rfl, .may h (scanPrefer_finds eq C) id⟩

/-! ## `generic_uniq_selection` -/

theorem candidate_spec {es : List (FLit × LitEval)} {n : Nat} {c : FLit × LitEval} {k : Nat} :
    let r := candidate es n c k
    ((r.1, r.2.1) = c ∧ r.2.2 = k ∨ ∃ j, es[j]? = some (r.1, r.2.1) ∧ r.2.2 = n + j) ∧
    (∀ e ∈ c :: es, neg e.1 = true → neg r.1 = true) := by
  induction es generalizing n c k with
  | nil => exact ⟨.inl ⟨rfl, rfl⟩, fun e he h => by simp only [List.mem_singleton] at he; subst he; exact h⟩
  | cons e es ih =>
    simp only [candidate]
    by_cases hl : evalLess e c = true
    · rw [if_pos hl]
      obtain ⟨h1, h2⟩ := @ih (n + 1) e n
      refine ⟨.inr ?_, fun e' he' hn => ?_⟩
      · rcases h1 with ⟨h1, h1'⟩ | ⟨j, h1, h1'⟩
        · exact ⟨0, by simpa using h1.symm, by simpa using h1'⟩
        · exact ⟨j + 1, by simpa using h1, by rw [h1']; omega⟩
      · rcases List.mem_cons.1 he' with rfl | he'
        · refine h2 e (List.mem_cons_self ..) ?_
          unfold evalLess at hl
          unfold neg at hn ⊢
          cases h1 : e'.1.lit.pos <;> cases h2 : e.1.lit.pos <;> simp_all
        · exact h2 e' he' hn
    · rw [if_neg hl]
      obtain ⟨h1, h2⟩ := @ih (n + 1) c k
      refine ⟨?_, fun e' he' hn => ?_⟩
      · rcases h1 with h1 | ⟨j, h1, h1'⟩
        · exact .inl h1
        · exact .inr ⟨j + 1, by simpa using h1, by rw [h1']; omega⟩
      · rcases List.mem_cons.1 he' with rfl | he'
        · exact h2 e' (List.mem_cons_self ..) hn
        rcases List.mem_cons.1 he' with rfl | he'
        · refine h2 c (List.mem_cons_self ..) ?_
          unfold evalLess at hl
          unfold neg at hn ⊢
          cases h1 : c.1.lit.pos <;> cases h2 : e'.1.lit.pos <;> simp_all
        · exact h2 e' (List.mem_cons_of_mem _ he') hn

theorem full_generic (p nO : Bool) (w : String) : Full p (generic p nO w) := fun x C0 C hn hs h => by
  have h' : Inv0 x C0 (if nO = true then condMark x C else C) := by
    split
    · exact h.condMark
    · exact h
  unfold generic
  simp only
  generalize (if nO = true then condMark x C else C) = C' at h'
  obtain ⟨L, hL, hLn, -⟩ := exists_neg hn hs h'.rel
  cases hl : C'.lits.zipIdx.map fun e => (e.1, x.eval w C'.lits e.2) with
  | nil =>
    simp only [List.map_eq_nil_iff, List.zipIdx_eq_nil_iff] at hl
    rw [hl] at hL; cases hL
  | cons e es =>
    have hget : ∀ (j : Nat) (a : FLit × LitEval), (e :: es)[j]? = some a → C'.lits[j]? = some a.1 := by
      intro j a ha
      rw [← hl] at ha
      simp only [List.getElem?_map, List.getElem?_zipIdx, Option.map_map, Option.map_eq_some_iff] at ha
      obtain ⟨K, hK, rfl⟩ := ha
      exact hK
    have hmem : ∃ v, (L, v) ∈ e :: es := by
      rw [← hl]
      obtain ⟨i, hi⟩ := List.getElem?_of_mem hL
      refine ⟨x.eval w C'.lits i, List.mem_map.2 ⟨(L, i), ?_, rfl⟩⟩
      rw [List.mem_zipIdx_iff_getElem?]
      exact hi
    obtain ⟨v, hv⟩ := hmem
    obtain ⟨h1, h2⟩ := @candidate_spec es 1 e 0
    have hneg := h2 _ hv hLn
    have hk : C'.lits[(candidate es 1 e 0).2.2]? = some (candidate es 1 e 0).1 := by
      rcases h1 with ⟨h1, h1'⟩ | ⟨j, h1, h1'⟩
      · rw [h1']; exact hget 0 (_, _) (by rw [h1]; rfl)
      · rw [h1']; exact hget (1 + j) (_, _) (by rw [Nat.add_comm]; exact h1)
    simp only
    refine ⟨_, rfl, ?_⟩
    split
    · exact .stay h'
    · have ho := Out.may (b := p) (p := p) h' (o := some (candidate es 1 e 0).2.2) (fun i hi => by cases hi; exact ⟨_, hk, hneg⟩) id
      have := ho.delOri
      cases p with
      | false => exact this
      | true =>
        simp only [selMay, if_true, setSel_selectPos_comm] at this ⊢
        exact this

theorem full_ifManyMax {b : Bool} {f : SelFun} (hf : Full b f) : Full b (ifManyMax f) := fun x C0 C hn hs h => by
  unfold ifManyMax
  simp only
  split
  · exact ⟨_, rfl, .stay h⟩
  split
  · exact ⟨_, rfl, .stay h.condMark⟩
  · exact hf x C0 _ hn hs h.condMark

theorem full_avoidPosUPred : Full false avoidPosUPred := fun x C0 C hn hs h => by
  unfold avoidPosUPred
  simp only
  split
  · exact ⟨_, rfl, .stay h.condMark⟩
  · exact full_generic false true _ x C0 _ hn hs h.condMark

theorem full_unlessPDom {b : Bool} {f : SelFun} (hf : Full b f) : Full b (unlessPDom f) := fun x C0 C hn hs h => by
  unfold unlessPDom
  simp only
  split
  · exact ⟨_, rfl, .stay h.condMark⟩
  · exact hf x C0 _ hn hs h.condMark

/-! ## All strategies -/

/-- Functions whose names begin with `Select` or `No` select negative literals only. -/
def mayPos (s : String) : Bool := match s.toList.head? with | some 'S' => false | some 'N' => false | _ => true

/-- What a strategy does if nothing is selected and the marks are not up to date. -/
def Good (s : String) (f : SelFun) : Prop :=
  ∀ x C, C.lits.any neg = true → (∀ L ∈ C.lits, SmallLit L) → (∀ L ∈ C.lits, L.selected = false) → C.oriented = false →
    ∃ D, f x C = some D ∧ Out (mayPos s) x C.lits D false

theorem Base.good {b : Bool} {s : String} {f : SelFun} (h : Base b f) (e : mayPos s = b) : Good s f := fun x C hn hs h0 ho => by
  subst e
  obtain ⟨D, e, o⟩ := h x C.lits C hn hs ⟨Rel.refl x _, h0, by rw [ho]; simp⟩
  rw [ho] at o
  exact ⟨D, e, o⟩

theorem Full.good {b : Bool} {s : String} {f : SelFun} (h : Full b f) (e : mayPos s = b) : Good s f := fun x C hn hs h0 ho => by
  subst e
  exact h x C.lits C hn hs ⟨Rel.refl x _, h0, by rw [ho]; simp⟩

end Verif.LitSel

namespace Verif.LitSel

theorem Reach.trans {cmp : Term → Term → Cmp} {K L M : FLit} (h1 : Reach cmp K L) (h2 : Reach cmp L M) : Reach cmp K M := by
  induction h2 with
  | refl => exact h1
  | orient _ ih => exact .orient ih
  | marks a b _ ih => exact .marks a b ih
  | sel a _ ih => exact .sel a ih

theorem Rel.trans {x : SelCtx} {C D E : List FLit} (h1 : Rel x C D) (h2 : Rel x D E) : Rel x C E := by
  refine forall2_of_getElem? (h2.length_eq.symm.trans h1.length_eq.symm) fun i K M hK hM => ?_
  have hlt : i < D.length := by rw [h2.length_eq]; exact (List.getElem?_eq_some_iff.1 hM).1
  exact (h1.get hK (List.getElem?_eq_getElem hlt)).trans (h2.get (List.getElem?_eq_getElem hlt) hM)

theorem Rel.mem {x : SelCtx} {C D : List FLit} (h : Rel x C D) {L : FLit} (hL : L ∈ D) : ∃ K ∈ C, Reach x.cmp K L := by
  obtain ⟨i, hi⟩ := List.getElem?_of_mem hL
  have hlt : i < C.length := by rw [h.length_eq]; exact (List.getElem?_eq_some_iff.1 hi).1
  exact ⟨_, List.getElem_mem hlt, h.get (List.getElem?_eq_getElem hlt) hi⟩

/-- `SelectVGNonCR`: the same without the promise about CPIsOriented. -/
theorem vg_good {x : SelCtx} {C : SCl} (hn : C.lits.any neg = true) (hs : ∀ L ∈ C.lits, SmallLit L) (h0 : ∀ L ∈ C.lits, L.selected = false)
    (ho : C.oriented = false) : ∃ D, selectVGNonCR x C = some D ∧ Rel x C.lits D.lits ∧ (Inv0 x C.lits D ∨ OneSel false D.lits) := by
  have h : Inv0 x C.lits C := ⟨Rel.refl x _, h0, by rw [ho]; simp⟩
  have fin : ∀ {D : SCl} {o : Bool}, Out false x C.lits D o → Rel x C.lits D.lits ∧ (Inv0 x C.lits D ∨ OneSel false D.lits) :=
    fun o => ⟨o.rel, o.res.imp id fun r => r.1⟩
  unfold selectVGNonCR
  split
  · rename_i i hi
    exact ⟨_, rfl, fin (.setSel h (pureVar_finds C) hi)⟩
  · simp only
    split
    · rename_i i hi
      exact ⟨_, rfl, fin (.setSel h.condMark (smallestGround_finds _) hi)⟩
    · split
      · exact ⟨_, rfl, fin (o := false) (.stay h.condMark)⟩
      · obtain ⟨D, e, o⟩ := full_generic false true "new_complex_notp_ahp_ns" x C.lits (condMark x C) hn hs h.condMark
        exact ⟨D, e, fin o⟩

theorem selectNegative_spec (p : Bool) (x : SelCtx) (C : SCl) (h0 : ∀ L ∈ C.lits, L.selected = false) :
    ∃ D, selectNegative p x C = some D ∧ Rel x C.lits D.lits ∧ D.oriented = C.oriented ∧
      ∀ L ∈ D.lits, L.selected = (p || neg L) := by
  refine ⟨_, rfl, (Rel.refl x C.lits).map _ fun K L h => ?_, rfl, fun L hL => ?_⟩
  · split
    · exact .sel true h
    · exact h
  · simp only [List.mem_map] at hL
    obtain ⟨K, hK, rfl⟩ := hL
    split
    · rename_i h; simpa [neg] using h
    · rename_i h
      rw [h0 K hK]
      simpa using h

/-! ## The literal chosen -/

theorem scan_best {p : FLit → Bool} {better : Int → Int → Bool} {w : FLit → Int} (hr : ∀ a, better a a = false)
    (ht : ∀ a b c, better a b = true → better b c = true → better a c = true)
    (hn : ∀ a b c, better a c = true → better b c = false → better a b = true) :
    ∀ {ls : List FLit} {n : Nat} {sw : Int} {s : Option Nat} {k : Nat}, scan p better w ls n sw s = some k →
      (s = some k ∧ ∀ L ∈ ls, p L = true → better (w L) sw = false) ∨
      ∃ j L, ls[j]? = some L ∧ k = n + j ∧ p L = true ∧ better (w L) sw = true ∧
        (∀ K ∈ ls, p K = true → better (w K) (w L) = false) ∧
        ∀ (i : Nat) K, i < j → ls[i]? = some K → p K = true → better (w L) (w K) = true := by
  intro ls
  induction ls with
  | nil => intro n sw s k h; exact .inl ⟨h, fun _ h => by cases h⟩
  | cons L ls ih =>
    intro n sw s k h
    rw [scan] at h
    split at h
    · rename_i hp
      rw [Bool.and_eq_true] at hp
      right
      rcases ih h with ⟨e, hall⟩ | ⟨j, M, hj, hk, hM, hb, hall, hbef⟩
      · refine ⟨0, L, rfl, by simpa using e.symm, hp.1, hp.2, fun K hK hpK => ?_, fun i K hi => by omega⟩
        rcases List.mem_cons.1 hK with rfl | hK
        · exact hr _
        · exact hall K hK hpK
      · refine ⟨j + 1, M, hj, by omega, hM, ht _ _ _ hb hp.2, fun K hK hpK => ?_, fun i K hi hK hpK => ?_⟩
        · rcases List.mem_cons.1 hK with rfl | hK
          · cases hc : better (w K) (w M) with
            | false => rfl
            | true =>
              have := ht _ _ _ hc hb
              rw [hr] at this; cases this
          · exact hall K hK hpK
        · cases i with
          | zero => cases hK; exact hb
          | succ i => exact hbef i K (by omega) (by simpa using hK) hpK
    · rename_i hp
      have hp' : p L = true → better (w L) sw = false := by
        intro h1
        cases h2 : better (w L) sw with
        | false => rfl
        | true => simp [h1, h2] at hp
      rcases ih h with ⟨e, hall⟩ | ⟨j, M, hj, hk, hM, hb, hall, hbef⟩
      · refine .inl ⟨e, fun K hK hpK => ?_⟩
        rcases List.mem_cons.1 hK with rfl | hK
        · exact hp' hpK
        · exact hall K hK hpK
      · refine .inr ⟨j + 1, M, hj, by omega, hM, hb, fun K hK hpK => ?_, fun i K hi hK hpK => ?_⟩
        · rcases List.mem_cons.1 hK with rfl | hK
          · cases hc : better (w K) (w M) with
            | false => rfl
            | true =>
              have := ht _ _ _ hc (hn _ _ _ hb (hp' hpK))
              rw [hr] at this; cases this
          · exact hall K hK hpK
        · cases i with
          | zero =>
            cases hK
            exact hn _ _ _ hb (hp' hpK)
          | succ i => exact hbef i K (by omega) (by simpa using hK) hpK

theorem findMax_best {p : FLit → Bool} {w : FLit → Int} {st : Int} {C : SCl} {i : Nat} (h : findMax p w st C = some i) :
    ∃ L, C.lits[i]? = some L ∧ p L = true ∧ (∀ K ∈ C.lits, p K = true → w K ≤ w L) ∧
      ∀ (j : Nat) K, j < i → C.lits[j]? = some K → p K = true → w K < w L := by
  rcases scan_best (by simp) (by simp; omega) (by simp; omega) h with ⟨e, -⟩ | ⟨j, L, hj, hk, hp, -, hall, hbef⟩
  · cases e
  · rw [Nat.zero_add] at hk; subst hk
    exact ⟨L, hj, hp, fun K hK hpK => by simpa using hall K hK hpK, fun j K h1 h2 h3 => by simpa using hbef j K h1 h2 h3⟩

theorem findMin_best {p : FLit → Bool} {w : FLit → Int} {C : SCl} {i : Nat} (h : findMin p w C = some i) :
    ∃ L, C.lits[i]? = some L ∧ p L = true ∧ (∀ K ∈ C.lits, p K = true → w L ≤ w K) ∧
      ∀ (j : Nat) K, j < i → C.lits[j]? = some K → p K = true → w L < w K := by
  rcases scan_best (by simp) (by simp; omega) (by simp; omega) h with ⟨e, -⟩ | ⟨j, L, hj, hk, hp, -, hall, hbef⟩
  · cases e
  · rw [Nat.zero_add] at hk; subst hk
    exact ⟨L, hj, hp, fun K hK hpK => by simpa using hall K hK hpK, fun j K h1 h2 h3 => by simpa using hbef j K h1 h2 h3⟩

/-- The literal selected by `setSel`, among the negative ones. -/
theorem setSel_neg {C : SCl} (h : ∀ L ∈ C.lits, L.selected = false) {i : Nat} {p : Bool} {j : Nat} {K : FLit}
    (hK : (setSel i (if p then selectPos C else C)).lits[j]? = some K) (hn : K.lit.pos = false) : K.selected = true ↔ j = i := by
  rw [setSel_get, Option.map_eq_some_iff] at hK
  obtain ⟨M, hM, rfl⟩ := hK
  by_cases hij : i = j
  · simp [hij]
  · rw [if_neg hij] at hn ⊢
    have : M.selected = false := by
      cases p with
      | false => exact h M (List.mem_of_getElem? hM)
      | true =>
        simp only [selectPos, if_true, List.getElem?_map, Option.map_eq_some_iff] at hM
        obtain ⟨M', hM', rfl⟩ := hM
        split at hn
        · rename_i hp; simp [hp] at hn
        · rename_i hp; rw [if_neg hp]; exact h M' (List.mem_of_getElem? hM')
    simp [this, Ne.symm hij]

/-! ### The candidate of `generic_uniq_selection` is best -/

/-- Lexicographic comparison of the three weights. -/
def LexLe (a b : LitEval) : Prop := a.w1 < b.w1 ∨ (a.w1 = b.w1 ∧ (a.w2 < b.w2 ∨ (a.w2 = b.w2 ∧ a.w3 ≤ b.w3)))

theorem not_evalLess {e c : FLit × LitEval} (h : evalLess e c = false) (hs : e.1.lit.pos = c.1.lit.pos) : LexLe c.2 e.2 := by
  unfold evalLess at h
  unfold LexLe
  rw [hs] at h
  simp only [bne_self_eq_false, Bool.false_eq_true, if_false] at h
  split at h
  · simp only [decide_eq_false_iff_not] at h; omega
  split at h
  · simp only [decide_eq_false_iff_not] at h; omega
  · simp only [decide_eq_false_iff_not] at h; omega

theorem evalLess_lex {e c : FLit × LitEval} (h : evalLess e c = true) (hs : e.1.lit.pos = c.1.lit.pos) : LexLe e.2 c.2 := by
  unfold evalLess at h
  unfold LexLe
  rw [hs] at h
  simp only [bne_self_eq_false, Bool.false_eq_true, if_false] at h
  split at h
  · simp only [decide_eq_true_eq] at h; omega
  split at h
  · simp only [decide_eq_true_eq] at h; omega
  · simp only [decide_eq_true_eq] at h; omega

theorem LexLe.trans {a b c : LitEval} (h1 : LexLe a b) (h2 : LexLe b c) : LexLe a c := by unfold LexLe at *; omega

theorem LexLe.refl (a : LitEval) : LexLe a a := by unfold LexLe; omega

theorem candidate_best {es : List (FLit × LitEval)} {n : Nat} {c : FLit × LitEval} {k : Nat} :
    let r := candidate es n c k
    ∀ e ∈ c :: es, e.1.lit.pos = r.1.lit.pos → LexLe r.2.1 e.2 := by
  induction es generalizing n c k with
  | nil => intro r e he _; simp only [List.mem_singleton] at he; subst he; exact LexLe.refl _
  | cons a es ih =>
    simp only [candidate]
    have hneg := fun n c k => (@candidate_spec es n c k).2
    by_cases hl : evalLess a c = true
    · rw [if_pos hl]
      intro e he hs
      rcases List.mem_cons.1 he with rfl | he
      · by_cases hac : a.1.lit.pos = e.1.lit.pos
        · exact (ih (n := n + 1) (c := a) (k := n) a (List.mem_cons_self ..) (hac.trans hs)).trans (evalLess_lex hl hac)
        · -- `a` is negative, `e` positive, so the result is negative
          exfalso
          have ha : neg a.1 = true := by
            unfold evalLess at hl
            unfold neg
            cases h1 : a.1.lit.pos <;> cases h2 : e.1.lit.pos <;> simp_all
          have hr := hneg (n + 1) a n a (List.mem_cons_self ..) ha
          unfold neg at hr ha
          simp only [Bool.not_eq_true'] at hr ha
          rw [← hs] at hr
          exact hac (ha.trans hr.symm)
      · exact ih (n := n + 1) (c := a) (k := n) e he hs
    · rw [if_neg hl]
      intro e he hs
      rcases List.mem_cons.1 he with rfl | he
      · exact ih (n := n + 1) (c := e) (k := k) e (List.mem_cons_self ..) hs
      rcases List.mem_cons.1 he with rfl | he
      · have hl' : evalLess e c = false := by simpa using hl
        by_cases hec : e.1.lit.pos = c.1.lit.pos
        · exact (ih (n := n + 1) (c := c) (k := k) c (List.mem_cons_self ..) (hec.symm.trans hs)).trans (not_evalLess hl' hec)
        · exfalso
          have hc : neg c.1 = true := by
            unfold evalLess at hl'
            unfold neg
            cases h1 : e.1.lit.pos <;> cases h2 : c.1.lit.pos <;> simp_all
          have hr := hneg (n + 1) c k c (List.mem_cons_self ..) hc
          unfold neg at hr hc
          simp only [Bool.not_eq_true'] at hr hc
          rw [← hs] at hr
          exact hec (hr.trans hc.symm)
      · exact ih (n := n + 1) (c := c) (k := k) e (List.mem_cons_of_mem _ he) hs

end Verif.LitSel
