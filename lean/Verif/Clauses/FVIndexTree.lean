import Verif.Clauses.FVIndex
import Mathlib.Data.List.Perm.Basic
import Mathlib.Data.List.Forall2

/-!
# The tree of the feature vector index
-/

namespace Verif.FVProof
open Verif

variable {β : Type}

mutual
/-- The stored entries with their vectors. -/
def ents : FVTree β → List (List Nat × β)
  | .node _ alts => entsL alts
  | .leaf _ cls => cls.map fun b => ([], b)
def entsL : FVAlts β → List (List Nat × β)
  | .nil => []
  | .cons k t r => (ents t).map (fun e => (k :: e.1, e.2)) ++ entsL r
end

def below (k : Nat) : FVAlts β → Prop
  | .nil => True
  | .cons k' _ _ => k < k'

mutual
/-- All leaves lie at depth `n`, the counters are right and the keys ascend. -/
def WF : Nat → FVTree β → Prop
  | 0, .node c alts => alts = .nil ∧ c = 0
  | 0, .leaf c cls => c = cls.length ∧ cls.Nodup
  | _ + 1, .leaf _ _ => False
  | n + 1, .node c alts => c = (entsL alts).length ∧ WFL n alts
def WFL : Nat → FVAlts β → Prop
  | _, .nil => True
  | n, .cons k t r => WF n t ∧ below k r ∧ WFL n r
end

theorem WF.cnt_eq {n : Nat} {T : FVTree β} (h : WF n T) : T.cnt = (ents T).length := by
  cases n <;> cases T
  · rw [WF] at h; obtain ⟨rfl, rfl⟩ := h; rfl
  · rw [WF] at h; simp [FVTree.cnt, ents, h.1]
  · rw [WF] at h; simp [FVTree.cnt, ents, h.1]
  · rw [WF] at h; exact h.elim

theorem WF.cnt_zero {n : Nat} {T : FVTree β} (h : WF n T) : T.cnt = 0 ↔ ents T = [] := by
  rw [h.cnt_eq]
  simp

theorem wf_alloc (n : Nat) : WF n (.alloc : FVTree β) := by
  cases n
  · exact ⟨rfl, rfl⟩
  · exact ⟨rfl, trivial⟩

theorem below_mono {j k : Nat} {r : FVAlts β} (h : j < k) (hb : below k r) : below j r := by
  cases r with
  | nil => trivial
  | cons k' _ _ => exact Nat.lt_trans h hb

theorem get_below {n k i : Nat} {r : FVAlts β} (hw : WFL n r) (hb : below k r) (hi : i ≤ k) : r.get i = none := by
  cases r with
  | nil => rfl
  | cons k' t r =>
    have hk : k < k' := hb
    rw [FVAlts.get, if_neg (by omega)]
    exact get_below hw.2.2 hw.2.1 (by omega)

theorem wfl_get {n i : Nat} {r : FVAlts β} {t : FVTree β} (hw : WFL n r) (hg : r.get i = some t) : WF n t := by
  cases r with
  | nil => cases hg
  | cons k t' r =>
    rw [FVAlts.get] at hg
    split at hg
    · cases hg; exact hw.1
    · exact wfl_get hw.2.2 hg

theorem below_set {k i : Nat} {r : FVAlts β} {u : FVTree β} (hb : below k r) (hi : k < i) : below k (r.set i u) := by
  cases r with
  | nil => exact hi
  | cons k' t r =>
    unfold FVAlts.set
    split
    · exact hi
    · split <;> exact hb

theorem wfl_set {n i : Nat} {r : FVAlts β} {u : FVTree β} (hw : WFL n r) (hu : WF n u) : WFL n (r.set i u) := by
  cases r with
  | nil => exact ⟨hu, trivial, trivial⟩
  | cons k t r =>
    unfold FVAlts.set
    split
    · rename_i hi; exact ⟨hu, hi, hw⟩
    · split
      · exact ⟨hu, hw.2.1, hw.2.2⟩
      · exact ⟨hw.1, below_set hw.2.1 (by omega), wfl_set hw.2.2 hu⟩

/-- The entries of the subtree under a key. -/
def entsAt (r : FVAlts β) (i : Nat) : List (List Nat × β) := match r.get i with | none => [] | some t => ents t

def under (i : Nat) (l : List (List Nat × β)) : List (List Nat × β) := l.map fun e => (i :: e.1, e.2)

theorem entsL_set {n i : Nat} {r : FVAlts β} (hw : WFL n r) (u : FVTree β) :
    ∃ x, (entsL r).Perm (under i (entsAt r i) ++ x) ∧ (entsL (r.set i u)).Perm (under i (ents u) ++ x) := by
  cases r with
  | nil => exact ⟨[], .refl _, by simp [FVAlts.set, entsL, under]⟩
  | cons k t r =>
    unfold FVAlts.set
    split
    · rename_i hi
      refine ⟨entsL (.cons k t r), ?_, .refl _⟩
      have : (FVAlts.cons k t r).get i = none := by
        rw [FVAlts.get, if_neg (by omega)]
        exact get_below hw.2.2 hw.2.1 (by omega)
      simp [entsAt, this, under]
    · split
      · rename_i hi
        subst hi
        exact ⟨entsL r, by simp [entsAt, FVAlts.get, entsL, under], by simp [entsL, under]⟩
      · rename_i h1 h2
        obtain ⟨x, h3, h4⟩ := entsL_set (i := i) hw.2.2 u
        refine ⟨under k (ents t) ++ x, ?_, ?_⟩
        · rw [show entsAt (.cons k t r) i = entsAt r i from by simp [entsAt, FVAlts.get, h2]]
          refine (List.Perm.append_left _ h3).trans ?_
          rw [← List.append_assoc, ← List.append_assoc]
          exact List.perm_append_comm.append_right _
        · refine (List.Perm.append_left _ h4).trans ?_
          rw [← List.append_assoc, ← List.append_assoc]
          exact List.perm_append_comm.append_right _

theorem entsAt_getD (r : FVAlts β) (i : Nat) : entsAt r i = ents ((r.get i).getD .alloc) := by
  unfold entsAt
  cases r.get i <;> rfl

theorem mem_entsL_get {m k : Nat} {r : FVAlts β} {v : List Nat} {b : β} (hw : WFL m r) (h : (k :: v, b) ∈ entsL r) :
    ∃ t, r.get k = some t ∧ (v, b) ∈ ents t := by
  cases r with
  | nil => simp [entsL] at h
  | cons k' t r =>
    rw [entsL, List.mem_append] at h
    rcases h with h | h
    · obtain ⟨e, he, e1⟩ := List.mem_map.1 h
      simp only [Prod.mk.injEq, List.cons.injEq] at e1
      obtain ⟨⟨rfl, rfl⟩, rfl⟩ := e1
      exact ⟨t, by simp [FVAlts.get], he⟩
    · obtain ⟨t', h3, h4⟩ := mem_entsL_get hw.2.2 h
      refine ⟨t', ?_, h4⟩
      rw [FVAlts.get]
      split
      · rename_i e
        subst e
        rw [get_below hw.2.2 hw.2.1 (Nat.le_refl _)] at h3
        cases h3
      · exact h3

section Eq
variable [DecidableEq β]

theorem insert_spec {n : Nat} {T : FVTree β} {v : List Nat} {b : β} (hw : WF n T) (hv : v.length = n) (hb : (v, b) ∉ ents T) :
    ∃ T', fvInsert b v T = some T' ∧ WF n T' ∧ (ents T').Perm ((v, b) :: ents T) := by
  induction v generalizing n T with
  | nil =>
    subst hv
    cases T with
    | node c alts =>
      obtain ⟨rfl, rfl⟩ := hw
      exact ⟨_, rfl, ⟨rfl, by simp⟩, .refl _⟩
    | leaf c cls =>
      obtain ⟨h1, h2⟩ := hw
      have hc : b ∉ cls := fun h => hb (by simp [ents, h])
      refine ⟨_, rfl, ?_, ?_⟩
      · rw [if_neg hc]
        exact ⟨by rw [h1]; simp, List.nodup_cons.2 ⟨hc, h2⟩⟩
      · rw [if_neg hc]
        exact .refl _
  | cons k v ih =>
    obtain ⟨m, rfl⟩ : ∃ m, n = m + 1 := ⟨v.length, by simpa using hv.symm⟩
    cases T with
    | leaf c cls => exact (hw : False).elim
    | node c alts =>
      obtain ⟨h1, h2⟩ := hw
      have hwt : WF m ((alts.get k).getD .alloc) := by
        cases hg : alts.get k with
        | none => exact wf_alloc m
        | some t => exact wfl_get h2 hg
      have hnm : (v, b) ∉ ents ((alts.get k).getD .alloc) := by
        intro hm
        rw [← entsAt_getD] at hm
        obtain ⟨x, h3, -⟩ := entsL_set (i := k) h2 .alloc
        exact hb (h3.symm.subset (by simp [under, hm]))
      obtain ⟨T', h4, h5, h6⟩ := ih hwt (by simpa using hv) hnm
      obtain ⟨x, h7, h8⟩ := entsL_set (i := k) h2 T'
      rw [entsAt_getD] at h7
      have hperm : (entsL (alts.set k T')).Perm ((k :: v, b) :: entsL alts) := by
        refine h8.trans ?_
        refine (List.Perm.append_right x (h6.map _)).trans ?_
        exact (List.Perm.cons _ h7.symm)
      refine ⟨.node (c + 1) (alts.set k T'), by rw [fvInsert, h4]; rfl, ⟨?_, wfl_set h2 h5⟩, hperm⟩
      rw [hperm.length_eq, h1]
      simp

theorem delete_spec {n : Nat} {T : FVTree β} {v : List Nat} {b : β} (hw : WF n T) (hv : v.length = n) (hb : (v, b) ∈ ents T) :
    ∃ T', fvDelete b v T = some (T', true) ∧ WF n T' ∧ (ents T).Perm ((v, b) :: ents T') := by
  induction v generalizing n T with
  | nil =>
    subst hv
    cases T with
    | node c alts =>
      obtain ⟨rfl, rfl⟩ := hw
      simp [ents, entsL] at hb
    | leaf c cls =>
      obtain ⟨h1, h2⟩ := hw
      have hc : b ∈ cls := by simpa [ents] using hb
      refine ⟨.leaf (c - 1) (cls.erase b), by rw [fvDelete, decide_eq_true hc], ⟨?_, h2.erase b⟩, ?_⟩
      · rw [h1, List.length_erase_of_mem hc]
        have := List.length_pos_of_mem hc
        omega
      · exact (List.perm_cons_erase hc).map fun b => (([] : List Nat), b)
  | cons k v ih =>
    obtain ⟨m, rfl⟩ : ∃ m, n = m + 1 := ⟨v.length, by simpa using hv.symm⟩
    cases T with
    | leaf c cls => exact (hw : False).elim
    | node c alts =>
      obtain ⟨h1, h2⟩ := hw
      have hm := mem_entsL_get h2 hb
      obtain ⟨t, hg, hmt⟩ := hm
      obtain ⟨T', h4, h5, h6⟩ := ih (wfl_get h2 hg) (by simpa using hv) hmt
      obtain ⟨x, h7, h8⟩ := entsL_set (i := k) h2 T'
      have e : entsAt alts k = ents t := by simp [entsAt, hg]
      rw [e] at h7
      have hperm : (entsL alts).Perm ((k :: v, b) :: entsL (alts.set k T')) := by
        refine h7.trans ?_
        refine (List.Perm.append_right x (h6.map _)).trans ?_
        exact (List.Perm.cons _ h8.symm)
      refine ⟨.node (c - 1) (alts.set k T'), by rw [fvDelete, hg]; simp only; rw [h4]; rfl, ⟨?_, wfl_set h2 h5⟩, hperm⟩
      rw [h1, hperm.length_eq]
      simp
end Eq

/-! ## Searching -/

/-- All numbers of the first vector are at most those of the second. -/
def leV : List Nat → List Nat → Bool
  | [], [] => true
  | a :: v, b :: w => decide (a ≤ b) && leV v w
  | _, _ => false

theorem leV_iff {v w : List Nat} : leV v w = true ↔ List.Forall₂ (· ≤ ·) v w := by
  induction v generalizing w with
  | nil => cases w <;> simp [leV]
  | cons a v ih => cases w <;> simp [leV, ih]

theorem find?_map_under {k : Nat} {l : List (List Nat × β)} {p : List Nat × β → Bool} :
    (l.map (fun e => (k :: e.1, e.2))).find? p = (l.find? fun e => p (k :: e.1, e.2)).map fun e => (k :: e.1, e.2) := by
  rw [List.find?_map]
  rfl

mutual
theorem findSubsuming_spec (test : β → Bool) (n : Nat) (T : FVTree β) (v : List Nat) (hw : WF n T) (hv : v.length = n) :
    fvFindSubsuming test T v = ((ents T).find? fun e => leV e.1 v && test e.2).map (·.2) := by
  cases T with
  | leaf c cls =>
    cases v with
    | nil =>
      rw [fvFindSubsuming, ents, List.find?_map]
      simp only [Function.comp_def, leV, Bool.true_and, Option.map_map]
      cases cls.find? test <;> rfl
    | cons k v => subst hv; exact (hw : False).elim
  | node c alts =>
    cases v with
    | nil => subst hv; obtain ⟨rfl, -⟩ := hw; rfl
    | cons k v => subst hv; exact findSubsumingL_spec test v.length alts k v hw.2 rfl
theorem findSubsumingL_spec (test : β → Bool) (n : Nat) (r : FVAlts β) (k : Nat) (v : List Nat) (hw : WFL n r) (hv : v.length = n) :
    fvFindSubsumingL test r k v = ((entsL r).find? fun e => leV e.1 (k :: v) && test e.2).map (·.2) := by
  cases r with
  | nil => rfl
  | cons k' t r =>
    have ih1 := findSubsuming_spec test n t v hw.1 hv
    have ih2 := findSubsumingL_spec test n r k v hw.2.2 hv
    rw [fvFindSubsumingL, entsL, List.find?_append, find?_map_under]
    by_cases hk : k' ≤ k
    · have e1 : (fun e : List Nat × β => leV (k' :: e.1) (k :: v) && test e.2) = fun e => leV e.1 v && test e.2 := by
        funext e; simp [leV, hk]
      simp only [e1]
      by_cases hc : t.cnt ≠ 0
      · rw [if_pos ⟨hk, hc⟩, ih1, ih2]
        cases (ents t).find? fun e => leV e.1 v && test e.2 <;> simp
      · rw [if_neg (fun h => hc h.2), ih2]
        rw [hw.1.cnt_zero.1 (not_not.1 hc)]
        simp
    · have e1 : ((ents t).find? fun e : List Nat × β => leV (k' :: e.1) (k :: v) && test e.2) = none := by
        rw [List.find?_eq_none]
        intro e _
        simp [leV, hk]
      rw [if_neg (fun h => hk h.1), ih2, e1]
      simp
end

mutual
theorem firstSubsumed_spec (test : β → Bool) (n : Nat) (T : FVTree β) (v : List Nat) (hw : WF n T) (hv : v.length = n) :
    fvFirstSubsumed test T v = ((ents T).find? fun e => leV v e.1 && test e.2).map (·.2) := by
  cases T with
  | leaf c cls =>
    cases v with
    | nil =>
      rw [fvFirstSubsumed, ents, List.find?_map]
      simp only [Function.comp_def, leV, Bool.true_and, Option.map_map]
      cases cls.find? test <;> rfl
    | cons k v => subst hv; exact (hw : False).elim
  | node c alts =>
    cases v with
    | nil => subst hv; obtain ⟨rfl, -⟩ := hw; rfl
    | cons k v => subst hv; exact firstSubsumedL_spec test v.length alts k v hw.2 rfl
theorem firstSubsumedL_spec (test : β → Bool) (n : Nat) (r : FVAlts β) (k : Nat) (v : List Nat) (hw : WFL n r) (hv : v.length = n) :
    fvFirstSubsumedL test r k v = ((entsL r).find? fun e => leV (k :: v) e.1 && test e.2).map (·.2) := by
  cases r with
  | nil => rfl
  | cons k' t r =>
    have ih1 := firstSubsumed_spec test n t v hw.1 hv
    have ih2 := firstSubsumedL_spec test n r k v hw.2.2 hv
    rw [fvFirstSubsumedL, entsL, List.find?_append, find?_map_under]
    by_cases hk : k ≤ k'
    · have e1 : (fun e : List Nat × β => leV (k :: v) (k' :: e.1) && test e.2) = fun e => leV v e.1 && test e.2 := by
        funext e; simp [leV, hk]
      simp only [e1]
      by_cases hc : t.cnt ≠ 0
      · rw [if_pos ⟨hk, hc⟩, ih1, ih2]
        cases (ents t).find? fun e => leV v e.1 && test e.2 <;> simp
      · rw [if_neg (fun h => hc h.2), ih2]
        rw [hw.1.cnt_zero.1 (not_not.1 hc)]
        simp
    · have e1 : ((ents t).find? fun e : List Nat × β => leV (k :: v) (k' :: e.1) && test e.2) = none := by
        rw [List.find?_eq_none]
        intro e _
        simp [leV, hk]
      rw [if_neg (fun h => hk h.1), ih2, e1]
      simp
end

mutual
theorem findSubsumed_spec (test : β → Bool) (n : Nat) (T : FVTree β) (v : List Nat) (hw : WF n T) (hv : v.length = n) :
    fvFindSubsumed test T v = ((ents T).filter fun e => leV v e.1 && test e.2).map (·.2) := by
  cases T with
  | leaf c cls =>
    cases v with
    | nil =>
      rw [fvFindSubsumed, ents, List.filter_map, List.map_map]
      simp [Function.comp_def, leV]
    | cons k v => subst hv; exact (hw : False).elim
  | node c alts =>
    cases v with
    | nil => subst hv; obtain ⟨rfl, -⟩ := hw; rfl
    | cons k v => subst hv; exact findSubsumedL_spec test v.length alts k v hw.2 rfl
theorem findSubsumedL_spec (test : β → Bool) (n : Nat) (r : FVAlts β) (k : Nat) (v : List Nat) (hw : WFL n r) (hv : v.length = n) :
    fvFindSubsumedL test r k v = ((entsL r).filter fun e => leV (k :: v) e.1 && test e.2).map (·.2) := by
  cases r with
  | nil => rfl
  | cons k' t r =>
    have ih1 := findSubsumed_spec test n t v hw.1 hv
    have ih2 := findSubsumedL_spec test n r k v hw.2.2 hv
    rw [fvFindSubsumedL, entsL, List.filter_append, List.map_append, ih2]
    congr 1
    rw [List.filter_map, List.map_map]
    by_cases hk : k ≤ k'
    · have e1 : ((fun e : List Nat × β => leV (k :: v) e.1 && test e.2) ∘ fun e : List Nat × β => (k' :: e.1, e.2)) = fun e => leV v e.1 && test e.2 := by
        funext e; simp [leV, hk]
      rw [e1]
      by_cases hc : t.cnt ≠ 0
      · rw [if_pos ⟨hk, hc⟩, ih1]
        rfl
      · rw [if_neg (fun h => hc h.2)]
        rw [hw.1.cnt_zero.1 (not_not.1 hc)]
        simp
    · have e1 : ((ents t).filter ((fun e : List Nat × β => leV (k :: v) e.1 && test e.2) ∘ fun e : List Nat × β => (k' :: e.1, e.2))) = [] := by
        rw [List.filter_eq_nil_iff]
        intro e _
        simp [leV, hk]
      rw [if_neg (fun h => hk h.1), e1]
      rfl
end

theorem findVariant_some {test : β → Bool} {n : Nat} {T : FVTree β} {v : List Nat} {b : β} (hw : WF n T) (hv : v.length = n)
    (h : fvFindVariant test v T = some b) : (v, b) ∈ ents T ∧ test b = true := by
  induction v generalizing n T with
  | nil =>
    cases T with
    | node => cases h
    | leaf c cls => exact ⟨by simpa [ents] using List.mem_of_find?_eq_some h, by simpa using List.find?_some h⟩
  | cons k v ih =>
    obtain ⟨m, rfl⟩ : ∃ m, n = m + 1 := ⟨v.length, by simpa using hv.symm⟩
    cases T with
    | leaf => cases h
    | node c alts =>
      rw [fvFindVariant] at h
      split at h
      · cases h
      · rename_i t hg
        split at h
        · obtain ⟨h1, h2⟩ := ih (wfl_get hw.2 hg) (by simpa using hv) h
          refine ⟨?_, h2⟩
          obtain ⟨x, h3, -⟩ := entsL_set (i := k) hw.2 t
          refine h3.symm.subset ?_
          simp [entsAt, hg, under, h1]
        · cases h

theorem findVariant_complete {test : β → Bool} {n : Nat} {T : FVTree β} {v : List Nat} {b : β} (hw : WF n T) (hv : v.length = n)
    (hb : (v, b) ∈ ents T) (ht : test b = true) : (fvFindVariant test v T).isSome := by
  induction v generalizing n T with
  | nil =>
    subst hv
    cases T with
    | node c alts => obtain ⟨rfl, -⟩ := hw; simp [ents, entsL] at hb
    | leaf c cls =>
      rw [fvFindVariant, List.find?_isSome]
      exact ⟨b, by simpa [ents] using hb, ht⟩
  | cons k v ih =>
    obtain ⟨m, rfl⟩ : ∃ m, n = m + 1 := ⟨v.length, by simpa using hv.symm⟩
    cases T with
    | leaf => exact (hw : False).elim
    | node c alts =>
      obtain ⟨t, hg, hm⟩ := mem_entsL_get hw.2 hb
      rw [fvFindVariant, hg]
      have hwt := wfl_get hw.2 hg
      have : t.cnt ≠ 0 := fun h => by rw [hwt.cnt_zero.1 h] at hm; cases hm
      simp only
      rw [if_pos this]
      exact ih hwt (by simpa using hv) hm

end Verif.FVProof
