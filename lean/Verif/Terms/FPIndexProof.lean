import Verif.Terms.FPIndexSpec
import Mathlib.Data.List.Perm.Basic

/-!
# Proofs about fingerprint indices
-/

namespace Verif

namespace FPProof

variable {α : Type}

/-! ## Children -/

def keys (a : FPAlts α) : List Int := a.toList.map (·.1)

def Asc (a : FPAlts α) : Prop := (keys a).Pairwise (· < ·)

@[simp] theorem keys_nil : keys (α := α) .nil = [] := rfl
@[simp] theorem keys_cons (k t) (r : FPAlts α) : keys (.cons k t r) = k :: keys r := rfl

theorem asc_cons {k : Int} {t} {r : FPAlts α} : Asc (.cons k t r) ↔ (∀ i ∈ keys r, k < i) ∧ Asc r := by
  simp [Asc, List.pairwise_cons]

theorem get_set : ∀ (a : FPAlts α) (i : Int) (u) (j : Int), Asc a → (a.set i u).get j = if j = i then some u else a.get j
  | .nil, i, u, j, _ => by simp [FPAlts.set, FPAlts.get]
  | .cons k t r, i, u, j, h => by
    have ih := get_set r i u j (asc_cons.1 h).2
    simp only [FPAlts.set]
    split
    · rename_i hik
      subst hik
      simp only [FPAlts.get]
      split <;> rfl
    · split
      · simp only [FPAlts.get]
      · simp only [FPAlts.get, ih]
        split
        · rename_i h1 h2 h3
          subst h3
          rw [if_neg fun h => h1 h.symm]
        · rfl

theorem mem_keys_set : ∀ (a : FPAlts α) (i : Int) (u) (j : Int), j ∈ keys (a.set i u) ↔ j = i ∨ j ∈ keys a
  | .nil, i, u, j => by simp [FPAlts.set]
  | .cons k t r, i, u, j => by
    have ih := mem_keys_set r i u j
    simp only [FPAlts.set]
    split
    · rename_i h; subst h; simp
    · split
      · simp
      · simp only [keys_cons, List.mem_cons, ih]
        tauto

theorem asc_set : ∀ (a : FPAlts α) (i : Int) (u), Asc a → Asc (a.set i u)
  | .nil, i, u, _ => by simp [FPAlts.set, Asc]
  | .cons k t r, i, u, h => by
    obtain ⟨h1, h2⟩ := asc_cons.1 h
    simp only [FPAlts.set]
    split
    · exact asc_cons.2 ⟨h1, h2⟩
    · split
      · rename_i hn hl
        refine asc_cons.2 ⟨fun j hj => ?_, h⟩
        rcases List.mem_cons.1 hj with rfl | hj
        · exact hl
        · exact lt_trans hl (h1 j hj)
      · rename_i hn hl
        refine asc_cons.2 ⟨fun j hj => ?_, asc_set r i u h2⟩
        rcases (mem_keys_set r i u j).1 hj with rfl | hj
        · omega
        · exact h1 j hj

theorem length_set : ∀ (a : FPAlts α) (i : Int) (u), Asc a →
    (keys (a.set i u)).length = (keys a).length + (if (a.get i).isSome then 0 else 1)
  | .nil, i, u, _ => by simp [FPAlts.set, FPAlts.get]
  | .cons k t r, i, u, h => by
    obtain ⟨h1, h2⟩ := asc_cons.1 h
    have ih := length_set r i u h2
    simp only [FPAlts.set, FPAlts.get]
    split
    · simp
    · split
      · rename_i hn hl
        have : r.get i = none := by
          have : ∀ (r : FPAlts α), (∀ j ∈ keys r, k < j) → r.get i = none := by
            intro r
            induction r using FPAlts.rec (motive_1 := fun _ => True) with
            | node => trivial
            | nil => intro _; rfl
            | cons k' t' r' _ ih' =>
              intro hr
              have := hr k' (by simp)
              rw [FPAlts.get, if_neg (by omega)]
              exact ih' fun j hj => hr j (by simp [hj])
          exact this r h1
        simp [this]
      · simp [ih]; omega

theorem get_mem : ∀ (a : FPAlts α) (i : Int) (t), a.get i = some t → (i, t) ∈ a.toList
  | .nil, i, t, h => by simp [FPAlts.get] at h
  | .cons k u r, i, t, h => by
    simp only [FPAlts.get] at h
    split at h
    · rename_i hi
      cases h; subst hi
      simp [FPAlts.toList]
    · simp [FPAlts.toList, get_mem r i t h]

theorem mem_get : ∀ (a : FPAlts α) (i : Int) (t), Asc a → (i, t) ∈ a.toList → a.get i = some t
  | .nil, i, t, _, h => by simp [FPAlts.toList] at h
  | .cons k u r, i, t, hs, h => by
    obtain ⟨h1, h2⟩ := asc_cons.1 hs
    simp only [FPAlts.toList, List.mem_cons, Prod.mk.injEq] at h
    rcases h with ⟨rfl, rfl⟩ | h
    · simp [FPAlts.get]
    · have hk : k < i := h1 i (List.mem_map.2 ⟨_, h, rfl⟩)
      rw [FPAlts.get, if_neg (by omega), mem_get r i t h2 h]

theorem get_none {a : FPAlts α} {i : Int} (h : i ∉ keys a) : a.get i = none := by
  rcases hg : a.get i with _ | t
  · rfl
  · exact absurd (List.mem_map.2 ⟨_, get_mem a i t hg, rfl⟩) h

theorem mem_keys_del : ∀ (a : FPAlts α) (i j : Int), j ∈ keys (a.del i) → j ∈ keys a
  | .nil, i, j, h => h
  | .cons k t r, i, j, h => by
    simp only [FPAlts.del] at h
    split at h
    · simp [h]
    · simp only [keys_cons, List.mem_cons] at h ⊢
      exact h.imp id (mem_keys_del r i j)

theorem asc_del : ∀ (a : FPAlts α) (i : Int), Asc a → Asc (a.del i)
  | .nil, i, h => h
  | .cons k t r, i, h => by
    obtain ⟨h1, h2⟩ := asc_cons.1 h
    simp only [FPAlts.del]
    split
    · exact h2
    · exact asc_cons.2 ⟨fun j hj => h1 j (mem_keys_del r i j hj), asc_del r i h2⟩

theorem get_del : ∀ (a : FPAlts α) (i j : Int), Asc a → (a.del i).get j = if j = i then none else a.get j
  | .nil, i, j, _ => by simp [FPAlts.del, FPAlts.get]
  | .cons k t r, i, j, h => by
    obtain ⟨h1, h2⟩ := asc_cons.1 h
    have ih := get_del r i j h2
    simp only [FPAlts.del]
    split
    · rename_i hik
      subst hik
      simp only [FPAlts.get]
      split
      · rename_i hj; subst hj
        exact get_none fun hm => absurd (h1 _ hm) (lt_irrefl _)
      · rfl
    · simp only [FPAlts.get, ih]
      split
      · rename_i h1 h2
        subst h2
        rw [if_neg fun h => h1 h.symm]
      · rfl

theorem length_del : ∀ (a : FPAlts α) (i : Int) (t), a.get i = some t → (keys (a.del i)).length + 1 = (keys a).length
  | .nil, i, t, h => by simp [FPAlts.get] at h
  | .cons k u r, i, t, h => by
    simp only [FPAlts.get] at h
    simp only [FPAlts.del]
    split
    · simp
    · rename_i hn
      rw [if_neg hn] at h
      simp [length_del r i t h]

/-! ## The trie -/

/-- The payload at a path. -/
def ents (T : FPTree α) (path : List Int) : List α := (T.find path).getD []


/-- Well-formed tries: children in ascending order, counted correctly. -/
inductive WF : FPTree α → Prop
  | mk {a : FPAlts α} {c : Int} {p : List α} : Asc a → c = (keys a).length → (∀ i t, a.get i = some t → WF t) →
      WF (.node a c p)

theorem WF.asc {a : FPAlts α} {c p} (h : WF (.node a c p)) : Asc a := by cases h; assumption
theorem WF.count {a : FPAlts α} {c p} (h : WF (.node a c p)) : c = (keys a).length := by cases h; assumption
theorem WF.child {a : FPAlts α} {c p} (h : WF (.node a c p)) {i t} : a.get i = some t → WF t := by
  cases h with | mk _ _ h3 => exact h3 i t

theorem wf_empty : WF (FPTree.empty : FPTree α) := .mk (by simp [Asc]) (by simp) (by simp [FPAlts.get])

theorem wf_set {a : FPAlts α} {c p} (h : WF (.node a c p)) {i : Int} {u} (hu : WF u) :
    WF (.node (a.set i u) (c + if (a.get i).isSome then 0 else 1) p) := by
  refine .mk (asc_set a i u h.asc) ?_ fun j t hj => ?_
  · rw [length_set a i u h.asc, h.count]
    split <;> simp
  · rw [get_set a i u j h.asc] at hj
    split at hj
    · cases hj; exact hu
    · exact h.child hj

theorem wf_insert (f : List α → List α) : ∀ (key : List Int) (T : FPTree α), WF T → WF (T.insert f key)
  | [], .node a c p, h => .mk h.asc h.count fun _ _ => h.child
  | k :: ks, .node a c p, h => by
    rw [FPTree.insert]
    split
    · rename_i t hg
      have := wf_set h (i := k) (wf_insert f ks t (h.child hg))
      simpa [hg] using this
    · rename_i hg
      have := wf_set h (i := k) (wf_insert f ks _ wf_empty)
      simpa [hg] using this

theorem wf_modify (f : List α → List α) : ∀ (key : List Int) (T : FPTree α), WF T → WF (T.modify f key)
  | [], .node a c p, h => .mk h.asc h.count fun _ _ => h.child
  | k :: ks, .node a c p, h => by
    rw [FPTree.modify]
    split
    · rename_i t hg
      have := wf_set h (i := k) (wf_modify f ks t (h.child hg))
      simpa [hg] using this
    · exact h

theorem wf_rekDelete : ∀ (key : List Int) (T : FPTree α), WF T → WF (T.rekDelete key).2
  | [], .node a c p, h => h
  | k :: ks, .node a c p, h => by
    rw [FPTree.rekDelete]
    split
    · exact h
    · rename_i t hg
      simp only
      split
      · refine .mk (asc_del a k h.asc) ?_ fun j u hj => ?_
        · have := length_del a k t hg
          rw [h.count]; omega
        · rw [get_del a k j h.asc] at hj
          split at hj
          · cases hj
          · exact h.child hj
      · have := wf_set h (i := k) (wf_rekDelete ks t (h.child hg))
        simpa [hg] using this

@[simp] theorem ents_nil (a : FPAlts α) (c p) : ents (.node a c p) [] = p := rfl
theorem ents_cons (a : FPAlts α) (c p) (k ks) :
    ents (.node a c p) (k :: ks) = match a.get k with | some t => ents t ks | none => [] := by
  rw [ents, FPTree.find]
  cases a.get k <;> rfl

theorem ents_empty : ∀ path, ents (FPTree.empty : FPTree α) path = []
  | [] => rfl
  | k :: ks => by rw [FPTree.empty, ents_cons]; rfl

theorem ents_insert (f : List α → List α) : ∀ (key : List Int) (T : FPTree α), WF T → ∀ path,
    ents (T.insert f key) path = if path = key then f (ents T key) else ents T path
  | [], .node a c p, h, path => by
    cases path with
    | nil => simp [FPTree.insert]
    | cons k ks => simp [FPTree.insert, ents_cons]
  | k :: ks, .node a c p, h, path => by
    rw [FPTree.insert]
    cases path with
    | nil => split <;> simp
    | cons j js =>
      split
      · rename_i t hg
        rw [ents_cons, get_set a k _ j h.asc]
        by_cases hj : j = k
        · subst hj
          simp [ents_insert f ks t (h.child hg) js, ents_cons, hg]
        · simp [hj, ents_cons]
      · rename_i hg
        rw [ents_cons, get_set a k _ j h.asc]
        by_cases hj : j = k
        · subst hj
          simp [ents_insert f ks _ wf_empty js, ents_cons, hg, ents_empty]
        · simp [hj, ents_cons]

theorem ents_modify (f : List α → List α) : ∀ (key : List Int) (T : FPTree α), WF T → (T.find key).isSome → ∀ path,
    ents (T.modify f key) path = if path = key then f (ents T key) else ents T path
  | [], .node a c p, h, _, path => by
    cases path with
    | nil => simp [FPTree.modify]
    | cons k ks => simp [FPTree.modify, ents_cons]
  | k :: ks, .node a c p, h, hf, path => by
    rw [FPTree.modify]
    rw [FPTree.find] at hf
    cases path with
    | nil => split <;> simp
    | cons j js =>
      split
      · rename_i t hg
        rw [hg] at hf
        rw [ents_cons, get_set a k _ j h.asc]
        by_cases hj : j = k
        · subst hj
          simp [ents_modify f ks t (h.child hg) hf js, ents_cons, hg]
        · simp [hj, ents_cons]
      · rename_i hg
        rw [hg] at hf; cases hf

/-- Deleting a leaf without payload does not change what is stored. -/
theorem ents_rekDelete : ∀ (key : List Int) (T : FPTree α) (V : List Int → Prop), WF T →
    (∀ p q, V p → V (p ++ q) → q = []) → V key → (∀ path, ents T path ≠ [] → V path) → ents T key = [] →
    (∀ path, ents (T.rekDelete key).2 path = ents T path) ∧
    ((T.rekDelete key).1 = true → ∀ path, ents T path = [])
  | [], .node a c p, V, h, hp, hk, hV, he => by
    refine ⟨fun _ => rfl, fun _ path => ?_⟩
    by_contra hne
    have := hp [] path hk (by simpa using hV path hne)
    subst this
    exact hne he
  | k :: ks, .node a c p, V, h, hp, hk, hV, he => by
    have hroot : p = [] := by
      by_contra hne
      have := hp [] (k :: ks) (hV [] hne) hk
      cases this
    rw [FPTree.rekDelete]
    rcases hg : a.get k with _ | t
    · refine ⟨fun _ => rfl, fun hc path => ?_⟩
      have hc : c = 0 := by simpa using hc
      have : keys a = [] := by
        have := h.count; rw [hc] at this
        exact List.length_eq_zero_iff.1 (by omega)
      cases path with
      | nil => exact hroot
      | cons j js => rw [ents_cons, get_none (by simp [this])]
    · have ih := ents_rekDelete ks t (fun q => V (k :: q)) (h.child hg) (fun p q h1 h2 => hp (k :: p) q h1 (by simpa using h2)) hk
        (fun path hne => hV (k :: path) (by rw [ents_cons, hg]; exact hne)) (by simpa [ents_cons, hg] using he)
      simp only
      by_cases hd : (FPTree.rekDelete ks t).1 = true
      · have hall := ih.2 hd
        simp only [hd, if_true]
        refine ⟨fun path => ?_, fun hc path => ?_⟩
        · cases path with
          | nil => rfl
          | cons j js =>
            rw [ents_cons, ents_cons, get_del a k j h.asc]
            by_cases hj : j = k
            · subst hj; simp [hg, hall]
            · simp [hj]
        · have hc : c - 1 = 0 := by simpa using hc
          have hl := length_del a k t hg
          have hz : keys (a.del k) = [] := List.length_eq_zero_iff.1 (by have := h.count; omega)
          cases path with
          | nil => exact hroot
          | cons j js =>
            by_cases hj : j = k
            · subst hj; rw [ents_cons, hg]; exact hall js
            · have := get_del a k j h.asc
              rw [get_none (by simp [hz]), if_neg hj] at this
              rw [ents_cons, ← this]
      · simp only [hd]
        refine ⟨fun path => ?_, fun hc => ?_⟩
        · cases path with
          | nil => rfl
          | cons j js =>
            simp only [Bool.false_eq_true, if_false]
            rw [ents_cons, ents_cons, get_set a k _ j h.asc]
            by_cases hj : j = k
            · subst hj; simp [hg, ih.1]
            · simp [hj]
        · exfalso
          simp only [Bool.false_eq_true, if_false, beq_iff_eq] at hc
          have := h.count
          have hz : keys a = [] := List.length_eq_zero_iff.1 (by omega)
          rw [get_none (by simp [hz])] at hg
          cases hg

/-! ## All nodes of the trie -/

mutual
/-- All nodes with their paths. -/
def leaves : FPTree α → List (List Int × List α)
  | .node a _ p => ([], p) :: leavesL a
def leavesL : FPAlts α → List (List Int × List α)
  | .nil => []
  | .cons k t r => (leaves t).map (fun e => (k :: e.1, e.2)) ++ leavesL r
end

theorem leavesL_eq : ∀ a : FPAlts α, leavesL a = a.toList.flatMap fun kt => (leaves kt.2).map fun e => (kt.1 :: e.1, e.2)
  | .nil => rfl
  | .cons k t r => by simp [leavesL, FPAlts.toList, leavesL_eq r]

theorem mem_leaves : ∀ (path : List Int) (T : FPTree α) (p : List α), WF T → ((path, p) ∈ leaves T ↔ T.find path = some p)
  | [], .node a c q, p, h => by
    rw [leaves, leavesL_eq]
    simp [FPTree.find, eq_comm]
  | k :: ks, .node a c q, p, h => by
    rw [leaves, leavesL_eq]
    simp only [List.mem_cons, Prod.mk.injEq, reduceCtorEq, false_and, false_or, List.mem_flatMap, List.mem_map, Prod.exists,
      List.cons.injEq, FPTree.find]
    constructor
    · rintro ⟨j, t, hm, path', p', hl, ⟨rfl, rfl⟩, rfl⟩
      have hg := mem_get a j t h.asc hm
      rw [hg]
      exact (mem_leaves _ t _ (h.child hg)).1 hl
    · intro hf
      rcases hg : a.get k with _ | t
      · rw [hg] at hf; cases hf
      · rw [hg] at hf
        exact ⟨k, t, get_mem a k t hg, ks, p, (mem_leaves ks t p (h.child hg)).2 hf, ⟨rfl, rfl⟩, rfl⟩


/-! ## Searching -/

/-- Compatibility of samples for unification. -/
def compatU (uv : Int → Bool) (k s : Int) : Bool :=
  if 0 < k then s == k || (uv k && (s == anyVar || s == belowVar))
  else if k = notInTerm then s == notInTerm || s == belowVar
  else if k = belowVar ∨ k = anyVar then
    (s == anyVar || s == belowVar) || (decide ((if k = belowVar then 0 else 1) ≤ s) && (decide (s ≤ 0) || uv s))
  else false

/-- Compatibility of samples for matching (the query is `k`). -/
def compatM (uv : Int → Bool) (k s : Int) : Bool :=
  if 0 < k then s == k
  else if k = notInTerm then s == notInTerm
  else if k = belowVar ∨ k = anyVar then
    (s == anyVar || (decide (k = belowVar) && s == belowVar)) ||
      (decide ((if k = belowVar then 0 else 1) ≤ s) && (decide (s ≤ 0) || uv s))
  else false

def accept (c : Int → Int → Bool) : List Int → List Int → Bool
  | [], [] => true
  | k :: ks, s :: ss => c k s && accept c ks ss
  | _, _ => false

/-- The payloads of the nodes whose path satisfies `g`. -/
def pick (g : List Int → Bool) (T : FPTree α) : List (List α) := ((leaves T).filter fun e => g e.1).map (·.2)

theorem filter_or_perm {γ : Type} (p q : γ → Bool) : ∀ l : List γ, (∀ x ∈ l, ¬ (p x = true ∧ q x = true)) →
    (l.filter p ++ l.filter q).Perm (l.filter fun x => p x || q x)
  | [], _ => by simp
  | x :: l, h => by
    have ih := filter_or_perm p q l fun y hy => h y (by simp [hy])
    have hx := h x (by simp)
    rcases hp : p x with _ | _ <;> rcases hq : q x with _ | _
    · simpa [hp, hq] using ih
    · simp only [hp, hq, List.filter_cons, Bool.false_eq_true, if_false, if_true, Bool.false_or]
      exact List.perm_middle.trans (ih.cons x)
    · simp only [hp, hq, List.filter_cons, Bool.false_eq_true, if_false, if_true, Bool.true_or]
      exact ih.cons x
    · exact absurd ⟨hp, hq⟩ hx

/-- The recursive calls for the children whose key satisfies `sel`. -/
def calls (F : Int → FPTree α → List (List α)) (a : FPAlts α) (sel : Int → Bool) : List (List α) :=
  (a.toList.filter fun kt => sel kt.1).flatMap fun kt => F kt.1 kt.2

theorem calls_or (F : Int → FPTree α → List (List α)) (a : FPAlts α) (p q : Int → Bool) (h : ∀ i, ¬ (p i = true ∧ q i = true)) :
    (calls F a p ++ calls F a q).Perm (calls F a fun i => p i || q i) := by
  unfold calls
  rw [← List.flatMap_append]
  exact List.Perm.flatMap_right _ (filter_or_perm _ _ _ fun x _ => h x.1)

theorem calls_none (F : Int → FPTree α → List (List α)) (a : FPAlts α) (p : Int → Bool) (h : ∀ i, p i = false) : calls F a p = [] := by
  unfold calls
  rw [List.filter_eq_nil_iff.2 (by simp [h])]
  rfl

theorem calls_congr (F : Int → FPTree α → List (List α)) (a : FPAlts α) {p q : Int → Bool} (h : ∀ i, p i = q i) :
    calls F a p = calls F a q := by
  rw [show p = q from funext h]

theorem follow_eq (F : FPTree α → List (List α)) : ∀ (a : FPAlts α) (k : Int), Asc a →
    a.follow F k = calls (fun _ => F) a fun i => i == k
  | .nil, k, _ => rfl
  | .cons j t r, k, h => by
    obtain ⟨h1, h2⟩ := asc_cons.1 h
    have ih := follow_eq F r k h2
    unfold FPAlts.follow at ih ⊢
    unfold calls at ih ⊢
    rw [FPAlts.get, FPAlts.toList]
    by_cases hk : k = j
    · subst hk
      have : r.toList.filter (fun kt => kt.1 == k) = [] := by
        rw [List.filter_eq_nil_iff]
        intro x hx
        have := h1 x.1 (List.mem_map.2 ⟨x, hx, rfl⟩)
        simp only [beq_iff_eq]
        omega
      simp [this]
    · rw [if_neg hk, List.filter_cons_of_neg (by simpa using fun h => hk h.symm), ih]

theorem iter_eq (F : FPTree α → List (List α)) (uv : Int → Bool) (a : FPAlts α) (lo : Int) :
    a.iter F uv lo = calls (fun _ => F) a fun i => decide (lo ≤ i) && (decide (i ≤ 0) || uv i) := rfl

/-- Collecting the answers of the children. -/
theorem calls_perm {F : Int → FPTree α → List (List α)} {a : FPAlts α} {sel : Int → Bool} {g : Int → List Int → Bool} {G : List Int → Bool}
    (hF : ∀ i t, (i, t) ∈ a.toList → sel i = true → (F i t).Perm (pick (g i) t))
    (hG : ∀ i ss, G (i :: ss) = (sel i && g i ss)) {c : Int} {p : List α} (h0 : G [] = false) :
    (calls F a sel).Perm (pick G (.node a c p)) := by
  unfold pick
  rw [leaves, List.filter_cons_of_neg (by simp [h0]), leavesL_eq]
  unfold calls
  generalize a.toList = l at hF ⊢
  induction l with
  | nil => simp
  | cons x l ih =>
    have ih := ih fun i t hm hs => hF i t (by simp [hm]) hs
    rw [List.flatMap_cons, List.filter_append, List.map_append]
    rcases hs : sel x.1 with _ | _
    · rw [List.filter_cons_of_neg (by simp [hs])]
      have : ((leaves x.2).map fun e => (x.1 :: e.1, e.2)).filter (fun e => G e.1) = [] := by
        rw [List.filter_eq_nil_iff]
        intro e he
        obtain ⟨e', _, rfl⟩ := List.mem_map.1 he
        simp [hG, hs]
      rw [this]
      simpa using ih
    · rw [List.filter_cons_of_pos (by simp [hs]), List.flatMap_cons]
      refine List.Perm.append ?_ ih
      refine (hF x.1 x.2 (by simp) hs).trans ?_
      rw [List.filter_map, List.map_map]
      unfold pick
      rw [show ((fun e : List Int × List α => G e.1) ∘ fun e : List Int × List α => (x.1 :: e.1, e.2)) = fun e : List Int × List α => g x.1 e.1 from by
        funext e; simp [hG, hs]]
      exact List.Perm.refl _

theorem pick_nil {a : FPAlts α} {c p} {G : List Int → Bool} (h0 : G [] = true) (h : ∀ i ss, G (i :: ss) = false) :
    pick G (.node a c p) = [p] := by
  unfold pick
  rw [leaves, List.filter_cons_of_pos (by simpa using h0), leavesL_eq, List.filter_eq_nil_iff.2]
  · rfl
  · intro e he
    obtain ⟨x, _, he⟩ := List.mem_flatMap.1 he
    obtain ⟨e', _, rfl⟩ := List.mem_map.1 he
    simp [h]

theorem findUnif_perm (uv : Int → Bool) : ∀ (key : List Int) (T : FPTree α), WF T →
    (fpFindUnif uv key T).Perm (pick (accept (compatU uv) key) T)
  | [], .node a c p, h => by
    rw [pick_nil rfl fun _ _ => rfl]
    exact List.Perm.refl _
  | k :: ks, .node a c p, h => by
    have e1 : anyVar = -1 := rfl
    have e2 : belowVar = -2 := rfl
    have e3 : notInTerm = 0 := rfl
    have key : ∀ sel : Int → Bool, (∀ s, sel s = compatU uv k s) →
        (calls (fun _ => fpFindUnif uv ks) a sel).Perm (pick (accept (compatU uv) (k :: ks)) (.node a c p)) := by
      intro sel hsel
      refine calls_perm (g := fun _ => accept (compatU uv) ks) (fun i t hm _ => findUnif_perm uv ks t (h.child (mem_get a i t h.asc hm))) (fun i ss => ?_) rfl
      rw [hsel]; rfl
    rw [fpFindUnif]
    simp only [follow_eq _ a _ h.asc, iter_eq]
    split
    · rename_i hk
      split
      · rename_i hu
        refine List.Perm.trans ?_ (key (fun i => i == k || (i == anyVar || i == belowVar)) fun s => by simp [compatU, hk, hu])
        refine (List.Perm.append_left _ (calls_or _ a _ _ fun i => ?_)).trans (calls_or _ a _ _ fun i => ?_)
        · simp only [beq_iff_eq]; omega
        · simp only [beq_iff_eq, Bool.or_eq_true]; omega
      · rename_i hu
        rw [List.append_nil]
        exact key _ fun s => by simp [compatU, hk, hu]
    · rename_i hk
      split
      · rename_i h0
        refine (calls_or _ a _ _ fun i => ?_).trans (key _ fun s => by simp [compatU, h0])
        simp only [beq_iff_eq]; omega
      · rename_i h0
        split
        · rename_i hv
          refine List.Perm.trans ?_ (key _ fun s => by rw [compatU, if_neg hk, if_neg h0, if_pos hv])
          refine (List.Perm.append_right _ (calls_or _ a _ _ fun i => ?_)).trans (calls_or _ a _ _ fun i => ?_)
          · simp only [beq_iff_eq]; omega
          · simp only [beq_iff_eq, Bool.or_eq_true, Bool.and_eq_true, decide_eq_true_eq]
            split <;> omega
        · rename_i hv
          have := key (fun _ => false) fun s => by rw [compatU, if_neg hk, if_neg h0, if_neg hv]
          rwa [calls_none _ _ _ fun _ => rfl] at this

theorem findMatch_perm (uv : Int → Bool) : ∀ (key : List Int) (T : FPTree α), WF T →
    (fpFindMatch uv key T).Perm (pick (accept (compatM uv) key) T)
  | [], .node a c p, h => by
    rw [pick_nil rfl fun _ _ => rfl]
    exact List.Perm.refl _
  | k :: ks, .node a c p, h => by
    have e1 : anyVar = -1 := rfl
    have e2 : belowVar = -2 := rfl
    have e3 : notInTerm = 0 := rfl
    have key : ∀ sel : Int → Bool, (∀ s, sel s = compatM uv k s) →
        (calls (fun _ => fpFindMatch uv ks) a sel).Perm (pick (accept (compatM uv) (k :: ks)) (.node a c p)) := by
      intro sel hsel
      refine calls_perm (g := fun _ => accept (compatM uv) ks) (fun i t hm _ => findMatch_perm uv ks t (h.child (mem_get a i t h.asc hm))) (fun i ss => ?_) rfl
      rw [hsel]; rfl
    rw [fpFindMatch]
    simp only [follow_eq _ a _ h.asc, iter_eq]
    split
    · rename_i hk
      exact key _ fun s => by simp [compatM, hk]
    · rename_i hk
      split
      · rename_i h0
        exact key _ fun s => by simp [compatM, h0]
      · rename_i h0
        split
        · rename_i hv
          by_cases hb : k = belowVar
          · refine List.Perm.trans ?_ (key _ fun s => by rw [compatM, if_neg hk, if_neg h0, if_pos hv])
            simp only [hb, if_true]
            refine (List.Perm.append_right _ (calls_or _ a _ _ fun i => ?_)).trans ((calls_or _ a _ _ fun i => ?_).trans ?_)
            · simp only [beq_iff_eq]; omega
            · simp only [beq_iff_eq, Bool.or_eq_true, Bool.and_eq_true, decide_eq_true_eq]
              omega
            · rw [calls_congr]
              intro i
              simp
          · refine List.Perm.trans ?_ (key _ fun s => by rw [compatM, if_neg hk, if_neg h0, if_pos hv])
            simp only [hb, if_false, List.append_nil, decide_false, Bool.false_and, Bool.or_false]
            refine calls_or _ a _ _ fun i => ?_
            simp only [beq_iff_eq, Bool.and_eq_true, decide_eq_true_eq]
            omega
        · rename_i hv
          have := key (fun _ => false) fun s => by rw [compatM, if_neg hk, if_neg h0, if_neg hv]
          rwa [calls_none _ _ _ fun _ => rfl] at this

/-! ### Discrimination tree keys -/

def dtAccM (uv : Int → Bool) (ar : Nat → Nat) : List Int → List Int → Nat → Bool
  | [], key, skip => decide (skip = 0) && key.isEmpty
  | s :: ss, key, skip =>
    if skip ≠ 0 then decide (belowVar ≤ s) && dtAccM uv ar ss key (skip - 1 + symArity ar s)
    else match key with
      | [] => false
      | k :: ks =>
        if k = anyVar then (decide (belowVar ≤ s) && (decide (s ≤ 0) || uv s)) && dtAccM uv ar ss ks (symArity ar s)
        else s == k && dtAccM uv ar ss ks 0

def dtAccU (uv : Int → Bool) (ar : Nat → Nat) : List Int → List Int → Nat → Bool
  | [], key, skip => decide (skip = 0) && key.isEmpty
  | s :: ss, key, skip =>
    if skip ≠ 0 then decide (belowVar ≤ s) && dtAccU uv ar ss key (skip - 1 + symArity ar s)
    else match key with
      | [] => false
      | k :: ks =>
        if k = anyVar then (decide (belowVar ≤ s) && (decide (s ≤ 0) || uv s)) && dtAccU uv ar ss ks (symArity ar s)
        else (s == k && dtAccU uv ar ss ks 0) ||
          ((decide (k ≤ 0) || uv k) && s == anyVar && dtAccU uv ar ss (dropKey ar (symArity ar k) ks) 0)

theorem dtFindMatchL_eq (uv : Int → Bool) (ar : Nat → Nat) : ∀ (a : FPAlts α) (sel : Int → Bool) (key : List Int) (skip : Int → Nat),
    dtFindMatchL uv ar a sel key skip = calls (fun i t => dtFindMatch uv ar t key (skip i)) a sel
  | .nil, sel, key, skip => by rw [dtFindMatchL]; rfl
  | .cons i t r, sel, key, skip => by
    rw [dtFindMatchL, dtFindMatchL_eq uv ar r sel key skip]
    unfold calls
    rw [FPAlts.toList, List.filter_cons]
    split <;> simp

theorem dtFindUnifL_eq (uv : Int → Bool) (ar : Nat → Nat) : ∀ (a : FPAlts α) (sel : Int → Bool) (key : List Int) (skip : Int → Nat),
    dtFindUnifL uv ar a sel key skip = calls (fun i t => dtFindUnif uv ar t key (skip i)) a sel
  | .nil, sel, key, skip => by rw [dtFindUnifL]; rfl
  | .cons i t r, sel, key, skip => by
    rw [dtFindUnifL, dtFindUnifL_eq uv ar r sel key skip]
    unfold calls
    rw [FPAlts.toList, List.filter_cons]
    split <;> simp

theorem dtMatch_perm (uv : Int → Bool) (ar : Nat → Nat) (T : FPTree α) (h : WF T) : ∀ (key : List Int) (skip : Nat),
    (dtFindMatch uv ar T key skip).Perm (pick (fun path => dtAccM uv ar path key skip) T) := by
  induction h with
  | @mk a c p ha hc hch ih =>
    intro key skip
    have hc' : ∀ i t, (i, t) ∈ a.toList → ∀ key skip,
        (dtFindMatch uv ar t key skip).Perm (pick (fun path => dtAccM uv ar path key skip) t) :=
      fun i t hm => ih i t (mem_get a i t ha hm)
    unfold dtFindMatch
    by_cases hs : skip ≠ 0
    · rw [if_pos hs, dtFindMatchL_eq]
      refine calls_perm (g := fun i path => dtAccM uv ar path key (skip - 1 + symArity ar i)) (fun i t hm _ => hc' i t hm _ _)
        (fun i ss => by cases key <;> simp [dtAccM, hs]) (by simp [dtAccM, hs])
    · rw [if_neg hs]
      have hs : skip = 0 := by simpa using hs
      subst hs
      cases key with
      | nil => rw [pick_nil (by simp [dtAccM]) (fun i ss => by simp [dtAccM])]
      | cons k ks =>
        simp only
        by_cases hk : k = anyVar
        · rw [if_pos hk, dtFindMatchL_eq]
          refine calls_perm (g := fun i path => dtAccM uv ar path ks (symArity ar i)) (fun i t hm _ => hc' i t hm _ _)
            (fun i ss => by rw [dtAccM]; simp [hk]) (by simp [dtAccM])
        · rw [if_neg hk, dtFindMatchL_eq]
          refine calls_perm (g := fun i path => dtAccM uv ar path ks 0) (fun i t hm _ => hc' i t hm _ _)
            (fun i ss => by rw [dtAccM]; simp [hk]) (by simp [dtAccM])

theorem calls_two {F F' : Int → FPTree α → List (List α)} {a : FPAlts α} {p q : Int → Bool} (h : ∀ i, ¬ (p i = true ∧ q i = true)) :
    (calls F a p ++ calls F' a q).Perm (calls (fun i t => if p i then F i t else F' i t) a fun i => p i || q i) := by
  refine List.Perm.trans ?_ (calls_or _ a p q h)
  refine List.Perm.of_eq ?_
  unfold calls
  congr 1
  · refine List.flatMap_congr fun x hx => ?_
    exact (if_pos (List.mem_filter.1 hx).2).symm
  · refine List.flatMap_congr fun x hx => ?_
    exact (if_neg fun hp => h x.1 ⟨hp, (List.mem_filter.1 hx).2⟩).symm

theorem dtUnif_perm (uv : Int → Bool) (ar : Nat → Nat) (T : FPTree α) (h : WF T) : ∀ (key : List Int) (skip : Nat),
    (dtFindUnif uv ar T key skip).Perm (pick (fun path => dtAccU uv ar path key skip) T) := by
  induction h with
  | @mk a c p ha hc hch ih =>
    intro key skip
    have hc' : ∀ i t, (i, t) ∈ a.toList → ∀ key skip,
        (dtFindUnif uv ar t key skip).Perm (pick (fun path => dtAccU uv ar path key skip) t) :=
      fun i t hm => ih i t (mem_get a i t ha hm)
    unfold dtFindUnif
    by_cases hs : skip ≠ 0
    · rw [if_pos hs, dtFindUnifL_eq]
      refine calls_perm (g := fun i path => dtAccU uv ar path key (skip - 1 + symArity ar i)) (fun i t hm _ => hc' i t hm _ _)
        (fun i ss => by cases key <;> simp [dtAccU, hs]) (by simp [dtAccU, hs])
    · rw [if_neg hs]
      have hs : skip = 0 := by simpa using hs
      subst hs
      cases key with
      | nil => rw [pick_nil (by simp [dtAccU]) (fun i ss => by simp [dtAccU])]
      | cons k ks =>
        simp only
        by_cases hk : k = anyVar
        · rw [if_pos hk, dtFindUnifL_eq]
          refine calls_perm (g := fun i path => dtAccU uv ar path ks (symArity ar i)) (fun i t hm _ => hc' i t hm _ _)
            (fun i ss => by rw [dtAccU]; simp [hk]) (by simp [dtAccU])
        · rw [if_neg hk, dtFindUnifL_eq, dtFindUnifL_eq]
          by_cases hu : (decide (k ≤ 0) || uv k) = true
          · rw [if_pos hu]
            refine (calls_two fun i => ?_).trans ?_
            · simp only [beq_iff_eq]; rintro ⟨rfl, h⟩; exact hk h
            · refine calls_perm (g := fun i path => if i == k then dtAccU uv ar path ks 0 else dtAccU uv ar path (dropKey ar (symArity ar k) ks) 0)
                (fun i t hm _ => ?_) (fun i ss => ?_) (by simp [dtAccU])
              · split
                · exact hc' i t hm _ _
                · exact hc' i t hm _ _
              · rw [dtAccU]
                simp only [ne_eq, not_true_eq_false, if_false, hk, hu, Bool.true_and]
                by_cases hi : i = k
                · subst hi
                  have : (i == anyVar) = false := by simpa using hk
                  simp [this]
                · have : (i == k) = false := by simpa using hi
                  simp [this]
          · rw [if_neg hu, List.append_nil]
            refine calls_perm (g := fun i path => dtAccU uv ar path ks 0) (fun i t hm _ => hc' i t hm _ _)
              (fun i ss => ?_) (by simp [dtAccU])
            rw [dtAccU]
            have : (decide (k ≤ 0) || uv k) = false := by simpa using hu
            simp only [ne_eq, not_true_eq_false, if_false, hk, this, Bool.false_and, Bool.or_false]

theorem mem_pick {g : List Int → Bool} {T : FPTree α} (h : WF T) {p : List α} :
    p ∈ pick g T ↔ ∃ path, T.find path = some p ∧ g path = true := by
  unfold pick
  simp only [List.mem_map, List.mem_filter, Prod.exists, exists_eq_right]
  constructor
  · rintro ⟨path, hm, hg⟩
    exact ⟨path, (mem_leaves path T p h).1 hm, hg⟩
  · rintro ⟨path, hm, hg⟩
    exact ⟨path, (mem_leaves path T p h).2 hm, hg⟩

end FPProof

end Verif
