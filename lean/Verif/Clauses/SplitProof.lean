import Verif.Clauses.Split
import Mathlib.Data.List.Perm.Basic

/-!
# The parts found by splitting

Helper lemmas for `Verif.Props.Split`: the table of literals during the search for variable-disjoint parts.
-/

namespace Verif.SplitProof

/-- How one literal of the table may change while a part `k` with variables `H` is built. -/
def Chg (k : Nat) (H : List Nat) (e e' : LitDesc) : Prop :=
  e'.lit = e.lit ∧ (e' = e ∨ (e.part = 0 ∧ e'.part = k ∧ ∀ x ∈ e.vs, x ∈ H))

theorem Chg.mono {k : Nat} {H H' : List Nat} (h : ∀ x ∈ H, x ∈ H') {e e' : LitDesc} (c : Chg k H e e') : Chg k H' e e' :=
  ⟨c.1, c.2.imp id fun ⟨a, b, c⟩ => ⟨a, b, fun x hx => h x (c x hx)⟩⟩

theorem Chg.refl (k : Nat) (H : List Nat) (e : LitDesc) : Chg k H e e := ⟨rfl, Or.inl rfl⟩

theorem Chg.trans {k : Nat} (hk : k ≠ 0) {H : List Nat} {a b c : LitDesc} (h1 : Chg k H a b) (h2 : Chg k H b c) :
    Chg k H a c := by
  refine ⟨h2.1.trans h1.1, ?_⟩
  rcases h1.2 with rfl | ⟨p1, p2, p3⟩
  · exact h2.2
  · rcases h2.2 with rfl | ⟨q1, -, -⟩
    · exact Or.inr ⟨p1, p2, p3⟩
    · omega

theorem forall₂_trans {α : Type} {R : α → α → Prop} (hR : ∀ a b c, R a b → R b c → R a c) {l1 l2 l3 : List α}
    (h1 : List.Forall₂ R l1 l2) (h2 : List.Forall₂ R l2 l3) : List.Forall₂ R l1 l3 := by
  induction h1 generalizing l3 with
  | nil => cases h2; exact .nil
  | cons a _ ih => cases h2 with | cons b h => exact .cons (hR _ _ _ a b) (ih h)

theorem partPass_spec (k : Nat) (new : Bool) (vs : List Nat) (l : List LitDesc) :
    List.Forall₂ (Chg k (partPass k new vs l).2.1) l (partPass k new vs l).2.2 ∧
    (∀ x ∈ vs, x ∈ (partPass k new vs l).2.1) ∧
    ((partPass k new vs l).1 = false → new = false ∧ (∀ x ∈ (partPass k new vs l).2.1, x ∈ vs) ∧
      (k ≠ 0 → ∀ e ∈ (partPass k new vs l).2.2, e.part = 0 → ∀ x ∈ e.vs, x ∉ vs)) := by
  induction l generalizing new vs with
  | nil => simp [partPass]
  | cons e l ih =>
    by_cases h : e.part = 0 ∧ e.vs.any (fun x => vs.contains x) = true
    · rw [partPass, if_pos h]
      obtain ⟨i1, i2, i3⟩ := ih (!(e.vs.filter fun x => !vs.contains x).isEmpty || new)
        (vs ++ e.vs.filter fun x => !vs.contains x)
      dsimp only
      refine ⟨.cons ⟨rfl, Or.inr ⟨h.1, rfl, fun x hx => i2 x ?_⟩⟩ i1, fun x hx => i2 x (by simp [hx]), fun hf => ?_⟩
      · by_cases hv : x ∈ vs <;> simp [hv, hx]
      · obtain ⟨j1, j2, j3⟩ := i3 hf
        have hn : (e.vs.filter fun x => !vs.contains x) = [] := by
          cases hh : (e.vs.filter fun x => !vs.contains x) with
          | nil => rfl
          | cons a b => rw [hh] at j1; simp at j1
        rw [hn] at j1 j2 j3 ⊢
        simp only [List.append_nil] at j2 j3 ⊢
        refine ⟨by simpa using j1, j2, fun hk e' he' hp => ?_⟩
        rcases List.mem_cons.1 he' with rfl | he'
        · exact absurd hp hk
        · exact j3 hk e' he' hp
    · rw [partPass, if_neg h]
      obtain ⟨i1, i2, i3⟩ := ih new vs
      dsimp only
      refine ⟨.cons (Chg.refl _ _ _) i1, i2, fun hf => ?_⟩
      obtain ⟨j1, j2, j3⟩ := i3 hf
      refine ⟨j1, j2, fun hk e' he' hp => ?_⟩
      rcases List.mem_cons.1 he' with rfl | he'
      · intro x hx hv
        exact h ⟨hp, by simpa using ⟨x, hx, hv⟩⟩
      · exact j3 hk e' he' hp

theorem partLoop_spec (k : Nat) (hk : k ≠ 0) (vs : List Nat) (l : List LitDesc) :
    List.Forall₂ (Chg k (partLoop k vs l).1) l (partLoop k vs l).2 ∧ (∀ x ∈ vs, x ∈ (partLoop k vs l).1) ∧
    ∀ e ∈ (partLoop k vs l).2, e.part = 0 → ∀ x ∈ e.vs, x ∉ (partLoop k vs l).1 := by
  fun_induction partLoop k vs l with
  | case1 vs l h ih =>
    obtain ⟨i1, i2, i3⟩ := ih
    obtain ⟨j1, j2, -⟩ := partPass_spec k false vs l
    exact ⟨forall₂_trans (R := Chg k _) (fun a b c => Chg.trans hk) (j1.imp fun _ _ => Chg.mono i2) i1,
      fun x hx => i2 x (j2 x hx), i3⟩
  | case2 vs l h =>
    obtain ⟨j1, j2, j3⟩ := partPass_spec k false vs l
    have hf : (partPass k false vs l).1 = false := by
      cases hh : (partPass k false vs l).1 with
      | false => rfl
      | true => exact absurd ⟨hh, hk⟩ h
    obtain ⟨-, q2, q3⟩ := j3 hf
    exact ⟨j1, j2, fun e he hp x hx hm => q3 hk e he hp x hx (q2 x hm)⟩

/-- Invariant of the table of literals. -/
structure TInv (sv : List Nat) (C : List OLit) (n : Nat) (T : List LitDesc) : Prop where
  lits : T.map LitDesc.lit = C
  free : ∀ e ∈ T, e.part = 0 → e.vs = LitDesc.own sv e.lit
  disj : ∀ e ∈ T, ∀ e' ∈ T, e.part ≠ 0 → e.part ≠ e'.part → ∀ x ∈ LitDesc.own sv e.lit, x ∉ LitDesc.own sv e'.lit
  bound : ∀ e ∈ T, e.part ≤ max 1 n
  ground : n = 0 → ∀ e ∈ T, e.part ≠ 0 → LitDesc.own sv e.lit = []
  used : ∀ k, 0 < k → k ≤ n → ∃ e ∈ T, e.part = k

theorem forall₂_mem_right {α β : Type} {R : α → β → Prop} {l : List α} {l' : List β} (h : List.Forall₂ R l l') :
    ∀ b ∈ l', ∃ a ∈ l, R a b := by
  induction h with
  | nil => intro b hb; cases hb
  | cons a _ ih =>
    intro b hb
    rcases List.mem_cons.1 hb with rfl | hb
    · exact ⟨_, by simp, a⟩
    · obtain ⟨a', h1, h2⟩ := ih b hb
      exact ⟨a', by simp [h1], h2⟩

theorem forall₂_mem_left {α β : Type} {R : α → β → Prop} {l : List α} {l' : List β} (h : List.Forall₂ R l l') :
    ∀ a ∈ l, ∃ b ∈ l', R a b := by
  induction h with
  | nil => intro b hb; cases hb
  | cons a _ ih =>
    intro b hb
    rcases List.mem_cons.1 hb with rfl | hb
    · exact ⟨_, by simp, a⟩
    · obtain ⟨a', h1, h2⟩ := ih b hb
      exact ⟨a', by simp [h1], h2⟩

theorem forall₂_lits {k : Nat} {H : List Nat} {l l' : List LitDesc} (h : List.Forall₂ (Chg k H) l l') :
    l'.map LitDesc.lit = l.map LitDesc.lit := by
  induction h with
  | nil => rfl
  | cons a _ ih => simp [ih, a.1]

theorem buildPart_spec {T : List LitDesc} {i k : Nat} (hk : k ≠ 0) (h : findFree T = some i) :
    ∃ H, List.Forall₂ (Chg k H) T (buildPart T i k) ∧ (∃ e ∈ buildPart T i k, e.part = k) ∧
      ∀ e ∈ buildPart T i k, e.part = 0 → ∀ x ∈ e.vs, x ∉ H := by
  obtain ⟨e, l, h1, h2, h3, h4⟩ := findFree_some h
  have hb : buildPart T i k = T.take i ++ { e with part := k, vs := (partLoop k e.vs l).1 } :: (partLoop k e.vs l).2 := by
    unfold buildPart; rw [h1]
  obtain ⟨i1, i2, i3⟩ := partLoop_spec k hk e.vs l
  refine ⟨(partLoop k e.vs l).1, ?_, ?_, ?_⟩
  · rw [hb]
    conv => arg 2; rw [h3]
    refine List.rel_append (List.forall₂_same.2 fun a _ => Chg.refl _ _ _) (.cons ⟨rfl, Or.inr ⟨h2, rfl, i2⟩⟩ i1)
  · rw [hb]; exact ⟨_, List.mem_append_right _ List.mem_cons_self, rfl⟩
  · rw [hb]
    intro e' he' hp
    rcases List.mem_append.1 he' with he' | he'
    · exact absurd hp (h4 e' he')
    · rcases List.mem_cons.1 he' with rfl | he'
      · exact absurd hp hk
      · exact i3 e' he' hp

theorem TInv.step {sv : List Nat} {C : List OLit} {n : Nat} {T : List LitDesc} (h : TInv sv C n T) {i : Nat}
    (hi : findFree T = some i) : TInv sv C (n + 1) (buildPart T i (n + 1)) := by
  obtain ⟨H, h1, h2, h3⟩ := buildPart_spec (k := n + 1) (by omega) hi
  constructor
  · rw [forall₂_lits h1, h.lits]
  · intro e' he' hp
    obtain ⟨e, he, hl, rfl | ⟨-, q, -⟩⟩ := forall₂_mem_right h1 e' he'
    · exact h.free _ he hp
    · omega
  · intro a' ha' b' hb' hp hne x hx hx'
    obtain ⟨a, ha, hla, ca⟩ := forall₂_mem_right h1 a' ha'
    obtain ⟨b, hb, hlb, cb⟩ := forall₂_mem_right h1 b' hb'
    rcases ca with rfl | ⟨a1, a2, a3⟩
    · rcases cb with rfl | ⟨b1, b2, b3⟩
      · exact h.disj _ ha _ hb hp hne x hx hx'
      · exact h.disj _ ha _ hb hp (by omega) x hx (hlb ▸ hx')
    · rw [hla] at hx
      have hxH : x ∈ H := a3 x (h.free a ha a1 ▸ hx)
      rcases cb with rfl | ⟨b1, b2, b3⟩
      · by_cases hb0 : b'.part = 0
        · exact h3 b' hb' hb0 x (h.free b' hb hb0 ▸ hx') hxH
        · exact h.disj _ hb _ ha hb0 (by omega) x hx' hx
      · omega
  · intro e' he'
    obtain ⟨e, he, hl, rfl | ⟨-, q, -⟩⟩ := forall₂_mem_right h1 e' he'
    · have := h.bound _ he; omega
    · omega
  · intro h0; omega
  · intro k hk hkn
    rcases Nat.lt_or_ge n k with h' | h'
    · obtain ⟨e, he, hp⟩ := h2
      exact ⟨e, he, by omega⟩
    · obtain ⟨e, he, hp⟩ := h.used k hk h'
      obtain ⟨e', he', -, rfl | ⟨q, -, -⟩⟩ := forall₂_mem_left h1 e he
      · exact ⟨_, he', hp⟩
      · omega

theorem TInv.loop {sv : List Nat} {C : List OLit} {n : Nat} {T : List LitDesc} (h : TInv sv C n T) :
    TInv sv C (partsLoop T n).2 (partsLoop T n).1 ∧ ∀ e ∈ (partsLoop T n).1, e.part ≠ 0 := by
  fun_induction partsLoop T n with
  | case1 T n hn =>
    refine ⟨h, fun e he => ?_⟩
    unfold findFree at hn
    rw [List.findIdx?_eq_none_iff] at hn
    simpa using hn e he
  | case2 T n i hi ih => exact ih (h.step hi)

theorem TInv.init (how : SplitHow) (sv : List Nat) (C : List OLit) :
    TInv sv C (if how = .groundOne ∧ findFree (initTable how sv C) ≠ some 0 then 1 else 0) (initTable how sv C) ∨ C = [] := by
  by_cases hC : C = []
  · exact Or.inr hC
  refine Or.inl ?_
  have hm : ∀ e ∈ initTable how sv C, e.vs = LitDesc.own sv e.lit ∧ (e.part ≠ 0 → e.part = 1 ∧ LitDesc.own sv e.lit = []) := by
    intro e he
    obtain ⟨L, -, rfl⟩ := List.mem_map.1 he
    dsimp only
    exact ⟨rfl, fun h => by split at h <;> simp_all⟩
  constructor
  · simp [initTable, Function.comp_def]
  · exact fun e he _ => (hm e he).1
  · intro e he e' he' hp _ x hx
    rw [((hm e he).2 hp).2] at hx
    cases hx
  · intro e he
    by_cases hp : e.part = 0
    · omega
    · have := ((hm e he).2 hp).1; omega
  · exact fun _ e he hp => ((hm e he).2 hp).2
  · intro k hk hkn
    split at hkn
    · rename_i hcond
      cases C with
      | nil => exact absurd rfl hC
      | cons L C =>
        refine ⟨_, List.mem_cons_self, ?_⟩
        have := hcond.2
        unfold findFree initTable at this
        simp only [List.map_cons, List.findIdx?_cons] at this
        dsimp only
        split
        · omega
        · rename_i hif; rw [if_neg hif] at this; simp at this
    · omega

/-- The literals of the table, collected part by part. -/
theorem parts_perm {T : List LitDesc} {n : Nat} (h0 : ∀ e ∈ T, e.part ≠ 0) (hn : ∀ e ∈ T, e.part ≤ n) :
    ((List.range n).map fun i => assemblePart T (i + 1)).flatten.Perm (T.map LitDesc.lit) := by
  have h1 : ((List.range n).map fun i => assemblePart T (i + 1)).flatten.Perm
      (((List.range n).map fun i => (T.filter fun e => e.part = i + 1)).flatten.map LitDesc.lit) := by
    rw [List.map_flatten, List.map_map]
    refine List.Perm.flatten_congr ?_
    rw [List.forall₂_map_left_iff, List.forall₂_map_right_iff, List.forall₂_same]
    exact fun i _ => List.reverse_perm _
  refine h1.trans (List.Perm.map _ ?_)
  clear h1
  induction n generalizing T with
  | zero =>
    cases T with
    | nil => simp
    | cons e T => exact absurd (Nat.le_zero.1 (hn e (by simp))) (h0 e (by simp))
  | succ n ih =>
    rw [List.range_succ, List.map_append, List.flatten_append]
    have key : ((List.range n).map fun i => T.filter fun e => e.part = i + 1) =
        ((List.range n).map fun i => (T.filter fun e => e.part ≠ n + 1).filter fun e => e.part = i + 1) := by
      refine List.map_congr_left fun i hi => ?_
      rw [List.filter_filter]
      refine List.filter_congr fun e _ => ?_
      have := List.mem_range.1 hi
      simp only [ne_eq, decide_not]
      by_cases he : e.part = i + 1
      · simp [he]; omega
      · simp [he]
    rw [key]
    have := ih (T := T.filter fun e => e.part ≠ n + 1) (fun e he => h0 e (List.mem_filter.1 he).1) (fun e he => by
      have h1 := hn e (List.mem_filter.1 he).1
      have h2 := (List.mem_filter.1 he).2
      simp at h2
      omega)
    refine (List.Perm.append_right _ this).trans ?_
    simp only [List.map_cons, List.map_nil, List.flatten_cons, List.flatten_nil, List.append_nil]
    refine List.perm_append_comm.trans ?_
    have := List.filter_append_perm (fun e : LitDesc => decide (e.part = n + 1)) T
    simpa using this

end Verif.SplitProof
