import Verif.Clauses.ClauseIndexSpec
import Verif.Terms.FPIndexInv
import Verif.Clauses.RewriteBack

namespace Verif.CIProof
open Verif

attribute [-simp] List.map_take

/-! ## Compact positions -/

theorem stdW_app (f : Nat) (ts : List Term) : stdW (.app f ts) = 2 + (ts.map stdW).sum := by
  have h : ∀ us : List Term, Term.weightL 1 2 us = (us.map stdW).sum := by
    intro us; induction us with
    | nil => rfl
    | cons u us ih => simp [Term.weightL, ih, stdW]
  simp [stdW, Term.weight, h]

theorem stdW_pos (t : Term) : 0 < stdW t := by
  cases t with
  | var y => simp [stdW, Term.weight]
  | app f ts => rw [stdW_app]; omega

theorem sum_take_le {ts : List Term} {i : Nat} {u : Term} (h : ts[i]? = some u) :
    ((ts.take i).map stdW).sum + stdW u ≤ (ts.map stdW).sum := by
  induction ts generalizing i with
  | nil => simp at h
  | cons t ts ih =>
    cases i with
    | zero => simp at h; subst h; simp
    | succ i => simp at h; have := ih h; simp; omega

theorem pack_bound : ∀ (t : Term) {p : List Nat} {n : Nat}, packTerm t p = some n → n < stdW t := by
  intro t
  induction t using Term.ind with
  | hv y =>
    intro p n h
    cases p with
    | nil => simp [packTerm] at h; subst h; exact stdW_pos _
    | cons i p => simp [packTerm] at h
  | ha f ts ih =>
    intro p n h
    cases p with
    | nil => simp [packTerm] at h; subst h; exact stdW_pos _
    | cons i p =>
      simp only [packTerm] at h
      cases hi : ts[i]? with
      | none => simp [hi] at h
      | some u =>
        simp only [hi, Option.map_eq_some_iff] at h
        obtain ⟨m, hm, rfl⟩ := h
        have := ih u (List.mem_of_getElem? hi) hm
        have := sum_take_le hi
        rw [stdW_app]; omega

theorem unpackArgs_iff : ∀ (ts : List Term), (∀ t ∈ ts, ∀ p n, unpackTerm t n = some p ↔ packTerm t p = some n) → ∀ (c i : Nat) (p : List Nat),
    unpackArgs ts c i = some p ↔ ∃ j p' u m, p = (i + j) :: p' ∧ ts[j]? = some u ∧ packTerm u p' = some m ∧
      c = ((ts.take j).map stdW).sum + m := by
  intro ts
  induction ts with
  | nil => intro _ c i p; simp [unpackArgs]
  | cons t ts ih =>
    intro hT c i p
    rw [unpackArgs]
    split
    · rename_i hc
      simp only [Option.map_eq_some_iff]
      constructor
      · rintro ⟨p', hp, rfl⟩
        exact ⟨0, p', t, c, by simp, by simp, (hT t (by simp) _ _).1 hp, by simp⟩
      · rintro ⟨j, p', u, m, rfl, hu, hm, hc'⟩
        cases j with
        | zero =>
          simp at hu hc'; subst hu; subst hc'
          exact ⟨p', (hT t (by simp) _ _).2 hm, by simp⟩
        | succ j => simp at hc'; omega
    · rename_i hc
      rw [ih (fun t ht => hT t (by simp [ht]))]
      constructor
      · rintro ⟨j, p', u, m, rfl, hu, hm, hc'⟩
        exact ⟨j + 1, p', u, m, by simp; omega, by simpa using hu, hm, by simp; omega⟩
      · rintro ⟨j, p', u, m, rfl, hu, hm, hc'⟩
        cases j with
        | zero =>
          simp at hu hc'; subst hu; subst hc'
          have := pack_bound _ hm
          omega
        | succ j => exact ⟨j, p', u, m, by simp; omega, by simpa using hu, hm, by simp at hc'; omega⟩

theorem unpackTerm_iff : ∀ (t : Term) (p : List Nat) (n : Nat), unpackTerm t n = some p ↔ packTerm t p = some n := by
  intro t
  induction t using Term.ind with
  | hv y =>
    intro p n
    cases n with
    | zero => cases p <;> simp [unpackTerm, packTerm]
    | succ n => cases p <;> simp [unpackTerm, packTerm]
  | ha f ts ih =>
    intro p n
    cases n with
    | zero =>
      cases p with
      | nil => simp [unpackTerm, packTerm]
      | cons i p =>
        simp only [unpackTerm, packTerm]
        cases hi : ts[i]? with
        | none => simp
        | some u =>
          simp only [Option.map_eq_some_iff]
          constructor
          · intro h; simp at h
          · rintro ⟨m, _, h⟩; omega
    | succ n =>
      rw [unpackTerm]
      cases p with
      | nil =>
        simp only [packTerm]
        constructor
        · split
          · intro h; cases h
          · intro h
            obtain ⟨j, p', u, m, h, _⟩ := (unpackArgs_iff ts ih _ _ _).1 h
            cases h
        · intro h; cases h
      | cons i p =>
        simp only [packTerm]
        split
        · rename_i hn
          constructor
          · intro h; cases h
          · intro h
            cases hi : ts[i]? with
            | none => simp [hi] at h
            | some u =>
              simp only [hi, Option.map_eq_some_iff] at h
              obtain ⟨m, _, h⟩ := h; omega
        · rw [unpackArgs_iff ts ih]
          constructor
          · rintro ⟨j, p', u, m, h1, hu, hm, hc⟩
            simp only [Nat.zero_add, List.cons.injEq] at h1
            obtain ⟨rfl, rfl⟩ := h1
            simp only [hu, hm, Option.map_some]
            congr 1; omega
          · intro h
            cases hi : ts[i]? with
            | none => simp [hi] at h
            | some u =>
              simp only [hi, Option.map_eq_some_iff] at h
              obtain ⟨m, hm, h⟩ := h
              exact ⟨i, p, u, m, by simp, hi, hm, by omega⟩

theorem pack_iff_subterm : ∀ (t : Term) (p : List Nat), (∃ n, packTerm t p = some n) ↔ ∃ u, subtermAt t p = some u := by
  intro t
  induction t using Term.ind with
  | hv y => intro p; cases p <;> simp [packTerm, subtermAt]
  | ha f ts ih =>
    intro p
    cases p with
    | nil => simp [packTerm, subtermAt]
    | cons i p =>
      simp only [packTerm, subtermAt]
      cases hi : ts[i]? with
      | none => simp
      | some u =>
        simp only [Option.map_eq_some_iff]
        rw [← ih u (List.mem_of_getElem? hi)]
        constructor
        · rintro ⟨_, m, hm, _⟩; exact ⟨m, hm⟩
        · rintro ⟨m, hm⟩; exact ⟨_, m, hm, rfl⟩

theorem split_iff : ∀ (C : List XLit) (c i : Nat) (L : XLit) (k r : Nat), cposSplit C c i = some (L, k, r) ↔
    ∃ j, k = i + j ∧ C[j]? = some L ∧ c = ((C.take j).map XLit.stdW).sum + r ∧ r < L.stdW := by
  intro C
  induction C with
  | nil => intro c i L k r; simp [cposSplit]
  | cons M C ih =>
    intro c i L k r
    rw [cposSplit]
    split
    · rename_i hc
      rw [ih]
      constructor
      · rintro ⟨j, rfl, h1, h2, h3⟩
        exact ⟨j + 1, by omega, by simpa using h1, by simp; omega, h3⟩
      · rintro ⟨j, rfl, h1, h2, h3⟩
        cases j with
        | zero => simp at h1 h2; subst h1; omega
        | succ j => exact ⟨j, by omega, by simpa using h1, by simp at h2; omega, h3⟩
    · rename_i hc
      simp only [Option.some.injEq, Prod.mk.injEq]
      constructor
      · rintro ⟨rfl, rfl, rfl⟩
        exact ⟨0, by simp, by simp, by simp, by omega⟩
      · rintro ⟨j, rfl, h1, h2, h3⟩
        cases j with
        | zero => simp at h1 h2; exact ⟨h1, by simp, h2⟩
        | succ j => simp at h2; omega

theorem unpackClause_iff (C : List XLit) (q : CPos) (c : Nat) : unpackClause C c = some q ↔ packClause C q = some c := by
  unfold unpackClause packClause
  constructor
  · intro h
    cases hs : cposSplit C c 0 with
    | none => simp [hs] at h
    | some v =>
      obtain ⟨L, k, r⟩ := v
      obtain ⟨j, hk, h1, h2, h3⟩ := (split_iff _ _ _ _ _ _).1 hs
      simp only [Nat.zero_add] at hk; subst hk
      simp only [hs] at h
      split at h
      · simp only [Option.map_eq_some_iff, unpackTerm_iff] at h
        obtain ⟨p, hp, rfl⟩ := h
        simp only [h1, if_true, hp, Option.map_some]
        congr 1; omega
      · simp only [Option.map_eq_some_iff, unpackTerm_iff] at h
        obtain ⟨p, hp, rfl⟩ := h
        simp only [h1, Bool.false_eq_true, if_false, hp, Option.map_some]
        congr 1; omega
  · intro h
    obtain ⟨j, rt, p⟩ := q
    simp only at h
    cases h1 : C[j]? with
    | none => simp [h1] at h
    | some L =>
      simp only [h1, Option.map_eq_some_iff] at h
      obtain ⟨n, hn, hc⟩ := h
      cases rt with
      | false =>
        simp only [Bool.false_eq_true, if_false] at hn hc
        have hb := pack_bound _ hn
        rw [(split_iff C c 0 L j n).2 ⟨j, by simp, h1, by omega, by simp [XLit.stdW]; omega⟩]
        simp only
        rw [if_neg (by omega), (unpackTerm_iff _ _ _).2 hn]; rfl
      | true =>
        simp only [if_true] at hn hc
        have hb := pack_bound _ hn
        rw [(split_iff C c 0 L j (stdW L.lit.l + n)).2 ⟨j, by simp, h1, by omega, by simp [XLit.stdW]; omega⟩]
        simp only
        rw [if_pos (by omega), Nat.add_sub_cancel_left, (unpackTerm_iff _ _ _).2 hn]; rfl

theorem packClause_defined (C : List XLit) (q : CPos) : (∃ c, packClause C q = some c) ↔ ∃ t, clauseAt C q = some t := by
  unfold packClause clauseAt
  cases C[q.lit]? with
  | none => simp
  | some L =>
    simp only [Option.map_eq_some_iff, ← pack_iff_subterm]
    constructor
    · rintro ⟨_, n, hn, _⟩; exact ⟨n, hn⟩
    · rintro ⟨n, hn⟩; exact ⟨_, n, hn, rfl⟩

/-! ## The collected positions -/

theorem intoPosL_iff : ∀ (ts : List Term), (∀ t ∈ ts, ∀ pos u n, (u, n) ∈ intoPos t pos ↔
      u.isVar = false ∧ ∃ p k, subtermAt t p = some u ∧ packTerm t p = some k ∧ n = pos + k) → ∀ pos u n,
    (u, n) ∈ intoPosL ts pos ↔ u.isVar = false ∧ ∃ i p t k, ts[i]? = some t ∧ subtermAt t p = some u ∧ packTerm t p = some k ∧
      n = pos + ((ts.take i).map stdW).sum + k := by
  intro ts
  induction ts with
  | nil => intro _ pos u n; simp [intoPosL]
  | cons t ts ih =>
    intro hT pos u n
    rw [intoPosL, List.mem_append, hT t (by simp), ih (fun t ht => hT t (by simp [ht]))]
    constructor
    · rintro (⟨hv, p, k, h1, h2, rfl⟩ | ⟨hv, i, p, w, k, h0, h1, h2, rfl⟩)
      · exact ⟨hv, 0, p, t, k, by simp, h1, h2, by simp⟩
      · exact ⟨hv, i + 1, p, w, k, by simpa using h0, h1, h2, by simp; omega⟩
    · rintro ⟨hv, i, p, w, k, h0, h1, h2, rfl⟩
      cases i with
      | zero => simp at h0; subst h0; exact Or.inl ⟨hv, p, k, h1, h2, by simp⟩
      | succ i => exact Or.inr ⟨hv, i, p, w, k, by simpa using h0, h1, h2, by simp; omega⟩

theorem intoPos_iff : ∀ (t : Term) (pos : Nat) (u : Term) (n : Nat), (u, n) ∈ intoPos t pos ↔
    u.isVar = false ∧ ∃ p k, subtermAt t p = some u ∧ packTerm t p = some k ∧ n = pos + k := by
  intro t
  induction t using Term.ind with
  | hv y =>
    intro pos u n
    simp only [intoPos, List.not_mem_nil, false_iff]
    rintro ⟨hv, p, k, h1, _⟩
    cases p with
    | nil => simp [subtermAt] at h1; subst h1; simp [Term.isVar] at hv
    | cons i p => simp [subtermAt] at h1
  | ha f ts ih =>
    intro pos u n
    rw [intoPos, List.mem_cons, intoPosL_iff ts ih]
    constructor
    · rintro (h | ⟨hv, i, p, w, k, h0, h1, h2, rfl⟩)
      · cases h; exact ⟨rfl, [], 0, by simp [subtermAt], by simp [packTerm], rfl⟩
      · exact ⟨hv, i :: p, 2 + ((ts.take i).map stdW).sum + k, by simp [subtermAt, h0, h1], by simp [packTerm, h0, h2], by omega⟩
    · rintro ⟨hv, p, k, h1, h2, rfl⟩
      cases p with
      | nil => simp [subtermAt, packTerm] at h1 h2; subst h1; subst h2; exact Or.inl rfl
      | cons i p =>
        simp only [subtermAt, packTerm] at h1 h2
        cases hi : ts[i]? with
        | none => simp [hi] at h1
        | some w =>
          simp only [hi, Option.map_eq_some_iff] at h1 h2
          obtain ⟨m, h2, rfl⟩ := h2
          exact Or.inr ⟨hv, i, p, w, m, hi, h1, h2, by omega⟩

/-- The proper subterms. -/
theorem intoArgs_iff (f : Nat) (ts : List Term) (pos : Nat) (u : Term) (n : Nat) : (u, n) ∈ intoPosL ts (pos + 2) ↔
    u.isVar = false ∧ ∃ p k, p ≠ [] ∧ subtermAt (.app f ts) p = some u ∧ packTerm (.app f ts) p = some k ∧ n = pos + k := by
  rw [intoPosL_iff ts fun t _ => intoPos_iff t]
  refine and_congr_right fun _ => ?_
  constructor
  · rintro ⟨i, p, w, k, h0, h1, h2, rfl⟩
    exact ⟨i :: p, 2 + ((ts.take i).map stdW).sum + k, by simp, by simp [subtermAt, h0, h1], by simp [packTerm, h0, h2], by omega⟩
  · rintro ⟨p, k, hp, h1, h2, rfl⟩
    cases p with
    | nil => exact absurd rfl hp
    | cons i p =>
      simp only [subtermAt, packTerm] at h1 h2
      cases hi : ts[i]? with
      | none => simp [hi] at h1
      | some w =>
        simp only [hi, Option.map_eq_some_iff] at h1 h2
        obtain ⟨m, h2, rfl⟩ := h2
        exact ⟨i, p, w, m, hi, h1, h2, by omega⟩

/-- One literal: what is collected for a side and path. -/
def LitHas (L : XLit) (pos : Nat) (P : Bool → List Nat → Prop) (u : Term) (n : Nat) : Prop :=
  ∃ right p k, P right p ∧ (right = true → L.oriented = false) ∧ subtermAt (if right then L.lit.r else L.lit.l) p = some u ∧
    packTerm (if right then L.lit.r else L.lit.l) p = some k ∧ n = pos + (if right then stdW L.lit.l else 0) + k

theorem right_iff (L : XLit) (pos : Nat) (u : Term) (n : Nat) :
    (u, n) ∈ (if L.oriented then [] else intoPos L.lit.r (pos + stdW L.lit.l)) ↔
      u.isVar = false ∧ ∃ p k, L.oriented = false ∧ subtermAt L.lit.r p = some u ∧ packTerm L.lit.r p = some k ∧ n = pos + stdW L.lit.l + k := by
  cases ho : L.oriented with
  | true => simp
  | false => simp only [Bool.false_eq_true, if_false, intoPos_iff, true_and]

theorem litIntoPos_iff (L : XLit) (pos : Nat) (u : Term) (n : Nat) :
    ((u, n) ∈ (litIntoPos L pos).1 ↔ u.isVar = false ∧ LitHas L pos (fun rt p => ¬ (L.negAtom ∧ rt = false ∧ p = [])) u n) ∧
    ((u, n) ∈ (litIntoPos L pos).2 ↔ u.isVar = false ∧ LitHas L pos (fun rt p => L.negAtom ∧ rt = false ∧ p = []) u n) := by
  unfold litIntoPos
  by_cases hn : (!L.lit.pos && decide (L.lit.r = tTrue)) = true
  · have hna : L.negAtom := by simpa [XLit.negAtom] using hn
    simp only [hn, if_true]
    cases hl : L.lit.l with
    | var y =>
      simp only [List.not_mem_nil, false_iff]
      constructor
      · rw [← hl, right_iff]
        refine and_congr_right fun hv => ?_
        constructor
        · rintro ⟨p, k, h⟩; exact ⟨true, p, k, by simp, fun _ => h.1, h.2.1, h.2.2.1, h.2.2.2⟩
        · rintro ⟨rt, p, k, hP, ho, h1, h2, h3⟩
          cases rt with
          | true => exact ⟨p, k, ho rfl, h1, h2, h3⟩
          | false =>
            simp only [Bool.false_eq_true, if_false, hl] at h1
            cases p with
            | nil => exact absurd ⟨hna, rfl, rfl⟩ hP
            | cons i p => simp [subtermAt] at h1
      · rintro ⟨hv, rt, p, k, ⟨_, rfl, rfl⟩, ho, h1, h2, h3⟩
        simp only [Bool.false_eq_true, if_false, hl, subtermAt, Option.some.injEq] at h1
        subst h1; simp [Term.isVar] at hv
    | app f ts =>
      constructor
      · rw [List.mem_append, intoArgs_iff f, ← hl, right_iff, ← and_or_left]
        refine and_congr_right fun hv => ?_
        constructor
        · rintro (⟨p, k, hp, h1, h2, h3⟩ | ⟨p, k, h0, h1, h2, h3⟩)
          · exact ⟨false, p, k, by simp [hp], by simp, by simpa using h1, by simpa using h2, by simpa using h3⟩
          · exact ⟨true, p, k, by simp, fun _ => h0, h1, h2, h3⟩
        · rintro ⟨rt, p, k, hP, ho, h1, h2, h3⟩
          cases rt with
          | true => exact Or.inr ⟨p, k, ho rfl, h1, h2, h3⟩
          | false =>
            exact Or.inl ⟨p, k, fun hp => hP ⟨hna, rfl, hp⟩, by simpa using h1, by simpa using h2, by simpa using h3⟩
      · simp only [List.mem_singleton, Prod.mk.injEq]
        constructor
        · rintro ⟨rfl, rfl⟩
          exact ⟨rfl, false, [], 0, ⟨hna, rfl, rfl⟩, by simp, by simp [subtermAt, hl], by simp [packTerm], by simp⟩
        · rintro ⟨hv, rt, p, k, ⟨_, rfl, rfl⟩, ho, h1, h2, h3⟩
          simp only [Bool.false_eq_true, if_false, hl, subtermAt, packTerm, Option.some.injEq] at h1 h2
          subst h1; subst h2; simp at h3; exact ⟨rfl, h3⟩
  · have hna : ¬ L.negAtom := by simpa [XLit.negAtom] using hn
    simp only [hn, Bool.false_eq_true, if_false, List.not_mem_nil, false_iff]
    constructor
    · rw [List.mem_append, intoPos_iff, right_iff, ← and_or_left]
      refine and_congr_right fun hv => ?_
      constructor
      · rintro (⟨p, k, h1, h2, h3⟩ | ⟨p, k, h0, h1, h2, h3⟩)
        · exact ⟨false, p, k, by simp [hna], by simp, by simpa using h1, by simpa using h2, by simpa using h3⟩
        · exact ⟨true, p, k, by simp, fun _ => h0, h1, h2, h3⟩
      · rintro ⟨rt, p, k, hP, ho, h1, h2, h3⟩
        cases rt with
        | true => exact Or.inr ⟨p, k, ho rfl, h1, h2, h3⟩
        | false => exact Or.inl ⟨p, k, by simpa using h1, by simpa using h2, by simpa using h3⟩
    · rintro ⟨_, rt, p, k, ⟨h, _⟩, _⟩
      exact hna h

/-- One literal of the sides for `from`. -/
def fromLit (L : XLit) (pos : Nat) : List (Term × Nat) :=
  if L.maximal && L.lit.pos && !L.selected then
    (L.lit.l, pos) :: (if L.oriented then [] else [(L.lit.r, pos + stdW L.lit.l)]) else []

theorem fromLit_iff (L : XLit) (pos : Nat) (u : Term) (n : Nat) : (u, n) ∈ fromLit L pos ↔
    L.maximal = true ∧ LitHas L pos (fun _ p => L.lit.pos = true ∧ L.selected = false ∧ p = []) u n := by
  unfold fromLit
  by_cases hc : (L.maximal && L.lit.pos && !L.selected) = true
  · simp only [hc, if_true]
    simp only [Bool.and_eq_true, Bool.not_eq_true'] at hc
    simp only [hc.1.1, true_and]
    constructor
    · intro h
      rcases List.mem_cons.1 h with h | h
      · cases h; exact ⟨false, [], 0, ⟨hc.1.2, hc.2, rfl⟩, by simp, by simp [subtermAt], by simp [packTerm], by simp⟩
      · cases ho : L.oriented with
        | true => simp [ho] at h
        | false =>
          simp only [ho, Bool.false_eq_true, if_false, List.mem_singleton] at h
          cases h
          exact ⟨true, [], 0, ⟨hc.1.2, hc.2, rfl⟩, fun _ => ho, by simp [subtermAt], by simp [packTerm], by simp⟩
    · rintro ⟨rt, p, k, ⟨_, _, rfl⟩, ho, h1, h2, rfl⟩
      simp only [subtermAt, packTerm, Option.some.injEq] at h1 h2
      subst h1; subst h2
      cases rt with
      | false => simp
      | true => simp [ho rfl]
  · simp only [hc, Bool.false_eq_true, if_false, List.not_mem_nil, false_iff]
    rintro ⟨hm, rt, p, k, ⟨h1, h2, _⟩, _⟩
    exact hc (by simp [hm, h1, h2])

/-- From literals to clauses. -/
theorem clause_has {C : List XLit} {P : XLit → Bool → List Nat → Prop} {pos : Nat} {u : Term} {n : Nat} :
    (∃ j L, C[j]? = some L ∧ LitHas L (pos + ((C.take j).map XLit.stdW).sum) (P L) u n) ↔
    ∃ q L c, C[q.lit]? = some L ∧ P L q.right q.path ∧ (q.right = true → L.oriented = false) ∧ clauseAt C q = some u ∧
      packClause C q = some c ∧ n = pos + c := by
  constructor
  · rintro ⟨j, L, hj, rt, p, k, hP, ho, h1, h2, h3⟩
    exact ⟨⟨j, rt, p⟩, L, _, hj, hP, ho, by simp only [clauseAt, hj, h1], by simp only [packClause, hj, h2, Option.map_some]; rfl, by omega⟩
  · rintro ⟨⟨j, rt, p⟩, L, c, hj, hP, ho, h1, h2, h3⟩
    simp only [clauseAt, packClause, hj] at h1 h2
    simp only [Option.map_eq_some_iff] at h2
    obtain ⟨k, h2, rfl⟩ := h2
    exact ⟨j, L, hj, rt, p, k, hP, ho, h1, h2, by omega⟩

theorem clauseIntoPos_iff : ∀ (C : List XLit) (pos : Nat) (u : Term) (n : Nat),
    ((u, n) ∈ (clauseIntoPos C pos).1 ↔ ∃ j L, C[j]? = some L ∧ L.maximal = true ∧
      (u, n) ∈ (litIntoPos L (pos + ((C.take j).map XLit.stdW).sum)).1) ∧
    ((u, n) ∈ (clauseIntoPos C pos).2 ↔ ∃ j L, C[j]? = some L ∧ L.maximal = true ∧
      (u, n) ∈ (litIntoPos L (pos + ((C.take j).map XLit.stdW).sum)).2) := by
  intro C
  induction C with
  | nil => intro pos u n; simp [clauseIntoPos]
  | cons M C ih =>
    intro pos u n
    have e : ∀ j, pos + (((M :: C).take (j + 1)).map XLit.stdW).sum = pos + M.stdW + ((C.take j).map XLit.stdW).sum := by
      intro j; simp; omega
    simp only [clauseIntoPos]
    constructor
    · constructor
      · intro h
        by_cases hm : M.maximal = true
        · simp only [hm, if_true, List.mem_append] at h
          rcases h with h | h
          · exact ⟨0, M, by simp, hm, by simpa using h⟩
          · obtain ⟨j, L, h1, h2, h3⟩ := (ih _ _ _).1.1 h
            exact ⟨j + 1, L, by simpa using h1, h2, by rw [e]; exact h3⟩
        · simp only [hm, Bool.false_eq_true, if_false] at h
          obtain ⟨j, L, h1, h2, h3⟩ := (ih _ _ _).1.1 h
          exact ⟨j + 1, L, by simpa using h1, h2, by rw [e]; exact h3⟩
      · rintro ⟨j, L, h1, h2, h3⟩
        cases j with
        | zero => simp at h1 h3; subst h1; simp [h2, h3]
        | succ j =>
          rw [e] at h3
          have := (ih (pos + M.stdW) u n).1.2 ⟨j, L, by simpa using h1, h2, h3⟩
          split
          · simp [this]
          · exact this
    · constructor
      · intro h
        by_cases hm : M.maximal = true
        · simp only [hm, if_true, List.mem_append] at h
          rcases h with h | h
          · exact ⟨0, M, by simp, hm, by simpa using h⟩
          · obtain ⟨j, L, h1, h2, h3⟩ := (ih _ _ _).2.1 h
            exact ⟨j + 1, L, by simpa using h1, h2, by rw [e]; exact h3⟩
        · simp only [hm, Bool.false_eq_true, if_false] at h
          obtain ⟨j, L, h1, h2, h3⟩ := (ih _ _ _).2.1 h
          exact ⟨j + 1, L, by simpa using h1, h2, by rw [e]; exact h3⟩
      · rintro ⟨j, L, h1, h2, h3⟩
        cases j with
        | zero => simp at h1 h3; subst h1; simp [h2, h3]
        | succ j =>
          rw [e] at h3
          have := (ih (pos + M.stdW) u n).2.2 ⟨j, L, by simpa using h1, h2, h3⟩
          split
          · simp [this]
          · exact this

theorem clauseFromPos_iff : ∀ (C : List XLit) (pos : Nat) (u : Term) (n : Nat),
    (u, n) ∈ clauseFromPos C pos ↔ ∃ j L, C[j]? = some L ∧ (u, n) ∈ fromLit L (pos + ((C.take j).map XLit.stdW).sum) := by
  intro C
  induction C with
  | nil => intro pos u n; simp [clauseFromPos]
  | cons M C ih =>
    intro pos u n
    have e : ∀ j, pos + (((M :: C).take (j + 1)).map XLit.stdW).sum = pos + M.stdW + ((C.take j).map XLit.stdW).sum := by
      intro j; simp; omega
    rw [clauseFromPos, List.mem_append, ih]
    constructor
    · rintro (h | ⟨j, L, h1, h2⟩)
      · exact ⟨0, M, by simp, by simpa [fromLit] using h⟩
      · exact ⟨j + 1, L, by simpa using h1, by rw [e]; exact h2⟩
    · rintro ⟨j, L, h1, h2⟩
      cases j with
      | zero => simp at h1; subst h1; exact Or.inl (by simpa [fromLit] using h2)
      | succ j => rw [e] at h2; exact Or.inr ⟨j, L, by simpa using h1, h2⟩

theorem notVar_iff {u : Term} : u.isVar = false ↔ ∃ f ts, u = .app f ts := by
  cases u <;> simp [Term.isVar]

/-- The entries are the positions to be covered. -/
theorem entries_iff (k : OvKind) (C : List XLit) (u : Term) (n : Nat) :
    (u, n) ∈ k.entries C ↔ ∃ q, k.Covers C q ∧ clauseAt C q = some u ∧ packClause C q = some n := by
  cases k with
  | «from» =>
    simp only [OvKind.entries, clauseFromPos_iff, fromLit_iff]
    constructor
    · rintro ⟨j, L, hj, hm, h⟩
      obtain ⟨q, L, c, h1, h2, h3, h4, h5, h6⟩ := (clause_has (P := fun L _ p => L.maximal = true ∧ L.lit.pos = true ∧ L.selected = false ∧ p = [])).1
        ⟨j, L, hj, by
          obtain ⟨a, b, c, d, e⟩ := h
          exact ⟨a, b, c, ⟨hm, d⟩, e⟩⟩
      refine ⟨q, ⟨L, h1, h2.1, h3, h2.2⟩, h4, ?_⟩
      rw [h5, h6]; simp
    · rintro ⟨q, ⟨L, h1, h2, h3, h4⟩, h5, h6⟩
      obtain ⟨j, L', hj, h⟩ := (clause_has (P := fun L _ p => L.maximal = true ∧ L.lit.pos = true ∧ L.selected = false ∧ p = []) (pos := 0) (n := n)).2
        ⟨q, L, n, h1, ⟨h2, h4⟩, h3, h5, h6, by simp⟩
      obtain ⟨a, b, c, d, e⟩ := h
      exact ⟨j, L', hj, d.1, a, b, c, d.2, e⟩
  | into =>
    simp only [OvKind.entries, (clauseIntoPos_iff _ _ _ _).1, (litIntoPos_iff _ _ _ _).1]
    constructor
    · rintro ⟨j, L, hj, hm, hv, h⟩
      obtain ⟨q, L, c, h1, h2, h3, h4, h5, h6⟩ := (clause_has (P := fun L rt p => L.maximal = true ∧ ¬ (L.negAtom ∧ rt = false ∧ p = []))).1
        ⟨j, L, hj, by
          obtain ⟨a, b, c, d, e⟩ := h
          exact ⟨a, b, c, ⟨hm, d⟩, e⟩⟩
      obtain ⟨f, ts, rfl⟩ := notVar_iff.1 hv
      refine ⟨q, ⟨L, h1, h2.1, h3, ⟨f, ts, h4⟩, h2.2⟩, h4, ?_⟩
      rw [h5, h6]; simp
    · rintro ⟨q, ⟨L, h1, h2, h3, ⟨f, ts, h4'⟩, h4⟩, h5, h6⟩
      obtain ⟨j, L', hj, h⟩ := (clause_has (P := fun L rt p => L.maximal = true ∧ ¬ (L.negAtom ∧ rt = false ∧ p = [])) (pos := 0) (n := n)).2
        ⟨q, L, n, h1, ⟨h2, h4⟩, h3, h5, h6, by simp⟩
      obtain ⟨a, b, c, d, e⟩ := h
      rw [h5] at h4'; cases h4'
      exact ⟨j, L', hj, d.1, rfl, a, b, c, d.2, e⟩
  | negp =>
    simp only [OvKind.entries, (clauseIntoPos_iff _ _ _ _).2, (litIntoPos_iff _ _ _ _).2]
    constructor
    · rintro ⟨j, L, hj, hm, hv, h⟩
      obtain ⟨q, L, c, h1, h2, h3, h4, h5, h6⟩ := (clause_has (P := fun L rt p => L.maximal = true ∧ (L.negAtom ∧ rt = false ∧ p = []))).1
        ⟨j, L, hj, by
          obtain ⟨a, b, c, d, e⟩ := h
          exact ⟨a, b, c, ⟨hm, d⟩, e⟩⟩
      obtain ⟨f, ts, rfl⟩ := notVar_iff.1 hv
      refine ⟨q, ⟨L, h1, h2.1, h3, ⟨f, ts, h4⟩, h2.2⟩, h4, ?_⟩
      rw [h5, h6]; simp
    · rintro ⟨q, ⟨L, h1, h2, h3, ⟨f, ts, h4'⟩, h4⟩, h5, h6⟩
      obtain ⟨j, L', hj, h⟩ := (clause_has (P := fun L rt p => L.maximal = true ∧ (L.negAtom ∧ rt = false ∧ p = [])) (pos := 0) (n := n)).2
        ⟨q, L, n, h1, ⟨h2, h4⟩, h3, h5, h6, by simp⟩
      obtain ⟨a, b, c, d, e⟩ := h
      rw [h5] at h4'; cases h4'
      exact ⟨j, L', hj, d.1, rfl, a, b, c, d.2, e⟩

/-! ## Entries and terms -/

theorem intoL_fst : ∀ (ts : List Term), (∀ t ∈ ts, ∀ pos, (intoPos t pos).map Prod.fst = intoTerms t) → ∀ pos,
    (intoPosL ts pos).map Prod.fst = intoTermsL ts := by
  intro ts
  induction ts with
  | nil => intro _ pos; rfl
  | cons t ts ih =>
    intro h pos
    rw [intoPosL, intoTermsL, List.map_append, h t (by simp), ih fun t ht => h t (by simp [ht])]

theorem into_fst : ∀ (t : Term) (pos : Nat), (intoPos t pos).map Prod.fst = intoTerms t := by
  intro t
  induction t using Term.ind with
  | hv y => intro pos; rfl
  | ha f ts ih => intro pos; rw [intoPos, intoTerms, List.map_cons, intoL_fst ts ih]

theorem lit_fst (L : XLit) (pos : Nat) : (litIntoPos L pos).1.map Prod.fst = (litInto L).1 ∧ (litIntoPos L pos).2.map Prod.fst = (litInto L).2 := by
  unfold litIntoPos litInto
  have hr : (if L.oriented then [] else intoPos L.lit.r (pos + stdW L.lit.l)).map Prod.fst = if L.oriented then [] else intoTerms L.lit.r := by
    split
    · rfl
    · exact into_fst _ _
  by_cases hn : (!L.lit.pos && decide (L.lit.r = tTrue)) = true
  · simp only [hn, if_true]
    generalize (if L.oriented then [] else intoPos L.lit.r (pos + stdW L.lit.l)) = A at hr
    cases L.lit.l with
    | var y => exact ⟨hr, rfl⟩
    | app f ts => exact ⟨by rw [List.map_append, hr, intoL_fst ts fun t _ => into_fst t], rfl⟩
  · simp only [hn, Bool.false_eq_true, if_false]
    exact ⟨by rw [List.map_append, hr, into_fst], rfl⟩

theorem clause_fst (C : List XLit) : ∀ pos, (clauseIntoPos C pos).1.map Prod.fst = (clauseInto C).1 ∧ (clauseIntoPos C pos).2.map Prod.fst = (clauseInto C).2 := by
  induction C with
  | nil => intro pos; exact ⟨rfl, rfl⟩
  | cons L C ih =>
    intro pos
    simp only [clauseIntoPos, clauseInto]
    split
    · exact ⟨by rw [List.map_append, (lit_fst L pos).1, (ih _).1], by rw [List.map_append, (lit_fst L pos).2, (ih _).2]⟩
    · exact ih _

theorem from_fst (C : List XLit) : ∀ pos, (clauseFromPos C pos).map Prod.fst = clauseFrom C := by
  induction C with
  | nil => intro pos; rfl
  | cons L C ih =>
    intro pos
    rw [clauseFromPos, clauseFrom, List.map_append, ih]
    congr 1
    split
    · cases L.oriented <;> rfl
    · rfl

theorem terms_eq (k : OvKind) (C : List XLit) : k.terms C = (k.entries C).map Prod.fst := by
  cases k with
  | into => exact (clause_fst C 0).1.symm
  | negp => exact (clause_fst C 0).2.symm
  | «from» => exact (from_fst C 0).symm

theorem subtermAt_sub : ∀ (t : Term) {p : List Nat} {u : Term}, subtermAt t p = some u → ∀ s ∈ u.subterms, s ∈ t.subterms := by
  intro t
  induction t using Term.ind with
  | hv y =>
    intro p u h
    cases p with
    | nil => simp [subtermAt] at h; subst h; exact fun _ h => h
    | cons i p => simp [subtermAt] at h
  | ha f ts ih =>
    intro p u h s hs
    cases p with
    | nil => simp [subtermAt] at h; subst h; exact hs
    | cons i p =>
      simp only [subtermAt] at h
      cases hi : ts[i]? with
      | none => simp [hi] at h
      | some w =>
        simp only [hi] at h
        have hw := List.mem_of_getElem? hi
        simp only [Term.subterms, List.mem_cons]
        exact Or.inr (Term.mem_subtermsL.2 ⟨w, hw, ih w hw h s hs⟩)

theorem entries_ok {ar : Nat → Nat} {k : OvKind} {C : List XLit} (h : ClauseFPOK ar C) {e : Term × Nat} (he : e ∈ k.entries C) :
    FPTermOK ar e.1 := by
  obtain ⟨q, ⟨L, h1, _⟩, h2, _⟩ := (entries_iff k C e.1 e.2).1 he
  simp only [clauseAt, h1] at h2
  intro f ts hm
  have := h L (List.mem_of_getElem? h1)
  have hs := subtermAt_sub _ h2 _ hm
  cases hr : q.right with
  | true => rw [hr] at hs; exact this.2 f ts hs
  | false => rw [hr] at hs; exact this.1 f ts hs

/-! ## Histories -/

variable {β : Type} [DecidableEq β] {x : FPCtx}

theorem reach_congr {ix : FPIndex β} {S S' : Term → β → Prop} (h : FPReach x ix S) (he : ∀ t b, S t b ↔ S' t b) : FPReach x ix S' := by
  have : S = S' := funext fun t => funext fun b => propext (he t b)
  exact this ▸ h

theorem reach_inserts : ∀ (l : List (Term × β)) {ix : FPIndex β} {S : Term → β → Prop}, FPReach x ix S → (∀ e ∈ l, FPTermOK x.ar e.1) →
    FPReach x (l.foldl (fun ix e => fpInsert x ix e.1 e.2) ix) fun t b => S t b ∨ (t, b) ∈ l := by
  intro l
  induction l with
  | nil => intro ix S h _; exact reach_congr h fun t b => by simp
  | cons e l ih =>
    intro ix S h hok
    refine reach_congr (ih (.insert e.1 e.2 h (hok e (by simp))) fun e he => hok e (by simp [he])) fun t b => ?_
    rw [List.mem_cons, or_assoc]
    refine or_congr Iff.rfl (or_congr ?_ Iff.rfl)
    exact ⟨fun h => Prod.ext h.1 h.2, fun h => ⟨congrArg Prod.fst h, congrArg Prod.snd h⟩⟩

theorem reach_deletes (del : β → Bool) : ∀ (l : List Term) {ix : FPIndex β} {S : Term → β → Prop}, FPReach x ix S → (∀ t ∈ l, FPTermOK x.ar t) →
    FPReach x (l.foldl (fun ix t => fpDelete x ix t del) ix) fun t b => S t b ∧ ¬ (t ∈ l ∧ del b = true) := by
  intro l
  induction l with
  | nil => intro ix S h _; exact reach_congr h fun t b => by simp
  | cons e l ih =>
    intro ix S h hok
    refine reach_congr (ih (.delete e del h (hok e (by simp))) fun e he => hok e (by simp [he])) fun t b => ?_
    rw [List.mem_cons, and_assoc, ← not_or, or_and_right]

theorem stored_set {st : Stored} {c d : Nat} {o : Option (List XLit)} : st.set c o d = if d = c then o else st d := rfl

theorem ovReach {k : OvKind} {ix : FPIndex (Nat × Nat)} {st : Stored} (h : OvReach x k ix st) :
    (∀ c C, st c = some C → ClauseFPOK x.ar C) ∧
    FPReach x ix fun t b => ∃ C, st b.1 = some C ∧ (t, b.2) ∈ k.entries C := by
  induction h with
  | alloc => exact ⟨by simp, reach_congr .alloc fun t b => by simp⟩
  | @insert ix st c C h hn hC ih =>
    obtain ⟨ih1, ih2⟩ := ih
    refine ⟨fun d D hd => ?_, ?_⟩
    · rw [stored_set] at hd
      split at hd
      · cases hd; exact hC
      · exact ih1 d D hd
    · have e : ovInsertClause x k ix c C = ((k.entries C).reverse.map fun e => (e.1, (c, e.2))).foldl (fun ix e => fpInsert x ix e.1 e.2) ix := by
        rw [ovInsertClause, List.foldl_map]
      rw [e]
      refine reach_congr (reach_inserts _ ih2 ?_) fun t b => ?_
      · intro e he
        obtain ⟨e', he', rfl⟩ := List.mem_map.1 he
        exact entries_ok (e := e') hC (List.mem_reverse.1 he')
      · obtain ⟨d, n⟩ := b
        simp only [stored_set, List.mem_map, List.mem_reverse, Prod.mk.injEq, Prod.exists]
        by_cases hd : d = c
        · subst hd
          simp only [hn, if_true, Option.some.injEq]
          constructor
          · rintro (⟨_, h, _⟩ | ⟨t', n', h, rfl, _, rfl⟩)
            · cases h
            · exact ⟨C, rfl, h⟩
          · rintro ⟨_, rfl, h⟩; exact Or.inr ⟨t, n, h, by simp⟩
        · simp only [hd, if_false]
          constructor
          · rintro (h | ⟨t', n', h, _, h', _⟩)
            · exact h
            · exact absurd h'.symm hd
          · exact Or.inl
  | @delete ix st c C h hs ih =>
    obtain ⟨ih1, ih2⟩ := ih
    refine ⟨fun d D hd => ?_, ?_⟩
    · rw [stored_set] at hd
      split at hd
      · cases hd
      · exact ih1 d D hd
    · rw [ovDeleteClause]
      refine reach_congr (reach_deletes _ _ ih2 ?_) fun t b => ?_
      · intro t ht
        rw [List.mem_dedup, terms_eq] at ht
        obtain ⟨e, he, rfl⟩ := List.mem_map.1 ht
        exact entries_ok (ih1 c C hs) he
      · obtain ⟨d, n⟩ := b
        simp only [stored_set, List.mem_dedup, terms_eq, beq_iff_eq]
        by_cases hd : d = c
        · subst hd
          simp only [hs, if_true, Option.some.injEq, and_true, reduceCtorEq, false_and, exists_false, iff_false]
          rintro ⟨⟨_, rfl, h⟩, h'⟩
          exact h' (List.mem_map.2 ⟨_, h, rfl⟩)
        · simp [hd]
  | query t h hq ih => exact ⟨ih.1, .query_unif t ih.2 hq⟩
  | other t h hq ih => exact ⟨ih.1, .other t ih.2 hq⟩

/-! ## The index for backward rewriting -/

theorem mem_storeTerm {t u : Term} {s : List Term} : u ∈ storeTerm t s ↔ u = t ∨ u ∈ s := by
  unfold storeTerm
  split
  · constructor
    · exact Or.inr
    · rintro (rfl | h) <;> assumption
  · simp

/-- Membership in the two sets. -/
def InSets (s : List Term × List Term) (u : Term) (rs : Bool) : Prop := if rs then u ∈ s.1 else u ∈ s.2

theorem store_iff {f : Nat} {ts : List Term} {rs : Bool} {acc : List Term × List Term} {u : Term} {r : Bool} :
    InSets (if rs then (storeTerm (.app f ts) acc.1, acc.2) else (acc.1, storeTerm (.app f ts) acc.2)) u r ↔
      InSets acc u r ∨ (u = .app f ts ∧ r = rs) := by
  cases rs <;> cases r <;> simp [InSets, mem_storeTerm, or_comm]

theorem collectIdx_true {t : Term} {rs : Bool} {acc : List Term × List Term} {u : Term} {r : Bool} :
    InSets (collectIdx t rs true acc) u r ↔ InSets acc u r ∨ (u = t ∧ r = rs ∧ t.isVar = false) := by
  cases t with
  | var y => simp [collectIdx, Term.isVar]
  | app f ts =>
    simp only [collectIdx, Bool.not_true, Bool.false_eq_true, if_false, store_iff, Term.isVar, and_true]

theorem collectIdxL_iff : ∀ (ts : List Term) {acc : List Term × List Term} {u : Term} {r : Bool},
    InSets (collectIdxL ts acc) u r ↔ InSets acc u r ∨ (u ∈ ts ∧ r = false ∧ u.isVar = false) := by
  intro ts
  induction ts with
  | nil => intro acc u r; simp [collectIdxL]
  | cons t ts ih =>
    intro acc u r
    rw [collectIdxL, ih, collectIdx_true, or_assoc, List.mem_cons]
    refine or_congr Iff.rfl ?_
    constructor
    · rintro (⟨rfl, h1, h2⟩ | ⟨h, h1, h2⟩)
      · exact ⟨Or.inl rfl, h1, h2⟩
      · exact ⟨Or.inr h, h1, h2⟩
    · rintro ⟨rfl | h, h1, h2⟩
      · exact Or.inl ⟨rfl, h1, h2⟩
      · exact Or.inr ⟨h, h1, h2⟩

theorem collectIdx_iff {t : Term} {rs ld : Bool} {acc : List Term × List Term} {u : Term} {r : Bool} :
    InSets (collectIdx t rs ld acc) u r ↔ InSets acc u r ∨
      (u.isVar = false ∧ ((u = t ∧ r = rs) ∨ (r = false ∧ ld = false ∧ ∃ f ts, u ∈ ts ∧ t = .app f ts))) := by
  cases t with
  | var y =>
    simp only [collectIdx]
    constructor
    · exact Or.inl
    · rintro (h | ⟨hv, ⟨rfl, _⟩ | ⟨_, _, f, ts, _, h⟩⟩)
      · exact h
      · simp [Term.isVar] at hv
      · cases h
  | app f ts =>
    cases ld with
    | true =>
      rw [collectIdx_true]
      simp only [Bool.true_eq_false, false_and, and_false, or_false]
      refine or_congr Iff.rfl ?_
      constructor
      · rintro ⟨rfl, h1, h2⟩; exact ⟨h2, rfl, h1⟩
      · rintro ⟨h2, rfl, h1⟩; exact ⟨rfl, h1, h2⟩
    | false =>
      simp only [collectIdx, Bool.not_false, if_true, collectIdxL_iff, store_iff, or_assoc]
      refine or_congr Iff.rfl ?_
      constructor
      · rintro (⟨rfl, h⟩ | ⟨h, h1, h2⟩)
        · exact ⟨by trivial, Or.inl ⟨rfl, h⟩⟩
        · exact ⟨h2, Or.inr ⟨h1, trivial, f, ts, h, rfl⟩⟩
      · rintro ⟨hv, ⟨rfl, h⟩ | ⟨h1, _, f', ts', h, e⟩⟩
        · exact Or.inl ⟨rfl, h⟩
        · cases e; exact Or.inr ⟨h, h1, hv⟩

theorem clauseCollectIdx_iff (ld : Bool) : ∀ (C : List XLit) {acc : List Term × List Term} {u : Term} {r : Bool},
    InSets (clauseCollectIdx ld C acc) u r ↔ InSets acc u r ∨ ∃ L ∈ C, L.RwPlace1 ld u r := by
  intro C
  induction C with
  | nil => intro acc u r; simp [clauseCollectIdx]
  | cons L C ih =>
    intro acc u r
    rw [clauseCollectIdx, ih, collectIdx_iff, collectIdx_iff, or_assoc, or_assoc]
    refine or_congr Iff.rfl ?_
    simp only [List.mem_cons, exists_eq_or_imp, ← or_assoc]
    refine or_congr ?_ Iff.rfl
    unfold XLit.RwPlace1
    rw [← and_or_left]
    refine and_congr_right fun _ => ?_
    constructor
    · rintro ((⟨h, h'⟩ | ⟨h, h', f, ts, h1, h2⟩) | (⟨h, h'⟩ | ⟨h, h', f, ts, h1, h2⟩))
      · exact Or.inl ⟨h, h'⟩
      · exact Or.inr ⟨h, Or.inr ⟨h', f, ts, h1, Or.inl h2⟩⟩
      · exact Or.inr ⟨h', Or.inl h⟩
      · exact Or.inr ⟨h, Or.inr ⟨h', f, ts, h1, Or.inr h2⟩⟩
    · rintro (⟨h, h'⟩ | ⟨h, h' | ⟨h', f, ts, h1, h2 | h2⟩⟩)
      · exact Or.inl (Or.inl ⟨h, h'⟩)
      · exact Or.inr (Or.inl ⟨h', h⟩)
      · exact Or.inl (Or.inr ⟨h, h', f, ts, h1, h2⟩)
      · exact Or.inr (Or.inr ⟨h, h', f, ts, h1, h2⟩)

theorem place_ok {ar : Nat → Nat} {ld : Bool} {C : List XLit} (h : ClauseFPOK ar C) {u : Term} {r : Bool} {L : XLit} (hL : L ∈ C)
    (hp : L.RwPlace1 ld u r) : FPTermOK ar u := by
  intro f ts hm
  rcases hp with ⟨_, ⟨rfl, _⟩ | ⟨_, rfl | ⟨_, g, us, hu, he | he⟩⟩⟩
  · exact (h L hL).1 f ts hm
  · exact (h L hL).2 f ts hm
  · refine (h L hL).1 f ts ?_
    rw [he, Term.subterms]
    exact List.mem_cons.2 (Or.inr (Term.mem_subtermsL.2 ⟨u, hu, hm⟩))
  · refine (h L hL).2 f ts ?_
    rw [he, Term.subterms]
    exact List.mem_cons.2 (Or.inr (Term.mem_subtermsL.2 ⟨u, hu, hm⟩))

theorem collected_ok {ar : Nat → Nat} {ld : Bool} {C : List XLit} (h : ClauseFPOK ar C) :
    (∀ t ∈ (clauseCollectIdx ld C ([], [])).1, FPTermOK ar t) ∧ (∀ t ∈ (clauseCollectIdx ld C ([], [])).2, FPTermOK ar t) := by
  constructor
  · intro t ht
    rcases (clauseCollectIdx_iff ld C (u := t) (r := true)).1 (by simpa [InSets] using ht) with h' | ⟨L, hL, hp⟩
    · simp [InSets] at h'
    · exact place_ok h hL hp
  · intro t ht
    rcases (clauseCollectIdx_iff ld C (u := t) (r := false)).1 (by simpa [InSets] using ht) with h' | ⟨L, hL, hp⟩
    · simp [InSets] at h'
    · exact place_ok h hL hp

theorem subReach {ld : Bool} {ix : FPIndex (Nat × Bool)} {st : Stored} (h : SubReach x ld ix st) :
    (∀ c C, st c = some C → ClauseFPOK x.ar C) ∧
    FPReach x ix fun t b => ∃ C, st b.1 = some C ∧ ∃ L ∈ C, L.RwPlace1 ld t b.2 := by
  have key : ∀ (C : List XLit) (t : Term) (r : Bool), (∃ L ∈ C, L.RwPlace1 ld t r) ↔ InSets (clauseCollectIdx ld C ([], [])) t r := by
    intro C t r
    rw [clauseCollectIdx_iff]
    simp [InSets]
  simp only [key]
  induction h with
  | alloc => exact ⟨by simp, reach_congr .alloc fun t b => by simp⟩
  | @insert ix st c C h hn hC ih =>
    obtain ⟨ih1, ih2⟩ := ih
    refine ⟨fun d D hd => ?_, ?_⟩
    · rw [stored_set] at hd
      split at hd
      · cases hd; exact hC
      · exact ih1 d D hd
    · have e : subInsertClause x ld ix c C = ((clauseCollectIdx ld C ([], [])).2.map fun t => (t, (c, false))).foldl (fun ix e => fpInsert x ix e.1 e.2)
          (((clauseCollectIdx ld C ([], [])).1.map fun t => (t, (c, true))).foldl (fun ix e => fpInsert x ix e.1 e.2) ix) := by
        rw [subInsertClause, List.foldl_map, List.foldl_map]
      rw [e]
      refine reach_congr (reach_inserts _ (reach_inserts _ ih2 ?_) ?_) fun t b => ?_
      · intro e he
        obtain ⟨t, ht, rfl⟩ := List.mem_map.1 he
        exact (collected_ok hC).1 t ht
      · intro e he
        obtain ⟨t, ht, rfl⟩ := List.mem_map.1 he
        exact (collected_ok hC).2 t ht
      · obtain ⟨d, r⟩ := b
        simp only [stored_set, List.mem_map, Prod.mk.injEq]
        by_cases hd : d = c
        · subst hd
          cases r <;> simp [hn, InSets]
        · cases r <;> simp [hd, Ne.symm hd]
  | @delete ix st c C h hs ih =>
    obtain ⟨ih1, ih2⟩ := ih
    refine ⟨fun d D hd => ?_, ?_⟩
    · rw [stored_set] at hd
      split at hd
      · cases hd
      · exact ih1 d D hd
    · rw [subDeleteClause]
      refine reach_congr (reach_deletes _ _ (reach_deletes _ _ ih2 ?_) ?_) fun t b => ?_
      · exact (collected_ok (ih1 c C hs)).1
      · exact (collected_ok (ih1 c C hs)).2
      · obtain ⟨d, r⟩ := b
        simp only [stored_set, beq_iff_eq, Prod.mk.injEq]
        by_cases hd : d = c
        · subst hd
          cases r <;> simp [hs, InSets]
        · simp [hd]
  | query t h hq ih => exact ⟨ih.1, .query_match t ih.2 hq⟩
  | other t h hq ih => exact ⟨ih.1, .other t ih.2 hq⟩

theorem tryDemod_rwHit (rx : RWCtx) (d : Demod) (right : Bool) (t : Term) (hr : right = true → d.oriented = false) :
    (tryDemod rx false d right t).isSome = (rwHit rx (d.lhs right) (d.rhs right) d.oriented t).isSome := by
  cases right with
  | false =>
    simp only [tryDemod, rwHit, Demod.lhs, Demod.rhs, Bool.false_eq_true, if_false]
    cases hm : matchSt rx d.l t with
    | none => rfl
    | some sb =>
      simp only
      cases hi : (if d.oriented then (true, sb) else instanceIsRule rx d.l d.r sb) with
      | mk ok sb1 => cases ok <;> simp
  | true =>
    simp only [tryDemod, rwHit, Demod.lhs, Demod.rhs, if_true, hr rfl, Bool.false_eq_true, if_false]
    cases hm : matchSt rx d.r t with
    | none => rfl
    | some sb =>
      simp only
      cases hi : instanceIsRule rx d.r d.l sb with
      | mk ok sb1 => cases ok <;> simp

theorem hitAt_iff {rx : RWCtx} {d : Demod} {rs : Bool} {t : Term} :
    HitAt rx d rs t ↔ ∃ right al, (right = true → d.oriented = false) ∧ rwHit rx (d.lhs right) (d.rhs right) d.oriented t = some al ∧
      (al || !rs) = true := by
  have hfalse : ∀ right, (right = true → d.oriented = false) → rwHit rx (d.lhs right) (d.rhs right) d.oriented t = some false → OnlyVariants rx d t := by
    intro right hr h
    unfold rwHit at h
    cases hm : matchSt rx (d.lhs right) t with
    | none => simp [hm] at h
    | some sb =>
      simp only [hm] at h
      cases ho : d.oriented with
      | false =>
        simp only [ho, Bool.false_eq_true, if_false, Bool.not_false, Bool.true_or] at h
        split at h <;> simp at h
      | true =>
        have : right = false := by cases right with
          | false => rfl
          | true => rw [hr rfl] at ho; cases ho
        subst this
        simp only [ho, if_true, Bool.not_true, Bool.false_or, Option.some.injEq, Bool.not_eq_false'] at h
        exact RewriteProof.onlyVariants_of ho (by simpa [Demod.lhs] using hm) h
  have htrue : ∀ right, (right = true → d.oriented = false) → rwHit rx (d.lhs right) (d.rhs right) d.oriented t = some true → ¬ OnlyVariants rx d t := by
    intro right hr h hv
    have hs : (tryDemod rx false d right t).isSome := by rw [tryDemod_rwHit _ _ _ _ hr, h]; rfl
    obtain ⟨u, hu⟩ := Option.isSome_iff_exists.1 hs
    obtain ⟨σ, hσ⟩ := RewriteProof.tryDemod_sound hr hu
    obtain ⟨ho, hren⟩ := hv _ _ _ hσ
    have : right = false := (hσ.rule ho).1
    subst this
    unfold rwHit at h
    cases hm : matchSt rx (d.lhs false) t with
    | none => simp [hm] at h
    | some sb =>
      simp only [hm, ho, if_true, Bool.not_true, Bool.false_or, Option.some.injEq, Bool.not_eq_true'] at h
      have hM := RewriteProof.matchSt_some hm
      obtain ⟨sb', hm', hl⟩ := RewriteProof.matchSt_exists hσ.inst hσ.typed hσ.pred
      rw [hm] at hm'; cases hm'
      have : substIsRenaming sb = true := by
        rw [RewriteProof.isRenaming_iff hM.stack]
        refine (RewriteProof.renamesOn_congr (fun y => ?_) fun y hy => ?_).2 hren
        · rw [hM.stack.bound y, hM.dom y]; rfl
        · rw [hM.stack.bound y, hM.dom y] at hy; exact hl y hy
      rw [this] at h; cases h
  constructor
  · rintro ⟨⟨right, u, hu⟩, hrs⟩
    have hr : right = true → d.oriented = false := by
      rintro rfl
      obtain ⟨σ, hσ⟩ := hu
      cases ho : d.oriented with
      | false => rfl
      | true => exact absurd (hσ.rule ho).1 (by simp)
    obtain ⟨u', hu'⟩ := (RewriteProof.tryDemod_complete hu).2
    have hs := tryDemod_rwHit rx d right t hr
    rw [hu'] at hs
    obtain ⟨al, hal⟩ := Option.isSome_iff_exists.1 hs.symm
    refine ⟨right, al, hr, hal, ?_⟩
    cases al with
    | true => rfl
    | false =>
      cases rs with
      | false => rfl
      | true => exact absurd (hfalse right hr hal) (hrs rfl)
  · rintro ⟨right, al, hr, hal, h⟩
    have hs : (tryDemod rx false d right t).isSome := by rw [tryDemod_rwHit _ _ _ _ hr, hal]; rfl
    obtain ⟨u, hu⟩ := Option.isSome_iff_exists.1 hs
    refine ⟨⟨right, u, RewriteProof.tryDemod_sound hr hu⟩, ?_⟩
    rintro rfl
    simp only [Bool.not_true, Bool.or_false] at h
    subst h
    exact htrue right hr hal

theorem rwHit_inst {rx : RWCtx} {l r t : Term} {o al : Bool} (h : rwHit rx l r o t = some al) : ∃ σ : Nat → Term, t = l.subst σ := by
  unfold rwHit at h
  cases hm : matchSt rx l t with
  | none => simp [hm] at h
  | some sb => exact ⟨_, (RewriteProof.matchSt_some hm).inst.symm⟩

end Verif.CIProof
