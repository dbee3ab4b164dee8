import Verif.Terms.Term
import Mathlib.Data.List.Nodup

/-!
# Variable banks

Model of the part of TERMS/cte_termvars.c that hands out fresh variables.  A
variable is represented by `x = -f_code > 0`; ordinary variables have even numbers
(`-f_code = 2, 4, …`), the alternative copies used by `TBInsertDisjoint` odd ones
(`VarIsAltVar`, TERMS/cte_termvars.h).  Types are numbers (`type_uid`).

Simplification: a primary bank and its shadow share the variable numbers and the types
(both are allocated together, TERMS/cte_termvars.c:528-536, 572-575), so one bank is
modelled; the `v_counts` are those of the bank asked.
-/

namespace Verif

/-- `VarBankCell` (TERMS/cte_termvars.h:46-74): `fresh_count`, `varstacks`
(oldest variable first), `v_counts`. -/
structure VarBank where
  fresh : Nat
  vstk : Nat → List Nat
  vcnt : Nat → Nat

namespace VarBank

/-- `VarBankAlloc` (TERMS/cte_termvars.c:143-175). -/
def init : VarBank := ⟨0, fun _ => [], fun _ => 0⟩

/-- `VarBankGetFreshVar` (TERMS/cte_termvars.c:558-585) with `VarBankVarAssertAlloc`
(TERMS/cte_termvars.h:180-197) and `var_bank_var_alloc` (480-512). -/
def getFresh (b : VarBank) (ty : Nat) : Nat × VarBank :=
  match (b.vstk ty)[b.vcnt ty]? with
  | some c => (c, { b with vcnt := fun t => if t = ty then b.vcnt ty + 1 else b.vcnt t })
  | none =>
    (b.fresh + 2,
      { fresh := b.fresh + 2
        vstk := fun t => if t = ty then b.vstk ty ++ [b.fresh + 2] else b.vstk t
        vcnt := fun t => if t = ty then b.vcnt ty + 1 else b.vcnt t })

/-- `VarBankResetVCounts` (TERMS/cte_termvars.c:281-289). -/
def reset (b : VarBank) : VarBank := { b with vcnt := fun _ => 0 }

/-- What holds of every reachable bank. -/
structure Inv (b : VarBank) : Prop where
  even : b.fresh % 2 = 0
  codes : ∀ ty, ∀ c ∈ b.vstk ty, c % 2 = 0 ∧ 0 < c ∧ c ≤ b.fresh
  nodup : ∀ ty, (b.vstk ty).Nodup
  typed : ∀ ty ty' c, c ∈ b.vstk ty → c ∈ b.vstk ty' → ty = ty'
  cnt : ∀ ty, b.vcnt ty ≤ (b.vstk ty).length

theorem inv_init : Inv init := by constructor <;> simp [init]

theorem inv_reset {b : VarBank} (h : Inv b) : Inv b.reset :=
  ⟨h.even, h.codes, h.nodup, h.typed, fun _ => Nat.zero_le _⟩

theorem inv_getFresh {b : VarBank} (h : Inv b) (ty : Nat) : Inv (b.getFresh ty).2 := by
  cases hc : (b.vstk ty)[b.vcnt ty]? with
  | some c =>
    simp only [getFresh, hc]
    refine ⟨h.even, h.codes, h.nodup, h.typed, fun t => ?_⟩
    have := h.cnt t
    obtain ⟨hlt, _⟩ := List.getElem?_eq_some_iff.1 hc
    by_cases ht : t = ty
    · subst ht; simp; omega
    · simpa [ht] using this
  | none =>
    simp only [getFresh, hc]
    have hnew : ∀ t, b.fresh + 2 ∉ b.vstk t := fun t hm => by have := h.codes t _ hm; omega
    constructor
    · have := h.even; show (b.fresh + 2) % 2 = 0; omega
    · intro t c hm
      simp only at hm
      have he := h.even
      split at hm
      · rcases List.mem_append.1 hm with hm | hm
        · have := h.codes ty c hm; simp; omega
        · simp at hm; subst hm; simp; omega
      · have := h.codes t c hm; simp; omega
    · intro t
      simp only
      split
      · rw [List.nodup_append]
        refine ⟨h.nodup ty, by simp, fun a ha c hc => ?_⟩
        simp at hc; subst hc; rintro rfl; exact hnew ty ha
      · exact h.nodup t
    · intro t t' c hm hm'
      simp only at hm hm'
      split at hm <;> split at hm'
      · simp_all
      · rename_i h1 h2
        rcases List.mem_append.1 hm with hm | hm
        · rw [h1]; exact h.typed ty t' c hm hm'
        · simp at hm; subst hm; exact absurd hm' (hnew t')
      · rename_i h1 h2
        rcases List.mem_append.1 hm' with hm' | hm'
        · rw [h2]; exact h.typed t ty c hm hm'
        · simp at hm'; subst hm'; exact absurd hm (hnew t)
      · exact h.typed t t' c hm hm'
    · intro t
      have := h.cnt t
      simp only
      split
      · rename_i ht; subst ht; simp; omega
      · exact this

/-- The variable handed out is the one at the current index of the new stack, and old
vstk are prefixes of the new ones. -/
theorem getFresh_spec {b : VarBank} (h : Inv b) (ty : Nat) :
    ((b.getFresh ty).2.vstk ty)[b.vcnt ty]? = some (b.getFresh ty).1 ∧
    (∀ t, b.vstk t <+: (b.getFresh ty).2.vstk t) ∧
    ∀ t, (b.getFresh ty).2.vcnt t = if t = ty then b.vcnt ty + 1 else b.vcnt t := by
  cases hc : (b.vstk ty)[b.vcnt ty]? with
  | some c => simp [getFresh, hc]
  | none =>
    simp only [getFresh, hc]
    have h1 := h.cnt ty
    have h2 := List.getElem?_eq_none_iff.1 hc
    have h3 : b.vcnt ty = (b.vstk ty).length := by omega
    refine ⟨by simp [h3], fun t => ?_, by simp⟩
    split
    · rename_i ht; subst ht; simp
    · simp

end VarBank
end Verif
