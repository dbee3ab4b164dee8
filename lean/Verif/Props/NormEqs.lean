import Verif.HO.NormEqsProof
import Mathlib.Data.List.Forall2
import Mathlib.Data.List.Basic

/-!
# C90: lifting equations between formulas to literals keeps the meaning
-/

namespace Verif
namespace Props

open NormEqs

/-- Every literal is true after the normalisation exactly if it was before, for all values of the opaque terms. -/
theorem normalize_equations_equiv {D : Type} {s : Nat → Nat} {v : Nat → Value D} (hv : Respects s v) {cl : List BLit} (hw : ∀ c ∈ cl, c.WT s) :
    List.Forall₂ (fun c d => BLit.True v d ↔ BLit.True v c) cl (normalize cl).1 ∧ ((∃ c ∈ (normalize cl).1, c.True v) ↔ ∃ c ∈ cl, c.True v) := by
  unfold normalize
  constructor
  · simp only
    induction cl with
    | nil => exact .nil
    | cons c cl ih => exact .cons (normLit_spec hv c (hw c (by simp))).1 (ih fun d hd => hw d (by simp [hd]))
  · simp only [List.mem_map, exists_exists_and_eq_and]
    exact exists_congr fun c => and_congr_right fun hc => (normLit_spec hv c (hw c hc)).1

/-- The literals stay well-typed. -/
theorem normalize_equations_typed {s : Nat → Nat} {cl : List BLit} (hw : ∀ c ∈ cl, c.WT s) : ∀ c ∈ (normalize cl).1, c.WT s := by
  intro c hc
  obtain ⟨d, hd, rfl⟩ := List.mem_map.1 hc
  exact (normLit_spec (D := Unit) (v := fun _ => .inl true) (fun _ _ => ⟨true, rfl⟩) d (hw d hd)).2.1

/-- The mark of equational literals stays right: they are those with a right-hand side other than `$true`. -/
theorem normalize_equations_marks {cl : List BLit} (h : ∀ c ∈ cl, c.l ≠ .tru → (c.equ = true ↔ c.r ≠ .tru)) (ht : ∀ c ∈ cl, c.l = .tru → c.r = .tru → c.equ = false) :
    ∀ c ∈ (normalize cl).1, (c.equ = true ↔ c.r ≠ .tru) := by
  intro c hc
  obtain ⟨d, hd, rfl⟩ := List.mem_map.1 hc
  unfold normLit
  simp only
  split
  · simp
  · unfold swapTrue
    split
    · simp
    · rename_i hn
      by_cases hl : d.l = .tru
      · have hr : d.r = .tru := by
          by_contra hr
          exact hn ⟨hl, hr⟩
        rw [ht d hd hl hr, hr]
        simp
      · exact h d hd hl

/-- Nothing is changed if and only if nothing is reported, and then no literal says that a negation or an equation is true, and `$true` is on the right. -/
theorem normalize_equations_done {s : Nat → Nat} {cl : List BLit} (hw : ∀ c ∈ cl, c.WT s) :
    ((normalize cl).2 = false ↔ (normalize cl).1 = cl) ∧ ((normalize cl).2 = false → ∀ c ∈ cl, (c.l = .tru → c.r = .tru) ∧
      (c.r = .tru → (∀ t, c.l ≠ .nt t) ∧ (∀ a b, c.l ≠ .eq a b) ∧ ∀ a b, c.l ≠ .ne a b)) := by
  have one : ∀ c ∈ cl, (decide (c.l = .tru ∧ c.r ≠ .tru) || applicable (swapTrue c)) = false ↔ normLit c = c := by
    intro c hc
    constructor
    · intro h
      rw [Bool.or_eq_false_iff, decide_eq_false_iff_not] at h
      have e : swapTrue c = c := if_neg h.1
      unfold normLit
      rw [e] at h ⊢
      simp only
      rw [if_neg (by rw [h.2]; simp)]
    · intro h
      rw [Bool.or_eq_false_iff, decide_eq_false_iff_not]
      have ha : applicable (swapTrue c) = false := by
        refine Bool.eq_false_iff.2 fun ha => ?_
        have := (normLit_spec (D := Unit) (v := fun _ => .inl true) (fun _ _ => ⟨true, rfl⟩) c (hw c hc)).2.2.2 ha
        rw [h] at this
        omega
      refine ⟨fun ht => ?_, ha⟩
      have e : normLit c = ⟨c.pos, false, c.r, .tru⟩ := by
        unfold normLit
        simp only
        rw [if_neg (by rw [ha]; simp)]
        exact if_pos ht
      rw [e] at h
      exact ht.2 ((congrArg BLit.l h).trans ht.1)
  have key : (normalize cl).2 = false ↔ ∀ c ∈ cl, (decide (c.l = .tru ∧ c.r ≠ .tru) || applicable (swapTrue c)) = false := by
    unfold normalize
    simp only [List.any_eq_false, Bool.not_eq_true]
  refine ⟨key.trans ?_, fun h c hc => ?_⟩
  · unfold normalize
    simp only
    constructor
    · intro h
      calc cl.map normLit = cl.map id := List.map_congr_left fun c hc => (one c hc).1 (h c hc)
        _ = cl := List.map_id cl
    · intro h c hc
      refine (one c hc).2 ?_
      have : cl.map normLit = cl.map id := by rw [h, List.map_id]
      exact List.map_inj_left.1 this c hc
  · have h := key.1 h c hc
    rw [Bool.or_eq_false_iff, decide_eq_false_iff_not] at h
    have e : swapTrue c = c := if_neg h.1
    rw [e] at h
    refine ⟨fun hl => by_contra fun hr => h.1 ⟨hl, hr⟩, fun hr => ?_⟩
    have ha := h.2
    unfold applicable at ha
    rw [hr] at ha
    refine ⟨fun t ht => ?_, fun a b ht => ?_, fun a b ht => ?_⟩ <;> rw [ht] at ha <;> simp at ha

/-- Repeating the normalisation ends with such a clause: each step which does something to the terms makes the literal smaller. -/
theorem normalize_equations_smaller {s : Nat → Nat} {c : BLit} (hw : c.WT s) (h : applicable (swapTrue c) = true) :
    (normLit c).l.size + (normLit c).r.size < c.l.size + c.r.size :=
  (normLit_spec (D := Unit) (v := fun _ => .inl true) (fun _ _ => ⟨true, rfl⟩) c hw).2.2.2 h

namespace NormEqsEx

/-- `¬ ((a = b) = $false) = $true` with individuals `a`, `b` (opaque terms 1 and 2). -/
def lit : BLit := ⟨true, false, .nt (.eq (.eq (.oth 1) (.oth 2)) .fls), .tru⟩

/-- One step gives `(a = b) = $true`, the next one `a = b`. -/
example : (normalize [lit]).1 = [⟨true, false, .eq (.oth 1) (.oth 2), .tru⟩] ∧ (normalize (normalize [lit]).1).1 = [⟨true, true, .oth 1, .oth 2⟩] := by decide

/-- So one step is not enough in general. -/
theorem one_step_not_enough : (normalize (normalize [lit]).1).2 = true := by decide

/-- Opaque term 0 is a formula, the others are individuals. -/
def sorts : Nat → Nat
  | 0 => 0
  | _ => 1

def vals : Nat → Value Nat
  | 0 => .inl true
  | n => .inr n

/-- The hypotheses are met. -/
example : (∀ c ∈ [lit], c.WT sorts) ∧ Respects sorts vals ∧ (∀ c ∈ [lit], c.l ≠ .tru → (c.equ = true ↔ c.r ≠ .tru)) ∧
    applicable (swapTrue lit) = true := by
  refine ⟨?_, ?_, by decide, by decide⟩
  · simp only [List.mem_singleton, forall_eq]
    exact ⟨rfl, ⟨rfl, rfl, ⟨rfl, trivial, trivial⟩, trivial⟩, trivial⟩
  · intro n h
    cases n with
    | zero => exact ⟨true, rfl⟩
    | succ n => cases h

end NormEqsEx
end Props
end Verif
