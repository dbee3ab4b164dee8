import Verif.Terms.SimpleTypesSpec
import Mathlib.Data.List.Nodup
import Mathlib.Data.List.Basic

/-!
# Types: lemmas
-/

namespace Verif.STyProof
open Verif

variable {N N' : TNames} {ar : Nat → Nat}

/-! ## Stability under new names -/

theorem getElem?_prefix {α : Type} {l l' : List α} (h : l <+: l') {i : Nat} {a : α} (hi : l[i]? = some a) : l'[i]? = some a := by
  obtain ⟨s, rfl⟩ := h
  rw [List.getElem?_append_left (List.getElem?_eq_some_iff.1 hi).1]
  exact hi

theorem code_ok {c k : Nat} (h : (N[c]?.map (·.2)) = some k) : ∃ x, N[c]? = some (x, k) := by
  cases hc : N[c]? with
  | none => simp [hc] at h
  | some p =>
    rw [hc] at h
    simp only [Option.map_some, Option.some.injEq] at h
    exact ⟨p.1, by rw [← h]⟩

mutual
theorem wf_prefix (h : N <+: N') : ∀ t : STy, t.WF N → t.WF N'
  | .con c ts, hw => by
    simp only [STy.WF] at hw ⊢
    refine ⟨wfL_prefix h ts hw.1, ?_⟩
    have h2 := hw.2
    split
    · rename_i hc
      rwa [if_pos hc] at h2
    · rename_i hc
      rw [if_neg hc] at h2
      obtain ⟨x, hx⟩ := code_ok h2.1
      exact ⟨by rw [getElem?_prefix h hx]; rfl, h2.2⟩
theorem wfL_prefix (h : N <+: N') : ∀ ts : List STy, STy.WFL N ts → STy.WFL N' ts
  | [], _ => trivial
  | t :: ts, hw => ⟨wf_prefix h t hw.1, wfL_prefix h ts hw.2⟩
end

theorem denArrow_cons {t : STy} {ts : List STy} (h : ts ≠ []) : STy.denArrow N (t :: ts) = .arr (t.den N) (STy.denArrow N ts) := by
  cases ts with
  | nil => exact absurd rfl h
  | cons a l => rfl

theorem denArrow_cons2 {t u : STy} {ts : List STy} :
    STy.denArrow N (t :: u :: ts) = .arr (t.den N) (STy.denArrow N (u :: ts)) := rfl

mutual
theorem den_prefix (h : N <+: N') : ∀ t : STy, t.WF N → t.den N' = t.den N
  | .con c ts, hw => by
    simp only [STy.WF] at hw
    simp only [STy.den]
    have h2 := hw.2
    split
    · exact denArrow_prefix h ts hw.1
    · rename_i hc
      rw [if_neg hc] at h2
      obtain ⟨x, hx⟩ := code_ok h2.1
      rw [denL_prefix h ts hw.1, tcName, tcName, hx, getElem?_prefix h hx]
theorem denArrow_prefix (h : N <+: N') : ∀ ts : List STy, STy.WFL N ts → STy.denArrow N' ts = STy.denArrow N ts
  | [], _ => rfl
  | [t], hw => den_prefix h t hw.1
  | t :: u :: ts, hw => by
    rw [denArrow_cons2, denArrow_cons2, den_prefix h t hw.1, denArrow_prefix h (u :: ts) hw.2]
theorem denL_prefix (h : N <+: N') : ∀ ts : List STy, STy.WFL N ts → STy.denL N' ts = STy.denL N ts
  | [], _ => rfl
  | t :: ts, hw => by rw [STy.denL, STy.denL, den_prefix h t hw.1, denL_prefix h ts hw.2]
end

theorem wfL_iff {ts : List STy} : STy.WFL N ts ↔ ∀ t ∈ ts, t.WF N := by
  induction ts with
  | nil => simp [STy.WFL]
  | cons t ts ih => simp [STy.WFL, ih]

theorem wfL_append {ts us : List STy} : STy.WFL N (ts ++ us) ↔ STy.WFL N ts ∧ STy.WFL N us := by
  simp only [wfL_iff, List.mem_append]
  exact ⟨fun h => ⟨fun t ht => h t (.inl ht), fun t ht => h t (.inr ht)⟩, fun h t ht => ht.elim (h.1 t) (h.2 t)⟩

theorem denL_map {ts : List STy} : STy.denL N ts = ts.map (STy.den N) := by
  induction ts with
  | nil => rfl
  | cons t ts ih => rw [STy.denL, ih]; rfl

theorem denArrow_snoc (ts : List STy) (r : STy) : STy.denArrow N (ts ++ [r]) = CTy.curry (ts.map (STy.den N)) (r.den N) := by
  induction ts with
  | nil => rfl
  | cons t ts ih =>
    rw [List.cons_append, denArrow_cons (by simp), ih]
    rfl

theorem denArrow_append (ts us : List STy) (h : us ≠ []) : STy.denArrow N (ts ++ us) = CTy.curry (ts.map (STy.den N)) (STy.denArrow N us) := by
  induction ts with
  | nil => rfl
  | cons t ts ih =>
    rw [List.cons_append, denArrow_cons (by simp [h]), ih]
    rfl

theorem den_arrow {t : STy} (h : t.isArrow = true) : t.den N = STy.denArrow N t.args := by
  obtain ⟨c, ts⟩ := t
  simp only [STy.isArrow, STy.code, beq_iff_eq] at h
  subst h
  rfl

theorem den_atom {t : STy} (h : t.isArrow = false) : t.den N = .atom (tcName N t.code) (STy.denL N t.args) := by
  obtain ⟨c, ts⟩ := t
  simp only [STy.isArrow, STy.code, beq_eq_false_iff_ne] at h
  simp [STy.den, h, STy.code, STy.args]

/-- An arrow type with at least one argument. -/
theorem wf_arrow {t : STy} (h : t.isArrow = true) (hw : t.WF N) :
    STy.WFL N t.args ∧ 2 ≤ t.args.length ∧ ∀ r, t.args.getLast? = some r → r.isArrow = false := by
  obtain ⟨c, ts⟩ := t
  simp only [STy.isArrow, STy.code, beq_iff_eq] at h
  subst h
  simpa [STy.WF, STy.args] using hw

theorem wf_allocArrow {ts : List STy} (h1 : STy.WFL N ts) (h2 : ts ≠ []) (h3 : ∀ r, ts.getLast? = some r → r.isArrow = false) :
    (allocArrow ts).WF N ∧ (allocArrow ts).den N = STy.denArrow N ts := by
  match ts, h2 with
  | [t], _ => exact ⟨h1.1, rfl⟩
  | t :: u :: ts, _ => exact ⟨⟨h1, by simpa using h3⟩, rfl⟩

/-- The common part of `FlattenType` and of the end of `TypeBankParseType`. -/
theorem finishArrow_ok {ts : List STy} {r : STy} (h1 : STy.WFL N ts) (h2 : r.WF N) :
    (finishArrow (ts ++ [r])).WF N ∧ (finishArrow (ts ++ [r])).den N = CTy.curry (ts.map (STy.den N)) (r.den N) := by
  simp only [finishArrow, List.getLast?_concat, List.dropLast_concat]
  by_cases hr : r.isArrow
  · rw [if_pos hr]
    obtain ⟨hl, hlen, hlast⟩ := wf_arrow hr h2
    have hne : r.args ≠ [] := by
      intro h
      rw [h] at hlen
      simp at hlen
    obtain ⟨a, b⟩ := wf_allocArrow (ts := ts ++ r.args) (wfL_append.2 ⟨h1, hl⟩) (by simp [hne]) (by
      intro q hq
      rw [List.getLast?_append_of_ne_nil _ hne] at hq
      exact hlast q hq)
    exact ⟨a, by rw [b, denArrow_append _ _ hne, den_arrow hr]⟩
  · rw [if_neg hr]
    obtain ⟨a, b⟩ := wf_allocArrow (ts := ts ++ [r]) (wfL_append.2 ⟨h1, h2, trivial⟩) (by simp) (by
      intro q hq
      simp only [List.getLast?_concat, Option.some.injEq] at hq
      subst hq
      simpa using hr)
    exact ⟨a, by rw [b, denArrow_snoc]⟩

/-! ## Different types denote different types -/

theorem name_inj (hN : (N.map (·.1)).Nodup) {c d : Nat} {k l : Nat} (hc : (N[c]?.map (·.2)) = some k) (hd : (N[d]?.map (·.2)) = some l)
    (h : tcName N c = tcName N d) : c = d := by
  obtain ⟨x, hx⟩ := code_ok hc
  obtain ⟨y, hy⟩ := code_ok hd
  simp only [tcName, hx, hy, Option.map_some, Option.getD_some] at h
  subst h
  have h1 := (List.getElem?_eq_some_iff.1 hx)
  have h2 := (List.getElem?_eq_some_iff.1 hy)
  refine (List.nodup_iff_injective_get.1 hN) (a₁ := ⟨c, by simpa using h1.1⟩) (a₂ := ⟨d, by simpa using h2.1⟩) ?_ |> (fun h => by simpa using h)
  simp [h1.2, h2.2]

theorem den_arr_of_arrow {t : STy} (h : t.isArrow = true) (hw : t.WF N) : ∃ a b, t.den N = .arr a b := by
  obtain ⟨-, hl, -⟩ := wf_arrow h hw
  rw [den_arrow h]
  match ht : t.args with
  | [] => rw [ht] at hl; simp at hl
  | [a] => rw [ht] at hl; simp at hl
  | a :: b :: l => exact ⟨_, _, denArrow_cons (by simp)⟩

theorem isArrow_iff_arr {t : STy} (hw : t.WF N) : t.isArrow = true ↔ ∃ a b, t.den N = .arr a b := by
  refine ⟨fun h => den_arr_of_arrow h hw, fun ⟨a, b, h⟩ => ?_⟩
  by_contra hn
  rw [den_atom (by simpa using hn)] at h
  cases h

mutual
theorem den_inj (hN : (N.map (·.1)).Nodup) : ∀ t t' : STy, t.WF N → t'.WF N → t.den N = t'.den N → t = t'
  | .con c ts, .con d us, h1, h2, h => by
    by_cases hc : c = 0
    · have ha : STy.isArrow (.con c ts) = true := by simp [STy.isArrow, STy.code, hc]
      have hd : STy.isArrow (.con d us) = true := (isArrow_iff_arr h2).2 (h ▸ den_arr_of_arrow ha h1)
      obtain ⟨a1, a2, a3⟩ := wf_arrow ha h1
      obtain ⟨b1, b2, b3⟩ := wf_arrow hd h2
      rw [den_arrow ha, den_arrow hd] at h
      have hd0 : d = 0 := by simpa [STy.isArrow, STy.code] using hd
      rw [hc, hd0, denArrow_inj hN ts us a1 b1 (by intro e; rw [STy.args, e] at a2; simp at a2) (by intro e; rw [STy.args, e] at b2; simp at b2) a3 b3 h]
    · have ha : STy.isArrow (.con c ts) = false := by simp [STy.isArrow, STy.code, hc]
      have hd : STy.isArrow (.con d us) = false := by
        by_contra hn
        have := (isArrow_iff_arr h1).2 (h ▸ den_arr_of_arrow (by simpa using hn) h2)
        rw [ha] at this
        cases this
      rw [den_atom ha, den_atom hd] at h
      injection h with e1 e2
      simp only [STy.isArrow, STy.code, beq_eq_false_iff_ne] at ha hd
      simp only [STy.WF, if_neg ha, if_neg hd] at h1 h2
      rw [name_inj hN h1.2.1 h2.2.1 e1, denL_inj hN ts us h1.1 h2.1 e2]
theorem denArrow_inj (hN : (N.map (·.1)).Nodup) : ∀ ts us : List STy, STy.WFL N ts → STy.WFL N us → ts ≠ [] → us ≠ [] →
    (∀ r, ts.getLast? = some r → r.isArrow = false) → (∀ r, us.getLast? = some r → r.isArrow = false) →
    STy.denArrow N ts = STy.denArrow N us → ts = us
  | [], _, _, _, h, _, _, _, _ => absurd rfl h
  | _, [], _, _, _, h, _, _, _ => absurd rfl h
  | [t], [u], h1, h2, _, _, _, _, h => by rw [den_inj hN t u h1.1 h2.1 h]
  | [t], u :: v :: us, h1, h2, _, _, h3, _, h => by
    rw [denArrow_cons2] at h
    have := (isArrow_iff_arr h1.1).2 ⟨_, _, h⟩
    rw [h3 t rfl] at this
    cases this
  | t :: v :: ts, [u], h1, h2, _, _, _, h3, h => by
    rw [denArrow_cons2] at h
    have := (isArrow_iff_arr h2.1).2 ⟨_, _, h.symm⟩
    rw [h3 u rfl] at this
    cases this
  | t :: v :: ts, u :: w :: us, h1, h2, _, _, h3, h4, h => by
    rw [denArrow_cons2, denArrow_cons2] at h
    injection h with e1 e2
    rw [den_inj hN t u h1.1 h2.1 e1, denArrow_inj hN (v :: ts) (w :: us) h1.2 h2.2 (by simp) (by simp) (by simpa using h3) (by simpa using h4) e2]
theorem denL_inj (hN : (N.map (·.1)).Nodup) : ∀ ts us : List STy, STy.WFL N ts → STy.WFL N us → STy.denL N ts = STy.denL N us → ts = us
  | [], [], _, _, _ => rfl
  | [], _ :: _, _, _, h => by cases h
  | _ :: _, [], _, _, h => by cases h
  | t :: ts, u :: us, h1, h2, h => by
    simp only [STy.denL, List.cons.injEq] at h
    rw [den_inj hN t u h1.1 h2.1 h.1, denL_inj hN ts us h1.2 h2.2 h.2]
end

end Verif.STyProof
