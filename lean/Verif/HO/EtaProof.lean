import Verif.HO.LambdaProof
import Mathlib.Data.List.Induction

/-!
# Eta reduction and expansion against the calculus
-/

namespace Verif
open Lam

namespace Lam

abbrev EtaStar := Relation.ReflTransGen Eta
abbrev EtaEq := Relation.EqvGen Eta

theorem etaStar_lam {ty : HTy} {m n : Lam} (h : EtaStar m n) : EtaStar (Lam.lam ty m) (Lam.lam ty n) := h.lift (Lam.lam ty) fun _ _ => .lam

theorem etaStar_app {m m' n n' : Lam} (h1 : EtaStar m m') (h2 : EtaStar n n') : EtaStar (app m n) (app m' n') :=
  (h1.lift (app · n) fun _ _ => .appL).trans (h2.lift (app m' ·) fun _ _ => .appR)

theorem etaStar_eq {m n : Lam} (h : EtaStar m n) : EtaEq m n := by
  induction h with
  | refl => exact .refl _
  | tail _ h ih => exact .trans _ _ _ ih (.rel _ _ h)

theorem etaEq_lam {ty : HTy} {m n : Lam} (h : EtaEq m n) : EtaEq (Lam.lam ty m) (Lam.lam ty n) := by
  induction h with
  | rel _ _ h => exact .rel _ _ (.lam h)
  | refl => exact .refl _
  | symm _ _ _ ih => exact .symm _ _ ih
  | trans _ _ _ _ _ ih1 ih2 => exact .trans _ _ _ ih1 ih2

theorem etaEq_app {m m' n n' : Lam} (h1 : EtaEq m m') (h2 : EtaEq n n') : EtaEq (app m n) (app m' n') := by
  have a : EtaEq (app m n) (app m' n) := by
    induction h1 with
    | rel _ _ h => exact .rel _ _ (.appL h)
    | refl => exact .refl _
    | symm _ _ _ ih => exact .symm _ _ ih
    | trans _ _ _ _ _ ih1 ih2 => exact .trans _ _ _ ih1 ih2
  have b : EtaEq (app m' n) (app m' n') := by
    clear a
    induction h2 with
    | rel _ _ h => exact .rel _ _ (.appR h)
    | refl => exact .refl _
    | symm _ _ _ ih => exact .symm _ _ ih
    | trans _ _ _ _ _ ih1 ih2 => exact .trans _ _ _ ih1 ih2
  exact .trans _ _ _ a b

theorem etaStar_apps {as bs : List Lam} (h : List.Forall₂ EtaStar as bs) : ∀ {m n : Lam}, EtaStar m n → EtaStar (m.apps as) (n.apps bs) := by
  induction h with
  | nil => intro m n h; exact h
  | cons h _ ih => intro m n hm; exact ih (etaStar_app hm h)

theorem etaEq_apps {as bs : List Lam} (h : List.Forall₂ EtaEq as bs) : ∀ {m n : Lam}, EtaEq m n → EtaEq (m.apps as) (n.apps bs) := by
  induction h with
  | nil => intro m n h; exact h
  | cons h _ ih => intro m n hm; exact ih (etaEq_app hm h)

/-- Several binders. -/
def close : List HTy → Lam → Lam
  | [], m => m
  | ty :: tys, m => .lam ty (close tys m)

theorem close_append (xs ys : List HTy) (m : Lam) : close (xs ++ ys) m = close xs (close ys m) := by
  induction xs with
  | nil => rfl
  | cons x xs ih => simp [close, ih]

theorem etaStar_close (tys : List HTy) {m n : Lam} (h : EtaStar m n) : EtaStar (close tys m) (close tys n) := by
  induction tys with
  | nil => exact h
  | cons ty tys ih => exact etaStar_lam ih

/-- The variables `k-1, …, 0`. -/
def desc : Nat → List Lam
  | 0 => []
  | k + 1 => .bv k :: desc k

theorem desc_succ (k : Nat) : desc (k + 1) = (desc k).map (Lam.ren Nat.succ) ++ [.bv 0] := by
  induction k with
  | zero => rfl
  | succ k ih =>
    show Lam.bv (k + 1) :: desc (k + 1) = (Lam.bv k :: desc k).map (Lam.ren Nat.succ) ++ [.bv 0]
    rw [List.map_cons, List.cons_append, ← ih]
    rfl

theorem ren_add_succ (n : Lam) (k : Nat) : (n.ren (· + k)).ren Nat.succ = n.ren (· + (k + 1)) := by rw [ren_ren]; rfl

/-- Binders whose variables are the last arguments can be dropped. -/
theorem eta_many (k : Nat) : ∀ (tys : List HTy) (n : Lam), tys.length = k → EtaStar (close tys ((n.ren (· + k)).apps (desc k))) n := by
  induction k with
  | zero =>
    intro tys n h
    have := List.eq_nil_of_length_eq_zero h
    subst this
    simp only [close, desc, Lam.apps, List.foldl_nil, Nat.add_zero]
    rw [HOProof.ren_fun_id]
  | succ k ih =>
    intro tys n h
    obtain ⟨ts, ty, rfl⟩ : ∃ ts ty, tys = ts ++ [ty] := by
      rcases List.eq_nil_or_concat tys with h0 | ⟨ts, ty, h0⟩
      · subst h0; simp at h
      · exact ⟨ts, ty, by simpa using h0⟩
    have hl : ts.length = k := by simpa using h
    refine .trans ?_ (ih ts n hl)
    rw [close_append, desc_succ, HOProof.apps_append, ← ren_add_succ, ← HOProof.apps_ren]
    exact etaStar_close _ (.single (.eta _ _))

end Lam

namespace HOProof
open HTerm

theorem toL_closeTys (tys : List HTy) (t : HTerm) : (closeTys tys t).toL = close tys t.toL := by
  induction tys with
  | nil => rfl
  | cons ty tys ih => simp [closeTys, toL, close, ih]

theorem unfoldLam_close (t : HTerm) : closeTys (unfoldLam t).1 (unfoldLam t).2 = t := by
  induction t using HTerm.ind with
  | hl ty b ih => simp only [unfoldLam, closeTys, ih]
  | _ => simp [unfoldLam, closeTys]

theorem unfoldLam_not_lam (t : HTerm) : (unfoldLam t).2.isLam = false := by
  induction t using HTerm.ind with
  | hl ty b ih => simp only [unfoldLam, ih]
  | _ => simp [unfoldLam, isLam]

/-! ## The smallest loose variable -/

/-- No loose variable below `k`. -/
def NoLow (k d : Nat) (t : HTerm) : Prop := ∀ m, findMin d t = some m → k ≤ m

theorem minOpt_some {a b : Option Nat} {k : Nat} : (∀ m, minOpt a b = some m → k ≤ m) ↔ (∀ m, a = some m → k ≤ m) ∧ (∀ m, b = some m → k ≤ m) := by
  cases a <;> cases b <;> simp [minOpt]

theorem findMinL_low {k d : Nat} (as : List HTerm) : (∀ m, findMinL d as = some m → k ≤ m) ↔ ∀ a ∈ as, NoLow k d a := by
  induction as with
  | nil => simp [findMinL]
  | cons a as ih => simp only [findMinL, minOpt_some, ih, List.forall_mem_cons]; rfl

theorem noLow_app {k d f : Nat} {as : List HTerm} : NoLow k d (app f as) ↔ ∀ a ∈ as, NoLow k d a := by
  rw [← findMinL_low]; rfl

theorem noLow_papp {k d : Nat} {h : HTerm} {as : List HTerm} : NoLow k d (papp h as) ↔ NoLow k d h ∧ ∀ a ∈ as, NoLow k d a := by
  rw [← findMinL_low]
  unfold NoLow
  simp only [findMin, minOpt_some]

/-- Shifting down undoes a renaming by `k`. -/
theorem toL_shift_neg (k : Nat) (t : HTerm) : ∀ d, NoLow k d t → t.toL = (t.shift (-(k : Int)) d).toL.ren (shr k d) := by
  induction t using HTerm.ind with
  | hf x ty => intro d _; simp [shift, toL, Lam.ren]
  | hd i ty =>
    intro d h
    simp only [shift]
    by_cases hd : d ≤ i
    · have hk : k ≤ i - d := h _ (by simp [findMin, hd])
      have e : ((i : Int) + -(k : Int)).toNat = i - k := by omega
      simp only [if_pos hd, toL, Lam.ren, e, shr]
      rw [if_pos (by omega)]
      congr 1
      omega
    · simp only [if_neg hd, toL, Lam.ren, shr]
  | hl ty b ih =>
    intro d h
    simp only [shift, toL, Lam.ren, upr_shr]
    rw [← ih (d + 1) fun m hm => h m (by simpa [findMin] using hm)]
  | ha f as ih =>
    intro d h
    rw [noLow_app] at h
    rw [shift_app]
    simp only [toL, toLL_map, apps_ren, List.map_map, Lam.ren]
    congr 1
    exact List.map_congr_left fun a ha => ih a ha d (h a ha)
  | hp g as ih1 ih2 =>
    intro d h
    rw [noLow_papp] at h
    rw [shift_papp]
    simp only [toL, toLL_map, apps_ren, List.map_map]
    rw [← ih1 d h.1]
    congr 1
    exact List.map_congr_left fun a ha => ih2 a ha d (h.2 a ha)

theorem toL_shiftDB_neg {k : Nat} {t : HTerm} (h : NoLow k 0 t) : t.toL = (t.shiftDB (-(k : Int))).toL.ren (· + k) := by
  unfold shiftDB
  split
  · rename_i hk
    have hk : k = 0 := by omega
    subst hk
    exact (ren_fun_id _).symm
  · have := toL_shift_neg k t 0 h
    rwa [show shr k 0 = (· + k) by funext i; simp [shr]] at this

/-! ## The trailing arguments -/

/-- The cells `db (k-1), …, db e` in front of `rest`, read from the end. -/
theorem trail_spec (lim : Nat) (as : List HTerm) : ∀ e, e ≤ lim → e ≤ trail lim e as ∧ trail lim e as ≤ lim ∧
    ∃ bs rest, as = bs ++ rest ∧ bs.length = trail lim e as - e ∧ (∀ i (h : i < bs.length), ∃ ty, bs[i] = db (e + i) ty) ∧
      (trail lim e as = lim ∨ ∀ ty rs, rest ≠ db (trail lim e as) ty :: rs) := by
  induction as with
  | nil => intro e he; simp only [trail]; exact ⟨le_refl _, he, [], [], rfl, by simp, by simp, .inr (by simp)⟩
  | cons a as ih =>
    intro e he
    by_cases ha : ∃ ty, a = db e ty ∧ e < lim
    · obtain ⟨ty, rfl, hlt⟩ := ha
      have e1 : trail lim e (db e ty :: as) = trail lim (e + 1) as := by simp [trail, hlt]
      rw [e1]
      obtain ⟨h1, h2, bs, rest, h3, h4, h5, h6⟩ := ih (e + 1) hlt
      refine ⟨by omega, h2, db e ty :: bs, rest, by simp [h3], by simp; omega, ?_, h6⟩
      intro i hi
      cases i with
      | zero => exact ⟨ty, rfl⟩
      | succ i =>
        obtain ⟨ty', h⟩ := h5 i (by simpa using hi)
        refine ⟨ty', ?_⟩
        rw [List.getElem_cons_succ, h]
        congr 1
        omega
    · have e1 : trail lim e (a :: as) = e := by
        cases a with
        | db i ty =>
          simp only [trail]
          rw [if_neg]
          rintro ⟨h1, rfl⟩
          exact ha ⟨ty, rfl, h1⟩
        | _ => simp [trail]
      rw [e1]
      refine ⟨le_refl _, he, [], a :: as, rfl, by simp, by simp, ?_⟩
      by_cases hl : e = lim
      · exact .inl hl
      · refine .inr ?_
        intro ty rs hc
        simp only [List.cons.injEq] at hc
        exact ha ⟨ty, hc.1, by omega⟩

theorem desc_append (a b : Nat) : desc (a + b) = (desc a).map (Lam.ren (· + b)) ++ desc b := by
  induction a with
  | zero => simp [desc]
  | succ a ih =>
    rw [show a + 1 + b = (a + b) + 1 by omega, desc, ih]
    simp [desc, Lam.ren]

/-- A list of the variables `0, …, k-1` read backwards. -/
theorem desc_of_trail : ∀ (bs : List HTerm) , (∀ i (h : i < bs.length), ∃ ty, bs[i] = db i ty) → bs.reverse.map toL = desc bs.length := by
  intro bs
  induction bs using List.reverseRecOn with
  | nil => intro _; rfl
  | append_singleton bs b ih =>
    intro h
    have h1 : ∀ i (h : i < bs.length), ∃ ty, bs[i] = db i ty := by
      intro i hi
      obtain ⟨ty, e⟩ := h i (by simp; omega)
      exact ⟨ty, by rw [List.getElem_append_left hi] at e; exact e⟩
    obtain ⟨ty, e⟩ := h bs.length (by simp)
    simp only [List.getElem_append_right (le_refl _), Nat.sub_self, List.getElem_cons_zero] at e
    subst e
    simp only [List.reverse_append, List.reverse_cons, List.reverse_nil, List.nil_append, List.cons_append, List.map_cons, List.length_append,
      List.length_cons, List.length_nil, desc, toL]
    rw [ih h1]

/-! ## Dropping arguments -/

theorem trail_split {lim : Nat} {args : List HTerm} {k0 : Nat} (hk : trail lim 0 args.reverse = k0) : k0 ≤ lim ∧
    ∃ bs rest : List HTerm, args = rest.reverse ++ bs.reverse ∧ bs.length = k0 ∧ (∀ i (h : i < bs.length), ∃ ty, bs[i] = db i ty) ∧
      (k0 = lim ∨ ∀ ty rs, rest ≠ db k0 ty :: rs) := by
  obtain ⟨_, h2, bs, rest, h3, h4, h5, h6⟩ := trail_spec lim args.reverse 0 (Nat.zero_le _)
  rw [hk] at h2 h4 h6
  refine ⟨h2, bs, rest, ?_, by simpa using h4, ?_, h6⟩
  · rw [← List.reverse_append, ← h3, List.reverse_reverse]
  · intro i hi; obtain ⟨ty, e⟩ := h5 i hi; exact ⟨ty, by simpa using e⟩

theorem drop_facts {bs rest : List HTerm} (hb : ∀ i (h : i < bs.length), ∃ ty, bs[i] = db i ty) {k : Nat} (hk : k ≤ bs.length) :
    (rest.reverse ++ bs.reverse).take ((rest.reverse ++ bs.reverse).length - k) = rest.reverse ++ (bs.drop k).reverse ∧
    ((rest.reverse ++ bs.reverse).drop ((rest.reverse ++ bs.reverse).length - k)).map toL = desc k ∧
    (∀ a ∈ (bs.drop k).reverse, NoLow k 0 a) := by
  have e : rest.reverse ++ bs.reverse = (rest.reverse ++ (bs.drop k).reverse) ++ (bs.take k).reverse := by
    conv_lhs => rw [← List.take_append_drop k bs, List.reverse_append]
    rw [List.append_assoc]
  have hl : (rest.reverse ++ bs.reverse).length - k = (rest.reverse ++ (bs.drop k).reverse).length := by simp; omega
  rw [hl, e]
  refine ⟨List.take_left' rfl, ?_, ?_⟩
  · rw [List.drop_left' rfl]
    have := desc_of_trail (bs.take k) (by
      intro i hi
      rw [List.length_take] at hi
      obtain ⟨ty, h⟩ := hb i (by omega)
      exact ⟨ty, by rw [List.getElem_take, h]⟩)
    rw [this, List.length_take, min_eq_left hk]
  · intro a ha
    rw [List.mem_reverse] at ha
    obtain ⟨i, hi, rfl⟩ := List.getElem_of_mem ha
    rw [List.getElem_drop]
    rw [List.length_drop] at hi
    obtain ⟨ty, h⟩ := hb (k + i) (by omega)
    rw [h]
    intro m hm
    simp [findMin] at hm
    omega

/-- Everything about the number of dropped arguments. -/
theorem etaDrop_args {args : List HTerm} {lim k0 k : Nat} (hk : trail lim 0 args.reverse = k0) (h0 : k0 ≠ 0)
    (hm : k = match findMinL 0 (args.take (args.length - k0)) with | none => k0 | some i => min i k0) :
    k ≤ k0 ∧ k0 ≤ lim ∧ (args.drop (args.length - k)).map toL = desc k ∧ (∀ a ∈ args.take (args.length - k), NoLow k 0 a) ∧
      ((k < k0 ∧ ∃ a ∈ args.take (args.length - k0), findMin 0 a = some k) ∨ k = lim ∨
        ∀ ty rs, args.take (args.length - k) ≠ rs ++ [db k ty]) := by
  obtain ⟨h1, bs, rest, rfl, h3, h4, h5⟩ := trail_split hk
  have hkk : k ≤ k0 := by
    rw [hm]; split
    · exact le_refl _
    · exact min_le_right _ _
  have f0 := drop_facts (rest := rest) h4 (le_of_eq h3.symm)
  have f1 := drop_facts (rest := rest) h4 (k := k) (by omega)
  have e0 : (rest.reverse ++ bs.reverse).take ((rest.reverse ++ bs.reverse).length - k0) = rest.reverse := by
    rw [f0.1, ← h3]; simp
  refine ⟨hkk, h1, f1.2.1, ?_, ?_⟩
  · rw [f1.1]
    intro a ha
    rcases List.mem_append.1 ha with ha | ha
    · rw [e0] at hm
      refine (findMinL_low (k := k) (d := 0) rest.reverse).1 ?_ a ha
      intro i hi
      rw [hi] at hm
      simp only at hm
      omega
    · exact f1.2.2 a ha
  · rw [e0, f1.1]
    rw [e0] at hm
    cases hf : findMinL 0 rest.reverse with
    | none =>
      rw [hf] at hm
      simp only at hm
      subst hm
      rcases h5 with h | h
      · exact .inr (.inl h)
      · refine .inr (.inr ?_)
        intro ty rs hc
        rw [← h3, List.drop_length, List.reverse_nil, List.append_nil] at hc
        have := congrArg List.reverse hc
        rw [List.reverse_reverse, List.reverse_append] at this
        exact h ty rs.reverse (by rw [this, h3]; rfl)
    | some i =>
      rw [hf] at hm
      simp only at hm
      by_cases hik : i < k0
      · have : k = i := by omega
        subst this
        refine .inl ⟨hik, ?_⟩
        clear * - hf
        generalize rest.reverse = l at hf ⊢
        induction l generalizing k with
        | nil => simp [findMinL] at hf
        | cons a l ih =>
          rw [findMinL] at hf
          cases h1 : findMin 0 a with
          | none => rw [h1] at hf; obtain ⟨b, hb, he⟩ := ih hf; exact ⟨b, .tail _ hb, he⟩
          | some x =>
            cases h2 : findMinL 0 l with
            | none => rw [h1, h2] at hf; simp only [minOpt] at hf; exact ⟨a, .head _, by rw [h1, hf]⟩
            | some y =>
              rw [h1, h2] at hf
              simp only [minOpt, Option.some.injEq] at hf
              rcases le_total x y with h | h
              · exact ⟨a, .head _, by rw [h1]; congr; omega⟩
              · obtain ⟨b, hb, he⟩ := ih (k := k) (by rw [h2]; congr; omega)
                exact ⟨b, .tail _ hb, he⟩
      · have : k = k0 := by omega
        subst this
        rcases h5 with h | h
        · exact .inr (.inl h)
        · refine .inr (.inr ?_)
          intro ty rs hc
          rw [← h3, List.drop_length, List.reverse_nil, List.append_nil] at hc
          have := congrArg List.reverse hc
          rw [List.reverse_reverse, List.reverse_append] at this
          exact h ty rs.reverse (by rw [this, h3]; rfl)

theorem etaDrop_spec {n : Nat} {m : HTerm} (h0 : etaDrop n m ≠ 0) : etaDrop n m ≤ n ∧
    m.toL = (dropArgs m (etaDrop n m)).toL.apps (desc (etaDrop n m)) ∧ NoLow (etaDrop n m) 0 (dropArgs m (etaDrop n m)) ∧
    (∀ h as, m = papp h as → etaDrop n m ≤ as.length) := by
  generalize hk : etaDrop n m = k at h0
  cases m with
  | app f as =>
    replace hk : (if trail (min n as.length) 0 as.reverse = 0 then 0
      else match findMinL 0 (as.take (as.length - trail (min n as.length) 0 as.reverse)) with
        | none => trail (min n as.length) 0 as.reverse
        | some i => min i (trail (min n as.length) 0 as.reverse)) = k := hk
    by_cases h00 : trail (min n as.length) 0 as.reverse = 0
    · simp only [if_pos h00] at hk; exact absurd hk.symm h0
    simp only [if_neg h00] at hk
    obtain ⟨h1, h2, h3, h4, _⟩ := etaDrop_args rfl h00 hk.symm
    refine ⟨by omega, ?_, ?_, by simp⟩
    · simp only [dropArgs, toL, toLL_map, ← apps_append, ← h3, ← List.map_append, List.take_append_drop]
    · rw [dropArgs, noLow_app]; exact h4
  | papp h as =>
    simp only [etaDrop, cellArgs, List.length_cons, Nat.add_sub_cancel] at hk
    by_cases h00 : trail (min n as.length) 0 (h :: as).reverse = 0
    · simp only [if_pos h00] at hk; exact absurd hk.symm h0
    simp only [if_neg h00] at hk
    obtain ⟨h1, h2, h3, h4, _⟩ := etaDrop_args (args := h :: as) rfl h00 hk.symm
    rw [List.length_cons] at h3 h4
    have hka : k ≤ as.length := by omega
    have e : as.length + 1 - k = (as.length - k) + 1 := by omega
    rw [e] at h3 h4
    simp only [List.drop_succ_cons, List.take_succ_cons] at h3 h4
    have hL : (papp h as).toL = (papp h (as.take (as.length - k))).toL.apps (desc k) := by
      simp only [toL, toLL_map, ← apps_append, ← h3, ← List.map_append, List.take_append_drop]
    have hN : NoLow k 0 (papp h (as.take (as.length - k))) := by
      rw [noLow_papp]; exact ⟨h4 _ (.head _), fun a ha => h4 a (.tail _ ha)⟩
    refine ⟨by omega, ?_, ?_, by simpa using hka⟩
    · simp only [dropArgs]
      split
      · rename_i hc
        rw [hL, hc]
        simp [toL, toLL_map, Lam.apps]
      · exact hL
    · simp only [dropArgs]
      split
      · exact (noLow_papp.1 hN).1
      · exact hN
  | fvar => exact absurd (by simpa [etaDrop, cellArgs, trail] using hk.symm) h0
  | db => exact absurd (by simpa [etaDrop, cellArgs, trail] using hk.symm) h0
  | lam => exact absurd (by simpa [etaDrop, cellArgs, trail] using hk.symm) h0

theorem etaTop_star (t : HTerm) : EtaStar t.toL (etaTop t).toL := by
  unfold etaTop
  split
  rename_i tys m hu
  simp only
  split
  · exact .refl
  · rename_i h0
    obtain ⟨h1, h2, h3, _⟩ := etaDrop_spec h0
    generalize etaDrop tys.length m = k at *
    have e : t = closeTys tys m := by have := unfoldLam_close t; rw [hu] at this; exact this.symm
    rw [e, toL_closeTys, toL_closeTys, h2]
    conv => lhs; rw [← List.take_append_drop (tys.length - k) tys]
    rw [close_append, toL_shiftDB_neg h3]
    refine etaStar_close _ (eta_many k _ _ ?_)
    rw [List.length_drop]
    omega

theorem doEtaReduceL_map (sg : HSig) (as : List HTerm) : doEtaReduceL sg as = as.map (doEtaReduce sg false) := by
  induction as with
  | nil => rfl
  | cons a as ih => simp [doEtaReduceL, ih]

theorem doEtaExpandL_map (ct : Nat → HTy) (as : List HTerm) : doEtaExpandL ct as = as.map (doEtaExpand ct) := by
  induction as with
  | nil => rfl
  | cons a as ih => simp [doEtaExpandL, ih]

theorem etaExpL_any (ct : Nat → HTy) (as : List HTerm) : etaExpL ct as = as.any (etaExp ct) := by
  induction as with
  | nil => rfl
  | cons a as ih => simp [etaExpL, ih]

theorem tyArgs_length (ty : HTy) : (tyArgs ty).length = tyArity ty := by
  induction ty with
  | base => rfl
  | arr a b _ ih => simp [tyArgs, tyArity, ih]

/-- The new arguments are eta-equal to the new variables. -/
theorem expArgs_star (ty : HTy) : List.Forall₂ EtaStar ((expArgs ty).map toL) (desc (tyArity ty)) := by
  induction ty with
  | base => exact .nil
  | arr a b iha ihb =>
    cases a with
    | base k =>
      simp only [expArgs, tyArity, desc, List.map_cons]
      exact .cons .refl ihb
    | arr a1 a2 =>
      rw [expArgs, List.map_cons]
      refine .cons ?_ ihb
      rw [toL_closeTys]
      have := eta_many (tyArity (.arr a1 a2)) (tyArgs (.arr a1 a2)) (.bv (tyArity b)) (tyArgs_length _)
      refine .trans (etaStar_close _ ?_) this
      simp only [toL, toLL_map, Lam.ren]
      exact etaStar_apps iha .refl

theorem etaExpTop_star (ct : Nat → HTy) (t : HTerm) : EtaStar (etaExpTop ct t).toL t.toL := by
  unfold etaExpTop
  split
  · rw [toL_closeTys, toL_applyTerms, toL_shiftDB]
    refine .trans (etaStar_close _ (etaStar_apps (expArgs_star _) .refl)) ?_
    exact eta_many _ _ _ (tyArgs_length _)
  · exact .refl

theorem doEtaExpand_star (ct : Nat → HTy) (t : HTerm) : EtaStar (doEtaExpand ct t).toL t.toL := by
  have hL : ∀ as : List HTerm, (∀ a ∈ as, EtaStar (doEtaExpand ct a).toL a.toL) → List.Forall₂ EtaStar ((as.map (doEtaExpand ct)).map toL) (as.map toL) := by
    intro as h
    rw [List.map_map]
    rw [List.forall₂_map_left_iff, List.forall₂_map_right_iff, List.forall₂_same]
    exact h
  induction t using HTerm.ind with
  | hf => exact etaExpTop_star _ _
  | hd => exact etaExpTop_star _ _
  | hl ty b ih =>
    simp only [doEtaExpand]
    split
    · exact etaStar_lam ih
    · exact .refl
  | ha f as ih =>
    simp only [doEtaExpand]
    refine .trans (etaExpTop_star _ _) ?_
    split
    · exact .refl
    · simp only [toL, toLL_map, doEtaExpandL_map]
      exact etaStar_apps (hL _ ih) .refl
  | hp h as _ ih =>
    simp only [doEtaExpand]
    refine .trans (etaExpTop_star _ _) ?_
    split
    · exact .refl
    · simp only [toL, toLL_map, doEtaExpandL_map]
      exact etaStar_apps (hL _ ih) .refl

theorem etaExpand_star (ct : Nat → HTy) (t : HTerm) : EtaStar (etaExpand ct t).toL t.toL := by
  unfold etaExpand
  split
  · exact doEtaExpand_star ct t
  · exact .refl

theorem quantFix_star (sg : HSig) (t : HTerm) : EtaStar (quantFix sg t).toL t.toL := by
  unfold quantFix
  split
  · split
    · simp only [toL, toLL]
      exact etaStar_apps (.cons (etaExpTop_star _ _) .nil) .refl
    · exact .refl
  · exact .refl

theorem doEtaReduce_eta (sg : HSig) (t : HTerm) : ∀ inner, EtaEq t.toL (doEtaReduce sg inner t).toL := by
  have hL : ∀ as : List HTerm, (∀ a ∈ as, ∀ inner, EtaEq a.toL (doEtaReduce sg inner a).toL) →
      List.Forall₂ EtaEq (as.map toL) ((as.map (doEtaReduce sg false)).map toL) := by
    intro as h
    rw [List.map_map]
    rw [List.forall₂_map_left_iff, List.forall₂_map_right_iff, List.forall₂_same]
    exact fun a ha => h a ha false
  have hQ : ∀ {m : Lam} {t : HTerm}, EtaEq m t.toL → EtaEq m (quantFix sg t).toL := fun h =>
    .trans _ _ _ h (.symm _ _ (etaStar_eq (quantFix_star sg _)))
  induction t using HTerm.ind with
  | hf => intro _; exact .refl _
  | hd => intro _; exact .refl _
  | hl ty b ih =>
    intro inner
    simp only [doEtaReduce]
    split
    · exact etaEq_lam (ih true)
    · refine hQ (.trans _ _ _ (etaEq_lam (ty := ty) (ih true)) ?_)
      exact etaStar_eq (etaTop_star (lam ty (doEtaReduce sg true b)))
  | ha f as ih =>
    intro inner
    simp only [doEtaReduce]
    refine hQ ?_
    split
    · exact .refl _
    · simp only [toL, toLL_map, doEtaReduceL_map]
      exact etaEq_apps (hL _ ih) (.refl _)
  | hp h as ih1 ih2 =>
    intro inner
    simp only [doEtaReduce]
    refine hQ ?_
    split
    · exact .refl _
    · rw [toL_mkApp]
      simp only [toL, toLL_map, doEtaReduceL_map]
      exact etaEq_apps (hL _ ih2) (ih1 false)

theorem etaReduce_eta (sg : HSig) (t : HTerm) : EtaEq t.toL (etaReduce sg t).toL := by
  unfold etaReduce
  split
  · exact doEtaReduce_eta sg t false
  · exact .refl _

end HOProof
end Verif
