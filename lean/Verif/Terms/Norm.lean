import Verif.Terms.VarBank
import Verif.Terms.Inst

/-!
# Variable normalisation

Model of `SubstNormTerm` (TERMS/cte_subst.c:154-184): every unbound variable reachable
from a term through the bindings is bound to a fresh variable of the same type,
in depth-first left-to-right order.

`rn` holds the second-level bindings created here, newest first (variable, number of the fresh
variable).  In C the fresh variable carries `TPSpecialFlag`, so that the already
renamed ones are recognised after dereferencing; here that is "has an entry in `rn`".
-/

namespace Verif

abbrev Rn := List (Nat × Nat)

/-- The renaming as a function for `instOpt`. -/
def Rn.get (rn : Rn) : Nat → Option Nat := fun y => rn.lookup y

/-- The body of the loop for an unbound variable (TERMS/cte_subst.c:167-175). -/
def normVar (sg : Sig) (s : VarBank × Rn) (y : Nat) : VarBank × Rn :=
  match s.2.lookup y with
  | some _ => s
  | none =>
    let r := s.1.getFresh (sg.vty y)
    (r.2, (y, r.1) :: s.2)

/-- The loop of `SubstNormTerm` (TERMS/cte_subst.c:164-180); the list is the stack, top
first. -/
def normLoop (sg : Sig) (bind : Nat → Option Term) : Nat → List Term → VarBank × Rn → Option (VarBank × Rn)
  | 0, _, _ => none
  | _ + 1, [], s => some s
  | n + 1, t :: stk, s =>
    match derefAlways bind n t with
    | none => none
    | some (.var y) => normLoop sg bind n stk (normVar sg s y)
    | some (.app _ ts) => normLoop sg bind n (ts ++ stk) s

/-- `SubstNormTerm` on a list of terms, one after the other: `SubstNormEqn`
(CLAUSES/ccl_eqn.c:2663-2671) does the left, then the right term; `NormSubstEqnListExcept`
(CLAUSES/ccl_eqnlist.c:1635-1649) all literals in order. -/
def normTerms (sg : Sig) (bind : Nat → Option Term) (n : Nat) :
    List Term → VarBank × Rn → Option (VarBank × Rn)
  | [], s => some s
  | t :: ts, s =>
    match normLoop sg bind n [t] s with
    | none => none
    | some s' => normTerms sg bind n ts s'

namespace NormProof
open Term

theorem normLoop_eq {sg : Sig} {bind : Nat → Option Term} {σ : Nat → Term} (hσ : FullInst bind σ) :
    ∀ (n : Nat) (stk : List Term) (s s' : VarBank × Rn), normLoop sg bind n stk s = some s' →
    s' = (stk.flatMap fun t => (t.subst σ).vars).foldl (normVar sg) s := by
  intro n
  induction n with
  | zero => intro stk s s' h; simp [normLoop] at h
  | succ n ih =>
    intro stk s s' h
    cases stk with
    | nil => simp [normLoop] at h; simp [h]
    | cons t stk =>
      simp only [normLoop] at h
      cases hd : derefAlways bind n t with
      | none => simp [hd] at h
      | some w =>
        have hs := InstProof.deref_full hσ hd
        cases w with
        | var y =>
          simp only [hd] at h
          rw [ih _ _ _ h, List.flatMap_cons, ← hs, subst_var, hσ.free y (MguProof.deref_result n t y hd)]
          simp [vars]
        | app f ts =>
          simp only [hd] at h
          rw [ih _ _ _ h, List.flatMap_cons, ← hs, subst_app, vars, varsL_eq, List.flatMap_append,
            List.flatMap_map]

theorem normLoop_total (sg : Sig) {bind : Nat → Option Term} {σ : Nat → Term}
    (hac : MguProof.Acyclic bind) (hσ : FullInst bind σ) :
    ∀ (k : Nat) (stk : List Term) (s : VarBank × Rn), sizeL (stk.map (subst σ)) ≤ k →
    ∃ N r, ∀ n ≥ N, normLoop sg bind n stk s = some r := by
  intro k
  induction k with
  | zero =>
    intro stk s h
    cases stk with
    | nil => exact ⟨1, s, fun n hn => by obtain ⟨m, rfl⟩ : ∃ m, n = m + 1 := ⟨n - 1, by omega⟩; rfl⟩
    | cons t stk => simp only [List.map_cons, sizeL] at h; have := size_pos (t.subst σ); omega
  | succ k ih =>
    intro stk s h
    cases stk with
    | nil => exact ⟨1, s, fun n hn => by obtain ⟨m, rfl⟩ : ∃ m, n = m + 1 := ⟨n - 1, by omega⟩; rfl⟩
    | cons t stk =>
      obtain ⟨N, w, hN⟩ := MguProof.deref_total hac t
      have hs := InstProof.deref_full hσ (hN N (le_refl _))
      simp only [List.map_cons, sizeL] at h
      have hp := size_pos (t.subst σ)
      cases w with
      | var y =>
        obtain ⟨N2, r, h2⟩ := ih stk (normVar sg s y) (by omega)
        refine ⟨N + N2 + 1, r, fun n hn => ?_⟩
        obtain ⟨m, rfl⟩ : ∃ m, n = m + 1 := ⟨n - 1, by omega⟩
        simp only [normLoop, hN m (by omega), h2 m (by omega)]
      | app f ts =>
        have hsz : sizeL ((ts ++ stk).map (subst σ)) ≤ k := by
          rw [List.map_append, sizeL_append]
          rw [← hs, subst_app, size] at h
          omega
        obtain ⟨N2, r, h2⟩ := ih (ts ++ stk) s hsz
        refine ⟨N + N2 + 1, r, fun n hn => ?_⟩
        obtain ⟨m, rfl⟩ : ∃ m, n = m + 1 := ⟨n - 1, by omega⟩
        simp only [normLoop, hN m (by omega), h2 m (by omega)]

theorem normTerms_eq {sg : Sig} {bind : Nat → Option Term} {σ : Nat → Term} (hσ : FullInst bind σ)
    {n : Nat} {ts : List Term} {s s' : VarBank × Rn} (h : normTerms sg bind n ts s = some s') :
    s' = (ts.flatMap fun t => (t.subst σ).vars).foldl (normVar sg) s := by
  induction ts generalizing s with
  | nil => simp [normTerms] at h; simp [h]
  | cons t ts ih =>
    simp only [normTerms] at h
    cases h1 : normLoop sg bind n [t] s with
    | none => simp [h1] at h
    | some s1 =>
      simp only [h1] at h
      rw [ih h, normLoop_eq hσ n [t] s s1 h1, List.flatMap_cons, List.foldl_append]
      simp

theorem normTerms_total (sg : Sig) {bind : Nat → Option Term} {σ : Nat → Term}
    (hac : MguProof.Acyclic bind) (hσ : FullInst bind σ) (ts : List Term) (s : VarBank × Rn) :
    ∃ N r, ∀ n ≥ N, normTerms sg bind n ts s = some r := by
  induction ts generalizing s with
  | nil => exact ⟨0, s, fun _ _ => rfl⟩
  | cons t ts ih =>
    obtain ⟨N, r, h1⟩ := normLoop_total sg hac hσ _ [t] s (le_refl _)
    obtain ⟨N2, r2, h2⟩ := ih r
    exact ⟨N + N2, r2, fun n hn => by simp only [normTerms, h1 n (by omega), h2 n (by omega)]⟩

/-! ### The fold over variables -/

/-- What the renaming satisfies relative to the bank. -/
structure RnInv (sg : Sig) (b : VarBank) (rn : Rn) : Prop where
  bank : b.Inv
  ent : ∀ p ∈ rn, ∃ i, i < b.vcnt (sg.vty p.1) ∧ (b.vstk (sg.vty p.1))[i]? = some p.2
  inj : ∀ p ∈ rn, ∀ q ∈ rn, p.2 = q.2 → p.1 = q.1
  keys : (rn.map Prod.fst).Nodup

theorem rnInv_nil (sg : Sig) {b : VarBank} (h : b.Inv) : RnInv sg b [] :=
  ⟨h, by simp, by simp, by simp⟩

theorem lookup_none {rn : Rn} {y : Nat} (h : rn.lookup y = none) : y ∉ rn.map Prod.fst := by
  induction rn with
  | nil => simp
  | cons p rn ih =>
    obtain ⟨a, c⟩ := p
    rw [List.lookup_cons] at h
    by_cases he : y = a
    · subst he; simp at h
    · have hb : (y == a) = false := by simpa using he
      simp only [hb] at h
      simp [he]; simpa using ih h

theorem lookup_some_mem {rn : Rn} {y c : Nat} (h : rn.lookup y = some c) : (y, c) ∈ rn := by
  induction rn with
  | nil => simp at h
  | cons p rn ih =>
    obtain ⟨a, d⟩ := p
    rw [List.lookup_cons] at h
    by_cases he : y = a
    · subst he; simp at h; simp [h]
    · have hb : (y == a) = false := by simpa using he
      simp only [hb] at h
      simp [ih h]

theorem prefix_get {α : Type} {a b : List α} {i : Nat} {c : α} (h : a <+: b) (hi : a[i]? = some c) :
    b[i]? = some c := by
  obtain ⟨t, rfl⟩ := h
  obtain ⟨hl, _⟩ := List.getElem?_eq_some_iff.1 hi
  rw [List.getElem?_append_left hl]; exact hi

theorem rnInv_step {sg : Sig} {s : VarBank × Rn} (h : RnInv sg s.1 s.2) (y : Nat) :
    RnInv sg (normVar sg s y).1 (normVar sg s y).2 := by
  unfold normVar
  cases hl : s.2.lookup y with
  | some c => exact h
  | none =>
    have hk := lookup_none hl
    have hI := VarBank.inv_getFresh h.bank (sg.vty y)
    obtain ⟨hget, hpre, hcnt⟩ := VarBank.getFresh_spec h.bank (sg.vty y)
    simp only
    have hent : ∀ p ∈ s.2, ∃ i, i < (if sg.vty p.1 = sg.vty y then s.1.vcnt (sg.vty y) + 1 else s.1.vcnt (sg.vty p.1)) ∧
        (if sg.vty p.1 = sg.vty y then i ≠ s.1.vcnt (sg.vty y) else True) ∧
        ((s.1.getFresh (sg.vty y)).2.vstk (sg.vty p.1))[i]? = some p.2 := by
      intro p hp
      obtain ⟨i, hi1, hi2⟩ := h.ent p hp
      refine ⟨i, ?_, ?_, prefix_get (hpre _) hi2⟩
      · split
        · rename_i he; rw [he] at hi1; omega
        · exact hi1
      · split
        · rename_i he; rw [he] at hi1; omega
        · trivial
    have hnew : ∀ p ∈ s.2, p.2 ≠ (s.1.getFresh (sg.vty y)).1 := by
      intro p hp heq
      obtain ⟨i, _, hi2, hi3⟩ := hent p hp
      rw [heq] at hi3
      have hty := hI.typed _ _ _ (List.mem_of_getElem? hi3) (List.mem_of_getElem? hget)
      rw [if_pos hty] at hi2
      rw [hty] at hi3
      obtain ⟨h1, h1'⟩ := List.getElem?_eq_some_iff.1 hi3
      obtain ⟨h2, h2'⟩ := List.getElem?_eq_some_iff.1 hget
      exact hi2 ((hI.nodup (sg.vty y)).getElem_inj_iff.1 (h1'.trans h2'.symm))
    refine ⟨hI, ?_, ?_, ?_⟩
    · intro p hp
      rcases List.mem_cons.1 hp with rfl | hp
      · exact ⟨s.1.vcnt (sg.vty y), by rw [hcnt]; simp, hget⟩
      · obtain ⟨i, hi1, _, hi3⟩ := hent p hp
        refine ⟨i, ?_, hi3⟩
        rw [hcnt]; exact hi1
    · intro p hp q hq he
      rcases List.mem_cons.1 hp with rfl | hp <;> rcases List.mem_cons.1 hq with rfl | hq
      · rfl
      · exact absurd he.symm (hnew q hq)
      · exact absurd he (hnew p hp)
      · exact h.inj p hp q hq he
    · simp only [List.map_cons, List.nodup_cons]
      exact ⟨hk, h.keys⟩

theorem rnInv_fold {sg : Sig} (vs : List Nat) {s : VarBank × Rn} (h : RnInv sg s.1 s.2) :
    RnInv sg (vs.foldl (normVar sg) s).1 (vs.foldl (normVar sg) s).2 := by
  induction vs generalizing s with
  | nil => exact h
  | cons v vs ih => exact ih (rnInv_step h v)

theorem lookup_cons_ne {rn : Rn} {y a c : Nat} (h : y ≠ a) : List.lookup y ((a, c) :: rn) = rn.lookup y := by
  have hb : (y == a) = false := by simpa using h
  simp [List.lookup_cons, hb]

theorem lookup_cons_self {rn : Rn} {a c : Nat} : List.lookup a ((a, c) :: rn) = some c := by
  simp

theorem normVar_mono {sg : Sig} {s : VarBank × Rn} (y : Nat) {x c : Nat} (h : s.2.lookup x = some c) :
    (normVar sg s y).2.lookup x = some c := by
  unfold normVar
  cases hl : s.2.lookup y with
  | some d => exact h
  | none =>
    have : x ≠ y := by rintro rfl; simp [hl] at h
    simp only [lookup_cons_ne this]; exact h

theorem fold_mono {sg : Sig} (vs : List Nat) {s : VarBank × Rn} {x c : Nat} (h : s.2.lookup x = some c) :
    (vs.foldl (normVar sg) s).2.lookup x = some c := by
  induction vs generalizing s with
  | nil => exact h
  | cons v vs ih => exact ih (normVar_mono v h)

theorem fold_covers {sg : Sig} (vs : List Nat) (s : VarBank × Rn) {x : Nat} (h : x ∈ vs) :
    ∃ c, (vs.foldl (normVar sg) s).2.lookup x = some c := by
  induction vs generalizing s with
  | nil => simp at h
  | cons v vs ih =>
    rcases List.mem_cons.1 h with rfl | h
    · have : ∃ c, (normVar sg s x).2.lookup x = some c := by
        unfold normVar
        cases hl : s.2.lookup x with
        | some c => exact ⟨c, hl⟩
        | none => exact ⟨_, lookup_cons_self⟩
      obtain ⟨c, hc⟩ := this
      exact ⟨c, fold_mono vs hc⟩
    · exact ih _ h

theorem normVar_keys {sg : Sig} {s : VarBank × Rn} (y x : Nat) :
    x ∈ (normVar sg s y).2.map Prod.fst ↔ x ∈ s.2.map Prod.fst ∨ x = y := by
  unfold normVar
  cases hl : s.2.lookup y with
  | some c =>
    simp only
    constructor
    · exact Or.inl
    · rintro (h | rfl)
      · exact h
      · exact List.mem_map_of_mem (f := Prod.fst) (lookup_some_mem hl)
  | none => simp [or_comm]

theorem fold_keys {sg : Sig} (vs : List Nat) (s : VarBank × Rn) {x : Nat} :
    x ∈ (vs.foldl (normVar sg) s).2.map Prod.fst ↔ x ∈ s.2.map Prod.fst ∨ x ∈ vs := by
  induction vs generalizing s with
  | nil => simp
  | cons v vs ih => rw [List.foldl_cons, ih, normVar_keys]; simp; tauto

theorem fold_prefix {sg : Sig} (vs : List Nat) {s : VarBank × Rn} (h : s.1.Inv) (t : Nat) :
    s.1.vstk t <+: (vs.foldl (normVar sg) s).1.vstk t := by
  induction vs generalizing s with
  | nil => exact List.prefix_refl _
  | cons v vs ih =>
    have h1 : s.1.vstk t <+: (normVar sg s v).1.vstk t ∧ (normVar sg s v).1.Inv := by
      unfold normVar
      cases hl : s.2.lookup v with
      | some c => exact ⟨List.prefix_refl _, h⟩
      | none => exact ⟨(VarBank.getFresh_spec h _).2.1 t, VarBank.inv_getFresh h _⟩
    exact h1.1.trans (ih h1.2)

theorem fold_fresh {sg : Sig} (vs : List Nat) {s : VarBank × Rn} : s.1.fresh ≤ (vs.foldl (normVar sg) s).1.fresh := by
  induction vs generalizing s with
  | nil => exact Nat.le_refl _
  | cons v vs ih =>
    refine Nat.le_trans ?_ ih
    unfold normVar
    cases hl : s.2.lookup v with
    | some c => exact Nat.le_refl _
    | none =>
      show s.1.fresh ≤ (s.1.getFresh (sg.vty v)).2.fresh
      unfold VarBank.getFresh
      split
      · exact Nat.le_refl _
      · exact Nat.le_add_right _ _

/-- Canonicity: renaming the variables (injectively and type-preservingly) and
starting from a bank that has at least the variables produced by the first run
gives the same fresh variables in the same order. -/
theorem fold_canonical {sg : Sig} {ρ : Nat → Nat} (vs : List Nat)
    (s s2 : VarBank × Rn) (h : RnInv sg s.1 s.2) (h2 : RnInv sg s2.1 s2.2)
    (hρ : ∀ x ∈ s.2.map Prod.fst ++ vs, ∀ y ∈ s.2.map Prod.fst ++ vs, ρ x = ρ y → x = y)
    (hty : ∀ x ∈ vs, sg.vty (ρ x) = sg.vty x)
    (hrn : s2.2 = s.2.map fun p => (ρ p.1, p.2)) (hcnt : s2.1.vcnt = s.1.vcnt)
    (hpre : ∀ t, (vs.foldl (normVar sg) s).1.vstk t <+: s2.1.vstk t) :
    ((vs.map ρ).foldl (normVar sg) s2).2 = (vs.foldl (normVar sg) s).2.map (fun p => (ρ p.1, p.2)) := by
  induction vs generalizing s s2 with
  | nil => simpa using hrn
  | cons v vs ih =>
    rw [List.map_cons, List.foldl_cons, List.foldl_cons]
    have hs1 := rnInv_step h v
    have hs2 := rnInv_step h2 (ρ v)
    rw [List.foldl_cons] at hpre
    have hlk : s.2.lookup v = none ↔ s2.2.lookup (ρ v) = none := by
      constructor
      · intro hn
        cases hc : s2.2.lookup (ρ v) with
        | none => rfl
        | some c =>
          have := lookup_some_mem hc
          rw [hrn, List.mem_map] at this
          obtain ⟨p, hp, hpe⟩ := this
          have : p.1 = v := hρ _ (by simp; exact Or.inl ⟨p.2, hp⟩) _ (by simp) (by simpa using congrArg Prod.fst hpe)
          exact absurd (List.mem_map_of_mem (f := Prod.fst) hp) (by rw [this]; exact lookup_none hn)
      · intro hn
        cases hc : s.2.lookup v with
        | none => rfl
        | some c =>
          have hm := lookup_some_mem hc
          refine absurd ?_ (lookup_none hn)
          rw [hrn, List.map_map]
          exact List.mem_map_of_mem (f := (Prod.fst ∘ fun p : Nat × Nat => (ρ p.1, p.2))) hm
    refine ih (normVar sg s v) (normVar sg s2 (ρ v)) hs1 hs2 ?_ (fun x hx => hty x (by simp [hx])) ?_ ?_ ?_
    · intro x hx y hy
      refine hρ x ?_ y ?_
      · rcases List.mem_append.1 hx with hx | hx
        · rcases (normVar_keys v x).1 hx with hx | rfl
          · exact List.mem_append_left _ hx
          · simp
        · simp [hx]
      · rcases List.mem_append.1 hy with hy | hy
        · rcases (normVar_keys v y).1 hy with hy | rfl
          · exact List.mem_append_left _ hy
          · simp
        · simp [hy]
    all_goals
      cases hl : s.2.lookup v with
      | some c =>
        have hl2 : ∃ d, s2.2.lookup (ρ v) = some d := by
          cases hc : s2.2.lookup (ρ v) with
          | none => exact absurd (hlk.2 hc) (by simp [hl])
          | some d => exact ⟨d, rfl⟩
        obtain ⟨d, hl2⟩ := hl2
        simp only [normVar, hl, hl2] at hpre ⊢
        first | exact hrn | exact hcnt | exact hpre
      | none =>
        have hl2 := hlk.1 hl
        have hv := hty v (by simp)
        simp only [normVar, hl, hl2, hv] at hpre ⊢
        obtain ⟨g1, p1, c1⟩ := VarBank.getFresh_spec h.bank (sg.vty v)
        obtain ⟨g2, p2, c2⟩ := VarBank.getFresh_spec h2.bank (sg.vty v)
        have hfin := prefix_get (fold_prefix (sg := sg) vs (s := ((s.1.getFresh (sg.vty v)).2,
          (v, (s.1.getFresh (sg.vty v)).1) :: s.2)) (VarBank.inv_getFresh h.bank _) (sg.vty v)) g1
        have hin := prefix_get (hpre (sg.vty v)) hfin
        rw [← hcnt] at hin
        first
        | (have := prefix_get (p2 _) hin
           rw [g2] at this
           simp only [List.map_cons, ← hrn]
           rw [Option.some.inj this])
        | (funext t; rw [c1, c2, hcnt])
        | (intro t; exact (hpre t).trans (p2 t))

end NormProof
end Verif
