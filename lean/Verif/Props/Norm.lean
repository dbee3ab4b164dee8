import Verif.Clauses.Lit

/-!
# C06, C07: variable normalisation, fresh and disjoint variables
-/

namespace Verif.Props
open Verif Term

/-- Rename the variables of a clause. -/
def renameClause (ρ : Nat → Nat) (C : List Lit) : List Lit :=
  C.map fun L => ⟨L.pos, L.l.subst fun x => .var (ρ x), L.r.subst fun x => .var (ρ x)⟩

/-- The variable types known to the bank are those of the signature. -/
def BankAgrees (sg : Sig) (b : VarBank) : Prop := ∀ ty, ∀ c ∈ b.vstk ty, sg.vty c = ty

namespace NormClause

theorem terms_vars (C : List Lit) (σ : Nat → Term) (hσ : ∀ x, σ x = .var x) :
    ((C.flatMap Lit.terms).flatMap fun t => (t.subst σ).vars) = cvars C := by
  have : σ = Term.var := funext hσ
  subst this
  simp only [cvars, List.flatMap_assoc, subst_id]
  congr 1
  funext L
  simp [Lit.terms, Lit.vars]

/-- What `clauseNormalizeVars` computes, as a fold over the variables. -/
theorem spec {sg : Sig} {n : Nat} {b b' : VarBank} {C C' : List Lit} (hnf : ∀ L ∈ C, L.NF)
    (h : clauseNormalizeVars sg n b C = some (b', C')) (hC : C ≠ []) :
    b' = ((cvars C).foldl (normVar sg) (b.reset, [])).1 ∧
    C' = renameClause (fun x => (((cvars C).foldl (normVar sg) (b.reset, [])).2.lookup x).getD x) C := by
  simp only [clauseNormalizeVars, if_neg hC] at h
  cases h1 : normLits sg (fun _ => none) n C (b.reset, []) with
  | none => simp [h1] at h
  | some s =>
    have hs := NormProof.normTerms_eq LitProof.fullInst_empty h1
    rw [terms_vars C _ fun _ => rfl] at hs
    obtain ⟨b1, rn⟩ := s
    rw [← hs]
    simp only [h1] at h
    split at h
    · rename_i hrn
      simp at h
      refine ⟨h.1.symm, ?_⟩
      subst hrn
      simp only [renameClause, List.lookup_nil, Option.getD_none]
      rw [← h.2]
      conv_lhs => rw [← List.map_id C]
      refine List.map_congr_left fun L _ => ?_
      rw [show (fun x => Term.var x) = Term.var from rfl, subst_id, subst_id]; rfl
    · rw [Option.map_eq_some_iff] at h
      obtain ⟨D, hD, he⟩ := h
      simp at he
      refine ⟨he.1.symm, ?_⟩
      rw [← he.2, LitProof.copyLits_eq LitProof.fullInst_empty hD, renameClause]
      refine List.map_congr_left fun L hL => ?_
      have hfull : InstProof.full Term.var rn.get = fun x => .var ((rn.lookup x).getD x) := by
        funext x; simp [InstProof.full, varOut, Rn.get]
      rw [hfull]
      exact LitProof.mkEqn_of_nf (LitProof.nf_rename (hnf L hL) fun x => ⟨_, rfl⟩)

theorem foldInv (sg : Sig) {b : VarBank} (hb : b.Inv) (vs : List Nat) :
    NormProof.RnInv sg (vs.foldl (normVar sg) (b.reset, [])).1 (vs.foldl (normVar sg) (b.reset, [])).2 :=
  NormProof.rnInv_fold vs (NormProof.rnInv_nil sg (VarBank.inv_reset hb))

theorem lookup_of_mem {rn : Rn} (hk : (rn.map Prod.fst).Nodup) {x c : Nat} (h : (x, c) ∈ rn) :
    rn.lookup x = some c := by
  induction rn with
  | nil => simp at h
  | cons p rn ih =>
    obtain ⟨a, d⟩ := p
    simp only [List.map_cons, List.nodup_cons] at hk
    rcases List.mem_cons.1 h with h' | h'
    · cases h'; exact NormProof.lookup_cons_self
    · have : x ≠ a := by rintro rfl; exact hk.1 (List.mem_map_of_mem (f := Prod.fst) h')
      rw [NormProof.lookup_cons_ne this]; exact ih hk.2 h'

end NormClause
open NormClause

/-- C06: normalisation terminates. -/
theorem normalize_terminates (sg : Sig) (b : VarBank) (C : List Lit) :
    ∃ N r, ∀ n ≥ N, clauseNormalizeVars sg n b C = some r := by
  by_cases hC : C = []
  · exact ⟨0, (b, C), fun n _ => by simp [clauseNormalizeVars, hC]⟩
  · obtain ⟨N, s, h1⟩ := NormProof.normTerms_total sg LitProof.acyclic_empty LitProof.fullInst_empty
      (C.flatMap Lit.terms) (b.reset, [])
    obtain ⟨N2, D, h2⟩ := LitProof.copyLits_total s.2.get LitProof.acyclic_empty LitProof.fullInst_empty C
    refine ⟨N + N2, if s.2 = [] then (s.1, C) else (s.1, D), fun n hn => ?_⟩
    simp only [clauseNormalizeVars, if_neg hC, normLits, h1 n (by omega)]
    split
    · simp_all
    · rw [h2 n (by omega)]; simp_all

/-- C06: the normalised clause is a variant: the variables are renamed injectively,
each to a variable of its own type. -/
theorem normalize_variant (sg : Sig) (n : Nat) (b b' : VarBank) (C C' : List Lit)
    (hb : b.Inv) (hnf : ∀ L ∈ C, L.NF) (h : clauseNormalizeVars sg n b C = some (b', C')) :
    b'.Inv ∧ ∃ ρ : Nat → Nat, C' = renameClause ρ C ∧
      (∀ x ∈ cvars C, ∀ y ∈ cvars C, ρ x = ρ y → x = y) ∧
      (∀ x ∈ cvars C, ρ x ∈ b'.vstk (sg.vty x)) := by
  by_cases hC : C = []
  · subst hC
    simp [clauseNormalizeVars] at h
    obtain ⟨rfl, rfl⟩ := h
    exact ⟨hb, id, rfl, by simp [cvars], by simp [cvars]⟩
  · obtain ⟨rfl, rfl⟩ := spec hnf h hC
    have hI := foldInv sg hb (cvars C)
    refine ⟨hI.bank, _, rfl, ?_, ?_⟩
    · intro x hx y hy he
      obtain ⟨c, hc⟩ := NormProof.fold_covers (sg := sg) (cvars C) (b.reset, []) hx
      obtain ⟨d, hd⟩ := NormProof.fold_covers (sg := sg) (cvars C) (b.reset, []) hy
      simp only [hc, hd, Option.getD_some] at he
      exact hI.inj _ (NormProof.lookup_some_mem hc) _ (NormProof.lookup_some_mem hd) he
    · intro x hx
      obtain ⟨c, hc⟩ := NormProof.fold_covers (sg := sg) (cvars C) (b.reset, []) hx
      obtain ⟨i, _, hi⟩ := hI.ent _ (NormProof.lookup_some_mem hc)
      simp only [hc, Option.getD_some]
      exact List.mem_of_getElem? hi

/-- C06: normalising takes no variables away from the bank. -/
theorem normalize_bank (sg : Sig) (n : Nat) (b b' : VarBank) (C C' : List Lit)
    (hb : b.Inv) (hnf : ∀ L ∈ C, L.NF) (h : clauseNormalizeVars sg n b C = some (b', C')) :
    b.fresh ≤ b'.fresh ∧ ∀ ty, b.vstk ty <+: b'.vstk ty := by
  by_cases hC : C = []
  · subst hC
    simp [clauseNormalizeVars] at h
    obtain ⟨rfl, rfl⟩ := h
    exact ⟨Nat.le_refl _, fun _ => List.prefix_refl _⟩
  · obtain ⟨rfl, rfl⟩ := spec hnf h hC
    exact ⟨NormProof.fold_fresh (s := (b.reset, [])) (cvars C), fun t => NormProof.fold_prefix (s := (b.reset, [])) (cvars C) (VarBank.inv_reset hb) t⟩

/-- C06: canonical form.  If `D` is `C` with its variables renamed injectively and
type-preservingly, then normalising `C`, and later (from any bank that has kept the
variables allocated so far) normalising `D` gives the same clause. -/
theorem normalize_canonical (sg : Sig) (n m : Nat) (b b1 b2 b3 : VarBank) (C D C' D' : List Lit)
    (ρ : Nat → Nat) (hb : b.Inv) (hb2 : b2.Inv) (hnf : ∀ L ∈ C, L.NF)
    (hD : D = renameClause ρ C) (hinj : ∀ x ∈ cvars C, ∀ y ∈ cvars C, ρ x = ρ y → x = y)
    (hty : ∀ x ∈ cvars C, sg.vty (ρ x) = sg.vty x)
    (h1 : clauseNormalizeVars sg n b C = some (b1, C'))
    (hlater : ∀ ty, b1.vstk ty <+: b2.vstk ty)
    (h2 : clauseNormalizeVars sg m b2 D = some (b3, D')) : D' = C' := by
  by_cases hC : C = []
  · subst hC; subst hD
    simp [renameClause, clauseNormalizeVars] at h1 h2
    rw [h1.2, h2.2]
  · have hDne : D ≠ [] := by subst hD; simpa [renameClause] using hC
    have hnfD : ∀ L ∈ D, L.NF := by
      subst hD
      intro L hL
      obtain ⟨K, hK, rfl⟩ := List.mem_map.1 hL
      exact LitProof.nf_rename (hnf K hK) fun x => ⟨_, rfl⟩
    obtain ⟨hb1, rfl⟩ := spec hnf h1 hC
    obtain ⟨_, rfl⟩ := spec hnfD h2 hDne
    have hvars : cvars D = (cvars C).map ρ := by
      subst hD
      have hv : ∀ t : Term, (t.subst fun x => .var (ρ x)).vars = t.vars.map ρ := by
        intro t
        induction t using Term.ind with
        | hv x => simp [vars]
        | ha f ts ih =>
          rw [subst_app, vars, vars, varsL_eq, varsL_eq, List.flatMap_map, List.map_flatMap]
          exact List.flatMap_congr fun t ht => ih t ht
      simp only [cvars, renameClause, List.flatMap_map, List.map_flatMap, Lit.vars, hv, List.map_append]
    have key := NormProof.fold_canonical (sg := sg) (ρ := ρ) (cvars C) (b.reset, []) (b2.reset, [])
      (NormProof.rnInv_nil sg (VarBank.inv_reset hb)) (NormProof.rnInv_nil sg (VarBank.inv_reset hb2))
      (by simpa using hinj) hty rfl rfl (by rw [← hb1]; exact hlater)
    rw [hvars, key]
    subst hD
    simp only [renameClause, List.map_map]
    refine List.map_congr_left fun L hL => ?_
    have hI := foldInv sg hb (cvars C)
    have hlk : ∀ x ∈ cvars C, ∃ c,
        ((((cvars C).foldl (normVar sg) (b.reset, [])).2.map fun p => (ρ p.1, p.2)).lookup (ρ x)) = some c
        ∧ ((cvars C).foldl (normVar sg) (b.reset, [])).2.lookup x = some c := by
      intro x hx
      obtain ⟨c, hc⟩ := NormProof.fold_covers (sg := sg) (cvars C) (b.reset, []) hx
      refine ⟨c, ?_, hc⟩
      refine lookup_of_mem ?_ (List.mem_map_of_mem (f := fun p : Nat × Nat => (ρ p.1, p.2))
        (NormProof.lookup_some_mem hc))
      rw [List.map_map]
      have : (Prod.fst ∘ fun p : Nat × Nat => (ρ p.1, p.2)) = ρ ∘ Prod.fst := rfl
      rw [this, ← List.map_map]
      refine List.Nodup.map_on ?_ hI.keys
      intro a ha c hc h
      have hka := (NormProof.fold_keys (sg := sg) (cvars C) (b.reset, [])).1 ha
      have hkc := (NormProof.fold_keys (sg := sg) (cvars C) (b.reset, [])).1 hc
      simp at hka hkc
      exact hinj a hka c hkc h
    have hmem : ∀ x ∈ L.vars, x ∈ cvars C := fun x hx => List.mem_flatMap.2 ⟨L, hL, hx⟩
    simp only [Function.comp, subst_comp, subst_var, Lit.mk.injEq, true_and]
    constructor
    · exact subst_congr fun x hx => by
        obtain ⟨c, h1, h2⟩ := hlk x (hmem x (by simp [Lit.vars, hx]))
        simp only [h1, h2, Option.getD_some]
    · exact subst_congr fun x hx => by
        obtain ⟨c, h1, h2⟩ := hlk x (hmem x (by simp [Lit.vars, hx]))
        simp only [h1, h2, Option.getD_some]

/-- C06: normalising again changes nothing. -/
theorem normalize_idempotent (sg : Sig) (n m : Nat) (b b1 b2 b3 : VarBank) (C C' C'' : List Lit)
    (hb : b.Inv) (hb2 : b2.Inv) (hnf : ∀ L ∈ C, L.NF)
    (h1 : clauseNormalizeVars sg n b C = some (b1, C')) (hag : BankAgrees sg b1)
    (hlater : ∀ ty, b1.vstk ty <+: b2.vstk ty)
    (h2 : clauseNormalizeVars sg m b2 C' = some (b3, C'')) : C'' = C' := by
  obtain ⟨_, ρ, hC', hinj, hty⟩ := normalize_variant sg n b b1 C C' hb hnf h1
  exact normalize_canonical sg n m b b1 b2 b3 C C' C' C'' ρ hb hb2 hnf hC' hinj
    (fun x hx => hag _ _ (hty x hx)) h1 hlater h2

/-! ## C07 -/

inductive BankOp where
  | fresh (ty : Nat)
  | reset

/-- Run a history; the second component lists (type, variable) handed out since the
last reset, the third all ever handed out. -/
def runBank : List BankOp → VarBank × List (Nat × Nat) × List (Nat × Nat)
  | [] => (VarBank.init, [], [])
  | op :: ops =>
    let r := runBank ops
    match op with
    | .fresh ty =>
      let c := r.1.getFresh ty
      (c.2, (ty, c.1) :: r.2.1, (ty, c.1) :: r.2.2)
    | .reset => (r.1.reset, [], r.2.2)

theorem runBank_inv (ops : List BankOp) :
    (runBank ops).1.Inv ∧
    (∀ p ∈ (runBank ops).2.1, ∃ i, i < (runBank ops).1.vcnt p.1 ∧ ((runBank ops).1.vstk p.1)[i]? = some p.2) ∧
    (∀ p ∈ (runBank ops).2.2, p.2 ∈ (runBank ops).1.vstk p.1) := by
  induction ops with
  | nil => exact ⟨VarBank.inv_init, by simp [runBank], by simp [runBank]⟩
  | cons op ops ih =>
    obtain ⟨hI, h1, h2⟩ := ih
    cases op with
    | reset =>
      refine ⟨VarBank.inv_reset hI, by simp [runBank], ?_⟩
      simp only [runBank]; exact h2
    | fresh ty =>
      obtain ⟨hget, hpre, hcnt⟩ := VarBank.getFresh_spec hI ty
      refine ⟨VarBank.inv_getFresh hI ty, ?_, ?_⟩
      · simp only [runBank]
        intro p hp
        rcases List.mem_cons.1 hp with rfl | hp
        · exact ⟨(runBank ops).1.vcnt ty, by simp [hcnt], hget⟩
        · obtain ⟨i, hi, hc⟩ := h1 p hp
          refine ⟨i, ?_, NormProof.prefix_get (hpre _) hc⟩
          rw [hcnt]; split
          · rename_i he; rw [he] at hi; omega
          · exact hi
      · simp only [runBank]
        intro p hp
        rcases List.mem_cons.1 hp with rfl | hp
        · exact List.mem_of_getElem? hget
        · exact (hpre _).subset (h2 p hp)

/-- C07: for every history, the next fresh variable differs from all variables handed out
since the last reset, is an ordinary (even, positive) variable, and a
variable handed out twice (across resets) has been requested with the same type both times. -/
theorem fresh_no_collision (ops : List BankOp) (ty : Nat) :
    let r := runBank ops
    let c := (r.1.getFresh ty).1
    (∀ p ∈ r.2.1, p.2 ≠ c) ∧ c % 2 = 0 ∧ 0 < c ∧ ∀ p ∈ r.2.2, p.2 = c → p.1 = ty := by
  intro r c
  obtain ⟨hI, h1, h2⟩ := runBank_inv ops
  obtain ⟨hget, hpre, hcnt⟩ := VarBank.getFresh_spec hI ty
  have hI' := VarBank.inv_getFresh hI ty
  have hc := hI'.codes ty _ (List.mem_of_getElem? hget)
  refine ⟨?_, hc.1, hc.2.1, ?_⟩
  · intro p hp he
    obtain ⟨i, hi, hic⟩ := h1 p hp
    have hic' := NormProof.prefix_get (hpre _) hic
    rw [he] at hic'
    have hty := hI'.typed _ _ _ (List.mem_of_getElem? hic') (List.mem_of_getElem? hget)
    rw [hty] at hic' hi
    obtain ⟨a1, a2⟩ := List.getElem?_eq_some_iff.1 hic'
    obtain ⟨b1, b2⟩ := List.getElem?_eq_some_iff.1 hget
    have := (hI'.nodup ty).getElem_inj_iff.1 (a2.trans b2.symm)
    omega
  · intro p hp he
    have hm := (hpre _).subset (h2 p hp)
    rw [he] at hm
    exact hI'.typed _ _ _ hm (List.mem_of_getElem? hget)

/-- C07: the disjoint copy of a clause over ordinary variables shares no variable with any clause
over ordinary variables, and is a variant: the renaming can be undone. -/
theorem disjoint_copy (C D : List Lit) (hnf : ∀ L ∈ C, L.NF)
    (hC : ∀ x ∈ cvars C, x % 2 = 0 ∧ 0 < x) (hD : ∀ x ∈ cvars D, x % 2 = 0 ∧ 0 < x) :
    (∀ x ∈ cvars (copyDisjoint C), x ∉ cvars D) ∧
    copyDisjoint C = renameClause (fun x => x - 1) C ∧
    renameClause (fun x => x + 1) (copyDisjoint C) = C := by
  have h2 : copyDisjoint C = renameClause (fun x => x - 1) C := by
    simp only [copyDisjoint, renameClause, instDisjoint]
    exact List.map_congr_left fun L hL =>
      LitProof.mkEqn_of_nf (LitProof.nf_rename (hnf L hL) fun x => ⟨_, rfl⟩)
  refine ⟨?_, h2, ?_⟩
  · intro x hx hxD
    rw [h2] at hx
    simp only [cvars, renameClause, List.flatMap_map, List.mem_flatMap, Lit.vars, List.mem_append] at hx
    obtain ⟨L, hL, hx⟩ := hx
    have : ∃ y ∈ L.vars, x = y - 1 := by
      rcases hx with hx | hx
      · obtain ⟨y, hy, hxy⟩ := mem_vars_subst.1 hx
        exact ⟨y, by simp [Lit.vars, hy], by simpa [vars] using hxy⟩
      · obtain ⟨y, hy, hxy⟩ := mem_vars_subst.1 hx
        exact ⟨y, by simp [Lit.vars, hy], by simpa [vars] using hxy⟩
    obtain ⟨y, hy, rfl⟩ := this
    have h3 := hC y (List.mem_flatMap.2 ⟨L, hL, hy⟩)
    have h4 := hD _ hxD
    omega
  · rw [h2]
    simp only [renameClause, List.map_map]
    conv_rhs => rw [← List.map_id C]
    refine List.map_congr_left fun L hL => ?_
    have hcomp : ∀ t : Term, (∀ x ∈ t.vars, x ∈ L.vars) →
        (t.subst fun x => .var (x - 1)).subst (fun x => .var (x + 1)) = t := by
      intro t ht
      rw [subst_comp]
      refine (subst_congr fun x hx => ?_).trans (subst_id t)
      have := hC x (List.mem_flatMap.2 ⟨L, hL, ht x hx⟩)
      simp only [subst_var, var.injEq]; omega
    cases L
    simp only [Function.comp, id, Lit.mk.injEq, true_and]
    exact ⟨hcomp _ fun x hx => by simp [Lit.vars, hx], hcomp _ fun x hx => by simp [Lit.vars, hx]⟩

/- Non-triviality: normalising p(X6,X2) | X2 = X6 from a bank with three variables. -/
private def sg1 : Sig := ⟨fun _ => 0, fun _ => 0, fun _ => [], fun _ => false⟩
private def b3 : VarBank := (runBank [.fresh 0, .fresh 0, .fresh 0]).1
private def C1 : List Lit := [⟨true, .app 11 [.var 6, .var 2], tTrue⟩, ⟨true, .var 2, .var 6⟩]

example : (clauseNormalizeVars sg1 9 b3 C1).map Prod.snd
    = some [⟨true, .app 11 [.var 2, .var 4], tTrue⟩, ⟨true, .var 4, .var 2⟩] := by decide
example : b3.Inv := (runBank_inv _).1
example : ∀ L ∈ C1, L.NF := by decide
example : BankAgrees sg1 b3 := by
  intro ty c hc
  by_contra h
  have : ty ≠ 0 := fun h0 => h h0.symm
  have hz : b3.vstk ty = [] := by simp [b3, runBank, VarBank.getFresh, VarBank.init, this]
  rw [hz] at hc; simp at hc
example : ∀ x ∈ cvars C1, x % 2 = 0 ∧ 0 < x := by decide
/- After a reset the same variables are handed out again, with the same type. -/
example : (runBank [.fresh 0, .reset, .fresh 1, .fresh 0]).2 = ([(0, 2)], [(0, 2), (1, 4), (0, 2)]) := by decide

end Verif.Props
