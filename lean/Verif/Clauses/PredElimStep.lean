import Verif.Clauses.PredElimReg

/-!
# Predicate elimination: the resolvents of a predicate
-/

namespace Verif.PeProof
open SemProof Props CNFProof SaturateProof BceProof Term

universe u

variable {sg : Sig}

/-! ## Normalisation of variables -/

/-- The second bank has all variables of the first, and the same ones if no code has been used. -/
def Pre (b b' : VarBank) : Prop := (∀ ty, b.vstk ty <+: b'.vstk ty) ∧ b.fresh ≤ b'.fresh ∧ (b'.fresh = b.fresh → b'.vstk = b.vstk)

theorem Pre.refl (b : VarBank) : Pre b b := ⟨fun _ => List.prefix_refl _, Nat.le_refl _, fun _ => rfl⟩

theorem Pre.trans {a b c : VarBank} (h : Pre a b) (h' : Pre b c) : Pre a c :=
  ⟨fun ty => (h.1 ty).trans (h'.1 ty), h.2.1.trans h'.2.1, fun e => by
    have h1 := h.2.1
    have h2 := h'.2.1
    rw [h'.2.2 (by omega), h.2.2 (by omega)]⟩

theorem Pre.agrees {b b' : VarBank} (h : Pre b b') (ha : BankAgrees sg b') : BankAgrees sg b := fun ty c hc => ha ty c ((h.1 ty).subset hc)

theorem fold_same : ∀ (xs : List Nat) (s : VarBank × Rn), s.1.fresh ≤ (xs.foldl (normVar sg) s).1.fresh ∧
    ((xs.foldl (normVar sg) s).1.fresh = s.1.fresh → (xs.foldl (normVar sg) s).1.vstk = s.1.vstk)
  | [], _ => ⟨Nat.le_refl _, fun _ => rfl⟩
  | x :: xs, s => by
    obtain ⟨h1, h2⟩ := fold_same xs (normVar sg s x)
    have key : s.1.fresh ≤ (normVar sg s x).1.fresh ∧ ((normVar sg s x).1.fresh = s.1.fresh → (normVar sg s x).1.vstk = s.1.vstk) := by
      unfold normVar
      split
      · exact ⟨Nat.le_refl _, fun _ => rfl⟩
      · simp only [VarBank.getFresh]
        split
        · exact ⟨Nat.le_refl _, fun _ => rfl⟩
        · refine ⟨Nat.le_add_right _ _, fun h => ?_⟩
          simp at h
    rw [List.foldl_cons]
    exact ⟨key.1.trans h1, fun e => by rw [h2 (by omega), key.2 (by omega)]⟩

theorem norm_bank {k : Nat} {b b' : VarBank} {C C' : List Lit} (hb : b.Inv) (h : clauseNormalizeVars sg k b C = some (b', C')) : b'.Inv ∧ Pre b b' := by
  unfold clauseNormalizeVars at h
  split at h
  · cases h
    exact ⟨hb, Pre.refl _⟩
  · split at h
    · cases h
    · rename_i b1 rn h1
      have hs := NormProof.normTerms_eq LitProof.fullInst_empty h1
      rw [NormClause.terms_vars C _ fun _ => rfl] at hs
      have e1 : b1 = ((cvars C).foldl (normVar sg) (b.reset, [])).1 := congrArg Prod.fst hs
      have key : b1.Inv ∧ Pre b b1 := by
        rw [e1]
        exact ⟨(NormClause.foldInv sg hb (cvars C)).bank, ⟨fun t => NormProof.fold_prefix (s := (b.reset, [])) (cvars C) (VarBank.inv_reset hb) t, fold_same (cvars C) (b.reset, [])⟩⟩
      split at h
      · cases h
        exact key
      · rw [Option.map_eq_some_iff] at h
        obtain ⟨D, _, he⟩ := h
        cases he
        exact key

theorem norm_step (hsg : SigOK sg) (hF : FOSig sg) {k : Nat} {b b' : VarBank} {C C' : List Lit} (hb : b.Inv) (hC : ∀ K ∈ C, FOLit sg K) (h : clauseNormalizeVars sg k b C = some (b', C'))
    (ha : BankAgrees sg b') :
    FOC sg C' ∧ (∀ g, cnt g C' = cnt g C) ∧ ((∀ K ∈ C, K.equ = false) → ∀ K ∈ C', K.equ = false) ∧ ∀ I : Interp.{u} sg, I.Models C' ↔ I.Models C := by
  obtain ⟨h1, h2, h3⟩ := normVars_ok.{u} hsg hb ha h (wtc hC)
  obtain ⟨-, r, e, -, hr⟩ := normalize_variant sg k b b' C C' hb (fun L hL => (hC L hL).nf) h
  have key : ∀ K ∈ C, FOLit sg ⟨K.pos, K.l.subst fun x => .var (r x), K.r.subst fun x => .var (r x)⟩ ∧
      (⟨K.pos, K.l.subst fun x => .var (r x), K.r.subst fun x => .var (r x)⟩ : Lit).predCode? = K.predCode? ∧
      (⟨K.pos, K.l.subst fun x => .var (r x), K.r.subst fun x => .var (r x)⟩ : Lit).equ = K.equ := by
    intro K hK
    have hw : sg.WTSubst fun x => if x ∈ cvars C then .var (r x) else .var x := by
      intro x
      by_cases hx : x ∈ cvars C
      · simp only [if_pos hx]
        exact ⟨ha _ _ (hr x hx), by simp [Sig.WT]⟩
      · simp only [if_neg hx]
        exact ⟨rfl, by simp [Sig.WT]⟩
    have e1 : ∀ t : Term, (∀ x ∈ t.vars, x ∈ cvars C) → t.subst (fun x => .var (r x)) = t.subst fun x => if x ∈ cvars C then .var (r x) else .var x :=
      fun t ht => subst_congr fun x hx => by rw [if_pos (ht x hx)]
    have hl : ∀ x ∈ K.l.vars, x ∈ cvars C := fun x hx => List.mem_flatMap.2 ⟨K, hK, by simp [Lit.vars, hx]⟩
    have hr' : ∀ x ∈ K.r.vars, x ∈ cvars C := fun x hx => List.mem_flatMap.2 ⟨K, hK, by simp [Lit.vars, hx]⟩
    have nf : (⟨K.pos, K.l.subst fun x => .var (r x), K.r.subst fun x => .var (r x)⟩ : Lit).NF := LitProof.nf_rename (hC K hK).nf fun x => ⟨_, rfl⟩
    have e2 := (LitProof.mkEqn_of_nf nf).symm
    simp only at e2
    have := inst_fo hsg hF hw (hC K hK)
    rw [← e1 K.l hl, ← e1 K.r hr', ← e2] at this
    exact ⟨this.1, this.2.1, this.2.2.1⟩
  refine ⟨⟨fun K hK => ?_, h2⟩, fun g => ?_, fun he K hK => ?_, h3⟩
  · rw [e] at hK
    obtain ⟨L, hL, rfl⟩ := List.mem_map.1 hK
    exact (key L hL).1
  · rw [e]
    unfold cnt renameClause
    rw [List.countP_map]
    exact List.countP_congr fun K hK => by simp [(key K hK).2.1]
  · rw [e] at hK
    obtain ⟨L, hL, rfl⟩ := List.mem_map.1 hK
    rw [(key L hL).2.2]
    exact he L hL

theorem predOK_of (hsg : SigOK sg) (hF : FOSig sg) {C : List Lit} (hC : ∀ K ∈ C, FOLit sg K) {f : Nat} (h : 0 < cnt f C) : PredOK sg f := by
  obtain ⟨L, hL, hf⟩ := cnt_pos_iff.1 h
  rcases lit_cases hsg hF (hC L hL) with ⟨_, _, h3⟩ | ⟨g, ts, e, h1, h2, h3, _, _, h5⟩
  · rw [h3] at hf; cases hf
  · rw [h5] at hf
    cases hf
    exact ⟨h1, h2, h3⟩

/-! ## The loops over pairs of clauses -/

theorem singularRow_spec {taut : List Lit → Bool} {res : List Lit → Option (Option (List Lit))} : ∀ {Ns Rs : List (List Lit)}, singularRow taut res Ns = some Rs →
    (∀ N ∈ Ns, ∃ r, res N = some r ∧ ∀ R, r = some R → taut R = true ∨ R ∈ Rs) ∧ ∀ R ∈ Rs, ∃ N ∈ Ns, res N = some (some R)
  | [], Rs, h => by
    cases h
    simp
  | N :: Ns, Rs, h => by
    unfold singularRow at h
    split at h
    · rename_i h1 h2
      cases h
      obtain ⟨i1, i2⟩ := singularRow_spec h2
      refine ⟨fun M hM => ?_, fun R hR => ?_⟩
      · rcases List.mem_cons.1 hM with rfl | hM
        · exact ⟨none, h1, by simp⟩
        · exact i1 M hM
      · obtain ⟨M, hM, e⟩ := i2 R hR
        exact ⟨M, List.mem_cons_of_mem _ hM, e⟩
    · rename_i R0 Rs0 h1 h2
      cases h
      obtain ⟨i1, i2⟩ := singularRow_spec h2
      refine ⟨fun M hM => ?_, fun R hR => ?_⟩
      · rcases List.mem_cons.1 hM with rfl | hM
        · refine ⟨_, h1, ?_⟩
          rintro _ ⟨⟩
          by_cases ht : taut R0 = true
          · exact .inl ht
          · rw [if_neg ht]
            exact .inr (List.mem_cons_self ..)
        · obtain ⟨r, e, h'⟩ := i1 M hM
          refine ⟨r, e, fun R hR => (h' R hR).imp_right fun hm => ?_⟩
          split
          · exact hm
          · exact List.mem_cons_of_mem _ hm
      · by_cases ht : taut R0 = true
        · rw [if_pos ht] at hR
          obtain ⟨M, hM, e⟩ := i2 R hR
          exact ⟨M, List.mem_cons_of_mem _ hM, e⟩
        · rw [if_neg ht] at hR
          rcases List.mem_cons.1 hR with rfl | hR
          · exact ⟨N, List.mem_cons_self .., h1⟩
          · obtain ⟨M, hM, e⟩ := i2 R hR
            exact ⟨M, List.mem_cons_of_mem _ hM, e⟩
    · cases h

theorem singular_spec {taut : List Lit → Bool} {res : List Lit → List Lit → Option (Option (List Lit))} {Ns : List (List Lit)} : ∀ {Ps Rs : List (List Lit)}, singular taut res Ns Ps = some Rs →
    (∀ P ∈ Ps, ∀ N ∈ Ns, ∃ r, res P N = some r ∧ ∀ R, r = some R → taut R = true ∨ R ∈ Rs) ∧ ∀ R ∈ Rs, ∃ P ∈ Ps, ∃ N ∈ Ns, res P N = some (some R)
  | [], Rs, h => by
    cases h
    simp
  | P :: Ps, Rs, h => by
    unfold singular at h
    split at h
    · rename_i A B h1 h2
      cases h
      obtain ⟨i1, i2⟩ := singularRow_spec h1
      obtain ⟨j1, j2⟩ := singular_spec h2
      refine ⟨fun M hM N hN => ?_, fun R hR => ?_⟩
      · rcases List.mem_cons.1 hM with rfl | hM
        · obtain ⟨r, e, h'⟩ := i1 N hN
          exact ⟨r, e, fun R hR => (h' R hR).imp_right (List.mem_append_left _)⟩
        · obtain ⟨r, e, h'⟩ := j1 M hM N hN
          exact ⟨r, e, fun R hR => (h' R hR).imp_right (List.mem_append_right _)⟩
      · rcases List.mem_append.1 hR with hR | hR
        · obtain ⟨N, hN, e⟩ := i2 R hR
          exact ⟨P, List.mem_cons_self .., N, hN, e⟩
        · obtain ⟨P', hP', N, hN, e⟩ := j2 R hR
          exact ⟨P', List.mem_cons_of_mem _ hP', N, hN, e⟩
    · cases h

theorem gateRow_bank {p : PeParams} {k : Nat} {res : List Lit → Option (Option (List Lit))} : ∀ {Gs Rs : List (List Lit)} {b b' : VarBank}, b.Inv → gateRow p k res Gs b = some (Rs, b') → b'.Inv ∧ Pre b b'
  | [], Rs, b, b', hb, h => by
    cases h
    exact ⟨hb, Pre.refl _⟩
  | G :: Gs, Rs, b, b', hb, h => by
    unfold gateRow at h
    split at h
    · split at h
      · exact gateRow_bank hb h
      · split at h
        · cases h
        · rename_i h1
          rw [Option.map_eq_some_iff] at h
          obtain ⟨q, hq, e⟩ := h
          cases e
          obtain ⟨a1, a2⟩ := norm_bank hb h1
          obtain ⟨b1, b2⟩ := gateRow_bank a1 (Rs := q.1) (b' := q.2) hq
          exact ⟨b1, a2.trans b2⟩
    · cases h

theorem gateLoop_bank {p : PeParams} {k f : Nat} {Ps Ns : List (List Lit)} : ∀ {n : Nat} {W O : List (List Lit)} {b b' : VarBank}, b.Inv → gateLoop p k f Ps Ns n W b = some (O, b') → b'.Inv ∧ Pre b b'
  | 0, _, _, _, _, _, h => by simp [gateLoop] at h
  | n + 1, [], O, b, b', hb, h => by
    cases h
    exact ⟨hb, Pre.refl _⟩
  | n + 1, C :: W, O, b, b', hb, h => by
    unfold gateLoop at h
    split at h
    · rw [Option.map_eq_some_iff] at h
      obtain ⟨q, hq, e⟩ := h
      cases e
      exact gateLoop_bank hb (O := q.1) (b' := q.2) hq
    · split at h
      · cases h
      · rename_i h1
        obtain ⟨a1, a2⟩ := gateRow_bank hb h1
        obtain ⟨b1, b2⟩ := gateLoop_bank a1 h
        exact ⟨b1, a2.trans b2⟩

/-- The clauses of a row of the loop over gates. -/
theorem gateRow_spec (p : PeParams) (hsg : SigOK p.sg) (hF : FOSig p.sg) {k : Nat} {res : List Lit → Option (Option (List Lit))} : ∀ {Gs Rs : List (List Lit)} {b b' : VarBank}, b.Inv →
    (∀ G ∈ Gs, ∀ R, res G = some (some R) → ∀ K ∈ R, FOLit p.sg K) → gateRow p k res Gs b = some (Rs, b') → BankAgrees p.sg b' →
    (∀ G ∈ Gs, ∃ R, res G = some (some R) ∧ (p.taut R = true ∨ ∃ R' ∈ Rs, ∀ I : Interp.{u} p.sg, I.Models R' ↔ I.Models R)) ∧
      ∀ R' ∈ Rs, FOC p.sg R' ∧ ∃ G ∈ Gs, ∃ R, res G = some (some R) ∧ (∀ g, cnt g R' = cnt g R) ∧ ((∀ K ∈ R, K.equ = false) → ∀ K ∈ R', K.equ = false) ∧ ∀ I : Interp.{u} p.sg, I.Models R' ↔ I.Models R
  | [], Rs, b, b', hb, _, h, _ => by
    cases h
    simp
  | G :: Gs, Rs, b, b', hb, hfo, h, ha => by
    unfold gateRow at h
    split at h
    · rename_i R hR
      split at h
      · rename_i ht
        obtain ⟨i1, i2⟩ := gateRow_spec p hsg hF hb (fun G hG => hfo G (List.mem_cons_of_mem _ hG)) h ha
        refine ⟨fun M hM => ?_, fun R' hR' => ?_⟩
        · rcases List.mem_cons.1 hM with rfl | hM
          · exact ⟨R, hR, .inl ht⟩
          · exact i1 M hM
        · obtain ⟨a, M, hM, r⟩ := i2 R' hR'
          exact ⟨a, M, List.mem_cons_of_mem _ hM, r⟩
      · split at h
        · cases h
        · rename_i b1 R1 h1
          rw [Option.map_eq_some_iff] at h
          obtain ⟨q, hq, e⟩ := h
          cases e
          obtain ⟨a1, a2⟩ := norm_bank hb h1
          obtain ⟨c1, c2⟩ := gateRow_bank a1 (Rs := q.1) (b' := q.2) hq
          obtain ⟨n1, n2, n3, n4⟩ := norm_step.{u} hsg hF hb (hfo G (List.mem_cons_self ..) R hR) h1 (c2.agrees ha)
          obtain ⟨i1, i2⟩ := gateRow_spec p hsg hF a1 (fun G hG => hfo G (List.mem_cons_of_mem _ hG)) (Rs := q.1) (b' := q.2) hq ha
          refine ⟨fun M hM => ?_, fun R' hR' => ?_⟩
          · rcases List.mem_cons.1 hM with rfl | hM
            · exact ⟨R, hR, .inr ⟨R1, List.mem_cons_self .., n4⟩⟩
            · obtain ⟨R2, e2, h2⟩ := i1 M hM
              exact ⟨R2, e2, h2.imp_right fun ⟨R3, m3, h3⟩ => ⟨R3, List.mem_cons_of_mem _ m3, h3⟩⟩
          · rcases List.mem_cons.1 hR' with rfl | hR'
            · exact ⟨n1, G, List.mem_cons_self .., R, hR, n2, n3, n4⟩
            · obtain ⟨a, M, hM, r⟩ := i2 R' hR'
              exact ⟨a, M, List.mem_cons_of_mem _ hM, r⟩
    · cases h

/-! ## Gates -/

theorem sargs_of {I : Interp.{u} sg} {v : Nat → I.D} (hv : I.Sorted v) {f : Nat} {ts : List Term} (hw : sg.WT (.app f ts)) : SArgs I f (ts.map (I.eval v)) := by
  rw [Sig.wt_app] at hw
  unfold SArgs
  rw [← hw.1]
  have h2 := hw.2
  clear hw
  induction ts with
  | nil => exact .nil
  | cons t ts ih =>
    exact .cons (eval_mem I hv (h2 t (List.mem_cons_self ..))) (ih fun s hs => h2 s (List.mem_cons_of_mem _ hs))

/-- The predicate is what the clauses of the gate say. -/
def Defined (I : Interp.{u} sg) (f : Nat) (Ps Ns : List (List Lit)) : Prop :=
  ∀ ds, SArgs I f ds → (I.fn f ds = I.fn 1 [] → ∃ C ∈ Ps, Demands I f true C ds) ∧ (I.fn f ds ≠ I.fn 1 [] → ∃ C ∈ Ns, Demands I f false C ds)

theorem gateCl_one {f : Nat} {b : Bool} {C : List Lit} (h : GateCl f b C) : One f b C := by
  obtain ⟨ts, R, h1, h2, _⟩ := h
  exact ⟨ts, R, h1, h2⟩

theorem gateCl_distinct {f : Nat} {b b' : Bool} {C R : List Lit} {ts : List Term} (h : GateCl f b C) (h' : C.Perm (⟨b', .app f ts, tTrue⟩ :: R)) : distinctVars ts = true := by
  obtain ⟨ts', R', h1, h2, h3, _⟩ := h
  obtain ⟨-, rfl, -⟩ := one_unique h1 h2 h'
  exact h3

/-- A clause with a positive literal follows from its resolvents with the negative clauses of a definition. -/
theorem gate_pos (p : PeParams) (hsg : SigOK p.sg) (hF : FOSig p.sg) (ha : AltTyped p.sg) {f k : Nat} (hp : PredOK p.sg f) {Ps Ns : List (List Lit)}
    (hNs : ∀ N ∈ Ns, FOC p.sg N ∧ GateCl f false N) {D : List Lit} (hD : FOC p.sg D) {L : Lit} (hL : L ∈ D) (hf : L.predCode? = some f) (hpos : L.pos = true)
    {I : Interp.{u} p.sg} (hd : Defined I f Ps Ns) (hmod : ∀ G ∈ Ns, ∃ R, buildNeq p k D G f = some (some R) ∧ I.Models R) : I.Models D := by
  intro v hv
  by_contra hfalse
  have hfal : ∀ ts R, D.Perm (⟨true, .app f ts, tTrue⟩ :: R) → ¬ I.ClauseTrue v R ∧ ∃ G ∈ Ns, Demands I f false G (ts.map (I.eval v)) := by
    intro ts R hpm
    have h2 : ¬ I.ClauseTrue v (⟨true, .app f ts, tTrue⟩ :: R) := fun h' => hfalse ((clauseTrue_perm hpm).2 h')
    rw [clauseTrue_cons, not_or, atom_true] at h2
    refine ⟨h2.2, (hd _ (sargs_of hv (lit_wt hD hpm))).2 fun hc => h2.1 (by simp [hc])⟩
  obtain ⟨ts0, e0⟩ := (pred_iff hsg hF (hD.fo L hL)).1 hf
  rw [hpos] at e0
  obtain ⟨-, G0, hG0, -⟩ := hfal ts0 _ (by rw [← e0]; exact List.perm_cons_erase hL)
  obtain ⟨R0, hR0, -⟩ := hmod G0 hG0
  obtain ⟨⟨ts, RP, hh⟩, -⟩ := buildNeq_heads hsg hF hp hD (hNs G0 hG0).1 hR0
  obtain ⟨hRP, G, hG, w, hw, us, RN, hpn, he, hRN⟩ := hfal ts RP hh.2
  obtain ⟨R, hR, hRm⟩ := hmod G hG
  obtain ⟨-, us', RN', hh'⟩ := buildNeq_heads hsg hF hp hD (hNs G hG).1 hR
  obtain ⟨_, RG, q1, q2, q3⟩ := (hNs G hG).2
  obtain ⟨-, rfl, z1⟩ := one_unique q1 q2 hpn
  obtain ⟨-, rfl, z2⟩ := one_unique q1 q2 hh'.2
  obtain ⟨hr, -⟩ := buildNeq_at.{u} hsg hF ha hD (hNs G hG).1 hh hh' hR
  obtain ⟨R', e', x, hx, hc⟩ := hr.refute I v w (.inr (.inr (gateCl_distinct (hNs G hG).2 hh'.2))) hv hw he.symm
  cases e'
  rcases hc (hRm x hx) with hc | hc
  · exact hRP hc
  · exact hRN ((clauseTrue_perm (z2.trans z1.symm)).1 hc)

/-- A clause with a negative literal follows from its resolvents with the positive clauses of a definition. -/
theorem gate_neg (p : PeParams) (hsg : SigOK p.sg) (hF : FOSig p.sg) (ha : AltTyped p.sg) {f k : Nat} (hp : PredOK p.sg f) {Ps Ns : List (List Lit)}
    (hPs : ∀ P ∈ Ps, FOC p.sg P ∧ GateCl f true P) {D : List Lit} (hD : FOC p.sg D) {L : Lit} (hL : L ∈ D) (hf : L.predCode? = some f) (hpos : L.pos = false)
    {I : Interp.{u} p.sg} (hd : Defined I f Ps Ns) (hmod : ∀ G ∈ Ps, ∃ R, buildNeq p k G D f = some (some R) ∧ I.Models R) : I.Models D := by
  intro v hv
  by_contra hfalse
  have hfal : ∀ ts R, D.Perm (⟨false, .app f ts, tTrue⟩ :: R) → ¬ I.ClauseTrue v R ∧ ∃ G ∈ Ps, Demands I f true G (ts.map (I.eval v)) := by
    intro ts R hpm
    have h2 : ¬ I.ClauseTrue v (⟨false, .app f ts, tTrue⟩ :: R) := fun h' => hfalse ((clauseTrue_perm hpm).2 h')
    rw [clauseTrue_cons, not_or, atom_true] at h2
    refine ⟨h2.2, (hd _ (sargs_of hv (lit_wt hD hpm))).1 ?_⟩
    by_contra hc
    exact h2.1 (by simp [hc])
  obtain ⟨ts0, e0⟩ := (pred_iff hsg hF (hD.fo L hL)).1 hf
  rw [hpos] at e0
  obtain ⟨-, G0, hG0, -⟩ := hfal ts0 _ (by rw [← e0]; exact List.perm_cons_erase hL)
  obtain ⟨R0, hR0, -⟩ := hmod G0 hG0
  obtain ⟨-, us, RN, hh⟩ := buildNeq_heads hsg hF hp (hPs G0 hG0).1 hD hR0
  obtain ⟨hRN, G, hG, w, hw, ts, RP, hpn, he, hRP⟩ := hfal us RN hh.2
  obtain ⟨R, hR, hRm⟩ := hmod G hG
  obtain ⟨⟨ts', RP', hh'⟩, -⟩ := buildNeq_heads hsg hF hp (hPs G hG).1 hD hR
  obtain ⟨_, RG, q1, q2, q3⟩ := (hPs G hG).2
  obtain ⟨-, rfl, z1⟩ := one_unique q1 q2 hpn
  obtain ⟨-, rfl, z2⟩ := one_unique q1 q2 hh'.2
  obtain ⟨hr, -⟩ := buildNeq_at.{u} hsg hF ha (hPs G hG).1 hD hh' hh hR
  obtain ⟨R', e', x, hx, hc⟩ := hr.refute I w v (.inr (.inl (gateCl_distinct (hPs G hG).2 hh'.2))) hw hv he
  cases e'
  rcases hc (hRm x hx) with hc | hc
  · exact hRP ((clauseTrue_perm (z2.trans z1.symm)).1 hc)
  · exact hRN hc

section
variable (p : PeParams) (hsg : SigOK p.sg) (hF : FOSig p.sg) (ha : AltTyped p.sg) {f : Nat} {k : Nat} {Ps Ns : List (List Lit)}
  (hPs : ∀ P ∈ Ps, FOC p.sg P ∧ GateCl f true P) (hNs : ∀ N ∈ Ns, FOC p.sg N ∧ GateCl f false N)
  (hT : ∀ C, (∀ K ∈ C, FOLit p.sg K) → p.taut C = true → Valid.{u} p.sg C)

include hsg hF ha hPs hNs hT in
/-- The loop that resolves away all literals with the predicate from the offending clauses. -/
theorem gateLoop_spec : ∀ {n : Nat} {W O : List (List Lit)} {b b' : VarBank}, b.Inv → (∀ C ∈ W, FOC p.sg C) → gateLoop p k f Ps Ns n W b = some (O, b') → BankAgrees p.sg b' →
    (∀ C ∈ O, FOC p.sg C ∧ cnt f C = 0) ∧ (∀ g, (∀ C ∈ W ++ Ps ++ Ns, cnt g C = 0) → ∀ C ∈ O, cnt g C = 0) ∧
      ((∀ C ∈ W ++ Ps ++ Ns, ∀ K ∈ C, K.equ = false) → ∀ C ∈ O, ∀ K ∈ C, K.equ = false) ∧
      (∀ I : Interp.{u} p.sg, (∀ C ∈ W ++ Ps ++ Ns, I.Models C) → ∀ C ∈ O, I.Models C) ∧
      ∀ I : Interp.{u} p.sg, Defined I f Ps Ns → (∀ C ∈ O, I.Models C) → ∀ C ∈ W, I.Models C
  | 0, _, _, _, _, _, _, h, _ => by simp [gateLoop] at h
  | n + 1, [], O, b, b', hb, hW, h, hag => by
    cases h
    simp
  | n + 1, C :: W, O, b, b', hb, hW, h, hag => by
    unfold gateLoop at h
    split at h
    · rename_i hnf
      rw [Option.map_eq_some_iff] at h
      obtain ⟨⟨O', b1⟩, hq, e⟩ := h
      cases e
      obtain ⟨i1, i2, i3, i4, i5⟩ := gateLoop_spec hb (fun D hD => hW D (List.mem_cons_of_mem _ hD)) hq hag
      have hc0 : cnt f C = 0 := by
        unfold cnt
        rw [List.countP_eq_zero]
        intro K hK
        exact List.find?_eq_none.1 hnf K hK
      refine ⟨fun D hD => ?_, fun g hg D hD => ?_, fun hg D hD => ?_, fun I hI D hD => ?_, fun I hd hI D hD => ?_⟩
      · rcases List.mem_cons.1 hD with rfl | hD
        · exact ⟨hW _ (List.mem_cons_self ..), hc0⟩
        · exact i1 D hD
      · rcases List.mem_cons.1 hD with rfl | hD
        · exact hg _ (by simp)
        · exact i2 g (fun E hE => hg E (by simp at hE ⊢; tauto)) D hD
      · rcases List.mem_cons.1 hD with rfl | hD
        · exact hg _ (by simp)
        · exact i3 (fun E hE => hg E (by simp at hE ⊢; tauto)) D hD
      · rcases List.mem_cons.1 hD with rfl | hD
        · exact hI _ (by simp)
        · exact i4 I (fun E hE => hI E (by simp at hE ⊢; tauto)) D hD
      · rcases List.mem_cons.1 hD with rfl | hD
        · exact hI _ (List.mem_cons_self ..)
        · exact i5 I hd (fun E hE => hI E (List.mem_cons_of_mem _ hE)) D hD
    · rename_i L hL
      have hLm := List.mem_of_find?_eq_some hL
      have hLf : L.predCode? = some f := by simpa using List.find?_some hL
      have hC := hW C (List.mem_cons_self ..)
      have hp : PredOK p.sg f := predOK_of hsg hF hC.fo (cnt_pos_iff.2 ⟨L, hLm, hLf⟩)
      split at h
      · cases h
      · rename_i Rs b1 hrow
        obtain ⟨g1, g2⟩ := gateRow_bank hb hrow
        obtain ⟨l1, l2⟩ := gateLoop_bank g1 h
        -- what is known about a resolvent
        have hres : ∀ G ∈ (if L.pos then Ns else Ps), ∀ r, (if L.pos then buildNeq p k C G f else buildNeq p k G C f) = some r →
            ∃ A B ts us RA RB, Res.{u} p.sg f A B (fun I => (∃ d, Herb p.sg I d) ∨ distinctVars ts = true ∨ distinctVars us = true) r ts us RA RB ∧
              (∀ R, r = some R → (∀ K ∈ A, K.equ = false) → (∀ K ∈ B, K.equ = false) → ∀ K ∈ R, K.equ = false) ∧
              (if L.pos then A = C ∧ B = G ∧ G ∈ Ns else A = G ∧ B = C ∧ G ∈ Ps) := by
          intro G hG r hr
          cases hpos : L.pos
          · simp only [hpos, Bool.false_eq_true, if_false] at hG hr ⊢
            obtain ⟨ts, us, RP, RN, h1, h2⟩ := buildNeq_res.{u} hsg hF ha hp (hPs G hG).1 hC hr
            exact ⟨G, C, ts, us, RP, RN, h1, h2, rfl, rfl, hG⟩
          · simp only [hpos, if_true] at hG hr ⊢
            obtain ⟨ts, us, RP, RN, h1, h2⟩ := buildNeq_res.{u} hsg hF ha hp hC (hNs G hG).1 hr
            exact ⟨C, G, ts, us, RP, RN, h1, h2, rfl, rfl, hG⟩
        obtain ⟨r1, r2⟩ := gateRow_spec.{u} p hsg hF hb (fun G hG R hR => by
          obtain ⟨A, B, ts, us, RA, RB, h1, _⟩ := hres G hG _ hR
          exact h1.fo R rfl) hrow (l2.agrees hag)
        obtain ⟨i1, i2, i3, i4, i5⟩ := gateLoop_spec g1 (fun D hD => by
          rcases List.mem_append.1 hD with hD | hD
          · exact (r2 D (List.mem_reverse.1 hD)).1
          · exact hW D (List.mem_cons_of_mem _ hD)) h hag
        -- properties of the clauses pushed
        have hAB : ∀ (X : List Lit → Prop) (G A B : List Lit), (∀ D ∈ C :: W ++ Ps ++ Ns, X D) → (if L.pos then A = C ∧ B = G ∧ G ∈ Ns else A = G ∧ B = C ∧ G ∈ Ps) → X A ∧ X B := by
          intro X G A B hX hc
          split at hc
          · obtain ⟨rfl, rfl, hG⟩ := hc
            exact ⟨hX _ (by simp), hX _ (by simp [hG])⟩
          · obtain ⟨rfl, rfl, hG⟩ := hc
            exact ⟨hX _ (by simp [hG]), hX _ (by simp)⟩
        refine ⟨i1, fun g hg => i2 g fun E hE => ?_, fun hg => i3 fun E hE => ?_, fun I hI => i4 I fun E hE => ?_, fun I hd hI D hD => ?_⟩
        · simp only [List.mem_append, List.mem_reverse] at hE
          rcases hE with ((hE | hE) | hE) | hE
          · obtain ⟨-, G, hG, R, hR, hcn, -, -⟩ := r2 E hE
            obtain ⟨A, B, ts, us, RA, RB, h1, _, hc⟩ := hres G hG _ hR
            obtain ⟨hA, hB⟩ := hAB (fun D => cnt g D = 0) G A B hg hc
            have hle := h1.cnt R rfl g
            have eA := cnt_perm (f := g) h1.pp
            have eB := cnt_perm (f := g) h1.nn
            have eA' : cnt g RA ≤ cnt g (⟨true, .app f ts, tTrue⟩ :: RA) := (List.sublist_cons_self _ _).countP_le
            have eB' : cnt g RB ≤ cnt g (⟨false, .app f us, tTrue⟩ :: RB) := (List.sublist_cons_self _ _).countP_le
            rw [hcn]
            omega
          · exact hg E (by simp [hE])
          · exact hg E (by simp [hE])
          · exact hg E (by simp [hE])
        · simp only [List.mem_append, List.mem_reverse] at hE
          rcases hE with ((hE | hE) | hE) | hE
          · obtain ⟨-, G, hG, R, hR, -, heq, -⟩ := r2 E hE
            obtain ⟨A, B, ts, us, RA, RB, h1, h2, hc⟩ := hres G hG _ hR
            obtain ⟨hA, hB⟩ := hAB (fun D => ∀ K ∈ D, K.equ = false) G A B hg hc
            exact heq (h2 R rfl hA hB)
          · exact hg E (by simp [hE])
          · exact hg E (by simp [hE])
          · exact hg E (by simp [hE])
        · simp only [List.mem_append, List.mem_reverse] at hE
          rcases hE with ((hE | hE) | hE) | hE
          · obtain ⟨-, G, hG, R, hR, -, -, hm⟩ := r2 E hE
            obtain ⟨A, B, ts, us, RA, RB, h1, h2, hc⟩ := hres G hG _ hR
            obtain ⟨hA, hB⟩ := hAB (fun D => I.Models D) G A B hI hc
            exact (hm I).2 (h1.sound R rfl I hA hB)
          · exact hI E (by simp [hE])
          · exact hI E (by simp [hE])
          · exact hI E (by simp [hE])
        · have hall := i5 I hd hI
          rcases List.mem_cons.1 hD with rfl | hD
          · -- the clause resolved upon
            have hmod : ∀ G ∈ (if L.pos then Ns else Ps), ∃ R, (if L.pos then buildNeq p k D G f else buildNeq p k G D f) = some (some R) ∧ I.Models R := by
              intro G hG
              obtain ⟨R, e, h'⟩ := r1 G hG
              refine ⟨R, e, ?_⟩
              rcases h' with h' | ⟨R', hR', h'⟩
              · obtain ⟨A, B, ts, us, RA, RB, h1, _⟩ := hres G hG _ e
                exact fun v _ => hT R (h1.fo R rfl) h' I v
              · exact (h' I).1 (hall R' (by simp [hR']))
            cases hpos : L.pos
            · simp only [hpos, Bool.false_eq_true, if_false] at hmod
              exact gate_neg p hsg hF ha hp (fun P hP => hPs P hP) hC hLm hLf hpos hd hmod
            · simp only [hpos, if_true] at hmod
              exact gate_pos p hsg hF ha hp (fun P hP => hNs P hP) hC hLm hLf hpos hd hmod
          · exact hall D (by simp [hD])

end

end Verif.PeProof
