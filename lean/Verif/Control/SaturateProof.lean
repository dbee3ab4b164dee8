import Verif.Control.Saturate

/-!
# The saturation loop: effect of the single operations
-/

namespace Verif.SaturateProof
open Verif Props Term

universe u
variable {sg : Sig}

theorem mono {Cs Ds : List (List Lit)} {E : List Lit} (h : Entails.{u} sg Cs E) (hs : ∀ C ∈ Cs, C ∈ Ds) : Entails.{u} sg Ds E :=
  fun I hI => h I fun C hC => hI C (hs C hC)

variable {m : Bool}

theorem proc_avail {s : SatState} {C : List Lit} (h : C ∈ s.proc) : C ∈ s.avail m := List.mem_append_left _ h

theorem swapped_true {I : Interp.{u} sg} {v : Nat → I.D} {L K : Lit} (h : Swapped L K) : I.LitTrue v K ↔ I.LitTrue v L := by
  rcases h with rfl | rfl
  · rfl
  · simp only [Interp.LitTrue]; split <;> simp [eq_comm]

theorem swapped_wt {L K : Lit} (h : Swapped L K) (hL : sg.WTLit L) : sg.WTLit K := by
  rcases h with rfl | rfl
  · exact hL
  · exact ⟨hL.2.1, hL.1, hL.2.2.symm⟩

theorem orient_true {I : Interp.{u} sg} {v : Nat → I.D} {C C' : List Lit} (h : List.Forall₂ Swapped C C') :
    I.ClauseTrue v C' ↔ I.ClauseTrue v C := by
  induction h with
  | nil => rfl
  | cons h _ ih => simp only [Interp.ClauseTrue, List.mem_cons, exists_eq_or_imp] at ih ⊢; rw [ih, swapped_true h]

theorem orient_wt {C C' : List Lit} (h : List.Forall₂ Swapped C C') (hC : sg.WTClause C) : sg.WTClause C' := by
  induction h with
  | nil => exact hC
  | cons h _ ih =>
    simp only [Sig.WTClause, List.mem_cons, forall_eq_or_imp] at ih hC ⊢
    exact ⟨swapped_wt h hC.1, ih hC.2⟩

theorem units_hold {I : Interp.{u} sg} {us : List UnitPos} (h : ∀ w ∈ us, I.Models [w.lit]) : UnitsHold I us := by
  intro w hw v hv
  obtain ⟨L, hL, ht⟩ := h w hw v hv
  rw [List.mem_singleton.1 hL] at ht; exact ht

theorem models_iff {I : Interp.{u} sg} {C D : List Lit} (h : ∀ v, I.Sorted v → (I.ClauseTrue v D ↔ I.ClauseTrue v C)) :
    I.Models D ↔ I.Models C := forall_congr' fun v => forall_congr' fun hv => h v hv

theorem acRemove_subset (s : ACSig) (ad : Nat → Bool → List Nat → Nat → Nat) (C : List Lit) :
    ∀ L ∈ clauseRemoveACResolved s ad C, L ∈ C := by
  have key : ∀ (C : List Lit) (k : Nat), ∀ L ∈ removeACResolved s ad k C, L ∈ C := by
    intro C
    induction C with
    | nil => intro k L h; simp [removeACResolved] at h
    | cons K C ih =>
      intro k L h
      rw [removeACResolved] at h
      split at h
      · exact List.mem_cons_of_mem _ (ih _ L h)
      · rcases List.mem_cons.1 h with rfl | h
        · exact List.mem_cons_self ..
        · exact List.mem_cons_of_mem _ (ih _ L h)
  intro L h
  unfold clauseRemoveACResolved at h
  split at h
  · exact h
  · exact key _ _ L h

theorem modify_ok (hsg : SigOK sg) {s : SatState} (hac : ∀ C ∈ s.ac, sg.WTClause C) {C C' : List Lit} (h : Modify sg m s C C')
    (hC : sg.WTClause C) : sg.WTClause C' ∧ ∀ I : Interp.{u} sg, (∀ A ∈ s.avail m, I.Models A) → (I.Models C' ↔ I.Models C) := by
  cases h with
  | rewrite e hO hx hD hs hl hr hi h hlink =>
    subst e
    refine ⟨clause_normalise_typed hO hx hD hs hl hr hi h hC, fun I hI => ?_⟩
    obtain ⟨-, -, h3⟩ := clause_normalise_equivalent.{u} hO hx hD hs hl hr hi h
    exact models_iff (h3 I fun d hd => hI _ (hlink d hd))
  | superfluous =>
    exact ⟨InferProof.finish_wt hC, fun I _ => models_iff fun v _ => InferProof.finish_true I v C⟩
  | acResolved _ had hav =>
    exact ⟨fun L hL => hC L (acRemove_subset _ _ _ L hL), fun I hI => models_iff fun v hv => ac_resolved_equiv hac (fun A hA => hI A (hav A hA)) had hC hv⟩
  | orient h => exact ⟨orient_wt h hC, fun I _ => models_iff fun v _ => orient_true h⟩
  | sort h => exact ⟨fun L hL => hC L (h.subset hL), fun I _ => models_iff fun v _ => by simp only [Interp.ClauseTrue, h.mem_iff]⟩
  | condense hs h =>
    obtain ⟨h1, h2, -⟩ := condense_equiv.{u} hsg hs hC h
    exact ⟨h2, fun I _ => ⟨fun hm => h1.2 I (by simpa using hm), fun hm => h1.1 I (by simpa using hm)⟩⟩
  | posSR _ hu =>
    obtain ⟨h1, -, h3⟩ := positiveSR_equiv.{u} hC
    exact ⟨fun L hL => hC L (h1.subset hL), fun I hI => models_iff (h3 I (.inl (units_hold fun w hw => hI _ (proc_avail <| hu w hw))))⟩
  | negSR _ hu =>
    obtain ⟨h1, h2, h3⟩ := negativeSR_equiv.{u} hC
    exact ⟨fun L hL => hC L (h1.subset hL), fun I hI => models_iff (h3 I (units_hold fun w hw => hI _ (proc_avail <| hu w (h2 w hw))))⟩
  | contextSR hs hn hS =>
    obtain ⟨h1, h2, h3, h4⟩ := contextSR_sound.{u} hs hn hC (D := (contextSR sg _ _ _ _).1) (Ps := (contextSR sg _ _ _ _).2) rfl
    refine ⟨fun L hL => hC L ?_, fun I hI => ⟨fun hm => h4 I (by simpa using hm), fun hm => h2 I ?_⟩⟩
    · simp only [OLit.plain, List.mem_map] at hL ⊢
      obtain ⟨K, hK, rfl⟩ := hL
      exact ⟨K, h3.subset hK, rfl⟩
    · intro P hP
      rcases List.mem_cons.1 hP with rfl | hP
      · exact hm
      · obtain ⟨Q, hQ, rfl⟩ := List.mem_map.1 hP
        exact hI _ (proc_avail <| hS Q (h1 Q hQ))

theorem drop_ok {s : SatState} (hac : ∀ C ∈ s.ac, sg.WTClause C) {C : List Lit} (h : Drop sg m s C)
    (hC : sg.WTClause C) (I : Interp.{u} sg) (hI : (∀ A ∈ s.avail m, I.Models A)) : I.Models C := by
  cases h with
  | isTrivial h1 h2 h3 => exact fun v _ => trivial_sound h1 h2 h3 I v
  | tautology h1 h2 h3 => exact fun v _ => tautology_sound h1 h2 h3 I v
  | acRedundant had hav h => exact ac_redundant_valid hac had hC h I fun A hA => hI A (hav A hA)
  | unitSubsumed hu h => exact (unitSetSubsumes_sound hC h).2 I (.inl (units_hold fun w hw => hI _ (proc_avail <| hu w hw)))
  | subsumed hS h =>
    obtain ⟨h1, h2⟩ := setSubsumes_sound hC h
    exact h2 I (by simpa using hI _ (proc_avail <| hS _ h1))

/-- Ordinary variables only. -/
def EvenVars (C : List Lit) : Prop := ∀ x ∈ cvars C, x % 2 = 0 ∧ 0 < x

/-- A variable and its alternative variable have the same type (`VarBankGetAltVar`). -/
def AltTyped (sg : Sig) : Prop := ∀ x, x % 2 = 0 → 0 < x → sg.vty (x - 1) = sg.vty x

theorem map_subst_congr {C : List Lit} {σ τ : Nat → Term} (h : ∀ x ∈ cvars C, σ x = τ x) :
    (C.map fun L => mkEqn L.pos (L.l.subst σ) (L.r.subst σ)) = C.map fun L => mkEqn L.pos (L.l.subst τ) (L.r.subst τ) := by
  refine List.map_congr_left fun L hL => ?_
  rw [subst_congr fun x hx => h x ?_, subst_congr fun x hx => h x ?_]
  all_goals exact List.mem_flatMap.2 ⟨L, hL, by simp [Lit.vars, hx]⟩

theorem copyDisjoint_ok (hsg : SigOK sg) (ha : AltTyped sg) {C : List Lit} (hC : sg.WTClause C) (he : EvenVars C) :
    sg.WTClause (copyDisjoint C) ∧ ∀ I : Interp.{u} sg, I.Models C → I.Models (copyDisjoint C) := by
  let τ : Nat → Term := fun x => if x % 2 = 0 ∧ 0 < x then .var (x - 1) else .var x
  have hτ : sg.WTSubst τ := by
    intro x
    by_cases h : x % 2 = 0 ∧ 0 < x
    · simp only [τ, if_pos h, Sig.ty, Sig.WT, and_true]; exact ha x h.1 h.2
    · simp only [τ, if_neg h, Sig.ty, Sig.WT, and_true]
  have e : copyDisjoint C = C.map fun L => mkEqn L.pos (L.l.subst τ) (L.r.subst τ) :=
    map_subst_congr (C := C) (σ := fun x => .var (x - 1)) fun x hx => by simp only [τ, if_pos (he x hx)]
  rw [e]
  exact ⟨InferProof.copy_wt hsg hτ hC, fun I hI v hv => (InferProof.copy_true hsg hτ hC I hv).2 (hI _ (SemProof.sorted_subst I hv hτ))⟩

theorem gen_ok (hsg : SigOK sg) (ha : AltTyped sg) {s : SatState} (hw : ∀ C ∈ s.proc, sg.WTClause C) (he : ∀ C ∈ s.proc, EvenVars C)
    {D : List Lit} (h : Gen sg s D) :
    sg.WTClause D ∧ ∀ I : Interp.{u} sg, (∀ C ∈ s.proc, I.Models C) → I.Models D := by
  cases h with
  | eqRes hC hb hag hi hn h =>
    obtain ⟨h1, h2⟩ := eqRes_sound.{u} sg hsg _ _ _ _ _ _ _ _ hb (hw _ hC) hi hn h hag
    exact ⟨h2, fun I hI => h1 I (by simpa using hI _ hC)⟩
  | factor hC hb hag hi hj hij hp hq h =>
    obtain ⟨h1, h2⟩ := equalityFactor_sound.{u} sg hsg _ _ _ _ _ _ _ _ _ _ _ _ _ hb (hw _ hC) hi hj hij hp hq h hag
    exact ⟨h2, fun I hI => h1 I (by simpa using hI _ hC)⟩
  | diseq hC h =>
    obtain ⟨h1, h2⟩ := diseq_sound.{u} hsg (hw _ hC) h
    exact ⟨h2, fun I hI => h1 I (by simpa using hI _ hC)⟩
  | paramod hF hT hb hag hi hj hp hpos hty h =>
    have key : ∀ E, (∃ C ∈ s.proc, E = C ∨ E = copyDisjoint C) →
        sg.WTClause E ∧ ∀ I : Interp.{u} sg, (∀ C ∈ s.proc, I.Models C) → I.Models E := by
      rintro E ⟨C, hC, rfl | rfl⟩
      · exact ⟨hw _ hC, fun I hI => hI _ hC⟩
      · obtain ⟨h1, h2⟩ := copyDisjoint_ok.{u} hsg ha (hw _ hC) (he _ hC)
        exact ⟨h1, fun I hI => h2 I (hI _ hC)⟩
    obtain ⟨hF1, hF2⟩ := key _ hF
    obtain ⟨hT1, hT2⟩ := key _ hT
    obtain ⟨h1, h2⟩ := paramod_sound_partial.{u} sg hsg _ _ _ _ _ _ _ _ _ _ _ hb hF1 hT1 hi hj hp hpos hty h hag
    exact ⟨h2, fun I hI => h1 I (by simpa using ⟨hF2 I hI, hT2 I hI⟩)⟩

theorem mkEqn_vars {pos : Bool} {l r : Term} {x : Nat} (h : x ∈ (mkEqn pos l r).vars) : x ∈ l.vars ∨ x ∈ r.vars := by
  unfold mkEqn at h
  by_cases h1 : l = tFalse <;> by_cases h2 : r = tFalse <;> by_cases h3 : l = tTrue <;>
    simp_all [Lit.vars, tTrue, tFalse, vars]

theorem normVars_ok (hsg : SigOK sg) {n : Nat} {b b' : VarBank} {C C' : List Lit} (hb : b.Inv) (hag : BankAgrees sg b')
    (h : clauseNormalizeVars sg n b C = some (b', C')) (hC : sg.WTClause C) :
    sg.WTClause C' ∧ EvenVars C' ∧ ∀ I : Interp.{u} sg, I.Models C' ↔ I.Models C := by
  by_cases h0 : C = []
  · simp only [clauseNormalizeVars, if_pos h0, Option.some.injEq, Prod.mk.injEq] at h
    subst h0
    rw [← h.2]
    exact ⟨hC, by simp [EvenVars, cvars], fun I => Iff.rfl⟩
  simp only [clauseNormalizeVars, if_neg h0] at h
  cases h1 : normLits sg (fun _ => none) n C (b.reset, []) with
  | none => simp [h1] at h
  | some s =>
    have hs := NormProof.normTerms_eq LitProof.fullInst_empty h1
    rw [NormClause.terms_vars C _ fun _ => rfl] at hs
    have hr := NormClause.foldInv sg hb (cvars C)
    have hcov : ∀ x ∈ cvars C, ∃ c, s.2.lookup x = some c := by
      intro x hx
      obtain ⟨c, hc⟩ := NormProof.fold_covers (sg := sg) (cvars C) (b.reset, []) hx
      exact ⟨c, by rw [hs]; exact hc⟩
    rw [← hs] at hr
    obtain ⟨b1, rn⟩ := s
    simp only [h1] at h
    split at h
    · rename_i hrn
      simp only [Option.some.injEq, Prod.mk.injEq] at h
      obtain ⟨rfl, rfl⟩ := h
      refine ⟨hC, fun x hx => ?_, fun I => Iff.rfl⟩
      obtain ⟨c, hc⟩ := hcov x hx
      simp [hrn] at hc
    · rw [Option.map_eq_some_iff] at h
      obtain ⟨D, hD, he⟩ := h
      simp only [Prod.mk.injEq] at he
      obtain ⟨rfl, rfl⟩ := he
      have eD := LitProof.copyLits_eq LitProof.fullInst_empty hD
      have hid : sg.WTSubst Term.var := fun x => ⟨rfl, by simp [Sig.WT]⟩
      have hτ := InferProof.wt_full hid hr hag
      have hfull : ∀ x, InstProof.full Term.var rn.get x = .var ((rn.lookup x).getD x) := by
        intro x; simp [InstProof.full, varOut, Rn.get]
      subst eD
      refine ⟨InferProof.copy_wt hsg hτ hC, fun x hx => ?_, fun I => ⟨fun hm v hv => ?_, fun hm v hv => ?_⟩⟩
      · obtain ⟨L', hL', hx⟩ := List.mem_flatMap.1 hx
        obtain ⟨L, hL, rfl⟩ := List.mem_map.1 hL'
        have : ∃ y ∈ cvars C, x = (rn.lookup y).getD y := by
          rcases mkEqn_vars hx with hx | hx
          all_goals
            obtain ⟨y, hy, hxy⟩ := mem_vars_subst.1 hx
            rw [hfull] at hxy
            exact ⟨y, List.mem_flatMap.2 ⟨L, hL, by simp [Lit.vars, hy]⟩, by simpa [vars] using hxy⟩
        obtain ⟨y, hy, rfl⟩ := this
        obtain ⟨c, hc⟩ := hcov y hy
        obtain ⟨i, _, hi⟩ := hr.ent _ (NormProof.lookup_some_mem hc)
        have := hr.bank.codes _ _ (List.mem_of_getElem? hi)
        simp only at this
        rw [hc]; exact ⟨this.1, this.2.1⟩
      · obtain ⟨ρ, h1, h2⟩ := InferProof.undo_rn hr v v
        have hρ : I.Sorted ρ := by
          intro c
          rcases h2 c with h | ⟨y, hy, h⟩
          · rw [h]; exact hv c
          · rw [h]
            obtain ⟨i, _, hi⟩ := hr.ent _ (NormProof.lookup_some_mem hy)
            rw [hag _ _ (List.mem_of_getElem? hi)]
            exact hv y
        have := (InferProof.copy_true hsg hτ hC I hρ).1 (hm ρ hρ)
        obtain ⟨L, hL, ht⟩ := this
        refine ⟨L, hL, ?_⟩
        have e : ∀ x ∈ cvars C, I.eval ρ (InstProof.full Term.var rn.get x) = v x := by
          intro x hx
          obtain ⟨c, hc⟩ := hcov x hx
          rw [hfull]
          exact h1 x (List.mem_map.2 ⟨(x, c), NormProof.lookup_some_mem hc, rfl⟩)
        have e1 : I.eval (fun x => I.eval ρ (InstProof.full Term.var rn.get x)) L.l = I.eval v L.l :=
          SemProof.eval_congr I fun x hx => e x (List.mem_flatMap.2 ⟨L, hL, by simp [Lit.vars, hx]⟩)
        have e2 : I.eval (fun x => I.eval ρ (InstProof.full Term.var rn.get x)) L.r = I.eval v L.r :=
          SemProof.eval_congr I fun x hx => e x (List.mem_flatMap.2 ⟨L, hL, by simp [Lit.vars, hx]⟩)
        simp only [Interp.LitTrue, e1, e2] at ht
        exact ht
      · exact (InferProof.copy_true hsg hτ hC I hv).2 (hm _ (SemProof.sorted_subst I hv hτ))

theorem er_ok (hsg : SigOK sg) {pp : Term → Bool} {strong : Bool} {n k : Nat} {b b' : VarBank} {C D : List Lit} (hb : b.Inv)
    (hag : BankAgrees sg b') (h : erNormalizeVar sg pp strong n b C = some (b', D, k)) (hC : sg.WTClause C) :
    sg.WTClause D ∧ ∀ I : Interp.{u} sg, I.Models D ↔ I.Models C := by
  obtain ⟨h1, h2, h3, -⟩ := erNormalize_equiv.{u} sg hsg pp strong n b b' C D k hb hC h hag
  exact ⟨h3, fun I => ⟨fun hm => h2 I (by simpa using hm), fun hm => h1 I (by simpa using hm)⟩⟩

end Verif.SaturateProof
