import Verif.Props.Infer

/-!
# C17 (destructive equality resolution), C25, C41

* destructive equality resolution yields an equivalent clause, with fewer literals;
* removing superfluous literals keeps the meaning and leaves none;
* conclusions are most general: every instance of an inference on instances of the parents is an
  instance of the conclusion computed (fails for equality factoring).
-/

namespace Verif.Props
open Verif Term Interp SemProof InferProof

universe u

theorem size_subst_lt {f : Nat} {ts : List Term} {X : Nat} {σ : Nat → Term} (h : X ∈ (app f ts).vars) :
    (σ X).size < ((app f ts).subst σ).size := by
  simp only [vars, mem_varsL] at h
  obtain ⟨t, ht, hX⟩ := h
  have h1 := MguProof.size_subst_le_of_mem hX σ
  have h2 : (t.subst σ).size < (app f (ts.map (subst σ))).size := size_arg_lt (List.mem_map_of_mem ht)
  rw [subst_app]; omega

theorem removeDup_length (seen C : List Lit) : (removeDupAux seen C).length ≤ C.length := by
  induction C generalizing seen with
  | nil => simp [removeDupAux]
  | cons L C ih =>
    rw [removeDupAux]
    split
    · exact (ih _).trans (by simp)
    · simpa using ih _

/-! ## The bank only grows -/

theorem normTerms_prefix {sg : Sig} {bind : Nat → Option Term} {σ : Nat → Term} (hσ : FullInst bind σ) {n : Nat}
    {ts : List Term} {s s' : VarBank × Rn} (hs : s.1.Inv) (h : normTerms sg bind n ts s = some s') (t : Nat) :
    s.1.vstk t <+: s'.1.vstk t := by
  rw [NormProof.normTerms_eq hσ h]; exact NormProof.fold_prefix _ hs t

theorem agrees_of_prefix {sg : Sig} {b b' : VarBank} (h : ∀ t, b.vstk t <+: b'.vstk t) (hag : BankAgrees sg b') :
    BankAgrees sg b := fun ty c hc => hag ty c ((h ty).subset hc)

theorem computeEqRes_bank {sg : Sig} {pp : Term → Bool} {n : Nat} {b b' : VarBank} {C D : List Lit} {i : Nat}
    (hb : b.Inv) (h : computeEqRes sg pp n b C i = some (some (b', D))) :
    b'.Inv ∧ (∀ t, b.vstk t <+: b'.vstk t) ∧ D.length < C.length := by
  unfold computeEqRes at h
  cases hi : C[i]? with
  | none => simp [hi] at h
  | some L =>
    simp only [hi] at h
    cases h1 : unify sg pp n L.l L.r .empty with
    | none => simp [h1] at h
    | some r =>
      obtain ⟨ok, st⟩ := r
      cases ok with
      | false => simp [h1] at h
      | true =>
        simp only [h1, Option.map_eq_some_iff, Option.some.injEq, exists_eq_right] at h
        obtain ⟨_, _, σ, hf, _⟩ := mgu_success sg n L.l L.r _ _ .empty st good_empty h1
        unfold buildResolvent at h
        cases h2 : normLits sg st.bind n (C.eraseIdx i) (b.reset, []) with
        | none => simp [h2] at h
        | some s =>
          simp only [h2] at h
          cases h3 : copyLits st.bind s.2.get n (C.eraseIdx i) with
          | none => simp [h3] at h
          | some E =>
            simp only [h3, Option.some.injEq, Prod.mk.injEq] at h
            obtain ⟨rfl, rfl⟩ := h
            have hI := norm_inv hf (NormProof.rnInv_nil sg (VarBank.inv_reset hb)) h2
            refine ⟨hI.bank, fun t => ?_, ?_⟩
            · exact normTerms_prefix hf (VarBank.inv_reset hb) h2 t
            · have hE := LitProof.copyLits_eq hf h3
              have hl : (removeDup (removeResolved sg E)).length ≤ E.length :=
                (removeDup_length _ _).trans (List.length_filter_le _ _)
              have hlt : i < C.length := (List.getElem?_eq_some_iff.1 hi).1
              have : E.length = C.length - 1 := by
                rw [hE, List.length_map, List.length_eraseIdx_of_lt hlt]
              omega

/-! ## C17: destructive equality resolution -/

/-- The unifier of a variable and a term is harmless: it does not change a valuation under which the two are equal. -/
theorem var_unifier_eval {sg : Sig} {pp : Term → Bool} {n : Nat} {L : Lit} {st : SubstSt} (hL : sg.WTLit L)
    (hvar : L.l.isVar = true ∨ L.r.isVar = true) (h : unify sg pp n L.l L.r .empty = some (true, st))
    (I : Interp.{u} sg) (v : Nat → I.D) (he : I.eval v L.l = I.eval v L.r) :
    ∀ σ, FullInst st.bind σ → ∀ x, I.eval v (σ x) = v x := by
  obtain ⟨hg, _, σ', hf', hu, hmg⟩ := mgu_success sg n L.l L.r _ _ .empty st good_empty h
  intro σ hf x
  obtain rfl := fullInst_unique hg hf hf'
  -- a unifier of the form X ↦ t
  obtain ⟨θ, hθ, hev⟩ : ∃ θ, IsUnifier sg SubstSt.empty.bind L.l L.r θ ∧ ∀ x, I.eval v (θ x) = v x := by
    have key : ∀ (X : Nat) (t : Term), sg.ty t = sg.vty X → (Term.var X).subst σ = t.subst σ → v X = I.eval v t →
        ∃ θ : Nat → Term, (∀ x, sg.ty (θ x) = sg.vty x) ∧ θ X = t.subst θ ∧ ∀ x, I.eval v (θ x) = v x := by
      intro X t hty hun hval
      by_cases hX : t = .var X
      · exact ⟨Term.var, fun x => rfl, by rw [hX]; rfl, fun x => rfl⟩
      · have hnv : X ∉ t.vars := by
          intro hmem
          cases t with
          | var y => simp [vars] at hmem; exact hX (by rw [hmem])
          | app f ts =>
            have hlt : (σ X).size < ((app f ts).subst σ).size := size_subst_lt hmem
            rw [subst_var] at hun
            rw [hun] at hlt; omega
        refine ⟨fun x => if x = X then t else .var x, fun x => ?_, ?_, fun x => ?_⟩
        · by_cases hx : x = X
          · simp [hx, hty]
          · simp [hx, Sig.ty]
        · have : t.subst (fun x => if x = X then t else .var x) = t := by
            refine (subst_congr fun y hy => ?_).trans (subst_id t)
            have : y ≠ X := fun hyx => hnv (hyx ▸ hy)
            simp [this]
          simp [this]
        · by_cases hx : x = X
          · simp [hx, hval]
          · simp [hx, eval]
    rcases hvar with hv | hv
    · cases hl : L.l with
      | app f ts => simp [hl, isVar] at hv
      | var X =>
        have hun := hu.unifies
        rw [hl] at hun he
        obtain ⟨θ, h1, h2, h3⟩ := key X L.r (by rw [← hL.2.2, hl]; rfl) hun he
        exact ⟨θ, ⟨h1, fun x u h => by simp [SubstSt.empty] at h, by simpa using h2⟩, h3⟩
    · cases hl : L.r with
      | app f ts => simp [hl, isVar] at hv
      | var X =>
        have hun := hu.unifies
        rw [hl] at hun he
        obtain ⟨θ, h1, h2, h3⟩ := key X L.l (by rw [hL.2.2, hl]; rfl) hun.symm he.symm
        exact ⟨θ, ⟨h1, fun x u h => by simp [SubstSt.empty] at h, by simpa using h2.symm⟩, h3⟩
  have h1 : I.eval v ((σ x).subst θ) = v x := by rw [hmg θ hθ x, hev]
  rw [eval_subst] at h1
  rw [← h1]
  refine eval_congr I fun y _ => (hev y).symm

/-- One step of destructive equality resolution gives back the parent. -/
theorem eqRes_var_reverse (sg : Sig) (hsg : SigOK sg) (pp : Term → Bool) (n : Nat) (b b' : VarBank) (C D : List Lit)
    (i : Nat) (L : Lit) (hb : b.Inv) (hC : sg.WTClause C) (hi : C[i]? = some L) (hneg : L.pos = false)
    (hvar : L.l.isVar = true ∨ L.r.isVar = true)
    (h : computeEqRes sg pp n b C i = some (some (b', D))) (hag : BankAgrees sg b') :
    Entails.{u} sg [D] C := by
  have hL := hC L (List.mem_of_getElem? hi)
  simp only [computeEqRes, hi] at h
  cases h1 : unify sg pp n L.l L.r .empty with
  | none => simp [h1] at h
  | some r =>
    obtain ⟨ok, st⟩ := r
    cases ok with
    | false => simp [h1] at h
    | true =>
      simp only [h1, Option.map_eq_some_iff, Option.some.injEq, exists_eq_right] at h
      obtain ⟨σ, hu, heq, _⟩ := unify_spec good_empty wt_empty hL.1 hL.2.1 h1
      unfold buildResolvent at h
      cases h2 : normLits sg st.bind n (C.eraseIdx i) (b.reset, []) with
      | none => simp [h2] at h
      | some s =>
        simp only [h2] at h
        cases h3 : copyLits st.bind s.2.get n (C.eraseIdx i) with
        | none => simp [h3] at h
        | some E =>
          simp only [h3, Option.some.injEq, Prod.mk.injEq] at h
          obtain ⟨rfl, rfl⟩ := h
          have hI := norm_inv hu.full (NormProof.rnInv_nil sg (VarBank.inv_reset hb)) h2
          have hτ := wt_full hu.wt hI hag
          intro I hm v hv
          by_cases he : I.eval v L.l = I.eval v L.r
          · have hev := var_unifier_eval hL hvar h1 I v he σ hu.full
            -- a valuation of the renamed variables
            choose d hd using fun c => I.inhab (sg.vty c)
            obtain ⟨w, hw, hw2⟩ := undo_rn hI v d
            have hws : I.Sorted w := by
              intro c
              rcases hw2 c with h | ⟨y, hy, h⟩
              · rw [h]; exact hd c
              · rw [h]
                obtain ⟨k, _, hk⟩ := hI.ent _ (NormProof.lookup_some_mem hy)
                rw [hag _ _ (List.mem_of_getElem? hk)]; exact hv y
            have ht := hm _ (List.mem_singleton.2 rfl) w hws
            rw [finish_true, LitProof.copyLits_eq hu.full h3, copy_true hsg hτ (wt_eraseIdx hC i) I hws] at ht
            refine (clauseTrue_erase I v hi).2 (Or.inr ?_)
            obtain ⟨K, hK, ht⟩ := ht
            refine ⟨K, hK, ?_⟩
            have hcov : ∀ t ∈ K.terms, I.eval (fun x => I.eval w (InstProof.full σ s.2.get x)) t = I.eval v t := by
              intro t ht
              rw [← eval_subst, InstProof.subst_full, eval_subst]
              have : I.eval v t = I.eval v (t.subst σ) := by
                rw [eval_subst]; exact eval_congr I fun x _ => (hev x).symm
              rw [this]
              refine eval_congr I fun y hy => ?_
              simp only [varOut, eval]
              refine hw y ?_
              rw [NormProof.normTerms_eq hu.full h2, NormProof.fold_keys]
              right
              simp only [List.mem_flatMap]
              exact ⟨t, ⟨K, hK, ht⟩, hy⟩
            simp only [LitTrue] at ht ⊢
            rw [hcov K.l (by simp [Lit.terms]), hcov K.r (by simp [Lit.terms])] at ht
            exact ht
          · exact ⟨L, List.mem_of_getElem? hi, by simp [LitTrue, hneg, he]⟩

theorem erStep_spec {sg : Sig} {pp : Term → Bool} {n : Nat} {strong : Bool} {b b' : VarBank} {C D : List Lit}
    {is : List Nat} (h : erStep sg pp n strong b C is = some (some (b', D))) :
    ∃ i L, C[i]? = some L ∧ L.pos = false ∧ (L.l.isVar = true ∨ L.r.isVar = true) ∧
      computeEqRes sg pp n b C i = some (some (b', D)) := by
  induction is with
  | nil => simp [erStep] at h
  | cons i is ih =>
    simp only [erStep] at h
    split at h
    · rename_i hc
      cases hi : C[i]? with
      | none => simp [hi] at hc
      | some L =>
        simp only [hi, Option.map_some, Option.getD_some, erCandidate, Bool.and_eq_true, Bool.not_eq_true',
          Bool.or_eq_true] at hc
        cases hr : computeEqRes sg pp n b C i with
        | none => simp [hr] at h
        | some q =>
          cases q with
          | none => simp only [hr] at h; exact ih h
          | some q =>
            simp only [hr] at h
            simp only [Option.some.injEq] at h
            subst h
            exact ⟨i, L, hi, hc.1, by tauto, hr⟩
    · exact ih h

theorem erNormalize_bank (sg : Sig) (pp : Term → Bool) (strong : Bool) : ∀ (n : Nat) (b b' : VarBank) (C D : List Lit)
    (k : Nat), b.Inv → erNormalizeVar sg pp strong n b C = some (b', D, k) → ∀ t, b.vstk t <+: b'.vstk t := by
  intro n
  induction n with
  | zero => intro b b' C D k _ h; simp [erNormalizeVar] at h
  | succ n ih =>
    intro b b' C D k hb h
    simp only [erNormalizeVar] at h
    cases hs : erStep sg pp n strong b C (List.range C.length) with
    | none => simp [hs] at h
    | some q =>
      cases q with
      | none => simp [hs] at h; obtain ⟨rfl, _, _⟩ := h; exact fun t => List.prefix_refl _
      | some q =>
        obtain ⟨b1, D1⟩ := q
        simp only [hs] at h
        obtain ⟨i, L, _, _, _, hr⟩ := erStep_spec hs
        obtain ⟨hb1, hp1, _⟩ := computeEqRes_bank hb hr
        cases hn : erNormalizeVar sg pp strong n b1 D1 with
        | none => simp [hn] at h
        | some q =>
          obtain ⟨b2, E, m⟩ := q
          simp only [hn, Option.some.injEq, Prod.mk.injEq] at h
          obtain ⟨rfl, rfl, _⟩ := h
          exact fun t => (hp1 t).trans (ih _ _ _ _ _ hb1 hn t)

/-- C17: destructive equality resolution on variable disequations yields an equivalent, well-typed clause;
every step removes at least one literal. -/
theorem erNormalize_equiv (sg : Sig) (hsg : SigOK sg) (pp : Term → Bool) (strong : Bool) :
    ∀ (n : Nat) (b b' : VarBank) (C D : List Lit) (k : Nat), b.Inv → sg.WTClause C →
    erNormalizeVar sg pp strong n b C = some (b', D, k) → BankAgrees sg b' →
    Entails.{u} sg [C] D ∧ Entails.{u} sg [D] C ∧ sg.WTClause D ∧ D.length + k ≤ C.length := by
  intro n
  induction n with
  | zero => intro b b' C D k _ _ h; simp [erNormalizeVar] at h
  | succ n ih =>
    intro b b' C D k hb hC h hag
    simp only [erNormalizeVar] at h
    cases hs : erStep sg pp n strong b C (List.range C.length) with
    | none => simp [hs] at h
    | some q =>
      cases q with
      | none =>
        simp [hs] at h; obtain ⟨rfl, rfl, rfl⟩ := h
        exact ⟨fun I hm => hm C (by simp), fun I hm => hm C (by simp), hC, by simp⟩
      | some q =>
        obtain ⟨b1, D1⟩ := q
        simp only [hs] at h
        obtain ⟨i, L, hi, hneg, hvar, hr⟩ := erStep_spec hs
        obtain ⟨hb1, hp1, hlen⟩ := computeEqRes_bank hb hr
        cases hn : erNormalizeVar sg pp strong n b1 D1 with
        | none => simp [hn] at h
        | some q =>
          obtain ⟨b2, E, m⟩ := q
          simp only [hn, Option.some.injEq, Prod.mk.injEq] at h
          obtain ⟨rfl, rfl, rfl⟩ := h
          have hag1 := agrees_of_prefix (erNormalize_bank sg pp strong n b1 b2 D1 E m hb1 hn) hag
          obtain ⟨h1, hw1⟩ := eqRes_sound.{u} sg hsg pp n b b1 C D1 i L hb hC hi hneg hr hag1
          have h2 := eqRes_var_reverse.{u} sg hsg pp n b b1 C D1 i L hb hC hi hneg hvar hr hag1
          obtain ⟨h3, h4, h5, h6⟩ := ih _ _ _ _ _ hb1 hw1 hn hag
          refine ⟨fun I hm => h3 I fun E hE => ?_, fun I hm => h2 I fun E hE => ?_, h5, by omega⟩
          · obtain rfl := List.mem_singleton.1 hE; exact h1 I hm
          · obtain rfl := List.mem_singleton.1 hE; exact h4 I hm

/-! ## C25: removing superfluous literals -/

/-- C25: removing trivially false and duplicate literals keeps the truth value under every valuation. -/
theorem cleanup_equiv (sg : Sig) (C : List Lit) (I : Interp.{u} sg) (v : Nat → I.D) :
    (I.ClauseTrue v (removeResolved sg C) ↔ I.ClauseTrue v C) ∧ (I.ClauseTrue v (removeDup C) ↔ I.ClauseTrue v C) :=
  ⟨removeResolved_true I v C, removeDup_true I v C⟩

/-- The literals removed by `removeDup` all have an equal literal that stays, and no two remaining literals are equal
(same sign, same unordered pair of sides). -/
theorem removeDup_spec (seen C : List Lit) :
    (removeDupAux seen C).Pairwise (fun L K => sameLit K L = false) ∧
    (∀ L ∈ removeDupAux seen C, ∀ K ∈ seen, sameLit L K = false) ∧
    (∀ L ∈ C, ∃ K, (K ∈ seen ∨ K ∈ removeDupAux seen C) ∧ sameLit L K = true) := by
  have hrefl : ∀ L : Lit, sameLit L L = true := by intro L; simp [sameLit]
  induction C generalizing seen with
  | nil => simp [removeDupAux]
  | cons L C ih =>
    rw [removeDupAux]
    split
    · rename_i hany
      obtain ⟨h1, h2, h3⟩ := ih seen
      refine ⟨h1, h2, fun K hK => ?_⟩
      rcases List.mem_cons.1 hK with rfl | hK
      · obtain ⟨M, hM, he⟩ := List.any_eq_true.1 hany
        exact ⟨M, Or.inl hM, he⟩
      · exact h3 K hK
    · rename_i hany
      obtain ⟨h1, h2, h3⟩ := ih (L :: seen)
      refine ⟨List.pairwise_cons.2 ⟨fun K hK => h2 K hK L (by simp), h1⟩, fun K hK M hM => ?_, fun K hK => ?_⟩
      · rcases List.mem_cons.1 hK with rfl | hK
        · cases hs : sameLit K M with
          | false => rfl
          | true => exact absurd (List.any_eq_true.2 ⟨M, hM, hs⟩) hany
        · exact h2 K hK M (by simp [hM])
      · rcases List.mem_cons.1 hK with rfl | hK
        · exact ⟨K, Or.inr (by simp), hrefl K⟩
        · obtain ⟨M, hM, he⟩ := h3 K hK
          refine ⟨M, ?_, he⟩
          rcases hM with hM | hM
          · rcases List.mem_cons.1 hM with rfl | hM
            · exact Or.inr (by simp)
            · exact Or.inl hM
          · exact Or.inr (by simp [hM])

/-- C25: what remains after `EqnListRemoveResolved` and `EqnListRemoveDuplicates`: a sublist of the
literals; no literal `s ≠ s` and no equation between different distinct constants; no two literals with the same sign and the same sides; and every literal
that was dropped was `s ≠ s`, an equation between different distinct constants, or equal to one that stays. -/
theorem cleanup_exact (sg : Sig) (C : List Lit) (hnf : ∀ L ∈ C, L.NF) :
    let D := removeDup (removeResolved sg C)
    D.Sublist C ∧
    (∀ L ∈ D, ¬ (L.pos = false ∧ L.l = L.r)) ∧
    (∀ L ∈ D, L.pos = true → ∀ f g, L.l = .app f [] → L.r = .app g [] → f ≠ g → ¬ (sg.distinct f ∧ sg.distinct g)) ∧
    (D.Pairwise fun L K => ¬ (L.pos = K.pos ∧ ((L.l = K.l ∧ L.r = K.r) ∨ (L.l = K.r ∧ L.r = K.l)))) ∧
    ∀ L ∈ C, (L.pos = false ∧ L.l = L.r) ∨
      (L.pos = true ∧ ∃ f g, L.l = .app f [] ∧ L.r = .app g [] ∧ f ≠ g ∧ sg.distinct f ∧ sg.distinct g) ∨
      ∃ K ∈ D, L.pos = K.pos ∧ ((L.l = K.l ∧ L.r = K.r) ∨ (L.l = K.r ∧ L.r = K.l)) := by
  intro D
  have hsubl : ∀ (C seen : List Lit), (removeDupAux seen C).Sublist C := by
    intro C
    induction C with
    | nil => intro seen; simp [removeDupAux]
    | cons L C ih =>
      intro seen
      rw [removeDupAux]
      split
      · exact (ih _).cons _
      · exact (ih _).cons_cons _
  have hs : D.Sublist C := (hsubl _ _).trans List.filter_sublist
  obtain ⟨h1, _, h3⟩ := removeDup_spec [] (removeResolved sg C)
  refine ⟨hs, ?_, ?_, ?_, ?_⟩
  · intro L hL hbad
    have := (List.mem_filter.1 ((hsubl _ _).subset hL)).2
    simp [eqnIsFalse, hbad.1, hbad.2] at this
  · intro L hL hp f g hf hg hne hd
    have := (List.mem_filter.1 ((hsubl _ _).subset hL)).2
    simp [eqnIsFalse, hp, termsDistinct, hf, hg, hne, hd.1, hd.2] at this
  · refine (List.Pairwise.and_mem.1 h1).imp ?_
    rintro L K ⟨hL, hK, hne⟩ ⟨hp, hbad⟩
    have nL := hnf L (hs.subset hL)
    have nK := hnf K (hs.subset hK)
    have : sameLit K L = true := by
      simp only [sameLit, decide_eq_true_eq]
      refine ⟨hp.symm, ?_, ?_⟩
      · rcases hbad with ⟨e1, e2⟩ | ⟨e1, e2⟩
        · rw [e2]
        · constructor
          · intro hk; exact nL.2.2 (e1.trans hk)
          · intro hl; exact nK.2.2 (e2.symm.trans hl)
      · rcases hbad with ⟨e1, e2⟩ | ⟨e1, e2⟩
        · exact Or.inl ⟨e1.symm, e2.symm⟩
        · exact Or.inr ⟨e2.symm, e1.symm⟩
    rw [this] at hne; cases hne
  · intro L hL
    cases hf : eqnIsFalse sg L with
    | true =>
      cases hp : L.pos with
      | false => left; simp [eqnIsFalse, hp] at hf; exact ⟨rfl, hf⟩
      | true =>
        right; left
        simp only [eqnIsFalse, hp, if_true, termsDistinct] at hf
        split at hf
        · rename_i f g e1 e2
          simp only [Bool.and_eq_true, decide_eq_true_eq] at hf
          exact ⟨rfl, f, g, e1, e2, hf.2, hf.1.1, hf.1.2⟩
        · cases hf
    | false =>
      right; right
      obtain ⟨K, hK, he⟩ := h3 L (List.mem_filter.2 ⟨hL, by simp [hf]⟩)
      simp only [List.not_mem_nil, false_or] at hK
      simp only [sameLit, decide_eq_true_eq] at he
      exact ⟨K, hK, he.1, he.2.2⟩

/-! ## C41: conclusions are most general -/

/-- The literal in the form `EqnAlloc` gives it. -/
def nrm (L : Lit) : Lit := mkEqn L.pos L.l L.r

theorem nrm_subst_mkEqn (p : Bool) (l r : Term) (ρ : Nat → Term) :
    nrm ((mkEqn p l r).subst ρ) = mkEqn p (l.subst ρ) (r.subst ρ) := by
  have h12 : tTrue ≠ tFalse := by decide
  have e1 : tTrue.subst ρ = tTrue := rfl
  have e2 : tFalse.subst ρ = tFalse := rfl
  by_cases h1 : l = tFalse <;> by_cases h2 : r = tFalse <;> by_cases h3 : l = tTrue <;>
    by_cases h4 : l.subst ρ = tFalse <;> by_cases h5 : r.subst ρ = tFalse <;> by_cases h6 : l.subst ρ = tTrue <;>
    by_cases h7 : r.subst ρ = tTrue <;>
    simp_all [nrm, mkEqn, Lit.subst]

/-- Undo renaming and unifier: every instance of the unifier is an instance of the renamed result. -/
theorem general_rename {sg : Sig} {b : VarBank} {rn : Rn} (hr : NormProof.RnInv sg b rn) {σ θ : Nat → Term}
    (hmg : ∀ x, (σ x).subst θ = θ x) :
    ∃ ρ : Nat → Term, ∀ t : Term, (∀ y ∈ (t.subst σ).vars, y ∈ rn.map Prod.fst) →
      (t.subst (InstProof.full σ rn.get)).subst ρ = t.subst θ := by
  obtain ⟨ρ, hρ, _⟩ := undo_rn hr θ Term.var
  refine ⟨ρ, fun t ht => ?_⟩
  rw [InstProof.subst_full, subst_comp]
  have : (t.subst σ).subst θ = t.subst θ := by rw [subst_comp]; exact subst_congr fun x _ => hmg x
  rw [← this]
  exact subst_congr fun y hy => by simp only [varOut, subst_var]; exact hρ y (ht y hy)

theorem norm_keys {sg : Sig} {bind : Nat → Option Term} {σ : Nat → Term} (hσ : FullInst bind σ) {n : Nat}
    {ts : List Term} {s s' : VarBank × Rn} (h : normTerms sg bind n ts s = some s') {y : Nat} :
    y ∈ s'.2.map Prod.fst ↔ y ∈ s.2.map Prod.fst ∨ ∃ t ∈ ts, y ∈ (t.subst σ).vars := by
  rw [NormProof.normTerms_eq hσ h, NormProof.fold_keys]; simp

theorem unify_total {sg : Sig} {pp : Term → Bool} {s t : Term} {θ : Nat → Term} {st : SubstSt}
    (hg : GoodBindings sg st.bind) (hθ : IsUnifier sg st.bind s t θ)
    (hpp : ¬ ((pp s = true ∧ t.isVar = true) ∨ (pp t = true ∧ s.isVar = true))) :
    ∃ N st', (∀ n ≥ N, unify sg pp n s t st = some (true, st')) ∧ GoodBindings sg st'.bind ∧
      ∃ σ, FullInst st'.bind σ ∧ IsUnifier sg st.bind s t σ ∧ ∀ θ, IsUnifier sg st.bind s t θ → ∀ x, (σ x).subst θ = θ x := by
  obtain ⟨N, ⟨ok, st'⟩, hN⟩ := mgu_terminates sg s t (pp s) (pp t) st hg
  cases ok with
  | false =>
    exfalso
    rcases (mgu_failure sg N s t _ _ st st' hg (hN N (le_refl _))).2 with h | h
    · exact hpp h
    · exact h ⟨θ, hθ⟩
  | true =>
    obtain ⟨h1, _, σ, h2, h3, h4⟩ := mgu_success sg N s t _ _ st st' hg (hN N (le_refl _))
    exact ⟨N, st', hN, h1, σ, h2, h3, h4⟩

theorem buildResolvent_general {sg : Sig} {st : SubstSt} {σ θ : Nat → Term} (b : VarBank) (hb : b.Inv)
    (hac : MguProof.Acyclic st.bind) (hσ : FullInst st.bind σ) (hmg : ∀ x, (σ x).subst θ = θ x) (C : List Lit) (i : Nat) :
    ∃ N b' D, (∀ n ≥ N, buildResolvent sg n b st C i = some (b', D)) ∧
      ∃ ρ : Nat → Term, ∀ K ∈ D, ∃ L ∈ C.eraseIdx i, nrm (K.subst ρ) = nrm (L.subst θ) := by
  obtain ⟨N1, s, h1⟩ := NormProof.normTerms_total sg hac hσ ((C.eraseIdx i).flatMap Lit.terms) (b, [])
  obtain ⟨N2, E, h2⟩ := LitProof.copyLits_total s.2.get hac hσ (C.eraseIdx i)
  refine ⟨N1 + N2, s.1, removeDup (removeResolved sg E), fun n hn => ?_, ?_⟩
  · simp only [buildResolvent, normLits, h1 n (by omega), h2 n (by omega)]
  · have hI := norm_inv hσ (NormProof.rnInv_nil sg hb) (h1 _ (le_refl _))
    obtain ⟨ρ, hρ⟩ := general_rename hI hmg
    refine ⟨ρ, fun K hK => ?_⟩
    have hKE := finish_mem hK
    rw [LitProof.copyLits_eq hσ (h2 _ (le_refl _))] at hKE
    obtain ⟨L, hL, rfl⟩ := List.mem_map.1 hKE
    refine ⟨L, hL, ?_⟩
    have hcov : ∀ t ∈ L.terms, ∀ y ∈ (t.subst σ).vars, y ∈ s.2.map Prod.fst := by
      intro t ht y hy
      rw [norm_keys hσ (h1 _ (le_refl _))]
      exact Or.inr ⟨t, List.mem_flatMap.2 ⟨L, hL, ht⟩, hy⟩
    rw [nrm_subst_mkEqn, hρ _ (hcov _ (by simp [Lit.terms])), hρ _ (hcov _ (by simp [Lit.terms]))]
    rfl

/-- C41: if a (type-respecting) substitution `θ` unifies the sides of a literal, equality resolution succeeds and
`(C \ L)θ` contains an instance of the conclusion. -/
theorem eqRes_general (sg : Sig) (pp : Term → Bool) (b : VarBank) (C : List Lit) (i : Nat) (L : Lit) (hb : b.Inv)
    (hi : C[i]? = some L) (θ : Nat → Term) (hty : ∀ x, sg.ty (θ x) = sg.vty x) (hun : L.l.subst θ = L.r.subst θ)
    (hpp : ¬ ((pp L.l = true ∧ L.r.isVar = true) ∨ (pp L.r = true ∧ L.l.isVar = true))) :
    ∃ N b' D, (∀ n ≥ N, computeEqRes sg pp n b C i = some (some (b', D))) ∧
      ∃ ρ : Nat → Term, ∀ K ∈ D, ∃ M ∈ C.eraseIdx i, nrm (K.subst ρ) = nrm (M.subst θ) := by
  have hθ : IsUnifier sg SubstSt.empty.bind L.l L.r θ := ⟨hty, fun x u h => by simp [SubstSt.empty] at h, hun⟩
  obtain ⟨N1, st, h1, hg, σ, hf, _, hmg⟩ := unify_total good_empty hθ hpp
  obtain ⟨N2, b', D, h2, hD⟩ := buildResolvent_general (sg := sg) b.reset (VarBank.inv_reset hb) hg.acyclic hf (hmg θ hθ) C i
  refine ⟨N1 + N2, b', D, fun n hn => ?_, hD⟩
  simp only [computeEqRes, hi, h1 n (by omega), h2 n (by omega), Option.map_some]

/-- C41: likewise for ordered factoring, provided the ordering conditions hold. -/
theorem orderedFactor_general (sg : Sig) (pp : Term → Bool) (guard : SubstSt → Bool) (b : VarBank) (C : List Lit)
    (i j : Nat) (side2 : Bool) (L K : Lit) (hb : b.Inv) (hi : C[i]? = some L) (hj : C[j]? = some K)
    (θ : Nat → Term) (hty : ∀ x, sg.ty (θ x) = sg.vty x) (hun1 : L.l.subst θ = (K.side side2).subst θ)
    (hun2 : L.r.subst θ = (K.side !side2).subst θ) (hguard : ∀ st, guard st = true)
    (hpp1 : ¬ ((pp L.l = true ∧ (K.side side2).isVar = true) ∨ (pp (K.side side2) = true ∧ L.l.isVar = true)))
    (hpp2 : ¬ ((pp L.r = true ∧ (K.side !side2).isVar = true) ∨ (pp (K.side !side2) = true ∧ L.r.isVar = true))) :
    ∃ N b' D, (∀ n ≥ N, orderedFactor sg pp guard n b C i j side2 = some (some (b', D))) ∧
      ∃ ρ : Nat → Term, ∀ M ∈ D, ∃ M' ∈ C.eraseIdx j, nrm (M.subst ρ) = nrm (M'.subst θ) := by
  have hθ : IsUnifier sg SubstSt.empty.bind L.l (K.side side2) θ :=
    ⟨hty, fun x u h => by simp [SubstSt.empty] at h, hun1⟩
  obtain ⟨N1, st, h1, hg, σ, hf, _, hmg⟩ := unify_total good_empty hθ hpp1
  have hθ2 : IsUnifier sg st.bind L.r (K.side !side2) θ := by
    refine ⟨hty, fun x u h => ?_, hun2⟩
    have := hmg θ hθ x
    rw [hf.bound x u h, subst_comp] at this
    rw [← this]
    exact subst_congr fun y _ => hmg θ hθ y
  obtain ⟨N2, st2, h2, hg2, σ2, hf2, _, hmg2⟩ := unify_total hg hθ2 hpp2
  obtain ⟨N3, b', D, h3, hD⟩ := buildResolvent_general (sg := sg) b.reset (VarBank.inv_reset hb) hg2.acyclic hf2 (hmg2 θ hθ2) C j
  refine ⟨N1 + N2 + N3, b', D, fun n hn => ?_, hD⟩
  simp only [orderedFactor, hi, hj, eqnUnifyDirected, h1 n (by omega), h2 n (by omega), h3 n (by omega), hguard,
    if_true, Option.map_some]

/-- C41: plain paramodulation.  If `θ` unifies the overlapped terms, either the instance is a tautology (some literal
of the conclusion built is trivially true), or a clause is derived that has an instance contained in
`T[l ← r]θ ∨ (F \ l=r)θ`. -/
theorem plainParamod_general (sg : Sig) (pp : Term → Bool) (guard : SubstSt → Bool) (b : VarBank) (o : Overlap)
    (LF LT : Lit) (sub : Term) (hb : b.Inv) (hi : o.F[o.i]? = some LF) (hj : o.T[o.j]? = some LT)
    (hp : IsPos (LT.side o.ts) o.pos) (hsub : posSubterm (LT.side o.ts) o.pos = some sub)
    (θ : Nat → Term) (hty : ∀ x, sg.ty (θ x) = sg.vty x) (hun : (LF.side o.fs).subst θ = sub.subst θ)
    (hguard : ∀ st, guard st = true)
    (hpp : ¬ ((pp (LF.side o.fs) = true ∧ sub.isVar = true) ∨ (pp sub = true ∧ (LF.side o.fs).isVar = true))) :
    let new := mkEqn LT.pos ((posReplace o.pos (LF.side !o.fs)).subst θ) ((LT.side !o.ts).subst θ)
    ∃ N res, (∀ n ≥ N, paramod sg pp guard n b false .plain o = some res) ∧
      match res with
      | none =>
        (LT.pos = true ∧ (posReplace o.pos (LF.side !o.fs)).subst θ = (LT.side !o.ts).subst θ) ∨
        ∃ M ∈ o.T.eraseIdx o.j ++ o.F.eraseIdx o.i, ∃ M' ρ, eqnIsTrue sg M' = true ∧ nrm (M'.subst ρ) = nrm (M.subst θ)
      | some (_, D) =>
        ∃ ρ : Nat → Term, ∀ K ∈ D, nrm (K.subst ρ) = new ∨
          ∃ M ∈ o.T.eraseIdx o.j ++ o.F.eraseIdx o.i, nrm (K.subst ρ) = nrm (M.subst θ) := by
  intro new
  have hθ : IsUnifier sg SubstSt.empty.bind (LF.side o.fs) sub θ :=
    ⟨hty, fun x u h => by simp [SubstSt.empty] at h, hun⟩
  obtain ⟨N1, st, h1, hg, σ, hf, _, hmg⟩ := unify_total good_empty hθ hpp
  have hmg := hmg θ hθ
  obtain ⟨N2, s1, h2⟩ := NormProof.normTerms_total sg hg.acyclic hf (o.T.flatMap Lit.terms) (b.reset, [])
  obtain ⟨N3, s, h3⟩ := NormProof.normTerms_total sg hg.acyclic hf (o.F.flatMap Lit.terms) s1
  obtain ⟨N4, l, h4⟩ := InstProof.instOpt_total s.2.get hg.acyclic hf _ (posReplace o.pos (LF.side !o.fs)) (le_refl _)
  obtain ⟨N5, r, h5⟩ := InstProof.instOpt_total s.2.get hg.acyclic hf _ (LT.side !o.ts) (le_refl _)
  obtain ⟨N6, into, h6⟩ := LitProof.copyLits_total s.2.get hg.acyclic hf (o.T.eraseIdx o.j)
  obtain ⟨N7, frm, h7⟩ := LitProof.copyLits_total s.2.get hg.acyclic hf (o.F.eraseIdx o.i)
  have hI := norm_inv hf (norm_inv hf (NormProof.rnInv_nil sg (VarBank.inv_reset hb)) (h2 _ (le_refl _))) (h3 _ (le_refl _))
  obtain ⟨ρ, hρ⟩ := general_rename hI hmg
  have hcovT : ∀ M ∈ o.T, ∀ t ∈ M.terms, ∀ y ∈ (t.subst σ).vars, y ∈ s.2.map Prod.fst := by
    intro M hM t ht y hy
    rw [norm_keys hf (h3 _ (le_refl _)), norm_keys hf (h2 _ (le_refl _))]
    exact Or.inl (Or.inr ⟨t, List.mem_flatMap.2 ⟨M, hM, ht⟩, hy⟩)
  have hcovF : ∀ M ∈ o.F, ∀ t ∈ M.terms, ∀ y ∈ (t.subst σ).vars, y ∈ s.2.map Prod.fst := by
    intro M hM t ht y hy
    rw [norm_keys hf (h3 _ (le_refl _))]
    exact Or.inr ⟨t, List.mem_flatMap.2 ⟨M, hM, ht⟩, hy⟩
  have hmemside : ∀ (M : Lit) (c : Bool), M.side c ∈ M.terms := by intro M c; cases c <;> simp [Lit.side, Lit.terms]
  have hl : l.subst ρ = (posReplace o.pos (LF.side !o.fs)).subst θ := by
    rw [InstProof.instOpt_correct hf _ _ _ (h4 _ (le_refl _))]
    refine hρ _ fun y hy => ?_
    have hs2 := hsub
    rw [InstProof.posSubterm_eq hp] at hs2
    obtain ⟨e1, e2⟩ := InstProof.replaceAt_subst (σ := σ) (repl := LF.side !o.fs) hs2
    rw [InstProof.posReplace_eq hp, e1] at hy
    rcases vars_replaceAt e2 y hy with hy | hy
    · exact hcovT LT (List.mem_of_getElem? hj) _ (hmemside _ _) y hy
    · exact hcovF LF (List.mem_of_getElem? hi) _ (hmemside _ _) y hy
  have hr : r.subst ρ = (LT.side !o.ts).subst θ := by
    rw [InstProof.instOpt_correct hf _ _ _ (h5 _ (le_refl _))]
    exact hρ _ (hcovT LT (List.mem_of_getElem? hj) _ (hmemside _ _))
  have hcopy : ∀ K ∈ into ++ frm, ∃ M ∈ o.T.eraseIdx o.j ++ o.F.eraseIdx o.i, nrm (K.subst ρ) = nrm (M.subst θ) := by
    intro K hK
    rw [LitProof.copyLits_eq hf (h6 _ (le_refl _)), LitProof.copyLits_eq hf (h7 _ (le_refl _)), ← List.map_append] at hK
    obtain ⟨M, hM, rfl⟩ := List.mem_map.1 hK
    refine ⟨M, hM, ?_⟩
    have hcov : ∀ t ∈ M.terms, ∀ y ∈ (t.subst σ).vars, y ∈ s.2.map Prod.fst := by
      rcases List.mem_append.1 hM with hM | hM
      · exact hcovT M (List.mem_of_mem_eraseIdx hM)
      · exact hcovF M (List.mem_of_mem_eraseIdx hM)
    rw [nrm_subst_mkEqn, hρ _ (hcov _ (by simp [Lit.terms])), hρ _ (hcov _ (by simp [Lit.terms]))]
    rfl
  have hrun : ∀ n ≥ N1 + N2 + N3 + N4 + N5 + N6 + N7, paramod sg pp guard n b false .plain o =
      (if LT.pos = true ∧ l = r then some none else if findTrue sg into then some none
        else if findTrue sg frm then some none else some (finishParamod sg s.1 (mkEqn LT.pos l r :: (into ++ frm)))) := by
    intro n hn
    simp only [paramod, hi, hj, hsub, h1 n (by omega), hguard, if_true, plainParamodConstruct, normLits, h2 n (by omega),
      h3 n (by omega), h4 n (by omega), h5 n (by omega), h6 n (by omega), h7 n (by omega)]
  refine ⟨_, if LT.pos = true ∧ l = r then none else if findTrue sg into then none
        else if findTrue sg frm then none else finishParamod sg s.1 (mkEqn LT.pos l r :: (into ++ frm)),
        fun n hn => (hrun n hn).trans ?_, ?_⟩
  · split
    · rfl
    · split
      · rfl
      · split <;> rfl
  · by_cases c1 : LT.pos = true ∧ l = r
    · simp only [if_pos c1]
      left
      exact ⟨c1.1, by rw [← hl, ← hr, c1.2]⟩
    · rw [if_neg c1]
      by_cases c2 : findTrue sg into = true
      · simp only [if_pos c2]
        right
        obtain ⟨K, hK, ht⟩ := List.any_eq_true.1 c2
        obtain ⟨M, hM, he⟩ := hcopy K (by simp [hK])
        exact ⟨M, hM, K, ρ, ht, he⟩
      · rw [if_neg c2]
        by_cases c3 : findTrue sg frm = true
        · simp only [if_pos c3]
          right
          obtain ⟨K, hK, ht⟩ := List.any_eq_true.1 c3
          obtain ⟨M, hM, he⟩ := hcopy K (by simp [hK])
          exact ⟨M, hM, K, ρ, ht, he⟩
        · rw [if_neg c3]
          simp only [finishParamod]
          refine ⟨ρ, fun K hK => ?_⟩
          rcases List.mem_cons.1 (finish_mem hK) with rfl | hK
          · left; rw [nrm_subst_mkEqn, hl, hr]
          · exact Or.inr (hcopy K hK)

private def sgE : Sig := ⟨fun _ => 0, fun _ => 0, fun f => if f = 11 ∨ f = 12 then [0] else if f = 13 then [0, 0] else [], fun _ => false⟩
/-- a(X1) = g(X2) | a(X3) = b(X3,X4). -/
private def CE : List Lit :=
  [⟨true, .app 11 [.var 2], .app 12 [.var 4]⟩, ⟨true, .app 11 [.var 6], .app 13 [.var 6, .var 8]⟩]

/-- C41 fails for equality factoring (CLAUSES/ccl_factor.c:299-307): the variables of the second literal are not
normalised although the literal is copied, so a variable occurring only there can be captured.  From
a(X1)=g(X2) | a(X3)=b(X3,X4) the code derives b(X1,X2)≠g(X2) | a(X1)=g(X2) instead of
b(X1,X3)≠g(X2) | a(X1)=g(X2). -/
theorem equalityFactor_not_general :
    ∃ (sg : Sig) (b : VarBank) (C : List Lit) (L K : Lit) (θ : Nat → Term) (D : List Lit),
      b.Inv ∧ sg.WTClause C ∧ C[1]? = some L ∧ C[0]? = some K ∧ (∀ x, sg.ty (θ x) = sg.vty x) ∧
      L.l.subst θ = K.l.subst θ ∧
      (equalityFactor sg (fun _ => false) (fun _ => true) 9 b C 1 0 true true).map (Option.map Prod.snd) = some (some D) ∧
      ¬ ∃ ρ : Nat → Term, ∀ M ∈ D, nrm (M.subst ρ) = mkEqn false (L.r.subst θ) (K.r.subst θ) ∨
          ∃ M' ∈ C.eraseIdx 1, nrm (M.subst ρ) = nrm (M'.subst θ) := by
  refine ⟨sgE, VarBank.init, CE, CE[1], CE[0], fun x => if x = 8 then .app 21 [] else .app 22 [],
    [⟨false, .app 13 [.var 2, .var 4], .app 12 [.var 4]⟩, ⟨true, .app 11 [.var 2], .app 12 [.var 4]⟩],
    VarBank.inv_init, ?_, rfl, rfl, ?_, by decide, by decide, ?_⟩
  · intro L hL
    simp only [CE, List.mem_cons, List.not_mem_nil, or_false] at hL
    rcases hL with rfl | rfl <;> simp [Sig.WTLit, sgE, Sig.ty, Sig.WT, Sig.WTL]
  · intro x; dsimp only; split <;> rfl
  · rintro ⟨ρ, h⟩
    have e1 : ∀ l r, mkEqn false (app 13 l) (app 12 r) = ⟨false, app 13 l, app 12 r⟩ := by
      intro l r; simp [mkEqn, tTrue, tFalse]
    have e2 : ∀ l r, mkEqn true (app 11 l) (app 12 r) = ⟨true, app 11 l, app 12 r⟩ := by
      intro l r; simp [mkEqn, tTrue, tFalse]
    rcases h _ List.mem_cons_self with h | ⟨M', hM', h⟩
    · simp only [nrm, Lit.subst, CE, List.getElem_cons_zero, List.getElem_cons_succ, subst_app, List.map_cons,
        List.map_nil, e1, Lit.mk.injEq, app.injEq, List.cons.injEq, and_true, true_and, subst_var] at h
      have := h.1.2.symm.trans h.2
      simp at this
    · have hM' : M' = CE[0] := by simpa [CE] using hM'
      subst hM'
      simp only [nrm, Lit.subst, CE, List.getElem_cons_zero, subst_app, List.map_cons, List.map_nil, e1, e2,
        Lit.mk.injEq] at h
      exact absurd h.1 (by decide)

/-! ## Termination -/

theorem computeEqRes_total (sg : Sig) (pp : Term → Bool) (b : VarBank) (C : List Lit) (i : Nat) :
    ∃ N r, ∀ n ≥ N, computeEqRes sg pp n b C i = some r := by
  cases hi : C[i]? with
  | none => exact ⟨0, none, fun n _ => by simp [computeEqRes, hi]⟩
  | some L =>
    obtain ⟨N, ⟨ok, st⟩, hN⟩ := mgu_terminates sg L.l L.r (pp L.l) (pp L.r) .empty good_empty
    cases ok with
    | false => exact ⟨N, none, fun n hn => by simp [computeEqRes, hi, unify, hN n hn]⟩
    | true =>
      obtain ⟨hg, _, σ, hf, _⟩ := mgu_success sg N L.l L.r _ _ .empty st good_empty (hN N (le_refl _))
      obtain ⟨N1, s, h1⟩ := NormProof.normTerms_total sg hg.acyclic hf ((C.eraseIdx i).flatMap Lit.terms) (b.reset, [])
      obtain ⟨N2, E, h2⟩ := LitProof.copyLits_total s.2.get hg.acyclic hf (C.eraseIdx i)
      exact ⟨N + N1 + N2, some (s.1, removeDup (removeResolved sg E)), fun n hn => by
        simp only [computeEqRes, hi, unify, hN n (by omega), buildResolvent, normLits, h1 n (by omega), h2 n (by omega),
          Option.map_some]⟩

theorem erStep_total (sg : Sig) (pp : Term → Bool) (strong : Bool) (b : VarBank) (C : List Lit) (is : List Nat) :
    ∃ N r, ∀ n ≥ N, erStep sg pp n strong b C is = some r := by
  induction is with
  | nil => exact ⟨0, none, fun n _ => rfl⟩
  | cons i is ih =>
    obtain ⟨N, r, h⟩ := ih
    obtain ⟨N1, r1, h1⟩ := computeEqRes_total sg pp b C i
    by_cases hc : (C[i]?.map (erCandidate strong)).getD false = true
    · cases r1 with
      | none => exact ⟨N + N1, r, fun n hn => by simp only [erStep, hc, if_true, h1 n (by omega), h n (by omega)]⟩
      | some q => exact ⟨N1, some q, fun n hn => by simp only [erStep, hc, if_true, h1 n (by omega)]⟩
    · exact ⟨N, r, fun n hn => by simp only [erStep, hc, h n hn]; rfl⟩

/-- C17: destructive equality resolution terminates, and no resolvable candidate is left at the end. -/
theorem erNormalize_terminates (sg : Sig) (pp : Term → Bool) (strong : Bool) (b : VarBank) (hb : b.Inv) (C : List Lit) :
    ∃ N b' D k, (∀ n ≥ N, erNormalizeVar sg pp strong n b C = some (b', D, k)) ∧
      ∀ n ≥ N, erStep sg pp n strong b' D (List.range D.length) = some none := by
  induction hk : C.length using Nat.strong_induction_on generalizing b C with
  | _ len ih =>
    obtain ⟨N, r, h⟩ := erStep_total sg pp strong b C (List.range C.length)
    cases r with
    | none =>
      refine ⟨N + 1, b, C, 0, fun n hn => ?_, fun n hn => h n (by omega)⟩
      obtain ⟨m, rfl⟩ : ∃ m, n = m + 1 := ⟨n - 1, by omega⟩
      simp only [erNormalizeVar, h m (by omega)]
    | some q =>
      obtain ⟨b1, D1⟩ := q
      obtain ⟨i, L, _, _, _, hr⟩ := erStep_spec (h N (le_refl _))
      obtain ⟨hb1, _, hlen⟩ := computeEqRes_bank hb hr
      obtain ⟨N2, b', D, k, h2, h3⟩ := ih D1.length (by omega) b1 hb1 D1 rfl
      refine ⟨N + N2 + 1, b', D, k + 1, fun n hn => ?_, fun n hn => h3 n (by omega)⟩
      obtain ⟨m, rfl⟩ : ∃ m, n = m + 1 := ⟨n - 1, by omega⟩
      simp only [erNormalizeVar, h m (by omega), h2 m (by omega)]

/-! ## Non-triviality -/

private def sgX : Sig :=
  { vty := fun _ => 0, fty := fun f => if f = 1 ∨ f = 2 ∨ f = 11 then 1 else 0
    fargs := fun f => if f = 11 ∨ f = 12 then [0] else [] }
/-- X2 ≠ f(X4) | p(X2) | p(X4): equality resolution gives p(f(X2)) | p(X2). -/
private def CX : List Lit :=
  [⟨false, .var 2, .app 12 [.var 4]⟩, ⟨true, .app 11 [.var 2], tTrue⟩, ⟨true, .app 11 [.var 4], tTrue⟩]

example : SigOK sgX := ⟨rfl, rfl, rfl⟩
example : sgX.WTClause CX := by
  intro L hL
  simp only [CX, List.mem_cons, List.not_mem_nil, or_false] at hL
  rcases hL with rfl | rfl | rfl <;> simp [Sig.WTLit, sgX, Sig.ty, Sig.WT, Sig.WTL, tTrue]
example : (computeEqRes sgX (fun _ => false) 9 VarBank.init CX 0).map (Option.map Prod.snd)
    = some (some [⟨true, .app 11 [.app 12 [.var 2]], tTrue⟩, ⟨true, .app 11 [.var 2], tTrue⟩]) := by decide
example : (erNormalizeVar sgX (fun _ => false) true 9 VarBank.init CX).map (·.2)
    = some ([⟨true, .app 11 [.app 12 [.var 2]], tTrue⟩, ⟨true, .app 11 [.var 2], tTrue⟩], 1) := by decide
example : (erNormalizeVar sgX (fun _ => false) false 9 VarBank.init CX).map (·.2) = some (CX, 0) := by decide
/- Factoring p(X2) with p(X4). -/
example : (orderedFactor sgX (fun _ => false) (fun _ => true) 9 VarBank.init CX 1 2 true).map (Option.map Prod.snd)
    = some (some [⟨false, .var 2, .app 12 [.var 2]⟩, ⟨true, .app 11 [.var 2], tTrue⟩]) := by decide
/- The overlap of `superSim_direct_unsound` through the indexed path gives the right conclusion p(h(X)) | q(g(X)). -/
example : ∀ ty : PMType, (paramod sgU (fun _ => false) (fun _ => true) 9 VarBank.init false ty oU).map (Option.map fun q =>
      q.2.map fun L => L.l) = some (some [.app 11 [.app 15 [.var 2]], .app 12 [.app 14 [.var 2]]]) := by
  intro ty; cases ty <;> decide
example : ∀ ty : PMType, ty ≠ .superSim → ((paramod sgU (fun _ => false) (fun _ => true) 9 VarBank.init true ty oU).map
    (Option.map fun q => q.2.length)) = some (some 2) := by
  intro ty h; cases ty <;> first | decide | exact absurd rfl h
/- Cleaning up. -/
example : removeDup (removeResolved sgX [⟨false, .var 2, .var 2⟩, ⟨true, .var 2, .var 4⟩, ⟨true, .var 4, .var 2⟩])
    = [⟨true, .var 2, .var 4⟩] := by decide

end Verif.Props
