import Verif.Clauses.InferProof

/-!
# C17, C18, C19: soundness of the generating inferences

`Entails sg Cs D` (Verif/Clauses/Sem.lean): `D` holds in every many-sorted interpretation in which all
clauses of `Cs` hold.  Common assumptions: the signature declares `$true`/`$false`
correctly (`SigOK`), the parent clauses are well-typed, the variable bank is reachable (`VarBank.Inv`) and
its variables have the types the signature knows (`BankAgrees`).
-/

namespace Verif.Props
open Verif Term Interp SemProof InferProof

universe u

/-! ## C17: equality resolution -/

/-- C17: the conclusion of equality resolution on a negative literal follows from the parent and is well-typed. -/
theorem eqRes_sound (sg : Sig) (hsg : SigOK sg) (pp : Term → Bool) (n : Nat) (b b' : VarBank) (C D : List Lit)
    (i : Nat) (L : Lit) (hb : b.Inv) (hC : sg.WTClause C) (hi : C[i]? = some L) (hneg : L.pos = false)
    (h : computeEqRes sg pp n b C i = some (some (b', D))) (hag : BankAgrees sg b') :
    Entails.{u} sg [C] D ∧ sg.WTClause D := by
  have hL := hC L (List.mem_of_getElem? hi)
  simp only [computeEqRes, hi] at h
  cases h1 : unify sg pp n L.l L.r .empty with
  | none => simp [h1] at h
  | some r =>
    obtain ⟨ok, st⟩ := r
    cases ok with
    | false => simp [h1] at h
    | true =>
      simp only [h1, Option.map_eq_some_iff, Option.some.injEq, exists_eq_right] at h
      obtain ⟨σ, hu, heq, _⟩ := unify_spec good_empty wt_empty hL.1 hL.2.1 h1
      obtain ⟨τ, hτ, ⟨ρ, hρ⟩, rfl⟩ := buildResolvent_spec (VarBank.inv_reset hb) hu h hag
      refine ⟨fun I hm v hv => ?_, finish_wt (copy_wt hsg hτ (wt_eraseIdx hC i))⟩
      rw [finish_true, copy_true hsg hτ (wt_eraseIdx hC i) I hv]
      rcases (clauseTrue_erase I _ hi).1 (hm C (by simp) _ (sorted_subst I hv hτ)) with h | h
      · exfalso
        simp only [LitTrue, hneg] at h
        apply h
        rw [← eval_subst, ← eval_subst, hρ, hρ, heq]
      · exact h

/-! ## C18: factoring -/

theorem eqnUnifyDirected_spec {sg : Sig} {pp : Term → Bool} {n : Nat} {l1 r1 l2 r2 : Term} {st : SubstSt}
    (h1 : sg.WT l1) (h2 : sg.WT r1) (h3 : sg.WT l2) (h4 : sg.WT r2)
    (h : eqnUnifyDirected sg pp n l1 r1 l2 r2 .empty = some (true, st)) :
    ∃ σ, Unifies sg st σ ∧ l1.subst σ = l2.subst σ ∧ r1.subst σ = r2.subst σ := by
  unfold eqnUnifyDirected at h
  cases hu1 : unify sg pp n l1 l2 .empty with
  | none => simp [hu1] at h
  | some q =>
    obtain ⟨ok, st1⟩ := q
    cases ok with
    | false => simp [hu1] at h
    | true =>
      simp only [hu1] at h
      cases hu2 : unify sg pp n r1 r2 st1 with
      | none => simp [hu2] at h
      | some q2 =>
        obtain ⟨ok2, st2⟩ := q2
        cases ok2 with
        | false => simp [hu2] at h
        | true =>
          simp only [hu2, Option.some.injEq, Prod.mk.injEq, true_and] at h
          subst h
          obtain ⟨σ1, hs1, he1, _⟩ := unify_spec good_empty wt_empty h1 h3 hu1
          obtain ⟨σ, hs, he, hresp⟩ := unify_spec hs1.good hs1.bwt h2 h4 hu2
          refine ⟨σ, hs, ?_, he⟩
          -- σ respects the first unifier's bindings, so it factors through σ1
          obtain ⟨_, _, σ1', hf1, hu1', hmg⟩ := mgu_success sg n l1 l2 _ _ .empty st1 good_empty hu1
          have hfac : ∀ t : Term, t.subst σ = (t.subst σ1).subst σ := by
            obtain ⟨rank, hr⟩ := hs1.good.acyclic
            have key : ∀ x, σ x = (σ1 x).subst σ := by
              intro x
              induction hk : rank x using Nat.strong_induction_on generalizing x with
              | _ k ih =>
                cases hx : st1.bind x with
                | none => rw [hs1.full.free x hx]; rfl
                | some u =>
                  rw [hresp x u hx, hs1.full.bound x u hx, subst_comp]
                  refine subst_congr fun y hy => ih (rank y) ?_ y rfl
                  rw [← hk]; exact hr x u hx y hy
            intro t
            rw [subst_comp]
            exact subst_congr fun x _ => key x
          rw [hfac l1, hfac l2, he1]

/-- C18: the conclusion of ordered factoring (two literals of the same sign) follows from the parent. -/
theorem orderedFactor_sound (sg : Sig) (hsg : SigOK sg) (pp : Term → Bool) (guard : SubstSt → Bool) (n : Nat)
    (b b' : VarBank) (C D : List Lit) (i j : Nat) (side2 : Bool) (L K : Lit) (hb : b.Inv) (hC : sg.WTClause C)
    (hi : C[i]? = some L) (hj : C[j]? = some K) (hij : i ≠ j) (hsign : L.pos = K.pos)
    (h : orderedFactor sg pp guard n b C i j side2 = some (some (b', D))) (hag : BankAgrees sg b') :
    Entails.{u} sg [C] D ∧ sg.WTClause D := by
  have hL := hC L (List.mem_of_getElem? hi)
  have hK := hC K (List.mem_of_getElem? hj)
  simp only [orderedFactor, hi, hj] at h
  cases h1 : eqnUnifyDirected sg pp n L.l L.r (K.side side2) (K.side !side2) .empty with
  | none => simp [h1] at h
  | some r =>
    obtain ⟨ok, st⟩ := r
    cases ok with
    | false => simp [h1] at h
    | true =>
      simp only [h1] at h
      split at h
      · simp only [Option.map_eq_some_iff, Option.some.injEq, exists_eq_right] at h
        obtain ⟨σ, hu, he1, he2⟩ := eqnUnifyDirected_spec hL.1 hL.2.1 (wt_side hK _) (wt_side hK _) h1
        obtain ⟨τ, hτ, ⟨ρ, hρ⟩, rfl⟩ := buildResolvent_spec (VarBank.inv_reset hb) hu h hag
        refine ⟨fun I hm v hv => ?_, finish_wt (copy_wt hsg hτ (wt_eraseIdx hC j))⟩
        rw [finish_true, copy_true hsg hτ (wt_eraseIdx hC j) I hv]
        rcases (clauseTrue_erase I _ hj).1 (hm C (by simp) _ (sorted_subst I hv hτ)) with h | h
        · refine ⟨L, ?_, ?_⟩
          · exact List.mem_eraseIdx_iff_getElem?.2 ⟨i, hij, hi⟩
          · rw [side_true I _ side2, ← hsign] at h
            rw [side_true I _ true]
            have e1 : I.eval (fun x => I.eval v (τ x)) (L.side true)
                = I.eval (fun x => I.eval v (τ x)) (K.side side2) := by
              rw [← eval_subst, ← eval_subst, hρ, hρ]
              simp only [Lit.side, if_true] at he1 ⊢
              rw [he1]
            have e2 : I.eval (fun x => I.eval v (τ x)) (L.side !true)
                = I.eval (fun x => I.eval v (τ x)) (K.side !side2) := by
              rw [← eval_subst, ← eval_subst, hρ, hρ]
              simp only [Lit.side, Bool.not_true] at he2 ⊢
              simp only [Bool.false_eq_true, if_false]
              rw [he2]
            rw [e1, e2]; exact h
        · exact h
      · simp at h

/-- C18: the conclusion of equality factoring follows from the parent. -/
theorem equalityFactor_sound (sg : Sig) (hsg : SigOK sg) (pp : Term → Bool) (guard : SubstSt → Bool) (n : Nat)
    (b b' : VarBank) (C D : List Lit) (i j : Nat) (side1 side2 : Bool) (L K : Lit) (hb : b.Inv) (hC : sg.WTClause C)
    (hi : C[i]? = some L) (hj : C[j]? = some K) (hij : i ≠ j) (hposL : L.pos = true) (hposK : K.pos = true)
    (h : equalityFactor sg pp guard n b C i j side1 side2 = some (some (b', D))) (hag : BankAgrees sg b') :
    Entails.{u} sg [C] D ∧ sg.WTClause D := by
  have hL := hC L (List.mem_of_getElem? hi)
  have hK := hC K (List.mem_of_getElem? hj)
  simp only [equalityFactor, hi, hj] at h
  cases h1 : unify sg pp n (L.side side1) (K.side side2) .empty with
  | none => simp [h1] at h
  | some r =>
    obtain ⟨ok, st⟩ := r
    cases ok with
    | false => simp [h1] at h
    | true =>
      simp only [h1] at h
      split at h
      · cases h2 : normLits sg st.bind n (C.eraseIdx j) (b, []) with
        | none => simp [h2] at h
        | some s =>
          simp only [h2] at h
          cases h3 : instOpt st.bind s.2.get n (L.side !side1) with
          | none => simp [h3] at h
          | some l =>
            cases h4 : instOpt st.bind s.2.get n (K.side !side2) with
            | none => simp [h3, h4] at h
            | some r =>
              cases h5 : copyLits st.bind s.2.get n (C.eraseIdx i) with
              | none => simp [h3, h4, h5] at h
              | some E =>
                simp only [h3, h4, h5, Option.some.injEq, Prod.mk.injEq] at h
                obtain ⟨rfl, rfl⟩ := h
                obtain ⟨σ, hu, heq, _⟩ := unify_spec good_empty wt_empty (wt_side hL _) (wt_side hK _) h1
                have hty : sg.ty (L.side side1) = sg.ty (K.side side2) := by
                  rw [← Sig.ty_subst (σ := σ) fun x => (hu.wt x).1, heq, Sig.ty_subst fun x => (hu.wt x).1]
                have hI := norm_inv hu.full (NormProof.rnInv_nil sg hb) h2
                have hτ := wt_full hu.wt hI hag
                have el := InstProof.instOpt_correct hu.full n _ _ h3
                have er := InstProof.instOpt_correct hu.full n _ _ h4
                rw [LitProof.copyLits_eq hu.full h5]
                generalize hτd : InstProof.full σ s.2.get = τ at *
                have hc : sg.WTLit ⟨false, l, r⟩ := by
                  refine ⟨?_, ?_, ?_⟩
                  · simp only; rw [el]; exact Sig.wt_subst hτ (wt_side hL _)
                  · simp only; rw [er]; exact Sig.wt_subst hτ (wt_side hK _)
                  · simp only; rw [el, er, Sig.ty_subst fun x => (hτ x).1, Sig.ty_subst fun x => (hτ x).1,
                      ty_side hL _ side1, ty_side hK _ side2, hty]
                refine ⟨fun I hm v hv => ?_, finish_wt ?_⟩
                · rw [finish_true, clauseTrue_cons, mkEqn_true hsg I hv hc, copy_true hsg hτ (wt_eraseIdx hC i) I hv]
                  by_cases he : I.eval v l = I.eval v r
                  · right
                    rcases (clauseTrue_erase I _ hi).1 (hm C (by simp) _ (sorted_subst I hv hτ)) with h | h
                    · refine ⟨K, List.mem_eraseIdx_iff_getElem?.2 ⟨j, hij.symm, hj⟩, ?_⟩
                      rw [side_true I _ side1] at h
                      rw [side_true I _ side2]
                      simp only [hposL, hposK, if_true] at h ⊢
                      rw [el, er, eval_subst, eval_subst] at he
                      rw [← he, ← h, ← eval_subst, ← eval_subst, ← hτd, InstProof.subst_full,
                        InstProof.subst_full, heq]
                    · exact h
                  · left; simpa [LitTrue] using he
                · intro M hM
                  rcases List.mem_cons.1 hM with rfl | hM
                  · exact mkEqn_wt hsg hc
                  · exact copy_wt hsg hτ (wt_eraseIdx hC i) M hM
      · simp at h

/-! ## C19: paramodulation -/

theorem subtermAt_wt {sg : Sig} {t u : Term} {p : List Nat} (h : sg.WT t) (hs : subtermAt t p = some u) : sg.WT u := by
  induction p generalizing t with
  | nil => simp [subtermAt] at hs; exact hs ▸ h
  | cons i p ih =>
    cases t with
    | var x => simp [subtermAt] at hs
    | app f ts =>
      simp only [subtermAt] at hs
      cases hi : ts[i]? with
      | none => simp [hi] at hs
      | some w =>
        simp only [hi] at hs
        exact ih ((Sig.wt_app.1 h).2 w (List.mem_of_getElem? hi)) hs

theorem replLit_same (τ : Nat → Term) (old repl : Term) (L : Lit) :
    ReplLit τ old repl L (mkEqn L.pos (L.l.subst τ) (L.r.subst τ)) := ⟨_, _, .same _, .same _, rfl⟩

/-- Replacing at a position of one literal, as list. -/
theorem forall2_set {α β : Type} {R : α → β → Prop} {g : α → β} {T : List α} {j : Nat} {L : α} {L' : β}
    (hj : T[j]? = some L) (hg : ∀ x ∈ T, R x (g x)) (h : R L L') :
    ∃ T', List.Forall₂ R T T' ∧ ∀ x ∈ T', x = L' ∨ x ∈ (T.eraseIdx j).map g := by
  induction T generalizing j with
  | nil => simp at hj
  | cons x T ih =>
    cases j with
    | zero =>
      simp at hj; subst hj
      refine ⟨L' :: T.map g, .cons h (InstProof.forall2_map_self fun x hx => hg x (by simp [hx])), ?_⟩
      intro y hy
      simpa using hy
    | succ j =>
      simp at hj
      obtain ⟨T', h1, h2⟩ := ih hj fun x hx => hg x (by simp [hx])
      refine ⟨g x :: T', .cons (hg x (by simp)) h1, fun y hy => ?_⟩
      rcases List.mem_cons.1 hy with rfl | hy
      · right; simp
      · rcases h2 y hy with rfl | hy
        · exact Or.inl rfl
        · right; simp only [List.eraseIdx_cons_succ, List.map_cons, List.mem_cons]; exact Or.inr hy

/-- The literal made from a position: one literal of the into-clause with one subterm replaced. -/
theorem posLit {sg : Sig} {τ : Nat → Term} {LT : Lit} {ts : Bool} {pos : List (Term × Nat)} {sub old repl rep : Term}
    (hp : IsPos (LT.side ts) pos) (hsub : posSubterm (LT.side ts) pos = some sub) (ho : sub.subst τ = old)
    (hr : rep.subst τ = repl) :
    ∃ L', ReplLit τ old repl LT L' ∧
      ∀ (I : Interp.{u} sg) (v : Nat → I.D), I.Sorted v → SigOK sg → sg.WTSubst τ → sg.WTLit LT →
        sg.ty old = sg.ty repl → sg.WT repl →
        (I.LitTrue v L' ↔ I.LitTrue v (mkEqn LT.pos ((posReplace pos rep).subst τ) ((LT.side !ts).subst τ))) := by
  rw [InstProof.posSubterm_eq hp] at hsub
  obtain ⟨e1, e2⟩ := InstProof.replaceAt_subst (σ := τ) (repl := rep) hsub
  have hpr : PartialRepl old repl ((LT.side ts).subst τ) ((posReplace pos rep).subst τ) := by
    rw [InstProof.posReplace_eq hp, e1, hr]
    rw [ho] at e2
    exact InstProof.replaceAt_partial e2
  cases ts with
  | true => exact ⟨_, ⟨_, _, hpr, .same _, rfl⟩, fun I v hv hsg hτ hw hty hwr => Iff.rfl⟩
  | false =>
    refine ⟨mkEqn LT.pos (LT.l.subst τ) ((posReplace pos rep).subst τ), ⟨_, _, .same _, hpr, rfl⟩,
      fun I v hv hsg hτ hw hty hwr => ?_⟩
    have hwl := replLit_wt0 hτ hty hwr hw (.same _) hpr
    have hwl' : sg.WTLit ⟨LT.pos, (posReplace pos rep).subst τ, (LT.side !false).subst τ⟩ :=
      ⟨hwl.2.1, hwl.1, hwl.2.2.symm⟩
    rw [mkEqn_true hsg I hv hwl, mkEqn_true hsg I hv hwl']
    simp only [LitTrue, Lit.side, Bool.not_false, if_true, ne_eq,
      eq_comm (a := I.eval v (subst τ LT.l))]

/-- Semantic version of `paramod_core` for clauses whose literals have the same truth value. -/
theorem entails_of_equiv {sg : Sig} {Cs : List (List Lit)} {D E : List Lit} (h : Entails.{u} sg Cs D)
    (he : ∀ (I : Interp.{u} sg) v, I.Sorted v → I.ClauseTrue v D → I.ClauseTrue v E) : Entails.{u} sg Cs E :=
  fun I hm v hv => he I v hv (h I hm v hv)

theorem copyRepl_spec {bind : Nat → Option Term} {rn : Nat → Option Nat} {σ : Nat → Term} (hσ : FullInst bind σ)
    {n : Nat} {old repl : Term} {L L' : Lit} (h : copyRepl bind rn n old repl L = some L') :
    ReplLit (InstProof.full σ rn) (old.subst (InstProof.full σ rn)) repl L L' := by
  unfold copyRepl at h
  cases h1 : instRepl bind rn old repl n L.l with
  | none => simp [h1] at h
  | some l =>
    cases h2 : instRepl bind rn old repl n L.r with
    | none => simp [h1, h2] at h
    | some r =>
      simp only [h1, h2, Option.some.injEq] at h
      exact ⟨l, r, InstProof.instRepl_partial hσ n _ _ h1, InstProof.instRepl_partial hσ n _ _ h2, h.symm⟩

/-- Soundness of a conclusion built from the instance of `T` with the subterm at `pos` replaced. -/
theorem posParamod_sound {sg : Sig} (hsg : SigOK sg) {τ : Nat → Term} (hτ : sg.WTSubst τ) {o : Overlap} {LF LT : Lit}
    {sub : Term} (hF : sg.WTClause o.F) (hT : sg.WTClause o.T) (hi : o.F[o.i]? = some LF) (hj : o.T[o.j]? = some LT)
    (hpos : LF.pos = true) (hp : IsPos (LT.side o.ts) o.pos) (hsub : posSubterm (LT.side o.ts) o.pos = some sub)
    (hu : (LF.side o.fs).subst τ = sub.subst τ) :
    let D := mkEqn LT.pos ((posReplace o.pos (LF.side !o.fs)).subst τ) ((LT.side !o.ts).subst τ) ::
      ((o.T.eraseIdx o.j).map (fun L => mkEqn L.pos (L.l.subst τ) (L.r.subst τ)) ++
       (o.F.eraseIdx o.i).map (fun L => mkEqn L.pos (L.l.subst τ) (L.r.subst τ)))
    Entails.{u} sg [o.F, o.T] (removeDup (removeResolved sg D)) ∧ sg.WTClause (removeDup (removeResolved sg D)) := by
  intro D
  have hLF := hF LF (List.mem_of_getElem? hi)
  have hLT := hT LT (List.mem_of_getElem? hj)
  have hty : sg.ty ((LF.side o.fs).subst τ) = sg.ty ((LF.side !o.fs).subst τ) := by
    rw [Sig.ty_subst fun x => (hτ x).1, Sig.ty_subst fun x => (hτ x).1, ty_side hLF]
  have hw : sg.WT ((LF.side !o.fs).subst τ) := Sig.wt_subst hτ (wt_side hLF _)
  obtain ⟨L', hL', heq⟩ := posLit.{u} (sg := sg) hp hsub hu.symm rfl
  obtain ⟨T', hT', hmem⟩ := forall2_set (g := fun L => mkEqn L.pos (L.l.subst τ) (L.r.subst τ)) hj
    (fun x _ => replLit_same τ ((LF.side o.fs).subst τ) ((LF.side !o.fs).subst τ) x) hL'
  have hcore := paramod_core.{u} hsg hτ hF hT hi hpos hT' _ (fun L h => h)
  constructor
  · refine entails_of_equiv hcore fun I v hv ht => ?_
    rw [finish_true]
    obtain ⟨K, hK, ht⟩ := ht
    rcases List.mem_append.1 hK with hK | hK
    · rcases hmem K hK with rfl | hK
      · exact ⟨_, by simp [D], (heq I v hv hsg hτ hLT hty hw).1 ht⟩
      · exact ⟨K, by simp only [D, List.mem_cons, List.mem_append]; tauto, ht⟩
    · exact ⟨K, by simp only [D, List.mem_cons, List.mem_append]; tauto, ht⟩
  · refine finish_wt fun K hK => ?_
    simp only [D, List.mem_cons, List.mem_append] at hK
    rcases hK with rfl | hK | hK
    · rw [InstProof.posSubterm_eq hp] at hsub
      obtain ⟨e1, e2⟩ := InstProof.replaceAt_subst (σ := τ) (repl := LF.side !o.fs) hsub
      have hpr : PartialRepl ((LF.side o.fs).subst τ) ((LF.side !o.fs).subst τ) ((LT.side o.ts).subst τ)
          ((posReplace o.pos (LF.side !o.fs)).subst τ) := by
        rw [InstProof.posReplace_eq hp, e1]
        rw [← hu] at e2
        exact InstProof.replaceAt_partial e2
      refine mkEqn_wt hsg ⟨partialRepl_wt hty hw _ _ hpr (Sig.wt_subst hτ (wt_side hLT _)),
        Sig.wt_subst hτ (wt_side hLT _), ?_⟩
      simp only
      rw [← partialRepl_ty hty hpr, Sig.ty_subst fun x => (hτ x).1, Sig.ty_subst fun x => (hτ x).1, ty_side hLT]
    · exact copy_wt hsg hτ (wt_eraseIdx hT _) K hK
    · exact copy_wt hsg hτ (wt_eraseIdx hF _) K hK

theorem normTerms_append (sg : Sig) (bind : Nat → Option Term) (n : Nat) (ts us : List Term) (s : VarBank × Rn) :
    normTerms sg bind n (ts ++ us) s = (normTerms sg bind n ts s).bind (normTerms sg bind n us) := by
  induction ts generalizing s with
  | nil => rfl
  | cons t ts ih =>
    simp only [List.cons_append, normTerms]
    cases normLoop sg bind n [t] s with
    | none => rfl
    | some s' => simp only [ih]

theorem inst_agree {sg : Sig} {bind : Nat → Option Term} {σ : Nat → Term} (hσ : FullInst bind σ) {n : Nat}
    {ts us : List Term} {s s0 s1 : VarBank × Rn} (h0 : normTerms sg bind n ts s = some s0)
    (h1 : normTerms sg bind n us s0 = some s1) :
    ∀ y ∈ ts.flatMap (fun t => (t.subst σ).vars), varOut s1.2.get y = varOut s0.2.get y := by
  intro y hy
  have e0 := NormProof.normTerms_eq hσ h0
  have e1 := NormProof.normTerms_eq hσ h1
  obtain ⟨c, hc⟩ := NormProof.fold_covers (sg := sg) _ s hy
  rw [← e0] at hc
  have hc1 := NormProof.fold_mono (sg := sg) (us.flatMap fun t => (t.subst σ).vars) hc
  rw [← e1] at hc1
  simp [varOut, Rn.get, hc, hc1]

theorem vars_replaceAt {t : Term} {p : List Nat} {u r : Term} (h : subtermAt t p = some u) :
    ∀ x ∈ (replaceAt t p r).vars, x ∈ t.vars ∨ x ∈ r.vars := by
  induction p generalizing t with
  | nil => intro x hx; simp [replaceAt] at hx; exact Or.inr hx
  | cons i p ih =>
    cases t with
    | var x => simp [subtermAt] at h
    | app f ts =>
      simp only [subtermAt] at h
      cases hi : ts[i]? with
      | none => simp [hi] at h
      | some w =>
        simp only [hi] at h
        intro x hx
        simp only [replaceAt, hi, vars, mem_varsL] at hx
        obtain ⟨t, ht, hx⟩ := hx
        rcases List.mem_or_eq_of_mem_set ht with ht | rfl
        · left; rw [vars, mem_varsL]; exact ⟨t, ht, hx⟩
        · rcases ih h x hx with hx | hx
          · left; rw [vars, mem_varsL]; exact ⟨w, List.mem_of_getElem? hi, hx⟩
          · exact Or.inr hx

/-- C19: every conclusion of paramodulation/superposition follows from the two parents and is well-typed:
plain, simultaneous and super-simultaneous, for the indexed path (`direct = false`) and for the unindexed path
except super-simultaneous paramodulation (see `superSim_direct_unsound`).
Partial: the property claims all variants. -/
theorem paramod_sound_partial (sg : Sig) (hsg : SigOK sg) (pp : Term → Bool) (guard : SubstSt → Bool) (n : Nat)
    (b b' : VarBank) (direct : Bool) (ty : PMType) (o : Overlap) (LF LT : Lit) (D : List Lit)
    (hb : b.Inv) (hF : sg.WTClause o.F) (hT : sg.WTClause o.T) (hi : o.F[o.i]? = some LF) (hj : o.T[o.j]? = some LT)
    (hpos : LF.pos = true) (hp : IsPos (LT.side o.ts) o.pos) (hv : ty = .superSim → direct = false)
    (h : paramod sg pp guard n b direct ty o = some (some (b', D))) (hag : BankAgrees sg b') :
    Entails.{u} sg [o.F, o.T] D ∧ sg.WTClause D := by
  have hLF := hF LF (List.mem_of_getElem? hi)
  have hLT := hT LT (List.mem_of_getElem? hj)
  simp only [paramod, hi, hj] at h
  cases hsub : posSubterm (LT.side o.ts) o.pos with
  | none => simp [hsub] at h
  | some sub =>
  have hsw : sg.WT sub := by
    have := hsub
    rw [InstProof.posSubterm_eq hp] at this
    exact subtermAt_wt (wt_side hLT _) this
  simp only [hsub] at h
  cases hun : unify sg pp n (LF.side o.fs) sub .empty with
  | none => simp [hun] at h
  | some q =>
  obtain ⟨ok, st⟩ := q
  cases ok with
  | false => simp [hun] at h
  | true =>
  simp only [hun] at h
  split at h
  case isFalse => simp at h
  obtain ⟨σ, hu, heq, _⟩ := unify_spec good_empty wt_empty (wt_side hLF _) hsw hun
  have hunif : ∀ rn, (LF.side o.fs).subst (InstProof.full σ rn) = sub.subst (InstProof.full σ rn) := by
    intro rn; rw [InstProof.subst_full, InstProof.subst_full, heq]
  have hrb := NormProof.rnInv_nil sg (VarBank.inv_reset hb)
  cases ty with
  | plain =>
    cases direct with
    | false =>
      simp only [plainParamodConstruct] at h
      cases h1 : normLits sg st.bind n o.T (b.reset, []) with
      | none => simp [h1] at h
      | some s1 =>
      simp only [h1] at h
      cases h2 : normLits sg st.bind n o.F s1 with
      | none => simp [h2] at h
      | some s =>
      simp only [h2] at h
      have hI := norm_inv hu.full (norm_inv hu.full hrb h1) h2
      split at h
      case h_2 => simp at h
      rename_i l r into frm el er ei ef
      split at h
      · simp at h
      split at h
      · simp at h
      split at h
      · simp at h
      simp only [finishParamod, Option.some.injEq, Prod.mk.injEq] at h
      obtain ⟨rfl, rfl⟩ := h
      have hτ := wt_full hu.wt hI hag
      rw [InstProof.instOpt_correct hu.full n _ _ el, InstProof.instOpt_correct hu.full n _ _ er,
        LitProof.copyLits_eq hu.full ei, LitProof.copyLits_eq hu.full ef]
      exact posParamod_sound hsg hτ hF hT hi hj hpos hp hsub (hunif _)
    | true =>
      simp only [orderedParamodConstruct] at h
      cases h0 : normTerms sg st.bind n [LT.side o.ts, LF.side !o.fs, LT.side !o.ts] (b.reset, []) with
      | none => simp [h0] at h
      | some s0 =>
      simp only [h0] at h
      cases h1 : normLits sg st.bind n (o.T.eraseIdx o.j) s0 with
      | none => simp [h1] at h
      | some s1 =>
      simp only [h1] at h
      cases h2 : normLits sg st.bind n (o.F.eraseIdx o.i) s1 with
      | none => simp [h2] at h
      | some s =>
      simp only [h2] at h
      have hI := norm_inv hu.full (norm_inv hu.full (norm_inv hu.full hrb h0) h1) h2
      split at h
      case h_2 => simp at h
      rename_i l r into frm el er ei ef
      split at h
      · simp at h
      simp only [finishParamod, Option.some.injEq, Prod.mk.injEq] at h
      obtain ⟨rfl, rfl⟩ := h
      have hτ := wt_full hu.wt hI hag
      have hagree : ∀ t : Term, (∀ y ∈ (t.subst σ).vars,
          y ∈ [LT.side o.ts, LF.side !o.fs, LT.side !o.ts].flatMap (fun t => (t.subst σ).vars)) →
          t.subst (InstProof.full σ s0.2.get) = t.subst (InstProof.full σ s.2.get) := by
        intro t ht
        rw [InstProof.subst_full, InstProof.subst_full]
        refine subst_congr fun y hy => ?_
        have a1 := inst_agree hu.full h0 h1 y (ht y hy)
        have h02 : normTerms sg st.bind n
            ((o.T.eraseIdx o.j).flatMap Lit.terms ++ (o.F.eraseIdx o.i).flatMap Lit.terms) s0 = some s := by
          rw [normTerms_append]
          unfold normLits at h1 h2
          rw [h1]; exact h2
        exact (inst_agree hu.full h0 h02 y (ht y hy)).symm
      rw [InstProof.instOpt_correct hu.full n _ _ el, InstProof.instOpt_correct hu.full n _ _ er,
        LitProof.copyLits_eq hu.full ei, LitProof.copyLits_eq hu.full ef]
      rw [hagree (posReplace o.pos (LF.side !o.fs)) ?_, hagree (LT.side !o.ts) ?_]
      · exact posParamod_sound hsg hτ hF hT hi hj hpos hp hsub (hunif _)
      · intro y hy; simp [hy]
      · intro y hy
        have hs2 := hsub
        rw [InstProof.posSubterm_eq hp] at hs2
        obtain ⟨e1, e2⟩ := InstProof.replaceAt_subst (σ := σ) (repl := LF.side !o.fs) hs2
        rw [InstProof.posReplace_eq hp, e1] at hy
        rcases vars_replaceAt e2 y hy with hy | hy <;> simp [hy]
  | sim =>
    have h : simParamodConstruct sg n b st o LF sub = some (some (b', D)) := by cases direct <;> exact h
    simp only [simParamodConstruct] at h
    cases h1 : normLits sg st.bind n o.T (b.reset, []) with
    | none => simp [h1] at h
    | some s1 =>
    simp only [h1] at h
    cases h2 : normLits sg st.bind n o.F s1 with
    | none => simp [h2] at h
    | some s =>
    simp only [h2] at h
    have hI := norm_inv hu.full (norm_inv hu.full hrb h1) h2
    cases hr : instOpt st.bind s.2.get n (LF.side !o.fs) with
    | none => simp [hr] at h
    | some rhs =>
    simp only [hr] at h
    split at h
    case h_2 => simp at h
    rename_i into frm ei ef
    split at h
    · simp at h
    split at h
    · simp at h
    simp only [finishParamod, Option.some.injEq, Prod.mk.injEq] at h
    obtain ⟨rfl, rfl⟩ := h
    have hτ := wt_full hu.wt hI hag
    have hT' : List.Forall₂ (ReplLit (InstProof.full σ s.2.get) ((LF.side o.fs).subst (InstProof.full σ s.2.get))
        ((LF.side !o.fs).subst (InstProof.full σ s.2.get))) o.T into := by
      refine (InstProof.mapOpt_some ei).imp fun L L' hL => ?_
      have := copyRepl_spec hu.full hL
      rwa [InstProof.instOpt_correct hu.full n _ _ hr, ← hunif] at this
    rw [LitProof.copyLits_eq hu.full ef]
    refine ⟨entails_of_equiv (paramod_core.{u} hsg hτ hF hT hi hpos hT' _ (fun L h => h)) fun I v hv ht => ?_,
      finish_wt (paramod_core_wt hsg hτ hF hT hi hT')⟩
    rw [finish_true]; exact ht
  | superSim =>
    obtain rfl := hv rfl
    simp only [superSimParamodConstruct] at h
    cases h1 : normLits sg st.bind n o.T (b.reset, []) with
    | none => simp [h1] at h
    | some s1 =>
    simp only [h1] at h
    cases h2 : normLits sg st.bind n o.F s1 with
    | none => simp [h2] at h
    | some s =>
    simp only [h2] at h
    have hI := norm_inv hu.full (norm_inv hu.full hrb h1) h2
    split at h
    case h_2 => simp at h
    rename_i lhs rhs tmp frm el er et ef
    split at h
    · simp at h
    split at h
    · simp at h
    simp only [finishParamod, Option.some.injEq, Prod.mk.injEq] at h
    obtain ⟨rfl, rfl⟩ := h
    have hτ := wt_full hu.wt hI hag
    have hlhs := InstProof.instOpt_correct hu.full n _ _ el
    have hrhs := InstProof.instOpt_correct hu.full n _ _ er
    have htmp := LitProof.copyLits_eq hu.full et
    rw [← hunif] at hlhs
    set τ := InstProof.full σ s.2.get with hτd
    -- the second copy applies to literals already brought to normal form by the first
    let g : Lit → Lit := fun L => mkEqn L.pos (replPlain lhs rhs (L.l.subst τ)) (replPlain lhs rhs (L.r.subst τ))
    have hty : sg.ty lhs = sg.ty rhs := by
      rw [hlhs, hrhs, Sig.ty_subst fun x => (hτ x).1, Sig.ty_subst fun x => (hτ x).1, ty_side hLF]
    have hw : sg.WT rhs := by rw [hrhs]; exact Sig.wt_subst hτ (wt_side hLF _)
    have hC : sg.WTClause tmp := by rw [htmp]; exact copy_wt hsg hτ hT
    rw [LitProof.copyLits_eq hu.full ef]
    have hrl : ∀ K : Lit, ReplLit Term.var lhs rhs K (copyReplPlain lhs rhs K) := by
      intro K
      refine ⟨_, _, ?_, ?_, rfl⟩
      · rw [InstProof.replPlain_eq, subst_id]; exact InstProof.replaceAll_partial _ _ _
      · rw [InstProof.replPlain_eq, subst_id]; exact InstProof.replaceAll_partial _ _ _
    have hid : sg.WTSubst Term.var := fun x => ⟨rfl, trivial⟩
    constructor
    · intro I hm v hv
      rw [finish_true, clauseTrue_append]
      have hvs := sorted_subst I hv hτ
      rcases (clauseTrue_erase I _ hi).1 (hm o.F (by simp) _ hvs) with h | h
      · left
        have he : I.eval v lhs = I.eval v rhs := by
          rw [side_true I _ o.fs] at h
          simp only [hpos, if_true] at h
          rw [hlhs, hrhs, eval_subst, eval_subst]; exact h
        have ht := (copy_true hsg hτ hT I hv).2 (hm o.T (by simp) _ hvs)
        rw [← htmp] at ht
        obtain ⟨K, hK, ht⟩ := ht
        exact ⟨_, List.mem_map.2 ⟨K, hK, rfl⟩, (replLit_true hsg hid hty hw (hC K hK) (hrl K) I hv he).2 ht⟩
      · exact Or.inr ((copy_true hsg hτ (wt_eraseIdx hF _) I hv).2 h)
    · refine finish_wt fun K hK => ?_
      rcases List.mem_append.1 hK with hK | hK
      · obtain ⟨M, hM, rfl⟩ := List.mem_map.1 hK
        exact replLit_wt hsg hid hty hw (hC M hM) (hrl M)
      · exact copy_wt hsg hτ (wt_eraseIdx hF _) K hK

/-! ### The unindexed super-simultaneous variant is unsound -/

/-- X = variable 2, Y = variable 1 (the parent `F` is the disjoint copy); p, q, f, g, h = 11 … 15. -/
def sgU : Sig :=
  { vty := fun _ => 0, fty := fun f => if f = 1 ∨ f = 2 ∨ f = 11 ∨ f = 12 then 1 else 0
    fargs := fun f => if f = 1 ∨ f = 2 then [] else [0] }

/-- f(g(Y)) = h(Y) into p(f(X)) | q(X). -/
def oU : Overlap :=
  { F := [⟨true, .app 13 [.app 14 [.var 1]], .app 15 [.var 1]⟩], i := 0, fs := true
    T := [⟨true, .app 11 [.app 13 [.var 2]], tTrue⟩, ⟨true, .app 12 [.var 2], tTrue⟩], j := 0, ts := true
    pos := [(.app 11 [.app 13 [.var 2]], 0)] }

private def IU : Interp.{0} sgU where
  D := Nat
  mem := fun ty d => ty = 1 → d < 2
  inhab := fun _ => ⟨0, by omega⟩
  fn := fun f ds =>
    if f = 1 then 1 else if f = 2 then 0
    else if f = 11 then (if ds = [1] then 0 else 1) else if f = 12 then (if ds = [1] then 1 else 0)
    else if f = 13 then ds.headD 0 else ds.headD 0 + 1
  fn_mem := by
    intro f ds _ hf
    simp only [sgU] at hf
    split at hf
    · rename_i h
      rcases h with rfl | rfl | rfl | rfl <;> simp <;> split <;> simp
    · omega
  tf := by decide
  bool2 := by
    intro d hd
    have : d < 2 := hd rfl
    simp; omega
  dist := by intro f g h; simp [sgU] at h

private theorem agrees_const {sg : Sig} {b : VarBank} (hv : ∀ x, sg.vty x = 0) (hb : ∀ ty, ty ≠ 0 → b.vstk ty = []) :
    BankAgrees sg b := by
  intro ty c hc
  by_cases h : ty = 0
  · rw [hv, h]
  · rw [hb ty h] at hc; simp at hc

/-- C19 fails for super-simultaneous paramodulation on the unindexed path: from
f(g(Y)) = h(Y) into p(f(X)) | q(X) the code derives p(h(X)) | q(g(g(X))), which does
not follow (the unifier is applied twice; CLAUSES/ccl_paramod.c:968-981). -/
theorem superSim_direct_unsound :
    ∃ (sg : Sig) (b b' : VarBank) (o : Overlap) (LF LT : Lit) (D : List Lit),
      SigOK sg ∧ b.Inv ∧ sg.WTClause o.F ∧ sg.WTClause o.T ∧ o.F[o.i]? = some LF ∧ o.T[o.j]? = some LT ∧
      LF.pos = true ∧ IsPos (LT.side o.ts) o.pos ∧ BankAgrees sg b' ∧
      paramod sg (fun _ => false) (fun _ => true) 9 b true .superSim o = some (some (b', D)) ∧
      ¬ Entails.{0} sg [o.F, o.T] D := by
  have hrun : (paramod sgU (fun _ => false) (fun _ => true) 9 VarBank.init true .superSim oU).map (Option.map Prod.snd)
      = some (some [⟨true, .app 11 [.app 15 [.var 2]], tTrue⟩, ⟨true, .app 12 [.app 14 [.app 14 [.var 2]]], tTrue⟩]) := by
    decide
  cases hp : paramod sgU (fun _ => false) (fun _ => true) 9 VarBank.init true .superSim oU with
  | none => simp [hp] at hrun
  | some q =>
  cases q with
  | none => simp [hp] at hrun
  | some q =>
  obtain ⟨b', D⟩ := q
  simp only [hp, Option.map_some, Option.some.injEq] at hrun
  subst hrun
  refine ⟨sgU, VarBank.init, b', oU, oU.F[0], oU.T[0], _, ⟨rfl, rfl, rfl⟩, VarBank.inv_init, ?_, ?_, rfl, rfl, rfl, ?_, ?_, hp, ?_⟩
  · intro L hL
    simp only [oU, List.mem_singleton] at hL; subst hL
    simp [Sig.WTLit, sgU, Sig.ty, Sig.WT, Sig.WTL]
  · intro L hL
    simp only [oU, List.mem_cons, List.not_mem_nil, or_false] at hL
    rcases hL with rfl | rfl <;> simp [Sig.WTLit, sgU, Sig.ty, Sig.WT, Sig.WTL, tTrue]
  · exact ⟨rfl, 11, _, _, rfl, rfl, trivial⟩
  · refine agrees_const (fun _ => rfl) fun ty hty => ?_
    have hb : (paramod sgU (fun _ => false) (fun _ => true) 9 VarBank.init true .superSim oU).map
        (Option.map fun q => q.1.vstk ty) = some (some (if ty = 0 then [2] else [])) := by
      have h2 : (paramod sgU (fun _ => false) (fun _ => true) 9 VarBank.init true .superSim oU).map
        (Option.map fun q => q.1) = some (some (VarBank.init.reset.getFresh 0).2) := by rfl
      rw [hp] at h2 ⊢
      simp only [Option.map_some, Option.some.injEq] at h2 ⊢
      rw [h2]; simp [VarBank.getFresh, VarBank.init, VarBank.reset]
    rw [hp] at hb
    simpa [hty] using hb
  · intro hent
    have := hent IU (by
      intro C hC v hv
      simp only [oU, List.mem_cons, List.not_mem_nil, or_false] at hC
      rcases hC with rfl | rfl
      · refine ⟨_, List.mem_singleton.2 rfl, ?_⟩
        simp [LitTrue, evalL, eval, IU]
      · by_cases h : v 2 = (1 : Nat)
        · refine ⟨_, List.mem_cons_of_mem _ (List.mem_singleton.2 rfl), ?_⟩
          simp [LitTrue, evalL, eval, IU, tTrue, h]
        · refine ⟨_, List.mem_cons_self, ?_⟩
          simp [LitTrue, evalL, eval, IU, tTrue]
          exact h) (fun _ => (0 : Nat)) (fun _ _ => by show (0 : Nat) < 2; omega)
    obtain ⟨L, hL, ht⟩ := this
    simp only [List.mem_cons, List.not_mem_nil, or_false] at hL
    rcases hL with rfl | rfl <;> simp [LitTrue, evalL, eval, IU, tTrue] at ht

end Verif.Props
