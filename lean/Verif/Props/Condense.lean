import Verif.Clauses.Condense
import Verif.Props.Subsume
import Verif.Props.Infer
import Verif.Props.InferGen

/-!
# C27: condensation and contextual simplify-reflect
-/

namespace Verif.Props
open Verif Term SubstSt Interp SemProof SubsProof InferProof

universe u

variable {sg : Sig} {pp : Term → Bool}

/-- Both clauses have the same models. -/
def SameModels (sg : Sig) (C D : List Lit) : Prop :=
  Entails.{u} sg [C] D ∧ Entails.{u} sg [D] C

theorem SameModels.trans {C D E : List Lit} (h1 : SameModels.{u} sg C D) (h2 : SameModels.{u} sg D E) :
    SameModels.{u} sg C E :=
  ⟨fun I hI => h2.1 I (by simpa using h1.1 I hI), fun I hI => h1.2 I (by simpa using h2.2 I hI)⟩

theorem entails_of_subset {C D : List Lit} (h : ∀ L ∈ C, L ∈ D) : Entails.{u} sg [C] D := by
  intro I hI v hv
  obtain ⟨L, hL, ht⟩ := hI C (by simp) v hv
  exact ⟨L, h L hL, ht⟩

theorem sameModels_perm {C D : List Lit} (h : C.Perm D) : SameModels.{u} sg C D :=
  ⟨entails_of_subset fun _ hL => h.mem_iff.1 hL, entails_of_subset fun _ hL => h.mem_iff.2 hL⟩

theorem wt_perm {C D : List Lit} (h : C.Perm D) (hC : sg.WTClause C) : sg.WTClause D :=
  fun L hL => hC L (h.mem_iff.2 hL)

theorem plain_perm {C D : List OLit} (h : C.Perm D) : (OLit.plain C).Perm (OLit.plain D) := h.map _

theorem plain_lit_ (o : Lit → Bool) (C : List Lit) : OLit.plain (C.map fun L => ⟨L, o L⟩) = C := by
  simp [OLit.plain, Function.comp_def]

/-- What a candidate is, given the unifier. -/
theorem condCand_spec {n : Nat} {srt : List OLit → List OLit} (hs : ∀ C, (srt C).Perm C) {orient : Lit → Bool}
    {st : SubstSt} {σ : Nat → Term} (hσ : FullInst st.bind σ) {C D : List OLit} {j : Nat}
    (h : condCand sg n srt orient st C j = some D) :
    (OLit.plain D).Perm (removeResolved sg (removeDup (((OLit.plain C).eraseIdx j).map
      fun L => mkEqn L.pos (L.l.subst (InstProof.full σ fun _ => none)) (L.r.subst (InstProof.full σ fun _ => none))))) := by
  unfold condCand at h
  cases hc : copyLits st.bind (fun _ => none) n ((OLit.plain C).eraseIdx j) with
  | none => simp [hc] at h
  | some E =>
    simp only [hc, Option.some.injEq] at h
    subst h
    rw [LitProof.copyLits_eq hσ hc]
    refine (plain_perm (hs _)).trans ?_
    rw [plain_lit_]

theorem full_none (σ : Nat → Term) : InstProof.full σ (fun _ => none) = σ := by
  funext x
  unfold InstProof.full
  have : varOut (fun _ => none) = Term.var := by funext y; simp [varOut]
  rw [this, subst_id]

/-- One condensation step keeps the models and makes the clause shorter. -/
theorem tryCondensation_spec (hsg : SigOK sg) {n : Nat} {srt : List OLit → List OLit} (hs : ∀ C, (srt C).Perm C)
    {orient : Lit → Bool} {C D : List OLit} (hC : sg.WTClause (OLit.plain C)) {i j : Nat} (hij : i ≠ j) {swap : Bool}
    (h : tryCondensation sg pp n srt orient C i j swap = some (some D)) :
    SameModels.{u} sg (OLit.plain C) (OLit.plain D) ∧ sg.WTClause (OLit.plain D) ∧ D.length < C.length := by
  unfold tryCondensation at h
  cases hi : C[i]? with
  | none => simp [hi] at h
  | some L =>
    cases hj : C[j]? with
    | none => simp [hi, hj] at h
    | some K =>
      simp only [hi, hj] at h
      have hL := hC L.toLit (List.mem_map.2 ⟨L, List.mem_of_getElem? hi, rfl⟩)
      have hK := hC K.toLit (List.mem_map.2 ⟨K, List.mem_of_getElem? hj, rfl⟩)
      unfold unifyOneWay at h
      by_cases hp : L.toLit.pos = K.toLit.pos
      swap
      · simp [hp] at h
      rw [if_pos hp] at h
      simp only [Bool.false_eq_true, if_false] at h
      cases hu : eqnUnifyDirected sg pp n L.l L.r K.l K.r .empty with
      | none => simp [hu] at h
      | some q =>
        obtain ⟨ok, st⟩ := q
        cases ok with
        | false => simp [hu] at h
        | true =>
          simp only [hu] at h
          cases hc : condCand sg n srt orient st C j with
          | none => simp [hc] at h
          | some E =>
            simp only [hc, Option.some.injEq] at h
            split at h
            swap
            · cases h
            · rename_i hsub
              simp only [Option.some.injEq] at h
              subst h
              obtain ⟨σ, hU, e1, e2⟩ := eqnUnifyDirected_spec hL.1 hL.2.1 hK.1 hK.2.1 hu
              have hperm := condCand_spec hs hU.full hc
              rw [full_none] at hperm
              have hCj := wt_eraseIdx hC j
              have hwE : sg.WTClause (OLit.plain E) := by
                intro M hM
                have := hperm.mem_iff.1 hM
                exact copy_wt hsg hU.wt hCj M (removeDup_subset _ _ (List.mem_filter.1 this).1)
              refine ⟨⟨?_, subsumes_sound hC hsub⟩, hwE, ?_⟩
              · intro I hI v hv
                have hv' := sorted_subst I hv hU.wt
                have ht := hI (OLit.plain C) (by simp) _ hv'
                have hj' : (OLit.plain C)[j]? = some K.toLit := by simp [OLit.plain, hj]
                have hi' : (OLit.plain C)[i]? = some L.toLit := by simp [OLit.plain, hi]
                have hrest : I.ClauseTrue (fun x => I.eval v (σ x)) ((OLit.plain C).eraseIdx j) := by
                  rcases (clauseTrue_erase I _ hj').1 ht with h | h
                  · refine ⟨L.toLit, List.mem_eraseIdx_iff_getElem?.2 ⟨i, hij, hi'⟩, ?_⟩
                    unfold LitTrue at h ⊢
                    rw [← eval_subst, ← eval_subst] at h ⊢
                    rw [hp, e1, e2]
                    exact h
                  · exact h
                rw [← copy_true hsg hU.wt hCj I hv] at hrest
                obtain ⟨M, hM, ht⟩ := (removeResolved_true I v _).2 ((removeDup_true I v _).2 hrest)
                exact ⟨M, hperm.mem_iff.2 hM, ht⟩
              · have h1 : E.length = (OLit.plain E).length := by simp [OLit.plain]
                have h2 := removeDup_length [] (((OLit.plain C).eraseIdx j).map
                  fun L => mkEqn L.pos (L.l.subst σ) (L.r.subst σ))
                have h3 : j < C.length := (List.getElem?_eq_some_iff.1 hj).1
                rw [h1, hperm.length_eq]
                refine lt_of_le_of_lt (List.length_filter_le _ _) ?_
                refine lt_of_le_of_lt h2 ?_
                rw [List.length_map, List.length_eraseIdx_of_lt (by simpa [OLit.plain] using h3)]
                simp [OLit.plain]
                omega

theorem condPairs_ne {C : List OLit} {p : Nat × Nat × Bool} (h : p ∈ condPairs C) : p.1 ≠ p.2.1 := by
  unfold condPairs at h
  simp only [List.mem_flatMap, List.mem_range, List.mem_range'] at h
  obtain ⟨i, -, j, ⟨k, -, rfl⟩, h⟩ := h
  split at h
  · split at h
    · simp at h; subst h; simp; omega
    · simp at h; rcases h with rfl | rfl <;> simp <;> omega
  · cases h

theorem condenseOnce_spec (hsg : SigOK sg) {n : Nat} {srt : List OLit → List OLit} (hs : ∀ C, (srt C).Perm C)
    {orient : Lit → Bool} {C D : List OLit} (hC : sg.WTClause (OLit.plain C))
    (h : condenseOnce sg pp n srt orient C = some (some D)) :
    SameModels.{u} sg (OLit.plain C) (OLit.plain D) ∧ sg.WTClause (OLit.plain D) ∧ D.length < C.length := by
  unfold condenseOnce at h
  have hne : ∀ p ∈ condPairs C, p.1 ≠ p.2.1 := fun p => condPairs_ne
  revert h hne
  generalize condPairs C = ps
  intro h hne
  induction ps with
  | nil => simp [condTry] at h
  | cons p ps ih =>
    obtain ⟨i, j, s⟩ := p
    rw [condTry] at h
    cases ht : tryCondensation sg pp n srt orient C i j s with
    | none => simp [ht] at h
    | some r =>
      cases r with
      | none => exact ih (by simpa [ht] using h) fun p hp => hne p (List.mem_cons_of_mem _ hp)
      | some E =>
        have : E = D := by simpa [ht] using h
        subst this
        exact tryCondensation_spec hsg hs hC (hne (i, j, s) (by simp)) ht

theorem condLoop_spec (hsg : SigOK sg) {n : Nat} {srt : List OLit → List OLit} (hs : ∀ C, (srt C).Perm C)
    {orient : Lit → Bool} {k : Nat} {C D : List OLit} (hC : sg.WTClause (OLit.plain C))
    (h : condLoop sg pp n srt orient k C = some D) :
    SameModels.{u} sg (OLit.plain C) (OLit.plain D) ∧ sg.WTClause (OLit.plain D) ∧ (D = C ∨ D.length < C.length) := by
  induction k generalizing C with
  | zero => simp [condLoop] at h
  | succ k ih =>
    rw [condLoop] at h
    cases ho : condenseOnce sg pp n srt orient C with
    | none => simp [ho] at h
    | some r =>
      cases r with
      | none =>
        have : C = D := by simpa [ho] using h
        subst this
        exact ⟨sameModels_perm (List.Perm.refl _), hC, Or.inl rfl⟩
      | some E =>
        simp only [ho] at h
        obtain ⟨h1, h2, h3⟩ := condenseOnce_spec hsg hs hC ho
        obtain ⟨h4, h5, h6⟩ := ih h2 h
        refine ⟨h1.trans h4, h5, Or.inr ?_⟩
        rcases h6 with rfl | h6 <;> omega

/-- C27, condensation: the clause left by `Condense` has the same models as the clause given, is
well-typed, and is either a permutation of it or strictly shorter. -/
theorem condense_equiv (hsg : SigOK sg) {n : Nat} {srt : List OLit → List OLit} (hs : ∀ C, (srt C).Perm C)
    {orient : Lit → Bool} {k : Nat} {C D : List OLit} (hC : sg.WTClause (OLit.plain C))
    (h : condense sg pp n srt orient k C = some D) :
    SameModels.{u} sg (OLit.plain C) (OLit.plain D) ∧ sg.WTClause (OLit.plain D) ∧
      (D.Perm C ∨ D.length < C.length) := by
  unfold condense at h
  split at h
  · obtain ⟨h1, h2, h3⟩ := condLoop_spec hsg hs (wt_perm (plain_perm (hs C).symm) hC) h
    refine ⟨(sameModels_perm (plain_perm (hs C).symm)).trans h1, h2, ?_⟩
    rcases h3 with rfl | h3
    · exact Or.inl (hs C)
    · rw [(hs C).length_eq] at h3; exact Or.inr h3
  · cases h
    exact ⟨sameModels_perm (List.Perm.refl _), hC, Or.inl (List.Perm.refl _)⟩

/-! ### Termination -/

theorem eqnUnifyDirected_terminates (l1 r1 l2 r2 : Term) :
    ∃ N r, ∀ n ≥ N, eqnUnifyDirected sg pp n l1 r1 l2 r2 .empty = some r := by
  obtain ⟨N1, ⟨ok, st1⟩, h1⟩ := mgu_terminates sg l1 l2 (pp l1) (pp l2) .empty good_empty
  cases ok with
  | false => exact ⟨N1, _, fun n hn => by unfold eqnUnifyDirected unify; rw [h1 n hn]⟩
  | true =>
    have hg := (mgu_success sg N1 l1 l2 _ _ .empty st1 good_empty (h1 N1 (le_refl _))).1
    obtain ⟨N2, ⟨ok, st2⟩, h2⟩ := mgu_terminates sg r1 r2 (pp r1) (pp r2) st1 hg
    refine ⟨max N1 N2, (ok, if ok then st2 else st2.backtrackToPos SubstSt.empty.stack.length), fun n hn => ?_⟩
    unfold eqnUnifyDirected unify
    rw [h1 n (by omega)]
    simp only
    rw [h2 n (by omega)]
    cases ok <;> rfl

theorem tryCondensation_total {srt : List OLit → List OLit} {orient : Lit → Bool} {C : List OLit}
    (hC : sg.WTClause (OLit.plain C)) (i j : Nat) (swap : Bool) :
    ∃ N r, ∀ n ≥ N, tryCondensation sg pp n srt orient C i j swap = some r := by
  unfold tryCondensation
  cases hi : C[i]? with
  | none => exact ⟨0, none, fun n _ => by simp⟩
  | some L =>
    cases hj : C[j]? with
    | none => exact ⟨0, none, fun n _ => by simp⟩
    | some K =>
      have hL := hC L.toLit (List.mem_map.2 ⟨L, List.mem_of_getElem? hi, rfl⟩)
      have hK := hC K.toLit (List.mem_map.2 ⟨K, List.mem_of_getElem? hj, rfl⟩)
      by_cases hp : L.toLit.pos = K.toLit.pos
      swap
      · exact ⟨0, none, fun n _ => by simp [unifyOneWay, hp]⟩
      obtain ⟨N1, ⟨ok, st⟩, h1⟩ := eqnUnifyDirected_terminates (sg := sg) (pp := pp) L.l L.r K.l K.r
      cases ok with
      | false => exact ⟨N1, none, fun n hn => by simp [unifyOneWay, hp, h1 n hn]⟩
      | true =>
        obtain ⟨σ, hU, -, -⟩ := eqnUnifyDirected_spec hL.1 hL.2.1 hK.1 hK.2.1 (h1 N1 (le_refl _))
        obtain ⟨N2, E, h2⟩ := LitProof.copyLits_total (fun _ => none) hU.good.acyclic hU.full ((OLit.plain C).eraseIdx j)
        refine ⟨max N1 N2, (if clauseSubsumes sg pp (srt ((removeResolved sg (removeDup E)).map fun L => ⟨L, orient L⟩)) C
          then some (srt ((removeResolved sg (removeDup E)).map fun L => ⟨L, orient L⟩)) else none), fun n hn => ?_⟩
        simp only [unifyOneWay, hp, if_true, Bool.false_eq_true, if_false, h1 n (by omega), condCand, h2 n (by omega)]

theorem condTry_total {srt : List OLit → List OLit} {orient : Lit → Bool} {C : List OLit}
    (hC : sg.WTClause (OLit.plain C)) (ps : List (Nat × Nat × Bool)) :
    ∃ N r, ∀ n ≥ N, condTry sg pp n srt orient C ps = some r := by
  induction ps with
  | nil => exact ⟨0, _, fun _ _ => rfl⟩
  | cons p ps ih =>
    obtain ⟨i, j, s⟩ := p
    obtain ⟨N1, r1, h1⟩ := tryCondensation_total (pp := pp) (srt := srt) (orient := orient) hC i j s
    obtain ⟨N2, r2, h2⟩ := ih
    cases r1 with
    | some D => exact ⟨N1, some D, fun n hn => by rw [condTry, h1 n hn]⟩
    | none => exact ⟨max N1 N2, r2, fun n hn => by rw [condTry, h1 n (by omega)]; exact h2 n (by omega)⟩

/-- C27: condensation ends; the loop body succeeds fewer times than the clause has literals. -/
theorem condense_terminates (hsg : SigOK sg) {srt : List OLit → List OLit} (hs : ∀ C, (srt C).Perm C)
    {orient : Lit → Bool} {C : List OLit} (hC : sg.WTClause (OLit.plain C)) :
    ∃ N D, ∀ n ≥ N, condense sg pp n srt orient (C.length + 1) C = some D := by
  unfold condense
  split
  swap
  · exact ⟨0, _, fun _ _ => rfl⟩
  have key : ∀ (k : Nat) (C : List OLit), sg.WTClause (OLit.plain C) → C.length < k →
      ∃ N D, ∀ n ≥ N, condLoop sg pp n srt orient k C = some D := by
    intro k
    induction k with
    | zero => intro C _ h; omega
    | succ k ih =>
      intro C hC hl
      obtain ⟨N1, r, h1⟩ := condTry_total (pp := pp) (srt := srt) (orient := orient) hC (condPairs C)
      cases r with
      | none => exact ⟨N1, C, fun n hn => by rw [condLoop, condenseOnce, h1 n hn]⟩
      | some E =>
        obtain ⟨-, h3, h4⟩ := condenseOnce_spec.{0} hsg hs hC (h1 N1 (le_refl _))
        obtain ⟨N2, D, h2⟩ := ih E h3 (by omega)
        exact ⟨max N1 N2, D, fun n hn => by
          rw [condLoop, condenseOnce, h1 n (by omega)]; exact h2 n (by omega)⟩
  exact key _ _ (wt_perm (plain_perm (hs C).symm) hC) (by rw [(hs C).length_eq]; omega)

/-! ## Contextual simplify-reflect -/

theorem clauseTrue_flip (I : Interp.{u} sg) (v : Nat → I.D) (h : Nat) (C : List Cell)
    (hC : I.ClauseTrue v (OLit.plain (Cell.lits C))) (hF : I.ClauseTrue v (OLit.plain (Cell.lits (flipCell h C)))) 
    (hn : (C.map (·.id)).Nodup) :
    I.ClauseTrue v (OLit.plain (Cell.lits (C.filter fun c => c.id ≠ h))) := by
  simp only [ClauseTrue, OLit.plain, Cell.lits, flipCell, List.map_map, List.mem_map, Function.comp] at hC hF ⊢
  obtain ⟨_, ⟨c, hc, rfl⟩, ht⟩ := hC
  by_cases hch : c.id = h
  · obtain ⟨_, ⟨d, hd, rfl⟩, ht'⟩ := hF
    by_cases hdh : d.id = h
    · exfalso
      have : c = d := List.inj_on_of_nodup_map hn hc hd (by rw [hch, hdh])
      subst this
      rw [if_pos hch] at ht'
      simp only [LitTrue, OLit.flip] at ht ht'
      cases hp : c.lit.pos <;> simp [hp] at ht ht' <;> exact absurd ht' (by simpa using ht)
    · rw [if_neg hdh] at ht'
      exact ⟨_, ⟨d, List.mem_filter.2 ⟨hd, by simpa using hdh⟩, rfl⟩, ht'⟩
  · exact ⟨_, ⟨c, List.mem_filter.2 ⟨hc, by simpa using hch⟩, rfl⟩, ht⟩

theorem flipCell_ids (h : Nat) (C : List Cell) : (flipCell h C).map (·.id) = C.map (·.id) := by
  simp only [flipCell, List.map_map]
  apply List.map_congr_left
  intro c _
  simp only [Function.comp]
  split <;> rfl

theorem flip_flip (L : OLit) : L.flip.flip = L := by
  cases L; simp [OLit.flip]

theorem flipCell_flipCell (h : Nat) (C : List Cell) : flipCell h (flipCell h C) = C := by
  simp only [flipCell, List.map_map]
  conv_rhs => rw [← List.map_id C]
  apply List.map_congr_left
  intro c _
  simp only [Function.comp, id]
  by_cases hc : c.id = h
  · obtain ⟨i, L⟩ := c
    simp only at hc
    subst hc
    simp [flip_flip]
  · simp [hc]

theorem flipCell_filter (h : Nat) (C : List Cell) :
    (flipCell h C).filter (fun c => c.id ≠ h) = C.filter fun c => c.id ≠ h := by
  induction C with
  | nil => rfl
  | cons c C ih =>
    simp only [flipCell, List.map_cons] at ih ⊢
    by_cases hc : c.id = h
    · rw [if_pos hc, List.filter_cons_of_neg (by simp [hc]), List.filter_cons_of_neg (by simp [hc]), ih]
    · rw [if_neg hc, List.filter_cons_of_pos (by simp [hc]), List.filter_cons_of_pos (by simp [hc]), ih]

theorem flipCell_wt {h : Nat} {C : List Cell} (hC : sg.WTClause (OLit.plain (Cell.lits C))) :
    sg.WTClause (OLit.plain (Cell.lits (flipCell h C))) := by
  intro L hL
  simp only [OLit.plain, Cell.lits, flipCell, List.map_map, List.mem_map, Function.comp] at hL
  obtain ⟨c, hc, rfl⟩ := hL
  have := hC c.lit.toLit (by simp only [OLit.plain, Cell.lits, List.map_map, List.mem_map]; exact ⟨c, hc, rfl⟩)
  split
  · exact this
  · exact this

theorem cells_perm {C D : List Cell} (h : C.Perm D) : (OLit.plain (Cell.lits C)).Perm (OLit.plain (Cell.lits D)) :=
  (h.map _).map _

theorem contextSRLoop_spec {srt : List Cell → List Cell} (hs : ∀ C, (srt C).Perm C) {S : List (List OLit)}
    {hd : List Nat} {C : List Cell} (hn : (C.map (·.id)).Nodup) (hC : sg.WTClause (OLit.plain (Cell.lits C))) :
    (∀ P ∈ (contextSRLoop sg pp srt S hd C).2, P ∈ S) ∧
    Entails.{u} sg (OLit.plain (Cell.lits C) :: ((contextSRLoop sg pp srt S hd C).2.map OLit.plain))
      (OLit.plain (Cell.lits (contextSRLoop sg pp srt S hd C).1)) ∧
    (contextSRLoop sg pp srt S hd C).1.Subperm C := by
  induction hd generalizing C with
  | nil => exact ⟨by simp [contextSRLoop], fun I hI => hI _ (by simp [contextSRLoop]), List.Subperm.refl _⟩
  | cons h hd ih =>
    rw [contextSRLoop]
    have hperm := hs (flipCell h C)
    have hwf : sg.WTClause (OLit.plain (Cell.lits (srt (flipCell h C)))) :=
      wt_perm (cells_perm hperm.symm) (flipCell_wt hC)
    cases hsub : setSubsumes sg pp S (Cell.lits (srt (flipCell h C))) with
    | none =>
      simp only
      have hp2 : (flipCell h (srt (flipCell h C))).Perm C := by
        have := hperm.map fun c : Cell => if c.id = h then ⟨c.id, c.lit.flip⟩ else c
        have e := flipCell_flipCell h C
        unfold flipCell at this e ⊢
        rwa [e] at this
      obtain ⟨h1, h2, h3⟩ := ih (C := flipCell h (srt (flipCell h C)))
        ((hp2.map _).nodup_iff.2 hn) (wt_perm (cells_perm hp2.symm) hC)
      refine ⟨h1, fun I hI => h2 I ?_, h3.trans hp2.subperm⟩
      intro D hD
      rcases List.mem_cons.1 hD with rfl | hD
      · exact (sameModels_perm (cells_perm hp2.symm)).1 I (by
          intro D hD; simp at hD; subst hD; exact hI _ (by simp))
      · exact hI D (List.mem_cons_of_mem _ hD)
    | some P =>
      simp only
      have hp2 : ((srt (flipCell h C)).filter fun c => c.id ≠ h).Perm (C.filter fun c => c.id ≠ h) := by
        have := hperm.filter fun c => decide (c.id ≠ h)
        rwa [flipCell_filter] at this
      have hsl : (C.filter fun c => c.id ≠ h).Sublist C := List.filter_sublist
      have hwt2 : sg.WTClause (OLit.plain (Cell.lits ((srt (flipCell h C)).filter fun c => c.id ≠ h))) := by
        refine wt_perm (cells_perm hp2.symm) fun L hL => hC L ?_
        exact (((hsl.map _).map _).subset hL)
      obtain ⟨hPS, hent⟩ := setSubsumes_sound.{u} hwf hsub
      obtain ⟨h1, h2, h3⟩ := ih (C := (srt (flipCell h C)).filter fun c => c.id ≠ h)
        ((hp2.map _).nodup_iff.2 (hn.sublist (hsl.map _))) hwt2
      refine ⟨?_, fun I hI => h2 I ?_, h3.trans (hp2.subperm.trans hsl.subperm)⟩
      · intro Q hQ
        rcases List.mem_cons.1 hQ with rfl | hQ
        · exact hPS
        · exact h1 Q hQ
      · intro D hD
        rcases List.mem_cons.1 hD with rfl | hD
        · intro v hv
          have a1 := hI (OLit.plain (Cell.lits C)) (by simp) v hv
          have a2 := hent I (by intro D hD; simp at hD; subst hD; exact hI _ (by simp)) v hv
          have a3 : I.ClauseTrue v (OLit.plain (Cell.lits (flipCell h C))) := by
            obtain ⟨L, hL, ht⟩ := a2
            exact ⟨L, (cells_perm hperm).mem_iff.1 hL, ht⟩
          obtain ⟨L, hL, ht⟩ := clauseTrue_flip I v h C a1 a3 hn
          exact ⟨L, (cells_perm hp2).mem_iff.2 hL, ht⟩
        · exact hI D (by simp only [List.map_cons, List.mem_cons]; exact Or.inr (Or.inr hD))

/-- C27, contextual simplify-reflect: the clauses recorded as parents are in the set; they and the old clause imply the
new clause; the new clause consists of literals of the old one (each used at most once), hence implies it. -/
theorem contextSR_sound {srt : List Cell → List Cell} (hs : ∀ C, (srt C).Perm C) {S : List (List OLit)}
    {C : List Cell} (hn : (C.map (·.id)).Nodup) (hC : sg.WTClause (OLit.plain (Cell.lits C))) {D : List Cell}
    {Ps : List (List OLit)} (h : contextSR sg pp srt S C = (D, Ps)) :
    (∀ P ∈ Ps, P ∈ S) ∧
    Entails.{u} sg (OLit.plain (Cell.lits C) :: Ps.map OLit.plain) (OLit.plain (Cell.lits D)) ∧
    (Cell.lits D).Subperm (Cell.lits C) ∧
    Entails.{u} sg [OLit.plain (Cell.lits D)] (OLit.plain (Cell.lits C)) := by
  obtain ⟨h1, h2, h3⟩ := contextSRLoop_spec.{u} (pp := pp) hs (S := S) (hd := (C.map (·.id)).reverse) hn hC
  unfold contextSR at h
  rw [h] at h1 h2 h3
  obtain ⟨E, hp, hsl⟩ := h3
  have h4 : (Cell.lits D).Subperm (Cell.lits C) := ⟨Cell.lits E, hp.map _, hsl.map _⟩
  refine ⟨h1, h2, h4, entails_of_subset fun L hL => ?_⟩
  obtain ⟨K, hK, rfl⟩ := List.mem_map.1 hL
  exact List.mem_map.2 ⟨K, h4.subset hK, rfl⟩

theorem contextSRLoop_count {srt : List Cell → List Cell} (hs : ∀ C, (srt C).Perm C) {S : List (List OLit)}
    {hd : List Nat} {C : List Cell} (hn : (C.map (·.id)).Nodup) (hh : ∀ h ∈ hd, h ∈ C.map (·.id)) (hnd : hd.Nodup) :
    (contextSRLoop sg pp srt S hd C).1.length + (contextSRLoop sg pp srt S hd C).2.length = C.length := by
  induction hd generalizing C with
  | nil => simp [contextSRLoop]
  | cons h hd ih =>
    rw [contextSRLoop]
    have hperm := hs (flipCell h C)
    obtain ⟨hnh, hnd'⟩ := List.nodup_cons.1 hnd
    cases hsub : setSubsumes sg pp S (Cell.lits (srt (flipCell h C))) with
    | none =>
      simp only
      have e : ((flipCell h (srt (flipCell h C))).map (·.id)).Perm (C.map (·.id)) := by
        rw [flipCell_ids, ← flipCell_ids h C]; exact hperm.map _
      rw [ih (e.nodup_iff.2 hn) (fun x hx => e.mem_iff.2 (hh x (List.mem_cons_of_mem _ hx))) hnd']
      have := e.length_eq
      simpa using this
    | some P =>
      simp only
      have hp2 : ((srt (flipCell h C)).filter fun c => c.id ≠ h).Perm (C.filter fun c => c.id ≠ h) := by
        have := hperm.filter fun c => decide (c.id ≠ h)
        rwa [flipCell_filter] at this
      have hsl : (C.filter fun c => c.id ≠ h).Sublist C := List.filter_sublist
      have key := ih (C := (srt (flipCell h C)).filter fun c => c.id ≠ h)
        ((hp2.map _).nodup_iff.2 (hn.sublist (hsl.map _)))
        (fun x hx => by
          rw [(hp2.map _).mem_iff]
          obtain ⟨c, hc, rfl⟩ := List.mem_map.1 (hh x (List.mem_cons_of_mem _ hx))
          refine List.mem_map.2 ⟨c, List.mem_filter.2 ⟨hc, ?_⟩, rfl⟩
          simp only [ne_eq, decide_not, Bool.not_eq_true', decide_eq_false_iff_not]
          intro e
          rw [e] at hx
          exact hnh hx) hnd'
      have hlen : (C.filter fun c => c.id ≠ h).length + 1 = C.length := by
        clear key hp2 hsl ih hsub hperm
        have hm := hh h (by simp)
        clear hh hnd hnh hnd'
        induction C with
        | nil => simp at hm
        | cons c C ihC =>
          simp only [List.map_cons, List.nodup_cons] at hn
          by_cases hc : c.id = h
          · rw [List.filter_cons_of_neg (by simp [hc])]
            have : C.filter (fun c => decide (c.id ≠ h)) = C := by
              refine List.filter_eq_self.2 fun d hd => ?_
              simp only [ne_eq, decide_not, Bool.not_eq_true', decide_eq_false_iff_not]
              intro e
              exact hn.1 (List.mem_map.2 ⟨d, hd, by rw [e, hc]⟩)
            rw [this]
            simp
          · rw [List.filter_cons_of_pos (by simp [hc])]
            have := ihC hn.2 (by
              simp only [List.map_cons, List.mem_cons] at hm
              exact hm.resolve_left (fun e => hc e.symm))
            simp only [List.length_cons]
            omega
      have hl := hp2.length_eq
      simp only [List.length_cons]
      omega

/-- C27: one parent is recorded for every literal removed. -/
theorem contextSR_count {srt : List Cell → List Cell} (hs : ∀ C, (srt C).Perm C) {S : List (List OLit)}
    {C : List Cell} (hn : (C.map (·.id)).Nodup) {D : List Cell} {Ps : List (List OLit)}
    (h : contextSR sg pp srt S C = (D, Ps)) : D.length + Ps.length = C.length := by
  have := contextSRLoop_count (sg := sg) (pp := pp) hs (S := S) (hd := (C.map (·.id)).reverse) hn (by simp)
    (List.nodup_reverse.2 hn)
  unfold contextSR at h
  rwa [h] at this

/-- The clauses collected for backward contextual simplification are implied by the clause with
one of its literals negated. -/
theorem findContextSR_sound {srt : List Cell → List Cell} (hs : ∀ C, (srt C).Perm C) {S : List (List OLit)}
    (hS : ∀ D ∈ S, sg.WTClause (OLit.plain D)) {hd : List Nat} {C : List Cell} {D : List OLit}
    (h : D ∈ findContextSR sg pp srt S hd C) :
    D ∈ S ∧ ∃ h ∈ hd, Entails.{u} sg [OLit.plain (Cell.lits (flipCell h C))] (OLit.plain D) := by
  induction hd generalizing C with
  | nil => simp [findContextSR] at h
  | cons x hd ih =>
    rw [findContextSR] at h
    rcases List.mem_append.1 h with h | h
    · obtain ⟨h1, h2⟩ := List.mem_filter.1 h
      refine ⟨h1, x, by simp, fun I hI => ?_⟩
      refine subsumes_sound (hS D h1) h2 I ?_
      intro E hE
      simp only [List.mem_singleton] at hE
      subst hE
      exact (sameModels_perm (cells_perm (hs _).symm)).1 I hI
    · obtain ⟨h1, y, hy, h2⟩ := ih h
      refine ⟨h1, y, List.mem_cons_of_mem _ hy, fun I hI => h2 I ?_⟩
      intro E hE
      simp only [List.mem_singleton] at hE
      subst hE
      have hp2 : (flipCell x (srt (flipCell x C))).Perm C := by
        have := (hs (flipCell x C)).map fun c : Cell => if c.id = x then ⟨c.id, c.lit.flip⟩ else c
        have e := flipCell_flipCell x C
        unfold flipCell at this e ⊢
        rwa [e] at this
      exact (sameModels_perm (cells_perm (hp2.map fun c : Cell =>
        if c.id = y then (⟨c.id, c.lit.flip⟩ : Cell) else c))).2 I hI

/-! ## Examples -/

private def sgK : Sig := { vty := fun _ => 1, fty := fun f => if f = 10 then 0 else 1, fargs := fun f => if f = 10 then [1, 1] else [], distinct := fun _ => false }
private def pXY : OLit := ⟨⟨true, .app 10 [.var 2, .var 4], tTrue⟩, true⟩
private def pXX : OLit := ⟨⟨true, .app 10 [.var 2, .var 2], tTrue⟩, true⟩
private def pa : OLit := ⟨⟨true, .app 10 [.app 20 [], .app 21 []], tTrue⟩, true⟩
private def npa : OLit := pa.flip

/-- `p(X,X) | p(X,Y)` condenses to `p(X,X)`, `p(X,Y) | p(X,Z)` to one literal, `p(X,Y) | p(Y,X)` not at all. -/
example : condense sgK (fun _ => false) 10 id (fun _ => true) 3 [pXX, pXY] = some [pXX] := by decide

example : condense sgK (fun _ => false) 10 id (fun _ => true) 3
    [⟨⟨true, .app 10 [.var 2, .var 4], tTrue⟩, true⟩, ⟨⟨true, .app 10 [.var 2, .var 6], tTrue⟩, true⟩]
    = some [⟨⟨true, .app 10 [.var 2, .var 4], tTrue⟩, true⟩] := by decide

example : condense sgK (fun _ => false) 10 id (fun _ => true) 3
    [⟨⟨true, .app 10 [.var 2, .var 4], tTrue⟩, true⟩, ⟨⟨true, .app 10 [.var 4, .var 2], tTrue⟩, true⟩]
    = some [⟨⟨true, .app 10 [.var 2, .var 4], tTrue⟩, true⟩, ⟨⟨true, .app 10 [.var 4, .var 2], tTrue⟩, true⟩] := by decide

/-- `p(a,b) | p(X,X)` with the clause `~p(a,b) | p(X,X)` becomes `p(X,X)`. -/
example : (contextSR sgK (fun _ => false) id [[npa, pXX]] [⟨1, pa⟩, ⟨2, pXX⟩]).1.map (·.id) = [2] := by decide

end Verif.Props
