import Verif.Clauses.BceCheck

/-!
# Blocked clause elimination: occurrences and the main loop
-/

namespace Verif.BceProof
open SemProof Props CNFProof SaturateProof Term

universe u

variable {sg : Sig}

/-! ## The occurrence map -/

/-- The map knows all the literals in `acc`. -/
def MapOK (acc : Nat → Lit → Prop) (m : SymMap) : Prop :=
  ∀ f pos, m f pos ≠ some [] → ∀ i L, acc i L → L.predCode? = some f → L.pos = pos → i ∈ (m f pos).getD []

theorem symAdd_ok (limit i : Nat) {acc : Nat → Lit → Prop} {m : SymMap} (h : MapOK acc m) (L : Lit) :
    MapOK (fun i' L' => acc i' L' ∨ (i' = i ∧ L' = L)) (symAdd limit i m L) := by
  unfold symAdd
  split
  · next e =>
    rintro f pos hm i' L' (h' | ⟨rfl, rfl⟩) h1 h2
    · exact h f pos hm i' L' h' h1 h2
    · rw [e] at h1; cases h1
  · next f e =>
    split
    · next hb =>
      rintro g pos hm i' L' (h' | ⟨rfl, rfl⟩) h1 h2
      · exact h g pos hm i' L' h' h1 h2
      · rw [e] at h1
        cases h1
        exact absurd (h2 ▸ hb) hm
    · next hb =>
      split
      · rintro g pos hm i' L' hL h1 h2
        by_cases hg : g = f
        · subst hg
          refine absurd ?_ hm
          by_cases hp : pos = L.pos
          · simp only [SymMap.set, hp]; simp
          · have : pos = !L.pos := by revert hp; cases pos <;> cases L.pos <;> simp
            simp [SymMap.set, this]
        · have : ((m.set f L.pos []).set f (!L.pos) []) g pos = m g pos := by simp [SymMap.set, hg]
          rw [this] at hm ⊢
          rcases hL with h' | ⟨rfl, rfl⟩
          · exact h g pos hm i' L' h' h1 h2
          · rw [e] at h1; cases h1; exact absurd rfl hg
      · have key : ∀ l, (∀ x ∈ (m f L.pos).getD [], x ∈ l) → i ∈ l → MapOK (fun i' L' => acc i' L' ∨ (i' = i ∧ L' = L)) (m.set f L.pos l) := by
          intro l hl hi g pos hm i' L' hL h1 h2
          by_cases hg : g = f ∧ pos = L.pos
          · obtain ⟨rfl, rfl⟩ := hg
            have e2 : (m.set g L.pos l) g L.pos = some l := by simp [SymMap.set]
            rw [e2]
            rcases hL with h' | ⟨rfl, rfl⟩
            · exact hl _ (h g L.pos hb i' L' h' h1 h2)
            · exact hi
          · have e2 : (m.set f L.pos l) g pos = m g pos := by simp only [SymMap.set, if_neg hg]
            rw [e2] at hm ⊢
            rcases hL with h' | ⟨rfl, rfl⟩
            · exact h g pos hm i' L' h' h1 h2
            · rw [e] at h1; cases h1; exact absurd ⟨rfl, h2.symm⟩ hg
        split
        · next e2 => exact key [i] (by simp [e2]) (by simp)
        · next l e2 =>
          split
          · next e3 =>
            rintro g pos hm i' L' (h' | ⟨rfl, rfl⟩) h1 h2
            · exact h g pos hm i' L' h' h1 h2
            · rw [e] at h1
              cases h1
              subst h2
              rw [e2]
              exact List.mem_of_getLast? e3
          · exact key (l ++ [i]) (by simp [e2]; exact fun x hx => .inl hx) (by simp)

theorem mapOK_mono {acc acc' : Nat → Lit → Prop} {m : SymMap} (h : MapOK acc m) (h' : ∀ i L, acc' i L → acc i L) : MapOK acc' m :=
  fun f pos hm i L hL => h f pos hm i L (h' i L hL)

theorem symAdds_ok (limit i : Nat) : ∀ (C : List Lit) {acc : Nat → Lit → Prop} {m : SymMap}, MapOK acc m →
    MapOK (fun i' L' => acc i' L' ∨ (i' = i ∧ L' ∈ C)) (C.foldl (symAdd limit i) m)
  | [], acc, m, h => mapOK_mono h fun i L h => h.resolve_right (by simp)
  | K :: C, acc, m, h => by
    refine mapOK_mono (symAdds_ok limit i C (symAdd_ok limit i h K)) ?_
    rintro i' L' (h | ⟨h1, h2⟩)
    · exact .inl (.inl h)
    · rcases List.mem_cons.1 h2 with rfl | h2
      · exact .inl (.inr ⟨h1, rfl⟩)
      · exact .inr ⟨h1, h2⟩

theorem makeSymMap_ok (limit : Nat) (Cs : List (List Lit)) : MapOK (fun i L => ∃ C, Cs[i]? = some C ∧ L ∈ C) (makeSymMap limit Cs) := by
  have key : ∀ (l : List (List Lit × Nat)) {acc : Nat → Lit → Prop} {m : SymMap}, MapOK acc m →
      MapOK (fun i' L' => acc i' L' ∨ ∃ c ∈ l, i' = c.2 ∧ L' ∈ c.1) (l.foldl (fun m c => c.1.foldl (symAdd limit c.2) m) m) := by
    intro l
    induction l with
    | nil => exact fun h => mapOK_mono h fun i L h => h.resolve_right (by simp)
    | cons c l ih =>
      intro acc m h
      refine mapOK_mono (ih (symAdds_ok limit c.2 c.1 h)) ?_
      rintro i' L' (h | ⟨c', h1, h2, h3⟩)
      · exact .inl (.inl h)
      · rcases List.mem_cons.1 h1 with rfl | h1
        · exact .inl (.inr ⟨h2, h3⟩)
        · exact .inr ⟨c', h1, h2, h3⟩
  refine mapOK_mono (key Cs.zipIdx (acc := fun _ _ => False) (m := fun _ _ => none) (fun _ _ _ _ _ h => h.elim)) ?_
  rintro i L ⟨C, h1, h2⟩
  exact .inr ⟨(C, i), List.mem_zipIdx_iff_getElem?.2 h1, rfl, h2⟩

/-! ## Tasks -/

/-- All clauses with a complementary predicate have been dealt with or satisfy `P`. -/
def Covered (Cs : List (List Lit)) (cl lit : Nat) (P : Nat → Prop) : Prop :=
  ∃ C L f, Cs[cl]? = some C ∧ (copyDisjoint C)[lit]? = some L ∧ L.predCode? = some f ∧
    ∀ i D, Cs[i]? = some D → (∃ K ∈ D, K.predCode? = some f ∧ K.pos = !L.pos) → P i

theorem covered_mono {Cs : List (List Lit)} {cl lit : Nat} {P Q : Nat → Prop} (h : Covered Cs cl lit P) (hPQ : ∀ i, P i → Q i) : Covered Cs cl lit Q := by
  obtain ⟨C, L, f, h1, h2, h3, h4⟩ := h
  exact ⟨C, L, f, h1, h2, h3, fun i D hi hK => hPQ i (h4 i D hi hK)⟩

/-- The task knows all the candidates it has to look at. -/
def TaskOK (Cs : List (List Lit)) (check : Nat → Nat → Nat → Option Bool) (arch : List Nat) (t : BceTask) : Prop :=
  Covered Cs t.cl t.lit fun i => i = t.cl ∨ i ∈ arch ∨ check t.cl t.lit i = some true ∨ i ∈ t.rem

theorem makeTasks_ok (limit : Nat) (Cs : List (List Lit)) (check : Nat → Nat → Nat → Option Bool) (t : BceTask) (ht : t ∈ makeTasks (makeSymMap limit Cs) Cs) :
    TaskOK Cs check [] t := by
  unfold makeTasks at ht
  obtain ⟨⟨C, cl⟩, hC, ht⟩ := List.mem_flatMap.1 ht
  obtain ⟨⟨L, lit⟩, hL, ht⟩ := List.mem_filterMap.1 ht
  simp only at ht hL
  rw [List.mem_zipIdx_iff_getElem?] at hC hL
  split at ht
  · cases ht
  · next f e =>
    split at ht
    · cases ht
    · next hb =>
      cases ht
      refine ⟨C, L, f, hC, hL, e, fun i D hi hK => .inr (.inr (.inr ?_))⟩
      obtain ⟨K, hK, h1, h2⟩ := hK
      exact makeSymMap_ok limit Cs f (!L.pos) hb i K ⟨D, hi, hK⟩ h1 h2

theorem skip_spec {check : Nat → Option Bool} {arch : List Nat} {cl : Nat} : ∀ {cs r : List Nat}, skipCands check arch cl cs = some r →
    (∀ i ∈ cs, i = cl ∨ i ∈ arch ∨ check i = some true ∨ i ∈ r) ∧ r.length ≤ cs.length
  | [], r, h => by
    simp [skipCands] at h
    subst h
    simp
  | c :: cs, r, h => by
    unfold skipCands at h
    split at h
    · next hc =>
      obtain ⟨h1, h2⟩ := skip_spec h
      refine ⟨fun i hi => ?_, by simp; omega⟩
      rcases List.mem_cons.1 hi with rfl | hi
      · rcases hc with hc | hc
        · exact .inl hc
        · exact .inr (.inl hc)
      · exact h1 i hi
    · split at h
      · cases h
      · next e =>
        obtain ⟨h1, h2⟩ := skip_spec h
        refine ⟨fun i hi => ?_, by simp; omega⟩
        rcases List.mem_cons.1 hi with rfl | hi
        · exact .inr (.inr (.inl e))
        · exact h1 i hi
      · cases h
        exact ⟨fun i hi => .inr (.inr (.inr hi)), Nat.le_refl _⟩

/-- State of the loop. -/
structure LoopOK (Cs : List (List Lit)) (check : Nat → Nat → Nat → Option Bool) (s : BceSt) : Prop where
  queue : ∀ t ∈ s.queue, TaskOK Cs check s.arch t
  blocked : ∀ b ∈ s.blocked, TaskOK Cs check s.arch b.2 ∧ ∃ cs, b.2.rem = b.1 :: cs

theorem pick_mem {q : List BceTask} {i : Nat} {t : BceTask} (h : q[i]? = some t) : t ∈ q := List.mem_of_getElem? h

/-- The steps of the loop keep the invariant. -/
theorem step_drop {Cs : List (List Lit)} {check : Nat → Nat → Nat → Option Bool} {s : BceSt} (h : LoopOK Cs check s) (i : Nat) :
    LoopOK Cs check ⟨s.queue.eraseIdx i, s.blocked, s.arch⟩ := ⟨fun t ht => h.queue t (List.mem_of_mem_eraseIdx ht), h.blocked⟩

theorem step_block {Cs : List (List Lit)} {check : Nat → Nat → Nat → Option Bool} {s : BceSt} (h : LoopOK Cs check s) (i : Nat) {t : BceTask} (ht : t ∈ s.queue) {c : Nat} {cs : List Nat}
    (hr : skipCands (check t.cl t.lit) s.arch t.cl t.rem = some (c :: cs)) :
    LoopOK Cs check ⟨s.queue.eraseIdx i, (c, ⟨t.cl, t.lit, c :: cs⟩) :: s.blocked, s.arch⟩ := by
  refine ⟨fun t ht => h.queue t (List.mem_of_mem_eraseIdx ht), fun b hb => ?_⟩
  rcases List.mem_cons.1 hb with rfl | hb
  · refine ⟨covered_mono (h.queue t ht) fun i hi => ?_, cs, rfl⟩
    rcases hi with hi | hi | hi | hi
    · exact .inl hi
    · exact .inr (.inl hi)
    · exact .inr (.inr (.inl hi))
    · exact (skip_spec hr).1 i hi
  · exact h.blocked b hb

theorem taskOK_arch {Cs : List (List Lit)} {check : Nat → Nat → Nat → Option Bool} {arch : List Nat} {t : BceTask} (h : TaskOK Cs check arch t) (c : Nat) :
    TaskOK Cs check (c :: arch) t := covered_mono h fun i hi => by
  rcases hi with hi | hi | hi | hi
  · exact .inl hi
  · exact .inr (.inl (List.mem_cons_of_mem _ hi))
  · exact .inr (.inr (.inl hi))
  · exact .inr (.inr (.inr hi))

theorem step_done {Cs : List (List Lit)} {check : Nat → Nat → Nat → Option Bool} {s : BceSt} (h : LoopOK Cs check s) (i c : Nat) :
    LoopOK Cs check ⟨s.queue.eraseIdx i ++ (s.blocked.filter fun b => b.1 = c).map fun b => ⟨b.2.cl, b.2.lit, b.2.rem.tail⟩,
      s.blocked.filter fun b => b.1 ≠ c, c :: s.arch⟩ := by
  refine ⟨fun t ht => ?_, fun b hb => ?_⟩
  · rcases List.mem_append.1 ht with ht | ht
    · exact taskOK_arch (h.queue t (List.mem_of_mem_eraseIdx ht)) c
    · obtain ⟨b, hb, rfl⟩ := List.mem_map.1 ht
      rw [List.mem_filter, decide_eq_true_eq] at hb
      obtain ⟨h1, cs, h2⟩ := h.blocked b hb.1
      refine covered_mono (taskOK_arch h1 c) fun i hi => ?_
      rcases hi with hi | hi | hi | hi
      · exact .inl hi
      · exact .inr (.inl hi)
      · exact .inr (.inr (.inl hi))
      · rw [h2] at hi
        rcases List.mem_cons.1 hi with rfl | hi
        · exact .inr (.inl (by rw [hb.2]; exact List.mem_cons_self))
        · exact .inr (.inr (.inr (by rw [h2]; exact hi)))
  · rw [List.mem_filter] at hb
    exact ⟨taskOK_arch (h.blocked b hb.1).1 c, (h.blocked b hb.1).2⟩

/-- What holds at the start and is kept by eliminating clauses that pass all tests holds at the end. -/
theorem loop_inv {Cs : List (List Lit)} {check : Nat → Nat → Nat → Option Bool} {pick : List BceTask → Nat} {Q : List Nat → Prop}
    (hstep : ∀ arch cl lit, cl ∉ arch → Covered Cs cl lit (fun i => i = cl ∨ i ∈ arch ∨ check cl lit i = some true) → Q arch → Q (cl :: arch)) :
    ∀ {n : Nat} {s : BceSt} {arch : List Nat}, LoopOK Cs check s → Q s.arch → bceLoop check pick n s = some arch → Q arch
  | 0, _, _, _, _, h => by simp [bceLoop] at h
  | n + 1, s, arch, hs, hQ, h => by
    unfold bceLoop at h
    split at h
    · cases h; exact hQ
    · next t e =>
      have ht := pick_mem e
      simp only at h
      split at h
      · exact loop_inv hstep (step_drop hs _) hQ h
      · next hna =>
        split at h
        · cases h
        · next e2 =>
          refine loop_inv hstep (step_done hs _ t.cl) (hstep _ _ t.lit hna ?_ hQ) h
          refine covered_mono (hs.queue t ht) fun i hi => ?_
          rcases hi with hi | hi | hi | hi
          · exact .inl hi
          · exact .inr (.inl hi)
          · exact .inr (.inr hi)
          · rcases (skip_spec e2).1 i hi with hi | hi | hi | hi
            · exact .inl hi
            · exact .inr (.inl hi)
            · exact .inr (.inr hi)
            · cases hi
        · next e2 => exact loop_inv hstep (step_block hs _ ht e2) hQ h

/-! ## The steps on models -/

theorem mem_kept {Cs : List (List Lit)} {arch : List Nat} {D : List Lit} : D ∈ keptClauses Cs arch ↔ ∃ i, Cs[i]? = some D ∧ i ∉ arch := by
  unfold keptClauses
  constructor
  · intro h
    obtain ⟨⟨D', i⟩, h', rfl⟩ := List.mem_map.1 h
    rw [List.mem_filter, List.mem_zipIdx_iff_getElem?] at h'
    exact ⟨i, h'.1, by simpa using h'.2⟩
  · rintro ⟨i, h1, h2⟩
    exact List.mem_map.2 ⟨(D, i), List.mem_filter.2 ⟨List.mem_zipIdx_iff_getElem?.2 h1, by simpa using h2⟩, rfl⟩

/-- Input of blocked clause elimination. -/
structure InputOK (sg : Sig) (Cs : List (List Lit)) : Prop where
  fo : ∀ C ∈ Cs, ∀ K ∈ C, FOLit sg K
  even : ∀ C ∈ Cs, EvenVars C

theorem copy_pred (hsg : SigOK sg) (hF : FOSig sg) {C : List Lit} (hC : ∀ K ∈ C, FOLit sg K) {lit : Nat} {L : Lit} {f : Nat} (h : (copyDisjoint C)[lit]? = some L)
    (hf : L.predCode? = some f) : PredOK sg f ∧ ∃ ts, C[lit]? = some ⟨L.pos, .app f ts, tTrue⟩ := by
  rw [copy_eq hC, csubst, List.getElem?_map] at h
  cases e : C[lit]? with
  | none => rw [e] at h; cases h
  | some L0 =>
    rw [e] at h
    cases h
    rcases lit_cases hsg hF (hC L0 (List.mem_of_getElem? e)) with ⟨h1, _, h3⟩ | ⟨g, ts, h1, h2, h3, h4, _, _, _⟩
    · have hne : ∀ L : Lit, L.equ = true → L.r.isVar = true ∨ ∃ g us, L.r = .app g us ∧ (g ≠ 1 ∨ us ≠ []) := by
        intro L hL
        cases hr : L.r with
        | var x => exact .inl rfl
        | app g us =>
          refine .inr ⟨g, us, rfl, ?_⟩
          by_contra hcon
          push Not at hcon
          simp [Lit.equ, hr, hcon.1, hcon.2, tTrue] at hL
      have he : (L0.subst fun x => .var (x - 1)).equ = true := by
        rcases hne L0 h1 with hr | ⟨g, us, hr, hg⟩
        · cases hr' : L0.r with
          | var x => simp [Lit.equ, Lit.subst, hr', subst, tTrue]
          | app g us => rw [hr'] at hr; cases hr
        · simp only [Lit.equ, Lit.subst, hr, subst_app, tTrue, decide_eq_true_eq, ne_eq, Term.app.injEq, List.map_eq_nil_iff]
          rintro ⟨rfl, rfl⟩
          simp at hg
      rw [Lit.predCode?, if_pos he] at hf
      cases hf
    · rw [h1] at hf ⊢
      simp [Lit.predCode?, Lit.subst, Lit.equ, subst_app, tTrue] at hf
      subst hf
      exact ⟨⟨h2, h3, h4⟩, ts, rfl⟩

section
variable (hsg : SigOK sg) (hF : FOSig sg) (ha : AltTyped sg) {Cs : List (List Lit)} (hin : InputOK sg Cs)
include hsg hF hin

/-- Elimination of one clause, for an interpretation where the test has the intended meaning. -/
theorem step_core (I : Interp.{u} sg) {arch : List Nat} {cl lit : Nat} {P : Nat → Prop} (hcov : Covered Cs cl lit fun i => i = cl ∨ i ∈ arch ∨ P i)
    (hP : ∀ i C D p pol ts (hp : PredOK sg p), P i → Cs[cl]? = some C → Cs[i]? = some D → C[lit]? = some ⟨pol, .app p ts, tTrue⟩ →
      ∀ (S : Set (List I.D)) (v w : Nat → I.D), I.Sorted v → I.Sorted w → ¬ (flipI hsg hF I hp pol S).ClauseTrue v C → (flipI hsg hF I hp pol S).ClauseTrue w D →
        ∃ K ∈ D, (flipI hsg hF I hp pol S).LitTrue w K ∧ ¬ Opp I p pol w (ts.map (I.eval v)) K)
    (hI : ∀ D ∈ keptClauses Cs (cl :: arch), I.Models D) :
    ∃ p pol S, ∃ hp : PredOK sg p, ∀ D ∈ keptClauses Cs arch, (flipI hsg hF I hp pol S).Models D := by
  obtain ⟨C, L, p, h1, h2, h3, h4⟩ := hcov
  have hCm := List.mem_of_getElem? h1
  obtain ⟨hp, ts, h5⟩ := copy_pred hsg hF (hin.fo C hCm) h2 h3
  have hmem : ∀ D ∈ keptClauses Cs (cl :: arch), D ∈ Cs := fun D hD => by
    obtain ⟨i, hi, _⟩ := mem_kept.1 hD
    exact List.mem_of_getElem? hi
  obtain ⟨S, hS1, hS2⟩ := flip_exists hsg hF I hp L.pos hI (fun D hD => hin.fo D (hmem D hD)) (hin.fo C hCm) (List.mem_of_getElem? h5) (by
    intro S v w hv hw D hD hf ht
    obtain ⟨i, hi, hia⟩ := mem_kept.1 hD
    rw [List.mem_cons, not_or] at hia
    by_cases hK : ∃ K ∈ D, K.predCode? = some p ∧ K.pos = !L.pos
    · rcases h4 i D hi hK with h | h | h
      · exact absurd h hia.1
      · exact absurd h hia.2
      · exact hP i C D p L.pos ts hp h h1 hi h5 S v w hv hw hf ht
    · obtain ⟨K, hKD, hKt⟩ := ht
      refine ⟨K, hKD, hKt, fun hO => hK ⟨K, hKD, ?_⟩⟩
      obtain ⟨us, rfl, _⟩ := hO
      exact ⟨by simp [Lit.predCode?, Lit.equ], rfl⟩)
  refine ⟨p, L.pos, S, hp, fun D hD => ?_⟩
  obtain ⟨i, hi, hia⟩ := mem_kept.1 hD
  by_cases hc : i = cl
  · subst hc
    rw [h1] at hi
    cases hi
    exact hS1
  · exact hS2 D (mem_kept.2 ⟨i, hi, by simp [hc, hia]⟩)

include ha

theorem step_eq {taut : List Lit → Bool} (htaut : ∀ X, taut X = true → Valid.{u} sg X) {pp : Term → Bool} {k : Nat} (he : eqFound Cs = true) {arch : List Nat} {cl lit : Nat}
    (hcov : Covered Cs cl lit fun i => i = cl ∨ i ∈ arch ∨ bceCheck sg taut pp k Cs cl lit i = some true) :
    Converts.{u} sg (PredOK sg) (keptClauses Cs (cl :: arch)) (keptClauses Cs arch) := by
  intro I hI
  obtain ⟨p, pol, S, hp, h⟩ := step_core hsg hF hin I hcov (by
    intro i C D p pol ts hp hc h1 h2 h3 S v w hv hw hf ht
    unfold bceCheck at hc
    simp only [he, h1, h2, if_true, Option.getD_some, Option.some.injEq] at hc
    exact checkEq_nobad hsg hF ha I hp htaut (hin.fo C (List.mem_of_getElem? h1)) (hin.fo D (List.mem_of_getElem? h2)) (hin.even C (List.mem_of_getElem? h1))
      (hin.even D (List.mem_of_getElem? h2)) h3 hc S v w hv hw hf ht) hI
  exact ⟨flipFn I p pol S, flip_ok hsg hF I hp pol S, fun s hs => flip_other I (fun e => hs (e ▸ hp)), h⟩

theorem step_neq (hV : ∀ ty, ty ≠ sg.fty 1 → ∃ x, sg.vty x = ty) {taut : List Lit → Bool} {pp : Term → Bool} {k : Nat} (he : eqFound Cs = false) {arch : List Nat} {cl lit : Nat}
    (hcov : Covered Cs cl lit fun i => i = cl ∨ i ∈ arch ∨ bceCheck sg taut pp k Cs cl lit i = some true)
    (I : Interp.{u} sg) (hI : ∀ D ∈ keptClauses Cs (cl :: arch), I.Models D) : ∃ J : Interp.{u} sg, ∀ D ∈ keptClauses Cs arch, J.Models D := by
  have hne : ∀ C ∈ Cs, ∀ K ∈ C, K.equ = false := by
    intro C hC K hK
    simp only [eqFound, List.any_eq_false, Bool.not_eq_true] at he
    exact he C hC K hK
  have hv0 : ∃ v0 : Nat → I.D, I.Sorted v0 := ⟨fun x => (I.inhab (sg.vty x)).choose, fun x => (I.inhab (sg.vty x)).choose_spec⟩
  obtain ⟨v0, hv0⟩ := hv0
  obtain ⟨p, pol, S, hp, h⟩ := step_core hsg hF hin (termModel hsg hF hV I v0) hcov (by
    intro i C D p pol ts hp hc h1 h2 h3 S v w hv hw hf ht
    unfold bceCheck at hc
    simp only [he, h1, h2, Option.getD_some, Bool.false_eq_true, if_false] at hc
    exact checkNeq_nobad hsg hF hV I v0 hp pol ha (hin.fo C (List.mem_of_getElem? h1)) (hin.fo D (List.mem_of_getElem? h2)) (hne C (List.mem_of_getElem? h1))
      (hne D (List.mem_of_getElem? h2)) (hin.even C (List.mem_of_getElem? h1)) (hin.even D (List.mem_of_getElem? h2)) h3 hc S v w hv hw hf ht) (fun D hD => by
      have hm : D ∈ Cs := by
        obtain ⟨i, hi, _⟩ := mem_kept.1 hD
        exact List.mem_of_getElem? hi
      exact tm_models hsg hF hV I v0 hv0 (hin.fo D hm) (hne D hm) (hI D hD))
  exact ⟨_, h⟩

end

theorem start_ok (limit : Nat) (Cs : List (List Lit)) (check : Nat → Nat → Nat → Option Bool) : LoopOK Cs check ⟨makeTasks (makeSymMap limit Cs) Cs, [], []⟩ :=
  ⟨makeTasks_ok limit Cs check, by simp⟩

end Verif.BceProof
