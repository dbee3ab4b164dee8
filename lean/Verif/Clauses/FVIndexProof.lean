import Verif.Clauses.FVIndexSpec
import Verif.Props.Subsume
import Mathlib.Data.List.Perm.Subperm
import Mathlib.Data.List.Nodup

/-!
# Features: occurrences of symbols
-/

namespace Verif.FVProof
open Verif Term

/-- Occurrence of a symbol: sign of the literal, code, depth. -/
abbrev Occ := Bool × Nat × Nat

mutual
def occT (b : Bool) : Term → Nat → List Occ
  | .var _, _ => []
  | .app f ts, d => (b, f, d) :: occL b ts (d + 1)
def occL (b : Bool) : List Term → Nat → List Occ
  | [], _ => []
  | t :: ts, d => occT b t d ++ occL b ts d
end

def occLit (L : Lit) : List Occ := occT L.pos L.l 0 ++ occT L.pos L.r 0
def occC (C : List Lit) : List Occ := C.flatMap occLit

/-! ## Embedding -/

def OLe (x y : Occ) : Prop := x.1 = y.1 ∧ x.2.1 = y.2.1 ∧ x.2.2 ≤ y.2.2

def Emb (A B : List Occ) : Prop := ∃ E, List.Forall₂ OLe A E ∧ List.Subperm E B

theorem OLe.refl (x : Occ) : OLe x x := ⟨rfl, rfl, Nat.le_refl _⟩

theorem forall2_refl (A : List Occ) : List.Forall₂ OLe A A := by
  induction A with
  | nil => exact .nil
  | cons a A ih => exact .cons (OLe.refl a) ih

theorem Emb.of_subperm {A B : List Occ} (h : List.Subperm A B) : Emb A B := ⟨A, forall2_refl A, h⟩

theorem Emb.refl (A : List Occ) : Emb A A := Emb.of_subperm (List.Subperm.refl A)

theorem Emb.append {A A' B B' : List Occ} (h : Emb A B) (h' : Emb A' B') : Emb (A ++ A') (B ++ B') := by
  obtain ⟨E, h1, h2⟩ := h
  obtain ⟨E', h3, h4⟩ := h'
  exact ⟨E ++ E', List.rel_append h1 h3, h2.append h4⟩

theorem Emb.mono {A B B' : List Occ} (h : Emb A B) (h' : List.Subperm B B') : Emb A B' := by
  obtain ⟨E, h1, h2⟩ := h
  exact ⟨E, h1, h2.trans h'⟩

theorem Emb.flatMap {α γ : Type} {R : α → γ → Prop} {C : List α} {E : List γ} {f : α → List Occ} {g : γ → List Occ}
    (h : List.Forall₂ R C E) (hR : ∀ a b, R a b → Emb (f a) (g b)) : Emb (C.flatMap f) (E.flatMap g) := by
  induction h with
  | nil => exact Emb.refl _
  | cons h _ ih => simpa using (hR _ _ h).append ih

mutual
theorem occT_shift (b : Bool) (t : Term) (d e : Nat) (h : d ≤ e) : List.Forall₂ OLe (occT b t d) (occT b t e) := by
  cases t with
  | var x => exact .nil
  | app f ts => exact .cons ⟨rfl, rfl, h⟩ (occL_shift b ts (d + 1) (e + 1) (by omega))
theorem occL_shift (b : Bool) (ts : List Term) (d e : Nat) (h : d ≤ e) : List.Forall₂ OLe (occL b ts d) (occL b ts e) := by
  cases ts with
  | nil => exact .nil
  | cons t ts => exact List.rel_append (occT_shift b t d e h) (occL_shift b ts d e h)
end

mutual
theorem occT_subst (b : Bool) (σ : Nat → Term) (t : Term) (d : Nat) : List.Sublist (occT b t d) (occT b (t.subst σ) d) := by
  cases t with
  | var x => exact List.nil_sublist _
  | app f ts =>
    rw [subst_app]
    exact (occL_subst b σ ts (d + 1)).cons_cons _
theorem occL_subst (b : Bool) (σ : Nat → Term) (ts : List Term) (d : Nat) :
    List.Sublist (occL b ts d) (occL b (ts.map fun t => t.subst σ) d) := by
  cases ts with
  | nil => exact List.nil_sublist _
  | cons t ts => exact (occT_subst b σ t d).append (occL_subst b σ ts d)
end

theorem occL_append (b : Bool) (ss ts : List Term) (d : Nat) : occL b (ss ++ ts) d = occL b ss d ++ occL b ts d := by
  induction ss with
  | nil => rfl
  | cons s ss ih => simp [occL, ih]

theorem occL_mem_sublist (b : Bool) {t : Term} {ts : List Term} (h : t ∈ ts) (d : Nat) : List.Sublist (occT b t d) (occL b ts d) := by
  obtain ⟨x, y, rfl⟩ := List.append_of_mem h
  rw [occL_append]
  exact (List.sublist_append_left _ _).trans (List.sublist_append_right _ _)

/-- An instance of a literal embeds. -/
theorem litInst_emb {σ : Nat → Term} {L K : Lit} (h : Props.LitInst σ L K) : Emb (occLit L) (occLit K) := by
  obtain ⟨hp, h⟩ := h
  unfold occLit
  rw [← hp]
  rcases h with ⟨h1, h2⟩ | ⟨h1, h2⟩
  · rw [← h1, ← h2]
    exact Emb.of_subperm (List.Sublist.subperm ((occT_subst _ σ _ 0).append (occT_subst _ σ _ 0)))
  · rw [← h1, ← h2]
    exact (Emb.of_subperm (List.Sublist.subperm ((occT_subst _ σ _ 0).append (occT_subst _ σ _ 0)))).mono
      List.perm_append_comm.subperm

/-- Terms below the terms of a literal embed. -/
theorem pair_emb (b : Bool) (s t : Term) (d : Nat) {f : Nat} {x y : List Term} :
    Emb (occT b s d ++ occT b t d) (occT b (.app f (x ++ s :: y)) d ++ occT b (.app f (x ++ t :: y)) d) := by
  have key : ∀ u : Term, Emb (occT b u d) (occT b (.app f (x ++ u :: y)) d) := fun u => by
    refine ⟨_, occT_shift b u d (d + 1) (by omega), List.Sublist.subperm ?_⟩
    rw [occT]
    exact (occL_mem_sublist b (by simp) (d + 1)).cons _
  exact (key s).append (key t)

theorem olE_trans {x y z : Occ} (h : OLe x y) (h' : OLe y z) : OLe x z :=
  ⟨h.1.trans h'.1, h.2.1.trans h'.2.1, Nat.le_trans h.2.2 h'.2.2⟩

theorem forall2_subperm {A E B : List Occ} (h : List.Subperm A E) (h2 : List.Forall₂ OLe E B) :
    ∃ A', List.Forall₂ OLe A A' ∧ List.Subperm A' B := by
  obtain ⟨l, hp, hs⟩ := h
  have h3 : ∃ l', List.Forall₂ OLe l l' ∧ List.Sublist l' B := by
    clear hp
    induction h2 generalizing l with
    | nil => cases hs; exact ⟨[], .nil, .slnil⟩
    | @cons a c E B hab _ ih =>
      cases hs with
      | cons _ hs =>
        obtain ⟨l', h5, h6⟩ := ih _ hs
        exact ⟨l', h5, h6.cons _⟩
      | cons_cons _ hs =>
        obtain ⟨l', h5, h6⟩ := ih _ hs
        exact ⟨_ :: l', .cons hab h5, h6.cons_cons _⟩
  obtain ⟨l', h5, h6⟩ := h3
  obtain ⟨A', h7, h8⟩ := List.perm_comp_forall₂ hp.symm h5
  exact ⟨A', h7, ⟨l', h8.symm, h6⟩⟩

theorem Emb.trans {A B C : List Occ} (h : Emb A B) (h' : Emb B C) : Emb A C := by
  obtain ⟨E, h1, h2⟩ := h
  obtain ⟨F, h3, h4⟩ := h'
  obtain ⟨A', h5, h6⟩ := forall2_subperm h2 h3
  refine ⟨A', ?_, h6.trans h4⟩
  clear h2 h3 h4 h6
  induction h1 generalizing A' with
  | nil => cases h5; exact .nil
  | cons hab _ ih =>
    cases h5 with
    | cons hb h5 => exact .cons (olE_trans hab hb) (ih _ h5)

/-! ## Subsumption embeds the occurrences -/

variable {sg : Sig} {pp : Term → Bool}

theorem pairInst_emb {b : Bool} {l r s t : Term} (h : SubsProof.PairInst sg l r s t) :
    Emb (occT b l 0 ++ occT b r 0) (occT b s 0 ++ occT b t 0) := by
  obtain ⟨τ, -, rfl, rfl⟩ := h
  exact Emb.of_subperm (List.Sublist.subperm ((occT_subst _ τ _ 0).append (occT_subst _ τ _ 0)))

theorem topSubsumes_emb {b : Bool} {L : Lit} {t1 t2 : Term} (w1 : sg.WT t1) (w2 : sg.WT t2)
    (h : topSubsumes sg pp L t1 t2 = true) : Emb (occT b L.l 0 ++ occT b L.r 0) (occT b t1 0 ++ occT b t2 0) := by
  rcases Props.topSubsumes_inst w1 w2 h with hi | hi
  · exact pairInst_emb hi
  · exact (pairInst_emb hi).mono List.perm_append_comm.subperm

theorem subsumesPair_emb {b : Bool} {L : Lit} {n : Nat} {t1 t2 : Term} (w1 : sg.WT t1) (w2 : sg.WT t2) (hne : t1 ≠ t2)
    (h : subsumesPair sg pp L n t1 t2 = some true) :
    Emb (occT b L.l 0 ++ occT b L.r 0) (occT b t1 0 ++ occT b t2 0) := by
  induction n generalizing t1 t2 with
  | zero => simp [subsumesPair] at h
  | succ n ih =>
    unfold subsumesPair at h
    split at h
    · rename_i ht
      exact topSubsumes_emb w1 w2 ht
    · split at h
      · rename_i f ss g ts
        split at h
        · simp at h
        · rename_i hc
          rw [not_or, not_or, not_not, not_not] at hc
          obtain ⟨rfl, -, hl⟩ := hc
          split at h
          · simp at h
          · rename_i hd
            exact absurd (by rw [Props.argDiff_none hl hd]) hne
          · rename_i s t hd
            obtain ⟨a, c, rfl, rfl⟩ := Props.argDiff_one hl hd
            have h3 : s ≠ t := fun e => hne (by rw [e])
            exact (ih (Props.wt_args w1 s (by simp)) (Props.wt_args w2 t (by simp)) h3 h).trans (pair_emb b s t 0)
      · simp at h

/-- What is needed of two clauses for the comparison of their features. -/
structure CEmb (C D : List Lit) : Prop where
  occ : Emb (occC C) (occC D)
  pos : posLits C ≤ posLits D
  neg : negLits C ≤ negLits D

theorem literalSubsumes_emb {L : Lit} {D : List Lit} (hD : sg.WTClause D) (hn : ∀ K ∈ D, K.pos = true → K.l ≠ K.r)
    (h : literalSubsumes sg pp L D = true) : ∃ K ∈ D, L.pos = K.pos ∧ Emb (occLit L) (occLit K) := by
  induction D with
  | nil => simp [literalSubsumes] at h
  | cons K D ih =>
    rw [literalSubsumes, Bool.or_eq_true] at h
    rcases h with h | h
    · refine ⟨K, by simp, ?_⟩
      obtain ⟨w1, w2, -⟩ := hD K (by simp)
      split at h
      · rename_i hp
        rw [Bool.and_eq_true] at h
        cases hs : subsumesPair sg pp L K.l.size K.l K.r with
        | none => rw [hs] at h; simp at h
        | some b =>
          rw [hs] at h
          simp only [Option.getD_some] at h
          rw [h.2] at hs
          refine ⟨by rw [hp, h.1], ?_⟩
          unfold occLit
          rw [hp, h.1]
          exact subsumesPair_emb w1 w2 (hn K (by simp) h.1) hs
      · rename_i hp
        rw [Bool.and_eq_true] at h
        have hk : K.pos = false := by simpa using h.1
        have hp' : L.pos = false := by simpa using hp
        refine ⟨by rw [hp', hk], ?_⟩
        unfold occLit
        rw [hp', hk]
        exact topSubsumes_emb w1 w2 h.2
    · obtain ⟨M, hM, ht⟩ := ih (fun M hM => hD M (by simp [hM])) (fun M hM => hn M (by simp [hM])) h
      exact ⟨M, by simp [hM], ht⟩

theorem sublist_flatMap {α γ : Type} {l m : List α} (h : List.Sublist l m) (f : α → List γ) :
    List.Sublist (l.flatMap f) (m.flatMap f) := by
  induction h with
  | slnil => exact .slnil
  | cons a _ ih => rw [List.flatMap_cons]; exact ih.trans (List.sublist_append_right _ _)
  | cons_cons a _ ih => rw [List.flatMap_cons, List.flatMap_cons]; exact (List.Sublist.refl _).append ih

theorem emb_of_images {C D E : List Lit} (h1 : List.Forall₂ (fun L K : Lit => L.pos = K.pos ∧ Emb (occLit L) (occLit K)) C E)
    (h2 : List.Subperm E D) : CEmb C D := by
  refine ⟨?_, ?_, ?_⟩
  · refine (Emb.flatMap h1 fun _ _ h => h.2).mono ?_
    obtain ⟨l, hp, hs⟩ := h2
    exact ⟨_, hp.flatMap_right _, sublist_flatMap hs _⟩
  · unfold posLits
    rw [Props.countP_forall2 (h1.imp fun _ _ h => h.1)]
    exact h2.countP_le _
  · unfold negLits
    rw [Props.countP_forall2 (h1.imp fun _ _ h => by rw [h.1])]
    exact h2.countP_le _

theorem mapsInto_emb {σ : Nat → Term} {C D : List Lit} (h : Props.MapsInto σ C D) : CEmb C D := by
  obtain ⟨ι, hn, hf⟩ := h
  obtain ⟨E, h1, h2⟩ := Props.images hf
  exact emb_of_images (h2.imp fun _ _ h => ⟨h.1, litInst_emb h⟩) (Props.picked_subperm D E ι hn h1)

theorem subsumes_emb {C D : List OLit} (hD : sg.WTClause (OLit.plain D)) (hn : NoTrivial D) (h : clauseSubsumes sg pp C D = true) :
    CEmb (OLit.plain C) (OLit.plain D) := by
  match C, h with
  | [], _ => exact ⟨Emb.of_subperm (List.nil_subperm), Nat.zero_le _, Nat.zero_le _⟩
  | [L], h =>
    obtain ⟨K, hK, h1, h2⟩ := literalSubsumes_emb hD (fun K hK => by
      obtain ⟨K', hK', rfl⟩ := List.mem_map.1 hK
      exact hn K' hK') h
    exact emb_of_images (E := [K]) (.cons ⟨h1, h2⟩ .nil) (List.singleton_subperm_iff.2 hK)
  | L :: L' :: C, h =>
    obtain ⟨σ, h1, h2⟩ := Props.subsumes_mapsInto (by simp) h
    exact mapsInto_emb h2

theorem sameLits_emb {C D : List OLit} (h : SameLits C D) : CEmb (OLit.plain C) (OLit.plain D) := by
  obtain ⟨E, h1, h2⟩ := h
  refine emb_of_images (E := OLit.plain E) ?_ (h1.map _).subperm
  unfold OLit.plain
  rw [List.forall₂_map_left_iff, List.forall₂_map_right_iff]
  refine h2.imp fun L K h => ⟨h.1, ?_⟩
  unfold occLit
  rw [h.1]
  rcases h.2 with ⟨e1, e2⟩ | ⟨e1, e2⟩ <;> rw [e1, e2]
  · exact Emb.refl _
  · exact Emb.of_subperm List.perm_append_comm.subperm

theorem sameLits_symm {C D : List OLit} (h : SameLits C D) : SameLits D C := by
  obtain ⟨E, h1, h2⟩ := h
  obtain ⟨F, h3, h4⟩ := List.perm_comp_forall₂ h1.symm (h2.flip)
  refine ⟨F, h4, h3.imp fun L K h => ?_⟩
  obtain ⟨h5, h6⟩ := h
  exact ⟨h5.symm, h6.imp (fun ⟨a, b⟩ => ⟨a.symm, b.symm⟩) (fun ⟨a, b⟩ => ⟨b.symm, a.symm⟩)⟩

theorem sameLits_refl (C : List OLit) : SameLits C C :=
  ⟨C, .refl _, by
    induction C with
    | nil => exact .nil
    | cons a C ih => exact .cons ⟨rfl, .inl ⟨rfl, rfl⟩⟩ ih⟩

/-! ## Counting and depth -/

theorem emb_countP {A B : List Occ} (h : Emb A B) (p : Bool → Nat → Bool) :
    A.countP (fun o => p o.1 o.2.1) ≤ B.countP (fun o => p o.1 o.2.1) := by
  obtain ⟨E, h1, h2⟩ := h
  refine Nat.le_trans (Nat.le_of_eq ?_) (h2.countP_le _)
  exact Props.countP_forall2 (h1.imp fun _ _ h => by rw [h.1, h.2.1])

/-- The greatest depth of the selected occurrences. -/
def maxD (p : Bool → Nat → Bool) : List Occ → Nat
  | [] => 0
  | o :: A => if p o.1 o.2.1 then max o.2.2 (maxD p A) else maxD p A

theorem maxD_le {p : Bool → Nat → Bool} {A : List Occ} {n : Nat} : maxD p A ≤ n ↔ ∀ o ∈ A, p o.1 o.2.1 = true → o.2.2 ≤ n := by
  induction A with
  | nil => simp [maxD]
  | cons o A ih =>
    unfold maxD
    split
    · rename_i h
      rw [Nat.max_le, ih]
      simp [h]
    · rename_i h
      rw [ih]
      simp [h]

theorem emb_maxD {A B : List Occ} (h : Emb A B) (p : Bool → Nat → Bool) : maxD p A ≤ maxD p B := by
  obtain ⟨E, h1, h2⟩ := h
  rw [maxD_le]
  intro o ho hp
  obtain ⟨o', ho', h3⟩ := Props.forall2_mem h1 ho
  have := maxD_le.1 (Nat.le_refl (maxD p B)) o' (h2.subset ho') (by rw [← h3.1, ← h3.2.1]; exact hp)
  exact Nat.le_trans h3.2.2 this

end Verif.FVProof
