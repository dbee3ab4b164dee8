import Verif.Pcl.MarkProof
import Mathlib.Data.List.Perm.Subperm

/-!
# C79, C80: extraction and checking of PCL proofs

See Verif/Pcl/Protocol.lean.  Truth and entailment are those of Verif/Clauses/Sem.lean.
-/

namespace Verif.Props

open Verif Verif.Pcl Verif.PclProof Term Interp SemProof

universe u

/-- The steps a user wants to see: those marked in the protocol, and all steps used for them. -/
inductive Needed (p : Prot) : Step → Prop
  | root {s} : s ∈ p → stepExtract s.extra = true → Needed p s
  | parent {s t} : Needed p s → t ∈ p → t.id ∈ quotes s.just → Needed p t

/-- The protocol is as read: ascending, different identifiers. -/
abbrev Numbering (p : Prot) : Prop := p.Pairwise fun s t => s.id < t.id

/-- A step refers to one that does not exist. -/
def Dangling (p : Prot) (s : Step) : Prop := ∃ q ∈ quotes s.just, ∀ t ∈ p, t.id ≠ q

/-- A bound for the number of steps taken off the stack. -/
def extractBound (p : Prot) : Nat := 2 * p.length + (p.map fun s => (quotes s.just).length).sum + 1

variable {ord : List Step → List Step} {p : Prot}

/-- The steps with which the marking starts. -/
def roots (p : Prot) (fast : Bool) : List Step :=
  if fast then (fastRoots p (maxIdent p)).reverse else (p.filter fun s => stepExtract s.extra).reverse

theorem roots_mem {fast : Bool} {s : Step} (h : s ∈ roots p fast) : s ∈ p ∧ stepExtract s.extra = true := by
  unfold roots at h
  split at h
  · exact fastRoots_mem _ s (List.mem_reverse.1 h)
  · simpa using h

theorem extract_unfold {fast : Bool} {fuel : Nat} {f : Frame} {out : List Step} (h : extract ord p fast fuel = some (some (f, out))) :
    ∃ m r, markLoop ord p fuel (roots p fast) [] false = some (some (m, r)) ∧ out = printProof p m ∧
      f = if (if fast then r else p.any isContradiction) then .cnfRefutation else .saturation := by
  unfold extract at h
  cases fast with
  | true =>
    simp only [if_true, markMini] at h
    split at h
    · simp at h
    · simp at h
    · rename_i m e he
      simp only [Option.some.injEq, Prod.mk.injEq] at h
      exact ⟨m, e, by simpa [roots] using he, h.2.symm, by simpa using h.1.symm⟩
  | false =>
    simp only [Bool.false_eq_true, if_false, markFull] at h
    cases hl : markLoop ord p fuel ((p.filter fun s => stepExtract s.extra).reverse) [] false with
    | none => simp [hl] at h
    | some x =>
      cases x with
      | none => simp [hl] at h
      | some y =>
        obtain ⟨m, e⟩ := y
        simp only [hl, Option.some.injEq, Prod.mk.injEq] at h
        exact ⟨m, e, by simpa [roots] using hl, h.2.symm, by simpa using h.1.symm⟩

theorem extract_mem {fast : Bool} {fuel : Nat} {f : Frame} {out : List Step} (hord : ∀ l, (ord l).Perm l) (hp : Numbering p)
    (h : extract ord p fast fuel = some (some (f, out))) :
    (∀ s ∈ roots p fast, s ∈ out) ∧ (∀ s ∈ out, ∀ t ∈ p, t.id ∈ quotes s.just → t ∈ out) ∧ (∀ s ∈ out, ¬ Dangling p s) ∧
      (∀ P : Step → Prop, (∀ s ∈ roots p fast, P s) → (∀ s ∈ p, P s → ∀ t ∈ p, t.id ∈ quotes s.just → P t) → ∀ s ∈ out, P s) ∧
      (fast = true → (f = .cnfRefutation ↔ ∃ s ∈ out, isContradiction s = true)) := by
  obtain ⟨m, r, hl, rfl, rfl⟩ := extract_unfold h
  have hmem : ∀ s, s ∈ printProof p m ↔ s ∈ p ∧ s.id ∈ m := by intro s; simp [printProof]
  obtain ⟨-, h2, h3, h4⟩ := mark_complete hord hp fuel _ _ _ _ _ (fun s hs => (roots_mem hs).1) (by simp) (by simp) hl
  have snd := fun (P : Step → Prop) (hr : ∀ s ∈ roots p fast, P s) (hP : ∀ s ∈ p, P s → ∀ t ∈ p, t.id ∈ quotes s.just → P t) =>
    (mark_sound hord hp hP fuel (roots p fast) [] false (fun s hs => ⟨(roots_mem hs).1, hr s hs⟩) (by simp) (by simp)).1 m r hl
  have hids := (snd (fun _ => True) (fun _ _ => trivial) fun _ _ _ _ _ _ => trivial).1
  refine ⟨fun s hs => (hmem s).2 ⟨(roots_mem hs).1, h2 s hs⟩, fun s hs t ht hq => ?_, fun s hs hd => ?_, fun P hr hP s hs => ?_, ?_⟩
  · exact (hmem t).2 ⟨ht, h3 s ((hmem s).1 hs).1 ((hmem s).1 hs).2 _ hq⟩
  · obtain ⟨q, hq, hn⟩ := hd
    obtain ⟨t, ht, e, -⟩ := hids q (h3 s ((hmem s).1 hs).1 ((hmem s).1 hs).2 q hq)
    exact hn t ht e
  · obtain ⟨hsp, hsm⟩ := (hmem s).1 hs
    obtain ⟨t, ht, e, hPt⟩ := (snd P hr hP).1 s.id hsm
    rw [← ids_inj hp ht hsp e]; exact hPt
  · intro hf; subst hf
    constructor
    · intro hfr
      have hr : r = true := by by_contra hc; simp [hc] at hfr
      obtain ⟨t, ht, hP, hcon⟩ := (snd (fun s => s.id ∈ m) h2 fun s hs hi t _ hq => h3 s hs hi _ hq).2 hr
      exact ⟨t, (hmem t).2 ⟨ht, hP⟩, hcon⟩
    · rintro ⟨s, hs, hc⟩
      rw [h4 s ((hmem s).1 hs).1 ((hmem s).1 hs).2 hc]; rfl

/-- **C79** epclextract prints exactly the steps marked for extraction and the steps they depend on, in the order of
the protocol. -/
theorem extract_exact (hord : ∀ l, (ord l).Perm l) (hp : Numbering p) {fuel : Nat} {f : Frame} {out : List Step}
    (h : extract ord p false fuel = some (some (f, out))) : out.Sublist p ∧ ∀ s, s ∈ out ↔ Needed p s := by
  obtain ⟨h1, h2, -, h4, -⟩ := extract_mem hord hp h
  obtain ⟨m, r, -, ho, -⟩ := extract_unfold h
  refine ⟨by rw [ho]; exact List.filter_sublist, fun s => ⟨fun hs => ?_, fun hs => ?_⟩⟩
  · exact h4 (Needed p) (fun s hs => .root (roots_mem hs).1 (roots_mem hs).2) (fun s _ hs t ht hq => .parent hs ht hq) s hs
  · induction hs with
    | root hs he => exact h1 _ (by simp [roots, hs, he])
    | parent _ ht hq ih => exact h2 _ ih _ ht hq

/-- **C79** The output is again a complete protocol, in both modes: every step a printed step refers to is printed,
and identifiers stay ascending. -/
theorem extract_closed (hord : ∀ l, (ord l).Perm l) (hp : Numbering p) {fast : Bool} {fuel : Nat} {f : Frame} {out : List Step}
    (h : extract ord p fast fuel = some (some (f, out))) : Numbering out ∧ ∀ s ∈ out, ¬ Dangling out s := by
  obtain ⟨-, h2, h3, -, -⟩ := extract_mem hord hp h
  obtain ⟨m, r, -, ho, -⟩ := extract_unfold h
  refine ⟨?_, fun s hs hd => ?_⟩
  · rw [ho]; exact hp.sublist List.filter_sublist
  · obtain ⟨q, hq, hn⟩ := hd
    refine h3 s hs ⟨q, hq, fun t ht e => ?_⟩
    exact hn t (h2 s hs t ht (e ▸ hq)) e

theorem fastRoots_nodup (i : Nat) : (fastRoots p i).Nodup := by
  have key : ∀ i, (fastRoots p i).Nodup ∧ ∀ s ∈ fastRoots p i, s.id ≤ i := by
    intro i
    induction i with
    | zero =>
      unfold fastRoots; split
      · rename_i t ht
        split
        · refine ⟨by simp, fun s hs => ?_⟩
          simp only [List.mem_singleton] at hs; subst hs; exact (find_some ht).2.le
        · simp
      · simp
    | succ i ih =>
      unfold fastRoots; split
      · rename_i t ht
        split
        · refine ⟨List.nodup_cons.2 ⟨fun hm => ?_, ih.1⟩, fun s hs => ?_⟩
          · have := ih.2 t hm; have := (find_some ht).2; omega
          · rcases List.mem_cons.1 hs with rfl | hs
            · exact (find_some ht).2.le
            · have := ih.2 s hs; omega
        · simp
      · simp
  exact (key i).1

theorem roots_length (fast : Bool) : (roots p fast).length ≤ p.length := by
  unfold roots
  split
  · rw [List.length_reverse]
    exact (List.subperm_of_subset (fastRoots_nodup _) fun s hs => (fastRoots_mem _ s hs).1).length_le
  · rw [List.length_reverse]; exact List.length_filter_le _ _

/-- **C79** epclextract terminates for every protocol, even one with circular references. -/
theorem extract_total (hord : ∀ l, (ord l).Perm l) (fast : Bool) {fuel : Nat} (hf : extractBound p ≤ fuel) :
    extract ord p fast fuel ≠ none := by
  have hr := roots_length (p := p) fast
  have hpend : pending p [] = (p.map fun s => (quotes s.just).length).sum := by simp [pending]
  have := mark_total (ord := ord) (p := p) hord fuel (roots p fast) [] false (fun s hs => (roots_mem hs).1)
    (by rw [hpend]; unfold extractBound at hf; omega)
  unfold extract
  cases fast with
  | true =>
    simp only [if_true, markMini]
    simp only [roots, if_true] at this
    generalize markLoop ord p fuel _ [] false = x at this
    cases x with
    | none => exact absurd rfl this
    | some y => cases y <;> simp
  | false =>
    simp only [Bool.false_eq_true, if_false, markFull]
    simp only [roots, Bool.false_eq_true, if_false] at this
    generalize markLoop ord p fuel _ [] false = x at this
    cases x with
    | none => exact absurd rfl this
    | some y => cases y <;> simp

/-- **C79** It gives up (`some none`) exactly if a needed step refers to one that does not exist. -/
theorem extract_error_iff (hord : ∀ l, (ord l).Perm l) (hp : Numbering p) {fuel : Nat} (hf : extractBound p ≤ fuel) :
    extract ord p false fuel = some none ↔ ∃ s, Needed p s ∧ Dangling p s := by
  constructor
  · intro h
    have hl : markLoop ord p fuel (roots p false) [] false = some none := by
      unfold extract at h
      simp only [Bool.false_eq_true, if_false, markFull] at h
      simp only [roots, Bool.false_eq_true, if_false]
      generalize markLoop ord p fuel _ [] false = x at h
      cases x with
      | none => simp at h
      | some y => cases y with
        | none => rfl
        | some z => simp at h
    obtain ⟨s, -, hs, hd⟩ := (mark_sound hord hp (P := Needed p) (fun s _ hs t ht hq => .parent hs ht hq) fuel (roots p false) [] false
      (fun s hs => ⟨(roots_mem hs).1, .root (roots_mem hs).1 (roots_mem hs).2⟩) (by simp) (by simp)).2 hl
    exact ⟨s, hs, hd⟩
  · rintro ⟨s, hs, hd⟩
    have := extract_total (p := p) hord false hf
    cases h : extract ord p false fuel with
    | none => exact absurd h this
    | some x =>
      cases x with
      | none => rfl
      | some y =>
        obtain ⟨f, out⟩ := y
        exact absurd hd ((extract_mem hord hp h).2.2.1 s (((extract_exact hord hp h).2 s).2 hs))

/-- **C79** The frame of the fast extraction is right: a refutation is announced exactly if the printed steps
contain a contradiction. -/
theorem extract_fast_frame (hord : ∀ l, (ord l).Perm l) (hp : Numbering p) {fuel : Nat} {f : Frame} {out : List Step}
    (h : extract ord p true fuel = some (some (f, out))) : f = .cnfRefutation ↔ ∃ s ∈ out, isContradiction s = true :=
  (extract_mem hord hp h).2.2.2.2 rfl

/-- **C79** The frame of the full extraction is only right in one direction: if the printed steps contain a
contradiction, a refutation is announced.  `PclEx.frame_without_refutation` shows that the converse fails: the flag is
computed from all steps of the protocol. -/
theorem extract_full_frame_partial (hord : ∀ l, (ord l).Perm l) (hp : Numbering p) {fuel : Nat} {f : Frame} {out : List Step}
    (h : extract ord p false fuel = some (some (f, out))) :
    (f = .cnfRefutation ↔ ∃ s ∈ p, isContradiction s = true) ∧ ((∃ s ∈ out, isContradiction s = true) → f = .cnfRefutation) := by
  obtain ⟨m, r, -, rfl, rfl⟩ := extract_unfold h
  have : ((if (if false = true then r else p.any isContradiction) = true then Frame.cnfRefutation else .saturation) = .cnfRefutation) ↔
      ∃ s ∈ p, isContradiction s = true := by
    rw [← List.any_eq_true]
    cases p.any isContradiction <;> simp
  refine ⟨this, fun ⟨s, hs, hc⟩ => this.2 ⟨s, List.mem_of_mem_filter hs, hc⟩⟩

/-- **C79** Fast extraction prints the same steps as full extraction if the steps to be extracted are the last ones
and are numbered without gaps.  `PclEx.gap_loses_step` shows that the second condition, which the manual does not
mention, is needed. -/
theorem extract_fast_partial (hord : ∀ l, (ord l).Perm l) (hp : Numbering p)
    (hend : ∀ s ∈ p, stepExtract s.extra = true → ∀ j, s.id ≤ j → j ≤ maxIdent p → ∃ t ∈ p, t.id = j ∧ stepExtract t.extra = true)
    {fuel : Nat} {f f' : Frame} {out out' : List Step}
    (h : extract ord p false fuel = some (some (f, out))) (h' : extract ord p true fuel = some (some (f', out'))) : out' = out := by
  obtain ⟨h1, h2, -, h4, -⟩ := extract_mem hord hp h
  obtain ⟨g1, g2, -, g4, -⟩ := extract_mem hord hp h'
  obtain ⟨m, r, -, ho, -⟩ := extract_unfold h
  obtain ⟨m', r', -, ho', -⟩ := extract_unfold h'
  have hroots : ∀ s, s ∈ roots p true ↔ s ∈ roots p false := by
    intro s
    simp only [roots, if_true, Bool.false_eq_true, if_false, List.mem_reverse, List.mem_filter]
    exact ⟨fun hs => fastRoots_mem _ s hs, fun hs => fastRoots_complete hp _ s hs.1 (le_maxIdent s hs.1) (hend s hs.1 hs.2)⟩
  have hsub : ∀ s, s ∈ out' ↔ s ∈ out := fun s =>
    ⟨g4 (· ∈ out) (fun t ht => h1 t ((hroots t).1 ht)) (fun t _ ht => h2 t ht) s,
      h4 (· ∈ out') (fun t ht => g1 t ((hroots t).2 ht)) (fun t _ ht => g2 t ht) s⟩
  have hm : ∀ s ∈ p, decide (s.id ∈ m') = decide (s.id ∈ m) := by
    intro s hs
    have := hsub s
    rw [ho, ho'] at this
    simpa [printProof, hs] using this
  rw [ho, ho']
  exact List.filter_congr hm

/-! ## Checking -/

/-- The prover is sound: what it calls a proof is one. -/
def ProverSound (sg : Sig) (prover : List (List Lit) → Bool) : Prop :=
  ∀ P, prover P = true → ¬ ∃ I : Interp.{u} sg, ∀ C ∈ P, I.Models C

/-- The prover is complete. -/
def ProverComplete (sg : Sig) (prover : List (List Lit) → Bool) : Prop :=
  ∀ P, (¬ ∃ I : Interp.{u} sg, ∀ C ∈ P, I.Models C) → prover P = true

/-- The clause `D` is that of a step `s` refers to. -/
def ParentClause (p : Prot) (s : Step) (D : List Lit) : Prop := ∃ t ∈ p, t.id ∈ quotes s.just ∧ t.logic = .clause D

/-- Splitting steps, which are not checked. -/
def IsSplit (s : Step) : Prop := ∃ args, s.just = .op opSplit args

/-- The symbols of the protocol have codes below `n`. -/
def ProtBelow (p : Prot) (n : Nat) : Prop := ∀ s ∈ p, ∀ C, s.logic = .clause C → ClauseBelow n C

/-- No step depends on itself: some measure decreases from a step to those it refers to. -/
def Acyclic (p : Prot) : Prop := ∃ r : Nat → Nat, ∀ s ∈ p, ∀ q ∈ quotes s.just, r q < r s.id

variable {sg : Sig} {prover : List (List Lit) → Bool}

theorem mem_preconds {s : Step} {Ps : List (List Lit)} (hp : Numbering p) (h : preconds p s = some Ps) (D : List Lit) :
    D ∈ Ps ↔ ParentClause p s D := by
  unfold preconds at h
  rw [Option.map_eq_some_iff] at h
  obtain ⟨ps, hps, rfl⟩ := h
  obtain ⟨-, h2, h3, -⟩ := collect_spec _ _ _ hps
  rw [List.mem_filterMap]
  have hcl : ∀ t : Step, t.clause? = some D ↔ t.logic = .clause D := by
    intro t; unfold Step.clause?; cases t.logic <;> simp
  constructor
  · rintro ⟨t, ht, e⟩
    rcases h2 t ht with ht | ht
    · simp at ht
    · exact ⟨t, ht.1, ht.2, (hcl t).1 e⟩
  · rintro ⟨t, ht, hq, e⟩
    obtain ⟨t', ht', e'⟩ := h3 _ hq
    have : t' ∈ p := by rcases h2 t' ht' with h | h; simp at h; exact h.1
    rw [ids_inj hp this ht e'] at ht'
    exact ⟨t, ht', (hcl t).2 e⟩

/-- **C80** A step the prover confirms follows from the steps it refers to. -/
theorem checkproof_step_sound (hs : ProverSound.{u} sg prover) (hp : Numbering p) {n n' n'' : Nat} (hf : Fresh sg n) (hb : ProtBelow p n) (hn : n ≤ n')
    {s : Step} (hm : s ∈ p) {C : List Lit} (hC : s.logic = .clause C) (h : stepCheck prover p s n' = some (.ok, n''))
    (I : Interp.{u} sg) (hI : ∀ D, ParentClause p s D → I.Models D) : I.Models C := by
  unfold stepCheck at h
  split at h
  · simp at h
  · split at h
    · simp at h
    · simp at h
    · rename_i pb k hg
      have hpr : prover pb = true := by by_contra hc; simp [hc] at h
      unfold generateCheck at hg
      split at hg
      · simp at hg
      · simp at hg
      · rename_i c cs hpre
        simp only [negSkolemize, hC, Option.some.injEq, Prod.mk.injEq] at hg
        obtain ⟨rfl, -⟩ := hg
        refine refute_sound hf hn (Ps := c :: cs) (fun D hD => ?_) (hb s hm C hC) (hs _ hpr) I (fun D hD => hI D ((mem_preconds hp hpre D).1 hD))
        obtain ⟨t, ht, -, e⟩ := (mem_preconds hp hpre D).1 hD
        exact hb t ht D e

theorem stepCheck_mono {s : Step} {n : Nat} {c : Check} {n' : Nat} (h : stepCheck prover p s n = some (c, n')) : n ≤ n' := by
  unfold stepCheck at h
  split at h
  · simp only [Option.some.injEq, Prod.mk.injEq] at h; omega
  · have key : ∀ x k, generateCheck p s n = some (x, k) → n ≤ k := by
      intro x k hg
      unfold generateCheck at hg
      split at hg
      · simp at hg
      · simp only [Option.some.injEq, Prod.mk.injEq] at hg; omega
      · simp only [Option.some.injEq, Prod.mk.injEq] at hg
        rw [← hg.2]
        unfold negSkolemize
        split
        · exact (skolemVars_spec _ [] n n (Nat.le_refl _) ⟨by simp, by simp⟩).1
        · exact Nat.le_refl _
    split at h
    · simp at h
    · rename_i hg; simp only [Option.some.injEq, Prod.mk.injEq] at h; have := key _ _ hg; omega
    · rename_i hg; simp only [Option.some.injEq, Prod.mk.injEq] at h; have := key _ _ hg; omega

theorem protCheck_count (ss : List Step) : ∀ (n res unc res' unc' : Nat), protCheck prover p ss n res unc = some (res', unc') →
    res' ≤ res + ss.length ∧ unc ≤ unc' ∧ res' + unc' ≤ res + unc + ss.length ∧
    (res' + unc' = res + unc + ss.length → ∀ s ∈ ss, ∃ k c k', n ≤ k ∧ stepCheck prover p s k = some (c, k') ∧ c ≠ .fail) := by
  induction ss with
  | nil => intro n res unc res' unc' h; simp only [protCheck, Option.some.injEq, Prod.mk.injEq] at h; simp [h.1, h.2]
  | cons s ss ih =>
    intro n res unc res' unc' h
    unfold protCheck at h
    have hmono := fun c n' => stepCheck_mono (prover := prover) (p := p) (s := s) (n := n) (c := c) (n' := n')
    split at h
    · simp at h
    all_goals
      rename_i k hk
      obtain ⟨h1, h2, h3, h4⟩ := ih _ _ _ _ _ h
      simp only [List.length_cons]
      refine ⟨by omega, by omega, by omega, fun e t ht => ?_⟩
      first
        | (exfalso; omega)
        | (rcases List.mem_cons.1 ht with rfl | ht
           · exact ⟨n, _, k, Nat.le_refl _, hk, by simp⟩
           · obtain ⟨j, c, j', hj, hc, hne⟩ := h4 (by omega) t ht
             exact ⟨j, c, j', Nat.le_trans (hmono _ _ hk) hj, hc, hne⟩)

theorem stepCheck_assumption {s : Step} {n n' : Nat} (hp : Numbering p) (h : stepCheck prover p s n = some (.byAssumption, n')) :
    ∀ D, ¬ ParentClause p s D := by
  unfold stepCheck at h
  split at h
  · simp at h
  · split at h
    · simp at h
    · rename_i hg
      unfold generateCheck at hg
      split at hg
      · simp at hg
      · rename_i hpre
        intro D hD
        have := (mem_preconds hp hpre D).2 hD
        simp at this
      · simp at hg
    · rename_i pb k hg
      simp only [Option.some.injEq, Prod.mk.injEq] at h
      have h := h.1
      split at h <;> simp at h

theorem stepCheck_split {s : Step} {n n' : Nat} (h : stepCheck prover p s n = some (.notImplemented, n')) : IsSplit s := by
  unfold stepCheck at h
  split at h
  · rename_i hs
    unfold isSplit at hs
    cases hj : s.just with
    | initial => simp [hj] at hs
    | quote i => simp [hj] at hs
    | op c args => simp only [hj, beq_iff_eq] at hs; exact ⟨args, by rw [hj, hs]⟩
  · split at h
    · simp at h
    · simp at h
    · simp only [Option.some.injEq, Prod.mk.injEq] at h
      have h := h.1
      split at h <;> simp at h

theorem accept_sound (hs : ProverSound.{u} sg prover) (hp : Numbering p) (hac : Acyclic p) {n : Nat} (hf : Fresh sg n) (hb : ProtBelow p n)
    (hok : ∀ s ∈ p, ∃ k c k', n ≤ k ∧ stepCheck prover p s k = some (c, k') ∧ c ≠ .fail) (I : Interp.{u} sg)
    (hI : ∀ s ∈ p, ((∀ D, ¬ ParentClause p s D) ∨ IsSplit s) → ∀ C, s.logic = .clause C → I.Models C) :
    ∀ s ∈ p, ∀ C, s.logic = .clause C → I.Models C := by
  obtain ⟨r, hr⟩ := hac
  have key : ∀ k, ∀ s ∈ p, r s.id ≤ k → ∀ C, s.logic = .clause C → I.Models C := by
    intro k
    induction k with
    | zero =>
      intro s hs' hk C hC
      refine hI s hs' (Or.inl fun D hD => ?_) C hC
      obtain ⟨t, -, hq, -⟩ := hD
      have := hr s hs' _ hq; omega
    | succ k ih =>
      intro s hs' hk C hC
      obtain ⟨j, c, j', hj, hc, hne⟩ := hok s hs'
      cases c with
      | fail => exact absurd rfl hne
      | byAssumption => exact hI s hs' (Or.inl (stepCheck_assumption hp hc)) C hC
      | notImplemented => exact hI s hs' (Or.inr (stepCheck_split hc)) C hC
      | ok =>
        refine checkproof_step_sound hs hp hf hb hj hs' hC hc I fun D hD => ?_
        obtain ⟨t, ht, hq, e⟩ := hD
        exact ih t ht (by have := hr s hs' _ hq; omega) D e
  exact fun s hs' => key _ s hs' (Nat.le_refl _)

theorem checkproof_unfold {n : Nat} {v : Verdict} (h : checkproof prover p n = some v) (hv : v ≠ .failed) :
    (∀ s ∈ p, ∃ k c k', n ≤ k ∧ stepCheck prover p s k = some (c, k') ∧ c ≠ .fail) ∧
      (v = .verified → ∀ s ∈ p, ¬ IsSplit s) := by
  unfold checkproof at h
  split at h
  · simp at h
  · rename_i res unc hc
    obtain ⟨h1, h2, h3, h4⟩ := protCheck_count p n 0 0 res unc hc
    simp only [Option.some.injEq] at h
    by_cases e : res = p.length
    · have hu : unc = 0 := by omega
      have hall := h4 (by omega)
      refine ⟨hall, fun _ s hs hsp => ?_⟩
      obtain ⟨args, hsp⟩ := hsp
      have : ∀ (ss : List Step) (n res unc res' unc' : Nat), s ∈ ss → protCheck prover p ss n res unc = some (res', unc') → unc < unc' := by
        intro ss
        induction ss with
        | nil => intro _ _ _ _ _ h; simp at h
        | cons a ss ih =>
          intro n res unc res' unc' hm hh
          unfold protCheck at hh
          rcases List.mem_cons.1 hm with rfl | hm
          · have : stepCheck prover p s n = some (.notImplemented, n) := by simp [stepCheck, isSplit, hsp]
            simp only [this] at hh
            have := (protCheck_count _ _ _ _ _ _ hh).2.1; omega
          · split at hh
            · simp at hh
            all_goals have := ih _ _ _ _ _ hm hh; omega
      have := this p n 0 0 res unc hs hc
      omega
    · simp only [e, if_false] at h
      by_cases e2 : res + unc = p.length
      · simp only [e2, if_true] at h
        subst h
        exact ⟨h4 (by omega), by simp⟩
      · simp only [e2, if_false] at h
        exact absurd h.symm hv

/-- **C80** If checkproof prints "Proof verified!" with a sound prover and no step depends on itself, every clause
of the protocol follows from the clauses of the steps that refer to no clause.  What is missing for the full claim:
checkproof does not test the condition on cycles (`PclEx.circular_verified`), and steps that refer only to full formulas
are taken as assumptions (`PclEx.formula_parent_verified`). -/
theorem checkproof_verified_partial (hs : ProverSound.{u} sg prover) (hp : Numbering p) (hac : Acyclic p) {n : Nat} (hf : Fresh sg n)
    (hb : ProtBelow p n) (h : checkproof prover p n = some .verified) (I : Interp.{u} sg)
    (hI : ∀ s ∈ p, (∀ D, ¬ ParentClause p s D) → ∀ C, s.logic = .clause C → I.Models C) :
    ∀ s ∈ p, ∀ C, s.logic = .clause C → I.Models C := by
  obtain ⟨h1, h2⟩ := checkproof_unfold h (by simp)
  refine accept_sound hs hp hac hf hb h1 I fun s hs' hor => ?_
  rcases hor with h | h
  · exact hI s hs' h
  · exact absurd h (h2 rfl s hs')

/-- **C80** If it prints "Proof partially verified!", the same holds with the splitting steps as further
assumptions. -/
theorem checkproof_partially_partial (hs : ProverSound.{u} sg prover) (hp : Numbering p) (hac : Acyclic p) {n : Nat} (hf : Fresh sg n)
    (hb : ProtBelow p n) (h : checkproof prover p n = some .partially) (I : Interp.{u} sg)
    (hI : ∀ s ∈ p, ((∀ D, ¬ ParentClause p s D) ∨ IsSplit s) → ∀ C, s.logic = .clause C → I.Models C) :
    ∀ s ∈ p, ∀ C, s.logic = .clause C → I.Models C :=
  accept_sound hs hp hac hf hb (checkproof_unfold h (by simp)).1 I hI

theorem collect_ne_none (is : List Nat) : ∀ t, (∀ i ∈ is, ∃ s ∈ p, s.id = i) → collectPreconds p is t ≠ none := by
  intro t h hn
  obtain ⟨i, hi, hh⟩ := collect_none _ _ hn
  obtain ⟨s, hs, e⟩ := h i hi
  exact hh s hs e

/-- If the clause follows from the parents, the problem given to the prover has no model. -/
theorem refute_complete {n : Nat} (hf : Fresh sg n) {n' : Nat} (hn : n ≤ n') {Ps : List (List Lit)} {C : List Lit} (he : Entails.{u} sg Ps C) :
    ¬ ∃ I : Interp.{u} sg, ∀ D ∈ Ps ++ ((clauseSkolemize C n').1.map fun L => [{ L with pos := !L.pos }]), I.Models D := by
  rintro ⟨I, hI⟩
  obtain ⟨v, hv⟩ : ∃ v : Nat → I.D, I.Sorted v := by
    choose d hd using I.inhab
    exact ⟨fun x => d (sg.vty x), fun x => hd _⟩
  obtain ⟨h1, h2, -, -⟩ := skolemVars_spec (cvars C) [] n' n' (Nat.le_refl _) ⟨by simp, by simp⟩
  generalize hb : (skolemVars (cvars C) [] n').1 = b at h2
  have hw : I.Sorted fun x => I.eval v (skolemSubst b x) := by
    intro x
    show I.mem _ (I.eval v (skolemSubst b x))
    unfold skolemSubst
    split
    · rename_i c hc
      have hr := h2.range x c hc
      rw [eval_app, ← hf.ty c (by omega) x]
      exact I.fn_mem c _ (by rw [hf.args c (by omega)]; exact .nil)
    · exact hv x
  obtain ⟨L, hL, ht⟩ := he I (fun D hD => hI D (List.mem_append_left _ hD)) _ hw
  rw [← litTrue_subst] at ht
  have hmem : Lit.subst (skolemSubst b) L ∈ (clauseSkolemize C n').1 := by
    simp only [clauseSkolemize, hb]; exact List.mem_map_of_mem hL
  obtain ⟨K, hK, hk⟩ := hI _ (List.mem_append_right _ (List.mem_map_of_mem hmem)) v hv
  simp only [List.mem_singleton] at hK
  subst hK
  unfold LitTrue at hk ht
  by_cases hpos : (Lit.subst (skolemSubst b) L).pos = true
  · rw [if_pos hpos] at ht
    rw [if_neg (by simp [hpos])] at hk
    exact hk ht
  · rw [if_neg hpos] at ht
    rw [if_pos (by simpa using hpos)] at hk
    exact ht hk

/-- **C80** A correct proof is verified: if every clause of the protocol follows from the clauses it refers to, full
formulas refer to no clauses, there are no splitting steps and no dangling references, and the prover is complete,
checkproof prints "Proof verified!". -/
theorem checkproof_complete (hs : ProverComplete.{u} sg prover) (hp : Numbering p) {n : Nat} (hf : Fresh sg n)
    (hent : ∀ s ∈ p, (∃ D, ParentClause p s D) → ∃ C, s.logic = .clause C ∧ ∀ I : Interp.{u} sg, (∀ D, ParentClause p s D → I.Models D) → I.Models C)
    (hsp : ∀ s ∈ p, ¬ IsSplit s) (hd : ∀ s ∈ p, ¬ Dangling p s) : checkproof prover p n = some .verified := by
  have hstep : ∀ s ∈ p, ∀ k, n ≤ k → ∃ c k', stepCheck prover p s k = some (c, k') ∧ (c = .ok ∨ c = .byAssumption) := by
    intro s hs' k hk
    have hnsp : isSplit s = false := by
      unfold isSplit
      cases hj : s.just with
      | initial => rfl
      | quote i => rfl
      | op c args =>
        by_contra hc
        simp only [Bool.not_eq_false, beq_iff_eq] at hc
        exact hsp s hs' ⟨args, by rw [hj, hc]⟩
    have hcol := collect_ne_none (p := p) (quotes s.just) [] fun i hi => by
      by_contra hc; push Not at hc; exact hd s hs' ⟨i, hi, hc⟩
    obtain ⟨ps, hps⟩ := Option.ne_none_iff_exists'.1 hcol
    have hpre : preconds p s = some (ps.filterMap Step.clause?) := by simp [preconds, hps]
    unfold stepCheck
    simp only [hnsp, Bool.false_eq_true, if_false]
    unfold generateCheck
    cases hl : ps.filterMap Step.clause? with
    | nil => rw [hpre, hl]; exact ⟨_, _, rfl, Or.inr rfl⟩
    | cons D Ds =>
      rw [hl] at hpre
      obtain ⟨C, hC, he⟩ := hent s hs' ⟨D, (mem_preconds hp hpre D).1 (by simp)⟩
      have hu := refute_complete hf hk (Ps := D :: Ds) (C := C) fun I hI => he I fun E hE => hI E ((mem_preconds hp hpre E).2 hE)
      have := hs _ hu
      rw [hpre]
      simp only [negSkolemize, hC]
      refine ⟨_, _, rfl, Or.inl ?_⟩
      rw [if_pos this]
  have hprot : ∀ (ss : List Step), (∀ s ∈ ss, s ∈ p) → ∀ k res unc, n ≤ k → protCheck prover p ss k res unc = some (res + ss.length, unc) := by
    intro ss
    induction ss with
    | nil => intro _ k res unc _; rfl
    | cons s ss ih =>
      intro hm k res unc hk
      obtain ⟨c, k', hc, hor⟩ := hstep s (hm s (by simp)) k hk
      have hk' := Nat.le_trans hk (stepCheck_mono hc)
      have := ih (fun t ht => hm t (by simp [ht])) k' (res + 1) unc hk'
      unfold protCheck
      rcases hor with rfl | rfl <;> simp only [hc, this, List.length_cons] <;> congr 2 <;> omega
  have := hprot p (fun _ h => h) n 0 0 (Nat.le_refl _)
  simp [checkproof, this]

/-! ## Examples -/

namespace PclEx

def sig : Sig := { vty := fun _ => 1, fty := fun f => if f = 1 ∨ f = 2 ∨ f = 11 then 0 else 1, fargs := fun f => if f = 11 then [1] else [] }

def a : Term := app 10 []
def P (t : Term) : Lit := ⟨true, app 11 [t], tTrue⟩
def nP (t : Term) : Lit := ⟨false, app 11 [t], tTrue⟩

theorem fresh : Fresh sig 12 where
  tf := by omega
  args c hc := by simp [sig]; omega
  ty c hc x := by simp [sig]; omega
  dist c hc := by simp [sig]

/-- A prover that knows the empty clause and clashes of `P(X)` with `¬P(c)`. -/
def exProver (Q : List (List Lit)) : Bool :=
  Q.any List.isEmpty || Q.any (fun C => C == [P (var 0)]) && Q.any (fun C => C == [nP a])

theorem prover_sound : ProverSound.{u} sig exProver := by
  rintro Q hQ ⟨I, hI⟩
  obtain ⟨v, hv⟩ : ∃ v : Nat → I.D, I.Sorted v := by
    choose d hd using I.inhab
    exact ⟨fun x => d (sig.vty x), fun x => hd _⟩
  simp only [exProver, Bool.or_eq_true, Bool.and_eq_true, List.any_eq_true, beq_iff_eq] at hQ
  rcases hQ with ⟨C, hC, he⟩ | ⟨⟨C, hC, rfl⟩, ⟨D, hD, rfl⟩⟩
  · rw [List.isEmpty_iff] at he
    subst he
    obtain ⟨L, hL, -⟩ := hI _ hC v hv
    simp at hL
  · obtain ⟨L, hL, h1⟩ := hI _ hD v hv
    have hw : I.Sorted fun _ => I.fn 10 [] := fun x => I.fn_mem 10 [] (by simp [sig])
    obtain ⟨M, hM, h2⟩ := hI _ hC _ hw
    simp only [List.mem_singleton] at hL hM
    subst hL hM
    simp only [LitTrue, P, nP, a, tTrue, eval_app, List.map_cons, List.map_nil, if_true, Bool.false_eq_true, if_false] at h1 h2
    exact h1 h2

def proofTag : Option (List Char) := some ['\'', 'p', 'r', 'o', 'o', 'f', '\'']

/-- A proof with a superfluous step. -/
def prot : Prot :=
  [⟨1, .clause [P (var 0)], .initial, none⟩, ⟨2, .clause [P a], .op 14 [.quote 1], none⟩, ⟨3, .clause [nP a], .initial, none⟩,
   ⟨4, .clause [], .op 5 [.quote 3, .op 14 [.quote 1]], proofTag⟩]

example : Numbering prot := by decide

example : checkproof exProver prot 12 = some .verified := by decide +kernel

theorem prot_acyclic : Acyclic prot := ⟨id, by simp [prot, quotes, quotesL]⟩

theorem prot_below : ProtBelow prot 12 := by
  intro s hs C hC
  simp only [prot, List.mem_cons, List.not_mem_nil, or_false] at hs
  rcases hs with rfl | rfl | rfl | rfl <;> simp only [Logic.clause.injEq] at hC <;> subst hC <;>
    simp [ClauseBelow, P, nP, a, tTrue, Term.symsBelow_app, Term.SymsBelow, Term.SymsBelowL]

/-- The verified proof shows that the axioms are contradictory. -/
example (I : Interp.{u} sig) (h1 : I.Models [P (var 0)]) (h2 : I.Models [nP a]) : I.Models [] := by
  refine checkproof_verified_partial (prover_sound) (by decide) prot_acyclic fresh prot_below (by decide +kernel : checkproof exProver prot 12 = _) I ?_
    ⟨4, .clause [], .op 5 [.quote 3, .op 14 [.quote 1]], proofTag⟩ (by simp [prot]) [] rfl
  intro s hs hn C hC
  simp only [prot, List.mem_cons, List.not_mem_nil, or_false] at hs
  rcases hs with rfl | rfl | rfl | rfl
  · simp only [Logic.clause.injEq] at hC; subst hC; exact h1
  · exact absurd ⟨⟨1, .clause [P (var 0)], .initial, none⟩, by simp [prot], by simp [quotes, quotesL], rfl⟩ (hn [P (var 0)])
  · simp only [Logic.clause.injEq] at hC; subst hC; exact h2
  · exact absurd ⟨⟨1, .clause [P (var 0)], .initial, none⟩, by simp [prot], by simp [quotes, quotesL], rfl⟩ (hn [P (var 0)])

/-- Extraction leaves out step 2. -/
example : (extract id prot false 20).map (Option.map fun r => (r.1, r.2.map Step.id)) = some (some (.cnfRefutation, [1, 3, 4])) := by decide +kernel
example : (extract id prot true 20).map (Option.map fun r => (r.1, r.2.map Step.id)) = some (some (.cnfRefutation, [1, 3, 4])) := by decide +kernel
example : extractBound prot ≤ 20 := by decide +kernel

/-- The condition of `extract_fast_partial`. -/
example : ∀ s ∈ prot, stepExtract s.extra = true → ∀ j, s.id ≤ j → j ≤ maxIdent prot → ∃ t ∈ prot, t.id = j ∧ stepExtract t.extra = true := by
  intro s hs he j h1 h2
  have hmax : maxIdent prot = 4 := by decide
  have : s.id = 4 := by
    simp only [prot, List.mem_cons, List.not_mem_nil, or_false] at hs
    rcases hs with rfl | rfl | rfl | rfl
    · simp [stepExtract] at he
    · simp [stepExtract] at he
    · simp [stepExtract] at he
    · rfl
  exact ⟨⟨4, .clause [], .op 5 [.quote 3, .op 14 [.quote 1]], proofTag⟩, by simp [prot], by show 4 = j; omega, by decide⟩

open Classical in
/-- `checkproof_complete` with an ideal prover. -/
example : checkproof (fun Q => decide (¬ ∃ I : Interp.{0} sig, ∀ C ∈ Q, I.Models C))
    [⟨1, .clause [P (var 0)], .initial, none⟩, ⟨2, .clause [P (var 1), nP a], .op 14 [.quote 1], none⟩] 12 = some .verified := by
  refine checkproof_complete.{0} (sg := sig) (fun Q hQ => by simpa using hQ) (by simp [Numbering]) fresh ?_ ?_ ?_
  · intro s hs hD
    simp only [List.mem_cons, List.not_mem_nil, or_false] at hs
    rcases hs with rfl | rfl
    · obtain ⟨D, t, -, hq, -⟩ := hD; simp [quotes] at hq
    · refine ⟨_, rfl, fun I hI v hv => ?_⟩
      obtain ⟨L, hL, ht⟩ := hI [P (var 0)] ⟨⟨1, .clause [P (var 0)], .initial, none⟩, by simp, by simp [quotes, quotesL], rfl⟩ (fun _ => v 1) (fun _ => hv 1)
      simp only [List.mem_singleton] at hL
      subst hL
      refine ⟨P (var 1), by simp, ?_⟩
      simpa [LitTrue, P, tTrue, eval_app, eval] using ht
  · intro s hs h
    simp only [List.mem_cons, List.not_mem_nil, or_false] at hs
    rcases hs with rfl | rfl <;> simp [IsSplit, opSplit] at h
  · intro s hs h
    simp only [List.mem_cons, List.not_mem_nil, or_false] at hs
    rcases hs with rfl | rfl <;> simp [Dangling, quotes, quotesL] at h

/-- A dangling reference. -/
example : (extract id [⟨1, .clause [], .op 5 [.quote 7], proofTag⟩] false 20).map Option.isNone = some true := by decide +kernel

/-- **C79** A refutation is announced although the steps printed contain none: the empty clause of step 2 is not
marked for extraction, only step 1 is. -/
theorem frame_without_refutation :
    let p : Prot := [⟨1, .clause [P (var 0)], .initial, some ['\'', 'f', 'i', 'n', 'a', 'l', '\'']⟩, ⟨2, .clause [], .initial, none⟩]
    (extract id p false 20).map (Option.map fun r => (r.1, r.2.map Step.id, r.2.any isContradiction)) =
      some (some (.cnfRefutation, [1], false)) := by decide +kernel

/-- **C79** With a gap in the numbering the fast extraction loses a step although all steps to be extracted are at
the end of the protocol. -/
theorem gap_loses_step :
    let tag := some ['\'', 'f', 'i', 'n', 'a', 'l', '\'']
    let p : Prot := [⟨1, .clause [P a], .initial, none⟩, ⟨2, .clause [P (var 0)], .initial, tag⟩, ⟨4, .clause [nP a], .initial, tag⟩]
    (extract id p true 20).map (Option.map fun r => r.2.map Step.id) = some (some [4]) ∧
      (extract id p false 20).map (Option.map fun r => r.2.map Step.id) = some (some [2, 4]) := by decide +kernel

/-- A model of `sig`. -/
@[reducible] def model : Interp.{0} sig where
  D := Bool
  mem _ _ := True
  inhab _ := ⟨true, trivial⟩
  fn f _ := if f = 2 then false else true
  fn_mem _ _ _ := trivial
  tf := by simp
  bool2 d _ := by cases d <;> simp
  dist _ _ h := by simp [sig] at h

/-- **C80** Two copies of the empty clause that refer to each other are verified with a sound prover, although
the only step without parents has a model: checkproof does not look for cycles. -/
theorem circular_verified :
    let p : Prot := [⟨1, .clause [P (var 0)], .initial, none⟩, ⟨2, .clause [], .op 14 [.quote 3, .quote 1], none⟩, ⟨3, .clause [], .op 14 [.quote 2], proofTag⟩]
    ProverSound.{0} sig exProver ∧ checkproof exProver p 12 = some .verified ∧ model.Models [P (var 0)] ∧ ¬ model.Models [] := by
  refine ⟨prover_sound, by decide +kernel, fun v _ => ⟨_, List.mem_singleton.2 rfl, ?_⟩, fun h => ?_⟩
  · simp [LitTrue, P, tTrue, eval_app]
  · obtain ⟨L, hL, -⟩ := h (fun _ => true) (fun _ => trivial)
    simp at hL

/-- **C80** Clauses that refer only to full formulas are not checked but counted as checked: the empty clause
"derived" from any formula is verified, by every prover. -/
theorem formula_parent_verified (pr : List (List Lit) → Bool) (code : Nat) :
    checkproof pr [⟨1, .fof code, .initial, none⟩, ⟨2, .clause [], .op 16 [.quote 1], proofTag⟩] 12 = some .verified := by
  rfl

/-- A splitting step is only "partially verified". -/
example : checkproof exProver [⟨1, .clause [P (var 0)], .initial, none⟩, ⟨2, .clause [], .op opSplit [.quote 1], none⟩] 12 = some .partially := by decide +kernel

/-- A wrong step is noticed. -/
example : checkproof exProver [⟨1, .clause [P a], .initial, none⟩, ⟨2, .clause [], .op 14 [.quote 1], none⟩] 12 = some .failed := by decide +kernel

end PclEx

end Verif.Props
