import Verif.Control.SineProof
import Verif.Control.RelevanceProof
import Verif.Props.Verdict

/-!
# C70, C71: axiom selection

What the SinE filter (`--sine`) and relevance pruning (`--rel-pruning-level`) keep of a problem, and what the number of pruned axioms they
report means for the verdict.
-/

namespace Verif.Props
open Verif Verif.Sine Verif.Relevance PreprocProof CNFProof SaturateProof Sup RewriteProof Term

universe u

/-! ## C70: SinE -/

/-- The symbol occurrences that count: of a conjecture that is a formula, with trimming of implications, those in the trimmed conclusion; of
everything else all. -/
def counted (f : SFilter) (a : SAx) : List Nat := if !a.clause && a.conj && f.trimImpl then a.trim else a.occ

private theorem counted_eq : @occOf = counted := rfl

/-- How general a symbol is: the number of its occurrences, or the number of axioms it occurs in. -/
def generality (f : SFilter) (axs : List SAx) (s : Nat) : Nat :=
  if f.terms then (axs.map fun a => (counted f a).count s).sum else axs.countP fun a => decide (s ∈ counted f a)

/-- Symbol `s` triggers axiom `b`: it occurs in it, is not an internal symbol below `int`, is not more general than `benevolence` times any other
symbol of the axiom, and at most `generosity` symbols of the axiom are less general; or it is the symbol the formula defines, and such symbols are
asked for. -/
def Triggers (f : SFilter) (int : Nat) (axs : List SAx) (s : Nat) (b : SAx) : Prop :=
  (s ∈ counted f b ∧ int ≤ s ∧ (∀ t ∈ counted f b, int ≤ t → generality f axs s ≤ generality f axs t * f.benNum / f.benDen) ∧
    ((counted f b).eraseDups.filter fun t => decide (int ≤ t)).countP (fun t => decide (generality f axs t < generality f axs s)) ≤ f.generosity) ∨
  (b.lam = some s ∧ b.clause = false ∧ f.defined = true)

/-- Axioms reached in `n` steps: conjectures (and hypotheses, if asked for) in none; in `n+1` steps those that a symbol of an axiom reached in `n`
steps triggers.  Internal symbols trigger nothing. -/
inductive Relevant (f : SFilter) (int : Nat) (axs : List SAx) : Nat → SAx → Prop
  | seed {a} : a ∈ axs → (a.conj = true ∨ (f.hypos = true ∧ a.hypo = true)) → Relevant f int axs 0 a
  | step {n a s b} : Relevant f int axs n a → s ∈ counted f a → int < s → b ∈ axs → Triggers f int axs s b → Relevant f int axs (n + 1) b

/-- The limit on the number of selected axioms. -/
def sizeLimit (f : SFilter) (axs : List SAx) : Nat := min f.maxSize (f.fracNum * axs.length / f.fracDen)

/-- The distribution counts occurrences and axioms. -/
theorem generality_counts (f : SFilter) (axs : List SAx) (s : Nat) : gen f (gdAll f axs) s = generality f axs s := by
  unfold gen gdAll generality
  rw [gdFold_term, gdFold_form]
  simp only [gdEmpty, Nat.zero_add]
  rfl

/-- The symbols an axiom is filed under are those that trigger it. -/
theorem filed_triggers {f : SFilter} {int : Nat} {axs : List SAx} {s : Nat} {b : SAx} :
    s ∈ fileSyms f (gdAll f axs) int b ↔ Triggers f int axs s b := by
  have h1 : s ∈ computeDRel f (gdAll f axs) int (symStack f b) ↔
      (s ∈ counted f b ∧ int ≤ s ∧ (∀ t ∈ counted f b, int ≤ t → generality f axs s ≤ generality f axs t * f.benNum / f.benDen) ∧
        ((counted f b).eraseDups.filter fun t => decide (int ≤ t)).countP (fun t => decide (generality f axs t < generality f axs s)) ≤
          f.generosity) := by
    rw [mem_computeDRel]
    simp only [generality_counts, mem_symStack, and_assoc]
    rfl
  unfold fileSyms Triggers
  rw [← h1]
  cases hl : b.lam with
  | none => simp
  | some t =>
    simp only [Option.some.injEq]
    split
    · rename_i hc
      simp only [Bool.and_eq_true, Bool.not_eq_true'] at hc
      simp only [List.mem_append, List.mem_singleton]
      apply or_congr_right
      constructor
      · rintro rfl; exact ⟨rfl, hc.1.1, hc.1.2⟩
      · rintro ⟨rfl, _⟩; rfl
    · rename_i hc
      simp only [Bool.and_eq_true, Bool.not_eq_true', not_and, Bool.not_eq_false] at hc
      constructor
      · exact Or.inl
      · rintro (h | ⟨rfl, h2, h3⟩)
        · exact h
        · have := hc ⟨h2, h3⟩
          simpa using this

theorem reach_relevant {f : SFilter} {int : Nat} {axs : List SAx} (h0 : 0 < int) {n : Nat} {a : SAx} :
    Sine.Reach int (drelAll f (gdAll f axs) int axs) (symStack f) (seedsOf f axs) n a ↔ Relevant f int axs n a := by
  have hseed : ∀ a, a ∈ seedsOf f axs ↔ a ∈ axs ∧ (a.conj = true ∨ (f.hypos = true ∧ a.hypo = true)) := by
    intro a
    simp only [seedsOf, List.mem_append, List.mem_filter, isSeed, Bool.or_eq_true, Bool.and_eq_true]
    cases a.clause <;> simp
  have hent : ∀ s b, int < s → (b ∈ entryList (drelAll f (gdAll f axs) int axs) s ↔ b ∈ axs ∧ Triggers f int axs s b) := by
    intro s b hs
    rw [mem_drelAll, filed_triggers]
    apply and_congr_right
    intro _
    constructor
    · rintro (h | ⟨_, h⟩)
      · exact h
      · omega
    · exact Or.inl
  constructor
  · intro h
    induction h with
    | seed h => exact .seed ((hseed _).1 h).1 ((hseed _).1 h).2
    | step _ hs hi hb ih => exact .step ih (mem_symStack.1 hs) hi ((hent _ _ hi).1 hb).1 ((hent _ _ hi).1 hb).2
  · intro h
    induction h with
    | seed h1 h2 => exact .seed ((hseed _).2 ⟨h1, h2⟩)
    | step _ hs hi hb ht ih => exact .step ih (mem_symStack.2 hs) hi ((hent _ _ hi).2 ⟨hb, ht⟩)

variable {f : SFilter} {int : Nat} {axs res : List SAx}

/-- **C70, termination**: axiom selection always ends. -/
theorem sine_total (f : SFilter) (int : Nat) (axs : List SAx) : ∃ res, selectAxioms f int axs = some res := by
  unfold selectAxioms
  simp only []
  split
  · exact ⟨_, rfl⟩
  · obtain ⟨r, hr⟩ := selectDefining_total int (drelAll f (gdAll f axs) int axs) (symStack f) f.depth
      (if f.maxSize < f.fracNum * axs.length / f.fracDen then f.maxSize else f.fracNum * axs.length / f.fracDen) (seedsOf f axs)
    rw [hr]
    exact ⟨_, rfl⟩

/-- The shape of the result: axioms that nothing triggers (if they are asked for), then the selected ones. -/
theorem sine_shape (h0 : 0 < int) (hl : ∀ a ∈ axs, a.lam ≠ some 0) (h : selectAxioms f int axs = some res)
    (hs : ∃ b ∈ axs, b.conj = true ∨ (f.hypos = true ∧ b.hypo = true)) :
    ∃ pre sel, res = pre ++ sel ∧ (∀ a, a ∈ pre ↔ f.noSym = true ∧ a ∈ axs ∧ ∀ s, ¬ Triggers f int axs s a) ∧
      Done int (drelAll f (gdAll f axs) int axs) (symStack f) (seedsOf f axs) f.depth (sizeLimit f axs) sel := by
  unfold selectAxioms at h
  simp only [] at h
  split at h
  · rename_i he
    obtain ⟨b, hb, hr⟩ := hs
    have hbs : b ∈ seedsOf f axs := by
      simp only [seedsOf, List.mem_append, List.mem_filter, isSeed, Bool.or_eq_true, Bool.and_eq_true]
      cases b.clause <;> simp [hb, hr]
    rw [List.isEmpty_iff.1 he] at hbs
    simp at hbs
  · simp only [Option.map_eq_some_iff] at h
    obtain ⟨sel, hsel, rfl⟩ := h
    refine ⟨_, sel, rfl, ?_, ?_⟩
    · intro a
      have hm : a ∈ entryList (drelAll f (gdAll f axs) int axs) 0 ↔ a ∈ axs ∧ ∀ s, ¬ Triggers f int axs s a := by
        rw [mem_drelAll]
        apply and_congr_right
        intro ha
        constructor
        · rintro (h | ⟨h, _⟩)
          · rcases filed_triggers.1 h with ⟨_, h, _⟩ | ⟨h, _⟩
            · omega
            · exact absurd h (hl a ha)
          · intro s hs
            have := filed_triggers.2 hs
            rw [h] at this
            simp at this
        · intro h
          refine Or.inr ⟨?_, rfl⟩
          cases hf : fileSyms f (gdAll f axs) int a with
          | nil => rfl
          | cons s ss => exact absurd (filed_triggers.1 (by rw [hf]; exact List.mem_cons_self ..)) (h s)
      unfold entryList at hm
      cases he : entry (drelAll f (gdAll f axs) int axs) 0 with
      | none =>
        rw [he] at hm
        simp only [List.not_mem_nil, false_iff] at hm ⊢
        exact fun h => hm h.2
      | some cf =>
        rw [he] at hm
        simp only [] at hm ⊢
        cases hn : f.noSym with
        | true => simp only [if_true, true_and]; exact hm
        | false => simp
    · have hlim : (if f.maxSize < f.fracNum * axs.length / f.fracDen then f.maxSize else f.fracNum * axs.length / f.fracDen) =
          sizeLimit f axs := by
        unfold sizeLimit
        split <;> omega
      rw [hlim] at hsel
      exact selectDefining_done hsel

/-- **C70, only relevant axioms**: what is selected are axioms of the problem reached in at most `max_recursion_depth` steps, and if asked for
those that no symbol triggers. -/
theorem sine_sound (h0 : 0 < int) (hl : ∀ a ∈ axs, a.lam ≠ some 0) (h : selectAxioms f int axs = some res) {a : SAx} (ha : a ∈ res) :
    a ∈ axs ∧ ((∃ n ≤ f.depth, Relevant f int axs n a) ∨ (f.noSym = true ∧ ∀ s, ¬ Triggers f int axs s a)) := by
  by_cases hs : ∃ b ∈ axs, b.conj = true ∨ (f.hypos = true ∧ b.hypo = true)
  · obtain ⟨pre, sel, rfl, hpre, hd⟩ := sine_shape h0 hl h hs
    rcases List.mem_append.1 ha with ha | ha
    · obtain ⟨h1, h2, h3⟩ := (hpre a).1 ha
      exact ⟨h2, Or.inr ⟨h1, h3⟩⟩
    · obtain ⟨n, hn, hr⟩ := hd.sound a ha
      have hr := (reach_relevant h0).1 hr
      refine ⟨?_, Or.inl ⟨n, hn, hr⟩⟩
      cases hr with
      | seed h _ => exact h
      | step _ _ _ h _ => exact h
  · have he : seedsOf f axs = [] := by
      rw [List.eq_nil_iff_forall_not_mem]
      intro b hb
      apply hs
      simp only [seedsOf, List.mem_append, List.mem_filter, isSeed, Bool.or_eq_true, Bool.and_eq_true] at hb
      rcases hb with hb | hb <;> exact ⟨b, hb.1.1, hb.2⟩
    simp [selectAxioms, he] at h
    subst h
    simp at ha

/-- Everything reached in at most `max_recursion_depth` steps is selected if the limit on the number of axioms is not exceeded. -/
theorem sine_complete (h0 : 0 < int) (hl : ∀ a ∈ axs, a.lam ≠ some 0) (h : selectAxioms f int axs = some res)
    (hsz : res.length ≤ sizeLimit f axs) {n : Nat} (hn : n ≤ f.depth) {a : SAx} (ha : Relevant f int axs n a) : a ∈ res := by
  have hs : ∃ b ∈ axs, b.conj = true ∨ (f.hypos = true ∧ b.hypo = true) := by
    clear hn
    induction ha with
    | seed h1 h2 => exact ⟨_, h1, h2⟩
    | step _ _ _ _ _ ih => exact ih
  obtain ⟨pre, sel, rfl, hpre, hd⟩ := sine_shape h0 hl h hs
  refine List.mem_append_right _ (hd.complete ?_ n hn a ((reach_relevant h0).2 ha))
  simp only [List.length_append] at hsz
  omega

/-- **C70, exactly the relevant axioms**: without a limit on the number of axioms (the default), the selected axioms are exactly those reached from
the conjectures in at most `max_recursion_depth` steps, together with, if asked for, those that no symbol triggers. -/
theorem sine_exact (h0 : 0 < int) (hl : ∀ a ∈ axs, a.lam ≠ some 0) (hm : axs.length ≤ sizeLimit f axs) (h : selectAxioms f int axs = some res)
    (hs : ∃ b ∈ axs, b.conj = true ∨ (f.hypos = true ∧ b.hypo = true)) (a : SAx) :
    a ∈ res ↔ a ∈ axs ∧ ((∃ n ≤ f.depth, Relevant f int axs n a) ∨ (f.noSym = true ∧ ∀ s, ¬ Triggers f int axs s a)) := by
  constructor
  · exact sine_sound h0 hl h
  · rintro ⟨h1, ⟨n, hn, hr⟩ | ⟨h2, h3⟩⟩
    · obtain ⟨pre, sel, rfl, hpre, hd⟩ := sine_shape h0 hl h hs
      refine List.mem_append_right _ (hd.complete ?_ n hn a ((reach_relevant h0).2 hr))
      have hsub : sel ⊆ axs := fun b hb => (sine_sound h0 hl h (List.mem_append_right _ hb)).1
      exact Nat.le_trans (hd.nodup.subperm hsub).length_le hm
    · obtain ⟨pre, sel, rfl, hpre, hd⟩ := sine_shape h0 hl h hs
      exact List.mem_append_left _ ((hpre a).2 ⟨h2, h1, h3⟩)

/-- **C70, conjectures**: all conjectures (and hypotheses, if asked for) are selected if there are not more of them than the limit on the number of
axioms. -/
theorem sine_seeds (h0 : 0 < int) (hl : ∀ a ∈ axs, a.lam ≠ some 0) (h : selectAxioms f int axs = some res)
    (hm : (axs.filter fun a => a.conj || (f.hypos && a.hypo)).length ≤ sizeLimit f axs) {a : SAx} (ha : a ∈ axs)
    (hc : a.conj = true ∨ (f.hypos = true ∧ a.hypo = true)) : a ∈ res := by
  obtain ⟨pre, sel, rfl, hpre, hd⟩ := sine_shape h0 hl h ⟨a, ha, hc⟩
  have hr := (reach_relevant (f := f) (axs := axs) h0).2 (.seed ha hc)
  obtain ⟨k, hk1, hk2⟩ := hd.order
  apply List.mem_append_right
  by_cases hk : 0 < k
  · exact hk2 0 hk a hr
  · refine hd.complete ?_ 0 (Nat.zero_le _) a hr
    have hsub : sel ⊆ axs.filter fun a => a.conj || (f.hypos && a.hypo) := by
      intro b hb
      obtain ⟨n, hn, hrb⟩ := hk1 b hb
      have hn0 : n = 0 := by omega
      subst hn0
      cases (reach_relevant h0).1 hrb with
      | seed h1 h2 => simp [h1, h2]
    exact Nat.le_trans (hd.nodup.subperm hsub).length_le hm

/-- **C70, nearer axioms first**: if an axiom is selected at all, then so is every axiom that is reached in fewer steps than it. -/
theorem sine_order (h0 : 0 < int) (hl : ∀ a ∈ axs, a.lam ≠ some 0) (h : selectAxioms f int axs = some res) {b : SAx} (hb : b ∈ res)
    (hnt : f.noSym = false) {n : Nat} {a : SAx} (ha : Relevant f int axs n a) (hn : ∀ m, Relevant f int axs m b → n < m) : a ∈ res := by
  have hs : ∃ b ∈ axs, b.conj = true ∨ (f.hypos = true ∧ b.hypo = true) := by
    clear hn
    induction ha with
    | seed h1 h2 => exact ⟨_, h1, h2⟩
    | step _ _ _ _ _ ih => exact ih
  obtain ⟨pre, sel, rfl, hpre, hd⟩ := sine_shape h0 hl h hs
  obtain ⟨k, hk1, hk2⟩ := hd.order
  rcases List.mem_append.1 hb with hb | hb
  · have := ((hpre b).1 hb).1
    rw [hnt] at this
    cases this
  · obtain ⟨m, hmk, hm⟩ := hk1 b hb
    have := hn m ((reach_relevant h0).1 hm)
    exact List.mem_append_right _ (hk2 n (by omega) a ((reach_relevant h0).2 ha))

/-- **C70, partial: number of axioms**: at most one axiom more than the limit is selected, and none twice.  The limit itself can be exceeded
(`sine_limit_exceeded`); axioms that no symbol triggers come on top and may be listed a second time (`sine_listed_twice`). -/
theorem sine_size_partial (h0 : 0 < int) (hl : ∀ a ∈ axs, a.lam ≠ some 0) (hnt : f.noSym = false) (h : selectAxioms f int axs = some res) :
    res.length ≤ sizeLimit f axs + 1 ∧ res.Nodup := by
  by_cases hs : ∃ b ∈ axs, b.conj = true ∨ (f.hypos = true ∧ b.hypo = true)
  · obtain ⟨pre, sel, rfl, hpre, hd⟩ := sine_shape h0 hl h hs
    have hp : pre = [] := by
      rw [List.eq_nil_iff_forall_not_mem]
      intro b hb
      have := ((hpre b).1 hb).1
      rw [hnt] at this
      cases this
    subst hp
    exact ⟨hd.size, hd.nodup⟩
  · have : res = [] := by
      rw [List.eq_nil_iff_forall_not_mem]
      intro b hb
      rcases (sine_sound h0 hl h hb).2 with ⟨n, hn, hr⟩ | ⟨h1, _⟩
      · apply hs
        clear hb hn
        induction hr with
        | seed h1 h2 => exact ⟨_, h1, h2⟩
        | step _ _ _ _ _ ih => exact ih
      · rw [hnt] at h1
        cases h1
    subst this
    simp

/-- **C70, what is reported**: after the axioms have been replaced by the selected ones, none is there twice, the number reported as pruned is the
number of axioms that are gone, and it is 0 only if none is. -/
theorem sine_pruned (hax : axs.Nodup) (hsub : res ⊆ axs) {new : List SAx} {k : Nat} (h : replaceAxioms axs res = (new, k)) :
    (∀ a, a ∈ new ↔ a ∈ res) ∧ new.Nodup ∧ new.length + k = axs.length ∧ (k = 0 ↔ ∀ a ∈ axs, a ∈ new) := by
  simp only [replaceAxioms, Prod.mk.injEq] at h
  obtain ⟨rfl, rfl⟩ := h
  have hm : ∀ a, a ∈ moveAll res [] ↔ a ∈ res := by intro a; simp [moveAll_mem]
  have hn : (moveAll res []).Nodup := moveAll_nodup res [] List.nodup_nil
  have hs : (moveAll res []).Subperm axs := hn.subperm fun a ha => hsub ((hm a).1 ha)
  have hle := hs.length_le
  refine ⟨hm, hn, by omega, ?_⟩
  constructor
  · intro h0 a ha
    exact (hs.perm_of_length_le (by omega)).mem_iff.2 ha
  · intro hall
    have := (hax.subperm hall).length_le
    omega

/-! ## C71: relevance pruning -/

/-- **C71, termination.** -/
theorem relevancy_total (special : Nat → Bool) (level : Nat) (axs : List SAx) : ∃ x, relevancyProcess special level axs = some x := by
  unfold relevancyProcess
  split
  · exact ⟨_, rfl⟩
  · have hle : (axs.filter fun a => !a.conj).length ≤ axs.length := List.length_filter_le _ _
    obtain ⟨x, hx⟩ := levels_total (special := special) (axs.length + 2) (axs.filter (·.conj)) (axs.filter fun a => !a.conj) [] (Or.inl (by omega))
    rw [relevanceData, hx]
    exact ⟨_, rfl⟩

/-- **C71, what is kept**: with pruning level `level > 0`, an axiom is kept iff fewer than `level` steps between axioms with a common symbol lead to
it from a conjecture; but if there is no axiom at distance `level - 1`, nothing is pruned. -/
theorem relevancy_kept {special : Nat → Bool} {level : Nat} {axs new : List SAx} {k : Nat} (hlv : 0 < level)
    (h : relevancyProcess special level axs = some (new, k)) (a : SAx) :
    a ∈ new ↔ a ∈ axs ∧ ((∃ n < level, Shares special axs n a) ∨ ¬ ∃ b, Relevance.Dist special axs (level - 1) b) := by
  unfold relevancyProcess at h
  rw [if_neg (by omega)] at h
  simp only [Option.map_eq_some_iff] at h
  obtain ⟨⟨ls, rest⟩, hd, heq⟩ := h
  simp only [Prod.mk.injEq] at heq
  obtain ⟨rfl, -⟩ := heq
  obtain ⟨ok, hp⟩ := relevanceData_ok hd
  rw [mem_relPrune]
  have hex : (¬ ∃ b, Relevance.Dist special axs (level - 1) b) ↔ ls.length < level := by
    constructor
    · intro hn
      by_contra hge
      have hi : level - 1 < ls.length := by omega
      obtain ⟨b, hb⟩ := List.exists_mem_of_ne_nil _ (ok.nonempty _ hi)
      refine hn ⟨b, ?_⟩
      simpa using (ok.level _ hi b).1 hb
    · rintro hlt ⟨b, hb⟩
      obtain ⟨c, hc⟩ := dist_below (k := ls.length) (by omega) hb
      exact ok.last c (by simpa using hc)
  rw [hex]
  constructor
  · rintro (⟨i, hi, hin, hm⟩ | ⟨h1, h2⟩)
    · have hd := (ok.level i hi a).1 hm
      rw [Nat.zero_add] at hd
      exact ⟨shares_mem hd.1, Or.inl ⟨i, hin, hd.1⟩⟩
    · exact ⟨((ok.rest a).1 h2).1, Or.inr h1⟩
  · rintro ⟨h1, ⟨n, hn, hs⟩ | h2⟩
    · obtain ⟨m, hm, hd⟩ := shares_dist hs
      have hml : m < ls.length := by
        by_contra hge
        obtain ⟨c, hc⟩ := dist_below (k := ls.length) (by omega) hd
        exact ok.last c (by simpa using hc)
      exact Or.inl ⟨m, hml, by omega, (ok.level m hml a).2 (by simpa using hd)⟩
    · by_cases hs : ∃ n, Shares special axs n a
      · obtain ⟨n, hs⟩ := hs
        obtain ⟨m, hm, hd⟩ := shares_dist hs
        have hml : m < ls.length := by
          by_contra hge
          obtain ⟨c, hc⟩ := dist_below (k := ls.length) (by omega) hd
          exact ok.last c (by simpa using hc)
        exact Or.inl ⟨m, hml, by omega, (ok.level m hml a).2 (by simpa using hd)⟩
      · exact Or.inr ⟨h2, (ok.rest a).2 ⟨h1, fun n hn => hs ⟨n, hn⟩⟩⟩

/-- **C71, what is reported**: the kept axioms are axioms of the problem, none more often than before; the number reported as pruned is the number of
axioms that are gone; it is 0 only if none is. -/
theorem relevancy_pruned {special : Nat → Bool} {level : Nat} {axs new : List SAx} {k : Nat}
    (h : relevancyProcess special level axs = some (new, k)) :
    new.Subperm axs ∧ new.length + k = axs.length ∧ (k = 0 → new.Perm axs) := by
  unfold relevancyProcess at h
  split at h
  · simp only [Option.some.injEq, Prod.mk.injEq] at h
    obtain ⟨rfl, rfl⟩ := h
    exact ⟨List.Subperm.refl _, by omega, fun _ => List.Perm.refl _⟩
  · simp only [Option.map_eq_some_iff] at h
    obtain ⟨⟨ls, rest⟩, hd, heq⟩ := h
    simp only [Prod.mk.injEq] at heq
    obtain ⟨rfl, rfl⟩ := heq
    obtain ⟨-, hp⟩ := relevanceData_ok hd
    have hs : (relPrune level ls rest).Subperm axs := (relPrune_sublist level ls rest).subperm.trans hp.subperm
    have hle := hs.length_le
    exact ⟨hs, by omega, fun h0 => hs.perm_of_length_le (by omega)⟩

/-! ## Verdicts after pruning -/

/-- What `main` does before clausification (PROVER/eprover.c:630-632): SinE (if a filter is given), then relevance pruning.  `kept` remains, and
`pruned` is what is reported. -/
inductive Pruned (int : Nat) (special : Nat → Bool) (level : Nat) (axs kept : List SAx) : Nat → Prop
  | relevancy {k} : relevancyProcess special level axs = some (kept, k) → Pruned int special level axs kept k
  | both {f res new k1 k2} : selectAxioms f int axs = some res → replaceAxioms axs res = (new, k1) →
      relevancyProcess special level new = some (kept, k2) → Pruned int special level axs kept (k1 + k2)

theorem pruned_subset {int : Nat} {special : Nat → Bool} {level : Nat} {axs kept : List SAx} {k : Nat} (h0 : 0 < int)
    (hl : ∀ a ∈ axs, a.lam ≠ some 0) (hax : axs.Nodup) (h : Pruned int special level axs kept k) :
    kept ⊆ axs ∧ kept.length + k = axs.length ∧ (k = 0 → ∀ a ∈ axs, a ∈ kept) := by
  cases h with
  | relevancy h =>
    obtain ⟨h1, h2, h3⟩ := relevancy_pruned h
    exact ⟨h1.subset, h2, fun h a ha => (h3 h).mem_iff.2 ha⟩
  | both hs hr h =>
    obtain ⟨h1, h2, h3⟩ := relevancy_pruned h
    obtain ⟨g1, -, g3, g4⟩ := sine_pruned hax (fun a ha => (sine_sound h0 hl hs ha).1) hr
    refine ⟨fun a ha => (sine_sound h0 hl hs ((g1 a).1 (h1.subset ha))).1, by omega, fun h a ha => ?_⟩
    exact (h3 (by omega)).mem_iff.2 (g4.1 (by omega) a ha)

/-- **C70, C71, refutations**: a refutation of what is left after pruning proves that the goals follow from the whole problem. -/
theorem verdict_refuted_pruned {sg : Sig} {q : CnfParams} {p : PreParams} {out : List (List Lit)} {md : Bool} {o : MainOpts} {f : MainFacts}
    {s fin : SatState} {z : Szs} {int : Nat} {special : Nat → Bool} {level : Nat} {axs kept : List SAx} {k : Nat} {form : SAx → PForm}
    (h0 : 0 < int) (hl : ∀ a ∈ axs, a.lam ≠ some 0) (hax : axs.Nodup) (h : Pruned int special level axs kept k)
    (R : Prepared sg q p (kept.map form) out) (hq : NoAnswers q (kept.map form)) (hr : SReach sg md out fin) (hans : f.answers = [])
    (hz : z ∈ (mainReport o f s fin).1) (hz' : Szs.refuted z) : GoalFollows.{u} sg (axs.map form) := by
  have hsub := (pruned_subset h0 hl hax h).1
  have hsub' : ∀ w ∈ kept.map form, w ∈ axs.map form := by
    intro w hw
    obtain ⟨a, ha, rfl⟩ := List.mem_map.1 hw
    exact List.mem_map.2 ⟨a, hsub ha, rfl⟩
  intro I hI
  obtain ⟨w, hw, hg⟩ := verdict_refuted.{u} R hq hr hans hz hz' I fun w hw => hI w (hsub' w hw)
  exact ⟨w, hsub' w hw, hg⟩

/-- **C70, C71, partial: `Satisfiable` and `CounterSatisfiable`** are only reported if nothing was pruned, and are true of the whole problem.
Missing: what is missing in C69. -/
theorem verdict_saturated_pruned_partial {sg : Sig} {q : CnfParams} {p : PreParams} {out : List (List Lit)} {o : MainOpts} {f : MainFacts}
    {s fin : SatState} {z : Szs} {int : Nat} {special : Nat → Bool} {level : Nat} {axs kept : List SAx} {form : SAx → PForm}
    (h0 : 0 < int) (hl : ∀ a ∈ axs, a.lam ≠ some 0) (hax : axs.Nodup) (hp : Pruned int special level axs kept f.pruned)
    (R : Prepared sg q p (kept.map form) out) (hq : NoAnswers q (kept.map form)) {N : Nat} {gt : Term → Term → Prop} {pp : Term → Bool}
    (h : SupOrd sg N gt) (hO : RedOrd (sigAr sg) N gt) (hs : CalcSig sg N pp) {l : LState} (hr : LReach sg N gt pp out l)
    (hcov : ∀ c ∈ l.proc, Covered c.lits) (h1 : s.unproc = [] → l.pool = [] ∧ l.active = none) (h2 : s.complete = l.complete)
    (h3 : (∃ c ∈ l.proc, c.lits = []) → fin.success = true) (hz : z ∈ (mainReport o f s fin).1) (hsat : Szs.saturated z) :
    ∃ I : Interp.{0} sg, (∀ w ∈ axs.map form, ¬ w.IsGoal → w.form.Valid I) ∧ ∀ w ∈ axs.map form, w.IsGoal → ¬ w.form.Valid I := by
  have hk := (status_satisfiable hz hsat).2.2.1
  have hall := (pruned_subset h0 hl hax hp).2.2 hk
  obtain ⟨I, i1, i2⟩ := verdict_saturated_partial R hq h hO hs hr hcov h1 h2 h3 hz hsat
  have hm : ∀ w ∈ axs.map form, w ∈ kept.map form := by
    intro w hw
    obtain ⟨a, ha, rfl⟩ := List.mem_map.1 hw
    exact List.mem_map.2 ⟨a, hall a ha, rfl⟩
  exact ⟨I, fun w hw => i1 w (hm w hw), fun w hw => i2 w (hm w hw)⟩

/-! ## Examples and disagreements -/

namespace SineEx

/-- Symbols 21 to 30 are those of the problem, 20 is the last internal one (`$distinct`). -/
def ax (id : Nat) (conj : Bool) (occ : List Nat) : SAx := ⟨id, false, conj, false, occ, [], none⟩

/-- A conjecture about 21 and 22, an axiom triggered by 22, one triggered by 23, one by 24, and one without symbols. -/
def prob : List SAx :=
  [ax 0 true [5, 21, 22], ax 1 false [5, 22, 22, 23, 23, 23], ax 2 false [23, 23, 23, 24, 24], ax 3 false [24, 25, 25], ax 4 false [5, 3]]

/-- Count occurrences, benevolence 1, no limits. -/
def flt : SFilter := ⟨true, false, 1, 1, 1000, 1000, 1000, 1, 1, false, false, false⟩

example : (selectAxioms flt 20 prob).map (·.map (·.id)) = some [0, 1] := by decide +kernel

/-- With benevolence 2 the second axiom is also filed under 23, and the chain goes on. -/
example : (selectAxioms { flt with benNum := 2 } 20 prob).map (·.map (·.id)) = some [0, 1, 2, 3] := by decide +kernel
example : (selectAxioms { flt with benNum := 2, depth := 1 } 20 prob).map (·.map (·.id)) = some [0, 1] := by decide +kernel
example : (selectAxioms { flt with benNum := 2, noSym := true } 20 prob).map (·.map (·.id)) = some [4, 0, 1, 2, 3] := by decide +kernel

/-- The hypotheses of `sine_exact` hold here. -/
example (a : SAx) : ∃ res, selectAxioms flt 20 prob = some res ∧ (a ∈ res ↔ a ∈ prob ∧
    ((∃ n ≤ flt.depth, Relevant flt 20 prob n a) ∨ (flt.noSym = true ∧ ∀ s, ¬ Triggers flt 20 prob s a))) := by
  obtain ⟨res, h⟩ := sine_total flt 20 prob
  exact ⟨res, h, sine_exact (by decide) (by decide) (by decide) h ⟨ax 0 true [5, 21, 22], by simp [prob], Or.inl rfl⟩ a⟩

example : replaceAxioms prob [ax 4 false [5, 3], ax 0 true [5, 21, 22], ax 4 false [5, 3]] = ([ax 0 true [5, 21, 22], ax 4 false [5, 3]], 3) := by
  decide +kernel

/-- Relevance pruning: level 1 keeps the conjecture, level 2 the axioms that share a symbol with it. -/
def sp (n : Nat) : Bool := decide (n ≤ 20)
example : (relevancyProcess sp 1 prob).map (fun x => (x.1.map (·.id), x.2)) = some ([0], 4) := by decide +kernel
example : (relevancyProcess sp 3 prob).map (fun x => (x.1.map (·.id), x.2)) = some ([0, 1, 2], 2) := by decide +kernel
/-- Level 5: there is no axiom at distance 4, so even the axiom that is not connected is kept. -/
example : (relevancyProcess sp 4 prob).map (fun x => (x.1.map (·.id), x.2)) = some ([0, 1, 2, 3], 1) := by decide +kernel
example : (relevancyProcess sp 5 prob).map (fun x => (x.1.map (·.id), x.2)) = some ([0, 1, 2, 3, 4], 0) := by decide +kernel

/-- The hypotheses of `verdict_refuted_pruned` on pruning. -/
example : ∃ kept k, Pruned 20 sp 3 prob kept k ∧ k = 2 := by
  have e : selectAxioms { flt with benNum := 2 } 20 prob =
    some [ax 0 true [5, 21, 22], ax 1 false [5, 22, 22, 23, 23, 23], ax 2 false [23, 23, 23, 24, 24], ax 3 false [24, 25, 25]] := by
    decide +kernel
  have e3 : relevancyProcess sp 3 [ax 0 true [5, 21, 22], ax 1 false [5, 22, 22, 23, 23, 23], ax 2 false [23, 23, 23, 24, 24],
      ax 3 false [24, 25, 25]] = some ([ax 0 true [5, 21, 22], ax 1 false [5, 22, 22, 23, 23, 23], ax 2 false [23, 23, 23, 24, 24]], 1) := by
    decide +kernel
  exact ⟨_, _, .both e (new := _) (k1 := 1) (k2 := 1) (by decide +kernel) e3, rfl⟩

end SineEx

/-- **C70, disagreement**: the limit on the number of axioms is exceeded by one (ccl_sine.c:574 tests `res > max_set_size` before an axiom is
selected). -/
theorem sine_limit_exceeded : ∃ f int axs res, 0 < int ∧ selectAxioms f int axs = some res ∧ f.maxSize < res.length ∧ f.noSym = false :=
  ⟨{ SineEx.flt with benNum := 2, maxSize := 2 }, 20, SineEx.prob, _, by decide, rfl, by decide +kernel, rfl⟩

/-- **C70, disagreement**: a conjecture that no symbol triggers is listed twice if such axioms are asked for (ccl_sine.c:748-752 does not set
`CPIsRelevant`); `e_axfilter` prints it twice. -/
theorem sine_listed_twice : ∃ f int axs res, 0 < int ∧ axs.Nodup ∧ selectAxioms f int axs = some res ∧ ¬ res.Nodup :=
  ⟨{ SineEx.flt with noSym := true }, 20, [SineEx.ax 0 true [5, 3], SineEx.ax 1 false [21]], [SineEx.ax 0 true [5, 3], SineEx.ax 0 true [5, 3]],
    by decide, by decide, by decide +kernel, by decide⟩

/-- **C70, disagreement**: an axiom whose least general symbol is the last internal symbol (`$distinct`) is filed under it, but is not selected even
if the conjecture contains this symbol, and neither is it among the axioms that no symbol triggers: `compute_d_rel` (ccl_f_generality.c:198)
excludes the symbols below `internal_symbols`, the selection loop (ccl_sine.c:630) those up to it. -/
theorem sine_last_internal_lost : ∃ f int axs res a b, 0 < int ∧ f.noSym = true ∧ selectAxioms f int axs = some res ∧ a ∈ res ∧ int ∈ a.occ ∧
    b ∈ axs ∧ Triggers f int axs int b ∧ b ∉ res := by
  refine ⟨{ SineEx.flt with noSym := true }, 20, [SineEx.ax 0 true [20, 21, 21, 22, 22], SineEx.ax 1 false [20, 23, 23, 23]],
    [SineEx.ax 0 true [20, 21, 21, 22, 22]], SineEx.ax 0 true [20, 21, 21, 22, 22], SineEx.ax 1 false [20, 23, 23, 23], by decide, rfl,
    by decide +kernel, by simp, by decide, by simp, ?_, by decide⟩
  rw [← filed_triggers]
  decide +kernel

end Verif.Props
