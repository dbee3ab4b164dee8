import Verif.Control.Sine

/-!
# Axiom selection: lemmas
-/

namespace Verif.Sine

/-! ## Distribution -/

theorem gdMerge_term (occ : List Nat) : ∀ (ss : List Nat) (d : GDist) (s : Nat), ss.Nodup →
    (gdMerge occ ss d).term s = d.term s + if s ∈ ss then occ.count s else 0
  | [], d, s, _ => by simp [gdMerge]
  | t :: ss, d, s, h => by
    rw [List.nodup_cons] at h
    rw [gdMerge, gdMerge_term occ ss _ s h.2]
    by_cases hst : s = t
    · subst hst; simp [h.1]
    · simp [hst]

theorem gdMerge_form (occ : List Nat) : ∀ (ss : List Nat) (d : GDist) (s : Nat), ss.Nodup →
    (gdMerge occ ss d).form s = d.form s + if s ∈ ss then 1 else 0
  | [], d, s, _ => by simp [gdMerge]
  | t :: ss, d, s, h => by
    rw [List.nodup_cons] at h
    rw [gdMerge, gdMerge_form occ ss _ s h.2]
    by_cases hst : s = t
    · subst hst; simp [h.1]
    · simp [hst]

theorem nodup_eraseDups' : ∀ (n : Nat) (l : List Nat), l.length ≤ n → l.eraseDups.Nodup
  | 0, l, h => by
    have : l = [] := List.length_eq_zero_iff.1 (Nat.le_zero.1 h)
    subst this; simp
  | n + 1, [], _ => by simp
  | n + 1, a :: l, h => by
    rw [List.eraseDups_cons, List.nodup_cons]
    constructor
    · simp
    · apply nodup_eraseDups' n
      have := List.length_filter_le (fun b => !b == a) l
      simp only [List.length_cons] at h
      omega

theorem symStack_nodup (f : SFilter) (a : SAx) : (symStack f a).Nodup :=
  nodup_eraseDups' _ _ (Nat.le_refl _)

theorem mem_symStack {f : SFilter} {a : SAx} {s : Nat} : s ∈ symStack f a ↔ s ∈ occOf f a := by
  simp [symStack]

theorem gdFold_term (f : SFilter) : ∀ (axs : List SAx) (d : GDist) (s : Nat),
    (axs.foldl (gdAdd f) d).term s = d.term s + (axs.map (fun a => (occOf f a).count s)).sum
  | [], d, s => by simp
  | a :: axs, d, s => by
    rw [List.foldl_cons, gdFold_term f axs, gdAdd, gdMerge_term _ _ _ _ (symStack_nodup f a)]
    simp only [mem_symStack, List.map_cons, List.sum_cons]
    by_cases h : s ∈ occOf f a
    · simp only [h, if_true]; omega
    · simp only [h, if_false, List.count_eq_zero_of_not_mem h]; omega

theorem gdFold_form (f : SFilter) : ∀ (axs : List SAx) (d : GDist) (s : Nat),
    (axs.foldl (gdAdd f) d).form s = d.form s + axs.countP (fun a => decide (s ∈ occOf f a))
  | [], d, s => by simp
  | a :: axs, d, s => by
    rw [List.foldl_cons, gdFold_form f axs, gdAdd, gdMerge_form _ _ _ _ (symStack_nodup f a)]
    simp only [mem_symStack, List.countP_cons, decide_eq_true_eq]
    by_cases h : s ∈ occOf f a
    · simp only [h, if_true]; omega
    · simp only [h, if_false]; omega

/-! ## D-relation -/

theorem genIns_perm (f : SFilter) (d : GDist) (s : Nat) :
    ∀ l, (genIns f d s l).Perm (s :: l)
  | [] => by simp [genIns]
  | t :: ts => by
    rw [genIns]
    split
    · exact List.Perm.refl _
    · exact ((genIns_perm f d s ts).cons t).trans (List.Perm.swap _ _ _)

theorem genSort_perm (f : SFilter) (d : GDist) : ∀ l, (genSort f d l).Perm l
  | [] => List.Perm.refl _
  | s :: ss => (genIns_perm f d s _).trans ((genSort_perm f d ss).cons s)

theorem genLe_gen {f : SFilter} {d : GDist} {s t : Nat} (h : genLe f d s t = true) :
    gen f d s ≤ gen f d t := by
  unfold genLe at h
  split at h
  · omega
  · simp at h; omega

theorem genLe_not {f : SFilter} {d : GDist} {s t : Nat} (h : ¬ genLe f d s t = true) :
    gen f d t ≤ gen f d s := by
  unfold genLe at h
  split at h
  · omega
  · simp at h; omega

theorem genIns_sorted (f : SFilter) (d : GDist) (s : Nat) :
    ∀ l, l.Pairwise (fun a b => gen f d a ≤ gen f d b) →
      (genIns f d s l).Pairwise (fun a b => gen f d a ≤ gen f d b)
  | [], _ => by simp [genIns]
  | t :: ts, h => by
    rw [genIns]
    rw [List.pairwise_cons] at h
    split
    · rename_i hle
      have := genLe_gen hle
      rw [List.pairwise_cons]
      refine ⟨?_, List.pairwise_cons.2 h⟩
      intro b hb
      rcases List.mem_cons.1 hb with rfl | hb
      · exact this
      · exact Nat.le_trans this (h.1 b hb)
    · rename_i hle
      have := genLe_not hle
      rw [List.pairwise_cons]
      refine ⟨?_, genIns_sorted f d s ts h.2⟩
      intro b hb
      rcases List.mem_cons.1 ((genIns_perm f d s ts).mem_iff.1 hb) with rfl | hb
      · exact this
      · exact h.1 b hb

theorem genSort_sorted (f : SFilter) (d : GDist) :
    ∀ l, (genSort f d l).Pairwise (fun a b => gen f d a ≤ gen f d b)
  | [] => List.Pairwise.nil
  | s :: ss => genIns_sorted f d s _ (genSort_sorted f d ss)

theorem mem_pushLimit {f : SFilter} {d : GDist} {lim : Nat} :
    ∀ {l : List Nat}, l.Pairwise (fun a b => gen f d a ≤ gen f d b) → ∀ {s},
      s ∈ pushLimit f d lim l ↔ s ∈ l ∧ gen f d s ≤ lim
  | [], _, s => by simp [pushLimit]
  | t :: ts, h, s => by
    rw [List.pairwise_cons] at h
    rw [pushLimit]
    split
    · rename_i hg
      simp only [List.not_mem_nil, false_iff, not_and]
      intro hs
      rcases List.mem_cons.1 hs with rfl | hs
      · omega
      · have := h.1 s hs; omega
    · rename_i hg
      rw [List.mem_cons, mem_pushLimit h.2, List.mem_cons]
      constructor
      · rintro (rfl | ⟨h1, h2⟩)
        · exact ⟨Or.inl rfl, by omega⟩
        · exact ⟨Or.inr h1, h2⟩
      · rintro ⟨rfl | h1, h2⟩
        · exact Or.inl rfl
        · exact Or.inr ⟨h1, h2⟩

/-- In a sorted list the elements not above the `g`-th are those with at most `g` smaller ones. -/
theorem le_getD_iff (v : Nat → Nat) : ∀ (l : List Nat) (g : Nat), l.Pairwise (fun a b => v a ≤ v b) →
    g < l.length → ∀ x, v x ≤ v (l.getD g 0) ↔ l.countP (fun t => decide (v t < v x)) ≤ g
  | [], g, _, hg, _ => by simp at hg
  | t :: ts, 0, h, _, x => by
    rw [List.pairwise_cons] at h
    simp only [List.getD_cons_zero, Nat.le_zero, List.countP_eq_zero, decide_eq_true_eq]
    constructor
    · intro hx b hb
      rcases List.mem_cons.1 hb with rfl | hb
      · omega
      · have := h.1 b hb; omega
    · intro hx
      have := hx t (List.mem_cons_self ..)
      omega
  | t :: ts, g + 1, h, hg, x => by
    rw [List.pairwise_cons] at h
    simp only [List.length_cons] at hg
    rw [List.getD_cons_succ, List.countP_cons]
    have ih := le_getD_iff v ts g h.2 (by omega) x
    by_cases hx : v t < v x
    · simp only [hx, decide_true, if_true]; rw [ih]; omega
    · simp only [hx, decide_false, Bool.false_eq_true, if_false, Nat.add_zero]
      have h0 : ts.countP (fun t => decide (v t < v x)) = 0 := by
        rw [List.countP_eq_zero]
        intro b hb; have := h.1 b hb; simp; omega
      rw [h0]
      constructor
      · intro _; omega
      · intro _; rw [ih, h0]; omega

/-- The symbols of the D-relation of a symbol stack. -/
theorem mem_computeDRel {f : SFilter} {d : GDist} {int : Nat} {stack : List Nat} {s : Nat} :
    s ∈ computeDRel f d int stack ↔
      (s ∈ stack ∧ int ≤ s) ∧
      (∀ t ∈ stack, int ≤ t → gen f d s ≤ gen f d t * f.benNum / f.benDen) ∧
      (stack.filter (fun s => decide (int ≤ s))).countP
        (fun t => decide (gen f d t < gen f d s)) ≤ f.generosity := by
  have hp := genSort_perm f d (stack.filter (fun s => decide (int ≤ s)))
  have hs := genSort_sorted f d (stack.filter (fun s => decide (int ≤ s)))
  have hmem : ∀ t, t ∈ genSort f d (stack.filter (fun s => decide (int ≤ s))) ↔
      t ∈ stack ∧ int ≤ t := by
    intro t; rw [hp.mem_iff]; simp
  rw [← hp.countP_eq]
  unfold computeDRel
  revert hs hmem
  generalize genSort f d (stack.filter (fun s => decide (int ≤ s))) = L
  intro hs hmem
  cases L with
  | nil =>
    simp only [List.not_mem_nil, false_iff]
    rintro ⟨h1, _⟩
    have := (hmem s).2 h1
    simp at this
  | cons m ms =>
    simp only []
    rw [mem_pushLimit hs, ← hmem]
    have hm := (hmem m).1 (List.mem_cons_self ..)
    have hmin : ∀ t, t ∈ m :: ms → gen f d m ≤ gen f d t := by
      intro t ht
      rcases List.mem_cons.1 ht with rfl | ht
      · exact Nat.le_refl _
      · exact (List.pairwise_cons.1 hs).1 t ht
    apply and_congr_right
    intro hsm
    have hlim : gen f d s ≤ gen f d m * f.benNum / f.benDen ↔
        ∀ t ∈ stack, int ≤ t → gen f d s ≤ gen f d t * f.benNum / f.benDen := by
      constructor
      · intro h t ht hi
        refine Nat.le_trans h (Nat.div_le_div_right (Nat.mul_le_mul_right _ ?_))
        exact hmin t ((hmem t).2 ⟨ht, hi⟩)
      · intro h; exact h m hm.1 hm.2
    rw [← hlim]
    by_cases hg : f.generosity ≥ ms.length + 1
    · simp only [hg, if_true]
      have h1 := le_getD_iff (gen f d) (m :: ms) ms.length hs (by simp) s
      have hlast : gen f d s ≤ gen f d ((m :: ms).getD ms.length 0) := by
        rw [h1]
        have hlt : (m :: ms).countP (fun t => decide (gen f d t < gen f d s)) <
            (m :: ms).length := by
          rcases Nat.lt_or_ge ((m :: ms).countP (fun t => decide (gen f d t < gen f d s)))
            (m :: ms).length with h | h
          · exact h
          · exfalso
            have heq := Nat.le_antisymm List.countP_le_length h
            rw [List.countP_eq_length] at heq
            have := heq s hsm
            simp at this
        simp only [List.length_cons] at hlt
        omega
      have hc : (m :: ms).countP (fun t => decide (gen f d t < gen f d s)) ≤ f.generosity := by
        have := @List.countP_le_length _ (fun t => decide (gen f d t < gen f d s)) (m :: ms)
        simp only [List.length_cons] at this
        omega
      constructor
      · intro h
        refine ⟨?_, hc⟩
        split at h <;> omega
      · rintro ⟨h, _⟩
        split <;> omega
    · simp only [hg, if_false]
      have h1 := le_getD_iff (gen f d) (m :: ms) f.generosity hs (by simp; omega) s
      rw [← h1]
      constructor
      · intro h
        split at h <;> constructor <;> omega
      · rintro ⟨h2, h3⟩
        split <;> omega

/-- The axioms an entry holds. -/
def entryList (r : DRel) (s : Nat) : List SAx :=
  match entry r s with
  | some (cs, fs) => cs ++ fs
  | none => []

theorem mem_drelPush (a : SAx) (s : Nat) : ∀ (r : DRel) (t : Nat) (b : SAx),
    b ∈ entryList (drelPush a s r) t ↔ b ∈ entryList r t ∨ (t = s ∧ b = a)
  | [], t, b => by
    simp only [drelPush, entryList, entry, List.lookup]
    by_cases hts : t = s
    · subst hts
      simp only [beq_self_eq_true]
      split_ifs <;> simp
    · have : (t == s) = false := by simpa using hts
      simp [this, hts]
  | (u, cs, fs) :: r, t, b => by
    have ih := mem_drelPush a s r t b
    simp only [entryList, entry] at ih ⊢
    rw [drelPush]
    by_cases hus : u = s
    · subst hus
      simp only [if_true, List.lookup]
      by_cases htu : t = u
      · subst htu
        simp only [beq_self_eq_true]
        split_ifs <;> simp [or_assoc, or_comm, or_left_comm]
      · have : (t == u) = false := by simpa using htu
        simp [this, htu]
    · simp only [hus, if_false, List.lookup]
      by_cases htu : t = u
      · subst htu
        simp [hus]
      · have : (t == u) = false := by simpa using htu
        simp only [this]
        exact ih

theorem mem_drelPushes (a : SAx) : ∀ (l : List Nat) (r : DRel) (t : Nat) (b : SAx),
    b ∈ entryList (l.foldl (fun r s => drelPush a s r) r) t ↔
      b ∈ entryList r t ∨ (t ∈ l ∧ b = a)
  | [], r, t, b => by simp
  | s :: l, r, t, b => by
    rw [List.foldl_cons, mem_drelPushes a l, mem_drelPush, List.mem_cons]
    constructor
    · rintro ((h | ⟨rfl, rfl⟩) | ⟨h, rfl⟩)
      · exact Or.inl h
      · exact Or.inr ⟨Or.inl rfl, rfl⟩
      · exact Or.inr ⟨Or.inr h, rfl⟩
    · rintro (h | ⟨rfl | h, rfl⟩)
      · exact Or.inl (Or.inl h)
      · exact Or.inl (Or.inr ⟨rfl, rfl⟩)
      · exact Or.inr ⟨h, rfl⟩

theorem mem_drelAdd (f : SFilter) (d : GDist) (int : Nat) (r : DRel) (a : SAx) (t : Nat) (b : SAx) :
    b ∈ entryList (drelAdd f d int r a) t ↔
      b ∈ entryList r t ∨ (b = a ∧ (t ∈ fileSyms f d int a ∨ (fileSyms f d int a = [] ∧ t = 0))) := by
  unfold drelAdd
  cases h : fileSyms f d int a with
  | nil => simp [mem_drelPush, and_comm]
  | cons s ss =>
    simp only []
    rw [mem_drelPushes]
    simp [and_comm, or_comm]

theorem mem_drelFold (f : SFilter) (d : GDist) (int : Nat) :
    ∀ (axs : List SAx) (r : DRel) (t : Nat) (b : SAx),
    b ∈ entryList (axs.foldl (drelAdd f d int) r) t ↔
      b ∈ entryList r t ∨
        (b ∈ axs ∧ (t ∈ fileSyms f d int b ∨ (fileSyms f d int b = [] ∧ t = 0)))
  | [], r, t, b => by simp
  | a :: axs, r, t, b => by
    rw [List.foldl_cons, mem_drelFold f d int axs, mem_drelAdd, List.mem_cons]
    constructor
    · rintro ((h | ⟨rfl, h⟩) | ⟨h1, h2⟩)
      · exact Or.inl h
      · exact Or.inr ⟨Or.inl rfl, h⟩
      · exact Or.inr ⟨Or.inr h1, h2⟩
    · rintro (h | ⟨rfl | h1, h2⟩)
      · exact Or.inl (Or.inl h)
      · exact Or.inl (Or.inr ⟨rfl, h2⟩)
      · exact Or.inr ⟨h1, h2⟩

/-- What is filed under a symbol. -/
theorem mem_drelAll (f : SFilter) (d : GDist) (int : Nat) (axs : List SAx) (t : Nat) (b : SAx) :
    b ∈ entryList (drelAll f d int axs) t ↔
      b ∈ axs ∧ (t ∈ fileSyms f d int b ∨ (fileSyms f d int b = [] ∧ t = 0)) := by
  have hnil : b ∉ entryList [] t := by simp [entryList, entry]
  rw [drelAll, mem_drelFold]
  simp only [hnil, false_or, List.mem_append, List.mem_filter]
  constructor
  · rintro ⟨h1, h2⟩
    exact ⟨h1.elim (·.1) (·.1), h2⟩
  · rintro ⟨h1, h2⟩
    refine ⟨?_, h2⟩
    cases hc : b.clause <;> simp [h1]

/-! ## The selection loop -/

/-- Axiom `b` can be reached from the seeds in exactly `n` trigger steps. -/
inductive Reach (int : Nat) (r : DRel) (syms : SAx → List Nat) (seeds : List SAx) :
    Nat → SAx → Prop
  | seed {a} : a ∈ seeds → Reach int r syms seeds 0 a
  | step {n a s b} : Reach int r syms seeds n a → s ∈ syms a → int < s → b ∈ entryList r s →
      Reach int r syms seeds (n + 1) b

/-- The items (not markers) of a queue. -/
def items (q : List (Option SAx)) : List SAx := q.filterMap id

theorem items_append (q1 q2 : List (Option SAx)) : items (q1 ++ q2) = items q1 ++ items q2 := by
  simp [items]

theorem items_map (l : List SAx) : items (l.map some) = l := by simp [items]

/-- What `trigger` does: a list of items is appended, entries are activated. -/
theorem trigger_spec (int : Nat) (r : DRel) : ∀ (ss : List Nat) (q : List (Option SAx))
    (act : List Nat), ∃ new : List SAx,
      (trigger int r ss (q, act)).1 = q ++ new.map some ∧
      (∀ b ∈ new, ∃ s ∈ ss, int < s ∧ b ∈ entryList r s) ∧
      (∀ s, s ∈ (trigger int r ss (q, act)).2 ↔
        s ∈ act ∨ (s ∈ ss ∧ int < s ∧ entry r s ≠ none)) ∧
      (∀ s ∈ (trigger int r ss (q, act)).2, s ∉ act → ∀ b ∈ entryList r s, b ∈ new)
  | [], q, act => ⟨[], by simp [trigger], by simp, by simp [trigger],
      fun s hs hn => absurd hs hn⟩
  | s :: ss, q, act => by
    rw [trigger]
    cases he : entry r s with
    | none =>
      obtain ⟨new, h1, h2, h3, h4⟩ := trigger_spec int r ss q act
      refine ⟨new, h1, ?_, ?_, h4⟩
      · intro b hb; obtain ⟨t, ht, h⟩ := h2 b hb; exact ⟨t, List.mem_cons_of_mem _ ht, h⟩
      · intro t; rw [h3]
        constructor
        · rintro (h | ⟨h, h'⟩)
          · exact Or.inl h
          · exact Or.inr ⟨List.mem_cons_of_mem _ h, h'⟩
        · rintro (h | ⟨h, h'⟩)
          · exact Or.inl h
          · rcases List.mem_cons.1 h with rfl | h
            · exact absurd he h'.2
            · exact Or.inr ⟨h, h'⟩
    | some cf =>
      obtain ⟨cs, fs⟩ := cf
      simp only []
      split
      · rename_i hc
        obtain ⟨new, h1, h2, h3, h4⟩ :=
          trigger_spec int r ss (q ++ (cs.map some ++ fs.map some)) (s :: act)
        have hes : entryList r s = cs ++ fs := by simp [entryList, he]
        refine ⟨(cs ++ fs) ++ new, ?_, ?_, ?_, ?_⟩
        · rw [h1]; simp
        · intro b hb
          rcases List.mem_append.1 hb with hb | hb
          · exact ⟨s, List.mem_cons_self .., hc.1, by rw [hes]; exact hb⟩
          · obtain ⟨t, ht, h⟩ := h2 b hb; exact ⟨t, List.mem_cons_of_mem _ ht, h⟩
        · intro t; rw [h3]
          constructor
          · rintro (h | ⟨h, h'⟩)
            · rcases List.mem_cons.1 h with rfl | h
              · exact Or.inr ⟨List.mem_cons_self .., hc.1, by rw [he]; simp⟩
              · exact Or.inl h
            · exact Or.inr ⟨List.mem_cons_of_mem _ h, h'⟩
          · rintro (h | ⟨h, h'⟩)
            · exact Or.inl (List.mem_cons_of_mem _ h)
            · rcases List.mem_cons.1 h with rfl | h
              · exact Or.inl (List.mem_cons_self ..)
              · exact Or.inr ⟨h, h'⟩
        · intro t ht hta b hb
          by_cases hts : t = s
          · subst hts
            rw [hes] at hb
            exact List.mem_append_left _ hb
          · exact List.mem_append_right _ (h4 t ht (by simp [hts, hta]) b hb)
      · rename_i hc
        obtain ⟨new, h1, h2, h3, h4⟩ := trigger_spec int r ss q act
        refine ⟨new, h1, ?_, ?_, h4⟩
        · intro b hb; obtain ⟨t, ht, h⟩ := h2 b hb; exact ⟨t, List.mem_cons_of_mem _ ht, h⟩
        · intro t; rw [h3]
          constructor
          · rintro (h | ⟨h, h'⟩)
            · exact Or.inl h
            · exact Or.inr ⟨List.mem_cons_of_mem _ h, h'⟩
          · rintro (h | ⟨h, h'⟩)
            · exact Or.inl h
            · rcases List.mem_cons.1 h with rfl | h
              · rcases not_and_or.1 hc with hc | hc
                · exact absurd h'.1 hc
                · exact Or.inl (not_not.1 hc)
              · exact Or.inr ⟨h, h'⟩

/-- Invariant of the loop while the marker is in the queue: items before the marker belong to the
current level, items behind it to the next one. -/
structure Inv (int : Nat) (r : DRel) (syms : SAx → List Nat) (seeds : List SAx) (st : SState)
    (cur next : List SAx) : Prop where
  q : st.queue = cur.map some ++ none :: next.map some
  selReach : ∀ a ∈ st.sel, ∃ n ≤ st.level, Reach int r syms seeds n a
  curReach : ∀ a ∈ cur, ∃ n ≤ st.level, Reach int r syms seeds n a
  nextReach : ∀ a ∈ next, ∃ n ≤ st.level + 1, Reach int r syms seeds n a
  act : ∀ s ∈ st.active, ∀ b ∈ entryList r s, b ∈ st.sel ∨ b ∈ cur ∨ b ∈ next
  trig : ∀ a ∈ st.sel, ∀ s ∈ syms a, int < s → entry r s ≠ none → s ∈ st.active
  level : ∀ n ≤ st.level, ∀ a, Reach int r syms seeds n a → a ∈ st.sel ∨ a ∈ cur
  below : ∀ n < st.level, ∀ a, Reach int r syms seeds n a → a ∈ st.sel
  nodup : st.sel.Nodup

/-- What is known of the result when the loop is left. -/
structure Done (int : Nat) (r : DRel) (syms : SAx → List Nat) (seeds : List SAx)
    (depth maxSize : Nat) (sel : List SAx) : Prop where
  sound : ∀ a ∈ sel, ∃ n ≤ depth, Reach int r syms seeds n a
  complete : sel.length ≤ maxSize → ∀ n ≤ depth, ∀ a, Reach int r syms seeds n a → a ∈ sel
  order : ∃ k, (∀ a ∈ sel, ∃ n ≤ k, Reach int r syms seeds n a) ∧
    ∀ n < k, ∀ a, Reach int r syms seeds n a → a ∈ sel
  size : sel.length ≤ maxSize + 1
  nodup : sel.Nodup

theorem entryList_ne {r : DRel} {s : Nat} {b : SAx} (h : b ∈ entryList r s) : entry r s ≠ none := by
  intro he; simp [entryList, he] at h

theorem reach_closed {int : Nat} {r : DRel} {syms : SAx → List Nat} {seeds sel : List SAx}
    (h0 : ∀ a ∈ seeds, a ∈ sel)
    (h1 : ∀ a ∈ sel, ∀ s ∈ syms a, int < s → ∀ b ∈ entryList r s, b ∈ sel) :
    ∀ {n a}, Reach int r syms seeds n a → a ∈ sel := by
  intro n a h
  induction h with
  | seed h => exact h0 _ h
  | step _ hs hi hb ih => exact h1 _ ih _ hs hi _ hb

theorem selLoop_done {int : Nat} {r : DRel} {syms : SAx → List Nat} {seeds : List SAx}
    {depth maxSize : Nat} : ∀ (n : Nat) (st : SState) (cur next : List SAx) (res : List SAx),
    Inv int r syms seeds st cur next → st.level ≤ depth + 1 → st.sel.length ≤ maxSize + 1 →
    (depth + 1 ≤ st.level → ∀ a ∈ st.sel, ∃ n ≤ depth, Reach int r syms seeds n a) →
    selLoop int r syms depth maxSize n st = some res →
    Done int r syms seeds depth maxSize res
  | 0, _, _, _, _, _, _, _, _, h => by simp [selLoop] at h
  | n + 1, st, cur, next, res, hI, hlv, hsz, htop, h => by
    rw [selLoop] at h
    have hq := hI.q
    -- the result if the loop is left in this turn
    have hleave : (st.sel.length > maxSize ∨ st.level > depth) →
        Done int r syms seeds depth maxSize st.sel := by
      intro hor
      refine ⟨?_, ?_, ⟨st.level, hI.selReach, hI.below⟩, hsz, hI.nodup⟩
      · intro a ha
        rcases Nat.lt_or_ge st.level (depth + 1) with hl | hl
        · obtain ⟨m, hm, hr⟩ := hI.selReach a ha
          exact ⟨m, by omega, hr⟩
        · exact htop hl a ha
      · intro hle m hm a ha
        rcases hor with hor | hor
        · omega
        · exact hI.below m (by omega) a ha
    cases cur with
    | nil =>
      simp only [List.map_nil, List.nil_append] at hq
      simp only [selStep, hq] at h
      by_cases hor : st.sel.length > maxSize ∨ st.level > depth
      · simp only [hor, if_true, Option.some.injEq] at h
        subst h; exact hleave hor
      · simp only [hor, if_false] at h
        have hlev : st.level ≤ depth := by
          rcases Nat.lt_or_ge depth st.level with hl | hl
          · exact absurd (Or.inr hl) hor
          · exact hl
        have hlevel' : ∀ m ≤ st.level, ∀ a, Reach int r syms seeds m a → a ∈ st.sel := by
          intro m hm a ha
          rcases hI.level m hm a ha with h | h
          · exact h
          · simp at h
        cases next with
        | nil =>
          -- the queue is exhausted
          simp only [List.map_nil, List.isEmpty_nil, if_true] at h
          have hres : res = st.sel := by
            cases n with
            | zero => simp [selLoop] at h
            | succ n => simpa [selLoop, selStep] using h.symm
          subst hres
          have hcl : ∀ a ∈ st.sel, ∀ s ∈ syms a, int < s → ∀ b ∈ entryList r s, b ∈ st.sel := by
            intro a ha s hs hi b hb
            have := hI.act s (hI.trig a ha s hs hi (entryList_ne hb)) b hb
            simpa using this
          have hall : ∀ m a, Reach int r syms seeds m a → a ∈ st.sel := fun m a hr =>
            reach_closed (fun a ha => hlevel' 0 (Nat.zero_le _) a (.seed ha)) hcl hr
          refine ⟨?_, fun _ m _ a => hall m a, ⟨st.level, hI.selReach, hI.below⟩, hsz, hI.nodup⟩
          intro a ha
          obtain ⟨m, hm, hr⟩ := hI.selReach a ha
          exact ⟨m, by omega, hr⟩
        | cons b bs =>
          have hne : ((b :: bs).map some : List (Option SAx)).isEmpty = false := by simp
          simp only [hne, Bool.false_eq_true, if_false] at h
          refine selLoop_done n _ (b :: bs) [] res ?_ ?_ (by exact hsz) ?_ h
          · refine ⟨by simp, ?_, hI.nextReach, by simp, ?_, hI.trig, ?_, ?_, hI.nodup⟩
            · intro a ha
              obtain ⟨m, hm, hr⟩ := hI.selReach a ha
              exact ⟨m, Nat.le_succ_of_le hm, hr⟩
            · intro s hs c hc
              rcases hI.act s hs c hc with h | h | h
              · exact Or.inl h
              · simp at h
              · exact Or.inr (Or.inl h)
            · intro m hm a ha
              rcases Nat.lt_or_ge m (st.level + 1) with hl | hl
              · exact Or.inl (hlevel' m (by omega) a ha)
              · have hm' : m = st.level + 1 := Nat.le_antisymm hm hl
                subst hm'
                cases ha with
                | step hr hs hi hb =>
                  have hpar := hlevel' _ (Nat.le_refl _) _ hr
                  rcases hI.act _ (hI.trig _ hpar _ hs hi (entryList_ne hb)) _ hb with h | h | h
                  · exact Or.inl h
                  · simp at h
                  · exact Or.inr h
            · intro m hm a ha
              exact hlevel' m (Nat.lt_succ_iff.1 hm) a ha
          · show st.level + 1 ≤ depth + 1
            omega
          · intro _ a ha
            obtain ⟨m, hm, hr⟩ := hI.selReach a ha
            exact ⟨m, by omega, hr⟩
    | cons a cur =>
      simp only [List.map_cons, List.cons_append] at hq
      simp only [selStep, hq] at h
      by_cases hor : st.sel.length > maxSize ∨ st.level > depth
      · simp only [hor, if_true, Option.some.injEq] at h
        subst h; exact hleave hor
      · simp only [hor, if_false] at h
        have hlev : st.level ≤ depth := by
          rcases Nat.lt_or_ge depth st.level with hl | hl
          · exact absurd (Or.inr hl) hor
          · exact hl
        have hle : st.sel.length ≤ maxSize := by
          rcases Nat.lt_or_ge maxSize st.sel.length with hl | hl
          · exact absurd (Or.inl hl) hor
          · exact hl
        by_cases ha : a ∈ st.sel
        · simp only [ha, if_true] at h
          refine selLoop_done n _ cur next res ?_ (by exact hlv) (by exact hsz) (by exact htop) h
          refine ⟨rfl, hI.selReach, fun c hc => hI.curReach c (List.mem_cons_of_mem _ hc),
            hI.nextReach, ?_, hI.trig, ?_, hI.below, hI.nodup⟩
          · intro s hs b hb
            rcases hI.act s hs b hb with h | h | h
            · exact Or.inl h
            · rcases List.mem_cons.1 h with rfl | h
              · exact Or.inl ha
              · exact Or.inr (Or.inl h)
            · exact Or.inr (Or.inr h)
          · intro m hm b hb
            rcases hI.level m hm b hb with h | h
            · exact Or.inl h
            · rcases List.mem_cons.1 h with rfl | h
              · exact Or.inl ha
              · exact Or.inr h
        · simp only [ha, if_false] at h
          obtain ⟨new, h1, h2, h3, h4⟩ :=
            trigger_spec int r (syms a) (cur.map some ++ none :: next.map some) st.active
          have hsel : ∀ b, b ∈ st.sel ++ [a] ↔ b ∈ st.sel ∨ b = a := by simp
          refine selLoop_done n _ cur (next ++ new) res ?_ (by exact hlv) ?_ ?_ h
          · refine ⟨?_, ?_, fun c hc => hI.curReach c (List.mem_cons_of_mem _ hc), ?_, ?_, ?_, ?_,
              ?_, ?_⟩
            · show (trigger int r (syms a) (cur.map some ++ none :: next.map some, st.active)).1 = _
              rw [h1]; simp
            · intro b hb
              rcases (hsel b).1 hb with hb | rfl
              · exact hI.selReach b hb
              · exact hI.curReach b (List.mem_cons_self ..)
            · intro b hb
              rcases List.mem_append.1 hb with hb | hb
              · exact hI.nextReach b hb
              · obtain ⟨s, hs, hi, he⟩ := h2 b hb
                obtain ⟨m, hm, hr⟩ := hI.curReach a (List.mem_cons_self ..)
                exact ⟨m + 1, Nat.succ_le_succ hm, .step hr hs hi he⟩
            · intro s hs b hb
              show b ∈ st.sel ++ [a] ∨ b ∈ cur ∨ b ∈ next ++ new
              by_cases hsa : s ∈ st.active
              · rcases hI.act s hsa b hb with h | h | h
                · exact Or.inl ((hsel b).2 (Or.inl h))
                · rcases List.mem_cons.1 h with rfl | h
                  · exact Or.inl ((hsel b).2 (Or.inr rfl))
                  · exact Or.inr (Or.inl h)
                · exact Or.inr (Or.inr (List.mem_append_left _ h))
              · exact Or.inr (Or.inr (List.mem_append_right _ (h4 s hs hsa b hb)))
            · intro b hb s hs hi he
              show s ∈ (trigger int r (syms a)
                (cur.map some ++ none :: next.map some, st.active)).2
              rw [h3]
              rcases (hsel b).1 hb with hb | rfl
              · exact Or.inl (hI.trig b hb s hs hi he)
              · exact Or.inr ⟨hs, hi, he⟩
            · intro m hm b hb
              show b ∈ st.sel ++ [a] ∨ b ∈ cur
              rcases hI.level m hm b hb with h | h
              · exact Or.inl ((hsel b).2 (Or.inl h))
              · rcases List.mem_cons.1 h with rfl | h
                · exact Or.inl ((hsel b).2 (Or.inr rfl))
                · exact Or.inr h
            · intro m hm b hb
              exact (hsel b).2 (Or.inl (hI.below m hm b hb))
            · show (st.sel ++ [a]).Nodup
              rw [List.nodup_append]
              refine ⟨hI.nodup, by simp, ?_⟩
              intro x hx y hy hxy
              simp only [List.mem_singleton] at hy
              subst hxy; subst hy; exact ha hx
          · show (st.sel ++ [a]).length ≤ maxSize + 1
            simp; omega
          · intro hd
            exact absurd hd (by show ¬ depth + 1 ≤ st.level; omega)

/-- The result of `selectDefining`. -/
theorem selectDefining_done {int : Nat} {r : DRel} {syms : SAx → List Nat} {seeds : List SAx}
    {depth maxSize : Nat} {res : List SAx}
    (h : selectDefining int r syms depth maxSize seeds = some res) :
    Done int r syms seeds depth maxSize res := by
  refine selLoop_done _ _ seeds [] res ?_ (Nat.zero_le _) (Nat.zero_le _) (by simp) h
  refine ⟨by simp, by simp, fun a ha => ⟨0, Nat.le_refl _, .seed ha⟩, by simp, by simp, by simp, ?_,
    ?_, by simp⟩
  · intro n hn a ha
    have : n = 0 := Nat.le_zero.1 hn
    subst this
    cases ha with
    | seed h => exact Or.inr h
  · intro n hn; exact absurd hn (Nat.not_lt_zero _)

/-! ## Termination -/

/-- Axioms filed in entries that are not activated. -/
def inactive (act : List Nat) : DRel → Nat
  | [] => 0
  | (s, cs, fs) :: r => (if s ∈ act then 0 else cs.length + fs.length) + inactive act r

theorem inactive_nil (r : DRel) : inactive [] r = drelSize r := by
  induction r with
  | nil => rfl
  | cons e r ih => obtain ⟨s, cs, fs⟩ := e; simp [inactive, drelSize, ih]

theorem inactive_mono (act : List Nat) (s : Nat) :
    ∀ r : DRel, inactive (s :: act) r ≤ inactive act r
  | [] => Nat.le_refl _
  | (t, cs, fs) :: r => by
    have := inactive_mono act s r
    simp only [inactive, List.mem_cons]
    by_cases h1 : t ∈ act
    · simp only [h1, or_true, if_true]; omega
    · by_cases h2 : t = s
      · simp only [h2, true_or, if_true]; omega
      · simp only [h1, h2, or_self, if_false]; omega

theorem inactive_add {act : List Nat} {s : Nat} (hs : s ∉ act) :
    ∀ {r : DRel} {cs fs}, entry r s = some (cs, fs) →
      inactive (s :: act) r + (cs.length + fs.length) ≤ inactive act r
  | [], _, _, h => by simp [entry] at h
  | (t, cs', fs') :: r, cs, fs, h => by
    simp only [entry, List.lookup] at h
    simp only [inactive, List.mem_cons]
    by_cases hts : s = t
    · subst hts
      simp only [beq_self_eq_true, Option.some.injEq, Prod.mk.injEq] at h
      obtain ⟨rfl, rfl⟩ := h
      have := inactive_mono act s r
      simp only [true_or, if_true, hs, if_false]; omega
    · have hb : (s == t) = false := by simpa using hts
      simp only [hb] at h
      have ih := inactive_add hs (r := r) h
      have hts' : ¬ t = s := fun h => hts h.symm
      simp only [hts', false_or]
      omega

theorem trigger_measure (int : Nat) (r : DRel) : ∀ (ss : List Nat) (q : List (Option SAx))
    (act : List Nat),
    (items (trigger int r ss (q, act)).1).length + inactive (trigger int r ss (q, act)).2 r ≤
      (items q).length + inactive act r
  | [], _, _ => Nat.le_refl _
  | s :: ss, q, act => by
    rw [trigger]
    cases he : entry r s with
    | none => exact trigger_measure int r ss q act
    | some cf =>
      obtain ⟨cs, fs⟩ := cf
      simp only []
      split
      · rename_i hc
        refine Nat.le_trans (trigger_measure int r ss _ _) ?_
        have := inactive_add hc.2 he
        simp only [items_append, items_map, List.length_append]
        omega
      · exact trigger_measure int r ss q act

theorem trigger_head (int : Nat) (r : DRel) (ss : List Nat) (x : Option SAx)
    (q : List (Option SAx)) (act : List Nat) :
    (trigger int r ss (x :: q, act)).1.head? = some x := by
  obtain ⟨new, h1, _⟩ := trigger_spec int r ss (x :: q) act
  rw [h1]; simp

/-- The measure that bounds the number of turns. -/
def fuelOf (r : DRel) (st : SState) : Nat :=
  2 * ((items st.queue).length + inactive st.active r) +
    (if st.queue.head? = some none then 1 else 0)

/-- At most one marker is in the queue. -/
def OneMarker (q : List (Option SAx)) : Prop :=
  ∃ cur next : List SAx, q = cur.map some ++ none :: next.map some

theorem selLoop_total {int : Nat} {r : DRel} {syms : SAx → List Nat} {depth maxSize : Nat} :
    ∀ (n : Nat) (st : SState), (st.queue = [] ∨ OneMarker st.queue) → fuelOf r st < n →
      ∃ res, selLoop int r syms depth maxSize n st = some res
  | 0, _, _, h => by omega
  | n + 1, st, hm, h => by
    rw [selLoop]
    cases hs : selStep int r syms depth maxSize st with
    | none => exact ⟨_, rfl⟩
    | some st' =>
      simp only []
      rcases hm with hm | ⟨cur, next, hm⟩
      · simp [selStep, hm] at hs
      · unfold fuelOf at h
        cases cur with
        | nil =>
          simp only [List.map_nil, List.nil_append] at hm
          simp only [selStep, hm] at hs
          split at hs
          · simp at hs
          · simp only [Option.some.injEq] at hs
            subst hs
            simp only [hm, List.head?_cons, if_true] at h
            cases next with
            | nil =>
              apply selLoop_total n
              · exact Or.inl (by simp)
              · have : items [none] = [] := rfl
                simp only [List.map_nil] at h
                simp only [fuelOf, List.map_nil, List.isEmpty_nil, if_true, List.head?_nil]
                have h2 : (items ([] : List (Option SAx))).length = 0 := rfl
                rw [h2, if_neg (by simp)]
                omega
            | cons b bs =>
              have hne : ((b :: bs).map some : List (Option SAx)).isEmpty = false := by simp
              apply selLoop_total n
              · refine Or.inr ⟨b :: bs, [], ?_⟩
                simp
              · have e1 : items (none :: (b :: bs).map some) = b :: bs := by
                  have := items_map (b :: bs)
                  simpa [items] using this
                have e2 : items ((b :: bs).map some ++ [none]) = b :: bs := by
                  rw [items_append, items_map]; simp [items]
                rw [e1] at h
                simp only [fuelOf, hne, Bool.false_eq_true, if_false, e2]
                rw [if_neg (by simp)]
                omega
        | cons a cur =>
          simp only [List.map_cons, List.cons_append] at hm
          simp only [selStep, hm] at hs
          have e1 : (items (some a :: (cur.map some ++ none :: next.map some))).length =
              (items (cur.map some ++ none :: next.map some)).length + 1 := by
            simp [items]
          rw [hm, e1] at h
          split at hs
          · simp at hs
          · split at hs
            · simp only [Option.some.injEq] at hs
              subst hs
              apply selLoop_total n
              · exact Or.inr ⟨cur, next, rfl⟩
              · unfold fuelOf
                show 2 * ((items (cur.map some ++ none :: next.map some)).length +
                  inactive st.active r) + _ < n
                split <;> omega
            · simp only [Option.some.injEq] at hs
              subst hs
              obtain ⟨new, h1, _⟩ := trigger_spec int r (syms a)
                (cur.map some ++ none :: next.map some) st.active
              have h2 := trigger_measure int r (syms a)
                (cur.map some ++ none :: next.map some) st.active
              apply selLoop_total n
              · refine Or.inr ⟨cur, next ++ new, ?_⟩
                show (trigger int r (syms a) (cur.map some ++ none :: next.map some, st.active)).1 = _
                rw [h1]; simp
              · unfold fuelOf
                show 2 * ((items (trigger int r (syms a)
                  (cur.map some ++ none :: next.map some, st.active)).1).length +
                  inactive (trigger int r (syms a)
                  (cur.map some ++ none :: next.map some, st.active)).2 r) + _ < n
                split <;> omega

/-- The selection loop ends within the fuel given to it. -/
theorem selectDefining_total (int : Nat) (r : DRel) (syms : SAx → List Nat) (depth maxSize : Nat)
    (seeds : List SAx) : ∃ res, selectDefining int r syms depth maxSize seeds = some res := by
  apply selLoop_total
  · exact Or.inr ⟨seeds, [], by simp⟩
  · unfold fuelOf
    have e : items (seeds.map some ++ [none]) = seeds := by
      rw [items_append, items_map]; simp [items]
    show 2 * ((items (seeds.map some ++ [none])).length + inactive [] r) + _ < _
    rw [e, inactive_nil]
    split <;> omega

/-! ## Replacement of the axiom set -/

theorem moveAll_mem : ∀ (l new : List SAx) (a : SAx), a ∈ moveAll l new ↔ a ∈ l ∨ a ∈ new
  | [], new, a => by simp [moveAll]
  | b :: l, new, a => by
    rw [moveAll, moveAll_mem l]
    by_cases hab : a = b
    · simp [hab]
    · rw [List.mem_append, List.mem_erase_of_ne hab]
      simp [hab]

theorem moveAll_nodup : ∀ (l new : List SAx), new.Nodup → (moveAll l new).Nodup
  | [], _, h => h
  | b :: l, new, h => by
    apply moveAll_nodup l
    rw [List.nodup_append]
    refine ⟨h.erase b, by simp, ?_⟩
    intro x hx y hy hxy
    simp only [List.mem_singleton] at hy
    subst hxy; subst hy
    exact (h.not_mem_erase) hx

end Verif.Sine
