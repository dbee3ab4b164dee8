import Verif.Terms.TermBankProof

namespace Verif.TBProof
open STree

variable {x : TBCtx}

/-! ## Marking -/

/-- The two memories differ in garbage flags only. -/
def SameCells (m m' : Nat → TCell) : Prop := ∀ a, ∃ fl, m' a = { m a with flag := fl }

theorem SameCells.refl (m : Nat → TCell) : SameCells m m := fun a => ⟨(m a).flag, rfl⟩

theorem SameCells.trans {m m' m'' : Nat → TCell} (h : SameCells m m') (h' : SameCells m' m'') : SameCells m m'' := by
  intro a
  obtain ⟨f, hf⟩ := h a
  obtain ⟨g, hg⟩ := h' a
  exact ⟨g, by rw [hg, hf]⟩

theorem SameCells.args {m m' : Nat → TCell} (h : SameCells m m') (a : Nat) : (m' a).args = (m a).args := by
  obtain ⟨f, hf⟩ := h a; rw [hf]
theorem SameCells.link {m m' : Nat → TCell} (h : SameCells m m') (a : Nat) : (m' a).link = (m a).link := by
  obtain ⟨f, hf⟩ := h a; rw [hf]
theorem SameCells.entry {m m' : Nat → TCell} (h : SameCells m m') (a : Nat) : (m' a).entryNo = (m a).entryNo := by
  obtain ⟨f, hf⟩ := h a; rw [hf]
theorem SameCells.key {m m' : Nat → TCell} (h : SameCells m m') : keyOf m' = keyOf m := by
  funext a; obtain ⟨f, hf⟩ := h a; simp only [keyOf, hf]
theorem SameCells.counts {m m' : Nat → TCell} (h : SameCells m m') (a : Nat) : TBProof.counts m' a = TBProof.counts m a := by
  obtain ⟨f, hf⟩ := h a; simp only [TBProof.counts, hf]
theorem SameCells.ground {m m' : Nat → TCell} (h : SameCells m m') (a : Nat) : (m' a).ground = (m a).ground := by
  obtain ⟨f, hf⟩ := h a; rw [hf]

/-- `c` is an argument or the replacement of `a`. -/
def Succ (m : Nat → TCell) (a c : Nat) : Prop := .cell c ∈ (m a).args ∨ (m a).link = some (.cell c)

/-- The invariant of the marking loop. -/
structure MInv (b : TBank) (roots : List TRef) (m : Nat → TCell) (s : List TRef) : Prop where
  same : SameCells b.cell m
  stack : ∀ a, .cell a ∈ s → a ∈ b.used ∧ Reached b roots a
  reached : ∀ a ∈ b.used, (m a).flag ≠ b.gs → Reached b roots a
  closed : ∀ a ∈ b.used, (m a).flag ≠ b.gs → ∀ c, Succ b.cell a c → (m c).flag ≠ b.gs ∨ .cell c ∈ s

theorem mem_push {c : TCell} {d : Nat} {s : List TRef} : .cell d ∈ c.link.toList ++ c.args.reverse ++ s ↔
    (c.link = some (.cell d) ∨ .cell d ∈ c.args) ∨ .cell d ∈ s := by
  simp [Option.mem_toList, or_assoc]

theorem markLoop_spec {b : TBank} (hb : Inv x b) {roots : List TRef} : ∀ (n : Nat) (s : List TRef) (m m' : Nat → TCell),
    MInv b roots m s → markLoop b.gs n s m = some m' →
    MInv b roots m' [] ∧ (∀ a, (m a).flag ≠ b.gs → (m' a).flag ≠ b.gs) ∧ ∀ a, .cell a ∈ s → (m' a).flag ≠ b.gs := by
  intro n s m m' hm h
  fun_induction markLoop b.gs n s m with
  | case1 => 
    simp only [Option.some.injEq] at h
    subst h
    exact ⟨hm, fun _ h => h, fun a ha => by simp at ha⟩
  | case2 => simp at h
  | case3 n v s m ih =>
    obtain ⟨h1, h2, h3⟩ := ih ⟨hm.same, fun a ha => hm.stack a (by simp [ha]), hm.reached, fun a ha hf c hc => by
      rcases hm.closed a ha hf c hc with h | h
      · exact Or.inl h
      · exact Or.inr (by simpa using h)⟩ h
    exact ⟨h1, h2, fun a ha => h3 a (by simpa using ha)⟩
  | case4 n a s m hf ih =>
    have hf' : (m a).flag ≠ b.gs := by simpa using hf
    obtain ⟨h1, h2, h3⟩ := ih ⟨hm.same, fun a ha => hm.stack a (by simp [ha]), hm.reached, fun e he hfe c hc => by
      rcases hm.closed e he hfe c hc with h | h
      · exact Or.inl h
      · rcases List.mem_cons.1 h with h | h
        · simp only [TRef.cell.injEq] at h; subst h; exact Or.inl hf'
        · exact Or.inr h⟩ h
    refine ⟨h1, h2, fun e he => ?_⟩
    rcases List.mem_cons.1 he with h | h
    · simp only [TRef.cell.injEq] at h; subst h; exact h2 _ hf'
    · exact h3 e h
  | case5 n a s m hf ih =>
    have hf' : (m a).flag = b.gs := by simpa using hf
    obtain ⟨hau, har⟩ := hm.stack a (by simp)
    have hmk : ∀ e, (upd m a { m a with flag := !(m a).flag } e).flag ≠ b.gs ↔ e = a ∨ (m e).flag ≠ b.gs := by
      intro e
      by_cases he : e = a
      · subst he; simp [upd_same, hf']
      · simp [upd_ne _ _ he, he]
    have key := ih ⟨?_, ?_, ?_, ?_⟩ h
    · obtain ⟨h1, h2, h3⟩ := key
      refine ⟨h1, fun e he => h2 e ((hmk e).2 (Or.inr he)), fun e he => ?_⟩
      rcases List.mem_cons.1 he with h | h
      · simp only [TRef.cell.injEq] at h; subst h; exact h2 _ ((hmk _).2 (Or.inl rfl))
      · exact h3 e (mem_push.2 (Or.inr h))
    · refine hm.same.trans fun e => ?_
      by_cases he : e = a
      · subst he; exact ⟨_, upd_same _ _ _⟩
      · exact ⟨(m e).flag, by rw [upd_ne _ _ he]⟩
    · intro c hc
      rcases mem_push.1 hc with (hc | hc) | hc
      · rw [hm.same.link] at hc
        exact ⟨hb.link a hau c hc, .link har hc⟩
      · rw [hm.same.args] at hc
        exact ⟨(hb.closed a hau c hc).1, .arg har hc⟩
      · exact hm.stack c (by simp [hc])
    · intro e he hfe
      rcases (hmk e).1 hfe with rfl | hfe
      · exact har
      · exact hm.reached e he hfe
    · intro e he hfe c hc
      rw [hmk, mem_push, hm.same.link, hm.same.args]
      rcases (hmk e).1 hfe with rfl | hfe
      · rcases hc with hc | hc
        · exact Or.inr (Or.inl (Or.inr hc))
        · exact Or.inr (Or.inl (Or.inl hc))
      · rcases hm.closed e he hfe c hc with h | h
        · exact Or.inl (Or.inr h)
        · rcases List.mem_cons.1 h with h | h
          · simp only [TRef.cell.injEq] at h; exact Or.inl (Or.inl h)
          · exact Or.inr (Or.inr h)

theorem markAll_spec {b : TBank} (hb : Inv x b) {roots : List TRef} (n : Nat) : ∀ (rs : List TRef) (m m' : Nat → TCell),
    (∀ r ∈ rs, r ∈ roots) → (∀ a, .cell a ∈ rs → a ∈ b.used) → MInv b roots m [] → markAll b.gs n rs m = some m' →
    MInv b roots m' [] ∧ (∀ a, (m a).flag ≠ b.gs → (m' a).flag ≠ b.gs) ∧ ∀ a, .cell a ∈ rs → (m' a).flag ≠ b.gs
  | [], m, m', _, _, hm, h => by
    simp only [markAll, Option.some.injEq] at h
    subst h
    exact ⟨hm, fun _ h => h, fun a ha => by simp at ha⟩
  | r :: rs, m, m', hr, hu, hm, h => by
    simp only [markAll] at h
    cases hl : markLoop b.gs n [r] m with
    | none => simp [hl] at h
    | some m1 =>
      simp only [hl] at h
      obtain ⟨h1, h2, h3⟩ := markLoop_spec hb n [r] m m1 ⟨hm.same, fun a ha => ⟨hu a (by
          simp only [List.mem_singleton] at ha; simp [ha]), .root (hr _ (by simp only [List.mem_singleton] at ha; simp [ha]))⟩, hm.reached,
        fun a ha hf c hc => by
          rcases hm.closed a ha hf c hc with h | h
          · exact Or.inl h
          · simp at h⟩ hl
      obtain ⟨h4, h5, h6⟩ := markAll_spec hb n rs m1 m' (fun r hr' => hr r (by simp [hr'])) (fun a ha => hu a (by simp [ha])) h1 h
      refine ⟨h4, fun a ha => h5 a (h2 a ha), fun a ha => ?_⟩
      rcases List.mem_cons.1 ha with ha | ha
      · exact h5 a (h3 a (by simp [ha]))
      · exact h6 a ha

theorem markLoop_mono {gs : Bool} : ∀ (n : Nat) (s : List TRef) (m m' : Nat → TCell) (k : Nat), n ≤ k →
    markLoop gs n s m = some m' → markLoop gs k s m = some m' := by
  intro n s m m' k hk h
  fun_induction markLoop gs n s m generalizing k with
  | case1 => cases k <;> simpa [markLoop] using h
  | case2 => simp at h
  | case3 n v s m ih =>
    obtain ⟨k, rfl⟩ : ∃ j, k = j + 1 := ⟨k - 1, by omega⟩
    simp only [markLoop]; exact ih k (by omega) h
  | case4 n a s m hf ih =>
    obtain ⟨k, rfl⟩ : ∃ j, k = j + 1 := ⟨k - 1, by omega⟩
    simp only [markLoop, hf, if_true]; exact ih k (by omega) h
  | case5 n a s m hf ih =>
    obtain ⟨k, rfl⟩ : ∃ j, k = j + 1 := ⟨k - 1, by omega⟩
    rw [markLoop, if_neg hf]; exact ih k (by omega) h

theorem markAll_mono {gs : Bool} {n k : Nat} (hk : n ≤ k) : ∀ (rs : List TRef) (m m' : Nat → TCell),
    markAll gs n rs m = some m' → markAll gs k rs m = some m'
  | [], _, _, h => h
  | r :: rs, m, m', h => by
    simp only [markAll] at *
    cases hl : markLoop gs n [r] m with
    | none => simp [hl] at h
    | some m1 =>
      simp only [hl] at h
      simp only [markLoop_mono n _ m m1 k hk hl]
      exact markAll_mono hk rs m1 m' h

theorem markLoop_total {b : TBank} (hb : Inv x b) : ∀ (u l : Nat) (s : List TRef) (m : Nat → TCell), SameCells b.cell m →
    (∀ a, .cell a ∈ s → a ∈ b.used) → (b.used.filter fun a => (m a).flag == b.gs).length = u → s.length = l →
    ∃ n m', markLoop b.gs n s m = some m' := by
  intro u
  induction u using Nat.strong_induction_on with
  | _ u ihu =>
    intro l
    induction l with
    | zero =>
      intro s m _ _ _ hl
      obtain rfl := List.length_eq_zero_iff.1 hl
      exact ⟨0, m, rfl⟩
    | succ l ihl =>
      intro s m hm hs hu hl
      cases s with
      | nil => simp at hl
      | cons r s =>
        cases r with
        | var v =>
          obtain ⟨n, m', h⟩ := ihl s m hm (fun a ha => hs a (by simp [ha])) hu (by simpa using hl)
          exact ⟨n + 1, m', by simpa only [markLoop] using h⟩
        | cell a =>
          by_cases hf : (m a).flag != b.gs
          · obtain ⟨n, m', h⟩ := ihl s m hm (fun a ha => hs a (by simp [ha])) hu (by simpa using hl)
            exact ⟨n + 1, m', by simpa only [markLoop, hf, if_true] using h⟩
          · have hau := hs a (by simp)
            have hf' : (m a).flag = b.gs := by simpa using hf
            have hlt : (b.used.filter fun e => (upd m a { m a with flag := !(m a).flag } e).flag == b.gs).length < u := by
              rw [← hu, ← List.countP_eq_length_filter, ← List.countP_eq_length_filter]
              have h2 : (b.used.countP fun e => (upd m a { m a with flag := !(m a).flag } e).flag == b.gs) <
                  b.used.countP fun e => (m e).flag == b.gs := by
                rw [List.countP_eq_length_filter, List.countP_eq_length_filter]
                have hsub : (b.used.filter fun e => (upd m a { m a with flag := !(m a).flag } e).flag == b.gs).Sublist
                    (b.used.filter fun e => (m e).flag == b.gs) := by
                  refine List.monotone_filter_right _ fun e he => ?_
                  by_cases hea : e = a
                  · subst hea; simp [hf']
                  · rwa [upd_ne _ _ hea] at he
                refine lt_of_le_of_ne hsub.length_le fun hlen => ?_
                have heq := hsub.eq_of_length hlen
                have : a ∈ b.used.filter fun e => (m e).flag == b.gs := List.mem_filter.2 ⟨hau, by simp [hf']⟩
                rw [← heq, List.mem_filter] at this
                simp [upd_same, hf'] at this
              exact h2
            obtain ⟨n, m', h⟩ := ihu _ hlt _ ((m a).link.toList ++ (m a).args.reverse ++ s) (upd m a { m a with flag := !(m a).flag })
              (hm.trans fun e => by
                by_cases he : e = a
                · subst he; exact ⟨_, upd_same _ _ _⟩
                · exact ⟨(m e).flag, by rw [upd_ne _ _ he]⟩)
              (fun c hc => by
                rcases mem_push.1 hc with (hc | hc) | hc
                · rw [hm.link] at hc; exact hb.link a hau c hc
                · rw [hm.args] at hc; exact (hb.closed a hau c hc).1
                · exact hs c (by simp [hc])) rfl rfl
            exact ⟨n + 1, m', by rw [markLoop, if_neg hf]; exact h⟩

theorem markLoop_same {gs : Bool} : ∀ (n : Nat) (s : List TRef) (m m' : Nat → TCell), markLoop gs n s m = some m' → SameCells m m' := by
  intro n s m m' h
  fun_induction markLoop gs n s m with
  | case1 => simp only [Option.some.injEq] at h; subst h; exact .refl _
  | case2 => simp at h
  | case3 n v s m ih => exact ih h
  | case4 n a s m hf ih => exact ih h
  | case5 n a s m hf ih =>
    refine SameCells.trans (fun e => ?_) (ih h)
    by_cases he : e = a
    · subst he; exact ⟨_, upd_same _ _ _⟩
    · exact ⟨(m e).flag, by rw [upd_ne _ _ he]⟩

theorem markAll_total {b : TBank} (hb : Inv x b) : ∀ (rs : List TRef) (m : Nat → TCell), SameCells b.cell m →
    (∀ a, .cell a ∈ rs → a ∈ b.used) → ∃ n m', markAll b.gs n rs m = some m'
  | [], m, _, _ => ⟨0, m, rfl⟩
  | r :: rs, m, hm, hs => by
    obtain ⟨n1, m1, h1⟩ := markLoop_total hb _ _ [r] m hm (fun a ha => hs a (by simp only [List.mem_singleton] at ha; simp [ha])) rfl rfl
    obtain ⟨n2, m2, h2⟩ := markAll_total hb rs m1 (hm.trans (markLoop_same _ _ _ _ h1)) (fun a ha => hs a (by simp [ha]))
    refine ⟨max n1 n2, m2, ?_⟩
    simp only [markAll, markLoop_mono _ _ _ _ _ (Nat.le_max_left n1 n2) h1]
    exact markAll_mono (Nat.le_max_right n1 n2) _ _ _ h2

/-! ## Sweeping -/

/-- The part of the invariant kept while sweeping. -/
structure SInv (x : TBCtx) (b : TBank) : Prop where
  sorted : ∀ i, Sorted (topCompare x.pcmp) (keyOf b.cell) (b.store i)
  mem : ∀ i a, a ∈ (b.store i).toList ↔ a ∈ b.used ∧ x.hash (keyOf b.cell a) = i
  nodup : b.used.Nodup

theorem SInv.unique (hx : x.OK) {b : TBank} (h : SInv x b) {a c : Nat} (ha : a ∈ b.used) (hc : c ∈ b.used)
    (he : keyOf b.cell a = keyOf b.cell c) : a = c := by
  have := hx.trans
  have h1 := (h.mem _ a).2 ⟨ha, rfl⟩
  have h2 := (h.mem (x.hash (keyOf b.cell a)) c).2 ⟨hc, by rw [he]⟩
  have hd := Props.sorted_distinct (h.sorted (x.hash (keyOf b.cell a)))
  have h3 := (Props.look_iff hd).2 ⟨h1, topCompare_self _⟩
  have h4 := (Props.look_iff hd).2 ⟨h2, topCompare_self _⟩
  rw [← he, h3] at h4
  exact Option.some.inj h4

theorem deleteCell_spec (hx : x.OK) {b : TBank} (h : SInv x b) {a : Nat} (ha : a ∈ b.used) :
    SInv x (deleteCell x b a) ∧ (deleteCell x b a).cell = b.cell ∧ (deleteCell x b a).gs = b.gs ∧
      (deleteCell x b a).inCount = b.inCount ∧ ∀ c, c ∈ (deleteCell x b a).used ↔ c ∈ b.used ∧ c ≠ a := by
  have := hx.trans
  have hs := h.sorted (x.hash (keyOf b.cell a))
  obtain ⟨h1, h2⟩ := Props.extract_rel (cmp := topCompare x.pcmp) ⟨hs, List.Perm.refl _⟩ (keyOf b.cell a)
  have hl := (Props.look_iff (Props.sorted_distinct hs)).2 ⟨(h.mem _ a).2 ⟨ha, rfl⟩, topCompare_self (keyOf b.cell a)⟩
  rw [hl] at h1
  have hr : deleteCell x b a = { b with store := upd b.store (x.hash (keyOf b.cell a)) (STree.extract (topCompare x.pcmp) (keyOf b.cell) (keyOf b.cell a) (b.store (x.hash (keyOf b.cell a)))).2, used := b.used.erase a } := by
    unfold deleteCell
    simp only
    rw [h1]
  have he : ∀ c, c ∈ b.used.erase a ↔ c ∈ b.used ∧ c ≠ a := by
    intro c; rw [h.nodup.mem_erase_iff]; tauto
  rw [hr]
  refine ⟨⟨?_, ?_, h.nodup.erase a⟩, rfl, rfl, rfl, he⟩
  · intro i
    by_cases hi : i = x.hash (keyOf b.cell a)
    · subst hi; simp only [upd_same]; exact h2.1
    · simp only [upd_ne _ _ hi]; exact h.sorted i
  · intro i c
    simp only [he]
    by_cases hi : i = x.hash (keyOf b.cell a)
    · subst hi
      simp only [upd_same]
      rw [h2.2.mem_iff, List.mem_filter, h.mem]
      constructor
      · rintro ⟨⟨k1, k2⟩, k3⟩
        refine ⟨⟨k1, ?_⟩, k2⟩
        rintro rfl
        rw [topCompare_self] at k3
        simp at k3
      · rintro ⟨⟨k1, k2⟩, k3⟩
        refine ⟨⟨k1, k3⟩, ?_⟩
        simp only [bne_iff_ne, ne_eq]
        intro hc
        exact k2 (h.unique hx k1 ha (topCompare_eq hx.lawful hc).symm)
    · simp only [upd_ne _ _ hi]
      rw [h.mem]
      constructor
      · rintro ⟨k1, k2⟩
        exact ⟨⟨k1, fun hc => hi (by rw [← k2, hc])⟩, k2⟩
      · rintro ⟨⟨k1, _⟩, k2⟩; exact ⟨k1, k2⟩

theorem deleteAll_spec (hx : x.OK) : ∀ (l : List Nat) {b : TBank}, SInv x b → l.Nodup → (∀ a ∈ l, a ∈ b.used) →
    SInv x (l.foldl (deleteCell x) b) ∧ (l.foldl (deleteCell x) b).cell = b.cell ∧ (l.foldl (deleteCell x) b).gs = b.gs ∧
      (l.foldl (deleteCell x) b).inCount = b.inCount ∧ ∀ c, c ∈ (l.foldl (deleteCell x) b).used ↔ c ∈ b.used ∧ c ∉ l
  | [], b, h, _, _ => ⟨h, rfl, rfl, rfl, by simp⟩
  | a :: l, b, h, hn, hl => by
    obtain ⟨h1, h2, h3, h4, h5⟩ := deleteCell_spec hx h (hl a (by simp))
    obtain ⟨n1, n2⟩ := List.nodup_cons.1 hn
    obtain ⟨k1, k2, k3, k4, k5⟩ := deleteAll_spec hx l h1 n2 fun c hc => (h5 c).2 ⟨hl c (by simp [hc]), fun he => n1 (he ▸ hc)⟩
    refine ⟨k1, k2.trans h2, k3.trans h3, k4.trans h4, fun c => ?_⟩
    rw [List.foldl_cons, k5, h5, List.mem_cons]
    tauto

theorem mem_collect {gs : Bool} {m : Nat → TCell} {a : Nat} : ∀ {t : STree Nat}, a ∈ collect gs m t ↔ a ∈ t.toList ∧ (m a).flag = gs
  | .leaf => by simp [collect, toList]
  | .node l c r => by
    simp only [collect, toList, List.mem_append, List.mem_cons, mem_collect (t := l), mem_collect (t := r)]
    by_cases hc : (m c).flag = gs
    · simp only [hc, if_true, List.mem_singleton]
      constructor
      · rintro ((rfl | h) | h)
        · exact ⟨Or.inr (Or.inl rfl), hc⟩
        · exact ⟨Or.inr (Or.inr h.1), h.2⟩
        · exact ⟨Or.inl h.1, h.2⟩
      · rintro ⟨h | h | h, h2⟩
        · exact Or.inr ⟨h, h2⟩
        · exact Or.inl (Or.inl h)
        · exact Or.inl (Or.inr ⟨h, h2⟩)
    · simp only [hc, if_false, List.not_mem_nil, false_or]
      constructor
      · rintro (h | h)
        · exact ⟨Or.inr (Or.inr h.1), h.2⟩
        · exact ⟨Or.inl h.1, h.2⟩
      · rintro ⟨h | h | h, h2⟩
        · exact Or.inr ⟨h, h2⟩
        · rw [h] at h2; exact absurd h2 hc
        · exact Or.inl ⟨h, h2⟩

theorem collect_perm {gs : Bool} {m : Nat → TCell} : ∀ t : STree Nat, (collect gs m t).Perm (t.toList.filter fun a => (m a).flag == gs)
  | .leaf => by simp [collect, toList]
  | .node l c r => by
    simp only [collect, toList, List.filter_append, List.filter_cons]
    have h1 := collect_perm (gs := gs) (m := m) l
    have h2 := collect_perm (gs := gs) (m := m) r
    by_cases hc : (m c).flag = gs
    · simp only [hc, if_true, beq_self_eq_true, List.cons_append]
      exact ((List.Perm.cons c ((h2.append h1).trans List.perm_append_comm)).trans List.perm_middle.symm)
    · have : ((m c).flag == gs) = false := by simpa using hc
      simp only [hc, this, if_false, List.nil_append, Bool.false_eq_true]
      exact (h2.append h1).trans List.perm_append_comm

theorem sorted_nodup (hx : x.OK) {key : Nat → TKey} {t : STree Nat} (h : Sorted (topCompare x.pcmp) key t) : t.toList.Nodup := by
  have := hx.trans
  refine List.Pairwise.imp ?_ h
  rintro a b hab rfl
  rw [topCompare_self] at hab
  cases hab

theorem sweepBucket_spec (hx : x.OK) {b : TBank} (h : SInv x b) (i : Nat) :
    SInv x (sweepBucket x b i) ∧ (sweepBucket x b i).cell = b.cell ∧ (sweepBucket x b i).gs = b.gs ∧
      (sweepBucket x b i).inCount = b.inCount ∧
      ∀ c, c ∈ (sweepBucket x b i).used ↔ c ∈ b.used ∧ ¬ ((b.cell c).flag = b.gs ∧ x.hash (keyOf b.cell c) = i) := by
  have hn : (collect b.gs b.cell (b.store i)).reverse.Nodup := by
    rw [List.nodup_reverse]
    exact (collect_perm _).nodup_iff.2 ((sorted_nodup hx (h.sorted i)).filter _)
  obtain ⟨h1, h2, h3, h4, h5⟩ := deleteAll_spec hx _ h hn fun a ha => by
    rw [List.mem_reverse, mem_collect, h.mem] at ha
    exact ha.1.1
  refine ⟨h1, h2, h3, h4, fun c => ?_⟩
  rw [sweepBucket, h5, List.mem_reverse, mem_collect, h.mem]
  tauto

theorem sweepAll_spec (hx : x.OK) : ∀ (k : Nat) {b : TBank}, SInv x b →
    SInv x ((List.range k).foldl (sweepBucket x) b) ∧ ((List.range k).foldl (sweepBucket x) b).cell = b.cell ∧
      ((List.range k).foldl (sweepBucket x) b).gs = b.gs ∧ ((List.range k).foldl (sweepBucket x) b).inCount = b.inCount ∧
      ∀ c, c ∈ ((List.range k).foldl (sweepBucket x) b).used ↔ c ∈ b.used ∧ ¬ ((b.cell c).flag = b.gs ∧ x.hash (keyOf b.cell c) < k)
  | 0, b, h => ⟨h, rfl, rfl, rfl, by simp⟩
  | k + 1, b, h => by
    obtain ⟨h1, h2, h3, h4, h5⟩ := sweepAll_spec hx k h
    rw [List.range_succ, List.foldl_append, List.foldl_cons, List.foldl_nil]
    obtain ⟨k1, k2, k3, k4, k5⟩ := sweepBucket_spec hx h1 k
    refine ⟨k1, k2.trans h2, k3.trans h3, k4.trans h4, fun c => ?_⟩
    rw [k5, h5, h2, h3, Nat.lt_succ_iff_lt_or_eq]
    tauto

/-! ## The whole collection -/

theorem gc_spec (hx : x.OK) {b b' : TBank} (hb : Inv x b) (hu : Unmarked b) {n : Nat} {roots : List TRef}
    (hr : ∀ a, .cell a ∈ roots → a ∈ b.used) (h : gc x n roots b = some b') :
    Inv x b' ∧ Unmarked b' ∧ (∀ a, a ∈ b'.used ↔ Reached b roots a) ∧ SameCells b.cell b'.cell := by
  unfold gc at h
  cases hm : markAll b.gs n roots b.cell with
  | none => simp [hm] at h
  | some m =>
    simp only [hm, Option.some.injEq] at h
    obtain ⟨h1, _, h3⟩ := markAll_spec hb n roots b.cell m (fun _ h => h) hr
      ⟨.refl _, fun a ha => by simp at ha, fun a ha hf => absurd (hu a ha) hf, fun a ha hf => absurd (hu a ha) hf⟩ hm
    have hreach : ∀ a, Reached b roots a → a ∈ b.used ∧ (m a).flag ≠ b.gs := by
      intro a ha
      induction ha with
      | root ha => exact ⟨hr _ ha, h3 _ ha⟩
      | @arg a c _ hc ih =>
        refine ⟨(hb.closed _ ih.1 _ hc).1, ?_⟩
        rcases h1.closed _ ih.1 ih.2 c (Or.inl hc) with h | h
        · exact h
        · simp at h
      | @link a c _ hc ih =>
        refine ⟨hb.link _ ih.1 _ hc, ?_⟩
        rcases h1.closed _ ih.1 ih.2 c (Or.inr hc) with h | h
        · exact h
        · simp at h
    have hS : SInv x { b with cell := m } := by
      refine ⟨fun i => ?_, fun i a => ?_, hb.nodup⟩
      · simp only [h1.same.key]; exact hb.sorted i
      · simp only [h1.same.key]; exact hb.mem i a
    obtain ⟨s1, s2, s3, s4, s5⟩ := sweepAll_spec hx x.size hS
    generalize hB : (List.range x.size).foldl (sweepBucket x) { b with cell := m } = B at *
    have hused : ∀ c, c ∈ B.used ↔ Reached b roots c := by
      intro c
      rw [s5]
      constructor
      · rintro ⟨k1, k2⟩
        exact h1.reached c k1 fun hc => k2 ⟨hc, hx.hash _⟩
      · intro hc
        exact ⟨(hreach c hc).1, fun hf => (hreach c hc).2 hf.1⟩
    subst h
    have hcell : B.cell = m := s2
    refine ⟨⟨s1.sorted, s1.mem, s1.nodup, ?_, ?_, ?_, ?_, ?_⟩, ?_, hused, by simp only [hcell]; exact h1.same⟩
    · intro a ha c hc
      simp only [hcell, h1.same.args, h1.same.entry] at *
      have := (hused a).1 ha
      exact ⟨(hused c).2 (.arg this hc), (hb.closed a (hreach a this).1 c hc).2⟩
    · intro a ha
      simp only [hcell, h1.same.entry, s4] at *
      exact hb.entry a (hreach a ((hused a).1 ha)).1
    · intro a ha c hc
      simp only [hcell, h1.same.link] at *
      exact (hused c).2 (.link ((hused a).1 ha) hc)
    · intro a ha
      simp only [hcell, h1.same.args, h1.same.counts] at *
      rw [hb.count a (hreach a ((hused a).1 ha)).1]
      exact addArgs_congr _ _ fun c _ => (h1.same.counts c).symm
    · intro a ha
      have hv : (m a).vCount = (b.cell a).vCount := congrArg (·.1) (h1.same.counts a)
      simp only [hcell, h1.same.ground, hv] at *
      exact hb.ground a (hreach a ((hused a).1 ha)).1
    · intro a ha
      have := (hreach a ((hused a).1 ha)).2
      simp only [hcell, s3]
      cases hf : (m a).flag <;> cases hg : b.gs <;> simp_all

theorem gc_reads (hx : x.OK) {b b' : TBank} (hb : Inv x b) (hu : Unmarked b) {n : Nat} {roots : List TRef}
    (hr : ∀ a, .cell a ∈ roots → a ∈ b.used) (h : gc x n roots b = some b') {r : TRef} {t : Term} (ht : Reads b r t)
    (hin : ∀ a, r = .cell a → Reached b roots a) : Reads b' r t := by
  obtain ⟨_, _, h3, h4⟩ := gc_spec hx hb hu hr h
  refine reads_congr (Reached b roots) (fun a ha _ => ⟨(h3 a).2 ha, by rw [h4.key], fun c hc => .arg ha hc⟩) ht hin

theorem gc_total {b : TBank} (hb : Inv x b) {roots : List TRef} (hr : ∀ a, .cell a ∈ roots → a ∈ b.used) :
    ∃ n b', gc x n roots b = some b' := by
  obtain ⟨n, m, h⟩ := markAll_total hb roots b.cell (.refl _) hr
  exact ⟨n, _, by rw [gc, h]⟩

end Verif.TBProof
