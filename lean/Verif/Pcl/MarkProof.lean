import Verif.Pcl.Protocol

/-! Lemmas about the marking loop and the proof checker. -/

namespace Verif.PclProof

open Verif Verif.Pcl Term Interp SemProof

universe u

/-- Identifiers are unique. -/
abbrev IdsOK (p : Prot) : Prop := p.Pairwise fun s t => s.id < t.id

theorem ids_inj {p : Prot} (h : IdsOK p) {s t : Step} (hs : s ∈ p) (ht : t ∈ p) (e : s.id = t.id) : s = t := by
  induction p with
  | nil => simp at hs
  | cons a p ih =>
    rw [IdsOK, List.pairwise_cons] at h
    rcases List.mem_cons.1 hs with hs' | hs' <;> rcases List.mem_cons.1 ht with ht' | ht'
    · rw [hs', ht']
    · have := h.1 t ht'; rw [hs'] at e; omega
    · have := h.1 s hs'; rw [ht'] at e; omega
    · exact ih h.2 hs' ht'

theorem find_some {p : Prot} {i : Nat} {s : Step} (h : find p i = some s) : s ∈ p ∧ s.id = i := by
  unfold find at h
  exact ⟨List.mem_of_find?_eq_some h, by simpa using List.find?_some h⟩

theorem find_none {p : Prot} {i : Nat} (h : find p i = none) : ∀ s ∈ p, s.id ≠ i := by
  unfold find at h
  rw [List.find?_eq_none] at h
  intro s hs; simpa using h s hs

theorem find_mem {p : Prot} (hp : IdsOK p) {s : Step} (hs : s ∈ p) : find p s.id = some s := by
  cases h : find p s.id with
  | none => exact absurd rfl (find_none h s hs)
  | some t => rw [ids_inj hp (find_some h).1 hs (find_some h).2]

theorem mem_store {s t : Step} {l : List Step} (h : t ∈ store s l) : t = s ∨ t ∈ l := by
  unfold store at h
  split at h
  · exact Or.inr h
  · rcases List.mem_append.1 h with h | h
    · exact Or.inr h
    · exact Or.inl (by simpa using h)

theorem store_id (s : Step) (l : List Step) : ∃ t ∈ store s l, t.id = s.id := by
  unfold store
  split
  · rename_i h; simp only [List.any_eq_true, beq_iff_eq] at h; exact h
  · exact ⟨s, by simp, rfl⟩

theorem store_mono {s t : Step} {l : List Step} (h : t ∈ l) : t ∈ store s l := by
  unfold store; split
  · exact h
  · exact List.mem_append_left _ h

theorem store_length (s : Step) (l : List Step) : (store s l).length ≤ l.length + 1 := by
  unfold store; split <;> simp

theorem collect_spec {p : Prot} (is : List Nat) : ∀ (t ps : List Step), collectPreconds p is t = some ps →
    (∀ s ∈ t, s ∈ ps) ∧ (∀ s ∈ ps, s ∈ t ∨ (s ∈ p ∧ s.id ∈ is)) ∧ (∀ i ∈ is, ∃ s ∈ ps, s.id = i) ∧ ps.length ≤ t.length + is.length := by
  induction is with
  | nil => intro t ps h; simp only [collectPreconds, Option.some.injEq] at h; subst h; simp
  | cons i is ih =>
    intro t ps h
    unfold collectPreconds at h
    split at h
    · simp at h
    · rename_i s hs
      obtain ⟨h1, h2, h3, h4⟩ := ih _ _ h
      obtain ⟨hm, hi⟩ := find_some hs
      refine ⟨fun x hx => h1 x (store_mono hx), fun x hx => ?_, fun j hj => ?_, ?_⟩
      · rcases h2 x hx with hx | hx
        · rcases mem_store hx with rfl | hx
          · exact Or.inr ⟨hm, by simp [hi]⟩
          · exact Or.inl hx
        · exact Or.inr ⟨hx.1, List.mem_cons_of_mem _ hx.2⟩
      · rcases List.mem_cons.1 hj with rfl | hj
        · obtain ⟨x, hx, hxi⟩ := store_id s t
          exact ⟨x, h1 x hx, by rw [hxi, hi]⟩
        · exact h3 j hj
      · have := store_length s t; simp only [List.length_cons]; omega

theorem collect_none {p : Prot} (is : List Nat) : ∀ (t : List Step), collectPreconds p is t = none → ∃ i ∈ is, ∀ s ∈ p, s.id ≠ i := by
  induction is with
  | nil => intro t h; simp [collectPreconds] at h
  | cons i is ih =>
    intro t h
    unfold collectPreconds at h
    split at h
    · rename_i hn; exact ⟨i, by simp, find_none hn⟩
    · obtain ⟨j, hj, hh⟩ := ih _ h; exact ⟨j, by simp [hj], hh⟩

variable {ord : List Step → List Step} {p : Prot}

/-- Only steps in any set closed under parents are reached. -/
theorem mark_sound (hord : ∀ l, (ord l).Perm l) (hp : IdsOK p) {P : Step → Prop}
    (hP : ∀ s ∈ p, P s → ∀ t ∈ p, t.id ∈ quotes s.just → P t) (fuel : Nat) : ∀ (todo : List Step) (m : List Nat) (r : Bool),
    (∀ s ∈ todo, s ∈ p ∧ P s) → (∀ i ∈ m, ∃ s ∈ p, s.id = i ∧ P s) → (r = true → ∃ s ∈ p, P s ∧ isContradiction s = true) →
    (∀ m' r', markLoop ord p fuel todo m r = some (some (m', r')) →
      (∀ i ∈ m', ∃ s ∈ p, s.id = i ∧ P s) ∧ (r' = true → ∃ s ∈ p, P s ∧ isContradiction s = true)) ∧
    (markLoop ord p fuel todo m r = some none → ∃ s ∈ p, P s ∧ ∃ i ∈ quotes s.just, ∀ t ∈ p, t.id ≠ i) := by
  induction fuel with
  | zero => intro todo m r _ _ _; simp [markLoop]
  | succ n ih =>
    intro todo m r ht hm hr
    cases todo with
    | nil =>
      simp only [markLoop, Option.some.injEq, Prod.mk.injEq, reduceCtorEq, false_implies, and_true]
      rintro m' r' ⟨rfl, rfl⟩; exact ⟨hm, hr⟩
    | cons s todo =>
      have hs := ht s (by simp)
      have hr' : (r || isContradiction s) = true → ∃ s ∈ p, P s ∧ isContradiction s = true := by
        intro h; rcases Bool.or_eq_true_iff.1 h with h | h
        · exact hr h
        · exact ⟨s, hs.1, hs.2, h⟩
      simp only [markLoop]
      split
      · exact ih _ _ _ (fun x hx => ht x (by simp [hx])) hm hr'
      · split
        · rename_i hc
          refine ⟨by simp, fun _ => ?_⟩
          obtain ⟨i, hi, hh⟩ := collect_none _ _ hc
          exact ⟨s, hs.1, hs.2, i, hi, hh⟩
        · rename_i ps hc
          obtain ⟨-, h2, -, -⟩ := collect_spec _ _ _ hc
          refine ih _ _ _ (fun x hx => ?_) (fun i hi => ?_) hr'
          · rcases List.mem_append.1 hx with hx | hx
            · have hx : x ∈ ps := (hord ps).mem_iff.1 (List.mem_reverse.1 hx)
              rcases h2 x hx with hx | hx
              · simp at hx
              · exact ⟨hx.1, hP s hs.1 hs.2 x hx.1 hx.2⟩
            · exact ht x (by simp [hx])
          · rcases List.mem_cons.1 hi with rfl | hi
            · exact ⟨s, hs.1, rfl, hs.2⟩
            · exact hm i hi

/-- Everything reachable is reached. -/
theorem mark_complete (hord : ∀ l, (ord l).Perm l) (hp : IdsOK p) (fuel : Nat) : ∀ (todo : List Step) (m : List Nat) (r : Bool) (m' : List Nat) (r' : Bool),
    (∀ s ∈ todo, s ∈ p) →
    (∀ s ∈ p, s.id ∈ m → ∀ q ∈ quotes s.just, q ∈ m ∨ ∃ t ∈ todo, t.id = q) →
    (∀ s ∈ p, s.id ∈ m → isContradiction s = true → r = true) →
    markLoop ord p fuel todo m r = some (some (m', r')) →
    (∀ i ∈ m, i ∈ m') ∧ (∀ s ∈ todo, s.id ∈ m') ∧ (∀ s ∈ p, s.id ∈ m' → ∀ q ∈ quotes s.just, q ∈ m') ∧
      (∀ s ∈ p, s.id ∈ m' → isContradiction s = true → r' = true) := by
  induction fuel with
  | zero => intro todo m r m' r' _ _ _ h; simp [markLoop] at h
  | succ n ih =>
    intro todo m r m' r' ht hm hr h
    cases todo with
    | nil =>
      simp only [markLoop, Option.some.injEq, Prod.mk.injEq] at h
      obtain ⟨rfl, rfl⟩ := h
      exact ⟨fun i hi => hi, by simp, fun s hs hi q hq => by simpa using hm s hs hi q hq, hr⟩
    | cons s todo =>
      have hs := ht s (by simp)
      simp only [markLoop] at h
      split at h
      · rename_i hmem
        have key := ih todo m (r || isContradiction s) m' r' (fun x hx => ht x (by simp [hx]))
        have key := fun a b => key a b h
        suffices hsuf : _ ∧ _ by
          obtain ⟨h1, h2, h3, h4⟩ := key hsuf.1 hsuf.2
          refine ⟨h1, fun x hx => ?_, h3, h4⟩
          rcases List.mem_cons.1 hx with rfl | hx
          · exact h1 _ hmem
          · exact h2 x hx
        refine ⟨fun x hx hxi q hq => ?_, fun x hx hi hcon => ?_⟩
        · rcases hm x hx hxi q hq with h | ⟨t, htm, e⟩
          · exact Or.inl h
          · rcases List.mem_cons.1 htm with rfl | htm
            · exact Or.inl (e ▸ hmem)
            · exact Or.inr ⟨t, htm, e⟩
        · simp [hr x hx hi hcon]
      · rename_i hmem
        split at h
        · simp at h
        · rename_i ps hc
          obtain ⟨-, h2, h3, -⟩ := collect_spec _ _ _ hc
          have key := ih ((ord ps).reverse ++ todo) (s.id :: m) (r || isContradiction s) m' r'
          have key := fun a b c => key a b c h
          suffices hsuf : _ ∧ _ ∧ _ by
            obtain ⟨g1, g2, g3, g4⟩ := key hsuf.1 hsuf.2.1 hsuf.2.2
            refine ⟨fun i hi => g1 i (by simp [hi]), fun x hx => ?_, g3, g4⟩
            rcases List.mem_cons.1 hx with rfl | hx
            · exact g1 _ (by simp)
            · exact g2 x (by simp [hx])
          refine ⟨fun x hx => ?_, fun x hx hxi q hq => ?_, fun x hx hi hcon => ?_⟩
          · rcases List.mem_append.1 hx with hx | hx
            · have hx : x ∈ ps := (hord ps).mem_iff.1 (List.mem_reverse.1 hx)
              rcases h2 x hx with hx | hx
              · simp at hx
              · exact hx.1
            · exact ht x (by simp [hx])
          · rcases List.mem_cons.1 hxi with e | hxi
            · have := ids_inj hp hx hs e; subst this
              obtain ⟨t, htm, e⟩ := h3 q hq
              exact Or.inr ⟨t, List.mem_append_left _ (List.mem_reverse.2 ((hord ps).mem_iff.2 htm)), e⟩
            · rcases hm x hx hxi q hq with h | ⟨t, htm, e⟩
              · exact Or.inl (by simp [h])
              · rcases List.mem_cons.1 htm with rfl | htm
                · exact Or.inl (by simp [e])
                · exact Or.inr ⟨t, by simp [htm], e⟩
          · rcases List.mem_cons.1 hi with e | hi
            · have := ids_inj hp hx hs e; subst this; simp [hcon]
            · simp [hr x hx hi hcon]

/-- The references of the steps not yet marked. -/
def pending (p : Prot) (m : List Nat) : Nat :=
  (p.map fun s => if s.id ∈ m then 0 else (quotes s.just).length).sum

theorem pending_mark {s : Step} (hs : s ∈ p) {m : List Nat} (hm : s.id ∉ m) : pending p (s.id :: m) + (quotes s.just).length ≤ pending p m := by
  unfold pending
  induction p with
  | nil => simp at hs
  | cons a p ih =>
    simp only [List.map_cons, List.sum_cons]
    have hmono : ∀ l : List Step, (l.map fun x => if x.id ∈ s.id :: m then 0 else (quotes x.just).length).sum ≤
        (l.map fun x => if x.id ∈ m then 0 else (quotes x.just).length).sum := by
      intro l
      induction l with
      | nil => simp
      | cons b l ihl =>
        simp only [List.map_cons, List.sum_cons]
        have : (if b.id ∈ s.id :: m then 0 else (quotes b.just).length) ≤ (if b.id ∈ m then 0 else (quotes b.just).length) := by
          by_cases h1 : b.id ∈ m
          · simp [h1]
          · by_cases h2 : b.id = s.id <;> simp [h1, h2]
        omega
    rcases List.mem_cons.1 hs with rfl | hs
    · have := hmono p
      simp only [List.mem_cons, true_or, if_true, hm, if_false, zero_add] at this ⊢
      omega
    · have h1 := ih hs
      have : (if a.id ∈ s.id :: m then 0 else (quotes a.just).length) ≤ (if a.id ∈ m then 0 else (quotes a.just).length) := by
        by_cases h1 : a.id ∈ m
        · simp [h1]
        · by_cases h2 : a.id = s.id <;> simp [h1, h2]
      omega

/-- The loop terminates. -/
theorem mark_total (hord : ∀ l, (ord l).Perm l) (fuel : Nat) : ∀ (todo : List Step) (m : List Nat) (r : Bool),
    (∀ s ∈ todo, s ∈ p) → todo.length + pending p m < fuel → markLoop ord p fuel todo m r ≠ none := by
  induction fuel with
  | zero => intro todo m r _ h; omega
  | succ n ih =>
    intro todo m r ht h
    cases todo with
    | nil => simp [markLoop]
    | cons s todo =>
      simp only [List.length_cons] at h
      simp only [markLoop]
      split
      · exact ih _ _ _ (fun x hx => ht x (by simp [hx])) (by omega)
      · rename_i hm
        split
        · simp
        · rename_i ps hc
          obtain ⟨-, h2, -, h4⟩ := collect_spec _ _ _ hc
          refine ih _ _ _ (fun x hx => ?_) ?_
          · rcases List.mem_append.1 hx with hx | hx
            · have hx : x ∈ ps := (hord ps).mem_iff.1 (List.mem_reverse.1 hx)
              rcases h2 x hx with hx | hx
              · simp at hx
              · exact hx.1
            · exact ht x (by simp [hx])
          · have := pending_mark (ht s (by simp)) hm
            have hl := (hord ps).length_eq
            simp only [List.length_append, List.length_reverse, List.length_nil] at h4 ⊢
            omega

theorem fastRoots_mem (i : Nat) : ∀ s ∈ fastRoots p i, s ∈ p ∧ stepExtract s.extra = true := by
  induction i with
  | zero =>
    intro s hs; unfold fastRoots at hs; split at hs
    · rename_i t ht
      split at hs
      · simp only [List.mem_singleton] at hs; subst hs; rename_i he; exact ⟨(find_some ht).1, he⟩
      · simp at hs
    · simp at hs
  | succ i ih =>
    intro s hs; unfold fastRoots at hs; split at hs
    · rename_i t ht
      split at hs
      · rename_i he
        rcases List.mem_cons.1 hs with rfl | hs
        · exact ⟨(find_some ht).1, he⟩
        · exact ih s hs
      · simp at hs
    · simp at hs

theorem fastRoots_complete (hp : IdsOK p) (i : Nat) : ∀ s ∈ p, s.id ≤ i →
    (∀ j, s.id ≤ j → j ≤ i → ∃ t ∈ p, t.id = j ∧ stepExtract t.extra = true) → s ∈ fastRoots p i := by
  induction i with
  | zero =>
    intro s hs hi h
    obtain ⟨t, ht, e, he⟩ := h 0 hi (Nat.le_refl _)
    have : s = t := ids_inj hp hs ht (by omega)
    subst this
    have hf := find_mem hp hs
    rw [e] at hf
    simp [fastRoots, hf, he]
  | succ i ih =>
    intro s hs hi h
    obtain ⟨t, ht, e, he⟩ := h (i + 1) hi (Nat.le_refl _)
    have hf := find_mem hp ht
    rw [e] at hf
    simp only [fastRoots, hf, he, if_true]
    by_cases hsi : s.id = i + 1
    · have : s = t := ids_inj hp hs ht (by omega)
      subst this; simp
    · exact List.mem_cons_of_mem _ (ih s hs (by omega) fun j h1 h2 => h j h1 (by omega))

theorem le_maxIdent : ∀ s ∈ p, s.id ≤ maxIdent p := by
  have key : ∀ (l : List Step) (m : Nat), m ≤ l.foldl (fun m s => max m s.id) m ∧ ∀ s ∈ l, s.id ≤ l.foldl (fun m s => max m s.id) m := by
    intro l
    induction l with
    | nil => intro m; simp
    | cons a l ih =>
      intro m
      obtain ⟨h1, h2⟩ := ih (max m a.id)
      refine ⟨by simp only [List.foldl_cons]; omega, fun s hs => ?_⟩
      simp only [List.foldl_cons]
      rcases List.mem_cons.1 hs with rfl | hs
      · omega
      · exact h2 s hs
  exact (key p 0).2

/-! ## Skolemization -/

/-- What the bindings satisfy: new constants, one per variable. -/
structure BindOK (n0 n : Nat) (b : List (Nat × Nat)) : Prop where
  range : ∀ x c, b.lookup x = some c → n0 ≤ c ∧ c < n
  inj : ∀ x y c, b.lookup x = some c → b.lookup y = some c → x = y

theorem skolemVars_spec (xs : List Nat) : ∀ (b : List (Nat × Nat)) (n n0 : Nat), n0 ≤ n → BindOK n0 n b →
    n ≤ (skolemVars xs b n).2 ∧ BindOK n0 (skolemVars xs b n).2 (skolemVars xs b n).1 ∧
      (∀ x, (b.lookup x).isSome → ((skolemVars xs b n).1.lookup x).isSome) ∧
      ∀ x ∈ xs, ((skolemVars xs b n).1.lookup x).isSome := by
  induction xs with
  | nil => intro b n n0 _ h; exact ⟨Nat.le_refl _, h, fun _ h => h, by simp⟩
  | cons x xs ih =>
    intro b n n0 hn h
    unfold skolemVars
    split
    · rename_i hx
      obtain ⟨h1, h2, h3, h4⟩ := ih b n n0 hn h
      refine ⟨h1, h2, h3, fun y hy => ?_⟩
      rcases List.mem_cons.1 hy with rfl | hy
      · exact h3 _ hx
      · exact h4 y hy
    · rename_i hx
      have hl : ∀ y, List.lookup y ((x, n) :: b) = if y = x then some n else b.lookup y := by
        intro y
        rw [List.lookup_cons]
        by_cases e : y = x
        · simp [e]
        · have : (y == x) = false := by simpa using e
          simp [e, this]
      have hb : BindOK n0 (n + 1) ((x, n) :: b) := by
        constructor
        · intro y c hc
          rw [hl] at hc
          split at hc
          · simp only [Option.some.injEq] at hc; omega
          · have := h.range y c hc; omega
        · intro y z c hy hz
          rw [hl] at hy hz
          split at hy <;> split at hz
          · rename_i e1 e2; rw [e1, e2]
          · simp only [Option.some.injEq] at hy; have := h.range z c hz; omega
          · simp only [Option.some.injEq] at hz; have := h.range y c hy; omega
          · exact h.inj y z c hy hz
      obtain ⟨h1, h2, h3, h4⟩ := ih ((x, n) :: b) (n + 1) n0 (by omega) hb
      refine ⟨by omega, h2, fun y hy => h3 y ?_, fun y hy => ?_⟩
      · rw [hl]; split <;> simp [hy]
      · rcases List.mem_cons.1 hy with rfl | hy
        · exact h3 y (by rw [hl]; simp)
        · exact h4 y hy

/-- The signature declares the new constants: everything from `n` on is a constant of the type of the variables,
and not one of the distinct objects. -/
structure Fresh (sg : Sig) (n : Nat) : Prop where
  tf : 2 < n
  args : ∀ c, n ≤ c → sg.fargs c = []
  ty : ∀ c, n ≤ c → ∀ x, sg.fty c = sg.vty x
  dist : ∀ c, n ≤ c → ¬ sg.distinct c

/-- All symbols of the clause have codes below `n`. -/
def ClauseBelow (n : Nat) (C : List Lit) : Prop := ∀ L ∈ C, L.l.SymsBelow n ∧ L.r.SymsBelow n

variable {sg : Sig}

open Classical in
/-- If the parents together with the negated Skolemized literals have no model, the clause follows from the
parents. -/
theorem refute_sound {n : Nat} (hf : Fresh sg n) {n' : Nat} (hn : n ≤ n') {Ps : List (List Lit)} {C : List Lit}
    (hP : ∀ D ∈ Ps, ClauseBelow n D) (hC : ClauseBelow n C)
    (hu : ¬ ∃ I : Interp.{u} sg, ∀ D ∈ Ps ++ ((clauseSkolemize C n').1.map fun L => [{ L with pos := !L.pos }]), I.Models D) :
    Entails.{u} sg Ps C := by
  intro I hI v hv
  by_contra hc
  apply hu
  obtain ⟨h1, h2, -, h4⟩ := skolemVars_spec (cvars C) [] n' n' (Nat.le_refl _) ⟨by simp, by simp⟩
  generalize hb : (skolemVars (cvars C) [] n').1 = b at h1 h2 h4
  generalize (skolemVars (cvars C) [] n').2 = n'' at h1 h2
  let W : Nat → I.D := fun c => if h : ∃ x, b.lookup x = some c then v h.choose else I.fn c []
  have hW : ∀ x c, b.lookup x = some c → W c = v x := by
    intro x c hx
    have hex : ∃ x, b.lookup x = some c := ⟨x, hx⟩
    have : hex.choose = x := h2.inj _ _ _ hex.choose_spec hx
    simp only [W, dif_pos hex, this]
  let F : Nat → List I.D → I.D := fun c ds => if n ≤ c ∧ ds = [] then W c else I.fn c ds
  have hWmem : ∀ c, n ≤ c → I.mem (sg.fty c) (W c) := by
    intro c hc
    by_cases hex : ∃ x, b.lookup x = some c
    · obtain ⟨x, hx⟩ := hex
      rw [hW x c hx, hf.ty c hc x]; exact hv x
    · simp only [W, dif_neg hex]
      exact I.fn_mem c [] (by rw [hf.args c hc]; exact .nil)
  have hlow : ∀ s, s < n → F s = I.fn s := by
    intro s hs; funext ds
    have : ¬ (n ≤ s ∧ ds = []) := by omega
    simp only [F, if_neg this]
  have e1 : F 1 = I.fn 1 := hlow 1 (by have := hf.tf; omega)
  have e2 : F 2 = I.fn 2 := hlow 2 hf.tf
  have hOK : I.FnOK F := by
    constructor
    · intro f ds hds
      by_cases h : n ≤ f ∧ ds = []
      · simp only [F, if_pos h]; exact hWmem f h.1
      · simp only [F, if_neg h]; exact I.fn_mem f ds hds
    · rw [e1, e2]; exact I.tf
    · rw [e1, e2]; exact I.bool2
    · intro f g h5 h6 hne
      have h7 : f < n := by by_contra h; exact hf.dist f (by omega) h5
      have h8 : g < n := by by_contra h; exact hf.dist g (by omega) h6
      rw [hlow f h7, hlow g h8]; exact I.dist f g h5 h6 hne
  have hlit : ∀ (w : Nat → I.D) (L : Lit), L.l.SymsBelow n → L.r.SymsBelow n → ((I.reint F hOK).LitTrue w L ↔ I.LitTrue w L) :=
    fun w L a c => CNFProof.litTrue_reint I hOK hlow w L a c
  refine ⟨I.reint F hOK, fun D hD => ?_⟩
  rcases List.mem_append.1 hD with hD | hD
  · intro w hw
    obtain ⟨L, hL, ht⟩ := hI D hD w hw
    exact ⟨L, hL, (hlit w L (hP D hD L hL).1 (hP D hD L hL).2).2 ht⟩
  · obtain ⟨K, hK, rfl⟩ := List.mem_map.1 hD
    simp only [clauseSkolemize, hb] at hK
    obtain ⟨L, hL, rfl⟩ := List.mem_map.1 hK
    intro w _
    have hσ : ∀ x ∈ cvars C, (I.reint F hOK).eval w (skolemSubst b x) = v x := by
      intro x hx
      obtain ⟨c, hcx⟩ := Option.isSome_iff_exists.1 (h4 x hx)
      have hr := h2.range x c hcx
      simp only [skolemSubst, hcx]
      refine (eval_app (I.reint F hOK) w c []).trans ?_
      show F c [] = v x
      have : n ≤ c ∧ ([] : List I.D) = [] := ⟨by omega, rfl⟩
      simp only [F, if_pos this]; exact hW x c hcx
    have hev : ∀ t : Term, t.SymsBelow n → (∀ x ∈ t.vars, x ∈ cvars C) → (I.reint F hOK).eval w (t.subst (skolemSubst b)) = I.eval v t := by
      intro t hb hx
      rw [eval_subst]
      refine (CNFProof.eval_reint I hOK hlow _ t hb).trans ?_
      exact eval_congr I fun x hxt => hσ x (hx x hxt)
    have hl := hev L.l (hC L hL).1 fun x hx => List.mem_flatMap.2 ⟨L, hL, by simp [Lit.vars, hx]⟩
    have hr := hev L.r (hC L hL).2 fun x hx => List.mem_flatMap.2 ⟨L, hL, by simp [Lit.vars, hx]⟩
    have hnot : ¬ I.LitTrue v L := fun h => hc ⟨L, hL, h⟩
    refine ⟨_, List.mem_singleton.2 rfl, ?_⟩
    unfold LitTrue at hnot ⊢
    by_cases hpos : L.pos = true
    · rw [if_pos hpos] at hnot
      rw [if_neg (by simp [Lit.subst, hpos])]
      show ¬ (I.reint F hOK).eval w (L.l.subst (skolemSubst b)) = (I.reint F hOK).eval w (L.r.subst (skolemSubst b))
      rw [hl, hr]; exact hnot
    · rw [if_neg hpos] at hnot
      rw [if_pos (by simpa [Lit.subst] using hpos)]
      show (I.reint F hOK).eval w (L.l.subst (skolemSubst b)) = (I.reint F hOK).eval w (L.r.subst (skolemSubst b))
      rw [hl, hr]; exact not_not.1 hnot

end Verif.PclProof
