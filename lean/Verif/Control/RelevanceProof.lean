import Verif.Control.Relevance

/-!
# Relevance pruning: lemmas
-/

namespace Verif.Relevance
open Verif.Sine

/-- Axiom `b` is connected to a conjecture by `n` steps between axioms with a common symbol that is
not special. -/
inductive Shares (special : Nat → Bool) (axs : List SAx) : Nat → SAx → Prop
  | conj {a} : a ∈ axs → a.conj = true → Shares special axs 0 a
  | step {n a f b} : Shares special axs n a → f ∈ a.occ → special f = false → f ∈ b.occ → b ∈ axs →
      Shares special axs (n + 1) b

/-- `n` is the distance of `a` from the conjectures. -/
def Dist (special : Nat → Bool) (axs : List SAx) (n : Nat) (a : SAx) : Prop :=
  Shares special axs n a ∧ ∀ m < n, ¬ Shares special axs m a

theorem codesOf_spec (special : Nat → Bool) : ∀ (l seen new : List Nat) (f : Nat),
    (f ∈ (codesOf special l (seen, new)).1 ↔ f ∈ seen ∨ (f ∈ l ∧ special f = false)) ∧
    (f ∈ (codesOf special l (seen, new)).2 ↔ f ∈ new ∨ (f ∈ l ∧ special f = false ∧ f ∉ seen))
  | [], seen, new, f => by simp [codesOf]
  | g :: l, seen, new, f => by
    rw [codesOf]
    by_cases hg : special g = false ∧ g ∉ seen
    · have hc : (!(special g) && !(seen.contains g)) = true := by simp [hg.1, hg.2]
      rw [if_pos hc]
      obtain ⟨h1, h2⟩ := codesOf_spec special l (g :: seen) (g :: new) f
      rw [h1, h2]
      simp only [List.mem_cons]
      by_cases hfg : f = g
      · subst hfg; simp [hg.1, hg.2]
      · simp [hfg]
    · have hc : ¬ (!(special g) && !(seen.contains g)) = true := by
        simpa using hg
      rw [if_neg hc]
      obtain ⟨h1, h2⟩ := codesOf_spec special l seen new f
      rw [h1, h2]
      simp only [List.mem_cons]
      by_cases hfg : f = g
      · subst hfg
        by_cases hs : special f = false
        · have : f ∈ seen := by
            by_contra hn
            exact hg ⟨hs, hn⟩
          simp [this, hs]
        · simp [hs]
      · simp [hfg]

theorem levelCodes_spec (special : Nat → Bool) : ∀ (l : List SAx) (seen new : List Nat) (f : Nat),
    (f ∈ (levelCodes special l (seen, new)).1 ↔
      f ∈ seen ∨ ((∃ a ∈ l, f ∈ a.occ) ∧ special f = false)) ∧
    (f ∈ (levelCodes special l (seen, new)).2 ↔
      f ∈ new ∨ ((∃ a ∈ l, f ∈ a.occ) ∧ special f = false ∧ f ∉ seen))
  | [], seen, new, f => by simp [levelCodes]
  | a :: l, seen, new, f => by
    rw [levelCodes]
    obtain ⟨h1, h2⟩ := codesOf_spec special a.occ seen new f
    obtain ⟨h3, h4⟩ := levelCodes_spec special l (codesOf special a.occ (seen, new)).1
      (codesOf special a.occ (seen, new)).2 f
    rw [h3, h4, h1, h2]
    simp only [List.exists_mem_cons_iff]
    by_cases k1 : f ∈ a.occ <;> by_cases k2 : special f = false <;> by_cases k3 : f ∈ seen <;>
      by_cases k4 : f ∈ new <;> simp [k1, k2, k3, k4]

theorem newCore_spec : ∀ (l : List Nat) (core rest : List SAx) (a : SAx),
    (a ∈ (newCore l (core, rest)).1 ↔ a ∈ core ∨ (a ∈ rest ∧ ∃ f ∈ l, f ∈ a.occ)) ∧
    (a ∈ (newCore l (core, rest)).2 ↔ a ∈ rest ∧ ∀ f ∈ l, f ∉ a.occ)
  | [], core, rest, a => by simp [newCore]
  | f :: l, core, rest, a => by
    rw [newCore]
    obtain ⟨h1, h2⟩ := newCore_spec l (core ++ rest.filter (fun a => a.occ.contains f))
      (rest.filter (fun a => !(a.occ.contains f))) a
    rw [h1, h2]
    simp only [List.mem_append, List.mem_filter, List.contains_iff_mem, Bool.not_eq_true',
      List.exists_mem_cons_iff, List.forall_mem_cons]
    by_cases k1 : f ∈ a.occ <;> by_cases k2 : a ∈ rest <;> by_cases k3 : a ∈ core <;>
      simp [k1, k2, k3]

theorem newCore_perm : ∀ (l : List Nat) (core rest : List SAx),
    ((newCore l (core, rest)).1 ++ (newCore l (core, rest)).2).Perm (core ++ rest)
  | [], core, rest => List.Perm.refl _
  | f :: l, core, rest => by
    rw [newCore]
    refine (newCore_perm l _ _).trans ?_
    rw [List.append_assoc]
    exact (List.filter_append_perm _ rest).append_left core

theorem shares_mem {special : Nat → Bool} {axs : List SAx} {n : Nat} {a : SAx}
    (h : Shares special axs n a) : a ∈ axs := by
  cases h with
  | conj h _ => exact h
  | step _ _ _ _ h => exact h

theorem shares_dist {special : Nat → Bool} {axs : List SAx} : ∀ {n : Nat} {a : SAx},
    Shares special axs n a → ∃ m ≤ n, Dist special axs m a := by
  intro n
  induction n using Nat.strong_induction_on with
  | _ n ih =>
    intro a h
    by_cases hm : ∃ m < n, Shares special axs m a
    · obtain ⟨m, hm, hs⟩ := hm
      obtain ⟨k, hk, hd⟩ := ih m hm hs
      exact ⟨k, by omega, hd⟩
    · exact ⟨n, Nat.le_refl _, h, fun m hmn hs => hm ⟨m, hmn, hs⟩⟩

/-- Distances have no gaps. -/
theorem dist_pred {special : Nat → Bool} {axs : List SAx} {n : Nat} {a : SAx}
    (h : Dist special axs (n + 1) a) : ∃ b, Dist special axs n b := by
  obtain ⟨hs, hm⟩ := h
  cases hs with
  | step hr h1 h2 h3 h4 =>
    rename_i c f
    refine ⟨c, hr, fun m hmn hs => ?_⟩
    exact hm (m + 1) (by omega) (.step hs h1 h2 h3 h4)

theorem dist_below {special : Nat → Bool} {axs : List SAx} {k : Nat} :
    ∀ {n : Nat} {a : SAx}, k ≤ n → Dist special axs n a → ∃ b, Dist special axs k b := by
  intro n
  induction n with
  | zero =>
    intro a hk h
    have : k = 0 := Nat.le_zero.1 hk
    subst this; exact ⟨a, h⟩
  | succ n ih =>
    intro a hk h
    rcases Nat.lt_or_ge k (n + 1) with hl | hl
    · obtain ⟨b, hb⟩ := dist_pred h
      exact ih (by omega) hb
    · have : k = n + 1 := by omega
      subst this; exact ⟨a, h⟩

/-- The result of the loop from level `k` on. -/
structure LevelsOK (special : Nat → Bool) (axs : List SAx) (k : Nat) (ls : List (List SAx))
    (rest : List SAx) : Prop where
  level : ∀ i (h : i < ls.length), ∀ a, a ∈ ls[i] ↔ Dist special axs (k + i) a
  nonempty : ∀ i (h : i < ls.length), ls[i] ≠ []
  last : ∀ a, ¬ Dist special axs (k + ls.length) a
  rest : ∀ a, a ∈ rest ↔ a ∈ axs ∧ ∀ n, ¬ Shares special axs n a

theorem levels_ok {special : Nat → Bool} {axs : List SAx} : ∀ (n k : Nat) (core rest : List SAx)
    (seen : List Nat) (ls : List (List SAx)) (r : List SAx),
    (∀ a, a ∈ core ↔ Dist special axs k a) →
    (∀ a, a ∈ rest ↔ a ∈ axs ∧ ∀ n ≤ k, ¬ Shares special axs n a) →
    (∀ f, f ∈ seen ↔ special f = false ∧ ∃ n < k, ∃ a, Shares special axs n a ∧ f ∈ a.occ) →
    levels special n core rest seen = some (ls, r) →
    LevelsOK special axs k ls r ∧ (ls.flatten ++ r).Perm (core ++ rest)
  | 0, _, _, _, _, _, _, _, _, _, h => by simp [levels] at h
  | n + 1, k, core, rest, seen, ls, r, hc, hr, hs, h => by
    rw [levels] at h
    by_cases he : core.isEmpty = true
    · rw [if_pos he] at h
      simp only [Option.some.injEq, Prod.mk.injEq] at h
      obtain ⟨rfl, rfl⟩ := h
      have he' : core = [] := by simpa using he
      have hno : ∀ a, ¬ Dist special axs k a := by
        intro a ha
        have := (hc a).2 ha
        simp [he'] at this
      refine ⟨⟨by simp, by simp, by simpa using hno, ?_⟩, by simp [he']⟩
      intro a
      rw [hr]
      apply and_congr_right
      intro _
      constructor
      · intro h m hm
        obtain ⟨m', hm', hd⟩ := shares_dist hm
        rcases Nat.lt_or_ge m' k with hl | hl
        · exact h m' (by omega) hd.1
        · obtain ⟨b, hb⟩ := dist_below hl hd
          exact hno b hb
      · intro h m _; exact h m
    · rw [if_neg he] at h
      simp only [Option.map_eq_some_iff] at h
      obtain ⟨⟨ls', r'⟩, h, heq⟩ := h
      simp only [Prod.mk.injEq] at heq
      obtain ⟨rfl, rfl⟩ := heq
      have hnew : ∀ f, f ∈ (levelCodes special core (seen, [])).2 ↔
          (∃ a ∈ core, f ∈ a.occ) ∧ special f = false ∧ f ∉ seen := by
        intro f; rw [(levelCodes_spec special core seen [] f).2]; simp
      have hstep : ∀ a, a ∈ rest → (Shares special axs (k + 1) a ↔
          ∃ f ∈ (levelCodes special core (seen, [])).2, f ∈ a.occ) := by
        intro a ha
        obtain ⟨hax, hnot⟩ := (hr a).1 ha
        constructor
        · intro hsh
          cases hsh with
          | step hb h1 h2 h3 h4 =>
            rename_i b f
            have hns : f ∉ seen := by
              intro hfs
              obtain ⟨_, m, hm, c, hcs, hcf⟩ := (hs f).1 hfs
              exact hnot (m + 1) (by omega) (.step hcs hcf h2 h3 hax)
            refine ⟨f, (hnew f).2 ⟨⟨b, (hc b).2 ⟨hb, ?_⟩, h1⟩, h2, hns⟩, h3⟩
            intro m hm hbm
            exact hns ((hs f).2 ⟨h2, m, hm, b, hbm, h1⟩)
        · rintro ⟨f, hf, hfa⟩
          obtain ⟨⟨b, hb, hfb⟩, hsp, _⟩ := (hnew f).1 hf
          exact .step ((hc b).1 hb).1 hfb hsp hfa hax
      have hrec : LevelsOK special axs (k + 1) ls' r' ∧ (ls'.flatten ++ r').Perm
          ((newCore (levelCodes special core (seen, [])).2 ([], rest)).1 ++
            (newCore (levelCodes special core (seen, [])).2 ([], rest)).2) := by
        refine levels_ok n (k + 1) _ _ _ ls' r' ?_ ?_ ?_ h
        · intro a
          rw [(newCore_spec _ [] rest a).1]
          constructor
          · rintro (h | ⟨h1, h2⟩)
            · simp at h
            · refine ⟨(hstep a h1).2 h2, fun m hm => ((hr a).1 h1).2 m (by omega)⟩
          · rintro ⟨h1, h2⟩
            have hm : a ∈ rest := (hr a).2 ⟨shares_mem h1, fun m hm => h2 m (by omega)⟩
            exact Or.inr ⟨hm, (hstep a hm).1 h1⟩
        · intro a
          rw [(newCore_spec _ [] rest a).2]
          constructor
          · rintro ⟨h1, h2⟩
            refine ⟨((hr a).1 h1).1, fun m hm hsh => ?_⟩
            rcases Nat.lt_or_ge m (k + 1) with hl | hl
            · exact ((hr a).1 h1).2 m (by omega) hsh
            · have : m = k + 1 := by omega
              subst this
              obtain ⟨f, hf, hfa⟩ := (hstep a h1).1 hsh
              exact h2 f hf hfa
          · rintro ⟨h1, h2⟩
            have hm : a ∈ rest := (hr a).2 ⟨h1, fun m hm => h2 m (by omega)⟩
            refine ⟨hm, fun f hf hfa => ?_⟩
            exact h2 (k + 1) (Nat.le_refl _) ((hstep a hm).2 ⟨f, hf, hfa⟩)
        · intro f
          rw [(levelCodes_spec special core seen [] f).1]
          constructor
          · rintro (h | ⟨⟨a, ha, hf⟩, hsp⟩)
            · obtain ⟨h1, m, hm, a, h2⟩ := (hs f).1 h
              exact ⟨h1, m, by omega, a, h2⟩
            · exact ⟨hsp, k, by omega, a, ((hc a).1 ha).1, hf⟩
          · rintro ⟨hsp, m, hm, a, hsh, hf⟩
            by_cases hfs : f ∈ seen
            · exact Or.inl hfs
            · refine Or.inr ⟨⟨a, (hc a).2 ?_, hf⟩, hsp⟩
              have hmk : m = k := by
                by_contra hne
                exact hfs ((hs f).2 ⟨hsp, m, by omega, a, hsh, hf⟩)
              subst hmk
              refine ⟨hsh, fun m' hm' hs' => ?_⟩
              exact hfs ((hs f).2 ⟨hsp, m', hm', a, hs', hf⟩)
      obtain ⟨hok, hperm⟩ := hrec
      refine ⟨⟨?_, ?_, ?_, hok.rest⟩, ?_⟩
      · intro i hi a
        cases i with
        | zero => simpa using hc a
        | succ i =>
          have := hok.level i (by simpa using hi) a
          simpa [Nat.add_assoc, Nat.add_comm, Nat.add_left_comm] using this
      · intro i hi
        cases i with
        | zero => simpa using he
        | succ i => simpa using hok.nonempty i (by simpa using hi)
      · intro a
        have := hok.last a
        simpa [Nat.add_assoc, Nat.add_comm, Nat.add_left_comm] using this
      · rw [List.flatten_cons, List.append_assoc]
        refine (hperm.append_left core).trans ?_
        exact (newCore_perm _ [] rest).append_left core

theorem levels_total {special : Nat → Bool} : ∀ (n : Nat) (core rest : List SAx) (seen : List Nat),
    rest.length + 2 ≤ n ∨ (core = [] ∧ 1 ≤ n) → ∃ x, levels special n core rest seen = some x
  | 0, _, _, _, h => by omega
  | n + 1, core, rest, seen, h => by
    rw [levels]
    by_cases he : core.isEmpty = true
    · rw [if_pos he]; exact ⟨_, rfl⟩
    · rw [if_neg he]
      have hne : core ≠ [] := by simpa using he
      have hn : rest.length + 1 ≤ n := by
        rcases h with h | h
        · omega
        · exact absurd h.1 hne
      have hp := (newCore_perm (levelCodes special core (seen, [])).2 [] rest).length_eq
      simp only [List.length_append, List.nil_append] at hp
      obtain ⟨x, hx⟩ := levels_total n
        (newCore (levelCodes special core (seen, [])).2 ([], rest)).1
        (newCore (levelCodes special core (seen, [])).2 ([], rest)).2
        (levelCodes special core (seen, [])).1 (by
          cases hcore : (newCore (levelCodes special core (seen, [])).2 ([], rest)).1 with
          | nil => exact Or.inr ⟨rfl, by omega⟩
          | cons a as =>
            rw [hcore] at hp
            simp only [List.length_cons] at hp
            exact Or.inl (by omega))
      simp only []
      rw [hx]
      exact ⟨_, rfl⟩

theorem relPrune_sublist : ∀ (n : Nat) (ls : List (List SAx)) (rest : List SAx),
    (relPrune n ls rest).Sublist (ls.flatten ++ rest)
  | 0, _, _ => by simp [relPrune]
  | _ + 1, [], rest => by simp [relPrune]
  | n + 1, l :: ls, rest => by
    rw [relPrune, List.flatten_cons, List.append_assoc]
    exact (relPrune_sublist n ls rest).append_left l

theorem mem_relPrune : ∀ (n : Nat) (ls : List (List SAx)) (rest : List SAx) (a : SAx),
    a ∈ relPrune n ls rest ↔
      (∃ i, ∃ h : i < ls.length, i < n ∧ a ∈ ls[i]) ∨ (ls.length < n ∧ a ∈ rest)
  | 0, ls, rest, a => by simp [relPrune]
  | n + 1, [], rest, a => by simp [relPrune]
  | n + 1, l :: ls, rest, a => by
    rw [relPrune, List.mem_append, mem_relPrune n ls rest a]
    constructor
    · rintro (h | ⟨i, hi, hin, h⟩ | ⟨h1, h2⟩)
      · exact Or.inl ⟨0, by simp, by omega, by simpa using h⟩
      · exact Or.inl ⟨i + 1, by simpa using hi, by omega, by simpa using h⟩
      · exact Or.inr ⟨by simp; omega, h2⟩
    · rintro (⟨i, hi, hin, h⟩ | ⟨h1, h2⟩)
      · cases i with
        | zero => exact Or.inl (by simpa using h)
        | succ i =>
          exact Or.inr (Or.inl ⟨i, by simpa using hi, by omega, by simpa using h⟩)
      · exact Or.inr (Or.inr ⟨by simp at h1; omega, h2⟩)

theorem relevanceData_ok {special : Nat → Bool} {axs : List SAx} {ls : List (List SAx)}
    {rest : List SAx} (h : relevanceData special axs = some (ls, rest)) :
    LevelsOK special axs 0 ls rest ∧ (ls.flatten ++ rest).Perm axs := by
  have hrec : LevelsOK special axs 0 ls rest ∧ (ls.flatten ++ rest).Perm
      (axs.filter (·.conj) ++ axs.filter (fun a => !a.conj)) := by
    refine levels_ok _ 0 _ _ _ ls rest ?_ ?_ ?_ h
    · intro a
      simp only [List.mem_filter]
      constructor
      · rintro ⟨h1, h2⟩; exact ⟨.conj h1 h2, by omega⟩
      · rintro ⟨h1, _⟩
        cases h1 with
        | conj h1 h2 => exact ⟨h1, h2⟩
    · intro a
      simp only [List.mem_filter, Bool.not_eq_true']
      constructor
      · rintro ⟨h1, h2⟩
        refine ⟨h1, fun n hn hs => ?_⟩
        have : n = 0 := by omega
        subst this
        cases hs with
        | conj _ h => simp [h2] at h
      · rintro ⟨h1, h2⟩
        refine ⟨h1, ?_⟩
        cases hc : a.conj with
        | false => rfl
        | true => exact absurd (.conj h1 hc) (h2 0 (Nat.le_refl _))
    · intro f; simp
  exact ⟨hrec.1, hrec.2.trans (List.filter_append_perm _ axs)⟩

end Verif.Relevance
