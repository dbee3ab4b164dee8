import Verif.Clauses.Derivation
import Mathlib.Data.List.Perm.Subperm
import Mathlib.Data.List.Perm.Basic
import Mathlib.Algebra.BigOperators.Group.List.Basic

/-! Lemmas about extraction and sorting of derivations. -/

namespace Verif.DerivationProof
open Verif DerivEnv

/-- Number of times `p` is cited by the nodes of `l`. -/
def refs (par : Nat → List Nat) (l : List Nat) (p : Nat) : Nat := (l.map fun n => (par n).count p).sum

variable {par : Nat → List Nat}

theorem refs_cons (n l p) : refs par (n :: l) p = (par n).count p + refs par l p := by simp [refs]

theorem refs_perm {l l' : List Nat} (h : l.Perm l') (p) : refs par l p = refs par l' p :=
  (h.map _).sum_eq

theorem refs_zero {l p} : refs par l p = 0 ↔ ∀ n ∈ l, p ∉ par n := by
  induction l with
  | nil => simp [refs]
  | cons a l ih => rw [refs_cons]; simp [List.count_eq_zero, ih]

theorem bump_count (r : Nat → Int) (p q : Nat) (ps : List Nat) :
    bump r p 1 q + (ps.count q : Int) = r q + ((p :: ps).count q : Int) := by
  unfold bump
  rw [List.count_cons]
  split
  · next h => subst h; simp; omega
  · next h => have : ¬ p = q := fun e => h e.symm
              simp [this]

theorem bump_count' (r : Nat → Int) (p q : Nat) (ps : List Nat) :
    bump r p (-1) q - (ps.count q : Int) = r q - ((p :: ps).count q : Int) := by
  unfold bump
  rw [List.count_cons]
  split
  · next h => subst h; simp; omega
  · next h => have : ¬ p = q := fun e => h e.symm
              simp [this]

theorem exVisit_spec (ps vis st : List Nat) (r : Nat → Int) :
    ∃ nw, (exVisit ps vis st r).1 = nw ++ vis ∧ (exVisit ps vis st r).2.1 = nw ++ st ∧
      (∀ q, (exVisit ps vis st r).2.2 q = r q + (ps.count q : Int)) ∧
      nw.Nodup ∧ (∀ q ∈ nw, q ∉ vis ∧ q ∈ ps) ∧ (∀ q ∈ ps, q ∈ nw ++ vis) := by
  induction ps generalizing vis st r with
  | nil => exact ⟨[], by simp [exVisit]⟩
  | cons p ps ih =>
    unfold exVisit
    by_cases h : vis.contains p = true
    · rw [if_pos h]
      obtain ⟨nw, h1, h2, h3, h4, h5, h6⟩ := ih vis st (bump r p 1)
      refine ⟨nw, h1, h2, fun q => by rw [h3, bump_count], h4, fun q hq => ⟨(h5 q hq).1, by simp [(h5 q hq).2]⟩, ?_⟩
      intro q hq
      rcases List.mem_cons.1 hq with rfl | hq
      · simp at h; simp [h]
      · exact h6 q hq
    · rw [if_neg h]
      obtain ⟨nw, h1, h2, h3, h4, h5, h6⟩ := ih (p :: vis) (p :: st) (bump r p 1)
      refine ⟨nw ++ [p], by simp [h1], by simp [h2], fun q => by rw [h3, bump_count], ?_, ?_, ?_⟩
      · rw [List.nodup_append]
        refine ⟨h4, by simp, ?_⟩
        intro a ha b hb
        have := (h5 a ha).1
        simp at this hb; grind
      · intro q hq
        rcases List.mem_append.1 hq with hq | hq
        · have := h5 q hq; simp at this; simp [this]
        · simp at hq; subst hq; simp at h; simp [h]
      · intro q hq
        rcases List.mem_cons.1 hq with rfl | hq
        · simp
        · have := h6 q hq; simp at this ⊢; grind

variable (E : DerivEnv)

/-- Invariant of the extraction loop. -/
structure ExInv (roots vis st done : List Nat) (r : Nat → Int) : Prop where
  nodup : (st ++ done).Nodup
  mem : ∀ n, n ∈ vis ↔ n ∈ st ++ done
  cnt : ∀ p, r p = (refs E.par done p : Int)
  closed : ∀ n ∈ done, ∀ p ∈ E.par n, p ∈ vis
  base : ∀ n ∈ roots, n ∈ vis
  src : ∀ n ∈ vis, n ∈ roots ∨ ∃ m ∈ done, n ∈ E.par m

theorem exLoop_spec (roots : List Nat) : ∀ k vis st done r r', ExInv E roots vis st done r → E.exLoop k vis st r = some r' →
    ∃ V, ExInv E roots V [] V r' := by
  intro k
  induction k with
  | zero => intro _ _ _ _ _ _ h; simp [exLoop] at h
  | succ k ih =>
    intro vis st done r r' hi h
    cases st with
    | nil =>
      simp [exLoop] at h
      subst h
      have hm : ∀ n, n ∈ vis ↔ n ∈ done := fun n => by simpa using hi.mem n
      exact ⟨done, ⟨hi.nodup, fun n => by simp, hi.cnt, fun n hn p hp => (hm p).1 (hi.closed n hn p hp),
        fun n hn => (hm n).1 (hi.base n hn), fun n hn => hi.src n ((hm n).2 hn)⟩⟩
    | cons n st =>
      simp only [exLoop] at h
      obtain ⟨nw, h1, h2, h3, h4, h5, h6⟩ := exVisit_spec (E.par n) vis st r
      rw [h1, h2] at h
      refine ih _ _ (n :: done) _ _ ?_ h
      have hnd : (n :: (st ++ done)).Nodup := hi.nodup
      have hpm : ((nw ++ st) ++ (n :: done)).Perm (nw ++ (n :: (st ++ done))) := by
        rw [List.append_assoc]; exact (List.perm_middle).append_left nw
      refine ⟨?_, ?_, ?_, ?_, ?_, ?_⟩
      · rw [hpm.nodup_iff, List.nodup_append]
        refine ⟨h4, hnd, ?_⟩
        intro a ha b hb e
        subst e
        exact (h5 a ha).1 ((hi.mem a).2 hb)
      · intro m
        rw [hpm.mem_iff, List.mem_append, List.mem_append, hi.mem]; rfl
      · intro p; rw [h3, hi.cnt, refs_cons]; push_cast; omega
      · intro m hm p hp
        rcases List.mem_cons.1 hm with rfl | hm
        · exact h6 p hp
        · exact List.mem_append_right _ (hi.closed m hm p hp)
      · exact fun m hm => List.mem_append_right _ (hi.base m hm)
      · intro m hm
        rcases List.mem_append.1 hm with hm | hm
        · exact Or.inr ⟨n, by simp, (h5 m hm).2⟩
        · rcases hi.src m hm with h | ⟨x, hx, hx'⟩
          · exact Or.inl h
          · exact Or.inr ⟨x, by simp [hx], hx'⟩

theorem exLoop_total (hlt : ∀ n, ∀ p ∈ E.par n, p < n) (N : Nat) : ∀ k vis st r, vis.Nodup → (∀ n ∈ vis, n < N) → (∀ n ∈ st, n ∈ vis) →
    N + st.length < k + vis.length → ∃ r', E.exLoop k vis st r = some r' := by
  intro k
  induction k with
  | zero =>
    intro vis st r hn hv hs hk
    have : vis.length ≤ N := by
      have := (List.subperm_of_subset hn (l₂ := List.range N) (fun a ha => by simpa using hv a ha)).length_le
      simpa using this
    omega
  | succ k ih =>
    intro vis st r hn hv hs hk
    cases st with
    | nil => exact ⟨r, by simp [exLoop]⟩
    | cons n st =>
      simp only [exLoop]
      obtain ⟨nw, h1, h2, h3, h4, h5, h6⟩ := exVisit_spec (E.par n) vis st r
      rw [h1, h2]
      apply ih
      · rw [List.nodup_append]
        exact ⟨h4, hn, fun a ha b hb e => (h5 a ha).1 (e ▸ hb)⟩
      · intro m hm
        rcases List.mem_append.1 hm with hm | hm
        · exact (hlt n m (h5 m hm).2).trans (hv n (hs n (by simp)))
        · exact hv m hm
      · intro m hm
        rcases List.mem_append.1 hm with hm | hm
        · exact List.mem_append_left _ hm
        · exact List.mem_append_right _ (hs m (by simp [hm]))
      · simp at hk ⊢; omega

theorem tsVisit_spec (ps q ax : List Nat) (r : Nat → Int) (hr : ∀ p, (ps.count p : Int) ≤ r p) :
    ∃ nq na, (E.tsVisit ps q ax r).1 = q ++ nq ∧ (E.tsVisit ps q ax r).2.1 = ax ++ na ∧
      (∀ p, (E.tsVisit ps q ax r).2.2 p = r p - (ps.count p : Int)) ∧ nq.Nodup ∧ na.Nodup ∧
      (∀ p, p ∈ nq ↔ E.hasDeriv p = true ∧ p ∈ ps ∧ r p = (ps.count p : Int)) ∧
      (∀ p, p ∈ na ↔ E.hasDeriv p = false ∧ p ∈ ps ∧ r p = (ps.count p : Int)) := by
  induction ps generalizing q ax r with
  | nil => exact ⟨[], [], by simp [tsVisit]⟩
  | cons a ps ih =>
    have hr' : ∀ p, (ps.count p : Int) ≤ bump r a (-1) p := fun p => by
      have := bump_count' r a p ps; have := hr p; omega
    have key : ∀ p, (bump r a (-1) p = (ps.count p : Int) ↔ r p = ((a :: ps).count p : Int)) := fun p => by
      have := bump_count' r a p ps; omega
    have hmem : ∀ p, p ≠ a → (p ∈ a :: ps ↔ p ∈ ps) := fun p hp => by simp [hp]
    unfold tsVisit
    by_cases h0 : bump r a (-1) a = 0
    · have hna : a ∉ ps := by
        intro h
        have := List.count_pos_iff.2 h
        have := hr' a; omega
      have hka : r a = ((a :: ps).count a : Int) := (key a).1 (by rw [h0, List.count_eq_zero_of_not_mem hna]; rfl)
      rw [if_pos h0]
      by_cases hd : E.hasDeriv a = true
      · rw [if_pos hd]
        obtain ⟨nq, na, h1, h2, h3, h4, h5, h6, h7⟩ := ih (q ++ [a]) ax (bump r a (-1)) hr'
        refine ⟨a :: nq, na, by simp [h1], h2, fun p => by rw [h3, bump_count'], ?_, h5, ?_, ?_⟩
        · rw [List.nodup_cons]; exact ⟨fun h => hna ((h6 a).1 h).2.1, h4⟩
        · intro p
          by_cases hp : p = a
          · subst hp; simp only [List.mem_cons, true_or, true_iff]; exact ⟨hd, by simp, hka⟩
          · rw [List.mem_cons, h6, hmem p hp, key]; simp [hp]
        · intro p
          by_cases hp : p = a
          · subst hp; rw [h7, hd]; simp
          · rw [h7, hmem p hp, key]
      · rw [if_neg hd]
        obtain ⟨nq, na, h1, h2, h3, h4, h5, h6, h7⟩ := ih q (ax ++ [a]) (bump r a (-1)) hr'
        simp only [Bool.not_eq_true] at hd
        refine ⟨nq, a :: na, h1, by simp [h2], fun p => by rw [h3, bump_count'], h4, ?_, ?_, ?_⟩
        · rw [List.nodup_cons]; exact ⟨fun h => hna ((h7 a).1 h).2.1, h5⟩
        · intro p
          by_cases hp : p = a
          · subst hp; rw [h6, hd]; simp
          · rw [h6, hmem p hp, key]
        · intro p
          by_cases hp : p = a
          · subst hp; simp only [List.mem_cons, true_or, true_iff]; exact ⟨hd, by simp, hka⟩
          · rw [List.mem_cons, h7, hmem p hp, key]; simp [hp]
    · rw [if_neg h0]
      obtain ⟨nq, na, h1, h2, h3, h4, h5, h6, h7⟩ := ih q ax (bump r a (-1)) hr'
      have hmem' : ∀ p, bump r a (-1) p = (ps.count p : Int) → (p ∈ ps ↔ p ∈ a :: ps) := by
        intro p hp
        by_cases e : p = a
        · subst e
          have : 0 < ps.count p := by
            rcases Nat.eq_zero_or_pos (ps.count p) with h | h
            · rw [h] at hp; exact absurd hp h0
            · exact h
          simp [List.count_pos_iff.1 this]
        · exact (hmem p e).symm
      refine ⟨nq, na, h1, h2, fun p => by rw [h3, bump_count'], h4, h5, ?_, ?_⟩
      · intro p; rw [h6, ← key]
        constructor
        · rintro ⟨a1, a2, a3⟩; exact ⟨a1, (hmem' p a3).1 a2, a3⟩
        · rintro ⟨a1, a2, a3⟩; exact ⟨a1, (hmem' p a3).2 a2, a3⟩
      · intro p; rw [h7, ← key]
        constructor
        · rintro ⟨a1, a2, a3⟩; exact ⟨a1, (hmem' p a3).1 a2, a3⟩
        · rintro ⟨a1, a2, a3⟩; exact ⟨a1, (hmem' p a3).2 a2, a3⟩

/-- Invariant of the sorting loop: `W` are the nodes not yet moved to `o`. -/
structure TsInv (V roots o q ax : List Nat) (r : Nat → Int) (W : List Nat) : Prop where
  nodup : (o ++ (q ++ ax)).Nodup
  perm : V.Perm (o ++ W)
  cnt : ∀ p, r p = (refs E.par W p : Int)
  mem : ∀ p, p ∈ o ++ (q ++ ax) ↔ p ∈ V ∧ r p = 0
  order : ∀ pre n post, o = pre ++ n :: post → ∀ m ∈ V, n ∈ E.par m → m ∈ pre
  deriv : ∀ n ∈ ax, E.hasDeriv n = false
  noax : ∀ n ∈ o ++ q, E.hasDeriv n = false → n ∈ roots

theorem ts_step (V roots : List Nat) (hclosed : ∀ n ∈ V, ∀ p ∈ E.par n, p ∈ V) {n o q ax r W}
    (hi : TsInv E V roots o (n :: q) ax r W) :
    ∃ W', TsInv E V roots (o ++ [n]) (E.tsVisit (E.par n) q ax r).1 (E.tsVisit (E.par n) q ax r).2.1
      (E.tsVisit (E.par n) q ax r).2.2 W' := by
  have hn0 : n ∈ V ∧ r n = 0 := (hi.mem n).1 (by simp)
  have hnW : n ∈ W := by
    have := hi.perm.mem_iff.1 hn0.1
    rcases List.mem_append.1 this with h | h
    · exact absurd h (by have := (List.nodup_append.1 hi.nodup).2.2; intro hh; exact this n hh n (by simp) rfl)
    · exact h
  obtain ⟨W', hW'⟩ : ∃ W', W.Perm (n :: W') := ⟨W.erase n, List.perm_cons_erase hnW⟩
  have hcnt : ∀ p, r p = ((E.par n).count p : Int) + (refs E.par W' p : Int) := fun p => by
    rw [hi.cnt, refs_perm hW', refs_cons]; push_cast; rfl
  obtain ⟨nq, na, h1, h2, h3, h4, h5, h6, h7⟩ := tsVisit_spec E (E.par n) q ax r (fun p => by rw [hcnt p]; omega)
  have hnn : n ∉ E.par n := by
    have := hi.cnt n
    rw [hn0.2] at this
    have h0 : refs E.par W n = 0 := by omega
    exact refs_zero.1 h0 n hnW
  have hnew : ∀ p, p ∈ nq ∨ p ∈ na ↔ p ∈ E.par n ∧ r p = ((E.par n).count p : Int) := fun p => by
    rw [h6, h7]; cases E.hasDeriv p <;> simp
  have hold : ∀ p, p ∈ E.par n → r p ≠ 0 := fun p hp => by
    have := List.count_pos_iff.2 hp
    have := hcnt p; omega
  have hpm : ((o ++ [n]) ++ ((q ++ nq) ++ (ax ++ na))).Perm ((nq ++ na) ++ (o ++ (n :: q ++ ax))) := by
    apply List.perm_iff_count.2
    intro a; simp only [List.count_append, List.count_cons, List.count_nil, List.cons_append]; omega
  refine ⟨W', ?_⟩
  rw [h1, h2]
  refine ⟨?_, ?_, ?_, ?_, ?_, ?_, ?_⟩
  · rw [hpm.nodup_iff, List.nodup_append]
    refine ⟨?_, hi.nodup, ?_⟩
    · rw [List.nodup_append]
      refine ⟨h4, h5, ?_⟩
      intro a ha b hb e; subst e
      have := ((h6 a).1 ha).1; have := ((h7 a).1 hb).1; simp_all
    · intro a ha b hb e; subst e
      have := (hnew a).1 (List.mem_append.1 ha)
      exact hold a this.1 ((hi.mem a).1 hb).2
  · have := hi.perm.trans (hW'.append_left o)
    simpa using this
  · intro p; rw [h3, hcnt]; omega
  · intro p
    rw [hpm.mem_iff, List.mem_append, List.mem_append (s := nq), hnew, hi.mem, h3]
    by_cases hp : p ∈ E.par n
    · have h1 := hclosed n hn0.1 p hp
      have h2 := hold p hp
      simp only [hp, h1, true_and]
      omega
    · rw [List.count_eq_zero_of_not_mem hp]
      simp [hp]
  · intro pre m post e x hx hm
    rcases List.append_eq_append_iff.1 e with ⟨as, ha, hb⟩ | ⟨bs, ha, hb⟩
    · cases as with
      | nil =>
        simp at hb ha
        obtain ⟨rfl, rfl⟩ := hb
        subst ha
        have h0 : refs E.par W n = 0 := by have := hi.cnt n; rw [hn0.2] at this; omega
        rcases List.mem_append.1 (hi.perm.mem_iff.1 hx) with h | h
        · exact h
        · exact absurd hm (refs_zero.1 h0 x h)
      | cons b as => simp at hb
    · cases bs with
      | nil =>
        simp at hb ha
        obtain ⟨rfl, rfl⟩ := hb
        subst ha
        have h0 : refs E.par W m = 0 := by have := hi.cnt m; rw [hn0.2] at this; omega
        rcases List.mem_append.1 (hi.perm.mem_iff.1 hx) with h | h
        · exact h
        · exact absurd hm (refs_zero.1 h0 x h)
      | cons b bs =>
        simp at hb
        obtain ⟨rfl, rfl⟩ := hb
        exact hi.order pre m bs ha x hx hm
  · intro m hm
    rcases List.mem_append.1 hm with h | h
    · exact hi.deriv m h
    · exact ((h7 m).1 h).1
  · intro m hm hd
    have hm' : m ∈ o ++ n :: q ∨ m ∈ nq := by simp at hm ⊢; grind
    rcases hm' with h | h
    · exact hi.noax m h hd
    · have := ((h6 m).1 h).1; simp_all

theorem tsLoop_spec (V roots : List Nat) (hclosed : ∀ n ∈ V, ∀ p ∈ E.par n, p ∈ V) :
    ∀ k o q ax r W l, TsInv E V roots o q ax r W → E.tsLoop k o q ax r = some l →
    ∃ o' ax' r' W', l = o' ++ ax' ∧ TsInv E V roots o' [] ax' r' W' := by
  intro k
  induction k with
  | zero => intro _ _ _ _ _ _ _ h; simp [tsLoop] at h
  | succ k ih =>
    intro o q ax r W l hi h
    cases q with
    | nil =>
      simp [tsLoop] at h
      exact ⟨o, ax, r, W, h.symm, hi⟩
    | cons n q =>
      simp only [tsLoop] at h
      obtain ⟨W', hW'⟩ := ts_step E V roots hclosed hi
      exact ih _ _ _ _ W' l hW' h

theorem tsLoop_total (V roots : List Nat) (hclosed : ∀ n ∈ V, ∀ p ∈ E.par n, p ∈ V) :
    ∀ k o q ax r W, TsInv E V roots o q ax r W → V.length < k + o.length → ∃ l, E.tsLoop k o q ax r = some l := by
  intro k
  induction k with
  | zero => intro o q ax r W hi h; have := hi.perm.length_eq; simp at this; omega
  | succ k ih =>
    intro o q ax r W hi h
    cases q with
    | nil => exact ⟨o ++ ax, by simp [tsLoop]⟩
    | cons n q =>
      simp only [tsLoop]
      obtain ⟨W', hW'⟩ := ts_step E V roots hclosed hi
      exact ih _ _ _ _ W' hW' (by simp; omega)

/-- Everything that was extracted is listed. -/
theorem ts_final (hlt : ∀ n, ∀ p ∈ E.par n, p < n) (hax : ∀ n, E.hasDeriv n = false → E.par n = []) {V roots o ax r W}
    (hV : V.Nodup) (hi : TsInv E V roots o [] ax r W) : (o ++ ax).Perm V := by
  obtain ⟨N, hN⟩ : ∃ N, ∀ v ∈ V, v < N := by
    clear hi hV
    induction V with
    | nil => exact ⟨0, by simp⟩
    | cons a V ih =>
      obtain ⟨N, hN⟩ := ih
      refine ⟨max N (a+1), ?_⟩
      intro v hv
      rcases List.mem_cons.1 hv with rfl | hv
      · omega
      · have := hN v hv; omega
  have hWV : ∀ v ∈ W, v ∈ V := fun v hv => hi.perm.mem_iff.2 (List.mem_append_right _ hv)
  have hnd := hi.perm.nodup_iff.1 hV
  have main : ∀ d, ∀ v ∈ W, N - v ≤ d → v ∈ ax := by
    intro d
    induction d with
    | zero => intro v hv h; have := hN v (hWV v hv); omega
    | succ d ih =>
      intro v hv h
      by_cases h0 : refs E.par W v = 0
      · have : v ∈ o ++ ([] ++ ax) := (hi.mem v).2 ⟨hWV v hv, by rw [hi.cnt, h0]; rfl⟩
        rcases List.mem_append.1 this with h | h
        · exact absurd rfl ((List.nodup_append.1 hnd).2.2 v h v hv)
        · simpa using h
      · rw [refs_zero] at h0
        push Not at h0
        obtain ⟨m, hm, hvm⟩ := h0
        have hlt' := hlt m v hvm
        have hmN := hN m (hWV m hm)
        have := ih m hm (by omega)
        rw [hax m (hi.deriv m this)] at hvm
        simp at hvm
  refine (List.perm_ext_iff_of_nodup (by simpa using hi.nodup) hV).2 fun a => ⟨fun h => ((hi.mem a).1 (by simpa using h)).1, fun h => ?_⟩
  rcases List.mem_append.1 (hi.perm.mem_iff.1 h) with h | h
  · exact List.mem_append_left _ h
  · exact List.mem_append_right _ (main _ a h le_rfl)

/-- The invariant holds at the beginning. -/
theorem ts_init {roots V r} (hr : roots.Nodup) (h : ExInv E roots V [] V r) :
    TsInv E V roots [] (roots.filter fun n => r n == 0) [] r V where
  nodup := by simpa using hr.filter _
  perm := by simp
  cnt := h.cnt
  mem p := by
    simp only [List.nil_append, List.append_nil, List.mem_filter, beq_iff_eq]
    refine ⟨fun hp => ⟨h.base p hp.1, hp.2⟩, fun hp => ⟨?_, hp.2⟩⟩
    rcases h.src p hp.1 with h' | ⟨m, hm, hpm⟩
    · exact h'
    · have h0 : refs E.par V p = 0 := by have := h.cnt p; rw [hp.2] at this; omega
      exact absurd hpm (refs_zero.1 h0 m hm)
  order pre n post e := by simp at e
  deriv n hn := by simp at hn
  noax n hn _ := by simp at hn; exact hn.1

theorem ex_init {roots : List Nat} (hr : roots.Nodup) : ExInv E roots roots roots.reverse [] (fun _ => 0) where
  nodup := by simpa using hr
  mem n := by simp
  cnt p := by simp [refs]
  closed n hn := by simp at hn
  base n hn := hn
  src n hn := Or.inl hn

end Verif.DerivationProof
