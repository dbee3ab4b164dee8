import Verif.Clauses.OverlapIter
import Mathlib.Data.List.Basic
import Mathlib.Data.List.Nodup

/-!
# Enumeration of the overlaps of two clauses: proofs
-/

namespace Verif
namespace OverlapIter

/-! ## Linked lists of states -/

section chain
variable {S : Type}

/-- `next` runs through the list and then gives `e`. -/
def ChainTo (next : S → Option S) : List S → Option S → Prop
  | [], _ => True
  | a :: l, e => next a = l.head?.or e ∧ ChainTo next l e

theorem ChainTo.append {next : S → Option S} {l₁ l₂ : List S} {e : Option S} (h₁ : ChainTo next l₁ (l₂.head?.or e)) (h₂ : ChainTo next l₂ e) : ChainTo next (l₁ ++ l₂) e := by
  induction l₁ with
  | nil => exact h₂
  | cons a l ih =>
    refine ⟨?_, ih h₁.2⟩
    show next a = (l ++ l₂).head?.or e
    rw [h₁.1, List.head?_append, Option.or_assoc]

theorem ChainTo.suffix {next : S → Option S} {l₁ l₂ : List S} {e : Option S} (h : ChainTo next (l₁ ++ l₂) e) : ChainTo next l₂ e := by
  induction l₁ with
  | nil => exact h
  | cons a l ih => exact ih h.2

theorem chain_map {S' : Type} {next : S → Option S} {next' : S' → Option S'} {g : S → S'} {l : List S} {e : Option S} {e' : Option S'} (h : ChainTo next l e)
    (hs : ∀ a b, next a = some b → next' (g a) = some (g b)) (he : ∀ a, a ∈ l → next a = none → next' (g a) = e') (hn : e = none) : ChainTo next' (l.map g) e' := by
  subst hn
  induction l with
  | nil => trivial
  | cons a l ih =>
    obtain ⟨h1, h2⟩ := h
    refine ⟨?_, ih (fun a ha => he a (.tail _ ha)) h2⟩
    cases l with
    | nil => exact he a (.head _) (by simpa using h1)
    | cons b l => exact hs a b (by simpa using h1)

theorem chain_flatMap {S' : Type} {next : S → Option S} {next' : S' → Option S'} {blk : S → List S'} {enter : S → Option S'} {l : List S} (h : ChainTo next l none)
    (hh : ∀ a ∈ l, (blk a).head? = enter a) (he : ∀ a ∈ l, (enter a).isSome)
    (hb : ∀ a ∈ l, ChainTo next' (blk a) ((next a).bind enter)) : ChainTo next' (l.flatMap blk) none ∧ (l.flatMap blk).head? = l.head?.bind enter := by
  induction l with
  | nil => exact ⟨trivial, rfl⟩
  | cons a l ih =>
    obtain ⟨i1, i2⟩ := ih h.2 (fun a ha => hh a (.tail _ ha)) (fun a ha => he a (.tail _ ha)) fun a ha => hb a (.tail _ ha)
    constructor
    · rw [List.flatMap_cons]
      refine ChainTo.append ?_ i1
      have := hb a (.head _)
      rw [h.1] at this
      rw [i2]
      simpa using this
    · rw [List.flatMap_cons, List.head?_append, hh a (.head _)]
      have := he a (.head _)
      cases h : enter a with
      | none => simp [h] at this
      | some b => simp [h]

theorem skip_eq {next : S → Option S} {bad : S → Bool} {l : List S} {k : Nat} (h : ChainTo next l none) (hk : l.length ≤ k) :
    skipBad next bad k l.head? = some (l.filter fun a => !bad a).head? := by
  induction l generalizing k with
  | nil => cases k <;> rfl
  | cons a l ih =>
    cases k with
    | zero => simp at hk
    | succ k =>
      simp only [List.head?_cons, skipBad]
      cases hb : bad a with
      | false => simp [hb]
      | true =>
        have h1 := h.1
        rw [Option.or_none] at h1
        rw [if_pos rfl, h1, ih h.2 (by simpa using hk)]
        simp [hb]

/-- The skipping step from an element of the filtered list. -/
theorem skip_step {next : S → Option S} {bad : S → Bool} {l : List S} {k : Nat} (h : ChainTo next l none) (hk : l.length ≤ k) {pre suf : List S} {a : S}
    (hl : (l.filter fun a => !bad a) = pre ++ a :: suf) : skipBad next bad k (next a) = some suf.head? := by
  induction l generalizing pre with
  | nil => simp at hl
  | cons b l ih =>
    cases hb : bad b with
    | true =>
      rw [List.filter_cons_of_neg (by simp [hb])] at hl
      exact ih h.2 (by simp at hk; omega) hl
    | false =>
      rw [List.filter_cons_of_pos (by simp [hb])] at hl
      cases pre with
      | nil =>
        simp only [List.nil_append, List.cons.injEq] at hl
        obtain ⟨rfl, hl⟩ := hl
        have h1 := h.1
        rw [Option.or_none] at h1
        rw [h1, skip_eq h.2 (by simp at hk; omega), hl]
      | cons c pre =>
        simp only [List.cons_append, List.cons.injEq] at hl
        exact ih h.2 (by simp at hk; omega) hl.2

end chain

/-! ## Positions of a term -/

mutual
/-- Subterms and positions, innermost and leftmost first. -/
def posts : Term → PosStack → List (Term × PosStack)
  | .var x, st => [(.var x, st)]
  | .app f ts, st => postsArgs (.app f ts) st ts 0 ++ [(.app f ts, st)]
/-- The same for the arguments from number `i` on. -/
def postsArgs (sup : Term) (st : PosStack) : List Term → Nat → List (Term × PosStack)
  | [], _ => []
  | t :: ts, i => posts t ((sup, i) :: st) ++ postsArgs sup st ts (i + 1)
end

theorem posts_head (t : Term) : ∀ st, (posts t st).head? = some (firstLI t st) := by
  refine Term.ind (P := fun t => ∀ st, (posts t st).head? = some (firstLI t st)) ?_ ?_ t
  · intro x st; simp [posts, firstLI]
  · intro f ts ih st
    cases ts with
    | nil => simp [posts, postsArgs, firstLI]
    | cons t ts => simp [posts, postsArgs, firstLI, List.head?_append, ih t (.head _)]

/-- The step on subterms with positions. -/
def nextPos (q : Term × PosStack) : Option (Term × PosStack) := nextLI q.2

theorem posts_chain (t : Term) : ∀ st, ChainTo nextPos (posts t st) (nextLI st) := by
  refine Term.ind (P := fun t => ∀ st, ChainTo nextPos (posts t st) (nextLI st)) ?_ ?_ t
  · intro x st; exact ⟨by simp [nextPos], trivial⟩
  · intro f ts ih st
    have key : ∀ (us pre : List Term), ts = pre ++ us → ChainTo nextPos (postsArgs (.app f ts) st us pre.length) (some (.app f ts, st)) := by
      intro us
      induction us with
      | nil => intro pre _; simp [postsArgs, ChainTo]
      | cons u us ihu =>
        intro pre hp
        have h2 := ihu (pre ++ [u]) (by simp [hp])
        rw [List.length_append, List.length_singleton] at h2
        rw [postsArgs]
        refine ChainTo.append ?_ h2
        have h1 := ih u (by rw [hp]; simp) ((.app f ts, pre.length) :: st)
        have : nextLI ((.app f ts, pre.length) :: st) = (postsArgs (.app f ts) st us (pre.length + 1)).head?.or (some (.app f ts, st)) := by
          rw [nextLI]
          show (if pre.length + 1 < ts.length then (match ts[pre.length + 1]? with
            | some u => some (firstLI u ((.app f ts, pre.length + 1) :: st))
            | none => none) else some (.app f ts, st)) = _
          cases us with
          | nil => simp [hp, postsArgs]
          | cons w us =>
            have hw : ts[pre.length + 1]? = some w := by rw [hp]; simp
            rw [if_pos (by rw [hp]; simp), hw]
            simp [postsArgs, List.head?_append, posts_head]
        rwa [this] at h1
    rw [posts]
    refine ChainTo.append (by simpa using key ts [] rfl) ⟨by simp [nextPos], trivial⟩

theorem mem_postsArgs {sup : Term} {st : PosStack} {us : List Term} {i : Nat} {q : Term × PosStack} : q ∈ postsArgs sup st us i ↔ ∃ j u, us[j]? = some u ∧ q ∈ posts u ((sup, i + j) :: st) := by
  induction us generalizing i with
  | nil => simp [postsArgs]
  | cons u us ih =>
    rw [postsArgs, List.mem_append, ih]
    constructor
    · rintro (h | ⟨j, u', h1, h2⟩)
      · exact ⟨0, u, rfl, h⟩
      · exact ⟨j + 1, u', by simpa using h1, by rw [show i + (j + 1) = i + 1 + j by omega]; exact h2⟩
    · rintro ⟨j, u', h1, h2⟩
      cases j with
      | zero =>
        simp only [List.getElem?_cons_zero, Option.some.injEq] at h1
        subst h1
        exact .inl h2
      | succ j => exact .inr ⟨j, u', by simpa using h1, by rw [show i + 1 + j = i + (j + 1) by omega]; exact h2⟩

theorem posSubterm_nil (t : Term) : posSubterm t [] = some t := rfl

theorem posSubterm_step {f : Nat} {ts : List Term} {i : Nat} {u : Term} (hu : ts[i]? = some u) (pos : List (Term × Nat)) :
    posSubterm (.app f ts) ((.app f ts, i) :: pos) = posSubterm u pos := by
  cases pos with
  | nil => simp [posSubterm, hu]
  | cons a pos =>
    simp only [posSubterm, List.getLast?_cons_cons]
    cases h : (a :: pos).getLast? with
    | none => simp at h
    | some b => rcases b with ⟨_ | _, j⟩ <;> rfl

theorem mem_posts (t : Term) : ∀ (st : PosStack) (q : Term × PosStack), q ∈ posts t st ↔ ∃ pos, IsPos t pos ∧ posSubterm t pos = some q.1 ∧ q.2 = pos.reverse ++ st := by
  refine Term.ind (P := fun t => ∀ (st : PosStack) (q : Term × PosStack), q ∈ posts t st ↔ ∃ pos, IsPos t pos ∧ posSubterm t pos = some q.1 ∧ q.2 = pos.reverse ++ st) ?_ ?_ t
  · intro x st q
    constructor
    · intro h
      simp only [posts, List.mem_singleton] at h
      subst h
      exact ⟨[], trivial, rfl, rfl⟩
    · rintro ⟨pos, h1, h2, h3⟩
      cases pos with
      | nil =>
        obtain ⟨a, b⟩ := q
        simp only [posSubterm_nil, Option.some.injEq] at h2
        simp only [List.reverse_nil, List.nil_append] at h3
        subst h2 h3
        simp [posts]
      | cons a pos =>
        obtain ⟨_, f, ts, u, h, _⟩ := h1
        simp at h
  · intro f ts ih st q
    rw [posts, List.mem_append, mem_postsArgs, List.mem_singleton]
    constructor
    · rintro (⟨j, u, hu, hq⟩ | rfl)
      · obtain ⟨pos, h1, h2, h3⟩ := (ih u (List.mem_of_getElem? hu) _ _).1 hq
        refine ⟨(.app f ts, j) :: pos, ⟨rfl, f, ts, u, rfl, hu, h1⟩, ?_, ?_⟩
        · rw [posSubterm_step hu, h2]
        · rw [h3]; simp
      · exact ⟨[], trivial, rfl, rfl⟩
    · rintro ⟨pos, h1, h2, h3⟩
      cases pos with
      | nil =>
        right
        obtain ⟨a, b⟩ := q
        simp only [posSubterm_nil, Option.some.injEq] at h2
        simp only [List.reverse_nil, List.nil_append] at h3
        simp [h2, h3]
      | cons a pos =>
        obtain ⟨s, j⟩ := a
        obtain ⟨rfl, f', ts', u, he, hu, hp⟩ := h1
        cases he
        left
        refine ⟨j, u, hu, (ih u (List.mem_of_getElem? hu) _ _).2 ⟨pos, hp, ?_, ?_⟩⟩
        · rw [posSubterm_step hu] at h2; exact h2
        · rw [h3]; simp

theorem posts_nodup (t : Term) : ∀ st, (posts t st).Nodup := by
  refine Term.ind (P := fun t => ∀ st, (posts t st).Nodup) ?_ ?_ t
  · intro x st; simp [posts]
  · intro f ts ih st
    have key : ∀ (us : List Term) (i : Nat), (∀ u ∈ us, u ∈ ts) → (postsArgs (.app f ts) st us i).Nodup := by
      intro us
      induction us with
      | nil => intro i _; simp [postsArgs]
      | cons u us ihu =>
        intro i hs
        rw [postsArgs, List.nodup_append]
        refine ⟨ih u (hs u (.head _)) _, ihu (i + 1) fun u hu => hs u (.tail _ hu), ?_⟩
        rintro a ha b hb rfl
        obtain ⟨j, w, _, hb⟩ := mem_postsArgs.1 hb
        obtain ⟨p, _, _, h1⟩ := (mem_posts u _ _).1 ha
        obtain ⟨p', _, _, h2⟩ := (mem_posts w _ _).1 hb
        rw [h1] at h2
        have := (List.append_inj' h2 (by simp)).2
        simp only [List.cons.injEq, Prod.mk.injEq] at this
        omega
    rw [posts, List.nodup_append]
    refine ⟨key ts 0 fun u hu => hu, by simp, ?_⟩
    rintro a ha b hb rfl
    rw [List.mem_singleton] at hb
    subst hb
    obtain ⟨j, w, _, hb⟩ := mem_postsArgs.1 ha
    obtain ⟨p, _, _, h1⟩ := (mem_posts w _ _).1 hb
    have := congrArg List.length h1
    simp at this
    omega

/-! ## Sides of a clause -/

/-- The sides of the literals with property `p`. -/
def sidesFrom (p : XLit → Bool) : List XLit → Nat → List IPos
  | [], _ => []
  | L :: C, i => (if p L then ⟨i, false, []⟩ :: (if L.oriented then [] else [⟨i, true, []⟩]) else []) ++ sidesFrom p C (i + 1)

theorem sidesFrom_head (p : XLit → Bool) (C : List XLit) (i : Nat) : (sidesFrom p C i).head? = (findLitFrom p C i).map fun i => ⟨i, false, []⟩ := by
  induction C generalizing i with
  | nil => rfl
  | cons L C ih =>
    simp only [sidesFrom, findLitFrom]
    split <;> simp [ih]

theorem sides_chain (positive : Bool) (C : List XLit) : ChainTo (findNextMaxSide C positive) (sidesFrom (fun L => L.maximal && (!positive || L.lit.pos)) C 0) none := by
  have key : ∀ (D pre : List XLit), C = pre ++ D → ChainTo (findNextMaxSide C positive) (sidesFrom (fun L => L.maximal && (!positive || L.lit.pos)) D pre.length) none := by
    intro D
    induction D with
    | nil => intro pre _; trivial
    | cons L D ih =>
      intro pre hp
      have h2 := ih (pre ++ [L]) (by simp [hp])
      rw [List.length_append, List.length_singleton] at h2
      have hL : C[pre.length]? = some L := by rw [hp]; simp
      have hd : C.drop (pre.length + 1) = D := by rw [hp]; simp [List.drop_append]
      have hn : ∀ r, (r = true ∨ L.oriented = true) → findNextMaxSide C positive ⟨pre.length, r, []⟩ =
          (sidesFrom (fun L => L.maximal && (!positive || L.lit.pos)) D (pre.length + 1)).head? := by
        intro r hr
        have : (!r && !L.oriented) = false := by rcases hr with h | h <;> simp [h]
        simp only [findNextMaxSide, hL, this, Bool.false_eq_true, if_false, findMaxLit, hd, sidesFrom_head]
      rw [sidesFrom]
      refine ChainTo.append ?_ h2
      rw [Option.or_none]
      split
      · cases ho : L.oriented with
        | true => exact ⟨by simpa using hn false (.inr ho), trivial⟩
        | false =>
          refine ⟨?_, by simpa using hn true (.inl rfl), trivial⟩
          simp [findNextMaxSide, hL, ho]
      · trivial
  exact key C [] rfl

theorem mem_sidesFrom {p : XLit → Bool} {C : List XLit} {i : Nat} {q : IPos} : q ∈ sidesFrom p C i ↔
    q.pos = [] ∧ ∃ j L, q.lit = i + j ∧ C[j]? = some L ∧ p L = true ∧ (q.right = true → L.oriented = false) := by
  induction C generalizing i with
  | nil => simp [sidesFrom]
  | cons L C ih =>
    rw [sidesFrom, List.mem_append, ih]
    obtain ⟨n, r, ps⟩ := q
    constructor
    · rintro (h | ⟨h0, j, L', h1, h2, h3⟩)
      · split at h
        · rename_i hp
          cases ho : L.oriented with
          | true =>
            simp only [ho, if_true, List.mem_singleton, IPos.mk.injEq] at h
            obtain ⟨rfl, rfl, rfl⟩ := h
            exact ⟨rfl, 0, L, rfl, rfl, hp, by simp⟩
          | false =>
            simp only [ho, Bool.false_eq_true, if_false, List.mem_cons, List.not_mem_nil, or_false, IPos.mk.injEq] at h
            rcases h with ⟨rfl, rfl, rfl⟩ | ⟨rfl, rfl, rfl⟩ <;> exact ⟨rfl, 0, L, rfl, rfl, hp, fun _ => ho⟩
        · simp at h
      · refine ⟨h0, j + 1, L', ?_, by simpa using h2, h3⟩
        rw [h1]; omega
    · rintro ⟨rfl, j, L', h1, h2, h3, h4⟩
      cases j with
      | zero =>
        simp only [List.getElem?_cons_zero, Option.some.injEq] at h2
        subst h2
        left
        simp only [Nat.add_zero] at h1
        subst h1
        rw [if_pos h3]
        cases r with
        | false => simp
        | true => simp [h4 rfl]
      | succ j =>
        refine .inr ⟨rfl, j, L', ?_, by simpa using h2, h3, h4⟩
        rw [h1]; omega

theorem sidesFrom_nodup (p : XLit → Bool) (C : List XLit) (i : Nat) : (sidesFrom p C i).Nodup := by
  induction C generalizing i with
  | nil => simp [sidesFrom]
  | cons L C ih =>
    rw [sidesFrom, List.nodup_append]
    refine ⟨?_, ih _, ?_⟩
    · split
      · cases L.oriented <;> simp
      · simp
    · rintro a ha b hb rfl
      obtain ⟨_, j, _, h, _⟩ := mem_sidesFrom.1 hb
      have : a.lit = i := by
        split at ha
        · cases ho : L.oriented <;> simp only [ho, if_true, Bool.false_eq_true, if_false, List.mem_cons, List.not_mem_nil, or_false] at ha
          · rcases ha with rfl | rfl <;> rfl
          · rw [ha]
        · simp at ha
      omega

/-! ## Positions of a clause -/

/-- The side of a position. -/
def sideOf (C : List XLit) (q : IPos) : Option Term := (C[q.lit]?).map fun L => L.side q.right

/-- The subterms of a side. -/
def sidePosts (C : List XLit) (q : IPos) : List (Term × IPos) :=
  match C[q.lit]? with
  | none => []
  | some L => (posts (L.side q.right) []).map fun r => (r.1, ⟨q.lit, q.right, r.2⟩)

/-- The subterms of maximal sides of maximal literals. -/
def maxPosts (C : List XLit) : List (Term × IPos) := (sidesFrom (fun L => L.maximal && (!false || L.lit.pos)) C 0).flatMap (sidePosts C)

theorem maxPosts_chain (C : List XLit) : ChainTo (findNextMaxSubterm C) (maxPosts C) none ∧ (maxPosts C).head? = findFirstMaxSubterm C := by
  have := chain_flatMap (next' := findNextMaxSubterm C) (blk := sidePosts C) (enter := enterSide C) (sides_chain false C) ?_ ?_ ?_
  · refine ⟨this.1, ?_⟩
    rw [maxPosts, this.2, sidesFrom_head]
    rfl
  · intro a ha
    obtain ⟨_, j, L, h1, h2, _⟩ := mem_sidesFrom.1 ha
    have hL : C[a.lit]? = some L := by rw [h1, Nat.zero_add]; exact h2
    simp [sidePosts, enterSide, hL, List.head?_map, posts_head]
  · intro a ha
    obtain ⟨_, j, L, h1, h2, _⟩ := mem_sidesFrom.1 ha
    have hL : C[a.lit]? = some L := by rw [h1, Nat.zero_add]; exact h2
    simp [enterSide, hL]
  · intro a ha
    obtain ⟨_, j, L, h1, h2, _⟩ := mem_sidesFrom.1 ha
    have hL : C[a.lit]? = some L := by rw [h1, Nat.zero_add]; exact h2
    simp only [sidePosts, hL]
    refine chain_map (posts_chain (L.side a.right) []) ?_ ?_ rfl
    · intro x y hxy
      simp only [nextPos] at hxy
      simp [findNextMaxSubterm, hxy]
    · intro x _ hx
      simp only [nextPos] at hx
      simp [findNextMaxSubterm, hx, findNextMaxSide]

theorem mem_maxPosts {C : List XLit} {u : Term} {q : IPos} : (u, q) ∈ maxPosts C ↔ ∃ L, C[q.lit]? = some L ∧ L.maximal = true ∧ (q.right = true → L.oriented = false) ∧
    IsPos (L.side q.right) q.pos.reverse ∧ posSubterm (L.side q.right) q.pos.reverse = some u := by
  rw [maxPosts, List.mem_flatMap]
  constructor
  · rintro ⟨a, ha, hq⟩
    obtain ⟨h0, j, L, h1, h2, h3, h4⟩ := mem_sidesFrom.1 ha
    have hL : C[a.lit]? = some L := by rw [h1, Nat.zero_add]; exact h2
    simp only [sidePosts, hL, List.mem_map] at hq
    obtain ⟨r, hr, he⟩ := hq
    obtain ⟨pos, p1, p2, p3⟩ := (mem_posts _ _ _).1 hr
    simp only [Prod.mk.injEq] at he
    obtain ⟨rfl, rfl⟩ := he
    rw [List.append_nil] at p3
    refine ⟨L, hL, by simpa using h3, h4, ?_, ?_⟩
    · simpa [p3] using p1
    · simpa [p3] using p2
  · rintro ⟨L, hL, hm, ho, hp, hs⟩
    refine ⟨⟨q.lit, q.right, []⟩, mem_sidesFrom.2 ⟨rfl, q.lit, L, by simp, hL, by simpa using hm, ho⟩, ?_⟩
    simp only [sidePosts, hL, List.mem_map]
    exact ⟨(u, q.pos), (mem_posts _ _ _).2 ⟨q.pos.reverse, hp, hs, by simp⟩, rfl⟩

theorem maxPosts_nodup (C : List XLit) : (maxPosts C).Nodup := by
  rw [maxPosts, List.nodup_flatMap]
  constructor
  · intro a ha
    rw [sidePosts]
    split
    · simp
    · refine List.Nodup.map ?_ (posts_nodup _ _)
      rintro ⟨a1, a2⟩ ⟨b1, b2⟩ h
      simp only [Prod.mk.injEq, IPos.mk.injEq, true_and] at h
      rw [h.1, h.2]
  · refine List.Pairwise.imp_of_mem ?_ (sidesFrom_nodup _ _ _)
    rintro ⟨i, r, p⟩ ⟨i', r', p'⟩ ha hb hne x hx hx'
    have h1 := (mem_sidesFrom.1 ha).1
    have h2 := (mem_sidesFrom.1 hb).1
    simp only at h1 h2
    subst h1 h2
    refine hne ?_
    simp only [sidePosts] at hx hx'
    split at hx
    · simp at hx
    · split at hx'
      · simp at hx'
      · simp only [List.mem_map] at hx hx'
        obtain ⟨_, _, rfl⟩ := hx
        obtain ⟨_, _, h⟩ := hx'
        simp only [Prod.mk.injEq, IPos.mk.injEq] at h
        rw [h.2.1, h.2.2.1]

/-! ## Negative literals -/

/-- The left sides of the maximal negative literals. -/
def negSides : List XLit → Nat → List (Term × IPos)
  | [], _ => []
  | L :: C, i => (if L.maximal && !L.lit.pos then [(L.lit.l, ⟨i, false, []⟩)] else []) ++ negSides C (i + 1)

theorem mem_negSides {C : List XLit} {i : Nat} {u : Term} {q : IPos} : (u, q) ∈ negSides C i ↔
    ∃ j L, q = ⟨i + j, false, []⟩ ∧ C[j]? = some L ∧ L.maximal = true ∧ L.lit.pos = false ∧ u = L.lit.l := by
  induction C generalizing i with
  | nil => simp [negSides]
  | cons L C ih =>
    rw [negSides, List.mem_append, ih]
    constructor
    · rintro (h | ⟨j, L', h1, h2, h3⟩)
      · split at h
        · rename_i hp
          simp only [List.mem_singleton, Prod.mk.injEq] at h
          simp only [Bool.and_eq_true, Bool.not_eq_true'] at hp
          exact ⟨0, L, h.2, rfl, hp.1, hp.2, h.1⟩
        · simp at h
      · exact ⟨j + 1, L', by rw [h1, show i + 1 + j = i + (j + 1) by omega], by simpa using h2, h3⟩
    · rintro ⟨j, L', h1, h2, h3, h4, h5⟩
      cases j with
      | zero =>
        simp only [List.getElem?_cons_zero, Option.some.injEq] at h2
        subst h2
        left
        simp [h3, h4, h5, h1]
      | succ j => exact .inr ⟨j, L', by rw [h1, show i + 1 + j = i + (j + 1) by omega], by simpa using h2, h3, h4, h5⟩

theorem negSides_nodup (C : List XLit) (i : Nat) : (negSides C i).Nodup := by
  induction C generalizing i with
  | nil => simp [negSides]
  | cons L C ih =>
    rw [negSides, List.nodup_append]
    refine ⟨by split <;> simp, ih _, ?_⟩
    rintro a ha b hb rfl
    obtain ⟨u, q⟩ := a
    obtain ⟨j, _, h, _⟩ := mem_negSides.1 hb
    split at ha
    · simp only [List.mem_singleton, Prod.mk.injEq] at ha
      rw [ha.2] at h
      simp only [IPos.mk.injEq] at h
      omega
    · simp at ha

theorem negSides_head {C D pre : List XLit} (h : C = pre ++ D) : (negSides D pre.length).head? = findNegMaxLside C pre.length := by
  have key : ∀ (D pre : List XLit), C = pre ++ D → (negSides D pre.length).head? =
      match findLitFrom (fun L => L.maximal && !L.lit.pos) D pre.length with
      | none => none
      | some j => (C[j]?).map fun L => (L.lit.l, (⟨j, false, []⟩ : IPos)) := by
    intro D
    induction D with
    | nil => intro pre _; rfl
    | cons L D ih =>
      intro pre h
      have h2 := ih (pre ++ [L]) (by simp [h])
      rw [List.length_append, List.length_singleton] at h2
      have hL : C[pre.length]? = some L := by rw [h]; simp
      simp only [negSides, findLitFrom]
      split
      · simp [hL]
      · simpa using h2
  have hd : C.drop pre.length = D := by rw [h]; simp
  rw [findNegMaxLside, hd, key D pre h]
  cases findLitFrom (fun L => L.maximal && !L.lit.pos) D pre.length <;> rfl

theorem negSides_chain (C : List XLit) : ChainTo (fun q => findNegMaxLside C (q.2.lit + 1)) (negSides C 0) none := by
  have key : ∀ (D pre : List XLit), C = pre ++ D → ChainTo (fun q : Term × IPos => findNegMaxLside C (q.2.lit + 1)) (negSides D pre.length) none := by
    intro D
    induction D with
    | nil => intro pre _; trivial
    | cons L D ih =>
      intro pre h
      have h' : C = (pre ++ [L]) ++ D := by simp [h]
      have h2 := ih (pre ++ [L]) h'
      have h3 := negSides_head h'
      rw [List.length_append, List.length_singleton] at h2 h3
      rw [negSides]
      refine ChainTo.append ?_ h2
      rw [h3, Option.or_none]
      split
      · exact ⟨rfl, trivial⟩
      · trivial
  exact key C [] rfl

/-! ## Pairs -/

/-- The positions visited for one side. -/
def intoAll (T : List XLit) (equ : Bool) : List (Term × IPos) := if equ then maxPosts T else negSides T 0

/-- The positions tried for one side. -/
def intoList (T : List XLit) (equ noTop : Bool) (ft : Term) : List (Term × IPos) := (intoAll T equ).filter fun q => !noParamodPos T noTop ft q

/-- The sides tried. -/
def fromList (F : List XLit) (nonEq : Bool) : List IPos := (sidesFrom (fun L => L.maximal && (!true || L.lit.pos)) F 0).filter fun q => !badFrom F nonEq q

/-- The pairs with one side. -/
def pairBlock (F T : List XLit) (noTop : Bool) (f : IPos) : List (IPos × Term × IPos) := (intoList T (fromInfo F f).2 noTop (fromInfo F f).1).map fun t => (f, t)

/-- A sufficient number of rounds. -/
def rounds (F T : List XLit) : Nat := (sidesFrom (fun L => L.maximal && (!true || L.lit.pos)) F 0).length + (maxPosts T).length + (negSides T 0).length

theorem into_chain (T : List XLit) (equ : Bool) : ChainTo (intoStep T equ) (intoAll T equ) none ∧ (intoAll T equ).head? = (if equ then findFirstMaxSubterm T else findNegMaxLside T 0) := by
  cases equ with
  | true =>
    have := maxPosts_chain T
    exact ⟨by simpa [intoAll, show intoStep T true = findNextMaxSubterm T from rfl] using this.1, by simpa [intoAll] using this.2⟩
  | false =>
    refine ⟨?_, ?_⟩
    · have := negSides_chain T
      simpa [intoAll, show intoStep T false = fun q => findNegMaxLside T (q.2.lit + 1) from rfl] using this
    · simpa [intoAll] using negSides_head (C := T) (D := T) (pre := []) rfl

theorem into_length {k : Nat} {F T : List XLit} (hk : rounds F T ≤ k) (equ : Bool) : (intoAll T equ).length ≤ k := by
  unfold rounds at hk
  unfold intoAll
  split <;> omega

theorem firstInto_eq {k : Nat} {F T : List XLit} (hk : rounds F T ≤ k) (equ noTop : Bool) (ft : Term) : firstInto k T equ noTop ft = some (intoList T equ noTop ft).head? := by
  rw [firstInto, ← (into_chain T equ).2, skip_eq (into_chain T equ).1 (into_length hk equ), intoList]

theorem nextInto_eq {k : Nat} {F T : List XLit} (hk : rounds F T ≤ k) {equ noTop : Bool} {ft : Term} {pre suf : List (Term × IPos)} {q : Term × IPos}
    (h : intoList T equ noTop ft = pre ++ q :: suf) : nextInto k T equ noTop ft q = some suf.head? :=
  skip_step (into_chain T equ).1 (into_length hk equ) h

theorem firstFrom_eq {k : Nat} {F T : List XLit} (hk : rounds F T ≤ k) (nonEq : Bool) : firstFrom k F nonEq = some (fromList F nonEq).head? := by
  have h : findFirstMaxSide F true = (sidesFrom (fun L => L.maximal && (!true || L.lit.pos)) F 0).head? := by
    rw [sidesFrom_head]; rfl
  rw [firstFrom, h, skip_eq (sides_chain true F) (by unfold rounds at hk; omega), fromList]

theorem nextFrom_eq {k : Nat} {F T : List XLit} (hk : rounds F T ≤ k) {nonEq : Bool} {pre suf : List IPos} {q : IPos} (h : fromList F nonEq = pre ++ q :: suf) :
    nextFrom k F nonEq q = some suf.head? :=
  skip_step (sides_chain true F) (by unfold rounds at hk; omega) h

theorem pairLoop_eq {k : Nat} {F T : List XLit} (hk : rounds F T ≤ k) {nonEq noTop : Bool} {fs pre : List IPos} (h : fromList F nonEq = pre ++ fs) {m : Nat} (hm : fs.length ≤ m) :
    pairLoop k F T nonEq noTop m fs.head? = some (fs.flatMap (pairBlock F T noTop)).head? := by
  induction fs generalizing pre m with
  | nil => cases m <;> rfl
  | cons f fs ih =>
    cases m with
    | zero => simp at hm
    | succ m =>
      simp only [List.head?_cons, pairLoop, firstInto_eq hk]
      rw [List.flatMap_cons, List.head?_append]
      cases hi : intoList T (fromInfo F f).2 noTop (fromInfo F f).1 with
      | nil =>
        simp only [List.head?_nil, nextFrom_eq hk h]
        rw [ih (pre := pre ++ [f]) (by simp [h]) (by simp at hm; omega)]
        simp [pairBlock, hi]
      | cons t ts => simp [pairBlock, hi]

theorem fromList_length {k : Nat} {F T : List XLit} (hk : rounds F T ≤ k) (nonEq : Bool) : (fromList F nonEq).length ≤ k := by
  have := List.length_filter_le (fun q => !badFrom F nonEq q) (sidesFrom (fun L => L.maximal && (!true || L.lit.pos)) F 0)
  unfold rounds at hk
  unfold fromList
  omega

theorem firstPair_eq {k : Nat} {F T : List XLit} (hk : rounds F T ≤ k) (nonEq noTop : Bool) :
    firstPair k F T nonEq noTop = some ((fromList F nonEq).flatMap (pairBlock F T noTop)).head? := by
  simp only [firstPair, firstFrom_eq hk]
  exact pairLoop_eq hk (pre := []) rfl (fromList_length hk nonEq)

theorem nextPair_eq {k : Nat} {F T : List XLit} (hk : rounds F T ≤ k) {nonEq noTop : Bool} {pre fs : List IPos} {f : IPos} (h : fromList F nonEq = pre ++ f :: fs)
    {p1 p2 : List (Term × IPos)} {q : Term × IPos} (hq : intoList T (fromInfo F f).2 noTop (fromInfo F f).1 = p1 ++ q :: p2) :
    nextPair k F T nonEq noTop (f, q) = some (p2.map (fun t => (f, t)) ++ fs.flatMap (pairBlock F T noTop)).head? := by
  simp only [nextPair, nextInto_eq hk hq]
  cases p2 with
  | cons t ts => simp
  | nil =>
    simp only [List.head?_nil, nextFrom_eq hk h]
    rw [pairLoop_eq hk (pre := pre ++ [f]) (by simp [h]) ?_]
    · simp
    · have := fromList_length hk nonEq
      rw [h] at this
      simp at this
      omega

theorem pairsFrom_eq {k : Nat} {F T : List XLit} (hk : rounds F T ≤ k) {nonEq noTop : Bool} (fs : List IPos) : ∀ (pre : List IPos) (f : IPos) (p2 p1 : List (Term × IPos)) (m : Nat),
    fromList F nonEq = pre ++ f :: fs → intoList T (fromInfo F f).2 noTop (fromInfo F f).1 = p1 ++ p2 →
    (p2.map (fun t => (f, t)) ++ fs.flatMap (pairBlock F T noTop)).length ≤ m →
    pairsFrom k F T nonEq noTop m (p2.map (fun t => (f, t)) ++ fs.flatMap (pairBlock F T noTop)).head? = some (p2.map (fun t => (f, t)) ++ fs.flatMap (pairBlock F T noTop)) := by
  induction fs with
  | nil =>
    intro pre f p2
    induction p2 with
    | nil => intro p1 m _ _ _; cases m <;> rfl
    | cons q p2 ih =>
      intro p1 m h hq hm
      cases m with
      | zero => simp at hm
      | succ m =>
        have := ih (p1 ++ [q]) m h (by simp [hq]) (by simp at hm ⊢; omega)
        simp only [List.map_cons, List.cons_append, List.head?_cons, pairsFrom, nextPair_eq hk h hq, this, Option.map_some]
  | cons g fs ihf =>
    intro pre f p2
    induction p2 with
    | nil =>
      intro p1 m h hq hm
      simp only [List.map_nil, List.nil_append, List.flatMap_cons] at hm ⊢
      exact ihf (pre ++ [f]) g _ [] m (by simp [h]) rfl hm
    | cons q p2 ih =>
      intro p1 m h hq hm
      cases m with
      | zero => simp at hm
      | succ m =>
        have := ih (p1 ++ [q]) m h (by simp [hq]) (by simp at hm ⊢; omega)
        simp only [List.map_cons, List.cons_append, List.head?_cons, pairsFrom, nextPair_eq hk h hq, this, Option.map_some]

theorem allPairs_eq {k : Nat} {F T : List XLit} {nonEq noTop : Bool} (hk : rounds F T ≤ k) (hl : ((fromList F nonEq).flatMap (pairBlock F T noTop)).length ≤ k) :
    allPairs k F T nonEq noTop = some ((fromList F nonEq).flatMap (pairBlock F T noTop)) := by
  simp only [allPairs, firstPair_eq hk]
  cases h : fromList F nonEq with
  | nil => cases k <;> rfl
  | cons f fs =>
    rw [h] at hl
    rw [List.flatMap_cons] at hl ⊢
    exact pairsFrom_eq hk fs [] f _ [] k (by simp [h]) rfl hl

/-! ## More rounds -/

section mono
variable {S : Type}

theorem skip_mono {next : S → Option S} {bad : S → Bool} {k : Nat} : ∀ {o : Option S} {r : Option S}, skipBad next bad k o = some r → ∀ {k'}, k ≤ k' → skipBad next bad k' o = some r := by
  induction k with
  | zero =>
    intro o r h k' _
    cases o with
    | none => cases k' <;> simpa [skipBad] using h
    | some a => simp [skipBad] at h
  | succ k ih =>
    intro o r h k' hk
    cases o with
    | none => cases k' <;> simpa [skipBad] using h
    | some a =>
      obtain ⟨k', rfl⟩ : ∃ m, k' = m + 1 := ⟨k' - 1, by omega⟩
      simp only [skipBad] at h ⊢
      split at h
      · rename_i hb
        rw [if_pos hb]
        exact ih h (by omega)
      · rename_i hb
        rw [if_neg hb]
        exact h

end mono

theorem pairLoop_mono {k k' : Nat} {F T : List XLit} {nonEq noTop : Bool} (hk : k ≤ k') : ∀ {m : Nat} {o : Option IPos} {r}, pairLoop k F T nonEq noTop m o = some r →
    ∀ {m'}, m ≤ m' → pairLoop k' F T nonEq noTop m' o = some r := by
  intro m
  induction m with
  | zero =>
    intro o r h m' _
    cases o with
    | none => cases m' <;> simpa [pairLoop] using h
    | some a => simp [pairLoop] at h
  | succ m ih =>
    intro o r h m' hm
    cases o with
    | none => cases m' <;> simpa [pairLoop] using h
    | some f =>
      obtain ⟨m', rfl⟩ : ∃ n, m' = n + 1 := ⟨m' - 1, by omega⟩
      simp only [pairLoop] at h ⊢
      cases h1 : firstInto k T (fromInfo F f).2 noTop (fromInfo F f).1 with
      | none => simp [h1] at h
      | some o =>
        have h1' : firstInto k' T (fromInfo F f).2 noTop (fromInfo F f).1 = some o := skip_mono h1 hk
        rw [h1] at h
        rw [h1']
        cases o with
        | some t => exact h
        | none =>
          simp only at h ⊢
          cases h2 : nextFrom k F nonEq f with
          | none => simp [h2] at h
          | some f' =>
            have h2' : nextFrom k' F nonEq f = some f' := skip_mono h2 hk
            rw [h2] at h
            rw [h2']
            exact ih h (by omega)

theorem nextPair_mono {k k' : Nat} {F T : List XLit} {nonEq noTop : Bool} (hk : k ≤ k') {q : IPos × Term × IPos} {r} (h : nextPair k F T nonEq noTop q = some r) :
    nextPair k' F T nonEq noTop q = some r := by
  unfold nextPair at h ⊢
  cases h1 : nextInto k T (fromInfo F q.1).2 noTop (fromInfo F q.1).1 q.2 with
  | none => simp [h1] at h
  | some o =>
    have h1' : nextInto k' T (fromInfo F q.1).2 noTop (fromInfo F q.1).1 q.2 = some o := skip_mono h1 hk
    rw [h1] at h
    rw [h1']
    cases o with
    | some t => exact h
    | none =>
      simp only at h ⊢
      cases h2 : nextFrom k F nonEq q.1 with
      | none => simp [h2] at h
      | some f' =>
        have h2' : nextFrom k' F nonEq q.1 = some f' := skip_mono h2 hk
        rw [h2] at h
        rw [h2']
        exact pairLoop_mono hk h hk

theorem pairsFrom_mono {k k' : Nat} {F T : List XLit} {nonEq noTop : Bool} (hk : k ≤ k') : ∀ {m : Nat} {o} {l}, pairsFrom k F T nonEq noTop m o = some l →
    ∀ {m'}, m ≤ m' → pairsFrom k' F T nonEq noTop m' o = some l := by
  intro m
  induction m with
  | zero =>
    intro o r h m' _
    cases o with
    | none => cases m' <;> simpa [pairsFrom] using h
    | some a => simp [pairsFrom] at h
  | succ m ih =>
    intro o r h m' hm
    cases o with
    | none => cases m' <;> simpa [pairsFrom] using h
    | some q =>
      obtain ⟨m', rfl⟩ : ∃ n, m' = n + 1 := ⟨m' - 1, by omega⟩
      simp only [pairsFrom] at h ⊢
      cases h1 : nextPair k F T nonEq noTop q with
      | none => simp [h1] at h
      | some o =>
        rw [h1] at h
        rw [nextPair_mono hk h1]
        simp only [Option.map_eq_some_iff] at h ⊢
        obtain ⟨l', h2, h3⟩ := h
        exact ⟨l', ih h2 (by omega), h3⟩

theorem allPairs_mono {k k' : Nat} {F T : List XLit} {nonEq noTop : Bool} (hk : k ≤ k') {l} (h : allPairs k F T nonEq noTop = some l) : allPairs k' F T nonEq noTop = some l := by
  unfold allPairs firstPair at h ⊢
  cases h1 : firstFrom k F nonEq with
  | none => simp [h1] at h
  | some f =>
    have h1' : firstFrom k' F nonEq = some f := skip_mono h1 hk
    rw [h1] at h
    rw [h1']
    simp only at h ⊢
    cases h2 : pairLoop k F T nonEq noTop k f with
    | none => simp [h2] at h
    | some q =>
      rw [h2] at h
      rw [pairLoop_mono hk h2 hk]
      exact pairsFrom_mono hk h hk

/-- Whatever the number of rounds, a result is the complete list. -/
theorem allPairs_unique {k : Nat} {F T : List XLit} {nonEq noTop : Bool} {l} (h : allPairs k F T nonEq noTop = some l) : l = (fromList F nonEq).flatMap (pairBlock F T noTop) := by
  have h1 := allPairs_mono (k' := k + (rounds F T + ((fromList F nonEq).flatMap (pairBlock F T noTop)).length)) (by omega) h
  rw [allPairs_eq (by omega) (by omega)] at h1
  exact (Option.some.inj h1).symm

/-! ## Membership -/

theorem goodFrom_iff {F : List XLit} {nonEq : Bool} {f : IPos} {L : XLit} (hL : F[f.lit]? = some L) :
    (!badFrom F nonEq f) = true ↔ (nonEq = true ∨ L.lit.r ≠ tTrue) ∧ L.selected = false := by
  simp only [badFrom, hL, XLit.equ]
  by_cases h : L.lit.r = tTrue <;> cases nonEq <;> cases L.selected <;> simp [h]

theorem mem_fromList {F : List XLit} {nonEq : Bool} {f : IPos} : f ∈ fromList F nonEq ↔ f.pos = [] ∧ ∃ L, FromSide F nonEq f.lit f.right L := by
  rw [fromList, List.mem_filter, mem_sidesFrom]
  constructor
  · rintro ⟨⟨h0, j, L, h1, h2, h3, h4⟩, h5⟩
    have hL : F[f.lit]? = some L := by rw [h1, Nat.zero_add]; exact h2
    simp only [Bool.not_true, Bool.false_or, Bool.and_eq_true] at h3
    have h5 := (goodFrom_iff hL).1 h5
    exact ⟨h0, L, hL, h3.1, h3.2, h5.2, h4, h5.1⟩
  · rintro ⟨h0, L, hL, h1, h2, h3, h4, h5⟩
    refine ⟨⟨h0, f.lit, L, by simp, hL, by simp [h1, h2], h4⟩, (goodFrom_iff hL).2 ⟨h5, h3⟩⟩

theorem good_iff {T : List XLit} {noTop : Bool} {ft u : Term} {q : IPos} {L : XLit} (hL : T[q.lit]? = some L) :
    (!noParamodPos T noTop ft (u, q)) = true ↔ u.isVar = false ∧ (q.pos = [] → ¬ (L.lit.pos = true ∧ noTop = true) ∧ ¬ (ft.isVar = true ∧ L.lit.r = tTrue)) := by
  simp only [noParamodPos, hL, XLit.equ, bne, Bool.not_not]
  cases u.isVar <;> cases hp : q.pos <;> cases L.lit.pos <;> cases noTop <;> cases ft.isVar <;> simp

theorem mem_intoList_equ {T : List XLit} {noTop : Bool} {ft u : Term} {q : IPos} : (u, q) ∈ intoList T true noTop ft ↔ IntoEqPos T noTop ft q.lit q.right q.pos.reverse u := by
  rw [intoList, List.mem_filter, show intoAll T true = maxPosts T from rfl, mem_maxPosts]
  constructor
  · rintro ⟨⟨L, hL, h1, h2, h3, h4⟩, h5⟩
    have := (good_iff hL).1 h5
    exact ⟨L, hL, h1, h2, h3, h4, this.1, fun h => this.2 (by simpa using h)⟩
  · rintro ⟨L, hL, h1, h2, h3, h4, h5, h6⟩
    exact ⟨⟨L, hL, h1, h2, h3, h4⟩, (good_iff hL).2 ⟨h5, fun h => h6 (by simpa using h)⟩⟩

theorem mem_intoList_atom {T : List XLit} {noTop : Bool} {ft u : Term} {q : IPos} : (u, q) ∈ intoList T false noTop ft ↔ IntoAtomPos T ft q.lit q.right q.pos.reverse u := by
  rw [intoList, List.mem_filter, show intoAll T false = negSides T 0 from rfl, mem_negSides]
  constructor
  · rintro ⟨⟨j, L, rfl, h1, h2, h3, h4⟩, h5⟩
    have hL : T[0 + j]? = some L := by rw [Nat.zero_add]; exact h1
    have := (good_iff (q := ⟨0 + j, false, []⟩) hL).1 h5
    exact ⟨L, hL, h2, h3, rfl, rfl, h4, this.1, (this.2 rfl).2⟩
  · rintro ⟨L, hL, h1, h2, h3, h4, h5, h6, h7⟩
    obtain ⟨n, r, p⟩ := q
    simp only [List.reverse_eq_nil_iff] at h3 h4 hL
    subst h3 h4
    exact ⟨⟨n, L, by simp, hL, h1, h2, h5⟩, (good_iff (q := ⟨n, false, []⟩) hL).2 ⟨h6, fun _ => ⟨by simp [h2], h7⟩⟩⟩

theorem intoList_nodup (T : List XLit) (equ noTop : Bool) (ft : Term) : (intoList T equ noTop ft).Nodup := by
  refine List.Nodup.filter _ ?_
  unfold intoAll
  split
  · exact maxPosts_nodup T
  · exact negSides_nodup T 0

theorem pairs_nodup (F T : List XLit) (nonEq noTop : Bool) : ((fromList F nonEq).flatMap (pairBlock F T noTop)).Nodup := by
  rw [List.nodup_flatMap]
  constructor
  · intro f _
    refine List.Nodup.map ?_ (intoList_nodup _ _ _ _)
    intro a b h
    simpa using h
  · refine List.Pairwise.imp ?_ (List.Nodup.filter _ (sidesFrom_nodup _ _ _))
    intro a b hne x hx hx'
    simp only [pairBlock, List.mem_map] at hx hx'
    obtain ⟨_, _, rfl⟩ := hx
    obtain ⟨_, _, h⟩ := hx'
    simp only [Prod.mk.injEq] at h
    exact hne h.1.symm

theorem mem_pairs {F T : List XLit} {nonEq noTop : Bool} {f : IPos} {u : Term} {q : IPos} : (f, u, q) ∈ (fromList F nonEq).flatMap (pairBlock F T noTop) ↔
    f.pos = [] ∧ ∃ L, FromSide F nonEq f.lit f.right L ∧ ((L.lit.r ≠ tTrue ∧ IntoEqPos T noTop (L.side f.right) q.lit q.right q.pos.reverse u) ∨
      (L.lit.r = tTrue ∧ IntoAtomPos T (L.side f.right) q.lit q.right q.pos.reverse u)) := by
  rw [List.mem_flatMap]
  constructor
  · rintro ⟨f', hf, hq⟩
    simp only [pairBlock, List.mem_map] at hq
    obtain ⟨a, ha, he⟩ := hq
    simp only [Prod.mk.injEq] at he
    obtain ⟨rfl, rfl⟩ := he
    obtain ⟨h0, L, hL⟩ := mem_fromList.1 hf
    refine ⟨h0, L, hL, ?_⟩
    have hi : fromInfo F f' = (L.side f'.right, L.equ) := by simp [fromInfo, hL.1]
    rw [hi] at ha
    cases he : L.equ with
    | true =>
      simp only [he] at ha
      exact .inl ⟨by simpa [XLit.equ] using he, mem_intoList_equ.1 ha⟩
    | false =>
      simp only [he] at ha
      exact .inr ⟨by simpa [XLit.equ] using he, mem_intoList_atom.1 ha⟩
  · rintro ⟨h0, L, hL, h⟩
    refine ⟨f, mem_fromList.2 ⟨h0, L, hL⟩, ?_⟩
    simp only [pairBlock, List.mem_map]
    have hi : fromInfo F f = (L.side f.right, L.equ) := by simp [fromInfo, hL.1]
    refine ⟨(u, q), ?_, rfl⟩
    rw [hi]
    rcases h with ⟨h1, h2⟩ | ⟨h1, h2⟩
    · rw [show L.equ = true by simpa [XLit.equ] using h1]
      exact mem_intoList_equ.2 h2
    · rw [show L.equ = false by simpa [XLit.equ] using h1]
      exact mem_intoList_atom.2 h2

end OverlapIter
end Verif
