import Verif.Clauses.OverlapIterProof

/-!
# C76: overlaps of two clauses are enumerated completely and without repetition
-/

namespace Verif.Props
open Verif OverlapIter

/-- What is tried: a side of a literal of `F` that may be used, and a position in `T` where it may be used.  `f` and `q` name literals and sides; `q.pos` is the position stack, innermost first. -/
def Overlap (F T : List XLit) (nonEq noTop : Bool) (f : IPos) (u : Term) (q : IPos) : Prop :=
  f.pos = [] ∧ ∃ L, FromSide F nonEq f.lit f.right L ∧ ((L.lit.r ≠ tTrue ∧ IntoEqPos T noTop (L.side f.right) q.lit q.right q.pos.reverse u) ∨
    (L.lit.r = tTrue ∧ IntoAtomPos T (L.side f.right) q.lit q.right q.pos.reverse u))

/-- **C76, enumeration**: the loop over pairs of positions ends, and it tries every admissible overlap of the two clauses exactly once and nothing else. -/
theorem overlaps_exact (F T : List XLit) (nonEq noTop : Bool) : ∃ l, (∃ N, ∀ k, N ≤ k → allPairs k F T nonEq noTop = some l) ∧ (∀ k l', allPairs k F T nonEq noTop = some l' → l' = l) ∧ l.Nodup ∧
    ∀ f u q, (f, u, q) ∈ l ↔ Overlap F T nonEq noTop f u q := by
  refine ⟨_, ⟨rounds F T + ((fromList F nonEq).flatMap (pairBlock F T noTop)).length, fun k hk => allPairs_eq (by omega) (by omega)⟩, fun k l h => allPairs_unique h, pairs_nodup F T nonEq noTop, ?_⟩
  intro f u q
  exact mem_pairs

/-- **C76, positions of a term**: starting at the first innermost position and stepping to the next one visits each position of a term exactly once, subterms before the term. -/
theorem positions_exact (t : Term) : ∃ l : List (Term × PosStack), l.head? = some (firstLI t []) ∧ (∀ i q, l[i]? = some q → nextLI q.2 = l[i + 1]?) ∧ l.Nodup ∧ l.getLast? = some (t, []) ∧
    ∀ u pos, (u, pos) ∈ l ↔ IsPos t pos.reverse ∧ posSubterm t pos.reverse = some u := by
  have hidx : ∀ (l : List (Term × PosStack)), ChainTo nextPos l none → ∀ i q, l[i]? = some q → nextLI q.2 = l[i + 1]? := by
    intro l
    induction l with
    | nil => intro _ i q h; simp at h
    | cons a l ih =>
      intro hc i q h
      cases i with
      | zero =>
        simp only [List.getElem?_cons_zero, Option.some.injEq] at h
        subst h
        have := hc.1
        rw [Option.or_none] at this
        rw [List.getElem?_cons_succ, ← List.head?_eq_getElem?]
        exact this
      | succ i =>
        rw [List.getElem?_cons_succ] at h ⊢
        exact ih hc.2 i q h
  refine ⟨posts t [], posts_head t [], hidx _ (posts_chain t []), posts_nodup t [], ?_, ?_⟩
  · cases t <;> simp [posts]
  · intro u pos
    rw [mem_posts]
    constructor
    · rintro ⟨p, h1, h2, h3⟩
      simp only [List.append_nil] at h3
      subst h3
      simpa using ⟨h1, h2⟩
    · rintro ⟨h1, h2⟩
      exact ⟨pos.reverse, h1, h2, by simp⟩

/-- **C76, both directions**: an overlap of an equation of the second clause into the first clause is tried in the second loop, unless it is into the top of a positive literal.  Then the overlap
in the opposite direction (that gives the same equation) is tried in the first loop, if the literal can be used (it is an equation that is not selected) and the side of the second clause is not a variable. -/
theorem overlaps_both {A B : List XLit} {nonEq : Bool} {f q : IPos} {u : Term} {L : XLit} (hf : f.pos = []) (hF : FromSide B nonEq f.lit f.right L) (he : L.lit.r ≠ tTrue)
    (hq : IntoEqPos A false (L.side f.right) q.lit q.right q.pos.reverse u) :
    Overlap B A nonEq true f u q ∨
    ∃ M, A[q.lit]? = some M ∧ q.pos = [] ∧ M.lit.pos = true ∧ u = M.side q.right ∧
      (M.lit.r ≠ tTrue → M.selected = false → (L.side f.right).isVar = false → Overlap A B nonEq false q (L.side f.right) f) := by
  obtain ⟨M, hM, h1, h2, h3, h4, h5, h6⟩ := hq
  by_cases htop : q.pos = [] ∧ M.lit.pos = true
  · right
    have h4' : some (M.side q.right) = some u := by rw [htop.1] at h4; exact h4
    refine ⟨M, hM, htop.1, htop.2, (Option.some.inj h4').symm, fun h7 h8 h9 => ?_⟩
    refine ⟨htop.1, M, ⟨hM, h1, htop.2, h8, h2, .inr h7⟩, .inl ⟨h7, L, hF.1, hF.2.1, hF.2.2.2.2.1, ?_, ?_, h9, ?_⟩⟩
    · rw [hf]; trivial
    · rw [hf]; rfl
    · intro _
      exact ⟨by simp, fun h => he h.2⟩
  · left
    refine ⟨hf, L, hF, .inl ⟨he, M, hM, h1, h2, h3, h4, h5, fun h => ⟨fun h' => ?_, (h6 h).2⟩⟩⟩
    exact htop ⟨by simpa using h, h'.1⟩

namespace OverlapIterEx

/-- `x = a`. -/
def varEq : XLit := { lit := { pos := true, l := .var 2, r := .app 30 [] }, oriented := false, maximal := true }
/-- `f(b) = c`. -/
def fbc : XLit := { lit := { pos := true, l := .app 40 [.app 31 []], r := .app 32 [] }, oriented := true, maximal := true }
/-- `g(f(b)) ≠ y`. -/
def neg : XLit := { lit := { pos := false, l := .app 41 [.app 40 [.app 31 []]], r := .var 4 }, oriented := false, maximal := true }
/-- `p(f(b))`. -/
def atom : XLit := { lit := { pos := true, l := .app 50 [.app 40 [.app 31 []]], r := tTrue }, oriented := true, maximal := true }

/-- **C76, limit**: the condition on variables in `overlaps_both` is needed.  With `f(b) = c` as first and `x = a` as second clause the overlap of `x` into the top of `f(b)` is admissible, but
neither it nor the opposite one is tried. -/
theorem variable_top_lost : ∃ (A B : List XLit) (f q : IPos) (u : Term), Overlap B A true false f u q ∧ u.isVar = false ∧
    ∀ k l₁ l₂, allPairs k A B true false = some l₁ → allPairs k B A true true = some l₂ → (∀ u', (q, u', f) ∉ l₁) ∧ ∀ u', (f, u', q) ∉ l₂ := by
  refine ⟨[fbc], [varEq], ⟨0, false, []⟩, ⟨0, false, []⟩, .app 40 [.app 31 []], ?_, rfl, ?_⟩
  · refine ⟨rfl, varEq, ⟨rfl, rfl, rfl, rfl, by decide, .inl rfl⟩, .inl ⟨by decide, fbc, rfl, rfl, by decide, trivial, rfl, rfl, ?_⟩⟩
    intro _
    exact ⟨by decide, by decide⟩
  · have mono : ∀ (F T : List XLit) (noTop : Bool) k l, allPairs k F T true noTop = some l → ∀ f u q, (f, u, q) ∈ l → Overlap F T true noTop f u q := by
      intro F T noTop k l h f u q hm
      rw [allPairs_unique h] at hm
      exact mem_pairs.1 hm
    intro k l₁ l₂ h₁ h₂
    constructor
    · intro u' hm
      obtain ⟨_, L, hL, ⟨_, M, hM, _, _, _, h4, h5, _⟩ | ⟨h, _⟩⟩ := mono _ _ _ _ _ h₁ _ _ _ hm
      · have : varEq = M := by simpa using hM
        subst this
        have : u' = .var 2 := by simpa [posSubterm, XLit.side, varEq, eq_comm] using h4
        subst this
        simp [Term.isVar] at h5
      · have : fbc = L := by simpa using hL.1
        subst this
        exact absurd h (by decide)
    · intro u' hm
      obtain ⟨_, L, hL, ⟨_, M, hM, _, _, _, _, _, h6⟩ | ⟨h, _⟩⟩ := mono _ _ _ _ _ h₂ _ _ _ hm
      · have : fbc = M := by simpa using hM
        subst this
        exact (h6 rfl).1 ⟨rfl, rfl⟩
      · have : varEq = L := by simpa using hL.1
        subst this
        exact absurd h (by decide)

/-- A case: `f(b) = c` into `g(f(b)) ≠ y ∨ p(f(b)) ∨ f(b) = c`: eight positions that are no variables. -/
example : (allPairs 100 [fbc] [neg, atom, fbc] true false).map List.length = some 8 ∧ (allPairs 100 [fbc] [neg, atom, fbc] true true).map List.length = some 6 ∧
    (allPairs 100 [atom] [neg, atom] true false).map List.length = some 1 ∧ (allPairs 100 [atom] [neg, atom] false false).map List.length = some 0 := by decide +kernel

/-- A case with the hypotheses of `overlaps_both`. -/
example : FromSide [fbc] true 0 false fbc ∧ fbc.lit.r ≠ tTrue ∧ IntoEqPos [neg, atom] false (fbc.side false) 1 false [(.app 50 [.app 40 [.app 31 []]], 0)] (.app 40 [.app 31 []]) := by
  refine ⟨⟨rfl, rfl, rfl, rfl, by decide, .inl rfl⟩, by decide, atom, rfl, rfl, by decide, ⟨rfl, 50, _, _, rfl, rfl, trivial⟩, rfl, rfl, by simp⟩

end OverlapIterEx
end Verif.Props
