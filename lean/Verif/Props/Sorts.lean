import Verif.Terms.SortsDefault
import Mathlib.Data.List.Perm.Basic

/-!
# C87: sorts of first-order problems

`LitOK τ l`: the literal is well-sorted under the typing `τ` of the symbols; `annotLit τ l`: the literal with the sorts of all subterms
(Verif/Terms/SortsSpec.lean).  Sort 0 is `$o`; the sorts of variables are never 0.
-/

namespace Verif.Props
open Verif Sorts

/-- **C87.** Whatever is read is well-sorted: there is one typing, found in the signature, that agrees with all declarations, makes all literals
well-sorted, and gives the sorts stored in the terms, also in those read before the type was known. -/
theorem sorts_sound {dflt : Nat → Nat} (hd : ∀ f, dflt f ≠ 0) {is : List Item} {S : SigS} {cs : List SLit}
    (h : readItems dflt sig0 is = .ok (S, cs)) :
    (∀ l ∈ litsOf is, LitOK (getType S) l) ∧ cs = (litsOf is).map (annotLit (getType S)) ∧
      ∀ f ty, Item.decl f ty ∈ is → getType S (f, ty.args.length) = some ty := by
  obtain ⟨_, _, h3, h4, h5⟩ := readItems_sound hd is inv_sig0 h
  exact ⟨h3, h4, h5⟩

/-- **C87.** Literals that are not well-sorted under any typing are refused. -/
theorem sorts_refused {dflt : Nat → Nat} (hd : ∀ f, dflt f ≠ 0) {is : List Item} (h : ¬ ∃ τ, ∀ l ∈ litsOf is, LitOK τ l) :
    ∃ e, readItems dflt sig0 is = .error e := by
  cases hr : readItems dflt sig0 is with
  | error e => exact ⟨e, rfl⟩
  | ok p => exact absurd ⟨_, (sorts_sound hd hr).1⟩ h

/-- **C87.** A symbol without a declaration becomes a predicate or gives the default sort. -/
theorem sorts_default {dflt : Nat → Nat} {is : List Item} {S : SigS} {cs : List SLit} (h : readItems dflt sig0 is = .ok (S, cs)) {k : Sym} {ty : FTy}
    (hk : getType S k = some ty) : (∃ f ty', Item.decl f ty' ∈ is ∧ (f, ty'.args.length) = k) ∨ Default dflt k ty :=
  QD.readItems (D := fun k => ∃ f ty', Item.decl f ty' ∈ is ∧ (f, ty'.args.length) = k) is (by intro k ty h; cases h) (fun f ty h => ⟨f, ty, h, rfl⟩) h k ty hk

/-- **C87.** Well-sorted problems are read: when the declarations come first and symbols without a declaration are predicates or give the default
sort, every typing under which the literals are well-sorted gives the terms that are read, whatever the order of the literals. -/
theorem sorts_complete {dflt : Nat → Nat} (hd : ∀ f, dflt f ≠ 0) {τ : Typing} (ds : List (Nat × FTy)) (hB : ∀ d ∈ ds, 0 ∉ d.2.args)
    (ls : List PLit) (h1 : ∀ d ∈ ds, τ (d.1, d.2.args.length) = some d.2)
    (h2 : ∀ k ty, τ k = some ty → (∃ d ∈ ds, (d.1, d.2.args.length) = k) ∨ Default dflt k ty) (h3 : ∀ l ∈ ls, LitOK τ l) :
    ∃ S, readItems dflt sig0 (ds.map (fun d => Item.decl d.1 d.2) ++ ls.map Item.lit) = .ok (S, ls.map (annotLit τ)) ∧
      ∀ k ty, getType S k = some ty → τ k = some ty := by
  obtain ⟨S, e1, e2⟩ := readItems_complete hd (τ := noBool τ) (fun k ty h => (noBool_some.1 h).2) ds ls
    (fun d hm => noBool_some.2 ⟨h1 d hm, hB d hm⟩)
    (fun k ty hk hn => (h2 k ty (noBool_some.1 hk).1).resolve_left fun ⟨d, hm, he⟩ => hn d hm he) (fun l hl => noBool_lit (h3 l hl))
  refine ⟨S, ?_, fun k ty h => noBool_le τ k ty (e2 k ty h)⟩
  rw [e1]
  congr 2
  refine List.map_congr_left fun l hl => ?_
  exact ((noBool_lit (h3 l hl)).mono (noBool_le τ)).2.symm

/-- **C87.** With the declarations first, exactly the well-sorted problems are read. -/
theorem sorts_iff {dflt : Nat → Nat} (hd : ∀ f, dflt f ≠ 0) (ds : List (Nat × FTy)) (hB : ∀ d ∈ ds, 0 ∉ d.2.args) (ls : List PLit) :
    (∃ r, readItems dflt sig0 (ds.map (fun d => Item.decl d.1 d.2) ++ ls.map Item.lit) = .ok r) ↔ WellSorted dflt ds ls := by
  constructor
  · rintro ⟨⟨S, cs⟩, h⟩
    obtain ⟨h1, _, h3⟩ := sorts_sound hd h
    rw [litsOf_map] at h1
    refine ⟨getType S, fun d hm => ?_, fun k ty hk => ?_, h1⟩
    · exact h3 d.1 d.2 (List.mem_append_left _ (List.mem_map.2 ⟨d, hm, rfl⟩))
    · refine (sorts_default h hk).imp_left ?_
      rintro ⟨f, ty', hm, he⟩
      rcases List.mem_append.1 hm with hm | hm
      · obtain ⟨d, hd, he'⟩ := List.mem_map.1 hm
        cases he'
        exact ⟨d, hd, he⟩
      · obtain ⟨l, _, he'⟩ := List.mem_map.1 hm
        cases he'
  · rintro ⟨τ, h1, h2, h3⟩
    obtain ⟨S, e, _⟩ := sorts_complete hd ds hB ls h1 h2 h3
    exact ⟨_, e⟩

/-- **C87.** The order of the declarations among themselves and of the literals does not matter. -/
theorem sorts_order {dflt : Nat → Nat} (hd : ∀ f, dflt f ≠ 0) {ds ds' : List (Nat × FTy)} (hB : ∀ d ∈ ds, 0 ∉ d.2.args) {ls ls' : List PLit}
    (hds : ds.Perm ds') (hls : ls.Perm ls') :
    (∃ r, readItems dflt sig0 (ds.map (fun d => Item.decl d.1 d.2) ++ ls.map Item.lit) = .ok r) ↔
      ∃ r, readItems dflt sig0 (ds'.map (fun d => Item.decl d.1 d.2) ++ ls'.map Item.lit) = .ok r := by
  rw [sorts_iff hd ds hB, sorts_iff hd ds' fun d h => hB d (hds.mem_iff.2 h)]
  simp only [WellSorted, hds.mem_iff, hls.mem_iff]

namespace SortsEx

/-- `f : $i > s`. -/
def exDecls : List (Nat × FTy) := [(0, ⟨[1], 2⟩)]

/-- `f(a) = X`, `p(f(a), Y)`. -/
def exLits : List PLit := [.eqn (.fn 0 [.fn 1 []]) (.var 0 1), .atom (.fn 2 [.fn 0 [.fn 1 []], .var 1 0])]

def exTyping : Typing := fun k =>
  if k = (0, 1) then some ⟨[1], 2⟩ else if k = (1, 0) then some ⟨[], 1⟩ else if k = (2, 2) then some ⟨[2, 1], 0⟩ else none

/-- Non-vacuity of `sorts_complete` and `sorts_sound`. -/
theorem ex_read : ∃ S, readItems (fun _ => 1) sig0 (exDecls.map (fun d => Item.decl d.1 d.2) ++ exLits.map Item.lit) = .ok (S, exLits.map (annotLit exTyping)) ∧
    ∀ k ty, getType S k = some ty → exTyping k = some ty := by
  refine sorts_complete (by simp) exDecls (by decide) exLits (by decide) ?_ ?_
  · intro k ty h
    simp only [exTyping] at h
    split at h
    · rename_i he; exact .inl ⟨(0, ⟨[1], 2⟩), by decide, he.symm⟩
    · split at h
      · cases h; exact .inr (.inl rfl)
      · split at h
        · cases h; exact .inr (.inr rfl)
        · cases h
  · intro l hl
    simp only [exLits, List.mem_cons, List.not_mem_nil, or_false] at hl
    rcases hl with rfl | rfl
    · exact ⟨2, by decide, by decide, by decide⟩
    · show sortOf _ _ = _; decide

/-- Non-vacuity of `sorts_iff` and `sorts_order`: the literals in the other order. -/
example : ∃ r, readItems (fun _ => 1) sig0 (exDecls.map (fun d => Item.decl d.1 d.2) ++ exLits.reverse.map Item.lit) = .ok r := by
  refine (sorts_order (by simp) (by decide) (.refl _) (List.reverse_perm exLits)).2 ?_
  obtain ⟨S, h, _⟩ := ex_read
  exact ⟨_, h⟩

def errOf {α : Type} : Except SErr α → Option SErr
  | .error e => some e
  | .ok _ => none

/-- `p(a)`, then `p(a) = X`. -/
example : errOf (readItems (fun _ => 1) sig0 [.lit (.atom (.fn 2 [.fn 1 []])), .lit (.eqn (.fn 2 [.fn 1 []]) (.var 0 0))]) = some .syntaxErr := by
  decide

/-- The declaration has to come before the use: `a = X`, then `a : s`. -/
theorem late_declaration : errOf (readItems (fun _ => 1) sig0 [.lit (.eqn (.fn 1 []) (.fn 1 [])), .decl 1 ⟨[], 2⟩]) = some .typeErr ∧
    errOf (readItems (fun _ => 1) sig0 [.decl 1 ⟨[], 2⟩, .lit (.eqn (.fn 1 []) (.fn 1 []))]) = none := by
  decide

/-- Non-vacuity of `sorts_refused`: `X = a` and `Y = a` for variables of two sorts. -/
example : ∃ e, readItems (fun _ => 1) sig0 [.lit (.eqn (.var 0 0) (.fn 1 [])), .lit (.eqn (.var 0 1) (.fn 1 []))] = .error e := by
  refine sorts_refused (by simp) ?_
  rintro ⟨τ, h⟩
  obtain ⟨s, _, h1, h2⟩ := h (.eqn (.var 0 0) (.fn 1 [])) (by simp [litsOf])
  obtain ⟨s', _, h1', h2'⟩ := h (.eqn (.var 0 1) (.fn 1 [])) (by simp [litsOf])
  rw [sortOf] at h1 h1'
  cases h1; cases h1'
  rw [h2] at h2'
  cases h2'

end SortsEx

end Verif.Props
