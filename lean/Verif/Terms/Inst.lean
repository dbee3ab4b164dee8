import Verif.Terms.Mgu
import Verif.Terms.Spec

/-!
# Instantiating and replacing

Model of the term-bank insertion functions that build new terms from the current
bindings: `TBInsertOpt`/`TBInsertNoProps` with `DEREF_ALWAYS`
(TERMS/cte_termbanks.c:1380-1419), `TBInsertInstantiatedFO` (1227-1269),
`TBInsertRepl` (1101-1142), `TBInsertReplPlain` (1156-1205),
`TBTermPosReplace` (TERMS/cte_replace.c:166-240), `TBInsertDisjoint` (1436-1472).
Sharing is modelled separately (C04); here a cell is the term it stands for.

Variables unbound by the unifier may be bound to variables of the *secondary*
variable bank by `SubstNormTerm`; those cells are different from the cells of the
primary bank, but when a term is inserted into the term bank they are replaced by
the primary variable with the same number (`VarBankVarAssertAlloc`).  We keep
these second-level bindings in a separate map `rn`.
-/

namespace Verif

/-- Apply a partial function to all elements. -/
def mapOpt {α β : Type} (f : α → Option β) : List α → Option (List β)
  | [] => some []
  | x :: xs =>
    match f x with
    | none => none
    | some y =>
      match mapOpt f xs with
      | none => none
      | some ys => some (y :: ys)

/-- The primary variable inserted for an unbound variable. -/
def varOut (rn : Nat → Option Nat) (y : Nat) : Term := .var ((rn y).getD y)

/-- `TBInsertOpt(bank, term, DEREF_ALWAYS)` (TERMS/cte_termbanks.c:1380-1419),
first-order; the early return for ground terms is omitted (it returns the same
term).  `TBInsert`, `TBInsertNoProps` with `DEREF_ALWAYS` build the same term. -/
def instOpt (bind : Nat → Option Term) (rn : Nat → Option Nat) : Nat → Term → Option Term
  | 0, _ => none
  | n + 1, t =>
    match derefAlways bind n t with
    | none => none
    | some (.var y) => some (varOut rn y)
    | some (.app f ts) => (mapOpt (fun u => instOpt bind rn n u) ts).map (.app f)

/-- `TBInsertRepl(bank, term, DEREF_ALWAYS, old, repl)` (TERMS/cte_termbanks.c:1101-1142). -/
def instRepl (bind : Nat → Option Term) (rn : Nat → Option Nat) (old repl : Term) :
    Nat → Term → Option Term
  | 0, _ => none
  | n + 1, t =>
    if t = old then some repl
    else
      match derefAlways bind n t with
      | none => none
      | some (.var y) => some (varOut rn y)
      | some (.app f ts) => (mapOpt (fun u => instRepl bind rn old repl n u) ts).map (.app f)

/-- Standard weight (`TermStandardWeight`): variables 1, symbols 2
(DEFAULT_VWEIGHT, DEFAULT_FWEIGHT, TERMS/cte_termtypes.h:41-42). -/
abbrev stdWeight (t : Term) : Nat := t.weight 1 2

mutual
/-- `TBInsertReplPlain(bank, term, old, repl)` (TERMS/cte_termbanks.c:1156-1205). -/
def replPlain (old repl : Term) : Term → Term
  | .var x => if Term.var x = old then repl else .var x
  | .app f ts =>
    if Term.app f ts = old then repl
    else if stdWeight (.app f ts) ≤ stdWeight old then .app f ts
    else .app f (replPlainL old repl ts)
def replPlainL (old repl : Term) : List Term → List Term
  | [] => []
  | t :: ts => replPlain old repl t :: replPlainL old repl ts
end

/-- `TBInsertInstantiatedFO` (TERMS/cte_termbanks.c:1227-1269): a bound variable is
replaced by its binding as it is (no further dereferencing). -/
def instFO (bind : Nat → Option Term) : Term → Term :=
  Term.subst fun x => (bind x).getD (.var x)

/-- `TBInsertDisjoint` (TERMS/cte_termbanks.c:1436-1472) with `VarBankGetAltVar`
(TERMS/cte_termvars.h:212-220): variable `-f_code = x` becomes `-(f_code+1) = x-1`. -/
def instDisjoint : Term → Term := Term.subst fun x => .var (x - 1)

/-- A position is the stack of (superterm, argument index) pairs, outermost first
(TERMS/cte_termpos.h:40-61). `TBTermPosReplace` (TERMS/cte_replace.c:185-215) works
inside-out; this is the part before the final `TBInsertNoProps`. -/
def posReplace (pos : List (Term × Nat)) (repl : Term) : Term :=
  pos.foldr (fun p r =>
    match p.1 with
    | .app f ts => .app f (ts.set p.2 r)
    | .var x => .var x) repl -- a variable has no arguments: excluded by the assertion

/-- `TermPosGetSubterm` (TERMS/cte_termpos.h:99-120). -/
def posSubterm (t : Term) (pos : List (Term × Nat)) : Option Term :=
  match pos.getLast? with
  | none => some t
  | some (.app _ ts, i) => ts[i]?
  | some (.var _, _) => none

/-- `pos` is a position of `t`: superterms are linked top-down. -/
def IsPos (t : Term) : List (Term × Nat) → Prop
  | [] => True
  | (s, i) :: pos => s = t ∧ ∃ f ts u, t = .app f ts ∧ ts[i]? = some u ∧ IsPos u pos

namespace InstProof
open Term

theorem mapOpt_some {α β : Type} {f : α → Option β} {xs : List α} {ys : List β}
    (h : mapOpt f xs = some ys) : List.Forall₂ (fun x y => f x = some y) xs ys := by
  induction xs generalizing ys with
  | nil => simp [mapOpt] at h; subst h; exact .nil
  | cons x xs ih =>
    simp only [mapOpt] at h
    cases hx : f x with
    | none => simp [hx] at h
    | some y =>
      cases hxs : mapOpt f xs with
      | none => simp [hx, hxs] at h
      | some zs =>
        simp [hx, hxs] at h; subst h
        exact .cons hx (ih hxs)

theorem mapOpt_of_forall {α β : Type} {f : α → Option β} {g : α → β} {xs : List α}
    (h : ∀ x ∈ xs, f x = some (g x)) : mapOpt f xs = some (xs.map g) := by
  induction xs with
  | nil => rfl
  | cons x xs ih =>
    simp [mapOpt, h x (by simp), ih fun y hy => h y (by simp [hy])]

theorem forall2_map {α β : Type} {R : α → β → Prop} {g : α → β} {xs : List α} {ys : List β}
    (h : List.Forall₂ R xs ys) (hg : ∀ x ∈ xs, ∀ y, R x y → y = g x) : ys = xs.map g := by
  induction h with
  | nil => rfl
  | cons h1 h2 ih =>
    rw [List.map_cons, ← hg _ (by simp) _ h1, ih fun x hx => hg x (by simp [hx])]

/-- Full instantiation followed by renaming. -/
def full (σ : Nat → Term) (rn : Nat → Option Nat) : Nat → Term := fun x => (σ x).subst (varOut rn)

theorem subst_full (σ : Nat → Term) (rn : Nat → Option Nat) (t : Term) :
    t.subst (full σ rn) = (t.subst σ).subst (varOut rn) := by rw [subst_comp]; rfl

theorem deref_full {bind : Nat → Option Term} {σ : Nat → Term} (hσ : FullInst bind σ)
    {n : Nat} {t r : Term} (h : derefAlways bind n t = some r) : r.subst σ = t.subst σ :=
  MguProof.deref_sat hσ.bound n t r h

theorem instOpt_correct {bind : Nat → Option Term} {rn : Nat → Option Nat} {σ : Nat → Term}
    (hσ : FullInst bind σ) : ∀ (n : Nat) (t r : Term), instOpt bind rn n t = some r →
    r = t.subst (full σ rn) := by
  intro n
  induction n with
  | zero => intro t r h; simp [instOpt] at h
  | succ n ih =>
    intro t r h
    rw [subst_full]
    simp only [instOpt] at h
    cases hd : derefAlways bind n t with
    | none => simp [hd] at h
    | some w =>
      rw [← deref_full hσ hd]
      cases w with
      | var y =>
        simp [hd] at h
        rw [subst_var, hσ.free y (MguProof.deref_result n t y hd), ← h]; rfl
      | app f ts =>
        simp only [hd, Option.map_eq_some_iff] at h
        obtain ⟨us, hus, rfl⟩ := h
        have := forall2_map (mapOpt_some hus) fun x _ y hxy => ih x y hxy
        rw [this, subst_app, subst_app]
        simp [subst_full]

/-- With acyclic bindings there is always enough fuel. -/
theorem instOpt_total {bind : Nat → Option Term} (rn : Nat → Option Nat) {σ : Nat → Term}
    (hac : MguProof.Acyclic bind) (hσ : FullInst bind σ) : ∀ (k : Nat) (t : Term),
    (t.subst σ).size ≤ k → ∃ N r, ∀ n ≥ N, instOpt bind rn n t = some r := by
  intro k
  induction k with
  | zero => intro t h; have := size_pos (t.subst σ); omega
  | succ k ih =>
    intro t hsz
    obtain ⟨N, r, hN⟩ := MguProof.deref_total hac t
    have hs := deref_full hσ (hN N (le_refl _))
    cases r with
    | var y =>
      refine ⟨N + 1, varOut rn y, fun n hn => ?_⟩
      obtain ⟨m, rfl⟩ : ∃ m, n = m + 1 := ⟨n - 1, by omega⟩
      simp only [instOpt, hN m (by omega)]
    | app f ts =>
      rw [← hs, subst_app] at hsz
      have hL : ∀ us : List Term, (∀ u ∈ us, u ∈ ts) →
          ∃ N r, ∀ n ≥ N, mapOpt (fun u => instOpt bind rn n u) us = some r := by
        intro us
        induction us with
        | nil => intro _; exact ⟨0, [], fun n _ => rfl⟩
        | cons u us ihu =>
          intro hus
          have hu : (u.subst σ).size ≤ k := by
            have := size_arg_lt (f := f) (List.mem_map_of_mem (f := subst σ) (hus u (by simp)))
            omega
          obtain ⟨N1, b1, h1⟩ := ih u hu
          obtain ⟨N2, b2, h2⟩ := ihu fun v hv => hus v (by simp [hv])
          refine ⟨N1 + N2, b1 :: b2, fun n hn => ?_⟩
          simp only [mapOpt, h1 n (by omega), h2 n (by omega)]
      obtain ⟨N2, b, h2⟩ := hL ts fun _ h => h
      refine ⟨N + N2 + 1, .app f b, fun n hn => ?_⟩
      obtain ⟨m, rfl⟩ : ∃ m, n = m + 1 := ⟨n - 1, by omega⟩
      simp only [instOpt, hN m (by omega), h2 m (by omega), Option.map_some]

/-- Some occurrences of `old` (under the bindings) are replaced, the rest is instantiated. -/
theorem instRepl_partial {bind : Nat → Option Term} {rn : Nat → Option Nat} {σ : Nat → Term}
    (hσ : FullInst bind σ) {old repl : Term} :
    ∀ (n : Nat) (t r : Term), instRepl bind rn old repl n t = some r →
    PartialRepl (old.subst (full σ rn)) repl (t.subst (full σ rn)) r := by
  intro n
  induction n with
  | zero => intro t r h; simp [instRepl] at h
  | succ n ih =>
    intro t r h
    simp only [instRepl] at h
    split at h
    · rename_i heq
      simp at h; subst h; subst heq; exact .here
    · rw [subst_full σ rn t]
      cases hd : derefAlways bind n t with
      | none => simp [hd] at h
      | some w =>
        rw [← deref_full hσ hd]
        cases w with
        | var y =>
          simp [hd] at h
          rw [subst_var, hσ.free y (MguProof.deref_result n t y hd), ← h]; exact .same _
        | app f ts =>
          simp only [hd, Option.map_eq_some_iff] at h
          obtain ⟨us, hus, rfl⟩ := h
          rw [subst_app, subst_app]
          refine .args f ?_
          have hf := mapOpt_some hus
          rw [List.map_map]
          refine List.forall₂_map_left_iff.2 (hf.imp ?_)
          intro u v huv
          have := ih u v huv
          rw [subst_full σ rn u] at this
          exact this

theorem replaceAllL_eq (old repl : Term) (ts : List Term) :
    replaceAllL old repl ts = ts.map (replaceAll old repl) := by
  induction ts with
  | nil => rfl
  | cons t ts ih => simp [replaceAllL, ih]

theorem replPlainL_eq (old repl : Term) (ts : List Term) :
    replPlainL old repl ts = ts.map (replPlain old repl) := by
  induction ts with
  | nil => rfl
  | cons t ts ih => simp [replPlainL, ih]

theorem weight_pos' (t : Term) : 0 < stdWeight t := by
  induction t using Term.ind with
  | hv x => simp [stdWeight, weight]
  | ha f ts ih =>
    simp only [stdWeight, weight]
    have : 0 ≤ weightL 1 2 ts := by
      clear f
      induction ts with
      | nil => simp [weightL]
      | cons t ts ih2 =>
        have h1 := ih t (by simp)
        have h2 := ih2 fun u hu => ih u (by simp [hu])
        simp only [stdWeight] at h1
        simp only [weightL]; omega
    omega

theorem weight_arg_lt' {f : Nat} {ts : List Term} {t : Term} (h : t ∈ ts) :
    stdWeight t < stdWeight (app f ts) := by
  simp only [stdWeight, weight]
  have : t.weight 1 2 ≤ weightL 1 2 ts := by
    induction ts with
    | nil => simp at h
    | cons u us ih =>
      have hu := weight_pos' u
      have hus : 0 ≤ weightL 1 2 us := by
        clear ih h
        induction us with
        | nil => simp [weightL]
        | cons v vs ihv => have := weight_pos' v; simp only [stdWeight] at this; simp only [weightL]; omega
      simp only [stdWeight] at hu
      simp only [weightL]
      rcases List.mem_cons.1 h with rfl | h
      · omega
      · have := ih h; omega
  omega

/-- A term that is not heavier than `old` and different from it contains no `old`. -/
theorem replaceAll_light {old repl : Term} (t : Term) (h : stdWeight t ≤ stdWeight old) (hne : t ≠ old) :
    replaceAll old repl t = t := by
  induction t using Term.ind with
  | hv x => simp [replaceAll, hne]
  | ha f ts ih =>
    simp only [replaceAll, if_neg hne, replaceAllL_eq, app.injEq, true_and]
    rw [List.map_congr_left (g := id) (fun u hu => ?_), List.map_id]
    have hlt := weight_arg_lt' (f := f) hu
    exact ih u hu (by omega) (by rintro rfl; omega)

theorem replPlain_eq {old repl : Term} (t : Term) : replPlain old repl t = replaceAll old repl t := by
  induction t using Term.ind with
  | hv x => simp [replPlain, replaceAll]
  | ha f ts ih =>
    by_cases heq : app f ts = old
    · simp [replPlain, replaceAll, heq]
    · by_cases hw : stdWeight (app f ts) ≤ stdWeight old
      · rw [replaceAll_light _ hw heq]; simp only [replPlain, if_neg heq, if_pos hw]
      · simp only [replPlain, replaceAll, if_neg heq, if_neg hw, replPlainL_eq, replaceAllL_eq]
        rw [List.map_congr_left ih]

theorem forall2_map_self {α β : Type} {R : α → β → Prop} {g : α → β} {xs : List α}
    (h : ∀ x ∈ xs, R x (g x)) : List.Forall₂ R xs (xs.map g) := by
  induction xs with
  | nil => exact .nil
  | cons x xs ih => exact .cons (h x (by simp)) (ih fun y hy => h y (by simp [hy]))

theorem replaceAll_partial (old repl t : Term) : PartialRepl old repl t (replaceAll old repl t) := by
  induction t using Term.ind with
  | hv x =>
    simp only [replaceAll]
    split
    · rename_i h; rw [h]; exact .here
    · exact .same _
  | ha f ts ih =>
    simp only [replaceAll]
    split
    · rename_i h; rw [h]; exact .here
    · rw [replaceAllL_eq]; exact .args f (forall2_map_self ih)

theorem replaceAt_partial {t : Term} {p : List Nat} {old repl : Term}
    (h : subtermAt t p = some old) : PartialRepl old repl t (replaceAt t p repl) := by
  induction p generalizing t with
  | nil => simp [subtermAt] at h; subst h; cases t <;> exact .here
  | cons i p ih =>
    cases t with
    | var x => simp [subtermAt] at h
    | app f ts =>
      simp only [subtermAt] at h
      cases hi : ts[i]? with
      | none => simp [hi] at h
      | some u =>
        simp [hi] at h
        simp only [replaceAt, hi]
        refine .args f ?_
        have h1 := ih h
        have hlen : i < ts.length := by
          by_contra hc; rw [List.getElem?_eq_none (by omega)] at hi; simp at hi
        rw [List.forall₂_iff_get]
        refine ⟨by simp, fun j hj1 hj2 => ?_⟩
        simp only [List.get_eq_getElem, List.getElem_set]
        split
        · rename_i hij; subst hij
          have : ts[i] = u := by rw [List.getElem?_eq_getElem hlen] at hi; simpa using hi
          rw [this]; exact h1
        · exact .same _

theorem posReplace_eq {t : Term} {pos : List (Term × Nat)} (h : IsPos t pos) (repl : Term) :
    posReplace pos repl = replaceAt t (pos.map Prod.snd) repl := by
  induction pos generalizing t with
  | nil => cases t <;> rfl
  | cons p pos ih =>
    obtain ⟨s, i⟩ := p
    obtain ⟨rfl, f, ts, u, rfl, hi, hp⟩ := h
    have := ih hp
    simp only [posReplace, List.foldr_cons, List.map_cons, replaceAt, hi] at this ⊢
    rw [this]

theorem posSubterm_eq {t : Term} {pos : List (Term × Nat)} (h : IsPos t pos) :
    posSubterm t pos = subtermAt t (pos.map Prod.snd) := by
  induction pos generalizing t with
  | nil => cases t <;> rfl
  | cons p pos ih =>
    obtain ⟨s, i⟩ := p
    obtain ⟨rfl, f, ts, u, rfl, hi, hp⟩ := h
    have := ih hp
    cases pos with
    | nil =>
      simp [posSubterm, subtermAt, hi]
    | cons q pos =>
      obtain ⟨⟨lt, li⟩, hl⟩ : ∃ l, (q :: pos).getLast? = some l := ⟨_, List.getLast?_eq_some_getLast (by simp)⟩
      simp only [posSubterm, List.map_cons, subtermAt, hi, List.getLast?_cons_cons, hl] at this ⊢
      cases lt <;> exact this

/-- Instantiating commutes with replacing at a position. -/
theorem replaceAt_subst {σ : Nat → Term} {t : Term} {p : List Nat} {u repl : Term}
    (h : subtermAt t p = some u) :
    (replaceAt t p repl).subst σ = replaceAt (t.subst σ) p (repl.subst σ) ∧
    subtermAt (t.subst σ) p = some (u.subst σ) := by
  induction p generalizing t with
  | nil =>
    simp [subtermAt] at h; subst h
    constructor
    · cases t <;> simp [replaceAt]
    · simp [subtermAt]
  | cons i p ih =>
    cases t with
    | var x => simp [subtermAt] at h
    | app f ts =>
      simp only [subtermAt] at h
      cases hi : ts[i]? with
      | none => simp [hi] at h
      | some w =>
        simp [hi] at h
        obtain ⟨h1, h2⟩ := ih h
        simp [replaceAt, hi, subst_app, subtermAt, h2, List.map_set, h1]

end InstProof
end Verif
