import Verif.Clauses.GoalDefsProof
import Verif.Props.Problem

/-!
# C58: definitions for goal terms
-/

namespace Verif.Props
open GoalDefsProof PreprocProof CNFProof

universe u

/-- The terms that get a name: non-constant ground terms that occur in a literal with a selected sign of a conjecture and are no atoms. -/
def GoalTerm (pp : Term → Bool) (conj : List Lit → Bool) (pos neg : Bool) (Cs : List (List Lit)) (t : Term) : Prop :=
  ∃ C ∈ Cs, conj C = true ∧ ∃ L ∈ C, (if L.pos then pos else neg) = true ∧ (t ∈ L.l.subterms ∨ t ∈ L.r.subterms) ∧ t.vars = [] ∧ (∃ f ts, t = .app f ts ∧ ts ≠ []) ∧ pp t = false

/-- `t` occurs in a term below non-ground terms only. -/
inductive OpenPath (t : Term) : Term → Prop
  | here : OpenPath t t
  | arg {f : Nat} {ts : List Term} {u : Term} : (Term.app f ts).vars ≠ [] → u ∈ ts → OpenPath t u → OpenPath t (.app f ts)

/-- The maximal goal terms in atoms and equations that are not ground. -/
def MaxGoalTerm (pp : Term → Bool) (conj : List Lit → Bool) (pos neg : Bool) (Cs : List (List Lit)) (t : Term) : Prop :=
  ∃ C ∈ Cs, conj C = true ∧ ∃ L ∈ C, (if L.pos then pos else neg) = true ∧ (OpenPath t L.l ∨ OpenPath t L.r) ∧ t.vars = [] ∧ (∃ f ts, t = .app f ts ∧ ts ≠ []) ∧ pp t = false

section
variable {sg : Sig} {pp : Term → Bool} {order : List Term → List Term} {conj : List Lit → Bool} {pos neg all : Bool} {Cs Ds : List (List Lit)} {n n' : Nat} {ds : List SymDecl}

private theorem collects_eq (ts : List Term) : collectGrounds pp all ts = ts.flatMap (collectGround pp all) := by
  induction ts with
  | nil => rfl
  | cons t ts ih => rw [collectGrounds, ih, List.flatMap_cons]

private theorem collect_sound (t : Term) : ∀ s ∈ collectGround pp all t, s ∈ t.subterms ∧ s.vars = [] ∧ (∃ f ts, s = .app f ts ∧ ts ≠ []) ∧ pp s = false := by
  induction t using Term.ind with
  | hv x => intro s hs; simp [collectGround] at hs
  | ha f ts ih =>
    intro s hs
    rw [collectGround, List.mem_append] at hs
    rcases hs with hs | hs
    · split at hs
      · rename_i hc
        simp only [Bool.and_eq_true, Bool.not_eq_true', Term.isGround, List.isEmpty_iff] at hc
        rw [List.mem_singleton.1 hs]
        exact ⟨by simp [Term.subterms], hc.1.1, ⟨f, ts, rfl, by rintro rfl; simp at hc⟩, hc.2⟩
      · cases hs
    · split at hs
      · rw [collects_eq, List.mem_flatMap] at hs
        obtain ⟨t, ht, h⟩ := hs
        obtain ⟨h1, h2⟩ := ih t ht s h
        exact ⟨by rw [Term.subterms]; exact List.mem_cons_of_mem _ (Term.mem_subtermsL.2 ⟨t, ht, h1⟩), h2⟩
      · cases hs

private theorem collect_complete (t : Term) : ∀ s ∈ t.subterms, s.vars = [] → (∃ f ts, s = .app f ts ∧ ts ≠ []) → pp s = false → s ∈ collectGround pp true t := by
  induction t using Term.ind with
  | hv x =>
    rintro s hs - ⟨f, ts, rfl, -⟩ -
    simp [Term.subterms] at hs
  | ha f ts ih =>
    rintro s hs h1 h2 h3
    rw [collectGround, List.mem_append]
    rw [Term.subterms, List.mem_cons] at hs
    rcases hs with rfl | hs
    · left
      obtain ⟨g, us, e, hne⟩ := h2
      cases e
      have : ts.isEmpty = false := by cases ts with | nil => exact absurd rfl hne | cons => rfl
      simp [Term.isGround, h1, h3, this]
    · right
      obtain ⟨t, ht, h⟩ := Term.mem_subtermsL.1 hs
      rw [if_pos (by simp), collects_eq, List.mem_flatMap]
      exact ⟨t, ht, ih t ht s h h1 h2 h3⟩

private theorem collect_open {t u : Term} (h : OpenPath t u) (h1 : t.vars = []) (h2 : ∃ f ts, t = .app f ts ∧ ts ≠ []) (h3 : pp t = false) : t ∈ collectGround pp all u := by
  induction h with
  | here =>
    obtain ⟨g, us, rfl, hne⟩ := h2
    have : us.isEmpty = false := by cases us with | nil => exact absurd rfl hne | cons => rfl
    rw [collectGround, List.mem_append]
    left
    simp [Term.isGround, h1, h3, this]
  | @arg f ts u hv hu _ ih =>
    rw [collectGround, List.mem_append]
    right
    rw [if_pos (by simp [Term.isGround, hv]), collects_eq, List.mem_flatMap]
    exact ⟨u, hu, ih⟩

private theorem goals_open {t : Term} (h : MaxGoalTerm pp conj pos neg Cs t) : t ∈ (Cs.filter conj).flatMap (collectClause pp pos neg all) := by
  obtain ⟨C, hC, hc, L, hL, hs, hm, h1, h2, h3⟩ := h
  refine List.mem_flatMap.2 ⟨C, List.mem_filter.2 ⟨hC, hc⟩, ?_⟩
  rw [collectClause, List.mem_flatMap]
  refine ⟨L, hL, ?_⟩
  rw [if_pos (by cases hp : L.pos <;> simp_all), List.mem_append]
  exact hm.imp (fun h => collect_open h h1 h2 h3) fun h => collect_open h h1 h2 h3

private theorem clause_sound {C : List Lit} {t : Term} (h : t ∈ collectClause pp pos neg all C) : ∃ L ∈ C, (if L.pos then pos else neg) = true ∧ (t ∈ L.l.subterms ∨ t ∈ L.r.subterms) ∧
    t.vars = [] ∧ (∃ f ts, t = .app f ts ∧ ts ≠ []) ∧ pp t = false := by
  rw [collectClause, List.mem_flatMap] at h
  obtain ⟨L, hL, h⟩ := h
  split at h
  · rename_i hc
    refine ⟨L, hL, by cases hp : L.pos <;> simp_all, ?_⟩
    rcases List.mem_append.1 h with h | h
    · obtain ⟨h1, h2⟩ := collect_sound _ t h; exact ⟨.inl h1, h2⟩
    · obtain ⟨h1, h2⟩ := collect_sound _ t h; exact ⟨.inr h1, h2⟩
  · cases h

/-- Only goal terms are collected. -/
private theorem goals_sound {t : Term} (h : t ∈ (Cs.filter conj).flatMap (collectClause pp pos neg all)) : GoalTerm pp conj pos neg Cs t := by
  obtain ⟨C, hC, h⟩ := List.mem_flatMap.1 h
  rw [List.mem_filter] at hC
  exact ⟨C, hC.1, hC.2, clause_sound h⟩

private theorem goals_complete {t : Term} (h : GoalTerm pp conj pos neg Cs t) : t ∈ (Cs.filter conj).flatMap (collectClause pp pos neg true) := by
  obtain ⟨C, hC, hc, L, hL, hs, hm, h1, h2, h3⟩ := h
  refine List.mem_flatMap.2 ⟨C, List.mem_filter.2 ⟨hC, hc⟩, ?_⟩
  rw [collectClause, List.mem_flatMap]
  refine ⟨L, hL, ?_⟩
  rw [if_pos (by cases hp : L.pos <;> simp_all), List.mem_append]
  exact hm.imp (fun h => collect_complete _ t h h1 h2 h3) fun h => collect_complete _ t h h1 h2 h3

private theorem sub_ok (t : Term) : sg.WT t → t.SymsBelow n → ∀ s ∈ t.subterms, sg.WT s ∧ s.SymsBelow n := by
  induction t using Term.ind with
  | hv x => intro h1 h2 s hs; simp [Term.subterms] at hs; subst hs; exact ⟨h1, h2⟩
  | ha f ts ih =>
    intro h1 h2 s hs
    rw [Term.subterms, List.mem_cons] at hs
    rcases hs with rfl | hs
    · exact ⟨h1, h2⟩
    · obtain ⟨t, ht, h⟩ := Term.mem_subtermsL.1 hs
      exact ih t ht ((Sig.wt_app.1 h1).2 t ht) ((Term.symsBelow_app.1 h2).2 t ht) s h

private theorem goal_gt (hw : ∀ C ∈ Cs, sg.WTClause C ∧ ClauseBelow n C) {t : Term} (h : GoalTerm pp conj pos neg Cs t) : GT sg n t ∧ t.isConst = false := by
  obtain ⟨C, hC, -, L, hL, -, hm, h1, ⟨f, ts, rfl, hne⟩, -⟩ := h
  have hw1 := (hw C hC).1 L hL
  have hb1 := (hw C hC).2 L hL
  have key : sg.WT (.app f ts) ∧ (Term.app f ts).SymsBelow n := by
    rcases hm with h | h
    · exact sub_ok _ hw1.1 hb1.1 _ h
    · exact sub_ok _ hw1.2.1 hb1.2 _ h
  exact ⟨⟨key.1, h1, key.2⟩, by cases ts with | nil => exact absurd rfl hne | cons => rfl⟩

private theorem start_inv (hw : ∀ C ∈ Cs, sg.WTClause C ∧ ClauseBelow n C) : Inv.{u} sg Cs n ⟨[], [], n, []⟩ :=
  ⟨Nat.le_refl _, by simpa [SetOK] using hw, ⟨by simp, by simp, by simp⟩, by simp, by simpa using conv_refl _ Cs⟩

private theorem gd_inv (hs : SigOK sg) (hn : 2 < n) (ho : ∀ l t, t ∈ order l ↔ t ∈ l) (hw : ∀ C ∈ Cs, sg.WTClause C ∧ ClauseBelow n C)
    (e : gdTransform sg pp order conj pos neg all Cs n = (Ds, n', ds)) (hd : SymsDeclared sg ds) :
    ∃ s, Inv.{u} sg Cs n s ∧ Ds = Cs ++ s.out ∧ n' = s.next ∧ ds = s.decls ∧ ((all = true) → ∀ t, GoalTerm pp conj pos neg Cs t → Named.{u} sg n n' Ds t) ∧
      ∀ t, MaxGoalTerm pp conj pos neg Cs t → Named.{u} sg n n' Ds t := by
  simp only [gdTransform, Prod.mk.injEq] at e
  obtain ⟨rfl, rfl, rfl⟩ := e
  have hg : ∀ t ∈ order ((Cs.filter conj).flatMap (collectClause pp pos neg all)), GT sg n t ∧ t.isConst = false := fun t ht => goal_gt hw (goals_sound ((ho _ t).1 ht))
  refine ⟨_, steps_inv hs hn (goals_steps gt_closed _ (fun t ht => (hg t ht).1) _) (start_inv hw) hd, rfl, rfl, rfl, ?_, ?_⟩
  · rintro rfl t ht
    obtain ⟨k, h1, h2⟩ := goals_named.{u} hs hn _ (start_inv hw) hg hd t ((ho _ t).2 (goals_complete ht))
    exact ⟨k, h1, fun I hI => h2 I fun D hD => hI D (List.mem_append_right _ hD)⟩
  · intro t ht
    obtain ⟨k, h1, h2⟩ := goals_named.{u} hs hn _ (start_inv hw) hg hd t ((ho _ t).2 (goals_open ht))
    exact ⟨k, h1, fun I hI => h2 I fun D hD => hI D (List.mem_append_right _ hD)⟩

/-- C58: the clauses are kept, and every model of them becomes a model of the definitions, too, if the new constants get the right meaning. -/
theorem goaldefs_conservative (hs : SigOK sg) (hn : 2 < n) (ho : ∀ l t, t ∈ order l ↔ t ∈ l) (hw : ∀ C ∈ Cs, sg.WTClause C ∧ ClauseBelow n C)
    (e : gdTransform sg pp order conj pos neg all Cs n = (Ds, n', ds)) (hd : SymsDeclared sg ds) :
    (∀ C ∈ Cs, C ∈ Ds) ∧ Converts.{u} sg (CodesIn n n') Cs Ds := by
  obtain ⟨s, hi, rfl, rfl, rfl, -, -⟩ := gd_inv.{u} hs hn ho hw e hd
  exact ⟨fun C hC => List.mem_append_left _ hC, hi.conv⟩

/-- C58: hence a clause over the old symbols follows after the transformation if and only if it followed before. -/
theorem goaldefs_consequences (hs : SigOK sg) (hn : 2 < n) (ho : ∀ l t, t ∈ order l ↔ t ∈ l) (hw : ∀ C ∈ Cs, sg.WTClause C ∧ ClauseBelow n C)
    (e : gdTransform sg pp order conj pos neg all Cs n = (Ds, n', ds)) (hd : SymsDeclared sg ds) {D : List Lit} (hD : ClauseBelow n D) :
    Entails.{u} sg Ds D ↔ Entails.{u} sg Cs D := by
  obtain ⟨h1, h2⟩ := goaldefs_conservative.{u} hs hn ho hw e hd
  constructor
  · intro h I hI
    obtain ⟨F, hF, f1, f2⟩ := h2 I hI
    exact (models_reint I hF (fun s hs => f1 s fun hc => by have := hc.1; omega) hD).1 (h _ f2)
  · exact fun h I hI => h I fun C hC => hI C (h1 C hC)

/-- C58: the result is well-typed, and each new constant has a code of its own that was not in use. -/
theorem goaldefs_wellformed (hs : SigOK sg) (hn : 2 < n) (ho : ∀ l t, t ∈ order l ↔ t ∈ l) (hw : ∀ C ∈ Cs, sg.WTClause C ∧ ClauseBelow n C)
    (e : gdTransform sg pp order conj pos neg all Cs n = (Ds, n', ds)) (hd : SymsDeclared sg ds) :
    (∀ D ∈ Ds, sg.WTClause D ∧ ClauseBelow n' D) ∧ n ≤ n' ∧ (ds.map SymDecl.code).Nodup ∧ ∀ d ∈ ds, CodesIn n n' d.code := by
  obtain ⟨s, hi, rfl, rfl, rfl, -, -⟩ := gd_inv.{0} hs hn ho hw e hd
  refine ⟨hi.set, hi.le, hi.codes ▸ List.nodup_range', fun d hd => ?_⟩
  have : d.code ∈ List.range' n (s.next - n) := hi.codes ▸ List.mem_map_of_mem hd
  rw [List.mem_range'_1] at this
  exact ⟨this.1, by have := hi.le; omega⟩

/-- C58: if subterms are selected, every goal term is equal to one of the new constants in all models of the result. -/
theorem goaldefs_named (hs : SigOK sg) (hn : 2 < n) (ho : ∀ l t, t ∈ order l ↔ t ∈ l) (hw : ∀ C ∈ Cs, sg.WTClause C ∧ ClauseBelow n C)
    (e : gdTransform sg pp order conj pos neg true Cs n = (Ds, n', ds)) (hd : SymsDeclared sg ds) {t : Term} (ht : GoalTerm pp conj pos neg Cs t) :
    ∃ k, CodesIn n n' k ∧ Entails.{u} sg Ds [mkEqn true t (.app k [])] := by
  obtain ⟨s, hi, rfl, rfl, rfl, h, -⟩ := gd_inv.{u} hs hn ho hw e hd
  exact h rfl t ht

/-- C58: in any case the maximal goal terms in atoms that are not ground are equal to new constants. -/
theorem goaldefs_named_max (hs : SigOK sg) (hn : 2 < n) (ho : ∀ l t, t ∈ order l ↔ t ∈ l) (hw : ∀ C ∈ Cs, sg.WTClause C ∧ ClauseBelow n C)
    (e : gdTransform sg pp order conj pos neg all Cs n = (Ds, n', ds)) (hd : SymsDeclared sg ds) {t : Term} (ht : MaxGoalTerm pp conj pos neg Cs t) :
    ∃ k, CodesIn n n' k ∧ Entails.{u} sg Ds [mkEqn true t (.app k [])] := by
  obtain ⟨s, hi, rfl, rfl, rfl, -, h⟩ := gd_inv.{u} hs hn ho hw e hd
  exact h t ht

/-- C58: without conjectures nothing is added. -/
theorem goaldefs_nothing (h : ∀ C ∈ Cs, conj C = false) (ho : ∀ l t, t ∈ order l ↔ t ∈ l) : gdTransform sg pp order conj pos neg all Cs n = (Cs, n, []) := by
  have : Cs.filter conj = [] := List.filter_eq_nil_iff.2 fun C hC => by simp [h C hC]
  have h0 : order [] = [] := List.eq_nil_iff_forall_not_mem.2 fun t ht => by simpa using (ho [] t).1 ht
  simp [gdTransform, this, h0]

end

namespace GoalDefsEx

/-- Constant `a` (3), functions `f` (4) and `g` (5) with one argument, predicate `p` (6); type 0 are the truth values, type 1 the individuals. -/
def sig : Sig where
  fty f := if f = 1 ∨ f = 2 ∨ f = 6 then 0 else 1
  fargs f := if f = 4 ∨ f = 5 ∨ f = 6 then [1] else []
  vty _ := 1
  distinct _ := False

def a : Term := .app 3 []
def ga : Term := .app 5 [a]
def fga : Term := .app 4 [ga]
/-- `p(f(g(a)))`, negated. -/
def goal : List Lit := [⟨false, .app 6 [fga], tTrue⟩]
def pp : Term → Bool
  | .app 6 _ => true
  | _ => false

/-- `¬ p(g(f(g(a))))`. -/
def deep : List Lit := [⟨false, .app 6 [.app 5 [fga]], tTrue⟩]

/-- C58, disagreement: a term may be named twice.  The definition of a term is stored under its normal form but looked up under the term: for the goal `¬ p(g(f(g(a))))` with subterms there are the
definitions `c₇ = g(a)` and `c₈ = f(c₇)`, and when `f(g(a))` is met again, the constant `c₈` gets another name.  This is so in whichever order the terms are visited. -/
theorem goaldefs_double_name :
    gdTransform sig pp id (fun _ => true) true true true [deep] 7 =
      ([deep, [⟨true, ga, .app 7 []⟩], [⟨true, .app 4 [.app 7 []], .app 8 []⟩], [⟨true, .app 5 [.app 8 []], .app 9 []⟩], [⟨true, .app 8 [], .app 10 []⟩]], 11,
        [⟨7, [], 1⟩, ⟨8, [], 1⟩, ⟨9, [], 1⟩, ⟨10, [], 1⟩]) ∧
    gdTransform sig pp List.reverse (fun _ => true) true true true [deep] 7 =
      ([deep, [⟨true, ga, .app 7 []⟩], [⟨true, .app 4 [.app 7 []], .app 8 []⟩], [⟨true, .app 8 [], .app 9 []⟩], [⟨true, .app 5 [.app 8 []], .app 10 []⟩]], 11,
        [⟨7, [], 1⟩, ⟨8, [], 1⟩, ⟨9, [], 1⟩, ⟨10, [], 1⟩]) := by
  decide +kernel

/-- C58, disagreement: without subterms, the maximal ground terms below a ground atom are not found: nothing is named for the goal `¬ p(f(g(a)))`. -/
theorem goaldefs_ground_atom : GoalTerm pp (fun _ => true) true true [goal] fga ∧
    gdTransform sig pp id (fun _ => true) true true false [goal] 7 = ([goal], 7, []) := by
  refine ⟨⟨goal, by simp, rfl, _, List.mem_singleton.2 rfl, rfl, ?_, ?_, ⟨4, [ga], rfl, by simp⟩, rfl⟩, by decide +kernel⟩
  · left; decide +kernel
  · decide +kernel

theorem sig_ok : SigOK sig := ⟨by simp [sig], by simp [sig], by simp [sig]⟩

theorem deep_ok : ∀ C ∈ [deep], sig.WTClause C ∧ ClauseBelow 7 C := by
  intro C hC
  rw [List.mem_singleton.1 hC]
  refine ⟨fun L hL => ?_, fun L hL => ?_⟩ <;> rw [List.mem_singleton.1 hL]
  · simp [Sig.WTLit, Sig.WT, Sig.WTL, Sig.ty, sig, tTrue, fga, ga, a]
  · simp [Term.SymsBelow, Term.SymsBelowL, fga, ga, a, tTrue]

/-- The transformation of `deep` meets the conditions: the term `f(g(a))` gets a name, and consequences over the old symbols do not change. -/
example : ∃ k, CodesIn 7 11 k ∧ Entails.{u} sig (gdTransform sig pp id (fun _ => true) true true true [deep] 7).1 [mkEqn true fga (.app k [])] := by
  have e := goaldefs_double_name.1
  rw [e]
  refine goaldefs_named sig_ok (by omega) (fun _ _ => Iff.rfl) deep_ok e ?_ ⟨deep, by simp, rfl, _, List.mem_singleton.2 rfl, rfl, .inl ?_, ?_, ⟨4, [ga], rfl, by simp⟩, rfl⟩
  · intro d hd
    simp only [List.mem_cons, List.not_mem_nil, or_false] at hd
    rcases hd with rfl | rfl | rfl | rfl <;> simp [sig]
  · decide +kernel
  · decide +kernel

/-- `x ≠ f(g(a))`: here `f(g(a))` is a maximal goal term and gets a name. -/
example : ∃ k, CodesIn 7 8 k ∧ Entails.{u} sig (gdTransform sig pp id (fun _ => true) true true false [[⟨false, .var 0, fga⟩]] 7).1 [mkEqn true fga (.app k [])] := by
  have e : gdTransform sig pp id (fun _ => true) true true false [[⟨false, .var 0, fga⟩]] 7 = ([[⟨false, .var 0, fga⟩], [⟨true, fga, .app 7 []⟩]], 8, [⟨7, [], 1⟩]) := by decide +kernel
  rw [e]
  refine goaldefs_named_max sig_ok (by omega) (fun _ _ => Iff.rfl) ?_ e ?_ ⟨_, List.mem_singleton.2 rfl, rfl, _, List.mem_singleton.2 rfl, rfl, .inr .here, ?_, ⟨4, [ga], rfl, by simp⟩, rfl⟩
  · intro C hC
    rw [List.mem_singleton.1 hC]
    refine ⟨fun L hL => ?_, fun L hL => ?_⟩ <;> rw [List.mem_singleton.1 hL]
    · simp [Sig.WTLit, Sig.WT, Sig.WTL, Sig.ty, sig, fga, ga, a]
    · simp [Term.SymsBelow, Term.SymsBelowL, fga, ga, a]
  · intro d hd
    rw [List.mem_singleton.1 hd]
    simp [sig]
  · decide +kernel

example := goaldefs_nothing (sg := sig) (pp := pp) (order := id) (conj := fun _ => false) (pos := true) (neg := true) (all := true) (Cs := [deep]) (n := 7) (by simp) (fun _ _ => Iff.rfl)

end GoalDefsEx

end Verif.Props
