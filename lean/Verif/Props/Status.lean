import Verif.Control.Status
import Verif.Props.Saturate
import Mathlib.Logic.Relation
import Mathlib.Tactic.SplitIfs

/-!
# C38: the reported status
-/

namespace Verif.Props
open Verif Relation SaturateProof

universe u
variable {sg : Sig} {m : Bool} {input : List (List Lit)} {o : MainOpts} {f : MainFacts} {s fin : SatState}

/-- The statuses that claim a refutation, and the exit code that goes with each status (the manual: 0 if a proof was found, 1 for
saturation, 9 for resource limits, 10 if the prover gave up). -/
def Szs.refuted (z : Szs) : Prop := z = .thm ∨ z = .contradictoryAxioms ∨ z = .unsatisfiable

def Szs.saturated (z : Szs) : Prop := z = .satisfiable ∨ z = .counterSatisfiable

def Szs.exit : Szs → Nat
  | .thm | .contradictoryAxioms | .unsatisfiable | .unknown => 0
  | .satisfiable | .counterSatisfiable => 1
  | .resourceOut => 9
  | .gaveUp => 10

/-- The possible reports. -/
private inductive Report (o : MainOpts) (f : MainFacts) (s fin : SatState) : List Szs × Nat → Prop
  | none : o.appEncode = true ∨ (o.syntaxOnly = true ∧ o.printFormulas = true) → Report o f s fin ([], 0)
  | unknown : Report o f s fin ([.unknown], 0)
  | answer : f.answers.any id = true → f.answers ≠ [] → Report o f s fin ([.thm], 0)
  | proof : f.answers.any id = false → fin.success = true ∨ f.answers ≠ [] → Report o f s fin
      ([if f.negConj = 0 then .unsatisfiable else if f.hasConj then .thm else .contradictoryAxioms], 0)
  | watch : Report o f s fin ([.resourceOut], 9)
  | resource : s.unproc ≠ [] → Report o f s fin (if o.silent then [] else [.resourceOut], 9)
  | gaveUp : Report o f s fin (if o.silent then [] else [.gaveUp], 10)
  | saturated : s.unproc = [] → stateComplete o f s = true → infSysComplete o f = true → f.interpreted = false → f.higherOrder = false →
      fin.success = false → f.answers = [] → Report o f s fin ([if f.negConj = 0 then .satisfiable else .counterSatisfiable], 1)

private theorem failure_cases (h1 : fin.success = false) (h2 : f.answers = []) :
    Report o f s fin (reportFailure o f s.unproc.isEmpty (stateComplete o f s)) := by
  unfold reportFailure
  dsimp only [exitResourceOut, exitSatisfiable, exitIncomplete]
  by_cases ha : s.unproc.isEmpty = true
  · rw [if_pos ha]
    split
    · exact .gaveUp
    · split
      · exact .gaveUp
      · next h =>
        split
        · next h' =>
          rw [ite_not]
          simp only [Bool.and_eq_true, Bool.not_eq_true'] at h h'
          refine .saturated (List.isEmpty_iff.1 ha) h'.1.2 h'.2 ?_ h'.1.1 h1 h2
          rw [← Bool.not_eq_true]
          exact fun e => h ⟨⟨h'.1.2, h'.2⟩, e⟩
        · exact .gaveUp
  · rw [if_neg ha]
    exact .resource fun e => ha (by rw [e]; rfl)

private theorem main_cases : Report o f s fin (mainReport o f s fin) := by
  unfold mainReport
  dsimp only [exitNoError, exitProofFound, exitResourceOut]
  split
  · next h1 =>
    split
    · next h2 => exact .none (.inr ⟨h1, h2⟩)
    · exact .unknown
  · split
    · next h => exact .none (.inl h)
    · split
      · exact .unknown
      · split
        · next h =>
          have h' : fin.success = true ∨ f.answers ≠ [] := by
            rw [Bool.or_eq_true] at h
            rcases h with h | h
            · exact .inl h
            · exact .inr fun e => by simp [e] at h
          cases e : f.answers.any id with
          | true => exact .answer e fun e' => by simp [e'] at e
          | false =>
            have := Report.proof (s := s) (o := o) e h'
            unfold reportProof
            split at this <;> simp_all
        · next h =>
          simp only [Bool.or_eq_true, decide_eq_true_eq, not_or, Bool.not_eq_true, ne_eq, not_not] at h
          split
          · exact .watch
          · split
            · exact .unknown
            · exact failure_cases h.1 (List.length_eq_zero_iff.1 h.2)

/-- At most one status line is printed; none only with the options for silence or for other output. -/
theorem status_once (o : MainOpts) (f : MainFacts) (s fin : SatState) :
    (mainReport o f s fin).1.length ≤ 1 ∧
    ((mainReport o f s fin).1 = [] → o.silent = true ∨ o.appEncode = true ∨ (o.syntaxOnly = true ∧ o.printFormulas = true)) := by
  have := @main_cases o f s fin
  generalize mainReport o f s fin = r at this
  cases this <;> grind

/-- The exit code fits the status line, and is 9 or 10 if none is printed for silence. -/
theorem status_exit (o : MainOpts) (f : MainFacts) (s fin : SatState) :
    (∀ z ∈ (mainReport o f s fin).1, (mainReport o f s fin).2 = Szs.exit z) ∧
    ((mainReport o f s fin).1 = [] → (mainReport o f s fin).2 = 0 ∧ (o.appEncode = true ∨ o.syntaxOnly = true) ∨
      (mainReport o f s fin).2 = 9 ∨ (mainReport o f s fin).2 = 10) := by
  have := @main_cases o f s fin
  generalize mainReport o f s fin = r at this
  cases this <;> grind [Szs.exit]

/-- **C38.** `Satisfiable` or `CounterSatisfiable` is only reported if no clause is left, none was deleted for resource reasons, no axiom
was pruned, the calculus was not restricted, the problem is first-order, there are no interpreted symbols, and neither a
refutation nor an answer was found. -/
theorem status_satisfiable {z : Szs} (hz : z ∈ (mainReport o f s fin).1) (h : Szs.saturated z) :
    s.unproc = [] ∧ s.complete = true ∧ f.pruned = 0 ∧ o.incomplete = false ∧
    o.eqFactoring = true ∧ o.negUnitPM = true ∧ o.noGeneration = false ∧ o.eqMax = false ∧
    f.higherOrder = false ∧ f.interpreted = false ∧ f.unimplemented = false ∧ fin.success = false ∧ f.answers = [] ∧
    (z = .counterSatisfiable ↔ f.negConj ≠ 0) := by
  have := @main_cases o f s fin
  unfold Szs.saturated at h
  generalize mainReport o f s fin = r at this hz
  cases this
  case saturated h1 h2 h3 h4 h5 h6 h7 =>
    unfold stateComplete at h2
    unfold infSysComplete at h3
    simp only [List.mem_singleton] at hz
    grind
  all_goals exfalso; grind

/-- **C38.** The converse: if all that holds, then it is reported (and not `GaveUp`). -/
theorem status_satisfiable_complete (h1 : s.unproc = []) (h2 : s.complete = true) (h3 : f.pruned = 0) (h4 : o.incomplete = false)
    (h5 : o.eqFactoring = true) (h6 : o.negUnitPM = true) (h7 : o.noGeneration = false) (h8 : o.eqMax = false)
    (h9 : f.higherOrder = false) (h10 : f.interpreted = false) (h11 : f.unimplemented = false) (h12 : fin.success = false)
    (h13 : f.answers = []) (hw : f.watch ≠ some true) (hm : o.cnfOnly = false ∧ o.syntaxOnly = false ∧ o.appEncode = false ∧ o.pruneOnly = false) :
    (mainReport o f s fin).1 = [if f.negConj ≠ 0 then .counterSatisfiable else .satisfiable] := by
  unfold mainReport reportFailure reportProof
  simp [stateComplete, infSysComplete, h1, h2, h3, h4, h5, h6, h7, h8, h9, h10, h11, h12, h13, hw, hm]

/-- **C38.** `Satisfiable` or `CounterSatisfiable` at the end of any run of the saturation loop: the processed clauses (with the former
demodulators and AC axioms, see C37) are equivalent to the input. -/
theorem status_satisfiable_equivalent (hsg : SigOK sg) (ha : AltTyped sg) (hin : ∀ C ∈ input, sg.WTClause C) (hr : SReach sg true input s)
    (hi : s.given = none ∧ s.active = none ∧ s.tmp = []) {z : Szs} (hz : z ∈ (mainReport o f s fin).1) (h : Szs.saturated z)
    (I : Interp.{u} sg) : (∀ C ∈ s.proc ++ s.links ++ s.ac, I.Models C) ↔ ∀ C ∈ input, I.Models C := by
  obtain ⟨h1, h2, -⟩ := status_satisfiable hz h
  rw [← simplification_equivalent_partial.{u} hsg ha hin hr h2 I]
  simp [SatState.core, hi, h1]

/-- **C38.** A status that claims a refutation is only reported if the empty clause was found or, when answers are asked for, a clause of
answer literals. -/
theorem status_refuted {z : Szs} (hz : z ∈ (mainReport o f s fin).1) (h : Szs.refuted z) : fin.success = true ∨ f.answers ≠ [] := by
  have := @main_cases o f s fin
  unfold Szs.refuted at h
  generalize mainReport o f s fin = r at this hz
  cases this <;> grind

/-- **C38.** In that case, if no answers were asked for, the input has no model. -/
theorem status_refuted_sound (hsg : SigOK sg) (ha : AltTyped sg) (hin : ∀ C ∈ input, sg.WTClause C) (hr : SReach sg m input fin)
    (hans : f.answers = []) {z : Szs} (hz : z ∈ (mainReport o f s fin).1) (h : Szs.refuted z) :
    ¬ ∃ I : Interp.{u} sg, ∀ C ∈ input, I.Models C :=
  saturation_refutes hsg ha hin hr ((status_refuted hz h).resolve_right (by simp [hans]))

/-- **C38.** If the empty clause was found, that is reported, and which of the three statuses it is depends on the conjectures. -/
theorem status_kind (hm : o.syntaxOnly = false ∧ o.appEncode = false ∧ o.pruneOnly = false) (hs : fin.success = true)
    (hans : f.answers.any id = false) :
    (mainReport o f s fin).1 = [if f.negConj = 0 then .unsatisfiable else if f.hasConj then .thm else .contradictoryAxioms] := by
  unfold mainReport reportProof
  simp only [hm, hs, hans, Bool.true_or, if_true, Bool.false_eq_true, if_false, List.nil_append]
  by_cases h : f.negConj = 0 <;> simp [h]

/-- With answer literals in the clause that is found the status is `Theorem`, whatever was said about conjectures. -/
theorem status_answer (hm : o.syntaxOnly = false ∧ o.appEncode = false ∧ o.pruneOnly = false) (hans : f.answers.any id = true) :
    (mainReport o f s fin).1 = [.thm] := by
  have h : f.answers.length ≠ 0 := by
    intro h
    simp [List.length_eq_zero_iff.1 h] at hans
  unfold mainReport reportProof
  simp only [hm, hans, h, Bool.false_eq_true, if_false, if_true, ne_eq, not_false_eq_true, decide_true, Bool.or_true]
  rfl

/-- The option `--assume-completeness` has no effect on status and exit code, although it is documented to make the prover claim
satisfiability for restricted calculi (PROVER/e_options.h:945-953). -/
theorem assume_completeness_ineffective (o : MainOpts) (f : MainFacts) (s fin : SatState) (b : Bool) :
    mainReport { o with assume := b } f s fin = mainReport o f s fin := by
  have key : ∀ x y, reportFailure { o with assume := b } f x y = reportFailure o f x y := by
    intro x y
    have hc : infSysComplete { o with assume := b } f = infSysComplete o f := rfl
    unfold reportFailure
    dsimp only
    rw [hc]
    cases infSysComplete o f <;> cases y <;> simp
  have hc : stateComplete { o with assume := b } f s = stateComplete o f s := rfl
  unfold mainReport
  rw [key, hc]

/-! ## Conjectures in the derivation -/

variable {g : DGraph} {roots : List Nat}

/-- `p` is used in the derivation of `n`. -/
def DGraph.Uses (g : DGraph) (n p : Nat) : Prop := ∃ t ∈ g.steps n, p ∈ t.args

/-- Derivations refer to older clauses only, and a plain copy has the type of its original. -/
structure DGraph.OK (g : DGraph) : Prop where
  older : ∀ n p, DGraph.Uses g n p → p < n
  copy : ∀ n p, g.steps n = [⟨true, [p]⟩] → g.conj n = g.conj p

/-- The clause a copy stems from. -/
inductive DGraph.Origin (g : DGraph) : Nat → Nat → Prop
  | refl {n : Nat} : (∀ p, g.steps n ≠ [⟨true, [p]⟩]) → DGraph.Origin g n n
  | copy {n p q : Nat} : g.steps n = [⟨true, [p]⟩] → DGraph.Origin g p q → DGraph.Origin g n q

private theorem dummy_some {n p : Nat} : g.dummy n = some p ↔ g.steps n = [⟨true, [p]⟩] := by
  unfold DGraph.dummy
  split
  · next h => rw [h]; simp
  · next h => simp; exact fun e => h p e

private theorem first_origin (hg : DGraph.OK g) : ∀ k n, n ≤ k → DGraph.Origin g n (g.first k n) := by
  intro k
  induction k with
  | zero =>
    intro n hn
    obtain rfl : n = 0 := by omega
    refine .refl fun p e => ?_
    have := hg.older 0 p ⟨⟨true, [p]⟩, by rw [e]; simp, by simp⟩
    omega
  | succ k ih =>
    intro n hn
    unfold DGraph.first
    cases e : g.dummy n with
    | none => exact .refl fun p e' => by rw [dummy_some.2 e'] at e; cases e
    | some p =>
      have e' := dummy_some.1 e
      have := hg.older n p ⟨⟨true, [p]⟩, by rw [e']; simp, by simp⟩
      exact .copy e' (ih p (by omega))

private theorem DGraph.Origin.conj (hg : DGraph.OK g) {n q : Nat} (h : DGraph.Origin g n q) : g.conj n = g.conj q := by
  induction h with
  | refl => rfl
  | copy h _ ih => rw [hg.copy _ _ h, ih]

private theorem DGraph.Origin.uses {n q : Nat} (h : DGraph.Origin g n q) : ReflTransGen (DGraph.Uses g) n q := by
  induction h with
  | refl => exact .refl
  | @copy n p q h _ ih => exact ih.head ⟨⟨true, [p]⟩, by rw [h]; simp, by simp⟩

private theorem DGraph.Origin.notCopy {n q : Nat} (h : DGraph.Origin g n q) : ∀ p, g.steps q ≠ [⟨true, [p]⟩] := by
  induction h with
  | refl h => exact h
  | copy _ _ ih => exact ih

private theorem DGraph.Origin.unique {n q q' : Nat} (h : DGraph.Origin g n q) (h' : DGraph.Origin g n q') : q = q' := by
  induction h with
  | refl h => cases h' with
    | refl => rfl
    | copy e => exact absurd e (h _)
  | copy e _ ih => cases h' with
    | refl h => exact absurd e (h _)
    | copy e' h'' =>
      rw [e] at e'
      obtain rfl : _ = _ := by simpa using e'
      exact ih h''

/-- Parent after skipping copies. -/
private def Opt (g : DGraph) (n q : Nat) : Prop := ∃ p, DGraph.Uses g n p ∧ DGraph.Origin g p q

private theorem mem_parents (hg : DGraph.OK g) {n q : Nat} : q ∈ g.parents n ↔ Opt g n q := by
  unfold DGraph.parents
  rw [List.mem_flatMap]
  constructor
  · rintro ⟨t, ht, hq⟩
    obtain ⟨p, hp, rfl⟩ := List.mem_map.1 hq
    exact ⟨p, ⟨t, ht, hp⟩, first_origin hg p p le_rfl⟩
  · rintro ⟨p, ⟨t, ht, hp⟩, ho⟩
    exact ⟨t, ht, List.mem_map.2 ⟨p, hp, (first_origin hg p p le_rfl).unique ho⟩⟩

theorem DGraph.origin_first (hg : DGraph.OK g) (n : Nat) : DGraph.Origin g n (g.first n n) := first_origin hg n n le_rfl

theorem DGraph.origin_unique {n q q' : Nat} (h : DGraph.Origin g n q) (h' : DGraph.Origin g n q') : q = q' := h.unique h'

theorem DGraph.origin_le (hg : DGraph.OK g) {n q : Nat} (h : DGraph.Origin g n q) : q ≤ n := by
  induction h with
  | refl => exact le_rfl
  | @copy n p q h _ ih => exact ih.trans (hg.older n p ⟨⟨true, [p]⟩, by rw [h]; simp, by simp⟩).le

theorem DGraph.mem_parents_iff (hg : DGraph.OK g) {n q : Nat} : q ∈ g.parents n ↔ ∃ p, DGraph.Uses g n p ∧ DGraph.Origin g p q :=
  mem_parents hg

private theorem opt_uses {n q : Nat} (h : Opt g n q) : TransGen (DGraph.Uses g) n q := by
  obtain ⟨p, hp, ho⟩ := h
  exact TransGen.head' hp ho.uses

/-- A used clause is a copy of one reached by skipping copies. -/
private theorem uses_opt (hg : DGraph.OK g) {n a : Nat} (h : TransGen (DGraph.Uses g) n a) (hn : ∀ p, g.steps n ≠ [⟨true, [p]⟩]) :
    ∃ q, DGraph.Origin g a q ∧ TransGen (Opt g) n q := by
  induction h with
  | single h => exact ⟨_, first_origin hg _ _ le_rfl, .single ⟨_, h, first_origin hg _ _ le_rfl⟩⟩
  | @tail b c _ h2 ih =>
    obtain ⟨q, ho, ht⟩ := ih
    cases ho with
    | refl hb => exact ⟨_, first_origin hg _ _ le_rfl, .tail ht ⟨_, h2, first_origin hg _ _ le_rfl⟩⟩
    | @copy _ p _ e ho =>
      obtain ⟨t, ht', hp⟩ := h2
      rw [e] at ht'
      obtain rfl := List.mem_singleton.1 ht'
      obtain rfl := List.mem_singleton.1 hp
      exact ⟨q, ho, ht⟩

/-- What holds during the marking. -/
private structure Inv (g : DGraph) (R : List Nat) (mks st : List Nat) (hc : Bool) : Prop where
  reach : ∀ n ∈ mks, ∃ r ∈ R, g.isEmpty r = true ∧ ReflTransGen (Opt g) r n
  stack : ∀ n ∈ st, n ∈ R ∨ n ∈ mks
  found : hc = true → ∃ r ∈ R, g.isEmpty r = true ∧ ∃ a, TransGen (Opt g) r a ∧ g.conj a = true
  done : ∀ n, g.inProof mks n = true → (n ∈ R ∨ n ∈ mks) → n ∈ st ∨ ∀ p, Opt g n p → g.inProof mks p = true ∧ (g.conj p = true → hc = true)

private theorem inProof_mono {mks : List Nat} {p n : Nat} (h : g.inProof mks n = true) : g.inProof (p :: mks) n = true := by
  unfold DGraph.inProof at *
  simp only [Bool.or_eq_true, List.contains_cons] at *
  tauto

private theorem visit_spec (ps mks st : List Nat) (hc : Bool) :
    let r := g.visit ps mks st hc
    (∀ n, n ∈ r.1 ↔ n ∈ mks ∨ (n ∈ ps ∧ g.inProof mks n = false)) ∧
    (∀ n, n ∈ r.2.1 ↔ n ∈ st ∨ (n ∈ ps ∧ g.inProof mks n = false)) ∧
    (r.2.2 = true ↔ hc = true ∨ ∃ p ∈ ps, g.conj p = true) := by
  induction ps generalizing mks st hc with
  | nil => simp [DGraph.visit]
  | cons p ps ih =>
    unfold DGraph.visit
    split
    · next h =>
      obtain ⟨h1, h2, h3⟩ := ih mks st (hc || g.conj p)
      refine ⟨fun n => ?_, fun n => ?_, ?_⟩
      · rw [h1 n]; grind
      · rw [h2 n]; grind
      · rw [h3]; grind
    · next h =>
      obtain ⟨h1, h2, h3⟩ := ih (p :: mks) (p :: st) (hc || g.conj p)
      have key : ∀ n, g.inProof (p :: mks) n = false ↔ g.inProof mks n = false ∧ n ≠ p := by
        intro n
        unfold DGraph.inProof
        simp only [List.contains_cons]
        grind
      refine ⟨fun n => ?_, fun n => ?_, ?_⟩
      · rw [h1 n, key]; grind
      · rw [h2 n, key]; grind
      · rw [h3]; grind

private theorem inv_loop (hg : DGraph.OK g) {R : List Nat}
    (hE : ∀ r ∈ R, g.isEmpty r = true → ∀ n, TransGen (Opt g) r n → g.isEmpty n = true → n ∈ R) :
    ∀ k mks st hc res, Inv g R mks st hc → g.markLoop k mks st hc = some res →
      (res = true ↔ ∃ r ∈ R, g.isEmpty r = true ∧ ∃ a, TransGen (Opt g) r a ∧ g.conj a = true) := by
  intro k
  induction k with
  | zero => intro mks st hc res _ h; simp [DGraph.markLoop] at h
  | succ k ih =>
    intro mks st hc res hI h
    cases st with
    | nil =>
      obtain rfl : hc = res := by simpa [DGraph.markLoop] using h
      refine ⟨hI.found, ?_⟩
      rintro ⟨r, hr, hre, a, ha, hca⟩
      have hr0 : g.inProof mks r = true := by simp [DGraph.inProof, hre]
      have key : ∀ n, TransGen (Opt g) r n → g.inProof mks n = true ∧ (g.conj n = true → hc = true) := by
        intro n hn
        induction hn with
        | single h => exact ((hI.done r hr0 (.inl hr)).resolve_left (by simp)) _ h
        | @tail b c hb h ih =>
          have hm : b ∈ R ∨ b ∈ mks := by
            have := ih.1
            simp only [DGraph.inProof, Bool.or_eq_true, List.contains_iff_mem] at this
            exact this.imp (hE r hr hre b hb) id
          exact ((hI.done b ih.1 hm).resolve_left (by simp)) _ h
      exact (key a ha).2 hca
    | cons n st =>
      unfold DGraph.markLoop at h
      split at h
      · next hn =>
        obtain ⟨v1, v2, v3⟩ := @visit_spec g (g.parents n) mks st hc
        refine ih _ _ _ _ ?_ h
        obtain ⟨r0, hr0, hr0e, hr0n⟩ : ∃ r ∈ R, g.isEmpty r = true ∧ ReflTransGen (Opt g) r n := by
          simp only [DGraph.inProof, Bool.or_eq_true, List.contains_iff_mem] at hn
          rcases hn with he | hm
          · rcases hI.stack n (by simp) with h' | h'
            · exact ⟨n, h', he, .refl⟩
            · exact hI.reach n h'
          · exact hI.reach n hm
        have hin : ∀ x, g.inProof (g.visit (g.parents n) mks st hc).1 x = true ↔ g.inProof mks x = true ∨ x ∈ g.parents n := by
          intro x
          simp only [DGraph.inProof, Bool.or_eq_true, List.contains_iff_mem, v1]
          constructor
          · rintro (h | h | h)
            · exact .inl (.inl h)
            · exact .inl (.inr h)
            · exact .inr h.1
          · rintro ((h | h) | h)
            · exact .inl h
            · exact .inr (.inl h)
            · by_cases hx : g.inProof mks x = true
              · simp only [DGraph.inProof, Bool.or_eq_true, List.contains_iff_mem] at hx
                exact hx.imp id .inl
              · exact .inr (.inr ⟨h, by simpa [DGraph.inProof] using hx⟩)
        refine ⟨fun x hx => ?_, fun x hx => ?_, fun e => ?_, fun x hx hxm => ?_⟩
        · rcases (v1 x).1 hx with hx | ⟨hx, -⟩
          · exact hI.reach x hx
          · exact ⟨r0, hr0, hr0e, hr0n.tail ((mem_parents hg).1 hx)⟩
        · rcases (v2 x).1 hx with hx | hx
          · exact (hI.stack x (by simp [hx])).imp id fun h => (v1 x).2 (.inl h)
          · exact .inr ((v1 x).2 (.inr hx))
        · rcases v3.1 e with e | ⟨p, hp, hc⟩
          · exact hI.found e
          · exact ⟨r0, hr0, hr0e, p, TransGen.tail' hr0n ((mem_parents hg).1 hp), hc⟩
        · by_cases hold : g.inProof mks x = true
          · have hxm' : x ∈ R ∨ x ∈ mks := by
              rcases hxm with h | h
              · exact .inl h
              · rcases (v1 x).1 h with h | ⟨-, h⟩
                · exact .inr h
                · rw [hold] at h; cases h
            by_cases hxn : x = n
            · refine .inr fun p hp => ⟨(hin p).2 (.inr ?_), fun hc => v3.2 (.inr ⟨p, ?_, hc⟩)⟩
              · exact (mem_parents hg).2 (hxn ▸ hp)
              · exact (mem_parents hg).2 (hxn ▸ hp)
            · rcases hI.done x hold hxm' with h' | h'
              · exact .inl ((v2 x).2 (.inl (by simpa [hxn] using h')))
              · exact .inr fun p hp => ⟨(hin p).2 (.inl (h' p hp).1), fun hc => v3.2 (.inl ((h' p hp).2 hc))⟩
          · exact .inl ((v2 x).2 (.inr ⟨((hin x).1 hx).resolve_left hold, by simpa using hold⟩))
      · next hn =>
        refine ih _ _ _ _ ⟨hI.reach, fun x hx => hI.stack x (by simp [hx]), hI.found, fun x hx hxm => ?_⟩ h
        rcases hI.done x hx hxm with h' | h'
        · rcases List.mem_cons.1 h' with rfl | h'
          · exact absurd hx hn
          · exact .inl h'
        · exact .inr h'

/-- **C38.** `has_conjecture` (so `Theorem` rather than `ContradictoryAxioms`) holds exactly if a conjecture occurs among
the ancestors of an empty clause that was found.  Premise: no other empty clause is an ancestor of it. -/
theorem conjecture_found (hg : DGraph.OK g) {k : Nat} {res : Bool} (h : g.hasConjecture k roots = some res)
    (hE : ∀ r ∈ roots, ∀ r', DGraph.Origin g r r' → g.isEmpty r' = true → ∀ n, TransGen (DGraph.Uses g) r' n → g.isEmpty n = false) :
    res = true ↔ ∃ r ∈ roots, ∃ r', DGraph.Origin g r r' ∧ g.isEmpty r' = true ∧ ∃ a, TransGen (DGraph.Uses g) r' a ∧ g.conj a = true := by
  have hm : ∀ x, x ∈ (roots.map fun r => g.first r r).reverse ↔ ∃ r ∈ roots, DGraph.Origin g r x := by
    intro x
    rw [List.mem_reverse, List.mem_map]
    constructor
    · rintro ⟨r, hr, rfl⟩
      exact ⟨r, hr, first_origin hg r r le_rfl⟩
    · rintro ⟨r, hr, ho⟩
      exact ⟨r, hr, (first_origin hg r r le_rfl).unique ho⟩
  have hup : ∀ {x y}, TransGen (Opt g) x y → TransGen (DGraph.Uses g) x y := fun h => TransGen.closed (fun _ _ => opt_uses) _ _ h
  unfold DGraph.hasConjecture at h
  rw [inv_loop hg (R := (roots.map fun r => g.first r r).reverse) ?_ k _ _ _ _ ?_ h]
  · constructor
    · rintro ⟨r', hr', he, a, ha, hc⟩
      obtain ⟨r, hr, ho⟩ := (hm r').1 hr'
      exact ⟨r, hr, r', ho, he, a, hup ha, hc⟩
    · rintro ⟨r, hr, r', ho, he, a, ha, hc⟩
      obtain ⟨q, hq, ht⟩ := uses_opt hg ha ho.notCopy
      exact ⟨r', (hm r').2 ⟨r, hr, ho⟩, he, q, ht, by rw [← hq.conj hg]; exact hc⟩
  · intro r' hr' he n hn hne
    obtain ⟨r, hr, ho⟩ := (hm r').1 hr'
    have := hE r hr r' ho he n (hup hn)
    rw [hne] at this; cases this
  · refine ⟨by simp, fun n hn => .inl hn, by simp, fun n hp hn => ?_⟩
    simp only [List.not_mem_nil, or_false] at hn
    exact .inl hn

private theorem visit_len (ps : List Nat) : ∀ mks st hc, mks.Nodup →
    (g.visit ps mks st hc).1.Nodup ∧ (g.visit ps mks st hc).2.1.length + mks.length = st.length + (g.visit ps mks st hc).1.length := by
  induction ps with
  | nil => intro mks st hc h; exact ⟨h, by simp [DGraph.visit]⟩
  | cons p ps ih =>
    intro mks st hc h
    unfold DGraph.visit
    split
    · exact ih mks st _ h
    · next hp =>
      have hp' : p ∉ mks := by
        intro e
        apply hp
        simp [DGraph.inProof, e]
      obtain ⟨h1, h2⟩ := ih (p :: mks) (p :: st) (hc || g.conj p) (List.nodup_cons.2 ⟨hp', h⟩)
      refine ⟨h1, ?_⟩
      simp only [List.length_cons] at h2
      omega

private theorem origin_le (hg : DGraph.OK g) {n q : Nat} (h : DGraph.Origin g n q) : q ≤ n := by
  induction h with
  | refl => exact le_rfl
  | @copy n p q e _ ih =>
    have := hg.older n p ⟨⟨true, [p]⟩, by rw [e]; simp, by simp⟩
    omega

private theorem loop_terminates (hg : DGraph.OK g) (N : Nat) : ∀ k mks st hc, mks.Nodup → (∀ x ∈ mks, x < N) → (∀ x ∈ st, x < N) →
    st.length + N < k + mks.length → (g.markLoop k mks st hc).isSome = true := by
  have hlen : ∀ mks : List Nat, mks.Nodup → (∀ x ∈ mks, x < N) → mks.length ≤ N := by
    intro mks hn hm
    have := (hn.subperm (l₂ := List.range N) fun x hx => List.mem_range.2 (hm x hx)).length_le
    simpa using this
  intro k
  induction k with
  | zero =>
    intro mks st hc hn hm _ hk
    have := hlen mks hn hm
    omega
  | succ k ih =>
    intro mks st hc hn hm hs hk
    cases st with
    | nil => simp [DGraph.markLoop]
    | cons n st =>
      unfold DGraph.markLoop
      split
      · obtain ⟨v1, v2, -⟩ := @visit_spec g (g.parents n) mks st hc
        obtain ⟨l1, l2⟩ := @visit_len g (g.parents n) mks st hc hn
        have hp : ∀ x ∈ g.parents n, x < N := by
          intro x hx
          obtain ⟨p, hp, ho⟩ := (mem_parents hg).1 hx
          have := origin_le hg ho
          have := hg.older n p hp
          have := hs n (by simp)
          omega
        refine ih _ _ _ l1 (fun x hx => ?_) (fun x hx => ?_) ?_
        · rcases (v1 x).1 hx with h | h
          · exact hm x h
          · exact hp x h.1
        · rcases (v2 x).1 hx with h | h
          · exact hs x (by simp [h])
          · exact hp x h.1
        · simp only [List.length_cons] at hk
          omega
      · refine ih _ _ _ hn hm (fun x hx => hs x (by simp [hx])) ?_
        simp only [List.length_cons] at hk
        omega

/-- The marking terminates for all derivations. -/
theorem conjecture_terminates (hg : DGraph.OK g) (roots : List Nat) : ∃ k res, g.hasConjecture k roots = some res := by
  obtain ⟨N, hN⟩ : ∃ N, ∀ x ∈ (roots.map fun r => g.first r r).reverse, x < N := by
    refine ⟨(roots.map fun r => g.first r r).sum + 1, fun x hx => ?_⟩
    have := List.le_sum_of_mem (List.mem_reverse.1 hx)
    omega
  refine ⟨(roots.map fun r => g.first r r).reverse.length + N + 1, ?_⟩
  have := loop_terminates hg N ((roots.map fun r => g.first r r).reverse.length + N + 1) [] _ false List.nodup_nil (by simp) hN (by simp)
  exact Option.isSome_iff_exists.1 this

/-! ## Examples -/

namespace StatusEx

/-- 0: a conjecture, 1: its negation, 2: a clause of it, 3: an axiom, 4: a copy of 2, 5: the empty clause from 3 and 4, 6: a copy of 5,
7: another empty clause from 3 alone. -/
def gEx : DGraph where
  steps n := match n with
    | 1 => [⟨false, [0]⟩]
    | 2 => [⟨false, [1]⟩]
    | 4 => [⟨true, [2]⟩]
    | 5 => [⟨false, [3, 4]⟩, ⟨false, [3]⟩]
    | 6 => [⟨true, [5]⟩]
    | 7 => [⟨false, [3, 3]⟩]
    | _ => []
  isEmpty n := n == 5 || n == 6 || n == 7
  conj n := n == 0

theorem gEx_ok : DGraph.OK gEx := by
  constructor
  · rintro n p ⟨t, ht, hp⟩
    unfold gEx at ht
    dsimp only at ht
    split at ht <;> simp at ht
    all_goals first
      | (subst ht; simp at hp; omega)
      | (rcases ht with rfl | rfl <;> simp at hp <;> omega)
  · intro n p h
    unfold gEx at h
    dsimp only at h
    split at h <;> simp at h
    all_goals (subst h; rfl)

/-- The conjecture is found from root 6, not from root 7. -/
example : gEx.hasConjecture 20 [6] = some true ∧ gEx.hasConjecture 20 [7] = some false := by decide +kernel

example : ∀ r ∈ [6], ∀ r', DGraph.Origin gEx r r' → gEx.isEmpty r' = true → ∀ n, TransGen (DGraph.Uses gEx) r' n → gEx.isEmpty n = false := by
  intro r hr r' ho _ n hn
  obtain rfl := List.mem_singleton.1 hr
  obtain rfl : r' = 5 := ho.unique (.copy rfl (.refl fun p e => by simp [gEx] at e))
  have : n < 5 := by
    clear ho hr
    induction hn with
    | single h => exact gEx_ok.older _ _ h
    | tail _ h ih => exact lt_trans (gEx_ok.older _ _ h) ih
  unfold gEx
  simp
  omega

/-- A run that ends with the empty clause: `Unsatisfiable`, exit code 0; with a conjecture in the proof `Theorem`. -/
example : mainReport {} {} ⟨[], none, none, [], [], [], [], true, true⟩ ⟨[], none, none, [], [], [], [], true, true⟩ = ([.unsatisfiable], 0) ∧
    mainReport {} { negConj := 1, hasConj := true } ⟨[], none, none, [], [], [], [], true, true⟩
      ⟨[], none, none, [], [], [], [], true, true⟩ = ([.thm], 0) := by decide

/-- Saturation: `CounterSatisfiable`; but `GaveUp` after pruning. -/
example : mainReport {} { negConj := 1 } ⟨[SatEx.eqAB], none, none, [], [], [], [], true, false⟩
      ⟨[SatEx.eqAB], none, none, [], [], [], [], true, false⟩ = ([.counterSatisfiable], 1) ∧
    mainReport {} { negConj := 1, pruned := 3 } ⟨[SatEx.eqAB], none, none, [], [], [], [], true, false⟩
      ⟨[SatEx.eqAB], none, none, [], [], [], [], true, false⟩ = ([.gaveUp], 10) := by decide

/-- The premises of `status_refuted_sound` and `status_satisfiable_equivalent` are met by runs of the loop. -/
example : ¬ ∃ I : Interp.{u} SatEx.sSig, ∀ C ∈ [SatEx.eqAB, SatEx.neBA], I.Models C :=
  status_refuted_sound (m := true) (o := {}) (f := {}) (s := SatEx.s1) (z := .unsatisfiable) SatEx.sSig_ok SatEx.sSig_alt SatEx.sIn_wt
    SatEx.reach_success rfl (by decide) (.inr (.inr rfl))

/-- `a = b` alone is saturated. -/
def s2 : SatState := ⟨[SatEx.eqAB], none, none, [], [], [SatEx.eqAB], [], true, false⟩

theorem reach_s2 : SReach SatEx.sSig m [SatEx.eqAB] s2 := by
  refine .step (.step (.step .init (.select (U := []) (c := ⟨SatEx.eqAB, false⟩) rfl rfl rfl)) (.accept rfl rfl)) ?_
  exact SStep.activate (n := 5) (b := .init) (b' := .init) (C := SatEx.eqAB) (C' := SatEx.eqAB) rfl VarBank.inv_init
    (by intro ty c h; simp [VarBank.init] at h) rfl

example (I : Interp.{u} SatEx.sSig) : (∀ C ∈ s2.proc ++ s2.links ++ s2.ac, I.Models C) ↔ ∀ C ∈ [SatEx.eqAB], I.Models C :=
  status_satisfiable_equivalent (o := {}) (f := {}) (fin := s2) (z := .satisfiable) SatEx.sSig_ok SatEx.sSig_alt
    (fun C hC => SatEx.sIn_wt C (by simp_all)) reach_s2 ⟨rfl, rfl, rfl⟩ (by decide) (.inl rfl) I

end StatusEx
end Verif.Props
