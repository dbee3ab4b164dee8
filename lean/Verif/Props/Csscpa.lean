import Verif.External.Csscpa
import Verif.Props.Subsume
import Verif.Props.UnitSimp
import Verif.Props.Taut
import Verif.Props.Infer
import Mathlib.Data.List.Sort

/-!
# C78: the clause filter CSSCPA

See Verif/External/Csscpa.lean.  Entailment and truth are those of Verif/Clauses/Sem.lean.
-/

namespace Verif.Props

open Verif Verif.Csscpa Term SubstSt Interp SemProof SubsProof

universe u

variable {sg : Sig} {e : Env}

/-- What is assumed of the parameters: the discrimination tree enumerates its entries (C29), terms are
numbered injectively (C04), and the tautology test sorts the literals it is given. -/
structure CsscpaEnvOK (e : Env) (cs : List Cmd) : Prop where
  order : ∀ l, (e.order l).Perm l
  numbered : ∀ c ∈ cs, Numbered e.no c.clause
  sorted : ∀ c ∈ cs, Verif.Props.Sorted e.no c.clause (e.posSorted c.clause) (e.negSorted c.clause)

/-- All clauses sent are well-typed. -/
def SentWT (sg : Sig) (cs : List Cmd) : Prop := ∀ c ∈ cs, sg.WTClause c.clause

@[simp] theorem plain_raw (C : List Lit) : OLit.plain (raw C) = C := by
  induction C with
  | nil => rfl
  | cons L C ih => simpa [raw, OLit.plain] using ih

theorem entries_mem {S : List (List Lit)} {w : UnitPos} : w ∈ entries S ↔ ∃ C ∈ S, w.lit ∈ C := by
  simp only [entries, List.mem_flatMap, List.mem_cons, List.not_mem_nil, or_false]
  constructor
  · rintro ⟨C, hC, L, hL, rfl | rfl⟩ <;> exact ⟨C, hC, hL⟩
  · rintro ⟨C, hC, hw⟩
    refine ⟨C, hC, w.lit, hw, ?_⟩
    obtain ⟨L, b⟩ := w
    cases b <;> simp

/-- The shape of the state: units are in the sets of their sign. -/
structure CsscpaShape (s : State) : Prop where
  pos : ∀ C ∈ s.pos, ∃ L, C = [L] ∧ L.pos = true
  neg : ∀ C ∈ s.neg, ∃ L, C = [L] ∧ L.pos = false
  non : ∀ C ∈ s.non, C.length ≠ 1

/-- The counters of the state. -/
structure CsscpaCounts (s : State) : Prop where
  clauses : s.clauses = s.kept.length
  literals : s.literals = (s.kept.map fun C => (C.length : Int)).sum
  weight : s.weight = (s.kept.map Csscpa.weight).sum

theorem isPosUnit_iff {C : List Lit} : isPosUnit C = true ↔ ∃ L, C = [L] ∧ L.pos = true := by
  unfold isPosUnit
  constructor
  · intro h
    simp only [Bool.and_eq_true, decide_eq_true_eq] at h
    obtain ⟨L, rfl⟩ := List.length_eq_one_iff.1 h.1
    refine ⟨L, rfl, ?_⟩
    cases hp : L.pos <;> simp_all
  · rintro ⟨L, rfl, h⟩
    simp [h]

theorem isNegUnit_iff {C : List Lit} : isNegUnit C = true ↔ ∃ L, C = [L] ∧ L.pos = false := by
  unfold isNegUnit
  constructor
  · intro h
    simp only [Bool.and_eq_true, decide_eq_true_eq] at h
    obtain ⟨L, rfl⟩ := List.length_eq_one_iff.1 h.1
    refine ⟨L, rfl, ?_⟩
    cases hp : L.pos <;> simp_all
  · rintro ⟨L, rfl, h⟩
    simp [h]

/-- The three kinds of clauses. -/
theorem csscpa_kind (C : List Lit) :
    (isPosUnit C = true ∧ isNegUnit C = false ∧ C.length = 1) ∨ (isPosUnit C = false ∧ isNegUnit C = true ∧ C.length = 1) ∨
      (isPosUnit C = false ∧ isNegUnit C = false ∧ C.length ≠ 1) := by
  unfold isPosUnit isNegUnit
  by_cases h : C.length = 1 <;> by_cases h' : C.countP (!·.pos) = 0 <;> simp [h, h']

theorem mem_remaining {C D : List Lit} {S : List (List Lit)} :
    D ∈ remaining sg e C S ↔ D ∈ S ∧ subsumes sg e C D = false := by
  simp [remaining]

/-- After integration: the clause, and old clauses that are not subsumed or of another kind. -/
theorem integrate_kept_mem {s : State} {C D : List Lit} (h : D ∈ (integrate sg e s C).kept) : D = C ∨ D ∈ s.kept := by
  simp only [State.kept, List.mem_append] at h ⊢
  rcases csscpa_kind C with ⟨h1, h2, h3⟩ | ⟨h1, h2, h3⟩ | ⟨h1, h2, h3⟩ <;>
  · simp only [integrate, h1, h2, h3, if_true, if_false, Bool.false_eq_true, List.mem_append, List.mem_singleton, mem_remaining] at h
    tauto

theorem integrate_self {s : State} {C : List Lit} : C ∈ (integrate sg e s C).kept := by
  simp only [State.kept, List.mem_append]
  rcases csscpa_kind C with ⟨h1, h2, h3⟩ | ⟨h1, h2, h3⟩ | ⟨h1, h2, h3⟩ <;> simp [integrate, h1, h2, h3]

/-- A clause that is gone is subsumed by the new one. -/
theorem integrate_old {s : State} {C D : List Lit} (h : D ∈ s.kept) :
    D ∈ (integrate sg e s C).kept ∨ subsumes sg e C D = true := by
  simp only [State.kept, List.mem_append] at h ⊢
  cases hs : subsumes sg e C D with
  | true => exact Or.inr rfl
  | false =>
    left
    rcases csscpa_kind C with ⟨h1, h2, h3⟩ | ⟨h1, h2, h3⟩ | ⟨h1, h2, h3⟩ <;>
    · simp only [integrate, h1, h2, h3, if_true, if_false, Bool.false_eq_true, List.mem_append, List.mem_singleton, mem_remaining]
      tauto

theorem integrate_shape {s : State} (hs : CsscpaShape s) (C : List Lit) : CsscpaShape (integrate sg e s C) := by
  rcases csscpa_kind C with ⟨h1, h2, h3⟩ | ⟨h1, h2, h3⟩ | ⟨h1, h2, h3⟩
  · refine ⟨fun D hD => ?_, fun D hD => ?_, fun D hD => ?_⟩ <;>
      simp only [integrate, h1, h2, h3, if_true, if_false, Bool.false_eq_true, List.mem_append, List.mem_singleton,
        mem_remaining] at hD
    · rcases hD with hD | rfl
      · exact hs.pos D hD.1
      · exact isPosUnit_iff.1 h1
    · exact hs.neg D hD
    · exact hs.non D hD.1
  · refine ⟨fun D hD => ?_, fun D hD => ?_, fun D hD => ?_⟩ <;>
      simp only [integrate, h1, h2, h3, if_true, if_false, Bool.false_eq_true, List.mem_append, List.mem_singleton,
        mem_remaining] at hD
    · exact hs.pos D hD
    · rcases hD with hD | rfl
      · exact hs.neg D hD.1
      · exact isNegUnit_iff.1 h2
    · exact hs.non D hD.1
  · refine ⟨fun D hD => ?_, fun D hD => ?_, fun D hD => ?_⟩ <;>
      simp only [integrate, h1, h2, h3, if_true, if_false, Bool.false_eq_true, List.mem_append, List.mem_singleton,
        mem_remaining] at hD
    · exact hs.pos D hD
    · exact hs.neg D hD
    · rcases hD with hD | rfl
      · exact hs.non D hD.1
      · exact h3

theorem split_sum (p : List Lit → Bool) (f : List Lit → Int) (S : List (List Lit)) :
    ((S.filter fun D => !p D).map f).sum = (S.map f).sum - ((S.filter p).map f).sum := by
  induction S with
  | nil => rfl
  | cons D S ih =>
    cases hp : p D <;> simp only [List.filter_cons, hp, List.map_cons, List.sum_cons, Bool.not_true, Bool.not_false, if_true,
      if_false, Bool.false_eq_true, ih] <;> omega

theorem split_length (p : List Lit → Bool) (S : List (List Lit)) :
    ((S.filter fun D => !p D).length : Int) = S.length - (S.filter p).length := by
  induction S with
  | nil => rfl
  | cons D S ih =>
    cases hp : p D <;> simp only [List.filter_cons, hp, List.length_cons, Bool.not_true, Bool.not_false, if_true,
      if_false, Bool.false_eq_true] <;> push_cast <;> omega

theorem integrate_counts {s : State} (hc : CsscpaCounts s) (C : List Lit) : CsscpaCounts (integrate sg e s C) := by
  obtain ⟨a, b, c⟩ := hc
  simp only [State.kept, List.map_append, List.sum_append, List.length_append] at a b c
  push_cast at a
  rcases csscpa_kind C with ⟨h1, h2, h3⟩ | ⟨h1, h2, h3⟩ | ⟨h1, h2, h3⟩ <;>
  · refine ⟨?_, ?_, ?_⟩ <;>
    · simp only [State.kept, integrate, victims, collect, remaining, h1, h2, h3, if_true, if_false, Bool.false_eq_true, List.map_append,
        List.sum_append, List.length_append, split_sum, List.map_cons, List.map_nil, List.sum_cons, List.sum_nil,
        List.length_cons, List.length_nil, List.nil_append]
      first
        | omega
        | (push_cast; simp only [split_length]; omega)

/-- The clauses subsumed by a non-empty clause are exactly those on the stack. -/
theorem literalSubsumes_sign {pp : Term → Bool} {L : Lit} {D : List Lit} (h : literalSubsumes sg pp L D = true) :
    ∃ K ∈ D, K.pos = L.pos := by
  induction D with
  | nil => simp [literalSubsumes] at h
  | cons K D ih =>
    rw [literalSubsumes, Bool.or_eq_true] at h
    rcases h with h | h
    · refine ⟨K, by simp, ?_⟩
      cases hL : L.pos <;> simp [hL] at h <;> exact h.1
    · obtain ⟨K', h1, h2⟩ := ih h
      exact ⟨K', by simp [h1], h2⟩

theorem countP_raw_pos (C : List Lit) : (raw C).countP (·.pos) = C.countP (·.pos) := by
  simp [raw, List.countP_map, Function.comp_def]

theorem countP_raw_neg (C : List Lit) : (raw C).countP (!·.pos) = C.countP (!·.pos) := by
  simp [raw, List.countP_map, Function.comp_def]

/-- A unit only subsumes clauses with a literal of its sign. -/
theorem subsumes_unit {L : Lit} {D : List Lit} (h : subsumes sg e [L] D = true) : ∃ K ∈ D, K.pos = L.pos := by
  have h' : literalSubsumes sg e.pp L (OLit.plain (raw D)) = true := h
  rw [plain_raw] at h'
  exact literalSubsumes_sign h'

/-- A clause with several literals subsumes no unit. -/
theorem subsumes_many {C : List Lit} {K : Lit} (h2 : 2 ≤ C.length) : subsumes sg e C [K] = false := by
  have hlen : (raw C).length = C.length := by simp [raw]
  have hcnt : (raw C).length = (raw C).countP (·.pos) + (raw C).countP (!·.pos) := by
    have h := List.length_eq_countP_add_countP (fun L : OLit => L.pos) (l := raw C)
    simp only [Bool.not_eq_true] at h
    rw [h]
    congr 1
    apply List.countP_congr
    intro L _
    simp
  unfold subsumes clauseSubsumes
  split
  · rename_i h; simp [h] at hlen; omega
  · rename_i L h; rw [h] at hlen; simp at hlen; omega
  · have : (raw [K]).countP (·.pos) + (raw [K]).countP (!·.pos) = 1 := by
      cases hp : K.pos <;> simp [raw, hp]
    rw [if_pos (by omega)]

/-- Integration of a clause with a literal removes exactly the subsumed clauses. -/
theorem victims_exact {s : State} (hs : CsscpaShape s) {C : List Lit} (hC : C ≠ []) :
    (victims sg e s C).Perm (s.kept.filter (subsumes sg e C)) := by
  have hnil : ∀ S : List (List Lit), (∀ D ∈ S, subsumes sg e C D = false) → S.filter (subsumes sg e C) = [] := by
    intro S h
    rw [List.filter_eq_nil_iff]
    intro D hD
    rw [h D hD]
    simp
  simp only [State.kept, List.filter_append, victims, collect]
  rcases csscpa_kind C with ⟨h1, h2, h3⟩ | ⟨h1, h2, h3⟩ | ⟨h1, h2, h3⟩
  · have hn : s.neg.filter (subsumes sg e C) = [] := by
      apply hnil
      intro D hD
      obtain ⟨L, rfl, hL⟩ := isPosUnit_iff.1 h1
      obtain ⟨K, rfl, hK⟩ := hs.neg D hD
      cases hsub : subsumes sg e [L] [K] with
      | false => rfl
      | true =>
        obtain ⟨K', hK', he⟩ := subsumes_unit hsub
        simp only [List.mem_singleton] at hK'
        subst hK'
        rw [hL, hK] at he
        cases he
    simp [h1, hn]
  · have hn : s.pos.filter (subsumes sg e C) = [] := by
      apply hnil
      intro D hD
      obtain ⟨L, rfl, hL⟩ := isNegUnit_iff.1 h2
      obtain ⟨K, rfl, hK⟩ := hs.pos D hD
      cases hsub : subsumes sg e [L] [K] with
      | false => rfl
      | true =>
        obtain ⟨K', hK', he⟩ := subsumes_unit hsub
        simp only [List.mem_singleton] at hK'
        subst hK'
        rw [hL, hK] at he
        cases he
    simp [h1, h2, hn]
  · have h2' : 2 ≤ C.length := by
      have := List.length_pos_iff.2 hC
      omega
    have hp : s.pos.filter (subsumes sg e C) = [] := by
      apply hnil
      intro D hD
      obtain ⟨K, rfl, -⟩ := hs.pos D hD
      exact subsumes_many h2'
    have hn : s.neg.filter (subsumes sg e C) = [] := by
      apply hnil
      intro D hD
      obtain ⟨K, rfl, -⟩ := hs.neg D hD
      exact subsumes_many h2'
    simp [h1, h2, hn, hp]

/-! ## One command -/

/-- How a command ends. -/
theorem process_cases {s s' : State} {c : Cmd} {o : Outcome} (h : process sg e s c = some (s', o)) :
    (o = .tautology ∧ s' = s ∧
      clauseIsTautology sg e.no (e.posSorted c.clause) (e.negSorted c.clause) e.fuel c.clause = some true) ∨
    (clauseIsTautology sg e.no (e.posSorted c.clause) (e.negSorted c.clause) e.fuel c.clause = some false ∧
      ((o = .subsumed ∧ s' = s ∧ fwdSubsumed sg e s c.clause = true) ∨
      (fwdSubsumed sg e s c.clause = false ∧ decideStatus sg e s c = some o ∧
        s' = if o.taken then integrate sg e s c.clause else s))) := by
  unfold process at h
  split at h
  · cases h
  · rename_i ht
    cases h
    exact Or.inl ⟨rfl, rfl, ht⟩
  · rename_i ht
    refine Or.inr ⟨ht, ?_⟩
    split at h
    · rename_i hf
      cases h
      exact Or.inl ⟨rfl, rfl, hf⟩
    · rename_i hf
      split at h
      · cases h
      · rename_i o' ho
        cases h
        exact Or.inr ⟨by simpa using hf, ho, rfl⟩

theorem decideStatus_cases {s : State} {c : Cmd} {o : Outcome} (h : decideStatus sg e s c = some o) :
    let imp := c.improves ((victims sg e s c.clause).map Csscpa.weight).sum (Csscpa.weight c.clause) s.weight s.clauses
    (o = .improved ∧ imp = true) ∨
    (imp = false ∧ ((o = .contradicts ∧ c.clause.length = 1 ∧ findContradiction sg e s c.clause = some true) ∨
      (o = .forced ∧ c.accept = true) ∨ (o = .weighty ∧ c.accept = false))) := by
  intro imp
  unfold decideStatus at h
  split at h
  · rename_i hi
    cases h
    exact Or.inl ⟨rfl, hi⟩
  · rename_i hi
    refine Or.inr ⟨by simpa using hi, ?_⟩
    by_cases hl : c.clause.length = 1
    · rw [if_pos hl] at h
      split at h
      · cases h
      · rename_i hf
        cases h
        exact Or.inl ⟨rfl, hl, hf⟩
      · cases ha : c.accept <;> simp [ha] at h <;> subst h <;> simp
    · rw [if_neg hl] at h
      simp only [Option.some.injEq] at h
      cases ha : c.accept <;> simp [ha] at h <;> subst h <;> simp

theorem process_state {s s' : State} {c : Cmd} {o : Outcome} (h : process sg e s c = some (s', o)) :
    (o.taken = true ∧ s' = integrate sg e s c.clause) ∨ (o.taken = false ∧ s' = s) := by
  rcases process_cases h with ⟨rfl, rfl, -⟩ | ⟨-, ⟨rfl, rfl, -⟩ | ⟨-, -, h3⟩⟩
  · exact Or.inr ⟨rfl, rfl⟩
  · exact Or.inr ⟨rfl, rfl⟩
  · cases ht : o.taken with
    | true => rw [ht] at h3; exact Or.inl ⟨rfl, h3⟩
    | false => rw [ht] at h3; exact Or.inr ⟨rfl, h3⟩

/-- Nothing is lost by a command. -/
theorem process_keeps {s s' : State} {c : Cmd} {o : Outcome} (hw : ∀ C ∈ s.kept, sg.WTClause C)
    (h : process sg e s c = some (s', o)) (I : Interp.{u} sg) (hI : ∀ D ∈ s'.kept, I.Models D) : ∀ D ∈ s.kept, I.Models D := by
  rcases process_state h with ⟨-, rfl⟩ | ⟨-, rfl⟩
  · intro D hD
    rcases integrate_old (C := c.clause) hD with h' | h'
    · exact hI D h'
    · have := subsumes_sound (sg := sg) (pp := e.pp) (C := raw c.clause) (D := raw D) (by simpa using hw D hD) h'
      refine (by simpa using this : Entails.{u} sg [c.clause] D) I ?_
      intro C hC
      simp only [List.mem_singleton] at hC
      subst hC
      exact hI _ integrate_self
  · exact hI

theorem unitsHold_of {S : List (List Lit)} {I : Interp.{u} sg} (hS : ∀ C ∈ S, ∃ L, C = [L]) (hI : ∀ C ∈ S, I.Models C)
    {us : List UnitPos} (hu : ∀ w ∈ us, w ∈ entries S) : UnitsHold I us := by
  intro w hw v hv
  obtain ⟨C, hC, hL⟩ := entries_mem.1 (hu w hw)
  obtain ⟨L, rfl⟩ := hS C hC
  simp only [List.mem_singleton] at hL
  obtain ⟨K, hK, ht⟩ := hI _ hC v hv
  simp only [List.mem_singleton] at hK
  subst hK
  rw [hL]
  exact ht

theorem fwdSubsumed_sound {s : State} (hs : CsscpaShape s) (ho : ∀ l, (e.order l).Perm l) {C : List Lit} (hC : sg.WTClause C)
    (h : fwdSubsumed sg e s C = true) : Entails.{u} sg s.kept C := by
  intro I hI
  simp only [State.kept, List.mem_append] at hI
  have hunit : ∀ S : List (List Lit), (∀ D ∈ S, ∃ L, D = [L]) → (∀ D ∈ S, I.Models D) →
      (unitSetSubsumes sg e.pp (e.order (entries S)) false e.fuel C).isSome = true → I.Models C := by
    intro S hS hM h
    obtain ⟨w, hw⟩ := Option.isSome_iff_exists.1 h
    exact (unitSetSubsumes_sound hC hw).2 I (Or.inl (unitsHold_of hS hM fun w hw => (ho _).mem_iff.1 hw))
  simp only [fwdSubsumed, Bool.or_eq_true, Bool.and_eq_true] at h
  rcases h with (h | h) | h
  · exact hunit s.pos (fun D hD => (hs.pos D hD).imp fun _ h => h.1) (fun D hD => hI D (by simp [hD])) h.2
  · exact hunit s.neg (fun D hD => (hs.neg D hD).imp fun _ h => h.1) (fun D hD => hI D (by simp [hD])) h.2
  · obtain ⟨D, hD⟩ := Option.isSome_iff_exists.1 h.2
    obtain ⟨h1, h2⟩ := setSubsumes_sound (sg := sg) (pp := e.pp) (by simpa using hC) hD
    obtain ⟨D', hD', rfl⟩ := List.mem_map.1 h1
    refine (by simpa using h2 : Entails.{u} sg [D'] C) I ?_
    intro D hD
    simp only [List.mem_singleton] at hD
    subst hD
    exact hI _ (by simp [hD'])

/-- What the status says about the clause. -/
theorem process_entails {s s' : State} {c : Cmd} {o : Outcome} (hs : CsscpaShape s) (he : CsscpaEnvOK e [c])
    (hC : sg.WTClause c.clause) (h : process sg e s c = some (s', o)) (hne : o ≠ .weighty) :
    Entails.{u} sg s'.kept c.clause := by
  rcases process_cases h with ⟨rfl, rfl, h1⟩ | ⟨-, ⟨rfl, rfl, h1⟩ | ⟨-, h2, h3⟩⟩
  · intro I _ v _
    exact tautology_sound (he.numbered c (by simp)) (he.sorted c (by simp)) h1 I v
  · exact fwdSubsumed_sound hs he.order hC h1
  · have ht : o.taken = true := by
      rcases decideStatus_cases h2 with ⟨rfl, -⟩ | ⟨-, ⟨rfl, -⟩ | ⟨rfl, -⟩ | ⟨rfl, -⟩⟩ <;> first | rfl | exact absurd rfl hne
    rw [ht, if_pos rfl] at h3
    subst h3
    intro I hI
    exact hI _ integrate_self

theorem unifyP_sound {L K : Lit} (hL : sg.WTLit L) (hK : sg.WTLit K) (h : unifyP sg e L K = some true) :
    ∃ σ, sg.WTSubst σ ∧ ((L.l.subst σ = K.l.subst σ ∧ L.r.subst σ = K.r.subst σ) ∨
      (L.r.subst σ = K.l.subst σ ∧ L.l.subst σ = K.r.subst σ)) := by
  unfold unifyP at h
  split at h
  · cases h
  · rename_i st hu
    obtain ⟨σ, hU, e1, e2⟩ := eqnUnifyDirected_spec hL.1 hL.2.1 hK.1 hK.2.1 hu
    exact ⟨σ, hU.wt, Or.inl ⟨e1, e2⟩⟩
  · obtain ⟨⟨b, st⟩, hu, hb⟩ := Option.map_eq_some_iff.1 h
    simp only at hb
    subst hb
    obtain ⟨σ, hU, e1, e2⟩ := eqnUnifyDirected_spec hL.2.1 hL.1 hK.1 hK.2.1 hu
    exact ⟨σ, hU.wt, Or.inr ⟨e1, e2⟩⟩

/-- Two unifiable units of opposite sign have no common model. -/
theorem opposite_units {L K : Lit} (hL : sg.WTLit L) (hK : sg.WTLit K) (hp : L.pos ≠ K.pos) (h : unifyP sg e L K = some true)
    (I : Interp.{u} sg) (h1 : I.Models [L]) (h2 : I.Models [K]) : False := by
  obtain ⟨σ, hσ, hu⟩ := unifyP_sound hL hK h
  obtain ⟨v, hv⟩ : ∃ v, I.Sorted v := ⟨fun x => (I.inhab (sg.vty x)).choose, fun x => (I.inhab (sg.vty x)).choose_spec⟩
  have hv' := sorted_subst I hv hσ
  obtain ⟨L', hL', t1⟩ := h1 _ hv'
  obtain ⟨K', hK', t2⟩ := h2 _ hv'
  simp only [List.mem_singleton] at hL' hK'
  subst hL' hK'
  simp only [LitTrue, ← eval_subst] at t1 t2
  rcases hu with ⟨e1, e2⟩ | ⟨e1, e2⟩ <;> rw [e1, e2] at t1 <;> cases hl : L'.pos <;> cases hk : K'.pos <;>
    simp [hl, hk] at hp t1 t2
  · exact t1 t2
  · exact t2 t1
  · exact t1 t2.symm
  · exact t2 t1.symm

theorem findUnifying_true {L : Lit} {S : List (List Lit)} (h : findUnifying sg e L S = some true) :
    ∃ K D, (K :: D) ∈ S ∧ unifyP sg e L K = some true := by
  fun_induction findUnifying sg e L S with
  | case1 => cases h
  | case2 => cases h
  | case3 K D S hu => exact ⟨K, D, by simp, hu⟩
  | case4 K D S hu ih =>
    obtain ⟨K', D', h1, h2⟩ := ih h
    exact ⟨K', D', List.mem_cons_of_mem _ h1, h2⟩
  | case5 S ih =>
    obtain ⟨K', D', h1, h2⟩ := ih h
    exact ⟨K', D', List.mem_cons_of_mem _ h1, h2⟩

theorem process_contradicts {s s' : State} {c : Cmd} (hs : CsscpaShape s) (hw : ∀ C ∈ s.kept, sg.WTClause C)
    (hC : sg.WTClause c.clause) (h : process sg e s c = some (s', .contradicts)) (I : Interp.{u} sg) :
    ¬ ∀ D ∈ s'.kept, I.Models D := by
  intro hI
  have hold := process_keeps hw h I hI
  have hnew : I.Models c.clause := by
    rcases process_state h with ⟨-, rfl⟩ | ⟨h1, -⟩
    · exact hI _ integrate_self
    · cases h1
  rcases process_cases h with ⟨h1, -⟩ | ⟨-, ⟨h1, -⟩ | ⟨-, h2, -⟩⟩
  · cases h1
  · cases h1
  · rcases decideStatus_cases h2 with ⟨h1, -⟩ | ⟨-, ⟨-, hl, hf⟩ | ⟨h1, -⟩ | ⟨h1, -⟩⟩
    · cases h1
    · obtain ⟨L, hL⟩ := List.length_eq_one_iff.1 hl
      rw [hL] at hf hnew hC
      simp only [findContradiction] at hf
      obtain ⟨K, D, hK, hu⟩ := findUnifying_true hf
      have hkept : (K :: D) ∈ s.kept ∧ D = [] ∧ L.pos ≠ K.pos := by
        cases hp : L.pos with
        | true =>
          rw [hp, if_pos rfl] at hK
          obtain ⟨K', hK', hk⟩ := hs.neg _ hK
          cases hK'
          exact ⟨by simp [State.kept, hK], rfl, by rw [hk]; simp⟩
        | false =>
          rw [hp, if_neg (by simp)] at hK
          obtain ⟨K', hK', hk⟩ := hs.pos _ hK
          cases hK'
          exact ⟨by simp [State.kept, hK], rfl, by rw [hk]; simp⟩
      obtain ⟨k1, rfl, k2⟩ := hkept
      exact opposite_units (hC L (by simp)) (hw _ k1 K (by simp)) k2 hu I hnew (hold _ k1)
    · cases h1
    · cases h1

/-! ## Runs -/

/-- The invariant of a run. -/
structure CsscpaInv (s : State) (sent : List (List Lit)) : Prop where
  shape : CsscpaShape s
  counts : CsscpaCounts s
  mem : ∀ C ∈ s.kept, C ∈ sent

theorem csscpaInv_init : CsscpaInv State.init [] :=
  ⟨⟨by simp [State.init], by simp [State.init], by simp [State.init]⟩, ⟨by simp [State.init, State.kept],
    by simp [State.init, State.kept], by simp [State.init, State.kept]⟩, by simp [State.init, State.kept]⟩

theorem csscpaInv_process {s s' : State} {sent : List (List Lit)} {c : Cmd} {o : Outcome} (hi : CsscpaInv s sent)
    (h : process sg e s c = some (s', o)) : CsscpaInv s' (sent ++ [c.clause]) := by
  rcases process_state h with ⟨-, rfl⟩ | ⟨-, rfl⟩
  · refine ⟨integrate_shape hi.shape _, integrate_counts hi.counts _, fun D hD => ?_⟩
    rcases integrate_kept_mem hD with rfl | h
    · simp
    · simp [hi.mem D h]
  · exact ⟨hi.shape, hi.counts, fun D hD => by simp [hi.mem D hD]⟩

theorem csscpaInv_run {s s' : State} {sent : List (List Lit)} {cs : List Cmd} {os : List Outcome} (hi : CsscpaInv s sent)
    (h : run sg e s cs = some (s', os)) : CsscpaInv s' (sent ++ cs.map Cmd.clause) := by
  induction cs generalizing s sent os with
  | nil =>
    simp only [run, Option.some.injEq, Prod.mk.injEq] at h
    obtain ⟨rfl, rfl⟩ := h
    simpa using hi
  | cons c cs ih =>
    unfold run at h
    split at h
    · cases h
    · rename_i s1 o h1
      split at h
      · cases h
      · rename_i s2 os2 h2
        cases h
        have := ih (csscpaInv_process hi h1) h2
        simpa using this

theorem csscpaEnvOK_mono {cs ds : List Cmd} (h : CsscpaEnvOK e cs) (hd : ∀ c ∈ ds, c ∈ cs) : CsscpaEnvOK e ds :=
  ⟨h.order, fun c hc => h.numbered c (hd c hc), fun c hc => h.sorted c (hd c hc)⟩

theorem run_facts {s s' : State} {sent : List (List Lit)} {cs : List Cmd} {os : List Outcome} (hi : CsscpaInv s sent)
    (hsent : ∀ C ∈ sent, sg.WTClause C) (he : CsscpaEnvOK e cs) (hw : SentWT sg cs) (h : run sg e s cs = some (s', os)) :
    (∀ I : Interp.{u} sg, (∀ D ∈ s'.kept, I.Models D) → ∀ D ∈ s.kept, I.Models D) ∧
    (∀ p ∈ cs.zip os, p.2 ≠ .weighty → Entails.{u} sg s'.kept p.1.clause) ∧
    (Outcome.contradicts ∈ os → ∀ I : Interp.{u} sg, ¬ ∀ D ∈ s'.kept, I.Models D) := by
  induction cs generalizing s sent os with
  | nil =>
    simp only [run, Option.some.injEq, Prod.mk.injEq] at h
    obtain ⟨rfl, rfl⟩ := h
    exact ⟨fun _ h => h, by simp, by simp⟩
  | cons c cs ih =>
    unfold run at h
    split at h
    · cases h
    · rename_i s1 o h1
      split at h
      · cases h
      · rename_i s2 os2 h2
        cases h
        have hwk : ∀ C ∈ s.kept, sg.WTClause C := fun C hC => hsent C (hi.mem C hC)
        have hcw := hw c (by simp)
        obtain ⟨a1, a2, a3⟩ := ih (csscpaInv_process hi h1) (by
          intro C hC
          rcases List.mem_append.1 hC with hC | hC
          · exact hsent C hC
          · simp only [List.mem_singleton] at hC
            subst hC
            exact hcw) (csscpaEnvOK_mono he fun c hc => by simp [hc]) (fun c hc => hw c (by simp [hc])) h2
        refine ⟨fun I hI => process_keeps hwk h1 I (a1 I hI), fun p hp hne => ?_, fun hc => ?_⟩
        · simp only [List.zip_cons_cons, List.mem_cons] at hp
          rcases hp with rfl | hp
          · intro I hI
            exact process_entails hi.shape (csscpaEnvOK_mono he fun c hc => by simp_all) hcw h1 hne I (a1 I hI)
          · exact a2 p hp hne
        · intro I hI
          rcases List.mem_cons.1 hc with rfl | hc
          · exact process_contradicts hi.shape hwk hcw h1 I (a1 I hI)
          · exact a3 hc I hI

variable {cs : List Cmd} {s : State} {os : List Outcome}

/-- C78: the clauses kept are among those sent, and every clause that was accepted, or rejected as a tautology or as subsumed,
follows from the clauses kept at the end: only clauses rejected as `weighty` are lost. -/
theorem csscpa_lossless (he : CsscpaEnvOK e cs) (hw : SentWT sg cs) (h : run sg e State.init cs = some (s, os)) :
    (∀ C ∈ s.kept, C ∈ cs.map Cmd.clause) ∧ os.length = cs.length ∧
      ∀ p ∈ cs.zip os, p.2 ≠ .weighty → Entails.{u} sg s.kept p.1.clause := by
  refine ⟨by simpa using (csscpaInv_run csscpaInv_init h).mem, ?_, (run_facts csscpaInv_init (by simp) he hw h).2.1⟩
  clear he hw
  generalize State.init = s0 at h
  induction cs generalizing s0 os with
  | nil =>
    simp only [run, Option.some.injEq, Prod.mk.injEq] at h
    obtain ⟨rfl, rfl⟩ := h
    simp
  | cons c cs ih =>
    unfold run at h
    split at h
    · cases h
    · split at h
      · cases h
      · rename_i h2
        cases h
        simp [ih _ h2]

theorem run_accept {s0 : State} (hacc : ∀ c ∈ cs, c.accept = true) (h : run sg e s0 cs = some (s, os)) : Outcome.weighty ∉ os := by
  induction cs generalizing s0 os with
  | nil =>
    simp only [run, Option.some.injEq, Prod.mk.injEq] at h
    obtain ⟨rfl, rfl⟩ := h
    simp
  | cons c cs ih =>
    unfold run at h
    split at h
    · cases h
    · rename_i s1 o h1
      split at h
      · cases h
      · rename_i s2 os2 h2
        cases h
        intro hm
        rcases List.mem_cons.1 hm with rfl | hm
        · rcases process_cases h1 with ⟨hc, -⟩ | ⟨-, ⟨hc, -⟩ | ⟨-, h3, -⟩⟩
          · cases hc
          · cases hc
          · rcases decideStatus_cases h3 with ⟨hc, -⟩ | ⟨-, ⟨hc, -⟩ | ⟨hc, -⟩ | ⟨-, hc⟩⟩
            · cases hc
            · cases hc
            · cases hc
            · rw [hacc c (by simp)] at hc; cases hc
        · exact ih (fun c hc => hacc c (by simp [hc])) h2 hm

/-- C78: if all clauses are sent with `accept`, the clauses kept have exactly the models of the clauses sent. -/
theorem csscpa_accept_equiv (he : CsscpaEnvOK e cs) (hw : SentWT sg cs) (hacc : ∀ c ∈ cs, c.accept = true)
    (h : run sg e State.init cs = some (s, os)) (I : Interp.{u} sg) :
    (∀ C ∈ s.kept, I.Models C) ↔ ∀ c ∈ cs, I.Models c.clause := by
  obtain ⟨h1, h2, h3⟩ := csscpa_lossless.{u} he hw h
  constructor
  · intro hI c hc
    obtain ⟨i, hi, rfl⟩ := List.getElem_of_mem hc
    have hi' : i < os.length := by omega
    have hz : (cs[i], os[i]) ∈ cs.zip os := by
      rw [List.mem_iff_getElem]
      exact ⟨i, by simp; omega, by simp⟩
    exact h3 _ hz (fun hc => run_accept hacc h (hc ▸ List.getElem_mem hi')) I hI
  · intro hI C hC
    obtain ⟨c, hc, rfl⟩ := List.mem_map.1 (h1 C hC)
    exact hI c hc

/-- C78: if a contradiction was reported, the clauses kept at the end have no model. -/
theorem csscpa_contradiction (he : CsscpaEnvOK e cs) (hw : SentWT sg cs) (h : run sg e State.init cs = some (s, os))
    (hc : Outcome.contradicts ∈ os) (I : Interp.{u} sg) : ¬ ∀ C ∈ s.kept, I.Models C :=
  (run_facts csscpaInv_init (by simp) he hw h).2.2 hc I

/-- C78: the counters printed are the number of the clauses kept, of their literals, and the sum of their weights. -/
theorem csscpa_counters (h : run sg e State.init cs = some (s, os)) :
    s.clauses = s.kept.length ∧ s.literals = (s.kept.map fun C => (C.length : Int)).sum ∧
      s.weight = (s.kept.map Csscpa.weight).sum :=
  let c := (csscpaInv_run csscpaInv_init h).counts
  ⟨c.clauses, c.literals, c.weight⟩

/-- C78: the decision for a non-empty clause sent next.  It is lost only if it was sent with `check` and the test for
improvement fails for the total weight of the kept clauses it subsumes; it is called an improvement only if that test holds.
Whenever it is taken, exactly the kept clauses it subsumes are removed. -/
theorem csscpa_decision (h : run sg e State.init cs = some (s, os)) {c : Cmd} (hne : c.clause ≠ []) {s' : State} {o : Outcome}
    (hp : process sg e s c = some (s', o)) :
    let imp := c.improves ((s.kept.filter (subsumes sg e c.clause)).map Csscpa.weight).sum (Csscpa.weight c.clause)
      (s.kept.map Csscpa.weight).sum s.kept.length
    (o = .weighty → c.accept = false ∧ imp = false) ∧ (o = .improved → imp = true) ∧ (o = .forced → c.accept = true) ∧
      (o.taken = true → ∀ D, D ∈ s'.kept ↔ D = c.clause ∨ (D ∈ s.kept ∧ subsumes sg e c.clause D = false)) ∧
      (o.taken = false → s' = s) := by
  intro imp
  have hi := csscpaInv_run csscpaInv_init h
  have hv := victims_exact (sg := sg) (e := e) hi.shape hne
  have hsum : ((victims sg e s c.clause).map Csscpa.weight).sum =
      ((s.kept.filter (subsumes sg e c.clause)).map Csscpa.weight).sum := (hv.map _).sum_eq
  have hst := process_state hp
  refine ⟨?_, ?_, ?_, ?_, ?_⟩
  · rintro rfl
    rcases process_cases hp with ⟨hc, -⟩ | ⟨-, ⟨hc, -⟩ | ⟨-, h3, -⟩⟩
    · cases hc
    · cases hc
    · rcases decideStatus_cases h3 with ⟨hc, -⟩ | ⟨h4, ⟨hc, -⟩ | ⟨hc, -⟩ | ⟨-, hc⟩⟩
      · cases hc
      · cases hc
      · cases hc
      · rw [hsum, hi.counts.weight, hi.counts.clauses] at h4
        exact ⟨hc, h4⟩
  · rintro rfl
    rcases process_cases hp with ⟨hc, -⟩ | ⟨-, ⟨hc, -⟩ | ⟨-, h3, -⟩⟩
    · cases hc
    · cases hc
    · rcases decideStatus_cases h3 with ⟨-, h4⟩ | ⟨h4, ⟨hc, -⟩ | ⟨hc, -⟩ | ⟨hc, -⟩⟩
      · rw [hsum, hi.counts.weight, hi.counts.clauses] at h4
        exact h4
      · cases hc
      · cases hc
      · cases hc
  · rintro rfl
    rcases process_cases hp with ⟨hc, -⟩ | ⟨-, ⟨hc, -⟩ | ⟨-, h3, -⟩⟩
    · cases hc
    · cases hc
    · rcases decideStatus_cases h3 with ⟨hc, -⟩ | ⟨h4, ⟨hc, -⟩ | ⟨-, hc⟩ | ⟨hc, -⟩⟩
      · cases hc
      · cases hc
      · exact hc
      · cases hc
  · intro ht D
    rcases hst with ⟨-, rfl⟩ | ⟨hf, -⟩
    · constructor
      · intro hD
        rcases integrate_kept_mem hD with rfl | h'
        · exact Or.inl rfl
        · cases hs : subsumes sg e c.clause D with
          | false => exact Or.inr ⟨h', rfl⟩
          | true =>
            left
            by_contra hne'
            have hmem : D ∈ victims sg e s c.clause := hv.mem_iff.2 (by simp [h', hs])
            simp only [State.kept, List.mem_append] at hD
            have hshape := hi.shape
            rcases csscpa_kind c.clause with ⟨h1, h2, h3⟩ | ⟨h1, h2, h3⟩ | ⟨h1, h2, h3⟩ <;>
              simp only [integrate, h1, h2, h3, if_true, if_false, Bool.false_eq_true, List.mem_append, List.mem_singleton,
                mem_remaining, hs, and_false, false_or, or_false, hne', reduceCtorEq] at hD
            · obtain ⟨L, hL, hl⟩ := isPosUnit_iff.1 h1
              obtain ⟨K, rfl, hk⟩ := hshape.neg D hD
              rw [hL] at hs
              obtain ⟨K', hK', he'⟩ := subsumes_unit hs
              simp only [List.mem_singleton] at hK'
              subst hK'
              rw [hl, hk] at he'
              cases he'
            · obtain ⟨L, hL, hl⟩ := isNegUnit_iff.1 h2
              obtain ⟨K, rfl, hk⟩ := hshape.pos D hD
              rw [hL] at hs
              obtain ⟨K', hK', he'⟩ := subsumes_unit hs
              simp only [List.mem_singleton] at hK'
              subst hK'
              rw [hl, hk] at he'
              cases he'
            · have h2' : 2 ≤ c.clause.length := by
                have := List.length_pos_iff.2 hne
                omega
              rcases hD with hD | hD
              · obtain ⟨K, rfl, -⟩ := hshape.pos D hD
                rw [subsumes_many h2'] at hs
                cases hs
              · obtain ⟨K, rfl, -⟩ := hshape.neg D hD
                rw [subsumes_many h2'] at hs
                cases hs
      · rintro (rfl | ⟨h1, h2⟩)
        · exact integrate_self
        · rcases integrate_old (sg := sg) (e := e) (C := c.clause) h1 with h' | h'
          · exact h'
          · rw [h2] at h'; cases h'
    · rw [ht] at hf; cases hf
  · intro hf
    rcases hst with ⟨ht, -⟩ | ⟨-, h'⟩
    · rw [ht] at hf; cases hf
    · exact h'

/-! ## The clauses kept do not subsume each other -/

theorem findTopUnit_isSome {pp : Term → Bool} {units : List UnitPos} {sign : Bool} {t1 t2 : Term} {w : UnitPos} (hw : w ∈ units)
    (hs : w.lit.pos = sign) (h1 : (matchPair sg pp w.this t1 w.other t2 SubstSt.empty).1 = true) :
    (findTopUnit sg pp units (some sign) t1 t2).isSome = true := by
  unfold findTopUnit
  rw [List.find?_isSome]
  refine ⟨w, hw, ?_⟩
  unfold matchPair at h1
  simp only at h1
  cases ha : (matchC sg pp w.this t1 SubstSt.empty).1 with
  | false => rw [ha, if_neg (by simp)] at h1; rw [ha] at h1; cases h1
  | true =>
    rw [ha, if_pos rfl] at h1
    simp [ha, h1, hs]

theorem top_found {pp : Term → Bool} (hfo : FirstOrder sg pp) {L : Lit} {units : List UnitPos} (h1 : ⟨L, true⟩ ∈ units) (h2 : ⟨L, false⟩ ∈ units)
    {t1 t2 : Term} (w1 : sg.WT t1) (w2 : sg.WT t2) (h : topSubsumes sg pp L t1 t2 = true) :
    (findTopUnit sg pp units (some L.pos) t1 t2).isSome = true := by
  rcases topSubsumes_inst w1 w2 h with ⟨τ, hτ, e1, e2⟩ | ⟨τ, hτ, e1, e2⟩
  · obtain ⟨st, hm, -⟩ := matchPair_target (sg := sg) (pp := pp) (st := SubstSt.empty) hfo
      (fun x _ => (hτ x).1) e1 e2 (by simp [SubstSt.empty])
    exact findTopUnit_isSome h1 rfl (by simp [UnitPos.this, UnitPos.other, hm])
  · obtain ⟨st, hm, -⟩ := matchPair_target (sg := sg) (pp := pp) (st := SubstSt.empty) hfo
      (fun x _ => (hτ x).1) e2 e1 (by simp [SubstSt.empty])
    exact findTopUnit_isSome h2 rfl (by simp [UnitPos.this, UnitPos.other, hm])

theorem pair_found {pp : Term → Bool} (hfo : FirstOrder sg pp) {L : Lit} (hp : L.pos = true) {units : List UnitPos}
    (h1 : ⟨L, true⟩ ∈ units) (h2 : ⟨L, false⟩ ∈ units) {n m : Nat} {t1 t2 : Term} (w1 : sg.WT t1) (w2 : sg.WT t2) (hne : t1 ≠ t2)
    (hm : t1.size ≤ m) (h : subsumesPair sg pp L n t1 t2 = some true) :
    (findTopUnit sg pp units (some true) t1 t2).isSome = true ∨ (findUnitLoop sg pp units m t1 t2).isSome = true := by
  induction n generalizing t1 t2 m with
  | zero => simp [subsumesPair] at h
  | succ n ih =>
    unfold subsumesPair at h
    split at h
    · rename_i ht
      left
      have := top_found hfo h1 h2 w1 w2 ht
      rwa [hp] at this
    · split at h
      · rename_i f ss g ts
        split at h
        · simp at h
        · rename_i hc
          simp only [not_or, not_not] at hc
          obtain ⟨rfl, hne', hlen⟩ := hc
          split at h
          · simp at h
          · rename_i hd
            exact absurd (by rw [argDiff_none hlen hd]) hne
          · rename_i u t hd
            obtain ⟨a, b, rfl, rfl⟩ := argDiff_one hlen hd
            have hut : u ≠ t := by
              rintro rfl
              exact hne rfl
            right
            obtain ⟨m, rfl⟩ : ∃ k, m = k + 1 := by
              refine ⟨m - 1, ?_⟩
              simp only [size] at hm
              omega
            have hsz : u.size ≤ m := by
              simp only [size] at hm
              have : u.size ≤ sizeL (a ++ u :: b) := by
                clear * -
                induction a with
                | nil => simp [sizeL]
                | cons x a ih => simp only [List.cons_append, sizeL]; omega
              omega
            unfold findUnitLoop
            simp only
            rw [if_neg (by simp [hne'])]
            rw [hd]
            simp only
            have wu : sg.WT u := (Sig.wt_app.1 w1).2 u (by simp)
            have wt : sg.WT t := (Sig.wt_app.1 w2).2 t (by simp)
            cases hf : findTopUnit sg pp units (some true) u t with
            | some w => rfl
            | none =>
              rcases ih wu wt hut hsz h with h' | h'
              · rw [hf] at h'; cases h'
              · exact h'
      · simp at h

theorem unitSetSubsumes_isSome {pp : Term → Bool} {units : List UnitPos} {n : Nat} {D : List Lit} {K : Lit} (hK : K ∈ D)
    (h : (if K.pos then findUnit sg pp units true K.l K.r else findTopUnit sg pp units (some false) K.l K.r).isSome = true) :
    (unitSetSubsumes sg pp units false n D).isSome = true := by
  induction D with
  | nil => cases hK
  | cons K' D ih =>
    unfold unitSetSubsumes
    simp only
    split
    · rfl
    · rename_i hn
      rcases List.mem_cons.1 hK with rfl | hK
      · rw [show findPosUnit sg pp units false n K.l K.r = findUnit sg pp units true K.l K.r from rfl] at hn
        rw [hn] at h
        cases h
      · exact ih hK

/-- A clause subsumed by a kept unit is found by the forward check. -/
theorem fwd_unit {pp : Term → Bool} (hfo : FirstOrder sg pp) {L : Lit} {units : List UnitPos} (h1 : ⟨L, true⟩ ∈ units) (h2 : ⟨L, false⟩ ∈ units)
    {n : Nat} {D : List Lit} (hw : sg.WTClause D) (ht : findTrue sg D = false) (h : literalSubsumes sg pp L D = true) :
    (∃ K ∈ D, K.pos = L.pos) ∧ (unitSetSubsumes sg pp units false n D).isSome = true := by
  refine ⟨literalSubsumes_sign h, ?_⟩
  obtain ⟨K, hK, hs⟩ : ∃ K ∈ D, (if L.pos then K.pos && ((subsumesPair sg pp L K.l.size K.l K.r).getD false)
      else !K.pos && topSubsumes sg pp L K.l K.r) = true := by
    clear ht hw
    induction D with
    | nil => simp [literalSubsumes] at h
    | cons K D ih =>
      rw [literalSubsumes, Bool.or_eq_true] at h
      rcases h with h | h
      · exact ⟨K, by simp, h⟩
      · obtain ⟨K', a, b⟩ := ih h
        exact ⟨K', by simp [a], b⟩
  have hwK := hw K hK
  apply unitSetSubsumes_isSome hK
  cases hp : L.pos with
  | false =>
    rw [hp, if_neg (by simp), Bool.and_eq_true] at hs
    have hk : K.pos = false := by simpa using hs.1
    rw [hk, if_neg (by simp), ← hp]
    exact top_found hfo h1 h2 hwK.1 hwK.2.1 hs.2
  | true =>
    rw [hp, if_pos rfl, Bool.and_eq_true] at hs
    rw [hs.1, if_pos rfl]
    have hne : K.l ≠ K.r := by
      intro he
      have : eqnIsTrue sg K = false := by
        simp only [findTrue, List.any_eq_false] at ht
        simpa using ht K hK
      simp [eqnIsTrue, hs.1, he] at this
    have hsub : subsumesPair sg pp L K.l.size K.l K.r = some true := by
      cases hq : subsumesPair sg pp L K.l.size K.l K.r with
      | none => rw [hq] at hs; simp at hs
      | some b => rw [hq] at hs; simpa using hs.2
    unfold findUnit
    simp only [if_true]
    rcases pair_found hfo hp h1 h2 hwK.1 hwK.2.1 hne (le_refl _) hsub with h' | h'
    · obtain ⟨w, hw'⟩ := Option.isSome_iff_exists.1 h'
      rw [hw']
      rfl
    · cases findTopUnit sg pp units (some true) K.l K.r with
      | some w => rfl
      | none => exact h'

theorem tautology_false_findTrue {no : Term → Int} {ps ns : List Lit} {n : Nat} {C : List Lit}
    (h : clauseIsTautology sg no ps ns n C = some false) : findTrue sg C = false := by
  unfold clauseIsTautology at h
  cases hf : findTrue sg C with
  | false => rfl
  | true => rw [hf] at h; simp at h

/-- A clause that passes the forward check is not subsumed by any kept clause but the empty one. -/
theorem fwd_exact {s : State} (hfo : FirstOrder sg e.pp) (hs : CsscpaShape s) (ho : ∀ l, (e.order l).Perm l) {C D : List Lit}
    (hw : sg.WTClause D) (ht : findTrue sg D = false) (hf : fwdSubsumed sg e s D = false) (hC : C ∈ s.kept) (hne : C ≠ []) :
    subsumes sg e C D = false := by
  by_contra hsub
  have hsub : subsumes sg e C D = true := by simpa using hsub
  simp only [fwdSubsumed, Bool.or_eq_false_iff] at hf
  obtain ⟨⟨f1, f2⟩, f3⟩ := hf
  simp only [State.kept, List.mem_append] at hC
  rcases hC with (hC | hC) | hC
  · obtain ⟨L, rfl, hL⟩ := hs.pos C hC
    have h' : literalSubsumes sg e.pp L (OLit.plain (raw D)) = true := hsub
    rw [plain_raw] at h'
    obtain ⟨⟨K, hK, hk⟩, h2⟩ := fwd_unit (units := e.order (entries s.pos)) (n := e.fuel) hfo
      ((ho _).mem_iff.2 (entries_mem.2 ⟨[L], hC, by simp⟩)) ((ho _).mem_iff.2 (entries_mem.2 ⟨[L], hC, by simp⟩)) hw ht h'
    rw [h2, Bool.and_true, decide_eq_false_iff_not, not_not, List.countP_eq_zero] at f1
    exact f1 K hK (by rw [hk, hL])
  · obtain ⟨L, rfl, hL⟩ := hs.neg C hC
    have h' : literalSubsumes sg e.pp L (OLit.plain (raw D)) = true := hsub
    rw [plain_raw] at h'
    obtain ⟨⟨K, hK, hk⟩, h2⟩ := fwd_unit (units := e.order (entries s.neg)) (n := e.fuel) hfo
      ((ho _).mem_iff.2 (entries_mem.2 ⟨[L], hC, by simp⟩)) ((ho _).mem_iff.2 (entries_mem.2 ⟨[L], hC, by simp⟩)) hw ht h'
    rw [h2, Bool.and_true, decide_eq_false_iff_not, not_not, List.countP_eq_zero] at f2
    exact f2 K hK (by rw [hk, hL]; rfl)
  · have h2 : 2 ≤ C.length := by
      have := List.length_pos_iff.2 hne
      have := hs.non C hC
      omega
    by_cases hl : D.length > 1
    · rw [decide_eq_true hl, Bool.true_and] at f3
      have : (setSubsumes sg e.pp (s.non.map raw) (raw D)).isSome = true := by
        unfold setSubsumes
        rw [List.find?_isSome]
        exact ⟨raw C, List.mem_map_of_mem hC, hsub⟩
      rw [this] at f3
      cases f3
    · cases D with
      | nil =>
        have hlen : (raw C).length = C.length := by simp [raw]
        unfold subsumes clauseSubsumes at hsub
        split at hsub
        · rename_i h; simp [h] at hlen; omega
        · rename_i h; rw [h] at hlen; simp at hlen; omega
        · rename_i h1 h2'
          have hcnt : 0 < (raw C).countP (·.pos) + (raw C).countP (!·.pos) := by
            cases hr : raw C with
            | nil => rw [hr] at hlen; simp at hlen; omega
            | cons L R => cases hp : L.pos <;> simp [hp]
          rw [if_pos (by
            have e1 : (raw []).countP (·.pos) = 0 := rfl
            have e2 : (raw []).countP (!·.pos) = 0 := rfl
            omega)] at hsub
          cases hsub
      | cons K D =>
        cases D with
        | nil => rw [subsumes_many h2] at hsub; cases hsub
        | cons K' D => simp at hl

theorem integrate_perm {s : State} (hs : CsscpaShape s) (C : List Lit) :
    ∃ rest, ((integrate sg e s C).kept).Perm (C :: rest) ∧ rest.Sublist s.kept ∧
      (C ≠ [] → ∀ D ∈ rest, subsumes sg e C D = false) := by
  have hsub : ∀ S : List (List Lit), (remaining sg e C S).Sublist S := fun S => List.filter_sublist
  have hrem : ∀ S : List (List Lit), ∀ D ∈ remaining sg e C S, subsumes sg e C D = false := fun S D hD => (mem_remaining.1 hD).2
  rcases csscpa_kind C with ⟨h1, h2, h3⟩ | ⟨h1, h2, h3⟩ | ⟨h1, h2, h3⟩
  · refine ⟨remaining sg e C s.pos ++ s.neg ++ remaining sg e C s.non, ?_, ?_, fun _ D hD => ?_⟩
    · simp only [State.kept, integrate, h1, h2, h3, if_true, Bool.false_eq_true, if_false, List.append_assoc]
      exact List.perm_middle
    · exact ((hsub _).append (List.Sublist.refl _)).append (hsub _)
    · simp only [List.mem_append] at hD
      rcases hD with (hD | hD) | hD
      · exact hrem _ D hD
      · obtain ⟨L, rfl, hL⟩ := isPosUnit_iff.1 h1
        obtain ⟨K, rfl, hK⟩ := hs.neg D hD
        by_contra hc
        obtain ⟨K', hK', he⟩ := subsumes_unit (by simpa using hc)
        simp only [List.mem_singleton] at hK'
        subst hK'
        rw [hL, hK] at he
        cases he
      · exact hrem _ D hD
  · refine ⟨s.pos ++ remaining sg e C s.neg ++ remaining sg e C s.non, ?_, ?_, fun _ D hD => ?_⟩
    · simp only [State.kept, integrate, h1, h2, h3, if_true, Bool.false_eq_true, if_false, List.append_assoc]
      rw [← List.append_assoc]
      refine List.Perm.trans List.perm_middle ?_
      simp
    · exact ((List.Sublist.refl _).append (hsub _)).append (hsub _)
    · simp only [List.mem_append] at hD
      rcases hD with (hD | hD) | hD
      · obtain ⟨L, rfl, hL⟩ := isNegUnit_iff.1 h2
        obtain ⟨K, rfl, hK⟩ := hs.pos D hD
        by_contra hc
        obtain ⟨K', hK', he⟩ := subsumes_unit (by simpa using hc)
        simp only [List.mem_singleton] at hK'
        subst hK'
        rw [hL, hK] at he
        cases he
      · exact hrem _ D hD
      · exact hrem _ D hD
  · refine ⟨s.pos ++ s.neg ++ remaining sg e C s.non, ?_, ?_, fun hne D hD => ?_⟩
    · simp only [State.kept, integrate, h1, h2, h3, Bool.false_eq_true, if_false]
      rw [← List.append_assoc]
      exact List.perm_append_singleton _ _
    · exact (List.Sublist.refl _).append (hsub _)
    · have h2' : 2 ≤ C.length := by
        have := List.length_pos_iff.2 hne
        omega
      simp only [List.mem_append] at hD
      rcases hD with (hD | hD) | hD
      · obtain ⟨K, rfl, -⟩ := hs.pos D hD
        exact subsumes_many h2'
      · obtain ⟨K, rfl, -⟩ := hs.neg D hD
        exact subsumes_many h2'
      · exact hrem _ D hD

/-- Neither clause is found to be subsumed by the other, unless the subsumer is empty. -/
def Incomparable (sg : Sig) (e : Env) (C D : List Lit) : Prop :=
  (C ≠ [] → subsumes sg e C D = false) ∧ (D ≠ [] → subsumes sg e D C = false)

theorem run_reduced {s0 : State} {sent : List (List Lit)} (hfo : FirstOrder sg e.pp) (hi : CsscpaInv s0 sent)
    (hr : s0.kept.Pairwise (Incomparable sg e)) (ho : ∀ l, (e.order l).Perm l) (hw : SentWT sg cs)
    (h : run sg e s0 cs = some (s, os)) : s.kept.Pairwise (Incomparable sg e) := by
  induction cs generalizing s0 sent os with
  | nil =>
    simp only [run, Option.some.injEq, Prod.mk.injEq] at h
    obtain ⟨rfl, rfl⟩ := h
    exact hr
  | cons c cs ih =>
    unfold run at h
    split at h
    · cases h
    · rename_i s1 o h1
      split at h
      · cases h
      · rename_i s2 os2 h2
        cases h
        refine ih (csscpaInv_process hi h1) ?_ (fun c hc => hw c (by simp [hc])) h2
        have hcases := process_cases h1
        rcases process_state h1 with ⟨ht, rfl⟩ | ⟨-, rfl⟩
        · obtain ⟨rest, hp, hsub, hnot⟩ := integrate_perm (sg := sg) (e := e) hi.shape c.clause
          refine (hp.pairwise_iff fun h => ⟨h.2, h.1⟩).2 (List.pairwise_cons.2 ⟨fun D hD => ?_, hr.sublist hsub⟩)
          rcases hcases with ⟨rfl, -, -⟩ | ⟨htaut, ⟨rfl, -, -⟩ | ⟨hf, -, -⟩⟩
          · cases ht
          · cases ht
          · exact ⟨fun hne => hnot hne D hD, fun hne => fwd_exact hfo hi.shape ho (hw c (by simp)) (tautology_false_findTrue htaut) hf
              (hsub.subset hD) hne⟩
        · exact hr

/-- C78, the part that holds: no clause kept is found to be subsumed by another one, except by the empty clause.  Missing:
subsumption the test does not find because the literals are not sorted (`CsscpaEx.unsorted_subsumption_missed`). -/
theorem csscpa_reduced_partial (hfo : FirstOrder sg e.pp) (ho : ∀ l, (e.order l).Perm l) (hw : SentWT sg cs)
    (h : run sg e State.init cs = some (s, os)) : s.kept.Pairwise (Incomparable sg e) :=
  run_reduced hfo csscpaInv_init (by simp [State.init, State.kept]) ho hw h

/-! ## Examples, and where the program does less than one might expect -/

namespace CsscpaEx

/-- Constant `a` (11), function `f` (12), predicates `p` (14), `q` (15), `r` (16) with one argument. -/
def sgX : Sig :=
  ⟨fun _ => 0, fun f => if f ≤ 2 ∨ 14 ≤ f then 1 else 0, fun f => if f = 12 ∨ 14 ≤ f then [0] else [], fun _ => false⟩

def noX : Term → Int
  | .var x => - x
  | .app f ts => f + 1000 * (Term.app f ts).size

def envX : Env where
  pp := fun _ => false
  fuel := 60
  no := noX
  posSorted := fun C => (C.filter (·.pos)).insertionSort fun L K => eqnSyntaxCompare noX L K ≠ .gt
  negSorted := fun C => (C.filter (!·.pos)).insertionSort fun L K => eqnSyntaxCompare noX L K ≠ .gt
  order := id

def atom (b : Bool) (p : Nat) (t : Term) : Lit := ⟨b, .app p [t], tTrue⟩
def X : Term := .var 2
def a : Term := .app 11 []
def f (t : Term) : Term := .app 12 [t]

/-- `accept: C` -/
def acc (C : List Lit) : Cmd := ⟨true, improvesExact 0 0, C⟩
/-- `check: C` -/
def chk (C : List Lit) : Cmd := ⟨false, improvesExact 0 0, C⟩

def terms (C : List Lit) : List Term := C.flatMap fun L => [L.l, L.r]

theorem numbered_of {no : Term → Int} {C : List Lit} (h : ∀ s ∈ terms C, ∀ t ∈ terms C, no s = no t → s = t) : Numbered no C := by
  have hm : ∀ s, (∃ L ∈ C, s = L.l ∨ s = L.r) → s ∈ terms C := by
    rintro s ⟨L, hL, hs⟩
    simp only [terms, List.mem_flatMap, List.mem_cons, List.not_mem_nil, or_false]
    exact ⟨L, hL, hs⟩
  exact fun s t hs ht => h s (hm s hs) t (hm t ht)

theorem envX_ok {cs : List Cmd} (h1 : ∀ c ∈ cs, ∀ s ∈ terms c.clause, ∀ t ∈ terms c.clause, noX s = noX t → s = t)
    (h2 : ∀ c ∈ cs, (envX.posSorted c.clause).Pairwise fun L K => eqnSyntaxCompare noX L K ≠ .gt)
    (h3 : ∀ c ∈ cs, (envX.negSorted c.clause).Pairwise fun L K => eqnSyntaxCompare noX L K ≠ .gt) : CsscpaEnvOK envX cs :=
  ⟨fun l => List.Perm.refl l, fun c hc => numbered_of (h1 c hc),
    fun c hc => ⟨List.perm_insertionSort _ _, List.perm_insertionSort _ _, h2 c hc, h3 c hc⟩⟩

theorem firstOrderX : FirstOrder sgX envX.pp := ⟨fun x => by simp [sgX], fun t h => by cases h⟩

theorem wt_atom {b : Bool} {p : Nat} {t : Term} (hp : 14 ≤ p) (ht : t ∈ [X, a, f X, f a, f (f a)]) : sgX.WTLit (atom b p t) := by
  have : sgX.WT t ∧ sgX.ty t = 0 := by
    simp only [List.mem_cons, List.not_mem_nil, or_false] at ht
    rcases ht with rfl | rfl | rfl | rfl | rfl <;> simp [X, a, f, sgX, Sig.WT, Sig.WTL, Sig.ty]
  refine ⟨?_, by simp [atom, tTrue, sgX, Sig.WT, Sig.WTL, Sig.ty], ?_⟩
  · rw [atom, Sig.wt_app]
    refine ⟨?_, by simpa using this.1⟩
    simp [sgX, hp]
    exact this.2
  · simp [atom, tTrue, sgX, Sig.ty, hp]

/-- `p(a)`, `q(a) ∨ p(X)`, then `check: p(X)` (removes both), `check: q(a) ∨ p(f(a))` (subsumed), `accept: ¬p(f(f(a)))`. -/
def session : List Cmd :=
  [acc [atom true 14 a], acc [atom true 15 a, atom true 14 X], chk [atom true 14 X], chk [atom true 15 a, atom true 14 (f a)],
    chk [atom true 15 (f (f a))], acc [atom false 14 (f (f a))]]

theorem session_ok : CsscpaEnvOK envX session ∧ SentWT sgX session := by
  refine ⟨envX_ok (by decide) (by decide) (by decide), ?_⟩
  intro c hc L hL
  simp only [session, acc, chk, List.mem_cons, List.not_mem_nil, or_false] at hc
  rcases hc with rfl | rfl | rfl | rfl | rfl | rfl <;> simp only [List.mem_cons, List.not_mem_nil, or_false] at hL <;>
    (try rcases hL with rfl | rfl) <;> exact wt_atom (by decide) (by simp)

example : (run sgX envX State.init session).map (fun q => (q.1.kept, q.2, q.1.clauses, q.1.literals, q.1.weight)) =
    some ([[atom true 14 X], [atom false 14 (f (f a))]],
      [.forced, .forced, .improved, .subsumed, .weighty, .contradicts], 2, 2, 15) := by decide +kernel

/-- The clauses kept and the statuses. -/
def result (cs : List Cmd) : Option (List (List Lit) × List Outcome) :=
  (run sgX envX State.init cs).map fun q => (q.1.kept, q.2)

theorem atom_true {I : Interp.{u} sgX} {v : Nat → I.D} {b : Bool} {p : Nat} {t : Term} (h : I.ClauseTrue v [atom b p t]) :
    I.LitTrue v (atom b p t) := by
  obtain ⟨L, hL, h⟩ := h
  simp only [List.mem_singleton] at hL
  exact hL ▸ h

/-- Contradicting units with an instance `X := t` have no common model. -/
theorem no_model {t : Term} (ht : sgX.WT t) (hty : sgX.ty t = 0) (I : Interp.{u} sgX) (h1 : I.Models [atom true 14 X])
    (h2 : I.Models [atom false 14 t]) : False := by
  obtain ⟨v, hv⟩ : ∃ v, I.Sorted v := ⟨fun x => (I.inhab (sgX.vty x)).choose, fun x => (I.inhab (sgX.vty x)).choose_spec⟩
  have hσ : sgX.WTSubst fun x => if x = 2 then t else .var x := by
    intro x
    by_cases hx : x = 2
    · simp only [hx, if_true]
      exact ⟨by rw [hty]; rfl, ht⟩
    · simp only [hx, if_false]
      exact ⟨rfl, by simp [Sig.WT]⟩
  have t1 := atom_true (h1 _ (sorted_subst I hv hσ))
  have t2 := atom_true (h2 v hv)
  simp only [LitTrue, atom, if_true, Bool.false_eq_true, if_false] at t1 t2
  rw [← eval_subst, ← eval_subst] at t1
  simp only [X, Term.subst, Term.substL, tTrue, if_true] at t1
  exact t2 t1

/-- C78, a limit: `p(X)` and `¬p(f(X))` contradict each other, but the two clauses share their variable and are not unifiable
then: no contradiction is reported. -/
theorem shared_variables :
    result [acc [atom true 14 X], acc [atom false 14 (f X)]] =
      some ([[atom true 14 X], [atom false 14 (f X)]], [.forced, .forced]) ∧
    ∀ I : Interp.{u} sgX, ¬ ∀ C ∈ [[atom true 14 X], [atom false 14 (f X)]], I.Models C := by
  refine ⟨by decide +kernel, fun I h => ?_⟩
  exact no_model (t := f X) (by simp [X, f, sgX, Sig.WT, Sig.WTL, Sig.ty]) (by simp [f, sgX, Sig.ty]) I (h _ (by simp)) (h _ (by simp))

/-- C78, a limit: `p(X)` contradicts `¬p(a)`, but as it also lowers the average weight the status is `improved` and the
contradiction is not looked for.  The clause is integrated although it subsumes nothing and was sent with `check`, unlike
the help text of the program says. -/
theorem improvement_hides_contradiction :
    result [acc [atom false 14 a], acc [atom true 15 (f (f a))], chk [atom true 14 X]] =
      some ([[atom true 15 (f (f a))], [atom true 14 X], [atom false 14 a]], [.forced, .forced, .improved]) ∧
    (∀ C ∈ [[atom false 14 a], [atom true 15 (f (f a))]], subsumes sgX envX [atom true 14 X] C = false) ∧
    ∀ I : Interp.{u} sgX, ¬ ∀ C ∈ [[atom true 15 (f (f a))], [atom true 14 X], [atom false 14 a]], I.Models C := by
  refine ⟨by decide +kernel, by decide +kernel, fun I h => ?_⟩
  exact no_model (t := a) (by simp [a, sgX, Sig.WT, Sig.WTL]) (by simp [a, sgX, Sig.ty]) I (h _ (by simp)) (h _ (by simp))

/-- C78, a limit: the program never sorts the literals of its clauses as the subsumption test expects (C22).  All literals of
`q(X) ∨ p(X)` are among those of the next clause, but that is kept. -/
theorem unsorted_subsumption_missed :
    result [acc [atom true 14 (f a)], acc [atom true 15 X, atom true 14 X], acc [atom true 14 X, atom true 15 X, atom true 16 X]] =
      some ([[atom true 14 (f a)], [atom true 15 X, atom true 14 X], [atom true 14 X, atom true 15 X, atom true 16 X]],
        [.forced, .forced, .forced]) ∧
    ∀ L ∈ [atom true 15 X, atom true 14 X], L ∈ [atom true 14 X, atom true 15 X, atom true 16 X] :=
  ⟨by decide +kernel, by decide⟩

/-- The empty clause removes no units. -/
example : result [acc [atom true 14 a], acc [atom true 15 X, atom true 14 X], acc []] =
    some ([[atom true 14 a], []], [.forced, .forced, .improved]) := by decide +kernel

end CsscpaEx

end Verif.Props
