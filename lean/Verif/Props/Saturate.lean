import Verif.Control.SaturateProof

/-!
# C36, C37: soundness of saturation, and nothing is lost

`SReach sg m input s`: the state `s` can be reached from the clauses `input` by any sequence of steps of the saturation loop.
-/

namespace Verif.Props
open Verif Term SaturateProof

universe u
variable {sg : Sig} {m : Bool} {input : List (List Lit)}

/-- All clauses of a state. -/
def _root_.Verif.SatState.all (s : SatState) : List (List Lit) :=
  s.proc ++ s.active.toList ++ (s.given.toList ++ s.tmp ++ s.unproc).map (·.lits) ++ s.links ++ s.ac

/-- The clauses that are not subject to deletion as orphans: the processed ones, the one being processed, and those waiting whose
derivation does not start with a generating inference. -/
def _root_.Verif.SatState.core (s : SatState) : List (List Lit) :=
  s.proc ++ s.active.toList ++ ((s.given.toList ++ s.tmp ++ s.unproc).filter (!·.gen)).map (·.lits)

/-! ## The invariant for soundness -/

/-- A property of all clauses of a state. -/
private structure AllC (P : List Lit → Prop) (s : SatState) : Prop where
  proc : ∀ C ∈ s.proc, P C
  active : ∀ C, s.active = some C → P C
  given : ∀ c, s.given = some c → P c.lits
  tmp : ∀ c ∈ s.tmp, P c.lits
  unproc : ∀ c ∈ s.unproc, P c.lits
  links : ∀ C ∈ s.links, P C
  ac : ∀ C ∈ s.ac, P C

private theorem AllC.iff {P : List Lit → Prop} {s : SatState} : AllC P s ↔ ∀ C ∈ s.all, P C := by
  simp only [SatState.all, List.mem_append, List.mem_map, Option.mem_toList]
  constructor
  · rintro h C ((((h1 | h1) | ⟨c, ((h1 | h1) | h1), rfl⟩) | h1) | h1)
    · exact h.proc C h1
    · exact h.active C h1
    · exact h.given c h1
    · exact h.tmp c h1
    · exact h.unproc c h1
    · exact h.links C h1
    · exact h.ac C h1
  · intro h
    exact ⟨fun C hC => h C (by tauto), fun C hC => h C (by tauto), fun c hc => h _ (.inl (.inl (.inr ⟨c, .inl (.inl hc), rfl⟩))),
      fun c hc => h _ (.inl (.inl (.inr ⟨c, .inl (.inr hc), rfl⟩))), fun c hc => h _ (.inl (.inl (.inr ⟨c, .inr hc, rfl⟩))),
      fun C hC => h C (by tauto), fun C hC => h C (by tauto)⟩

private theorem AllC.avail {P : List Lit → Prop} {s : SatState} (h : AllC P s) : ∀ A ∈ s.avail m, P A := by
  intro A hA
  rcases List.mem_append.1 hA with hA | hA
  · exact h.proc A hA
  · cases m with
    | false => simp at hA
    | true =>
      rcases List.mem_append.1 hA with hA | hA
      · exact h.links A hA
      · exact h.ac A hA

/-- Well-typed and true in all models of the input. -/
private def Good (sg : Sig) (input : List (List Lit)) (C : List Lit) : Prop := sg.WTClause C ∧ Entails.{u} sg input C

private structure Sound (sg : Sig) (input : List (List Lit)) (s : SatState) : Prop where
  ok : AllC (Good.{u} sg input) s
  even : ∀ C ∈ s.proc, EvenVars C
  refuted : s.success = true → Entails.{u} sg input []

private theorem split_mem {α : Type _} {l U V : List α} {c : α} {P : α → Prop} (e : l = U ++ c :: V) (h : ∀ a ∈ l, P a) :
    P c ∧ ∀ a ∈ U ++ V, P a := by
  subst e
  simp only [List.mem_append, List.mem_cons] at h ⊢
  exact ⟨h c (by tauto), fun a ha => h a (by tauto)⟩

private theorem snoc_mem {α : Type _} {l : List α} {c : α} {P : α → Prop} (h : ∀ a ∈ l, P a) (hc : P c) : ∀ a ∈ l ++ [c], P a := by
  intro a ha
  rcases List.mem_append.1 ha with ha | ha
  · exact h a ha
  · rw [List.mem_singleton.1 ha]; exact hc

private theorem mid_mem {α : Type _} {U V : List α} {c : α} {P : α → Prop} (h : ∀ a ∈ U ++ V, P a) (hc : P c) : ∀ a ∈ U ++ c :: V, P a := by
  intro a ha
  simp only [List.mem_append, List.mem_cons] at h ha
  rcases ha with ha | rfl | ha
  · exact h a (.inl ha)
  · exact hc
  · exact h a (.inr ha)

private theorem good_modify (hsg : SigOK sg) {s : SatState} (hs : AllC (Good.{u} sg input) s) {C C' : List Lit} (h : Modify sg m s C C')
    (hC : Good.{u} sg input C) : Good.{u} sg input C' := by
  obtain ⟨h1, h2⟩ := modify_ok.{u} hsg (fun A hA => (hs.ac A hA).1) h hC.1
  exact ⟨h1, fun I hI => (h2 I fun A hA => (hs.avail A hA).2 I hI).2 (hC.2 I hI)⟩

private theorem good_er (hsg : SigOK sg) {pp : Term → Bool} {strong : Bool} {n k : Nat} {b b' : VarBank} {C D : List Lit} (hb : b.Inv)
    (hag : BankAgrees sg b') (h : erNormalizeVar sg pp strong n b C = some (b', D, k)) (hC : Good.{u} sg input C) :
    Good.{u} sg input D := by
  obtain ⟨h1, h2⟩ := er_ok.{u} hsg hb hag h hC.1
  exact ⟨h1, fun I hI => (h2 I).2 (hC.2 I hI)⟩

private theorem sound_step (hsg : SigOK sg) (ha : AltTyped sg) {s s' : SatState} (hs : Sound.{u} sg input s) (h : SStep sg m s s') :
    Sound.{u} sg input s' := by
  obtain ⟨ok, even, ref⟩ := hs
  cases h with
  | select h1 h2 h3 =>
    obtain ⟨hc, hU⟩ := split_mem h3 ok.unproc
    exact ⟨⟨ok.proc, ok.active, fun c e => by cases e; exact hc, ok.tmp, hU, ok.links, ok.ac⟩, even, ref⟩
  | giveModify h1 h2 =>
    exact ⟨⟨ok.proc, ok.active, fun c e => by cases e; exact good_modify hsg ok h2 (ok.given _ h1), ok.tmp, ok.unproc, ok.links, ok.ac⟩, even, ref⟩
  | @giveArchive c h1 => exact ⟨⟨ok.proc, ok.active, fun c' e => by cases e; exact ok.given c h1, ok.tmp, ok.unproc, ok.links, ok.ac⟩, even, ref⟩
  | giveDrop h1 h2 => exact ⟨⟨ok.proc, ok.active, by simp, ok.tmp, ok.unproc, ok.links, ok.ac⟩, even, ref⟩
  | giveEmpty h1 h2 =>
    exact ⟨⟨ok.proc, ok.active, ok.given, ok.tmp, ok.unproc, ok.links, ok.ac⟩, even, fun _ => h2 ▸ (ok.given _ h1).2⟩
  | acScan h1 =>
    exact ⟨⟨ok.proc, ok.active, ok.given, ok.tmp, ok.unproc, ok.links, snoc_mem ok.ac (ok.given _ h1)⟩, even, ref⟩
  | giveER h1 hb hag h2 =>
    exact ⟨⟨ok.proc, ok.active, by simp, snoc_mem ok.tmp (good_er hsg hb hag h2 (ok.given _ h1)), ok.unproc, ok.links, ok.ac⟩, even, ref⟩
  | accept h1 h0 =>
    exact ⟨⟨ok.proc, fun C e => by cases e; exact ok.given _ h1, by simp, ok.tmp, ok.unproc, ok.links, ok.ac⟩, even, ref⟩
  | backMove h1 =>
    obtain ⟨hc, hU⟩ := split_mem h1 ok.proc
    exact ⟨⟨hU, ok.active, ok.given, snoc_mem ok.tmp hc, ok.unproc, ok.links, ok.ac⟩, (split_mem h1 even).2, ref⟩
  | backSubsumed _ h2 _ =>
    exact ⟨⟨(split_mem h2 ok.proc).2, ok.active, ok.given, ok.tmp, ok.unproc, ok.links, ok.ac⟩, (split_mem h2 even).2, ref⟩
  | @activate n b b' C C' h1 hb hag h2 =>
    obtain ⟨hw, he, hm⟩ := normVars_ok.{u} hsg hb hag h2 (ok.active _ h1).1
    have hg : Good.{u} sg input C' := ⟨hw, fun I hI => (hm I).2 ((ok.active _ h1).2 I hI)⟩
    refine ⟨⟨snoc_mem ok.proc hg, by simp, ok.given, ok.tmp, ok.unproc, ?_, ok.ac⟩, snoc_mem even he, ref⟩
    simp only
    split
    · exact snoc_mem ok.links hg
    · simpa using ok.links
  | generate h1 =>
    obtain ⟨hw, hm⟩ := gen_ok.{u} hsg ha (fun C hC => (ok.proc C hC).1) even h1
    exact ⟨⟨ok.proc, ok.active, ok.given, snoc_mem ok.tmp ⟨hw, fun I hI => hm I fun C hC => (ok.proc C hC).2 I hI⟩, ok.unproc, ok.links,
      ok.ac⟩, even, ref⟩
  | tmpModify h1 h2 =>
    obtain ⟨hc, hU⟩ := split_mem h1 ok.tmp
    exact ⟨⟨ok.proc, ok.active, ok.given, mid_mem hU (good_modify hsg ok h2 hc), ok.unproc, ok.links, ok.ac⟩, even, ref⟩
  | tmpDrop h1 _ => exact ⟨⟨ok.proc, ok.active, ok.given, (split_mem h1 ok.tmp).2, ok.unproc, ok.links, ok.ac⟩, even, ref⟩
  | tmpER h1 hb hag h2 =>
    obtain ⟨hc, hU⟩ := split_mem h1 ok.tmp
    exact ⟨⟨ok.proc, ok.active, ok.given, snoc_mem hU (good_er hsg hb hag h2 hc), ok.unproc, ok.links, ok.ac⟩, even, ref⟩
  | tmpEmpty h1 h2 =>
    exact ⟨⟨ok.proc, ok.active, ok.given, ok.tmp, ok.unproc, ok.links, ok.ac⟩, even, fun _ => h2 ▸ (ok.tmp _ h1).2⟩
  | tmpInsert h1 =>
    obtain ⟨hc, hU⟩ := split_mem h1 ok.tmp
    exact ⟨⟨ok.proc, ok.active, ok.given, hU, snoc_mem ok.unproc hc, ok.links, ok.ac⟩, even, ref⟩
  | unprocModify h1 h2 =>
    obtain ⟨hc, hU⟩ := split_mem h1 ok.unproc
    exact ⟨⟨ok.proc, ok.active, ok.given, ok.tmp, mid_mem hU (good_modify hsg ok h2 hc), ok.links, ok.ac⟩, even, ref⟩
  | unprocDrop h1 _ => exact ⟨⟨ok.proc, ok.active, ok.given, ok.tmp, (split_mem h1 ok.unproc).2, ok.links, ok.ac⟩, even, ref⟩
  | unprocEmpty h1 h2 =>
    exact ⟨⟨ok.proc, ok.active, ok.given, ok.tmp, ok.unproc, ok.links, ok.ac⟩, even, fun _ => h2 ▸ (ok.unproc _ h1).2⟩
  | orphan h1 _ => exact ⟨⟨ok.proc, ok.active, ok.given, ok.tmp, (split_mem h1 ok.unproc).2, ok.links, ok.ac⟩, even, ref⟩
  | deleteBad h1 => exact ⟨⟨ok.proc, ok.active, ok.given, ok.tmp, (split_mem h1 ok.unproc).2, ok.links, ok.ac⟩, even, ref⟩
  | satCheck hσ hS hno hun =>
    refine ⟨⟨ok.proc, ok.active, ok.given, ok.tmp, ok.unproc, ok.links, ok.ac⟩, even, fun _ I hI => ?_⟩
    refine satcheck_unsat.{u} hσ _ _ hno hun I fun C hC => ?_
    rcases hS C hC with h | h
    · exact (ok.proc C h).2 I hI
    · obtain ⟨c, hc, rfl⟩ := List.mem_map.1 h
      exact (ok.unproc c hc).2 I hI
  | reset h1 h2 =>
    refine ⟨⟨by simp, ok.active, ok.given, ok.tmp, fun c hc => ?_, ok.links, ok.ac⟩, by simp, ref⟩
    rcases List.mem_append.1 hc with hc | hc
    · exact ok.unproc c hc
    · obtain ⟨C, hC, rfl⟩ := List.mem_map.1 hc
      exact ok.proc C hC

private theorem sound_reach (hsg : SigOK sg) (ha : AltTyped sg) (hin : ∀ C ∈ input, sg.WTClause C) {s : SatState}
    (h : SReach sg m input s) : Sound.{u} sg input s := by
  induction h with
  | init =>
    refine ⟨⟨?_, ?_, ?_, ?_, ?_, ?_, ?_⟩, ?_, ?_⟩ <;> simp [SatState.init]
    exact fun C hC => ⟨hin C hC, fun I hI => hI C hC⟩
  | step _ h ih => exact sound_step hsg ha ih h

/-- **C36.** Whatever is selected, simplified and generated in whatever order: every clause of the proof state is well-typed and
follows from the input clauses. -/
theorem saturation_sound (hsg : SigOK sg) (ha : AltTyped sg) (hin : ∀ C ∈ input, sg.WTClause C) {s : SatState}
    (h : SReach sg m input s) : ∀ C ∈ s.all, sg.WTClause C ∧ Entails.{u} sg input C :=
  AllC.iff.1 (sound_reach hsg ha hin h).ok

/-- **C36.** If the empty clause is found (by inference, simplification or the propositional check), the input has no model. -/
theorem saturation_refutes (hsg : SigOK sg) (ha : AltTyped sg) (hin : ∀ C ∈ input, sg.WTClause C) {s : SatState}
    (h : SReach sg m input s) (hs : s.success = true) : ¬ ∃ I : Interp.{u} sg, ∀ C ∈ input, I.Models C := by
  rintro ⟨I, hI⟩
  classical
  obtain ⟨L, hL, -⟩ := (sound_reach hsg ha hin h).refuted hs I hI (fun x => (I.inhab (sg.vty x)).choose) fun x => (I.inhab (sg.vty x)).choose_spec
  simp at hL

/-! ## Nothing is lost -/

private theorem mem_core {s : SatState} {C : List Lit} : C ∈ s.core ↔ C ∈ s.proc ∨ s.active = some C ∨
    (∃ c, s.given = some c ∧ c.gen = false ∧ c.lits = C) ∨ (∃ c ∈ s.tmp, c.gen = false ∧ c.lits = C) ∨
    (∃ c ∈ s.unproc, c.gen = false ∧ c.lits = C) := by
  simp only [SatState.core, List.mem_append, List.mem_map, List.mem_filter, Option.mem_toList, Bool.not_eq_true']
  constructor
  · rintro ((h | h) | ⟨c, ⟨((h | h) | h), g⟩, e⟩)
    · tauto
    · tauto
    · exact .inr (.inr (.inl ⟨c, h, g, e⟩))
    · exact .inr (.inr (.inr (.inl ⟨c, h, g, e⟩)))
    · exact .inr (.inr (.inr (.inr ⟨c, h, g, e⟩)))
  · rintro (h | h | ⟨c, h, g, e⟩ | ⟨c, h, g, e⟩ | ⟨c, h, g, e⟩)
    · tauto
    · tauto
    · exact .inr ⟨c, ⟨.inl (.inl h), g⟩, e⟩
    · exact .inr ⟨c, ⟨.inl (.inr h), g⟩, e⟩
    · exact .inr ⟨c, ⟨.inr h, g⟩, e⟩

/-- `I` is a model of what is kept. -/
private structure Kept (m : Bool) (s : SatState) (I : Interp.{u} sg) : Prop where
  proc : ∀ C ∈ s.proc, I.Models C
  active : ∀ C, s.active = some C → I.Models C
  given : ∀ c, s.given = some c → c.gen = false → I.Models c.lits
  tmp : ∀ c ∈ s.tmp, c.gen = false → I.Models c.lits
  unproc : ∀ c ∈ s.unproc, c.gen = false → I.Models c.lits
  old : m = true → (∀ C ∈ s.links, I.Models C) ∧ ∀ C ∈ s.ac, I.Models C

private theorem Kept.avail {s : SatState} {I : Interp.{u} sg} (h : Kept m s I) : ∀ A ∈ s.avail m, I.Models A := by
  intro A hA
  rcases List.mem_append.1 hA with hA | hA
  · exact h.proc A hA
  · cases m with
    | false => simp at hA
    | true =>
      rcases List.mem_append.1 hA with hA | hA
      · exact (h.old rfl).1 A hA
      · exact (h.old rfl).2 A hA

private theorem unsplit {α : Type _} {l U V : List α} {c : α} {P : α → Prop} (e : l = U ++ c :: V) (h : ∀ a ∈ U ++ V, P a) (hc : P c) :
    ∀ a ∈ l, P a := e ▸ mid_mem h hc

private theorem unsnoc {α : Type _} {l : List α} {c : α} {P : α → Prop} (h : ∀ a ∈ l ++ [c], P a) : (∀ a ∈ l, P a) ∧ P c :=
  ⟨fun a ha => h a (List.mem_append_left _ ha), h c (by simp)⟩

private theorem unmid {α : Type _} {U V : List α} {c : α} {P : α → Prop} (h : ∀ a ∈ U ++ c :: V, P a) : P c ∧ ∀ a ∈ U ++ V, P a :=
  split_mem rfl h

/-- In every step, a model of what is kept afterwards is a model of what was kept before. -/
private theorem kept_step (hsg : SigOK sg) {s s' : SatState} (hw : AllC sg.WTClause s) (h : SStep sg m s s') (hc : s'.complete = true)
    {I : Interp.{u} sg} (hI : Kept m s' I) : Kept m s I ∧ s.complete = true := by
  cases h with
  | select h1 h2 h3 =>
    refine ⟨⟨hI.proc, hI.active, by simp [h1], hI.tmp, unsplit h3 hI.unproc (hI.given _ rfl), hI.old⟩, hc⟩
  | @giveModify c C h1 h2 =>
    refine ⟨⟨hI.proc, hI.active, fun c' e g => ?_, hI.tmp, hI.unproc, hI.old⟩, hc⟩
    cases h1.symm.trans e
    exact ((modify_ok.{u} hsg hw.ac h2 (hw.given _ h1)).2 I hI.avail).1 (hI.given _ rfl g)
  | giveArchive h1 =>
    refine ⟨⟨hI.proc, hI.active, fun c' e g => ?_, hI.tmp, hI.unproc, hI.old⟩, hc⟩
    cases h1.symm.trans e
    exact hI.given ⟨_, false⟩ rfl rfl
  | giveDrop h1 h2 =>
    refine ⟨⟨hI.proc, hI.active, fun c' e g => ?_, hI.tmp, hI.unproc, hI.old⟩, hc⟩
    cases h1.symm.trans e
    exact drop_ok hw.ac h2 (hw.given _ h1) I hI.avail
  | giveEmpty h1 h2 => exact ⟨⟨hI.proc, hI.active, hI.given, hI.tmp, hI.unproc, hI.old⟩, hc⟩
  | acScan h1 =>
    exact ⟨⟨hI.proc, hI.active, hI.given, hI.tmp, hI.unproc, fun e => ⟨(hI.old e).1, (unsnoc (hI.old e).2).1⟩⟩, hc⟩
  | giveER h1 hb hag h2 =>
    refine ⟨⟨hI.proc, hI.active, fun c' e g => ?_, (unsnoc hI.tmp).1, hI.unproc, hI.old⟩, hc⟩
    cases h1.symm.trans e
    exact ((er_ok.{u} hsg hb hag h2 (hw.given _ h1)).2 I).1 ((unsnoc hI.tmp).2 g)
  | accept h1 h0 =>
    refine ⟨⟨hI.proc, ?_, fun c' e g => ?_, hI.tmp, hI.unproc, hI.old⟩, hc⟩
    · simp [h0]
    · cases h1.symm.trans e
      exact hI.active _ rfl
  | backMove h1 => exact ⟨⟨unsplit h1 hI.proc ((unsnoc hI.tmp).2 rfl), hI.active, hI.given, (unsnoc hI.tmp).1, hI.unproc, hI.old⟩, hc⟩
  | backSubsumed h1 h2 h3 =>
    refine ⟨⟨unsplit h2 hI.proc ?_, hI.active, hI.given, hI.tmp, hI.unproc, hI.old⟩, hc⟩
    exact subsumes_sound (hw.proc _ (by rw [h2]; simp)) h3 I (by simpa using hI.active _ h1)
  | activate h1 hb hag h2 =>
    refine ⟨⟨(unsnoc hI.proc).1, fun C e => ?_, hI.given, hI.tmp, hI.unproc, fun e => ⟨fun C hC => ?_, (hI.old e).2⟩⟩, hc⟩
    · cases h1.symm.trans e
      exact ((normVars_ok.{u} hsg hb hag h2 (hw.active _ h1)).2.2 I).1 (unsnoc hI.proc).2
    · exact (hI.old e).1 C (List.mem_append_left _ hC)
  | generate h1 => exact ⟨⟨hI.proc, hI.active, hI.given, (unsnoc hI.tmp).1, hI.unproc, hI.old⟩, hc⟩
  | tmpModify h1 h2 =>
    refine ⟨⟨hI.proc, hI.active, hI.given, unsplit h1 (unmid hI.tmp).2 fun g => ?_, hI.unproc, hI.old⟩, hc⟩
    exact ((modify_ok.{u} hsg hw.ac h2 (hw.tmp _ (by rw [h1]; simp))).2 I hI.avail).1 ((unmid hI.tmp).1 g)
  | tmpDrop h1 h2 =>
    exact ⟨⟨hI.proc, hI.active, hI.given, unsplit h1 hI.tmp fun _ => drop_ok hw.ac h2 (hw.tmp _ (by rw [h1]; simp)) I hI.avail, hI.unproc,
      hI.old⟩, hc⟩
  | tmpER h1 hb hag h2 =>
    refine ⟨⟨hI.proc, hI.active, hI.given, unsplit h1 (unsnoc hI.tmp).1 fun g => ?_, hI.unproc, hI.old⟩, hc⟩
    exact ((er_ok.{u} hsg hb hag h2 (hw.tmp _ (by rw [h1]; simp))).2 I).1 ((unsnoc hI.tmp).2 g)
  | tmpEmpty h1 h2 => exact ⟨⟨hI.proc, hI.active, hI.given, hI.tmp, hI.unproc, hI.old⟩, hc⟩
  | tmpInsert h1 =>
    exact ⟨⟨hI.proc, hI.active, hI.given, unsplit h1 hI.tmp (unsnoc hI.unproc).2, (unsnoc hI.unproc).1, hI.old⟩, hc⟩
  | unprocModify h1 h2 =>
    refine ⟨⟨hI.proc, hI.active, hI.given, hI.tmp, unsplit h1 (unmid hI.unproc).2 fun g => ?_, hI.old⟩, hc⟩
    exact ((modify_ok.{u} hsg hw.ac h2 (hw.unproc _ (by rw [h1]; simp))).2 I hI.avail).1 ((unmid hI.unproc).1 g)
  | unprocDrop h1 h2 =>
    exact ⟨⟨hI.proc, hI.active, hI.given, hI.tmp, unsplit h1 hI.unproc fun _ => drop_ok hw.ac h2 (hw.unproc _ (by rw [h1]; simp)) I hI.avail,
      hI.old⟩, hc⟩
  | unprocEmpty h1 h2 => exact ⟨⟨hI.proc, hI.active, hI.given, hI.tmp, hI.unproc, hI.old⟩, hc⟩
  | orphan h1 h2 =>
    exact ⟨⟨hI.proc, hI.active, hI.given, hI.tmp, unsplit h1 hI.unproc fun g => by simp [h2] at g, hI.old⟩, hc⟩
  | deleteBad h1 => simp at hc
  | satCheck => exact ⟨⟨hI.proc, hI.active, hI.given, hI.tmp, hI.unproc, hI.old⟩, hc⟩
  | reset h1 h2 =>
    refine ⟨⟨fun C hC => ?_, hI.active, hI.given, hI.tmp, fun c hc => hI.unproc c (List.mem_append_left _ hc), hI.old⟩, hc⟩
    exact hI.unproc ⟨C, false⟩ (List.mem_append_right _ (List.mem_map.2 ⟨C, hC, rfl⟩)) rfl

private theorem kept_reach (hsg : SigOK sg) (ha : AltTyped sg) (hin : ∀ C ∈ input, sg.WTClause C) {s : SatState} (h : SReach sg m input s)
    (hc : s.complete = true) {I : Interp.{u} sg} (hI : Kept m s I) : ∀ C ∈ input, I.Models C := by
  induction h with
  | init => exact fun C hC => hI.unproc ⟨C, false⟩ (by simpa [SatState.init] using hC) rfl
  | step h0 h ih =>
    obtain ⟨h1, h2⟩ := kept_step hsg (AllC.iff.2 fun C hC => (AllC.iff.1 (sound_reach.{u} hsg ha hin h0).ok C hC).1) h hc hI
    exact ih h2 h1

/-- **C37.** Unless clauses were deleted for resource reasons, the core clauses of every reachable state together with the
demodulators and AC axioms ever used are equivalent to the input: nothing is lost by simplification, subsumption, and deletion of
redundant clauses and orphans.  Partial: the property does not allow for former demodulators and AC axioms (see
`simplification_equivalent_direct`). -/
theorem simplification_equivalent_partial (hsg : SigOK sg) (ha : AltTyped sg) (hin : ∀ C ∈ input, sg.WTClause C) {s : SatState}
    (h : SReach sg m input s) (hc : s.complete = true) (I : Interp.{u} sg) :
    (∀ C ∈ s.core ++ s.links ++ s.ac, I.Models C) ↔ ∀ C ∈ input, I.Models C := by
  refine ⟨fun hI => kept_reach hsg ha hin h hc ?_, fun hI C hC => ?_⟩
  · simp only [List.mem_append, mem_core] at hI
    exact ⟨fun C hC => hI C (by tauto), fun C hC => hI C (by tauto), fun c hc g => hI _ (.inl (.inl (.inr (.inr (.inl ⟨c, hc, g, rfl⟩))))),
      fun c hc g => hI _ (.inl (.inl (.inr (.inr (.inr (.inl ⟨c, hc, g, rfl⟩)))))),
      fun c hc g => hI _ (.inl (.inl (.inr (.inr (.inr (.inr ⟨c, hc, g, rfl⟩)))))),
      fun _ => ⟨fun C hC => hI C (by tauto), fun C hC => hI C (by tauto)⟩⟩
  · have ok := (sound_reach.{u} hsg ha hin h).ok
    simp only [List.mem_append, mem_core] at hC
    rcases hC with ((h | h | ⟨c, h, g, rfl⟩ | ⟨c, h, g, rfl⟩ | ⟨c, h, g, rfl⟩) | h) | h
    · exact (ok.proc _ h).2 I hI
    · exact (ok.active _ h).2 I hI
    · exact (ok.given _ h).2 I hI
    · exact (ok.tmp _ h).2 I hI
    · exact (ok.unproc _ h).2 I hI
    · exact (ok.links _ h).2 I hI
    · exact (ok.ac _ h).2 I hI

/-- **C37.** If only the present processed clauses are used for simplification (no links to former demodulators, no former AC axioms), the core
clauses alone are equivalent to the input. -/
theorem simplification_equivalent_direct (hsg : SigOK sg) (ha : AltTyped sg) (hin : ∀ C ∈ input, sg.WTClause C) {s : SatState}
    (h : SReach sg false input s) (hc : s.complete = true) (I : Interp.{u} sg) :
    (∀ C ∈ s.core, I.Models C) ↔ ∀ C ∈ input, I.Models C := by
  refine ⟨fun hI => kept_reach hsg ha hin h hc ?_, fun hI C hC => ?_⟩
  · simp only [mem_core] at hI
    exact ⟨fun C hC => hI C (by tauto), fun C hC => hI C (by tauto), fun c hc g => hI _ (.inr (.inr (.inl ⟨c, hc, g, rfl⟩))),
      fun c hc g => hI _ (.inr (.inr (.inr (.inl ⟨c, hc, g, rfl⟩)))),
      fun c hc g => hI _ (.inr (.inr (.inr (.inr ⟨c, hc, g, rfl⟩)))), by simp⟩
  · exact (simplification_equivalent_partial hsg ha hin h hc I).2 hI C (by simp [hC])

/-- **C37.** In a single step: a clause that is changed or deleted (other than for resource reasons or as an orphan) holds in every model of
what is kept after the step. -/
theorem simplification_step (hsg : SigOK sg) (ha : AltTyped sg) (hin : ∀ C ∈ input, sg.WTClause C) {s s' : SatState}
    (h : SReach sg m input s) (h' : SStep sg m s s') (hc : s'.complete = true) {C : List Lit} (hC : C ∈ s.core) :
    Entails.{u} sg (s'.core ++ s'.links ++ s'.ac) C := by
  intro I hI
  have hk : Kept m s' I := by
    simp only [List.mem_append, mem_core] at hI
    exact ⟨fun C hC => hI C (by tauto), fun C hC => hI C (by tauto), fun c hc g => hI _ (.inl (.inl (.inr (.inr (.inl ⟨c, hc, g, rfl⟩))))),
      fun c hc g => hI _ (.inl (.inl (.inr (.inr (.inr (.inl ⟨c, hc, g, rfl⟩)))))),
      fun c hc g => hI _ (.inl (.inl (.inr (.inr (.inr (.inr ⟨c, hc, g, rfl⟩)))))),
      fun _ => ⟨fun C hC => hI C (by tauto), fun C hC => hI C (by tauto)⟩⟩
  obtain ⟨h1, -⟩ := kept_step hsg (AllC.iff.2 fun C hC => (AllC.iff.1 (sound_reach.{u} hsg ha hin h).ok C hC).1) h' hc hk
  rcases mem_core.1 hC with h | h | ⟨c, h, g, rfl⟩ | ⟨c, h, g, rfl⟩ | ⟨c, h, g, rfl⟩
  · exact h1.proc _ h
  · exact h1.active _ h
  · exact h1.given _ h g
  · exact h1.tmp _ h g
  · exact h1.unproc _ h g

/-! ## Example: the clauses `a = b` and `b ≠ a` are refuted -/

namespace SatEx

def sSig : Sig := ⟨fun _ => 0, fun f => if f ≤ 2 then 1 else 0, fun _ => [], fun _ => false⟩

theorem sSig_ok : SigOK sSig := ⟨rfl, rfl, rfl⟩

theorem sSig_alt : AltTyped sSig := fun _ _ _ => rfl

/-- `a = b`. -/
def eqAB : List Lit := [⟨true, .app 10 [], .app 11 []⟩]

/-- `b ≠ a`. -/
def neBA : List Lit := [⟨false, .app 11 [], .app 10 []⟩]

theorem sIn_wt : ∀ C ∈ [eqAB, neBA], sSig.WTClause C := by
  simp [eqAB, neBA, Sig.WTClause, Sig.WTLit, Sig.wt_app, sSig, Sig.ty]

/-- The state after the first clause was processed. -/
def s1 : SatState := ⟨[eqAB], none, none, [], [⟨neBA, false⟩], [eqAB], [], true, false⟩

theorem reach_s1 : SReach sSig m [eqAB, neBA] s1 := by
  refine .step (.step (.step .init (.select (U := []) (c := ⟨eqAB, false⟩) rfl rfl rfl)) (.accept rfl rfl)) ?_
  exact SStep.activate (n := 5) (b := .init) (b' := .init) (C := eqAB) (C' := eqAB) rfl VarBank.inv_init (by intro ty c h; simp [VarBank.init] at h) rfl

/-- Simplify-reflect turns the second clause into the empty clause. -/
theorem reach_success : SReach sSig m [eqAB, neBA]
    ⟨[eqAB], some ⟨[], false⟩, none, [], [], [eqAB], [], true, true⟩ := by
  have h1 : SReach sSig m [eqAB, neBA] ⟨[eqAB], some ⟨neBA, false⟩, none, [], [], [eqAB], [], true, false⟩ :=
    .step reach_s1 (.select (U := []) (c := ⟨neBA, false⟩) rfl rfl rfl)
  have h2 : SReach sSig m [eqAB, neBA] ⟨[eqAB], some ⟨[], false⟩, none, [], [], [eqAB], [], true, false⟩ := by
    refine .step h1 (SStep.giveModify (c := ⟨neBA, false⟩) (C := []) rfl ?_)
    exact Modify.posSR (pp := fun _ => false) (units := [⟨⟨true, .app 10 [], .app 11 []⟩, true⟩, ⟨⟨true, .app 10 [], .app 11 []⟩, false⟩])
      (strong := false) (n := 5) neBA (by simp [eqAB])
  exact .step h2 (.giveEmpty rfl rfl)

example : ¬ ∃ I : Interp.{u} sSig, ∀ C ∈ [eqAB, neBA], I.Models C :=
  saturation_refutes (m := true) sSig_ok sSig_alt sIn_wt reach_success rfl

example (I : Interp.{u} sSig) : (∀ C ∈ s1.core, I.Models C) ↔ ∀ C ∈ [eqAB, neBA], I.Models C :=
  simplification_equivalent_direct sSig_ok sSig_alt sIn_wt reach_s1 rfl I

example (I : Interp.{u} sSig) : (∀ C ∈ s1.core ++ s1.links ++ s1.ac, I.Models C) ↔ ∀ C ∈ [eqAB, neBA], I.Models C :=
  simplification_equivalent_partial (m := true) sSig_ok sSig_alt sIn_wt reach_s1 rfl I

example : ∀ C ∈ s1.all, sSig.WTClause C ∧ Entails.{u} sSig [eqAB, neBA] C := saturation_sound (m := true) sSig_ok sSig_alt sIn_wt reach_s1

end SatEx

end Verif.Props
