import Verif.Clauses.PredElimElim

/-!
# Predicate elimination: the main loop
-/

namespace Verif.PeProof
open SemProof Props CNFProof SaturateProof BceProof Term

universe u

variable (p : PeParams)

/-- The invariant of the main loop. -/
structure SInv (G : Prop) (s : PeSt) : Prop where
  fo : ∀ c ∈ s.passive, FOC p.sg c.2
  nd : (s.passive.map Prod.fst).Nodup
  lt : ∀ c ∈ s.passive, c.1 < s.next
  st : StOK (TaskOK.{u} G p.sg) (fun _ i C => (i, C) ∈ s.passive) s
  bank : s.vars.Inv

/-- What the clauses before and after have in common. -/
structure Rel (G : Prop) (eqn : Bool) (V V' : List (Nat × List Lit)) : Prop where
  cnt : ∀ g, (∀ c ∈ V, cnt g c.2 = 0) → ∀ c ∈ V', PeProof.cnt g c.2 = 0
  noeq : eqn = false → (∀ c ∈ V, ∀ K ∈ c.2, K.equ = false) → ∀ c ∈ V', ∀ K ∈ c.2, K.equ = false
  sound : ∀ I : Interp.{u} p.sg, (∀ c ∈ V, I.Models c.2) → ∀ c ∈ V', I.Models c.2
  back : G → ∀ I : Interp.{u} p.sg, (eqn = false → ∃ d, Herb p.sg I d) → (∀ c ∈ V', I.Models c.2) →
    ∃ F, ∃ h : I.FnOK F, (∀ g, F g ≠ I.fn g → (∃ c ∈ V, PeProof.cnt g c.2 ≠ 0) ∧ ∀ c ∈ V', PeProof.cnt g c.2 = 0) ∧ (eqn = false → ∃ d, Herb p.sg (I.reint F h) d) ∧ ∀ c ∈ V, (I.reint F h).Models c.2

variable {p}

theorem Rel.refl {G : Prop} {eqn : Bool} (V : List (Nat × List Lit)) : Rel.{u} p G eqn V V :=
  ⟨fun _ h => h, fun _ h => h, fun _ h => h, fun _ I h1 h2 => ⟨I.fn, fnOK_self I, fun _ h => absurd rfl h, h1, h2⟩⟩

theorem Rel.trans {G : Prop} {eqn : Bool} {V V' V'' : List (Nat × List Lit)} (h : Rel.{u} p G eqn V V') (h' : Rel.{u} p G eqn V' V'') : Rel.{u} p G eqn V V'' := by
  refine ⟨fun g hg => h'.cnt g (h.cnt g hg), fun he hg => h'.noeq he (h.noeq he hg), fun I hI => h'.sound I (h.sound I hI), fun hG I hH hI => ?_⟩
  obtain ⟨F, hF, f1, f2, f3⟩ := h'.back hG I hH hI
  obtain ⟨F', hF', g1, g2, g3⟩ := h.back hG (I.reint F hF) f2 f3
  refine ⟨F', ⟨hF'.mem, hF'.tf, hF'.bool2, hF'.dist⟩, fun g hg => ?_, g2, g3⟩
  by_cases he : F g = I.fn g
  · obtain ⟨a, b⟩ := g1 g fun hc => hg (hc.trans he)
    exact ⟨a, h'.cnt g b⟩
  · obtain ⟨⟨c, a, b⟩, d⟩ := f1 g he
    refine ⟨?_, d⟩
    by_contra hn
    push Not at hn
    exact b (h.cnt g hn c a)

/-! ## Removing clauses -/

theorem reg_iff {G : Prop} {V : List (Nat × List Lit)} (hnd : (V.map Prod.fst).Nodup) {sg : Sig} {t : PeTask} {f : Nat} (T : TaskOK.{u} G sg (fun i C => (i, C) ∈ V) t f)
    {c : Nat × List Lit} (hc : c ∈ V) :
    cnt f c.2 ≠ 0 ↔ c.1 ∈ t.posG.set ∨ c.1 ∈ t.negG.set ∨ c.1 ∈ t.pos.set ∨ c.1 ∈ t.neg.set ∨ c.1 ∈ t.off.set := by
  obtain ⟨i, C⟩ := c
  constructor
  · intro h0
    change cnt f C ≠ 0 at h0
    by_cases h1 : cnt f C = 1
    · obtain ⟨L, hL, hf⟩ := cnt_pos_iff.1 (show 0 < cnt f C by omega)
      cases hb : L.pos
      · rcases (T.reg.neg i).2 ⟨C, hc, h1, L, hL, hf, hb⟩ with h' | h'
        · exact .inr (.inr (.inr (.inl h')))
        · exact .inr (.inl h')
      · rcases (T.reg.pos i).2 ⟨C, hc, h1, L, hL, hf, hb⟩ with h' | h'
        · exact .inr (.inr (.inl h'))
        · exact .inl h'
    · exact .inr (.inr (.inr (.inr ((T.reg.off i).2 ⟨C, hc, by omega⟩))))
  · intro h
    have : ∃ D, (i, D) ∈ V ∧ cnt f D ≠ 0 := by
      rcases h with h | h | h | h | h
      · obtain ⟨D, h1, h2, _⟩ := (T.reg.pos i).1 (.inr h)
        exact ⟨D, h1, by omega⟩
      · obtain ⟨D, h1, h2, _⟩ := (T.reg.neg i).1 (.inr h)
        exact ⟨D, h1, by omega⟩
      · obtain ⟨D, h1, h2, _⟩ := (T.reg.pos i).1 (.inl h)
        exact ⟨D, h1, by omega⟩
      · obtain ⟨D, h1, h2, _⟩ := (T.reg.neg i).1 (.inl h)
        exact ⟨D, h1, by omega⟩
      · obtain ⟨D, h1, h2⟩ := (T.reg.off i).1 h
        exact ⟨D, h1, by omega⟩
    obtain ⟨D, h1, h2⟩ := this
    rw [ids_unique hnd hc h1]
    exact h2

theorem foldl_vars {α : Type} {g : PeSt → α → PeSt} (h : ∀ s a, (g s a).vars = s.vars) (l : List α) (s : PeSt) : (l.foldl g s).vars = s.vars := by
  induction l generalizing s with
  | nil => rfl
  | cons a l ih => rw [List.foldl_cons, ih, h]

theorem removeClause_vars (s : PeSt) (c : Nat × List Lit) : (removeClause s c).vars = s.vars := by
  unfold removeClause
  rw [foldl_vars]
  intro s L
  unfold removeLit
  split
  · rfl
  · split
    · rfl
    · split
      · rfl
      · dsimp only
        split
        · split <;> rfl
        · rfl

theorem removeClauses_vars (p : PeParams) (s : PeSt) (f : Nat) (t : PeTask) : (removeClauses p s f t).vars = s.vars :=
  foldl_vars removeClause_vars _ _

theorem removeAll_ok {G : Prop} : ∀ {l : List (Nat × List Lit)} {s : PeSt}, SInv.{u} p G s → (∀ c ∈ l, ∀ C', (c.1, C') ∈ s.passive → C' = c.2) →
    SInv.{u} p G (l.foldl removeClause s) ∧ (∀ c, c ∈ (l.foldl removeClause s).passive ↔ c ∈ s.passive ∧ c.1 ∉ l.map Prod.fst) ∧ (l.foldl removeClause s).vars = s.vars
  | [], s, h, _ => ⟨h, by simp, rfl⟩
  | c :: l, s, h, hl => by
    obtain ⟨h1, h2, h3, h4⟩ := removeClause_ok (hl c (List.mem_cons_self ..)) h.st
    have hsub : ∀ d, d ∈ (removeClause s c).passive ↔ d ∈ s.passive ∧ d.1 ≠ c.1 := by
      intro d
      rw [h2, List.mem_filter]
      simp
    have hs : SInv.{u} p G (removeClause s c) := by
      refine ⟨fun d hd => h.fo d ((hsub d).1 hd).1, ?_, fun d hd => by rw [h3]; exact h.lt d ((hsub d).1 hd).1, ?_, by rw [h4]; exact h.bank⟩
      · rw [h2]
        exact h.nd.sublist (List.filter_sublist.map _)
      · rw [h2]
        exact h1
    obtain ⟨i1, i2, i3⟩ := removeAll_ok hs fun d hd C' hC' => hl d (List.mem_cons_of_mem _ hd) C' ((hsub _).1 hC').1
    refine ⟨i1, fun d => ?_, i3.trans h4⟩
    rw [List.foldl_cons, i2 d, hsub d]
    simp only [List.map_cons, List.mem_cons, not_or, and_assoc, ne_eq]

theorem setTask_ok {G : Prop} {s : PeSt} {f : Nat} {t t' : PeTask} (h : SInv.{u} p G s) (ht : s.tasks f = some t)
    (hT : t'.size ≠ -1 → TaskOK.{u} G p.sg (fun i C => (i, C) ∈ s.passive) t' f) (hq : f ∈ s.queue → t'.size = -1 ∨ t'.canSchedule = true) : SInv.{u} p G (s.setTask f t') := by
  refine ⟨h.fo, h.nd, h.lt, ⟨fun g hg => ?_, fun g u hg hu => ?_, fun g => ?_, h.st.ndk, h.st.ndq, fun g hg => ?_⟩, h.bank⟩
  · by_cases e : g = f
    · simp [PeSt.setTask, e] at hg
    · exact h.st.empty g (by simpa [PeSt.setTask, e] using hg)
  · by_cases e : g = f
    · subst e
      obtain rfl : t' = u := by simpa [PeSt.setTask] using hg
      exact hT hu
    · exact h.st.task g u (by simpa [PeSt.setTask, e] using hg) hu
  · rw [show (s.setTask f t').keys = s.keys from rfl, h.st.keys g]
    by_cases e : g = f
    · subst e
      simp [PeSt.setTask, ht]
    · simp [PeSt.setTask, e]
  · by_cases e : g = f
    · subst e
      exact ⟨t', by simp [PeSt.setTask], hq hg⟩
    · obtain ⟨u, h1, h2⟩ := h.st.queue g hg
      exact ⟨u, by simpa [PeSt.setTask, e] using h1, h2⟩

theorem removeClauses_ok (hord : ∀ l, (p.ord l).Perm l) {G : Prop} {s : PeSt} (h : SInv.{u} p G s) {f : Nat} {t : PeTask} (ht : s.tasks f = some t)
    (T : TaskOK.{u} G p.sg (fun i C => (i, C) ∈ s.passive) t f) :
    SInv.{u} p G (removeClauses p s f t) ∧ (∀ c, c ∈ (removeClauses p s f t).passive ↔ c ∈ s.passive ∧ cnt f c.2 = 0) ∧ (removeClauses p s f t).vars = s.vars := by
  have h0 : SInv.{u} p G (s.setTask f { t with size := -1 }) := setTask_ok h ht (fun hc => absurd rfl hc) fun _ => .inl rfl
  obtain ⟨h1, h2, h3⟩ := removeAll_ok (l := (s.clauses (p.ord t.posG.set) ++ s.clauses (p.ord t.negG.set) ++ s.clauses (p.ord t.pos.set) ++ s.clauses (p.ord t.neg.set) ++
    s.clauses (p.ord t.off.set)).reverse) h0 (fun c hc C' hC' => by
      have hm : c ∈ s.passive := by
        simp only [List.mem_reverse, List.mem_append, mem_clauses h.nd] at hc
        rcases hc with (((hc | hc) | hc) | hc) | hc <;> exact hc.2
      exact ids_unique h.nd hC' hm)
  refine ⟨h1, fun c => (h2 c).trans (and_congr_right fun hc => ?_), h3⟩
  change c ∈ s.passive at hc
  rw [← not_iff_not, not_not]
  refine Iff.trans ?_ (reg_iff h.nd T hc).symm
  simp only [List.mem_map, List.mem_reverse, List.mem_append, mem_clauses h.nd, (hord _).mem_iff]
  constructor
  · rintro ⟨d, hd, e⟩
    rw [← e]
    rcases hd with (((hd | hd) | hd) | hd) | hd
    · exact .inl hd.1
    · exact .inr (.inl hd.1)
    · exact .inr (.inr (.inl hd.1))
    · exact .inr (.inr (.inr (.inl hd.1)))
    · exact .inr (.inr (.inr (.inr hd.1)))
  · rintro (hd | hd | hd | hd | hd)
    · exact ⟨c, .inl (.inl (.inl (.inl ⟨hd, hc⟩))), rfl⟩
    · exact ⟨c, .inl (.inl (.inl (.inr ⟨hd, hc⟩))), rfl⟩
    · exact ⟨c, .inl (.inl (.inr ⟨hd, hc⟩)), rfl⟩
    · exact ⟨c, .inl (.inr ⟨hd, hc⟩), rfl⟩
    · exact ⟨c, .inr ⟨hd, hc⟩, rfl⟩

/-! ## Adding clauses -/

theorem addClauses_bank {k : Nat} : ∀ {Cs : List (List Lit)} {s s' : PeSt}, s.vars.Inv → addClauses p k Cs s = some s' → s'.vars.Inv ∧ Pre s.vars s'.vars
  | [], s, s', hb, h => by
    cases h
    exact ⟨hb, Pre.refl _⟩
  | C :: Cs, s, s', hb, h => by
    unfold addClauses at h
    split at h
    · cases h
    · rename_i b C' h1
      obtain ⟨a1, a2⟩ := norm_bank hb h1
      have e := (scanClause_passive (m := p.maxOccs) (recog := false) (block := false) (i := s.next) (C := C')
        (s := { s with passive := s.passive ++ [(s.next, C')], next := s.next + 1, vars := b })).2.2
      obtain ⟨b1, b2⟩ := addClauses_bank (by rw [e]; exact a1) h
      rw [e] at b2
      exact ⟨b1, a2.trans b2⟩

theorem addClauses_ok (hsg : SigOK p.sg) (hF : FOSig p.sg) {G : Prop} {k : Nat} : ∀ {Cs : List (List Lit)} {s s' : PeSt}, SInv.{u} p G s → (∀ C ∈ Cs, ∀ K ∈ C, FOLit p.sg K) →
    addClauses p k Cs s = some s' → BankAgrees p.sg s'.vars →
    SInv.{u} p G s' ∧ (∀ g, (∀ c ∈ s'.passive, cnt g c.2 = 0) ↔ (∀ c ∈ s.passive, cnt g c.2 = 0) ∧ ∀ C ∈ Cs, cnt g C = 0) ∧
      ((∀ c ∈ s.passive, ∀ K ∈ c.2, K.equ = false) → (∀ C ∈ Cs, ∀ K ∈ C, K.equ = false) → ∀ c ∈ s'.passive, ∀ K ∈ c.2, K.equ = false) ∧
      ∀ I : Interp.{u} p.sg, (∀ c ∈ s'.passive, I.Models c.2) ↔ (∀ c ∈ s.passive, I.Models c.2) ∧ ∀ C ∈ Cs, I.Models C
  | [], s, s', hs, _, h, _ => by
    cases h
    exact ⟨hs, by simp, fun h _ => h, by simp⟩
  | C :: Cs, s, s', hs, hfo, h, hag => by
    unfold addClauses at h
    split at h
    · cases h
    · rename_i b C' h1
      obtain ⟨a1, a2⟩ := norm_bank hs.bank h1
      obtain ⟨e1, e2, e3⟩ := scanClause_passive (m := p.maxOccs) (recog := false) (block := false) (i := s.next) (C := C')
        (s := { s with passive := s.passive ++ [(s.next, C')], next := s.next + 1, vars := b })
      obtain ⟨-, b2⟩ := addClauses_bank (by rw [e3]; exact a1) h
      rw [e3] at b2
      obtain ⟨n1, n2, n3, n4⟩ := norm_step.{u} hsg hF hs.bank (hfo C (List.mem_cons_self ..)) h1 (b2.agrees hag)
      have hfresh : ∀ D, (s.next, D) ∉ s.passive := fun D hD => Nat.lt_irrefl _ (hs.lt _ hD)
      have hs1 : SInv.{u} p G (scanClause p.maxOccs false false s.next C' { s with passive := s.passive ++ [(s.next, C')], next := s.next + 1, vars := b }) := by
        refine ⟨?_, ?_, ?_, ?_, by rw [e3]; exact a1⟩
        · rw [e1]
          intro c hc
          rcases List.mem_append.1 hc with hc | hc
          · exact hs.fo c hc
          · rw [List.mem_singleton.1 hc]
            exact n1
        · rw [e1]
          show ((s.passive ++ [(s.next, C')]).map Prod.fst).Nodup
          rw [List.map_append, List.nodup_append]
          refine ⟨hs.nd, by simp, fun a ha' b' hb' e => ?_⟩
          obtain ⟨⟨i, D⟩, hD, rfl⟩ := List.mem_map.1 ha'
          have hb'' : b' = s.next := by simpa using hb'
          subst hb''
          have e : i = s.next := e
          subst e
          exact hfresh D hD
        · rw [e1, e2]
          intro c hc
          show c.1 < s.next + 1
          rcases List.mem_append.1 hc with hc | hc
          · exact Nat.lt_succ_of_lt (hs.lt c hc)
          · rw [List.mem_singleton.1 hc]
            exact Nat.lt_succ_self _
        · rw [e1]
          exact scanClause_ok (main_qok.{u} G) n1.fo hfresh ⟨hs.st.empty, hs.st.task, hs.st.keys, hs.st.ndk, hs.st.ndq, hs.st.queue⟩
      obtain ⟨i1, i2, i3, i4⟩ := addClauses_ok hsg hF hs1 (fun D hD => hfo D (List.mem_cons_of_mem _ hD)) h hag
      rw [e1] at i2 i3 i4
      have key : ∀ (X : List Lit → Prop), (∀ c ∈ s.passive ++ [(s.next, C')], X c.2) ↔ (∀ c ∈ s.passive, X c.2) ∧ X C' := by
        intro X
        simp only [List.mem_append, List.mem_singleton]
        constructor
        · exact fun h => ⟨fun c hc => h c (.inl hc), h _ (.inr rfl)⟩
        · rintro ⟨h1, h2⟩ c (hc | rfl)
          · exact h1 c hc
          · exact h2
      have key2 : ∀ (X : List Lit → Prop), (∀ D ∈ C :: Cs, X D) ↔ X C ∧ ∀ D ∈ Cs, X D := fun X => List.forall_mem_cons
      refine ⟨i1, fun g => ?_, fun g1 g2 => ?_, fun I => ?_⟩
      · rw [i2 g]
        refine (and_congr_left' (key fun D => cnt g D = 0)).trans ?_
        rw [n2 g, and_assoc]
        exact and_congr_right' (key2 fun D => cnt g D = 0).symm
      · obtain ⟨g3, g4⟩ := (key2 fun D => ∀ K ∈ D, K.equ = false).1 g2
        exact i3 ((key fun D => ∀ K ∈ D, K.equ = false).2 ⟨g1, n3 g3⟩) g4
      · rw [i4 I]
        refine (and_congr_left' (key fun D => I.Models D)).trans ?_
        rw [n4 I, and_assoc]
        exact and_congr_right' (key2 fun D => I.Models D).symm

/-! ## One task, and all tasks -/

theorem tryElim_bank {s : PeSt} {f k : Nat} {t : PeTask} {eqn : Bool} {cls : List (List Lit)} {b : VarBank} (hb : s.vars.Inv) (h : tryElim p k eqn s f t = some (cls, b)) :
    b.Inv ∧ Pre s.vars b := by
  unfold tryElim at h
  dsimp only at h
  split at h
  · split at h
    · rename_i hO
      cases h
      exact gateLoop_bank hb hO
    · cases h
  · rw [Option.map_eq_some_iff] at h
    obtain ⟨A, -, e⟩ := h
    cases e
    exact ⟨hb, Pre.refl _⟩

section
variable (hsg : SigOK p.sg) (hF : FOSig p.sg) (ha : AltTyped p.sg)
  (hT : ∀ C, (∀ K ∈ C, FOLit p.sg K) → p.taut C = true → Valid.{u} p.sg C) (hord : ∀ l, (p.ord l).Perm l)

theorem peStep_bank {k : Nat} {eqn : Bool} {s s' : PeSt} {f : Nat} (hb : s.vars.Inv) (h : peStep p k eqn s f = some s') : s'.vars.Inv ∧ Pre s.vars s'.vars := by
  unfold peStep at h
  split at h
  · cases h
  · rename_i t ht
    dsimp only at h
    split at h
    · cases h
      exact ⟨hb, Pre.refl _⟩
    · split at h
      · cases h
      · rename_i cls b h1
        obtain ⟨a1, a2⟩ := tryElim_bank (s := s.setTask f { t with lastLit := some t.numLit, lastSq := some t.sqVars }) hb h1
        split at h
        · have e : (removeClauses p { s.setTask f { t with lastLit := some t.numLit, lastSq := some t.sqVars } with vars := b } f
              { t with lastLit := some t.numLit, lastSq := some t.sqVars }).vars = b := removeClauses_vars ..
          obtain ⟨b1, b2⟩ := addClauses_bank (by rw [e]; exact a1) h
          rw [e] at b2
          exact ⟨b1, a2.trans b2⟩
        · cases h
          exact ⟨a1, a2⟩

include hsg hF ha hT hord in
theorem peStep_ok {G : Prop} {k : Nat} {eqn : Bool} {s s' : PeSt} {f : Nat} (hs : SInv.{u} p G s) (hf : ∃ t, s.tasks f = some t ∧ (t.size = -1 ∨ t.canSchedule = true))
    (h : peStep p k eqn s f = some s') (hag : BankAgrees p.sg s'.vars) : SInv.{u} p G s' ∧ Rel.{u} p G eqn s.passive s'.passive := by
  obtain ⟨t, ht, hc⟩ := hf
  unfold peStep at h
  rw [ht] at h
  dsimp only at h
  have T : t.size ≠ -1 → TaskOK.{u} G p.sg (fun i C => (i, C) ∈ s.passive) { t with lastLit := some t.numLit, lastSq := some t.sqVars } f := fun hz =>
    (hs.st.task f t ht hz).congr (fun _ _ _ => Iff.rfl) rfl rfl rfl rfl rfl rfl
  have hs1 : SInv.{u} p G (s.setTask f { t with lastLit := some t.numLit, lastSq := some t.sqVars }) := setTask_ok hs ht T fun _ => hc
  split at h
  · cases h
    exact ⟨hs1, Rel.refl _⟩
  · rename_i hz
    have hc : t.canSchedule = true := hc.resolve_left hz
    split at h
    · cases h
    · rename_i cls b h1
      obtain ⟨a1, a2⟩ := tryElim_bank hs1.bank h1
      have hs2 : SInv.{u} p G { s.setTask f { t with lastLit := some t.numLit, lastSq := some t.sqVars } with vars := b } :=
        ⟨hs1.fo, hs1.nd, hs1.lt, ⟨hs1.st.empty, hs1.st.task, hs1.st.keys, hs1.st.ndk, hs1.st.ndq, hs1.st.queue⟩, a1⟩
      split at h
      · obtain ⟨r1, r2, r3⟩ := removeClauses_ok hord hs2 (f := f) (t := { t with lastLit := some t.numLit, lastSq := some t.sqVars }) (by simp [PeSt.setTask]) (T hz)
        obtain ⟨-, b2⟩ := addClauses_bank r1.bank h
        rw [r3] at b2
        have E := tryElim_ok.{u} p hsg hF ha hT hord hs1.fo hs1.nd (T hz) hc hs1.bank h1 (b2.agrees hag)
        obtain ⟨i1, i2, i3, i4⟩ := addClauses_ok hsg hF r1 (fun C hC => (E.fo C (List.mem_reverse.1 hC)).1) h hag
        refine ⟨i1, fun g hg => ?_, fun he hg => ?_, fun I hI => ?_, fun hG I hH hI => ?_⟩
        · exact (i2 g).2 ⟨fun c hc => hg c ((r2 c).1 hc).1, fun C hC => E.cnt g hg C (List.mem_reverse.1 hC)⟩
        · exact i3 (fun c hc => hg c ((r2 c).1 hc).1) fun C hC => E.noeq he hg C (List.mem_reverse.1 hC)
        · exact (i4 I).2 ⟨fun c hc => hI c ((r2 c).1 hc).1, fun C hC => E.sound I hI C (List.mem_reverse.1 hC)⟩
        · obtain ⟨m1, m2⟩ := (i4 I).1 hI
          by_cases hocc : ∃ c ∈ s.passive, PeProof.cnt f c.2 ≠ 0
          case neg =>
            push Not at hocc
            exact ⟨I.fn, fnOK_self I, fun _ h => absurd rfl h, hH, fun c hc => m1 c ((r2 c).2 ⟨hc, hocc c hc⟩)⟩
          obtain ⟨F, hF', f1, f2, f3⟩ := E.back hG I hH (fun C hC => m2 C (List.mem_reverse.2 hC)) fun c hc h0 => m1 c ((r2 c).2 ⟨hc, h0⟩)
          refine ⟨F, hF', fun g hg => ?_, f2, f3⟩
          have hgf : g = f := by
            by_contra hne
            exact hg (f1 g hne)
          subst hgf
          refine ⟨hocc, (i2 g).2 ⟨fun c hc => ((r2 c).1 hc).2, fun C hC => (E.fo C (List.mem_reverse.1 hC)).2⟩⟩
      · cases h
        exact ⟨hs2, Rel.refl _⟩

theorem peLoop_bank {kk : Nat} {eqn : Bool} : ∀ {k : Nat} {s s' : PeSt}, s.vars.Inv → peLoop p eqn kk k s = some s' → s'.vars.Inv ∧ Pre s.vars s'.vars
  | 0, _, _, _, h => by simp [peLoop] at h
  | k + 1, s, s', hb, h => by
    unfold peLoop at h
    split at h
    · cases h
      exact ⟨hb, Pre.refl _⟩
    · split at h
      · cases h
      · rename_i s1 h1
        obtain ⟨a1, a2⟩ := peStep_bank (s := { s with queue := s.queue.eraseIdx (p.pick s % s.queue.length) }) hb h1
        obtain ⟨b1, b2⟩ := peLoop_bank a1 h
        exact ⟨b1, Pre.trans a2 b2⟩

include hsg hF ha hT hord in
theorem peLoop_ok {G : Prop} {kk : Nat} {eqn : Bool} : ∀ {k : Nat} {s s' : PeSt}, SInv.{u} p G s → peLoop p eqn kk k s = some s' → BankAgrees p.sg s'.vars →
    SInv.{u} p G s' ∧ Rel.{u} p G eqn s.passive s'.passive
  | 0, _, _, _, h, _ => by simp [peLoop] at h
  | k + 1, s, s', hs, h, hag => by
    unfold peLoop at h
    split at h
    · cases h
      exact ⟨hs, Rel.refl _⟩
    · rename_i f hf
      split at h
      · cases h
      · rename_i s1 h1
        have hs0 : SInv.{u} p G { s with queue := s.queue.eraseIdx (p.pick s % s.queue.length) } :=
          ⟨hs.fo, hs.nd, hs.lt, ⟨hs.st.empty, hs.st.task, hs.st.keys, hs.st.ndk, hs.st.ndq.sublist (List.eraseIdx_sublist _ _), fun g hg =>
            hs.st.queue g ((List.eraseIdx_sublist _ _).subset hg)⟩, hs.bank⟩
        obtain ⟨a1, -⟩ := peStep_bank (s := { s with queue := s.queue.eraseIdx (p.pick s % s.queue.length) }) hs.bank h1
        obtain ⟨-, b2⟩ := peLoop_bank a1 h
        obtain ⟨i1, i2⟩ := peStep_ok hsg hF ha hT hord hs0 (hs.st.queue f (List.mem_of_getElem? hf)) h1 (b2.agrees hag)
        obtain ⟨j1, j2⟩ := peLoop_ok i1 h hag
        exact ⟨j1, i2.trans j2⟩

end

end Verif.PeProof
