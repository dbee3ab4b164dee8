import Verif.Clauses.PredElimBack

/-!
# Predicate elimination: bookkeeping

Every task that is not blocked knows exactly the clauses its predicate occurs in.
-/

namespace Verif.PeProof
open SemProof Props CNFProof SaturateProof BceProof Term

universe u

variable {sg : Sig}

/-! ## Occurrences -/

def Sgn (f : Nat) (b : Bool) (C : List Lit) : Prop := ∃ L ∈ C, L.predCode? = some f ∧ L.pos = b

def occAt (C : List Lit) (j f : Nat) : Prop := ∃ L, C[j]? = some L ∧ L.predCode? = some f

def occBelow (C : List Lit) (j f : Nat) : Prop := ∃ i, i < j ∧ occAt C i f

theorem cnt_erase {C : List Lit} {j f : Nat} {L : Lit} (h : C[j]? = some L) (hf : L.predCode? = some f) : cnt f C = cnt f (C.eraseIdx j) + 1 := by
  obtain ⟨hj, e⟩ := List.getElem?_eq_some_iff.1 h
  have := cnt_perm (f := f) (List.getElem_cons_eraseIdx_perm hj)
  rw [← this, e]
  unfold cnt
  rw [List.countP_cons_of_pos]
  simp [hf]

theorem otherOcc_iff {C : List Lit} {j f : Nat} {L : Lit} (h : C[j]? = some L) (hf : L.predCode? = some f) : otherOcc C j f = true ↔ 2 ≤ cnt f C := by
  rw [cnt_erase h hf]
  unfold otherOcc cnt
  rw [List.any_eq_true]
  constructor
  · intro hx
    have : 0 < (C.eraseIdx j).countP fun K => K.predCode? == some f := List.countP_pos_iff.2 hx
    omega
  · intro hx
    exact List.countP_pos_iff.1 (by omega)

theorem occBelow_succ {C : List Lit} {j f : Nat} : occBelow C (j + 1) f ↔ occBelow C j f ∨ occAt C j f := by
  constructor
  · rintro ⟨i, hi, h⟩
    rcases Nat.lt_succ_iff_lt_or_eq.1 hi with hi | rfl
    · exact .inl ⟨i, hi, h⟩
    · exact .inr h
  · rintro (⟨i, hi, h⟩ | h)
    · exact ⟨i, Nat.lt_succ_of_lt hi, h⟩
    · exact ⟨j, Nat.lt_succ_self j, h⟩

theorem cnt_pos_iff {C : List Lit} {f : Nat} : 0 < cnt f C ↔ ∃ L ∈ C, L.predCode? = some f := by
  unfold cnt
  rw [List.countP_pos_iff]
  simp

theorem occBelow_length {C : List Lit} {f : Nat} : occBelow C C.length f ↔ 0 < cnt f C := by
  rw [cnt_pos_iff]
  constructor
  · rintro ⟨i, _, L, h, hf⟩
    exact ⟨L, List.mem_of_getElem? h, hf⟩
  · rintro ⟨L, hL, hf⟩
    obtain ⟨i, hi, e⟩ := List.getElem_of_mem hL
    exact ⟨i, hi, L, by rw [List.getElem?_eq_getElem hi, e], hf⟩

theorem two_occ {C : List Lit} {j f : Nat} (h : occBelow C j f) (h' : occAt C j f) : 2 ≤ cnt f C := by
  obtain ⟨i, hi, K, hK, hKf⟩ := h
  obtain ⟨L, hL, hLf⟩ := h'
  rw [cnt_erase hL hLf]
  have : 0 < cnt f (C.eraseIdx j) := cnt_pos_iff.2 ⟨K, List.mem_of_getElem? (i := i) (by rw [List.getElem?_eraseIdx_of_lt hi]; exact hK), hKf⟩
  omega

theorem sgn_of_one {C : List Lit} {f : Nat} (h1 : cnt f C = 1) {L : Lit} (hL : L ∈ C) (hf : L.predCode? = some f) {b : Bool} : Sgn f b C ↔ L.pos = b := by
  constructor
  · rintro ⟨K, hK, hKf, rfl⟩
    obtain ⟨j, hj, e⟩ := List.getElem_of_mem hL
    have hj' : C[j]? = some L := by rw [List.getElem?_eq_getElem hj, e]
    rw [cnt_erase hj' hf] at h1
    have := (List.getElem_cons_eraseIdx_perm hj).mem_iff.2 hK
    rw [e] at this
    rcases List.mem_cons.1 this with rfl | hm
    · rfl
    · have : 0 < cnt f (C.eraseIdx j) := cnt_pos_iff.2 ⟨K, hm, hKf⟩
      omega
  · rintro rfl
    exact ⟨L, hL, hf, rfl⟩

theorem one_of (hsg : SigOK sg) (hF : FOSig sg) {C : List Lit} (hC : ∀ K ∈ C, FOLit sg K) {f : Nat} {b : Bool} (h1 : cnt f C = 1) (hs : Sgn f b C) : One f b C := by
  obtain ⟨L, hL, hf, rfl⟩ := hs
  obtain ⟨ts, e⟩ := (pred_iff hsg hF (hC L hL)).1 hf
  obtain ⟨j, hj, e'⟩ := List.getElem_of_mem hL
  have hj' : C[j]? = some L := by rw [List.getElem?_eq_getElem hj, e']
  rw [cnt_erase hj' hf] at h1
  refine ⟨ts, C.eraseIdx j, ?_, by omega⟩
  rw [← e, ← e']
  exact (List.getElem_cons_eraseIdx_perm hj).symm

/-! ## Sets -/

theorem mem_store {s : CCS} {i j : Nat} : j ∈ (s.store i).1.set ↔ j ∈ s.set ∨ j = i := by
  unfold CCS.store
  split
  · rename_i h
    exact ⟨.inl, fun h' => h'.elim id (fun e => e ▸ h)⟩
  · simp

theorem nodup_store {s : CCS} {i : Nat} (h : s.set.Nodup) : (s.store i).1.set.Nodup := by
  unfold CCS.store
  split
  · exact h
  · rename_i hi
    simp only
    rw [List.nodup_append]
    exact ⟨h, by simp, by rintro a ha b hb rfl; simp at hb; exact hi (hb ▸ ha)⟩

theorem card_store {s : CCS} {i : Nat} (h : s.card = s.set.length) : (s.store i).1.card = (s.store i).1.set.length := by
  unfold CCS.store
  split
  · exact h
  · simp [h]

theorem mem_remove {s : CCS} {i j : Nat} (h : s.set.Nodup) : j ∈ (s.remove i).1.set ↔ j ∈ s.set ∧ j ≠ i := by
  unfold CCS.remove
  split
  · simp only
    rw [h.mem_erase_iff, and_comm]
  · rename_i hi
    exact ⟨fun hj => ⟨hj, fun e => hi (e ▸ hj)⟩, fun h => h.1⟩

theorem nodup_remove {s : CCS} {i : Nat} (h : s.set.Nodup) : (s.remove i).1.set.Nodup := by
  unfold CCS.remove
  split
  · exact h.erase _
  · exact h

theorem card_remove {s : CCS} {i : Nat} (h : s.card = s.set.length) : (s.remove i).1.card = (s.remove i).1.set.length := by
  unfold CCS.remove
  split
  · rename_i hi
    simp only
    rw [List.length_erase_of_mem hi, h]
    have := List.length_pos_of_mem hi
    omega
  · exact h

theorem mem_merge {s t : CCS} {j : Nat} : j ∈ (s.merge t).set ↔ j ∈ s.set ∨ j ∈ t.set := by
  unfold CCS.merge
  by_cases h : j ∈ s.set <;> simp [h]

theorem nodup_merge {s t : CCS} (h : s.set.Nodup) (h' : t.set.Nodup) : (s.merge t).set.Nodup := by
  unfold CCS.merge
  simp only
  rw [List.nodup_append]
  refine ⟨h, h'.filter _, ?_⟩
  rintro a ha b hb rfl
  simp at hb
  exact hb.2 ha

/-! ## Tasks -/

/-- The task knows the clauses with its predicate; `R` are the clauses that have been registered. -/
structure Reg (R : Nat → List Lit → Prop) (t : PeTask) (f : Nat) : Prop where
  pos : ∀ i, i ∈ t.pos.set ∨ i ∈ t.posG.set ↔ ∃ C, R i C ∧ cnt f C = 1 ∧ Sgn f true C
  neg : ∀ i, i ∈ t.neg.set ∨ i ∈ t.negG.set ↔ ∃ C, R i C ∧ cnt f C = 1 ∧ Sgn f false C
  off : ∀ i, i ∈ t.off.set ↔ ∃ C, R i C ∧ 2 ≤ cnt f C
  card : t.off.card = t.off.set.length
  ndp : t.pos.set.Nodup
  ndn : t.neg.set.Nodup
  ndo : t.off.set.Nodup
  ndpg : t.posG.set.Nodup
  ndng : t.negG.set.Nodup

/-- A clause of a gate: the arguments are different variables, among them all variables of the clause. -/
def GateCl (f : Nat) (b : Bool) (C : List Lit) : Prop :=
  ∃ ts R, C.Perm (⟨b, .app f ts, tTrue⟩ :: R) ∧ cnt f R = 0 ∧ distinctVars ts = true ∧ ∀ K ∈ R, ∀ x ∈ K.vars, Term.var x ∈ ts

/-- While the queue is built, gate clauses are members of both sets. -/
structure BuildOK (R : Nat → List Lit → Prop) (t : PeTask) (f : Nat) : Prop where
  reg : Reg R t f
  gate : t.gate = false
  sp : ∀ i ∈ t.posG.set, i ∈ t.pos.set ∧ ∃ C, R i C ∧ GateCl f true C
  sn : ∀ i ∈ t.negG.set, i ∈ t.neg.set ∧ ∃ C, R i C ∧ GateCl f false C

/-- Arguments of the sorts of the predicate. -/
def SArgs (I : Interp.{u} sg) (f : Nat) (ds : List I.D) : Prop := List.Forall₂ I.mem (sg.fargs f) ds

/-- The clauses of a gate define the predicate completely. -/
def Covers (sg : Sig) (f : Nat) (Ps Ns : List (List Lit)) : Prop :=
  ∀ (I : Interp.{u} sg) (ds : List I.D), SArgs I f ds → (∃ C ∈ Ps, Demands I f true C ds) ∨ ∃ C ∈ Ns, Demands I f false C ds

/-- The clauses of a gate do not contradict each other. -/
def Agree (sg : Sig) (f : Nat) (Ps Ns : List (List Lit)) : Prop :=
  ∀ (I : Interp.{u} sg) (ds : List I.D), ∀ C ∈ Ps, ∀ D ∈ Ns, Demands I f true C ds → Demands I f false D ds → False

/-- A gate. -/
def GateProp (G : Prop) (sg : Sig) (R : Nat → List Lit → Prop) (t : PeTask) (f : Nat) : Prop :=
  ∃ cl : Nat → List Lit, (∀ i ∈ t.posG.set, R i (cl i) ∧ GateCl f true (cl i)) ∧ (∀ i ∈ t.negG.set, R i (cl i) ∧ GateCl f false (cl i)) ∧
    Covers.{u} sg f (t.posG.set.map cl) (t.negG.set.map cl) ∧ (G → Agree.{u} sg f (t.posG.set.map cl) (t.negG.set.map cl))

/-- Tasks after the queue has been built. -/
structure TaskOK (G : Prop) (sg : Sig) (R : Nat → List Lit → Prop) (t : PeTask) (f : Nat) : Prop where
  reg : Reg R t f
  djp : ∀ i ∈ t.pos.set, i ∉ t.posG.set
  djn : ∀ i ∈ t.neg.set, i ∉ t.negG.set
  ng : t.gate = false → t.posG.set = [] ∧ t.negG.set = []
  g : t.gate = true → GateProp.{u} G sg R t f

theorem Reg.congr {R R' : Nat → List Lit → Prop} {t t' : PeTask} {f : Nat} (h : Reg R t f) (hR : ∀ i C, 0 < cnt f C → (R i C ↔ R' i C)) (e1 : t'.pos = t.pos) (e2 : t'.neg = t.neg)
    (e3 : t'.off = t.off) (e4 : t'.posG = t.posG) (e5 : t'.negG = t.negG) : Reg R' t' f := by
  refine ⟨fun i => ?_, fun i => ?_, fun i => ?_, ?_, ?_, ?_, ?_, ?_, ?_⟩
  · rw [e1, e4, h.pos i]
    exact exists_congr fun C => ⟨fun ⟨a, b, c⟩ => ⟨(hR i C (by omega)).1 a, b, c⟩, fun ⟨a, b, c⟩ => ⟨(hR i C (by omega)).2 a, b, c⟩⟩
  · rw [e2, e5, h.neg i]
    exact exists_congr fun C => ⟨fun ⟨a, b, c⟩ => ⟨(hR i C (by omega)).1 a, b, c⟩, fun ⟨a, b, c⟩ => ⟨(hR i C (by omega)).2 a, b, c⟩⟩
  · rw [e3, h.off i]
    exact exists_congr fun C => ⟨fun ⟨a, b⟩ => ⟨(hR i C (by omega)).1 a, b⟩, fun ⟨a, b⟩ => ⟨(hR i C (by omega)).2 a, b⟩⟩
  · rw [e3]; exact h.card
  · rw [e1]; exact h.ndp
  · rw [e2]; exact h.ndn
  · rw [e3]; exact h.ndo
  · rw [e4]; exact h.ndpg
  · rw [e5]; exact h.ndng

theorem gateCl_cnt {f : Nat} {b : Bool} {C : List Lit} (h : GateCl f b C) : cnt f C = 1 ∧ Sgn f b C := by
  obtain ⟨ts, R, p, h0, _⟩ := h
  refine ⟨by rw [cnt_perm p, cnt_cons, h0], ⟨_, p.mem_iff.2 (List.mem_cons_self ..), by simp [Lit.predCode?, Lit.equ], rfl⟩⟩

theorem BuildOK.congr {R R' : Nat → List Lit → Prop} {t t' : PeTask} {f : Nat} (h : BuildOK R t f) (hR : ∀ i C, 0 < cnt f C → (R i C ↔ R' i C)) (e1 : t'.pos = t.pos) (e2 : t'.neg = t.neg)
    (e3 : t'.off = t.off) (e4 : t'.posG = t.posG) (e5 : t'.negG = t.negG) (e6 : t'.gate = t.gate) : BuildOK R' t' f := by
  refine ⟨h.reg.congr hR e1 e2 e3 e4 e5, e6.trans h.gate, fun i hi => ?_, fun i hi => ?_⟩
  · rw [e4] at hi
    rw [e1]
    obtain ⟨h1, C, h2, h3⟩ := h.sp i hi
    exact ⟨h1, C, (hR i C (by have := (gateCl_cnt h3).1; omega)).1 h2, h3⟩
  · rw [e5] at hi
    rw [e2]
    obtain ⟨h1, C, h2, h3⟩ := h.sn i hi
    exact ⟨h1, C, (hR i C (by have := (gateCl_cnt h3).1; omega)).1 h2, h3⟩

theorem GateProp.congr {G : Prop} {R R' : Nat → List Lit → Prop} {t t' : PeTask} {f : Nat} (h : GateProp.{u} G sg R t f)
    (hR : ∀ i C b, i ∈ t.posG.set ∨ i ∈ t.negG.set → GateCl f b C → R i C → R' i C)
    (e4 : t'.posG = t.posG) (e5 : t'.negG = t.negG) : GateProp.{u} G sg R' t' f := by
  obtain ⟨cl, h1, h2, h3, h4⟩ := h
  refine ⟨cl, fun i hi => ?_, fun i hi => ?_, ?_, ?_⟩
  · rw [e4] at hi
    exact ⟨hR i _ _ (.inl hi) (h1 i hi).2 (h1 i hi).1, (h1 i hi).2⟩
  · rw [e5] at hi
    exact ⟨hR i _ _ (.inr hi) (h2 i hi).2 (h2 i hi).1, (h2 i hi).2⟩
  · rw [e4, e5]; exact h3
  · rw [e4, e5]; exact h4

theorem TaskOK.congr {G : Prop} {R R' : Nat → List Lit → Prop} {t t' : PeTask} {f : Nat} (h : TaskOK.{u} G sg R t f) (hR : ∀ i C, 0 < cnt f C → (R i C ↔ R' i C)) (e1 : t'.pos = t.pos) (e2 : t'.neg = t.neg)
    (e3 : t'.off = t.off) (e4 : t'.posG = t.posG) (e5 : t'.negG = t.negG) (e6 : t'.gate = t.gate) : TaskOK.{u} G sg R' t' f := by
  refine ⟨h.reg.congr hR e1 e2 e3 e4 e5, by rw [e1, e4]; exact h.djp, by rw [e2, e5]; exact h.djn, by rw [e4, e5, e6]; exact h.ng, fun hg => ?_⟩
  rw [e6] at hg
  exact (h.g hg).congr (fun i C b _ hc => (hR i C (by have := (gateCl_cnt hc).1; omega)).1) e4 e5

/-! ## Inserting a clause -/

/-- What `insert` does, up to statistics. -/
theorem insert_cases (t : PeTask) (recog : Bool) (i : Nat) (C : List Lit) (j f : Nat) (b : Bool) :
    let t' := t.insert recog i C j f b
    t'.gate = t.gate ∧
      if otherOcc C j f = true then t'.off = (t.off.store i).1 ∧ t'.pos = t.pos ∧ t'.neg = t.neg ∧ t'.posG = t.posG ∧ t'.negG = t.negG
      else t'.off = t.off ∧
        t'.pos = (if b then (t.pos.store i).1 else t.pos) ∧ t'.neg = (if b then t.neg else (t.neg.store i).1) ∧
        t'.posG = (if b && (recog && potentialGate C j) then (t.posG.store i).1 else t.posG) ∧
        t'.negG = (if !b && (recog && potentialGate C j) then (t.negG.store i).1 else t.negG) := by
  intro t'
  have e : t' = t.insert recog i C j f b := rfl
  unfold PeTask.insert at e
  by_cases h1 : otherOcc C j f = true
  · rw [if_pos h1] at e ⊢
    simp only at e
    split at e <;> rw [e] <;> exact ⟨rfl, rfl, rfl, rfl, rfl, rfl⟩
  · rw [if_neg h1] at e ⊢
    by_cases h2 : (recog && potentialGate C j) = true
    · rw [if_pos h2] at e
      cases b
      · simp only [Bool.false_eq_true, if_false] at e
        split at e <;> rw [e] <;> simp [h2, PeTask.stats]
      · simp only [if_true] at e
        split at e <;> rw [e] <;> simp [h2, PeTask.stats]
    · rw [if_neg h2] at e
      rw [Bool.not_eq_true] at h2
      cases b
      · simp only [Bool.false_eq_true, if_false] at e
        split at e <;> rw [e] <;> simp [h2, PeTask.stats]
      · simp only [if_true] at e
        split at e <;> rw [e] <;> simp [h2, PeTask.stats]

theorem insert_reg {R R' : Nat → List Lit → Prop} {t : PeTask} {f : Nat} (h : Reg R t f) {recog : Bool} {i j : Nat} {C : List Lit} {L : Lit} (hL : C[j]? = some L)
    (hf : L.predCode? = some f) (hR : ∀ i' C', R' i' C' ↔ R i' C' ∨ i' = i ∧ C' = C) :
    Reg R' (t.insert recog i C j f L.pos) f := by
  obtain ⟨-, hc⟩ := insert_cases t recog i C j f L.pos
  have hs := fun (h1 : cnt f C = 1) (b : Bool) => sgn_of_one (b := b) h1 (List.mem_of_getElem? hL) hf
  have hpos : 0 < cnt f C := cnt_pos_iff.2 ⟨L, List.mem_of_getElem? hL, hf⟩
  split at hc
  · rename_i ho
    rw [otherOcc_iff hL hf] at ho
    obtain ⟨c1, c2, c3, c4, c5⟩ := hc
    refine ⟨fun i' => ?_, fun i' => ?_, fun i' => ?_, ?_, ?_, ?_, ?_, ?_, ?_⟩
    · rw [c2, c4, h.pos i']
      exact exists_congr fun C' => by
        rw [hR]
        constructor
        · rintro ⟨a, b, c⟩; exact ⟨.inl a, b, c⟩
        · rintro ⟨a | ⟨_, rfl⟩, b, c⟩
          · exact ⟨a, b, c⟩
          · omega
    · rw [c3, c5, h.neg i']
      exact exists_congr fun C' => by
        rw [hR]
        constructor
        · rintro ⟨a, b, c⟩; exact ⟨.inl a, b, c⟩
        · rintro ⟨a | ⟨_, rfl⟩, b, c⟩
          · exact ⟨a, b, c⟩
          · omega
    · rw [c1, mem_store, h.off i']
      constructor
      · rintro (⟨C', a, b⟩ | rfl)
        · exact ⟨C', (hR _ _).2 (.inl a), b⟩
        · exact ⟨C, (hR _ _).2 (.inr ⟨rfl, rfl⟩), ho⟩
      · rintro ⟨C', a, b⟩
        rcases (hR _ _).1 a with a | ⟨rfl, rfl⟩
        · exact .inl ⟨C', a, b⟩
        · exact .inr rfl
    · rw [c1]; exact card_store h.card
    · rw [c2]; exact h.ndp
    · rw [c3]; exact h.ndn
    · rw [c1]; exact nodup_store h.ndo
    · rw [c4]; exact h.ndpg
    · rw [c5]; exact h.ndng
  · rename_i ho
    rw [otherOcc_iff hL hf] at ho
    have h1 : cnt f C = 1 := by omega
    obtain ⟨c1, c2, c3, c4, c5⟩ := hc
    have off : ∀ i', i' ∈ t.off.set ↔ ∃ C, R' i' C ∧ 2 ≤ cnt f C := by
      intro i'
      rw [h.off i']
      exact exists_congr fun C' => by
        rw [hR]
        constructor
        · rintro ⟨a, b⟩; exact ⟨.inl a, b⟩
        · rintro ⟨a | ⟨_, rfl⟩, b⟩
          · exact ⟨a, b⟩
          · omega
    cases hb : L.pos
    · rw [hb] at c1 c2 c3 c4 c5 hs
      simp only [Bool.false_eq_true, if_false, Bool.false_and, Bool.not_false, Bool.true_and] at c2 c3 c4 c5
      refine ⟨fun i' => ?_, fun i' => ?_, ?_, ?_, ?_, ?_, ?_, ?_, ?_⟩
      · rw [c2, c4, h.pos i']
        exact exists_congr fun C' => by
          rw [hR]
          constructor
          · rintro ⟨a, b, c⟩; exact ⟨.inl a, b, c⟩
          · rintro ⟨a | ⟨_, rfl⟩, b, c⟩
            · exact ⟨a, b, c⟩
            · have := (hs h1 _).1 c; cases this
      · have key : i' ∈ (t.insert recog i C j f false).neg.set ∨ i' ∈ (t.insert recog i C j f false).negG.set ↔ (i' ∈ t.neg.set ∨ i' ∈ t.negG.set) ∨ i' = i := by
          rw [c3, c5]
          split
          · rw [mem_store, mem_store]; tauto
          · rw [mem_store]; tauto
        rw [key, h.neg i']
        constructor
        · rintro (⟨C', a, b⟩ | rfl)
          · exact ⟨C', (hR _ _).2 (.inl a), b⟩
          · exact ⟨C, (hR _ _).2 (.inr ⟨rfl, rfl⟩), h1, (hs h1 _).2 rfl⟩
        · rintro ⟨C', a, b⟩
          rcases (hR _ _).1 a with a | ⟨rfl, rfl⟩
          · exact .inl ⟨C', a, b⟩
          · exact .inr rfl
      · rw [c1]; exact off
      · rw [c1]; exact h.card
      · rw [c2]; exact h.ndp
      · rw [c3]; exact nodup_store h.ndn
      · rw [c1]; exact h.ndo
      · rw [c4]; exact h.ndpg
      · rw [c5]
        split
        · exact nodup_store h.ndng
        · exact h.ndng
    · rw [hb] at c1 c2 c3 c4 c5 hs
      simp only [Bool.false_eq_true, if_false, if_true, Bool.false_and, Bool.not_true, Bool.true_and] at c2 c3 c4 c5
      refine ⟨fun i' => ?_, fun i' => ?_, ?_, ?_, ?_, ?_, ?_, ?_, ?_⟩
      · have key : i' ∈ (t.insert recog i C j f true).pos.set ∨ i' ∈ (t.insert recog i C j f true).posG.set ↔ (i' ∈ t.pos.set ∨ i' ∈ t.posG.set) ∨ i' = i := by
          rw [c2, c4]
          split
          · rw [mem_store, mem_store]; tauto
          · rw [mem_store]; tauto
        rw [key, h.pos i']
        constructor
        · rintro (⟨C', a, b⟩ | rfl)
          · exact ⟨C', (hR _ _).2 (.inl a), b⟩
          · exact ⟨C, (hR _ _).2 (.inr ⟨rfl, rfl⟩), h1, (hs h1 _).2 rfl⟩
        · rintro ⟨C', a, b⟩
          rcases (hR _ _).1 a with a | ⟨rfl, rfl⟩
          · exact .inl ⟨C', a, b⟩
          · exact .inr rfl
      · rw [c3, c5, h.neg i']
        exact exists_congr fun C' => by
          rw [hR]
          constructor
          · rintro ⟨a, b, c⟩; exact ⟨.inl a, b, c⟩
          · rintro ⟨a | ⟨_, rfl⟩, b, c⟩
            · exact ⟨a, b, c⟩
            · have := (hs h1 _).1 c; cases this
      · rw [c1]; exact off
      · rw [c1]; exact h.card
      · rw [c2]; exact nodup_store h.ndp
      · rw [c3]; exact h.ndn
      · rw [c1]; exact h.ndo
      · rw [c4]
        split
        · exact nodup_store h.ndpg
        · exact h.ndpg
      · rw [c5]; exact h.ndng

theorem gate_of (hsg : SigOK sg) (hF : FOSig sg) {C : List Lit} (hC : ∀ K ∈ C, FOLit sg K) {j f : Nat} {L : Lit} (hL : C[j]? = some L) (hf : L.predCode? = some f)
    (ho : ¬ otherOcc C j f = true) (hg : potentialGate C j = true) : GateCl f L.pos C := by
  rw [otherOcc_iff hL hf, cnt_erase hL hf] at ho
  obtain ⟨ts, e⟩ := (pred_iff hsg hF (hC L (List.mem_of_getElem? hL))).1 hf
  unfold potentialGate at hg
  rw [hL] at hg
  simp only [Bool.and_eq_true, List.all_eq_true, List.contains_iff_mem] at hg
  rw [e] at hg
  obtain ⟨hj, e'⟩ := List.getElem?_eq_some_iff.1 hL
  refine ⟨ts, C.eraseIdx j, ?_, by omega, hg.1, fun K hK x hx => hg.2 K hK x hx⟩
  rw [← e, ← e']
  exact (List.getElem_cons_eraseIdx_perm hj).symm

theorem insert_build (hsg : SigOK sg) (hF : FOSig sg) {R R' : Nat → List Lit → Prop} {t : PeTask} {f : Nat} (h : BuildOK R t f) {recog : Bool} {i j : Nat} {C : List Lit} {L : Lit}
    (hC : ∀ K ∈ C, FOLit sg K) (hL : C[j]? = some L) (hf : L.predCode? = some f) (hR : ∀ i' C', R' i' C' ↔ R i' C' ∨ i' = i ∧ C' = C) :
    BuildOK R' (t.insert recog i C j f L.pos) f := by
  obtain ⟨hg, hc⟩ := insert_cases t recog i C j f L.pos
  refine ⟨insert_reg h.reg hL hf hR, hg.trans h.gate, ?_, ?_⟩
  · split at hc
    · obtain ⟨c1, c2, c3, c4, c5⟩ := hc
      rw [c2, c4]
      intro i' hi'
      obtain ⟨a, C', b, c⟩ := h.sp i' hi'
      exact ⟨a, C', (hR _ _).2 (.inl b), c⟩
    · rename_i ho
      obtain ⟨c1, c2, c3, c4, c5⟩ := hc
      rw [c2, c4]
      intro i' hi'
      split at hi'
      · rename_i hb
        rw [Bool.and_eq_true, Bool.and_eq_true] at hb
        rw [if_pos hb.1, mem_store]
        rcases mem_store.1 hi' with hi' | rfl
        · obtain ⟨a, C', b, c⟩ := h.sp i' hi'
          exact ⟨.inl a, C', (hR _ _).2 (.inl b), c⟩
        · exact ⟨.inr rfl, C, (hR _ _).2 (.inr ⟨rfl, rfl⟩), hb.1 ▸ gate_of hsg hF hC hL hf ho hb.2.2⟩
      · obtain ⟨a, C', b, c⟩ := h.sp i' hi'
        refine ⟨?_, C', (hR _ _).2 (.inl b), c⟩
        split
        · exact mem_store.2 (.inl a)
        · exact a
  · split at hc
    · obtain ⟨c1, c2, c3, c4, c5⟩ := hc
      rw [c3, c5]
      intro i' hi'
      obtain ⟨a, C', b, c⟩ := h.sn i' hi'
      exact ⟨a, C', (hR _ _).2 (.inl b), c⟩
    · rename_i ho
      obtain ⟨c1, c2, c3, c4, c5⟩ := hc
      rw [c3, c5]
      intro i' hi'
      split at hi'
      · rename_i hb
        rw [Bool.and_eq_true, Bool.and_eq_true, Bool.not_eq_true'] at hb
        rw [if_neg (by simp [hb.1]), mem_store]
        rcases mem_store.1 hi' with hi' | rfl
        · obtain ⟨a, C', b, c⟩ := h.sn i' hi'
          exact ⟨.inl a, C', (hR _ _).2 (.inl b), c⟩
        · exact ⟨.inr rfl, C, (hR _ _).2 (.inr ⟨rfl, rfl⟩), hb.1 ▸ gate_of hsg hF hC hL hf ho hb.2.2⟩
      · obtain ⟨a, C', b, c⟩ := h.sn i' hi'
        refine ⟨?_, C', (hR _ _).2 (.inl b), c⟩
        split
        · exact a
        · exact mem_store.2 (.inl a)

theorem insert_main {G : Prop} {R R' : Nat → List Lit → Prop} {t : PeTask} {f : Nat} (h : TaskOK.{u} G sg R t f) {i j : Nat} {C : List Lit} {L : Lit}
    (hL : C[j]? = some L) (hf : L.predCode? = some f) (hR : ∀ i' C', R' i' C' ↔ R i' C' ∨ i' = i ∧ C' = C) (hfr : ∀ C', R i C' → C' = C ∧ occBelow C j f) :
    TaskOK.{u} G sg R' (t.insert false i C j f L.pos) f := by
  obtain ⟨hg, hc⟩ := insert_cases t false i C j f L.pos
  have hno : ∀ b C', R i C' → GateCl f b C' → False := by
    intro b C' h1 h2
    obtain ⟨rfl, h3⟩ := hfr C' h1
    have := two_occ h3 ⟨L, hL, hf⟩
    have := (gateCl_cnt h2).1
    omega
  have hnp : i ∉ t.posG.set := by
    intro hi
    cases hgt : t.gate with
    | false => rw [(h.ng hgt).1] at hi; cases hi
    | true =>
      obtain ⟨cl, h1, _⟩ := h.g hgt
      exact hno _ _ (h1 i hi).1 (h1 i hi).2
  have hnn : i ∉ t.negG.set := by
    intro hi
    cases hgt : t.gate with
    | false => rw [(h.ng hgt).2] at hi; cases hi
    | true =>
      obtain ⟨cl, _, h1, _⟩ := h.g hgt
      exact hno _ _ (h1 i hi).1 (h1 i hi).2
  have e4 : (t.insert false i C j f L.pos).posG = t.posG ∧ (t.insert false i C j f L.pos).negG = t.negG := by
    split at hc
    · exact ⟨hc.2.2.2.1, hc.2.2.2.2⟩
    · have := hc.2.2.2
      simpa using this
  refine ⟨insert_reg h.reg hL hf hR, ?_, ?_, by rw [hg, e4.1, e4.2]; exact h.ng, fun hgt => ?_⟩
  · rw [e4.1]
    split at hc
    · rw [hc.2.1]; exact h.djp
    · rw [hc.2.1]
      split
      · intro i' hi'
        rcases mem_store.1 hi' with hi' | rfl
        · exact h.djp i' hi'
        · exact hnp
      · exact h.djp
  · rw [e4.2]
    split at hc
    · rw [hc.2.2.1]; exact h.djn
    · rw [hc.2.2.1]
      split
      · exact h.djn
      · intro i' hi'
        rcases mem_store.1 hi' with hi' | rfl
        · exact h.djn i' hi'
        · exact hnn
  · rw [hg] at hgt
    exact (h.g hgt).congr (fun i' C' b _ _ hr => (hR _ _).2 (.inl hr)) e4.1 e4.2

/-! ## Scanning -/

/-- What the scan of clauses preserves. -/
structure QOK (sg : Sig) (Q : (Nat → List Lit → Prop) → PeTask → Nat → Prop) (recog : Bool) : Prop where
  congr : ∀ {R R' : Nat → List Lit → Prop} {t t' : PeTask} {f : Nat}, Q R t f → (∀ i C, 0 < cnt f C → (R i C ↔ R' i C)) → t'.pos = t.pos → t'.neg = t.neg → t'.off = t.off →
    t'.posG = t.posG → t'.negG = t.negG → t'.gate = t.gate → Q R' t' f
  new : ∀ {R : Nat → List Lit → Prop} {f : Nat}, (∀ i C, R i C → cnt f C = 0) → Q R .new f
  insert : ∀ {R R' : Nat → List Lit → Prop} {t : PeTask} {f i j : Nat} {C : List Lit} {L : Lit}, Q R t f → (∀ K ∈ C, FOLit sg K) → C[j]? = some L → L.predCode? = some f →
    (∀ i' C', R' i' C' ↔ R i' C' ∨ i' = i ∧ C' = C) → (∀ C', R i C' → C' = C ∧ occBelow C j f) → Q R' (t.insert recog i C j f L.pos) f

theorem new_reg {R : Nat → List Lit → Prop} {f : Nat} (h : ∀ i C, R i C → cnt f C = 0) : Reg R .new f := by
  have h1 : ∀ i b, ¬ ∃ C, R i C ∧ cnt f C = 1 ∧ Sgn f b C := by
    rintro i b ⟨C, a, b, _⟩
    have := h i C a
    omega
  have h2 : ∀ i, ¬ ∃ C, R i C ∧ 2 ≤ cnt f C := by
    rintro i ⟨C, a, b⟩
    have := h i C a
    omega
  refine ⟨fun i => ?_, fun i => ?_, fun i => ?_, rfl, ?_, ?_, ?_, ?_, ?_⟩
  · exact iff_of_false (by simp [PeTask.new, CCS.empty]) (h1 i true)
  · exact iff_of_false (by simp [PeTask.new, CCS.empty]) (h1 i false)
  · exact iff_of_false (by simp [PeTask.new, CCS.empty]) (h2 i)
  all_goals simp [PeTask.new, CCS.empty]

theorem build_qok (hsg : SigOK sg) (hF : FOSig sg) (recog : Bool) : QOK sg BuildOK recog :=
  ⟨fun h hR => h.congr hR, fun h => ⟨new_reg h, rfl, by simp [PeTask.new, CCS.empty], by simp [PeTask.new, CCS.empty]⟩, fun h hC hL hf hR _ => insert_build hsg hF h hC hL hf hR⟩

theorem main_qok (G : Prop) : QOK sg (TaskOK.{u} G sg) false :=
  ⟨fun h hR => h.congr hR, fun h => ⟨new_reg h, by simp [PeTask.new, CCS.empty], by simp [PeTask.new, CCS.empty], fun _ => ⟨rfl, rfl⟩, fun h => by cases h⟩,
    fun h _ hL hf hR hfr => insert_main h hL hf hR hfr⟩

/-- The state of the tasks. -/
structure StOK (Q : (Nat → List Lit → Prop) → PeTask → Nat → Prop) (R : Nat → Nat → List Lit → Prop) (s : PeSt) : Prop where
  empty : ∀ f, s.tasks f = none → ∀ i C, R f i C → cnt f C = 0
  task : ∀ f t, s.tasks f = some t → t.size ≠ -1 → Q (R f) t f
  keys : ∀ f, f ∈ s.keys ↔ s.tasks f ≠ none
  ndk : s.keys.Nodup
  ndq : s.queue.Nodup
  queue : ∀ f ∈ s.queue, ∃ t, s.tasks f = some t ∧ (t.size = -1 ∨ t.canSchedule = true)

theorem StOK.mono {Q : (Nat → List Lit → Prop) → PeTask → Nat → Prop} {recog : Bool} (hQ : QOK sg Q recog) {R R' : Nat → Nat → List Lit → Prop} {s : PeSt} (h : StOK Q R s)
    (hR : ∀ f i C, 0 < cnt f C → (R f i C ↔ R' f i C)) : StOK Q R' s := by
  refine ⟨fun f hf i C hc => ?_, fun f t hf ht => hQ.congr (h.task f t hf ht) (hR f) rfl rfl rfl rfl rfl rfl, h.keys, h.ndk, h.ndq, h.queue⟩
  by_contra h0
  exact h0 (h.empty f hf i C ((hR f i C (by omega)).2 hc))

/-- Registered clauses while literals of the clause `i` are looked at. -/
def scanR (V : List (Nat × List Lit)) (i : Nat) (C : List Lit) (j : Nat) : Nat → Nat → List Lit → Prop :=
  fun f i' C' => (i', C') ∈ V ∨ i' = i ∧ C' = C ∧ occBelow C j f

theorem scanR_other {V : List (Nat × List Lit)} {i : Nat} {C : List Lit} {j f : Nat} (h : ¬ occAt C j f) : scanR V i C (j + 1) f = scanR V i C j f := by
  funext i' C'
  simp only [scanR, occBelow_succ, h, or_false]

theorem scanLit_ok {Q : (Nat → List Lit → Prop) → PeTask → Nat → Prop} {recog : Bool} (hQ : QOK sg Q recog) {V : List (Nat × List Lit)} {i : Nat} {C : List Lit}
    (hC : ∀ K ∈ C, FOLit sg K) (hi : ∀ C', (i, C') ∉ V) {s : PeSt} {j m : Nat} {block : Bool} (h : StOK Q (scanR V i C j) s) : StOK Q (scanR V i C (j + 1)) (scanLit m recog block i C s j) := by
  unfold scanLit
  split
  · rename_i hL
    refine h.mono hQ fun f i' C' _ => ?_
    rw [scanR_other]
    rintro ⟨L, hL', _⟩
    rw [hL] at hL'
    cases hL'
  · rename_i L hL
    split
    · rename_i hp
      refine h.mono hQ fun f i' C' _ => ?_
      rw [scanR_other]
      rintro ⟨L', hL', hf⟩
      rw [hL] at hL'
      cases hL'
      rw [hp] at hf
      cases hf
    · rename_i f hp
      have hoth : ∀ g, g ≠ f → scanR V i C (j + 1) g = scanR V i C j g := by
        intro g hg
        refine scanR_other ?_
        rintro ⟨L', hL', hf⟩
        rw [hL] at hL'
        cases hL'
        rw [hp] at hf
        cases hf
        exact hg rfl
      have hocc : occAt C j f := ⟨L, hL, hp⟩
      have hRf : ∀ i' C', scanR V i C (j + 1) f i' C' ↔ scanR V i C j f i' C' ∨ i' = i ∧ C' = C := by
        intro i' C'
        simp only [scanR, occBelow_succ]
        tauto
      -- the task before
      have ht0 : ∀ t0, t0 = (s.tasks f).getD .new → t0.size ≠ -1 → Q (scanR V i C j f) t0 f := by
        intro t0 e hs
        cases hf : s.tasks f with
        | none =>
          rw [hf] at e
          subst e
          exact hQ.new (h.empty f hf)
        | some t =>
          rw [hf] at e
          subst e
          exact h.task f _ hf hs
      have hkeys : ∀ s1 : PeSt, s1 = (if (s.tasks f).isNone then { s with keys := s.keys ++ [f] } else s) → s1.tasks = s.tasks ∧ s1.queue = s.queue ∧
          (∀ g, g ∈ s1.keys ↔ s.tasks g ≠ none ∨ g = f) ∧ s1.keys.Nodup := by
        intro s1 e
        split at e
        · rename_i hn
          rw [Option.isNone_iff_eq_none] at hn
          subst e
          refine ⟨rfl, rfl, fun g => by simp only [List.mem_append, List.mem_singleton, h.keys], ?_⟩
          simp only
          rw [List.nodup_append]
          refine ⟨h.ndk, by simp, ?_⟩
          rintro a ha b hb rfl
          simp at hb
          subst hb
          exact (h.keys a).1 ha hn
        · rename_i hn
          subst e
          refine ⟨rfl, rfl, fun g => ?_, h.ndk⟩
          rw [h.keys]
          refine ⟨.inl, fun h' => h'.elim id ?_⟩
          rintro rfl e
          simp [e] at hn
      generalize hs1 : (if (s.tasks f).isNone then { s with keys := s.keys ++ [f] } else s) = s1
      obtain ⟨k1, k2, k3, k4⟩ := hkeys s1 hs1.symm
      simp only [hs1]
      rw [k1]
      generalize ht1 : (if block || (decide (0 < m) && decide ((m : Int) ≤ ((s.tasks f).getD .new).occs L.pos)) then { (s.tasks f).getD .new with size := -1 } else (s.tasks f).getD .new) = t1
      have ht1' : t1.size ≠ -1 → Q (scanR V i C j f) t1 f := by
        intro hs
        split at ht1
        · subst ht1
          exact absurd rfl hs
        · exact ht0 t1 ht1.symm hs
      -- a state in which the task is replaced
      have repl : ∀ (t : PeTask) (q : List Nat), (t.size ≠ -1 → Q (scanR V i C (j + 1) f) t f) → q.Nodup → (∀ g ∈ q, g ∈ s.queue) → (f ∈ q → t.size = -1 ∨ t.canSchedule = true) →
          ∀ s' : PeSt, s'.tasks = (fun g => if g = f then some t else s.tasks g) → s'.keys = s1.keys → s'.queue = q → StOK Q (scanR V i C (j + 1)) s' := by
        intro t q hq1 hq2 hq3 hq4 s' e1 e2 e3
        refine ⟨fun g hg i' C' hr => ?_, fun g t' hg hs => ?_, fun g => ?_, e2 ▸ k4, e3 ▸ hq2, fun g hg => ?_⟩
        · rw [e1] at hg
          by_cases hgf : g = f
          · simp [hgf] at hg
          · rw [hoth g hgf] at hr
            simp only [hgf, if_false] at hg
            exact h.empty g hg i' C' hr
        · rw [e1] at hg
          by_cases hgf : g = f
          · subst hgf
            simp only [if_true, Option.some.injEq] at hg
            subst hg
            exact hq1 hs
          · simp only [hgf, if_false] at hg
            rw [hoth g hgf]
            exact h.task g t' hg hs
        · rw [e1, e2, k3]
          by_cases hgf : g = f
          · simp [hgf]
          · simp [hgf]
        · rw [e1]
          rw [e3] at hg
          by_cases hgf : g = f
          · subst hgf
            exact ⟨t, by simp, hq4 hg⟩
          · simp only [hgf, if_false]
            exact h.queue g (hq3 g hg)
      split
      · rename_i hsz
        refine repl t1 s.queue (fun h => absurd hsz h) h.ndq (fun g hg => hg) (fun _ => .inl hsz) _ ?_ ?_ ?_
        · simp only [PeSt.setTask, k1]
        · rfl
        · exact k2
      · rename_i hsz
        have hins : Q (scanR V i C (j + 1) f) (t1.insert recog i C j f L.pos) f := by
          refine hQ.insert (ht1' hsz) hC hL hp hRf fun C' hr => ?_
          rcases hr with hr | ⟨_, rfl, hr⟩
          · exact absurd hr (hi C')
          · exact ⟨rfl, hr⟩
        split
        · rename_i hq
          refine repl (t1.insert recog i C j f L.pos) (s.queue.erase f) (fun _ => hins) (h.ndq.erase f) (fun g hg => List.mem_of_mem_erase hg)
            (fun hf => absurd hf (h.ndq.not_mem_erase)) _ ?_ ?_ ?_
          · simp only [PeSt.setTask, k1]
          · rfl
          · simp only [PeSt.setTask, k2]
        · rename_i hq
          refine repl (t1.insert recog i C j f L.pos) s.queue (fun _ => hins) h.ndq (fun g hg => hg) (fun hf => .inr ?_) _ ?_ ?_ ?_
          · have : f ∈ (s1.setTask f (t1.insert recog i C j f L.pos)).queue := by
              show f ∈ s1.queue
              rw [k2]
              exact hf
            by_contra hcs
            rw [Bool.not_eq_true] at hcs
            exact hq ⟨this, hcs⟩
          · simp only [PeSt.setTask, k1]
          · rfl
          · exact k2

theorem scanLit_passive {m : Nat} {recog block : Bool} {i : Nat} {C : List Lit} {s : PeSt} {j : Nat} :
    (scanLit m recog block i C s j).passive = s.passive ∧ (scanLit m recog block i C s j).next = s.next ∧ (scanLit m recog block i C s j).vars = s.vars := by
  unfold scanLit
  split
  · exact ⟨rfl, rfl, rfl⟩
  · split
    · exact ⟨rfl, rfl, rfl⟩
    · generalize hs1 : (if (s.tasks _).isNone then { s with keys := s.keys ++ [_] } else s) = s1
      have : s1.passive = s.passive ∧ s1.next = s.next ∧ s1.vars = s.vars := by
        subst hs1
        split <;> exact ⟨rfl, rfl, rfl⟩
      simp only [hs1]
      split
      · exact this
      · repeat' split
        all_goals exact this

theorem foldl_range_inv {α : Type} {f : α → Nat → α} {P : Nat → α → Prop} (hs : ∀ j a, P j a → P (j + 1) (f a j)) : ∀ (n : Nat) {a : α}, P 0 a → P n ((List.range n).foldl f a)
  | 0, _, h => h
  | n + 1, a, h => by
    rw [List.range_succ, List.foldl_append]
    exact hs n _ (foldl_range_inv hs n h)

/-- The scan registers the clause. -/
theorem scanClause_ok {Q : (Nat → List Lit → Prop) → PeTask → Nat → Prop} {recog : Bool} (hQ : QOK sg Q recog) {V : List (Nat × List Lit)} {i : Nat} {C : List Lit}
    (hC : ∀ K ∈ C, FOLit sg K) (hi : ∀ C', (i, C') ∉ V) {s : PeSt} {m : Nat} {block : Bool} (h : StOK Q (fun _ i' C' => (i', C') ∈ V) s) :
    StOK Q (fun _ i' C' => (i', C') ∈ V ++ [(i, C)]) (scanClause m recog block i C s) := by
  have h0 : StOK Q (scanR V i C 0) s := h.mono hQ fun f i' C' _ => by simp [scanR, occBelow]
  have := foldl_range_inv (P := fun j s => StOK Q (scanR V i C j) s) (f := scanLit m recog block i C) (fun j a ha => scanLit_ok hQ hC hi ha) C.length h0
  refine StOK.mono hQ this fun f i' C' hc => ?_
  simp only [scanR, occBelow_length, List.mem_append, List.mem_singleton, Prod.mk.injEq]
  refine or_congr_right ⟨fun ⟨a, b, _⟩ => ⟨a, b⟩, fun ⟨a, b⟩ => ⟨a, b, b ▸ hc⟩⟩

theorem scanClause_passive {m : Nat} {recog block : Bool} {i : Nat} {C : List Lit} {s : PeSt} :
    (scanClause m recog block i C s).passive = s.passive ∧ (scanClause m recog block i C s).next = s.next ∧ (scanClause m recog block i C s).vars = s.vars :=
  foldl_range_inv (P := fun _ s' => s'.passive = s.passive ∧ s'.next = s.next ∧ s'.vars = s.vars) (f := scanLit m recog block i C)
    (fun j a ha => ⟨scanLit_passive.1.trans ha.1, scanLit_passive.2.1.trans ha.2.1, scanLit_passive.2.2.trans ha.2.2⟩) C.length ⟨rfl, rfl, rfl⟩

/-! ## Removing a clause -/

theorem remove_snd {s : CCS} {i : Nat} : (s.remove i).2 = true ↔ i ∈ s.set := by
  unfold CCS.remove
  split <;> simp_all

/-- What `removeClause` does to the sets, up to statistics. -/
theorem removeClause_cases (t : PeTask) (i : Nat) (C : List Lit) (b inQ : Bool) :
    let t' := (t.removeClause i C b inQ).1
    if i ∈ (if b then t.posG else t.negG).set then
      t'.off = t.off ∧ t'.pos = t.pos.merge (if b then (t.posG.remove i).1 else t.posG) ∧ t'.neg = t.neg.merge (if b then t.negG else (t.negG.remove i).1) ∧ t'.posG = .empty ∧
        t'.negG = .empty ∧ t'.gate = false ∧ ((t.removeClause i C b inQ).2 = true → t'.canSchedule = true)
    else t'.off = (t.off.remove i).1 ∧ t'.pos = (if b then (t.pos.remove i).1 else t.pos) ∧ t'.neg = (if b then t.neg else (t.neg.remove i).1) ∧ t'.posG = t.posG ∧ t'.negG = t.negG ∧
        t'.gate = t.gate ∧ ((t.removeClause i C b inQ).2 = true → inQ = true ∨ t'.canSchedule = true) := by
  intro t'
  by_cases hg : i ∈ (if b then t.posG else t.negG).set
  · have hg' := remove_snd.2 hg
    rw [if_pos hg]
    simp only [t', PeTask.removeClause, if_pos hg']
    refine ⟨rfl, ?_, ?_, rfl, rfl, rfl, fun h => ?_⟩
    · cases b <;> rfl
    · cases b <;> rfl
    · rw [Bool.and_eq_true] at h
      exact h.2
  · have hg' : ¬ ((if b then t.posG else t.negG).remove i).2 = true := fun h => hg (remove_snd.1 h)
    rw [if_neg hg]
    simp only [t', PeTask.removeClause, if_neg hg']
    cases b
    · simp only [Bool.false_eq_true, if_false]
      split
      · refine ⟨rfl, rfl, rfl, rfl, rfl, rfl, fun h => ?_⟩
        simp only [Bool.or_eq_true, Bool.and_eq_true] at h
        exact h.imp_right fun h => h.1.1
      · exact ⟨rfl, rfl, rfl, rfl, rfl, rfl, fun h => .inl h⟩
    · simp only [if_true]
      split
      · refine ⟨rfl, rfl, rfl, rfl, rfl, rfl, fun h => ?_⟩
        simp only [Bool.or_eq_true, Bool.and_eq_true] at h
        exact h.imp_right fun h => h.1.1
      · exact ⟨rfl, rfl, rfl, rfl, rfl, rfl, fun h => .inl h⟩

theorem canSchedule_off {R : Nat → List Lit → Prop} {t t' : PeTask} {f i : Nat} (h : Reg R t f) (ho : t'.off = (t.off.remove i).1) (hg : t'.gate = t.gate) (hc : t.canSchedule = true) :
    t'.canSchedule = true := by
  unfold PeTask.canSchedule at *
  rw [Bool.or_eq_true, decide_eq_true_eq] at *
  rw [hg]
  refine hc.imp_left fun h0 => ?_
  rw [h.card] at h0
  have : t.off.set = [] := List.length_eq_zero_iff.1 (by omega)
  rw [ho]
  have e : (t.off.remove i).1 = t.off := by simp [CCS.remove, this]
  rw [e, h.card]
  exact h0

theorem or_and_help1 {a b c : Prop} (h : a → c) : a ∨ b ∧ c ↔ (a ∨ b) ∧ c := by tauto
theorem or_and_help2 {a b c : Prop} (h : b → c) : a ∧ c ∨ b ↔ (a ∨ b) ∧ c := by tauto
theorem or_and_help3 {a b c : Prop} (h : a → c) (h' : b → c) : a ∨ b ↔ (a ∨ b) ∧ c := by tauto

theorem remove_main {G : Prop} {R R' : Nat → List Lit → Prop} {t : PeTask} {f : Nat} (h : TaskOK.{u} G sg R t f) {i : Nat} {C : List Lit} {L : Lit}
    (hL : L ∈ C) (hf : L.predCode? = some f) (hC : ∀ C', R i C' → C' = C) (hR : ∀ i' C', R' i' C' ↔ R i' C' ∧ i' ≠ i) {inQ : Bool} (hq : inQ = true → t.canSchedule = true) :
    TaskOK.{u} G sg R' (t.removeClause i C L.pos inQ).1 f ∧ ((t.removeClause i C L.pos inQ).2 = true → (t.removeClause i C L.pos inQ).1.canSchedule = true) := by
  have hc := removeClause_cases t i C L.pos inQ
  generalize hr : t.removeClause i C L.pos inQ = r at hc
  simp only at hc
  have hp : i ∈ t.pos.set ∨ i ∈ t.posG.set → L.pos = true ∧ cnt f C = 1 := by
    intro hi
    obtain ⟨C', h1, h2, h3⟩ := (h.reg.pos i).1 hi
    obtain rfl := hC C' h1
    exact ⟨(sgn_of_one h2 hL hf).1 h3, h2⟩
  have hn : i ∈ t.neg.set ∨ i ∈ t.negG.set → L.pos = false ∧ cnt f C = 1 := by
    intro hi
    obtain ⟨C', h1, h2, h3⟩ := (h.reg.neg i).1 hi
    obtain rfl := hC C' h1
    exact ⟨(sgn_of_one h2 hL hf).1 h3, h2⟩
  have ho : i ∈ t.off.set → 2 ≤ cnt f C := by
    intro hi
    obtain ⟨C', h1, h2⟩ := (h.reg.off i).1 hi
    obtain rfl := hC C' h1
    exact h2
  have e1 : ∀ i' b, (∃ C', R' i' C' ∧ cnt f C' = 1 ∧ Sgn f b C') ↔ (∃ C', R i' C' ∧ cnt f C' = 1 ∧ Sgn f b C') ∧ i' ≠ i := by
    intro i' b
    constructor
    · rintro ⟨C', h1, h2⟩
      exact ⟨⟨C', ((hR _ _).1 h1).1, h2⟩, ((hR _ _).1 h1).2⟩
    · rintro ⟨⟨C', h1, h2⟩, h3⟩
      exact ⟨C', (hR _ _).2 ⟨h1, h3⟩, h2⟩
  have e2 : ∀ i', (∃ C', R' i' C' ∧ 2 ≤ cnt f C') ↔ (∃ C', R i' C' ∧ 2 ≤ cnt f C') ∧ i' ≠ i := by
    intro i'
    constructor
    · rintro ⟨C', h1, h2⟩
      exact ⟨⟨C', ((hR _ _).1 h1).1, h2⟩, ((hR _ _).1 h1).2⟩
    · rintro ⟨⟨C', h1, h2⟩, h3⟩
      exact ⟨C', (hR _ _).2 ⟨h1, h3⟩, h2⟩
  by_cases hi : i ∈ (if L.pos then t.posG else t.negG).set
  · rw [if_pos hi] at hc
    obtain ⟨c1, c2, c3, c4, c5, c6, c7⟩ := hc
    have h1 : cnt f C = 1 := by
      split at hi
      · exact (hp (.inr hi)).2
      · exact (hn (.inr hi)).2
    refine ⟨⟨⟨fun i' => ?_, fun i' => ?_, fun i' => ?_, ?_, ?_, ?_, ?_, ?_, ?_⟩, ?_, ?_, fun _ => ⟨by rw [c4]; rfl, by rw [c5]; rfl⟩, fun hg => by rw [c6] at hg; cases hg⟩, c7⟩
    · rw [e1, ← h.reg.pos, c2, c4, mem_merge]
      cases hb : L.pos
      · have hb' : i ∉ t.pos.set ∧ i ∉ t.posG.set := by
          refine ⟨fun h' => ?_, fun h' => ?_⟩
          · have := (hp (.inl h')).1; rw [hb] at this; cases this
          · have := (hp (.inr h')).1; rw [hb] at this; cases this
        simp only [Bool.false_eq_true, if_false, CCS.empty, List.not_mem_nil, or_false]
        refine ⟨fun h' => ⟨h', ?_⟩, fun h' => h'.1⟩
        rintro rfl
        exact h'.elim hb'.1 hb'.2
      · rw [hb] at hi
        have := h.djp i
        simp only [if_true, CCS.empty, List.not_mem_nil, or_false] at hi ⊢
        rw [mem_remove h.reg.ndpg]
        have : i' ∈ t.pos.set → i' ≠ i := by rintro h' rfl; exact this h' hi
        exact or_and_help1 this
    · rw [e1, ← h.reg.neg, c3, c5, mem_merge]
      cases hb : L.pos
      · rw [hb] at hi
        have := h.djn i
        simp only [Bool.false_eq_true, if_false, CCS.empty, List.not_mem_nil, or_false] at hi ⊢
        rw [mem_remove h.reg.ndng]
        have : i' ∈ t.neg.set → i' ≠ i := by rintro h' rfl; exact this h' hi
        exact or_and_help1 this
      · have hb' : i ∉ t.neg.set ∧ i ∉ t.negG.set := by
          refine ⟨fun h' => ?_, fun h' => ?_⟩
          · have := (hn (.inl h')).1; rw [hb] at this; cases this
          · have := (hn (.inr h')).1; rw [hb] at this; cases this
        simp only [if_true, CCS.empty, List.not_mem_nil, or_false]
        refine ⟨fun h' => ⟨h', ?_⟩, fun h' => h'.1⟩
        rintro rfl
        exact h'.elim hb'.1 hb'.2
    · rw [e2, ← h.reg.off, c1]
      refine ⟨fun h' => ⟨h', ?_⟩, fun h' => h'.1⟩
      rintro rfl
      have := ho h'
      omega
    · rw [c1]; exact h.reg.card
    · rw [c2]
      refine nodup_merge h.reg.ndp ?_
      split
      · exact nodup_remove h.reg.ndpg
      · exact h.reg.ndpg
    · rw [c3]
      refine nodup_merge h.reg.ndn ?_
      split
      · exact h.reg.ndng
      · exact nodup_remove h.reg.ndng
    · rw [c1]; exact h.reg.ndo
    · rw [c4]; simp [CCS.empty]
    · rw [c5]; simp [CCS.empty]
    · rw [c4]; simp [CCS.empty]
    · rw [c5]; simp [CCS.empty]
  · rw [if_neg hi] at hc
    obtain ⟨c1, c2, c3, c4, c5, c6, c7⟩ := hc
    have hip : i ∉ t.posG.set := by
      intro h'
      apply hi
      rw [if_pos (hp (.inr h')).1]
      exact h'
    have hin : i ∉ t.negG.set := by
      intro h'
      apply hi
      rw [if_neg (by simp [(hn (.inr h')).1])]
      exact h'
    refine ⟨⟨⟨fun i' => ?_, fun i' => ?_, fun i' => ?_, ?_, ?_, ?_, ?_, ?_, ?_⟩, ?_, ?_, by rw [c4, c5, c6]; exact h.ng, fun hg => ?_⟩, fun h2 => ?_⟩
    · rw [e1, ← h.reg.pos, c2, c4]
      have hx : i' ∈ t.posG.set → i' ≠ i := by rintro h' rfl; exact hip h'
      split
      · rw [mem_remove h.reg.ndp]; exact or_and_help2 hx
      · rename_i hb
        have : i' ∈ t.pos.set → i' ≠ i := by rintro h' rfl; exact hb (hp (.inl h')).1
        exact or_and_help3 this hx
    · rw [e1, ← h.reg.neg, c3, c5]
      have hx : i' ∈ t.negG.set → i' ≠ i := by rintro h' rfl; exact hin h'
      split
      · rename_i hb
        have : i' ∈ t.neg.set → i' ≠ i := by
          rintro h' rfl
          rw [(hn (.inl h')).1] at hb
          cases hb
        exact or_and_help3 this hx
      · rw [mem_remove h.reg.ndn]; exact or_and_help2 hx
    · rw [e2, ← h.reg.off, c1, mem_remove h.reg.ndo]
    · rw [c1]; exact card_remove h.reg.card
    · rw [c2]
      split
      · exact nodup_remove h.reg.ndp
      · exact h.reg.ndp
    · rw [c3]
      split
      · exact h.reg.ndn
      · exact nodup_remove h.reg.ndn
    · rw [c1]; exact nodup_remove h.reg.ndo
    · rw [c4]; exact h.reg.ndpg
    · rw [c5]; exact h.reg.ndng
    · rw [c2, c4]
      split
      · exact fun j hj => h.djp j ((mem_remove h.reg.ndp).1 hj).1
      · exact h.djp
    · rw [c3, c5]
      split
      · exact h.djn
      · exact fun j hj => h.djn j ((mem_remove h.reg.ndn).1 hj).1
    · rw [c6] at hg
      refine (h.g hg).congr (fun i' C' b hi' _ hr => (hR _ _).2 ⟨hr, ?_⟩) c4 c5
      rintro rfl
      exact hi'.elim hip hin
    · rcases c7 h2 with h3 | h3
      · exact canSchedule_off h.reg c1 c6 (hq h3)
      · exact h3

/-- Registered clauses while the clause `i` is removed; `A` are the literals looked at. -/
def remR (V : List (Nat × List Lit)) (i : Nat) (A : List Lit) : Nat → Nat → List Lit → Prop :=
  fun f i' C' => (i', C') ∈ V ∧ ¬ (i' = i ∧ 0 < cnt f A)

theorem cnt_snoc {f : Nat} {A : List Lit} {L : Lit} : cnt f (A ++ [L]) = cnt f A + if L.predCode? = some f then 1 else 0 := by
  unfold cnt
  rw [List.countP_append]
  simp [List.countP_cons]

theorem removeLit_ok {G : Prop} {V : List (Nat × List Lit)} {i : Nat} {C A : List Lit} {L : Lit} (hC : ∀ C', (i, C') ∈ V → C' = C) (hL : L ∈ C) {s : PeSt}
    (h : StOK (TaskOK.{u} G sg) (remR V i A) s) : StOK (TaskOK.{u} G sg) (remR V i (A ++ [L])) (removeLit i C s L) := by
  have hQ := main_qok.{u} (sg := sg) G
  unfold removeLit
  have hoth : ∀ g, L.predCode? ≠ some g → remR V i (A ++ [L]) g = remR V i A g := by
    intro g hg
    funext i' C'
    simp only [remR, cnt_snoc, if_neg hg, add_zero]
  split
  · rename_i hp
    refine h.mono hQ fun f i' C' _ => ?_
    rw [hoth f (by rw [hp]; simp)]
  · rename_i f hp
    have hRf : ∀ i' C', remR V i (A ++ [L]) f i' C' ↔ remR V i A f i' C' ∧ i' ≠ i := by
      intro i' C'
      simp only [remR, cnt_snoc, if_pos hp]
      have : 0 < cnt f A + 1 := by omega
      tauto
    split
    · rename_i ht
      refine ⟨fun g hg i' C' hr => ?_, fun g t hg hs => ?_, h.keys, h.ndk, h.ndq, h.queue⟩
      · by_cases hgf : g = f
        · subst hgf
          exact h.empty g hg i' C' ((hRf i' C').1 hr).1
        · rw [hoth g (by rw [hp]; simpa using fun e => hgf e.symm)] at hr
          exact h.empty g hg i' C' hr
      · have hgf : g ≠ f := by rintro rfl; rw [ht] at hg; cases hg
        rw [hoth g (by rw [hp]; simpa using fun e => hgf e.symm)]
        exact h.task g t hg hs
    · rename_i t ht
      split
      · rename_i hsz
        refine ⟨fun g hg i' C' hr => ?_, fun g t' hg hs => ?_, h.keys, h.ndk, h.ndq, h.queue⟩
        · have hgf : g ≠ f := by rintro rfl; rw [ht] at hg; cases hg
          rw [hoth g (by rw [hp]; simpa using fun e => hgf e.symm)] at hr
          exact h.empty g hg i' C' hr
        · have hgf : g ≠ f := by
            rintro rfl
            rw [ht] at hg
            cases hg
            exact hs hsz
          rw [hoth g (by rw [hp]; simpa using fun e => hgf e.symm)]
          exact h.task g t' hg hs
      · rename_i hsz
        have hq : s.queue.contains f = true → t.canSchedule = true := by
          intro hm
          obtain ⟨t', e, h'⟩ := h.queue f (List.contains_iff_mem.1 hm)
          rw [ht] at e
          cases e
          exact h'.resolve_left hsz
        obtain ⟨m1, m2⟩ := remove_main (h.task f t ht hsz) hL hp (fun C' hr => hC C' hr.1) hRf hq
        generalize t.removeClause i C L.pos (s.queue.contains f) = r at m1 m2
        have repl : ∀ (q : List Nat), q.Nodup → (∀ g ∈ q, g ∈ s.queue ∨ g = f) → (f ∈ q → r.1.canSchedule = true) → ∀ s' : PeSt, s'.tasks = (fun g => if g = f then some r.1 else s.tasks g) →
            s'.keys = s.keys → s'.queue = q → StOK (TaskOK.{u} G sg) (remR V i (A ++ [L])) s' := by
          intro q hq2 hq3 hq4 s' e1 e2 e3
          refine ⟨fun g hg i' C' hr => ?_, fun g t' hg hs => ?_, fun g => ?_, e2 ▸ h.ndk, e3 ▸ hq2, fun g hg => ?_⟩
          · rw [e1] at hg
            by_cases hgf : g = f
            · simp [hgf] at hg
            · rw [hoth g (by rw [hp]; simpa using fun e => hgf e.symm)] at hr
              simp only [hgf, if_false] at hg
              exact h.empty g hg i' C' hr
          · rw [e1] at hg
            by_cases hgf : g = f
            · subst hgf
              simp only [if_true, Option.some.injEq] at hg
              subst hg
              exact m1
            · simp only [hgf, if_false] at hg
              rw [hoth g (by rw [hp]; simpa using fun e => hgf e.symm)]
              exact h.task g t' hg hs
          · rw [e1, e2, h.keys]
            by_cases hgf : g = f
            · simp [hgf, ht]
            · simp [hgf]
          · rw [e1]
            rw [e3] at hg
            by_cases hgf : g = f
            · subst hgf
              exact ⟨r.1, by simp, .inr (hq4 hg)⟩
            · simp only [hgf, if_false]
              exact h.queue g ((hq3 g hg).resolve_right hgf)
        simp only
        split
        · rename_i h2
          split
          · rename_i hm
            exact repl s.queue h.ndq (fun g hg => .inl hg) (fun _ => m2 h2) _ rfl rfl rfl
          · rename_i hm
            have hm' : f ∉ s.queue := hm
            refine repl (s.queue ++ [f]) ?_ (fun g hg => by simpa using hg) (fun _ => m2 h2) _ rfl rfl rfl
            rw [List.nodup_append]
            refine ⟨h.ndq, by simp, ?_⟩
            rintro a ha b hb rfl
            simp at hb
            exact hm' (hb ▸ ha)
        · exact repl (s.queue.erase f) (h.ndq.erase f) (fun g hg => .inl (List.mem_of_mem_erase hg)) (fun hm => absurd hm h.ndq.not_mem_erase) _ rfl rfl rfl

theorem removeLit_passive {i : Nat} {C : List Lit} {s : PeSt} {L : Lit} :
    (removeLit i C s L).passive = s.passive ∧ (removeLit i C s L).next = s.next ∧ (removeLit i C s L).vars = s.vars := by
  unfold removeLit
  split
  · exact ⟨rfl, rfl, rfl⟩
  · split
    · exact ⟨rfl, rfl, rfl⟩
    · split
      · exact ⟨rfl, rfl, rfl⟩
      · simp only
        repeat' split
        all_goals exact ⟨rfl, rfl, rfl⟩

theorem foldl_prefix_inv {α β : Type} {f : α → β → α} {P : List β → α → Prop} {l : List β} (hs : ∀ A x a, x ∈ l → P A a → P (A ++ [x]) (f a x)) {a : α} (h : P [] a) : P l (l.foldl f a) := by
  have : ∀ (A B : List β) (a : α), A ++ B = l → P A a → P l (B.foldl f a) := by
    intro A B
    induction B generalizing A with
    | nil => intro a e h; simp at e; subst e; exact h
    | cons x B ih =>
      intro a e h
      exact ih (A ++ [x]) (f a x) (by simp [e]) (hs A x a (by rw [← e]; simp) h)
  exact this [] l a rfl h

theorem removeClause_ok {G : Prop} {V : List (Nat × List Lit)} {c : Nat × List Lit} (hC : ∀ C', (c.1, C') ∈ V → C' = c.2) {s : PeSt}
    (h : StOK (TaskOK.{u} G sg) (fun _ i' C' => (i', C') ∈ V) s) :
    StOK (TaskOK.{u} G sg) (fun _ i' C' => (i', C') ∈ V.filter fun d => d.1 ≠ c.1) (removeClause s c) ∧
      (removeClause s c).passive = s.passive.filter (fun d => d.1 ≠ c.1) ∧ (removeClause s c).next = s.next ∧ (removeClause s c).vars = s.vars := by
  have hQ := main_qok.{u} (sg := sg) G
  have h0 : StOK (TaskOK.{u} G sg) (remR V c.1 []) { s with passive := s.passive.filter fun d => d.1 ≠ c.1 } := by
    have : StOK (TaskOK.{u} G sg) (fun _ i' C' => (i', C') ∈ V) { s with passive := s.passive.filter fun d => d.1 ≠ c.1 } := ⟨h.empty, h.task, h.keys, h.ndk, h.ndq, h.queue⟩
    refine this.mono hQ fun f i' C' _ => ?_
    simp [remR, cnt]
  refine ⟨?_, ?_⟩
  · have := foldl_prefix_inv (P := fun A s => StOK (TaskOK.{u} G sg) (remR V c.1 A) s) (f := removeLit c.1 c.2) (l := c.2) (fun A x a hx ha => removeLit_ok hC hx ha) h0
    refine StOK.mono hQ this fun f i' C' hc => ?_
    simp only [remR, List.mem_filter, decide_eq_true_eq, ne_eq]
    refine and_congr_right fun hm => not_congr ⟨fun h => h.1, fun e => ⟨e, ?_⟩⟩
    rw [e] at hm
    rw [← hC C' hm]
    exact hc
  · exact foldl_prefix_inv (P := fun _ s' => s'.passive = s.passive.filter (fun d => d.1 ≠ c.1) ∧ s'.next = s.next ∧ s'.vars = s.vars) (f := removeLit c.1 c.2) (l := c.2)
      (fun A x a hx ha => ⟨removeLit_passive.1.trans ha.1, removeLit_passive.2.1.trans ha.2.1, removeLit_passive.2.2.trans ha.2.2⟩) ⟨rfl, rfl, rfl⟩

end Verif.PeProof
