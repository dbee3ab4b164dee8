import Verif.Orderings.WeightGen

/-!
# Generated weights: lemmas
-/

namespace Verif

/-! ## Specification -/

/-- The largest of the symbols known to the ordering (code 1 is `$true`). -/
def Top (A : WIn) (f : Nat) : Prop := f ∈ A.syms ∧ ∀ g ∈ A.syms, g ≠ f → A.cmp f g = .greater

/-- Methods that give weight 0 to the maximal symbol, whatever its arity. -/
def zeroTop : WMethod → Bool
  | .noMethod | .selectMaximal | .arityMax0 | .modArityMax0 | .aritySqMax0 | .invArityMax0 | .invAritySqMax0 => true
  | _ => false

/-- Methods that may give weight 0 to symbols that do not occur in the axioms. -/
def zeroUnused : WMethod → Bool
  | .invConjFrequencyRank | .frequencyRankSq | .invFrequencyRankSq | .invModFreqRank | .invModFreqRankMax0 => true
  | _ => false

end Verif

namespace Verif.WeightProof
open Verif

variable {A : WIn}

theorem mem_syms {f : Nat} : f ∈ A.syms ↔ 2 ≤ f ∧ f ≤ A.n := by
  simp only [WIn.syms, List.mem_range'_1]; omega

theorem setFold_other (v : Nat → Nat) : ∀ (l : List Nat) (w : Nat → Nat) (f : Nat), f ∉ l →
    l.foldl (fun w i => setW w i (v i)) w f = w f := by
  intro l
  induction l with
  | nil => intro w f _; rfl
  | cons a l ih =>
    intro w f hf
    simp only [List.mem_cons, not_or] at hf
    rw [List.foldl_cons, ih _ _ hf.2]
    simp [setW, hf.1]

theorem setFold_mem (v : Nat → Nat) : ∀ (l : List Nat) (w : Nat → Nat) (f : Nat), f ∈ l →
    l.foldl (fun w i => setW w i (v i)) w f = v f := by
  intro l
  induction l with
  | nil => intro w f hf; simp at hf
  | cons a l ih =>
    intro w f hf
    rw [List.foldl_cons]
    by_cases h : f ∈ l
    · exact ih _ _ h
    · rw [setFold_other v l _ _ h]
      rcases List.mem_cons.1 hf with rfl | hf
      · simp [setW]
      · exact absurd hf h

theorem assignAll_mem {v w : Nat → Nat} {f : Nat} (h : f ∈ A.syms) : assignAll A v w f = v f := setFold_mem v _ w f h

theorem scan_one {i m : Nat} : maxScan A.cmp i 1 [m] =
    match A.cmp i m with
    | .lesser => ([m], false)
    | .greater => ([], true)
    | _ => ([m], true) := by
  simp only [maxScan, List.getD, List.getElem?_cons_zero, Option.getD_some]
  cases A.cmp i m <;> simp [maxScan, discard]

theorem findMax_from (hO : TotalCmp A.cmp) : ∀ (l : List Nat) (done : List Nat) (m : Nat), (done ++ l).Nodup → m ∈ done →
    (∀ g ∈ done, g ≠ m → A.cmp m g = .greater) →
    ∃ m', l.foldl (maxStep A.cmp) [m] = [m'] ∧ m' ∈ done ++ l ∧ ∀ g ∈ done ++ l, g ≠ m' → A.cmp m' g = .greater := by
  intro l
  induction l with
  | nil => intro done m _ hm h; exact ⟨m, rfl, by simpa using hm, by simpa using h⟩
  | cons i l ih =>
    intro done m hnd hm h
    have hne : i ≠ m := by
      intro e; subst e
      exact (List.nodup_append.1 hnd).2.2 i hm i (by simp) rfl
    rw [List.foldl_cons]
    have hstep : maxStep A.cmp [m] i = match A.cmp i m with
        | .lesser => [m]
        | .greater => [i]
        | _ => [m, i] := by
      simp only [maxStep, List.length_singleton, scan_one]
      cases A.cmp i m <;> simp
    have hnd' : ((done ++ [i]) ++ l).Nodup := by simpa using hnd
    rcases hO.tot.total i m hne with hg | hg
    · simp only [hg] at hstep
      rw [hstep]
      obtain ⟨m', e, h1, h2⟩ := ih (done ++ [i]) i hnd' (by simp) (by
        intro g hgm hgi
        rcases List.mem_append.1 hgm with hgm | hgm
        · by_cases e : g = m
          · rw [e]; exact hg
          · exact hO.tot.trans _ _ _ hg (h g hgm e)
        · simp at hgm; exact absurd hgm hgi)
      exact ⟨m', by simpa using e, by simpa using h1, by simpa using h2⟩
    · have hl : A.cmp i m = .lesser := (hO.anti i m).2 hg
      simp only [hl] at hstep
      rw [hstep]
      obtain ⟨m', e, h1, h2⟩ := ih (done ++ [i]) m hnd' (by simp [hm]) (by
        intro g hgm hgi
        rcases List.mem_append.1 hgm with hgm | hgm
        · exact h g hgm hgi
        · simp at hgm; rw [hgm]; exact hg)
      exact ⟨m', by simpa using e, by simpa using h1, by simpa using h2⟩

/-- With a total precedence the maximal symbol is found. -/
theorem first_top (hO : TotalCmp A.cmp) : (A.syms = [] ∧ firstOf (findMax A) = none) ∨
    ∃ f, firstOf (findMax A) = some f ∧ Top A f := by
  unfold findMax
  cases hs : A.syms with
  | nil => left; exact ⟨rfl, rfl⟩
  | cons a l =>
    right
    have hnd : A.syms.Nodup := by simp [WIn.syms, List.nodup_range']
    rw [hs] at hnd
    obtain ⟨m, e, h1, h2⟩ := findMax_from hO l [a] a (by simpa using hnd) (by simp) (by simp)
    refine ⟨m, ?_, by rw [hs]; simpa using h1, by rw [hs]; simpa using h2⟩
    rw [List.foldl_cons]
    have : maxStep A.cmp [] a = [a] := by simp [maxStep, maxScan]
    rw [this, e]
    rfl

theorem top_unique (hO : TotalCmp A.cmp) {f g : Nat} (hf : Top A f) (hg : Top A g) : f = g := by
  by_contra h
  have h1 := hf.2 g hg.1 (Ne.symm h)
  have h2 := hg.2 f hf.1 h
  exact hO.tot.irrefl f (hO.tot.trans _ _ _ h1 h2)

theorem setMaximal0_spec (hO : TotalCmp A.cmp) {w : Nat → Nat} {f : Nat} (hf : f ∈ A.syms) :
    (Top A f ∧ setMaximal0 A w f = 0) ∨ (¬ Top A f ∧ setMaximal0 A w f = w f) := by
  unfold setMaximal0
  rcases first_top hO with ⟨h, _⟩ | ⟨m, e, hm⟩
  · rw [h] at hf; simp at hf
  · simp only [e, setW]
    by_cases h : f = m
    · left; subst h; exact ⟨hm, by simp⟩
    · right; exact ⟨fun h' => h (top_unique hO h' hm), by simp [h]⟩

theorem setMaximalUnary0_spec (hO : TotalCmp A.cmp) {w : Nat → Nat} {f : Nat} (hf : f ∈ A.syms) :
    (Top A f ∧ A.ar f = 1 ∧ setMaximalUnary0 A w f = 0) ∨ (¬ (Top A f ∧ A.ar f = 1) ∧ setMaximalUnary0 A w f = w f) := by
  unfold setMaximalUnary0
  rcases first_top hO with ⟨h, _⟩ | ⟨m, e, hm⟩
  · rw [h] at hf; simp at hf
  · simp only [e]
    by_cases h : f = m
    · subst h
      by_cases ha : A.ar f = 1
      · left; exact ⟨hm, ha, by simp [ha, setW]⟩
      · right; exact ⟨fun h => ha h.2, by simp [ha]⟩
    · right
      refine ⟨fun h' => h (top_unique hO h'.1 hm), ?_⟩
      split <;> simp [setW, h]

theorem rank_other {key : Nat → Nat × Nat} {upd : Nat → Nat → Nat} {fin : Nat → Nat} {f : Nat} :
    ∀ (l : List Nat) (s : RankSt), f ∉ l → (l.foldl (rankStep key upd fin) s).w f = s.w f := by
  intro l
  induction l with
  | nil => intro s _; rfl
  | cons a l ih =>
    intro s hf
    simp only [List.mem_cons, not_or] at hf
    rw [List.foldl_cons, ih _ hf.2]
    simp [rankStep, setW, hf.1]

theorem rank_pos {key : Nat → Nat × Nat} {upd : Nat → Nat → Nat} {fin : Nat → Nat} (hu : ∀ a b, 1 ≤ b → 1 ≤ upd a b) {f : Nat} :
    ∀ (l : List Nat) (s : RankSt), (s.last = (0, 0) ∨ 1 ≤ s.weight) → f ∈ l → (key f ≠ (0, 0) ∨ 1 ≤ s.weight) →
      ∃ x, 1 ≤ x ∧ (l.foldl (rankStep key upd fin) s).w f = fin x := by
  intro l
  induction l with
  | nil => intro s _ hf; simp at hf
  | cons a l ih =>
    intro s hs hf hk
    rw [List.foldl_cons]
    have hw : 1 ≤ s.weight → 1 ≤ (rankStep key upd fin s a).weight := by
      intro h; simp only [rankStep]; split
      · exact hu _ _ (by omega)
      · exact h
    have hs' : (rankStep key upd fin s a).last = (0, 0) ∨ 1 ≤ (rankStep key upd fin s a).weight := by
      by_cases h1 : 1 ≤ s.weight
      · exact .inr (hw h1)
      · have h0 := hs.resolve_right h1
        by_cases hka : key a = (0, 0)
        · left; exact hka
        · right
          simp only [rankStep, h0]
          rw [if_pos (fun e => hka e.symm)]
          exact hu _ _ (by omega)
    by_cases h : f ∈ l
    · exact ih _ hs' h (hk.imp id hw)
    · rw [rank_other l _ h]
      obtain rfl : f = a := by
        rcases List.mem_cons.1 hf with e | e
        · exact e
        · exact absurd e h
      refine ⟨(rankStep key upd fin s f).weight, ?_, by simp [rankStep, setW]⟩
      rcases hk with hk | hk
      · exact hs'.resolve_left hk
      · exact hw hk

theorem rankLoop_pos {key : Nat → Nat × Nat} {upd : Nat → Nat → Nat} {fin : Nat → Nat} (hu : ∀ a b, 1 ≤ b → 1 ≤ upd a b) {f : Nat}
    {l : List Nat} {w : Nat → Nat} (hf : f ∈ l) (hk : key f ≠ (0, 0)) : ∃ x, 1 ≤ x ∧ rankLoop key upd fin l w f = fin x :=
  rank_pos hu l _ (.inl rfl) hf (.inl hk)

theorem rankLoop_fin {key : Nat → Nat × Nat} {upd : Nat → Nat → Nat} {fin : Nat → Nat} {f : Nat} {w : Nat → Nat} :
    ∀ {l : List Nat}, f ∈ l → ∃ x, rankLoop key upd fin l w f = fin x := by
  unfold rankLoop
  intro l
  generalize (⟨(0, 0), 0, 0, w⟩ : RankSt) = s
  induction l generalizing s with
  | nil => intro hf; simp at hf
  | cons a l ih =>
    intro hf
    rw [List.foldl_cons]
    by_cases h : f ∈ l
    · exact ih _ h
    · rw [rank_other l _ h]
      obtain rfl : f = a := by
        rcases List.mem_cons.1 hf with e | e
        · exact e
        · exact absurd e h
      exact ⟨(rankStep key upd fin s f).weight, by simp [rankStep, setW]⟩

theorem foldl_max_ge (v : Nat → Nat) : ∀ (l : List Nat) (c : Nat), c ≤ l.foldl (fun c i => max (v i) c) c ∧
    ∀ f ∈ l, v f ≤ l.foldl (fun c i => max (v i) c) c := by
  intro l
  induction l with
  | nil => intro c; simp
  | cons a l ih =>
    intro c
    have := ih (max (v a) c)
    rw [List.foldl_cons]
    refine ⟨by omega, ?_⟩
    intro f hf
    rcases List.mem_cons.1 hf with rfl | hf
    · omega
    · exact this.2 f hf

theorem count_ge (p : Nat → Bool) : ∀ (l : List Nat) (c : Nat), c ≤ l.foldl (fun wt j => if p j then wt + 1 else wt) c := by
  intro l
  induction l with
  | nil => intro c; exact le_refl _
  | cons a l ih =>
    intro c
    rw [List.foldl_cons]
    refine le_trans ?_ (ih _)
    split <;> omega

theorem zipFold_other (v : Nat → Nat) : ∀ (l : List (Nat × Nat)) (w : Nat → Nat) (f : Nat), f ∉ l.map Prod.fst →
    l.foldl (fun w p => setW w p.1 (v p.2)) w f = w f := by
  intro l
  induction l with
  | nil => intro w f _; rfl
  | cons a l ih =>
    intro w f hf
    simp only [List.map_cons, List.mem_cons, not_or] at hf
    rw [List.foldl_cons, ih _ _ hf.2]
    simp [setW, hf.1]

theorem zipFold_mem (v : Nat → Nat) : ∀ (l : List (Nat × Nat)) (w : Nat → Nat) (f : Nat), f ∈ l.map Prod.fst →
    ∃ i, l.foldl (fun w p => setW w p.1 (v p.2)) w f = v i := by
  intro l
  induction l with
  | nil => intro w f hf; simp at hf
  | cons a l ih =>
    intro w f hf
    rw [List.foldl_cons]
    by_cases h : f ∈ l.map Prod.fst
    · exact ih _ _ h
    · rw [zipFold_other v l _ _ h]
      simp only [List.map_cons, List.mem_cons, h, or_false] at hf
      exact ⟨a.2, by simp [setW, hf]⟩

theorem mem_sortFreq {f : Nat} : f ∈ sortFreq A ↔ f ∈ A.syms := (List.perm_insertionSort _ _).mem_iff
theorem mem_sortConj {f : Nat} : f ∈ sortConj A ↔ f ∈ A.syms := (List.perm_insertionSort _ _).mem_iff

theorem arity_le_max {f : Nat} (h : f ∈ A.syms) : A.ar f ≤ maxArity A := by
  have e : maxArity A = (List.range' 1 A.n).foldl (fun c i => max (A.ar i) c) 0 := by
    simp only [maxArity, max_comm]
  rw [e]
  refine (foldl_max_ge A.ar _ 0).2 f ?_
  have := mem_syms.1 h
  simp only [List.mem_range'_1]; omega

/-- Every weight is positive, except for the maximal symbol. -/
theorem method_pos (hO : TotalCmp A.cmp) {m : WMethod} {w : Nat → Nat} {f : Nat} (hf : f ∈ A.syms)
    (hu : zeroUnused m = true → A.freq f ≠ 0) :
    1 ≤ methodWeights A m w f ∨ (Top A f ∧ methodWeights A m w f = 0 ∧
      (zeroTop m = true ∨ (m = .invModFreqRankMax0 ∧ A.ar f = 1))) := by
  have hu1 : ∀ a b : Nat, 1 ≤ b → 1 ≤ (fun wt _ => wt + 1 : Nat → Nat → Nat) a b := by intro a b _; simp
  have hu2 : ∀ a b : Nat, 1 ≤ b → 1 ≤ (fun _ base => base : Nat → Nat → Nat) a b := by intro a b h; exact h
  have hmax0 : ∀ v : Nat → Nat, 1 ≤ v f → 1 ≤ setMaximal0 A v f ∨ (Top A f ∧ setMaximal0 A v f = 0) := by
    intro v hv
    rcases setMaximal0_spec hO (w := v) hf with h | h
    · exact .inr h
    · left; rw [h.2]; exact hv
  have hconst : ∀ w, 1 ≤ assignAll A (fun _ => 1) w f := by intro w; rw [assignAll_mem hf]
  have har : ∀ m, 1 ≤ assignAll A (fun i => arityValue m (maxArity A) (A.ar i)) w f := by
    intro m; rw [assignAll_mem hf]; cases m <;> simp [arityValue]
  have harity : ∀ m, 1 ≤ arityWeights A m w f ∨ (Top A f ∧ arityWeights A m w f = 0 ∧ zeroTop m = true) := by
    intro m
    simp only [arityWeights]
    split_ifs with h
    · rcases hmax0 _ (har m) with h1 | h1
      · exact .inl h1
      · refine .inr ⟨h1.1, h1.2, ?_⟩
        rcases h with rfl | rfl | rfl | rfl | rfl <;> rfl
    · exact .inl (har m)
  have hrank : ∀ k, 1 ≤ precRankWeights A k w f := by
    intro k
    have hm : f ∈ ((A.syms.insertionSort fun f g => A.cmp g f ≠ .lesser).zipIdx).map Prod.fst := by
      rw [List.zipIdx_map_fst]; exact (List.perm_insertionSort _ _).mem_iff.2 hf
    obtain ⟨i, e⟩ := zipFold_mem (fun i => i * k / A.syms.length + 1) _ w f hm
    unfold precRankWeights
    rw [e]; exact Nat.succ_le_succ (Nat.zero_le _)
  have hsel : 1 ≤ setMaximal0 A (assignAll A (fun _ => 1) w) f ∨ (Top A f ∧ setMaximal0 A (assignAll A (fun _ => 1) w) f = 0) :=
    hmax0 _ (hconst w)
  cases m
  case noMethod => exact hsel.imp id fun h => ⟨h.1, h.2, .inl rfl⟩
  case selectMaximal => exact hsel.imp id fun h => ⟨h.1, h.2, .inl rfl⟩
  case precedence =>
    left; simp only [methodWeights, precedenceWeights]; rw [assignAll_mem hf]
    simpa using count_ge (fun j => decide (A.cmp f j = .greater)) A.syms 1
  case precedenceInv =>
    left; simp only [methodWeights, precedenceWeights]; rw [assignAll_mem hf]
    simpa using count_ge (fun j => decide (A.cmp f j = .lesser)) A.syms 1
  case precRank5 => left; exact hrank 5
  case precRank10 => left; exact hrank 10
  case precRank20 => left; exact hrank 20
  case frequency => left; simp only [methodWeights]; rw [assignAll_mem hf]; omega
  case invFrequency =>
    left; simp only [methodWeights]; rw [assignAll_mem hf]
    have h1 := (foldl_max_ge A.freq A.syms 1).1
    have h2 := (foldl_max_ge A.freq A.syms 1).2 f hf
    omega
  case frequencyRank =>
    left
    obtain ⟨x, e⟩ := rankLoop_fin (key := fun f => (A.freq f, 0)) (upd := fun wt _ => wt + 1) (fin := fun wt => max wt 1) (w := w)
      (mem_sortFreq.2 hf)
    simp only [methodWeights]; rw [e]; omega
  case invFrequencyRank =>
    left
    obtain ⟨x, e⟩ := rankLoop_fin (key := fun f => (A.freq f, 0)) (upd := fun wt _ => wt + 1) (fin := fun wt => max wt 1) (w := w)
      (List.mem_reverse.2 (mem_sortFreq.2 hf))
    simp only [methodWeights]; rw [e]; omega
  case invConjFrequencyRank =>
    left
    obtain ⟨x, hx, e⟩ := rankLoop_pos (key := fun f => (A.freq f, A.conjfreq f)) (fin := fun wt => wt) (w := w) hu1
      (mem_sortConj.2 hf) (by simp [hu rfl])
    simp only [methodWeights]; rw [e]; exact hx
  case frequencyRankSq =>
    left
    obtain ⟨x, hx, e⟩ := rankLoop_pos (key := fun f => (A.freq f, 0)) (fin := fun wt => wt * wt) (w := w) hu1
      (mem_sortFreq.2 hf) (by simp [hu rfl])
    simp only [methodWeights]; rw [e]; exact Nat.mul_pos hx hx
  case invFrequencyRankSq =>
    left
    obtain ⟨x, hx, e⟩ := rankLoop_pos (key := fun f => (A.freq f, 0)) (fin := fun wt => wt * wt) (w := w) hu1
      (List.mem_reverse.2 (mem_sortFreq.2 hf)) (by simp [hu rfl])
    simp only [methodWeights]; rw [e]; exact Nat.mul_pos hx hx
  case invModFreqRank =>
    left
    obtain ⟨x, hx, e⟩ := rankLoop_pos (key := fun f => (A.freq f, 0)) (fin := fun wt => wt) (w := w) hu2
      (List.mem_reverse.2 (mem_sortFreq.2 hf)) (by simp [hu rfl])
    simp only [methodWeights]; rw [e]; exact hx
  case invModFreqRankMax0 =>
    obtain ⟨x, hx, e⟩ := rankLoop_pos (key := fun f => (A.freq f, 0)) (fin := fun wt => wt) (w := w) hu2
      (List.mem_reverse.2 (mem_sortFreq.2 hf)) (by simp [hu rfl])
    simp only [methodWeights]
    rcases setMaximalUnary0_spec hO
      (w := rankLoop (fun f => (A.freq f, 0)) (fun _ base => base) (fun wt => wt) (sortFreq A).reverse w) hf with h | h
    · exact .inr ⟨h.1, h.2.2, .inr ⟨trivial, h.2.1⟩⟩
    · left; rw [h.2, e]; exact hx
  case constantWeight => left; exact hconst w
  all_goals
    have := harity
    first
      | exact (harity .arityWeight).imp id fun h => ⟨h.1, h.2.1, .inl h.2.2⟩
      | exact (harity .arityMax0).imp id fun h => ⟨h.1, h.2.1, .inl h.2.2⟩
      | exact (harity .modArityWeight).imp id fun h => ⟨h.1, h.2.1, .inl h.2.2⟩
      | exact (harity .modArityMax0).imp id fun h => ⟨h.1, h.2.1, .inl h.2.2⟩
      | exact (harity .aritySqWeight).imp id fun h => ⟨h.1, h.2.1, .inl h.2.2⟩
      | exact (harity .aritySqMax0).imp id fun h => ⟨h.1, h.2.1, .inl h.2.2⟩
      | exact (harity .invArityWeight).imp id fun h => ⟨h.1, h.2.1, .inl h.2.2⟩
      | exact (harity .invArityMax0).imp id fun h => ⟨h.1, h.2.1, .inl h.2.2⟩
      | exact (harity .invAritySqWeight).imp id fun h => ⟨h.1, h.2.1, .inl h.2.2⟩
      | exact (harity .invAritySqMax0).imp id fun h => ⟨h.1, h.2.1, .inl h.2.2⟩

/-! ## Ranks -/

/-- The weights assigned by a rank loop, in the order of the symbols. -/
def wseq (key : Nat → Nat × Nat) (upd : Nat → Nat → Nat) : List Nat → Nat × Nat → Nat → Nat → List (Nat × Nat)
  | [], _, _, _ => []
  | f :: l, last, wt, base =>
    let wt' := if last ≠ key f then upd wt (base + 1) else wt
    (f, wt') :: wseq key upd l (key f) wt' (base + 1)

section
variable {key : Nat → Nat × Nat} {upd : Nat → Nat → Nat} {fin : Nat → Nat}

theorem wseq_fst : ∀ (l : List Nat) last wt base, (wseq key upd l last wt base).map Prod.fst = l := by
  intro l
  induction l with
  | nil => intros; rfl
  | cons a l ih => intro last wt base; simp only [wseq, List.map_cons, ih]

theorem wseq_value {f v : Nat} : ∀ (l : List Nat) (s : RankSt), l.Nodup → (f, v) ∈ wseq key upd l s.last s.weight s.base →
    (l.foldl (rankStep key upd fin) s).w f = fin v := by
  intro l
  induction l with
  | nil => intro s _ h; simp [wseq] at h
  | cons a l ih =>
    intro s hn h
    simp only [List.nodup_cons] at hn
    rw [List.foldl_cons]
    simp only [wseq, List.mem_cons, Prod.mk.injEq] at h
    rcases h with ⟨rfl, rfl⟩ | h
    · rw [rank_other l _ hn.1]
      simp [rankStep, setW]
    · exact ih (rankStep key upd fin s a) hn.2 h

theorem wseq_ge (hu : ∀ a b, a < b → a < upd a b) (hb : ∀ a b, a < b → upd a b ≤ b) : ∀ (l : List Nat) last wt base, wt ≤ base →
    ∀ p ∈ wseq key upd l last wt base, wt ≤ p.2 ∧ (last ≠ key p.1 → wt < p.2) := by
  intro l
  induction l with
  | nil => intro last wt base _ p h; simp [wseq] at h
  | cons a l ih =>
    intro last wt base hwb p hp
    simp only [wseq, List.mem_cons] at hp
    by_cases hk : last = key a
    · rw [if_neg (not_not.2 hk)] at hp
      rcases hp with rfl | hp
      · exact ⟨le_refl _, fun h => absurd hk h⟩
      · have := ih (key a) wt (base + 1) (by omega) p hp
        exact ⟨this.1, fun h => this.2 (hk ▸ h)⟩
    · rw [if_pos hk] at hp
      have h1 := hu wt (base + 1) (by omega)
      have h2 := hb wt (base + 1) (by omega)
      rcases hp with rfl | hp
      · exact ⟨by omega, fun _ => h1⟩
      · have := ih (key a) (upd wt (base + 1)) (base + 1) h2 p hp
        exact ⟨by omega, fun _ => by omega⟩

theorem wseq_eq {le : Nat × Nat → Nat × Nat → Prop} (ha : ∀ a b, le a b → le b a → a = b) : ∀ (l : List Nat) last wt base,
    (∀ f ∈ l, le last (key f)) → l.Pairwise (fun f g => le (key f) (key g)) →
    ∀ p ∈ wseq key upd l last wt base, key p.1 = last → p.2 = wt := by
  intro l
  induction l with
  | nil => intro last wt base _ _ p h; simp [wseq] at h
  | cons a l ih =>
    intro last wt base hl hp p hm he
    have hml : p ∈ wseq key upd l (key a) (if last ≠ key a then upd wt (base + 1) else wt) (base + 1) → key a = last := by
      intro h
      have hpl : p.1 ∈ l := by
        rw [← wseq_fst (key := key) (upd := upd) l]
        exact List.mem_map_of_mem h
      refine ha _ _ ?_ (hl a (by simp))
      rw [← he]
      exact (List.pairwise_cons.1 hp).1 _ hpl
    simp only [wseq, List.mem_cons] at hm
    rcases hm with rfl | hm
    · simp only at he ⊢
      rw [if_neg (not_not.2 he.symm)]
    · have hk := hml hm
      rw [if_neg (not_not.2 hk.symm)] at hm
      exact ih _ _ _ (fun f hf => (List.pairwise_cons.1 hp).1 f hf) (List.pairwise_cons.1 hp).2 p hm (by rw [he, hk])

/-- Equal keys get equal weights, a later key a larger one. -/
theorem wseq_pairwise {le : Nat × Nat → Nat × Nat → Prop} (ha : ∀ a b, le a b → le b a → a = b)
    (hu : ∀ a b, a < b → a < upd a b) (hb : ∀ a b, a < b → upd a b ≤ b) : ∀ (l : List Nat) last wt base, wt ≤ base →
    l.Pairwise (fun f g => le (key f) (key g)) →
    (wseq key upd l last wt base).Pairwise fun p q => (key p.1 = key q.1 → p.2 = q.2) ∧ (key p.1 ≠ key q.1 → p.2 < q.2) := by
  intro l
  induction l with
  | nil => intros; simp [wseq]
  | cons a l ih =>
    intro last wt base hwb hp
    simp only [wseq, List.pairwise_cons]
    have hp' := List.pairwise_cons.1 hp
    have hle : (if last ≠ key a then upd wt (base + 1) else wt) ≤ base + 1 := by
      split
      · exact hb _ _ (by omega)
      · omega
    refine ⟨?_, ih _ _ _ hle hp'.2⟩
    intro q hq
    exact ⟨fun h => (wseq_eq ha l _ _ _ (fun f hf => hp'.1 f hf) hp'.2 q hq h.symm).symm,
      (wseq_ge hu hb l _ _ _ hle q hq).2⟩

/-- The order of the weights of a rank loop is the order of the keys. -/
theorem rank_order {le : Nat × Nat → Nat × Nat → Prop} (ha : ∀ a b, le a b → le b a → a = b) (hr : ∀ a, le a a)
    (hu : ∀ a b, a < b → a < upd a b) (hb : ∀ a b, a < b → upd a b ≤ b) {l : List Nat} {w : Nat → Nat} (hn : l.Nodup)
    (hl : l.Pairwise fun f g => le (key f) (key g)) {f g : Nat} (hf : f ∈ l) (hg : g ∈ l) :
    ∃ a b, rankLoop key upd fin l w f = fin a ∧ rankLoop key upd fin l w g = fin b ∧ (le (key f) (key g) ↔ a ≤ b) ∧
      (key f ≠ (0, 0) → 1 ≤ a) ∧ (key g ≠ (0, 0) → 1 ≤ b) := by
  set L := wseq key upd l (0, 0) 0 0 with hL
  have hfst : L.map Prod.fst = l := wseq_fst l _ _ _
  have hmem : ∀ f ∈ l, ∃ a, (f, a) ∈ L := by
    intro f hf
    rw [← hfst] at hf
    obtain ⟨p, hp, rfl⟩ := List.mem_map.1 hf
    exact ⟨p.2, hp⟩
  obtain ⟨a, hfa⟩ := hmem f hf
  obtain ⟨b, hgb⟩ := hmem g hg
  refine ⟨a, b, wseq_value l ⟨(0, 0), 0, 0, w⟩ hn hfa, wseq_value l ⟨(0, 0), 0, 0, w⟩ hn hgb, ?_,
    fun h => (wseq_ge hu hb l _ _ _ (le_refl _) _ hfa).2 h.symm, fun h => (wseq_ge hu hb l _ _ _ (le_refl _) _ hgb).2 h.symm⟩
  have hpw := wseq_pairwise (key := key) (upd := upd) ha hu hb l (0, 0) 0 0 (le_refl _) hl
  rw [← hL] at hpw
  have hlL : L.Pairwise fun p q => le (key p.1) (key q.1) := by
    rw [← hfst] at hl
    exact (List.pairwise_map (R := fun f g => le (key f) (key g)) (f := Prod.fst)).1 hl
  have hboth := List.pairwise_and_iff.2 ⟨hpw, hlL⟩
  by_cases hfg : f = g
  · subst hfg
    have e1 := wseq_value (fin := id) l ⟨(0, 0), 0, 0, w⟩ hn hfa
    have e2 := wseq_value (fin := id) l ⟨(0, 0), 0, 0, w⟩ hn hgb
    rw [e1] at e2
    exact ⟨fun _ => le_of_eq e2, fun _ => hr _⟩
  · have hab : ∀ {p q : Nat × Nat}, p ∈ L → q ∈ L → p.1 ≠ q.1 →
        (((key p.1 = key q.1 → p.2 = q.2) ∧ (key p.1 ≠ key q.1 → p.2 < q.2)) ∧ le (key p.1) (key q.1)) ∨
        (((key q.1 = key p.1 → q.2 = p.2) ∧ (key q.1 ≠ key p.1 → q.2 < p.2)) ∧ le (key q.1) (key p.1)) := by
      intro p q hp hq hpq
      obtain ⟨i, hi, rfl⟩ := List.getElem_of_mem hp
      obtain ⟨j, hj, rfl⟩ := List.getElem_of_mem hq
      rcases Nat.lt_trichotomy i j with hij | hij | hij
      · exact .inl (List.pairwise_iff_getElem.1 hboth i j hi hj hij)
      · subst hij; exact absurd rfl hpq
      · exact .inr (List.pairwise_iff_getElem.1 hboth j i hj hi hij)
    rcases hab hfa hgb hfg with ⟨⟨h1, h2⟩, h3⟩ | ⟨⟨h1, h2⟩, h3⟩
    · refine ⟨fun _ => ?_, fun _ => h3⟩
      by_cases e : key f = key g
      · exact le_of_eq (h1 e)
      · exact le_of_lt (h2 e)
    · constructor
      · intro h
        exact le_of_eq (h1 (ha _ _ h3 h)).symm
      · intro h
        by_cases e : key g = key f
        · rw [e]; exact hr _
        · have := h2 e
          simp only at this; omega

end

theorem nodup_syms : A.syms.Nodup := by simp [WIn.syms, List.nodup_range']

theorem sortFreq_nodup : (sortFreq A).Nodup := (List.perm_insertionSort _ _).nodup_iff.2 nodup_syms
theorem sortConj_nodup : (sortConj A).Nodup := (List.perm_insertionSort _ _).nodup_iff.2 nodup_syms

theorem sortFreq_sorted : (sortFreq A).Pairwise fun f g => A.freq f ≤ A.freq g :=
  have : Std.Total fun f g => A.freq f ≤ A.freq g := ⟨fun a b => by omega⟩
  have : IsTrans Nat fun f g => A.freq f ≤ A.freq g := ⟨fun a b c => by omega⟩
  List.pairwise_insertionSort _ _

theorem sortConj_sorted : (sortConj A).Pairwise fun f g => conjLe A f g :=
  have : Std.Total fun f g => conjLe A f g := ⟨fun a b => by unfold conjLe; simp only; omega⟩
  have : IsTrans Nat fun f g => conjLe A f g := ⟨fun a b c => by unfold conjLe; simp only; omega⟩
  List.pairwise_insertionSort _ _

/-! ## The loop over the constants -/

theorem const_other {cw : Option Nat} {force : Bool} {f : Nat} : ∀ (l : List Nat) (s : (Nat → Nat) × Nat),
    (f ∉ l ∨ A.ar f ≠ 0 ∨ cw = none) → (l.foldl (constStep A cw force) s).1 f = s.1 f := by
  intro l
  induction l with
  | nil => intro s _; rfl
  | cons a l ih =>
    intro s h
    rw [List.foldl_cons, ih]
    · unfold constStep
      split
      · cases cw with
        | none => rfl
        | some c =>
          simp only [setW]
          split
          · rename_i h1 h2
            subst h2
            simp [h1] at h
          · rfl
      · rfl
    · simpa using h.imp (fun h => (List.not_mem_of_not_mem_cons h)) id

theorem const_some {c : Nat} {force : Bool} {f : Nat} (ha : A.ar f = 0) : ∀ (l : List Nat) (s : (Nat → Nat) × Nat), f ∈ l →
    (l.foldl (constStep A (some c) force) s).1 f = max c 1 := by
  intro l
  induction l with
  | nil => intro s h; simp at h
  | cons a l ih =>
    intro s h
    rw [List.foldl_cons]
    by_cases hl : f ∈ l
    · exact ih _ hl
    · rw [const_other l _ (.inl hl)]
      obtain rfl : f = a := by
        rcases List.mem_cons.1 h with e | e
        · exact e
        · exact absurd e hl
      simp [constStep, ha, setW]

theorem const_w0_le {cw : Option Nat} {force : Bool} : ∀ (l : List Nat) (s : (Nat → Nat) × Nat),
    (l.foldl (constStep A cw force) s).2 ≤ s.2 := by
  intro l
  induction l with
  | nil => intro s; exact le_refl _
  | cons a l ih =>
    intro s
    rw [List.foldl_cons]
    refine le_trans (ih _) ?_
    unfold constStep
    split
    · simp only; split
      · exact Nat.min_le_left _ _
      · exact le_refl _
    · exact le_refl _

theorem const_w0_noforce {cw : Option Nat} : ∀ (l : List Nat) (s : (Nat → Nat) × Nat),
    (l.foldl (constStep A cw false) s).2 = s.2 := by
  intro l
  induction l with
  | nil => intro s; rfl
  | cons a l ih =>
    intro s
    rw [List.foldl_cons, ih]
    unfold constStep
    split <;> simp

theorem const_w0_force {cw : Option Nat} {f : Nat} (ha : A.ar f = 0) : ∀ (l : List Nat) (s : (Nat → Nat) × Nat), l.Nodup → f ∈ l →
    (l.foldl (constStep A cw true) s).2 ≤ (l.foldl (constStep A cw true) s).1 f := by
  intro l
  induction l with
  | nil => intro s _ h; simp at h
  | cons a l ih =>
    intro s hn h
    rw [List.foldl_cons]
    simp only [List.nodup_cons] at hn
    by_cases hl : f ∈ l
    · exact ih _ hn.2 hl
    · rw [const_other l _ (.inl hl)]
      obtain rfl : f = a := by
        rcases List.mem_cons.1 h with e | e
        · exact e
        · exact absurd e hl
      refine le_trans (const_w0_le l _) ?_
      simp only [constStep, ha, if_true]
      exact Nat.min_le_right _ _

theorem const_w0_pos {cw : Option Nat} {force : Bool} : ∀ (l : List Nat) (s : (Nat → Nat) × Nat), 1 ≤ s.2 →
    (force = true → cw = none → ∀ f ∈ l, A.ar f = 0 → 1 ≤ s.1 f) → 1 ≤ (l.foldl (constStep A cw force) s).2 := by
  intro l
  induction l with
  | nil => intro s h _; exact h
  | cons a l ih =>
    intro s h hc
    rw [List.foldl_cons]
    refine ih _ ?_ ?_
    · unfold constStep
      split
      · rename_i ha
        cases force with
        | false => simpa using h
        | true =>
          cases cw with
          | none => simp only [if_true]; exact Nat.le_min.2 ⟨h, hc rfl rfl a (by simp) ha⟩
          | some c => simp only [if_true, setW]; exact Nat.le_min.2 ⟨h, by omega⟩
      · exact h
    · intro hf hn f hfl ha
      subst hn
      have : (constStep A none force s a).1 f = s.1 f := by unfold constStep; split <;> rfl
      rw [this]
      exact hc hf rfl f (List.mem_cons_of_mem _ hfl) ha

/-- Constants weigh at least 4 with the modified arity weights. -/
theorem modArity_const (hO : TotalCmp A.cmp) {m : WMethod} (hm : m = .modArityWeight ∨ m = .modArityMax0) {w : Nat → Nat} {f : Nat}
    (hf : f ∈ A.syms) (ht : zeroTop m = true → ¬ Top A f) : 4 ≤ methodWeights A m w f := by
  rcases hm with rfl | rfl
  · simp only [methodWeights, arityWeights]
    simp only [reduceCtorEq, or_self, if_false]
    rw [assignAll_mem hf]; simp [arityValue]
  · simp only [methodWeights, arityWeights]
    simp only [reduceCtorEq, true_or, or_true, if_true]
    rcases setMaximal0_spec hO (w := assignAll A (fun i => arityValue .modArityMax0 (maxArity A) (A.ar i)) w) hf with h | h
    · exact absurd h.1 (ht rfl)
    · rw [h.2, assignAll_mem hf]; simp [arityValue]

/-- The maximal symbol gets weight 0. -/
theorem zeroTop_zero (hO : TotalCmp A.cmp) {m : WMethod} (hm : zeroTop m = true) {w : Nat → Nat} {f : Nat} (hf : Top A f) :
    methodWeights A m w f = 0 := by
  have key : ∀ w, setMaximal0 A w f = 0 := by
    intro w
    rcases setMaximal0_spec hO (w := w) hf.1 with h | h
    · exact h.2
    · exact absurd hf h.1
  cases m <;> simp only [zeroTop, Bool.false_eq_true] at hm <;>
    simp [methodWeights, arityWeights, key]

end Verif.WeightProof
