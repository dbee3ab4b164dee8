import Verif.Orderings.SimplOrder
import Verif.Orderings.WeightGenProof
import Verif.Props.Kbo
import Verif.Props.Prec

/-!
# C60: the generated weights make the Knuth-Bendix ordering a simplification ordering
-/

namespace Verif.Props
open Verif Verif.WeightProof

variable {A : WIn}

/-- What is asked of the problem and the parameters.  `S` are the symbols of the terms to be compared. -/
structure WeightsOK (A : WIn) (m : WMethod) (constW : Option Nat) (force : Bool) (S : Nat → Prop) : Prop where
  /-- The signature has at least `$true`, a constant with code 1; codes are positive. -/
  sig : 1 ≤ A.n
  tru : A.ar 1 = 0
  code : ∀ f, S f → 1 ≤ f
  /-- The precedence is total. -/
  tot : TotalCmp A.cmp
  /-- Unary symbols are larger than `$true` and the symbols created later. -/
  low : ∀ f g, S f → A.ar f = 1 → f ∈ A.syms → g ∉ A.syms → A.cmp f g = .greater
  /-- With a method that gives weight 0 to the maximal symbol, that symbol is no constant. -/
  top : zeroTop m = true → constW = none → ∀ f, A.ar f = 0 → ¬ Top A f
  /-- With a method that ranks symbols by the number of occurrences, the symbols occur. -/
  used : zeroUnused m = true → ∀ f ∈ A.syms, S f ∨ (force = true ∧ constW = none ∧ A.ar f = 0) → A.freq f ≠ 0
  /-- There are no constants created later if variables weigh more than 1. -/
  late : ∀ f, S f → A.ar f = 0 → f ≠ 1 → f ∉ A.syms → methodVarWeight m constW ≤ 1
  /-- A special weight of constants is positive. -/
  cpos : constW ≠ some 0

/-- The arities of the symbols in `S`; others are left out of consideration by making them binary. -/
noncomputable def onlyAr (ar : Nat → Nat) (S : Nat → Prop) (f : Nat) : Nat := by
  classical exact if S f then ar f else 2

/-- **C60, partial.** The generated weights are admissible.  Missing: the cases excluded by `WeightsOK.top`, `WeightsOK.used` and
`WeightsOK.late`, where they are not (`maximal_constant`, `unused_constant`, `kgt_subst_fails_for_new_constants`). -/
theorem weights_admissible_partial {m : WMethod} {constW : Option Nat} {force : Bool} {S : Nat → Prop}
    (h : WeightsOK A m constW force S) :
    ((generateWeights A m constW force).par (onlyAr A.ar S)).Admissible := by
  have hS : ∀ f k, k ≤ 1 → onlyAr A.ar S f = k → S f ∧ A.ar f = k := by
    intro f k hk e
    unfold onlyAr at e
    split at e
    · exact ⟨by assumption, e⟩
    · omega
  set w1 := methodWeights A m (setW (fun _ => 1) 1 1) with hw1
  set r := A.syms.foldl (constStep A constW force) (w1, methodVarWeight m constW) with hr
  have hgen : generateWeights A m constW force = ⟨fun f => if f ≤ A.n then setW r.1 1 r.2 f else 1, r.2, A.cmp⟩ := rfl
  rw [hgen]
  have hnd : A.syms.Nodup := by simp [WIn.syms, List.nodup_range']
  have hmv : 1 ≤ methodVarWeight m constW := by
    have := h.cpos
    cases m <;> simp only [methodVarWeight, le_refl] <;> cases constW <;> simp_all <;> omega
  have hvle : r.2 ≤ methodVarWeight m constW := const_w0_le _ _
  -- weights of constants
  have hc : ∀ f ∈ A.syms, A.ar f = 0 → S f ∨ force = true → 1 ≤ r.1 f := by
    intro f hf ha hsf
    cases hcw : constW with
    | some c => rw [hr, hcw, const_some ha _ _ hf]; omega
    | none =>
      rw [hr, const_other _ _ (.inr (.inr hcw))]
      rcases method_pos h.tot (m := m) (w := setW (fun _ => 1) 1 1) hf (by
        intro hz
        rcases hsf with hsf | hsf
        · exact h.used hz f hf (.inl hsf)
        · exact h.used hz f hf (.inr ⟨hsf, hcw, ha⟩)) with hp | ⟨ht, _, hp⟩
      · exact hp
      · rcases hp with hp | hp
        · exact absurd ht (h.top hp hcw f ha)
        · omega
  have hpos : 1 ≤ r.2 := by
    refine const_w0_pos _ _ hmv ?_
    intro hforce hcw f hf ha
    have := hc f hf ha (.inr hforce)
    rwa [hr, const_other _ _ (.inr (.inr hcw))] at this
  have hle : ∀ f ∈ A.syms, A.ar f = 0 → S f → r.2 ≤ r.1 f := by
    intro f hf ha hsf
    cases hfo : force with
    | true => rw [hr, hfo]; exact const_w0_force ha _ _ hnd hf
    | false =>
      have e2 : r.2 = methodVarWeight m constW := by rw [hr, hfo, const_w0_noforce]
      by_cases hm : m = .modArityWeight ∨ m = .modArityMax0
      · rw [e2]
        cases hcw : constW with
        | some c =>
          rw [hr, hcw, const_some ha _ _ hf]
          rcases hm with rfl | rfl <;> simp [methodVarWeight]
        | none =>
          rw [hr, const_other _ _ (.inr (.inr hcw))]
          have h4 : methodVarWeight m none = 4 := by rcases hm with rfl | rfl <;> rfl
          rw [h4]
          exact modArity_const h.tot hm hf (fun hz => h.top hz hcw f ha)
      · have h1 : methodVarWeight m constW = 1 := by
          cases m <;> simp_all [methodVarWeight]
        rw [e2, h1]
        exact hc f hf ha (.inl hsf)
  refine ⟨hpos, ?_, ?_⟩
  · intro f hf
    obtain ⟨hsf, ha⟩ := hS f 0 (by omega) hf
    simp only [KOcb.par]
    by_cases h1 : f = 1
    · subst h1
      rw [if_pos h.sig]
      simp [setW]
    · by_cases hf : f ∈ A.syms
      · have := mem_syms.1 hf
        rw [if_pos this.2]
        simp only [setW, if_neg h1]
        exact hle f hf ha hsf
      · have hl := h.late f hsf ha h1 hf
        have hn : ¬ f ≤ A.n := by
          have := h.code f hsf
          rw [mem_syms] at hf; omega
        rw [if_neg hn]
        omega
  · intro f hf hw g hg
    obtain ⟨hsf, ha⟩ := hS f 1 (by omega) hf
    simp only [KOcb.par] at hw ⊢
    have h1 : f ≠ 1 := by rintro rfl; rw [h.tru] at ha; omega
    have hn : f ≤ A.n := by
      by_contra hn
      rw [if_neg hn] at hw; omega
    have hfs : f ∈ A.syms := mem_syms.2 ⟨by have := h.code f hsf; omega, hn⟩
    have ht : Top A f := by
      rw [if_pos hn] at hw
      simp only [setW, if_neg h1] at hw
      rw [hr, const_other _ _ (.inr (.inl (by omega)))] at hw
      rcases method_pos h.tot (m := m) (w := setW (fun _ => 1) 1 1) hfs (fun hz => h.used hz f hfs (.inl hsf)) with hp | hp
      · simp only [hw1] at hw; omega
      · exact hp.1
    by_cases hgs : g ∈ A.syms
    · exact ht.2 g hgs hg
    · exact h.low f g hsf ha hfs hgs

/-! ## The ordering -/

mutual
/-- Terms over the symbols `S` with the arities `ar`. -/
def OverSig (ar : Nat → Nat) (S : Nat → Prop) : Term → Prop
  | .var _ => True
  | .app f ts => S f ∧ ts.length = ar f ∧ OverSigL ar S ts
def OverSigL (ar : Nat → Nat) (S : Nat → Prop) : List Term → Prop
  | [] => True
  | t :: ts => OverSig ar S t ∧ OverSigL ar S ts
end

private theorem over_hasAr {ar : Nat → Nat} {S : Nat → Prop} : ∀ t : Term, OverSig ar S t → t.HasAr (onlyAr ar S) := by
  have key : (∀ t : Term, OverSig ar S t → t.HasAr (onlyAr ar S)) := by
    intro t
    induction t using Term.ind with
    | hv x => intro _; simp [Term.HasAr]
    | ha f ts ih =>
      intro h
      simp only [OverSig] at h
      refine Term.hasAr_app.2 ⟨?_, ?_⟩
      · simp [onlyAr, h.1, h.2.1]
      · have hl : ∀ ts : List Term, OverSigL ar S ts → ∀ t ∈ ts, OverSig ar S t := by
          intro ts
          induction ts with
          | nil => intro _ t ht; simp at ht
          | cons a ts ih =>
            intro h t ht
            simp only [OverSigL] at h
            rcases List.mem_cons.1 ht with rfl | ht
            · exact h.1
            · exact ih h.2 t ht
        exact fun t ht => ih t ht (hl ts h.2.2 t ht)
  exact key

/-- **C60, partial.** With the generated weights, `KBO6Compare` is a simplification ordering on the terms of the problem. -/
theorem weights_order_partial {m : WMethod} {constW : Option Nat} {force : Bool} {S : Nat → Prop}
    (h : WeightsOK A m constW force S) :
    SimplOrder (OverSig A.ar S) (KGt (generateWeights A m constW force)) := by
  have hA := weights_admissible_partial h
  have hO : TotalCmp (generateWeights A m constW force).cmp := h.tot
  refine ⟨?_, ?_, ?_, ?_, ?_, ?_, ?_⟩
  · exact fun s hs => kgt_irrefl hO hA (over_hasAr s hs)
  · exact fun s t u hs ht hu => kgt_trans hO hA (over_hasAr s hs) (over_hasAr t ht) (over_hasAr u hu)
  · exact fun s t σ hs ht hσ => kgt_subst hO hA (over_hasAr s hs) (over_hasAr t ht) (fun x => over_hasAr _ (hσ x))
  · exact fun f pre post s t hs ht => kgt_mono hO hA (over_hasAr _ hs) (over_hasAr t ht)
  · exact fun f ts t hs ht => kgt_arg hO hA (over_hasAr _ hs) ht
  · exact fun s t hs ht => kgt_total hO hA (over_hasAr s hs) (over_hasAr t ht)
  · rintro N ⟨c, hc, hd⟩
    exact kgt_wf hO hA N ⟨c, fun n => ⟨over_hasAr _ (hc n).1, (hc n).2⟩, hd⟩

/-! ## Generated precedences qualify -/

private theorem fold_ge : ∀ (l : List (Nat × Nat)) (pw : Nat → Int) (f : Nat), (∀ p ∈ l, 2 ≤ p.2) →
    (f ∈ l.map Prod.fst ∨ 2 ≤ pw f → 2 ≤ l.foldl (fun pw p => fun f => if f = p.1 then (p.2 : Int) else pw f) pw f) ∧
    (f ∉ l.map Prod.fst → l.foldl (fun pw p => fun f => if f = p.1 then (p.2 : Int) else pw f) pw f = pw f) := by
  intro l
  induction l with
  | nil => intro pw f _; simp
  | cons a l ih =>
    intro pw f h
    have h2 := h a (by simp)
    rw [List.foldl_cons]
    obtain ⟨i1, i2⟩ := ih (fun f => if f = a.1 then (a.2 : Int) else pw f) f (fun p hp => h p (by simp [hp]))
    constructor
    · intro hf
      refine i1 ?_
      by_cases e : f = a.1
      · right; simp only [e, if_true]; omega
      · simp only [List.map_cons, List.mem_cons, e, false_or] at hf
        simpa [e] using hf
    · intro hf
      simp only [List.map_cons, List.mem_cons, not_or] at hf
      rw [i2 hf.2, if_neg hf.1]

/-- The precedence made from any order `arr` of the symbols (C12) satisfies what `WeightsOK` asks of the precedence. -/
theorem generated_precedence {n : Nat} {dist : Nat → Bool} {arr : List Nat} {ar : Nat → Nat}
    (hp : arr.Perm (List.range' 2 (n - 1))) (hn : 1 ≤ n) (hd : ∀ f, dist f = true → ar f = 0) :
    TotalCmp (funCmpW n dist (precWeights arr)) ∧
      ∀ f g, ar f = 1 → f ∈ List.range' 2 (n - 1) → g ∉ List.range' 2 (n - 1) → funCmpW n dist (precWeights arr) f g = .greater := by
  refine ⟨precWeights_total hp hn, ?_⟩
  intro f g ha hf hg
  have hfa : f ∈ arr := hp.mem_iff.2 hf
  have hga : g ∉ arr := fun h => hg (hp.mem_iff.1 h)
  simp only [List.mem_range'_1] at hf hg
  have hdf : dist f = false := by
    cases e : dist f with
    | false => rfl
    | true => have := hd f e; omega
  have hidx : ∀ p ∈ arr.zipIdx 2, 2 ≤ p.2 := by
    intro p hp
    exact List.le_snd_of_mem_zipIdx hp
  have h1 : (2 : Int) ≤ precWeights arr f := by
    simp only [precWeights, if_neg (show f ≠ 1 by omega)]
    exact (fold_ge _ _ f hidx).1 (.inl (by rw [List.zipIdx_map_fst]; exact hfa))
  have h0 : g ≠ 1 → precWeights arr g = 0 := by
    intro hg1
    simp only [precWeights, if_neg hg1]
    exact (fold_ge _ _ g hidx).2 (by rw [List.zipIdx_map_fst]; exact hga)
  simp only [funCmpW, funCmpBase]
  rw [if_neg (by omega), if_neg (by omega)]
  by_cases hg1 : g = 1
  · rw [if_pos hg1]
  · have h0 := h0 hg1
    rw [if_neg hg1]
    cases hdg : dist g with
    | true => simp [hdf]
    | false =>
      simp only [hdf, qToPart]
      simp only [Bool.false_eq_true, and_true, and_false, if_false, reduceCtorEq]
      rw [if_pos (show f ≤ n by omega)]
      split_ifs <;> first | rfl | omega

/-! ## What the weights say -/

private theorem gen_none {m : WMethod} {force : Bool} {f : Nat} (hf : f ∈ A.syms) :
    (generateWeights A m none force).w f = methodWeights A m (setW (fun _ => 1) 1 1) f := by
  have := mem_syms.1 hf
  simp only [generateWeights]
  rw [if_pos this.2]
  simp only [setW, if_neg (show f ≠ 1 by omega)]
  exact const_other _ _ (.inr (.inr rfl))

/-- **C60.** Methods that depend on the arity: the documented weight, except for the maximal symbol. -/
theorem arity_weights {force : Bool} {f : Nat} (h2 : 2 ≤ f) (hn : f ≤ A.n) :
    (generateWeights A .constantWeight none force).w f = 1 ∧
    (generateWeights A .arityWeight none force).w f = A.ar f + 1 ∧
    (generateWeights A .modArityWeight none force).w f = A.ar f + 4 ∧
    (generateWeights A .aritySqWeight none force).w f = A.ar f ^ 2 + 1 ∧
    (∃ mx, (∀ g, 1 ≤ g → g ≤ A.n → A.ar g ≤ mx) ∧
      (generateWeights A .invArityWeight none force).w f + A.ar f = mx + 1 ∧
      (generateWeights A .invAritySqWeight none force).w f + A.ar f ^ 2 = mx ^ 2 + 1) := by
  have hf : f ∈ A.syms := mem_syms.2 ⟨h2, hn⟩
  simp only [gen_none hf, methodWeights, arityWeights, reduceCtorEq, or_self, if_false, assignAll_mem hf, arityValue, sq, true_and]
  have hle := arity_le_max hf
  refine ⟨maxArity A, ?_, by omega, ?_⟩
  · intro g h1 h2
    have e : maxArity A = (List.range' 1 A.n).foldl (fun c i => max (A.ar i) c) 0 := by
      simp only [maxArity, max_comm]
    rw [e]
    exact (foldl_max_ge A.ar _ 0).2 g (by simp only [List.mem_range'_1]; omega)
  · have := Nat.mul_le_mul hle hle
    omega

private theorem count_spec (p : Nat → Bool) : ∀ (l : List Nat) (c : Nat),
    l.foldl (fun wt j => if p j then wt + 1 else wt) c = c + (l.filter p).length := by
  intro l
  induction l with
  | nil => intro c; rfl
  | cons a l ih =>
    intro c
    rw [List.foldl_cons, ih]
    cases h : p a <;> simp [List.filter_cons, h]; omega

/-- **C60.** Methods that depend on the precedence: the number of smaller (larger) symbols. -/
theorem precedence_weights {force : Bool} {f : Nat} (h2 : 2 ≤ f) (hn : f ≤ A.n) :
    (generateWeights A .precedence none force).w f =
      1 + ((List.range' 2 (A.n - 1)).filter fun g => A.cmp f g = .greater).length ∧
    (generateWeights A .precedenceInv none force).w f =
      1 + ((List.range' 2 (A.n - 1)).filter fun g => A.cmp f g = .lesser).length := by
  have hf : f ∈ A.syms := mem_syms.2 ⟨h2, hn⟩
  simp only [gen_none hf, methodWeights, precedenceWeights, assignAll_mem hf]
  have e1 := count_spec (fun j => decide (A.cmp f j = .greater)) A.syms 1
  have e2 := count_spec (fun j => decide (A.cmp f j = .lesser)) A.syms 1
  simp only [decide_eq_true_eq] at e1 e2
  exact ⟨e1, e2⟩

/-- **C60.** Methods that depend on the number of occurrences: the weights order the symbols by frequency, upwards or
downwards. -/
theorem frequency_weights {force : Bool} {f g : Nat} (hf2 : 2 ≤ f) (hfn : f ≤ A.n) (hg2 : 2 ≤ g) (hgn : g ≤ A.n)
    (hf0 : A.freq f ≠ 0) (hg0 : A.freq g ≠ 0) :
    (generateWeights A .frequency none force).w f = A.freq f ∧
    ((generateWeights A .invFrequency none force).w f ≤ (generateWeights A .invFrequency none force).w g ↔ A.freq g ≤ A.freq f) ∧
    ((generateWeights A .frequencyRank none force).w f ≤ (generateWeights A .frequencyRank none force).w g ↔ A.freq f ≤ A.freq g) ∧
    ((generateWeights A .invFrequencyRank none force).w f ≤ (generateWeights A .invFrequencyRank none force).w g ↔
      A.freq g ≤ A.freq f) ∧
    ((generateWeights A .frequencyRankSq none force).w f ≤ (generateWeights A .frequencyRankSq none force).w g ↔
      A.freq f ≤ A.freq g) ∧
    ((generateWeights A .invFrequencyRankSq none force).w f ≤ (generateWeights A .invFrequencyRankSq none force).w g ↔
      A.freq g ≤ A.freq f) ∧
    ((generateWeights A .invModFreqRank none force).w f ≤ (generateWeights A .invModFreqRank none force).w g ↔
      A.freq g ≤ A.freq f) := by
  have hf : f ∈ A.syms := mem_syms.2 ⟨hf2, hfn⟩
  have hg : g ∈ A.syms := mem_syms.2 ⟨hg2, hgn⟩
  simp only [gen_none hf, gen_none hg, methodWeights, assignAll_mem hf, assignAll_mem hg]
  have h1 := (foldl_max_ge A.freq A.syms 1).1
  have h2 := (foldl_max_ge A.freq A.syms 1).2 f hf
  have h3 := (foldl_max_ge A.freq A.syms 1).2 g hg
  have up : ∀ {fin : Nat → Nat}, (∀ a b, 1 ≤ a → 1 ≤ b → (fin a ≤ fin b ↔ a ≤ b)) → ∀ w,
      (rankLoop (fun f => (A.freq f, 0)) (fun wt _ => wt + 1) fin (sortFreq A) w f ≤
        rankLoop (fun f => (A.freq f, 0)) (fun wt _ => wt + 1) fin (sortFreq A) w g ↔ A.freq f ≤ A.freq g) := by
    intro fin hfin w
    obtain ⟨x, y, e1, e2, h, hx, hy⟩ := rank_order (key := fun f => (A.freq f, 0)) (upd := fun wt _ => wt + 1) (fin := fin) (w := w)
      (le := fun a b => a.1 ≤ b.1 ∧ a.2 = b.2) (by rintro ⟨a, b⟩ ⟨c, d⟩ ⟨p, q⟩ ⟨r, _⟩; simp only at p q r; simp; omega)
      (fun a => ⟨le_refl _, rfl⟩) (fun a b _ => by simp) (fun a b h => h) (sortFreq_nodup (A := A))
      (sortFreq_sorted.imp fun h => ⟨h, rfl⟩) (mem_sortFreq.2 hf) (mem_sortFreq.2 hg)
    rw [e1, e2, hfin x y (hx (by simp [hf0])) (hy (by simp [hg0])), ← h]
    simp
  have down : ∀ {upd : Nat → Nat → Nat} {fin : Nat → Nat}, (∀ a b, 1 ≤ a → 1 ≤ b → (fin a ≤ fin b ↔ a ≤ b)) →
      (∀ a b, a < b → a < upd a b) → (∀ a b, a < b → upd a b ≤ b) → ∀ w,
      (rankLoop (fun f => (A.freq f, 0)) upd fin (sortFreq A).reverse w f ≤
        rankLoop (fun f => (A.freq f, 0)) upd fin (sortFreq A).reverse w g ↔ A.freq g ≤ A.freq f) := by
    intro upd fin hfin hu hb w
    obtain ⟨x, y, e1, e2, h, hx, hy⟩ := rank_order (key := fun f => (A.freq f, 0)) (upd := upd) (fin := fin) (w := w)
      (le := fun a b => b.1 ≤ a.1 ∧ a.2 = b.2) (by rintro ⟨a, b⟩ ⟨c, d⟩ ⟨p, q⟩ ⟨r, _⟩; simp only at p q r; simp; omega)
      (fun a => ⟨le_refl _, rfl⟩) hu hb (List.nodup_reverse.2 (sortFreq_nodup (A := A)))
      (List.pairwise_reverse.2 (sortFreq_sorted.imp fun h => ⟨h, rfl⟩)) (List.mem_reverse.2 (mem_sortFreq.2 hf))
      (List.mem_reverse.2 (mem_sortFreq.2 hg))
    rw [e1, e2, hfin x y (hx (by simp [hf0])) (hy (by simp [hg0])), ← h]
    simp
  have hsq : ∀ a b : Nat, 1 ≤ a → 1 ≤ b → (a * a ≤ b * b ↔ a ≤ b) := fun a b _ _ => Nat.mul_self_le_mul_self_iff
  have hmx : ∀ a b : Nat, 1 ≤ a → 1 ≤ b → (max a 1 ≤ max b 1 ↔ a ≤ b) := by intro a b h1 h2; omega
  have u1 : ∀ a b : Nat, a < b → a < a + 1 := fun a b _ => by omega
  have u2 : ∀ a b : Nat, a < b → a + 1 ≤ b := fun a b h => by omega
  refine ⟨by omega, by omega, up hmx _, down hmx u1 u2 _, up hsq _, down hsq u1 u2 _, ?_⟩
  exact down (upd := fun _ base => base) (fin := fun wt => wt) (fun a b _ _ => Iff.rfl) (fun a b h => h) (fun a b _ => le_refl _) _

/-- **C60.** `WInvConjFrequencyRank`: symbols without occurrences in conjectures are lightest, among symbols in
conjectures more occurrences there make a symbol lighter, then more occurrences in all axioms do. -/
theorem conjecture_weights {force : Bool} {f g : Nat} (hf2 : 2 ≤ f) (hfn : f ≤ A.n) (hg2 : 2 ≤ g) (hgn : g ≤ A.n)
    (hc : ∀ f, A.conjfreq f < 2147483647) :
    (generateWeights A .invConjFrequencyRank none force).w f ≤ (generateWeights A .invConjFrequencyRank none force).w g ↔
      (A.conjfreq f = 0 ∧ A.conjfreq g ≠ 0) ∨ (A.conjfreq g ≠ 0 ∧ A.conjfreq g < A.conjfreq f) ∨
      (A.conjfreq f = A.conjfreq g ∧ A.freq g ≤ A.freq f) := by
  have hf : f ∈ A.syms := mem_syms.2 ⟨hf2, hfn⟩
  have hg : g ∈ A.syms := mem_syms.2 ⟨hg2, hgn⟩
  simp only [gen_none hf, gen_none hg, methodWeights]
  obtain ⟨x, y, e1, e2, h, _⟩ := rank_order (key := fun f => (A.freq f, A.conjfreq f)) (upd := fun wt _ => wt + 1)
    (fin := fun wt => wt) (w := setW (fun _ => 1) 1 1)
    (le := fun a b => (a.2 = 0 ∧ b.2 ≠ 0) ∨ (b.2 ≠ 0 ∧ b.2 < a.2) ∨ (a.2 = b.2 ∧ b.1 ≤ a.1))
    (by rintro ⟨a, b⟩ ⟨c, d⟩ h1 h2; simp only at h1 h2; simp; omega)
    (fun a => .inr (.inr ⟨rfl, le_refl _⟩)) (fun a b _ => by simp) (fun a b h => h) (sortConj_nodup (A := A))
    (sortConj_sorted.imp fun {a b} h => by
      have h1 := hc a
      have h2 := hc b
      simp only [conjLe] at h
      simp only
      split_ifs at h <;> omega) (mem_sortConj.2 hf) (mem_sortConj.2 hg)
  rw [e1, e2, ← h]

/-! ## Where the weights are not admissible -/

/-- **C60, defect.** A method that gives weight 0 to the maximal symbol does so when that symbol is a constant; the
weights are then not admissible. -/
theorem maximal_constant (hO : TotalCmp A.cmp) {m : WMethod} (hm : zeroTop m = true) {force : Bool} {f : Nat} (hf : Top A f)
    {ar : Nat → Nat} (ha : ar f = 0) :
    (generateWeights A m none force).w f = 0 ∧ ¬ ((generateWeights A m none force).par ar).Admissible := by
  have e : (generateWeights A m none force).w f = 0 := by rw [gen_none hf.1]; exact zeroTop_zero hO hm hf
  refine ⟨e, fun h => ?_⟩
  have h1 := h.w0_pos
  have h2 := h.const f ha
  simp only [KOcb.par] at h1 h2
  omega

namespace WeightEx

/-- `$true`, a unary symbol, two constants, a binary symbol; the precedence made from the order `arr`; how often the
symbols occur. -/
def input (arr : List Nat) (freq : Nat → Nat) : WIn where
  n := 5
  ar f := if f = 2 then 1 else if f = 5 then 2 else 0
  cmp := funCmpW 5 (fun _ => false) (precWeights arr)
  freq := freq
  conjfreq _ := 0

/-- With the default method and the constant 4 largest in the precedence, the comparison is not stable under
substitution: `g(X,X)` is greater than `f(c)`, but `g(d,d)` is smaller. -/
theorem default_not_stable :
    TotalCmp (input [2, 5, 3, 4] fun _ => 1).cmp ∧
    KGt (generateWeights (input [2, 5, 3, 4] fun _ => 1) .noMethod none false) (.app 5 [.var 0, .var 0]) (.app 2 [.app 3 []]) ∧
    KGt (generateWeights (input [2, 5, 3, 4] fun _ => 1) .noMethod none false) (.app 2 [.app 3 []]) (.app 5 [.app 4 [], .app 4 []]) := by
  refine ⟨precWeights_total (by decide) (by decide), ?_, ?_⟩ <;> unfold KGt <;> decide +kernel

/-- With `WFrequencyRankSq` a constant that does not occur gets weight 0, and with `force_kbo_var_weight` so do variables. -/
theorem unused_constant : (generateWeights (input [3, 4, 5, 2] fun f => if f = 4 then 0 else 1) .frequencyRankSq none true).w0 = 0 := by
  decide +kernel

example (m : WMethod) (c : Nat) (force : Bool) (hm : methodVarWeight m (constParam c) ≤ 1) :
    SimplOrder (OverSig (input [3, 4, 5, 2] fun _ => 1).ar fun f => 1 ≤ f)
      (KGt (generateWeights (input [3, 4, 5, 2] fun _ => 1) m (constParam c) force)) := by
  have hg := generated_precedence (n := 5) (dist := fun _ => false) (arr := [3, 4, 5, 2]) (ar := (input [3, 4, 5, 2] fun _ => 1).ar)
    (by decide) (by decide) (by simp)
  refine weights_order_partial ⟨by decide, by decide, fun f h => h, hg.1, fun f g _ => hg.2 f g, ?_, by simp [input], fun _ _ _ _ _ => hm, ?_⟩
  · intro _ _ f hf ht
    have h2 : (2 : Nat) ∈ (input [3, 4, 5, 2] fun _ => 1).syms := by decide
    by_cases e : f = 2
    · subst e; revert hf; decide
    · have := ht.2 2 h2 (Ne.symm e)
      have hgt : ∀ f ∈ (input [3, 4, 5, 2] fun _ => 1).syms, (input [3, 4, 5, 2] fun _ => 1).cmp f 2 ≠ .greater := by decide
      exact hgt f ht.1 this
  · unfold constParam; split <;> simp; omega

example : (generateWeights (input [3, 4, 5, 2] fun f => f) .invArityWeight none true).w 2 = 2 ∧
    (generateWeights (input [3, 4, 5, 2] fun f => f) .precedence none true).w 5 = 3 ∧
    (generateWeights (input [3, 4, 5, 2] fun f => f) .invModFreqRank none true).w 2 = 4 ∧
    (generateWeights (input [3, 4, 5, 2] fun f => f) .invModFreqRankMax0 none true).w 2 = 0 ∧
    (input [3, 4, 5, 2] fun f => f).freq 2 ≠ 0 ∧ Top (input [2, 5, 3, 4] fun f => f) 4 := by
  refine ⟨by decide +kernel, by decide +kernel, by decide +kernel, by decide +kernel, by decide, by decide, by decide⟩

end WeightEx

end Verif.Props
