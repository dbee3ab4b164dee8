import Verif.Orderings.Kbo
import Verif.Orderings.KboOrder

/-!
# The linear comparison against the textbook ordering (helper lemmas for C08)
-/

namespace Verif.KboProof
open Verif Term KboOrder

/-- Number of indices below `n` whose value satisfies `p`. -/
def cnt (p : Int → Bool) (v : Nat → Int) : Nat → Int
  | 0 => 0
  | n + 1 => cnt p v n + (if p (v n) then 1 else 0)

theorem cnt_upd (p : Int → Bool) (v : Nat → Int) (x : Nat) (a : Int) (n : Nat) :
    cnt p (fun i => if i = x then a else v i) n
      = cnt p v n + (if x < n then (if p a then 1 else 0) - (if p (v x) then 1 else 0) else 0) := by
  induction n with
  | zero => simp [cnt]
  | succ n ih =>
    rw [cnt, cnt, ih]
    by_cases h : n = x
    · subst h; simp
    · by_cases h2 : x < n
      · simp [h, h2, show x < n + 1 by omega]; omega
      · simp [h, h2, show ¬ x < n + 1 by omega]

theorem cnt_ext {p : Int → Bool} (h0 : p 0 = false) {v : Nat → Int} {m n : Nat} (hm : m ≤ n) (h : ∀ i, m ≤ i → v i = 0) :
    cnt p v n = cnt p v m := by
  induction n with
  | zero => rw [Nat.le_zero.1 hm]
  | succ n ih =>
    rcases Nat.lt_or_eq_of_le hm with hlt | rfl
    · rw [cnt, ih (by omega), h n (by omega), h0]; simp
    · rfl

theorem cnt_nonneg (p : Int → Bool) (v : Nat → Int) (n : Nat) : 0 ≤ cnt p v n := by
  induction n with
  | zero => simp [cnt]
  | succ n ih => rw [cnt]; split <;> omega

theorem cnt_zero_iff {p : Int → Bool} {v : Nat → Int} {n : Nat} : cnt p v n = 0 ↔ ∀ i < n, p (v i) = false := by
  induction n with
  | zero => simp [cnt]
  | succ n ih =>
    have := cnt_nonneg p v n
    rw [cnt]
    constructor
    · intro h i hi
      cases hp : p (v n) with
      | true => rw [hp] at h; simp at h; omega
      | false =>
        rw [hp] at h
        rcases Nat.lt_or_eq_of_le (Nat.le_of_lt_succ hi) with h1 | rfl
        · exact ih.1 (by simpa using h) i h1
        · exact hp
    · intro h
      rw [ih.2 fun i hi => h i (by omega), h n (by omega)]
      simp

def isPos (x : Int) : Bool := decide (0 < x)
def isNeg (x : Int) : Bool := decide (x < 0)

/-- Work states in which the counters describe the array. -/
structure Clean (b : BalSt) : Prop where
  out : ∀ x, b.maxVar < x → b.vb x = 0
  pos : b.pos = cnt isPos b.vb (b.maxVar + 1)
  neg : b.neg = cnt isNeg b.vb (b.maxVar + 1)

theorem clean_init : Clean BalSt.init := ⟨by simp [BalSt.init], by decide, by decide⟩

theorem clean_reset {b : BalSt} (h : Clean b) : Clean b.reset ∧ b.reset.wb = 0 ∧ ∀ x, b.reset.vb x = 0 := by
  have h0 : ∀ x, b.reset.vb x = 0 := by
    intro x
    simp only [BalSt.reset]
    split
    · rfl
    · exact h.out x (by omega)
  refine ⟨⟨fun x _ => h0 x, ?_, ?_⟩, rfl, h0⟩
  · simp [BalSt.reset, cnt, isPos]
  · simp [BalSt.reset, cnt, isNeg]

theorem clean_inc {b : BalSt} (h : Clean b) (w0 x : Nat) : Clean (b.inc w0 x) ∧ (b.inc w0 x).wb = b.wb + w0 ∧
    ∀ y, (b.inc w0 x).vb y = b.vb y + (if y = x then 1 else 0) := by
  unfold BalSt.inc
  split
  · rename_i hx
    have hx0 := h.out x hx
    refine ⟨⟨?_, ?_, ?_⟩, rfl, ?_⟩
    · intro y hy
      simp only at hy ⊢
      rw [if_neg (by omega)]
      exact h.out y (by omega)
    · simp only
      rw [cnt_upd, if_pos (by omega), hx0, h.pos,
        cnt_ext (p := isPos) rfl (show b.maxVar + 1 ≤ x + 1 by omega) fun i hi => h.out i (by omega)]
      simp [isPos]
    · simp only
      rw [cnt_upd, if_pos (by omega), hx0, h.neg,
        cnt_ext (p := isNeg) rfl (show b.maxVar + 1 ≤ x + 1 by omega) fun i hi => h.out i (by omega)]
      simp [isNeg]
    · intro y
      simp only
      split
      · rename_i he; subst he; rw [hx0]; rfl
      · simp
  · rename_i hx
    refine ⟨⟨?_, ?_, ?_⟩, rfl, ?_⟩
    · intro y hy
      simp only at hy ⊢
      rw [if_neg (by omega)]
      exact h.out y (by omega)
    · simp only
      rw [cnt_upd, if_pos (show x < b.maxVar + 1 by omega), h.pos]
      simp only [isPos]
      congr 1
      by_cases h1 : b.vb x = 0
      · simp [h1]
      · by_cases h2 : 0 < b.vb x
        · simp [h1, h2, show 0 < b.vb x + 1 by omega]
        · simp [h1, h2, show ¬ 0 < b.vb x + 1 by omega]
    · simp only
      rw [cnt_upd, if_pos (show x < b.maxVar + 1 by omega), h.neg]
      simp only [isNeg]
      rw [sub_eq_add_neg]
      congr 1
      by_cases h1 : b.vb x = -1
      · simp [h1]
      · by_cases h2 : b.vb x < 0
        · simp [h1, h2, show b.vb x + 1 < 0 by omega]
        · simp [h1, h2, show ¬ b.vb x + 1 < 0 by omega]
    · intro y
      simp only
      split
      · rename_i he; subst he; rfl
      · simp

theorem clean_dec {b : BalSt} (h : Clean b) (w0 x : Nat) : Clean (b.dec w0 x) ∧ (b.dec w0 x).wb = b.wb - w0 ∧
    ∀ y, (b.dec w0 x).vb y = b.vb y - (if y = x then 1 else 0) := by
  unfold BalSt.dec
  split
  · rename_i hx
    have hx0 := h.out x hx
    refine ⟨⟨?_, ?_, ?_⟩, rfl, ?_⟩
    · intro y hy
      simp only at hy ⊢
      rw [if_neg (by omega)]
      exact h.out y (by omega)
    · simp only
      rw [cnt_upd, if_pos (by omega), hx0, h.pos,
        cnt_ext (p := isPos) rfl (show b.maxVar + 1 ≤ x + 1 by omega) fun i hi => h.out i (by omega)]
      simp [isPos]
    · simp only
      rw [cnt_upd, if_pos (by omega), hx0, h.neg,
        cnt_ext (p := isNeg) rfl (show b.maxVar + 1 ≤ x + 1 by omega) fun i hi => h.out i (by omega)]
      simp [isNeg]
    · intro y
      simp only
      split
      · rename_i he; subst he; rw [hx0]; rfl
      · simp
  · rename_i hx
    refine ⟨⟨?_, ?_, ?_⟩, rfl, ?_⟩
    · intro y hy
      simp only at hy ⊢
      rw [if_neg (by omega)]
      exact h.out y (by omega)
    · simp only
      rw [cnt_upd, if_pos (show x < b.maxVar + 1 by omega), h.pos]
      simp only [isPos]
      rw [sub_eq_add_neg]
      congr 1
      by_cases h1 : b.vb x = 1
      · simp [h1]
      · by_cases h2 : 0 < b.vb x
        · simp [h1, h2, show 1 < b.vb x by omega]
        · simp [h1, h2, show b.vb x ≤ 1 by omega]
    · simp only
      rw [cnt_upd, if_pos (show x < b.maxVar + 1 by omega), h.neg]
      simp only [isNeg]
      congr 1
      by_cases h1 : b.vb x = 0
      · simp [h1]
      · by_cases h2 : b.vb x < 0
        · simp [h1, h2, show b.vb x - 1 < 0 by omega]
        · simp [h1, h2, show ¬ b.vb x - 1 < 0 by omega]
    · intro y
      simp only
      split
      · rename_i he; subst he; rfl
      · simp

theorem neg_zero_iff {b : BalSt} (h : Clean b) : b.neg = 0 ↔ ∀ x, 0 ≤ b.vb x := by
  rw [h.neg, cnt_zero_iff]
  constructor
  · intro h1 x
    by_cases hx : x < b.maxVar + 1
    · have := h1 x hx; simp [isNeg] at this; exact this
    · rw [h.out x (by omega)]
  · intro h1 i _
    simpa [isNeg] using h1 i

theorem pos_zero_iff {b : BalSt} (h : Clean b) : b.pos = 0 ↔ ∀ x, b.vb x ≤ 0 := by
  rw [h.pos, cnt_zero_iff]
  constructor
  · intro h1 x
    by_cases hx : x < b.maxVar + 1
    · have := h1 x hx; simp [isPos] at this; exact this
    · rw [h.out x (by omega)]
  · intro h1 i _
    simpa [isPos] using h1 i

/-- `b'` is `b` shifted by a weight and variable occurrences. -/
structure Shift (b b' : BalSt) (w : Int) (v : Nat → Int) : Prop where
  clean : Clean b'
  wb : b'.wb = b.wb + w
  vb : ∀ x, b'.vb x = b.vb x + v x

theorem clean_wb {b : BalSt} (h : Clean b) (w : Int) : Clean { b with wb := w } := ⟨h.out, h.pos, h.neg⟩

theorem mfyLhs_spec (O : KOcb) (ar : Nat → Nat) (t : Term) {b : BalSt} (h : Clean b) :
    Shift b (mfyLhs O t b) ((O.par ar).wt t) (fun x => t.vars.count x) := by
  induction t using Term.ind generalizing b with
  | hv x =>
    obtain ⟨h1, h2, h3⟩ := clean_inc h O.w0 x
    refine ⟨h1, h2, fun y => ?_⟩
    rw [mfyLhs, h3 y]
    simp only [vars, List.count_singleton]
    by_cases hy : y = x
    · subst hy; simp
    · simp [hy, show ¬ (x = y) from fun e => hy e.symm]
  | ha f ts ih =>
    have key : ∀ (ts : List Term), (∀ t ∈ ts, ∀ {b : BalSt}, Clean b →
        Shift b (mfyLhs O t b) ((O.par ar).wt t) (fun x => t.vars.count x)) → ∀ {b : BalSt}, Clean b →
        Shift b (mfyLhsL O ts b) ((O.par ar).wtL ts) (fun x => (varsL ts).count x) := by
      intro ts
      induction ts with
      | nil => intro _ b h; exact ⟨h, by simp [mfyLhsL, KboPar.wtL], fun x => by simp [mfyLhsL, varsL]⟩
      | cons t ts iht =>
        intro ih b h
        have h1 := iht (fun u hu => ih u (by simp [hu])) h
        have h2 := ih t (by simp) h1.clean
        refine ⟨h2.clean, ?_, fun x => ?_⟩
        · rw [mfyLhsL, h2.wb, h1.wb, KboPar.wtL]; push_cast; omega
        · rw [mfyLhsL, h2.vb, h1.vb, varsL, List.count_append]; push_cast; omega
    have h1 := key ts (fun t ht => ih t ht) (clean_wb h (b.wb + O.w f))
    rw [mfyLhs]
    refine ⟨h1.clean, ?_, fun x => ?_⟩
    · rw [h1.wb, KboPar.wt]; simp only [KOcb.par]; push_cast; omega
    · rw [h1.vb]; simp [vars]

theorem mfyRhs_spec (O : KOcb) (ar : Nat → Nat) (t : Term) {b : BalSt} (h : Clean b) :
    Shift b (mfyRhs O t b) (-((O.par ar).wt t : Int)) (fun x => -(t.vars.count x : Int)) := by
  induction t using Term.ind generalizing b with
  | hv x =>
    obtain ⟨h1, h2, h3⟩ := clean_dec h O.w0 x
    refine ⟨h1, by rw [mfyRhs, h2, KboPar.wt]; simp only [KOcb.par]; omega, fun y => ?_⟩
    rw [mfyRhs, h3 y]
    simp only [vars, List.count_singleton]
    by_cases hy : y = x
    · subst hy; simp; omega
    · simp [hy, show ¬ (x = y) from fun e => hy e.symm]
  | ha f ts ih =>
    have key : ∀ (ts : List Term), (∀ t ∈ ts, ∀ {b : BalSt}, Clean b →
        Shift b (mfyRhs O t b) (-((O.par ar).wt t : Int)) (fun x => -(t.vars.count x : Int))) → ∀ {b : BalSt}, Clean b →
        Shift b (mfyRhsL O ts b) (-((O.par ar).wtL ts : Int)) (fun x => -((varsL ts).count x : Int)) := by
      intro ts
      induction ts with
      | nil => intro _ b h; exact ⟨h, by simp [mfyRhsL, KboPar.wtL], fun x => by simp [mfyRhsL, varsL]⟩
      | cons t ts iht =>
        intro ih b h
        have h1 := iht (fun u hu => ih u (by simp [hu])) h
        have h2 := ih t (by simp) h1.clean
        refine ⟨h2.clean, ?_, fun x => ?_⟩
        · rw [mfyRhsL, h2.wb, h1.wb, KboPar.wtL]; push_cast; omega
        · rw [mfyRhsL, h2.vb, h1.vb, varsL, List.count_append]; push_cast; omega
    have h1 := key ts (fun t ht => ih t ht) (clean_wb h (b.wb - O.w f))
    rw [mfyRhs]
    refine ⟨h1.clean, ?_, fun x => ?_⟩
    · rw [h1.wb, KboPar.wt]; simp only [KOcb.par]; push_cast; omega
    · rw [h1.vb]; simp [vars]

theorem mfyRest_spec (O : KOcb) (ar : Nat → Nat) (ss ts : List Term) (hl : ss.length = ts.length) {b : BalSt} (h : Clean b) :
    Shift b (mfyRest O ss ts b) (((O.par ar).wtL ss : Int) - (O.par ar).wtL ts)
      (fun x => ((varsL ss).count x : Int) - (varsL ts).count x) := by
  induction ss generalizing ts b with
  | nil =>
    obtain rfl : ts = [] := List.length_eq_zero_iff.1 hl.symm
    exact ⟨h, by simp [mfyRest], fun x => by simp [mfyRest]⟩
  | cons s ss ih =>
    cases ts with
    | nil => simp at hl
    | cons t ts =>
      have h1 := mfyLhs_spec O ar s h
      have h2 := mfyRhs_spec O ar t h1.clean
      have h3 := ih ts (by simpa using hl) h2.clean
      rw [mfyRest]
      refine ⟨h3.clean, ?_, fun x => ?_⟩
      · rw [h3.wb, h2.wb, h1.wb, KboPar.wtL, KboPar.wtL]; push_cast; omega
      · rw [h3.vb, h2.vb, h1.vb, varsL, varsL, List.count_append, List.count_append]; push_cast; omega

/-- The answer `r` is the textbook relation of `s` and `t`. -/
def Right (P : KboPar) (r : Cmp) (s t : Term) : Prop :=
  match r with
  | .greater => KBO P s t
  | .lesser => KBO P t s
  | .equal => s = t
  | .uncomparable => s ≠ t ∧ ¬ KBO P s t ∧ ¬ KBO P t s
  | _ => False

/-- `b` holds the difference of `s` and `t`. -/
structure Diff (P : KboPar) (b : BalSt) (s t : Term) : Prop where
  clean : Clean b
  wb : b.wb = (P.wt s : Int) - P.wt t
  vb : ∀ x, b.vb x = (s.vars.count x : Int) - t.vars.count x

/-- No difference so far. -/
structure Zero (b : BalSt) : Prop where
  clean : Clean b
  wb : b.wb = 0
  vb : ∀ x, b.vb x = 0

theorem Diff.neg_iff {P : KboPar} {b : BalSt} {s t : Term} (h : Diff P b s t) : b.neg = 0 ↔ VarCond s t := by
  rw [neg_zero_iff h.clean]
  exact forall_congr' fun x => by rw [h.vb x]; omega

theorem Diff.pos_iff {P : KboPar} {b : BalSt} {s t : Term} (h : Diff P b s t) : b.pos = 0 ↔ VarCond t s := by
  rw [pos_zero_iff h.clean]
  exact forall_congr' fun x => by rw [h.vb x]; omega

theorem zero_of_eq {P : KboPar} {b : BalSt} {s : Term} (h : Diff P b s s) : Zero b :=
  ⟨h.clean, by rw [h.wb]; omega, fun x => by rw [h.vb]; omega⟩

theorem diff_of_zero {P : KboPar} {b : BalSt} (h : Zero b) (s : Term) : Diff P b s s :=
  ⟨h.clean, by rw [h.wb]; omega, fun x => by rw [h.vb]; omega⟩

/-- `wb > 0`: the greater direction is decided by the variable condition. -/
theorem right_g {P : KboPar} {b : BalSt} {s t : Term} (h : Diff P b s t) (hne : s ≠ t) (hg : VarCond s t → KBO P s t)
    (hn : ¬ KBO P t s) : Right P b.gOrN s t := by
  unfold BalSt.gOrN
  split
  · rename_i hb
    exact ⟨hne, fun hk => hb (h.neg_iff.2 (kbo_vars hk)), hn⟩
  · rename_i hb
    exact hg (h.neg_iff.1 (by simpa using hb))

theorem right_l {P : KboPar} {b : BalSt} {s t : Term} (h : Diff P b s t) (hne : s ≠ t) (hg : VarCond t s → KBO P t s)
    (hn : ¬ KBO P s t) : Right P b.lOrN s t := by
  unfold BalSt.lOrN
  split
  · rename_i hb
    exact ⟨hne, hn, fun hk => hb (h.pos_iff.2 (kbo_vars hk))⟩
  · rename_i hb
    exact hg (h.pos_iff.1 (by simpa using hb))

theorem lexGt_append {R : Term → Term → Prop} (pre : List Term) (hR : ∀ s, ¬ R s s) {as bs : List Term}
    (h : LexGt R (pre ++ as) (pre ++ bs)) : LexGt R as bs := by
  induction pre with
  | nil => exact h
  | cons p pre ih =>
    cases h with
    | head _ h => exact absurd h (hR _)
    | tail h => exact ih h

/-- Two applications of the same symbol whose arguments first differ at `s`, `t`. -/
theorem kbo_same_head {P : KboPar} (hP : StrictPrec P.gt) {f : Nat} {pre : List Term} {s t : Term} {ss ts : List Term}
    (hl : ss.length = ts.length) (hne : s ≠ t) :
    KBO P (.app f (pre ++ s :: ss)) (.app f (pre ++ t :: ts)) ↔
      VarCond (.app f (pre ++ s :: ss)) (.app f (pre ++ t :: ts)) ∧
        (P.wt (.app f (pre ++ t :: ts)) < P.wt (.app f (pre ++ s :: ss)) ∨
          P.wt (.app f (pre ++ s :: ss)) = P.wt (.app f (pre ++ t :: ts)) ∧ KBO P s t) := by
  rw [kbo_app_iff]
  constructor
  · rintro ⟨hv, h | ⟨hw, h | ⟨-, h⟩⟩⟩
    · exact ⟨hv, Or.inl h⟩
    · exact absurd h (hP.irrefl f)
    · refine ⟨hv, Or.inr ⟨hw, ?_⟩⟩
      cases lexGt_append pre (fun s => kbo_irrefl hP) h with
      | head _ h => exact h
      | tail _ => exact absurd rfl hne
  · rintro ⟨hv, h | ⟨hw, h⟩⟩
    · exact ⟨hv, Or.inl h⟩
    · exact ⟨hv, Or.inr ⟨hw, Or.inr ⟨rfl, lexGt_of pre hl h⟩⟩⟩

theorem kbo_asymm {P : KboPar} (hP : StrictPrec P.gt) (hA : P.Admissible) {s t : Term} (hs : s.HasAr P.ar)
    (ht : t.HasAr P.ar) (h : KBO P s t) : ¬ KBO P t s :=
  fun h' => kbo_irrefl hP (kbo_trans hP hA hs ht hs h h')

theorem right_ne {P : KboPar} {r : Cmp} {s t : Term} (hP : StrictPrec P.gt) (h : Right P r s t) : r ≠ .equal → s ≠ t := by
  cases r with
  | greater => rintro - rfl; exact kbo_irrefl hP h
  | lesser => rintro - rfl; exact kbo_irrefl hP h
  | equal => intro h; exact absurd rfl h
  | uncomparable => intro _; exact h.1
  | _ => exact h.elim

theorem app_ne {f : Nat} {pre : List Term} {s t : Term} {ss ts : List Term} (hne : s ≠ t) :
    Term.app f (pre ++ s :: ss) ≠ .app f (pre ++ t :: ts) := by
  intro h
  simp only [Term.app.injEq, List.append_cancel_left_eq, List.cons.injEq, true_and] at h
  exact hne h.1

/-- If the last arguments differ, their relation is the relation of the terms. -/
theorem right_last {P : KboPar} (hP : StrictPrec P.gt) {f : Nat} {pre : List Term} {s t : Term} {r : Cmp}
    (hr : Right P r s t) (he : r ≠ .equal) : Right P r (.app f (pre ++ [s])) (.app f (pre ++ [t])) := by
  have hne := right_ne hP hr he
  have hvc : ∀ {s t : Term}, VarCond (.app f (pre ++ [s])) (.app f (pre ++ [t])) → VarCond s t := by
    intro s t h x
    have := h x
    simp only [vars, varsL_append, varsL, List.count_append, List.append_nil] at this
    omega
  have hwt : ∀ s : Term, P.wt (.app f (pre ++ [s])) = P.w f + ((pre.map P.wt).sum + P.wt s) := by
    intro s; rw [KboOrder.wt_app]; simp
  have hback : ∀ {s t : Term}, s ≠ t → KBO P (.app f (pre ++ [s])) (.app f (pre ++ [t])) → KBO P s t := by
    intro s t hne h
    obtain ⟨hv, h | ⟨-, h⟩⟩ := (kbo_same_head (ss := []) (ts := []) hP rfl hne).1 h
    · rw [hwt, hwt] at h
      exact .weight (hvc hv) (by omega)
    · exact h
  cases r with
  | greater => exact kbo_mono hr f pre []
  | lesser => exact kbo_mono hr f pre []
  | equal => exact absurd rfl he
  | uncomparable => exact ⟨app_ne hne, fun h => hr.2.1 (hback hne h), fun h => hr.2.2 (hback (Ne.symm hne) h)⟩
  | _ => exact hr

/-- The decision after the first different argument. -/
theorem right_lex {P : KboPar} (hP : StrictPrec P.gt) (hA : P.Admissible) {f : Nat} {pre : List Term} {s t : Term}
    {ss ts : List Term} {r : Cmp} {b : BalSt} (hs' : s.HasAr P.ar) (ht' : t.HasAr P.ar) (hl : ss.length = ts.length)
    (hr : Right P r s t) (he : r ≠ .equal) (hD : Diff P b (.app f (pre ++ s :: ss)) (.app f (pre ++ t :: ts))) :
    Right P (decideLex b r) (.app f (pre ++ s :: ss)) (.app f (pre ++ t :: ts)) := by
  have hne := right_ne hP hr he
  have hnl : Term.app f (pre ++ s :: ss) ≠ .app f (pre ++ t :: ts) := app_ne hne
  have hsh := kbo_same_head (f := f) (pre := pre) hP hl hne
  have hsh' := kbo_same_head (f := f) (pre := pre) hP hl.symm (Ne.symm hne)
  have hwb := hD.wb
  unfold decideLex
  split
  · refine right_g hD hnl (fun hv => hsh.2 ⟨hv, Or.inl (by omega)⟩) fun h => ?_
    have := kbo_wt_le h
    omega
  · split
    · refine right_l hD hnl (fun hv => hsh'.2 ⟨hv, Or.inl (by omega)⟩) fun h => ?_
      have := kbo_wt_le h
      omega
    · have heq : P.wt (.app f (pre ++ s :: ss)) = P.wt (.app f (pre ++ t :: ts)) := by omega
      split
      · rename_i hc
        rw [hc] at hr
        refine right_g hD hnl (fun hv => hsh.2 ⟨hv, Or.inr ⟨heq, hr⟩⟩) fun h => ?_
        rcases (hsh'.1 h).2 with h | ⟨-, h⟩
        · omega
        · exact kbo_asymm hP hA hs' ht' hr h
      · split
        · rename_i hc
          rw [hc] at hr
          refine right_l hD hnl (fun hv => hsh'.2 ⟨hv, Or.inr ⟨heq.symm, hr⟩⟩) fun h => ?_
          rcases (hsh.1 h).2 with h | ⟨-, h⟩
          · omega
          · exact kbo_asymm hP hA ht' hs' hr h
        · rename_i hg hl
          cases r with
          | greater => exact absurd rfl hg
          | lesser => exact absurd rfl hl
          | equal => exact absurd rfl he
          | uncomparable =>
            refine ⟨hnl, fun h => ?_, fun h => ?_⟩
            · rcases (hsh.1 h).2 with h | ⟨-, h⟩
              · omega
              · exact hr.2.1 h
            · rcases (hsh'.1 h).2 with h | ⟨-, h⟩
              · omega
              · exact hr.2.2 h
          | _ => exact hr

/-- The decision for different head symbols. -/
theorem right_head {O : KOcb} {ar : Nat → Nat} (hO : TotalCmp O.cmp) {f g : Nat} {ss ts : List Term} {b : BalSt}
    (hfg : f ≠ g) (hd : Diff (O.par ar) b (.app f ss) (.app g ts)) :
    Right (O.par ar) (decideHead b (O.cmp f g)) (.app f ss) (.app g ts) := by
  have hP : StrictPrec (O.par ar).gt := hO.tot.toStrictPrec
  have hne : Term.app f ss ≠ .app g ts := by simp [hfg]
  have hwb := hd.wb
  unfold decideHead
  split
  · refine right_g hd hne (fun hv => .weight hv (by omega)) fun h => ?_
    have := kbo_wt_le h
    omega
  · split
    · refine right_l hd hne (fun hv => .weight hv (by omega)) fun h => ?_
      have := kbo_wt_le h
      omega
    · have heq : (O.par ar).wt (.app f ss) = (O.par ar).wt (.app g ts) := by omega
      have hno : ∀ {f g : Nat} {ss ts : List Term}, f ≠ g → (O.par ar).wt (.app f ss) = (O.par ar).wt (.app g ts) →
          O.cmp f g = .greater → ¬ KBO (O.par ar) (.app g ts) (.app f ss) := by
        intro f g ss ts hne hw hc h
        rcases (kbo_app_iff.1 h).2 with h | ⟨-, h | ⟨h, -⟩⟩
        · omega
        · exact hP.irrefl f (hP.trans f g f hc h)
        · exact hne h.symm
      split
      · rename_i hc
        exact right_g hd hne (fun hv => .prec hv heq hc) (hno hfg heq hc)
      · rename_i hc
        have hc' : O.cmp g f = .greater := (hO.tot.total f g hfg).resolve_left hc
        rw [if_pos ((hO.anti f g).2 hc')]
        exact right_l hd hne (fun hv => .prec hv heq.symm hc') (hno (Ne.symm hfg) heq.symm hc')


/-- Main invariant: started with no difference, `kbolincmp` answers correctly and leaves the difference of the two terms. -/
theorem kbolin_spec {O : KOcb} {ar : Nat → Nat} (hO : TotalCmp O.cmp) (hA : (O.par ar).Admissible) (s : Term) :
    ∀ (t : Term) (b : BalSt), s.HasAr ar → t.HasAr ar → Zero b →
      Right (O.par ar) (kbolin O s t b).1 s t ∧ Diff (O.par ar) (kbolin O s t b).2 s t := by
  have hP : StrictPrec (O.par ar).gt := hO.tot.toStrictPrec
  induction s using Term.ind with
  | hv x =>
    intro t b hs ht hb
    cases t with
    | var y =>
      unfold kbolin
      by_cases hxy : x = y
      · subst hxy
        rw [if_pos rfl]
        exact ⟨rfl, diff_of_zero hb _⟩
      · rw [if_neg hxy]
        refine ⟨⟨by simpa using hxy, kbo_var_left hA trivial, kbo_var_left hA trivial⟩, ?_⟩
        obtain ⟨h1, h2, h3⟩ := clean_inc hb.clean O.w0 x
        obtain ⟨h4, h5, h6⟩ := clean_dec h1 O.w0 y
        refine ⟨h4, ?_, fun z => ?_⟩
        · rw [h5, h2, hb.wb]; simp [KboPar.wt, KOcb.par]
        · rw [h6, h3, hb.vb]
          simp only [vars, List.count_singleton]
          by_cases h1 : z = x
          · subst h1
            simp [hxy, show ¬ (y = z) from fun e => hxy e.symm]
          · by_cases h2 : z = y
            · subst h2; simp [h1, hxy]
            · simp [h1, h2, show ¬ (x = z) from fun e => h1 e.symm, show ¬ (y = z) from fun e => h2 e.symm]
    | app g ts =>
      unfold kbolin
      obtain ⟨h1, h2, h3⟩ := clean_inc hb.clean O.w0 x
      have h4 := mfyRhs_spec O ar (.app g ts) h1
      have hd : Diff (O.par ar) (mfyRhs O (.app g ts) (b.inc O.w0 x)) (.var x) (.app g ts) := by
        refine ⟨h4.clean, ?_, fun z => ?_⟩
        · rw [h4.wb, h2, hb.wb, KboPar.wt]; simp only [KOcb.par]; omega
        · rw [h4.vb, h3, hb.vb]
          simp only [vars, List.count_singleton]
          by_cases h1 : z = x
          · subst h1; simp; omega
          · simp [h1, show ¬ (x = z) from fun e => h1 e.symm]
      refine ⟨right_l hd (by simp) (fun hv => ?_) (kbo_var_left hA ht), hd⟩
      rw [kbo_var_right hP hA ht]
      refine ⟨?_, by simp⟩
      have := hv x
      simp only [vars, List.count_singleton_self] at this
      exact List.count_pos_iff.1 (by simp only [vars]; omega)
  | ha f ss ih =>
    intro t b hs ht hb
    cases t with
    | var y =>
      unfold kbolin
      obtain ⟨h1, h2, h3⟩ := clean_dec hb.clean O.w0 y
      have h4 := mfyLhs_spec O ar (.app f ss) h1
      have hd : Diff (O.par ar) (mfyLhs O (.app f ss) (b.dec O.w0 y)) (.app f ss) (.var y) := by
        refine ⟨h4.clean, ?_, fun z => ?_⟩
        · rw [h4.wb, h2, hb.wb, KboPar.wt, KboPar.wt]; simp only [KOcb.par]; omega
        · rw [h4.vb, h3, hb.vb]
          simp only [vars, List.count_singleton]
          by_cases h1 : z = y
          · subst h1; simp; omega
          · simp [h1, show ¬ (y = z) from fun e => h1 e.symm]
      refine ⟨right_g hd (by simp) (fun hv => ?_) (kbo_var_left hA hs), hd⟩
      rw [kbo_var_right hP hA hs]
      refine ⟨?_, by simp⟩
      have := hv y
      simp only [vars, List.count_singleton_self] at this
      exact List.count_pos_iff.1 (by simp only [vars]; omega)
    | app g ts =>
      unfold kbolin
      by_cases hfg : f = g
      · subst hfg
        rw [if_pos rfl]
        have key : ∀ (ss : List Term), (∀ s ∈ ss, ∀ (t : Term) (b : BalSt), s.HasAr ar → t.HasAr ar → Zero b →
            Right (O.par ar) (kbolin O s t b).1 s t ∧ Diff (O.par ar) (kbolin O s t b).2 s t) →
            ∀ (pre ts : List Term) (b : BalSt), ss.length = ts.length → (∀ s ∈ ss, s.HasAr ar) → (∀ t ∈ ts, t.HasAr ar) →
            Zero b → Right (O.par ar) (kbolinL O ss ts b).1 (.app f (pre ++ ss)) (.app f (pre ++ ts)) ∧
              Diff (O.par ar) (kbolinL O ss ts b).2 (.app f (pre ++ ss)) (.app f (pre ++ ts)) := by
          intro ss
          induction ss with
          | nil =>
            intro _ pre ts b hl _ _ hb
            obtain rfl : ts = [] := List.length_eq_zero_iff.1 hl.symm
            unfold kbolinL
            exact ⟨rfl, diff_of_zero hb _⟩
          | cons s ss ihs =>
            intro ih pre ts b hl hss hts hb
            cases ts with
            | nil => simp at hl
            | cons t ts =>
              have hl' : ss.length = ts.length := by simpa using hl
              obtain ⟨hr, hd⟩ := ih s (by simp) t b (hss s (by simp)) (hts t (by simp)) hb
              unfold kbolinL
              by_cases he : (kbolin O s t b).1 = .equal
              · simp only
                rw [if_pos he]
                have hst : s = t := by rw [he] at hr; exact hr
                subst hst
                have := ihs (fun u hu => ih u (by simp [hu])) (pre ++ [s]) ts _ hl' (fun u hu => hss u (by simp [hu]))
                  (fun u hu => hts u (by simp [hu])) (zero_of_eq hd)
                simpa using this
              · simp only
                rw [if_neg he]
                -- the difference after the remaining arguments
                have hD : Diff (O.par ar) (mfyRest O ss ts (kbolin O s t b).2) (.app f (pre ++ s :: ss)) (.app f (pre ++ t :: ts)) := by
                  have h1 := mfyRest_spec O ar ss ts hl' hd.clean
                  refine ⟨h1.clean, ?_, fun x => ?_⟩
                  · rw [h1.wb, hd.wb, wtL_eq, wtL_eq, KboOrder.wt_app, KboOrder.wt_app]
                    simp only [List.map_append, List.map_cons, List.sum_append, List.sum_cons]
                    push_cast; omega
                  · rw [h1.vb, hd.vb]
                    simp only [vars, varsL_append, varsL, List.count_append]
                    push_cast; omega
                by_cases hnil : ss = []
                · rw [if_pos hnil]
                  subst hnil
                  obtain rfl : ts = [] := List.length_eq_zero_iff.1 hl'.symm
                  have hD' : Diff (O.par ar) (kbolin O s t b).2 (.app f (pre ++ [s])) (.app f (pre ++ [t])) := by
                    simpa [mfyRest] using hD
                  exact ⟨right_last hP hr he, hD'⟩
                · rw [if_neg hnil]
                  exact ⟨right_lex hP hA (hss s (by simp)) (hts t (by simp)) hl' hr he hD, hD⟩
        have := key ss ih [] ts b ((hasAr_app.1 hs).1.trans (hasAr_app.1 ht).1.symm) (hasAr_app.1 hs).2 (hasAr_app.1 ht).2 hb
        simpa using this
      · rw [if_neg hfg]
        have h1 := mfyLhs_spec O ar (.app f ss) hb.clean
        have h2 := mfyRhs_spec O ar (.app g ts) h1.clean
        have hd : Diff (O.par ar) (mfyRhs O (.app g ts) (mfyLhs O (.app f ss) b)) (.app f ss) (.app g ts) := by
          refine ⟨h2.clean, ?_, fun z => ?_⟩
          · rw [h2.wb, h1.wb, hb.wb]; omega
          · rw [h2.vb, h1.vb, hb.vb]; omega
        exact ⟨right_head hO hfg hd, hd⟩

/-! ## The reference version -/

theorem localUpd_spec (O : KOcb) (ar : Nat → Nat) (lhs : Bool) (x : Nat) {b : BalSt} (h : Clean b) :
    Shift b (localUpd O lhs (.var x) b) ((if lhs then 1 else -1) * ((O.par ar).wt (.var x) : Int))
      (fun y => (if lhs then 1 else -1) * ((vars (.var x)).count y : Int)) := by
  cases lhs with
  | true => simpa [localUpd, mfyLhs] using mfyLhs_spec O ar (.var x) h
  | false => simpa [localUpd, mfyRhs] using mfyRhs_spec O ar (.var x) h

theorem localUpd_app (O : KOcb) (lhs : Bool) (f : Nat) (ts : List Term) {b : BalSt} (h : Clean b) :
    Shift b (localUpd O lhs (.app f ts) b) ((if lhs then 1 else -1) * (O.w f : Int)) (fun _ => 0) := by
  refine ⟨⟨h.out, h.pos, h.neg⟩, ?_, fun x => by simp [localUpd]⟩
  cases lhs
  · simp [localUpd]; omega
  · simp [localUpd]

theorem mfy6_spec (O : KOcb) (ar : Nat → Nat) (lhs : Bool) (t : Term) {b : BalSt} (h : Clean b) :
    Shift b (mfy6 O lhs t b) ((if lhs then 1 else -1) * ((O.par ar).wt t : Int))
      (fun x => (if lhs then 1 else -1) * (t.vars.count x : Int)) := by
  induction t using Term.ind generalizing b with
  | hv x => rw [mfy6]; exact localUpd_spec O ar lhs x h
  | ha f ts ih =>
    have key : ∀ (ts : List Term), (∀ t ∈ ts, ∀ {b : BalSt}, Clean b →
        Shift b (mfy6 O lhs t b) ((if lhs then 1 else -1) * ((O.par ar).wt t : Int))
          (fun x => (if lhs then 1 else -1) * (t.vars.count x : Int))) → ∀ {b : BalSt}, Clean b →
        Shift b (mfy6L O lhs ts b) ((if lhs then 1 else -1) * ((O.par ar).wtL ts : Int))
          (fun x => (if lhs then 1 else -1) * ((varsL ts).count x : Int)) := by
      intro ts
      induction ts with
      | nil => intro _ b h; exact ⟨h, by simp [mfy6L, KboPar.wtL], fun x => by simp [mfy6L, varsL]⟩
      | cons t ts iht =>
        intro ih b h
        have h1 := ih t (by simp) h
        have h2 := iht (fun u hu => ih u (by simp [hu])) h1.clean
        refine ⟨h2.clean, ?_, fun x => ?_⟩
        · rw [mfy6L, h2.wb, h1.wb, KboPar.wtL]; cases lhs <;> simp <;> omega
        · rw [mfy6L, h2.vb, h1.vb, varsL, List.count_append]; cases lhs <;> simp <;> omega
    have h0 := localUpd_app O lhs f ts h
    have h1 := key ts (fun t ht => ih t ht) h0.clean
    rw [mfy6]
    refine ⟨h1.clean, ?_, fun x => ?_⟩
    · rw [h1.wb, h0.wb, KboPar.wt]; simp only [KOcb.par]; cases lhs <;> simp <;> omega
    · rw [h1.vb, h0.vb]; simp [vars]

theorem mfyC_eq (O : KOcb) (x : Nat) (lhs : Bool) (t : Term) (b : BalSt) :
    mfyC O x lhs t b = (decide (x ∈ t.vars), mfy6 O lhs t b) := by
  induction t using Term.ind generalizing b with
  | hv y => simp [mfyC, mfy6, vars]
  | ha f ts ih =>
    have key : ∀ (ts : List Term), (∀ t ∈ ts, ∀ b, mfyC O x lhs t b = (decide (x ∈ t.vars), mfy6 O lhs t b)) →
        ∀ b, mfyCL O x lhs ts b = (decide (x ∈ varsL ts), mfy6L O lhs ts b) := by
      intro ts
      induction ts with
      | nil => intro _ b; simp [mfyCL, mfy6L, varsL]
      | cons t ts iht =>
        intro ih b
        rw [mfyCL, ih t (by simp), iht fun u hu => ih u (by simp [hu])]
        simp [mfy6L, varsL]
    rw [mfyC, key ts fun t ht => ih t ht]
    simp [mfy6, vars]

/-- The state update for the arguments after the decisive one. -/
def rest6 (O : KOcb) : List Term → List Term → BalSt → BalSt
  | s :: ss, t :: ts, b => rest6 O ss ts (mfy6 O false t (mfy6 O true s b))
  | _, _, b => b

theorem kbo6lex_ne (O : KOcb) (ss ts : List Term) {r : Cmp} (hr : r ≠ .equal) (b : BalSt) :
    kbo6lex O ss ts r b = (r, rest6 O ss ts b) := by
  induction ss generalizing ts b with
  | nil => simp [kbo6lex, rest6]
  | cons s ss ih =>
    cases ts with
    | nil => simp [kbo6lex, rest6]
    | cons t ts => rw [kbo6lex, if_neg hr, ih]; rfl

theorem rest6_spec (O : KOcb) (ar : Nat → Nat) (ss ts : List Term) (hl : ss.length = ts.length) {b : BalSt} (h : Clean b) :
    Shift b (rest6 O ss ts b) (((O.par ar).wtL ss : Int) - (O.par ar).wtL ts)
      (fun x => ((varsL ss).count x : Int) - (varsL ts).count x) := by
  induction ss generalizing ts b with
  | nil =>
    obtain rfl : ts = [] := List.length_eq_zero_iff.1 hl.symm
    exact ⟨h, by simp [rest6], fun x => by simp [rest6]⟩
  | cons s ss ih =>
    cases ts with
    | nil => simp at hl
    | cons t ts =>
      have h1 := mfy6_spec O ar true s h
      have h2 := mfy6_spec O ar false t h1.clean
      have h3 := ih ts (by simpa using hl) h2.clean
      rw [rest6]
      refine ⟨h3.clean, ?_, fun x => ?_⟩
      · rw [h3.wb, h2.wb, h1.wb, KboPar.wtL, KboPar.wtL]; simp; omega
      · rw [h3.vb, h2.vb, h1.vb, varsL, varsL, List.count_append, List.count_append]; simp; omega

theorem decide6_same {O : KOcb} (hO : TotalCmp O.cmp) (f : Nat) (b : BalSt) {r : Cmp}
    (hr : r = .equal ∨ r = .greater ∨ r = .lesser ∨ r = .uncomparable) : decide6 O f f r b = decideLex b r := by
  have h1 : O.cmp f f ≠ .greater := hO.tot.irrefl f
  have h2 : O.cmp f f ≠ .lesser := fun h => h1 ((hO.anti f f).1 h)
  unfold decide6 decideLex
  rcases hr with rfl | rfl | rfl | rfl <;> simp [h1, h2]

theorem decide6_head {O : KOcb} (hO : TotalCmp O.cmp) {f g : Nat} (hfg : f ≠ g) (b : BalSt) (r : Cmp) :
    decide6 O f g r b = decideHead b (O.cmp f g) := by
  unfold decide6 decideHead
  by_cases h : O.cmp f g = .greater
  · simp [h]
  · have hc' : O.cmp f g = .lesser := (hO.anti f g).2 ((hO.tot.total f g hfg).resolve_left h)
    simp [hc']

theorem right_cases {P : KboPar} {r : Cmp} {s t : Term} (h : Right P r s t) :
    r = .equal ∨ r = .greater ∨ r = .lesser ∨ r = .uncomparable := by
  cases r <;> simp_all [Right]

theorem count_var (x z : Nat) : ((vars (.var x)).count z : Int) = if z = x then 1 else 0 := by
  simp only [vars, List.count_singleton]
  by_cases h : z = x
  · subst h; simp
  · simp [h, show ¬ (x = z) from fun e => h e.symm]

theorem kbo6cmp_spec {O : KOcb} {ar : Nat → Nat} (hO : TotalCmp O.cmp) (hA : (O.par ar).Admissible) (s : Term) :
    ∀ (t : Term) (b : BalSt), s.HasAr ar → t.HasAr ar → Zero b →
      Right (O.par ar) (kbo6cmp O s t b).1 s t ∧ Diff (O.par ar) (kbo6cmp O s t b).2 s t := by
  have hP : StrictPrec (O.par ar).gt := hO.tot.toStrictPrec
  induction s using Term.ind with
  | hv x =>
    intro t b hs ht hb
    cases t with
    | var y =>
      unfold kbo6cmp
      obtain ⟨h1, h2, h3⟩ := clean_inc hb.clean O.w0 x
      obtain ⟨h4, h5, h6⟩ := clean_dec h1 O.w0 y
      refine ⟨?_, h4, ?_, fun z => ?_⟩
      · simp only
        split
        · rename_i h; rw [h]; rfl
        · rename_i hxy
          exact ⟨by simpa using hxy, kbo_var_left hA trivial, kbo_var_left hA trivial⟩
      · rw [h5, h2, hb.wb]; simp [KboPar.wt, KOcb.par]
      · rw [h6, h3, hb.vb]
        rw [count_var, count_var]
        omega
    | app g ts =>
      unfold kbo6cmp
      rw [mfyC_eq]
      have h0 := mfy6_spec O ar false (.app g ts) hb.clean
      obtain ⟨h1, h2, h3⟩ := clean_inc h0.clean O.w0 x
      refine ⟨?_, h1, ?_, fun z => ?_⟩
      · have hv := kbo_var_right hP hA (s := .app g ts) (x := x) ht
        simp only [decide_eq_true_eq]
        split
        · rename_i h; exact hv.2 ⟨h, by simp⟩
        · rename_i h; exact ⟨by simp, kbo_var_left hA ht, fun hk => h (hv.1 hk).1⟩
      · simp only [h2, h0.wb, hb.wb]
        rw [show (O.par ar).wt (.var x) = O.w0 from rfl]
        simp; omega
      · simp only [h3, h0.vb, hb.vb]
        rw [count_var]
        simp; omega
  | ha f ss ih =>
    intro t b hs ht hb
    cases t with
    | var y =>
      unfold kbo6cmp
      rw [mfyC_eq]
      have h0 := mfy6_spec O ar true (.app f ss) hb.clean
      obtain ⟨h1, h2, h3⟩ := clean_dec h0.clean O.w0 y
      refine ⟨?_, h1, ?_, fun z => ?_⟩
      · have hv := kbo_var_right hP hA (s := .app f ss) (x := y) hs
        simp only [decide_eq_true_eq]
        split
        · rename_i h; exact hv.2 ⟨h, by simp⟩
        · rename_i h; exact ⟨by simp, fun hk => h (hv.1 hk).1, kbo_var_left hA hs⟩
      · simp only [h2, h0.wb, hb.wb]
        rw [show (O.par ar).wt (.var y) = O.w0 from rfl]
        simp
      · simp only [h3, h0.vb, hb.vb]
        rw [count_var]
        simp
    | app g ts =>
      unfold kbo6cmp
      by_cases hfg : f = g
      · subst hfg
        rw [if_pos rfl]
        -- the answer of the argument loop, before and after the final decision
        have key : ∀ (ss : List Term), (∀ s ∈ ss, ∀ (t : Term) (b : BalSt), s.HasAr ar → t.HasAr ar → Zero b →
            Right (O.par ar) (kbo6cmp O s t b).1 s t ∧ Diff (O.par ar) (kbo6cmp O s t b).2 s t) →
            ∀ (pre ts : List Term) (b : BalSt), ss.length = ts.length → (∀ s ∈ ss, s.HasAr ar) → (∀ t ∈ ts, t.HasAr ar) →
            Zero b → Right (O.par ar) (decide6 O f f (kbo6lex O ss ts .equal b).1 (kbo6lex O ss ts .equal b).2)
                (.app f (pre ++ ss)) (.app f (pre ++ ts)) ∧
              (ss.length = 1 → Right (O.par ar) (kbo6lex O ss ts .equal b).1 (.app f (pre ++ ss)) (.app f (pre ++ ts))) ∧
              Diff (O.par ar) (kbo6lex O ss ts .equal b).2 (.app f (pre ++ ss)) (.app f (pre ++ ts)) := by
          intro ss
          induction ss with
          | nil =>
            intro _ pre ts b hl _ _ hb
            obtain rfl : ts = [] := List.length_eq_zero_iff.1 hl.symm
            rw [show kbo6lex O [] [] .equal b = (.equal, b) by simp [kbo6lex], decide6_same hO f b (Or.inl rfl)]
            refine ⟨?_, by simp, diff_of_zero hb _⟩
            simp [decideLex, hb.wb, Right]
          | cons s ss ihs =>
            intro ih pre ts b hl hss hts hb
            cases ts with
            | nil => simp at hl
            | cons t ts =>
              have hl' : ss.length = ts.length := by simpa using hl
              obtain ⟨hr, hd⟩ := ih s (by simp) t b (hss s (by simp)) (hts t (by simp)) hb
              rw [kbo6lex, if_pos rfl]
              by_cases he : (kbo6cmp O s t b).1 = .equal
              · simp only [he]
                have hst : s = t := by rw [he] at hr; exact hr
                subst hst
                obtain ⟨h1, -, h3⟩ := ihs (fun u hu => ih u (by simp [hu])) (pre ++ [s]) ts _ hl'
                  (fun u hu => hss u (by simp [hu])) (fun u hu => hts u (by simp [hu])) (zero_of_eq hd)
                refine ⟨by simpa using h1, fun h1 => ?_, by simpa using h3⟩
                obtain rfl : ss = [] := by simpa using h1
                obtain rfl : ts = [] := List.length_eq_zero_iff.1 hl'.symm
                simp [kbo6lex, Right]
              · have hD : Diff (O.par ar) (rest6 O ss ts (kbo6cmp O s t b).2) (.app f (pre ++ s :: ss)) (.app f (pre ++ t :: ts)) := by
                  have h1 := rest6_spec O ar ss ts hl' hd.clean
                  refine ⟨h1.clean, ?_, fun x => ?_⟩
                  · rw [h1.wb, hd.wb, wtL_eq, wtL_eq, KboOrder.wt_app, KboOrder.wt_app]
                    simp only [List.map_append, List.map_cons, List.sum_append, List.sum_cons]
                    push_cast; omega
                  · rw [h1.vb, hd.vb]
                    simp only [vars, varsL_append, varsL, List.count_append]
                    push_cast; omega
                simp only
                rw [kbo6lex_ne O ss ts he]
                refine ⟨?_, fun h1 => ?_, hD⟩
                · rw [decide6_same hO f _ (right_cases hr)]
                  exact right_lex hP hA (hss s (by simp)) (hts t (by simp)) hl' hr he hD
                · obtain rfl : ss = [] := by simpa using h1
                  obtain rfl : ts = [] := List.length_eq_zero_iff.1 hl'.symm
                  exact right_last hP hr he
        obtain ⟨h1, h2, h3⟩ := key ss ih [] ts b ((hasAr_app.1 hs).1.trans (hasAr_app.1 ht).1.symm) (hasAr_app.1 hs).2
          (hasAr_app.1 ht).2 hb
        split
        · rename_i h
          exact ⟨by simpa using h2 h, by simpa using h3⟩
        · exact ⟨by simpa using h1, by simpa using h3⟩
      · rw [if_neg hfg]
        have h1 := mfy6_spec O ar true (.app f ss) hb.clean
        have h2 := mfy6_spec O ar false (.app g ts) h1.clean
        have hd : Diff (O.par ar) (mfy6 O false (.app g ts) (mfy6 O true (.app f ss) b)) (.app f ss) (.app g ts) := by
          refine ⟨h2.clean, ?_, fun z => ?_⟩
          · rw [h2.wb, h1.wb, hb.wb]; simp; omega
          · rw [h2.vb, h1.vb, hb.vb]; simp; omega
        refine ⟨?_, hd⟩
        simp only
        rw [decide6_head hO hfg]
        exact right_head hO hfg hd

end Verif.KboProof
