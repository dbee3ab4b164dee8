import Verif.Orderings.Prec

/-!
# Helper lemmas for C12
-/

namespace Verif.PrecProof
open Verif

variable {D : Nat → Prop} {M M' : Nat → Nat → Cmp}

def ge (M : Nat → Nat → Cmp) (a b : Nat) : Prop := M a b = .greater ∨ M a b = .equal

end Verif.PrecProof

namespace Verif.PrecOrder
open Verif.PrecProof
variable {D : Nat → Prop} {M M' : Nat → Nat → Cmp}

theorem greater_iff (h : PrecOrder D M) {a b : Nat} (ha : D a) (hb : D b) : M a b = .greater ↔ ge M a b ∧ ¬ ge M b a := by
  unfold ge
  rw [h.inv a b ha hb]
  rcases h.ran a b ha hb with h | h | h | h <;> simp [h, Cmp.inv]

theorem lesser_iff (h : PrecOrder D M) {a b : Nat} (ha : D a) (hb : D b) : M a b = .lesser ↔ ¬ ge M a b ∧ ge M b a := by
  unfold ge
  rw [h.inv a b ha hb]
  rcases h.ran a b ha hb with h | h | h | h <;> simp [h, Cmp.inv]

theorem equal_iff (h : PrecOrder D M) {a b : Nat} (ha : D a) (hb : D b) : M a b = .equal ↔ ge M a b ∧ ge M b a := by
  unfold ge
  rw [h.inv a b ha hb]
  rcases h.ran a b ha hb with h | h | h | h <;> simp [h, Cmp.inv]

theorem unc_iff (h : PrecOrder D M) {a b : Nat} (ha : D a) (hb : D b) : M a b = .uncomparable ↔ ¬ ge M a b ∧ ¬ ge M b a := by
  unfold ge
  rw [h.inv a b ha hb]
  rcases h.ran a b ha hb with h | h | h | h <;> simp [h, Cmp.inv]

theorem ge_trans (h : PrecOrder D M) {a b c : Nat} (ha : D a) (hb : D b) (hc : D c) (h1 : ge M a b) (h2 : ge M b c) : ge M a c :=
  h.trans a b c ha hb hc h1 h2

/-- Closed under the composition used by `ocb_trans_compute`. -/
theorem comp (h : PrecOrder D M) {a b c : Nat} (ha : D a) (hb : D b) (hc : D c) {r : Cmp}
    (hr : transRel (M a b) (M b c) = some r) : M a c = r := by
  have t1 := @ge_trans D M h a b c ha hb hc
  have t2 := @ge_trans D M h c b a hc hb ha
  have t3 := @ge_trans D M h b c a hb hc ha
  have t4 := @ge_trans D M h b a c hb ha hc
  have t5 := @ge_trans D M h c a b hc ha hb
  have t6 := @ge_trans D M h a c b ha hc hb
  rcases h.ran a b ha hb with h1 | h1 | h1 | h1 <;> rw [h1] at hr <;> simp only [transRel] at hr
  · simp at hr
  · rw [h.equal_iff ha hb] at h1
    rcases h.ran b c hb hc with h2 | h2 | h2 | h2 <;> rw [h2] at hr <;> simp at hr <;> subst hr
    · rw [h.equal_iff hb hc] at h2; rw [h.equal_iff ha hc]; grind
    · rw [h.greater_iff hb hc] at h2; rw [h.greater_iff ha hc]; grind
    · rw [h.lesser_iff hb hc] at h2; rw [h.lesser_iff ha hc]; grind
  · rw [h.greater_iff ha hb] at h1
    rcases h.ran b c hb hc with h2 | h2 | h2 | h2 <;> rw [h2] at hr <;> simp at hr <;> subst hr
    · rw [h.equal_iff hb hc] at h2; rw [h.greater_iff ha hc]; grind
    · rw [h.greater_iff hb hc] at h2; rw [h.greater_iff ha hc]; grind
  · rw [h.lesser_iff ha hb] at h1
    rcases h.ran b c hb hc with h2 | h2 | h2 | h2 <;> rw [h2] at hr <;> simp at hr <;> subst hr
    · rw [h.equal_iff hb hc] at h2; rw [h.lesser_iff ha hc]; grind
    · rw [h.lesser_iff hb hc] at h2; rw [h.lesser_iff ha hc]; grind

end Verif.PrecOrder

namespace Verif.PrecProof
open Verif
variable {D : Nat → Prop} {M M' : Nat → Nat → Cmp}

/-! ## The least extension by one pair -/

open Classical in
/-- The comparison of a preorder. -/
noncomputable def cmpOf (g : Nat → Nat → Prop) (a b : Nat) : Cmp :=
  if g a b then (if g b a then .equal else .greater) else if g b a then .lesser else .uncomparable

theorem ge_cmpOf {g : Nat → Nat → Prop} {a b : Nat} : ge (cmpOf g) a b ↔ g a b := by
  unfold ge cmpOf
  by_cases h1 : g a b <;> by_cases h2 : g b a <;> simp [h1, h2]

theorem precOrder_cmpOf {g : Nat → Nat → Prop} (hr : ∀ a, D a → g a a)
    (ht : ∀ a b c, D a → D b → D c → g a b → g b c → g a c) : PrecOrder D (cmpOf g) := by
  refine ⟨fun a ha => by simp [cmpOf, hr a ha], fun a b _ _ => ?_, fun a b _ _ => ?_, fun a b c ha hb hc h1 h2 => ?_⟩
  · unfold cmpOf
    by_cases h1 : g a b <;> by_cases h2 : g b a <;> simp [h1, h2, Cmp.inv]
  · unfold cmpOf
    by_cases h1 : g a b <;> by_cases h2 : g b a <;> simp [h1, h2]
  · exact ge_cmpOf.2 (ht a b c ha hb hc (ge_cmpOf.1 h1) (ge_cmpOf.1 h2))

theorem cmpOf_eq (h : PrecOrder D M) {a b : Nat} (ha : D a) (hb : D b) {g : Nat → Nat → Prop}
    (h1 : ge M a b ↔ g a b) (h2 : ge M b a ↔ g b a) : cmpOf g a b = M a b := by
  unfold cmpOf
  by_cases c1 : g a b <;> by_cases c2 : g b a <;> simp only [c1, c2, if_true, if_false]
  · exact ((h.equal_iff ha hb).2 ⟨h1.2 c1, h2.2 c2⟩).symm
  · exact ((h.greater_iff ha hb).2 ⟨h1.2 c1, fun k => c2 (h2.1 k)⟩).symm
  · exact ((h.lesser_iff ha hb).2 ⟨fun k => c1 (h1.1 k), h2.2 c2⟩).symm
  · exact ((h.unc_iff ha hb).2 ⟨fun k => c1 (h1.1 k), fun k => c2 (h2.1 k)⟩).symm

/-- `≥` after adding `x ≥ y`, and `y ≥ x` if `e`. -/
def addGe (M : Nat → Nat → Cmp) (x y : Nat) (e : Prop) (a b : Nat) : Prop :=
  ge M a b ∨ (ge M a x ∧ ge M y b) ∨ (e ∧ ge M a y ∧ ge M x b)

/-- The extension exists. -/
theorem addGe_spec (h : PrecOrder D M) {x y : Nat} (hx : D x) (hy : D y) (hu : M x y = .uncomparable) (e : Prop) :
    PrecOrder D (cmpOf (addGe M x y e)) ∧ Extends D M (cmpOf (addGe M x y e)) ∧
      (e → cmpOf (addGe M x y e) x y = .equal) ∧ (¬ e → cmpOf (addGe M x y e) x y = .greater) := by
  obtain ⟨u1, u2⟩ := (h.unc_iff hx hy).1 hu
  have hr : ∀ a, D a → ge M a a := fun a ha => Or.inr (h.refl a ha)
  refine ⟨precOrder_cmpOf (fun a ha => Or.inl (hr a ha)) ?_, ?_, ?_, ?_⟩
  · intro a b c ha hb hc h1 h2
    unfold addGe at *
    have t1 := @PrecOrder.ge_trans D M h a b c ha hb hc
    have t2 := @PrecOrder.ge_trans D M h y b c hy hb hc
    have t3 := @PrecOrder.ge_trans D M h x b c hx hb hc
    have t4 := @PrecOrder.ge_trans D M h a b x ha hb hx
    have t5 := @PrecOrder.ge_trans D M h a b y ha hb hy
    have t6 := @PrecOrder.ge_trans D M h y b x hy hb hx
    have t7 := @PrecOrder.ge_trans D M h x b y hx hb hy
    have t8 := @PrecOrder.ge_trans D M h a x c ha hx hc
    have t9 := @PrecOrder.ge_trans D M h a y c ha hy hc
    grind
  · intro a b ha hb hne
    have t1 := @PrecOrder.ge_trans D M h y a b hy ha hb
    have t2 := @PrecOrder.ge_trans D M h y b a hy hb ha
    have t3 := @PrecOrder.ge_trans D M h y a x hy ha hx
    have t4 := @PrecOrder.ge_trans D M h y b x hy hb hx
    have t5 := @PrecOrder.ge_trans D M h x a b hx ha hb
    have t6 := @PrecOrder.ge_trans D M h x b a hx hb ha
    have t7 := @PrecOrder.ge_trans D M h x a y hx ha hy
    have t8 := @PrecOrder.ge_trans D M h x b y hx hb hy
    have hne' : ge M a b ∨ ge M b a := by
      by_contra hc
      push Not at hc
      exact hne ((h.unc_iff ha hb).2 hc)
    refine cmpOf_eq h ha hb ?_ ?_ <;> unfold addGe <;> grind
  · intro he
    have h1 : addGe M x y e x y := Or.inr (Or.inl ⟨hr x hx, hr y hy⟩)
    have h2 : addGe M x y e y x := Or.inr (Or.inr ⟨he, hr y hy, hr x hx⟩)
    simp [cmpOf, h1, h2]
  · intro he
    have h1 : addGe M x y e x y := Or.inr (Or.inl ⟨hr x hx, hr y hy⟩)
    have h2 : ¬ addGe M x y e y x := by unfold addGe; grind
    simp [cmpOf, h1, h2]

/-- It is the least one. -/
theorem addGe_least {x y : Nat} (hx : D x) (hy : D y) {e : Prop} {T : Nat → Nat → Cmp} (hT : PrecOrder D T)
    (hE : Extends D M T) (hxy : ge T x y) (hyx : e → ge T y x) {a b : Nat} (ha : D a) (hb : D b) (hg : addGe M x y e a b) :
    ge T a b := by
  have ext : ∀ a b, D a → D b → ge M a b → ge T a b := by
    intro a b ha hb hab
    unfold ge
    rw [hE a b ha hb (by rcases hab with h | h <;> rw [h] <;> simp)]
    exact hab
  rcases hg with hg | ⟨h1, h2⟩ | ⟨he, h1, h2⟩
  · exact ext a b ha hb hg
  · exact hT.ge_trans ha hx hb (ext a x ha hx h1) (hT.ge_trans hx hy hb hxy (ext y b hy hb h2))
  · exact hT.ge_trans ha hy hb (ext a y ha hy h1) (hT.ge_trans hy hx hb (hyx he) (ext x b hx hb h2))

/-! ## Basic facts about the code -/

/-- The values a precedence takes. -/
def Proper (r : Cmp) : Prop := r = .uncomparable ∨ r = .equal ∨ r = .greater ∨ r = .lesser

theorem transRel_inv {a b r : Cmp} (hb : Proper b) (h : transRel a b = some r) : transRel b.inv a.inv = some r.inv := by
  revert h
  rcases hb with rfl | rfl | rfl | rfl <;> cases a <;> simp [transRel, Cmp.inv] <;> (intro h; subst h; rfl)

theorem inv_inv (r : Cmp) : r.inv.inv = r := by cases r <;> rfl

section
variable {n : Nat} {dist : Nat → Bool}

/-- The symbols the matrix has a row for. -/
def Dom (n : Nat) (f : Nat) : Prop := 1 ≤ f ∧ f ≤ n

theorem funCmp_unc {M : Nat → Nat → Cmp} {f g : Nat} (hf : Dom n f) (hg : Dom n g) (h : funCmp n dist M f g = .uncomparable) :
    f ≠ g ∧ f ≠ 1 ∧ g ≠ 1 ∧ dist f = dist g ∧ M f g = .uncomparable := by
  unfold funCmp funCmpBase funCmpMatrix at h
  rw [if_pos hf.2, if_pos hg.2] at h
  split_ifs at h <;> simp_all
  cases hd : dist f <;> cases hd' : dist g <;> simp_all

theorem funCmp_set {M : Nat → Nat → Cmp} {f g : Nat} {r : Cmp} (hf : Dom n f) (hg : Dom n g)
    (h : funCmp n dist M f g = .uncomparable) :
    funCmp n dist (setPair M f g r r.inv) = setPair (funCmp n dist M) f g r r.inv := by
  obtain ⟨h1, h2, h3, h4, -⟩ := funCmp_unc hf hg h
  funext a b
  unfold setPair
  by_cases c1 : a = g ∧ b = f
  · rw [if_pos c1]
    obtain ⟨rfl, rfl⟩ := c1
    simp [funCmp, funCmpBase, funCmpMatrix, hf.2, hg.2, Ne.symm h1, h2, h3, h4]
  · rw [if_neg c1]
    by_cases c2 : a = f ∧ b = g
    · rw [if_pos c2]
      obtain ⟨rfl, rfl⟩ := c2
      simp [funCmp, funCmpBase, funCmpMatrix, hf.2, hg.2, h1, h2, h3, h4]
    · rw [if_neg c2]
      simp [funCmp, funCmpBase, funCmpMatrix, c1, c2]

/-- Undoing a list of changes, newest first. -/
def undoAll : List (Nat × Nat) → (Nat → Nat → Cmp) → (Nat → Nat → Cmp)
  | [], M => M
  | (f, g) :: l, M => undoAll l (setPair M f g .uncomparable .uncomparable)

theorem undoAll_append (a b : List (Nat × Nat)) (M : Nat → Nat → Cmp) : undoAll (a ++ b) M = undoAll b (undoAll a M) := by
  induction a generalizing M with
  | nil => rfl
  | cons x a ih => obtain ⟨f, g⟩ := x; simp only [List.cons_append, undoAll]; exact ih _

/-- `st'` can be backtracked to `st`. -/
def Undo (st' st : PrecSt) : Prop := ∃ l, st'.stack = l ++ st.stack ∧ undoAll l st'.mat = st.mat

theorem Undo.refl (st : PrecSt) : Undo st st := ⟨[], rfl, rfl⟩

theorem Undo.trans {a b c : PrecSt} (h1 : Undo a b) (h2 : Undo b c) : Undo a c := by
  obtain ⟨l1, s1, u1⟩ := h1
  obtain ⟨l2, s2, u2⟩ := h2
  exact ⟨l1 ++ l2, by rw [s1, s2, List.append_assoc], by rw [undoAll_append, u1, u2]⟩

theorem backtrack_undo (l : List (Nat × Nat)) : ∀ (M : Nat → Nat → Cmp) (stk : List (Nat × Nat)),
    precBacktrack (2 * stk.length) M (l ++ stk) = some ⟨undoAll l M, stk⟩ := by
  induction l with
  | nil =>
    intro M stk
    cases stk with
    | nil => rfl
    | cons p stk => obtain ⟨f, g⟩ := p; simp [precBacktrack, undoAll]
  | cons p l ih =>
    intro M stk
    obtain ⟨f, g⟩ := p
    simp only [List.cons_append, precBacktrack, undoAll]
    rw [if_neg (by simp; omega)]
    exact ih _ _

theorem Undo.backtrack {st' st : PrecSt} (h : Undo st' st) : precBacktrack st.sp st'.mat st'.stack = some st := by
  obtain ⟨l, s, u⟩ := h
  rw [s, PrecSt.sp, backtrack_undo, u]

/-! ## The closure computation -/

/-- The number of undecided pairs. -/
def undecided (n : Nat) (c : Nat → Nat → Cmp) : Nat :=
  ((List.range' 1 n).map fun a => (List.range' 1 n).countP fun b => decide (c a b = .uncomparable)).sum

theorem mem_dom {a : Nat} : a ∈ List.range' 1 n ↔ Dom n a := by
  simp [Dom]; omega

theorem sum_le {l : List Nat} {f g : Nat → Nat} (h : ∀ a ∈ l, f a ≤ g a) : (l.map f).sum ≤ (l.map g).sum := by
  induction l with
  | nil => simp
  | cons a l ih =>
    simp only [List.map_cons, List.sum_cons]
    have := h a (by simp)
    have := ih fun b hb => h b (by simp [hb])
    omega

theorem sum_lt {l : List Nat} {f g : Nat → Nat} (h : ∀ a ∈ l, f a ≤ g a) {a : Nat} (ha : a ∈ l) (hlt : f a < g a) :
    (l.map f).sum < (l.map g).sum := by
  induction l with
  | nil => simp at ha
  | cons b l ih =>
    simp only [List.map_cons, List.sum_cons]
    have h1 := h b (by simp)
    have h2 := sum_le fun b hb => h b (List.mem_cons_of_mem _ hb)
    rcases List.mem_cons.1 ha with rfl | ha
    · omega
    · have := ih (fun b hb => h b (by simp [hb])) ha
      omega

theorem countP_lt {l : List Nat} {p q : Nat → Bool} (h : ∀ a ∈ l, p a = true → q a = true) {a : Nat} (ha : a ∈ l) (hp : p a = false)
    (hq : q a = true) : l.countP p < l.countP q := by
  induction l with
  | nil => simp at ha
  | cons b l ih =>
    have h2 : l.countP p ≤ l.countP q := List.countP_mono_left fun c hc => h c (by simp [hc])
    rcases List.mem_cons.1 ha with rfl | ha
    · rw [List.countP_cons_of_neg (by simp [hp]), List.countP_cons_of_pos hq]; omega
    · have := ih (fun c hc => h c (by simp [hc])) ha
      have := h b (by simp)
      by_cases c1 : p b = true
      · rw [List.countP_cons_of_pos c1, List.countP_cons_of_pos (this c1)]; omega
      · rw [List.countP_cons_of_neg c1]
        have : l.countP q ≤ (b :: l).countP q := by rw [List.countP_cons]; omega
        omega

theorem undecided_le {c c' : Nat → Nat → Cmp} (h : Extends (Dom n) c c') : undecided n c' ≤ undecided n c := by
  apply sum_le
  intro a ha
  apply List.countP_mono_left
  intro b hb hu
  simp only [decide_eq_true_eq] at hu ⊢
  by_contra hc
  exact hc (h a b (mem_dom.1 ha) (mem_dom.1 hb) hc ▸ hu)

theorem undecided_lt {c c' : Nat → Nat → Cmp} (h : Extends (Dom n) c c') {x y : Nat} (hx : Dom n x) (hy : Dom n y)
    (h1 : c x y = .uncomparable) (h2 : c' x y ≠ .uncomparable) : undecided n c' < undecided n c := by
  have mono : ∀ a ∈ List.range' 1 n, ∀ b ∈ List.range' 1 n, decide (c' a b = .uncomparable) = true →
      decide (c a b = .uncomparable) = true := by
    intro a ha b hb hu
    simp only [decide_eq_true_eq] at hu ⊢
    by_contra hc
    exact hc (h a b (mem_dom.1 ha) (mem_dom.1 hb) hc ▸ hu)
  apply sum_lt (a := x) (fun a ha => List.countP_mono_left (mono a ha)) (mem_dom.2 hx)
  exact countP_lt (mono x (mem_dom.2 hx)) (mem_dom.2 hy) (by simpa using h2) (by simpa using h1)

theorem undecided_bound (c : Nat → Nat → Cmp) : undecided n c ≤ n * n := by
  have h1 : ∀ l : List Nat, (l.map fun a => (List.range' 1 n).countP fun b => decide (c a b = .uncomparable)).sum ≤ l.length * n := by
    intro l
    induction l with
    | nil => simp
    | cons a l ih =>
      simp only [List.map_cons, List.sum_cons, List.length_cons, Nat.add_mul, Nat.one_mul]
      have := List.countP_le_length (p := fun b => decide (c a b = .uncomparable)) (l := List.range' 1 n)
      simp only [List.length_range'] at this
      omega
  have := h1 (List.range' 1 n)
  rw [List.length_range'] at this
  exact this

/-- The compositions of the pair `(a,b)` with relations of `R` are in `c`. -/
def Processed (n : Nat) (R c : Nat → Nat → Cmp) (a b : Nat) : Prop :=
  (∀ i r, Dom n i → transRel (c a b) (R b i) = some r → c a i = r) ∧
  (∀ i r, Dom n i → transRel (R i a) (c a b) = some r → c i b = r)

/-- What a state reached during the computation satisfies. -/
structure Mid (n : Nat) (R T c : Nat → Nat → Cmp) : Prop where
  lo : Extends (Dom n) R c
  hi : Extends (Dom n) c T
  inv : ∀ a b, Dom n a → Dom n b → c b a = (c a b).inv

/-- New decided pairs are processed. -/
def NewDone (n : Nat) (R c c' : Nat → Nat → Cmp) : Prop :=
  ∀ a b, Dom n a → Dom n b → c a b = .uncomparable → c' a b ≠ .uncomparable → Processed n R c' a b

theorem _root_.Verif.Extends.refl (M : Nat → Nat → Cmp) : Extends D M M := fun _ _ _ _ _ => rfl

theorem _root_.Verif.Extends.trans {A B C : Nat → Nat → Cmp} (h1 : Extends D A B) (h2 : Extends D B C) : Extends D A C := by
  intro a b ha hb h
  rw [h2 a b ha hb (by rw [h1 a b ha hb h]; exact h), h1 a b ha hb h]

theorem transRel_ne {a b r : Cmp} (h : transRel a b = some r) : a ≠ .uncomparable ∧ b ≠ .uncomparable ∧ r ≠ .uncomparable := by
  revert h
  cases a <;> cases b <;> simp [transRel] <;> (intro h; subst h; simp)

theorem Processed.mono {R c c' : Nat → Nat → Cmp} (h : Extends (Dom n) c c') {a b : Nat} (ha : Dom n a) (hb : Dom n b)
    (hne : c a b ≠ .uncomparable) (hp : Processed n R c a b) : Processed n R c' a b := by
  refine ⟨fun i r hi hr => ?_, fun i r hi hr => ?_⟩
  · rw [h a b ha hb hne] at hr
    have := hp.1 i r hi hr
    rw [h a i ha hi (by rw [this]; exact (transRel_ne hr).2.2), this]
  · rw [h a b ha hb hne] at hr
    have := hp.2 i r hi hr
    rw [h i b hi hb (by rw [this]; exact (transRel_ne hr).2.2), this]

theorem Processed.swap {R c : Nat → Nat → Cmp} (hR : ∀ a b, Dom n a → Dom n b → R b a = (R a b).inv)
    (hc : ∀ a b, Dom n a → Dom n b → c b a = (c a b).inv) (hR' : ∀ a b, Dom n a → Dom n b → Proper (R a b))
    (hc' : ∀ a b, Dom n a → Dom n b → Proper (c a b)) {a b : Nat} (ha : Dom n a) (hb : Dom n b)
    (h : Processed n R c a b) : Processed n R c b a := by
  refine ⟨fun i r hi hr => ?_, fun i r hi hr => ?_⟩
  · have h1 := transRel_inv (hR' a i ha hi) hr
    rw [← hR a i ha hi, ← hc b a hb ha] at h1
    have := h.2 i _ hi h1
    rw [hc i b hi hb, this, inv_inv]
  · have h1 := transRel_inv (hc' b a hb ha) hr
    rw [← hR i b hi hb, ← hc b a hb ha] at h1
    have := h.1 i _ hi h1
    rw [hc a i ha hi, this, inv_inv]

theorem NewDone.trans {R a b c : Nat → Nat → Cmp} (h1 : NewDone n R a b) (h2 : NewDone n R b c) (he : Extends (Dom n) b c) :
    NewDone n R a c := by
  intro x y hx hy hu hd
  by_cases hb : b x y = .uncomparable
  · exact h2 x y hx hy hb hd
  · exact Processed.mono he hx hy hb (h1 x y hx hy hu hb)

abbrev cmpS (n : Nat) (dist : Nat → Bool) (st : PrecSt) : Nat → Nat → Cmp := funCmp n dist st.mat

/-- What a successful call of `addTuple` below a non-empty stack does. -/
def AddSpec (n : Nat) (dist : Nat → Bool) (R T : Nat → Nat → Cmp) (add : PrecSt → Nat → Nat → Cmp → Option (Nat × PrecSt)) (m : Nat) : Prop :=
  ∀ st x y r, Mid n R T (cmpS n dist st) → Dom n x → Dom n y → T x y = r → r ≠ .uncomparable → st.stack ≠ [] →
    undecided n (cmpS n dist st) ≤ m →
    ∃ k st', add st x y r = some (k, st') ∧ k ≠ 0 ∧ Mid n R T (cmpS n dist st') ∧
      Extends (Dom n) (cmpS n dist st) (cmpS n dist st') ∧ cmpS n dist st' x y = r ∧
      NewDone n R (cmpS n dist st) (cmpS n dist st') ∧ Undo st' st

theorem undo_nonempty {st' st : PrecSt} (h : Undo st' st) (hs : st.stack ≠ []) : st'.stack ≠ [] := by
  obtain ⟨l, hl, -⟩ := h
  rw [hl]
  simp [hs]

theorem transCompute_spec {R T : Nat → Nat → Cmp} (hT : PrecOrder (Dom n) T) {add m}
    (hadd : AddSpec n dist R T add m) {st : PrecSt} (hm : Mid n R T (cmpS n dist st)) {f1 f2 f3 : Nat} (h1 : Dom n f1) (h2 : Dom n f2)
    (h3 : Dom n f3) (hs : st.stack ≠ []) (hu : undecided n (cmpS n dist st) ≤ m) :
    ∃ st', transCompute n dist add st f1 f2 f3 = some (true, st') ∧ Mid n R T (cmpS n dist st') ∧
      Extends (Dom n) (cmpS n dist st) (cmpS n dist st') ∧ NewDone n R (cmpS n dist st) (cmpS n dist st') ∧ Undo st' st ∧
      (∀ r, transRel (cmpS n dist st f1 f2) (cmpS n dist st f2 f3) = some r → cmpS n dist st' f1 f3 = r) := by
  unfold transCompute
  cases hr : transRel (cmpS n dist st f1 f2) (cmpS n dist st f2 f3) with
  | none =>
    refine ⟨st, rfl, hm, Extends.refl _, fun a b _ _ hu hd => absurd hu hd, Undo.refl st, ?_⟩
    intro r hc
    simp at hc
  | some r =>
    obtain ⟨n1, n2, n3⟩ := transRel_ne hr
    have hTr : T f1 f3 = r := by
      apply hT.comp h1 h2 h3
      rw [hm.hi f1 f2 h1 h2 n1, hm.hi f2 f3 h2 h3 n2]
      exact hr
    obtain ⟨k, st', e, hk, hm', he, hx, hn, hud⟩ := hadd st f1 f3 r hm h1 h3 hTr n3 hs hu
    refine ⟨st', ?_, hm', he, hn, hud, ?_⟩
    · simp [e, hk]
    · intro r' hr'
      rw [← Option.some.inj hr']
      exact hx

theorem transLoop_spec {R T : Nat → Nat → Cmp} (hT : PrecOrder (Dom n) T) {add m}
    (hadd : AddSpec n dist R T add m) {f1 f2 : Nat} (h1 : Dom n f1) (h2 : Dom n f2) (l : List Nat) : ∀ st : PrecSt,
    (∀ i ∈ l, Dom n i) → Mid n R T (cmpS n dist st) → cmpS n dist st f1 f2 ≠ .uncomparable → st.stack ≠ [] →
    undecided n (cmpS n dist st) ≤ m →
    ∃ st', transLoop n dist add f1 f2 l st = some (true, st') ∧ Mid n R T (cmpS n dist st') ∧
      Extends (Dom n) (cmpS n dist st) (cmpS n dist st') ∧ NewDone n R (cmpS n dist st) (cmpS n dist st') ∧ Undo st' st ∧
      (∀ i ∈ l, (∀ r, transRel (cmpS n dist st f1 f2) (R f2 i) = some r → cmpS n dist st' f1 i = r) ∧
        (∀ r, transRel (R i f1) (cmpS n dist st f1 f2) = some r → cmpS n dist st' i f2 = r)) := by
  induction l with
  | nil =>
    intro st _ hm _ _ _
    exact ⟨st, rfl, hm, Extends.refl _, fun a b _ _ hu hd => absurd hu hd, Undo.refl st, by simp⟩
  | cons i l ih =>
    intro st hl hm hne hs hu
    have hi : Dom n i := hl i (by simp)
    obtain ⟨st1, e1, m1, x1, d1, u1, c1⟩ := transCompute_spec hT hadd hm h1 h2 hi hs hu
    have hu1 := undecided_le x1
    obtain ⟨st2, e2, m2, x2, d2, u2, c2⟩ := transCompute_spec hT hadd m1 hi h1 h2 (undo_nonempty u1 hs) (by omega)
    have hu2 := undecided_le x2
    have f12 : cmpS n dist st1 f1 f2 = cmpS n dist st f1 f2 := x1 f1 f2 h1 h2 hne
    have f12' : cmpS n dist st2 f1 f2 = cmpS n dist st f1 f2 := (x1.trans x2) f1 f2 h1 h2 hne
    obtain ⟨st3, e3, m3, x3, d3, u3, c3⟩ := ih st2 (fun j hj => hl j (by simp [hj])) m2 (by rw [f12']; exact hne)
      (undo_nonempty u2 (undo_nonempty u1 hs)) (by omega)
    refine ⟨st3, ?_, m3, x1.trans (x2.trans x3), (d1.trans d2 x2).trans d3 x3, u3.trans (u2.trans u1), ?_⟩
    · simp only [transLoop, e1, e2, e3]
    · intro j hj
      rcases List.mem_cons.1 hj with rfl | hj
      · refine ⟨fun r hr => ?_, fun r hr => ?_⟩
        · have n2 := (transRel_ne hr).2.1
          have := c1 r (by rw [hm.lo f2 j h2 hi n2]; exact hr)
          rw [(x2.trans x3) f1 j h1 hi (by rw [this]; exact (transRel_ne hr).2.2), this]
        · have n2 := (transRel_ne hr).1
          have := c2 r (by rw [m1.lo j f1 hi h1 n2, f12]; exact hr)
          rw [x3 j f2 hi h2 (by rw [this]; exact (transRel_ne hr).2.2), this]
      · have := c3 j hj
        rw [f12'] at this
        exact this

theorem Mid.proper {R T c : Nat → Nat → Cmp} (hT : PrecOrder (Dom n) T) (h : Mid n R T c) : ∀ a b, Dom n a → Dom n b → Proper (c a b) := by
  intro a b ha hb
  by_cases hu : c a b = .uncomparable
  · exact Or.inl hu
  · rw [← h.hi a b ha hb hu]; exact hT.ran a b ha hb

theorem mid_set {R T : Nat → Nat → Cmp} (hT : PrecOrder (Dom n) T) {st : PrecSt} (hm : Mid n R T (cmpS n dist st)) {x y : Nat}
    (hx : Dom n x) (hy : Dom n y) {r : Cmp} (hxy : T x y = r) (hne : cmpS n dist st x y = .uncomparable) (stk) :
    Mid n R T (cmpS n dist ⟨setPair st.mat x y r r.inv, stk⟩) ∧
    Extends (Dom n) (cmpS n dist st) (cmpS n dist ⟨setPair st.mat x y r r.inv, stk⟩) ∧
    cmpS n dist ⟨setPair st.mat x y r r.inv, stk⟩ x y = r ∧
    (∀ a b, cmpS n dist st a b = .uncomparable → cmpS n dist ⟨setPair st.mat x y r r.inv, stk⟩ a b ≠ .uncomparable →
      (a = x ∧ b = y) ∨ (a = y ∧ b = x)) := by
  have he : cmpS n dist ⟨setPair st.mat x y r r.inv, stk⟩ = setPair (cmpS n dist st) x y r r.inv := funCmp_set hx hy hne
  have hyx : cmpS n dist st y x = .uncomparable := by rw [hm.inv x y hx hy, hne]; rfl
  have hd := (funCmp_unc hx hy hne).1
  rw [he]
  refine ⟨⟨?_, ?_, ?_⟩, ?_, ?_, ?_⟩
  · intro a b ha hb hR
    have := hm.lo a b ha hb hR
    unfold setPair
    split
    · next h => obtain ⟨rfl, rfl⟩ := h; rw [hyx] at this; exact absurd this.symm hR
    · split
      · next h => obtain ⟨rfl, rfl⟩ := h; rw [hne] at this; exact absurd this.symm hR
      · exact this
  · intro a b ha hb hc
    unfold setPair at hc ⊢
    split
    · next h => obtain ⟨rfl, rfl⟩ := h; rw [hT.inv b a hb ha, hxy]
    · next h =>
      rw [if_neg h] at hc
      split
      · next h => obtain ⟨rfl, rfl⟩ := h; exact hxy
      · next h => rw [if_neg h] at hc; exact hm.hi a b ha hb hc
  · intro a b ha hb
    unfold setPair
    by_cases c1 : a = x ∧ b = y
    · obtain ⟨rfl, rfl⟩ := c1
      simp [Ne.symm hd]
    · by_cases c2 : a = y ∧ b = x
      · obtain ⟨rfl, rfl⟩ := c2
        simp [inv_inv, Ne.symm hd]
      · rw [if_neg (fun h => c1 ⟨h.2, h.1⟩), if_neg (fun h => c2 ⟨h.2, h.1⟩), if_neg c2, if_neg c1]
        exact hm.inv a b ha hb
  · intro a b ha hb hc
    unfold setPair
    split
    · next h => obtain ⟨rfl, rfl⟩ := h; exact absurd hyx hc
    · split
      · next h => obtain ⟨rfl, rfl⟩ := h; exact absurd hne hc
      · rfl
  · simp [setPair, Ne.symm hd, hd]
  · intro a b hu hc
    unfold setPair at hc
    by_cases c1 : a = x ∧ b = y
    · exact Or.inl c1
    · by_cases c2 : a = y ∧ b = x
      · exact Or.inr c2
      · rw [if_neg c2, if_neg c1] at hc
        exact absurd hu hc

theorem setPair_undo {M : Nat → Nat → Cmp} {x y : Nat} {r r' : Cmp} (h1 : M x y = .uncomparable) (h2 : M y x = .uncomparable) :
    setPair (setPair M x y r r') x y .uncomparable .uncomparable = M := by
  funext a b
  unfold setPair
  by_cases c1 : a = y ∧ b = x
  · rw [if_pos c1, c1.1, c1.2, h2]
  · rw [if_neg c1]
    by_cases c2 : a = x ∧ b = y
    · rw [if_pos c2, c2.1, c2.2, h1]
    · simp only [if_neg c1, if_neg c2]

theorem addTuple_new {R T : Nat → Nat → Cmp} (hR : PrecOrder (Dom n) R) (hT : PrecOrder (Dom n) T) {k m : Nat}
    (hadd : AddSpec n dist R T (addTuple n dist k) m)
    {st : PrecSt} {x y : Nat} {r : Cmp} (hm : Mid n R T (cmpS n dist st)) (hx : Dom n x) (hy : Dom n y) (hxy : T x y = r)
    (hr : r ≠ .uncomparable) (hu : undecided n (cmpS n dist st) ≤ m + 1) (hne : cmpS n dist st x y = .uncomparable) :
    ∃ st', addTuple n dist (k + 1) st x y r = some (1, st') ∧ Mid n R T (cmpS n dist st') ∧
      Extends (Dom n) (cmpS n dist st) (cmpS n dist st') ∧ cmpS n dist st' x y = r ∧
      NewDone n R (cmpS n dist st) (cmpS n dist st') ∧ Undo st' st := by
  obtain ⟨m1, x1, s1, o1⟩ := mid_set hT hm hx hy hxy hne ((x, y) :: st.stack)
  have hlt := undecided_lt x1 hx hy hne (by rw [s1]; exact hr)
  obtain ⟨st2, e2, m2, x2, d2, u2, c2⟩ := transLoop_spec hT hadd hx hy (List.range' 1 n)
    ⟨setPair st.mat x y r r.inv, (x, y) :: st.stack⟩ (fun i hi => mem_dom.1 hi) m1 (by rw [s1]; exact hr) (by simp) (by omega)
  have hyx : cmpS n dist st y x = .uncomparable := by rw [hm.inv x y hx hy, hne]; rfl
  have s2 : cmpS n dist st2 x y = r := by rw [x2 x y hx hy (by rw [s1]; exact hr), s1]
  have hp : Processed n R (cmpS n dist st2) x y := by
    refine ⟨fun i r' hi hr' => ?_, fun i r' hi hr' => ?_⟩
    · exact (c2 i (mem_dom.2 hi)).1 r' (by rw [s1]; rw [s2] at hr'; exact hr')
    · exact (c2 i (mem_dom.2 hi)).2 r' (by rw [s1]; rw [s2] at hr'; exact hr')
  refine ⟨st2, ?_, m2, x1.trans x2, s2, ?_, u2.trans ⟨[(x, y)], rfl, ?_⟩⟩
  · rw [addTuple, if_neg (by rw [show funCmp n dist st.mat x y = .uncomparable from hne]; exact Ne.symm hr),
      if_neg (by rw [show funCmp n dist st.mat x y = .uncomparable from hne]; simp), e2]
  · intro a b ha hb hau had
    by_cases h1 : cmpS n dist ⟨setPair st.mat x y r r.inv, (x, y) :: st.stack⟩ a b = .uncomparable
    · exact d2 a b ha hb h1 had
    · rcases o1 a b hau h1 with ⟨rfl, rfl⟩ | ⟨rfl, rfl⟩
      · exact hp
      · exact hp.swap hR.inv m2.inv hR.ran (m2.proper hT) hx hy
  · simp only [undoAll]
    exact setPair_undo (funCmp_unc hx hy hne).2.2.2.2 (funCmp_unc hy hx hyx).2.2.2.2

theorem addTuple_spec {R T : Nat → Nat → Cmp} (hR : PrecOrder (Dom n) R) (hT : PrecOrder (Dom n) T) (k : Nat) :
    AddSpec n dist R T (addTuple n dist (k + 1)) k := by
  induction k with
  | zero =>
    intro st x y r hm hx hy hxy hr hs hu
    by_cases hc : cmpS n dist st x y = r
    · refine ⟨st.sp, st, by rw [addTuple, if_pos hc], ?_, hm, Extends.refl _, hc, fun a b _ _ hu hd => absurd hu hd, Undo.refl st⟩
      cases h : st.stack with
      | nil => exact absurd h hs
      | cons a l => simp [PrecSt.sp, h]
    · by_cases hn : cmpS n dist st x y = .uncomparable
      · obtain ⟨m1, x1, s1, o1⟩ := mid_set hT hm hx hy hxy hn ((x, y) :: st.stack)
        have hlt := undecided_lt x1 hx hy hn (by rw [s1]; exact hr)
        omega
      · exact absurd ((hm.hi x y hx hy hn).symm.trans hxy) hc
  | succ k ih =>
    intro st x y r hm hx hy hxy hr hs hu
    by_cases hc : cmpS n dist st x y = r
    · refine ⟨st.sp, st, by rw [addTuple, if_pos hc], ?_, hm, Extends.refl _, hc, fun a b _ _ hu hd => absurd hu hd, Undo.refl st⟩
      cases h : st.stack with
      | nil => exact absurd h hs
      | cons a l => simp [PrecSt.sp, h]
    · by_cases hn : cmpS n dist st x y = .uncomparable
      · obtain ⟨st', e, h1, h2, h3, h4, h5⟩ := addTuple_new hR hT ih hm hx hy hxy hr hu hn
        exact ⟨1, st', e, by simp, h1, h2, h3, h4, h5⟩
      · exact absurd ((hm.hi x y hx hy hn).symm.trans hxy) hc

/-- The result of a top-level call is the least extension. -/
theorem addTuple_top {R T : Nat → Nat → Cmp} {st : PrecSt} (hst : cmpS n dist st = R) (hR : PrecOrder (Dom n) R)
    (hT : PrecOrder (Dom n) T) (hE : Extends (Dom n) R T) {x y : Nat} {r : Cmp} (hx : Dom n x) (hy : Dom n y)
    (hr : r = .equal ∨ r = .greater ∨ r = .lesser) (hxy : T x y = r) (hne : R x y = .uncomparable)
    (hleast : ∀ a b, Dom n a → Dom n b → ge T a b → R a b = .uncomparable →
      ((r = .greater ∨ r = .equal) ∧ ge R a x ∧ ge R y b) ∨ ((r = .lesser ∨ r = .equal) ∧ ge R a y ∧ ge R x b))
    (k : Nat) (hk : n * n < k) :
    ∃ st', addTuple n dist k st x y r = some (1, st') ∧ Undo st' st ∧ ∀ a b, Dom n a → Dom n b → cmpS n dist st' a b = T a b := by
  subst hst
  obtain ⟨k', rfl⟩ : ∃ k', k = k' + 1 := ⟨k - 1, by omega⟩
  have hrne : r ≠ .uncomparable := by rcases hr with rfl | rfl | rfl <;> simp
  have hb := undecided_bound (n := n) (cmpS n dist st)
  have hmid : Mid n (cmpS n dist st) T (cmpS n dist st) := ⟨Extends.refl _, hE, hR.inv⟩
  have key : ∃ st', addTuple n dist (k' + 1) st x y r = some (1, st') ∧ Mid n (cmpS n dist st) T (cmpS n dist st') ∧
      Extends (Dom n) (cmpS n dist st) (cmpS n dist st') ∧ cmpS n dist st' x y = r ∧
      NewDone n (cmpS n dist st) (cmpS n dist st) (cmpS n dist st') ∧ Undo st' st := by
    cases k' with
    | zero =>
      obtain ⟨m1, x1, s1, o1⟩ := mid_set hT hmid hx hy hxy hne ((x, y) :: st.stack)
      have hlt := undecided_lt x1 hx hy hne (by rw [s1]; exact hrne)
      omega
    | succ k =>
      exact addTuple_new hR hT (addTuple_spec hR hT k) hmid hx hy hxy hrne (by omega) hne
  obtain ⟨st', e, hm', he, hs, hd, hu⟩ := key
  refine ⟨st', e, hu, ?_⟩
  have hyx : cmpS n dist st y x = .uncomparable := by rw [hR.inv x y hx hy, hne]; rfl
  have hs' : cmpS n dist st' y x = r.inv := by rw [hm'.inv x y hx hy, hs]
  -- a pair `u ≥ v` added between `a ≥ u` and `v ≥ b`
  have step : ∀ u v a b, Dom n u → Dom n v → Dom n a → Dom n b → cmpS n dist st u v = .uncomparable →
      ge (cmpS n dist st') u v → ge (cmpS n dist st) a u → ge (cmpS n dist st) v b → cmpS n dist st' a b ≠ .uncomparable := by
    intro u v a b hu hv ha hb huv hg h1 h2
    have hp := hd u v hu hv huv (by rcases hg with h | h <;> rw [h] <;> simp)
    have h3 : ge (cmpS n dist st') u b := by
      rcases hg with h | h <;> rcases h2 with h2 | h2
      · exact Or.inl (hp.1 b .greater hb (by rw [h, h2]; rfl))
      · exact Or.inl (hp.1 b .greater hb (by rw [h, h2]; rfl))
      · exact Or.inl (hp.1 b .greater hb (by rw [h, h2]; rfl))
      · exact Or.inr (hp.1 b .equal hb (by rw [h, h2]; rfl))
    by_cases hub : cmpS n dist st u b = .uncomparable
    · have hp := hd u b hu hb hub (by rcases h3 with h | h <;> rw [h] <;> simp)
      rcases h3 with h | h <;> rcases h1 with h1 | h1
      · rw [hp.2 a .greater ha (by rw [h, h1]; rfl)]; simp
      · rw [hp.2 a .greater ha (by rw [h, h1]; rfl)]; simp
      · rw [hp.2 a .greater ha (by rw [h, h1]; rfl)]; simp
      · rw [hp.2 a .equal ha (by rw [h, h1]; rfl)]; simp
    · have h4 : ge (cmpS n dist st) u b := by
        unfold ge
        rw [← he u b hu hb hub]; exact h3
      have h5 := hR.ge_trans ha hu hb h1 h4
      rw [he a b ha hb (by rcases h5 with h | h <;> rw [h] <;> simp)]
      rcases h5 with h | h <;> rw [h] <;> simp
  have fwd : ∀ a b, Dom n a → Dom n b → ge T a b → cmpS n dist st' a b ≠ .uncomparable := by
    intro a b ha hb hg
    by_cases hu : cmpS n dist st a b = .uncomparable
    · rcases hleast a b ha hb hg hu with ⟨hr', h1, h2⟩ | ⟨hr', h1, h2⟩
      · exact step x y a b hx hy ha hb hne (by unfold ge; rw [hs]; exact hr') h1 h2
      · refine step y x a b hy hx ha hb hyx ?_ h1 h2
        unfold ge
        rw [hs']
        rcases hr' with rfl | rfl <;> simp [Cmp.inv]
    · rw [he a b ha hb hu]; exact hu
  intro a b ha hb
  by_cases hTu : T a b = .uncomparable
  · by_contra hc
    rw [hTu] at hc
    exact hc ((hm'.hi a b ha hb hc).symm.trans hTu)
  · refine (hm'.hi a b ha hb ?_).symm
    by_cases hg : ge T a b
    · exact fwd a b ha hb hg
    · have hg' : ge T b a := by
        by_contra h
        exact hTu ((hT.unc_iff ha hb).2 ⟨hg, h⟩)
      have := fwd b a hb ha hg'
      intro hc
      rw [hm'.inv a b ha hb, hc] at this
      exact this rfl

end
end Verif.PrecProof
