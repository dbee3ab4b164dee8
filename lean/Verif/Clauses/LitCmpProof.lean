import Verif.Clauses.LitCmp
import Verif.Clauses.OrdSpec
import Mathlib.Data.Multiset.UnionInter

/-!
# Lemmas for literal comparison
-/

namespace Verif.LitCmpProof
open Verif

variable {D : Term → Prop} {cmp : Term → Term → Cmp} {gt : Term → Term → Prop}

/-- The characterisation of the multiset extension by multiplicities. -/
theorem mulGt_counts {M N : Multiset Term} (irrefl : ∀ {s}, D s → ¬ gt s s) (trans : ∀ {s t u}, D s → D t → D u → gt s t → gt t u → gt s u)
    (hM : ∀ t ∈ M, D t) (hN : ∀ t ∈ N, D t) (h : MulGt gt M N) :
    M ≠ N ∧ ∀ n, M.count n < N.count n → ∃ m, N.count m < M.count m ∧ gt m n := by
  obtain ⟨X, Y, Z, rfl, rfl, hX, hY⟩ := h
  have key : ∀ (k : Nat) (n : Term), D n → Multiset.card (X.filter fun x => Classical.propDecidable (gt x n) |>.decide) ≤ k → (∃ x ∈ X, gt x n) →
      ∃ m, (Z + Y).count m < (Z + X).count m ∧ gt m n := by
    intro k
    induction k with
    | zero =>
      intro n hn hk ⟨x, hx, hg⟩
      exfalso
      have : x ∈ X.filter fun x => Classical.propDecidable (gt x n) |>.decide := by
        simp [hx, hg]
      rw [Multiset.card_eq_zero.1 (Nat.le_zero.1 hk)] at this
      simp at this
    | succ k ih =>
      intro n hn hk ⟨x, hx, hg⟩
      have hDx : D x := hM x (by simp [hx])
      by_cases hc : (Z + Y).count x < (Z + X).count x
      · exact ⟨x, hc, hg⟩
      · have hxY : x ∈ Y := by
          have : 0 < X.count x := Multiset.count_pos.2 hx
          simp only [Multiset.count_add] at hc
          exact Multiset.count_pos.1 (by omega)
        obtain ⟨x', hx', hg'⟩ := hY x hxY
        have hDx' : D x' := hM x' (by simp [hx'])
        obtain ⟨m, hm1, hm2⟩ := ih x hDx (by
          have hle : (X.filter fun y => Classical.propDecidable (gt y x) |>.decide) ≤
              (X.filter fun y => Classical.propDecidable (gt y n) |>.decide) := by
            rw [Multiset.le_filter]
            refine ⟨Multiset.filter_le _ _, ?_⟩
            intro a ha
            simp only [Multiset.mem_filter, decide_eq_true_eq] at ha ⊢
            exact trans (hM a (by simp [ha.1])) hDx hn ha.2 hg
          have hlt : (X.filter fun y => Classical.propDecidable (gt y x) |>.decide) <
              (X.filter fun y => Classical.propDecidable (gt y n) |>.decide) := by
            refine lt_of_le_of_ne hle fun heq => ?_
            have : x ∈ X.filter fun y => Classical.propDecidable (gt y n) |>.decide := by simp [hx, hg]
            rw [← heq] at this
            simp only [Multiset.mem_filter, decide_eq_true_eq] at this
            exact irrefl hDx this.2
          have := Multiset.card_lt_card hlt
          omega) ⟨x', hx', hg'⟩
        exact ⟨m, hm1, trans (hM m (by
          have : 0 < (Z + X).count m := by omega
          exact Multiset.count_pos.1 this)) hDx hn hm2 hg⟩
  have two : ∀ n, (Z + X).count n < (Z + Y).count n → ∃ m, (Z + Y).count m < (Z + X).count m ∧ gt m n := by
    intro n hn
    have hnY : n ∈ Y := by
      simp only [Multiset.count_add] at hn
      exact Multiset.count_pos.1 (by omega)
    exact key _ n (hN n (by simp [hnY])) le_rfl (hY n hnY)
  refine ⟨fun heq => ?_, two⟩
  have hXY : X = Y := Multiset.add_right_inj.1 heq
  subst hXY
  obtain ⟨x, hx⟩ := Multiset.exists_mem_of_ne_zero hX
  obtain ⟨m, hm, -⟩ := key _ x (hM x (by simp [hx])) le_rfl (hY x hx)
  omega

/-- The condition under which `compare_pos_eqns` answers "greater". -/
def PosGt (gt : Term → Term → Prop) (a b : Lit) : Prop :=
  (gt a.l b.l ∧ gt a.l b.r) ∨ (gt a.r b.l ∧ gt a.r b.r) ∨
  (gt a.l b.l ∧ gt a.r b.r) ∨ (gt a.l b.r ∧ gt a.r b.l) ∨
  (a.l = b.l ∧ gt a.r b.r) ∨ (a.r = b.r ∧ gt a.l b.l) ∨
  (a.l = b.r ∧ gt a.r b.l) ∨ (a.r = b.l ∧ gt a.l b.r)

def SameSides (a b : Lit) : Prop := (a.l = b.l ∧ a.r = b.r) ∨ (a.l = b.r ∧ a.r = b.l)

theorem cmp_cases (h : OrdCmp D cmp gt) {s t : Term} (hs : D s) (ht : D t) :
    (cmp s t = .greater ∧ gt s t ∧ ¬ gt t s ∧ s ≠ t) ∨ (cmp s t = .lesser ∧ gt t s ∧ ¬ gt s t ∧ s ≠ t) ∨
    (cmp s t = .equal ∧ s = t ∧ ¬ gt s t ∧ ¬ gt t s) ∨ (cmp s t = .uncomparable ∧ s ≠ t ∧ ¬ gt s t ∧ ¬ gt t s) := by
  have h1 := h.greater hs ht
  have h2 := h.lesser hs ht
  have h3 := h.equal hs ht
  have h4 := h.unc hs ht
  have h5 := h.irrefl hs
  have h6 := h.irrefl ht
  have h7 := fun a b => h5 (h.trans hs ht hs a b)
  by_cases e : s = t
  · subst e
    simp_all
  · by_cases g : gt s t
    · have : ¬ gt t s := fun g' => h7 g g'
      simp_all
    · by_cases g' : gt t s
      · simp_all
      · simp_all

theorem posGt_asymm (h : OrdCmp D cmp gt) {a b : Lit} (ha : a.In D) (hb : b.In D) (h1 : PosGt gt a b) : ¬ PosGt gt b a := by
  obtain ⟨pa, al, ar⟩ := a
  obtain ⟨pb, bl, br⟩ := b
  obtain ⟨hal, har⟩ := ha
  obtain ⟨hbl, hbr⟩ := hb
  simp only at hal har hbl hbr
  have t1 := h.trans (s := al) (t := bl) (u := ar) hal hbl har
  have t2 := h.trans (s := al) (t := br) (u := ar) hal hbr har
  have t3 := h.trans (s := ar) (t := bl) (u := al) har hbl hal
  have t4 := h.trans (s := ar) (t := br) (u := al) har hbr hal
  have a1 : gt al bl → ¬ gt bl al := fun x y => h.irrefl hal (h.trans hal hbl hal x y)
  have a2 : gt al br → ¬ gt br al := fun x y => h.irrefl hal (h.trans hal hbr hal x y)
  have a3 : gt ar bl → ¬ gt bl ar := fun x y => h.irrefl har (h.trans har hbl har x y)
  have a4 : gt ar br → ¬ gt br ar := fun x y => h.irrefl har (h.trans har hbr har x y)
  have a5 : gt al ar → ¬ gt ar al := fun x y => h.irrefl hal (h.trans hal har hal x y)
  have i1 := h.irrefl hal
  have i2 := h.irrefl har
  have i3 := h.irrefl hbl
  have i4 := h.irrefl hbr
  clear h hal har hbl hbr
  simp only [PosGt] at h1 ⊢
  rcases h1 with h1 | h1 | h1 | h1 | h1 | h1 | h1 | h1 <;> grind

theorem posGt_not_same (h : OrdCmp D cmp gt) {a b : Lit} (ha : a.In D) (h1 : PosGt gt a b) : ¬ SameSides a b := by
  obtain ⟨pa, al, ar⟩ := a
  obtain ⟨pb, bl, br⟩ := b
  obtain ⟨hal, har⟩ := ha
  simp only at hal har
  have i1 := h.irrefl hal
  have i2 := h.irrefl har
  have a5 : gt al ar → ¬ gt ar al := fun x y => h.irrefl hal (h.trans hal har hal x y)
  clear h hal har
  simp only [PosGt, SameSides] at h1 ⊢
  rcases h1 with h1 | h1 | h1 | h1 | h1 | h1 | h1 | h1 <;> grind

theorem sameSides_symm {a b : Lit} (h : SameSides a b) : SameSides b a := by
  unfold SameSides at *
  rcases h with ⟨h1, h2⟩ | ⟨h1, h2⟩ <;> simp [h1, h2]

/-- The right answer of a comparison: exactly one of the three relations, or none. -/
def Answer (P Q R : Prop) (r : Cmp) : Prop :=
  (r = .greater ∧ P) ∨ (r = .lesser ∧ Q) ∨ (r = .equal ∧ R) ∨ (r = .uncomparable ∧ ¬ P ∧ ¬ Q ∧ ¬ R)

theorem Answer.iffs {P Q R : Prop} {r : Cmp} (h : Answer P Q R r) (h1 : P → ¬ Q) (h2 : P → ¬ R) (h3 : Q → ¬ R) :
    (r = .greater ↔ P) ∧ (r = .lesser ↔ Q) ∧ (r = .equal ↔ R) ∧ (r = .uncomparable ↔ ¬ P ∧ ¬ Q ∧ ¬ R) := by
  rcases h with ⟨rfl, h⟩ | ⟨rfl, h⟩ | ⟨rfl, h⟩ | ⟨rfl, h⟩ <;> simp <;> tauto

theorem comparePosEqns_answer (h : OrdCmp D cmp gt) {a b : Lit} (ha : a.In D) (hb : b.In D) :
    Answer (PosGt gt a b) (PosGt gt b a) (SameSides a b) (comparePosEqns cmp a b) := by
  obtain ⟨pa, al, ar⟩ := a
  obtain ⟨pb, bl, br⟩ := b
  obtain ⟨hal, har⟩ := ha
  obtain ⟨hbl, hbr⟩ := hb
  simp only at hal har hbl hbr
  simp only [comparePosEqns, PosGt, SameSides, Answer]
  have e1 := h.greater hal hbl
  have e2 := h.greater hal hbr
  have e3 := h.greater har hbl
  have e4 := h.greater har hbr
  have e5 := h.lesser hal hbl
  have e6 := h.lesser hal hbr
  have e7 := h.lesser har hbl
  have e8 := h.lesser har hbr
  have e9 := h.equal hal hbl
  have e10 := h.equal hal hbr
  have e11 := h.equal har hbl
  have e12 := h.equal har hbr
  rw [← e1, ← e2, ← e3, ← e4, ← e5, ← e6, ← e7, ← e8, eq_comm (a := bl), eq_comm (a := br), eq_comm (a := br), eq_comm (a := bl),
    ← e9, ← e10, ← e11, ← e12]
  clear e1 e2 e3 e4 e5 e6 e7 e8 e9 e10 e11 e12 h hal har hbl hbr
  split_ifs <;> simp only [false_and, true_and, false_or, or_false] <;> grind (splits := 40)

theorem comparePosEqns_spec (h : OrdCmp D cmp gt) {a b : Lit} (ha : a.In D) (hb : b.In D) :
    (comparePosEqns cmp a b = .greater ↔ PosGt gt a b) ∧ (comparePosEqns cmp a b = .lesser ↔ PosGt gt b a) ∧
    (comparePosEqns cmp a b = .equal ↔ SameSides a b) ∧
    (comparePosEqns cmp a b = .uncomparable ↔ ¬ PosGt gt a b ∧ ¬ PosGt gt b a ∧ ¬ SameSides a b) :=
  (comparePosEqns_answer h ha hb).iffs (posGt_asymm h ha hb) (posGt_not_same h ha)
    fun h1 h2 => posGt_not_same h hb h1 (sameSides_symm h2)

theorem posGt_trans (h : OrdCmp D cmp gt) {a b c : Lit} (ha : a.In D) (hb : b.In D) (hc : c.In D) (h1 : PosGt gt a b)
    (h2 : PosGt gt b c) : PosGt gt a c := by
  obtain ⟨pa, al, ar⟩ := a
  obtain ⟨pb, bl, br⟩ := b
  obtain ⟨pc, cl, cr⟩ := c
  obtain ⟨hal, har⟩ := ha
  obtain ⟨hbl, hbr⟩ := hb
  obtain ⟨hcl, hcr⟩ := hc
  simp only at hal har hbl hbr hcl hcr
  have t1 := h.trans hal hbl hcl
  have t2 := h.trans hal hbl hcr
  have t3 := h.trans hal hbr hcl
  have t4 := h.trans hal hbr hcr
  have t5 := h.trans har hbl hcl
  have t6 := h.trans har hbl hcr
  have t7 := h.trans har hbr hcl
  have t8 := h.trans har hbr hcr
  clear h hal har hbl hbr hcl hcr
  simp only [PosGt] at h1 h2 ⊢
  rcases h1 with h1 | h1 | h1 | h1 | h1 | h1 | h1 | h1 <;>
  rcases h2 with h2 | h2 | h2 | h2 | h2 | h2 | h2 | h2 <;> grind

/-- The condition under which `compare_poseqn_negeqn` answers "greater": one side is greater than both sides of the negative literal. -/
def PNGt (gt : Term → Term → Prop) (a b : Lit) : Prop := (gt a.l b.l ∧ gt a.l b.r) ∨ (gt a.r b.l ∧ gt a.r b.r)

/-- The condition for "lesser": both sides are less than or equal to some side of the negative literal. -/
def PNLt (gt : Term → Term → Prop) (a b : Lit) : Prop :=
  (gt b.l a.l ∨ a.l = b.l ∨ gt b.r a.l ∨ a.l = b.r) ∧ (gt b.l a.r ∨ a.r = b.l ∨ gt b.r a.r ∨ a.r = b.r)

/-- The orientation flag is set for equations that are oriented only. -/
def OrOK (gt : Term → Term → Prop) (L : FLit) : Prop := L.oriented = true → gt L.lit.l L.lit.r

theorem comparePosNeg_answer (h : OrdCmp D cmp gt) {a b : FLit} (ha : a.lit.In D) (hb : b.lit.In D) (ho : OrOK gt a) :
    Answer (PNGt gt a.lit b.lit) (PNLt gt a.lit b.lit) False (comparePosNeg cmp a b) := by
  obtain ⟨⟨pa, al, ar⟩, oa, _⟩ := a
  obtain ⟨⟨pb, bl, br⟩, ob, _⟩ := b
  obtain ⟨hal, har⟩ := ha
  obtain ⟨hbl, hbr⟩ := hb
  simp only [OrOK] at hal har hbl hbr ho
  simp only [comparePosNeg, PNGt, PNLt, Answer]
  have e1 := h.greater hal hbl
  have e2 := h.greater hal hbr
  have e3 := h.greater har hbl
  have e4 := h.greater har hbr
  have e5 := h.lesser hal hbl
  have e6 := h.lesser hal hbr
  have e7 := h.lesser har hbl
  have e8 := h.lesser har hbr
  have e9 := h.equal hal hbl
  have e10 := h.equal hal hbr
  have e11 := h.equal har hbl
  have e12 := h.equal har hbr
  cases oa with
  | false =>
    rw [← e1, ← e2, ← e3, ← e4, ← e5, ← e6, ← e7, ← e8, ← e9, ← e10, ← e11, ← e12]
    clear e1 e2 e3 e4 e5 e6 e7 e8 e9 e10 e11 e12 h hal har hbl hbr ho
    simp only [Bool.false_eq_true, if_false]
    split_ifs <;> simp only [false_and, true_and, false_or, or_false] <;> grind (splits := 40)
  | true =>
    have hg := ho rfl
    have t1 := h.trans hbl hal har
    have t2 := h.trans hbr hal har
    have t3 := h.trans hal har hbl
    have t4 := h.trans hal har hbr
    simp only [if_true]
    clear h hal har hbl hbr ho
    split_ifs <;> simp only [false_and, true_and, false_or, or_false] <;> grind (splits := 40)

theorem pn_asymm (h : OrdCmp D cmp gt) {a b : Lit} (ha : a.In D) (hb : b.In D) (h1 : PNGt gt a b) : ¬ PNLt gt a b := by
  obtain ⟨pa, al, ar⟩ := a
  obtain ⟨pb, bl, br⟩ := b
  obtain ⟨hal, har⟩ := ha
  obtain ⟨hbl, hbr⟩ := hb
  simp only at hal har hbl hbr
  have a1 : gt al bl → ¬ gt bl al := fun x y => h.irrefl hal (h.trans hal hbl hal x y)
  have a2 : gt al br → ¬ gt br al := fun x y => h.irrefl hal (h.trans hal hbr hal x y)
  have a3 : gt ar bl → ¬ gt bl ar := fun x y => h.irrefl har (h.trans har hbl har x y)
  have a4 : gt ar br → ¬ gt br ar := fun x y => h.irrefl har (h.trans har hbr har x y)
  have i1 := h.irrefl hal
  have i2 := h.irrefl har
  have i3 := h.irrefl hbl
  have i4 := h.irrefl hbr
  clear h hal har hbl hbr
  simp only [PNGt, PNLt] at h1 ⊢
  grind

/-- The relation computed by the last part of `LiteralCompare`. -/
def LGt (gt : Term → Term → Prop) (a b : Lit) : Prop :=
  if a.pos = b.pos then PosGt gt a b else if a.pos = true then PNGt gt a b else PNLt gt b a

def LEq (a b : Lit) : Prop := a.pos = b.pos ∧ SameSides a b

theorem answer_inv {P Q R : Prop} {r : Cmp} (h : Answer P Q R r) : Answer Q P R r.inv := by
  unfold Answer at *
  rcases h with ⟨rfl, h⟩ | ⟨rfl, h⟩ | ⟨rfl, h⟩ | ⟨rfl, h⟩ <;> simp [Cmp.inv, h]

theorem litCompareTerms_answer (h : OrdCmp D cmp gt) {a b : FLit} (ha : a.lit.In D) (hb : b.lit.In D) (oa : OrOK gt a) (ob : OrOK gt b) :
    Answer (LGt gt a.lit b.lit) (LGt gt b.lit a.lit) (LEq a.lit b.lit) (litCompareTerms cmp a b) := by
  unfold litCompareTerms LGt LEq
  cases hp : a.lit.pos <;> cases hq : b.lit.pos <;> simp
  · exact comparePosEqns_answer h ha hb
  · exact answer_inv (comparePosNeg_answer h hb ha ob)
  · exact comparePosNeg_answer h ha hb oa
  · exact comparePosEqns_answer h ha hb

theorem lgt_asymm (h : OrdCmp D cmp gt) {a b : Lit} (ha : a.In D) (hb : b.In D) (h1 : LGt gt a b) : ¬ LGt gt b a := by
  unfold LGt at *
  cases hp : a.pos <;> cases hq : b.pos <;> simp [hp, hq] at h1 ⊢
  · exact posGt_asymm h ha hb h1
  · exact fun h2 => pn_asymm h hb ha h2 h1
  · exact pn_asymm h ha hb h1
  · exact posGt_asymm h ha hb h1

theorem lgt_not_leq (h : OrdCmp D cmp gt) {a b : Lit} (ha : a.In D) (h1 : LGt gt a b) : ¬ LEq a b := by
  rintro ⟨hp, h2⟩
  unfold LGt at h1
  rw [if_pos hp] at h1
  exact posGt_not_same h ha h1 h2

theorem leq_symm {a b : Lit} (h : LEq a b) : LEq b a := ⟨h.1.symm, sameSides_symm h.2⟩

theorem litCompareTerms_spec (h : OrdCmp D cmp gt) {a b : FLit} (ha : a.lit.In D) (hb : b.lit.In D) (oa : OrOK gt a) (ob : OrOK gt b) :
    (litCompareTerms cmp a b = .greater ↔ LGt gt a.lit b.lit) ∧ (litCompareTerms cmp a b = .lesser ↔ LGt gt b.lit a.lit) ∧
    (litCompareTerms cmp a b = .equal ↔ LEq a.lit b.lit) ∧
    (litCompareTerms cmp a b = .uncomparable ↔ ¬ LGt gt a.lit b.lit ∧ ¬ LGt gt b.lit a.lit ∧ ¬ LEq a.lit b.lit) :=
  (litCompareTerms_answer h ha hb oa ob).iffs (lgt_asymm h ha hb) (lgt_not_leq h ha)
    fun h1 h2 => lgt_not_leq h hb h1 (leq_symm h2)

theorem lgt_trans (h : OrdCmp D cmp gt) {a b c : Lit} (ha : a.In D) (hb : b.In D) (hc : c.In D) (h1 : LGt gt a b)
    (h2 : LGt gt b c) : LGt gt a c := by
  unfold LGt at *
  have key := posGt_trans h ha hb hc
  obtain ⟨pa, al, ar⟩ := a
  obtain ⟨pb, bl, br⟩ := b
  obtain ⟨pc, cl, cr⟩ := c
  obtain ⟨hal, har⟩ := ha
  obtain ⟨hbl, hbr⟩ := hb
  obtain ⟨hcl, hcr⟩ := hc
  simp only at hal har hbl hbr hcl hcr
  have t1 := h.trans hal hbl hcl
  have t2 := h.trans hal hbl hcr
  have t3 := h.trans hal hbr hcl
  have t4 := h.trans hal hbr hcr
  have t5 := h.trans har hbl hcl
  have t6 := h.trans har hbl hcr
  have t7 := h.trans har hbr hcl
  have t8 := h.trans har hbr hcr
  clear h hal har hbl hbr hcl hcr
  cases pa <;> cases pb <;> cases pc <;> simp at h1 h2 ⊢ <;> try exact key h1 h2
  all_goals clear key
  all_goals simp only [PosGt, PNGt, PNLt] at h1 h2 ⊢
  all_goals grind (splits := 40)

theorem leq_lgt {a b c : Lit} (h1 : LEq a b) (h2 : LGt gt b c) : LGt gt a c := by
  obtain ⟨pa, al, ar⟩ := a
  obtain ⟨pb, bl, br⟩ := b
  obtain ⟨pc, cl, cr⟩ := c
  obtain ⟨h1, h3⟩ := h1
  simp only [SameSides] at h1 h3
  subst h1
  rcases h3 with ⟨rfl, rfl⟩ | ⟨rfl, rfl⟩
  · exact h2
  · simp only [LGt, PosGt, PNGt, PNLt] at *
    split_ifs at * <;> grind

theorem lgt_leq {a b c : Lit} (h1 : LGt gt a b) (h2 : LEq b c) : LGt gt a c := by
  obtain ⟨pa, al, ar⟩ := a
  obtain ⟨pb, bl, br⟩ := b
  obtain ⟨pc, cl, cr⟩ := c
  obtain ⟨h2, h3⟩ := h2
  simp only [SameSides] at h2 h3
  subst h2
  rcases h3 with ⟨rfl, rfl⟩ | ⟨rfl, rfl⟩
  · exact h1
  · simp only [LGt, PosGt, PNGt, PNLt] at *
    split_ifs at * <;> grind

/-- The converse characterisation. -/
theorem mulGt_of_counts {M N : Multiset Term} (hne : M ≠ N)
    (h : ∀ n, M.count n < N.count n → ∃ m, N.count m < M.count m ∧ gt m n) : MulGt gt M N := by
  refine ⟨M - N, N - M, M ∩ N, ?_, ?_, ?_, ?_⟩
  · ext n; simp only [Multiset.count_add, Multiset.count_sub, Multiset.count_inter]; omega
  · ext n; simp only [Multiset.count_add, Multiset.count_sub, Multiset.count_inter]; omega
  · intro h0
    apply hne
    have hle : ∀ n, M.count n ≤ N.count n := by
      intro n
      have := congrArg (Multiset.count n) h0
      simp only [Multiset.count_sub, Multiset.count_zero] at this
      omega
    ext n
    by_contra hc
    obtain ⟨m, hm, -⟩ := h n (by have := hle n; omega)
    have := hle m
    omega
  · intro y hy
    have : 0 < (N - M).count y := Multiset.count_pos.2 hy
    rw [Multiset.count_sub] at this
    obtain ⟨m, hm, hg⟩ := h y (by omega)
    refine ⟨m, Multiset.count_pos.1 ?_, hg⟩
    rw [Multiset.count_sub]
    omega

theorem count_pair (n a b : Term) : Multiset.count n {a, b} = (if n = a then 1 else 0) + (if n = b then 1 else 0) := by
  rw [Multiset.insert_eq_cons, Multiset.count_cons, Multiset.count_singleton]
  omega

theorem count_quad (n a b : Term) : Multiset.count n {a, a, b, b} = 2 * Multiset.count n {a, b} := by
  simp only [Multiset.insert_eq_cons, Multiset.count_cons, Multiset.count_singleton]
  omega

theorem posGt_counts (h : OrdCmp D cmp gt) {a b : Lit} (ha : a.In D) (hb : b.In D) (h1 : PosGt gt a b) (n : Term)
    (hn : Multiset.count n {a.l, a.r} < Multiset.count n {b.l, b.r}) :
    ∃ m, Multiset.count m {b.l, b.r} < Multiset.count m {a.l, a.r} ∧ gt m n := by
  have h2 := posGt_asymm h ha hb h1
  have h3 := posGt_not_same h ha h1
  obtain ⟨pa, al, ar⟩ := a
  obtain ⟨pb, bl, br⟩ := b
  obtain ⟨hal, har⟩ := ha
  obtain ⟨hbl, hbr⟩ := hb
  simp only [count_pair] at *
  have i1 := h.irrefl hal
  have i2 := h.irrefl har
  have i3 := h.irrefl hbl
  have i4 := h.irrefl hbr
  have a1 : gt al bl → ¬ gt bl al := fun x y => h.irrefl hal (h.trans hal hbl hal x y)
  have a2 : gt al br → ¬ gt br al := fun x y => h.irrefl hal (h.trans hal hbr hal x y)
  have a3 : gt ar bl → ¬ gt bl ar := fun x y => h.irrefl har (h.trans har hbl har x y)
  have a4 : gt ar br → ¬ gt br ar := fun x y => h.irrefl har (h.trans har hbr har x y)
  have t1 := h.trans hal har hbl
  have t2 := h.trans hal har hbr
  have t3 := h.trans har hal hbl
  have t4 := h.trans har hal hbr
  clear h hal har hbl hbr
  by_cases hx : ((if al = bl then 1 else 0) + (if al = br then 1 else 0) < (if al = al then 1 else 0) + (if al = ar then 1 else 0)) ∧ gt al n
  · exact ⟨al, hx⟩
  · by_cases hy : ((if ar = bl then 1 else 0) + (if ar = br then 1 else 0) < (if ar = al then 1 else 0) + (if ar = ar then 1 else 0)) ∧ gt ar n
    · exact ⟨ar, hy⟩
    · exfalso
      simp only [PosGt] at h1
      clear h2
      rcases h1 with h1 | h1 | h1 | h1 | h1 | h1 | h1 | h1 <;> grind (splits := 40)

theorem counts_posGt {a b : Lit} (hne : ({a.l, a.r} : Multiset Term) ≠ {b.l, b.r})
    (h : ∀ n, Multiset.count n {a.l, a.r} < Multiset.count n {b.l, b.r} →
      ∃ m, Multiset.count m {b.l, b.r} < Multiset.count m {a.l, a.r} ∧ gt m n) : PosGt gt a b := by
  obtain ⟨pa, al, ar⟩ := a
  obtain ⟨pb, bl, br⟩ := b
  simp only at *
  have hs : ¬ ((al = bl ∧ ar = br) ∨ (al = br ∧ ar = bl)) := by
    rintro (⟨rfl, rfl⟩ | ⟨rfl, rfl⟩)
    · exact hne rfl
    · exact hne (Multiset.pair_comm _ _)
  clear hne
  have key : ∀ n, Multiset.count n {al, ar} < Multiset.count n {bl, br} →
      (Multiset.count al {bl, br} < Multiset.count al {al, ar} ∧ gt al n) ∨ (Multiset.count ar {bl, br} < Multiset.count ar {al, ar} ∧ gt ar n) := by
    intro n hn
    obtain ⟨m, hm, hg⟩ := h n hn
    have hmem : m ∈ ({al, ar} : Multiset Term) := Multiset.count_pos.1 (by omega)
    simp only [Multiset.insert_eq_cons, Multiset.mem_cons, Multiset.mem_singleton] at hmem
    rcases hmem with rfl | rfl
    · exact Or.inl ⟨hm, hg⟩
    · exact Or.inr ⟨hm, hg⟩
  have k1 := key bl
  have k2 := key br
  simp only [count_pair] at k1 k2
  clear key h
  unfold PosGt
  simp only
  by_cases e1 : al = bl <;> by_cases e2 : al = br <;> by_cases e3 : ar = bl <;> by_cases e4 : ar = br <;>
    grind (splits := 40)

theorem mset_pos {a : Lit} (h : a.pos = true) : a.mset = {a.l, a.r} := by simp [Lit.mset, h]
theorem mset_neg {a : Lit} (h : a.pos = false) : a.mset = {a.l, a.l, a.r, a.r} := by simp [Lit.mset, h]

theorem mset_in {a : Lit} (h : a.In D) : ∀ t ∈ a.mset, D t := by
  intro t ht
  obtain ⟨h1, h2⟩ := h
  unfold Lit.mset at ht
  split at ht <;> simp only [Multiset.insert_eq_cons, Multiset.mem_cons, Multiset.mem_singleton] at ht <;> grind

theorem quad_inj {a b c d : Term} (h : ({a, a, b, b} : Multiset Term) = {c, c, d, d}) : ({a, b} : Multiset Term) = {c, d} := by
  ext n
  have := congrArg (Multiset.count n) h
  rw [count_quad, count_quad] at this
  omega

theorem same_mset {a b : Lit} (h : LEq a b) : a.mset = b.mset := by
  obtain ⟨hp, h⟩ := h
  unfold Lit.mset
  rw [hp]
  rcases h with ⟨h1, h2⟩ | ⟨h1, h2⟩
  · rw [h1, h2]
  · rw [h1, h2]
    split
    · exact Multiset.pair_comm _ _
    · ext n
      rw [count_quad, count_quad, Multiset.pair_comm]

theorem mset_same {a b : Lit} (h : a.mset = b.mset) : LEq a b := by
  have hp : a.pos = b.pos := by
    have := congrArg Multiset.card h
    unfold Lit.mset at this
    cases h1 : a.pos <;> cases h2 : b.pos <;> simp [h1, h2] at this ⊢
  refine ⟨hp, ?_⟩
  have h2 : ({a.l, a.r} : Multiset Term) = {b.l, b.r} := by
    cases h1 : a.pos
    · rw [mset_neg h1, mset_neg (hp ▸ h1)] at h
      exact quad_inj h
    · rw [mset_pos h1, mset_pos (hp ▸ h1)] at h
      exact h
  have c1 := congrArg (Multiset.count a.l) h2
  have c2 := congrArg (Multiset.count a.r) h2
  have c3 := congrArg (Multiset.count b.l) h2
  have c4 := congrArg (Multiset.count b.r) h2
  simp only [count_pair] at c1 c2 c3 c4
  unfold SameSides
  grind

theorem pnGt_counts (h : OrdCmp D cmp gt) {a b : Lit} (ha : a.In D) (hb : b.In D) (h1 : PNGt gt a b) (n : Term)
    (hn : Multiset.count n {a.l, a.r} < Multiset.count n {b.l, b.l, b.r, b.r}) :
    ∃ m, Multiset.count m {b.l, b.l, b.r, b.r} < Multiset.count m {a.l, a.r} ∧ gt m n := by
  obtain ⟨pa, al, ar⟩ := a
  obtain ⟨pb, bl, br⟩ := b
  obtain ⟨hal, har⟩ := ha
  obtain ⟨hbl, hbr⟩ := hb
  simp only [count_quad, count_pair] at *
  have i1 := h.irrefl hal
  have i2 := h.irrefl har
  clear h hal har hbl hbr
  rcases h1 with h1 | h1
  · exact ⟨al, by grind, by grind⟩
  · exact ⟨ar, by grind, by grind⟩

theorem pnLt_counts (h : OrdCmp D cmp gt) {a b : Lit} (ha : a.In D) (hb : b.In D) (h1 : PNLt gt a b) (n : Term)
    (hn : Multiset.count n {b.l, b.l, b.r, b.r} < Multiset.count n {a.l, a.r}) :
    ∃ m, Multiset.count m {a.l, a.r} < Multiset.count m {b.l, b.l, b.r, b.r} ∧ gt m n := by
  obtain ⟨pa, al, ar⟩ := a
  obtain ⟨pb, bl, br⟩ := b
  obtain ⟨hal, har⟩ := ha
  obtain ⟨hbl, hbr⟩ := hb
  simp only [count_quad, count_pair, PNLt] at *
  have i1 := h.irrefl hbl
  have i2 := h.irrefl hbr
  have a1 : gt bl al → ¬ gt al bl := fun x y => h.irrefl hal (h.trans hal hbl hal y x)
  clear h hal har hbl hbr
  by_cases hx : gt bl n ∧ bl ≠ al ∨ gt bl n ∧ bl ≠ ar
  · exact ⟨bl, by grind, by grind⟩
  · by_cases hy : gt br n ∧ br ≠ al ∨ gt br n ∧ br ≠ ar
    · exact ⟨br, by grind, by grind⟩
    · exfalso
      grind (splits := 40)

theorem counts_pnLt {a b : Lit}
    (h : ∀ n, Multiset.count n {b.l, b.l, b.r, b.r} < Multiset.count n {a.l, a.r} →
      ∃ m, Multiset.count m {a.l, a.r} < Multiset.count m {b.l, b.l, b.r, b.r} ∧ gt m n) : PNLt gt a b := by
  obtain ⟨pa, al, ar⟩ := a
  obtain ⟨pb, bl, br⟩ := b
  simp only [count_quad] at *
  have key : ∀ n, 2 * Multiset.count n {bl, br} < Multiset.count n {al, ar} → gt bl n ∨ gt br n := by
    intro n hn
    obtain ⟨m, hm, hg⟩ := h n hn
    have hmem : m ∈ ({bl, br} : Multiset Term) := Multiset.count_pos.1 (by omega)
    simp only [Multiset.insert_eq_cons, Multiset.mem_cons, Multiset.mem_singleton] at hmem
    rcases hmem with rfl | rfl
    · exact Or.inl hg
    · exact Or.inr hg
  have k1 := key al
  have k2 := key ar
  simp only [count_pair] at k1 k2
  unfold PNLt
  simp only
  grind

/-- Soundness: the computed relation is contained in the multiset extension. -/
theorem lgt_mulGt (h : OrdCmp D cmp gt) {a b : Lit} (ha : a.In D) (hb : b.In D) (h1 : LGt gt a b) : MulGt gt a.mset b.mset := by
  have hne : a.mset ≠ b.mset := fun he => lgt_not_leq h ha h1 (mset_same he)
  refine mulGt_of_counts hne fun n => ?_
  unfold LGt at h1
  cases hp : a.pos <;> cases hq : b.pos <;> simp only [hp, hq] at h1
  · rw [mset_neg hp, mset_neg hq]
    simp only [count_quad]
    intro hn
    obtain ⟨m, hm, hg⟩ := posGt_counts h ha hb (by simpa using h1) n (by omega)
    exact ⟨m, by omega, hg⟩
  · rw [mset_neg hp, mset_pos hq]
    exact pnLt_counts h hb ha (by simpa using h1) n
  · rw [mset_pos hp, mset_neg hq]
    exact pnGt_counts h ha hb (by simpa using h1) n
  · rw [mset_pos hp, mset_pos hq]
    exact posGt_counts h ha hb (by simpa using h1) n

/-- Completeness, except for a positive literal against a negative one. -/
theorem mulGt_lgt (h : OrdCmp D cmp gt) {a b : Lit} (ha : a.In D) (hb : b.In D) (h1 : MulGt gt a.mset b.mset)
    (hpn : a.pos = b.pos ∨ a.pos = false) : LGt gt a b := by
  obtain ⟨hne, h2⟩ := mulGt_counts h.irrefl h.trans (mset_in ha) (mset_in hb) h1
  unfold LGt
  cases hp : a.pos <;> cases hq : b.pos <;> simp only [hp, hq] at hpn ⊢
  · rw [mset_neg hp, mset_neg hq] at hne h2
    simp only [count_quad] at h2
    simp only [if_true]
    refine counts_posGt (fun he => hne ?_) fun n hn => ?_
    · ext n; rw [count_quad, count_quad, he]
    · obtain ⟨m, hm, hg⟩ := h2 n (by omega)
      exact ⟨m, by omega, hg⟩
  · rw [mset_neg hp, mset_pos hq] at h2
    simpa using counts_pnLt h2
  · simp at hpn
  · rw [mset_pos hp, mset_pos hq] at hne h2
    simpa using counts_posGt hne h2

/-- For an oriented positive literal the comparison with a negative one is complete, too. -/
theorem mulGt_pnGt (h : OrdCmp D cmp gt) {a b : Lit} (ha : a.In D) (hb : b.In D) (h1 : MulGt gt a.mset b.mset)
    (hp : a.pos = true) (hq : b.pos = false) (ho : gt a.l a.r) : PNGt gt a b := by
  obtain ⟨hne, h2⟩ := mulGt_counts h.irrefl h.trans (mset_in ha) (mset_in hb) h1
  rw [mset_pos hp, mset_neg hq] at h2
  obtain ⟨pa, al, ar⟩ := a
  obtain ⟨pb, bl, br⟩ := b
  obtain ⟨hal, har⟩ := ha
  obtain ⟨hbl, hbr⟩ := hb
  simp only [count_quad] at *
  have key : ∀ n, Multiset.count n {al, ar} < 2 * Multiset.count n {bl, br} → gt al n ∨ gt ar n := by
    intro n hn
    obtain ⟨m, hm, hg⟩ := h2 n hn
    have hmem : m ∈ ({al, ar} : Multiset Term) := Multiset.count_pos.1 (by omega)
    simp only [Multiset.insert_eq_cons, Multiset.mem_cons, Multiset.mem_singleton] at hmem
    rcases hmem with rfl | rfl
    · exact Or.inl hg
    · exact Or.inr hg
  have k1 := key bl
  have k2 := key br
  simp only [count_pair] at k1 k2
  have t1 := h.trans hal har hbl ho
  have t2 := h.trans hal har hbr ho
  have i1 := h.irrefl hal
  have i2 := h.irrefl har
  unfold PNGt
  simp only
  grind

end Verif.LitCmpProof
