import Verif.HO.NormEqsSpec
import Mathlib.Tactic.SplitIfs

/-!
# Normalisation of equations keeps the meaning
-/

namespace Verif
namespace NormEqs

variable {D : Type} {s : Nat → Nat} {v : Nat → Value D}

theorem val_bool (hv : Respects s v) (t : BTm) (h : t.ty s = 0) : ∃ b, t.val v = .inl b := by
  cases t with
  | oth n => exact hv n h
  | _ => exact ⟨_, rfl⟩

/-- The literal made of two sides and `negate`. -/
def sideTrue (v : Nat → Value D) (q : BTm × BTm × Bool) : Prop := if q.2.2 then q.1.val v ≠ q.2.1.val v else q.1.val v = q.2.1.val v

def sideWT (s : Nat → Nat) (q : BTm × BTm × Bool) : Prop := q.1.ty s = q.2.1.ty s ∧ q.1.WT s ∧ q.2.1.WT s

theorem stripNots_spec (hv : Respects s v) (t : BTm) : ∀ (neg : Bool), t.ty s = 0 → t.WT s →
    (sideTrue v ((stripNots t neg).1, .tru, (stripNots t neg).2) ↔ sideTrue v (t, .tru, neg)) ∧ (stripNots t neg).1.ty s = 0 ∧ (stripNots t neg).1.WT s ∧
      (stripNots t neg).1.size ≤ t.size ∧ (∀ u, (stripNots t neg).1 ≠ .nt u) ∧ ((∃ u, t = .nt u) → (stripNots t neg).1.size < t.size) := by
  induction t with
  | nt t ih =>
    intro neg _ hw
    rw [stripNots]
    obtain ⟨h1, h2, h3, h4, h5, _⟩ := ih (!neg) hw.1 hw.2
    refine ⟨h1.trans ?_, h2, h3, ?_, h5, fun _ => ?_⟩
    · obtain ⟨b, hb⟩ := val_bool hv t hw.1
      simp only [sideTrue, BTm.val, hb]
      cases neg <;> cases b <;> simp [hb]
    · rw [BTm.size]; omega
    · rw [BTm.size]; omega
  | _ => intro neg ht hw; exact ⟨Iff.rfl, ht, hw, Nat.le_refl _, (by intro u h; cases h), (by rintro ⟨u, h⟩; cases h)⟩

theorem lift_spec (p : BTm × Bool) (ht : p.1.ty s = 0) (hw : p.1.WT s) :
    (sideTrue v (lift p) ↔ sideTrue v (p.1, .tru, p.2)) ∧ sideWT s (lift p) ∧ (lift p).1.size + (lift p).2.1.size ≤ p.1.size + 1 ∧
      ((∃ a b, p.1 = .eq a b ∨ p.1 = .ne a b) → (lift p).1.size + (lift p).2.1.size < p.1.size + 1) := by
  obtain ⟨t, neg⟩ := p
  have other : ∀ (t : BTm), t.ty s = 0 → t.WT s → lift (t, neg) = (t, .tru, neg) → (¬ ∃ a b, t = .eq a b ∨ t = .ne a b) →
      (sideTrue v (lift (t, neg)) ↔ sideTrue v (t, .tru, neg)) ∧ sideWT s (lift (t, neg)) ∧ (lift (t, neg)).1.size + (lift (t, neg)).2.1.size ≤ t.size + 1 ∧
        ((∃ a b, t = .eq a b ∨ t = .ne a b) → (lift (t, neg)).1.size + (lift (t, neg)).2.1.size < t.size + 1) := by
    intro t ht hw e hn
    rw [e]
    exact ⟨Iff.rfl, ⟨ht, hw, trivial⟩, by simp [BTm.size], fun h => absurd h hn⟩
  cases t with
  | eq a b =>
    refine ⟨?_, hw, ?_, fun _ => ?_⟩
    · simp only [lift, sideTrue, BTm.val]
      cases neg <;> simp
    · simp only [lift, BTm.size]; omega
    · simp only [lift, BTm.size]; omega
  | ne a b =>
    refine ⟨?_, hw, ?_, fun _ => ?_⟩
    · simp only [lift, sideTrue, BTm.val]
      cases neg <;> simp
    · simp only [lift, BTm.size]; omega
    · simp only [lift, BTm.size]; omega
  | _ => exact other _ ht hw rfl (by rintro ⟨a, b, h | h⟩ <;> cases h)

theorem falseLeft_spec (hv : Respects s v) (q : BTm × BTm × Bool) (hw : sideWT s q) :
    (sideTrue v (falseLeft q) ↔ sideTrue v q) ∧ sideWT s (falseLeft q) ∧ (falseLeft q).1.size + (falseLeft q).2.1.size = q.1.size + q.2.1.size := by
  obtain ⟨a, b, neg⟩ := q
  unfold falseLeft
  split
  · rename_i h
    have h : a = .fls := h
    subst h
    obtain ⟨x, hx⟩ := val_bool hv b hw.1.symm
    refine ⟨?_, ⟨hw.1, trivial, hw.2.2⟩, rfl⟩
    simp only [sideTrue, BTm.val, hx]
    cases neg <;> cases x <;> simp
  · exact ⟨Iff.rfl, hw, rfl⟩

theorem falseRight_spec (hv : Respects s v) (q : BTm × BTm × Bool) (hw : sideWT s q) :
    (sideTrue v (falseRight q) ↔ sideTrue v q) ∧ sideWT s (falseRight q) ∧ (falseRight q).1.size + (falseRight q).2.1.size = q.1.size + q.2.1.size := by
  obtain ⟨a, b, neg⟩ := q
  unfold falseRight
  split
  · rename_i h
    have h : b = .fls := h
    subst h
    obtain ⟨x, hx⟩ := val_bool hv a hw.1
    refine ⟨?_, ⟨hw.1, hw.2.1, trivial⟩, rfl⟩
    simp only [sideTrue, BTm.val, hx]
    cases neg <;> cases x <;> simp
  · exact ⟨Iff.rfl, hw, rfl⟩

theorem trueRight_spec (q : BTm × BTm × Bool) (hw : sideWT s q) :
    (sideTrue v (trueRight q) ↔ sideTrue v q) ∧ sideWT s (trueRight q) ∧ (trueRight q).1.size + (trueRight q).2.1.size = q.1.size + q.2.1.size ∧
      ((trueRight q).1 = .tru → (trueRight q).2.1 = .tru) ∧ (q.1 ≠ .fls → q.2.1 ≠ .fls → (trueRight q).1 ≠ .fls ∧ (trueRight q).2.1 ≠ .fls) := by
  obtain ⟨a, b, neg⟩ := q
  unfold trueRight
  split
  · rename_i h
    refine ⟨?_, ⟨hw.1.symm, hw.2.2, hw.2.1⟩, Nat.add_comm _ _, fun _ => h, fun h1 h2 => ⟨h2, h1⟩⟩
    simp only [sideTrue]
    cases neg
    · exact eq_comm
    · exact ne_comm
  · rename_i h
    exact ⟨Iff.rfl, hw, rfl, fun e => absurd e h, fun h1 h2 => ⟨h1, h2⟩⟩

theorem swapTrue_spec (c : BLit) (hw : c.WT s) : ((swapTrue c).True v ↔ c.True v) ∧ (swapTrue c).WT s ∧
    (swapTrue c).l.size + (swapTrue c).r.size = c.l.size + c.r.size := by
  obtain ⟨p, e, l, r⟩ := c
  unfold swapTrue
  split
  · rename_i h
    have h1 : l = .tru := h.1
    subst h1
    refine ⟨?_, ⟨hw.1.symm, hw.2.2, hw.2.1⟩, Nat.add_comm _ _⟩
    simp only [BLit.True]
    cases p
    · exact ne_comm
    · exact eq_comm
  · exact ⟨Iff.rfl, hw, rfl⟩

theorem normLit_spec (hv : Respects s v) (c : BLit) (hw : c.WT s) : ((normLit c).True v ↔ c.True v) ∧ (normLit c).WT s ∧
    (normLit c).l.size + (normLit c).r.size ≤ c.l.size + c.r.size ∧
    (applicable (swapTrue c) = true → (normLit c).l.size + (normLit c).r.size < c.l.size + c.r.size) := by
  obtain ⟨s1, s2, s3⟩ := swapTrue_spec (v := v) c hw
  unfold normLit
  simp only
  by_cases ha : applicable (swapTrue c) = true
  · rw [if_pos ha]
    have ha' := ha
    unfold applicable at ha'
    rw [Bool.and_eq_true, beq_iff_eq] at ha'
    obtain ⟨hr, hl⟩ := ha'
    have hl0 : (swapTrue c).l.ty s = 0 := by rw [s2.1, hr]; rfl
    obtain ⟨n1, n2, n3, n4, _, n6⟩ := stripNots_spec hv (swapTrue c).l false hl0 s2.2.1
    obtain ⟨l1, l2, l3, l4⟩ := lift_spec (v := v) (stripNots (swapTrue c).l false) n2 n3
    obtain ⟨f1, f2, f3⟩ := falseLeft_spec hv _ l2
    obtain ⟨g1, g2, g3⟩ := falseRight_spec hv _ f2
    obtain ⟨t1, t2, t3, _⟩ := trueRight_spec (v := v) _ g2
    have et := t1.trans (g1.trans (f1.trans (l1.trans n1)))
    have es : (swapTrue c).r.size = 1 := by rw [hr]; rfl
    have lt : (lift (stripNots (swapTrue c).l false)).1.size + (lift (stripNots (swapTrue c).l false)).2.1.size < (swapTrue c).l.size + 1 := by
      cases hc : (swapTrue c).l with
      | nt u => rw [hc] at l3 n6; exact Nat.lt_of_le_of_lt l3 (by have := n6 ⟨u, rfl⟩; omega)
      | eq a b => rw [hc] at l4; exact l4 ⟨a, b, .inl rfl⟩
      | ne a b => rw [hc] at l4; exact l4 ⟨a, b, .inr rfl⟩
      | tru => rw [hc] at hl; cases hl
      | fls => rw [hc] at hl; cases hl
      | oth n => rw [hc] at hl; cases hl
    refine ⟨?_, t2, by simp only; omega, fun _ => by simp only; omega⟩
    rw [← s1]
    simp only [sideTrue, Bool.false_eq_true, if_false] at et
    simp only [BLit.True, hr]
    generalize trueRight (falseRight (falseLeft (lift (stripNots (swapTrue c).l false)))) = q at et
    cases hn : q.2.2 <;> cases hp : (swapTrue c).pos <;> simp only [hn, Bool.false_eq_true, if_false, if_true, Bool.xor_false, Bool.xor_true, Bool.not_true,
      Bool.not_false] at et ⊢ <;> first
      | exact et
      | exact not_congr et
      | exact ⟨fun a b => et.2 b a, fun nb => Classical.byContradiction fun na => nb (et.1 na)⟩
  · rw [if_neg ha]
    exact ⟨s1, s2, Nat.le_of_eq s3, fun h => absurd h ha⟩

end NormEqs
end Verif
