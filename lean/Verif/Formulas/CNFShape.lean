import Verif.Formulas.CNFEquiv

/-!
# The normal forms reached, and what all transformations keep
-/

namespace Verif.CNFProof
open Form SemProof

/-! ## Parts -/

section Parts
variable {Pl : Term → Term → Prop} {Pa : Term → Prop} {Px : Nat → Prop}

/-- Closure conditions for the literals the transformations build. -/
structure PartsOK (Pl : Term → Term → Prop) (Pa : Term → Prop) : Prop where
  tt : Pl tTrue tTrue
  enc : ∀ t, Pa t → Pl t tTrue
  refl : ∀ t, t = tTrue ∨ t = tFalse → Pl t t

/-- `S` keeps the parts. -/
def Keeps (Q : Form → Prop) (S : Form → Option Form) : Prop := ∀ f f', S f = some f' → Q f → Q f'

theorem parts_propConst (h : PartsOK Pl Pa) (b : Bool) : (propConst b).Parts Pl Pa Px := h.tt

theorem parts_negAlloc {f : Form} (h : f.Parts Pl Pa Px) : f.negAlloc.Parts Pl Pa Px := by
  cases f <;> exact h

theorem parts_simpOut (hp : PartsOK Pl Pa) {S : Form → Option Form} (hS : Keeps (Parts Pl Pa Px) S) {op : BOp} {f g h : Form}
    (e : SimpOut S op f g h) (hf : f.Parts Pl Pa Px) (hg : g.Parts Pl Pa Px) : h.Parts Pl Pa Px := by
  cases e with
  | id _ => exact ⟨hf, hg⟩
  | eqF1 | eqF2 | imF2 => exact parts_negAlloc ‹_›
  | eqE | imF1 | imT2 | imE => exact parts_propConst hp _
  | xor e | nor e | nand e => exact hS _ _ e ⟨hf, hg⟩
  | bimpl e => exact hS _ _ e ⟨hg, hf⟩
  | _ => assumption

theorem parts_simpStep (hp : PartsOK Pl Pa) {small : Form → Bool} {S : Form → Option Form} (hS : Keeps (Parts Pl Pa Px) S) :
    Keeps (Parts Pl Pa Px) (simpStep small S) := by
  intro f f' e hf
  cases simpStep_out e with
  | same => exact hf
  | neg => exact hf
  | bin h => exact parts_simpOut hp hS h hf.1 hf.2
  | vac => exact hf.2

theorem parts_simpLoop (hp : PartsOK Pl Pa) {small : Form → Bool} {S : Form → Option Form} (hS : Keeps (Parts Pl Pa Px) S) (k : Nat) :
    Keeps (Parts Pl Pa Px) (simpLoop small S k) := by
  induction k with
  | zero => intro f f' e; simp [simpLoop] at e
  | succ k ih =>
    intro f f' e hf
    simp only [simpLoop, Option.bind_eq_bind, Option.bind_eq_some_iff] at e
    obtain ⟨n, e1, e2⟩ := e
    have := parts_simpStep hp hS _ _ e1 hf
    split at e2
    · cases e2; exact this
    · exact ih _ _ e2 this

theorem parts_simplify (hp : PartsOK Pl Pa) (small : Form → Bool) (k : Nat) : Keeps (Parts Pl Pa Px) (simplify small k) := by
  induction k with
  | zero => intro f f' e; simp [simplify] at e
  | succ k ih =>
    intro f f' e hf
    cases f with
    | lit p l r => simp [simplify] at e; subst e; exact hf
    | atom t => exact parts_simpLoop hp ih k _ _ e hf
    | not g =>
      simp only [simplify, Option.bind_eq_bind, Option.bind_eq_some_iff] at e
      obtain ⟨g', e1, e2⟩ := e
      exact parts_simpLoop hp ih k _ _ e2 (ih _ _ e1 hf :)
    | bin op g h =>
      simp only [simplify, Option.bind_eq_bind, Option.bind_eq_some_iff] at e
      obtain ⟨g', e1, h', e2, e3⟩ := e
      exact parts_simpLoop hp ih k _ _ e3 ⟨ih _ _ e1 hf.1, ih _ _ e2 hf.2⟩
    | qu q x g =>
      simp only [simplify, Option.bind_eq_bind, Option.bind_eq_some_iff] at e
      obtain ⟨g', e1, e2⟩ := e
      exact parts_simpLoop hp ih k _ _ e2 ⟨hf.1, ih _ _ e1 hf.2⟩

theorem parts_rootNNF (hp : PartsOK Pl Pa) (pol : Int) (f : Form) (hf : f.Parts Pl Pa Px) : (rootNNF pol f).Parts Pl Pa Px := by
  fun_induction rootNNF pol f with
  | case1 p l r => exact hf
  | case2 => exact hp.refl _ (.inl rfl)
  | case3 => exact hp.refl _ (.inr rfl)
  | case4 => exact hf
  | case5 f ih => exact ih hf
  | case6 f g => exact hf
  | case7 f g => exact hf
  | case8 q x f => exact hf
  | case9 f g => exact hf
  | case10 f g => exact ⟨⟨hf.1, hf.2⟩, hf.2, hf.1⟩
  | case11 f g => exact ⟨⟨hf.1, hf.2⟩, hf.1, hf.2⟩
  | case12 => exact hf

theorem parts_encodeAtom (hp : PartsOK Pl Pa) {t : Term} (ht : Pa t) : (encodeAtom t).Parts Pl Pa Px := by
  unfold encodeAtom
  split
  · rename_i h; exact hp.refl _ (.inl h)
  split
  · rename_i h; exact hp.refl _ (.inr h)
  · exact hp.enc _ ht

theorem parts_nnf (hp : PartsOK Pl Pa) (k : Nat) : ∀ pol, Keeps (Parts Pl Pa Px) (nnf k pol) := by
  induction k with
  | zero => intro pol f f' e; simp [nnf] at e
  | succ k ih =>
    intro pol f f' e hf
    have hr := parts_rootNNF hp pol f hf
    simp only [nnf] at e
    split at e
    · rename_i g h0
      rw [h0] at hr
      simp only [Option.bind_eq_bind, Option.bind_eq_some_iff] at e
      obtain ⟨g', e1, e2⟩ := e
      split at e2
      · cases e2; exact hr
      · exact ih _ _ _ e2 (ih _ _ _ e1 hr :)
    · rename_i q x g h0
      rw [h0] at hr
      simp only [Option.bind_eq_bind, Option.bind_eq_some_iff] at e
      obtain ⟨g', e1, e2⟩ := e
      split at e2
      · cases e2; exact hr
      · exact ih _ _ _ e2 ⟨hr.1, ih _ _ _ e1 hr.2⟩
    · rename_i op g h h0
      rw [h0] at hr
      split at e
      · simp only [Option.bind_eq_bind, Option.bind_eq_some_iff] at e
        obtain ⟨g', e1, h', e2, e3⟩ := e
        split at e3
        · cases e3; exact hr
        · exact ih _ _ _ e3 ⟨ih _ _ _ e1 hr.1, ih _ _ _ e2 hr.2⟩
      · cases e; exact hr
    · rename_i t h0
      rw [h0] at hr
      cases e; exact parts_encodeAtom hp hr
    · rename_i p l r h0
      rw [h0] at hr
      cases e; exact hr

theorem parts_miniRoot {f : Form} (hf : f.Parts Pl Pa Px) : (miniRoot f).Parts Pl Pa Px := by
  fun_cases miniRoot f with
  | case1 => exact ⟨hf.2.1, hf.1, hf.2.2⟩
  | case2 => exact ⟨⟨hf.1, hf.2.1⟩, hf.2.2⟩
  | case3 => exact ⟨⟨hf.1, hf.2.1⟩, hf.1, hf.2.2⟩
  | case4 => exact hf
  | case5 => exact hf
  | case6 => exact hf

theorem parts_miniScope (k : Nat) : Keeps (Parts Pl Pa Px) (miniScope k) := by
  induction k with
  | zero => intro f f' e; simp [miniScope] at e
  | succ k ih =>
    intro f f' e hf
    have hr := parts_miniRoot hf
    simp only [miniScope] at e
    split at e
    · rename_i g h0
      rw [h0] at hr
      simp only [Option.bind_eq_bind, Option.bind_eq_some_iff] at e
      obtain ⟨g', e1, e2⟩ := e
      split at e2
      · cases e2; exact hr
      · exact ih _ _ e2 (ih _ _ e1 hr :)
    · rename_i op g h h0
      rw [h0] at hr
      simp only [Option.bind_eq_bind, Option.bind_eq_some_iff] at e
      obtain ⟨g', e1, h', e2, e3⟩ := e
      split at e3
      · cases e3; exact hr
      · exact ih _ _ e3 ⟨ih _ _ e1 hr.1, ih _ _ e2 hr.2⟩
    · rename_i q x g h0
      rw [h0] at hr
      simp only [Option.bind_eq_bind, Option.bind_eq_some_iff] at e
      obtain ⟨g', e1, e2⟩ := e
      split at e2
      · cases e2; exact hr
      · exact ih _ _ e2 ⟨hr.1, ih _ _ e1 hr.2⟩
    · rename_i t h0
      rw [h0] at hr; cases e; exact hr
    · rename_i p l r h0
      rw [h0] at hr; cases e; exact hr

theorem parts_copyMod (cand : Form → Bool) (k : Nat) : Keeps (Parts Pl Pa Px) (copyMod cand k) := by
  intro f
  induction f with
  | lit p l r => intro f' e hf; cases e; exact hf
  | atom t => intro f' e hf; cases e; exact hf
  | not f ih =>
    intro f' e hf
    simp only [copyMod] at e
    split at e
    · exact parts_miniScope k _ _ e hf
    · obtain ⟨g, e1, rfl⟩ := Option.map_eq_some_iff.1 e
      exact (ih _ e1 hf :)
  | bin op f g ih1 ih2 =>
    intro f' e hf
    simp only [copyMod] at e
    split at e
    · exact parts_miniScope k _ _ e hf
    · simp only [Option.bind_eq_bind, Option.bind_eq_some_iff] at e
      obtain ⟨a, e1, b, e2, e3⟩ := e
      cases e3
      exact ⟨ih1 _ e1 hf.1, ih2 _ e2 hf.2⟩
  | qu q x f ih =>
    intro f' e hf
    simp only [copyMod] at e
    split at e
    · exact parts_miniScope k _ _ e hf
    · cases e; exact hf

theorem parts_distribute (k : Nat) : Keeps (Parts Pl Pa Px) (distribute k) := by
  induction k with
  | zero => intro f f' e; simp [distribute] at e
  | succ k ih =>
    intro f f' e hf
    simp only [distribute, Option.bind_eq_some_iff] at e
    obtain ⟨g, e1, e2⟩ := e
    have hg : g.Parts Pl Pa Px := by
      cases f with
      | lit p l r => cases e1; exact hf
      | atom t => cases e1; exact hf
      | not a =>
        obtain ⟨a', e3, rfl⟩ := Option.map_eq_some_iff.1 e1
        exact (ih _ _ e3 hf :)
      | bin op a b =>
        simp only [distSub, Option.bind_eq_some_iff, Option.map_eq_some_iff] at e1
        obtain ⟨a', e3, b', e4, rfl⟩ := e1
        exact ⟨ih _ _ e3 hf.1, ih _ _ e4 hf.2⟩
      | qu q x a =>
        obtain ⟨a', e3, rfl⟩ := Option.map_eq_some_iff.1 e1
        exact ⟨hf.1, ih _ _ e3 hf.2⟩
    unfold distRoot at e2
    split at e2
    · exact ih _ _ e2 ⟨⟨hg.1.1, hg.2⟩, hg.1.2, hg.2⟩
    · exact ih _ _ e2 ⟨⟨hg.2.1, hg.1⟩, hg.2.2, hg.1⟩
    · cases e2; exact hg

end Parts

/-! ## Simplification removes the derived connectives -/

/-- `S` returns formulas without derived connectives. -/
def MkBasic (S : Form → Option Form) : Prop := ∀ f f', S f = some f' → f'.Basic

theorem basic_negAlloc {f : Form} (h : f.Basic) : f.negAlloc.Basic := by cases f <;> exact h

theorem basic_simpOut {S : Form → Option Form} (hS : MkBasic S) {op : BOp} {f g h : Form}
    (e : SimpOut S op f g h) (hf : f.Basic) (hg : g.Basic) : h.Basic := by
  cases e with
  | id ho => exact ⟨ho, hf, hg⟩
  | eqF1 | eqF2 | imF2 => exact basic_negAlloc ‹_›
  | eqE | imF1 | imT2 | imE => exact trivial
  | xor e | nor e | nand e => exact hS _ _ e
  | bimpl e => exact hS _ _ e
  | _ => assumption

/-- The formula is `Basic` below its root. -/
def SubBasic : Form → Prop
  | .not f => f.Basic
  | .bin _ f g => f.Basic ∧ g.Basic
  | .qu _ _ f => f.Basic
  | _ => True

theorem SubBasic.of_basic {f : Form} (h : f.Basic) : SubBasic f := by
  cases f with
  | bin op f g => exact h.2
  | _ => exact h

theorem basic_simpStep {small : Form → Bool} {S : Form → Option Form} (hS : MkBasic S) {f f' : Form} (e : simpStep small S f = some f')
    (hf : SubBasic f) : f'.Basic := by
  cases simpStep_out e with
  | same h =>
    cases f with
    | bin op a b => exact absurd rfl (h op a b)
    | lit => trivial
    | atom => trivial
    | _ => exact hf
  | neg => trivial
  | bin h => exact basic_simpOut hS h hf.1 hf.2
  | vac => exact hf

theorem basic_simpLoop {small : Form → Bool} {S : Form → Option Form} (hS : MkBasic S) (k : Nat) :
    ∀ f f', simpLoop small S k f = some f' → SubBasic f → f'.Basic := by
  induction k with
  | zero => intro f f' e; simp [simpLoop] at e
  | succ k ih =>
    intro f f' e hf
    simp only [simpLoop, Option.bind_eq_bind, Option.bind_eq_some_iff] at e
    obtain ⟨n, e1, e2⟩ := e
    have := basic_simpStep hS e1 hf
    split at e2
    · cases e2; exact this
    · exact ih _ _ e2 (.of_basic this)

theorem basic_simplify (small : Form → Bool) (k : Nat) : MkBasic (simplify small k) := by
  induction k with
  | zero => intro f f' e; simp [simplify] at e
  | succ k ih =>
    intro f f' e
    cases f with
    | lit p l r => simp [simplify] at e; subst e; trivial
    | atom t => exact basic_simpLoop ih k _ _ e trivial
    | not g =>
      simp only [simplify, Option.bind_eq_bind, Option.bind_eq_some_iff] at e
      obtain ⟨g', e1, e2⟩ := e
      exact basic_simpLoop ih k _ _ e2 (ih _ _ e1)
    | bin op g h =>
      simp only [simplify, Option.bind_eq_bind, Option.bind_eq_some_iff] at e
      obtain ⟨g', e1, h', e2, e3⟩ := e
      exact basic_simpLoop ih k _ _ e3 ⟨ih _ _ e1, ih _ _ e2⟩
    | qu q x g =>
      simp only [simplify, Option.bind_eq_bind, Option.bind_eq_some_iff] at e
      obtain ⟨g', e1, e2⟩ := e
      exact basic_simpLoop ih k _ _ e2 (ih _ _ e1)

/-! ## Negation normal form -/

theorem basic_rootNNF (pol : Int) (f : Form) (hf : f.Basic) : (rootNNF pol f).Basic := by
  fun_induction rootNNF pol f with
  | case1 p l r => trivial
  | case2 => trivial
  | case3 => trivial
  | case4 => trivial
  | case5 f ih => exact ih hf
  | case6 f g => exact ⟨.inl rfl, hf.2⟩
  | case7 f g => exact ⟨.inr (.inl rfl), hf.2⟩
  | case8 q x f => exact hf
  | case9 f g => exact ⟨.inr (.inl rfl), hf.2⟩
  | case10 f g => exact ⟨.inl rfl, ⟨by simp, hf.2⟩, ⟨by simp, hf.2.2, hf.2.1⟩⟩
  | case11 f g => exact ⟨by simp, ⟨by simp, hf.2⟩, ⟨by simp, hf.2⟩⟩
  | case12 => exact hf

/-- A negation, implication or equivalence at the root is only left in front of other negative connectives. -/
theorem rootNNF_not {pol : Int} {f g : Form} (h : rootNNF pol f = not g) (hg : g.IsNNF) : False := by
  fun_induction rootNNF pol f with
  | case5 f ih => exact ih h
  | case4 t => cases h; exact hg
  | case12 f h1 h2 h3 h4 h5 h6 h7 h8 =>
    subst h
    cases g with
    | lit p l r => exact h1 _ _ _ rfl
    | atom t => exact hg
    | not g => exact h3 _ rfl
    | bin op a b =>
      rcases hg.1 with rfl | rfl
      · exact h5 _ _ rfl
      · exact h4 _ _ rfl
    | qu q x g => exact h6 _ _ _ rfl
  | _ => simp at h

theorem rootNNF_bin {pol : Int} {f a b : Form} {op : BOp} (h : rootNNF pol f = bin op a b) (hf : f.Basic) : op = .and ∨ op = .or := by
  fun_induction rootNNF pol f with
  | case5 f ih => exact ih h hf
  | case12 f h1 h2 h3 h4 h5 h6 h7 h8 =>
    subst h
    rcases hf.1 with rfl | rfl | rfl | rfl
    · simp
    · simp
    · exact absurd rfl (h7 _ _)
    · exact absurd rfl (h8 _ _)
  | _ => simp at h <;> simp [← h.1]

theorem nnf_shape (k : Nat) : ∀ pol f f', nnf k pol f = some f' → f.Basic → f'.IsNNF := by
  induction k with
  | zero => intro pol f f' e; simp [nnf] at e
  | succ k ih =>
    intro pol f f' e hf
    have hr := basic_rootNNF pol f hf
    have hb : ∀ {g : Form}, g.IsNNF → g.Basic := by
      intro g
      induction g with
      | bin op f g ih1 ih2 => exact fun h => ⟨by rcases h.1 with h | h <;> simp [h], ih1 h.2.1, ih2 h.2.2⟩
      | qu q x f ih => exact fun h => ih h
      | lit => exact fun _ => trivial
      | _ => exact fun h => h.elim
    simp only [nnf] at e
    split at e
    · rename_i g h0
      rw [h0] at hr
      simp only [Option.bind_eq_bind, Option.bind_eq_some_iff] at e
      obtain ⟨g', e1, e2⟩ := e
      have hg := ih _ _ _ e1 hr
      split at e2
      · rename_i h; subst h; exact (rootNNF_not h0 hg).elim
      · exact ih _ _ _ e2 (hb hg :)
    · rename_i q x g h0
      rw [h0] at hr
      simp only [Option.bind_eq_bind, Option.bind_eq_some_iff] at e
      obtain ⟨g', e1, e2⟩ := e
      have hg := ih _ _ _ e1 hr
      split at e2
      · rename_i h; subst h; cases e2; exact hg
      · exact ih _ _ _ e2 (hb hg :)
    · rename_i op g h h0
      have ho := rootNNF_bin h0 hf
      rw [h0] at hr
      rw [if_pos ho] at e
      simp only [Option.bind_eq_bind, Option.bind_eq_some_iff] at e
      obtain ⟨g', e1, h', e2, e3⟩ := e
      have hg := ih _ _ _ e1 hr.2.1
      have hh := ih _ _ _ e2 hr.2.2
      split at e3
      · rename_i h; obtain ⟨rfl, rfl⟩ := h; cases e3; exact ⟨ho, hg, hh⟩
      · exact ih _ _ _ e3 ⟨hr.1, hb hg, hb hh⟩
    · cases e
      unfold encodeAtom
      split
      · trivial
      split <;> trivial
    · cases e; trivial

theorem rootNNF_nnf {pol : Int} {f : Form} (h : f.IsNNF) : rootNNF pol f = f := by
  cases f with
  | lit => rfl
  | atom => exact h.elim
  | not => exact h.elim
  | qu => rfl
  | bin op f g => rcases h.1 with rfl | rfl <;> rfl

/-- Formulas in negation normal form are not changed. -/
theorem nnf_id (k : Nat) : ∀ pol f f', nnf k pol f = some f' → f.IsNNF → f' = f := by
  induction k with
  | zero => intro pol f f' e; simp [nnf] at e
  | succ k ih =>
    intro pol f f' e hf
    simp only [nnf, rootNNF_nnf hf] at e
    cases f with
    | lit => cases e; rfl
    | atom => exact hf.elim
    | not => exact hf.elim
    | qu q x g =>
      simp only [Option.bind_eq_bind, Option.bind_eq_some_iff] at e
      obtain ⟨g', e1, e2⟩ := e
      rw [ih _ _ _ e1 hf, if_pos rfl] at e2
      cases e2; rfl
    | bin op g h =>
      simp only [if_pos hf.1, Option.bind_eq_bind, Option.bind_eq_some_iff] at e
      obtain ⟨g', e1, h', e2, e3⟩ := e
      rw [ih _ _ _ e1 hf.2.1, ih _ _ _ e2 hf.2.2, if_pos ⟨rfl, rfl⟩] at e3
      cases e3; rfl

/-! ## Miniscoping keeps the negation normal form -/

theorem miniRoot_nnf {f : Form} (hf : f.IsNNF) : (miniRoot f).IsNNF := by
  fun_cases miniRoot f with
  | case1 => exact hf
  | case2 => exact hf
  | case3 => exact hf
  | case4 => exact hf
  | case5 => exact hf
  | case6 => exact hf

theorem miniScope_nnf (k : Nat) : Keeps IsNNF (miniScope k) := by
  induction k with
  | zero => intro f f' e; simp [miniScope] at e
  | succ k ih =>
    intro f f' e hf
    have hr := miniRoot_nnf hf
    simp only [miniScope] at e
    split at e
    · rename_i g h0
      rw [h0] at hr; exact hr.elim
    · rename_i op g h h0
      rw [h0] at hr
      simp only [Option.bind_eq_bind, Option.bind_eq_some_iff] at e
      obtain ⟨g', e1, h', e2, e3⟩ := e
      split at e3
      · cases e3; exact hr
      · exact ih _ _ e3 ⟨hr.1, ih _ _ e1 hr.2.1, ih _ _ e2 hr.2.2⟩
    · rename_i q x g h0
      rw [h0] at hr
      simp only [Option.bind_eq_bind, Option.bind_eq_some_iff] at e
      obtain ⟨g', e1, e2⟩ := e
      split at e2
      · cases e2; exact hr
      · exact ih _ _ e2 (ih _ _ e1 hr :)
    · rename_i t h0
      rw [h0] at hr; exact hr.elim
    · cases e; trivial

theorem copyMod_nnf (cand : Form → Bool) (k : Nat) : Keeps IsNNF (copyMod cand k) := by
  intro f
  induction f with
  | lit p l r => intro f' e hf; cases e; exact hf
  | atom t => intro f' e hf; exact hf.elim
  | not f ih => intro f' e hf; exact hf.elim
  | bin op f g ih1 ih2 =>
    intro f' e hf
    simp only [copyMod] at e
    split at e
    · exact miniScope_nnf k _ _ e hf
    · simp only [Option.bind_eq_bind, Option.bind_eq_some_iff] at e
      obtain ⟨a, e1, b, e2, e3⟩ := e
      cases e3
      exact ⟨hf.1, ih1 _ e1 hf.2.1, ih2 _ e2 hf.2.2⟩
  | qu q x f ih =>
    intro f' e hf
    simp only [copyMod] at e
    split at e
    · exact miniScope_nnf k _ _ e hf
    · cases e; exact hf

/-! ## Distribution reaches conjunctive normal form -/

theorem cnf_disj {f : Form} (h : IsCNF f) (hn : ∀ a b, f ≠ bin .and a b) : IsDisj f := by
  cases f with
  | lit => trivial
  | atom => exact h
  | not => exact h
  | qu => exact h
  | bin op a b =>
    cases op with
    | and => exact absurd rfl (hn a b)
    | or => exact ⟨rfl, h⟩
    | _ => exact h.elim

theorem disj_qf {f : Form} (h : IsDisj f) : QF f ∧ f.IsNNF := by
  induction f with
  | lit => exact ⟨trivial, trivial⟩
  | atom => exact h.elim
  | not => exact h.elim
  | qu => exact h.elim
  | bin op a b ih1 ih2 =>
    exact ⟨⟨(ih1 h.2.1).1, (ih2 h.2.2).1⟩, .inr h.1, (ih1 h.2.1).2, (ih2 h.2.2).2⟩

theorem cnf_qf {f : Form} (h : IsCNF f) : QF f ∧ f.IsNNF := by
  induction f with
  | lit => exact ⟨trivial, trivial⟩
  | atom => exact h.elim
  | not => exact h.elim
  | qu => exact h.elim
  | bin op a b ih1 ih2 =>
    cases op with
    | and => exact ⟨⟨(ih1 h.1).1, (ih2 h.2).1⟩, .inl rfl, (ih1 h.1).2, (ih2 h.2).2⟩
    | or => exact ⟨⟨(disj_qf h.1).1, (disj_qf h.2).1⟩, .inr rfl, (disj_qf h.1).2, (disj_qf h.2).2⟩
    | _ => exact h.elim

theorem distribute_shape (k : Nat) : ∀ f f', distribute k f = some f' → QF f → f.IsNNF → IsCNF f' := by
  induction k with
  | zero => intro f f' e; simp [distribute] at e
  | succ k ih =>
    intro f f' e hq hn
    simp only [distribute, Option.bind_eq_some_iff] at e
    obtain ⟨g, e1, e2⟩ := e
    cases f with
    | lit p l r => cases e1; cases e2; trivial
    | atom t => exact hn.elim
    | not a => exact hn.elim
    | qu q x a => exact hq.elim
    | bin op a b =>
      simp only [distSub, Option.bind_eq_some_iff, Option.map_eq_some_iff] at e1
      obtain ⟨a', e3, b', e4, rfl⟩ := e1
      have ha := ih _ _ e3 hq.1 hn.2.1
      have hb := ih _ _ e4 hq.2 hn.2.2
      rcases hn.1 with rfl | rfl
      · cases e2; exact ⟨ha, hb⟩
      · unfold distRoot at e2
        split at e2
        · rename_i f1 f2 f3 h0
          cases h0
          have h1 := cnf_qf ha.1; have h2 := cnf_qf ha.2; have h3 := cnf_qf hb
          exact ih _ _ e2 ⟨⟨h1.1, h3.1⟩, h2.1, h3.1⟩ ⟨.inl rfl, ⟨.inr rfl, h1.2, h3.2⟩, ⟨.inr rfl, h2.2, h3.2⟩⟩
        · rename_i f1 f2 f3 _ h0
          cases h0
          have h1 := cnf_qf ha; have h2 := cnf_qf hb.1; have h3 := cnf_qf hb.2
          exact ih _ _ e2 ⟨⟨h2.1, h1.1⟩, h3.1, h1.1⟩ ⟨.inl rfl, ⟨.inr rfl, h2.2, h1.2⟩, ⟨.inr rfl, h3.2, h1.2⟩⟩
        · rename_i h1 h2
          cases e2
          exact ⟨cnf_disj ha fun a b h => h1 a b _ (by rw [h]), cnf_disj hb fun a b h => h2 _ a b (by rw [h])⟩

/-- A prefix of quantifiers is kept. -/
theorem distribute_prefix {xs : List Nat} : ∀ {k : Nat} {c f' : Form}, distribute k (xs.foldr (qu true) c) = some f' →
    ∃ k' c', distribute k' c = some c' ∧ f' = xs.foldr (qu true) c' := by
  induction xs with
  | nil => intro k c f' e; exact ⟨k, f', e, rfl⟩
  | cons x xs ih =>
    intro k c f' e
    cases k with
    | zero => simp [distribute] at e
    | succ k =>
      simp only [List.foldr_cons, distribute, distSub, Option.bind_eq_some_iff, Option.map_eq_some_iff] at e
      obtain ⟨g, ⟨a, e1, rfl⟩, e2⟩ := e
      cases e2
      obtain ⟨k', c', h1, rfl⟩ := ih e1
      exact ⟨k', c', h1, rfl⟩

theorem skipAll_prefix {xs : List Nat} {c : Form} (h : QF c) : (xs.foldr (qu true) c).skipAll = c := by
  induction xs with
  | nil => cases c <;> first | rfl | exact h.elim
  | cons x xs ih => exact ih

end Verif.CNFProof
