import Verif.Formulas.FoolLoop

/-!
# C81: `$ite` and Boolean arguments are removed without changing the problem

`val`, `Holds` and `WT` (Formulas/FoolSem.lean) are the semantics: formulas are terms of Boolean type with the
values `$true` and `$false`.
-/

namespace Verif.Props

open Verif Fool FT Interp FoolProof

universe u
section
variable {sg : Sig}

/-- **C81.**  Writing equations between formulas as equivalences changes no value. -/
theorem fool_expand_sound (hs : SigOK sg) {t : FT} (ht : WT sg t) : WT sg (expand sg t) ∧
    ∀ (I : Interp.{u} sg) v, I.Sorted v → val I (expand sg t) v = val I t v :=
  ⟨(expand_wt ht).1, fun I _ hv => expand_val hs I ht hv⟩

/-- **C81.**  The removal of Boolean arguments ends. -/
theorem fool_unroll_total (t : FT) : ∃ n u, unrollFool sg n t = some u := doFool_total _ _ le_rfl

/-- **C81.**  No literal of the result has a Boolean argument left, except variables, `$true`, `$false`
and literals over them. -/
theorem fool_unroll_flat {n : Nat} {t u : FT} (h : unrollFool sg n t = some u) : Unrolled sg u := doFool_unrolled h

/-- **C81.**  The result is equivalent to the formula.  Missing: an equation with a variable on its left and a formula with a connective or
quantifier on its right; for these the claim fails (`FoolEx.unroll_scope`). -/
theorem fool_unroll_sound_partial (hs : SigOK sg) {n : Nat} {t u : FT} (ht : WT sg t) (hb : t.ty sg = sg.fty 1)
    (hq : VarSides t) (h : unrollFool sg n t = some u) : WT sg u ∧
    ∀ (I : Interp.{u} sg) v, I.Sorted v → (Holds I u v ↔ Holds I t v) := by
  have hx := expand_wt ht
  have := doFool_spec.{u} hs h hx.1 (hx.2.trans hb)
  refine ⟨this.1.1, fun I v hv => ?_⟩
  unfold Holds
  rw [this.2 (expand_sides ht hq) I v hv, expand_val hs I ht hv]

/-- **C81.**  The lifting of `$ite` ends. -/
theorem ite_lift_total (t : FT) : ∃ n u, doIte n t = some u := doIte_total _ _ le_rfl

/-- **C81.**  The result has no `$ite`. -/
theorem ite_lift_removes {n : Nat} {t u : FT} (h : doIte n t = some u) : IteFree u := doIte_iteFree n t u h

/-- **C81.**  The result is equivalent to the formula.  Missing: formulas with an `$ite` below a quantifier inside a literal; for these the
claim fails (`FoolEx.lift_scope`). -/
theorem ite_lift_sound_partial (hs : SigOK sg) {n : Nat} {t u : FT} (ht : WT sg t) (hb : t.ty sg = sg.fty 1)
    (hok : OK true t) (h : doIte n t = some u) : WT sg u ∧
    ∀ (I : Interp.{u} sg) v, I.Sorted v → (Holds I u v ↔ Holds I t v) := by
  have := doIte_spec.{u} hs h ht hb hok
  refine ⟨this.1, fun I v hv => ?_⟩
  unfold Holds
  rw [this.2.2 I v hv]

end

namespace FoolEx

/-- Types: 0 = `$o`, 1 = `$i`.  Symbols: 10 = `p`, 11 = `q` on `$i`; 12 = `a`, 13 = `b`; 14 = `c`, 15 = `d` propositions; 16 = `s` on `$o`.
Variable 0 has type `$o`, the others `$i`. -/
@[reducible] def exSg : Sig where
  vty x := if x = 0 then 0 else 1
  fty f := if f ∈ [1, 2, 10, 11, 14, 15, 16] then 0 else 1
  fargs f := if f = 10 ∨ f = 11 then [1] else if f = 16 then [0] else []

theorem sgOK : SigOK exSg := ⟨rfl, rfl, rfl⟩

/-- The truth values are 1 and 0, the individuals are 2 and 3; `p` and `q` hold for 2 only, `s` for `$false` only. -/
def I : Interp exSg where
  D := Nat
  mem ty d := if ty = 0 then d = 0 ∨ d = 1 else d = 2 ∨ d = 3
  inhab ty := by by_cases h : ty = 0 <;> simp [h]
  fn f ds := if f = 1 then 1 else if f = 2 then 0 else if f = 10 ∨ f = 11 then (if ds = [2] then 1 else 0) else
    if f = 13 then 3 else if f = 14 then 1 else if f = 15 then 0 else if f = 16 then (if ds = [0] then 1 else 0) else 2
  fn_mem f ds _ := by
    by_cases h : f ∈ [1, 2, 10, 11, 14, 15, 16]
    · simp only [List.mem_cons, List.not_mem_nil, or_false] at h
      rcases h with rfl | rfl | rfl | rfl | rfl | rfl | rfl <;> simp
      all_goals exact (em _).symm
    · simp only [List.mem_cons, List.not_mem_nil, or_false, not_or] at h
      simp [h]
      by_cases e : f = 13 <;> simp [e]
  tf := by simp
  bool2 d h := by simp at h ⊢; omega
  dist f g h := by simp at h

theorem holds_eqn (l r v) : Holds I (.eqn true l r) v ↔ val I l v = val I r v := by
  unfold Holds; rw [val_eqn, b2d_true]; simp

theorem holds_neqn (l r v) : Holds I (.eqn false l r) v ↔ val I l v ≠ val I r v := by
  unfold Holds; rw [val_eqn, b2d_true]; simp

theorem holds_bin (op l r v) : Holds I (.bin op l r) v ↔ op.Holds (Holds I l v) (Holds I r v) := by
  unfold Holds; rw [val, b2d_true]

theorem holds_all (x a v) : Holds I (.qu true x a) v ↔ ∀ d, I.mem (exSg.vty x) d → Holds I a (updv v x d) := by
  unfold Holds; rw [val, b2d_true]

theorem holds_ex (x a v) : Holds I (.qu false x a) v ↔ ∃ d, I.mem (exSg.vty x) d ∧ Holds I a (updv v x d) := by
  unfold Holds; rw [val, b2d_true]

theorem val_app1 (f t v) : val I (.app f [t]) v = I.fn f [val I t v] := by rw [val]; rfl

theorem val_app0 (f v) : val I (.app f []) v = I.fn f [] := by rw [val]; rfl

/-- The valuation with `$false` for `X : $o` and `e` for the other variables. -/
def valu (e : Nat) : Nat → I.D
  | 0 => (0 : Nat)
  | _ + 1 => e

theorem valu_sorted {e : Nat} (h : e = 2 ∨ e = 3) : I.Sorted (valu e)
  | 0 => .inl rfl
  | x + 1 => by
    have : exSg.vty (x + 1) = 1 := by simp
    rw [this]; exact h

def p (t : FT) : FT := .eqn true (.app 10 [t]) tt
def q (t : FT) : FT := .eqn true (.app 11 [t]) tt
def s (t : FT) : FT := .eqn true (.app 16 [t]) tt
def a : FT := .app 12 []
def b : FT := .app 13 []
def c : FT := .eqn true (.app 14 []) tt
def d : FT := .eqn true (.app 15 []) tt

/-- `$ite(c, ?[X]: p($ite(q(X), a, b)), d)`, as the parser encodes it. -/
def F : FT := .eqn true (.ite c (.qu false 1 (p (.ite (q (.var 1)) a b))) d) tt

/-- The result for `F`: `X` is now free. -/
def G : FT :=
  .bin .and
    (.bin .or (.eqn false (.app 14 []) tt)
      (.bin .and
        (.bin .or (.eqn false (.app 11 [.var 1]) tt) (.eqn true (.qu false 1 (p a)) tt))
        (.bin .or (q (.var 1)) (.eqn true (.qu false 1 (p b)) tt))))
    (.bin .or c (.eqn true d tt))

theorem F_lifted : doIte 10 F = some G := by rfl

/-- **C81, the claim fails.**  The inner `$ite` is taken out of the scope of the quantifier: the formula is true, its translation is not. -/
theorem lift_scope : WT exSg F ∧ doIte 10 F = some G ∧ Valid I F ∧ ¬ Valid I G := by
  refine ⟨?_, F_lifted, ?_, ?_⟩
  · simp [F, WT, WTL, ty, c, d, p, q, a, b, tt]
  · intro v _
    have hc : val I c v = I.fn 1 [] := (holds_eqn _ _ v).2 (by rw [val_tt, val_app0]; rfl)
    refine (holds_eqn _ _ v).2 ?_
    rw [val.eq_9, if_pos hc, val_tt]
    refine (holds_ex 1 _ v).2 ⟨(2 : Nat), .inl rfl, (holds_eqn _ _ _).2 ?_⟩
    have hq : val I (q (.var 1)) (updv v 1 (2 : Nat)) = I.fn 1 [] := (holds_eqn _ _ _).2 (by rw [val_tt, val_app1]; rfl)
    rw [val_app1, val.eq_9, if_pos hq, val_tt, a, val_app0]
    rfl
  · intro h
    have hv := valu_sorted (e := 3) (by decide)
    have := h _ hv
    simp only [G, holds_bin, BOp.Holds, holds_neqn, c, val_tt, val_app0] at this
    rcases this.1 with h1 | ⟨-, h1⟩
    · exact h1 rfl
    · rcases h1 with h1 | h1
      · rw [q, holds_eqn, val_app1, val_tt] at h1
        exact absurd h1 (show ¬ ((0 : Nat) = 1) by decide)
      · rw [holds_eqn, val_tt] at h1
        obtain ⟨e, -, h2⟩ := (holds_ex _ _ _).1 h1
        rw [p, holds_eqn, val_app1, b, val_app0, val_tt] at h2
        exact absurd h2 (show ¬ ((0 : Nat) = 1) by decide)

/-- `![X : $o]: (X = (![Y]: q(Y)) => s(X))`. -/
def H : FT := .qu true 0 (.bin .impl (.eqn true (.var 0) (.qu true 1 (q (.var 1)))) (s (.var 0)))

/-- The result for `H`: `Y` is now free. -/
def K : FT := .qu true 0 (.bin .impl
  (.bin .and
    (.bin .or (.eqn false (.app 11 [.var 1]) tt) (.eqn true (.var 0) (.qu true 1 tt)))
    (.bin .or (q (.var 1)) (.eqn true (.var 0) (.qu true 1 ff)))) (s (.var 0)))

theorem H_unrolled : unrollFool exSg 10 H = some K := by rfl

/-- **C81, the claim fails.**  The body of the quantified formula is taken out of the scope of the quantifier. -/
theorem unroll_scope : WT exSg H ∧ unrollFool exSg 10 H = some K ∧ Valid I H ∧ ¬ Valid I K := by
  refine ⟨?_, H_unrolled, ?_, ?_⟩
  · simp [H, WT, WTL, ty, s, q, tt]
  · intro v _
    refine (holds_all 0 _ v).2 fun x hx => (holds_bin _ _ _ _).2 ?_
    intro he
    rw [holds_eqn] at he
    have hn : ¬ Holds I (.qu true 1 (q (.var 1))) (updv v 0 x) := by
      intro hh
      have := (holds_all _ _ _).1 hh (3 : Nat) (.inr rfl)
      rw [q, holds_eqn, val_app1, val_tt] at this
      exact absurd this (show ¬ ((0 : Nat) = 1) by decide)
    have hx0 : x = (0 : Nat) := by
      rcases hx with e | e
      · exact e
      · exact absurd (he.symm.trans (by rw [e]; rfl)) hn
    rw [s, holds_eqn, val_app1, val_tt, hx0]
    rfl
  · intro h
    have hv := valu_sorted (e := 2) (by decide)
    have := (holds_bin _ _ _ _).1 ((holds_all _ _ _).1 (h _ hv) (1 : Nat) (.inr rfl)) (by
      simp only [holds_bin, BOp.Holds]
      refine ⟨.inr ?_, .inl ?_⟩
      · rw [holds_eqn]
        exact ((holds_all _ _ _).2 fun d _ => val_tt I _).symm
      · rw [q, holds_eqn, val_app1, val_tt]; rfl)
    rw [s, holds_eqn, val_app1, val_tt] at this
    exact absurd this (show ¬ ((0 : Nat) = 1) by decide)

/-- `![X]: p($ite(q(X), a, X))`, which satisfies the conditions. -/
def F' : FT := .qu true 1 (p (.ite (q (.var 1)) a (.var 1)))

example : WT exSg F' ∧ F'.ty exSg = exSg.fty 1 ∧ OK true F' ∧ doIte 10 F' =
    some (.qu true 1 (.bin .and (.bin .or (.eqn false (.app 11 [.var 1]) tt) (p a)) (.bin .or (q (.var 1)) (p (.var 1))))) := by
  refine ⟨?_, rfl, ?_, rfl⟩
  · simp [F', WT, WTL, ty, p, q, a, tt]
  · simp [F', OK, OKL, p, q, a, tt, IteFreeL]

/-- `![X]: s((![Y]: q(Y)) | p(X))`, which satisfies the conditions. -/
def H' : FT := .qu true 1 (s (.bin .or (.qu true 2 (q (.var 2))) (p (.var 1))))

example : WT exSg H' ∧ H'.ty exSg = exSg.fty 1 ∧ VarSides H' ∧ unrollFool exSg 10 H' =
    some (.qu true 1 (.bin .and
      (.bin .or (.not (.bin .or (.qu true 2 (q (.var 2))) (p (.var 1)))) (s tt))
      (.bin .or (.bin .or (.qu true 2 (q (.var 2))) (p (.var 1))) (s ff)))) := by
  refine ⟨?_, rfl, ?_, rfl⟩
  · simp [H', WT, WTL, ty, s, p, q, tt]
  · simp [H', VarSides, VarSidesL, s, p, q, tt, isVar]

end FoolEx

end Verif.Props
