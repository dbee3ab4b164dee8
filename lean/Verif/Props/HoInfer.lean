import Verif.HO.HoInferFlex
import Verif.HO.HoInferComplete
import Verif.HO.NegExtProof

/-!
# C88: higher-order inferences are sound
-/

namespace Verif
namespace Props

open HoInf

/-- The clauses made by argument congruence hold in every extensional model of the clause (`ty` gives the types of the sides). -/
theorem argument_congruence_sound {G : Nat → HTy} (M : HInt G) {ty : HTm → HTy} {sel : HLit → Bool} {n : Nat} {cl new : List HLit}
    (hT : ∀ c ∈ cl, LitTyped G c) (ht : ∀ c ∈ cl, tyOf G c.l = some (ty c.l)) (h : M.Holds cl) (hn : new ∈ argCong ty sel n [] cl) : M.Holds new :=
  argCong_sound M cl [] (by simpa using hT) ht (by simpa using h) new hn

/-- The clauses made by positive extensionality hold in every extensional model of the clause. -/
theorem positive_extensionality_sound {G : Nat → HTy} (M : HInt G) {sel : HLit → Bool} {cl new : List HLit}
    (hT : ∀ c ∈ cl, LitTyped G c) (h : M.Holds cl) (hn : new ∈ posExt sel [] cl) : M.Holds new :=
  posExt_sound M cl [] (by simpa using hT) (by simpa using h) new hn

/-- For a selected positive equation, argument congruence makes a clause for each number of arguments: new variables `n`, `n + 1`, ... of the types of
the arguments are applied to both sides, and the other literals are kept. -/
theorem argument_congruence_all {ty : HTm → HTy} {sel : HLit → Bool} {n : Nat} {l r : HTm} {pre suf : List HLit} (hs : sel ⟨true, l, some r⟩ = true)
    {i : Nat} (hi : i < (ty l).args.length) :
    ∃ xs : List HTm, xs = ((ty l).args.take (i + 1)).zipIdx.map (fun p => HTm.var (n + p.2) p.1) ∧
      (⟨true, xs.foldl applyArg l, some (xs.foldl applyArg r)⟩ :: (pre ++ suf)) ∈ argCong ty sel n [] (pre ++ ⟨true, l, some r⟩ :: suf) := by
  obtain ⟨xs, hx, h⟩ := argCongLit_mem (pre ++ suf) (ty l).args n l r i hi
  exact ⟨xs, hx, argCong_mem pre [] _ hs (by simpa using h)⟩

/-- If both sides of a selected positive equation are terms applied to the same distinct variables, which occur nowhere else, positive extensionality
makes the clause without these variables. -/
theorem positive_extensionality_all {G : Nat → HTy} {sel : HLit → Bool} {l r : HTm} {τ : HTy} {xs : List (Nat × HTy)} {pre suf : List HLit} (hx : xs ≠ [])
    (hl : tyOf G l = some (arrows (xs.map (·.2)) τ)) (hr : tyOf G r = some (arrows (xs.map (·.2)) τ)) (hd : xs.Nodup)
    (hv : ∀ p ∈ xs, hasVar p.1 p.2 l = false ∧ hasVar p.1 p.2 r = false ∧ (pre ++ suf).any (litHasVar p.1 p.2) = false)
    (hs : sel ⟨true, applyVars l xs, some (applyVars r xs)⟩ = true) :
    (⟨true, l, some r⟩ :: (pre ++ suf)) ∈ posExt sel [] (pre ++ ⟨true, applyVars l xs, some (applyVars r xs)⟩ :: suf) := by
  refine posExt_mem pre [] _ hs ?_
  exact posExtLit_mem (pre ++ suf) xs _ hx (Nat.le_succ_of_le (applyVars_length xs l)) hl hr hd hv

/-- A flex clause is replaced by the empty clause only if it holds in no model with constant functions. -/
theorem flex_clause_sound {G : Nat → HTy} {M : HInt G} (hK : M.Constants) {cl : List HLit} (hT : ∀ c ∈ cl, LitTyped G c)
    (h : resolveFlex cl = true) : ¬ M.Holds cl :=
  resolveFlex_sound hK hT h

/-- Negative extensionality: in a model of the clause with full function spaces, the new symbols (numbered from `n`, of the types of Skolem functions over
the variables of the literal) can be given values such that all new clauses hold.  The values of all other symbols stay. -/
theorem negative_extensionality_sound {G : Nat → HTy} {M : HInt G} (hF : M.Full) {ty : HTm → HTy} {sel : HLit → Bool} {vars : HLit → List (Nat × HTy)}
    {n : Nat} {cl : List HLit} (hT : ∀ c ∈ cl, LitTyped G c) (ht : ∀ c ∈ cl, tyOf G c.l = some (ty c.l))
    (hv : ∀ c ∈ cl, ∀ x σ, litHasVar x σ c = true → (x, σ) ∈ vars c) (hb : ∀ c ∈ cl, litBelow n c) (hS : SkolemTypes G ty sel vars n cl) (h : M.Holds cl) :
    ∃ (I : Nat → M.D) (hI : ∀ f, M.mem (G f) (I f)), (∀ f, f < n → I f = M.I f) ∧ ∀ new ∈ negExt ty sel vars n [] cl, (M.reI I hI).Holds new :=
  negExt_sound cl M hF n [] (by simpa using hT) ht hv (by simpa using hb) hS (by simpa using h)

/-- For a selected negative equation, negative extensionality makes a clause for each number of arguments: new symbols `m`, `m + 1`, ..., applied to the
variables of the literal, are applied to both sides, and the other literals are kept. -/
theorem negative_extensionality_all {ty : HTm → HTy} {sel : HLit → Bool} {vars : HLit → List (Nat × HTy)} {n : Nat} {l r : HTm} {pre suf : List HLit}
    (hs : sel ⟨false, l, some r⟩ = true) : ∃ m, n ≤ m ∧ ∀ i, i < (ty l).args.length →
    ∃ ss : List HTm, ss = (List.range' m (i + 1)).map (fun j => HTm.fn j ((vars ⟨false, l, some r⟩).map fun p => .var p.1 p.2)) ∧
      (⟨false, ss.foldl applyArg l, some (ss.foldl applyArg r)⟩ :: (pre ++ suf)) ∈ negExt ty sel vars n [] (pre ++ ⟨false, l, some r⟩ :: suf) := by
  obtain ⟨m, hm, h⟩ := negExt_mem (ty := ty) (vars := vars) (suf := suf) hs pre n []
  refine ⟨m, hm, fun i hi => ?_⟩
  obtain ⟨ss, e, hq⟩ := negExtLit_mem (pre ++ suf) (vars ⟨false, l, some r⟩) (ty l).args m l r i hi
  exact ⟨ss, e, h _ (by simpa using hq)⟩

namespace HoInferEx

/-- The full function spaces over the truth values. -/
def Dom : HTy → Type
  | .base _ => Bool
  | .arr a b => Dom a → Dom b

def dflt : (τ : HTy) → Dom τ
  | .base _ => false
  | .arr _ b => fun _ => dflt b

def appD : (Σ τ, Dom τ) → (Σ τ, Dom τ) → Σ τ, Dom τ
  | ⟨.arr a b, f⟩, ⟨a', x⟩ => if h : a' = a then ⟨b, f (h ▸ x)⟩ else ⟨.base 0, false⟩
  | ⟨.base _, _⟩, _ => ⟨.base 0, false⟩

/-- The standard model. -/
def std (G : Nat → HTy) : HInt G where
  D := Σ τ, Dom τ
  mem τ d := d.1 = τ
  app := appD
  I f := ⟨G f, dflt (G f)⟩
  tt := ⟨.base 0, true⟩
  ff := ⟨.base 0, false⟩
  I_mem _ := rfl
  app_mem := by
    rintro a b ⟨τ, f⟩ ⟨σ, x⟩ rfl rfl
    simp [appD]
  bool_mem := by
    rintro ⟨τ, d⟩
    constructor
    · rintro rfl
      cases d
      · exact .inr rfl
      · exact .inl rfl
    · rintro (h | h) <;> cases h <;> rfl
  tt_ne_ff := by
    intro h
    have h : (true : Bool) = false := eq_of_heq (Sigma.mk.inj h).2
    cases h
  inhabited n := ⟨⟨.base n, false⟩, rfl⟩
  ext := by
    rintro a b ⟨τ, f⟩ ⟨σ, g⟩ rfl h hx
    cases h
    have : f = g := by
      funext x
      have := hx ⟨a, x⟩ rfl
      simp only [appD, dite_true] at this
      exact eq_of_heq (Sigma.mk.inj this).2
    rw [this]

theorem std_constants (G : Nat → HTy) : (std G).Constants := by
  rintro a b ⟨τ, c⟩ rfl
  refine ⟨⟨.arr a τ, fun _ => c⟩, rfl, ?_⟩
  rintro ⟨σ, x⟩ rfl
  show appD ⟨.arr σ τ, fun _ => c⟩ ⟨σ, x⟩ = (⟨τ, c⟩ : Σ τ, Dom τ)
  simp [appD]

/-- Two unary functions. -/
def G₁ : Nat → HTy := fun _ => .arr (.base 1) (.base 1)

/-- Binary functions. -/
def G₂ : Nat → HTy := fun _ => .arr (.base 1) (.arr (.base 1) (.base 1))

def lfg : HLit := ⟨true, .fn 1 [], some (.fn 2 [])⟩

def lfgx : HLit := ⟨true, .fn 1 [.var 0 (.base 1)], some (.fn 2 [.var 0 (.base 1)])⟩

/-- `f = g` gives `f X = g X`; the hypotheses are met. -/
example : (∀ c ∈ [lfg], LitTyped G₁ c) ∧ (∀ c ∈ [lfg], tyOf G₁ c.l = some ((fun _ => .arr (.base 1) (.base 1)) c.l)) ∧ (std G₁).Holds [lfg] ∧
    [lfgx] ∈ argCong (fun _ => .arr (.base 1) (.base 1)) (fun _ => true) 0 [] [lfg] := by
  refine ⟨?_, ?_, ?_, ?_⟩
  · simp only [List.mem_singleton, forall_eq]; exact ⟨.arr (.base 1) (.base 1), rfl, rfl⟩
  · simp only [List.mem_singleton, forall_eq]; rfl
  · exact fun v _ => ⟨lfg, List.mem_singleton.2 rfl, by simp only [HInt.LitTrue, lfg, if_true]; rfl⟩
  · exact List.mem_singleton.2 rfl

/-- `f X = g X` gives `f = g`; the hypotheses are met. -/
example : (∀ c ∈ [lfgx], LitTyped G₁ c) ∧ (std G₁).Holds [lfgx] ∧ [lfg] ∈ posExt (fun _ => true) [] [lfgx] := by
  refine ⟨?_, ?_, ?_⟩
  · simp only [List.mem_singleton, forall_eq]; exact ⟨.base 1, rfl, rfl⟩
  · exact fun v _ => ⟨lfgx, List.mem_singleton.2 rfl, by simp only [HInt.LitTrue, lfgx, if_true]; rfl⟩
  · exact List.mem_singleton.2 rfl

/-- `P X ∨ ¬ Q ∨ F X ≠ Y` is a flex clause; the hypotheses are met. -/
def flexC : List HLit :=
  [⟨true, .papp [.var 0 (.arr (.base 1) (.base 0)), .var 1 (.base 1)], none⟩, ⟨false, .var 2 (.base 0), none⟩,
    ⟨false, .papp [.var 3 (.arr (.base 1) (.base 1)), .var 1 (.base 1)], some (.var 4 (.base 1))⟩]

example : (std G₁).Constants ∧ (∀ c ∈ flexC, LitTyped G₁ c) ∧ resolveFlex flexC = true := by
  refine ⟨std_constants G₁, ?_, by decide⟩
  simp only [flexC, List.mem_cons, List.not_mem_nil, or_false, forall_eq_or_imp, forall_eq]
  exact ⟨rfl, rfl, .base 1, rfl, rfl⟩

example : (fun _ : HLit => true) ⟨true, .fn 1 [], some (.fn 2 [])⟩ = true ∧ 1 < (G₂ 1).args.length := by decide

/-- `f X Y = g X Y` gives `f = g` also with two arguments. -/
example : tyOf G₂ (.fn 1 []) = some (arrows ([(0, .base 1), (1, .base 1)].map (·.2)) (.base 1)) ∧ [(0, HTy.base 1), (1, .base 1)].Nodup ∧
    (∀ p ∈ [(0, HTy.base 1), (1, .base 1)], hasVar p.1 p.2 (.fn 1 []) = false ∧ hasVar p.1 p.2 (.fn 2 []) = false ∧
      ([] ++ [(⟨false, .fn 3 [], some (.fn 4 [])⟩ : HLit)]).any (litHasVar p.1 p.2) = false) := by
  refine ⟨rfl, by decide, ?_⟩
  simp only [List.mem_cons, List.not_mem_nil, or_false, forall_eq_or_imp, forall_eq]
  exact ⟨⟨rfl, rfl, rfl⟩, rfl, rfl, rfl⟩

theorem std_full (G : Nat → HTy) : (std G).Full := by
  intro a b F hF
  refine ⟨⟨.arr a b, fun x => hF ⟨a, x⟩ rfl ▸ (F ⟨a, x⟩).2⟩, rfl, ?_⟩
  rintro ⟨σ, x⟩ rfl
  have h := hF ⟨σ, x⟩ rfl
  show appD ⟨.arr σ b, fun x => hF ⟨σ, x⟩ rfl ▸ (F ⟨σ, x⟩).2⟩ ⟨σ, x⟩ = F ⟨σ, x⟩
  simp only [appD, dite_true]
  have : ∀ (d : Σ τ, Dom τ) (h : d.1 = b), (⟨b, h ▸ d.2⟩ : Σ τ, Dom τ) = d := by
    rintro ⟨τ, d⟩ rfl
    rfl
  exact this _ h

/-- `f` unary, `g` binary, the new symbol 3 unary. -/
def G₃ : Nat → HTy := fun n => if n = 2 then .arr (.base 1) (.arr (.base 1) (.base 1)) else .arr (.base 1) (.base 1)

/-- `f` is the identity. -/
def I₃ : Nat → (std G₃).D := fun n => if n = 1 then ⟨.arr (.base 1) (.base 1), fun x => x⟩ else (std G₃).I n

theorem I₃_mem : ∀ n, (std G₃).mem (G₃ n) (I₃ n) := by
  intro n
  by_cases h : n = 1
  · subst h; rfl
  · have e : I₃ n = (std G₃).I n := if_neg h
    rw [e]
    exact (std G₃).I_mem n

/-- `f ≠ g X`. -/
def lneg : HLit := ⟨false, .fn 1 [], some (.fn 2 [.var 0 (.base 1)])⟩

/-- `f ≠ g X` gives `f (s X) ≠ g X (s X)`; the hypotheses are met. -/
example : (∀ c ∈ [lneg], LitTyped G₃ c) ∧ (∀ c ∈ [lneg], tyOf G₃ c.l = some (.arr (.base 1) (.base 1))) ∧
    (∀ c ∈ [lneg], ∀ x σ, litHasVar x σ c = true → (x, σ) ∈ [(0, HTy.base 1)]) ∧ (∀ c ∈ [lneg], litBelow 3 c) ∧
    SkolemTypes G₃ (fun _ => .arr (.base 1) (.base 1)) (fun _ => true) (fun _ => [(0, .base 1)]) 3 [lneg] ∧ ((std G₃).reI I₃ I₃_mem).Full ∧
    ((std G₃).reI I₃ I₃_mem).Holds [lneg] ∧
    negExt (fun _ => .arr (.base 1) (.base 1)) (fun _ => true) (fun _ => [(0, .base 1)]) 3 [] [lneg] =
      [[⟨false, .fn 1 [.fn 3 [.var 0 (.base 1)]], some (.fn 2 [.var 0 (.base 1), .fn 3 [.var 0 (.base 1)]])⟩]] := by
  simp only [List.mem_singleton, forall_eq]
  refine ⟨⟨.arr (.base 1) (.base 1), rfl, rfl⟩, rfl, ?_, ?_, ?_, std_full G₃, ?_, rfl⟩
  · intro x σ h
    simp only [litHasVar, lneg, hasVar, hasVarL, Bool.false_or, Bool.or_false, Bool.and_eq_true, beq_iff_eq, decide_eq_true_eq] at h
    obtain ⟨rfl, rfl⟩ := h
    rfl
  · refine ⟨by simp [lneg, symBelow, symBelowL], fun r h => ?_⟩
    cases h
    simp [symBelow, symBelowL]
  · refine ⟨fun i hi => ?_, trivial⟩
    obtain rfl : i = 0 := by
      have : i < 1 := hi
      omega
    rfl
  · intro v hv
    refine ⟨lneg, List.mem_singleton.2 rfl, ?_⟩
    simp only [HInt.LitTrue, lneg, Bool.false_eq_true, if_false]
    intro h
    have e1 : ∀ d : Σ τ, Dom τ, d.1 = .base 1 → appD ⟨G₃ 2, dflt (G₃ 2)⟩ d = ⟨.arr (.base 1) (.base 1), fun _ => false⟩ := by
      rintro ⟨τ, d⟩ rfl
      rfl
    have h : (⟨.arr (.base 1) (.base 1), fun x => x⟩ : Σ τ, Dom τ) = appD ⟨G₃ 2, dflt (G₃ 2)⟩ (v 0 (.base 1)) := h
    rw [e1 _ (hv 0 (.base 1))] at h
    have h2 : (fun x : Bool => x) = fun _ => false := eq_of_heq (Sigma.mk.inj h).2
    exact absurd (congrFun h2 true) (by decide)

/-- `P ∨ ¬ P` is not. -/
example : resolveFlex [⟨true, .var 2 (.base 0), none⟩, ⟨false, .var 2 (.base 0), none⟩] = false := by decide

/-- `f X X = g X` and `f X = g X ∨ P X` give nothing. -/
example : posExt (fun _ => true) [] [⟨true, .fn 1 [.var 0 (.base 1), .var 0 (.base 1)], some (.fn 2 [.var 0 (.base 1)])⟩] = [] ∧
    posExt (fun _ => true) [] [lfgx, ⟨true, .fn 3 [.var 0 (.base 1)], none⟩] = [] := ⟨rfl, rfl⟩

end HoInferEx
end Props
end Verif
