import Verif.Formulas.CNF

/-!
# The equivalence transformations preserve the meaning
-/

namespace Verif.CNFProof
open Form SemProof

universe u
variable {sg : Sig}

theorem varFree_iff {x : Nat} {f : Form} : f.varFree x = true ↔ f.FV x := by
  induction f with
  | lit p l r => simp [varFree, FV]
  | atom t => simp [varFree, FV]
  | not f ih => simpa [varFree, FV] using ih
  | bin op f g ih1 ih2 => simp [varFree, FV, ih1, ih2]
  | qu u y f ih =>
    simp only [varFree, FV]
    split
    · simp_all
    · rename_i h; simp [ih, Ne.symm h]

theorem bin_congr {op : BOp} {p q p' q' : Prop} (h1 : p ↔ p') (h2 : q ↔ q') : op.Holds p q ↔ op.Holds p' q' := by
  rw [propext h1, propext h2]

theorem litTrue_congr (I : Interp.{u} sg) {v w : Nat → I.D} {L : Lit} (h : ∀ x, x ∈ L.l.vars ∨ x ∈ L.r.vars → v x = w x) :
    I.LitTrue v L ↔ I.LitTrue w L := by
  unfold Interp.LitTrue
  rw [eval_congr I (w := w) (t := L.l) fun x hx => h x (.inl hx), eval_congr I (w := w) (t := L.r) fun x hx => h x (.inr hx)]

theorem holds_congr (I : Interp.{u} sg) {f : Form} : ∀ {v w : Nat → I.D}, (∀ x, f.FV x → v x = w x) → (f.Holds I v ↔ f.Holds I w) := by
  induction f with
  | lit p l r => intro v w h; exact litTrue_congr I h
  | atom t => intro v w h; simp only [Holds]; rw [eval_congr I h]
  | not f ih => intro v w h; exact not_congr (ih h)
  | bin op f g ih1 ih2 => intro v w h; exact bin_congr (ih1 fun x hx => h x (.inl hx)) (ih2 fun x hx => h x (.inr hx))
  | qu u y f ih =>
    intro v w h
    have hx : ∀ d x, f.FV x → updv v y d x = updv w y d x := by
      intro d x hx
      by_cases hxy : x = y
      · simp [updv, hxy]
      · simp only [updv, hxy, if_false]; exact h x ⟨hxy, hx⟩
    cases u with
    | true => exact forall_congr' fun d => imp_congr_right fun _ => ih (hx d)
    | false => exact exists_congr fun d => and_congr_right fun _ => ih (hx d)

theorem holds_updv (I : Interp.{u} sg) {f : Form} {x : Nat} (hx : ¬ f.FV x) (v : Nat → I.D) (d : I.D) :
    f.Holds I (updv v x d) ↔ f.Holds I v := by
  refine holds_congr I fun y hy => ?_
  have : y ≠ x := fun h => hx (h ▸ hy)
  simp [updv, this]

/-- A vacuous quantifier. -/
theorem holds_vacuous (I : Interp.{u} sg) {f : Form} {x : Nat} (hx : ¬ f.FV x) (q : Bool) (v : Nat → I.D) :
    (qu q x f).Holds I v ↔ f.Holds I v := by
  obtain ⟨d, hd⟩ := I.inhab (sg.vty x)
  cases q with
  | true => simp only [Holds]; exact ⟨fun h => (holds_updv I hx v d).1 (h d hd), fun h e _ => (holds_updv I hx v e).2 h⟩
  | false => simp only [Holds]; exact ⟨fun ⟨e, _, h⟩ => (holds_updv I hx v e).1 h, fun h => ⟨d, hd, (holds_updv I hx v d).2 h⟩⟩

theorem qu_congr (I : Interp.{u} sg) {f g : Form} (h : ∀ v, f.Holds I v ↔ g.Holds I v) (q : Bool) (x : Nat) (v : Nat → I.D) :
    (qu q x f).Holds I v ↔ (qu q x g).Holds I v := by
  cases q with
  | true => exact forall_congr' fun d => imp_congr_right fun _ => h _
  | false => exact exists_congr fun d => and_congr_right fun _ => h _

theorem litTrue_neg (I : Interp.{u} sg) (v : Nat → I.D) (p : Bool) (l r : Term) :
    I.LitTrue v ⟨!p, l, r⟩ ↔ ¬ I.LitTrue v ⟨p, l, r⟩ := by
  cases p <;> simp [Interp.LitTrue]

/-! ## Simplification -/

theorem propConst_holds (I : Interp.{u} sg) (b : Bool) (v : Nat → I.D) : (propConst b).Holds I v ↔ b = true := by
  cases b <;> simp [propConst, Holds, Interp.LitTrue]

theorem isPropConst_holds (I : Interp.{u} sg) {f : Form} {b : Bool} (h : f.isPropConst b = true) (v : Nat → I.D) :
    f.Holds I v ↔ b = true := by
  cases f with
  | lit p l r =>
    simp only [isPropConst, Bool.and_eq_true, beq_iff_eq, decide_eq_true_eq] at h
    obtain ⟨⟨rfl, rfl⟩, rfl⟩ := h
    exact propConst_holds I p v
  | _ => simp [isPropConst] at h

theorem negAlloc_holds (I : Interp.{u} sg) (f : Form) (v : Nat → I.D) : f.negAlloc.Holds I v ↔ ¬ f.Holds I v := by
  cases f <;> simp [negAlloc, Holds]

theorem argReturnOther_cases {f g h : Form} {b : Bool} (e : argReturnOther f g b = some h) :
    (f.isPropConst b = true ∧ h = g) ∨ (g.isPropConst b = true ∧ h = f) := by
  unfold argReturnOther at e
  split at e
  · rename_i h1; exact .inl ⟨h1, (Option.some.inj e).symm⟩
  · split at e
    · rename_i h1; exact .inr ⟨h1, (Option.some.inj e).symm⟩
    · simp at e

theorem argReturn_cases {f g h : Form} {b : Bool} (e : argReturn f g b = some h) :
    (f.isPropConst b = true ∧ h = f) ∨ (g.isPropConst b = true ∧ h = g) := by
  unfold argReturn at e
  split at e
  · rename_i h1; exact .inl ⟨h1, (Option.some.inj e).symm⟩
  · split at e
    · rename_i h1; exact .inr ⟨h1, (Option.some.inj e).symm⟩
    · simp at e

/-- The possible outcomes of `simpBin`. -/
inductive SimpOut (S : Form → Option Form) : BOp → Form → Form → Form → Prop
  | id {op f g} : (op = .and ∨ op = .or ∨ op = .impl ∨ op = .equiv) → SimpOut S op f g (bin op f g)
  | orF1 {f g} : f.isPropConst false = true → SimpOut S .or f g g
  | orF2 {f g} : g.isPropConst false = true → SimpOut S .or f g f
  | orT1 {f g} : f.isPropConst true = true → SimpOut S .or f g f
  | orT2 {f g} : g.isPropConst true = true → SimpOut S .or f g g
  | orE {f} : SimpOut S .or f f f
  | andT1 {f g} : f.isPropConst true = true → SimpOut S .and f g g
  | andT2 {f g} : g.isPropConst true = true → SimpOut S .and f g f
  | andF1 {f g} : f.isPropConst false = true → SimpOut S .and f g f
  | andF2 {f g} : g.isPropConst false = true → SimpOut S .and f g g
  | andE {f} : SimpOut S .and f f f
  | eqT1 {f g} : f.isPropConst true = true → SimpOut S .equiv f g g
  | eqT2 {f g} : g.isPropConst true = true → SimpOut S .equiv f g f
  | eqF1 {f g} : f.isPropConst false = true → SimpOut S .equiv f g g.negAlloc
  | eqF2 {f g} : g.isPropConst false = true → SimpOut S .equiv f g f.negAlloc
  | eqE {f} : SimpOut S .equiv f f (propConst true)
  | imT1 {f g} : f.isPropConst true = true → SimpOut S .impl f g g
  | imF1 {f g} : f.isPropConst false = true → SimpOut S .impl f g (propConst true)
  | imF2 {f g} : g.isPropConst false = true → SimpOut S .impl f g f.negAlloc
  | imT2 {f g} : g.isPropConst true = true → SimpOut S .impl f g (propConst true)
  | imE {f} : SimpOut S .impl f f (propConst true)
  | xor {f g h} : S (not (bin .equiv f g)) = some h → SimpOut S .xor f g h
  | bimpl {f g h} : S (bin .impl g f) = some h → SimpOut S .bimpl f g h
  | nor {f g h} : S (not (bin .or f g)) = some h → SimpOut S .nor f g h
  | nand {f g h} : S (not (bin .and f g)) = some h → SimpOut S .nand f g h

theorem simpBin_out {S : Form → Option Form} {op : BOp} {f g h : Form} (e : simpBin S op f g = some h) : SimpOut S op f g h := by
  cases op with
  | or =>
    simp only [simpBin] at e
    split at e
    · rename_i h1 h2
      cases e
      rcases argReturnOther_cases h2 with ⟨h3, rfl⟩ | ⟨h3, rfl⟩
      · exact .orF1 h3
      · exact .orF2 h3
    · split at e
      · rename_i h1 h2
        cases e
        rcases argReturn_cases h2 with ⟨h3, rfl⟩ | ⟨h3, rfl⟩
        · exact .orT1 h3
        · exact .orT2 h3
      · by_cases hfg : f = g
        · subst hfg; simp at e; subst e; exact .orE
        · simp [hfg] at e; subst e; exact .id (by simp)
  | and =>
    simp only [simpBin] at e
    split at e
    · rename_i h1 h2
      cases e
      rcases argReturnOther_cases h2 with ⟨h3, rfl⟩ | ⟨h3, rfl⟩
      · exact .andT1 h3
      · exact .andT2 h3
    · split at e
      · rename_i h1 h2
        cases e
        rcases argReturn_cases h2 with ⟨h3, rfl⟩ | ⟨h3, rfl⟩
        · exact .andF1 h3
        · exact .andF2 h3
      · by_cases hfg : f = g
        · subst hfg; simp at e; subst e; exact .andE
        · simp [hfg] at e; subst e; exact .id (by simp)
  | equiv =>
    simp only [simpBin] at e
    split at e
    · rename_i h1 h2
      cases e
      rcases argReturnOther_cases h2 with ⟨h3, rfl⟩ | ⟨h3, rfl⟩
      · exact .eqT1 h3
      · exact .eqT2 h3
    · split at e
      · rename_i h1 h2
        cases e
        rcases argReturnOther_cases h2 with ⟨h3, rfl⟩ | ⟨h3, rfl⟩
        · exact .eqF1 h3
        · exact .eqF2 h3
      · by_cases hfg : f = g
        · subst hfg; simp at e; subst e; exact .eqE
        · simp [hfg] at e; subst e; exact .id (by simp)
  | impl =>
    simp only [simpBin, Option.some.injEq] at e
    subst e
    split
    · rename_i h; exact .imT1 h
    split
    · rename_i h; exact .imF1 h
    split
    · rename_i h; exact .imF2 h
    split
    · rename_i h; exact .imT2 h
    split
    · rename_i h; subst h; exact .imE
    · exact .id (by simp)
  | xor => exact .xor e
  | bimpl => exact .bimpl e
  | nor => exact .nor e
  | nand => exact .nand e

/-- `S` preserves the meaning in `I`. -/
def Pres (I : Interp.{u} sg) (S : Form → Option Form) : Prop := ∀ f f', S f = some f' → ∀ v, f'.Holds I v ↔ f.Holds I v

theorem simpBin_holds {I : Interp.{u} sg} {S : Form → Option Form} (hS : Pres I S) {op : BOp} {f g h : Form} (e : simpBin S op f g = some h)
    (v : Nat → I.D) : h.Holds I v ↔ (bin op f g).Holds I v := by
  have := simpBin_out e
  cases this with
  | id _ => rfl
  | orF1 h1 => simp [Holds, BOp.Holds, isPropConst_holds I h1]
  | orF2 h1 => simp [Holds, BOp.Holds, isPropConst_holds I h1]
  | orT1 h1 => simp [Holds, BOp.Holds, isPropConst_holds I h1]
  | orT2 h1 => simp [Holds, BOp.Holds, isPropConst_holds I h1]
  | orE => simp [Holds, BOp.Holds]
  | andT1 h1 => simp [Holds, BOp.Holds, isPropConst_holds I h1]
  | andT2 h1 => simp [Holds, BOp.Holds, isPropConst_holds I h1]
  | andF1 h1 => simp [Holds, BOp.Holds, isPropConst_holds I h1]
  | andF2 h1 => simp [Holds, BOp.Holds, isPropConst_holds I h1]
  | andE => simp [Holds, BOp.Holds]
  | eqT1 h1 => simp [Holds, BOp.Holds, isPropConst_holds I h1]
  | eqT2 h1 => simp [Holds, BOp.Holds, isPropConst_holds I h1]
  | eqF1 h1 => simp [Holds, BOp.Holds, isPropConst_holds I h1, negAlloc_holds]
  | eqF2 h1 => simp [Holds, BOp.Holds, isPropConst_holds I h1, negAlloc_holds]
  | eqE => simp [Holds, BOp.Holds, propConst_holds]
  | imT1 h1 => simp [Holds, BOp.Holds, isPropConst_holds I h1]
  | imF1 h1 => simp [Holds, BOp.Holds, isPropConst_holds I h1, propConst_holds]
  | imF2 h1 => simp [Holds, BOp.Holds, isPropConst_holds I h1, negAlloc_holds]
  | imT2 h1 => simp [Holds, BOp.Holds, isPropConst_holds I h1, propConst_holds]
  | imE => simp [Holds, BOp.Holds, propConst_holds]
  | xor h1 => rw [hS _ _ h1]; rfl
  | bimpl h1 => rw [hS _ _ h1]; rfl
  | nor h1 => rw [hS _ _ h1]; rfl
  | nand h1 => rw [hS _ _ h1]; rfl

/-- The possible outcomes of `simpStep`. -/
inductive StepOut (small : Form → Bool) (S : Form → Option Form) : Form → Form → Prop
  | same {f} : (∀ op g h, f ≠ bin op g h) → StepOut small S f f
  | neg {p l r} : StepOut small S (not (lit p l r)) (lit (!p) l r)
  | bin {op f g h} : SimpOut S op f g h → StepOut small S (bin op f g) h
  | vac {q x f} : f.varFree x = false → StepOut small S (qu q x f) f

theorem simpStep_out {small : Form → Bool} {S : Form → Option Form} {f h : Form} (e : simpStep small S f = some h) : StepOut small S f h := by
  cases f with
  | lit p l r => simp [simpStep] at e; subst e; exact .same (by simp)
  | atom t => simp [simpStep] at e; subst e; exact .same (by simp)
  | not f =>
    cases f with
    | lit p l r => simp [simpStep] at e; subst e; exact .neg
    | _ => simp [simpStep] at e; subst e; exact .same (by simp)
  | bin op f g => exact .bin (simpBin_out e)
  | qu q x f =>
    simp only [simpStep, Option.some.injEq] at e
    subst e
    split
    · rename_i h1; simp at h1; exact .vac h1.2
    · exact .same (by simp)

theorem simpStep_holds {I : Interp.{u} sg} {small : Form → Bool} {S : Form → Option Form} (hS : Pres I S) : Pres I (simpStep small S) := by
  intro f h e v
  cases f with
  | bin op f g => exact simpBin_holds hS e v
  | _ =>
    have := simpStep_out e
    first
    | (cases this; rfl; done)
    | (cases this with
       | same _ => rfl
       | neg => exact litTrue_neg I v _ _ _)
    | (cases this with
       | same _ => rfl
       | vac h1 => exact (holds_vacuous I (fun h2 => by rw [varFree_iff.2 h2] at h1; simp at h1) _ v).symm)

theorem simpLoop_holds {I : Interp.{u} sg} {small : Form → Bool} {S : Form → Option Form} (hS : Pres I S) (k : Nat) :
    Pres I (simpLoop small S k) := by
  induction k with
  | zero => intro f f' e; simp [simpLoop] at e
  | succ k ih =>
    intro f f' e v
    simp only [simpLoop, Option.bind_eq_bind, Option.bind_eq_some_iff] at e
    obtain ⟨n, e1, e2⟩ := e
    split at e2
    · cases e2; exact simpStep_holds hS _ _ e1 v
    · rw [ih _ _ e2, simpStep_holds hS _ _ e1]

theorem simplify_holds (I : Interp.{u} sg) (small : Form → Bool) (k : Nat) : Pres I (simplify small k) := by
  induction k with
  | zero => intro f f' e; simp [simplify] at e
  | succ k ih =>
    intro f f' e v
    cases f with
    | lit p l r => simp [simplify] at e; subst e; rfl
    | atom t => exact simpLoop_holds ih k _ _ e v
    | not g =>
      simp only [simplify, Option.bind_eq_bind, Option.bind_eq_some_iff] at e
      obtain ⟨g', e1, e2⟩ := e
      rw [simpLoop_holds ih k _ _ e2]
      exact not_congr (ih _ _ e1 v)
    | bin op g h =>
      simp only [simplify, Option.bind_eq_bind, Option.bind_eq_some_iff] at e
      obtain ⟨g', e1, h', e2, e3⟩ := e
      rw [simpLoop_holds ih k _ _ e3]
      exact bin_congr (ih _ _ e1 v) (ih _ _ e2 v)
    | qu q x g =>
      simp only [simplify, Option.bind_eq_bind, Option.bind_eq_some_iff] at e
      obtain ⟨g', e1, e2⟩ := e
      rw [simpLoop_holds ih k _ _ e2]
      exact qu_congr I (ih _ _ e1) q x v

/-! ## Negation normal form -/

theorem rootNNF_holds (I : Interp.{u} sg) (pol : Int) (f : Form) (v : Nat → I.D) : (rootNNF pol f).Holds I v ↔ f.Holds I v := by
  fun_induction rootNNF pol f with
  | case1 p l r => exact litTrue_neg I v p l r
  | case2 => simp [Holds, Interp.LitTrue, tTrue, eval_app]
  | case3 => simp only [Holds, Interp.LitTrue, tFalse, eval_app, List.map_nil, if_true, true_iff]; exact fun h => I.tf h.symm
  | case4 => rfl
  | case5 f ih => rw [ih]; simp [Holds]
  | case6 f g => simp [Holds, BOp.Holds]
  | case7 f g => simp only [Holds, BOp.Holds]; tauto
  | case8 q x f => cases q <;> simp [Holds]
  | case9 f g => simp only [Holds, BOp.Holds]; tauto
  | case10 f g => simp only [Holds, BOp.Holds]; tauto
  | case11 f g => simp only [Holds, BOp.Holds]; tauto
  | case12 => rfl

theorem encodeAtom_holds (I : Interp.{u} sg) (t : Term) (v : Nat → I.D) : (encodeAtom t).Holds I v ↔ (atom t).Holds I v := by
  unfold encodeAtom
  split
  · rename_i h; simp [Holds, Interp.LitTrue, h, tTrue, eval_app]
  split
  · rename_i h; simp only [Holds, Interp.LitTrue, h, tFalse, eval_app, List.map_nil]; simp [I.tf.symm]
  · simp [Holds, Interp.LitTrue, eval_true]

theorem nnf_holds (I : Interp.{u} sg) (k : Nat) : ∀ pol, Pres I (nnf k pol) := by
  induction k with
  | zero => intro pol f f' e; simp [nnf] at e
  | succ k ih =>
    intro pol f f' e v
    rw [← rootNNF_holds I pol f v]
    simp only [nnf] at e
    split at e
    · rename_i g hr
      rw [hr]
      simp only [Option.bind_eq_bind, Option.bind_eq_some_iff] at e
      obtain ⟨g', e1, e2⟩ := e
      split at e2
      · cases e2; rfl
      · rw [ih _ _ _ e2]; exact not_congr (ih _ _ _ e1 v)
    · rename_i q x g hr
      rw [hr]
      simp only [Option.bind_eq_bind, Option.bind_eq_some_iff] at e
      obtain ⟨g', e1, e2⟩ := e
      split at e2
      · cases e2; rfl
      · rw [ih _ _ _ e2]; exact qu_congr I (ih _ _ _ e1) q x v
    · rename_i op g h hr
      rw [hr]
      split at e
      · simp only [Option.bind_eq_bind, Option.bind_eq_some_iff] at e
        obtain ⟨g', e1, h', e2, e3⟩ := e
        split at e3
        · cases e3; rfl
        · rw [ih _ _ _ e3]; exact bin_congr (ih _ _ _ e1 v) (ih _ _ _ e2 v)
      · cases e; rfl
    · rename_i t hr
      rw [hr]
      cases e; exact encodeAtom_holds I t v
    · rename_i p l r hr
      rw [hr]
      cases e; rfl

/-! ## Miniscoping -/

theorem miniRoot_holds (I : Interp.{u} sg) (f : Form) (v : Nat → I.D) : (miniRoot f).Holds I v ↔ f.Holds I v := by
  fun_cases miniRoot f with
  | case1 q x op f g ho hf =>
    have hf : ¬ f.FV x := fun h => by simp [varFree_iff.2 h] at hf
    obtain ⟨d0, hd0⟩ := I.inhab (sg.vty x)
    rcases ho with rfl | rfl <;> cases q <;> simp only [Holds, BOp.Holds, holds_updv I hf]
    · constructor
      · rintro ⟨h1, d, hd, h2⟩; exact ⟨d, hd, h1, h2⟩
      · rintro ⟨d, hd, h1, h2⟩; exact ⟨h1, d, hd, h2⟩
    · exact ⟨fun h d hd => ⟨h.1, h.2 d hd⟩, fun h => ⟨(h d0 hd0).1, fun d hd => (h d hd).2⟩⟩
    · constructor
      · rintro (h1 | ⟨d, hd, h2⟩)
        · exact ⟨d0, hd0, .inl h1⟩
        · exact ⟨d, hd, .inr h2⟩
      · rintro ⟨d, hd, h1 | h2⟩
        · exact .inl h1
        · exact .inr ⟨d, hd, h2⟩
    · constructor
      · rintro (h1 | h2) d hd
        · exact .inl h1
        · exact .inr (h2 d hd)
      · intro h
        by_cases h1 : f.Holds I v
        · exact .inl h1
        · exact .inr fun d hd => (h d hd).resolve_left h1
  | case2 q x op f g ho _ hg =>
    have hg : ¬ g.FV x := fun h => by simp [varFree_iff.2 h] at hg
    obtain ⟨d0, hd0⟩ := I.inhab (sg.vty x)
    rcases ho with rfl | rfl <;> cases q <;> simp only [Holds, BOp.Holds, holds_updv I hg]
    · constructor
      · rintro ⟨⟨d, hd, h1⟩, h2⟩; exact ⟨d, hd, h1, h2⟩
      · rintro ⟨d, hd, h1, h2⟩; exact ⟨⟨d, hd, h1⟩, h2⟩
    · exact ⟨fun h d hd => ⟨h.1 d hd, h.2⟩, fun h => ⟨fun d hd => (h d hd).1, (h d0 hd0).2⟩⟩
    · constructor
      · rintro (⟨d, hd, h1⟩ | h2)
        · exact ⟨d, hd, .inl h1⟩
        · exact ⟨d0, hd0, .inr h2⟩
      · rintro ⟨d, hd, h1 | h2⟩
        · exact .inl ⟨d, hd, h1⟩
        · exact .inr h2
    · constructor
      · rintro (h1 | h2) d hd
        · exact .inl (h1 d hd)
        · exact .inr h2
      · intro h
        by_cases h1 : g.Holds I v
        · exact .inr h1
        · exact .inl fun d hd => (h d hd).resolve_right h1
  | case3 q x op f g _ _ _ ho =>
    rcases ho with ⟨rfl, rfl⟩ | ⟨rfl, rfl⟩ <;> simp only [Holds, BOp.Holds]
    · exact ⟨fun h d hd => ⟨h.1 d hd, h.2 d hd⟩, fun h => ⟨fun d hd => (h d hd).1, fun d hd => (h d hd).2⟩⟩
    · constructor
      · rintro (⟨d, hd, h⟩ | ⟨d, hd, h⟩)
        · exact ⟨d, hd, .inl h⟩
        · exact ⟨d, hd, .inr h⟩
      · rintro ⟨d, hd, h | h⟩
        · exact .inl ⟨d, hd, h⟩
        · exact .inr ⟨d, hd, h⟩
  | case4 => rfl
  | case5 => rfl
  | case6 => rfl

theorem miniScope_holds (I : Interp.{u} sg) (k : Nat) : Pres I (miniScope k) := by
  induction k with
  | zero => intro f f' e; simp [miniScope] at e
  | succ k ih =>
    intro f f' e v
    rw [← miniRoot_holds I f v]
    simp only [miniScope] at e
    split at e
    · rename_i g hr
      rw [hr]
      simp only [Option.bind_eq_bind, Option.bind_eq_some_iff] at e
      obtain ⟨g', e1, e2⟩ := e
      split at e2
      · cases e2; rfl
      · rw [ih _ _ e2]; exact not_congr (ih _ _ e1 v)
    · rename_i op g h hr
      rw [hr]
      simp only [Option.bind_eq_bind, Option.bind_eq_some_iff] at e
      obtain ⟨g', e1, h', e2, e3⟩ := e
      split at e3
      · cases e3; rfl
      · rw [ih _ _ e3]; exact bin_congr (ih _ _ e1 v) (ih _ _ e2 v)
    · rename_i q x g hr
      rw [hr]
      simp only [Option.bind_eq_bind, Option.bind_eq_some_iff] at e
      obtain ⟨g', e1, e2⟩ := e
      split at e2
      · cases e2; rfl
      · rw [ih _ _ e2]; exact qu_congr I (ih _ _ e1) q x v
    · rename_i t hr
      rw [hr]; cases e; rfl
    · rename_i p l r hr
      rw [hr]; cases e; rfl

theorem copyMod_holds (I : Interp.{u} sg) (cand : Form → Bool) (k : Nat) : Pres I (copyMod cand k) := by
  intro f
  induction f with
  | lit p l r => intro f' e v; cases e; rfl
  | atom t => intro f' e v; cases e; rfl
  | not f ih =>
    intro f' e v
    simp only [copyMod] at e
    split at e
    · exact miniScope_holds I k _ _ e v
    · obtain ⟨g, e1, rfl⟩ := Option.map_eq_some_iff.1 e
      exact not_congr (ih _ e1 v)
  | bin op f g ih1 ih2 =>
    intro f' e v
    simp only [copyMod] at e
    split at e
    · exact miniScope_holds I k _ _ e v
    · simp only [Option.bind_eq_bind, Option.bind_eq_some_iff] at e
      obtain ⟨a, e1, b, e2, e3⟩ := e
      cases e3
      exact bin_congr (ih1 _ e1 v) (ih2 _ e2 v)
  | qu q x f ih =>
    intro f' e v
    simp only [copyMod] at e
    split at e
    · exact miniScope_holds I k _ _ e v
    · cases e; rfl

/-! ## Distribution -/

theorem distSub_holds {I : Interp.{u} sg} {D : Form → Option Form} (hD : Pres I D) : Pres I (distSub D) := by
  intro f f' e v
  cases f with
  | lit p l r => cases e; rfl
  | atom t => cases e; rfl
  | not a =>
    obtain ⟨a', e3, rfl⟩ := Option.map_eq_some_iff.1 e
    exact not_congr (hD _ _ e3 v)
  | bin op a b =>
    simp only [distSub, Option.bind_eq_some_iff, Option.map_eq_some_iff] at e
    obtain ⟨a', e3, b', e4, rfl⟩ := e
    exact bin_congr (hD _ _ e3 v) (hD _ _ e4 v)
  | qu q x a =>
    obtain ⟨a', e3, rfl⟩ := Option.map_eq_some_iff.1 e
    exact qu_congr I (hD _ _ e3) q x v

theorem distRoot_holds {I : Interp.{u} sg} {D : Form → Option Form} (hD : Pres I D) : Pres I (distRoot D) := by
  intro f f' e v
  unfold distRoot at e
  split at e
  · rw [hD _ _ e]; simp only [Holds, BOp.Holds]; tauto
  · rw [hD _ _ e]; simp only [Holds, BOp.Holds]; tauto
  · cases e; rfl

theorem distribute_holds (I : Interp.{u} sg) (k : Nat) : Pres I (distribute k) := by
  induction k with
  | zero => intro f f' e; simp [distribute] at e
  | succ k ih =>
    intro f f' e v
    simp only [distribute, Option.bind_eq_some_iff] at e
    obtain ⟨g, e1, e2⟩ := e
    rw [distRoot_holds ih _ _ e2, distSub_holds ih _ _ e1]

end Verif.CNFProof
