import Verif.Formulas.CNFClauses

/-!
# Clausification terminates
-/

namespace Verif.CNFProof
open Form

/-- With enough fuel the result is `r`. -/
def Ev {α : Type} (φ : Nat → Option α) (r : α) : Prop := ∃ N, ∀ k ≥ N, φ k = some r

theorem Ev.const {α : Type} (r : α) : Ev (fun _ => some r) r := ⟨0, fun _ _ => rfl⟩

theorem Ev.succ {α : Type} {φ : Nat → Option α} {r : α} (h : Ev (fun k => φ (k + 1)) r) : Ev φ r := by
  obtain ⟨N, h⟩ := h
  refine ⟨N + 1, fun k hk => ?_⟩
  obtain ⟨j, rfl⟩ : ∃ j, k = j + 1 := ⟨k - 1, by omega⟩
  exact h j (by omega)

theorem Ev.bind {α β : Type} {φ : Nat → Option α} {ψ : α → Nat → Option β} {r : α} {s : β} (h1 : Ev φ r) (h2 : Ev (ψ r) s) :
    Ev (fun k => (φ k).bind fun r => ψ r k) s := by
  obtain ⟨N, h1⟩ := h1
  obtain ⟨M, h2⟩ := h2
  refine ⟨max N M, fun k hk => ?_⟩
  show (φ k).bind _ = _
  rw [h1 k (by omega)]
  exact h2 k (by omega)

theorem Ev.map {α β : Type} {φ : Nat → Option α} {r : α} (g : α → β) (h : Ev φ r) : Ev (fun k => (φ k).map g) (g r) := by
  obtain ⟨N, h⟩ := h
  exact ⟨N, fun k hk => by simp [h k hk]⟩

theorem Ev.congr {α : Type} {φ ψ : Nat → Option α} {r : α} (h : Ev φ r) (e : ∀ k, ψ k = φ k) : Ev ψ r := by
  obtain ⟨N, h⟩ := h
  exact ⟨N, fun k hk => by rw [e, h k hk]⟩

/-! ## Simplification -/

/-- A weight that every simplification decreases. -/
def swt : Form → Nat
  | .lit _ _ _ => 1
  | .atom _ => 1
  | .not f => swt f + 1
  | .bin op f g => (match op with | .xor | .nor | .nand => 4 | .bimpl => 3 | _ => 1) + swt f + swt g
  | .qu _ _ f => swt f + 1

theorem swt_pos (f : Form) : 0 < swt f := by
  cases f with
  | bin op f g => cases op <;> simp [swt]
  | _ => simp [swt]

theorem swt_negAlloc (f : Form) : swt f.negAlloc ≤ swt f + 1 := by cases f <;> simp [negAlloc, swt] <;> omega

theorem swt_out {S : Form → Option Form} {op : BOp} {f g h : Form} (hS : ∀ a b, S a = some b → swt b ≤ swt a) (e : SimpOut S op f g h) :
    h = bin op f g ∨ swt h < swt (bin op f g) := by
  have pf := swt_pos f; have pg := swt_pos g
  have nf := swt_negAlloc f; have ng := swt_negAlloc g
  cases e with
  | id _ => exact .inl rfl
  | xor e => right; have := hS _ _ e; simp only [swt] at this ⊢; omega
  | nor e => right; have := hS _ _ e; simp only [swt] at this ⊢; omega
  | nand e => right; have := hS _ _ e; simp only [swt] at this ⊢; omega
  | bimpl e => right; have := hS _ _ e; simp only [swt] at this ⊢; omega
  | _ => right; simp only [swt, propConst] <;> omega

theorem swt_step {small : Form → Bool} {S : Form → Option Form} {f h : Form} (hS : ∀ a b, S a = some b → swt b ≤ swt a)
    (e : simpStep small S f = some h) : h = f ∨ swt h < swt f := by
  cases simpStep_out e with
  | same => exact .inl rfl
  | neg => right; simp [swt]
  | bin e => exact swt_out hS e
  | vac => right; simp [swt]

theorem swt_loop {small : Form → Bool} {S : Form → Option Form} (hS : ∀ a b, S a = some b → swt b ≤ swt a) (k : Nat) :
    ∀ f h, simpLoop small S k f = some h → swt h ≤ swt f := by
  induction k with
  | zero => intro f h e; simp [simpLoop] at e
  | succ k ih =>
    intro f h e
    simp only [simpLoop, Option.bind_eq_bind, Option.bind_eq_some_iff] at e
    obtain ⟨n, e1, e2⟩ := e
    have h1 := swt_step hS e1
    split at e2
    · rename_i hh; cases e2; exact Nat.le_of_eq (by rw [hh])
    · have := ih _ _ e2
      rcases h1 with h1 | h1
      · subst h1; exact this
      · omega

theorem swt_simplify (small : Form → Bool) (k : Nat) : ∀ f h, simplify small k f = some h → swt h ≤ swt f := by
  induction k with
  | zero => intro f h e; simp [simplify] at e
  | succ k ih =>
    intro f h e
    cases f with
    | lit p l r => simp [simplify] at e; subst e; exact Nat.le_refl _
    | atom t => exact swt_loop ih k _ _ e
    | not g =>
      simp only [simplify, Option.bind_eq_bind, Option.bind_eq_some_iff] at e
      obtain ⟨g', e1, e2⟩ := e
      have := swt_loop ih k _ _ e2; have := ih _ _ e1
      simp only [swt] at *; omega
    | bin op g h =>
      simp only [simplify, Option.bind_eq_bind, Option.bind_eq_some_iff] at e
      obtain ⟨g', e1, h', e2, e3⟩ := e
      have := swt_loop ih k _ _ e3; have := ih _ _ e1; have := ih _ _ e2
      simp only [swt] at *; omega
    | qu q x g =>
      simp only [simplify, Option.bind_eq_bind, Option.bind_eq_some_iff] at e
      obtain ⟨g', e1, e2⟩ := e
      have := swt_loop ih k _ _ e2; have := ih _ _ e1
      simp only [swt] at *; omega

/-- The step has a result if the recursive calls on lighter formulas have one. -/
theorem simpStep_total {small : Form → Bool} {S : Nat → Form → Option Form} {f : Form}
    (hS : ∀ g, swt g < swt f → ∃ r, Ev (fun k => S k g) r) : ∃ r, Ev (fun k => simpStep small (S k) f) r := by
  have hsome : ∀ r, (∀ k, simpStep small (S k) f = some r) → ∃ r, Ev (fun k => simpStep small (S k) f) r := fun r h => ⟨r, 0, fun k _ => h k⟩
  cases f with
  | lit p l r => exact hsome _ fun k => rfl
  | atom t => exact hsome _ fun k => rfl
  | not f => cases f <;> exact hsome _ fun k => rfl
  | qu q x f => exact hsome _ fun k => rfl
  | bin op f g =>
    cases op with
    | xor => exact hS (not (bin .equiv f g)) (by simp only [swt]; omega)
    | nor => exact hS (not (bin .or f g)) (by simp only [swt]; omega)
    | nand => exact hS (not (bin .and f g)) (by simp only [swt]; omega)
    | bimpl => exact hS (bin .impl g f) (by simp only [swt]; omega)
    | impl => exact hsome _ fun k => rfl
    | and =>
      simp only [simpStep, simpBin]
      split
      · exact ⟨_, Ev.const _⟩
      · split
        · exact ⟨_, Ev.const _⟩
        · exact ⟨_, Ev.const _⟩
    | or =>
      simp only [simpStep, simpBin]
      split
      · exact ⟨_, Ev.const _⟩
      · split
        · exact ⟨_, Ev.const _⟩
        · exact ⟨_, Ev.const _⟩
    | equiv =>
      simp only [simpStep, simpBin]
      split
      · exact ⟨_, Ev.const _⟩
      · split
        · exact ⟨_, Ev.const _⟩
        · exact ⟨_, Ev.const _⟩

theorem simpLoop_total {small : Form → Bool} {S : Nat → Form → Option Form} {W : Nat} (hS : ∀ g, swt g < W → ∃ r, Ev (fun k => S k g) r)
    (hw : ∀ k a b, S k a = some b → swt b ≤ swt a) (f : Form) (hf : swt f ≤ W) :
    ∃ r N, ∀ k ≥ N, ∀ j ≥ N, simpLoop small (S k) j f = some r := by
  induction hn : swt f using Nat.strongRecOn generalizing f with
  | _ n ih =>
    obtain ⟨g, N, hg⟩ := simpStep_total (small := small) (S := S) (f := f) fun g hlt => hS g (by omega)
    by_cases hgf : g = f
    · refine ⟨g, N + 1, fun k hk j hj => ?_⟩
      obtain ⟨i, rfl⟩ : ∃ i, j = i + 1 := ⟨j - 1, by omega⟩
      simp only [simpLoop, hg k (by omega), Option.bind_eq_bind, Option.bind_some]
      rw [if_pos hgf]; rfl
    · have hlt := (swt_step (hw N) (hg N (Nat.le_refl _))).resolve_left hgf
      obtain ⟨r, M, hr⟩ := ih (swt g) (by omega) g (by omega) rfl
      refine ⟨r, max N M + 1, fun k hk j hj => ?_⟩
      obtain ⟨i, rfl⟩ : ∃ i, j = i + 1 := ⟨j - 1, by omega⟩
      simp only [simpLoop, hg k (by omega), Option.bind_eq_bind, Option.bind_some]
      rw [if_neg hgf]
      exact hr k (by omega) i (by omega)

theorem simplify_total (small : Form → Bool) (f : Form) : ∃ r, Ev (fun k => simplify small k f) r := by
  induction hn : swt f using Nat.strongRecOn generalizing f with
  | _ n ih =>
    have hS : ∀ g, swt g < n → ∃ r, Ev (fun k => simplify small k g) r := fun g hlt => ih (swt g) hlt g rfl
    have hw := fun k a b h => swt_simplify small k a b h
    have hloop : ∀ g, swt g ≤ n → ∃ r, Ev (fun k => simpLoop small (simplify small k) k g) r := by
      intro g hg
      obtain ⟨r, N, h⟩ := simpLoop_total (S := fun k => simplify small k) hS hw g hg
      exact ⟨r, N, fun k hk => h k hk k hk⟩
    cases f with
    | lit p l r => exact ⟨lit p l r, 1, fun k hk => by obtain ⟨j, rfl⟩ : ∃ j, k = j + 1 := ⟨k - 1, by omega⟩; rfl⟩
    | atom t =>
      obtain ⟨r, hr⟩ := hloop (atom t) (by omega)
      exact ⟨r, Ev.succ hr⟩
    | not g =>
      simp only [swt] at hn
      obtain ⟨g', hg⟩ := hS g (by omega)
      obtain ⟨N, hN⟩ := id hg
      have := hw N _ _ (hN N (Nat.le_refl _))
      obtain ⟨r, hr⟩ := hloop (not g') (by simp only [swt]; omega)
      exact ⟨r, Ev.succ (Ev.bind (ψ := fun g' k => simpLoop small (simplify small k) k (not g')) hg hr)⟩
    | bin op g h =>
      have p1 := swt_pos g; have p2 := swt_pos h
      simp only [swt] at hn
      obtain ⟨g', hg⟩ := hS g (by omega)
      obtain ⟨h', hh⟩ := hS h (by omega)
      obtain ⟨N, hN⟩ := id hg
      obtain ⟨M, hM⟩ := id hh
      have e1 := hw N _ _ (hN N (Nat.le_refl _))
      have e2 := hw M _ _ (hM M (Nat.le_refl _))
      obtain ⟨r, hr⟩ := hloop (bin op g' h') (by simp only [swt]; omega)
      exact ⟨r, Ev.succ (Ev.bind (ψ := fun g' k => (simplify small k h).bind fun h' => simpLoop small (simplify small k) k (bin op g' h')) hg
        (Ev.bind (ψ := fun h' k => simpLoop small (simplify small k) k (bin op g' h')) hh hr))⟩
    | qu q x g =>
      simp only [swt] at hn
      obtain ⟨g', hg⟩ := hS g (by omega)
      obtain ⟨N, hN⟩ := id hg
      have := hw N _ _ (hN N (Nat.le_refl _))
      obtain ⟨r, hr⟩ := hloop (qu q x g') (by simp only [swt]; omega)
      exact ⟨r, Ev.succ (Ev.bind (ψ := fun g' k => simpLoop small (simplify small k) k (qu q x g')) hg hr)⟩

/-! ## Negation normal form -/

theorem nnf_total_nnf {f : Form} (h : f.IsNNF) : ∀ pol, Ev (fun k => nnf k pol f) f := by
  induction f with
  | lit p l r => intro pol; exact Ev.succ (Ev.const _)
  | atom => exact h.elim
  | not => exact h.elim
  | bin op f g ih1 ih2 =>
    intro pol
    refine Ev.succ ?_
    refine (Ev.bind (ih1 h.2.1 pol) (Ev.bind (ψ := fun g' k => if f = f ∧ g' = g then some (bin op f g) else nnf k pol (bin op f g')) (ih2 h.2.2 pol)
      (s := bin op f g) (by simpa using Ev.const _)) (ψ := fun f' k => (nnf k pol g).bind fun g' => if f' = f ∧ g' = g then some (bin op f g) else nnf k pol (bin op f' g'))).congr fun k => ?_
    simp only [nnf, rootNNF_nnf h, if_pos h.1]; rfl
  | qu q x f ih =>
    intro pol
    refine Ev.succ ?_
    refine (Ev.bind (ih h pol) (ψ := fun f' k => if f' = f then some (qu q x f) else nnf k pol (qu q x f')) (s := qu q x f) (by simpa using Ev.const _)).congr fun k => ?_
    simp only [nnf, rootNNF_nnf h]; rfl

/-- A weight for negation normal form. -/
def nwt : Form → Nat
  | .lit _ _ _ => 1
  | .atom _ => 1
  | .not f => nwt f + 1
  | .bin op f g => (if op = .equiv then 4 else 1) + nwt f + nwt g
  | .qu _ _ f => nwt f + 1

theorem nwt_pos (f : Form) : 0 < nwt f := by
  cases f with
  | bin op f g => simp only [nwt]; split <;> omega
  | _ => simp [nwt]

/-- The formulas below the root after a root step are lighter. -/
def SubLt (n : Nat) : Form → Prop
  | .not f => nwt f < n
  | .bin _ f g => nwt f < n ∧ nwt g < n
  | .qu _ _ f => nwt f < n
  | _ => True

theorem subLt_mono {n m : Nat} (h : n ≤ m) {f : Form} (hf : SubLt n f) : SubLt m f := by
  cases f with
  | bin => exact ⟨Nat.lt_of_lt_of_le hf.1 h, Nat.lt_of_lt_of_le hf.2 h⟩
  | lit => trivial
  | atom => trivial
  | _ => exact Nat.lt_of_lt_of_le hf h

theorem subLt_self (f : Form) : SubLt (nwt f) f := by
  cases f with
  | bin op f g => have := nwt_pos f; have := nwt_pos g; simp only [SubLt, nwt]; split <;> omega
  | _ => simp [SubLt, nwt]

theorem subLt_root (pol : Int) (f : Form) : SubLt (nwt f) (rootNNF pol f) := by
  fun_induction rootNNF pol f with
  | case1 => trivial
  | case2 => trivial
  | case3 => trivial
  | case4 => exact subLt_self _
  | case5 f ih => exact subLt_mono (by simp only [nwt]; omega) ih
  | case6 f g => have := nwt_pos f; have := nwt_pos g; simp only [SubLt, nwt]; simp; omega
  | case7 f g => have := nwt_pos f; have := nwt_pos g; simp only [SubLt, nwt]; simp; omega
  | case8 q x f => simp only [SubLt, nwt]; omega
  | case9 f g => have := nwt_pos f; have := nwt_pos g; simp only [SubLt, nwt]; simp; omega
  | case10 f g => have := nwt_pos f; have := nwt_pos g; simp only [SubLt, nwt]; simp; omega
  | case11 f g => have := nwt_pos f; have := nwt_pos g; simp only [SubLt, nwt]; simp; omega
  | case12 f => exact subLt_self _

/-- From results for the parts to a result for the whole. -/
theorem nnf_compose {pol : Int} {f : Form} (hf : f.Basic)
    (hsub : ∀ pol g, nwt g < nwt f → g.Basic → ∃ r, Ev (fun k => nnf k pol g) r)
    (hneg : ∀ g, g.IsNNF → ∃ r, Ev (fun k => nnf k pol (not g)) r) : ∃ r, Ev (fun k => nnf k pol f) r := by
  have hr := basic_rootNNF pol f hf
  have hl := subLt_root pol f
  have shape : ∀ {g r pol}, Ev (fun k => nnf k pol g) r → g.Basic → r.IsNNF := by
    intro g r pol ⟨N, h⟩ hb
    exact nnf_shape N _ _ _ (h N (Nat.le_refl _)) hb
  cases h0 : rootNNF pol f with
  | lit p l r => exact ⟨_, Ev.succ ((Ev.const (lit p l r)).congr fun k => by simp only [nnf, h0])⟩
  | atom t => exact ⟨_, Ev.succ ((Ev.const (encodeAtom t)).congr fun k => by simp only [nnf, h0])⟩
  | not g =>
    rw [h0] at hr hl
    obtain ⟨g', hg⟩ := hsub (-pol) g hl hr
    have hn := shape hg hr
    have hne : g' ≠ g := fun e => rootNNF_not h0 (e ▸ hn)
    obtain ⟨r, hr'⟩ := hneg g' hn
    refine ⟨r, Ev.succ ((Ev.bind hg (ψ := fun g' k => if g' = g then some (not g) else nnf k pol (not g')) (s := r) (by simpa [hne] using hr')).congr fun k => ?_)⟩
    simp only [nnf, h0]; rfl
  | qu q x g =>
    rw [h0] at hr hl
    obtain ⟨g', hg⟩ := hsub pol g hl hr
    have hn := shape hg hr
    have : ∃ r, Ev (fun k => if g' = g then some (qu q x g) else nnf k pol (qu q x g')) r := by
      split
      · exact ⟨_, Ev.const _⟩
      · exact ⟨_, nnf_total_nnf (f := qu q x g') hn pol⟩
    obtain ⟨r, hr'⟩ := this
    refine ⟨r, Ev.succ ((Ev.bind hg (ψ := fun g' k => if g' = g then some (qu q x g) else nnf k pol (qu q x g')) hr').congr fun k => ?_)⟩
    simp only [nnf, h0]; rfl
  | bin op g h =>
    have ho := rootNNF_bin h0 hf
    rw [h0] at hr hl
    obtain ⟨g', hg⟩ := hsub pol g hl.1 hr.2.1
    obtain ⟨h', hh⟩ := hsub pol h hl.2 hr.2.2
    have hn1 := shape hg hr.2.1
    have hn2 := shape hh hr.2.2
    have : ∃ r, Ev (fun k => if g' = g ∧ h' = h then some (bin op g h) else nnf k pol (bin op g' h')) r := by
      split
      · exact ⟨_, Ev.const _⟩
      · exact ⟨_, nnf_total_nnf (f := bin op g' h') ⟨ho, hn1, hn2⟩ pol⟩
    obtain ⟨r, hr'⟩ := this
    refine ⟨r, Ev.succ ((Ev.bind hg (ψ := fun g' k => (nnf k pol h).bind fun h' => if g' = g ∧ h' = h then some (bin op g h) else nnf k pol (bin op g' h'))
      (Ev.bind hh (ψ := fun h' k => if g' = g ∧ h' = h then some (bin op g h) else nnf k pol (bin op g' h')) hr')).congr fun k => ?_)⟩
    simp only [nnf, h0, if_pos ho]; rfl

theorem isNNF_basic {g : Form} : g.IsNNF → g.Basic := by
  induction g with
  | bin op f g ih1 ih2 => exact fun h => ⟨by rcases h.1 with h | h <;> simp [h], ih1 h.2.1, ih2 h.2.2⟩
  | qu q x f ih => exact fun h => ih h
  | lit => exact fun _ => trivial
  | _ => exact fun h => h.elim

/-- Negations of formulas in negation normal form. -/
theorem nnf_total_neg (g : Form) (hg : g.IsNNF) : ∀ pol, ∃ r, Ev (fun k => nnf k pol (not g)) r := by
  have shape : ∀ {g r pol}, Ev (fun k => nnf k pol g) r → g.Basic → r.IsNNF := by
    intro g r pol ⟨N, h⟩ hb
    exact nnf_shape N _ _ _ (h N (Nat.le_refl _)) hb
  induction g with
  | lit p l r => intro pol; exact ⟨_, Ev.succ ((Ev.const (lit (!p) l r)).congr fun k => rfl)⟩
  | atom => exact hg.elim
  | not => exact hg.elim
  | qu q x g ih =>
    intro pol
    obtain ⟨g', h1⟩ := ih hg pol
    have hn := shape h1 (g := not g) (isNNF_basic (g := g) hg)
    have : ∃ r, Ev (fun k => if g' = not g then some (qu (!q) x (not g)) else nnf k pol (qu (!q) x g')) r := by
      split
      · exact ⟨_, Ev.const _⟩
      · exact ⟨_, nnf_total_nnf (f := qu (!q) x g') hn pol⟩
    obtain ⟨r, hr'⟩ := this
    exact ⟨r, Ev.succ ((Ev.bind h1 (ψ := fun g' k => if g' = not g then some (qu (!q) x (not g)) else nnf k pol (qu (!q) x g')) hr').congr fun k => rfl)⟩
  | bin op g h ih1 ih2 =>
    intro pol
    obtain ⟨g', h1⟩ := ih1 hg.2.1 pol
    obtain ⟨h', h2⟩ := ih2 hg.2.2 pol
    have hn1 := shape h1 (g := not g) (isNNF_basic (g := g) hg.2.1)
    have hn2 := shape h2 (g := not h) (isNNF_basic (g := h) hg.2.2)
    have key : ∀ op', op' = .and ∨ op' = .or → (rootNNF pol (not (bin op g h)) = bin op' (not g) (not h)) → ∃ r, Ev (fun k => nnf k pol (not (bin op g h))) r := by
      intro op' ho h0
      have : ∃ r, Ev (fun k => if g' = not g ∧ h' = not h then some (bin op' (not g) (not h)) else nnf k pol (bin op' g' h')) r := by
        split
        · exact ⟨_, Ev.const _⟩
        · exact ⟨_, nnf_total_nnf (f := bin op' g' h') ⟨ho, hn1, hn2⟩ pol⟩
      obtain ⟨r, hr'⟩ := this
      refine ⟨r, Ev.succ ((Ev.bind h1 (ψ := fun g' k => (nnf k pol (not h)).bind fun h' => if g' = not g ∧ h' = not h then some (bin op' (not g) (not h)) else nnf k pol (bin op' g' h'))
        (Ev.bind h2 (ψ := fun h' k => if g' = not g ∧ h' = not h then some (bin op' (not g) (not h)) else nnf k pol (bin op' g' h')) hr')).congr fun k => ?_)⟩
      simp only [nnf, h0, if_pos ho]; rfl
    rcases hg.1 with rfl | rfl
    · exact key .or (.inr rfl) rfl
    · exact key .and (.inl rfl) rfl

theorem nnf_total (f : Form) (hf : f.Basic) : ∀ pol, ∃ r, Ev (fun k => nnf k pol f) r := by
  induction hn : nwt f using Nat.strongRecOn generalizing f with
  | _ n ih =>
    intro pol
    exact nnf_compose hf (fun pol g hlt hg => ih (nwt g) (by omega) g hg rfl pol) fun g hg => nnf_total_neg g hg pol

/-! ## Miniscoping -/

/-- Size without quantifiers. -/
def msz : Form → Nat
  | .lit _ _ _ => 1
  | .atom _ => 1
  | .not f => msz f + 1
  | .bin _ f g => msz f + msz g + 1
  | .qu _ _ f => msz f

/-- The sum of the sizes of all scopes. -/
def mwt : Form → Nat
  | .lit _ _ _ => 0
  | .atom _ => 0
  | .not f => mwt f
  | .bin _ f g => mwt f + mwt g
  | .qu _ _ f => msz f + mwt f

/-- Height, to justify the descent. -/
def msize : Form → Nat
  | .lit _ _ _ => 1
  | .atom _ => 1
  | .not f => msize f + 1
  | .bin _ f g => msize f + msize g + 1
  | .qu _ _ f => msize f + 1

theorem miniRoot_msz (f : Form) : msz (miniRoot f) = msz f := by
  fun_cases miniRoot f <;> simp only [msz]

theorem msz_pos (f : Form) : 0 < msz f := by
  induction f with
  | qu q x f ih => exact ih
  | _ => simp [msz]

theorem miniRoot_mwt (f : Form) : miniRoot f = f ∨ mwt (miniRoot f) < mwt f := by
  fun_cases miniRoot f with
  | case1 q x op f g => right; simp only [mwt, msz]; omega
  | case2 q x op f g => right; simp only [mwt, msz]; omega
  | case3 q x op f g => right; simp only [mwt, msz]; omega
  | case4 => exact .inl rfl
  | case5 => exact .inl rfl
  | case6 => exact .inl rfl

theorem miniScope_mwt (k : Nat) : ∀ f f', miniScope k f = some f' → msz f' = msz f ∧ (f' = f ∨ mwt f' < mwt f) := by
  induction k with
  | zero => intro f f' e; simp [miniScope] at e
  | succ k ih =>
    intro f f' e
    have hs := miniRoot_msz f
    have hw := miniRoot_mwt f
    -- it suffices to compare with the root
    suffices h : msz f' = msz (miniRoot f) ∧ (f' = miniRoot f ∨ mwt f' < mwt (miniRoot f)) by
      refine ⟨h.1.trans hs, ?_⟩
      rcases h.2 with h1 | h1
      · subst h1
        rcases hw with h2 | h2
        · exact .inl h2
        · exact .inr h2
      · rcases hw with h2 | h2
        · rw [h2] at h1; exact .inr h1
        · exact .inr (Nat.lt_trans h1 h2)
    simp only [miniScope] at e
    split at e
    · rename_i g h0
      simp only [Option.bind_eq_bind, Option.bind_eq_some_iff] at e
      obtain ⟨g', e1, e2⟩ := e
      rw [h0]
      split at e2
      · cases e2; exact ⟨rfl, .inl rfl⟩
      · rename_i hne
        obtain ⟨a1, a2⟩ := ih _ _ e1
        obtain ⟨b1, b2⟩ := ih _ _ e2
        have a3 := a2.resolve_left hne
        refine ⟨b1.trans (by simp only [msz, a1]), .inr ?_⟩
        rcases b2 with rfl | b2
        · exact a3
        · exact Nat.lt_trans b2 a3
    · rename_i op g h h0
      simp only [Option.bind_eq_bind, Option.bind_eq_some_iff] at e
      obtain ⟨g', e1, h', e2, e3⟩ := e
      rw [h0]
      split at e3
      · cases e3; exact ⟨rfl, .inl rfl⟩
      · rename_i hne
        obtain ⟨a1, a2⟩ := ih _ _ e1
        obtain ⟨c1, c2⟩ := ih _ _ e2
        obtain ⟨b1, b2⟩ := ih _ _ e3
        have a3 : mwt (bin op g' h') < mwt (bin op g h) := by
          simp only [mwt]
          rcases a2 with rfl | a2 <;> rcases c2 with rfl | c2
          · exact absurd ⟨rfl, rfl⟩ hne
          · omega
          · omega
          · omega
        refine ⟨b1.trans (by simp only [msz, a1, c1]), .inr ?_⟩
        rcases b2 with rfl | b2
        · exact a3
        · exact Nat.lt_trans b2 a3
    · rename_i q x g h0
      simp only [Option.bind_eq_bind, Option.bind_eq_some_iff] at e
      obtain ⟨g', e1, e2⟩ := e
      rw [h0]
      split at e2
      · cases e2; exact ⟨rfl, .inl rfl⟩
      · rename_i hne
        obtain ⟨a1, a2⟩ := ih _ _ e1
        obtain ⟨b1, b2⟩ := ih _ _ e2
        have a3 : mwt (qu q x g') < mwt (qu q x g) := by simp only [mwt, a1]; have := a2.resolve_left hne; omega
        refine ⟨b1.trans (by simp only [msz, a1]), .inr ?_⟩
        rcases b2 with rfl | b2
        · exact a3
        · exact Nat.lt_trans b2 a3
    · rename_i h0; cases e; rw [h0]; exact ⟨rfl, .inl rfl⟩
    · rename_i h0; cases e; rw [h0]; exact ⟨rfl, .inl rfl⟩

theorem miniScope_total (f : Form) : ∃ r, Ev (fun k => miniScope k f) r := by
  induction hn : mwt f using Nat.strongRecOn generalizing f with
  | _ n ihn =>
    induction hm : msize f using Nat.strongRecOn generalizing f with
    | _ m ihm =>
      have hsub : ∀ g, mwt g ≤ mwt (miniRoot f) → (msize g < msize (miniRoot f)) → ∃ r, Ev (fun k => miniScope k g) r := by
        intro g h1 h2
        rcases miniRoot_mwt f with h | h
        · rw [h] at h1 h2
          by_cases he : mwt g = mwt f
          · exact ihm (msize g) (by omega) g (by omega) rfl
          · exact ihn (mwt g) (by omega) g rfl
        · exact ihn (mwt g) (by omega) g rfl
      have hagain : ∀ g, mwt g < mwt (miniRoot f) → ∃ r, Ev (fun k => miniScope k g) r := by
        intro g h1
        rcases miniRoot_mwt f with h | h
        · rw [h] at h1; exact ihn (mwt g) (by omega) g rfl
        · exact ihn (mwt g) (by omega) g rfl
      have hdec : ∀ {g g'}, Ev (fun k => miniScope k g) g' → msz g' = msz g ∧ (g' = g ∨ mwt g' < mwt g) := by
        rintro g g' ⟨N, h⟩; exact miniScope_mwt N _ _ (h N (Nat.le_refl _))
      cases h0 : miniRoot f with
      | lit p l r => exact ⟨_, Ev.succ ((Ev.const (lit p l r)).congr fun k => by simp only [miniScope, h0])⟩
      | atom t => exact ⟨_, Ev.succ ((Ev.const (atom t)).congr fun k => by simp only [miniScope, h0])⟩
      | not g =>
        rw [h0] at hsub hagain
        obtain ⟨g', hg⟩ := hsub g (Nat.le_refl _) (by simp only [msize]; omega)
        have hd := hdec hg
        have : ∃ r, Ev (fun k => if g' = g then some (not g) else miniScope k (not g')) r := by
          split
          · exact ⟨_, Ev.const _⟩
          · rename_i hne; exact hagain _ (by simp only [mwt]; exact hd.2.resolve_left hne)
        obtain ⟨r, hr⟩ := this
        refine ⟨r, Ev.succ ((Ev.bind hg (ψ := fun g' k => if g' = g then some (not g) else miniScope k (not g')) hr).congr fun k => ?_)⟩
        simp only [miniScope, h0]; rfl
      | qu q x g =>
        rw [h0] at hsub hagain
        obtain ⟨g', hg⟩ := hsub g (by simp only [mwt]; omega) (by simp only [msize]; omega)
        have hd := hdec hg
        have : ∃ r, Ev (fun k => if g' = g then some (qu q x g) else miniScope k (qu q x g')) r := by
          split
          · exact ⟨_, Ev.const _⟩
          · rename_i hne; exact hagain _ (by simp only [mwt]; have := hd.2.resolve_left hne; have := hd.1; omega)
        obtain ⟨r, hr⟩ := this
        refine ⟨r, Ev.succ ((Ev.bind hg (ψ := fun g' k => if g' = g then some (qu q x g) else miniScope k (qu q x g')) hr).congr fun k => ?_)⟩
        simp only [miniScope, h0]; rfl
      | bin op g h =>
        rw [h0] at hsub hagain
        obtain ⟨g', hg⟩ := hsub g (by simp only [mwt]; omega) (by simp only [msize]; omega)
        obtain ⟨h', hh⟩ := hsub h (by simp only [mwt]; omega) (by simp only [msize]; omega)
        have hd := hdec hg
        have he := hdec hh
        have : ∃ r, Ev (fun k => if g' = g ∧ h' = h then some (bin op g h) else miniScope k (bin op g' h')) r := by
          split
          · exact ⟨_, Ev.const _⟩
          · rename_i hne
            refine hagain _ ?_
            simp only [mwt]
            rcases hd.2 with h1 | h1 <;> rcases he.2 with h2 | h2
            · exact absurd ⟨h1, h2⟩ hne
            · rw [h1]; omega
            · rw [h2]; omega
            · omega
        obtain ⟨r, hr⟩ := this
        refine ⟨r, Ev.succ ((Ev.bind hg (ψ := fun g' k => (miniScope k h).bind fun h' => if g' = g ∧ h' = h then some (bin op g h) else miniScope k (bin op g' h'))
          (Ev.bind hh (ψ := fun h' k => if g' = g ∧ h' = h then some (bin op g h) else miniScope k (bin op g' h')) hr)).congr fun k => ?_)⟩
        simp only [miniScope, h0]; rfl

theorem copyMod_total (cand : Form → Bool) (f : Form) : ∃ r, Ev (fun k => copyMod cand k f) r := by
  induction f with
  | lit => exact ⟨_, Ev.const _⟩
  | atom => exact ⟨_, Ev.const _⟩
  | not f ih =>
    simp only [copyMod]
    split
    · exact miniScope_total _
    · obtain ⟨r, hr⟩ := ih; exact ⟨_, hr.map Form.not⟩
  | bin op f g ih1 ih2 =>
    simp only [copyMod]
    split
    · exact miniScope_total _
    · obtain ⟨r, hr⟩ := ih1
      obtain ⟨s, hs⟩ := ih2
      exact ⟨bin op r s, Ev.bind hr (ψ := fun r k => (copyMod cand k g).bind fun s => some (bin op r s)) (Ev.bind hs (ψ := fun s _ => some (bin op r s)) (Ev.const _))⟩
  | qu q x f ih =>
    simp only [copyMod]
    split
    · exact miniScope_total _
    · exact ⟨_, Ev.const _⟩

/-! ## Distribution -/

/-- A weight that distribution decreases. -/
def dwt : Form → Nat
  | .lit _ _ _ => 2
  | .atom _ => 2
  | .not f => dwt f + 1
  | .bin op f g => if op = .or then dwt f * dwt g else dwt f + dwt g + 1
  | .qu _ _ f => dwt f + 1

theorem dwt_pos (f : Form) : 2 ≤ dwt f := by
  induction f with
  | bin op f g ih1 ih2 =>
    simp only [dwt]; split
    · exact Nat.le_trans (by omega : 2 ≤ 2 * 2) (Nat.mul_le_mul ih1 ih2)
    · omega
  | lit => simp [dwt]
  | atom => simp [dwt]
  | not f ih => simp only [dwt]; omega
  | qu q x f ih => simp only [dwt]; omega

theorem dwt_child {op : BOp} {f g : Form} : dwt f < dwt (bin op f g) ∧ dwt g < dwt (bin op f g) := by
  have h1 := dwt_pos f; have h2 := dwt_pos g
  simp only [dwt]
  split
  · have e1 : dwt f * 2 ≤ dwt f * dwt g := Nat.mul_le_mul_left _ h2
    have e2 : 2 * dwt g ≤ dwt f * dwt g := Nat.mul_le_mul_right _ h1
    omega
  · omega

theorem dwt_mono {op : BOp} {f g f' g' : Form} (h1 : dwt f' ≤ dwt f) (h2 : dwt g' ≤ dwt g) : dwt (bin op f' g') ≤ dwt (bin op f g) := by
  simp only [dwt]
  split
  · exact Nat.mul_le_mul h1 h2
  · omega

theorem dwt_dist (a b c : Form) : dwt (bin .and (bin .or a c) (bin .or b c)) < dwt (bin .or (bin .and a b) c) := by
  have := dwt_pos c
  simp only [dwt, if_true]
  rw [if_neg (show ¬ (BOp.and = .or) by decide), if_neg (show ¬ (BOp.and = .or) by decide), Nat.add_mul, Nat.add_mul]; omega

theorem dwt_dist' (a b c : Form) : dwt (bin .and (bin .or a c) (bin .or b c)) < dwt (bin .or c (bin .and a b)) := by
  have := dwt_dist a b c
  simp only [dwt, if_true] at *
  rwa [Nat.mul_comm (dwt c)]

theorem distribute_dwt (k : Nat) : ∀ f f', distribute k f = some f' → dwt f' ≤ dwt f := by
  induction k with
  | zero => intro f f' e; simp [distribute] at e
  | succ k ih =>
    intro f f' e
    simp only [distribute, Option.bind_eq_some_iff] at e
    obtain ⟨g, e1, e2⟩ := e
    have hg : dwt g ≤ dwt f := by
      cases f with
      | lit p l r => cases e1; exact Nat.le_refl _
      | atom t => cases e1; exact Nat.le_refl _
      | not a =>
        obtain ⟨a', e3, rfl⟩ := Option.map_eq_some_iff.1 e1
        have := ih _ _ e3; simp only [dwt]; omega
      | bin op a b =>
        simp only [distSub, Option.bind_eq_some_iff, Option.map_eq_some_iff] at e1
        obtain ⟨a', e3, b', e4, rfl⟩ := e1
        exact dwt_mono (ih _ _ e3) (ih _ _ e4)
      | qu q x a =>
        obtain ⟨a', e3, rfl⟩ := Option.map_eq_some_iff.1 e1
        have := ih _ _ e3; simp only [dwt]; omega
    unfold distRoot at e2
    split at e2
    · rename_i f1 f2 f3
      have := ih _ _ e2; have := dwt_dist f1 f2 f3; omega
    · rename_i f1 f2 f3 _
      have := ih _ _ e2; have := dwt_dist' f2 f3 f1; omega
    · cases e2; exact hg

theorem distribute_total (f : Form) : ∃ r, Ev (fun k => distribute k f) r := by
  induction hn : dwt f using Nat.strongRecOn generalizing f with
  | _ n ih =>
    have hS : ∀ g, dwt g < dwt f → ∃ r, Ev (fun k => distribute k g) r := fun g hlt => ih (dwt g) (by omega) g rfl
    have hd : ∀ {g g'}, Ev (fun k => distribute k g) g' → dwt g' ≤ dwt g := by
      rintro g g' ⟨N, h⟩; exact distribute_dwt N _ _ (h N (Nat.le_refl _))
    have hsub : ∃ g, Ev (fun k => distSub (distribute k) f) g ∧ dwt g ≤ dwt f := by
      cases f with
      | lit => exact ⟨_, Ev.const _, Nat.le_refl _⟩
      | atom => exact ⟨_, Ev.const _, Nat.le_refl _⟩
      | not a =>
        obtain ⟨a', ha⟩ := hS a (by simp only [dwt]; omega)
        exact ⟨_, ha.map Form.not, by have := hd ha; simp only [dwt]; omega⟩
      | qu q x a =>
        obtain ⟨a', ha⟩ := hS a (by simp only [dwt]; omega)
        exact ⟨_, ha.map (qu q x), by have := hd ha; simp only [dwt]; omega⟩
      | bin op a b =>
        obtain ⟨a', ha⟩ := hS a dwt_child.1
        obtain ⟨b', hb⟩ := hS b dwt_child.2
        exact ⟨bin op a' b', Ev.bind ha (ψ := fun a' k => (distribute k b).map fun b' => bin op a' b') (hb.map _), dwt_mono (hd ha) (hd hb)⟩
    obtain ⟨g, hg, hle⟩ := hsub
    have hroot : ∃ r, Ev (fun k => distRoot (distribute k) g) r := by
      unfold distRoot
      split
      · exact hS _ (Nat.lt_of_lt_of_le (dwt_dist _ _ _) hle)
      · exact hS _ (Nat.lt_of_lt_of_le (dwt_dist' _ _ _) hle)
      · exact ⟨_, Ev.const _⟩
    obtain ⟨r, hr⟩ := hroot
    exact ⟨r, Ev.succ (Ev.bind hg (ψ := fun g k => distRoot (distribute k) g) hr)⟩

/-! ## The whole transformation -/

theorem conjunctiveNF_total (sg : Sig) (small cand : Form → Bool) (f : Form) (b : VarBank) (n : Nat) :
    ∃ r, Ev (fun k => conjunctiveNF sg small cand k f b n) r := by
  obtain ⟨f1, h1⟩ := simplify_total small f
  have hb1 : f1.Basic := by obtain ⟨N, h⟩ := h1; exact basic_simplify small N _ _ (h N (Nat.le_refl _))
  obtain ⟨f2, h2⟩ := nnf_total f1 hb1 1
  have hn2 : f2.IsNNF := by obtain ⟨N, h⟩ := h2; exact nnf_shape N _ _ _ (h N (Nat.le_refl _)) hb1
  obtain ⟨f3, h3⟩ := copyMod_total cand f2
  have hn3 : f3.IsNNF := by obtain ⟨N, h⟩ := h3; exact copyMod_nnf cand N _ _ (h N (Nat.le_refl _)) hn2
  let r := varRename sg f3 id b.setUsed
  let s := skolemizeOutermost sg r.1 n
  have hn5 : (shiftQuantors s.1).IsNNF := by
    have h := (extractCore_shape (skolem_shape (sg := sg) (varRename_nnf (sg := sg) hn3 id b.setUsed) (collectFree r.1 (fun _ => false) []) Term.var n).1).2
    have : ∀ (xs : List Nat) (c : Form), c.IsNNF → (xs.foldr (qu true) c).IsNNF := by
      intro xs c hc
      induction xs with
      | nil => exact hc
      | cons x xs ih => exact ih
    exact this _ _ h
  have h6 := nnf_total_nnf hn5 1
  obtain ⟨f7, h7⟩ := distribute_total (shiftQuantors s.1)
  refine ⟨(f7, r.2, s.2), ?_⟩
  exact Ev.bind h1 (ψ := fun f1 k => (nnf k 1 f1).bind fun f2 => (copyMod cand k f2).bind fun f3 =>
      (nnf k 1 (shiftQuantors (skolemizeOutermost sg (varRename sg f3 id b.setUsed).1 n).1)).bind fun f6 => (distribute k f6).bind fun f7 =>
        some (f7, (varRename sg f3 id b.setUsed).2, (skolemizeOutermost sg (varRename sg f3 id b.setUsed).1 n).2))
    (Ev.bind h2 (ψ := fun f2 k => (copyMod cand k f2).bind fun f3 =>
      (nnf k 1 (shiftQuantors (skolemizeOutermost sg (varRename sg f3 id b.setUsed).1 n).1)).bind fun f6 => (distribute k f6).bind fun f7 =>
        some (f7, (varRename sg f3 id b.setUsed).2, (skolemizeOutermost sg (varRename sg f3 id b.setUsed).1 n).2))
    (Ev.bind h3 (ψ := fun f3 k =>
      (nnf k 1 (shiftQuantors (skolemizeOutermost sg (varRename sg f3 id b.setUsed).1 n).1)).bind fun f6 => (distribute k f6).bind fun f7 =>
        some (f7, (varRename sg f3 id b.setUsed).2, (skolemizeOutermost sg (varRename sg f3 id b.setUsed).1 n).2))
    (Ev.bind h6 (ψ := fun f6 k => (distribute k f6).bind fun f7 => some (f7, r.2, s.2))
    (Ev.bind h7 (ψ := fun f7 _ => some (f7, r.2, s.2)) (Ev.const _)))))

theorem clausesOf_total (sg : Sig) (fs : List Form) : ∀ b, ∃ r, Ev (fun k => clausesOf sg k fs b) r := by
  induction fs with
  | nil => intro b; exact ⟨_, Ev.const _⟩
  | cons f fs ih =>
    intro b
    obtain ⟨N, r, hr⟩ := Props.normalize_terminates sg b f.collectLits
    obtain ⟨s, hs⟩ := ih r.1
    exact ⟨(s.1, elimBoolVars sg r.2 :: s.2), Ev.bind (φ := fun k => clauseNormalizeVars sg k b f.collectLits) ⟨N, hr⟩
      (ψ := fun r k => (clausesOf sg k fs r.1).bind fun s => some (s.1, elimBoolVars sg r.2 :: s.2))
      (Ev.bind hs (ψ := fun s _ => some (s.1, elimBoolVars sg r.2 :: s.2)) (Ev.const _))⟩

theorem formulaCNF_total (sg : Sig) (small cand : Form → Bool) (f : Form) (b : VarBank) (n : Nat) :
    ∃ r, Ev (fun k => formulaCNF sg small cand k f b n) r := by
  obtain ⟨r, hr⟩ := conjunctiveNF_total sg small cand f b n
  obtain ⟨s, hs⟩ := clausesOf_total sg r.1.skipAll.conjuncts r.2.1
  refine ⟨(s.2, s.1, r.2.2), ?_⟩
  have h2 : Ev (fun k => (formToCNF sg k r.1 r.2.1).bind fun s => some (s.2, s.1, r.2.2)) (s.2, s.1, r.2.2) :=
    Ev.bind (φ := fun k => formToCNF sg k r.1 r.2.1) (ψ := fun s _ => some (s.2, s.1, r.2.2)) hs (Ev.const _)
  exact (Ev.bind (φ := fun k => conjunctiveNF sg small cand k f b n)
    (ψ := fun r k => (formToCNF sg k r.1 r.2.1).bind fun s => some (s.2, s.1, r.2.2)) hr h2).congr fun k => rfl

theorem formulasCNF_total (sg : Sig) (small cand : Form → Bool) (ws : List WForm) : ∀ (b : VarBank) (n : Nat),
    ∃ r, Ev (fun k => formulasCNF sg small cand k ws b n) r := by
  induction ws with
  | nil => intro b n; exact ⟨_, Ev.const _⟩
  | cons w ws ih =>
    intro b n
    have h1 : ∃ r, Ev (fun k => w.cnf sg small cand k b n) r := by
      unfold WForm.cnf
      split
      · exact ⟨_, Ev.const _⟩
      · exact formulaCNF_total sg small cand _ b n
    obtain ⟨r, hr⟩ := h1
    obtain ⟨s, hs⟩ := ih r.2.1 r.2.2.1
    have h2 : Ev (fun k => (formulasCNF sg small cand k ws r.2.1 r.2.2.1).bind fun s => some (r.1 ++ s.1, s.2.1, s.2.2.1, r.2.2.2 ++ s.2.2.2))
        (r.1 ++ s.1, s.2.1, s.2.2.1, r.2.2.2 ++ s.2.2.2) :=
      Ev.bind (ψ := fun s _ => some (r.1 ++ s.1, s.2.1, s.2.2.1, r.2.2.2 ++ s.2.2.2)) hs (Ev.const _)
    exact ⟨_, (Ev.bind (φ := fun k => w.cnf sg small cand k b n)
      (ψ := fun r k => (formulasCNF sg small cand k ws r.2.1 r.2.2.1).bind fun s => some (r.1 ++ s.1, s.2.1, s.2.2.1, r.2.2.2 ++ s.2.2.2)) hr h2).congr fun k => rfl⟩

end Verif.CNFProof
