import Verif.Formulas.CNFShape
import Verif.Props.Norm

/-!
# Renaming the quantified variables
-/

namespace Verif.CNFProof
open Form SemProof Props

universe u
variable {sg : Sig}

/-- All variables of the bank are in use: requests are answered with new variables. -/
def Full (b : VarBank) : Prop := b.Inv ∧ ∀ ty, b.vcnt ty = (b.vstk ty).length

theorem full_setUsed {b : VarBank} (h : b.Inv) : Full b.setUsed :=
  ⟨⟨h.even, h.codes, h.nodup, h.typed, fun _ => Nat.le_refl _⟩, fun _ => rfl⟩

theorem full_getFresh {b : VarBank} (h : Full b) (ty : Nat) :
    (b.getFresh ty).1 = b.fresh + 2 ∧ Full (b.getFresh ty).2 ∧ (b.getFresh ty).2.fresh = b.fresh + 2 ∧
    (∀ t c, c ∈ b.vstk t → c ∈ (b.getFresh ty).2.vstk t) ∧ b.fresh + 2 ∈ (b.getFresh ty).2.vstk ty := by
  have hi := VarBank.inv_getFresh h.1 ty
  have hn : (b.vstk ty)[b.vcnt ty]? = none := by rw [h.2]; simp
  have e : b.getFresh ty = (b.fresh + 2,
      { fresh := b.fresh + 2
        vstk := fun t => if t = ty then b.vstk ty ++ [b.fresh + 2] else b.vstk t
        vcnt := fun t => if t = ty then b.vcnt ty + 1 else b.vcnt t }) := by
    unfold VarBank.getFresh; rw [hn]
  rw [e] at hi ⊢
  refine ⟨rfl, ⟨hi, fun t => ?_⟩, rfl, fun t c hc => ?_, by simp⟩
  · by_cases ht : t = ty
    · subst ht; simp [h.2]
    · simp [ht, h.2]
  · by_cases ht : t = ty
    · subst ht; simp [hc]
    · simp [ht, hc]

/-- The bank grows. -/
structure Grows (b b' : VarBank) : Prop where
  full : Full b'
  le : b.fresh ≤ b'.fresh
  stk : ∀ t c, c ∈ b.vstk t → c ∈ b'.vstk t

theorem Grows.trans {a b c : VarBank} (h1 : Grows a b) (h2 : Grows b c) : Grows a c :=
  ⟨h2.full, Nat.le_trans h1.le h2.le, fun t x hx => h2.stk t x (h1.stk t x hx)⟩

theorem Grows.agrees {b b' : VarBank} (h : Grows b b') (ha : BankAgrees sg b') : BankAgrees sg b :=
  fun ty c hc => ha ty c (h.stk ty c hc)

theorem varRename_grows (f : Form) : ∀ (ρ : Nat → Nat) {b : VarBank}, Full b → Grows b (varRename sg f ρ b).2 := by
  induction f with
  | lit p l r => intro ρ b h; exact ⟨h, Nat.le_refl _, fun _ _ hc => hc⟩
  | atom t => intro ρ b h; exact ⟨h, Nat.le_refl _, fun _ _ hc => hc⟩
  | not f ih => intro ρ b h; exact ih ρ h
  | bin op f g ih1 ih2 =>
    intro ρ b h
    have h1 := ih1 ρ h
    exact h1.trans (ih2 ρ h1.full)
  | qu q x f ih =>
    intro ρ b h
    obtain ⟨h1, h2, h3, h4, h5⟩ := full_getFresh h (sg.vty x)
    exact Grows.trans ⟨h2, by omega, h4⟩ (ih _ h2)

theorem varRename_fv (f : Form) : ∀ (ρ : Nat → Nat) (b : VarBank) {y : Nat}, (varRename sg f ρ b).1.FV y → ∃ z, f.FV z ∧ y = ρ z := by
  have hs : ∀ (ρ : Nat → Nat) (t : Term) y, y ∈ (t.subst fun x => .var (ρ x)).vars → ∃ z ∈ t.vars, y = ρ z := by
    intro ρ t y hy
    obtain ⟨z, hz, h⟩ := Term.mem_vars_subst.1 hy
    exact ⟨z, hz, by simpa [Term.vars] using h⟩
  induction f with
  | lit p l r =>
    intro ρ b y hy
    rcases hy with hy | hy
    · obtain ⟨z, hz, h⟩ := hs _ _ _ hy; exact ⟨z, .inl hz, h⟩
    · obtain ⟨z, hz, h⟩ := hs _ _ _ hy; exact ⟨z, .inr hz, h⟩
  | atom t => intro ρ b y hy; exact hs _ _ _ hy
  | not f ih => intro ρ b y hy; exact ih ρ b hy
  | bin op f g ih1 ih2 =>
    intro ρ b y hy
    rcases hy with hy | hy
    · obtain ⟨z, hz, h⟩ := ih1 _ _ hy; exact ⟨z, .inl hz, h⟩
    · obtain ⟨z, hz, h⟩ := ih2 _ _ hy; exact ⟨z, .inr hz, h⟩
  | qu q x f ih =>
    intro ρ b y hy
    obtain ⟨hne, hy⟩ := hy
    obtain ⟨z, hz, h⟩ := ih _ _ hy
    by_cases hzx : z = x
    · simp [hzx] at h; exact absurd h hne
    · simp [hzx] at h; exact ⟨z, ⟨hzx, hz⟩, h⟩

theorem varRename_binders (f : Form) : ∀ (ρ : Nat → Nat) {b : VarBank}, Full b → (binders (varRename sg f ρ b).1).Nodup ∧
    ∀ y ∈ binders (varRename sg f ρ b).1, b.fresh < y ∧ y ≤ (varRename sg f ρ b).2.fresh := by
  induction f with
  | lit p l r => intro ρ b h; simp [varRename, binders]
  | atom t => intro ρ b h; simp [varRename, binders]
  | not f ih => intro ρ b h; exact ih ρ h
  | bin op f g ih1 ih2 =>
    intro ρ b h
    have g1 := varRename_grows (sg := sg) f ρ h
    have g2 := varRename_grows (sg := sg) g ρ g1.full
    obtain ⟨a1, a2⟩ := ih1 ρ h
    obtain ⟨b1, b2⟩ := ih2 ρ g1.full
    simp only [varRename, binders]
    refine ⟨List.nodup_append.2 ⟨a1, b1, fun y hy z hz => ?_⟩, fun y hy => ?_⟩
    · have := a2 y hy; have := b2 z hz; omega
    · have := g1.le; have := g2.le
      rcases List.mem_append.1 hy with hy | hy
      · have := a2 y hy; omega
      · have := b2 y hy; omega
  | qu q x f ih =>
    intro ρ b h
    obtain ⟨h1, h2, h3, h4, h5⟩ := full_getFresh h (sg.vty x)
    obtain ⟨a1, a2⟩ := ih (fun z => if z = x then (b.getFresh (sg.vty x)).1 else ρ z) h2
    have g := varRename_grows (sg := sg) f (fun z => if z = x then (b.getFresh (sg.vty x)).1 else ρ z) h2
    simp only [varRename, binders]
    refine ⟨List.nodup_cons.2 ⟨fun hm => ?_, a1⟩, fun y hy => ?_⟩
    · have := (a2 _ hm).1; omega
    · have := g.le
      rcases List.mem_cons.1 hy with rfl | hy
      · omega
      · have := a2 y hy; omega

theorem varRename_holds (I : Interp.{u} sg) (f : Form) : ∀ (ρ : Nat → Nat) {b : VarBank}, Full b → BankAgrees sg (varRename sg f ρ b).2 →
    (∀ z, f.FV z → ρ z ≤ b.fresh) → ∀ v, (varRename sg f ρ b).1.Holds I v ↔ f.Holds I (fun x => v (ρ x)) := by
  induction f with
  | lit p l r =>
    intro ρ b h ha hρ v
    simp only [varRename, Holds, Interp.LitTrue, eval_subst]; rfl
  | atom t =>
    intro ρ b h ha hρ v
    simp only [varRename, Holds, eval_subst]; rfl
  | not f ih => intro ρ b h ha hρ v; exact not_congr (ih ρ h ha hρ v)
  | bin op f g ih1 ih2 =>
    intro ρ b h ha hρ v
    have g1 := varRename_grows (sg := sg) f ρ h
    have g2 := varRename_grows (sg := sg) g ρ g1.full
    exact bin_congr (ih1 ρ h (g2.agrees ha) (fun z hz => hρ z (.inl hz)) v)
      (ih2 ρ g1.full ha (fun z hz => Nat.le_trans (hρ z (.inr hz)) g1.le) v)
  | qu q x f ih =>
    intro ρ b h ha hρ v
    obtain ⟨h1, h2, h3, h4, h5⟩ := full_getFresh h (sg.vty x)
    generalize hy : (b.getFresh (sg.vty x)).1 = y at *
    have g := varRename_grows (sg := sg) f (fun z => if z = x then y else ρ z) h2
    have hle : ∀ z, f.FV z → (if z = x then y else ρ z) ≤ (b.getFresh (sg.vty x)).2.fresh := by
      intro z hz
      split
      · omega
      · rename_i hne; have := hρ z ⟨hne, hz⟩; omega
    have ha' : BankAgrees sg (varRename sg f (fun z => if z = x then y else ρ z) (b.getFresh (sg.vty x)).2).2 := by
      have := ha; simp only [varRename, hy] at this; exact this
    have e := ih (fun z => if z = x then y else ρ z) h2 ha' hle
    have hty : sg.vty y = sg.vty x := ha' _ _ (g.stk _ _ (h1 ▸ h5))
    have hv : ∀ d, f.Holds I (fun z => updv v y d (if z = x then y else ρ z)) ↔ f.Holds I (updv (fun z => v (ρ z)) x d) := by
      intro d
      refine holds_congr I fun z hz => ?_
      by_cases hzx : z = x
      · simp [updv, hzx]
      · have : ρ z ≠ y := by have := hρ z ⟨hzx, hz⟩; omega
        simp [updv, hzx, this]
    simp only [varRename, hy]
    cases q with
    | true => simp only [Holds, hty]; exact forall_congr' fun d => imp_congr_right fun _ => (e _).trans (hv d)
    | false => simp only [Holds, hty]; exact exists_congr fun d => and_congr_right fun _ => (e _).trans (hv d)

theorem varRename_nnf {f : Form} (hf : f.IsNNF) : ∀ (ρ : Nat → Nat) (b : VarBank), (varRename sg f ρ b).1.IsNNF := by
  induction f with
  | lit => intro ρ b; trivial
  | atom => exact hf.elim
  | not => exact hf.elim
  | bin op f g ih1 ih2 => intro ρ b; exact ⟨hf.1, ih1 hf.2.1 _ _, ih2 hf.2.2 _ _⟩
  | qu q x f ih => intro ρ b; exact ih hf _ _

theorem wt_ren {ρ : Nat → Nat} (hρ : ∀ z, sg.vty (ρ z) = sg.vty z) : sg.WTSubst fun x => .var (ρ x) :=
  fun x => ⟨hρ x, trivial⟩

theorem varRename_wt (f : Form) : ∀ (ρ : Nat → Nat) {b : VarBank}, Full b → BankAgrees sg (varRename sg f ρ b).2 →
    (∀ z, sg.vty (ρ z) = sg.vty z) → f.WT sg → (varRename sg f ρ b).1.WT sg := by
  induction f with
  | lit p l r =>
    intro ρ b h ha hρ hw
    have hs := wt_ren hρ
    exact ⟨Sig.wt_subst hs hw.1, Sig.wt_subst hs hw.2.1,
      ((Sig.ty_subst (fun x => (hs x).1) _).trans hw.2.2).trans (Sig.ty_subst (fun x => (hs x).1) _).symm⟩
  | atom t =>
    intro ρ b h ha hρ hw
    have hs := wt_ren hρ
    exact ⟨Sig.wt_subst hs hw.1, (Sig.ty_subst (fun x => (hs x).1) _).trans hw.2⟩
  | not f ih => intro ρ b h ha hρ hw; exact ih ρ h ha hρ hw
  | bin op f g ih1 ih2 =>
    intro ρ b h ha hρ hw
    have g1 := varRename_grows (sg := sg) f ρ h
    have g2 := varRename_grows (sg := sg) g ρ g1.full
    exact ⟨ih1 ρ h (g2.agrees ha) hρ hw.1, ih2 ρ g1.full ha hρ hw.2⟩
  | qu q x f ih =>
    intro ρ b h ha hρ hw
    obtain ⟨h1, h2, h3, h4, h5⟩ := full_getFresh h (sg.vty x)
    have g := varRename_grows (sg := sg) f (fun z => if z = x then (b.getFresh (sg.vty x)).1 else ρ z) h2
    refine ⟨trivial, ih _ h2 ha (fun z => ?_) hw.2⟩
    split
    · rename_i hzx; rw [hzx]; exact ha _ _ (g.stk _ _ (h1 ▸ h5))
    · exact hρ z

theorem symsBelow_subst {N : Nat} {σ : Nat → Term} {t : Term} (h : t.SymsBelow N) (hσ : ∀ y ∈ t.vars, (σ y).SymsBelow N) :
    (t.subst σ).SymsBelow N := by
  induction t using Term.ind with
  | hv y => exact hσ y (by simp [Term.vars])
  | ha f ts ih =>
    rw [Term.subst_app, Term.symsBelow_app]
    rw [Term.symsBelow_app] at h
    refine ⟨h.1, fun t ht => ?_⟩
    obtain ⟨s, hs, rfl⟩ := List.mem_map.1 ht
    exact ih s hs (h.2 s hs) fun y hy => hσ y (by simp only [Term.vars, Term.mem_varsL]; exact ⟨s, hs, hy⟩)

theorem varRename_syms {n : Nat} (f : Form) : ∀ (ρ : Nat → Nat) (b : VarBank), f.SymsBelow n → (varRename sg f ρ b).1.SymsBelow n := by
  induction f with
  | lit p l r => intro ρ b h; exact ⟨symsBelow_subst h.1 fun _ _ => trivial, symsBelow_subst h.2 fun _ _ => trivial⟩
  | atom t => intro ρ b h; exact symsBelow_subst h fun _ _ => trivial
  | not f ih => intro ρ b h; exact ih ρ b h
  | bin op f g ih1 ih2 => intro ρ b h; exact ⟨ih1 _ _ h.1, ih2 _ _ h.2⟩
  | qu q x f ih => intro ρ b h; exact ⟨trivial, ih _ _ h.2⟩

end Verif.CNFProof
