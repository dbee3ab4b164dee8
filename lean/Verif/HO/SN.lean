import Verif.HO.Lam

/-!
# Typed terms: preservation of types, strong normalisation
-/

namespace Verif.Lam

/-- Typing contexts below a binder. -/
def ext (a : HTy) (Γ : Nat → Option HTy) : Nat → Option HTy := fun i => match i with | 0 => some a | i + 1 => Γ i

theorem HasTy.ren {ct : Nat → HTy} {Γ : Nat → Option HTy} {m : Lam} {ty : HTy} (h : HasTy ct Γ m ty) :
    ∀ {Δ : Nat → Option HTy} {ρ : Nat → Nat}, (∀ i t, Γ i = some t → Δ (ρ i) = some t) → HasTy ct Δ (m.ren ρ) ty := by
  induction h with
  | fv => intro Δ ρ _; exact .fv
  | bv h => intro Δ ρ hr; exact .bv (hr _ _ h)
  | cn => intro Δ ρ _; exact .cn
  | lam _ ih =>
    intro Δ ρ hr
    refine .lam (ih ?_)
    intro i t hi
    cases i with
    | zero => exact hi
    | succ i => exact hr i t hi
  | app _ _ ih1 ih2 => intro Δ ρ hr; exact .app (ih1 hr) (ih2 hr)

theorem HasTy.subst {ct : Nat → HTy} {Γ : Nat → Option HTy} {m : Lam} {ty : HTy} (h : HasTy ct Γ m ty) :
    ∀ {Δ : Nat → Option HTy} {σ : Nat → Lam}, (∀ i t, Γ i = some t → HasTy ct Δ (σ i) t) → HasTy ct Δ (m.subst σ) ty := by
  induction h with
  | fv => intro Δ σ _; exact .fv
  | bv h => intro Δ σ hr; exact hr _ _ h
  | cn => intro Δ σ _; exact .cn
  | lam _ ih =>
    intro Δ σ hr
    refine .lam (ih ?_)
    intro i t hi
    cases i with
    | zero => exact .bv hi
    | succ i => exact (hr i t hi).ren fun _ _ h => h
  | app _ _ ih1 ih2 => intro Δ σ hr; exact .app (ih1 hr) (ih2 hr)

theorem HasTy.inst {ct : Nat → HTy} {Γ : Nat → Option HTy} {m a : Lam} {s t : HTy} (h : HasTy ct (ext s Γ) m t) (ha : HasTy ct Γ a s) :
    HasTy ct Γ (m.inst a) t := by
  refine h.subst ?_
  intro i u hi
  cases i with
  | zero => cases hi; exact ha
  | succ i => exact .bv hi

/-- Beta steps preserve types. -/
theorem HasTy.beta {ct : Nat → HTy} {m n : Lam} (hb : Beta m n) : ∀ {Γ : Nat → Option HTy} {ty : HTy}, HasTy ct Γ m ty → HasTy ct Γ n ty := by
  induction hb with
  | beta ty m a =>
    intro Γ t h
    cases h with
    | app h1 h2 =>
      cases h1 with
      | lam h1 => exact h1.inst h2
  | lam _ ih => intro Γ t h; cases h with | lam h => exact .lam (ih h)
  | appL _ ih => intro Γ t h; cases h with | app h1 h2 => exact .app (ih h1) h2
  | appR _ ih => intro Γ t h; cases h with | app h1 h2 => exact .app h1 (ih h2)

theorem HasTy.star {ct : Nat → HTy} {Γ : Nat → Option HTy} {m n : Lam} {ty : HTy} (h : HasTy ct Γ m ty) (hs : BetaStar m n) : HasTy ct Γ n ty := by
  induction hs with
  | refl => exact h
  | tail _ hb ih => exact HasTy.beta hb ih

theorem HasTy.unique {ct : Nat → HTy} {Γ : Nat → Option HTy} {m : Lam} {s t : HTy} (h1 : HasTy ct Γ m s) (h2 : HasTy ct Γ m t) : s = t := by
  induction h1 generalizing t with
  | fv => cases h2; rfl
  | bv h => cases h2 with | bv h' => exact Option.some.inj (h.symm.trans h')
  | cn => cases h2; rfl
  | lam _ ih => cases h2 with | lam h' => rw [ih h']
  | app _ _ ih _ => cases h2 with | app h' _ => exact (HTy.arr.inj (ih h')).2

/-! ## Strong normalisation -/

/-- Every reduction sequence ends. -/
inductive SN : Lam → Prop
  | intro {m : Lam} : (∀ n, Beta m n → SN n) → SN m

theorem SN.step {m n : Lam} (h : SN m) (hb : Beta m n) : SN n := by cases h with | intro h => exact h n hb

theorem SN.of_app {m n : Lam} (h : SN (app m n)) : SN m := by
  generalize hk : app m n = k at h
  induction h generalizing m with
  | intro _ ih => subst hk; exact .intro fun m' hb => ih _ (.appL hb) rfl

theorem SN.of_app_right {m n : Lam} (h : SN (app m n)) : SN n := by
  generalize hk : app m n = k at h
  induction h generalizing n with
  | intro _ ih => subst hk; exact .intro fun n' hb => ih _ (.appR hb) rfl

theorem SN.of_lam {ty : HTy} {m : Lam} (h : SN (lam ty m)) : SN m := by
  generalize hk : lam ty m = k at h
  induction h generalizing m with
  | intro _ ih => subst hk; exact .intro fun n' hb => ih _ (.lam hb) rfl

theorem SN.of_subst {m : Lam} {σ : Nat → Lam} (h : SN (m.subst σ)) : SN m := by
  generalize hk : m.subst σ = k at h
  induction h generalizing m with
  | intro _ ih => subst hk; exact .intro fun m' hb => ih _ (hb.subst σ) rfl

/-- Reducible terms of a type. -/
def RedTy : HTy → Lam → Prop
  | .base _, m => SN m
  | .arr a b, m => ∀ n, RedTy a n → RedTy b (app m n)

/-- Not an abstraction. -/
def Neutral : Lam → Prop
  | lam _ _ => False
  | _ => True

theorem red_props (ty : HTy) : (∀ m, RedTy ty m → SN m) ∧ (∀ m n, RedTy ty m → Beta m n → RedTy ty n) ∧
    (∀ m, Neutral m → (∀ n, Beta m n → RedTy ty n) → RedTy ty m) := by
  induction ty with
  | base k => exact ⟨fun _ h => h, fun _ _ h hb => h.step hb, fun _ _ h => .intro h⟩
  | arr a b iha ihb =>
    obtain ⟨a1, a2, a3⟩ := iha
    obtain ⟨b1, b2, b3⟩ := ihb
    have hv : RedTy a (bv 0) := a3 _ trivial fun n hb => by cases hb
    refine ⟨fun m h => (b1 _ (h _ hv)).of_app, fun m n h hb k hk => b2 _ _ (h k hk) (.appL hb), fun m hm h => ?_⟩
    intro n hn
    have hs : SN n := a1 n hn
    induction hs with
    | @intro n _ ih =>
      refine b3 _ trivial fun k hk => ?_
      cases hk with
      | beta ty m a => exact absurd hm id
      | appL hb => exact h _ hb n hn
      | appR hb => exact ih _ hb (a2 _ _ hn hb)

theorem red_lam {a b : HTy} {ty : HTy} {m : Lam} (h : ∀ n, RedTy a n → RedTy b (m.inst n)) : RedTy (.arr a b) (lam ty m) := by
  obtain ⟨a1, a2, a3⟩ := red_props a
  obtain ⟨b1, b2, b3⟩ := red_props b
  have hv : RedTy a (bv 0) := a3 _ trivial fun n hb => by cases hb
  have hm : SN m := SN.of_subst (b1 _ (h _ hv))
  induction hm with
  | @intro m _ ihm =>
    intro n hn
    have hs : SN n := a1 n hn
    induction hs with
    | @intro n _ ihn =>
      refine b3 _ trivial fun k hk => ?_
      cases hk with
      | beta => exact h n hn
      | appL hb =>
        cases hb with
        | lam hb => exact ihm _ hb (fun n hn => b2 _ _ (h n hn) (hb.subst _)) n hn
      | appR hb => exact ihn _ hb (a2 _ _ hn hb)

theorem red_subst {ct : Nat → HTy} {Γ : Nat → Option HTy} {m : Lam} {ty : HTy} (h : HasTy ct Γ m ty) :
    ∀ {σ : Nat → Lam}, (∀ i t, Γ i = some t → RedTy t (σ i)) → RedTy ty (m.subst σ) := by
  induction h with
  | fv => intro σ _; exact (red_props _).2.2 _ trivial fun n hb => by cases hb
  | bv h => intro σ hs; exact hs _ _ h
  | cn => intro σ _; exact (red_props _).2.2 _ trivial fun n hb => by cases hb
  | lam _ ih =>
    intro σ hs
    refine red_lam fun n hn => ?_
    rw [subst_up_inst]
    refine ih ?_
    intro i t hi
    cases i with
    | zero => cases hi; exact hn
    | succ i => exact hs i t hi
  | app _ _ ih1 ih2 => intro σ hs; exact ih1 hs _ (ih2 hs)

/-- Well-typed terms are strongly normalising. -/
theorem HasTy.sn {ct : Nat → HTy} {Γ : Nat → Option HTy} {m : Lam} {ty : HTy} (h : HasTy ct Γ m ty) : SN m := by
  have := red_subst h (σ := Lam.bv) fun i t _ => (red_props t).2.2 _ trivial fun n hb => by cases hb
  rw [subst_bv] at this
  exact (red_props ty).1 _ this

/-! ## Reduction and subterms together -/

/-- Immediate subterms. -/
inductive Sub : Lam → Lam → Prop
  | lam (ty : HTy) (m : Lam) : Sub (lam ty m) m
  | appL (m n : Lam) : Sub (app m n) m
  | appR (m n : Lam) : Sub (app m n) n

/-- A step of reduction or to a subterm. -/
def Down (m n : Lam) : Prop := Beta m n ∨ Sub m n

theorem sub_beta {m n n' : Lam} (h : Relation.ReflTransGen Sub m n) (hb : Beta n n') : ∃ m', Beta m m' ∧ Relation.ReflTransGen Sub m' n' := by
  induction h generalizing n' with
  | refl => exact ⟨n', hb, .refl⟩
  | tail _ hs ih =>
    cases hs with
    | lam ty k => obtain ⟨m', h1, h2⟩ := ih (.lam hb); exact ⟨m', h1, h2.tail (.lam _ _)⟩
    | appL k l => obtain ⟨m', h1, h2⟩ := ih (.appL hb); exact ⟨m', h1, h2.tail (.appL _ _)⟩
    | appR k l => obtain ⟨m', h1, h2⟩ := ih (.appR hb); exact ⟨m', h1, h2.tail (.appR _ _)⟩

theorem SN.down {m : Lam} (h : SN m) : Acc (fun a b => Down b a) m := by
  suffices H : ∀ n, Relation.ReflTransGen Sub m n → Acc (fun a b => Down b a) n from H m .refl
  induction h with
  | @intro m _ ih =>
    intro n
    induction n with
    | fv x ty =>
      intro _
      refine Acc.intro _ fun k hk => ?_
      rcases hk with hk | hk <;> cases hk
    | bv i =>
      intro _
      refine Acc.intro _ fun k hk => ?_
      rcases hk with hk | hk <;> cases hk
    | cn f =>
      intro _
      refine Acc.intro _ fun k hk => ?_
      rcases hk with hk | hk <;> cases hk
    | lam ty n ihn =>
      intro hs
      refine Acc.intro _ fun k hk => ?_
      rcases hk with hk | hk
      · obtain ⟨m', h1, h2⟩ := sub_beta hs hk
        exact ih m' h1 k h2
      · cases hk
        exact ihn (hs.tail (.lam _ _))
    | app n1 n2 ih1 ih2 =>
      intro hs
      refine Acc.intro _ fun k hk => ?_
      rcases hk with hk | hk
      · obtain ⟨m', h1, h2⟩ := sub_beta hs hk
        exact ih m' h1 k h2
      · cases hk
        · exact ih1 (hs.tail (.appL _ _))
        · exact ih2 (hs.tail (.appR _ _))

end Verif.Lam
