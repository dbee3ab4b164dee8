import Verif.Orderings.KboOrder

/-!
# Order theory of the textbook lexicographic path ordering (helper lemmas for C10, C11)
-/

namespace Verif.LpoOrder
open Verif Term KboOrder

variable {gt : Nat → Nat → Prop}

theorem lpo_var_left {x : Nat} {t : Term} : ¬ LPO gt (.var x) t := by
  intro h; cases h

/-- The LPO in terms of `LexGt`. -/
theorem lpo_app_iff {f g : Nat} {ss ts : List Term} :
    LPO gt (.app f ss) (.app g ts) ↔ (∃ s ∈ ss, s = .app g ts ∨ LPO gt s (.app g ts)) ∨
      ((∀ t ∈ ts, LPO gt (.app f ss) t) ∧ (gt f g ∨ f = g ∧ LexGt (LPO gt) ss ts)) := by
  constructor
  · intro h
    cases h with
    | sub h => exact Or.inl ⟨_, h, Or.inl rfl⟩
    | subGt h1 h2 => exact Or.inl ⟨_, h1, Or.inr h2⟩
    | prec h1 h2 => exact Or.inr ⟨h2, Or.inl h1⟩
    | lex hl h1 h2 => exact Or.inr ⟨h2, Or.inr ⟨rfl, lexGt_of _ hl h1⟩⟩
  · rintro (⟨s, hs, rfl | h⟩ | ⟨h1, h | ⟨rfl, h⟩⟩)
    · exact .sub hs
    · exact .subGt hs h
    · exact .prec h h1
    · obtain ⟨pre, s, t, ss, ts, rfl, rfl, hl, h⟩ := lexGt_iff.1 h
      exact .lex hl h h1

/-- A term greater than `t` is greater than the arguments of `t`. -/
theorem lpo_args {s : Term} {g : Nat} {ts : List Term} {u : Term} (h : LPO gt s (.app g ts)) (hu : u ∈ ts) : LPO gt s u := by
  generalize ht : Term.app g ts = t at h
  induction h with
  | sub hm => subst ht; exact .subGt hm (.sub hu)
  | subGt hm _ ih => exact .subGt hm (ih ht)
  | prec _ hall _ => cases ht; exact hall _ hu
  | lex _ _ hall _ _ => cases ht; exact hall _ hu

theorem lpo_trans (hP : StrictPrec gt) : ∀ (n : Nat) {s t u : Term}, s.size + t.size + u.size ≤ n → LPO gt s t → LPO gt t u →
    LPO gt s u := by
  intro n
  induction n with
  | zero => intro s t u hn; have := size_pos s; omega
  | succ n ih =>
    intro s t u hn h1 h2
    cases s with
    | var x => exact absurd h1 lpo_var_left
    | app f ss =>
      cases t with
      | var y => exact absurd h2 lpo_var_left
      | app g ts =>
        rcases lpo_app_iff.1 h1 with ⟨s, hs, rfl | h⟩ | ⟨hall, hd⟩
        · exact .subGt hs h2
        · have := size_arg_lt (f := f) hs
          exact .subGt hs (ih (by omega) h h2)
        · cases u with
          | var z =>
            cases h2 with
            | sub hm => exact hall _ hm
            | subGt hm h =>
              have := size_arg_lt (f := g) hm
              exact ih (by omega) (hall _ hm) h
          | app k us =>
            rcases lpo_app_iff.1 h2 with ⟨t, ht, rfl | h⟩ | ⟨hall2, hd2⟩
            · exact hall _ ht
            · have := size_arg_lt (f := g) ht
              exact ih (by omega) (hall _ ht) h
            · have hall3 : ∀ u ∈ us, LPO gt (.app f ss) u := fun u hu => by
                have := size_arg_lt (f := k) hu
                exact ih (by omega) h1 (hall2 u hu)
              refine lpo_app_iff.2 (Or.inr ⟨hall3, ?_⟩)
              rcases hd with hd | ⟨rfl, hd⟩ <;> rcases hd2 with hd2 | ⟨rfl, hd2⟩
              · exact Or.inl (hP.trans _ _ _ hd hd2)
              · exact Or.inl hd
              · exact Or.inl hd2
              · refine Or.inr ⟨rfl, hd.trans (fun a ha b hb c hc r1 r2 => ?_) hd2⟩
                have := size_arg_lt (f := f) ha
                have := size_arg_lt (f := f) hb
                have := size_arg_lt (f := f) hc
                exact ih (by omega) r1 r2

theorem LPO.trans (hP : StrictPrec gt) {s t u : Term} (h1 : LPO gt s t) (h2 : LPO gt t u) : LPO gt s u :=
  lpo_trans hP _ (le_refl _) h1 h2

theorem lexGt_irrefl {R : Term → Term → Prop} {as : List Term} (h : ∀ a ∈ as, ¬ R a a) : ¬ LexGt R as as := by
  induction as with
  | nil => intro h; cases h
  | cons a as ih =>
    intro hl
    cases hl with
    | head _ hr => exact h a (by simp) hr
    | tail hl => exact ih (fun b hb => h b (by simp [hb])) hl

theorem lpo_irrefl (hP : StrictPrec gt) {s : Term} : ¬ LPO gt s s := by
  induction s using Term.ind with
  | hv x => exact lpo_var_left
  | ha f ss ih =>
    intro h
    rcases lpo_app_iff.1 h with ⟨s, hs, he | h⟩ | ⟨-, h | ⟨-, h⟩⟩
    · have := size_arg_lt (f := f) hs
      rw [he] at this; omega
    · exact ih s hs (LPO.trans hP h (.sub hs))
    · exact hP.irrefl f h
    · exact lexGt_irrefl ih h

theorem lpo_asymm (hP : StrictPrec gt) {s t : Term} (h : LPO gt s t) : ¬ LPO gt t s := fun h' => lpo_irrefl hP (LPO.trans hP h h')

theorem lpo_vars {s t : Term} (h : LPO gt s t) : ∀ x ∈ t.vars, x ∈ s.vars := by
  have harg : ∀ {f : Nat} {ss : List Term} {t : Term}, t ∈ ss → ∀ x ∈ t.vars, x ∈ (Term.app f ss).vars := by
    intro f ss t ht x hx
    simp only [vars, varsL_eq, List.mem_flatMap]
    exact ⟨t, ht, hx⟩
  induction h with
  | sub h => exact harg h
  | subGt h _ ih => exact fun x hx => harg h x (ih x hx)
  | prec _ _ ih =>
    intro x hx
    simp only [vars, varsL_eq, List.mem_flatMap] at hx
    obtain ⟨t, ht, hx⟩ := hx
    exact ih t ht x hx
  | lex _ _ _ _ ih =>
    intro x hx
    simp only [vars, varsL_eq, List.mem_flatMap] at hx
    obtain ⟨t, ht, hx⟩ := hx
    exact ih t ht x hx

/-- `s > x` exactly if `x` is a proper subterm. -/
theorem lpo_var_right {s : Term} {x : Nat} : LPO gt s (.var x) ↔ x ∈ s.vars ∧ s ≠ .var x := by
  constructor
  · intro h
    refine ⟨lpo_vars h x (by simp [vars]), ?_⟩
    rintro rfl
    exact lpo_var_left h
  · rintro ⟨hx, hne⟩
    induction s using Term.ind with
    | hv y => simp only [vars, List.mem_singleton] at hx; subst hx; exact absurd rfl hne
    | ha f ss ih =>
      simp only [vars, varsL_eq, List.mem_flatMap] at hx
      obtain ⟨t, ht, hx⟩ := hx
      by_cases he : t = .var x
      · subst he; exact .sub ht
      · exact .subGt ht (ih t ht hx he)

theorem lpo_subst (σ : Nat → Term) {s t : Term} (h : LPO gt s t) : LPO gt (s.subst σ) (t.subst σ) := by
  induction h with
  | sub h => rw [subst_app]; exact .sub (List.mem_map_of_mem h)
  | subGt h _ ih => rw [subst_app]; exact .subGt (List.mem_map_of_mem h) ih
  | prec h _ ih =>
    rw [subst_app] at *
    rw [subst_app]
    refine .prec h fun t ht => ?_
    obtain ⟨u, hu, rfl⟩ := List.mem_map.1 ht
    exact ih u hu
  | lex hl _ _ ih1 ih2 =>
    rw [subst_app] at *
    rw [subst_app]
    simp only [List.map_append, List.map_cons] at *
    refine .lex (by simpa using hl) ih1 fun t ht => ?_
    rcases List.mem_append.1 ht with ht | ht
    · obtain ⟨u, hu, rfl⟩ := List.mem_map.1 ht
      exact ih2 u (by simp [hu])
    · rcases List.mem_cons.1 ht with rfl | ht
      · exact ih2 _ (by simp)
      · obtain ⟨u, hu, rfl⟩ := List.mem_map.1 ht
        exact ih2 u (by simp [hu])

theorem lpo_mono {s t : Term} (h : LPO gt s t) (f : Nat) (pre post : List Term) :
    LPO gt (.app f (pre ++ s :: post)) (.app f (pre ++ t :: post)) := by
  refine .lex rfl h fun u hu => ?_
  rcases List.mem_append.1 hu with hu | hu
  · exact .sub (by simp [hu])
  · rcases List.mem_cons.1 hu with rfl | hu
    · exact .subGt (by simp) h
    · exact .sub (by simp [hu])

theorem lex_total {R : Term → Term → Prop} {as bs : List Term} (hl : as.length = bs.length)
    (h : ∀ a ∈ as, ∀ b ∈ bs, a ≠ b → R a b ∨ R b a) (hne : as ≠ bs) : LexGt R as bs ∨ LexGt R bs as := by
  induction as generalizing bs with
  | nil => exact absurd (List.length_eq_zero_iff.1 hl.symm).symm hne
  | cons a as ih =>
    cases bs with
    | nil => simp at hl
    | cons b bs =>
      have hl' : as.length = bs.length := by simpa using hl
      by_cases hab : a = b
      · subst hab
        rcases ih hl' (fun a ha b hb => h a (by simp [ha]) b (by simp [hb])) (fun e => hne (by rw [e])) with h | h
        · exact Or.inl (.tail h)
        · exact Or.inr (.tail h)
      · rcases h a (by simp) b (by simp) hab with h | h
        · exact Or.inl (.head hl' h)
        · exact Or.inr (.head hl'.symm h)

theorem lpo_total (hP : TotalPrec gt) {ar : Nat → Nat} : ∀ (n : Nat) {s t : Term}, s.size + t.size ≤ n → s.HasAr ar → t.HasAr ar →
    s.vars = [] → t.vars = [] → s ≠ t → LPO gt s t ∨ LPO gt t s := by
  have hg : ∀ {f : Nat} {ts : List Term}, (Term.app f ts).vars = [] → ∀ t ∈ ts, t.vars = [] := by
    intro f ts h t ht
    simp only [vars, varsL_eq, List.flatMap_eq_nil_iff] at h
    exact h t ht
  intro n
  induction n with
  | zero => intro s t hn; have := size_pos s; omega
  | succ n ih =>
    intro s t hn hs ht gs gt' hne
    cases s with
    | var x => simp [vars] at gs
    | app f ss =>
      cases t with
      | var x => simp [vars] at gt'
      | app g ts =>
        obtain ⟨hsl, hsa⟩ := hasAr_app.1 hs
        obtain ⟨htl, hta⟩ := hasAr_app.1 ht
        by_cases h1 : ∃ s ∈ ss, s = .app g ts ∨ LPO gt s (.app g ts)
        · exact Or.inl (lpo_app_iff.2 (Or.inl h1))
        by_cases h2 : ∃ t ∈ ts, t = .app f ss ∨ LPO gt t (.app f ss)
        · exact Or.inr (lpo_app_iff.2 (Or.inl h2))
        have a1 : ∀ t ∈ ts, LPO gt (.app f ss) t := fun t htm => by
          have := size_arg_lt (f := g) htm
          have hne' : Term.app f ss ≠ t := fun e => h2 ⟨t, htm, Or.inl e.symm⟩
          rcases ih (by omega) hs (hta t htm) gs (hg gt' t htm) hne' with h | h
          · exact h
          · exact absurd ⟨t, htm, Or.inr h⟩ h2
        have a2 : ∀ s ∈ ss, LPO gt (.app g ts) s := fun s hsm => by
          have := size_arg_lt (f := f) hsm
          have hne' : Term.app g ts ≠ s := fun e => h1 ⟨s, hsm, Or.inl e.symm⟩
          rcases ih (by omega) ht (hsa s hsm) gt' (hg gs s hsm) hne' with h | h
          · exact h
          · exact absurd ⟨s, hsm, Or.inr h⟩ h1
        by_cases hfg : f = g
        · subst hfg
          have hne' : ss ≠ ts := fun e => hne (by rw [e])
          rcases lex_total (R := LPO gt) (hsl.trans htl.symm) (fun a ha b hb hab => by
            have := size_arg_lt (f := f) ha
            have := size_arg_lt (f := f) hb
            exact ih (by omega) (hsa a ha) (hta b hb) (hg gs a ha) (hg gt' b hb) hab) hne' with h | h
          · exact Or.inl (lpo_app_iff.2 (Or.inr ⟨a1, Or.inr ⟨rfl, h⟩⟩))
          · exact Or.inr (lpo_app_iff.2 (Or.inr ⟨a2, Or.inr ⟨rfl, h⟩⟩))
        · rcases hP.total f g hfg with h | h
          · exact Or.inl (lpo_app_iff.2 (Or.inr ⟨a1, Or.inl h⟩))
          · exact Or.inr (lpo_app_iff.2 (Or.inr ⟨a2, Or.inl h⟩))

/-! ## Well-foundedness -/

theorem lpo_acc_app (hwf : WellFounded fun f g => gt g f) :
    ∀ (f : Nat) (ss : List Term), (∀ s ∈ ss, Acc (fun a b => LPO gt b a) s) → Acc (fun a b => LPO gt b a) (.app f ss) := by
  intro f
  induction f using hwf.induction with
  | _ f ihf =>
    intro ss hacc
    refine lex_induct (R := LPO gt) ss.length (Q := fun ss => Acc (fun a b => LPO gt b a) (.app f ss)) ?_ ss rfl hacc
    clear hacc
    intro as hl hacc ihl
    refine ⟨_, fun t ht => ?_⟩
    have key : ∀ t, LPO gt (.app f as) t → Acc (fun a b => LPO gt b a) t := by
      intro t
      induction t using Term.ind with
      | hv x => intro _; exact ⟨_, fun u hu => absurd hu lpo_var_left⟩
      | ha g ts ih =>
        intro h
        have hts : ∀ t ∈ ts, Acc (fun a b => LPO gt b a) t := fun t htm => ih t htm (lpo_args h htm)
        rcases lpo_app_iff.1 h with ⟨s, hs, rfl | h'⟩ | ⟨-, h' | ⟨rfl, h'⟩⟩
        · exact hacc _ hs
        · exact (hacc s hs).inv h'
        · exact ihf g h' ts hts
        · exact ihl ts h' hts
    exact key t ht

theorem lpo_wf (hwf : WellFounded fun f g => gt g f) : WellFounded fun s t => LPO gt t s := by
  refine ⟨fun t => ?_⟩
  induction t using Term.ind with
  | hv x => exact ⟨_, fun u hu => absurd hu lpo_var_left⟩
  | ha f ts ih => exact lpo_acc_app hwf f ts ih

theorem cut_lpo {N : Nat} {s t : Term} (h : LPO gt s t) (hs : s.SymsBelow N) (ht : t.SymsBelow N) :
    LPO (KboOrder.cut gt N) s t := by
  induction h with
  | sub h => exact .sub h
  | subGt h _ ih => exact .subGt h (ih ((symsBelow_app.1 hs).2 _ h) ht)
  | prec h _ ih =>
    exact .prec ⟨(symsBelow_app.1 hs).1, Or.inr ⟨(symsBelow_app.1 ht).1, h⟩⟩ fun t htm =>
      ih t htm hs ((symsBelow_app.1 ht).2 t htm)
  | lex hl _ _ ih1 ih2 =>
    exact .lex hl (ih1 ((symsBelow_app.1 hs).2 _ (by simp)) ((symsBelow_app.1 ht).2 _ (by simp))) fun t htm =>
      ih2 t htm hs ((symsBelow_app.1 ht).2 t htm)

theorem lpo_wf_finite (hP : StrictPrec gt) (N : Nat) :
    WellFounded fun s t : Term => s.SymsBelow N ∧ t.SymsBelow N ∧ LPO gt t s := by
  refine Subrelation.wf ?_ (lpo_wf (gt := KboOrder.cut gt N) (cut_wf hP N))
  rintro s t ⟨h1, h2, h3⟩
  exact cut_lpo h3 h2 h1

end Verif.LpoOrder
