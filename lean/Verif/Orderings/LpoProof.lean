import Verif.Orderings.Lpo
import Verif.Orderings.LpoOrder
import Verif.Orderings.KboProof

/-!
# The path ordering comparisons against the textbook ordering (helper lemmas for C10)
-/

namespace Verif.LpoProof
open Verif Term KboOrder LpoOrder

theorem depth_pos (t : Term) : 0 < t.depth := by cases t <;> simp [Term.depth]

theorem depth_arg {f : Nat} {t : Term} {ts : List Term} (h : t ∈ ts) : t.depth < (Term.app f ts).depth := by
  rw [Term.depth]
  have : t.depth ≤ Term.depthL ts := by
    induction ts with
    | nil => simp at h
    | cons u ts ih =>
      rw [Term.depthL]
      rcases List.mem_cons.1 h with rfl | h
      · exact le_max_left _ _
      · exact (ih h).trans (le_max_right _ _)
  omega

variable {cmp : Nat → Nat → Cmp} {ar : Nat → Nat}

theorem lpo4_sound (hc : StrictCmp cmp) : ∀ (d : Nat) {s t : Term}, s.HasAr ar → t.HasAr ar →
    lpo4 cmp d s t = true → LPO (fun f g => cmp f g = .greater) s t := by
  intro d
  induction d with
  | zero => intro s t _ _ h; simp [lpo4] at h
  | succ d ih =>
    intro s t hs ht h
    cases s with
    | var x => simp [lpo4] at h
    | app f ss =>
      cases t with
      | var x =>
        simp only [lpo4, decide_eq_true_eq] at h
        exact lpo_var_right.2 ⟨h, by simp⟩
      | app g ts =>
        obtain ⟨hsl, hsa⟩ := hasAr_app.1 hs
        obtain ⟨htl, hta⟩ := hasAr_app.1 ht
        have alpha : ∀ as : List Term, (∀ a ∈ as, a ∈ ss) → lpoAlpha (lpo4 cmp d) as (.app g ts) = true →
            LPO (fun f g => cmp f g = .greater) (.app f ss) (.app g ts) := by
          intro as has h
          simp only [lpoAlpha, List.any_eq_true, Bool.or_eq_true, decide_eq_true_eq] at h
          obtain ⟨a, ha, rfl | h⟩ := h
          · exact .sub (has _ ha)
          · exact .subGt (has a ha) (ih (hsa a (has a ha)) ht h)
        rw [lpo4] at h
        by_cases h1 : cmp f g = .greater
        · rw [if_pos h1] at h
          simp only [lpoMajo, List.all_eq_true] at h
          exact .prec h1 fun t ht' => ih hs (hta t ht') (h t ht')
        · rw [if_neg h1] at h
          by_cases h2 : cmp f g = .equal
          · rw [if_pos h2] at h
            obtain rfl := (hc.eqv f g).1 h2
            have key : ∀ (as bs pre : List Term), ss = pre ++ as → ts = pre ++ bs → as.length = bs.length →
                lpoLexMa (lpo4 cmp d) (.app f ss) (.app f ts) as bs = true →
                LPO (fun f g => cmp f g = .greater) (.app f ss) (.app f ts) := by
              intro as
              induction as with
              | nil => intro bs pre _ _ _ h; simp [lpoLexMa] at h
              | cons a as iha =>
                intro bs pre e1 e2 hl h
                cases bs with
                | nil => simp at hl
                | cons b bs =>
                  rw [lpoLexMa] at h
                  by_cases hab : a = b
                  · rw [if_pos hab] at h
                    subst hab
                    exact iha bs (pre ++ [a]) (by simp [e1]) (by simp [e2]) (by simpa using hl) h
                  · rw [if_neg hab] at h
                    by_cases hg : lpo4 cmp d a b = true
                    · rw [if_pos hg] at h
                      simp only [lpoMajo, List.all_eq_true] at h
                      have hab' := ih (hsa a (by simp [e1])) (hta b (by simp [e2])) hg
                      have hall : ∀ u ∈ ts, LPO (fun f g => cmp f g = .greater) (.app f ss) u := by
                        intro u hu
                        rw [e2] at hu
                        rcases List.mem_append.1 hu with hu | hu
                        · exact .sub (by rw [e1]; simp [hu])
                        · rcases List.mem_cons.1 hu with rfl | hu
                          · exact .subGt (s := a) (by rw [e1]; simp) hab'
                          · exact ih hs (hta u (by rw [e2]; simp [hu])) (h u hu)
                      exact lpo_app_iff.2 (Or.inr ⟨hall, Or.inr ⟨rfl, by
                        rw [e1, e2]; exact lexGt_of pre (by simpa using hl) hab'⟩⟩)
                    · rw [if_neg hg] at h
                      exact alpha as (fun x hx => by rw [e1]; simp [hx]) h
            exact key ss ts [] rfl rfl (hsl.trans htl.symm) h
          · rw [if_neg h2] at h
            exact alpha ss (fun _ h => h) h

theorem lpo4_complete (hc : StrictCmp cmp) : ∀ (d : Nat) {s t : Term}, s.HasAr ar → t.HasAr ar → s.depth + t.depth ≤ d + 1 →
    LPO (fun f g => cmp f g = .greater) s t → lpo4 cmp d s t = true := by
  have hP := hc.strict
  intro d
  induction d with
  | zero =>
    intro s t _ _ hd
    have := depth_pos s
    have := depth_pos t
    omega
  | succ d ih =>
    intro s t hs ht hd h
    cases s with
    | var x => exact absurd h lpo_var_left
    | app f ss =>
      cases t with
      | var x => simpa [lpo4] using (lpo_var_right.1 h).1
      | app g ts =>
        obtain ⟨hsl, hsa⟩ := hasAr_app.1 hs
        obtain ⟨htl, hta⟩ := hasAr_app.1 ht
        have majo : ∀ bs : List Term, (∀ b ∈ bs, b ∈ ts) → lpoMajo (lpo4 cmp d) (.app f ss) bs = true := by
          intro bs hbs
          simp only [lpoMajo, List.all_eq_true]
          intro b hb
          have := depth_arg (f := g) (hbs b hb)
          exact ih hs (hta b (hbs b hb)) (by omega) (lpo_args h (hbs b hb))
        have alpha : ∀ as : List Term, (∀ a ∈ as, a ∈ ss) → (∃ a ∈ as, a = .app g ts ∨ LPO (fun f g => cmp f g = .greater) a (.app g ts)) →
            lpoAlpha (lpo4 cmp d) as (.app g ts) = true := by
          rintro as has ⟨a, ha, h⟩
          simp only [lpoAlpha, List.any_eq_true, Bool.or_eq_true, decide_eq_true_eq]
          refine ⟨a, ha, h.imp id fun h => ?_⟩
          have := depth_arg (f := f) (has a ha)
          exact ih (hsa a (has a ha)) ht (by omega) h
        rw [lpo4]
        by_cases h1 : cmp f g = .greater
        · rw [if_pos h1]
          exact majo ts fun _ h => h
        · rw [if_neg h1]
          by_cases h2 : cmp f g = .equal
          · rw [if_pos h2]
            obtain rfl := (hc.eqv f g).1 h2
            have key : ∀ (as bs pre : List Term), ss = pre ++ as → ts = pre ++ bs → as.length = bs.length →
                lpoLexMa (lpo4 cmp d) (.app f ss) (.app f ts) as bs = true := by
              intro as
              induction as with
              | nil =>
                intro bs pre e1 e2 hl
                obtain rfl : bs = [] := List.length_eq_zero_iff.1 hl.symm
                rw [e1, e2] at h
                exact absurd h (lpo_irrefl hP)
              | cons a as iha =>
                intro bs pre e1 e2 hl
                cases bs with
                | nil => simp at hl
                | cons b bs =>
                  rw [lpoLexMa]
                  by_cases hab : a = b
                  · rw [if_pos hab]
                    subst hab
                    exact iha bs (pre ++ [a]) (by simp [e1]) (by simp [e2]) (by simpa using hl)
                  · rw [if_neg hab]
                    by_cases hg : lpo4 cmp d a b = true
                    · rw [if_pos hg]
                      exact majo bs fun x hx => by rw [e2]; simp [hx]
                    · rw [if_neg hg]
                      have ham : a ∈ ss := by rw [e1]; simp
                      have hbm : b ∈ ts := by rw [e2]; simp
                      have hng : ¬ LPO (fun f g => cmp f g = .greater) a b := by
                        intro hk
                        have := depth_arg (f := f) ham
                        have := depth_arg (f := f) hbm
                        exact hg (ih (hsa a ham) (hta b hbm) (by omega) hk)
                      refine alpha as (fun x hx => by rw [e1]; simp [hx]) ?_
                      rcases lpo_app_iff.1 h with ⟨s, hsm, hst⟩ | ⟨-, h' | ⟨-, h'⟩⟩
                      · rw [e1] at hsm
                        rcases List.mem_append.1 hsm with hsm | hsm
                        · -- an equal argument cannot dominate
                          have hst' : s ∈ ts := by rw [e2]; simp [hsm]
                          rcases hst with rfl | hst
                          · have := depth_arg (f := f) hst'
                            omega
                          · exact absurd (LPO.sub hst') (lpo_asymm hP hst)
                        · rcases List.mem_cons.1 hsm with rfl | hsm
                          · rcases hst with rfl | hst
                            · exact absurd (LPO.sub hbm) hng
                            · exact absurd (LPO.trans hP hst (LPO.sub hbm)) hng
                          · exact ⟨s, hsm, hst⟩
                      · exact absurd h' h1
                      · rw [e1, e2] at h'
                        cases KboProof.lexGt_append pre (fun s => lpo_irrefl hP) h' with
                        | head _ h => exact absurd h hng
                        | tail _ => exact absurd rfl hab
            exact key ss ts [] rfl rfl (hsl.trans htl.symm)
          · rw [if_neg h2]
            refine alpha ss (fun _ h => h) ?_
            rcases lpo_app_iff.1 h with h | ⟨-, h | ⟨h, -⟩⟩
            · exact h
            · exact absurd h h1
            · exact absurd ((hc.eqv f g).2 h) h2

/-! ## The older version -/

theorem lpoEqRes_cases (r : Cmp) (dom sub : Bool) (n : Nat) :
    (r = .greater ∧ dom = true ∧ lpoEqRes r dom sub n = .greater) ∨ (r = .equal ∧ lpoEqRes r dom sub n = .equal) ∨
      (r ≠ .equal ∧ ¬ (r = .greater ∧ dom = true) ∧ 2 ≤ n ∧ sub = true ∧ lpoEqRes r dom sub n = .greater) ∨
      (r ≠ .equal ∧ ¬ (r = .greater ∧ dom = true) ∧ ¬ (2 ≤ n ∧ sub = true) ∧ lpoEqRes r dom sub n = .notgteq) := by
  by_cases hn : 2 ≤ n <;> cases r <;> cases dom <;> cases sub <;> simp [lpoEqRes, hn]

theorem lpoG_sound (hc : StrictCmp cmp) : ∀ (d : Nat) {s t : Term}, s.HasAr ar → t.HasAr ar →
    (lpoG cmp d s t = .greater → LPO (fun f g => cmp f g = .greater) s t) ∧ (lpoG cmp d s t = .equal → s = t) ∧
      lpoG cmp d s t ≠ .lesser ∧ lpoG cmp d s t ≠ .unknown ∧ lpoG cmp d s t ≠ .notleeq := by
  intro d
  induction d with
  | zero => intro s t _ _; simp [lpoG]
  | succ d ih =>
    intro s t hs ht
    cases s with
    | var x =>
      cases t with
      | var y => simp only [lpoG]; split <;> simp_all
      | app g ts => simp [lpoG]
    | app f ss =>
      cases t with
      | var x =>
        simp only [lpoG]
        split
        · rename_i h
          simp only [reduceCtorEq, IsEmpty.forall_iff, forall_const, ne_eq, not_false_eq_true, and_self, and_true]
          exact lpo_var_right.2 ⟨h, by simp⟩
        · simp
      | app g ts =>
        obtain ⟨hsl, hsa⟩ := hasAr_app.1 hs
        obtain ⟨htl, hta⟩ := hasAr_app.1 ht
        have dom : lpoDomArgs (lpoG cmp d) (.app f ss) ts = true → ∀ t ∈ ts, LPO (fun f g => cmp f g = .greater) (.app f ss) t := by
          intro h t htm
          simp only [lpoDomArgs, List.all_eq_true, decide_eq_true_eq] at h
          exact (ih hs (hta t htm)).1 (h t htm)
        have sub : lpoSubDom (lpoG cmp d) ss (.app g ts) = true → LPO (fun f g => cmp f g = .greater) (.app f ss) (.app g ts) := by
          intro h
          simp only [lpoSubDom, List.any_eq_true, Bool.or_eq_true, decide_eq_true_eq] at h
          obtain ⟨s, hsm, h | h⟩ := h
          · exact .subGt hsm ((ih (hsa s hsm) ht).1 h)
          · have := (ih (hsa s hsm) ht).2.1 h
            subst this
            exact .sub hsm
        have lexs : ∀ (as bs : List Term), as.length = bs.length → (∀ a ∈ as, a.HasAr ar) → (∀ b ∈ bs, b.HasAr ar) →
            (lpoLexG (lpoG cmp d) as bs = .greater → LexGt (LPO fun f g => cmp f g = .greater) as bs) ∧
              (lpoLexG (lpoG cmp d) as bs = .equal → as = bs) := by
          intro as
          induction as with
          | nil =>
            intro bs hl _ _
            obtain rfl : bs = [] := List.length_eq_zero_iff.1 hl.symm
            simp [lpoLexG]
          | cons a as iha =>
            intro bs hl ha hb
            cases bs with
            | nil => simp at hl
            | cons b bs =>
              have hl' : as.length = bs.length := by simpa using hl
              obtain ⟨i1, i2, -⟩ := ih (ha a (by simp)) (hb b (by simp))
              obtain ⟨j1, j2⟩ := iha bs hl' (fun x hx => ha x (by simp [hx])) (fun x hx => hb x (by simp [hx]))
              rw [lpoLexG]
              split
              · rename_i he
                have := i2 he
                subst this
                exact ⟨fun h => .tail (j1 h), fun h => by rw [j2 h]⟩
              · rename_i he
                exact ⟨fun h => .head hl' (i1 h), fun h => absurd h he⟩
        unfold lpoG
        cases hcm : cmp f g with
        | greater =>
          simp only
          split
          · rename_i h
            simp only [reduceCtorEq, IsEmpty.forall_iff, forall_const, ne_eq, not_false_eq_true, and_self, and_true]
            exact .prec hcm (dom h)
          · simp
        | equal =>
          obtain rfl := (hc.eqv f g).1 hcm
          obtain ⟨l1, l2⟩ := lexs ss ts (hsl.trans htl.symm) hsa hta
          simp only
          rcases lpoEqRes_cases (lpoLexG (lpoG cmp d) ss ts) (lpoDomArgs (lpoG cmp d) (.app f ss) ts)
            (lpoSubDom (lpoG cmp d) ss (.app f ts)) ss.length with ⟨h1, h2, h⟩ | ⟨h1, h⟩ | ⟨-, -, -, h1, h⟩ | ⟨-, -, -, h⟩
          · rw [h]
            simp only [reduceCtorEq, IsEmpty.forall_iff, forall_const, ne_eq, not_false_eq_true, and_self, and_true]
            exact lpo_app_iff.2 (Or.inr ⟨dom h2, Or.inr ⟨rfl, l1 h1⟩⟩)
          · rw [h]; simp [l2 h1]
          · rw [h]
            simp only [reduceCtorEq, IsEmpty.forall_iff, forall_const, ne_eq, not_false_eq_true, and_self, and_true]
            exact sub h1
          · rw [h]; simp
        | lesser =>
          simp only
          split
          · rename_i h
            simp only [reduceCtorEq, IsEmpty.forall_iff, forall_const, ne_eq, not_false_eq_true, and_self, and_true]
            exact sub h
          · simp
        | uncomparable =>
          simp only
          split
          · rename_i h
            simp only [reduceCtorEq, IsEmpty.forall_iff, forall_const, ne_eq, not_false_eq_true, and_self, and_true]
            exact sub h
          · simp
        | unknown => exact absurd hcm (hc.ran f g).1
        | notgteq => exact absurd hcm (hc.ran f g).2.1
        | notleeq => exact absurd hcm (hc.ran f g).2.2


theorem lpoG_complete (hc : StrictCmp cmp) : ∀ (d : Nat) {s t : Term}, s.HasAr ar → t.HasAr ar → s.depth + t.depth ≤ d + 1 →
    (LPO (fun f g => cmp f g = .greater) s t → lpoG cmp d s t = .greater) ∧ (s = t → lpoG cmp d s t = .equal) := by
  have hP := hc.strict
  intro d
  induction d with
  | zero =>
    intro s t _ _ hd
    have := depth_pos s
    have := depth_pos t
    omega
  | succ d ih =>
    intro s t hs ht hd
    cases s with
    | var x =>
      refine ⟨fun h => absurd h lpo_var_left, ?_⟩
      rintro rfl
      simp [lpoG]
    | app f ss =>
      cases t with
      | var x =>
        refine ⟨fun h => ?_, by simp⟩
        rw [lpoG, if_pos (lpo_var_right.1 h).1]
      | app g ts =>
        obtain ⟨hsl, hsa⟩ := hasAr_app.1 hs
        obtain ⟨htl, hta⟩ := hasAr_app.1 ht
        have dom : LPO (fun f g => cmp f g = .greater) (.app f ss) (.app g ts) → lpoDomArgs (lpoG cmp d) (.app f ss) ts = true := by
          intro h
          simp only [lpoDomArgs, List.all_eq_true, decide_eq_true_eq]
          intro t htm
          have := depth_arg (f := g) htm
          exact (ih hs (hta t htm) (by omega)).1 (lpo_args h htm)
        have sub : (∃ s ∈ ss, s = .app g ts ∨ LPO (fun f g => cmp f g = .greater) s (.app g ts)) →
            lpoSubDom (lpoG cmp d) ss (.app g ts) = true := by
          rintro ⟨s, hsm, h⟩
          simp only [lpoSubDom, List.any_eq_true, Bool.or_eq_true, decide_eq_true_eq]
          have := depth_arg (f := f) hsm
          obtain ⟨i1, i2⟩ := ih (hsa s hsm) ht (by omega)
          refine ⟨s, hsm, ?_⟩
          rcases h with h | h
          · exact Or.inr (i2 h)
          · exact Or.inl (i1 h)
        have lexc : ∀ (as bs : List Term), as.length = bs.length → (∀ a ∈ as, a ∈ ss) → (∀ b ∈ bs, b ∈ ts) →
            (LexGt (LPO fun f g => cmp f g = .greater) as bs → lpoLexG (lpoG cmp d) as bs = .greater) ∧
              (as = bs → lpoLexG (lpoG cmp d) as bs = .equal) := by
          intro as
          induction as with
          | nil =>
            intro bs hl _ _
            obtain rfl : bs = [] := List.length_eq_zero_iff.1 hl.symm
            exact ⟨fun h => (by cases h), fun _ => by simp [lpoLexG]⟩
          | cons a as iha =>
            intro bs hl ha hb
            cases bs with
            | nil => simp at hl
            | cons b bs =>
              have hl' : as.length = bs.length := by simpa using hl
              have ham := ha a (by simp)
              have hbm := hb b (by simp)
              have := depth_arg (f := f) ham
              have := depth_arg (f := g) hbm
              obtain ⟨i1, i2⟩ := ih (hsa a ham) (hta b hbm) (by omega)
              obtain ⟨j1, j2⟩ := iha bs hl' (fun x hx => ha x (by simp [hx])) (fun x hx => hb x (by simp [hx]))
              rw [lpoLexG]
              constructor
              · intro h
                cases h with
                | head _ h => rw [i1 h]; simp
                | tail h => rw [i2 rfl, if_pos rfl]; exact j1 h
              · intro h
                cases h
                rw [i2 rfl, if_pos rfl]
                exact j2 rfl
        unfold lpoG
        refine ⟨fun h => ?_, fun h => ?_⟩
        · cases hcm : cmp f g with
          | greater => simp only; rw [if_pos (dom h)]
          | equal =>
            obtain rfl := (hc.eqv f g).1 hcm
            simp only
            have hl := hsl.trans htl.symm
            rcases lpoEqRes_cases (lpoLexG (lpoG cmp d) ss ts) (lpoDomArgs (lpoG cmp d) (.app f ss) ts)
              (lpoSubDom (lpoG cmp d) ss (.app f ts)) ss.length with ⟨-, -, h'⟩ | ⟨h1, h'⟩ | ⟨-, -, -, -, h'⟩ | ⟨-, h1, h2, h'⟩
            · exact h'
            · exfalso
              -- the arguments would be equal
              have : ∀ (as bs : List Term), as.length = bs.length → (∀ a ∈ as, a ∈ ss) → (∀ b ∈ bs, b ∈ ts) →
                  lpoLexG (lpoG cmp d) as bs = .equal → as = bs := by
                intro as
                induction as with
                | nil =>
                  intro bs hl _ _ _
                  exact (List.length_eq_zero_iff.1 hl.symm).symm
                | cons a as iha =>
                  intro bs hl ha hb he
                  cases bs with
                  | nil => simp at hl
                  | cons b bs =>
                    rw [lpoLexG] at he
                    by_cases hab : lpoG cmp d a b = .equal
                    · rw [if_pos hab] at he
                      have := (lpoG_sound hc d (hsa a (ha a (by simp))) (hta b (hb b (by simp)))).2.1 hab
                      subst this
                      rw [iha bs (by simpa using hl) (fun x hx => ha x (by simp [hx])) (fun x hx => hb x (by simp [hx])) he]
                    · rw [if_neg hab] at he
                      exact absurd he hab
              have := this ss ts hl (fun _ h => h) (fun _ h => h) h1
              subst this
              exact lpo_irrefl hP h
            · exact h'
            · exfalso
              have hd' := dom h
              rcases lpo_app_iff.1 h with h3 | ⟨-, h3 | ⟨-, h3⟩⟩
              · have hs' := sub h3
                obtain ⟨s, hsm, hst⟩ := h3
                have hn : ss.length = 1 := by
                  have : 0 < ss.length := List.length_pos_of_mem hsm
                  by_cases h2' : 2 ≤ ss.length
                  · exact absurd ⟨h2', hs'⟩ h2
                  · omega
                -- unary symbols: the argument comparison already decides
                obtain ⟨a, rfl⟩ := List.length_eq_one_iff.1 hn
                obtain ⟨b, rfl⟩ := List.length_eq_one_iff.1 (hl.symm.trans hn)
                obtain rfl : s = a := by simpa using hsm
                have hab : LPO (fun f g => cmp f g = .greater) s b := by
                  rcases hst with rfl | hst
                  · exact .sub (by simp)
                  · exact lpo_args hst (by simp)
                exact h1 ⟨(lexc [s] [b] rfl (by simp) (by simp)).1 (.head rfl hab), hd'⟩
              · exact hP.irrefl f h3
              · exact h1 ⟨(lexc ss ts hl (fun _ h => h) (fun _ h => h)).1 h3, hd'⟩
          | lesser =>
            simp only
            rw [if_pos (sub ?_)]
            rcases lpo_app_iff.1 h with h | ⟨-, h | ⟨h, -⟩⟩
            · exact h
            · rw [hcm] at h; cases h
            · rw [(hc.eqv f g).2 h] at hcm; cases hcm
          | uncomparable =>
            simp only
            rw [if_pos (sub ?_)]
            rcases lpo_app_iff.1 h with h | ⟨-, h | ⟨h, -⟩⟩
            · exact h
            · rw [hcm] at h; cases h
            · rw [(hc.eqv f g).2 h] at hcm; cases hcm
          | unknown => exact absurd hcm (hc.ran f g).1
          | notgteq => exact absurd hcm (hc.ran f g).2.1
          | notleeq => exact absurd hcm (hc.ran f g).2.2
        · cases h
          rw [(hc.eqv f f).2 rfl]
          simp only
          rw [(lexc ss ss rfl (fun _ h => h) (fun _ h => h)).2 rfl]
          simp [lpoEqRes]

/-- `uncomparable` is answered at the top only if the second term is not greater either. -/
theorem lpoG_uncomparable {d : Nat} {s t : Term} (h : lpoG cmp (d + 1) s t = .uncomparable) (hc : StrictCmp cmp) :
    ¬ LPO (fun f g => cmp f g = .greater) t s := by
  cases s with
  | var x =>
    cases t with
    | var y => exact lpo_var_left
    | app g ts => simp [lpoG] at h
  | app f ss =>
    cases t with
    | var y => exact lpo_var_left
    | app g ts =>
      exfalso
      unfold lpoG at h
      cases hcm : cmp f g with
      | greater => rw [hcm] at h; simp only at h; split at h <;> simp at h
      | equal =>
        rw [hcm] at h
        simp only at h
        rcases lpoEqRes_cases (lpoLexG (lpoG cmp d) ss ts) (lpoDomArgs (lpoG cmp d) (.app f ss) ts)
          (lpoSubDom (lpoG cmp d) ss (.app g ts)) ss.length with ⟨-, -, h'⟩ | ⟨h1, h'⟩ | ⟨-, -, -, -, h'⟩ | ⟨-, h1, h2, h'⟩ <;>
          rw [h'] at h <;> cases h
      | lesser => rw [hcm] at h; simp only at h; split at h <;> simp at h
      | uncomparable => rw [hcm] at h; simp only at h; split at h <;> simp at h
      | unknown => exact absurd hcm (hc.ran f g).1
      | notgteq => exact absurd hcm (hc.ran f g).2.1
      | notleeq => exact absurd hcm (hc.ran f g).2.2

end Verif.LpoProof
