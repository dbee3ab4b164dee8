import Verif.Formulas.FoolProof

/-!
# Lemmas on the two unrolling procedures
-/

namespace Verif.FoolProof

open Verif Fool FT Interp

universe u
variable {sg : Sig}

/-! ## What the searches find -/

theorem tryBool_some {t : FT} {sub s k} (h : tryBool sg t sub = some (s, k)) :
    (t.ty sg = sg.fty 1 ∧ ignored t = false ∧ s = t ∧ k = fun u => u) ∨ (t.ty sg ≠ sg.fty 1 ∧ sub = some (s, k)) := by
  unfold tryBool at h
  split_ifs at h with h1 h2
  · simp only [Option.some.injEq, Prod.mk.injEq] at h
    exact .inl ⟨(isBool_iff _).1 h1, by simpa using h2, h.1.symm, h.2.symm⟩
  · exact .inr ⟨fun e => h1 ((isBool_iff _).2 e), h⟩

theorem findFool_at {t s k} (h : findFool sg t = some (s, k)) :
    s.ty sg = sg.fty 1 ∧ ignored s = false ∧ (∃ a m k', Child true t a m ∧ At true a s k' ∧ k = fun u => m (k' u)) ∧
    (t.isQu = false → At false t s k) := by
  induction t using kidInd generalizing s k with
  | h t ih =>
    rw [findFool_kid] at h
    obtain ⟨a, m, k', hc, ha, rfl⟩ := findKid_some h
    rcases tryBool_some ha with ⟨h1, h2, rfl, rfl⟩ | ⟨h1, h2⟩
    · exact ⟨h1, h2, ⟨_, m, _, hc, .here _, rfl⟩, fun hq => .step (child_false hc hq) (.here _)⟩
    · obtain ⟨e1, e2, ⟨b, m', k2, hb, hs, rfl⟩, e4⟩ := ih a (child_mem hc) h2
      refine ⟨e1, e2, ⟨a, m, _, hc, .step hb hs, rfl⟩, fun hq => ?_⟩
      refine .step (child_false hc hq) (e4 ?_)
      cases e : a.isQu
      · rfl
      · exact absurd (isQu_bool e) h1

theorem simple_of_ignored {t : FT} (h : ignored t = true) : Simple t := by
  unfold ignored at h
  split at h
  · exact .var _
  · refine .tf _ _ (by simpa using h)
  · next p l r =>
    simp only [Bool.and_eq_true, Bool.or_eq_true] at h
    obtain ⟨h1, h2⟩ := h
    rw [isTrue_eq h1]
    rcases h2 with h2 | h2
    · cases l <;> simp [isVar] at h2
      exact .varLit _ _
    · rw [isTrue_eq h2]; exact .trueLit _
  · cases h

theorem findFool_flat {t} (h : findFool sg t = none) : Flat sg t := by
  induction t using kidInd with
  | h t ih =>
    rw [findFool_kid] at h
    have := findKid_none h
    refine .mk t (fun a ha e => ?_) fun a ha e => ?_
    · have := this a ha
      unfold tryBool at this
      rw [if_pos ((isBool_iff _).2 e)] at this
      split_ifs at this with h1
      exact simple_of_ignored h1
    · have := this a ha
      unfold tryBool at this
      rw [if_neg (fun h => e ((isBool_iff _).1 h))] at this
      exact ih a ha this

/-! ## Weights -/

mutual
/-- The number of symbols, where `$true` and `$false` do not count. -/
def wgt : FT → Nat
  | .var _ => 1
  | .app f ts => if ts = [] then (if f = 1 ∨ f = 2 then 0 else 1) else 1 + wgtL ts
  | .eqn _ l r => 1 + wgt l + wgt r
  | .not a => 1 + wgt a
  | .bin _ a b => 1 + wgt a + wgt b
  | .qu _ _ a => 1 + wgt a
  | .ite c a b => 1 + wgt c + wgt a + wgt b
def wgtL : List FT → Nat
  | [] => 0
  | t :: ts => wgt t + wgtL ts
end

theorem wgtL_append (xs ys : List FT) : wgtL (xs ++ ys) = wgtL xs + wgtL ys := by
  induction xs with
  | nil => simp [wgtL]
  | cons x xs ih => simp [wgtL, ih]; omega

theorem child_wgt {t a m q} (h : Child q t a m) : wgt a < wgt t ∧ (∀ u, wgt u < wgt a → wgt (m u) < wgt t) := by
  cases h <;> simp [wgt, wgtL_append, wgtL] <;> (try constructor) <;> intros <;> omega

theorem at_wgt {t s k q} (h : At q t s k) : wgt s ≤ wgt t ∧ (∀ u, wgt u < wgt s → wgt (k u) < wgt t) := by
  induction h with
  | here => exact ⟨le_rfl, fun _ h => h⟩
  | step hc _ ih =>
    have := child_wgt hc
    exact ⟨by omega, fun u hu => this.2 _ (ih.2 u hu)⟩

/-! ## Removal of Boolean arguments -/

theorem findFoolLit_kid (p l r) : findFoolLit sg p l r = findKid (findFool sg) (.eqn p l r) := rfl

theorem findFoolLit_some {p l r s k} (h : findFoolLit sg p l r = some (s, k)) :
    s.ty sg = sg.fty 1 ∧ ignored s = false ∧ wgt s + 2 ≤ wgt (.eqn p l r) ∧
    (∀ u, wgt u < wgt s → wgt (k u) < wgt (.eqn p l r)) ∧ At true (.eqn p l r) s k ∧
    (l.isQu = false → r.isQu = false → At false (.eqn p l r) s k) := by
  rw [findFoolLit_kid] at h
  obtain ⟨a, m, k', hc, ha, rfl⟩ := findKid_some h
  obtain ⟨h1, h2, ⟨b, m', k2, hb, hs, rfl⟩, h4⟩ := findFool_at ha
  have hat := At.step hc (.step hb hs)
  refine ⟨h1, h2, ?_, (at_wgt hat).2, hat, fun hl hr => ?_⟩
  · have := child_wgt hc
    have := child_wgt hb
    have := at_wgt hs
    omega
  · refine .step (child_false hc rfl) (h4 ?_)
    cases hc
    · exact hl
    · exact hr

theorem ignored_wgt {s : FT} (h : ignored s = false) : 0 < wgt s := by
  cases s with
  | app f ts =>
    simp only [ignored, Bool.or_eq_false_iff, beq_eq_false_iff_ne] at h
    simp only [wgt]
    split_ifs <;> simp_all
  | _ => simp [wgt] <;> omega

theorem wgt_tt : wgt tt = 0 := by simp [tt, wgt]
theorem wgt_ff : wgt ff = 0 := by simp [ff, wgt]

theorem encode_spec (hs : SigOK sg) {s : FT} (h : WT sg s) (hb : s.ty sg = sg.fty 1) :
    WT sg (encode sg s) ∧ (encode sg s).ty sg = sg.fty 1 := by
  unfold encode
  rw [if_pos ((isBool_iff _).2 hb)]
  split
  · exact ⟨⟨trivial, wt_tt hs, by simpa [ty, tt] using hb⟩, rfl⟩
  · next f ts =>
    split_ifs
    · exact ⟨⟨wt_tt hs, wt_tt hs, rfl⟩, rfl⟩
    · exact ⟨⟨h, wt_tt hs, by simpa [ty, tt] using hb⟩, rfl⟩
  · exact ⟨⟨h, wt_tt hs, by simpa [ty, tt] using hb⟩, rfl⟩
  · exact ⟨h, hb⟩

theorem wt_false_args (hs : SigOK sg) {ts : List FT} (h : WT sg (.app 2 ts)) : ts = [] := by
  rw [WT, hs.fargs] at h
  simpa using h.1

theorem encode_val (hs : SigOK sg) (I : Interp.{u} sg) {s : FT} (h : WT sg s) (hb : s.ty sg = sg.fty 1) {v}
    (hv : I.Sorted v) : val I (encode sg s) v = val I s v := by
  have key : ∀ t : FT, WT sg t → t.ty sg = sg.fty 1 → val I (.eqn true t tt) v = val I t v := by
    intro t ht hbt
    rw [val, val_tt]
    exact b2d_self I (hbt ▸ val_mem hs I ht hv)
  unfold encode
  rw [if_pos ((isBool_iff _).2 hb)]
  split
  · exact key _ h hb
  · next f ts =>
    split_ifs with e
    · subst e
      rw [wt_false_args hs h, val_eqn]
      simp [b2d, val, valL]
    · exact key _ h hb
  · exact key _ h hb
  · rfl

theorem negate_wt {s : FT} (h : WT sg s) (hb : s.ty sg = sg.fty 1) : WT sg (negate s) ∧ (negate s).ty sg = sg.fty 1 := by
  cases s <;> first | exact ⟨h, rfl⟩ | exact ⟨⟨h, hb⟩, rfl⟩

theorem val_not (I : Interp.{u} sg) (s : FT) (v) : val I (.not s) v = b2d I (val I s v ≠ I.fn 1 []) := by rw [val]

theorem negate_val (I : Interp.{u} sg) (s : FT) (v) : val I (negate s) v = b2d I (val I s v ≠ I.fn 1 []) := by
  cases s
  case eqn p l r =>
    rw [negate, val_eqn, val_eqn]
    exact b2d_cong I (by rw [Ne, b2d_true]; cases p <;> simp)
  all_goals exact val_not I _ v

theorem ignored_ne {s : FT} (h : ignored s = false) (f ts) (e : s = .app f ts) : f ≠ 1 ∧ f ≠ 2 := by
  subst e
  simpa [ignored] using h

theorem encode_wgt {s : FT} (h : ignored s = false) : wgt (encode sg s) ≤ wgt s + 1 := by
  unfold encode
  split_ifs
  · split
    · simp [wgt, wgt_tt]
    · have := ignored_ne h _ _ rfl
      rw [if_neg this.2]
      simp only [wgt, wgt_tt]; omega
    · simp only [wgt, wgt_tt]; omega
    · omega
  · omega

theorem child_sides {t a m q} (h : Child q t a m) (ht : SidesOK t) : SidesOK a ∧
    ∀ u, SidesOK u → u.isQu = false → SidesOK (m u) ∧ ((m u).isQu = true → t.isQu = true) := by
  cases h <;> simp only [SidesOK, sidesOKL_iff] at ht ⊢
  case app f pre post =>
    refine ⟨ht _ (by simp), fun u hu _ => ⟨?_, by simp [isQu]⟩⟩
    intro x hx
    rcases List.mem_append.1 hx with h | h
    · exact ht x (by simp [h])
    · rcases List.mem_cons.1 h with rfl | h
      · exact hu
      · exact ht x (by simp [h])
  all_goals refine ⟨by tauto, fun u hu e => ?_⟩
  all_goals simp_all [isQu]

theorem at_sides {t s k q} (h : At q t s k) (ht : SidesOK t) : SidesOK s ∧
    ∀ u, SidesOK u → u.isQu = false → SidesOK (k u) ∧ ((k u).isQu = true → t.isQu = true) := by
  induction h with
  | here => exact ⟨ht, fun u hu e => ⟨hu, fun h => by rw [e] at h; cases h⟩⟩
  | @step t a m s k hc _ ih =>
    have h1 := child_sides hc ht
    have h2 := ih h1.1
    refine ⟨h2.1, fun u hu e => ?_⟩
    have h3 := h2.2 u hu e
    cases hq : (k u).isQu
    · exact h1.2 _ h3.1 hq
    · -- the argument is itself a quantified formula, and so is no side of an equation
      have ha := h3.2 hq
      cases hc <;> simp only [SidesOK, sidesOKL_iff] at ht ⊢
      case app f pre post =>
        refine ⟨?_, by simp [isQu]⟩
        intro x hx
        rcases List.mem_append.1 hx with h | h
        · exact ht x (by simp [h])
        · rcases List.mem_cons.1 h with rfl | h
          · exact h3.1
          · exact ht x (by simp [h])
      all_goals simp_all [isQu]

theorem encode_sides {s : FT} (h : SidesOK s) : SidesOK (encode sg s) := by
  unfold encode
  split_ifs
  · split
    · simp [SidesOK, SidesOKL, tt, isQu]
    · split_ifs
      · simp [SidesOK, SidesOKL, tt, isQu]
      · exact ⟨h, by simp [tt, SidesOK, SidesOKL], rfl, rfl⟩
    · exact ⟨h, by simp [tt, SidesOK, SidesOKL], rfl, rfl⟩
    · exact h
  · exact h

theorem negate_sides {s : FT} (h : SidesOK s) : SidesOK (negate s) := by
  cases s <;> exact h

theorem updv_congr (I : Interp.{u} sg) {a b : FT} (h : ∀ v, I.Sorted v → val I a v = val I b v) (q x) {v} (hv : I.Sorted v) :
    val I (.qu q x a) v = val I (.qu q x b) v := by
  cases q
  · rw [val, val]
    exact b2d_cong I ⟨fun ⟨d, hd, k⟩ => ⟨d, hd, by rwa [h _ (sorted_updv I hv hd)] at k⟩,
      fun ⟨d, hd, k⟩ => ⟨d, hd, by rwa [h _ (sorted_updv I hv hd)]⟩⟩
  · rw [val, val]
    exact b2d_cong I ⟨fun k d hd => by rw [← h _ (sorted_updv I hv hd)]; exact k d hd,
      fun k d hd => by rw [h _ (sorted_updv I hv hd)]; exact k d hd⟩

/-- The case distinction on a Boolean term in a formula. -/
theorem case_val (hs : SigOK sg) (I : Interp.{u} sg) {s s' x y t : FT} {v} (hb : I.mem (sg.fty 1) (val I s v))
    (ht : I.mem (sg.fty 1) (val I t v)) (hss : val I s' v = val I s v)
    (hx : val I s v = I.fn 1 [] → val I x v = val I t v) (hy : val I s v = I.fn 2 [] → val I y v = val I t v) :
    val I (.bin .and (.bin .or (negate s') x) (.bin .or s' y)) v = val I t v := by
  rw [val, val, val]
  rw [negate_val, hss]
  refine Eq.trans (b2d_cong I ?_) (b2d_self I ht)
  simp only [BOp.Holds, b2d_true]
  rcases I.bool2 _ hb with e | e
  · rw [hx e]; simp [e]
  · rw [hy e]; simp [e, I.tf.symm]

theorem doFool_spec (hs : SigOK sg) {n t u} (h : doFool sg n t = some u) (ht : WT sg t) (hb : t.ty sg = sg.fty 1) :
    (WT sg u ∧ u.ty sg = sg.fty 1) ∧
    (SidesOK t → ∀ (I : Interp.{u} sg) v, I.Sorted v → val I u v = val I t v) := by
  induction n generalizing t u with
  | zero => simp [doFool] at h
  | succ n ih =>
    cases t with
    | eqn p l r =>
      rw [doFool] at h
      split at h
      · cases h; exact ⟨⟨ht, rfl⟩, fun _ I v _ => rfl⟩
      · next s k e =>
        obtain ⟨h1, h2, -, -, hat, hat'⟩ := findFoolLit_some e
        have hw := at_wt hat ht
        have hen := encode_spec hs hw.1 h1
        have hng := negate_wt hen.1 hen.2
        have hkt := hw.2 tt (wt_tt hs) h1.symm
        have hkf := hw.2 ff (wt_ff hs) ((ty_ff hs).trans h1.symm)
        dsimp only at h
        split at h
        · next x y ex ey =>
          cases h
          have ix := ih ex ⟨hng.1, hkt.1, hng.2, hkt.2⟩ rfl
          have iy := ih ey ⟨hen.1, hkf.1, hen.2, hkf.2⟩ rfl
          refine ⟨⟨⟨ix.1.1, iy.1.1, ix.1.2, iy.1.2⟩, rfl⟩, fun hsd I v hv => ?_⟩
          have hat := hat' hsd.2.2.1 hsd.2.2.2
          have hsd' := at_sides hat hsd
          have jx := ix.2 ⟨negate_sides (encode_sides hsd'.1), (hsd'.2 tt (by simp [tt, SidesOK, SidesOKL]) rfl).1⟩ I v hv
          have jy := iy.2 ⟨encode_sides hsd'.1, (hsd'.2 ff (by simp [ff, SidesOK, SidesOKL]) rfl).1⟩ I v hv
          have hkeq := at_eq hat
          rw [val, jx, jy, ← val]
          refine case_val hs I (s := s) (h1 ▸ val_mem hs I hw.1 hv) (val_mem hs I ht hv) (encode_val hs I hw.1 h1 hv) ?_ ?_
          · intro e
            rw [← hkeq]
            exact at_val hat I (by rw [val_tt, e])
          · intro e
            rw [← hkeq]
            exact at_val hat I (by rw [val_ff, e])
        · cases h
    | qu q x a =>
      simp only [doFool, Option.map_eq_some_iff] at h
      obtain ⟨b, hb', rfl⟩ := h
      have := ih hb' ht.1 ht.2
      exact ⟨⟨this.1, rfl⟩, fun hsd I v hv => updv_congr I (this.2 hsd I) q x hv⟩
    | not a =>
      simp only [doFool, Option.map_eq_some_iff] at h
      obtain ⟨b, hb', rfl⟩ := h
      have := ih hb' ht.1 ht.2
      exact ⟨⟨this.1, rfl⟩, fun hsd I v hv => by rw [val, val, this.2 hsd I v hv]⟩
    | bin op a b =>
      rw [doFool] at h
      split at h
      · next x y ex ey =>
        cases h
        have ix := ih ex ht.1 ht.2.2.1
        have iy := ih ey ht.2.1 ht.2.2.2
        exact ⟨⟨⟨ix.1.1, iy.1.1, ix.1.2, iy.1.2⟩, rfl⟩,
          fun hsd I v hv => by rw [val, val, ix.2 hsd.1 I v hv, iy.2 hsd.2 I v hv]⟩
      · cases h
    | _ => simp only [doFool, Option.some.injEq] at h; subst h; exact ⟨⟨ht, hb⟩, fun _ I v _ => rfl⟩

theorem doFool_unrolled {n t u} (h : doFool sg n t = some u) : Unrolled sg u := by
  induction n generalizing t u with
  | zero => simp [doFool] at h
  | succ n ih =>
    cases t with
    | eqn p l r =>
      rw [doFool] at h
      split at h
      · next e =>
        cases h
        have := first2_none e
        exact ⟨findFool_flat this.1, findFool_flat this.2⟩
      · dsimp only at h
        split at h
        · next ex ey => cases h; exact ⟨ih ex, ih ey⟩
        · cases h
    | qu q x a =>
      simp only [doFool, Option.map_eq_some_iff] at h
      obtain ⟨b, hb', rfl⟩ := h
      rw [Unrolled]
      exact ih hb'
    | not a =>
      simp only [doFool, Option.map_eq_some_iff] at h
      obtain ⟨b, hb', rfl⟩ := h
      rw [Unrolled]
      exact ih hb'
    | bin op a b =>
      rw [doFool] at h
      split at h
      · next x y ex ey => cases h; exact ⟨ih ex, ih ey⟩
      · cases h
    | _ => simp only [doFool, Option.some.injEq] at h; subst h; trivial

theorem doFool_mono {n t u} (h : doFool sg n t = some u) (m : Nat) (hm : n ≤ m) : doFool sg m t = some u := by
  induction n generalizing t u m with
  | zero => simp [doFool] at h
  | succ n ih =>
    obtain ⟨m, rfl⟩ : ∃ m', m = m' + 1 := ⟨m - 1, by omega⟩
    have hm : n ≤ m := by omega
    cases t with
    | eqn p l r =>
      rw [doFool] at h ⊢
      split at h
      · exact h
      · dsimp only at h ⊢
        split at h
        · next ex ey => rw [ih ex m hm, ih ey m hm]; exact h
        · cases h
    | qu q x a =>
      simp only [doFool, Option.map_eq_some_iff] at h ⊢
      obtain ⟨b, hb', rfl⟩ := h
      exact ⟨b, ih hb' m hm, rfl⟩
    | not a =>
      simp only [doFool, Option.map_eq_some_iff] at h ⊢
      obtain ⟨b, hb', rfl⟩ := h
      exact ⟨b, ih hb' m hm, rfl⟩
    | bin op a b =>
      rw [doFool] at h ⊢
      split at h
      · next x y ex ey => rw [ih ex m hm, ih ey m hm]; exact h
      · cases h
    | _ => simpa only [doFool] using h

theorem doFool_bin {op a b} (ha : ∃ n u, doFool sg n a = some u) (hb : ∃ n u, doFool sg n b = some u) :
    ∃ n u, doFool sg n (.bin op a b) = some u := by
  obtain ⟨n, x, hx⟩ := ha
  obtain ⟨m, y, hy⟩ := hb
  refine ⟨max n m + 1, .bin op x y, ?_⟩
  rw [doFool, doFool_mono hx _ (Nat.le_max_left n m), doFool_mono hy _ (Nat.le_max_right n m)]

theorem doFool_negate {a} (h : ∃ n u, doFool sg n a = some u) (hl : ∀ p l r, a = .eqn p l r → ∃ n u, doFool sg n (.eqn (!p) l r) = some u) :
    ∃ n u, doFool sg n (negate a) = some u := by
  obtain ⟨n, x, hx⟩ := h
  have : ∃ n u, doFool sg n (.not a) = some u := ⟨n + 1, .not x, by rw [doFool, hx]; rfl⟩
  cases a with
  | eqn p l r => exact hl p l r rfl
  | _ => exact this

theorem doFool_total (w : Nat) (t : FT) (h : wgt t ≤ w) : ∃ n u, doFool sg n t = some u := by
  induction w using Nat.strong_induction_on generalizing t with
  | _ w ih =>
    cases t with
    | eqn p l r =>
      cases e : findFoolLit sg p l r with
      | none => exact ⟨1, _, by rw [doFool, e]⟩
      | some sk =>
        obtain ⟨s, k⟩ := sk
        obtain ⟨h1, h2, h3, h4, -, -⟩ := findFoolLit_some e
        have hen := encode_wgt (sg := sg) h2
        have hw := ignored_wgt h2
        have c1 : ∃ n u, doFool sg n (encode sg s) = some u := ih _ (by omega) _ le_rfl
        have c2 : ∃ n u, doFool sg n (negate (encode sg s)) = some u := by
          refine doFool_negate c1 fun p' l' r' e' => ih (wgt (encode sg s)) (by omega) _ ?_
          rw [e']; simp [wgt]
        have c3 : ∃ n u, doFool sg n (k tt) = some u :=
          ih (wgt (k tt)) (lt_of_lt_of_le (h4 tt (by rw [wgt_tt]; exact hw)) h) _ le_rfl
        have c4 : ∃ n u, doFool sg n (k ff) = some u :=
          ih (wgt (k ff)) (lt_of_lt_of_le (h4 ff (by rw [wgt_ff]; exact hw)) h) _ le_rfl
        obtain ⟨n, x, hx⟩ := doFool_bin (op := .or) c2 c3
        obtain ⟨m, y, hy⟩ := doFool_bin (op := .or) c1 c4
        refine ⟨max n m + 1, .bin .and x y, ?_⟩
        rw [doFool, e]
        dsimp only
        rw [doFool_mono hx _ (Nat.le_max_left n m), doFool_mono hy _ (Nat.le_max_right n m)]
    | qu q x a =>
      obtain ⟨n, u, hu⟩ := ih (wgt a) (by simp only [wgt] at h; omega) a le_rfl
      exact ⟨n + 1, .qu q x u, by rw [doFool, hu]; rfl⟩
    | not a =>
      obtain ⟨n, u, hu⟩ := ih (wgt a) (by simp only [wgt] at h; omega) a le_rfl
      exact ⟨n + 1, .not u, by rw [doFool, hu]; rfl⟩
    | bin op a b =>
      exact doFool_bin (ih (wgt a) (by simp only [wgt] at h; omega) a le_rfl)
        (ih (wgt b) (by simp only [wgt] at h; omega) b le_rfl)
    | _ => exact ⟨1, _, rfl⟩

/-! ## Lifting of `$ite` -/

theorem tryIte_some {t : FT} {sub s k} (h : tryIte t sub = some (s, k)) :
    (t.isIte = true ∧ s = t ∧ k = fun u => u) ∨ (t.isIte = false ∧ sub = some (s, k)) := by
  unfold tryIte at h
  split_ifs at h with h1
  · simp only [Option.some.injEq, Prod.mk.injEq] at h
    exact .inl ⟨h1, h.1.symm, h.2.symm⟩
  · exact .inr ⟨by simpa using h1, h⟩

theorem iteFree_kids {t : FT} : IteFree t ↔ t.isIte = false ∧ ∀ a ∈ kids t, IteFree a := by
  cases t <;> simp [IteFree, iteFreeL_iff, kids, isIte]

theorem tryIte_free {t : FT} : tryIte t (findIte t) = none ↔ IteFree t := by
  induction t using kidInd with
  | h t ih =>
    rw [iteFree_kids]
    unfold tryIte
    split_ifs with h
    · simp [h]
    · simp only [h, true_and]
      rw [findIte_kid]
      constructor
      · exact fun h a ha => (ih a ha).1 (findKid_none h a ha)
      · intro h
        cases e : findKid (fun a => tryIte a (findIte a)) t with
        | none => rfl
        | some p =>
          obtain ⟨a, m, k', hc, ha, -⟩ := findKid_some (s := p.1) (k := p.2) e
          have := (ih a (child_mem hc)).2 (h a (child_mem hc))
          rw [this] at ha; cases ha

theorem tryIte_at {t s k} (h : tryIte t (findIte t) = some (s, k)) : s.isIte = true ∧ At true t s k := by
  induction t using kidInd generalizing s k with
  | h t ih =>
    rcases tryIte_some h with ⟨h1, rfl, rfl⟩ | ⟨h1, h2⟩
    · exact ⟨h1, .here _⟩
    · rw [findIte_kid] at h2
      obtain ⟨a, m, k', hc, ha, rfl⟩ := findKid_some h2
      exact ⟨(ih a (child_mem hc) ha).1, .step hc (ih a (child_mem hc) ha).2⟩

theorem child_ok {t a m q} (h : Child q t a m) (hi : t.isIte = false) (hq : t.isQu = false) (ht : OK false t) : OK false a ∧
    ∀ u, OK false u → OK false (m u) := by
  cases h <;> simp only [OK, okL_iff] at ht ⊢
  case app f pre post =>
    refine ⟨ht _ (by simp), fun u hu => ?_⟩
    intro x hx
    rcases List.mem_append.1 hx with h | h
    · exact ht x (by simp [h])
    · rcases List.mem_cons.1 h with rfl | h
      · exact hu
      · exact ht x (by simp [h])
  all_goals simp_all [isQu, isIte]

theorem tryIte_ok {t s k} (h : tryIte t (findIte t) = some (s, k)) (ht : OK false t) :
    At false t s k ∧ OK false s ∧ ∀ u, OK false u → OK false (k u) := by
  induction t using kidInd generalizing s k with
  | h t ih =>
    rcases tryIte_some h with ⟨h1, rfl, rfl⟩ | ⟨h1, h2⟩
    · exact ⟨.here _, ht, fun u hu => hu⟩
    · rw [findIte_kid] at h2
      obtain ⟨a, m, k', hc, ha, rfl⟩ := findKid_some h2
      have hq : t.isQu = false := by
        cases hc with
        | qu u x a =>
          have : IteFree a := ht
          rw [tryIte_free.2 this] at ha; cases ha
        | _ => rfl
      have h3 := child_ok hc h1 hq ht
      have h4 := ih a (child_mem hc) ha h3.1
      exact ⟨.step (child_false hc hq) h4.1, h4.2.1, fun u hu => h3.2 _ (h4.2.2 u hu)⟩

theorem findIteLit_some {p l r s k} (h : findIteLit p l r = some (s, k)) : ∃ c a b, s = .ite c a b ∧
    At true (.eqn p l r) s k ∧ (OK true (.eqn p l r) → At false (.eqn p l r) s k ∧ OK false s ∧
      ∀ u, OK false u → ∃ l' r', k u = .eqn p l' r' ∧ OK true (k u)) := by
  have h' : findKid (fun a => tryIte a (findIte a)) (.eqn p l r) = some (s, k) := h
  obtain ⟨a, m, k', hc, ha, rfl⟩ := findKid_some h'
  have h1 := tryIte_at ha
  obtain ⟨c, x, y, rfl⟩ : ∃ c x y, s = .ite c x y := by
    cases s <;> simp [isIte] at h1
    exact ⟨_, _, _, rfl⟩
  refine ⟨c, x, y, rfl, .step hc h1.2, fun hok => ?_⟩
  have hok' : OK false (.eqn p l r) := by simpa only [OK] using hok
  have h3 := child_ok hc rfl rfl hok'
  have h4 := tryIte_ok ha h3.1
  refine ⟨.step (child_false hc rfl) h4.1, h4.2.1, fun u hu => ?_⟩
  have := h3.2 _ (h4.2.2 u hu)
  cases hc
  · exact ⟨_, _, rfl, by simpa only [OK] using this⟩
  · exact ⟨_, _, rfl, by simpa only [OK] using this⟩

theorem negate_ok {s : FT} (h : OK true s) : OK true (negate s) := by
  cases s <;> exact h

mutual
theorem doIte_free (n : Nat) (t u : FT) (h : doIte n t = some u) (ht : IteFree t) : u = t := by
  match n, t with
  | 0, t => simp [doIte] at h
  | n + 1, .ite c a b => simp [IteFree] at ht
  | n + 1, .eqn p l r =>
    rw [doIte] at h
    have : findIteLit p l r = none := by
      unfold findIteLit
      rw [tryIte_free.2 ht.1, tryIte_free.2 ht.2]; rfl
    rw [this] at h
    simpa using h.symm
  | n + 1, .var x => simpa [doIte] using h.symm
  | n + 1, .app f ts =>
    simp only [doIte, Option.map_eq_some_iff] at h
    obtain ⟨us, h1, rfl⟩ := h
    rw [doIteL_free n ts us h1 ht]
  | n + 1, .not a =>
    simp only [doIte, Option.map_eq_some_iff] at h
    obtain ⟨b, h1, rfl⟩ := h
    rw [doIte_free n a b h1 ht]
  | n + 1, .bin op a b =>
    rw [doIte] at h
    split at h
    · next x y ex ey => cases h; rw [doIte_free n a _ ex ht.1, doIte_free n b _ ey ht.2]
    · cases h
  | n + 1, .qu q x a =>
    simp only [doIte, Option.map_eq_some_iff] at h
    obtain ⟨b, h1, rfl⟩ := h
    rw [doIte_free n a b h1 ht]
theorem doIteL_free (n : Nat) (ts us : List FT) (h : doIteL n ts = some us) (ht : IteFreeL ts) : us = ts := by
  match n, ts with
  | n, [] => simpa [doIteL] using h.symm
  | 0, _ :: _ => simp [doIteL] at h
  | n + 1, t :: ts =>
    rw [doIteL] at h
    split at h
    · next x y ex ey => cases h; rw [doIte_free n t _ ex ht.1, doIteL_free n ts _ ey ht.2]
    · cases h
end

theorem ite_val (hs : SigOK sg) (I : Interp.{u} sg) {c x y t : FT} {v} (hc : I.mem (sg.fty 1) (val I c v))
    (ht : I.mem (sg.fty 1) (val I t v))
    (hx : val I c v = I.fn 1 [] → val I x v = val I t v) (hy : val I c v ≠ I.fn 1 [] → val I y v = val I t v) :
    val I (.bin .and (.bin .or (negate c) x) (.bin .or c y)) v = val I t v :=
  case_val hs I (s := c) hc ht rfl hx fun e => hy (by rw [e]; exact I.tf.symm)

theorem doIte_spec (hs : SigOK sg) {n t u} (h : doIte n t = some u) (ht : WT sg t) (hb : t.ty sg = sg.fty 1)
    (hok : OK true t) : WT sg u ∧ u.ty sg = sg.fty 1 ∧
    ∀ (I : Interp.{u} sg) v, I.Sorted v → val I u v = val I t v := by
  induction n generalizing t u with
  | zero => simp [doIte] at h
  | succ n ih =>
    cases t with
    | ite c a b =>
      rw [doIte] at h
      have hbb : b.ty sg = sg.fty 1 := ht.2.2.2.2.symm.trans hb
      have hn := negate_wt ht.1 ht.2.2.2.1
      have := ih h ⟨⟨hn.1, ht.2.1, hn.2, hb⟩, ⟨ht.1, ht.2.2.1, ht.2.2.2.1, hbb⟩, rfl, rfl⟩ rfl
        ⟨⟨negate_ok hok.1, hok.2.1⟩, hok.1, hok.2.2⟩
      refine ⟨this.1, this.2.1, fun I v hv => ?_⟩
      rw [this.2.2 I v hv]
      refine ite_val hs I (ht.2.2.2.1 ▸ val_mem hs I ht.1 hv) (hb ▸ val_mem hs I ht hv) ?_ ?_
      · intro e; rw [val.eq_9, if_pos e]
      · intro e; rw [val.eq_9, if_neg e]
    | eqn p l r =>
      rw [doIte] at h
      split at h
      · cases h; exact ⟨ht, rfl, fun I v _ => rfl⟩
      · next c a b k e =>
        obtain ⟨c', a', b', heq, hat, hk⟩ := findIteLit_some e
        cases heq
        obtain ⟨hat', hoks, hoku⟩ := hk hok
        have hw := at_wt hat ht
        have hwi := hw.1
        rw [WT] at hwi
        have hn := negate_wt hwi.1 hwi.2.2.2.1
        have hka := hw.2 a hwi.2.1 rfl
        have hkb := hw.2 b hwi.2.2.1 hwi.2.2.2.2.symm
        have hokc : OK true c ∧ OK false a ∧ OK false b := by simpa only [OK] using hoks
        split at h
        · next x y ex ey =>
          cases h
          obtain ⟨_, _, -, oka⟩ := hoku a hokc.2.1
          obtain ⟨_, _, -, okb⟩ := hoku b hokc.2.2
          have ix := ih ex ⟨hn.1, hka.1, hn.2, hka.2⟩ rfl ⟨negate_ok hokc.1, oka⟩
          have iy := ih ey ⟨hwi.1, hkb.1, hwi.2.2.2.1, hkb.2⟩ rfl ⟨hokc.1, okb⟩
          refine ⟨⟨ix.1, iy.1, ix.2.1, iy.2.1⟩, rfl, fun I v hv => ?_⟩
          rw [val, ix.2.2 I v hv, iy.2.2 I v hv, ← val]
          have hkeq := at_eq hat'
          refine ite_val hs I (hwi.2.2.2.1 ▸ val_mem hs I hwi.1 hv) (val_mem hs I ht hv) ?_ ?_
          · intro e
            rw [← hkeq]
            exact at_val hat' I (by rw [val.eq_9, if_pos e])
          · intro e
            rw [← hkeq]
            exact at_val hat' I (by rw [val.eq_9, if_neg e])
        · cases h
      · cases h
    | var x => simp only [doIte, Option.some.injEq] at h; subst h; exact ⟨ht, hb, fun I v _ => rfl⟩
    | app f ts =>
      have := doIte_free _ _ _ h (by simpa only [IteFree, OK] using hok)
      subst this
      exact ⟨ht, hb, fun I v _ => rfl⟩
    | not a =>
      simp only [doIte, Option.map_eq_some_iff] at h
      obtain ⟨b, h1, rfl⟩ := h
      have := ih h1 ht.1 ht.2 hok
      exact ⟨⟨this.1, this.2.1⟩, rfl, fun I v hv => by rw [val_not, val_not, this.2.2 I v hv]⟩
    | bin op a b =>
      rw [doIte] at h
      split at h
      · next x y ex ey =>
        cases h
        have ix := ih ex ht.1 ht.2.2.1 hok.1
        have iy := ih ey ht.2.1 ht.2.2.2 hok.2
        exact ⟨⟨ix.1, iy.1, ix.2.1, iy.2.1⟩, rfl, fun I v hv => by rw [val, val, ix.2.2 I v hv, iy.2.2 I v hv]⟩
      · cases h
    | qu q x a =>
      simp only [doIte, Option.map_eq_some_iff] at h
      obtain ⟨b, h1, rfl⟩ := h
      have := ih h1 ht.1 ht.2 hok
      exact ⟨⟨this.1, this.2.1⟩, rfl, fun I v hv => updv_congr I (this.2.2 I) q x hv⟩

mutual
theorem doIte_iteFree (n : Nat) (t u : FT) (h : doIte n t = some u) : IteFree u := by
  match n, t with
  | 0, t => simp [doIte] at h
  | n + 1, .ite c a b => rw [doIte] at h; exact doIte_iteFree n _ u h
  | n + 1, .eqn p l r =>
    rw [doIte] at h
    split at h
    · next e =>
      cases h
      have := first2_none e
      exact ⟨tryIte_free.1 this.1, tryIte_free.1 this.2⟩
    · split at h
      · next x y ex ey => cases h; exact ⟨doIte_iteFree n _ _ ex, doIte_iteFree n _ _ ey⟩
      · cases h
    · cases h
  | n + 1, .var x => simp only [doIte, Option.some.injEq] at h; subst h; trivial
  | n + 1, .app f ts =>
    simp only [doIte, Option.map_eq_some_iff] at h
    obtain ⟨us, h1, rfl⟩ := h
    exact doIteL_iteFree n ts us h1
  | n + 1, .not a =>
    simp only [doIte, Option.map_eq_some_iff] at h
    obtain ⟨b, h1, rfl⟩ := h
    exact doIte_iteFree n a b h1
  | n + 1, .bin op a b =>
    rw [doIte] at h
    split at h
    · next x y ex ey => cases h; exact ⟨doIte_iteFree n _ _ ex, doIte_iteFree n _ _ ey⟩
    · cases h
  | n + 1, .qu q x a =>
    simp only [doIte, Option.map_eq_some_iff] at h
    obtain ⟨b, h1, rfl⟩ := h
    exact doIte_iteFree n a b h1
theorem doIteL_iteFree (n : Nat) (ts us : List FT) (h : doIteL n ts = some us) : IteFreeL us := by
  match n, ts with
  | n, [] => simp only [doIteL, Option.some.injEq] at h; subst h; trivial
  | 0, _ :: _ => simp [doIteL] at h
  | n + 1, t :: ts =>
    rw [doIteL] at h
    split at h
    · next x y ex ey => cases h; exact ⟨doIte_iteFree n _ _ ex, doIteL_iteFree n _ _ ey⟩
    · cases h
end

mutual
theorem doIte_mono (n : Nat) (t u : FT) (h : doIte n t = some u) (m : Nat) (hm : n ≤ m) : doIte m t = some u := by
  match n, t with
  | 0, t => simp [doIte] at h
  | n + 1, t =>
    obtain ⟨m, rfl⟩ : ∃ m', m = m' + 1 := ⟨m - 1, by omega⟩
    have hm : n ≤ m := by omega
    match t with
    | .ite c a b => rw [doIte] at h ⊢; exact doIte_mono n _ u h m hm
    | .eqn p l r =>
      rw [doIte] at h ⊢
      split at h
      · exact h
      · split at h
        · next x y ex ey => rw [doIte_mono n _ _ ex m hm, doIte_mono n _ _ ey m hm]; exact h
        · cases h
      · cases h
    | .var x => exact h
    | .app f ts =>
      simp only [doIte, Option.map_eq_some_iff] at h ⊢
      obtain ⟨us, h1, rfl⟩ := h
      exact ⟨us, doIteL_mono n ts us h1 m hm, rfl⟩
    | .not a =>
      simp only [doIte, Option.map_eq_some_iff] at h ⊢
      obtain ⟨us, h1, rfl⟩ := h
      exact ⟨us, doIte_mono n _ us h1 m hm, rfl⟩
    | .bin op a b =>
      rw [doIte] at h ⊢
      split at h
      · next x y ex ey => rw [doIte_mono n _ _ ex m hm, doIte_mono n _ _ ey m hm]; exact h
      · cases h
    | .qu q x a =>
      simp only [doIte, Option.map_eq_some_iff] at h ⊢
      obtain ⟨us, h1, rfl⟩ := h
      exact ⟨us, doIte_mono n _ us h1 m hm, rfl⟩
theorem doIteL_mono (n : Nat) (ts us : List FT) (h : doIteL n ts = some us) (m : Nat) (hm : n ≤ m) : doIteL m ts = some us := by
  match n, ts with
  | n, [] => simpa [doIteL] using h
  | 0, _ :: _ => simp [doIteL] at h
  | n + 1, t :: ts =>
    obtain ⟨m, rfl⟩ : ∃ m', m = m' + 1 := ⟨m - 1, by omega⟩
    have hm : n ≤ m := by omega
    rw [doIteL] at h ⊢
    split at h
    · next x y ex ey => rw [doIte_mono n _ _ ex m hm, doIteL_mono n _ _ ey m hm]; exact h
    · cases h
end

theorem doIte_bin {op a b} (ha : ∃ n u, doIte n a = some u) (hb : ∃ n u, doIte n b = some u) :
    ∃ n u, doIte n (.bin op a b) = some u := by
  obtain ⟨n, x, hx⟩ := ha
  obtain ⟨m, y, hy⟩ := hb
  refine ⟨max n m + 1, .bin op x y, ?_⟩
  rw [doIte, doIte_mono _ _ _ hx _ (Nat.le_max_left n m), doIte_mono _ _ _ hy _ (Nat.le_max_right n m)]

theorem doIte_negate {a} (h : ∃ n u, doIte n a = some u)
    (hl : ∀ p l r, a = .eqn p l r → ∃ n u, doIte n (.eqn (!p) l r) = some u) : ∃ n u, doIte n (negate a) = some u := by
  obtain ⟨n, x, hx⟩ := h
  have : ∃ n u, doIte n (.not a) = some u := ⟨n + 1, .not x, by rw [doIte, hx]; rfl⟩
  cases a with
  | eqn p l r => exact hl p l r rfl
  | _ => exact this

theorem doIteL_conv (ts : List FT) (h : ∀ t ∈ ts, ∃ n u, doIte n t = some u) : ∃ n us, doIteL n ts = some us := by
  induction ts with
  | nil => exact ⟨0, [], by simp [doIteL]⟩
  | cons t ts ih =>
    obtain ⟨n, x, hx⟩ := h t (by simp)
    obtain ⟨m, y, hy⟩ := ih fun t ht => h t (by simp [ht])
    refine ⟨max n m + 1, x :: y, ?_⟩
    rw [doIteL, doIte_mono _ _ _ hx _ (Nat.le_max_left n m), doIteL_mono _ _ _ hy _ (Nat.le_max_right n m)]

theorem doIte_total (w : Nat) (t : FT) (h : wgt t ≤ w) : ∃ n u, doIte n t = some u := by
  induction w using Nat.strong_induction_on generalizing t with
  | _ w ih =>
    have hneg : ∀ c, wgt c < w → ∃ n u, doIte n (negate c) = some u := by
      intro c hc
      refine doIte_negate (ih _ hc c le_rfl) fun p l r e => ih (wgt c) hc _ ?_
      rw [e]; simp [wgt]
    cases t with
    | ite c a b =>
      simp only [wgt] at h
      obtain ⟨n, u, hu⟩ := doIte_bin (op := .and) (doIte_bin (op := .or) (hneg c (by omega)) (ih (wgt a) (by omega) a le_rfl))
        (doIte_bin (op := .or) (ih (wgt c) (by omega) c le_rfl) (ih (wgt b) (by omega) b le_rfl))
      exact ⟨n + 1, u, by rw [doIte]; exact hu⟩
    | eqn p l r =>
      cases e : findIteLit p l r with
      | none => exact ⟨1, _, by rw [doIte, e]⟩
      | some sk =>
        obtain ⟨s, k⟩ := sk
        obtain ⟨c, a, b, rfl, hat, -⟩ := findIteLit_some e
        have hw := at_wgt hat
        simp only [wgt] at hw
        simp only [wgt] at h
        have c1 := ih (wgt c) (by omega) c le_rfl
        have c3 := ih (wgt (k a)) (lt_of_lt_of_le (hw.2 a (by omega)) h) _ le_rfl
        have c4 := ih (wgt (k b)) (lt_of_lt_of_le (hw.2 b (by omega)) h) _ le_rfl
        obtain ⟨n, x, hx⟩ := doIte_bin (op := .or) (hneg c (by omega)) c3
        obtain ⟨m, y, hy⟩ := doIte_bin (op := .or) c1 c4
        refine ⟨max n m + 1, .bin .and x y, ?_⟩
        rw [doIte, e]
        dsimp only
        rw [doIte_mono _ _ _ hx _ (Nat.le_max_left n m), doIte_mono _ _ _ hy _ (Nat.le_max_right n m)]
    | var x => exact ⟨1, _, rfl⟩
    | app f ts =>
      have : ∀ t ∈ ts, wgt t < w := by
        intro t ht
        obtain ⟨m, hm⟩ := mem_child (t := .app f ts) ht
        exact lt_of_lt_of_le (child_wgt hm).1 h
      obtain ⟨n, us, hu⟩ := doIteL_conv ts fun t ht => ih _ (this t ht) t le_rfl
      exact ⟨n + 1, .app f us, by rw [doIte, hu]; rfl⟩
    | not a =>
      obtain ⟨n, u, hu⟩ := ih (wgt a) (by simp only [wgt] at h; omega) a le_rfl
      exact ⟨n + 1, .not u, by rw [doIte, hu]; rfl⟩
    | bin op a b =>
      exact doIte_bin (ih (wgt a) (by simp only [wgt] at h; omega) a le_rfl)
        (ih (wgt b) (by simp only [wgt] at h; omega) b le_rfl)
    | qu q x a =>
      obtain ⟨n, u, hu⟩ := ih (wgt a) (by simp only [wgt] at h; omega) a le_rfl
      exact ⟨n + 1, .qu q x u, by rw [doIte, hu]; rfl⟩

end Verif.FoolProof
