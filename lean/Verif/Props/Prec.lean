import Verif.Orderings.PrecProof

/-!
# C12: the precedence stays a partial ordering, and backtracking restores it

`PrecOrder` and `Extends` are in `Verif/Orderings/Spec.lean`.
-/

namespace Verif.Props
open Verif Verif.PrecProof

variable {n : Nat} {dist : Nat → Bool}

/-- The precedence a caller of `OCBFunCompare` sees. -/
def precOf (n : Nat) (dist : Nat → Bool) (st : PrecSt) : Nat → Nat → Cmp := funCmp n dist st.mat

/-- A relation a caller may ask for. -/
def Wanted (r : Cmp) : Prop := r = .equal ∨ r = .greater ∨ r = .lesser

/-- A symbol the control block knows. -/
def Known (n : Nat) (f : Nat) : Prop := 1 ≤ f ∧ f ≤ n

/-- One addition, from any state in which the precedence is an ordering: the call ends; a relation that holds or one that
contradicts the precedence leaves the state alone; any other is added together with exactly what follows from it. -/
theorem addTuple_correct {st : PrecSt} (hst : PrecOrder (Known n) (precOf n dist st)) {x y : Nat} (hx : Known n x) (hy : Known n y)
    {r : Cmp} (hr : Wanted r) {k : Nat} (hk : n * n < k) :
    ∃ res st', addTuple n dist k st x y r = some (res, st') ∧
      PrecOrder (Known n) (precOf n dist st') ∧
      Extends (Known n) (precOf n dist st) (precOf n dist st') ∧
      (precOf n dist st x y ≠ .uncomparable → st' = st) ∧
      (precOf n dist st x y = .uncomparable → precOf n dist st' x y = r ∧
        ∀ T, PrecOrder (Known n) T → Extends (Known n) (precOf n dist st) T → T x y = r → Extends (Known n) (precOf n dist st') T) ∧
      (res = if precOf n dist st x y = .uncomparable then 1 else if precOf n dist st x y = r then st.sp else 0) ∧
      precBacktrack st.sp st'.mat st'.stack = some st := by
  have hrne : r ≠ .uncomparable := by rcases hr with rfl | rfl | rfl <;> simp
  by_cases hu : precOf n dist st x y = .uncomparable
  · have hu' : precOf n dist st y x = .uncomparable := by rw [hst.inv x y hx hy, hu]; rfl
    obtain ⟨T, hT, hE, hxy, hl, hleast⟩ : ∃ T, PrecOrder (Known n) T ∧ Extends (Known n) (precOf n dist st) T ∧ T x y = r ∧
        (∀ a b, Known n a → Known n b → ge T a b → precOf n dist st a b = .uncomparable →
          ((r = .greater ∨ r = .equal) ∧ ge (precOf n dist st) a x ∧ ge (precOf n dist st) y b) ∨
          ((r = .lesser ∨ r = .equal) ∧ ge (precOf n dist st) a y ∧ ge (precOf n dist st) x b)) ∧
        (∀ T', PrecOrder (Known n) T' → Extends (Known n) (precOf n dist st) T' → T' x y = r →
          ∀ a b, Known n a → Known n b → ge T a b → ge T' a b) := by
      rcases hr with rfl | rfl | rfl
      · obtain ⟨s1, s2, s3, s4⟩ := addGe_spec hst hx hy hu True
        refine ⟨_, s1, s2, s3 trivial, ?_, ?_⟩
        · intro a b ha hb hg hab
          rcases ge_cmpOf.1 hg with h | ⟨h1, h2⟩ | ⟨-, h1, h2⟩
          · exact absurd h ((hst.unc_iff ha hb).1 hab).1
          · exact Or.inl ⟨Or.inr rfl, h1, h2⟩
          · exact Or.inr ⟨Or.inr rfl, h1, h2⟩
        · intro T' hT' hE' hxy' a b ha hb hg
          exact addGe_least hx hy hT' hE' (Or.inr hxy') (fun _ => Or.inr (by rw [hT'.inv x y hx hy, hxy']; rfl)) ha hb (ge_cmpOf.1 hg)
      · obtain ⟨s1, s2, s3, s4⟩ := addGe_spec hst hx hy hu False
        refine ⟨_, s1, s2, s4 (by simp), ?_, ?_⟩
        · intro a b ha hb hg hab
          rcases ge_cmpOf.1 hg with h | ⟨h1, h2⟩ | ⟨h, -⟩
          · exact absurd h ((hst.unc_iff ha hb).1 hab).1
          · exact Or.inl ⟨Or.inl rfl, h1, h2⟩
          · exact absurd h (by simp)
        · intro T' hT' hE' hxy' a b ha hb hg
          exact addGe_least hx hy hT' hE' (Or.inl hxy') (fun h => h.elim) ha hb (ge_cmpOf.1 hg)
      · obtain ⟨s1, s2, s3, s4⟩ := addGe_spec hst hy hx hu' False
        refine ⟨_, s1, s2, by rw [s1.inv y x hy hx, s4 (by simp)]; rfl, ?_, ?_⟩
        · intro a b ha hb hg hab
          rcases ge_cmpOf.1 hg with h | ⟨h1, h2⟩ | ⟨h, -⟩
          · exact absurd h ((hst.unc_iff ha hb).1 hab).1
          · exact Or.inr ⟨Or.inl rfl, h1, h2⟩
          · exact absurd h (by simp)
        · intro T' hT' hE' hxy' a b ha hb hg
          exact addGe_least hy hx hT' hE' (Or.inl (by rw [hT'.inv x y hx hy, hxy']; rfl)) (fun h => h.elim) ha hb (ge_cmpOf.1 hg)
    obtain ⟨st', e, hud, hc⟩ := addTuple_top rfl hst hT hE hx hy hr hxy hu hl k hk
    have hc' : ∀ a b, Known n a → Known n b → precOf n dist st' a b = T a b := hc
    have hgc : ∀ a b, Known n a → Known n b → (ge (precOf n dist st') a b ↔ ge T a b) := by
      intro a b ha hb
      unfold ge
      rw [hc' a b ha hb]
    refine ⟨1, st', e, ⟨?_, ?_, ?_, ?_⟩, ?_, fun h => absurd hu h, fun _ => ⟨by rw [hc' x y hx hy, hxy], ?_⟩, by rw [if_pos hu], hud.backtrack⟩
    · intro a ha; rw [hc' a a ha ha]; exact hT.refl a ha
    · intro a b ha hb; rw [hc' a b ha hb, hc' b a hb ha]; exact hT.inv a b ha hb
    · intro a b ha hb; rw [hc' a b ha hb]; exact hT.ran a b ha hb
    · intro a b c ha hb hc
      rw [hc' a b ha hb, hc' b c hb hc, hc' a c ha hc]; exact hT.trans a b c ha hb hc
    · intro a b ha hb hne; rw [hc' a b ha hb]; exact hE a b ha hb hne
    · intro T' hT' hE' hxy' a b ha hb hne
      by_cases hab : precOf n dist st a b = .uncomparable
      · rw [hc' a b ha hb] at hne ⊢
        have hl' := hleast T' hT' hE' hxy'
        -- a strict pair of `T` stays strict, as the added pair is not reversed in `T'`
        have g1 := hl' a b ha hb
        have g2 := hl' b a hb ha
        have hba : precOf n dist st b a = .uncomparable := by rw [hst.inv a b ha hb, hab]; rfl
        have mono : ∀ a b, Known n a → Known n b → ge (precOf n dist st) a b → ge T' a b := by
          intro a b ha hb hab
          unfold ge
          rw [hE' a b ha hb (by rcases hab with h | h <;> rw [h] <;> simp)]; exact hab
        -- the converse of a derived pair in `T'` gives the converse of the added pair
        have conv : ∀ u v a b, Known n u → Known n v → Known n a → Known n b → ge (precOf n dist st) a u → ge (precOf n dist st) v b →
            ge T' b a → ge T' v u := by
          intro u v a b hu hv ha hb h1 h2 h3
          exact hT'.ge_trans hv hb hu (mono v b hv hb h2) (hT'.ge_trans hb ha hu h3 (mono a u ha hu h1))
        have back : ∀ a b, Known n a → Known n b → precOf n dist st a b = .uncomparable → ge T a b → ge T' b a → ge T b a := by
          intro a b ha hb hab hg hg'
          rcases hl a b ha hb hg hab with ⟨hr', h1, h2⟩ | ⟨hr', h1, h2⟩
          · have h3 := conv x y a b hx hy ha hb h1 h2 hg'
            rcases hr' with rfl | rfl
            · exact absurd h3 ((hT'.greater_iff hx hy).1 hxy').2
            · have e1 : ge T y x := ((hT.equal_iff hx hy).1 hxy).2
              have e2 : ge T x y := ((hT.equal_iff hx hy).1 hxy).1
              -- with `x = y` added, `b ≥ a` is derivable only from the old relation
              rcases hst.ran y b hy hb with k | k | k | k
              · exact absurd h2 ((hst.unc_iff hy hb).1 k).1
              · rcases hst.ran a x ha hx with j | j | j | j
                · exact absurd h1 ((hst.unc_iff ha hx).1 j).1
                · have q1 : ge T b y := by
                    unfold ge
                    rw [hE b y hb hy (by rw [hst.inv y b hy hb, k]; simp [Cmp.inv]), hst.inv y b hy hb, k]; exact Or.inr rfl
                  have q2 : ge T x a := by
                    unfold ge
                    rw [hE x a hx ha (by rw [hst.inv a x ha hx, j]; simp [Cmp.inv]), hst.inv a x ha hx, j]; exact Or.inr rfl
                  exact hT.ge_trans hb hy ha q1 (hT.ge_trans hy hx ha e1 q2)
                · exfalso
                  have q1 : T' a x = .greater := by rw [hE' a x ha hx (by rw [j]; simp), j]
                  have q2 : ge T' x a := hT'.ge_trans hx hy ha ((hT'.equal_iff hx hy).1 hxy').1
                    (hT'.ge_trans hy hb ha (mono y b hy hb h2) hg')
                  exact ((hT'.greater_iff ha hx).1 q1).2 q2
                · exact absurd h1 ((hst.lesser_iff ha hx).1 j).1
              · exfalso
                have q1 : T' y b = .greater := by rw [hE' y b hy hb (by rw [k]; simp), k]
                have q2 : ge T' b y := hT'.ge_trans hb ha hy hg' (hT'.ge_trans ha hx hy (mono a x ha hx h1)
                  ((hT'.equal_iff hx hy).1 hxy').1)
                exact ((hT'.greater_iff hy hb).1 q1).2 q2
              · exact absurd h2 ((hst.lesser_iff hy hb).1 k).1
          · have h3 := conv y x a b hy hx ha hb h1 h2 hg'
            rcases hr' with rfl | rfl
            · exact absurd h3 ((hT'.lesser_iff hx hy).1 hxy').1
            · have e1 : ge T x y := ((hT.equal_iff hx hy).1 hxy).1
              rcases hst.ran x b hx hb with k | k | k | k
              · exact absurd h2 ((hst.unc_iff hx hb).1 k).1
              · rcases hst.ran a y ha hy with j | j | j | j
                · exact absurd h1 ((hst.unc_iff ha hy).1 j).1
                · have q1 : ge T b x := by
                    unfold ge
                    rw [hE b x hb hx (by rw [hst.inv x b hx hb, k]; simp [Cmp.inv]), hst.inv x b hx hb, k]; exact Or.inr rfl
                  have q2 : ge T y a := by
                    unfold ge
                    rw [hE y a hy ha (by rw [hst.inv a y ha hy, j]; simp [Cmp.inv]), hst.inv a y ha hy, j]; exact Or.inr rfl
                  exact hT.ge_trans hb hx ha q1 (hT.ge_trans hx hy ha e1 q2)
                · exfalso
                  have q1 : T' a y = .greater := by rw [hE' a y ha hy (by rw [j]; simp), j]
                  have q2 : ge T' y a := hT'.ge_trans hy hx ha ((hT'.equal_iff hx hy).1 hxy').2
                    (hT'.ge_trans hx hb ha (mono x b hx hb h2) hg')
                  exact ((hT'.greater_iff ha hy).1 q1).2 q2
                · exact absurd h1 ((hst.lesser_iff ha hy).1 j).1
              · exfalso
                have q1 : T' x b = .greater := by rw [hE' x b hx hb (by rw [k]; simp), k]
                have q2 : ge T' b x := hT'.ge_trans hb ha hx hg' (hT'.ge_trans ha hy hx (mono a y ha hy h1)
                  ((hT'.equal_iff hx hy).1 hxy').2)
                exact ((hT'.greater_iff hx hb).1 q1).2 q2
              · exact absurd h2 ((hst.lesser_iff hx hb).1 k).1
        have b1 := back a b ha hb hab
        have b2 := back b a hb ha hba
        by_cases hA : ge T a b <;> by_cases hB : ge T b a
        · rw [(hT.equal_iff ha hb).2 ⟨hA, hB⟩]
          exact (hT'.equal_iff ha hb).2 ⟨g1 hA, g2 hB⟩
        · rw [(hT.greater_iff ha hb).2 ⟨hA, hB⟩]
          exact (hT'.greater_iff ha hb).2 ⟨g1 hA, fun h => hB (b1 hA h)⟩
        · rw [(hT.lesser_iff ha hb).2 ⟨hA, hB⟩]
          exact (hT'.lesser_iff ha hb).2 ⟨fun h => hA (b2 hB h), g2 hB⟩
        · exact absurd ((hT.unc_iff ha hb).2 ⟨hA, hB⟩) hne
      · rw [hE' a b ha hb hab, hc' a b ha hb, hE a b ha hb hab]
  · obtain ⟨k, rfl⟩ : ∃ k', k = k' + 1 := ⟨k - 1, by omega⟩
    by_cases he : precOf n dist st x y = r
    · exact ⟨st.sp, st, by rw [addTuple]; exact if_pos he, hst, Extends.refl _, fun _ => rfl, fun h => absurd h hu,
        by rw [if_neg hu, if_pos he], (Undo.refl st).backtrack⟩
    · exact ⟨0, st, by rw [addTuple]; rw [if_neg (show ¬ funCmp n dist st.mat x y = r from he)]; exact if_pos hu, hst, Extends.refl _,
        fun _ => rfl, fun h => absurd h hu, by rw [if_neg hu, if_neg he], (Undo.refl st).backtrack⟩

/-- A wanted relation ends up in the precedence exactly when some ordering extending the precedence contains it. -/
theorem addTuple_refuses_exactly {st : PrecSt} (hst : PrecOrder (Known n) (precOf n dist st)) {x y : Nat} (hx : Known n x) (hy : Known n y)
    {r : Cmp} (hr : Wanted r) {k : Nat} (hk : n * n < k) {res : Nat} {st' : PrecSt}
    (h : addTuple n dist k st x y r = some (res, st')) :
    precOf n dist st' x y = r ↔ ∃ T, PrecOrder (Known n) T ∧ Extends (Known n) (precOf n dist st) T ∧ T x y = r := by
  obtain ⟨res1, st1, e, ho, he, hs, hu, -⟩ := addTuple_correct hst hx hy hr hk
  rw [h] at e
  obtain ⟨rfl, rfl⟩ := Prod.mk.inj (Option.some.inj e)
  constructor
  · intro hxy
    exact ⟨_, ho, he, hxy⟩
  · rintro ⟨T, hT, hE, hxy⟩
    by_cases hc : precOf n dist st x y = .uncomparable
    · exact (hu hc).1
    · rw [hs hc, ← hE x y hx hy hc]; exact hxy

/-- The precedence of a fresh control block. -/
theorem init_precOrder : PrecOrder (Known n) (precOf n dist PrecSt.init) := by
  unfold precOf funCmp funCmpBase funCmpMatrix PrecSt.init
  refine ⟨fun a _ => by simp, fun a b ha hb => ?_, fun a b ha hb => ?_, fun a b c ha hb hc => ?_⟩ <;> simp only [Known] at * <;>
    grind [Cmp.inv]

/-- States reached by additions, marks and backtracking to the newest mark; the list holds the states at the open marks. -/
inductive Reach (n : Nat) (dist : Nat → Bool) : PrecSt → List PrecSt → Prop
  | init : Reach n dist PrecSt.init []
  | add {st ms x y r k res st'} : Reach n dist st ms → Known n x → Known n y → Wanted r → n * n < k →
      addTuple n dist k st x y r = some (res, st') → Reach n dist st' ms
  | mark {st ms} : Reach n dist st ms → Reach n dist st (st :: ms)
  | back {st m ms st'} : Reach n dist st (m :: ms) → precBacktrack m.sp st.mat st.stack = some st' → Reach n dist st' ms

private def Chain : PrecSt → List PrecSt → Prop
  | _, [] => True
  | st, m :: ms => Undo st m ∧ Chain m ms

private theorem chain_undo {a b : PrecSt} {ms : List PrecSt} (h : Undo a b) (hc : Chain b ms) : Chain a ms := by
  cases ms with
  | nil => trivial
  | cons m ms => exact ⟨h.trans hc.1, hc.2⟩

private theorem undo_of_backtrack {st st' : PrecSt} (h : precBacktrack st.sp st'.mat st'.stack = some st) : Undo st' st := by
  obtain ⟨M, stk⟩ := st'
  simp only at h
  generalize st.sp = s at h
  induction stk generalizing M with
  | nil =>
    simp only [precBacktrack] at h
    split at h
    · cases h; exact Undo.refl _
    · cases h
  | cons p stk ih =>
    obtain ⟨f, g⟩ := p
    simp only [precBacktrack] at h
    split at h
    · cases h; exact Undo.refl _
    · obtain ⟨l, h1, h2⟩ := ih _ h
      exact ⟨(f, g) :: l, by simp only at h1 ⊢; rw [h1]; rfl, h2⟩

private theorem reach_inv {st : PrecSt} {ms : List PrecSt} (h : Reach n dist st ms) :
    PrecOrder (Known n) (precOf n dist st) ∧ (∀ m ∈ ms, PrecOrder (Known n) (precOf n dist m)) ∧ Chain st ms := by
  induction h with
  | init => exact ⟨init_precOrder, by simp, trivial⟩
  | add h hx hy hr hk he ih =>
    obtain ⟨res1, st1, e, ho, -, -, -, -, hb⟩ := addTuple_correct ih.1 hx hy hr hk
    rw [he] at e
    obtain ⟨rfl, rfl⟩ := Prod.mk.inj (Option.some.inj e)
    exact ⟨ho, ih.2.1, chain_undo (undo_of_backtrack hb) ih.2.2⟩
  | mark h ih =>
    refine ⟨ih.1, ?_, Undo.refl _, ih.2.2⟩
    intro m hm
    rcases List.mem_cons.1 hm with rfl | hm
    · exact ih.1
    · exact ih.2.1 m hm
  | back h hb ih =>
    obtain ⟨h1, h2, h3, h4⟩ := ih
    rw [h3.backtrack] at hb
    cases hb
    exact ⟨h2 _ (by simp), fun m hm => h2 m (by simp [hm]), h4⟩

/-- After any history the precedence is a partial ordering. -/
theorem precedence_is_order {st : PrecSt} {ms : List PrecSt} (h : Reach n dist st ms) : PrecOrder (Known n) (precOf n dist st) :=
  (reach_inv h).1

/-- After any history, backtracking to the newest open mark is defined and restores the state of the mark. -/
theorem precBacktrack_restores {st m : PrecSt} {ms : List PrecSt} (h : Reach n dist st (m :: ms)) :
    precBacktrack m.sp st.mat st.stack = some m :=
  (reach_inv h).2.2.1.backtrack

/-- Seen from all symbols, also those added to the signature later, the precedence is an ordering: `$true` below symbols with
a distinctness property below the others, and in each class later symbols below the known ones. -/
theorem precedence_is_order_for_later_symbols {st : PrecSt} {ms : List PrecSt} (h : Reach n dist st ms) :
    PrecOrder (fun f => 1 ≤ f) (precOf n dist st) := by
  have ho := precedence_is_order h
  have key : ∀ a b, 1 ≤ a → 1 ≤ b → ¬ (Known n a ∧ Known n b) → precOf n dist st a b =
      funCmpBase dist a b (if a ≤ n then .greater else if b ≤ n then .lesser else qToPart ((b : Int) - a)) := by
    intro a b ha hb hk
    unfold precOf funCmp funCmpMatrix
    unfold Known at hk
    by_cases h1 : a ≤ n <;> by_cases h2 : b ≤ n <;> simp only [h1, h2, if_true, if_false]
    exact absurd ⟨⟨ha, h1⟩, hb, h2⟩ hk
  have base : ∀ a b, precOf n dist st a b = funCmpBase dist a b (funCmpMatrix n st.mat a b) := fun _ _ => rfl
  refine ⟨fun a ha => by simp [base, funCmpBase], fun a b ha hb => ?_, fun a b ha hb => ?_, fun a b c ha hb hc => ?_⟩
  · by_cases hk : Known n a ∧ Known n b
    · exact ho.inv a b hk.1 hk.2
    · rw [key a b ha hb hk, key b a hb ha (fun h => hk ⟨h.2, h.1⟩)]
      unfold Known at hk
      unfold funCmpBase qToPart
      grind [Cmp.inv]
  · by_cases hk : Known n a ∧ Known n b
    · exact ho.ran a b hk.1 hk.2
    · rw [key a b ha hb hk]
      unfold funCmpBase qToPart
      grind
  · by_cases hk : Known n a ∧ Known n b ∧ Known n c
    · exact ho.trans a b c hk.1 hk.2.1 hk.2.2
    · by_cases h1 : Known n a ∧ Known n b
      · have h2 : ¬ (Known n b ∧ Known n c) := fun h => hk ⟨h1.1, h.1, h.2⟩
        have h3 : ¬ (Known n a ∧ Known n c) := fun h => hk ⟨h1.1, h1.2, h.2⟩
        rw [key b c hb hc h2, key a c ha hc h3, base a b]
        unfold Known at *
        clear key base ho h
        cases hda : dist a <;> cases hdb : dist b <;> cases hdc : dist c <;> simp only [funCmpBase, hda, hdb, hdc, qToPart] <;>
          grind
      · by_cases h2 : Known n b ∧ Known n c
        · have h3 : ¬ (Known n a ∧ Known n c) := fun h => hk ⟨h.1, h2.1, h2.2⟩
          rw [key a b ha hb h1, key a c ha hc h3, base b c]
          unfold Known at *
          clear key base ho h
          cases hda : dist a <;> cases hdb : dist b <;> cases hdc : dist c <;> simp only [funCmpBase, hda, hdb, hdc, qToPart] <;>
            grind
        · by_cases h3 : Known n a ∧ Known n c
          · rw [key a b ha hb h1, key b c hb hc h2, base a c]
            unfold Known at *
            clear key base ho h
            cases hda : dist a <;> cases hdb : dist b <;> cases hdc : dist c <;> simp only [funCmpBase, hda, hdb, hdc, qToPart] <;>
              grind
          · rw [key a b ha hb h1, key b c hb hc h2, key a c ha hc h3]
            unfold Known at *
            clear key base ho h
            cases hda : dist a <;> cases hdb : dist b <;> cases hdc : dist c <;> simp only [funCmpBase, hda, hdb, hdc, qToPart] <;>
              grind (splits := 25)

/-! ## Generated precedences -/

private theorem foldl_other (l : List (Nat × Nat)) : ∀ (pw : Nat → Int) (f : Nat), f ∉ l.map Prod.fst →
    l.foldl (fun pw p => fun f => if f = p.1 then (p.2 : Int) else pw f) pw f = pw f := by
  induction l with
  | nil => intro pw f _; rfl
  | cons p l ih =>
    intro pw f hf
    simp only [List.map_cons, List.mem_cons, not_or] at hf
    simp only [List.foldl_cons]
    rw [ih _ f hf.2, if_neg hf.1]

private theorem foldl_mem (l : List (Nat × Nat)) : ∀ (pw : Nat → Int) (f i : Nat), (l.map Prod.fst).Nodup → (f, i) ∈ l →
    l.foldl (fun pw p => fun f => if f = p.1 then (p.2 : Int) else pw f) pw f = i := by
  induction l with
  | nil => intro pw f i _ h; simp at h
  | cons p l ih =>
    intro pw f i hn hf
    simp only [List.map_cons, List.nodup_cons] at hn
    simp only [List.foldl_cons]
    rcases List.mem_cons.1 hf with rfl | hf
    · rw [foldl_other l _ f hn.1, if_pos rfl]
    · exact ih _ f i hn.2 hf

private theorem totalCmp_of_weights {w : Nat → Int} (hw : ∀ f g, f ≠ 1 → g ≠ 1 → w f = w g → f = g) :
    TotalCmp fun f g => funCmpBase dist f g (qToPart (w f - w g)) := by
  refine ⟨⟨⟨fun f => by simp [funCmpBase], fun f g h h1 h2 => ?_⟩, fun f g hfg => ?_⟩, fun f g => ?_⟩
  · have e1 := hw f g
    have e2 := hw g h
    have e3 := hw f h
    cases hda : dist f <;> cases hdb : dist g <;> cases hdc : dist h <;> simp only [funCmpBase, hda, hdb, hdc, qToPart] at h1 h2 ⊢ <;>
      grind
  · have e1 := hw f g
    cases hda : dist f <;> cases hdb : dist g <;> simp only [funCmpBase, hda, hdb, qToPart] <;> grind
  · cases hda : dist f <;> cases hdb : dist g <;> simp only [funCmpBase, hda, hdb, qToPart] <;> grind

/-- The weights generated from any ordering of the symbols give a total precedence, as the orderings need it. -/
theorem precWeights_total {arr : List Nat} (hp : arr.Perm (List.range' 2 (n - 1))) (hn : 1 ≤ n) :
    TotalCmp (funCmpW n dist (precWeights arr)) := by
  have hmem : ∀ f, f ∈ arr ↔ 2 ≤ f ∧ f ≤ n := by
    intro f
    rw [hp.mem_iff]
    simp only [List.mem_range'_1]
    omega
  have hnd : arr.Nodup := hp.nodup_iff.2 (by simp [List.nodup_range'])
  have hval : ∀ f, f ≠ 1 → f ≤ n → (f = 0 ∧ precWeights arr f = 0) ∨
      (∃ i : Nat, 2 ≤ i ∧ arr[i - 2]? = some f ∧ precWeights arr f = i) := by
    intro f h1 h2
    simp only [precWeights, if_neg h1]
    by_cases h0 : f = 0
    · left
      refine ⟨h0, foldl_other _ _ f ?_⟩
      rw [List.zipIdx_map_fst, hmem]
      omega
    · right
      have hf : f ∈ arr := (hmem f).2 ⟨by omega, h2⟩
      obtain ⟨i, hi⟩ := List.getElem?_of_mem hf
      refine ⟨i + 2, by omega, by simpa using hi, foldl_mem _ _ f (i + 2) (by rw [List.zipIdx_map_fst]; exact hnd) ?_⟩
      rw [List.mk_mem_zipIdx_iff_le_and_getElem?_sub]
      exact ⟨by omega, by simpa using hi⟩
  have : funCmpW n dist (precWeights arr) =
      fun f g => funCmpBase dist f g (qToPart ((if f ≤ n then precWeights arr f else -(f : Int)) -
        (if g ≤ n then precWeights arr g else -(g : Int)))) := rfl
  rw [this]
  apply totalCmp_of_weights (w := fun f => if f ≤ n then precWeights arr f else -(f : Int))
  intro f g hf hg h
  by_cases c1 : f ≤ n <;> by_cases c2 : g ≤ n <;> simp only [c1, c2, if_true, if_false] at h
  · rcases hval f hf c1 with ⟨e1, v1⟩ | ⟨i, i1, i2, v1⟩ <;> rcases hval g hg c2 with ⟨e2, v2⟩ | ⟨j, j1, j2, v2⟩
    · omega
    · omega
    · omega
    · have : i = j := by omega
      subst this
      rw [i2] at j2
      exact Option.some.inj j2
  · rcases hval f hf c1 with ⟨e1, v1⟩ | ⟨i, i1, i2, v1⟩ <;> omega
  · rcases hval g hg c2 with ⟨e2, v2⟩ | ⟨j, j1, j2, v2⟩ <;> omega
  · omega

/-- The intended precedence for the symbols `P` in ascending order, with nothing decided for the others. -/
private def target (dist : Nat → Bool) (P : List Nat) (a b : Nat) : Cmp :=
  funCmpBase dist a b (if a ∈ P ∧ b ∈ P then qToPart ((P.idxOf a : Int) - P.idxOf b) else .uncomparable)

private theorem target_order (P : List Nat) : PrecOrder (Known n) (target dist P) := by
  have inj : ∀ a b, a ∈ P → P.idxOf a = P.idxOf b → a = b := fun a b ha h => by
    have h1 := List.getElem_idxOf (List.idxOf_lt_length_of_mem ha)
    have hb : b ∈ P := by rw [← List.idxOf_lt_length_iff, ← h]; exact List.idxOf_lt_length_of_mem ha
    have h2 := List.getElem_idxOf (List.idxOf_lt_length_of_mem hb)
    rw [← h1, ← h2]
    simp only [h]
  refine ⟨fun a _ => by simp [target, funCmpBase], fun a b _ _ => ?_, fun a b _ _ => ?_, fun a b c _ _ _ => ?_⟩
  · have := inj a b
    cases hda : dist a <;> cases hdb : dist b <;> simp only [target, funCmpBase, hda, hdb, qToPart] <;> grind [Cmp.inv]
  · cases hda : dist a <;> cases hdb : dist b <;> simp only [target, funCmpBase, hda, hdb, qToPart] <;> grind
  · have e1 := inj a b
    have e2 := inj b c
    have e3 := inj a c
    cases hda : dist a <;> cases hdb : dist b <;> cases hdc : dist c <;> simp only [target, funCmpBase, hda, hdb, hdc, qToPart] <;>
      grind (splits := 25)

private theorem target_snoc {P : List Nat} {s : Nat} : Extends (Known n) (target dist P) (target dist (P ++ [s])) := by
  intro a b _ _ h
  by_cases hab : a ∈ P ∧ b ∈ P
  · have h1 : (P ++ [s]).idxOf a = P.idxOf a := by rw [List.idxOf_append_of_mem hab.1]
    have h2 : (P ++ [s]).idxOf b = P.idxOf b := by rw [List.idxOf_append_of_mem hab.2]
    simp only [target, h1, h2, List.mem_append, hab.1, hab.2, true_or, and_self, if_true]
  · simp only [target, if_neg hab] at h ⊢
    unfold funCmpBase at *
    grind

private theorem chain_step {st : PrecSt} {P : List Nat} {last s k : Nat} (hk : n * n < k) (hst : PrecOrder (Known n) (precOf n dist st))
    (hlo : Extends (Known n) (precOf n dist st) (target dist P)) (hall : ∀ a ∈ P, ∀ b ∈ P, precOf n dist st a b = target dist P a b)
    (hP : ∀ a ∈ P, Known n a) (hlast : last ∈ P) (hmax : ∀ a ∈ P, a = last ∨ precOf n dist st a last = .lesser)
    (hs : s ∉ P) (hks : Known n s) (hs1 : s ≠ 1) (hmono : last = 1 ∨ (dist s = true → dist last = true)) :
    ∃ res st', addTuple n dist k st last s .lesser = some (res, st') ∧ PrecOrder (Known n) (precOf n dist st') ∧
      Extends (Known n) (precOf n dist st') (target dist (P ++ [s])) ∧
      (∀ a ∈ P ++ [s], ∀ b ∈ P ++ [s], precOf n dist st' a b = target dist (P ++ [s]) a b) ∧
      (∀ a ∈ P ++ [s], a = s ∨ precOf n dist st' a s = .lesser) := by
  have hkl := hP last hlast
  have hidx : (P ++ [s]).idxOf s = P.length := by rw [List.idxOf_append_of_notMem hs]; simp
  have hT := target_order (n := n) (dist := dist) (P ++ [s])
  have hls : target dist (P ++ [s]) last s = .lesser := by
    have h1 : (P ++ [s]).idxOf last = P.idxOf last := by rw [List.idxOf_append_of_mem hlast]
    have h2 : P.idxOf last < P.length := List.idxOf_lt_length_of_mem hlast
    have h3 : last ≠ s := fun h => hs (h ▸ hlast)
    simp only [target, h1, hidx, List.mem_append, hlast, true_or, List.mem_singleton, or_true, and_self, if_true, funCmpBase, qToPart]
    grind
  have hE : Extends (Known n) (precOf n dist st) (target dist (P ++ [s])) := hlo.trans target_snoc
  obtain ⟨res, st', e, ho, he, hsame, hnew, -, -⟩ := addTuple_correct hst hkl hks (Or.inr (Or.inr rfl)) hk
  have hlo' : Extends (Known n) (precOf n dist st') (target dist (P ++ [s])) := by
    by_cases hc : precOf n dist st last s = .uncomparable
    · exact (hnew hc).2 _ hT hE hls
    · rw [hsame hc]; exact hE
  have hls' : precOf n dist st' last s = .lesser := by
    by_cases hc : precOf n dist st last s = .uncomparable
    · exact (hnew hc).1
    · rw [hsame hc, ← hE last s hkl hks hc, hls]
  have hmax' : ∀ a ∈ P ++ [s], a = s ∨ precOf n dist st' a s = .lesser := by
    intro a ha
    rcases List.mem_append.1 ha with ha | ha
    · right
      rcases hmax a ha with rfl | h
      · exact hls'
      · have h1 : precOf n dist st' a last = .lesser := by rw [he a last (hP a ha) hkl (by rw [h]; simp), h]
        exact ho.comp (hP a ha) hkl hks (by rw [h1, hls']; rfl)
    · left; simpa using ha
  refine ⟨res, st', e, ho, hlo', ?_, hmax'⟩
  intro a ha b hb
  refine (hlo' a b ?_ ?_ ?_).symm
  · rcases List.mem_append.1 ha with h | h
    · exact hP a h
    · rw [List.mem_singleton.1 h]; exact hks
  · rcases List.mem_append.1 hb with h | h
    · exact hP b h
    · rw [List.mem_singleton.1 h]; exact hks
  · rcases List.mem_append.1 ha with h | h <;> rcases List.mem_append.1 hb with h' | h'
    · have h1 := hall a h b h'
      have h2 : precOf n dist st a b ≠ .uncomparable := by
        rw [h1]
        simp only [target, h, h', and_self, if_true, funCmpBase, qToPart]
        split_ifs <;> simp
      rw [he a b (hP a h) (hP b h') h2]; exact h2
    · rcases hmax' a ha with q | q
      · rw [q, List.mem_singleton.1 h', ho.refl s hks]; simp
      · rw [List.mem_singleton.1 h', q]; simp
    · rcases hmax' b hb with q | q
      · rw [q, List.mem_singleton.1 h, ho.refl s hks]; simp
      · rw [List.mem_singleton.1 h, ho.inv b s (hP b h') hks, q]; simp [Cmp.inv]
    · rw [List.mem_singleton.1 h, List.mem_singleton.1 h', ho.refl s hks]; simp

private theorem chain_run (k : Nat) (hk : n * n < k) : ∀ (arr : List Nat) (st : PrecSt) (P : List Nat) (last : Nat),
    PrecOrder (Known n) (precOf n dist st) → Extends (Known n) (precOf n dist st) (target dist P) →
    (∀ a ∈ P, ∀ b ∈ P, precOf n dist st a b = target dist P a b) → (∀ a ∈ P, Known n a) → last ∈ P →
    (∀ a ∈ P, a = last ∨ precOf n dist st a last = .lesser) → (P ++ arr).Nodup → (∀ s ∈ arr, Known n s ∧ s ≠ 1) →
    (∀ s ∈ arr, last = 1 ∨ (dist s = true → dist last = true)) → arr.Pairwise (fun a b => dist b = true → dist a = true) →
    ∃ st', precChain n dist k last arr st = some st' ∧ ∀ a ∈ P ++ arr, ∀ b ∈ P ++ arr, precOf n dist st' a b = target dist (P ++ arr) a b := by
  intro arr
  induction arr with
  | nil =>
    intro st P last hst hlo hall hP hlast hmax hnd hk' hm hpw
    exact ⟨st, rfl, by simpa using hall⟩
  | cons s arr ih =>
    intro st P last hst hlo hall hP hlast hmax hnd hk' hm hpw
    have hs : s ∉ P := by
      rw [List.nodup_append] at hnd
      exact fun h => hnd.2.2 s h s (by simp) rfl
    obtain ⟨res, st', e, ho, hlo', hall', hmax'⟩ := chain_step hk hst hlo hall hP hlast hmax hs (hk' s (by simp)).1 (hk' s (by simp)).2 (hm s (by simp))
    obtain ⟨st2, e2, h2⟩ := ih st' (P ++ [s]) s ho hlo' hall' (by
        intro a ha
        rcases List.mem_append.1 ha with h | h
        · exact hP a h
        · rw [List.mem_singleton.1 h]; exact (hk' s (by simp)).1) (by simp) hmax' (by simpa using hnd) (fun s hs => hk' s (by simp [hs]))
        (fun s' hs' => Or.inr ((List.pairwise_cons.1 hpw).1 s' hs')) (List.pairwise_cons.1 hpw).2
    refine ⟨st2, ?_, by simpa using h2⟩
    simp only [precChain, e, e2]

/-- On a fresh control block the generated chain makes the precedence total on all known symbols, in the order of the array,
provided symbols with a distinctness property come first in it. -/
theorem precChain_total {arr : List Nat} (hp : arr.Perm (List.range' 2 (n - 1))) (hn : 1 ≤ n)
    (hd : arr.Pairwise fun a b => dist b = true → dist a = true) {k : Nat} (hk : n * n < k) :
    ∃ st, precChain n dist k 1 arr PrecSt.init = some st ∧
      (∀ f g, Known n f → Known n g → f ≠ g → precOf n dist st f g = .greater ∨ precOf n dist st f g = .lesser) ∧
      ∀ (i j f g : Nat), i < j → (1 :: arr)[i]? = some f → (1 :: arr)[j]? = some g → precOf n dist st f g = .lesser := by
  have hmem : ∀ f, f ∈ arr ↔ 2 ≤ f ∧ f ≤ n := by
    intro f
    rw [hp.mem_iff]
    simp only [List.mem_range'_1]
    omega
  have hnd : (1 :: arr).Nodup := by
    rw [List.nodup_cons]
    exact ⟨by rw [hmem]; omega, hp.nodup_iff.2 (by simp [List.nodup_range'])⟩
  obtain ⟨st, e, h⟩ := chain_run (n := n) (dist := dist) k hk arr PrecSt.init [1] 1 init_precOrder (by
      intro a b ha hb h
      unfold precOf funCmp funCmpMatrix PrecSt.init at *
      unfold Known at *
      simp only [target]
      unfold funCmpBase at *
      grind) (by simp [precOf, funCmp, funCmpBase, target]) (by simp [Known]; omega) (by simp) (by simp) hnd
      (fun s hs => by rw [hmem] at hs; exact ⟨⟨by omega, hs.2⟩, by omega⟩) (by simp) hd
  have lt : ∀ (i j f g : Nat), i < j → (1 :: arr)[i]? = some f → (1 :: arr)[j]? = some g → precOf n dist st f g = .lesser := by
    intro i j f g hij hi hj
    have hf := List.mem_of_getElem? hi
    have hg := List.mem_of_getElem? hj
    rw [h f hf g hg]
    obtain ⟨hi', ei⟩ := List.getElem?_eq_some_iff.1 hi
    obtain ⟨hj', ej⟩ := List.getElem?_eq_some_iff.1 hj
    have i1 : (1 :: arr).idxOf f = i := by rw [← ei]; exact hnd.idxOf_getElem i hi'
    have i2 : (1 :: arr).idxOf g = j := by rw [← ej]; exact hnd.idxOf_getElem j hj'
    have hg1 : g ≠ 1 := by
      intro h1
      rw [h1] at i2
      simp at i2
      omega
    have hfg : f ≠ g := by intro h1; rw [h1] at i1; omega
    have hdm : f = 1 ∨ (dist g = true → dist f = true) := by
      cases i with
      | zero => left; simpa using hi.symm
      | succ i =>
        right
        cases j with
        | zero => omega
        | succ j =>
          simp only [List.getElem?_cons_succ] at hi hj
          obtain ⟨hi', ei⟩ := List.getElem?_eq_some_iff.1 hi
          obtain ⟨hj', ej⟩ := List.getElem?_eq_some_iff.1 hj
          have := List.pairwise_iff_getElem.1 hd i j hi' hj' (by omega)
          rw [ei, ej] at this
          exact this
    simp only [target, List.singleton_append, i1, i2, hf, hg, and_self, if_true, funCmpBase, qToPart]
    clear hi hj hf hg ei ej i1 i2 h e hp hd hmem hnd hi' hj'
    grind
  refine ⟨st, e, ?_, lt⟩
  intro f g hf hg hfg
  have hin : ∀ f, Known n f → f ∈ 1 :: arr := by
    intro f hf
    by_cases h1 : f = 1
    · simp [h1]
    · exact List.mem_cons_of_mem _ ((hmem f).2 ⟨by unfold Known at hf; omega, hf.2⟩)
  obtain ⟨i, hi⟩ := List.getElem?_of_mem (hin f hf)
  obtain ⟨j, hj⟩ := List.getElem?_of_mem (hin g hg)
  rcases Nat.lt_trichotomy i j with hij | hij | hij
  · exact Or.inr (lt i j f g hij hi hj)
  · subst hij
    rw [hi] at hj
    exact absurd (Option.some.inj hj) hfg
  · left
    have ho : precOf n dist st f g = (precOf n dist st g f).inv := by
      rw [h f (hin f hf) g (hin g hg), h g (hin g hg) f (hin f hf)]
      exact (target_order (n := n) (1 :: arr)).inv g f hg hf
    rw [ho, lt j i g f hij hj hi]; rfl

/-! ## Where the code disagrees -/

/-- The number returned for a new relation is not the state before the call, as the comment of the function says: on a fresh
block it is 1, and backtracking to it pops from an empty stack. -/
theorem addTuple_result_is_no_state : ∃ st, addTuple 3 (fun _ => false) 10 PrecSt.init 2 3 .greater = some (1, st) ∧
    PrecSt.init.sp = 0 ∧ precBacktrack 1 st.mat st.stack = none := by
  refine ⟨_, rfl, rfl, rfl⟩

/-- On a fresh block a relation that holds already is answered with 0, the value that means "refused". -/
theorem addTuple_redundant_reported_as_refused : addTuple 3 (fun _ => false) 10 PrecSt.init 2 2 .equal = some (0, PrecSt.init) ∧
    precOf 3 (fun _ => false) PrecSt.init 2 2 = .equal := ⟨rfl, rfl⟩

/-- With a user-defined relation (here symbol 4 below symbol 3) the generated chain need not make the precedence total. -/
theorem precChain_partial_with_user_precedence : ∃ res st st', addTuple 4 (fun _ => false) 17 PrecSt.init 4 3 .lesser = some (res, st) ∧
    precChain 4 (fun _ => false) 17 1 [2, 3, 4] st = some st' ∧ precOf 4 (fun _ => false) st' 2 4 = .uncomparable := by
  refine ⟨_, _, _, rfl, rfl, rfl⟩

/-- Nor with a symbol with a distinctness property (here symbol 3) in the middle of the array. -/
theorem precChain_partial_with_distinct : ∃ st, precChain 4 (fun f => f == 3) 17 1 [2, 3, 4] PrecSt.init = some st ∧
    precOf 4 (fun f => f == 3) st 2 4 = .uncomparable := by
  refine ⟨_, rfl, rfl⟩

/-! ## Examples -/

/-- Two additions, the second closing transitively, and a backtrack. -/
example : ∃ r1 s1 r2 s2, addTuple 4 (fun _ => false) 17 PrecSt.init 2 3 .greater = some (r1, s1) ∧
    addTuple 4 (fun _ => false) 17 s1 3 4 .equal = some (r2, s2) ∧ precOf 4 (fun _ => false) s2 2 4 = .greater ∧
    Reach 4 (fun _ => false) s2 [s1] ∧ precOf 4 (fun _ => false) s1 2 4 = .uncomparable := by
  refine ⟨_, _, _, _, rfl, rfl, rfl, ?_, rfl⟩
  refine .add (k := 17) (x := 3) (y := 4) (r := .equal) (.mark (.add (k := 17) (x := 2) (y := 3) (r := .greater) .init ?_ ?_ ?_ ?_ rfl)) ?_ ?_ ?_ ?_ rfl <;>
    simp [Known, Wanted]

example : [3, 2, 4].Perm (List.range' 2 (4 - 1)) := by decide

end Verif.Props
