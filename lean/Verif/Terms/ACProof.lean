import Verif.Terms.ACSpec
import Verif.Props.Splay
import Mathlib.Data.List.Forall2
import Mathlib.Order.Compare

/-!
# AC normal forms: proofs
-/

namespace Verif.ACProof
open Verif Props Term STree

/-! ## The comparison is a total order -/

theorem ACT.ind {P : ACT → Prop} (hv : ∀ x, P (.var x)) (ha : ∀ f ts, (∀ t ∈ ts, P t) → P (.app f ts)) : ∀ t, P t := by
  intro t
  induction t using ACT.rec (motive_2 := fun ts => ∀ t ∈ ts, P t) with
  | var x => exact hv x
  | app f ts ih => exact ha f ts ih
  | nil u hu => exact absurd hu (by simp)
  | cons t ts h1 h2 u hu =>
    rcases List.mem_cons.1 hu with rfl | h
    · exact h1
    · exact h2 u h

theorem cmpL_eq_of {as : List ACT} (h : ∀ a ∈ as, ∀ b, ACT.cmp a b = .eq ↔ a = b) : ∀ bs, ACT.cmpL as bs = .eq ↔ as = bs := by
  induction as with
  | nil => intro bs; cases bs <;> simp [ACT.cmpL]
  | cons a as ih =>
    intro bs
    cases bs with
    | nil => simp [ACT.cmpL]
    | cons b bs =>
      have h1 := h a (by simp) b
      have h2 := ih (fun c hc => h c (by simp [hc])) bs
      rw [ACT.cmpL]
      cases hc : ACT.cmp a b with
      | eq => simp [h1.1 hc, h2]
      | lt => simp; intro he; rw [h1.2 he] at hc; cases hc
      | gt => simp; intro he; rw [h1.2 he] at hc; cases hc

theorem cmp_eq : ∀ a b : ACT, ACT.cmp a b = .eq ↔ a = b := by
  intro a
  induction a using ACT.ind with
  | hv x =>
    intro b
    cases b with
    | var y => simp only [ACT.cmp, Std.LawfulEqCmp.compare_eq_iff_eq, ACT.var.injEq]; exact eq_comm
    | app g bs => simp [ACT.cmp]
  | ha f as ih =>
    intro b
    cases b with
    | var y => simp [ACT.cmp]
    | app g bs =>
      rw [ACT.cmp]
      cases hc : compare f g with
      | eq => have := Std.LawfulEqCmp.eq_of_compare hc; simp [this, cmpL_eq_of ih]
      | lt => simp; rintro rfl; simp at hc
      | gt => simp; rintro rfl; simp at hc

theorem cmpL_swap_of {as : List ACT} (h : ∀ a ∈ as, ∀ b, ACT.cmp a b = (ACT.cmp b a).swap) : ∀ bs, ACT.cmpL as bs = (ACT.cmpL bs as).swap := by
  induction as with
  | nil => intro bs; cases bs <;> simp [ACT.cmpL]
  | cons a as ih =>
    intro bs
    cases bs with
    | nil => simp [ACT.cmpL]
    | cons b bs =>
      have h1 := h a (by simp) b
      have h2 := ih (fun c hc => h c (by simp [hc])) bs
      rw [ACT.cmpL, ACT.cmpL, h1]
      cases ACT.cmp b a <;> simp [h2]

theorem cmp_swap : ∀ a b : ACT, ACT.cmp a b = (ACT.cmp b a).swap := by
  intro a
  induction a using ACT.ind with
  | hv x =>
    intro b
    cases b with
    | var y => simp only [ACT.cmp]; exact Std.OrientedCmp.eq_swap
    | app g bs => simp [ACT.cmp]
  | ha f as ih =>
    intro b
    cases b with
    | var y => simp [ACT.cmp]
    | app g bs =>
      rw [ACT.cmp, ACT.cmp, Std.OrientedCmp.eq_swap (cmp := compare) (a := f) (b := g)]
      cases compare g f <;> simp [cmpL_swap_of ih]

theorem cmpL_trans_of {as : List ACT} (h : ∀ a ∈ as, ∀ b c, ACT.cmp a b = .lt → ACT.cmp b c = .lt → ACT.cmp a c = .lt) :
    ∀ bs cs, ACT.cmpL as bs = .lt → ACT.cmpL bs cs = .lt → ACT.cmpL as cs = .lt := by
  induction as with
  | nil =>
    intro bs cs h1 h2
    cases bs with
    | nil => simp [ACT.cmpL] at h1
    | cons b bs => cases cs with
      | nil => simp [ACT.cmpL] at h2
      | cons c cs => simp [ACT.cmpL]
  | cons a as ih =>
    intro bs cs h1 h2
    cases bs with
    | nil => simp [ACT.cmpL] at h1
    | cons b bs => cases cs with
      | nil => simp [ACT.cmpL] at h2
      | cons c cs =>
        have ht := h a (by simp) b c
        have ih := ih (fun c hc => h c (by simp [hc])) bs cs
        rw [ACT.cmpL] at h1 h2 ⊢
        cases hab : ACT.cmp a b with
        | gt => rw [hab] at h1; cases h1
        | eq =>
          have := (cmp_eq a b).1 hab
          subst this
          rw [hab] at h1
          cases hac : ACT.cmp a c with
          | gt => rw [hac] at h2; cases h2
          | lt => rfl
          | eq => rw [hac] at h2; exact ih h1 h2
        | lt =>
          cases hbc : ACT.cmp b c with
          | gt => rw [hbc] at h2; cases h2
          | lt => rw [ht hab hbc]
          | eq => rw [← (cmp_eq b c).1 hbc, hab]

theorem cmp_trans : ∀ a b c : ACT, ACT.cmp a b = .lt → ACT.cmp b c = .lt → ACT.cmp a c = .lt := by
  intro a
  induction a using ACT.ind with
  | hv x =>
    intro b c h1 h2
    cases b with
    | var y => cases c with
      | var z =>
        simp only [ACT.cmp, compare_lt_iff_lt] at *
        omega
      | app => simp [ACT.cmp]
    | app g bs => cases c with
      | var z => simp [ACT.cmp] at h2
      | app => simp [ACT.cmp]
  | ha f as ih =>
    intro b c h1 h2
    cases b with
    | var y => simp [ACT.cmp] at h1
    | app g bs => cases c with
      | var z => simp [ACT.cmp] at h2
      | app k cs =>
        rw [ACT.cmp] at h1 h2 ⊢
        cases hab : compare f g with
        | gt => rw [hab] at h1; cases h1
        | eq =>
          have := Std.LawfulEqCmp.eq_of_compare hab
          subst this
          rw [hab] at h1
          cases hac : compare f k with
          | gt => rw [hac] at h2; cases h2
          | lt => rfl
          | eq => rw [hac] at h2; exact cmpL_trans_of ih _ _ h1 h2
        | lt =>
          cases hbc : compare g k with
          | gt => rw [hbc] at h2; cases h2
          | lt =>
            rw [compare_lt_iff_lt] at hab hbc
            rw [compare_lt_iff_lt.2 (hab.trans hbc)]
          | eq => rw [← Std.LawfulEqCmp.eq_of_compare hbc, hab]

instance : Std.TransCmp ACT.cmp where
  eq_swap := cmp_swap _ _
  isLE_trans := by
    intro a b c h1 h2
    cases hab : ACT.cmp a b with
    | gt => rw [hab] at h1; cases h1
    | eq => rw [(cmp_eq a b).1 hab]; exact h2
    | lt =>
      cases hbc : ACT.cmp b c with
      | gt => rw [hbc] at h2; cases h2
      | eq => rw [← (cmp_eq b c).1 hbc, hab]; rfl
      | lt => rw [cmp_trans a b c hab hbc]; rfl

instance : Std.TransCmp ACT.uniq := by
  have : ACT.uniq = compareLex (fun a b => ACT.cmp a.1 b.1) (compareOn Prod.snd) := by
    funext a b
    simp only [ACT.uniq, compareLex, compareOn]
    cases ACT.cmp a.1 b.1 <;> rfl
  rw [this]
  have : Std.TransCmp (fun a b : ACT × Nat => ACT.cmp a.1 b.1) :=
    { eq_swap := cmp_swap _ _, isLE_trans := fun h1 h2 => Std.TransCmp.isLE_trans (cmp := ACT.cmp) h1 h2 }
  infer_instance

theorem uniq_eq (a b : ACT × Nat) : ACT.uniq a b = .eq ↔ a = b := by
  rw [ACT.uniq]
  cases hc : ACT.cmp a.1 b.1 with
  | eq =>
    rw [Prod.ext_iff, ← cmp_eq, hc]
    simp
  | lt => simp; rintro rfl; rw [(cmp_eq _ _).2 rfl] at hc; cases hc
  | gt => simp; rintro rfl; rw [(cmp_eq _ _).2 rfl] at hc; cases hc

/-! ## Sorting -/

/-- Sorted by the comparison. -/
def ASorted (l : List ACT) : Prop := l.Pairwise fun a b => ACT.cmp a b ≠ .gt

theorem asorted_unique {l l' : List ACT} (h : ASorted l) (h' : ASorted l') (hp : l.Perm l') : l = l' := by
  refine hp.eq_of_pairwise (le := fun a b => ACT.cmp a b ≠ .gt) ?_ h h'
  intro a b _ _ h1 h2
  rw [cmp_swap] at h2
  rw [← cmp_eq]
  cases hc : ACT.cmp a b with
  | eq => rfl
  | gt => exact absurd hc h1
  | lt => rw [hc] at h2; simp at h2

theorem acSort_spec {ad : Nat → Nat} (had : Function.Injective ad) (l : List ACT) : ASorted (acSort ad l) ∧ (acSort ad l).Perm l := by
  have gen : ∀ (l : List (ACT × Nat)) (t : STree (ACT × Nat)) (m : List (ACT × Nat)), TreeRel ACT.uniq id t m →
      (∀ c ∈ l, (c.1, ad c.2) ∉ m) → (l.map Prod.snd).Nodup →
      TreeRel ACT.uniq id (l.foldl (fun t c => (STree.insert ACT.uniq id (c.1, ad c.2) t).2) t) ((l.map fun c => (c.1, ad c.2)).reverse ++ m) := by
    intro l
    induction l with
    | nil => intro t m h _ _; simpa using h
    | cons c l ih =>
      intro t m h hm hnd
      have hi := (insert_rel h (c.1, ad c.2)).2
      have hl : look ACT.uniq id m (id (c.1, ad c.2)) = none := by
        rw [look_none]
        intro x hx he
        have := (uniq_eq _ _).1 he
        exact hm c (by simp) (by rw [show (c.1, ad c.2) = x from this]; exact hx)
      simp only [mapStep, hl] at hi
      rw [List.map_cons, List.nodup_cons] at hnd
      have := ih _ _ hi ?_ hnd.2
      · simpa using this
      · intro d hd hmem
        rcases List.mem_cons.1 hmem with he | he
        · simp only [Prod.mk.injEq] at he
          exact hnd.1 (by rw [← had he.2]; exact List.mem_map_of_mem hd)
        · exact hm d (by simp [hd]) he
  have h0 : TreeRel ACT.uniq id (.leaf : STree (ACT × Nat)) [] := ⟨by simp [Sorted, toList], by simp [toList]⟩
  have := gen l.zipIdx .leaf [] h0 (by simp) (by rw [List.zipIdx_map_snd]; exact List.nodup_range')
  rw [List.append_nil] at this
  obtain ⟨hs, hp⟩ := this
  constructor
  · rw [ASorted, acSort, List.pairwise_map]
    refine hs.imp ?_
    intro a b hab hgt
    simp only [ACT.uniq, id] at hab
    rw [hgt] at hab
    cases hab
  · rw [acSort]
    refine (hp.map (·.1)).trans ?_
    rw [List.map_reverse]
    refine (List.reverse_perm _).trans ?_
    rw [List.map_map]
    have : ((fun x : ACT × Nat => x.1) ∘ fun c : ACT × Nat => (c.1, ad c.2)) = Prod.fst := rfl
    rw [this, List.zipIdx_map_fst]

/-- The result depends neither on the addresses nor on the order. -/
theorem acSort_perm {ad ad' : Nat → Nat} (had : Function.Injective ad) (had' : Function.Injective ad') {l l' : List ACT} (h : l.Perm l') :
    acSort ad l = acSort ad' l' := by
  obtain ⟨h1, h2⟩ := acSort_spec had l
  obtain ⟨h3, h4⟩ := acSort_spec had' l'
  exact asorted_unique h1 h3 (h2.trans (h.trans h4.symm))

/-! ## Completeness -/

variable {s : ACSig}

theorem norm_app (ad : List Nat → Nat → Nat) (p : List Nat) (f : Nat) (ts : List Term) :
    acNorm s ad p (app f ts) = acBody s (ad p) f (acCollectL s ad f p 0 ts) (acNormL s ad p 0 ts) := by rw [acNorm]

theorem collect_app (ad : List Nat → Nat → Nat) (p : List Nat) (f g : Nat) (ts : List Term) :
    acCollect s ad f p (app g ts) = if g ≠ f then [acNorm s ad p (app g ts)] else acCollectL s ad f p 0 ts := by rw [acCollect, acNorm]

/-- `t` and `u` have the same normal form and the same collected arguments, whatever the addresses. -/
def Same (s : ACSig) (t u : Term) : Prop := ∀ ad ad', Addresses ad → Addresses ad' → ∀ p q,
  acNorm s ad p t = acNorm s ad' q u ∧ ∀ f, (acCollect s ad f p t).Perm (acCollect s ad' f q u)

theorem body_perm {ad ad' : Nat → Nat} (had : Function.Injective ad) (had' : Function.Injective ad') (f : Nat) {c c' ns : List ACT} (h : c.Perm c') :
    acBody s ad f c ns = acBody s ad' f c' ns := by
  rw [acBody, acBody, acSort_perm had had' h]

theorem same_args {f : Nat} {ts us : List Term} (hL : ∀ ad ad', Addresses ad → Addresses ad' → ∀ p q i,
    acNormL s ad p i ts = acNormL s ad' q i us ∧ ∀ f, (acCollectL s ad f p i ts).Perm (acCollectL s ad' f q i us)) :
    Same s (app f ts) (app f us) := by
  intro ad ad' had had' p q
  obtain ⟨h1, h2⟩ := hL ad ad' had had' p q 0
  have hn : acNorm s ad p (app f ts) = acNorm s ad' q (app f us) := by
    rw [norm_app, norm_app, h1, body_perm (had p) (had' q) f (h2 f)]
  refine ⟨hn, fun g => ?_⟩
  rw [collect_app, collect_app, hn]
  split
  · exact List.Perm.refl _
  · exact h2 g

theorem same_list {ts us : List Term} (h : List.Forall₂ (Same s) ts us) : ∀ ad ad', Addresses ad → Addresses ad' → ∀ p q i,
    acNormL s ad p i ts = acNormL s ad' q i us ∧ ∀ f, (acCollectL s ad f p i ts).Perm (acCollectL s ad' f q i us) := by
  intro ad ad' had had' p q
  induction h with
  | nil => intro i; simp [acNormL, acCollectL]
  | cons h _ ih =>
    intro i
    obtain ⟨h1, h2⟩ := ih (i + 1)
    obtain ⟨h3, h4⟩ := h ad ad' had had' (i :: p) (i :: q)
    refine ⟨by rw [acNormL, acNormL, h1, h3], fun f => ?_⟩
    rw [acCollectL, acCollectL]
    exact (h4 f).append (h2 f)

theorem same_refl (t : Term) : Same s t t := by
  induction t using Term.ind with
  | hv x => intro ad ad' _ _ p q; exact ⟨by rw [acNorm, acNorm], fun f => by rw [acCollect, acCollect]⟩
  | ha f ts ih => exact same_args (same_list (List.forall₂_same.2 ih))

theorem same_of_acEq {t u : Term} (h : ACEq s t u) : Same s t u := by
  induction h with
  | refl t => exact same_refl t
  | symm _ ih => intro ad ad' h h' p q; exact ⟨(ih ad' ad h' h q p).1.symm, fun f => ((ih ad' ad h' h q p).2 f).symm⟩
  | trans _ _ ih1 ih2 =>
    intro ad ad' h h' p q
    exact ⟨(ih1 ad ad' h h' p q).1.trans (ih2 ad' ad' h' h' q q).1, fun f => ((ih1 ad ad' h h' p q).2 f).trans ((ih2 ad' ad' h' h' q q).2 f)⟩
  | arg f l r _ ih =>
    refine same_args (same_list ?_)
    refine List.rel_append (List.forall₂_same.2 fun t _ => same_refl t) (.cons ih (List.forall₂_same.2 fun t _ => same_refl t))
  | @comm f a b hc =>
    intro ad ad' had had' p q
    have hcoll : ∀ g, (acCollectL s ad g p 0 [a, b]).Perm (acCollectL s ad' g q 0 [b, a]) := by
      intro g
      simp only [acCollectL, List.append_nil]
      refine List.perm_append_comm.trans ?_
      exact ((same_refl b ad ad' had had' _ _).2 g).append ((same_refl a ad ad' had had' _ _).2 g)
    have hn : acNorm s ad p (app f [a, b]) = acNorm s ad' q (app f [b, a]) := by
      rw [norm_app, norm_app]
      simp only [acBody, acPair, acNormL, acSort_perm (had p) (had' q) (hcoll f)]
      rw [(same_refl a ad ad' had had' (0 :: p) (1 :: q)).1, (same_refl b ad ad' had had' (1 :: p) (0 :: q)).1]
      generalize acNorm s ad' (1 :: q) a = x
      generalize acNorm s ad' (0 :: q) b = y
      simp only [List.length_cons, List.length_nil, hc, if_true]
      split
      · rfl
      · split
        · rfl
        · rw [cmp_swap y x]
          cases hxy : ACT.cmp x y with
          | eq => have := (cmp_eq x y).1 hxy; subst this; simp
          | lt => simp
          | gt => simp
    refine ⟨hn, fun g => ?_⟩
    rw [collect_app, collect_app, hn]
    split
    · exact List.Perm.refl _
    · exact hcoll g
  | @assoc f a b c ha hc =>
    intro ad ad' had had' p q
    have hcf : (acCollectL s ad f p 0 [app f [a, b], c]).Perm (acCollectL s ad' f q 0 [a, app f [b, c]]) := by
      simp only [acCollectL, List.append_nil, collect_app, ne_eq, not_true, if_false, List.append_assoc]
      refine List.Perm.append ((same_refl a ad ad' had had' _ _).2 f) ?_
      exact List.Perm.append ((same_refl b ad ad' had had' _ _).2 f) ((same_refl c ad ad' had had' _ _).2 f)
    have hn : acNorm s ad p (app f [app f [a, b], c]) = acNorm s ad' q (app f [a, app f [b, c]]) := by
      rw [norm_app, norm_app]
      have hac : s.isAC f = true := by simp [ACSig.isAC, ha, hc]
      simp only [acBody, acNormL, List.length_cons, List.length_nil, hac, if_true, acSort_perm (had p) (had' q) hcf]
    refine ⟨hn, fun g => ?_⟩
    rw [collect_app, collect_app, hn]
    split
    · exact List.Perm.refl _
    · next h => simp only [ne_eq, Decidable.not_not] at h; subst h; exact hcf

theorem weightL_append (vw fw : Nat) (a b : List Term) : weightL vw fw (a ++ b) = weightL vw fw a + weightL vw fw b := by
  induction a with
  | nil => simp [weightL]
  | cons t a ih => simp [weightL, ih]; omega

theorem acEq_weight {t u : Term} (h : ACEq s t u) (vw fw : Nat) : t.weight vw fw = u.weight vw fw := by
  induction h with
  | refl => rfl
  | symm _ ih => exact ih.symm
  | trans _ _ ih1 ih2 => exact ih1.trans ih2
  | arg f l r _ ih => simp only [weight, weightL_append, weightL, ih]
  | comm a b _ => simp only [weight, weightL]; omega
  | assoc a b c _ _ => simp only [weight, weightL]; omega

/-! ## Soundness -/

/-- The arguments joined again. -/
def comb (f : Nat) : List Term → Term
  | [] => app f []
  | [a] => a
  | a :: b :: r => app f [a, comb f (b :: r)]

mutual
/-- A term with the given normal form. -/
def back (s : ACSig) : ACT → Term
  | .var x => .var x
  | .app f as => if s.isAC f then comb f (backL s as) else .app f (backL s as)
def backL (s : ACSig) : List ACT → List Term
  | [] => []
  | a :: as => back s a :: backL s as
end

theorem backL_eq (as : List ACT) : backL s as = as.map (back s) := by
  induction as with
  | nil => rfl
  | cons a as ih => simp [backL, ih]

theorem acEq_args (f : Nat) {ts us : List Term} (h : List.Forall₂ (ACEq s) ts us) : ∀ l : List Term, ACEq s (app f (l ++ ts)) (app f (l ++ us)) := by
  induction h with
  | nil => intro l; exact .refl _
  | @cons t u ts us h _ ih =>
    intro l
    refine (ACEq.arg f l ts h).trans ?_
    have := ih (l ++ [u])
    simpa using this

theorem acEq_two {f : Nat} {a b c d : Term} (h1 : ACEq s a c) (h2 : ACEq s b d) : ACEq s (app f [a, b]) (app f [c, d]) :=
  acEq_args f (.cons h1 (.cons h2 .nil)) []

theorem comb_cons (f : Nat) (a : Term) {l : List Term} (h : l ≠ []) : comb f (a :: l) = app f [a, comb f l] := by
  cases l with
  | nil => exact absurd rfl h
  | cons b l => rfl

theorem comb_append {f : Nat} (hf : s.isAC f = true) {l r : List Term} (hl : l ≠ []) (hr : r ≠ []) :
    ACEq s (app f [comb f l, comb f r]) (comb f (l ++ r)) := by
  have hf' : s.assoc f = true ∧ s.comm f = true := by simpa [ACSig.isAC] using hf
  induction l with
  | nil => exact absurd rfl hl
  | cons a l ih =>
    by_cases h : l = []
    · subst h
      rw [List.singleton_append, comb_cons f a hr]
      exact .refl _
    · rw [comb_cons f a h, List.cons_append, comb_cons f a (by simp [h])]
      exact (ACEq.assoc _ _ _ hf'.1 hf'.2).trans (acEq_two (.refl _) (ih h))

theorem comb_perm {f : Nat} (hf : s.isAC f = true) {l r : List Term} (h : l.Perm r) : ACEq s (comb f l) (comb f r) := by
  have hf' : s.assoc f = true ∧ s.comm f = true := by simpa [ACSig.isAC] using hf
  induction h with
  | nil => exact .refl _
  | @cons a l r h ih =>
    by_cases hl : l = []
    · subst hl
      rw [List.nil_perm.1 h]
      exact .refl _
    · have hr : r ≠ [] := by rintro rfl; exact hl (List.perm_nil.1 h)
      rw [comb_cons f a hl, comb_cons f a hr]
      exact acEq_two (.refl _) ih
  | swap a b l =>
    by_cases hl : l = []
    · subst hl
      exact .comm _ _ hf'.2
    · rw [comb_cons f b (by simp), comb_cons f a hl, comb_cons f a (by simp), comb_cons f b hl]
      refine (ACEq.assoc _ _ _ hf'.1 hf'.2).symm.trans ?_
      exact (acEq_two (.comm _ _ hf'.2) (.refl _)).trans (.assoc _ _ _ hf'.1 hf'.2)
  | trans _ _ ih1 ih2 => exact ih1.trans ih2

theorem normL_length (ad : List Nat → Nat → Nat) (p : List Nat) (ts : List Term) : ∀ i, (acNormL s ad p i ts).length = ts.length := by
  induction ts with
  | nil => intro i; rfl
  | cons t ts ih => intro i; simp [acNormL, ih]

theorem back_norm {sg : Sig} (hb : s.Binary sg) {ad : List Nat → Nat → Nat} (had : Addresses ad) {t : Term} (ht : sg.WT t) : ∀ p,
    ACEq s t (back s (acNorm s ad p t)) ∧
      ∀ f, s.isAC f = true → acCollect s ad f p t ≠ [] ∧ ACEq s t (comb f ((acCollect s ad f p t).map (back s))) := by
  induction t using Term.ind with
  | hv x => intro p; exact ⟨by rw [acNorm, back]; exact .refl _, fun f _ => by rw [acCollect]; exact ⟨by simp, .refl _⟩⟩
  | ha g ts ih =>
    intro p
    rw [Sig.wt_app] at ht
    have hlist : ∀ (us : List Term), (∀ t ∈ us, t ∈ ts) → ∀ i, List.Forall₂ (ACEq s) us (backL s (acNormL s ad p i us)) := by
      intro us
      induction us with
      | nil => intro _ i; exact .nil
      | cons u us ihu =>
        intro hu i
        rw [acNormL, backL]
        exact .cons (ih u (hu u (by simp)) (ht.2 u (hu u (by simp))) _).1 (ihu (fun t h => hu t (by simp [h])) _)
    have hcoll : s.isAC g = true → acCollectL s ad g p 0 ts ≠ [] ∧ ACEq s (app g ts) (comb g ((acCollectL s ad g p 0 ts).map (back s))) := by
      intro hg
      have hlen : ts.length = 2 := by rw [← hb g hg, ← ht.1]; simp
      match ts, hlen with
      | [a, b], _ =>
        obtain ⟨a1, a2⟩ := (ih a (by simp) (ht.2 a (by simp)) (0 :: p)).2 g hg
        obtain ⟨b1, b2⟩ := (ih b (by simp) (ht.2 b (by simp)) (1 :: p)).2 g hg
        simp only [acCollectL, List.append_nil]
        refine ⟨by simp [a1], (acEq_two a2 b2).trans ?_⟩
        rw [List.map_append]
        exact comb_append hg (by simpa using a1) (by simpa using b1)
    have hn : ACEq s (app g ts) (back s (acNorm s ad p (app g ts))) := by
      rw [norm_app, acBody, normL_length]
      by_cases h0 : ts.length = 0
      · rw [if_pos h0]
        have : ts = [] := List.length_eq_zero_iff.1 h0
        subst this
        rw [back]
        split
        · exact .refl _
        · exact .refl _
      · rw [if_neg h0]
        by_cases hg : s.isAC g = true
        · rw [if_pos hg, back, if_pos hg, backL_eq]
          exact (hcoll hg).2.trans (comb_perm hg ((acSort_spec (had p) _).2.symm.map _))
        · rw [if_neg hg]
          have hargs := hlist ts (fun _ h => h) 0
          generalize acNormL s ad p 0 ts = ns at hargs
          have hplain : ACEq s (app g ts) (back s (.app g ns)) := by
            rw [back, if_neg hg]
            exact acEq_args g hargs []
          split
          · next hc =>
            unfold acPair
            split
            · next a b =>
              split
              · refine hplain.trans ?_
                rw [back, back, if_neg hg, if_neg hg]
                exact .comm _ _ hc
              · exact hplain
            · exact hplain
          · exact hplain
    refine ⟨hn, fun f hf => ?_⟩
    rw [collect_app]
    by_cases hgf : g = f
    · subst hgf
      simpa using hcoll hf
    · rw [if_pos hgf]
      exact ⟨by simp, hn⟩

end Verif.ACProof
