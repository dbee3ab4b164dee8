import Verif.Clauses.LitCmpProof
import Verif.Props.Kbo
import Verif.Props.Lpo

/-!
# C14, C15: orientation and comparison of literals

Everything is stated for a comparison function `cmp` that decides a strict partial ordering `gt` on the terms in `D`
(`OrdCmp`).  `kbo_decides` and `lpo_decides` show that the modelled orderings are such functions.
-/

namespace Verif.Props
open Verif Term LitCmpProof

variable {D : Term → Prop} {cmp : Term → Term → Cmp} {gt : Term → Term → Prop}

/-- `KBO6Compare` after any history decides the Knuth-Bendix ordering. -/
theorem kbo_decides {O : KOcb} {ar : Nat → Nat} (hO : TotalCmp O.cmp) (hA : (O.par ar).Admissible) {hist : List (Term × Term)}
    (hh : HistOK ar hist) : OrdCmp (fun t => t.HasAr ar) (fun s t => (kbo6Compare O (after O hist) s t).1) (KBO (O.par ar)) where
  greater hs ht := (kbo6Compare_correct hO hA hh hs ht).1
  lesser hs ht := (kbo6Compare_correct hO hA hh hs ht).2.1
  equal hs ht := (kbo6Compare_correct hO hA hh hs ht).2.2.1
  unc hs ht := (kbo6Compare_correct hO hA hh hs ht).2.2.2
  irrefl _ := KboOrder.kbo_irrefl hO.tot.toStrictPrec
  trans hs ht hu := KboOrder.kbo_trans hO.tot.toStrictPrec hA hs ht hu

/-- `LPO4Compare` decides the path ordering of terms within the recursion limit. -/
theorem lpo_decides {c : Nat → Nat → Cmp} {ar : Nat → Nat} {lim : Nat} (hc : StrictCmp c) :
    OrdCmp (fun t => t.HasAr ar ∧ 2 * t.depth ≤ lim + 2) (lpo4Compare c lim) (LpoOf c) := by
  have hd : ∀ {s t : Term}, 2 * s.depth ≤ lim + 2 → 2 * t.depth ≤ lim + 2 → WithinLimit lim s t := by
    intro s t h1 h2
    unfold WithinLimit
    omega
  exact {
    greater := fun hs ht => (lpo4Compare_correct hc hs.1 ht.1 (hd hs.2 ht.2)).1
    lesser := fun hs ht => (lpo4Compare_correct hc hs.1 ht.1 (hd hs.2 ht.2)).2.1
    equal := fun hs ht => (lpo4Compare_correct hc hs.1 ht.1 (hd hs.2 ht.2)).2.2.1
    unc := fun hs ht => (lpo4Compare_correct hc hs.1 ht.1 (hd hs.2 ht.2)).2.2.2
    irrefl := fun _ => LpoOrder.lpo_irrefl hc.strict
    trans := fun _ _ _ h1 h2 => LpoOrder.LPO.trans hc.strict h1 h2 }

/-! ## C14 -/

/-- `s` is greater than `t` in the ordering, `$true` being the least term. -/
def Bigger (gt : Term → Term → Prop) (s t : Term) : Prop := (s ≠ tTrue ∧ t = tTrue) ∨ (s ≠ tTrue ∧ t ≠ tTrue ∧ gt s t)

/-- The orientation flag tells the truth. -/
def OrientRight (gt : Term → Term → Prop) (L : FLit) : Prop :=
  (L.oriented = true ↔ Bigger gt L.lit.l L.lit.r) ∧ ¬ Bigger gt L.lit.r L.lit.l

/-- Where `$true` is the least term anyway, `Bigger` is the ordering. -/
theorem bigger_iff (h : OrdCmp D cmp gt) (hmin : ∀ t, D t → t ≠ tTrue → gt t tTrue) (hT : D tTrue) {s t : Term} (hs : D s) (_ht : D t) :
    Bigger gt s t ↔ gt s t := by
  unfold Bigger
  constructor
  · rintro (⟨h1, rfl⟩ | ⟨-, -, h1⟩)
    · exact hmin s hs h1
    · exact h1
  · intro hg
    have : s ≠ tTrue := by
      rintro rfl
      by_cases h2 : t = tTrue
      · subst h2; exact h.irrefl hT hg
      · exact h.irrefl hT (h.trans hT _ht hT hg (hmin t _ht h2))
    by_cases h2 : t = tTrue
    · exact Or.inl ⟨this, h2⟩
    · exact Or.inr ⟨this, h2, hg⟩

/-- **C14.** After `EqnOrient` the literal is the same equation, the sides are exchanged exactly when the result is `true`, the
greater side (if any) is on the left, the orientation flag is set exactly when there is one; nothing else changes. -/
theorem eqnOrient_correct (h : OrdCmp D cmp gt) {L : FLit} (hL : L.lit.In D) (hf : L.upToDate = true → OrientRight gt L) :
    let r := eqnOrient cmp L
    OrientRight gt r.2 ∧ r.2.upToDate = true ∧
    (r.1 = false → r.2.lit = L.lit) ∧ (r.1 = true → r.2.lit = ⟨L.lit.pos, L.lit.r, L.lit.l⟩ ∧ L.upToDate = false ∧ Bigger gt L.lit.r L.lit.l) ∧
    r.2.maximal = L.maximal ∧ r.2.strictMax = L.strictMax ∧ r.2.selected = L.selected ∧ r.2.pseudo = L.pseudo := by
  obtain ⟨⟨p, l, r⟩, orient, up, mx, sm, sel, ps, he, sb⟩ := L
  obtain ⟨hl, hr⟩ := hL
  simp only at hl hr hf
  cases up with
  | true => simpa [eqnOrient] using hf rfl
  | false =>
    clear hf
    have c := cmp_cases h hl hr
    by_cases e1 : l = r
    · subst e1
      have := h.irrefl hl
      simp [eqnOrient, orientRel, OrientRight, Bigger, this]
    · by_cases e2 : l = tTrue
      · subst e2
        have e3 : r ≠ tTrue := Ne.symm e1
        simp [eqnOrient, orientRel, OrientRight, Bigger, e1, e3, FLit.swapSides]
      · by_cases e3 : r = tTrue
        · subst e3
          simp [eqnOrient, orientRel, OrientRight, Bigger, e1]
        · rcases c with ⟨c, c1, c2, -⟩ | ⟨c, c1, c2, -⟩ | ⟨-, c, -⟩ | ⟨c, -, c1, c2⟩
          · simp [eqnOrient, orientRel, OrientRight, Bigger, e1, e2, e3, c, c1, c2]
          · simp [eqnOrient, orientRel, OrientRight, Bigger, e1, e2, e3, c, c1, c2, FLit.swapSides]
          · exact absurd c e1
          · simp [eqnOrient, orientRel, OrientRight, Bigger, e1, e2, e3, c, c1, c2]

/-- Orienting twice changes nothing more. -/
theorem eqnOrient_idempotent (h : OrdCmp D cmp gt) {L : FLit} (hL : L.lit.In D) (hf : L.upToDate = true → OrientRight gt L) :
    eqnOrient cmp (eqnOrient cmp L).2 = (false, (eqnOrient cmp L).2) := by
  have := (eqnOrient_correct h hL hf).2.1
  rw [eqnOrient, if_pos this]

/-- The flags of a copy made by `EqnCopy` (CLAUSES/ccl_eqn.c:1376-1382): all are kept, but a copy of an unoriented literal is not
up to date. -/
def copyFlags (L : FLit) (lit : Lit) : FLit := { L with lit := lit, upToDate := L.upToDate && L.oriented }

/-- **C14.** The flags inherited by an instance (no variable being replaced by `$true`) are right: an instance of an oriented equation
is oriented in the same direction. -/
theorem copy_orientRight (h : OrdCmp D cmp gt) {σ : Nat → Term} (hσ : ∀ s t, D s → D t → gt s t → gt (s.subst σ) (t.subst σ))
    (hD : ∀ t, D t → D (t.subst σ)) (hT : ∀ x, σ x ≠ tTrue) {L : FLit} (hL : L.lit.In D) (hf : OrientRight gt L) :
    (copyFlags L (L.lit.subst σ)).upToDate = true → OrientRight gt (copyFlags L (L.lit.subst σ)) := by
  obtain ⟨⟨p, l, r⟩, orient, up, mx, sm, sel, ps, he, sb⟩ := L
  obtain ⟨hl, hr⟩ := hL
  simp only [copyFlags, Lit.subst, OrientRight, Bool.and_eq_true] at *
  rintro ⟨-, ho⟩
  have key : ∀ t : Term, t.subst σ = tTrue ↔ t = tTrue := by
    intro t
    cases t with
    | var x =>
      have := hT x
      simpa [tTrue] using this
    | app f ts =>
      rw [subst_app]
      simp [tTrue]
  have hb : Bigger gt (l.subst σ) (r.subst σ) := by
    rcases hf.1.1 ho with ⟨h1, h2⟩ | ⟨h1, h2, h3⟩
    · exact Or.inl ⟨by rwa [Ne, key], by rwa [key]⟩
    · exact Or.inr ⟨by rwa [Ne, key], by rwa [Ne, key], hσ _ _ hl hr h3⟩
  refine ⟨by simp [ho, hb], ?_⟩
  rintro (⟨h1, h2⟩ | ⟨h1, h2, h3⟩)
  · rcases hb with ⟨h3, -⟩ | ⟨h3, -⟩ <;> exact h3 h2
  · rcases hb with ⟨h4, h5⟩ | ⟨h4, h5, h6⟩
    · exact h1 h5
    · exact h.irrefl (hD l hl) (h.trans (hD l hl) (hD r hr) (hD l hl) h6 h3)

/-- **C14 fails for the literals of definitions made by splitting.** `GenDefLit` sets EPIsSplitLit, whose value 65636 contains the bit
EPMaxIsUpToDate; `EqnOrient` then leaves the literal unoriented although its left side is greater. -/
theorem genDefLit_never_oriented (cmp : Term → Term → Cmp) (gt : Term → Term → Prop) {a : Term} (pos : Bool) (h1 : a ≠ tTrue) (h2 : a ≠ tFalse) :
    eqnOrient cmp (genDefLit a pos) = (false, genDefLit a pos) ∧ (genDefLit a pos).oriented = false ∧
    (genDefLit a pos).lit = ⟨pos, a, tTrue⟩ ∧ Bigger gt (genDefLit a pos).lit.l (genDefLit a pos).lit.r := by
  have h12 : tTrue ≠ tFalse := by decide
  have hl : (genDefLit a pos).lit = ⟨pos, a, tTrue⟩ := by
    simp [genDefLit, mkEqn, h1, h2, h12]
  refine ⟨by simp [eqnOrient, genDefLit], rfl, hl, ?_⟩
  rw [hl]
  exact Or.inl ⟨h1, rfl⟩

/-! ## C15 -/

/-- No selection, no pseudo literal. -/
def Plain (L : FLit) : Prop := L.selected = false ∧ L.pseudo = false

private theorem plain_compare {fcmp : Nat → Nat → Cmp} {a b : FLit} (pa : Plain a) (pb : Plain b) :
    literalCompare .normal cmp fcmp a b = litCompareTerms cmp a b := by
  simp [literalCompare, pa.1, pa.2, pb.1, pb.2, tfoLiteralCompare]

/-- **C15.** Answers of `LiteralCompare` agree with the multiset extension. -/
theorem literalCompare_multiset (h : OrdCmp D cmp gt) {fcmp : Nat → Nat → Cmp} {a b : FLit} (pa : Plain a) (pb : Plain b)
    (ha : a.lit.In D) (hb : b.lit.In D) (oa : a.oriented = true → gt a.lit.l a.lit.r) (ob : b.oriented = true → gt b.lit.l b.lit.r) :
    (literalCompare .normal cmp fcmp a b = .greater → MulGt gt a.lit.mset b.lit.mset) ∧
    (literalCompare .normal cmp fcmp a b = .lesser → MulGt gt b.lit.mset a.lit.mset) ∧
    (literalCompare .normal cmp fcmp a b = .equal ↔ a.lit.mset = b.lit.mset) := by
  rw [plain_compare pa pb]
  obtain ⟨h1, h2, h3, -⟩ := litCompareTerms_spec h ha hb oa ob
  exact ⟨fun hg => lgt_mulGt h ha hb (h1.1 hg), fun hg => lgt_mulGt h hb ha (h2.1 hg),
    fun hg => same_mset (h3.1 hg), fun hg => h3.2 (mset_same hg)⟩

/-- **C15, completeness.** The greater literal of the multiset extension is found, unless it is a positive unoriented literal compared
with a negative one. -/
theorem literalCompare_complete (h : OrdCmp D cmp gt) {fcmp : Nat → Nat → Cmp} {a b : FLit} (pa : Plain a) (pb : Plain b)
    (ha : a.lit.In D) (hb : b.lit.In D) (oa : a.oriented = true → gt a.lit.l a.lit.r) (ob : b.oriented = true → gt b.lit.l b.lit.r)
    (hx : ¬ (a.lit.pos = true ∧ a.oriented = false ∧ b.lit.pos = false)) (hg : MulGt gt a.lit.mset b.lit.mset) :
    literalCompare .normal cmp fcmp a b = .greater ∧ literalCompare .normal cmp fcmp b a = .lesser := by
  rw [plain_compare pa pb, plain_compare pb pa, (litCompareTerms_spec h ha hb oa ob).1, (litCompareTerms_spec h hb ha ob oa).2.1]
  refine (and_self _).symm ▸ ?_
  cases hp : a.lit.pos
  · exact mulGt_lgt h ha hb hg (Or.inr hp)
  · cases hq : b.lit.pos
    · cases hox : a.oriented
      · simp [hp, hq, hox] at hx
      · have := mulGt_pnGt h ha hb hg hp hq (oa hox)
        unfold LGt
        simpa [hp, hq] using this
    · exact mulGt_lgt h ha hb hg (Or.inl (by rw [hp, hq]))

/-- **C15.** `EqnGreater` decides the multiset extension on the sides of two equations (it ignores the signs). -/
theorem eqnGreater_correct (h : OrdCmp D cmp gt) {a b : Lit} (ha : a.In D) (hb : b.In D) :
    eqnGreater cmp a b = true ↔ MulGt gt {a.l, a.r} {b.l, b.r} := by
  have h1 := (comparePosEqns_spec h ha hb).1
  simp only [eqnGreater, decide_eq_true_eq]
  rw [h1]
  have ha' : Lit.In D ⟨true, a.l, a.r⟩ := ha
  have hb' : Lit.In D ⟨true, b.l, b.r⟩ := hb
  constructor
  · intro hg
    have := lgt_mulGt h ha' hb' (by simpa [LGt, PosGt] using hg)
    simpa [Lit.mset] using this
  · intro hg
    have := mulGt_lgt h ha' hb' (by simpa [Lit.mset] using hg) (Or.inl rfl)
    simpa [LGt, PosGt] using this

/-- `OCBFunCompare` gives the inverse answer when the symbols are exchanged (true of every precedence, see `precedence_is_order`). -/
def InvCmp (fcmp : Nat → Nat → Cmp) : Prop := ∀ f g, fcmp g f = (fcmp f g).inv

private theorem tfo_inv {mode : LitCmpMode} {fcmp : Nat → Nat → Cmp} (hf : InvCmp fcmp) (a b : FLit) :
    tfoLiteralCompare mode fcmp b a = (tfoLiteralCompare mode fcmp a b).inv := by
  have hp : predCompare fcmp b a = (predCompare fcmp a b).inv := by
    unfold predCompare
    cases a.lit.l <;> cases b.lit.l <;> simp [Cmp.inv]
    exact hf _ _
  unfold tfoLiteralCompare
  cases mode <;> cases ha : a.isEqu <;> cases hb : b.isEqu <;> simp [Cmp.inv, hp]

/-- **C15.** In every mode, with or without selection and pseudo literals, exchanging the literals inverts the answer. -/
theorem literalCompare_inv (h : OrdCmp D cmp gt) {mode : LitCmpMode} {fcmp : Nat → Nat → Cmp} (hf : InvCmp fcmp) {a b : FLit}
    (ha : a.lit.In D) (hb : b.lit.In D) (oa : a.oriented = true → gt a.lit.l a.lit.r) (ob : b.oriented = true → gt b.lit.l b.lit.r) :
    literalCompare mode cmp fcmp b a = (literalCompare mode cmp fcmp a b).inv := by
  have key : litCompareTerms cmp b a = (litCompareTerms cmp a b).inv := by
    obtain ⟨h1, h2, h3, h4⟩ := litCompareTerms_spec h hb ha ob oa
    rcases litCompareTerms_answer h ha hb oa ob with ⟨hr, hx⟩ | ⟨hr, hx⟩ | ⟨hr, hx⟩ | ⟨hr, hx⟩
    · rw [hr]; exact h2.2 hx
    · rw [hr]; exact h1.2 hx
    · rw [hr]; exact h3.2 (leq_symm hx)
    · rw [hr]; exact h4.2 ⟨hx.2.1, hx.1, fun hh => hx.2.2 (leq_symm hh)⟩
  have ht := tfo_inv (mode := mode) hf a b
  unfold literalCompare
  rw [ht, key]
  cases a.pseudo <;> cases b.pseudo <;> cases a.selected <;> cases b.selected <;> simp [Cmp.inv] <;>
    cases hm : tfoLiteralCompare mode fcmp a b <;> simp <;> (try split_ifs) <;>
    cases hp : a.lit.pos <;> cases hq : b.lit.pos <;> simp_all

/-- **C15, incompleteness.** An unoriented positive literal that is greater than a negative one in the multiset extension, each side
being greater than one side of the other, is reported as incomparable. -/
theorem literalCompare_incomplete : ∃ (gt : Term → Term → Prop) (cmp : Term → Term → Cmp) (a b : FLit),
    OrdCmp (fun t => t.HasAr (fun f => if f = 3 ∨ f = 4 then 1 else 0) ∧ 2 * t.depth ≤ 1002) cmp gt ∧ Plain a ∧ Plain b ∧
    a.lit.In (fun t => t.HasAr (fun f => if f = 3 ∨ f = 4 then 1 else 0) ∧ 2 * t.depth ≤ 1002) ∧
    b.lit.In (fun t => t.HasAr (fun f => if f = 3 ∨ f = 4 then 1 else 0) ∧ 2 * t.depth ≤ 1002) ∧
    (eqnOrient cmp a).2 = { a with upToDate := true } ∧ a.oriented = false ∧ b.oriented = false ∧
    MulGt gt a.lit.mset b.lit.mset ∧ ∀ fcmp, literalCompare .normal cmp fcmp a b = .uncomparable := by
  let c : Nat → Nat → Cmp := fun f g => qToPart (f - g)
  have hc : StrictCmp c := by
    refine ⟨⟨?_, ?_⟩, ?_, ?_, ?_⟩
    · intro f; simp [c, qToPart]
    · intro f g h
      simp only [c, qToPart]
      split_ifs <;> first | omega | simp_all
    · intro f g
      simp only [c, qToPart]
      split_ifs <;> simp_all <;> omega
    · intro f g
      simp only [c, qToPart]
      split_ifs <;> first | omega | simp_all
    · intro f g
      simp only [c, qToPart]
      split_ifs <;> simp
  have hs : OrdCmp (fun t => t.HasAr (fun f => if f = 3 ∨ f = 4 then 1 else 0) ∧ 2 * t.depth ≤ 1002) (lpo4Compare c 1000) (LpoOf c) :=
    lpo_decides hc
  refine ⟨LpoOf c, lpo4Compare c 1000, { lit := ⟨true, .app 3 [.var 0], .app 4 [.var 1]⟩ }, { lit := ⟨false, .var 0, .var 1⟩ },
    hs, ⟨rfl, rfl⟩, ⟨rfl, rfl⟩, ?_, ?_, ?_, rfl, rfl, ?_, ?_⟩
  · simp [Lit.In, HasAr, HasArL, Term.depth, Term.depthL]
  · simp [Lit.In, HasAr, Term.depth]
  · have hr : orientRel (lpo4Compare c 1000) (.app 3 [.var 0]) (.app 4 [.var 1]) = .uncomparable := by decide
    simp [eqnOrient, hr]
  · refine ⟨{.app 3 [.var 0], .app 4 [.var 1]}, {.var 0, .var 0, .var 1, .var 1}, 0, by simp [Lit.mset], by simp [Lit.mset], by simp, ?_⟩
    intro y hy
    simp only [Multiset.insert_eq_cons, Multiset.mem_cons, Multiset.mem_singleton] at hy
    have hy' : y = .var 0 ∨ y = .var 1 := by tauto
    rcases hy' with rfl | rfl
    · exact ⟨.app 3 [.var 0], by simp, .sub (by simp)⟩
    · exact ⟨.app 4 [.var 1], by simp, .sub (by simp)⟩
  · intro fcmp
    rw [plain_compare ⟨rfl, rfl⟩ ⟨rfl, rfl⟩]
    decide

/-! ## Examples -/

private def exCmp (f g : Nat) : Cmp := qToPart (f - g)

private theorem exCmp_strict : StrictCmp exCmp := by
  refine ⟨⟨?_, ?_⟩, ?_, ?_, ?_⟩
  · intro f; simp [exCmp, qToPart]
  · intro f g h
    simp only [exCmp, qToPart]
    split_ifs <;> first | omega | simp_all
  · intro f g
    simp only [exCmp, qToPart]
    split_ifs <;> simp_all <;> omega
  · intro f g
    simp only [exCmp, qToPart]
    split_ifs <;> first | omega | simp_all
  · intro f g
    simp only [exCmp, qToPart]
    split_ifs <;> simp

/-- The equation `a = f(b)` is turned around, and the result is greater than `¬ f(a) = a`… only by the ordering of `f(b)`, `f(a)`. -/
example : ∃ a b : FLit,
    OrdCmp (fun t => t.HasAr (fun f => if f = 5 then 1 else 0) ∧ 2 * t.depth ≤ 1002) (lpo4Compare exCmp 1000) (LpoOf exCmp) ∧
    a.lit.In (fun t => t.HasAr (fun f => if f = 5 then 1 else 0) ∧ 2 * t.depth ≤ 1002) ∧
    b.lit.In (fun t => t.HasAr (fun f => if f = 5 then 1 else 0) ∧ 2 * t.depth ≤ 1002) ∧
    (eqnOrient (lpo4Compare exCmp 1000) a).1 = true ∧ Plain a ∧ Plain b ∧
    literalCompare .normal (lpo4Compare exCmp 1000) exCmp (eqnOrient (lpo4Compare exCmp 1000) a).2
      (eqnOrient (lpo4Compare exCmp 1000) b).2 = .greater := by
  refine ⟨{ lit := ⟨true, .app 3 [], .app 5 [.app 4 []]⟩ }, { lit := ⟨false, .app 5 [.app 3 []], .app 3 []⟩ }, lpo_decides exCmp_strict, ?_, ?_,
    by decide, ⟨rfl, rfl⟩, ⟨rfl, rfl⟩, by decide⟩ <;>
  simp [Lit.In, HasAr, HasArL, Term.depth, Term.depthL]

end Verif.Props
