import Verif.Clauses.RewriteOrd

/-!
# C20: rewriting with unit equations

`RWReach x N D sets st`: the sets of demodulators are `sets` and the data cached in the term cells are `st` after some history of
normalisations, insertions and removals; all demodulators ever used are in `D`.  The theorems hold in all these states.
-/

namespace Verif.Props
open Verif Term RewriteProof

universe u
variable {x : RWCtx} {N : Nat} {gt : Term → Term → Prop} {D : Demod → Prop}

/-- Smaller, and equal in all models of the demodulators. -/
private def SmallerEq (x : RWCtx) (N : Nat) (gt : Term → Term → Prop) (D : Demod → Prop) (t u : Term) : Prop :=
  Smaller x.sg N gt t u ∧
    ∀ I : Interp.{u} x.sg, (∀ d, D d → I.Models d.clause) → ∀ v, I.Sorted v → I.eval v t = I.eval v u

private theorem laws (hO : RedOrd (sigAr x.sg) N gt) (hx : x.OK N gt) (hD : ∀ d, D d → d.OK x.sg N gt) :
    RWLaws x D (InSig x.sg N) (SmallerEq.{u} x N gt D) := by
  have hL := rwLaws_of hO hx hD
  refine ⟨fun h => hL.dom h.1, hL.arg, fun hw hd h => ⟨hL.step hw hd h, fun I hI v hv => ?_⟩,
    fun h h' => ⟨hL.trans h.1 h'.1, fun I hI v hv => (h.2 I hI v hv).trans (h'.2 I hI v hv)⟩, ?_, fun h => hL.noVar h.1, ?_⟩
  · exact step_sem (minTyped_of hx) h hw.1 (hI _ hd) hv
  · intro f ts us hw hf hne
    refine ⟨hL.congr hw (hf.imp fun a b hab => hab.imp id (·.1)) hne, fun I hI v hv => ?_⟩
    rw [SemProof.eval_app, SemProof.eval_app]
    congr 1
    rw [← List.forall₂_eq_eq_eq, List.forall₂_map_left_iff, List.forall₂_map_right_iff]
    refine hf.imp fun a b hab => ?_
    rcases hab with rfl | h
    · rfl
    · exact h.2 I hI v hv
  · refine Subrelation.wf ?_ hL.wf
    intro b a h
    exact h.imp (·.1) id

private theorem reach_mem {sets : List DSet} {st : RWSt} (h : RWReach x N D sets st) : ∀ s ∈ sets, ∀ e ∈ s.mem, D e ∧ 0 < e.date := by
  induction h with
  | init h => intro s hs e he; simp [h s hs] at he
  | term _ _ _ _ _ ih => exact ih
  | clause _ _ _ _ _ ih => exact ih
  | add _ hd hlt _ _ _ hm _ ih =>
    intro s hs e he
    rcases hm s hs e he with rfl | ⟨s', hs', he'⟩
    · exact ⟨hd, by omega⟩
    · exact ih s' hs' e he'
  | remove _ hm _ ih =>
    intro s hs e he
    obtain ⟨s', hs', he'⟩ := hm s hs e he
    exact ih s' hs' e he'
  | forget _ _ ih => exact ih
  | flags _ _ _ ih => exact ih

private theorem reach_D {sets : List DSet} {st : RWSt} (h : RWReach x N D sets st) : ∀ s ∈ sets, ∀ e ∈ s.mem, D e :=
  fun s hs e he => (reach_mem h s hs e he).1

private theorem reach_inv {S : Term → Term → Prop} (hL : RWLaws x D (InSig x.sg N) S) (hm : MinTyped x) {sets : List DSet} {st : RWSt}
    (h : RWReach x N D sets st) : RWInv x D (InSig x.sg N) S sets st := by
  induction h with
  | init h =>
    refine ⟨⟨by simp [RWSt.fresh], by simp [RWSt.fresh], by simp [RWSt.fresh]⟩, ⟨?_, ?_⟩, by simp [DatesPast, RWSt.fresh]⟩
    · intro t _ _ s hs e he; simp [h s hs] at he
    · intro t _ _ s hs e he; simp [h s hs] at he
  | term hr hs hl hw he ih => exact ((liNF_ok hL hs (reach_D hr) hl _).1 ih hw he).1
  | clause hr hs hl hw he ih => exact (clauseNF_ok.{0} hL hs (reach_D hr) hl hm (fun _ h => h.1) ih hw he).1
  | add hr hd hlt hw hcl he hmem hdate ih => exact rwInv_of_back (findRewritable_ok hL hd _ (backInv_start ih hlt) hw hcl he).1 hmem hdate
  | remove _ hmem hdate ih => exact rwInv_sub ih hmem hdate
  | @forget sets st st' hr0 hf ih =>
    refine ⟨⟨fun t hw hr => ?_, fun t d hw hr hd => ?_, fun t hw hr hd => ?_⟩, ⟨fun t hw hr s hs e he ho hle => ?_,
      fun t hw hr s hs e he hle => ?_⟩, fun t => ?_⟩
    · rcases hf t with h | h
      · rw [h] at hr ⊢; exact ih.links.lt t hw hr
      · rw [h] at hr; simp [RWSt.fresh] at hr
    · rcases hf t with h | h
      · rw [h] at hr hd ⊢; exact ih.links.top t d hw hr hd
      · rw [h] at hr; simp [RWSt.fresh] at hr
    · rcases hf t with h | h
      · rw [h] at hr hd ⊢; exact ih.links.args t hw hr hd
      · rw [h] at hr; simp [RWSt.fresh] at hr
    · rcases hf t with h | h
      · rw [h] at hr hle; exact ih.dates.nf0 t hw hr s hs e he ho hle
      · rw [h] at hle
        have := (reach_mem hr0 s hs e he).2
        simp [RWSt.fresh] at hle; omega
    · rcases hf t with h | h
      · rw [h] at hr hle; exact ih.dates.nf1 t hw hr s hs e he hle
      · rw [h] at hle
        have := (reach_mem hr0 s hs e he).2
        simp [RWSt.fresh] at hle; omega
    · rcases hf t with h | h
      · rw [h]; exact ih.past t
      · rw [h]; simp [RWSt.fresh]
  | flags f g _ ih => exact ⟨⟨ih.links.lt, ih.links.top, ih.links.args⟩, ⟨ih.dates.nf0, ih.dates.nf1⟩, ih.past⟩

theorem rewrite_reach_D {sets : List DSet} {st : RWSt} (h : RWReach x N D sets st) : ∀ s ∈ sets, ∀ e ∈ s.mem, D e := reach_D h

theorem rewrite_reach_inv {S : Term → Term → Prop} (hL : RWLaws x D (InSig x.sg N) S) (hm : MinTyped x) {sets : List DSet} {st : RWSt}
    (h : RWReach x N D sets st) : RWInv x D (InSig x.sg N) S sets st := reach_inv hL hm h

/-! ## Terms -/

/-- **C20.** Normalisation of a term terminates: some number of steps suffices, and more do not change the result. -/
theorem normalise_terminates (hO : RedOrd (sigAr x.sg) N gt) (hx : x.OK N gt) (hD : ∀ d, D d → d.OK x.sg N gt) {d : RWDesc}
    (hs : SetsOK x d.sets) (hl : d.level = 1 ∨ d.level = 2) {st : RWSt} (hr : RWReach x N D d.sets st) {t : Term} (ht : InSig x.sg N t)
    (rs : Bool) : ∃ u st' n, ∀ m, n ≤ m → liNF x d m st t rs = some (u, st') := by
  have hL := laws.{0} hO hx hD
  obtain ⟨n, ⟨u, st'⟩, h⟩ := (liNF_total hL hs (reach_D hr) hl t ht).1 st rs (reach_inv hL (minTyped_of hx) hr)
  exact ⟨u, st', n, fun m hm => (liNF_mono n m hm).1 h⟩

/-- **C20.** The result is the term itself or a strictly smaller term of the same type, has the same value in all models of the
demodulators, and is in normal form: no usable demodulator of the sets applies at any position. -/
theorem normalise_correct (hO : RedOrd (sigAr x.sg) N gt) (hx : x.OK N gt) (hD : ∀ d, D d → d.OK x.sg N gt) {d : RWDesc}
    (hs : SetsOK x d.sets) (hl : d.level = 1 ∨ d.level = 2) {st : RWSt} (hr : RWReach x N D d.sets st) {t u : Term} (ht : InSig x.sg N t)
    {n : Nat} {rs : Bool} {st' : RWSt} (h : liNF x d n st t rs = some (u, st')) :
    (u = t ∨ gt t u) ∧ InSig x.sg N u ∧ x.sg.ty u = x.sg.ty t ∧
      (∀ I : Interp.{u} x.sg, (∀ d, D d → I.Models d.clause) → ∀ v, I.Sorted v → I.eval v t = I.eval v u) ∧
      (rs = false → Irreducible x d.sets d.level u) := by
  have hL := laws.{u} hO hx hD
  obtain ⟨h1, h2, h3⟩ := (liNF_ok hL hs (reach_D hr) hl n).1 (reach_inv hL (minTyped_of hx) hr) ht h
  rcases h2 with rfl | h2
  · exact ⟨.inl rfl, ht, rfl, fun _ _ _ _ => rfl, h3⟩
  · exact ⟨.inr h2.1.2.2.2, h2.1.2.1, h2.1.2.2.1.symm, h2.2, h3⟩

/-- **C20.** Every single replacement is strictly decreasing. -/
theorem replacement_decreases (hO : RedOrd (sigAr x.sg) N gt) (hx : x.OK N gt) {d : Demod} (hd : d.OK x.sg N gt) {rs right : Bool}
    (hr : right = true → d.oriented = false) {t u : Term} (ht : InSig x.sg N t) (h : tryDemod x rs d right t = some u) : gt t u :=
  (step_smaller hO hx hd ht (tryDemod_sound hr h)).2.2.2

/-- **C20.** In every reachable state all recorded rewrite links are strictly decreasing and valid in all models. -/
theorem links_decrease (hO : RedOrd (sigAr x.sg) N gt) (hx : x.OK N gt) (hD : ∀ d, D d → d.OK x.sg N gt) {sets : List DSet}
    {st : RWSt} (hr : RWReach x N D sets st) {t : Term} (ht : InSig x.sg N t) (h : (st t).rewritten = true) :
    gt t (st t).repl ∧ x.sg.ty (st t).repl = x.sg.ty t ∧
      ∀ I : Interp.{u} x.sg, (∀ d, D d → I.Models d.clause) → ∀ v, I.Sorted v → I.eval v t = I.eval v (st t).repl := by
  have h := (reach_inv (laws.{u} hO hx hD) (minTyped_of hx) hr).links.lt t ht h
  exact ⟨h.1.2.2.2, h.1.2.2.1.symm, h.2⟩

/-- **C20.** The demodulators recorded for a normalisation are demodulators of the prover, and the equality of the two terms
follows from the recorded ones alone. -/
theorem recorded_demodulators_suffice (hO : RedOrd (sigAr x.sg) N gt) (hx : x.OK N gt) (hD : ∀ d, D d → d.OK x.sg N gt)
    {sets : List DSet} {st : RWSt} (hr : RWReach x N D sets st) {t u : Term} (ht : InSig x.sg N t) {n : Nat} {ds : List Demod}
    (h : rwSequence st n t u = some ds) : (∀ d ∈ ds, D d) ∧ EqIn.{u} x ds t u :=
  rwSequence_ok (laws.{u} hO hx hD) (minTyped_of hx) (fun _ h => h.1) (reach_inv (laws.{u} hO hx hD) (minTyped_of hx) hr).links ht h

/-! ## Clauses -/

/-- **C20.** Normalising a clause: literal by literal the sign stays, both sides become smaller or stay, and the literal is
equivalent to the original in every model of the recorded demodulators. -/
theorem clause_normalise_equivalent (hO : RedOrd (sigAr x.sg) N gt) (hx : x.OK N gt) (hD : ∀ d, D d → d.OK x.sg N gt) {d : RWDesc}
    (hs : SetsOK x d.sets) (hl : d.level = 1 ∨ d.level = 2) {st : RWSt} (hr : RWReach x N D d.sets st) {C C' : List RLit}
    (hC : ∀ L ∈ C, RLit.In (InSig x.sg N) L) {n k : Nat} {lim lim' : Bool} {st' : RWSt} {ds : List Demod}
    (h : clauseNF x d n k st lim C = some (C', lim', st', ds)) :
    (∀ d ∈ ds, D d) ∧ List.Forall₂ (fun L L' => L'.lit.pos = L.lit.pos ∧ (L'.lit.l = L.lit.l ∨ gt L.lit.l L'.lit.l) ∧
      (L'.lit.r = L.lit.r ∨ gt L.lit.r L'.lit.r)) C C' ∧
    ∀ I : Interp.{u} x.sg, (∀ d ∈ ds, I.Models d.clause) → ∀ v, I.Sorted v →
      (I.ClauseTrue v (C'.map RLit.lit) ↔ I.ClauseTrue v (C.map RLit.lit)) := by
  have hL := laws.{u} hO hx hD
  obtain ⟨-, h2, h3, -, -⟩ := clauseNF_ok.{u} hL hs (reach_D hr) hl (minTyped_of hx) (fun _ h => h.1) (reach_inv hL (minTyped_of hx) hr) hC h
  refine ⟨h3, h2.imp fun L L' h => ⟨h.pos, h.left.imp id (·.1.2.2.2), h.right.imp id (·.1.2.2.2)⟩, fun I hI v hv => ?_⟩
  clear h hC h3
  induction h2 with
  | nil => rfl
  | cons hab _ ih =>
    have e := hab.sem I hI v hv
    simp only [Interp.ClauseTrue, List.map_cons, List.mem_cons, exists_eq_or_imp] at ih ⊢
    rw [e, ih]

/-- **C20.** Normalising a clause keeps it well-typed. -/
theorem clause_normalise_typed (hO : RedOrd (sigAr x.sg) N gt) (hx : x.OK N gt) (hD : ∀ d, D d → d.OK x.sg N gt) {d : RWDesc}
    (hs : SetsOK x d.sets) (hl : d.level = 1 ∨ d.level = 2) {st : RWSt} (hr : RWReach x N D d.sets st) {C C' : List RLit}
    (hC : ∀ L ∈ C, RLit.In (InSig x.sg N) L) {n k : Nat} {lim lim' : Bool} {st' : RWSt} {ds : List Demod}
    (h : clauseNF x d n k st lim C = some (C', lim', st', ds)) (hw : x.sg.WTClause (C.map RLit.lit)) :
    x.sg.WTClause (C'.map RLit.lit) := by
  have hL := laws.{0} hO hx hD
  obtain ⟨-, h2, -, -, -⟩ := clauseNF_ok.{0} hL hs (reach_D hr) hl (minTyped_of hx) (fun _ h => h.1) (reach_inv hL (minTyped_of hx) hr) hC h
  clear h
  induction h2 with
  | nil => simp [Sig.WTClause]
  | @cons L L' _ _ hab _ ih =>
    simp only [Sig.WTClause, List.map_cons, List.mem_cons, forall_eq_or_imp] at hw ih ⊢
    refine ⟨?_, ih (fun L h => hC L (List.mem_cons_of_mem _ h)) hw.2⟩
    have hi := hab.inW hL (hC L (List.mem_cons_self ..))
    have e1 : x.sg.ty L'.lit.l = x.sg.ty L.lit.l := by
      rcases hab.left with h | h
      · rw [h]
      · exact h.1.2.2.1.symm
    have e2 : x.sg.ty L'.lit.r = x.sg.ty L.lit.r := by
      rcases hab.right with h | h
      · rw [h]
      · exact h.1.2.2.1.symm
    exact ⟨hi.1.1, hi.2.1, by rw [e1, e2]; exact hw.1.2.2⟩

/-- **C20.** After the normalisation of a clause all terms are in normal form, except possibly the left sides of maximal positive
oriented literals if the clause is still under the restriction. -/
theorem clause_normalise_irreducible (hO : RedOrd (sigAr x.sg) N gt) (hx : x.OK N gt) (hD : ∀ d, D d → d.OK x.sg N gt) {d : RWDesc}
    (hs : SetsOK x d.sets) (hl : d.level = 1 ∨ d.level = 2) {st : RWSt} (hr : RWReach x N D d.sets st) {C C' : List RLit}
    (hC : ∀ L ∈ C, RLit.In (InSig x.sg N) L) {n k : Nat} {lim lim' : Bool} {st' : RWSt} {ds : List Demod}
    (h : clauseNF x d n k st lim C = some (C', lim', st', ds)) :
    (lim = false → lim' = false) ∧ ∀ L ∈ C', Irreducible x d.sets d.level L.lit.r ∧
      (¬ (lim' = true ∧ L.maximal = true ∧ L.lit.pos = true ∧ L.oriented = true) → Irreducible x d.sets d.level L.lit.l) := by
  have hL := laws.{0} hO hx hD
  obtain ⟨-, -, -, h4, h5⟩ := clauseNF_ok.{0} hL hs (reach_D hr) hl (minTyped_of hx) (fun _ h => h.1) (reach_inv hL (minTyped_of hx) hr) hC h
  refine ⟨h4, fun L hL' => ⟨(h5 L hL').2, fun hn => (h5 L hL').1 ?_⟩⟩
  rw [Bool.eq_false_iff]
  intro hc
  simp only [RLit.restr, Bool.and_eq_true] at hc
  exact hn ⟨hc.2, hc.1.1.1, hc.1.1.2, hc.1.2⟩

/-! ## Finding the clauses a new demodulator can rewrite -/

/-- **C20.** No rewritable clause is missed: a clause that is not returned has no position where the new demodulator applies, apart
from variants of its left side at the protected positions. -/
theorem backward_search_complete (hO : RedOrd (sigAr x.sg) N gt) (hx : x.OK N gt) (hD : ∀ d, D d → d.OK x.sg N gt) {sets : List DSet}
    {st : RWSt} (hr : RWReach x N D sets st) {d : Demod} (hd : D d) (hnew : maxDate sets < d.date) {Cs : List (List RLit)}
    (hC : ∀ C ∈ Cs, ∀ L ∈ C, RLit.In (InSig x.sg N) L) (hcl : ∀ C ∈ Cs, RWCleanC x sets st C) {out : List (List RLit)} {st' : RWSt}
    (h : findRewritableClauses x d d.date st Cs = (out, st')) :
    (∀ C ∈ out, C ∈ Cs) ∧ ∀ C ∈ Cs, C ∉ out → ∀ L ∈ C, KeptLit x d L := by
  have hL := laws.{0} hO hx hD
  obtain ⟨-, -, h3, h4⟩ := findRewritable_ok hL hd Cs (backInv_start (reach_inv hL (minTyped_of hx) hr) hnew) hC hcl h
  exact ⟨h3, h4⟩

/-! ## The orderings of the prover -/

/-- **C20.** The hypotheses on the ordering hold for the Knuth-Bendix comparison with admissible weights. -/
theorem rewriting_with_kbo {O : KOcb} (hO : TotalCmp O.cmp) (hA : (O.par (sigAr x.sg)).Admissible) (N : Nat)
    {hist : List (Term × Term)} (hh : HistOK (sigAr x.sg) hist) (hg : x.greater = fun s t => (kbo6Greater O (after O hist) s t).1)
    (hm : x.strong = true → ∀ ty, InSig x.sg N (x.minT ty) ∧ x.sg.ty (x.minT ty) = ty) :
    RedOrd (sigAr x.sg) N (KBO (O.par (sigAr x.sg))) ∧ x.OK N (KBO (O.par (sigAr x.sg))) := by
  refine ⟨redOrd_kbo (P := O.par (sigAr x.sg)) hO.tot.toStrictPrec hA N, ⟨fun hs ht h => ?_, hm⟩⟩
  rw [hg] at h
  exact (kbo6Greater_correct hO hA hh hs.1.hasAr ht.1.hasAr).1 h

/-- **C20.** They hold for the lexicographic path comparison. -/
theorem rewriting_with_lpo {cmp : Nat → Nat → Cmp} (hc : StrictCmp cmp) (lim N : Nat) (hg : x.greater = lpo4Greater cmp lim)
    (hm : x.strong = true → ∀ ty, InSig x.sg N (x.minT ty) ∧ x.sg.ty (x.minT ty) = ty) :
    RedOrd (sigAr x.sg) N (LpoOf cmp) ∧ x.OK N (LpoOf cmp) := by
  refine ⟨redOrd_lpo hc _ N, ⟨fun hs ht h => ?_, hm⟩⟩
  rw [hg] at h
  exact lpo4Greater_sound hc hs.1.hasAr ht.1.hasAr h

/-! ## Examples -/

/-- A list of demodulators without an index. -/
def _root_.Verif.DSet.scan (mem : List Demod) (date : Nat) : DSet :=
  ⟨mem, date, fun _ k => (mem.filter fun d => k < d.date).flatMap fun d => if d.oriented then [(d, false)] else [(d, false), (d, true)]⟩

/-- The assumption on the index can be met: going through all members does. -/
theorem scan_ok {mem : List Demod} {date : Nat} (h : ∀ d ∈ mem, 0 < d.date ∧ d.date ≤ date) : (DSet.scan mem date).OK x := by
  refine ⟨fun {t k d right} hd => ?_, fun {t k d right sb} hd hk hr _ => ?_, h⟩
  · simp only [DSet.scan, List.mem_flatMap, List.mem_filter] at hd
    obtain ⟨e, ⟨he, _⟩, hd⟩ := hd
    cases ho : e.oriented with
    | true => simp [ho] at hd; obtain ⟨rfl, rfl⟩ := hd; exact ⟨he, by simp⟩
    | false => simp [ho] at hd; rcases hd with ⟨rfl, rfl⟩ | ⟨rfl, rfl⟩ <;> exact ⟨he, by simp [ho]⟩
  · simp only [DSet.scan, List.mem_flatMap, List.mem_filter, decide_eq_true_eq]
    refine ⟨d, ⟨hd, hk⟩, ?_⟩
    cases ho : d.oriented with
    | true =>
      cases right with
      | false => simp
      | true => simp [ho] at hr
    | false => cases right <;> simp

/-- One sort; `20` is binary, `21` to `23` are constants. -/
private def rwSg : Sig := ⟨fun _ => 0, fun _ => 0, fun f => if f = 20 then [0, 0] else [], fun _ => false⟩
private def rwCmp (f g : Nat) : Cmp := if f = g then .equal else if g < f then .greater else .lesser
private theorem rwCmp_strict : StrictCmp rwCmp := by
  refine ⟨⟨?_, ?_⟩, ?_, ?_, ?_⟩
  · intro f; simp [rwCmp]
  · intro f g h; simp only [rwCmp]; split_ifs <;> first | omega | simp
  · intro f g; simp only [rwCmp]; split_ifs <;> simp_all
  · intro f g; simp only [rwCmp]; split_ifs <;> first | omega | simp
  · intro f g; simp only [rwCmp]; split_ifs <;> simp
private def rwX : RWCtx := ⟨rwSg, fun _ => false, false, fun _ => .app 21 [], lpo4Greater rwCmp 1000⟩
/-- `(x * y) * z = x * (y * z)`, oriented -/
private def dAssoc : Demod := ⟨1, .app 20 [.app 20 [.var 2, .var 4], .var 6], .app 20 [.var 2, .app 20 [.var 4, .var 6]], true, 1⟩
/-- `x * y = y * x`, unoriented -/
private def dComm : Demod := ⟨2, .app 20 [.var 2, .var 4], .app 20 [.var 4, .var 2], false, 2⟩
private def rwD (d : Demod) : Prop := d = dAssoc ∨ d = dComm
private def rwSets : List DSet := [.scan [dAssoc] 1, .scan [dComm] 2]

private theorem rwD_ok : ∀ d, rwD d → d.OK rwX.sg 30 (LpoOf rwCmp) := by
  rintro d (rfl | rfl)
  · refine ⟨?_, ?_, ?_, fun _ => ?_⟩
    · simp [InSig, dAssoc, rwX, rwSg, Sig.WT, Sig.WTL, Sig.ty, SymsBelow, SymsBelowL]
    · simp [InSig, dAssoc, rwX, rwSg, Sig.WT, Sig.WTL, Sig.ty, SymsBelow, SymsBelowL]
    · rfl
    · refine lpo4Greater_sound (ar := sigAr rwSg) (lim := 1000) rwCmp_strict ?_ ?_ (by decide) <;>
        simp [dAssoc, HasAr, HasArL, sigAr, rwSg]
  · refine ⟨?_, ?_, ?_, by simp [dComm]⟩
    · simp [InSig, dComm, rwX, rwSg, Sig.WT, Sig.WTL, Sig.ty, SymsBelow, SymsBelowL]
    · simp [InSig, dComm, rwX, rwSg, Sig.WT, Sig.WTL, Sig.ty, SymsBelow, SymsBelowL]
    · rfl

private theorem rwSets_ok : SetsOK rwX rwSets := by
  refine ⟨by simp [rwSets], ?_, ?_, ?_⟩
  · intro s hs
    simp only [rwSets, List.mem_cons, List.not_mem_nil, or_false] at hs
    rcases hs with rfl | rfl <;> exact scan_ok (by simp [dAssoc, dComm])
  · intro s hs d hd
    simp [rwSets] at hs; subst hs
    simp [DSet.scan] at hd; subst hd; rfl
  · intro i s hs d hd
    cases i with
    | zero =>
      simp [rwSets] at hs; subst hs
      simp [DSet.scan] at hd; subst hd; rfl
    | succ i => simp [rwSets] at hs

private theorem rwReach_ex : RWReach rwX 30 rwD rwSets RWSt.fresh := by
  have h0 : RWReach rwX 30 rwD [.scan [] 0, .scan [] 0] RWSt.fresh := .init (by simp [DSet.scan])
  have h1 : RWReach rwX 30 rwD [.scan [dAssoc] 1, .scan [] 0] RWSt.fresh :=
    h0.add (d := dAssoc) (Cs := []) (out := []) (.inl rfl) (by simp [maxDate, DSet.scan, dAssoc]) (by simp) (by simp) rfl
      (by simp [DSet.scan]) (by simp [maxDate, DSet.scan, dAssoc])
  exact h1.add (d := dComm) (Cs := []) (out := []) (.inr rfl) (by simp [maxDate, DSet.scan, dComm]) (by simp) (by simp) rfl
    (by simp [DSet.scan, rwSets, dAssoc, dComm]) (by simp [maxDate, DSet.scan, dComm, rwSets])

private theorem rwMin : rwX.strong = true → ∀ ty, InSig rwX.sg 30 (rwX.minT ty) ∧ rwX.sg.ty (rwX.minT ty) = ty := by simp [rwX]

-- `(c * b) * a` is normalised to `b * (a * c)`
example : ∃ st', liNF rwX ⟨rwSets, 2⟩ 20 RWSt.fresh (.app 20 [.app 20 [.app 23 [], .app 22 []], .app 21 []]) false =
      some (.app 20 [.app 22 [], .app 20 [.app 21 [], .app 23 []]], st') ∧
    Irreducible rwX rwSets 2 (.app 20 [.app 22 [], .app 20 [.app 21 [], .app 23 []]]) := by
  obtain ⟨hO, hx⟩ := rewriting_with_lpo (x := rwX) rwCmp_strict 1000 30 rfl rwMin
  have hin : InSig rwX.sg 30 (.app 20 [.app 20 [.app 23 [], .app 22 []], .app 21 []]) := by
    simp [InSig, rwX, rwSg, Sig.WT, Sig.WTL, Sig.ty, SymsBelow, SymsBelowL]
  have h : (liNF rwX ⟨rwSets, 2⟩ 20 RWSt.fresh (.app 20 [.app 20 [.app 23 [], .app 22 []], .app 21 []]) false).map Prod.fst =
      some (.app 20 [.app 22 [], .app 20 [.app 21 [], .app 23 []]]) := by decide +kernel
  obtain ⟨⟨u, st'⟩, h1, rfl⟩ := Option.map_eq_some_iff.1 h
  exact ⟨st', h1, (normalise_correct.{0} hO hx rwD_ok rwSets_ok (.inr rfl) rwReach_ex hin h1).2.2.2.2 rfl⟩

-- the clauses that a new rule can rewrite are found; the other one is kept
example : ∃ st', findRewritableClauses rwX dAssoc 1 RWSt.fresh
    [[⟨⟨false, .app 20 [.app 20 [.app 23 [], .app 22 []], .app 21 []], .app 21 []⟩, true, true⟩], [⟨⟨true, .app 20 [.app 23 [], .app 22 []], .app 21 []⟩, true, true⟩]] =
    ([[⟨⟨false, .app 20 [.app 20 [.app 23 [], .app 22 []], .app 21 []], .app 21 []⟩, true, true⟩]], st') := by
  have h : (findRewritableClauses rwX dAssoc 1 RWSt.fresh
    [[⟨⟨false, .app 20 [.app 20 [.app 23 [], .app 22 []], .app 21 []], .app 21 []⟩, true, true⟩], [⟨⟨true, .app 20 [.app 23 [], .app 22 []], .app 21 []⟩, true, true⟩]]).1 =
    [[⟨⟨false, .app 20 [.app 20 [.app 23 [], .app 22 []], .app 21 []], .app 21 []⟩, true, true⟩]] := by decide +kernel
  exact ⟨_, Prod.ext h rfl⟩

/-- `x * x = a` and `x * y = a`, both oriented -/
private def dSq : Demod := ⟨1, .app 20 [.var 2, .var 2], .app 10 [], true, 1⟩
private def dAll : Demod := ⟨2, .app 20 [.var 2, .var 4], .app 10 [], true, 2⟩

/-- Under the restriction the result need not be in normal form even for proper instances: if a variant of the left side of an
earlier rule is recorded as the only rewrite link of a protected term, no other demodulator is tried. -/
theorem restricted_normalisation_incomplete : ∃ (x : RWCtx) (N : Nat) (gt : Term → Term → Prop) (D : Demod → Prop) (d : RWDesc) (st st' : RWSt)
    (t u : Term) (e : Demod) (σ : Nat → Term), RedOrd (sigAr x.sg) N gt ∧ x.OK N gt ∧ (∀ d, D d → d.OK x.sg N gt) ∧ SetsOK x d.sets ∧
      RWReach x N D d.sets st ∧ InSig x.sg N t ∧ liNF x d 20 st t true = some (t, st') ∧
      (∃ s ∈ d.sets, e ∈ s.mem) ∧ StepBy x e false t u σ ∧ ¬ RenamesOn e.l.vars σ := by
  obtain ⟨hO, hx⟩ := rewriting_with_lpo (x := rwX) rwCmp_strict 1000 30 rfl rwMin
  have hin : ∀ y z, InSig rwX.sg 30 (.app 20 [.var y, .var z]) := by
    intro y z; simp [InSig, rwX, rwSg, Sig.WT, Sig.WTL, Sig.ty, SymsBelow, SymsBelowL]
  have hin' : InSig rwX.sg 30 (.app 10 []) := by
    simp [InSig, rwX, rwSg, Sig.WT, Sig.WTL, SymsBelow, SymsBelowL]
  have hgt : ∀ y z, LpoOf rwCmp (.app 20 [.var y, .var z]) (.app 10 []) := fun y z => .prec (by simp [rwCmp]) (by simp)
  have hD : ∀ d, d = dSq ∨ d = dAll → d.OK rwX.sg 30 (LpoOf rwCmp) := by
    rintro d (rfl | rfl)
    · exact ⟨hin _ _, hin', rfl, fun _ => hgt _ _⟩
    · exact ⟨hin _ _, hin', rfl, fun _ => hgt _ _⟩
  have h0 : RWReach rwX 30 (fun d => d = dSq ∨ d = dAll) [.scan [] 0, .scan [] 0] RWSt.fresh := .init (by simp [DSet.scan])
  have h1 : RWReach rwX 30 (fun d => d = dSq ∨ d = dAll) [.scan [dSq] 1, .scan [] 0] _ :=
    h0.add (d := dSq) (Cs := [[⟨⟨true, .app 20 [.var 8, .var 8], .app 10 []⟩, true, true⟩]]) (.inl rfl) (by simp [maxDate, DSet.scan, dSq])
      (by simp only [List.mem_singleton, forall_eq]; exact ⟨hin _ _, hin'⟩) (by simp [RWCleanC, RWClean, DSet.scan]) rfl
      (by simp [DSet.scan]) (by simp [maxDate, DSet.scan, dSq])
  have h2 : RWReach rwX 30 (fun d => d = dSq ∨ d = dAll) [.scan [dSq, dAll] 2, .scan [] 0] _ :=
    h1.add (d := dAll) (Cs := []) (.inr rfl) (by simp [maxDate, DSet.scan, dAll]) (by simp) (by simp) rfl
      (by simp [DSet.scan, dSq, dAll]) (by simp [maxDate, DSet.scan, dAll])
  have h : (liNF rwX ⟨[.scan [dSq, dAll] 2, .scan [] 0], 2⟩ 20 (findRewritableClauses rwX dSq dSq.date RWSt.fresh
      [[⟨⟨true, .app 20 [.var 8, .var 8], .app 10 []⟩, true, true⟩]]).2 (.app 20 [.var 8, .var 8]) true).map Prod.fst =
      some (.app 20 [.var 8, .var 8]) := by decide +kernel
  obtain ⟨⟨u, st'⟩, h3, rfl⟩ := Option.map_eq_some_iff.1 h
  refine ⟨rwX, 30, LpoOf rwCmp, _, ⟨[.scan [dSq, dAll] 2, .scan [] 0], 2⟩, _, st', .app 20 [.var 8, .var 8], .app 10 [], dAll,
    fun y => if y = 2 ∨ y = 4 then .var 8 else .var y, hO, hx, hD, ?_, h2, hin _ _, h3, ⟨_, List.mem_cons_self, by simp [DSet.scan]⟩, ?_, ?_⟩
  · refine ⟨by simp, ?_, ?_, ?_⟩
    · intro s hs
      simp only [List.mem_cons, List.not_mem_nil, or_false] at hs
      rcases hs with rfl | rfl <;> exact scan_ok (by simp [dSq, dAll])
    · intro s hs d hd
      simp at hs; subst hs
      simp [DSet.scan] at hd; rcases hd with rfl | rfl <;> rfl
    · intro i s hs d hd
      cases i with
      | zero => simp at hs; subst hs; simp [DSet.scan] at hd
      | succ i => simp at hs
  · refine ⟨?_, by simp [rwX], by simp [Demod.lhs, dAll, subst, substL], by simp [Demod.rhs, dAll, subst, substL], fun _ => ⟨rfl, ?_⟩,
      by simp [dAll], by simp [dAll], by simp [dAll], by simp [dAll]⟩
    · intro y _; split_ifs <;> rfl
    · intro y hy
      simp only [dAll, vars, varsL, List.cons_append, List.nil_append, List.mem_cons, List.not_mem_nil, or_false] at hy
      simp [hy]
  · rintro ⟨_, h⟩
    have := h 2 (by simp [dAll, vars, varsL]) 4 (by simp [dAll, vars, varsL]) (by simp)
    omega

end Verif.Props
