import Verif.Clauses.RewriteProof

/-!
# Recorded demodulators, literals and clauses
-/

namespace Verif
namespace RewriteProof
open Term

universe u
variable {x : RWCtx} {D : Demod → Prop} {W : Term → Prop} {S : Term → Term → Prop}

/-- The designated minimal terms are well-typed. -/
def MinTyped (x : RWCtx) : Prop := x.strong = true → ∀ ty, x.sg.WT (x.minT ty) ∧ x.sg.ty (x.minT ty) = ty

theorem stepBy_wt (hm : MinTyped x) {d : Demod} {right : Bool} {t u : Term} {σ : Nat → Term} (h : StepBy x d right t u σ)
    (ht : x.sg.WT t) : x.sg.WTSubst σ := by
  intro y
  by_cases hy : y ∈ (d.lhs right).vars
  · exact ⟨h.typed y hy, SubsProof.wt_of_subst (m := d.lhs right) (by rw [h.inst]; exact ht) y hy⟩
  · by_cases ho : d.oriented = true
    · have := h.rule ho
      have hr := this.1
      subst hr
      rw [this.2 y (by simpa [Demod.lhs] using hy)]
      exact ⟨rfl, trivial⟩
    · have ho : d.oriented = false := by simpa using ho
      by_cases hr : y ∈ (d.rhs right).vars
      · obtain ⟨h1, h2⟩ := h.free ho y hr hy
        rw [h2]
        exact ⟨(hm h1 _).2, (hm h1 _).1⟩
      · rw [h.other ho y hy hr]
        exact ⟨rfl, trivial⟩

/-- A rewrite step is an equality in every model of the demodulator. -/
theorem step_sem (hm : MinTyped x) {d : Demod} {right : Bool} {t u : Term} (h : TopStep x d right t u) (ht : x.sg.WT t)
    {I : Interp.{u} x.sg} (hI : I.Models d.clause) {v : Nat → I.D} (hv : I.Sorted v) : I.eval v t = I.eval v u := by
  obtain ⟨σ, h⟩ := h
  have hσ := stepBy_wt hm h ht
  have := hI _ (SemProof.sorted_subst I hv hσ)
  obtain ⟨L, hL, hT⟩ := this
  simp only [Demod.clause, List.mem_singleton] at hL
  subst hL
  simp only [Interp.LitTrue, if_true] at hT
  rw [← SemProof.eval_subst, ← SemProof.eval_subst] at hT
  rw [← h.inst, ← h.repl]
  cases right with
  | true => simpa [Demod.lhs, Demod.rhs] using hT.symm
  | false => simpa [Demod.lhs, Demod.rhs] using hT

theorem seqArgs_ok {sq : Term → Term → Option (List Demod)}
    (hsq : ∀ {a b ds}, W a → sq a b = some ds → (∀ d ∈ ds, D d) ∧ EqIn.{u} x ds a b) :
    ∀ {ts us : List Term} {ds : List Demod}, (∀ t ∈ ts, W t) → seqArgs sq ts us = some ds →
    (∀ d ∈ ds, D d) ∧ List.Forall₂ (EqIn.{u} x ds) ts us := by
  intro ts
  induction ts with
  | nil =>
    intro us ds _ h
    cases us with
    | nil => simp [seqArgs] at h; subst h; exact ⟨by simp, .nil⟩
    | cons u us => simp [seqArgs] at h
  | cons t ts ih =>
    intro us ds hw h
    cases us with
    | nil => simp [seqArgs] at h
    | cons u us =>
      simp only [seqArgs] at h
      cases h1 : sq t u with
      | none => simp [h1] at h
      | some d1 =>
        cases h2 : seqArgs sq ts us with
        | none => simp [h1, h2] at h
        | some d2 =>
          simp [h1, h2] at h; subst h
          obtain ⟨g1, g2⟩ := hsq (hw t (by simp)) h1
          obtain ⟨k1, k2⟩ := ih (fun t ht => hw t (by simp [ht])) h2
          refine ⟨fun d hd => (List.mem_append.1 hd).elim (g1 d) (k1 d),
            .cons (fun I hI v hv => g2 I (fun d hd => hI d (by simp [hd])) v hv) ?_⟩
          exact k2.imp fun a b hab I hI v hv => hab I (fun d hd => hI d (by simp [hd])) v hv

/-- The recorded demodulators were used, and they suffice. -/
theorem rwSequence_ok (hL : RWLaws x D W S) (hm : MinTyped x) (hW : ∀ t, W t → x.sg.WT t) {st : RWSt}
    (h : LinksOK x D W S st) : ∀ {n : Nat} {a b : Term} {ds : List Demod}, W a → rwSequence st n a b = some ds →
    (∀ d ∈ ds, D d) ∧ EqIn.{u} x ds a b := by
  intro n
  induction n with
  | zero => intro a b ds _ he; simp [rwSequence] at he
  | succ n ih =>
    intro a b ds hw he
    unfold rwSequence at he
    split at he
    · rename_i hab
      simp at he; subst he; subst hab
      exact ⟨by simp, fun I _ v _ => rfl⟩
    · split at he
      · simp at he
      · rename_i hr
        have hr : (st a).rewritten = true := by simpa using hr
        have hS := h.lt a hw hr
        have hw1 := (hL.dom hS).2
        cases hd : (st a).demod with
        | some d =>
          simp only [hd, Option.map_eq_some_iff] at he
          obtain ⟨es, h1, rfl⟩ := he
          obtain ⟨g1, g2⟩ := ih hw1 h1
          obtain ⟨k1, right, k2⟩ := h.top a d hw hr hd
          refine ⟨by simpa using ⟨k1, g1⟩, fun I hI v hv => ?_⟩
          rw [step_sem hm k2 (hW a hw) (hI d (by simp)) hv]
          exact g2 I (fun d hd => hI d (by simp [hd])) v hv
        | none =>
          simp only [hd] at he
          obtain ⟨f, ts, us, rfl, hus, hlen⟩ := h.args a hw hr hd
          rw [hus] at he hw1
          simp only [ne_eq, not_true_eq_false, false_or] at he
          split at he
          · simp at he
          · cases h1 : seqArgs (rwSequence st n) ts us with
            | none => simp [h1] at he
            | some d1 =>
              simp only [h1, Option.map_eq_some_iff] at he
              obtain ⟨d2, h2, rfl⟩ := he
              obtain ⟨g1, g2⟩ := seqArgs_ok (fun hw he => ih hw he) (fun t ht => hL.arg hw ht) h1
              obtain ⟨k1, k2⟩ := ih hw1 h2
              refine ⟨fun d hd => (List.mem_append.1 hd).elim (g1 d) (k1 d), fun I hI v hv => ?_⟩
              have e1 : I.eval v (.app f ts) = I.eval v (.app f us) := by
                rw [SemProof.eval_app, SemProof.eval_app]
                congr 1
                rw [← List.forall₂_eq_eq_eq, List.forall₂_map_left_iff, List.forall₂_map_right_iff]
                exact g2.imp fun a b hab => hab I (fun d hd => hI d (by simp [hd])) v hv
              rw [e1]
              exact k2 I (fun d hd => hI d (by simp [hd])) v hv

/-! ### Literals and clauses -/

/-- What normalising one literal or clause means. -/
structure LitRel (x : RWCtx) (S : Term → Term → Prop) (ds : List Demod) (L L' : RLit) : Prop where
  pos : L'.lit.pos = L.lit.pos
  maximal : L'.maximal = L.maximal
  oriented : L'.oriented = L.oriented
  left : Le S L.lit.l L'.lit.l
  right : Le S L.lit.r L'.lit.r
  sem : ∀ I : Interp.{u} x.sg, (∀ d ∈ ds, I.Models d.clause) → ∀ v, I.Sorted v → (I.LitTrue v L'.lit ↔ I.LitTrue v L.lit)

theorem LitRel.trans (hL : RWLaws x D W S) {ds es : List Demod} {L M N : RLit} (h : LitRel.{u} x S ds L M)
    (h' : LitRel.{u} x S es M N) : LitRel.{u} x S (ds ++ es) L N :=
  ⟨h'.pos.trans h.pos, h'.maximal.trans h.maximal, h'.oriented.trans h.oriented, h.left.trans hL h'.left, h.right.trans hL h'.right,
    fun I hI v hv => (h'.sem I (fun d hd => hI d (by simp [hd])) v hv).trans (h.sem I (fun d hd => hI d (by simp [hd])) v hv)⟩

theorem LitRel.mono {ds es : List Demod} {L M : RLit} (h : LitRel.{u} x S ds L M) (hs : ∀ d ∈ ds, d ∈ es) : LitRel.{u} x S es L M :=
  ⟨h.pos, h.maximal, h.oriented, h.left, h.right, fun I hI v hv => h.sem I (fun d hd => hI d (hs d hd)) v hv⟩

theorem LitRel.inW (hL : RWLaws x D W S) {ds : List Demod} {L M : RLit} (h : LitRel.{u} x S ds L M) (hw : RLit.In W L) :
    RLit.In W M := ⟨h.left.dom hL hw.1, h.right.dom hL hw.2⟩

section
variable {d : RWDesc} (hL : RWLaws x D W S) (hs : SetsOK x d.sets) (hD : ∀ s ∈ d.sets, ∀ e ∈ s.mem, D e)
  (hl : d.level = 1 ∨ d.level = 2) (hm : MinTyped x) (hW : ∀ t, W t → x.sg.WT t)
include hL hs hD hl hm hW

theorem sideNF_ok {n : Nat} {st : RWSt} {t : Term} {rs : Bool} {u : Term} {st' : RWSt} {ds : List Demod}
    (hi : RWInv x D W S d.sets st) (hw : W t) (h : sideNF x d n st t rs = some (u, st', ds)) :
    Good x D W S d t rs u st' ∧ (∀ e ∈ ds, D e) ∧ EqIn.{u} x ds t u := by
  unfold sideNF at h
  cases h1 : liNF x d n st t rs with
  | none => simp [h1] at h
  | some p =>
    obtain ⟨v, st1⟩ := p
    simp only [h1, Option.map_eq_some_iff, Prod.mk.injEq] at h
    obtain ⟨es, h2, rfl, rfl, rfl⟩ := h
    have g := (liNF_ok hL hs hD hl n).1 hi hw h1
    exact ⟨g, rwSequence_ok hL hm hW g.1.links hw h2⟩

theorem eqnNF_ok {n : Nat} {st : RWSt} {L : RLit} {lim : Bool} {L' : RLit} {mx : Bool} {st' : RWSt} {ds : List Demod}
    (hi : RWInv x D W S d.sets st) (hw : RLit.In W L) (h : eqnNF x d n st L lim = some (L', mx, st', ds)) :
    RWInv x D W S d.sets st' ∧ LitRel.{u} x S ds L L' ∧ (∀ e ∈ ds, D e) ∧
      (RLit.restr L lim = false → Irreducible x d.sets d.level L'.lit.l) ∧ Irreducible x d.sets d.level L'.lit.r ∧
      (mx = false → L'.lit.l = L.lit.l) := by
  unfold eqnNF at h
  simp only at h
  cases h1 : sideNF x d n st L.lit.l (L.maximal && L.lit.pos && L.oriented && lim) with
  | none => simp [h1] at h
  | some p =>
    obtain ⟨l, st1, d1⟩ := p
    simp only [h1] at h
    obtain ⟨⟨g1, g2, g3⟩, g4, g5⟩ := sideNF_ok hL hs hD hl hm hW hi hw.1 h1
    cases h2 : sideNF x d n st1 L.lit.r false with
    | none => simp [h2] at h
    | some q =>
      obtain ⟨r, st2, d2⟩ := q
      simp only [h2, Option.some.injEq, Prod.mk.injEq] at h
      obtain ⟨rfl, rfl, rfl, rfl⟩ := h
      obtain ⟨⟨k1, k2, k3⟩, k4, k5⟩ := sideNF_ok hL hs hD hl hm hW g1 hw.2 h2
      refine ⟨k1, ⟨rfl, rfl, rfl, g2, k2, fun I hI v hv => ?_⟩, fun e he => (List.mem_append.1 he).elim (g4 e) (k4 e), g3, k3 rfl, ?_⟩
      · have e1 := g5 I (fun d hd => hI d (by simp [hd])) v hv
        have e2 := k5 I (fun d hd => hI d (by simp [hd])) v hv
        simp only [Interp.LitTrue, e1, e2]
      · intro h; simp only [Bool.or_eq_false_iff, decide_eq_false_iff_not, not_not] at h; exact h.1

theorem litsNF_ok {n : Nat} : ∀ {C : List RLit} {st : RWSt} {lim : Bool} {C' : List RLit} {again lim' : Bool} {st' : RWSt}
    {ds : List Demod}, RWInv x D W S d.sets st → (∀ L ∈ C, RLit.In W L) →
    litsNF x d n st lim C = some (C', again, lim', st', ds) →
    RWInv x D W S d.sets st' ∧ List.Forall₂ (LitRel.{u} x S ds) C C' ∧ (∀ e ∈ ds, D e) ∧
      (again = false → lim' = lim) ∧ (again = true → lim' = false) ∧ (lim = false → again = false) ∧
      (again = false → ∀ L ∈ C', (RLit.restr L lim' = false → Irreducible x d.sets d.level L.lit.l) ∧
        Irreducible x d.sets d.level L.lit.r) := by
  intro C
  induction C with
  | nil =>
    intro st lim C' again lim' st' ds hi _ h
    simp only [litsNF, Option.some.injEq, Prod.mk.injEq] at h
    obtain ⟨rfl, rfl, rfl, rfl, rfl⟩ := h
    exact ⟨hi, .nil, by simp, fun _ => rfl, by simp, fun _ => rfl, by simp⟩
  | cons L C ih =>
    intro st lim C' again lim' st' ds hi hw h
    simp only [litsNF] at h
    cases h1 : eqnNF x d n st L lim with
    | none => simp [h1] at h
    | some p =>
      obtain ⟨L', mx, st1, d1⟩ := p
      simp only [h1] at h
      obtain ⟨g1, g2, g3, g4, g5, g6⟩ := eqnNF_ok hL hs hD hl hm hW hi (hw L (by simp)) h1
      generalize hhit : (mx && L.lit.pos && L.maximal && lim) = hit at h
      cases h2 : litsNF x d n st1 (lim && !hit) C with
      | none => simp [h2] at h
      | some q =>
        obtain ⟨C2, ag, lim2, st2, d2⟩ := q
        simp only [h2, Option.some.injEq, Prod.mk.injEq] at h
        obtain ⟨rfl, rfl, rfl, rfl, rfl⟩ := h
        obtain ⟨k1, k2, k3, k4, k5, k6, k7⟩ := ih g1 (fun L hL => hw L (by simp [hL])) h2
        refine ⟨k1, .cons (g2.mono fun d hd => by simp [hd]) (k2.imp fun a b hab => hab.mono fun d hd => by simp [hd]),
          fun e he => (List.mem_append.1 he).elim (g3 e) (k3 e), ?_, ?_, ?_, ?_⟩
        · intro hag
          simp only [Bool.or_eq_false_iff] at hag
          obtain ⟨rfl, rfl⟩ := hag
          simpa using k4 rfl
        · intro hag
          rcases Bool.or_eq_true_iff.1 hag with h | h
          · subst h
            cases ag with
            | true => exact k5 rfl
            | false => simpa using k4 rfl
          · exact k5 h
        · intro hlim
          subst hlim
          simp only [Bool.and_false] at hhit
          subst hhit
          simpa using k6
        · intro hag M hM
          simp only [Bool.or_eq_false_iff] at hag
          obtain ⟨rfl, rfl⟩ := hag
          have hlim : lim2 = lim := by simpa using k4 rfl
          rcases List.mem_cons.1 hM with rfl | hM
          · refine ⟨fun hr => g4 ?_, g5⟩
            simpa [RLit.restr, g2.pos, g2.maximal, g2.oriented, hlim] using hr
          · exact k7 rfl M hM

theorem clauseNF_ok {n : Nat} : ∀ {k : Nat} {C : List RLit} {st : RWSt} {lim : Bool} {C' : List RLit} {lim' : Bool} {st' : RWSt}
    {ds : List Demod}, RWInv x D W S d.sets st → (∀ L ∈ C, RLit.In W L) →
    clauseNF x d n k st lim C = some (C', lim', st', ds) →
    RWInv x D W S d.sets st' ∧ List.Forall₂ (LitRel.{u} x S ds) C C' ∧ (∀ e ∈ ds, D e) ∧ (lim = false → lim' = false) ∧
      (∀ L ∈ C', (RLit.restr L lim' = false → Irreducible x d.sets d.level L.lit.l) ∧ Irreducible x d.sets d.level L.lit.r) := by
  intro k
  induction k with
  | zero => intro C st lim C' lim' st' ds _ _ h; simp [clauseNF] at h
  | succ k ih =>
    intro C st lim C' lim' st' ds hi hw h
    rw [clauseNF] at h
    cases h1 : litsNF x d n st lim C with
    | none => simp [h1] at h
    | some p =>
      obtain ⟨C1, again, lim1, st1, d1⟩ := p
      simp only [h1] at h
      obtain ⟨g1, g2, g3, g4, g5, g6, g7⟩ := litsNF_ok hL hs hD hl hm hW hi hw h1
      have hw1 : ∀ L ∈ C1, RLit.In W L := by
        intro L' hL'
        obtain ⟨i, hi', rfl⟩ := List.mem_iff_getElem.1 hL'
        have hlen := g2.length_eq
        have := List.forall₂_iff_get.1 g2
        have h3 := this.2 i (by omega) hi'
        exact h3.inW hL (hw _ (List.getElem_mem _))
      cases again with
      | true =>
        simp only [if_true, Option.map_eq_some_iff, Prod.mk.injEq] at h
        obtain ⟨⟨C2, l2, s2, d2⟩, h2, rfl, rfl, rfl, rfl⟩ := h
        obtain ⟨k1, k2, k3, k4, k5⟩ := ih g1 hw1 h2
        refine ⟨k1, ?_, fun e he => (List.mem_append.1 he).elim (g3 e) (k3 e), fun _ => k4 (g5 rfl), k5⟩
        have : ∀ {A B E : List RLit}, List.Forall₂ (LitRel.{u} x S d1) A B → List.Forall₂ (LitRel.{u} x S d2) B E →
            List.Forall₂ (LitRel.{u} x S (d1 ++ d2)) A E := by
          intro A B E hAB
          induction hAB generalizing E with
          | nil => intro h; cases h; exact .nil
          | cons h1 h2 ih => intro h; cases h with | cons h3 h4 => exact .cons (h1.trans hL h3) (ih h4)
        exact this g2 k2
      | false =>
        simp only [Bool.false_eq_true, if_false, Option.some.injEq, Prod.mk.injEq] at h
        obtain ⟨rfl, rfl, rfl, rfl⟩ := h
        refine ⟨g1, g2, g3, fun hl => ?_, g7 rfl⟩
        rw [g4 rfl]; exact hl

end

end RewriteProof
end Verif
