import Verif.Clauses.SplitSpec
import Verif.Clauses.SplitProof
import Verif.Props.Subsume

/-!
# Splitting: semantic helper lemmas
-/

namespace Verif.SplitProof
open Verif Interp SemProof

universe u
variable {sg : Sig}

theorem eval_withPreds (I : Interp.{u} sg) {new : Nat → Prop} (h : NewPreds sg new) (P : Nat → List I.D → Prop) {n : Nat}
    (hn : ∀ f, f < n → ¬ new f) (v : Nat → I.D) {t : Term} (ht : t.SymsBelow n) :
    (I.withPreds new h P).eval v t = I.eval v t := by
  induction t using Term.ind with
  | hv x => rfl
  | ha f ts ih =>
    obtain ⟨h1, h2⟩ := Term.symsBelow_app.1 ht
    refine (eval_app (I.withPreds new h P) v f ts).trans ?_
    have e : ts.map ((I.withPreds new h P).eval v) = ts.map (I.eval v) :=
      List.map_congr_left fun t ht => ih t ht (h2 t ht)
    rw [eval_app, ← e]
    exact if_neg (hn f h1)

theorem litTrue_withPreds (I : Interp.{u} sg) {new : Nat → Prop} (h : NewPreds sg new) (P : Nat → List I.D → Prop) {n : Nat}
    (hn : ∀ f, f < n → ¬ new f) (v : Nat → I.D) {L : Lit} (hl : L.l.SymsBelow n ∧ L.r.SymsBelow n) :
    (I.withPreds new h P).LitTrue v L ↔ I.LitTrue v L := by
  unfold LitTrue
  rw [eval_withPreds I h P hn v hl.1, eval_withPreds I h P hn v hl.2]
  exact Iff.rfl

theorem clauseTrue_withPreds (I : Interp.{u} sg) {new : Nat → Prop} (h : NewPreds sg new) (P : Nat → List I.D → Prop) {n : Nat}
    (hn : ∀ f, f < n → ¬ new f) (v : Nat → I.D) {C : List Lit} (hl : ClauseBelow n C) :
    (I.withPreds new h P).ClauseTrue v C ↔ I.ClauseTrue v C :=
  exists_congr fun L => and_congr_right fun hL => litTrue_withPreds I h P hn v (hl L hL)

theorem models_withPreds (I : Interp.{u} sg) {new : Nat → Prop} (h : NewPreds sg new) (P : Nat → List I.D → Prop) {n : Nat}
    (hn : ∀ f, f < n → ¬ new f) {C : List Lit} (hl : ClauseBelow n C) :
    (I.withPreds new h P).Models C ↔ I.Models C :=
  forall_congr' fun v => imp_congr Iff.rfl (clauseTrue_withPreds I h P hn v hl)

theorem codesIn_below {n m : Nat} : ∀ f, f < n → ¬ CodesIn n m f := fun _ h h' => by
  have := h'.1
  omega

theorem withPreds_congr (I : Interp.{u} sg) {new new' : Nat → Prop} (h : NewPreds sg new) (h' : NewPreds sg new')
    (P P' : Nat → List I.D → Prop) (e : ∀ f, new f ↔ new' f) (e' : ∀ f, new f → P f = P' f) :
    I.withPreds new h P = I.withPreds new' h' P' := by
  unfold Interp.withPreds
  congr 1
  funext f ds
  by_cases hf : new f
  · rw [if_pos hf, if_pos ((e f).1 hf), e' f hf]
  · rw [if_neg hf, if_neg fun hh => hf ((e f).2 hh)]

theorem withPreds_none (I : Interp.{u} sg) {new : Nat → Prop} (h : NewPreds sg new)
    (P : Nat → List I.D → Prop) (e : ∀ f, ¬ new f) : I.withPreds new h P = I := by
  unfold Interp.withPreds
  cases I
  congr 1
  funext f ds
  rw [if_neg (e f)]

open Classical in
theorem withPreds_comp (I : Interp.{u} sg) {a b c : Nat} (hab : a ≤ b) (hbc : b ≤ c) (h1 : NewPreds sg (CodesIn a b))
    (h2 : NewPreds sg (CodesIn b c)) (h3 : NewPreds sg (CodesIn a c)) (P : Nat → List I.D → Prop)
    (Q : Nat → List I.D → Prop) :
    (I.withPreds _ h1 P).withPreds _ h2 Q = I.withPreds _ h3 (fun f ds => if f < b then P f ds else Q f ds) := by
  unfold Interp.withPreds
  congr 1
  funext f ds
  dsimp only
  rw [if_neg h1.notTrue, if_neg h1.notFalse]
  by_cases hf : f < b
  · rw [if_neg (fun h' : CodesIn b c f => by have := h'.1; omega)]
    by_cases ha : a ≤ f
    · rw [if_pos (show CodesIn a b f from ⟨ha, hf⟩), if_pos (show CodesIn a c f from ⟨ha, by omega⟩)]
      simp only [hf, if_true]
    · rw [if_neg (fun h' : CodesIn a b f => ha h'.1), if_neg (fun h' : CodesIn a c f => ha h'.1)]
  · by_cases hc : f < c
    · rw [if_pos (show CodesIn b c f from ⟨by omega, hc⟩), if_pos (show CodesIn a c f from ⟨by omega, hc⟩)]
      simp only [hf, if_false]
    · rw [if_neg (fun h' : CodesIn b c f => hc h'.2), if_neg (fun h' : CodesIn a c f => hc h'.2),
        if_neg (fun h' : CodesIn a b f => hf h'.2)]

theorem _root_.Verif.NewPreds.sub {new new' : Nat → Prop} (h : NewPreds sg new) (hs : ∀ f, new' f → new f) : NewPreds sg new' where
  toSigOK := h.toSigOK
  ty f hf := h.ty f (hs f hf)
  notTrue hf := h.notTrue (hs 1 hf)
  notFalse hf := h.notFalse (hs 2 hf)
  notDistinct f hf := h.notDistinct f (hs f hf)

/-! ## Definition literals -/

theorem defLit_eq {p : Nat} (h1 : p ≠ 1) (h2 : p ≠ 2) (pos : Bool) (sv : List Nat) :
    defLit p pos sv = ⟨pos, .app p (sv.map .var), tTrue⟩ := by
  simp [defLit, mkEqn, tTrue, tFalse, h1, h2]

theorem defLit_true {p : Nat} (h1 : p ≠ 1) (h2 : p ≠ 2) (sv : List Nat) (I : Interp.{u} sg) (v : Nat → I.D) :
    I.LitTrue v (defLit p true sv) ↔ I.fn p (sv.map v) = I.fn 1 [] := by
  rw [defLit_eq h1 h2, LitTrue]
  simp only [if_true]
  rw [eval_app, eval_true, List.map_map]
  exact Iff.rfl

theorem defLit_false {p : Nat} (h1 : p ≠ 1) (h2 : p ≠ 2) (sv : List Nat) (I : Interp.{u} sg) (v : Nat → I.D) :
    I.LitTrue v (defLit p false sv) ↔ ¬ I.fn p (sv.map v) = I.fn 1 [] := by
  rw [defLit_eq h1 h2, LitTrue]
  simp only [Bool.false_eq_true, if_false]
  rw [eval_app, eval_true, List.map_map]
  exact Iff.rfl

theorem defLit_below {p n : Nat} (h1 : p ≠ 1) (h2 : p ≠ 2) (hn : 2 < n) (hp : p < n) (pos : Bool) (sv : List Nat) :
    (defLit p pos sv).l.SymsBelow n ∧ (defLit p pos sv).r.SymsBelow n := by
  rw [defLit_eq h1 h2]
  refine ⟨Term.symsBelow_app.2 ⟨hp, fun t ht => ?_⟩, Term.symsBelow_app.2 ⟨by omega, by simp⟩⟩
  obtain ⟨x, -, rfl⟩ := List.mem_map.1 ht
  trivial

theorem defLit_wt (hs : SigOK sg) {p : Nat} (h1 : p ≠ 1) (h2 : p ≠ 2) {sv : List Nat} (hty : sg.fty p = sg.fty 1)
    (ha : sg.fargs p = sv.map sg.vty) (pos : Bool) : sg.WTLit (defLit p pos sv) := by
  rw [defLit_eq h1 h2]
  refine ⟨Sig.wt_app.2 ⟨?_, fun t ht => ?_⟩, wt_true hs, hty⟩
  · rw [ha, List.map_map]; rfl
  · obtain ⟨x, -, rfl⟩ := List.mem_map.1 ht
    trivial

theorem models_perm {C D : List OLit} (h : C.Perm D) (I : Interp.{u} sg) :
    I.Models (OLit.plain C) ↔ I.Models (OLit.plain D) := by
  unfold Models ClauseTrue
  simp only [OLit.plain, List.mem_map, h.mem_iff]

/-! ## The definition store -/

/-- Invariant of the state. -/
structure StInv (sg : Sig) (st : SplitSt) : Prop where
  next : 2 < st.next
  pred : ∀ e ∈ st.store, 2 < e.2 ∧ e.2 < st.next ∧ sg.fty e.2 = sg.fty 1 ∧ sg.fargs e.2 = []
  wt : ∀ e ∈ st.store, sg.WTClause (OLit.plain e.1)
  below : ∀ e ∈ st.store, ClauseBelow st.next (OLit.plain e.1)

/-- The stored definitions hold. -/
def StoreTrue (I : Interp.{u} sg) (st : SplitSt) : Prop :=
  ∀ e ∈ st.store, (I.fn e.2 [] = I.fn 1 [] ↔ ¬ I.Models (OLit.plain e.1))

theorem below_mono {n m : Nat} (h : n ≤ m) {C : List Lit} (hC : ClauseBelow n C) : ClauseBelow m C := by
  have ht : ∀ t : Term, t.SymsBelow n → t.SymsBelow m := by
    intro t
    induction t using Term.ind with
    | hv x => exact fun _ => trivial
    | ha f ts ih =>
      rw [Term.symsBelow_app, Term.symsBelow_app]
      exact fun h' => ⟨by omega, fun t ht => ih t ht (h'.2 t ht)⟩
  exact fun L hL => ⟨ht _ (hC L hL).1, ht _ (hC L hL).2⟩

variable {x : SplitCtx}

/-- What is known about a variant found in the store. -/
theorem variant_spec {store : List (List OLit × Nat)} {D : List OLit} {e : List OLit × Nat}
    (h : x.variant store D = some e) (hD : x.sg.WTClause (OLit.plain D)) (he : ∀ e ∈ store, x.sg.WTClause (OLit.plain e.1)) :
    e ∈ store ∧ ∀ I : Interp.{u} x.sg, I.Models (OLit.plain e.1) ↔ I.Models (OLit.plain D) := by
  unfold SplitCtx.variant at h
  have hm := List.mem_of_find?_eq_some h
  have hp := List.find?_some h
  simp only [Bool.and_eq_true] at hp
  exact ⟨hm, fun I => ⟨fun h' => Props.subsumes_sound hD hp.1.2 I (by simpa using h'),
    fun h' => Props.subsumes_sound (he e hm) hp.2 I (by simpa using h')⟩⟩

/-- The possible outcomes of `define`. -/
theorem define_cases (fresh : Bool) (sv : List Nat) (st : SplitSt) (body : List OLit) :
    (∃ e, sv = [] ∧ x.variant st.store (x.srt body) = some e ∧ x.define fresh sv st body = (⟨e.2, none⟩, st)) ∨
    (∃ store', (store' = st.store ∨ (sv = [] ∧ store' = st.store ++ [(x.srt body, st.next)])) ∧
      x.define fresh sv st body =
        (⟨st.next, some (defLit st.next true sv :: OLit.plain body)⟩, ⟨st.next + 1, store'⟩)) := by
  unfold SplitCtx.define
  by_cases h : sv ≠ [] ∨ fresh = true
  · rw [if_pos h]
    exact Or.inr ⟨_, Or.inl rfl, rfl⟩
  · rw [if_neg h]
    have hs : sv = [] := by by_contra hc; exact h (Or.inl hc)
    subst hs
    dsimp only
    cases hv : x.variant st.store (x.srt body) with
    | some e => exact Or.inl ⟨e, rfl, rfl, rfl⟩
    | none => exact Or.inr ⟨_, Or.inr ⟨rfl, rfl⟩, rfl⟩

theorem plain_perm {P : Lit → Prop} {C D : List OLit} (h : C.Perm D) (hD : ∀ L ∈ OLit.plain D, P L) :
    ∀ L ∈ OLit.plain C, P L := by
  intro L hL
  obtain ⟨K, hK, rfl⟩ := List.mem_map.1 hL
  exact hD _ (List.mem_map.2 ⟨K, h.mem_iff.1 hK, rfl⟩)

/-- One definition: syntactic facts. -/
theorem define_inv (hs : SigOK x.sg) (hsrt : ∀ l, (x.srt l).Perm l) {fresh : Bool} {sv : List Nat} {st : SplitSt} {body : List OLit}
    (hst : StInv x.sg st) (hb : x.sg.WTClause (OLit.plain body)) (hbb : ClauseBelow st.next (OLit.plain body))
    (hd : DeclaredPreds x.sg st.next (x.define fresh sv st body).2.next sv) :
    st.next ≤ (x.define fresh sv st body).2.next ∧ StInv x.sg (x.define fresh sv st body).2 ∧
    2 < (x.define fresh sv st body).1.pred ∧ (x.define fresh sv st body).1.pred < (x.define fresh sv st body).2.next ∧
    x.sg.fty (x.define fresh sv st body).1.pred = x.sg.fty 1 ∧
    x.sg.fargs (x.define fresh sv st body).1.pred = sv.map x.sg.vty ∧
    ∀ C ∈ (x.define fresh sv st body).1.clause.toList, x.sg.WTClause C ∧ ClauseBelow (x.define fresh sv st body).2.next C := by
  have hn := hst.next
  rcases define_cases (x := x) fresh sv st body with ⟨e, rfl, hv, he⟩ | ⟨store', hst', he⟩
  · rw [he]
    have hm : e ∈ st.store := List.mem_of_find?_eq_some hv
    obtain ⟨p1, p2, p3, p4⟩ := hst.pred e hm
    exact ⟨le_refl _, hst, p1, p2, p3, by simpa using p4, by simp⟩
  · rw [he] at hd ⊢
    have hc : CodesIn st.next (st.next + 1) st.next := ⟨by omega, by omega⟩
    have hbb' : ClauseBelow (st.next + 1) (OLit.plain body) := below_mono (by omega) hbb
    refine ⟨by simp, ⟨by simp only; omega, ?_, ?_, ?_⟩, hn, by simp, hd.ty _ hc, hd.args _ hc, ?_⟩
    · intro e hm
      dsimp only at hm ⊢
      have key : ∀ e ∈ st.store, 2 < e.2 ∧ e.2 < st.next + 1 ∧ x.sg.fty e.2 = x.sg.fty 1 ∧ x.sg.fargs e.2 = [] := fun e he => by
        have := hst.pred e he
        exact ⟨this.1, by omega, this.2.2⟩
      rcases hst' with rfl | ⟨rfl, rfl⟩
      · exact key e hm
      · rcases List.mem_append.1 hm with hm | hm
        · exact key e hm
        · simp only [List.mem_singleton] at hm
          subst hm
          exact ⟨hn, by simp, hd.ty _ hc, by simpa using hd.args _ hc⟩
    · intro e hm
      dsimp only at hm ⊢
      rcases hst' with rfl | ⟨rfl, rfl⟩
      · exact hst.wt e hm
      · rcases List.mem_append.1 hm with hm | hm
        · exact hst.wt e hm
        · simp only [List.mem_singleton] at hm
          subst hm
          exact plain_perm (hsrt body) hb
    · intro e hm
      dsimp only at hm ⊢
      rcases hst' with rfl | ⟨rfl, rfl⟩
      · exact below_mono (by omega) (hst.below e hm)
      · rcases List.mem_append.1 hm with hm | hm
        · exact below_mono (by omega) (hst.below e hm)
        · simp only [List.mem_singleton] at hm
          subst hm
          exact plain_perm (P := fun L => L.l.SymsBelow _ ∧ L.r.SymsBelow _) (hsrt body) hbb'
    · simp only [Option.toList_some, List.mem_singleton, forall_eq]
      constructor
      · intro L hL
        rcases List.mem_cons.1 hL with rfl | hL
        · exact defLit_wt hs (by omega) (by omega) (hd.ty _ hc) (hd.args _ hc) _
        · exact hb L hL
      · intro L hL
        rcases List.mem_cons.1 hL with rfl | hL
        · exact defLit_below (by omega) (by omega) (by omega) (by omega) _ _
        · exact hbb' L hL

/-- One definition: what the definition clause gives. -/
theorem define_holds (hsrt : ∀ l, (x.srt l).Perm l) {fresh : Bool} {sv : List Nat} {st : SplitSt} {body : List OLit}
    (hst : StInv x.sg st) (hb : x.sg.WTClause (OLit.plain body)) (I : Interp.{u} x.sg)
    (hS : ∀ e ∈ st.store, I.Models (storeClause e)) (hC : ∀ C ∈ (x.define fresh sv st body).1.clause.toList, I.Models C) :
    (∀ e ∈ (x.define fresh sv st body).2.store, I.Models (storeClause e)) ∧
    ∀ v, I.Sorted v → I.LitTrue v (defLit (x.define fresh sv st body).1.pred false sv) → I.ClauseTrue v (OLit.plain body) := by
  have hn := hst.next
  rcases define_cases (x := x) fresh sv st body with ⟨e, rfl, hv, he⟩ | ⟨store', hst', he⟩
  · rw [he]
    dsimp only
    refine ⟨hS, fun v hv' hl => ?_⟩
    obtain ⟨hm, hiff⟩ := variant_spec hv (plain_perm (hsrt body) hb) hst.wt
    obtain ⟨p1, -⟩ := hst.pred e hm
    rw [defLit_false (by omega) (by omega)] at hl
    have hmod : I.Models (OLit.plain e.1) := by
      intro w hw
      obtain ⟨L, hL, hLt⟩ := hS e hm w hw
      rcases List.mem_cons.1 hL with rfl | hL
      · rw [defLit_true (by omega) (by omega)] at hLt
        exact absurd hLt hl
      · exact ⟨L, hL, hLt⟩
    exact (models_perm (hsrt body) I).1 ((hiff I).1 hmod) v hv'
  · rw [he] at hC ⊢
    dsimp only at hC ⊢
    have hc := hC _ (by simp; rfl)
    constructor
    · intro e hm
      rcases hst' with rfl | ⟨rfl, rfl⟩
      · exact hS e hm
      · rcases List.mem_append.1 hm with hm | hm
        · exact hS e hm
        · simp only [List.mem_singleton] at hm
          subst hm
          intro v hv
          obtain ⟨L, hL, hLt⟩ := hc v hv
          refine ⟨L, ?_, hLt⟩
          rcases List.mem_cons.1 hL with rfl | hL
          · simp [storeClause]
          · obtain ⟨K, hK, rfl⟩ := List.mem_map.1 hL
            exact List.mem_cons_of_mem _ (List.mem_map.2 ⟨K, (hsrt body).mem_iff.2 hK, rfl⟩)
    · intro v hv hl
      obtain ⟨L, hL, hLt⟩ := hc v hv
      rw [defLit_false (by omega) (by omega)] at hl
      rcases List.mem_cons.1 hL with rfl | hL
      · rw [defLit_true (by omega) (by omega)] at hLt
        exact absurd hLt hl
      · exact ⟨L, hL, hLt⟩

/-- If the definition literal is true, an instance of the part with the same values of the split variables is false. -/
def DefEff (J : Interp.{u} sg) (p : Nat) (sv : List Nat) (body : List OLit) : Prop :=
  ∀ v, J.Sorted v → J.LitTrue v (defLit p true sv) →
    ∃ v', J.Sorted v' ∧ (∀ y ∈ sv, v' y = v y) ∧ ¬ J.ClauseTrue v' (OLit.plain body)

theorem DefEff.withPreds' {I : Interp.{u} sg} {new : Nat → Prop} (h : NewPreds sg new) (P : Nat → List I.D → Prop) {n : Nat}
    (hn : ∀ f, f < n → ¬ new f) {p : Nat} {sv : List Nat} {body : List OLit} (hp : 2 < p) (hpn : p < n)
    (hb : ClauseBelow n (OLit.plain body)) (hd : DefEff I p sv body) : DefEff (I.withPreds new h P) p sv body := by
  intro v hv hl
  have hl' : I.LitTrue v (defLit p true sv) :=
    (litTrue_withPreds I h P hn v (defLit_below (by omega) (by omega) (by omega) hpn _ _)).1 hl
  obtain ⟨v', h1, h2, h3⟩ := hd v hv hl'
  exact ⟨v', h1, h2, fun hc => h3 ((clauseTrue_withPreds I h P hn v' hb).1 hc)⟩

/-- One definition: the predicate can be interpreted so that the definition holds. -/
theorem define_model (hsrt : ∀ l, (x.srt l).Perm l) {fresh : Bool} {sv : List Nat} {st : SplitSt} {body : List OLit}
    (hst : StInv x.sg st) (hb : x.sg.WTClause (OLit.plain body)) (hbb : ClauseBelow st.next (OLit.plain body))
    (hnew : NewPreds x.sg (CodesIn st.next (x.define fresh sv st body).2.next)) (I : Interp.{u} x.sg) (hS : StoreTrue I st) :
    ∃ P, (∀ C ∈ (x.define fresh sv st body).1.clause.toList, (I.withPreds _ hnew P).Models C) ∧
      StoreTrue (I.withPreds _ hnew P) (x.define fresh sv st body).2 ∧
      DefEff (I.withPreds _ hnew P) (x.define fresh sv st body).1.pred sv body := by
  have hn := hst.next
  revert hnew
  rcases define_cases (x := x) fresh sv st body with ⟨e, rfl, hv, he⟩ | ⟨store', hst', he⟩
  · rw [he]
    dsimp only
    intro hnew
    refine ⟨fun _ _ => True, by simp, ?_⟩
    rw [withPreds_none I hnew _ (fun f hf => by have := hf.1; have := hf.2; omega)]
    refine ⟨hS, fun v hv' hl => ?_⟩
    obtain ⟨hm, hiff⟩ := variant_spec hv (plain_perm (hsrt body) hb) hst.wt
    obtain ⟨p1, -⟩ := hst.pred e hm
    rw [defLit_true (by omega) (by omega)] at hl
    have := (hS e hm).1 hl
    rw [hiff I, models_perm (hsrt body) I, Models] at this
    push Not at this
    obtain ⟨v', h1, h2⟩ := this
    exact ⟨v', h1, by simp, h2⟩
  · rw [he]
    dsimp only
    intro hnew
    have hc : CodesIn st.next (st.next + 1) st.next := ⟨by omega, by omega⟩
    have hlow : ∀ f, f < st.next → ¬ CodesIn st.next (st.next + 1) f := codesIn_below
    let P : Nat → List I.D → Prop := fun _ ds =>
      ∃ v, I.Sorted v ∧ sv.map v = ds ∧ ¬ I.ClauseTrue v (OLit.plain body)
    have hfn1 : (I.withPreds _ hnew P).fn 1 [] = I.fn 1 [] := if_neg hnew.notTrue
    have hfn : ∀ ds, (I.withPreds _ hnew P).fn st.next ds = (I.withPreds _ hnew P).fn 1 [] ↔ P st.next ds := by
      intro ds
      classical
      have h0 : (I.withPreds _ hnew P).fn st.next ds = if P st.next ds then I.fn 1 [] else I.fn 2 [] := by
        refine (if_pos hc).trans ?_
        congr
      rw [h0, hfn1]
      by_cases hp : P st.next ds
      · rw [if_pos hp]; exact ⟨fun _ => hp, fun _ => rfl⟩
      · simp only [hp, if_false, iff_false]
        exact I.tf.symm
    refine ⟨P, ?_, ?_, ?_⟩
    · simp only [Option.toList_some, List.mem_singleton, forall_eq]
      intro v hv
      by_cases hp : P st.next (sv.map v)
      · exact ⟨_, List.mem_cons_self, (defLit_true (by omega) (by omega) _ _ _).2 ((hfn _).2 hp)⟩
      · have : I.ClauseTrue v (OLit.plain body) := by
          by_contra hcon
          exact hp ⟨v, hv, rfl, hcon⟩
        obtain ⟨L, hL, hLt⟩ := (clauseTrue_withPreds I hnew P hlow v hbb).2 this
        exact ⟨L, List.mem_cons_of_mem _ hL, hLt⟩
    · have key : ∀ e ∈ st.store, ((I.withPreds _ hnew P).fn e.2 [] = (I.withPreds _ hnew P).fn 1 [] ↔
          ¬ (I.withPreds _ hnew P).Models (OLit.plain e.1)) := by
        intro e hm
        have h0 : (I.withPreds _ hnew P).fn e.2 [] = I.fn e.2 [] := if_neg (hlow _ (hst.pred e hm).2.1)
        rw [models_withPreds I hnew P hlow (hst.below e hm), ← hS e hm, h0, hfn1]
        exact Iff.rfl
      intro e hm
      dsimp only at hm
      rcases hst' with rfl | ⟨rfl, rfl⟩
      · exact key e hm
      · rcases List.mem_append.1 hm with hm | hm
        · exact key e hm
        · simp only [List.mem_singleton] at hm
          subst hm
          dsimp only
          refine (hfn _).trans ?_
          rw [models_perm (hsrt body), models_withPreds I hnew P hlow hbb, Models]
          push Not
          exact ⟨fun ⟨v, h1, _, h2⟩ => ⟨v, h1, h2⟩, fun ⟨v, h1, h2⟩ => ⟨v, h1, rfl, h2⟩⟩
    · intro v hv hl
      obtain ⟨v', h1, h2, h3⟩ := (hfn _).1 ((defLit_true (by omega) (by omega) _ _ _).1 hl)
      exact ⟨v', h1, fun y hy => List.map_inj_left.1 h2 y hy,
        fun hc => h3 ((clauseTrue_withPreds I hnew P hlow v' hbb).1 hc)⟩

/-! ## All parts -/

theorem _root_.Verif.DeclaredPreds.sub {a b c d : Nat} {sv : List Nat} (h : DeclaredPreds sg a b sv) (h1 : a ≤ c) (h2 : d ≤ b) :
    DeclaredPreds sg c d sv := by
  have hc : ∀ f, CodesIn c d f → CodesIn a b f := fun f hf => ⟨by have := hf.1; omega, by have := hf.2; omega⟩
  exact ⟨fun f hf => h.ty f (hc f hf), fun f hf => h.args f (hc f hf), fun f hf => h.notDistinct f (hc f hf)⟩

theorem define_next_le (fresh : Bool) (sv : List Nat) (st : SplitSt) (body : List OLit) :
    st.next ≤ (x.define fresh sv st body).2.next := by
  rcases define_cases (x := x) fresh sv st body with ⟨e, -, -, he⟩ | ⟨store', -, he⟩ <;> rw [he]
  simp

theorem defineAll_next_le (fresh : Bool) (sv : List Nat) (bs : List (List OLit)) (st : SplitSt) (join : List Lit) :
    st.next ≤ (x.defineAll fresh sv bs st join).2.2.next := by
  induction bs generalizing st join with
  | nil => simp [SplitCtx.defineAll]
  | cons body bs ih =>
    rw [SplitCtx.defineAll]
    exact (define_next_le fresh sv st body).trans (ih _ _)

theorem defineAll_inv (hs : SigOK x.sg) (hsrt : ∀ l, (x.srt l).Perm l) {fresh : Bool} {sv : List Nat} {bs : List (List OLit)}
    {st : SplitSt} {join : List Lit} (hst : StInv x.sg st) (hb : ∀ b ∈ bs, x.sg.WTClause (OLit.plain b))
    (hbb : ∀ b ∈ bs, ClauseBelow st.next (OLit.plain b)) (hj : x.sg.WTClause join ∧ ClauseBelow st.next join)
    (hd : DeclaredPreds x.sg st.next (x.defineAll fresh sv bs st join).2.2.next sv) :
    StInv x.sg (x.defineAll fresh sv bs st join).2.2 ∧
    ∀ C ∈ (x.defineAll fresh sv bs st join).2.1 :: (x.defineAll fresh sv bs st join).1,
      x.sg.WTClause C ∧ ClauseBelow (x.defineAll fresh sv bs st join).2.2.next C := by
  induction bs generalizing st join with
  | nil =>
    simp only [SplitCtx.defineAll, List.mem_singleton, forall_eq]
    exact ⟨hst, hj⟩
  | cons body bs ih =>
    rw [SplitCtx.defineAll] at hd ⊢
    dsimp only at hd ⊢
    have hle := defineAll_next_le (x := x) fresh sv bs (x.define fresh sv st body).2
      (defLit (x.define fresh sv st body).1.pred false sv :: join)
    obtain ⟨d1, d2, d3, d4, d5, d6, d7⟩ := define_inv (fresh := fresh) (sv := sv) hs hsrt hst (hb body (by simp)) (hbb body (by simp))
      (hd.sub (le_refl _) hle)
    obtain ⟨i1, i2⟩ := ih (st := (x.define fresh sv st body).2)
      (join := defLit (x.define fresh sv st body).1.pred false sv :: join) d2 (fun b hb' => hb b (by simp [hb']))
      (fun b hb' => below_mono d1 (hbb b (by simp [hb']))) (by
        constructor
        · intro L hL
          rcases List.mem_cons.1 hL with rfl | hL
          · exact defLit_wt hs (by omega) (by omega) d5 d6 _
          · exact hj.1 L hL
        · intro L hL
          rcases List.mem_cons.1 hL with rfl | hL
          · exact defLit_below (by omega) (by omega) d2.next d4 _ _
          · exact below_mono d1 hj.2 L hL) (hd.sub d1 (le_refl _))
    refine ⟨i1, fun C hC => ?_⟩
    rcases List.mem_cons.1 hC with rfl | hC
    · exact i2 _ (by simp)
    · rcases List.mem_append.1 hC with hC | hC
      · exact ⟨(d7 C hC).1, below_mono hle (d7 C hC).2⟩
      · exact i2 C (by simp [hC])

theorem defineAll_holds (hs : SigOK x.sg) (hsrt : ∀ l, (x.srt l).Perm l) {fresh : Bool} {sv : List Nat} {bs : List (List OLit)}
    {st : SplitSt} {join : List Lit} (hst : StInv x.sg st) (hb : ∀ b ∈ bs, x.sg.WTClause (OLit.plain b))
    (hbb : ∀ b ∈ bs, ClauseBelow st.next (OLit.plain b))
    (hd : DeclaredPreds x.sg st.next (x.defineAll fresh sv bs st join).2.2.next sv) (I : Interp.{u} x.sg)
    (hS : ∀ e ∈ st.store, I.Models (storeClause e)) (hC : ∀ C ∈ (x.defineAll fresh sv bs st join).1, I.Models C) :
    (∀ e ∈ (x.defineAll fresh sv bs st join).2.2.store, I.Models (storeClause e)) ∧
    ∀ v, I.Sorted v → I.ClauseTrue v (x.defineAll fresh sv bs st join).2.1 →
      I.ClauseTrue v join ∨ ∃ b ∈ bs, I.ClauseTrue v (OLit.plain b) := by
  induction bs generalizing st join with
  | nil => exact ⟨hS, fun v _ h => Or.inl h⟩
  | cons body bs ih =>
    rw [SplitCtx.defineAll] at hd hC ⊢
    dsimp only at hd hC ⊢
    have hle := defineAll_next_le (x := x) fresh sv bs (x.define fresh sv st body).2
      (defLit (x.define fresh sv st body).1.pred false sv :: join)
    obtain ⟨d1, d2, -⟩ := define_inv (fresh := fresh) (sv := sv) hs hsrt hst (hb body (by simp)) (hbb body (by simp))
      (hd.sub (le_refl _) hle)
    obtain ⟨e1, e2⟩ := define_holds (fresh := fresh) (sv := sv) hsrt hst (hb body (by simp)) I hS
      (fun C h => hC C (List.mem_append_left _ h))
    obtain ⟨i1, i2⟩ := ih d2 (fun b hb' => hb b (by simp [hb'])) (fun b hb' => below_mono d1 (hbb b (by simp [hb'])))
      (hd.sub d1 (le_refl _)) e1 (fun C h => hC C (List.mem_append_right _ h))
    refine ⟨i1, fun v hv ht => ?_⟩
    rcases i2 v hv ht with ⟨L, hL, hLt⟩ | ⟨b, hb', hbt⟩
    · rcases List.mem_cons.1 hL with rfl | hL
      · exact Or.inr ⟨body, by simp, e2 v hv hLt⟩
      · exact Or.inl ⟨L, hL, hLt⟩
    · exact Or.inr ⟨b, by simp [hb'], hbt⟩

theorem defineAll_model (hs : SigOK x.sg) (hsrt : ∀ l, (x.srt l).Perm l) {fresh : Bool} {sv : List Nat} {bs : List (List OLit)}
    {st : SplitSt} {join : List Lit} (hst : StInv x.sg st) (hb : ∀ b ∈ bs, x.sg.WTClause (OLit.plain b))
    (hbb : ∀ b ∈ bs, ClauseBelow st.next (OLit.plain b))
    (hd : DeclaredPreds x.sg st.next (x.defineAll fresh sv bs st join).2.2.next sv)
    (hnew : NewPreds x.sg (CodesIn st.next (x.defineAll fresh sv bs st join).2.2.next)) (I : Interp.{u} x.sg)
    (hS : StoreTrue I st) :
    ∃ P, (∀ C ∈ (x.defineAll fresh sv bs st join).1, (I.withPreds _ hnew P).Models C) ∧
      StoreTrue (I.withPreds _ hnew P) (x.defineAll fresh sv bs st join).2.2 ∧
      (∀ L ∈ join, L ∈ (x.defineAll fresh sv bs st join).2.1) ∧
      ∀ b ∈ bs, ∃ p, 2 < p ∧ defLit p false sv ∈ (x.defineAll fresh sv bs st join).2.1 ∧ DefEff (I.withPreds _ hnew P) p sv b := by
  induction bs generalizing st join I with
  | nil =>
    refine ⟨fun _ _ => True, by simp [SplitCtx.defineAll], ?_⟩
    rw [withPreds_none I hnew _ (fun f hf => by have := hf.1; have := hf.2; simp [SplitCtx.defineAll] at *; omega)]
    exact ⟨hS, by simp [SplitCtx.defineAll], by simp⟩
  | cons body bs ih =>
    revert hnew
    rw [SplitCtx.defineAll] at hd ⊢
    dsimp only at hd ⊢
    intro hnew
    have hle := defineAll_next_le (x := x) fresh sv bs (x.define fresh sv st body).2
      (defLit (x.define fresh sv st body).1.pred false sv :: join)
    obtain ⟨d1, d2, d3, d4, -, -, d7⟩ := define_inv (fresh := fresh) (sv := sv) hs hsrt hst (hb body (by simp)) (hbb body (by simp))
      (hd.sub (le_refl _) hle)
    have hn1 : NewPreds x.sg (CodesIn st.next (x.define fresh sv st body).2.next) :=
      NewPreds.sub hnew fun f hf => ⟨hf.1, by have := hf.2; omega⟩
    have hn2 : NewPreds x.sg (CodesIn (x.define fresh sv st body).2.next _) :=
      NewPreds.sub hnew fun f hf => ⟨by have := hf.1; omega, hf.2⟩
    obtain ⟨P, m1, m2, m3⟩ := define_model (fresh := fresh) (sv := sv) hsrt hst (hb body (by simp)) (hbb body (by simp)) hn1 I hS
    obtain ⟨Q, j1, j2, j3, j4⟩ := ih d2 (fun b hb' => hb b (by simp [hb'])) (fun b hb' => below_mono d1 (hbb b (by simp [hb'])))
      (hd.sub d1 (le_refl _)) hn2 (I.withPreds _ hn1 P) m2
    have hlow : ∀ f, f < (x.define fresh sv st body).2.next → ¬ CodesIn (x.define fresh sv st body).2.next
      (x.defineAll fresh sv bs (x.define fresh sv st body).2
        (defLit (x.define fresh sv st body).1.pred false sv :: join)).2.2.next f := codesIn_below
    have m1' := fun C hC => (models_withPreds (I.withPreds _ hn1 P) hn2 Q hlow (d7 C hC).2).2 (m1 C hC)
    have m3' := DefEff.withPreds' hn2 Q hlow d3 d4 (below_mono d1 (hbb body (by simp))) m3
    have hcomp := withPreds_comp I d1 hle hn1 hn2 hnew P Q
    rw [hcomp] at j1 j2 j4 m3' m1'
    refine ⟨_, fun C hC => ?_, j2, fun L hL => j3 L (by simp [hL]), fun b hb' => ?_⟩
    · rcases List.mem_append.1 hC with hC | hC
      · exact m1' C hC
      · exact j1 C hC
    · rcases List.mem_cons.1 hb' with rfl | hb'
      · exact ⟨_, d3, j3 _ (by simp), m3'⟩
      · exact j4 b hb'

end Verif.SplitProof
