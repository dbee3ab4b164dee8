import Verif.Terms.SortsProof

/-!
# Well-sorted problems are read
-/

namespace Verif
namespace Sorts

/-- Symbols not known yet are predicates or have the default sort. -/
def Adm (dflt : Nat → Nat) (I : Infos) (τ : Typing) : Prop := ∀ k ty, I k = none → τ k = some ty → Default dflt k ty

theorem Adm.mono {dflt : Nat → Nat} {I J : Infos} {τ : Typing} (h : Adm dflt I τ) (hle : Le I J) : Adm dflt J τ := by
  intro k ty hk ht
  refine h k ty ?_ ht
  cases hi : I k with
  | none => rfl
  | some i => rw [hle _ _ hi] at hk; cases hk

theorem tle_updI {I : Infos} {τ : Typing} {k : Sym} {ty : FTy} {b : Bool} (h : TLe (typesI I) τ) (hk : τ k = some ty) :
    TLe (typesI (updI I k ⟨some ty, b⟩)) τ := by
  intro j ty' hj
  by_cases he : j = k
  · subst he; simp only [typesI, updI_at, Option.bind_some] at hj; cases hj; exact hk
  · refine h j ty' ?_
    simpa only [typesI, updI_ne he] using hj

theorem top_complete {dflt : Nat → Nat} {I I0 : Infos} {τ : Typing} {t : PTm} {S1 : SigS} {c : STm} {s : Nat} (h : TermRes dflt I t S1 c I0)
    (hf : TLe (typesI I0) τ) (ha : Adm dflt I τ) (ht : sortOf τ t = some s) (h0 : s ≠ 0) :
    c.ty = s ∧ TLe (typesI (fixTop S1 c).info) τ := by
  cases t with
  | var x r =>
    obtain ⟨_, _, h3, rfl⟩ := h
    rw [sortOf] at ht
    cases ht
    exact ⟨rfl, by simp only [fixTop, h3]; exact hf⟩
  | fn f as =>
    obtain ⟨_, h2, ss, r, h3, rfl, h4⟩ := h
    obtain ⟨ss', k1, k2⟩ := sortOf_fn ht
    have := ((sort_mono hf).2 as ss h3).1
    rw [k1] at this
    cases this
    simp only [fixTop, annots_length h3]
    rcases h4 with ⟨h4, h5⟩ | ⟨h4, h5, rfl⟩
    · have hk : S1.info (f, ss.length) = some ⟨some ⟨ss, r⟩, true⟩ := by rw [h4]; exact h5
      have := hf (f, ss.length) ⟨ss, r⟩ (by simp [typesI, h5])
      rw [k2] at this
      cases this
      exact ⟨rfl, by rw [fixType_self hk, h4]; exact hf⟩
    · have hk : S1.info (f, ss.length) = some ⟨some ⟨ss, dflt f⟩, false⟩ := by rw [h5]; exact updI_at _ _ _
      have hs : s = dflt f := ((ha.mono h2) _ _ h4 k2).resolve_right h0
      subst hs
      exact ⟨rfl, by rw [fixType_info hk, h5, updI_updI]; exact tle_updI hf k2⟩

theorem readTerm_complete {dflt : Nat → Nat} (hd : ∀ f, dflt f ≠ 0) {τ : Typing} (hN : ∀ k ty, τ k = some ty → 0 ∉ ty.args) (t : PTm) :
    ∀ {S : SigS} {s : Nat}, Inv S.info → TLe (typesI S.info) τ → Adm dflt S.info τ → sortOf τ t = some s →
      ∃ S1 c I0, readTerm dflt S t = .ok (S1, c) ∧ TermRes dflt S.info t S1 c I0 ∧ TLe (typesI I0) τ := by
  induction t using PTm.rec (motive_2 := fun as => ∀ {S : SigS} {tys ss : List Nat}, Inv S.info → TLe (typesI S.info) τ → Adm dflt S.info τ →
      0 ∉ tys → sortsOf τ as = some ss → ∃ S1 cs, readArgs dflt S tys as = .ok (S1, cs) ∧ Inv S1.info ∧ Le S.info S1.info ∧ TLe (typesI S1.info) τ ∧
        sortsOf (typesI S1.info) as = some ss ∧ cs = annots (typesI S1.info) as) with
  | var x s =>
    intro S r hI hf _ _
    exact ⟨S, .var x s, S.info, rfl, ⟨hI, .refl _, rfl, rfl⟩, hf⟩
  | fn f as ih =>
    intro S s hI hf ha ht
    obtain ⟨ss, k1, k2⟩ := sortOf_fn ht
    have hraw : 0 ∉ rawArgs S f := by
      unfold rawArgs
      split
      · rename_i ty hty
        obtain ⟨n, _, hn⟩ := Option.bind_eq_some_iff.1 hty
        exact hN _ _ (hf (f, n) ty hn)
      · simp
    obtain ⟨S', cs, e1, e2, e3, e4, e5, rfl⟩ := ih hI hf ha hraw k1
    rcases inferSort_insert (dflt := dflt) (f := f) (as := ss) e2 with ⟨ty, g1, ⟨g2, S2, g3, g4⟩ | ⟨g2, _⟩⟩ | ⟨g1, S2, g3, g4⟩
    · subst g2
      refine ⟨S2, .fn f (annots (typesI S'.info) as) ty.ret, S'.info, ?_, ⟨e2, e3, ty.args, ty.ret, e5, rfl, .inl ⟨g4, g1⟩⟩, e4⟩
      rw [readTerm, e1]
      simp only [annots_ty as e5, annots_length e5, g3]
    · have := e4 (f, ss.length) ty (by simp [typesI, g1])
      rw [k2] at this
      cases this
      exact absurd rfl g2
    · refine ⟨S2, .fn f (annots (typesI S'.info) as) (dflt f), S'.info, ?_, ⟨e2, e3, ss, dflt f, e5, rfl, .inr ⟨g1, g4, rfl⟩⟩, e4⟩
      rw [readTerm, e1]
      simp only [annots_ty as e5, annots_length e5, g3]
  | nil =>
    rename_i S tys ss hI hf ha h0 hs
    rw [sortsOf] at hs
    cases hs
    exact ⟨S, [], rfl, hI, .refl _, hf, rfl, rfl⟩
  | cons a as ih1 ih2 =>
    rename_i S tys ss hI hf ha h0 hs
    obtain ⟨s, rs, rfl, n0, k1, k2⟩ := sortsOf_cons hs
    obtain ⟨S1, c, I0, e1, e2, e3⟩ := ih1 hI hf ha k1
    obtain ⟨c1, c2⟩ := top_complete e2 e3 ha k1 n0
    obtain ⟨S2, g1, ⟨d1, d2, d3, d4⟩, g3⟩ := (subFix_done hd e2).1 (by rw [c1]; exact n0)
    rw [← g3] at c2
    obtain ⟨S3, cs, q1, q2, q3, q4, q5, q6⟩ := ih2 (S := S2) (tys := tys.tail) d1 c2 (ha.mono d2) (fun h => h0 (List.mem_of_mem_tail h)) k2
    obtain ⟨m1, m2⟩ := (sort_mono q3.types).1 a _ d3
    refine ⟨S3, c :: cs, ?_, q2, d2.trans q3, q4, ?_, by rw [annots, m2, ← d4, q6]⟩
    · have hh : tys.head? ≠ some 0 := fun h => h0 (List.mem_of_mem_head? h)
      rw [readArgs, if_neg hh, e1]
      simp only [g1, q1]
    · rw [c1] at m1
      exact sortsOf_cons' n0 m1 q5

theorem ty_fn (f : Nat) (as : List STm) (q : Nat) : (STm.fn f as q).ty = q := rfl

theorem readLit_complete {dflt : Nat → Nat} (hd : ∀ f, dflt f ≠ 0) {τ : Typing} (hN : ∀ k ty, τ k = some ty → 0 ∉ ty.args) {S : SigS} {l : PLit}
    (hI : Inv S.info) (hf : TLe (typesI S.info) τ) (ha : Adm dflt S.info τ) (hl : LitOK τ l) :
    ∃ S2 c, readLit dflt S l = .ok (S2, c) ∧ TLe (typesI S2.info) τ := by
  cases l with
  | atom t =>
    have hl : sortOf τ t = some 0 := hl
    obtain ⟨S1, c, I0, e1, e2, e3⟩ := readTerm_complete hd hN t hI hf ha hl
    cases t with
    | var x s => rw [sortOf] at hl; cases hl
    | fn f as =>
      obtain ⟨ss', k1, k2⟩ := sortOf_fn hl
      obtain ⟨h1, h2, ss, r, h3, rfl, h4⟩ := e2
      have := ((sort_mono e3).2 as ss h3).1
      rw [k1] at this
      cases this
      rcases h4 with ⟨h4, h5⟩ | ⟨h4, h5, rfl⟩
      · have hk : S1.info (f, ss'.length) = some ⟨some ⟨ss', r⟩, true⟩ := by rw [h4]; exact h5
        have := e3 (f, ss'.length) ⟨ss', r⟩ (by simp [typesI, h5])
        rw [k2] at this
        cases this
        refine ⟨S1, (.fn f (annots (typesI I0) as) 0, none), ?_, by rw [h4]; exact e3⟩
        rw [readLit, e1]
        simp only [annots_length h3, isPredicate_of hk, isFixed_of hk, beq_self_eq_true, Bool.and_true, if_true, eqnAlloc, declarePred_pred hk rfl, fixType_self hk,
          ne_eq, not_true_eq_false, if_false]
      · have hk : S1.info (f, ss'.length) = some ⟨some ⟨ss', dflt f⟩, false⟩ := by rw [h5]; exact updI_at _ _ _
        obtain ⟨S2, g1, g2⟩ := declarePred_new hk (hd f)
        have g3 : S2.info = updI I0 (f, ss'.length) ⟨some ⟨ss', 0⟩, true⟩ := by rw [g2, h5, updI_updI]
        have g4 : S2.info (f, ss'.length) = some ⟨some ⟨ss', 0⟩, true⟩ := by rw [g3]; exact updI_at _ _ _
        refine ⟨S2, (.fn f (annots (typesI I0) as) 0, none), ?_, by rw [g3]; exact tle_updI e3 k2⟩
        rw [readLit, e1]
        simp only [annots_length h3, isPredicate_of hk, isFixed_of hk, isFunction_of hk, Bool.and_false, Bool.false_and, Bool.false_eq_true, if_false, or_true, if_true,
          g1, setTop, eqnAlloc, declarePred_pred g4 rfl, fixType_self g4, ne_eq, not_true_eq_false]
  | eqn l r =>
    obtain ⟨s, n0, hl1, hr1⟩ := hl
    obtain ⟨S1, cl, I0, e1, e2, e3⟩ := readTerm_complete hd hN l hI hf ha hl1
    obtain ⟨cl1, cl2⟩ := top_complete e2 e3 ha hl1 n0
    -- the right-hand side
    have right : ∀ {S' : SigS}, Inv S'.info → TLe (typesI S'.info) τ → Adm dflt S'.info τ → ∃ S2 cr S3 I1, readTerm dflt S' r = .ok (S2, cr) ∧
        TermRes dflt S'.info r S2 cr I1 ∧ declareNotPred dflt S2 cr = .ok (S3, cr) ∧ cr.ty = s ∧ TLe (typesI S3.info) τ := by
      intro S' hI' hf' ha'
      obtain ⟨S2, cr, I1, g1, g2, g3⟩ := readTerm_complete hd hN r hI' hf' ha' hr1
      obtain ⟨c1, c2⟩ := top_complete g2 g3 ha' hr1 n0
      obtain ⟨S3, q1, _, q3⟩ := declareNotPred_done g2
      exact ⟨S2, cr, S3, I1, g1, g2, q1, c1, by rw [q3]; exact c2⟩
    cases l with
    | var x q =>
      obtain ⟨h1, h2, h3, rfl⟩ := e2
      subst h3
      obtain ⟨S2, cr, S3, I1, g1, _, g3, g4, g5⟩ := right h1 e3 (ha.mono h2)
      refine ⟨S3, (.var x q, some cr), ?_, g5⟩
      rw [readLit, e1]
      simp only [g1, g3, eqnAlloc, g4, cl1, ne_eq, not_true_eq_false, if_false]
    | fn f as =>
      have e2' := e2
      obtain ⟨h1, h2, ss, q, h3, rfl, h4⟩ := e2
      have cq : q = s := cl1
      subst cq
      simp only [fixTop, annots_length h3] at cl2
      rcases h4 with ⟨h4, h5⟩ | ⟨h4, h5, rfl⟩
      · have hk : S1.info (f, ss.length) = some ⟨some ⟨ss, q⟩, true⟩ := by rw [h4]; exact h5
        obtain ⟨S2, cr, S3, I1, g1, _, g3, g4, g5⟩ := right (S' := S1) (by rw [h4]; exact h1) (by rw [h4]; exact e3) (by rw [h4]; exact ha.mono h2)
        refine ⟨S3, (.fn f (annots (typesI I0) as) q, some cr), ?_, g5⟩
        rw [readLit, e1]
        simp only [annots_length h3, isPredicate_of hk, isFixed_of hk, isFunction_of hk, Bool.and_true, Bool.true_and, beq_iff_eq, n0, if_false, bne_iff_ne, ne_eq,
          not_false_eq_true, if_true, g1, g3, eqnAlloc, g4, ty_fn, not_true_eq_false]
      · have hk : S1.info (f, ss.length) = some ⟨some ⟨ss, dflt f⟩, false⟩ := by rw [h5]; exact updI_at _ _ _
        obtain ⟨S2, q1, ⟨d1, d2, _, _⟩, q3⟩ := declareNotPred_done e2'
        simp only [fixTop, annots_length h3] at q3
        obtain ⟨S3, cr, S4, I1, g1, g2, g3, g4, g5⟩ := right d1 (by rw [q3]; exact cl2) (ha.mono d2)
        have hk2 : S2.info (f, ss.length) = some ⟨some ⟨ss, dflt f⟩, true⟩ := by
          rw [q3, fixType_info hk]; exact updI_at _ _ _
        have hk3 := termRes_keeps g2 hk2
        have e4 : declareNotPred dflt S3 (.fn f (annots (typesI I0) as) (dflt f)) = .ok (S3, .fn f (annots (typesI I0) as) (dflt f)) := by
          simp only [declareNotPred, annots_ty as h3, inferSort_of hk3, annots_length h3, declareFun_of hk3, fixType_self hk3]
        refine ⟨S4, (.fn f (annots (typesI I0) as) (dflt f), some cr), ?_, g5⟩
        rw [readLit, e1]
        simp only [annots_length h3, isPredicate_of hk, isFixed_of hk, isFunction_of hk, Bool.and_false, Bool.false_and, Bool.false_eq_true, if_false, ne_eq, hd f,
          not_false_eq_true, if_true, q1, g1, e4, g3, eqnAlloc, g4, ty_fn, not_true_eq_false]

theorem readDecls_complete {dflt : Nat → Nat} {τ : Typing} (is : List Item) (ds : List (Nat × FTy)) : ∀ {S : SigS}, Inv S.info → TLe (typesI S.info) τ →
    (∀ d ∈ ds, τ (d.1, d.2.args.length) = some d.2) → ∃ S', readItems dflt S (ds.map (fun d => Item.decl d.1 d.2) ++ is) = readItems dflt S' is ∧
      Inv S'.info ∧ TLe (typesI S'.info) τ ∧ Le S.info S'.info ∧ ∀ d ∈ ds, S'.info (d.1, d.2.args.length) = some ⟨some d.2, true⟩ := by
  induction ds with
  | nil => intro S hI hf _; exact ⟨S, rfl, hI, hf, .refl _, by simp⟩
  | cons d ds ih =>
    intro S hI hf hd
    have hk := hd d List.mem_cons_self
    rcases readDecl_spec (f := d.1) (ty := d.2) hI with ⟨S1, e1, e2, e3, e4, e5⟩ | ⟨⟨old, h1, h2⟩, _⟩
    · have hf1 : TLe (typesI S1.info) τ := by
        intro k ty hty
        by_cases he : k = (d.1, d.2.args.length)
        · subst he
          simp only [typesI, e4, Option.bind_some] at hty
          cases hty
          exact hk
        · exact hf k ty (by simpa only [typesI, e5 k he] using hty)
      obtain ⟨S', g1, g2, g3, g4, g5⟩ := ih e2 hf1 (fun d' h => hd d' (List.mem_cons_of_mem _ h))
      refine ⟨S', ?_, g2, g3, e3.trans g4, ?_⟩
      · simp only [List.map_cons, List.cons_append, readItems, e1]
        exact g1
      · intro d' h
        rcases List.mem_cons.1 h with rfl | h
        · exact g4 _ _ e4
        · exact g5 d' h
    · have := hf _ _ h2
      rw [hk] at this
      cases this
      exact absurd rfl h1

theorem readLits_complete {dflt : Nat → Nat} (hd : ∀ f, dflt f ≠ 0) {τ : Typing} (hN : ∀ k ty, τ k = some ty → 0 ∉ ty.args) (ls : List PLit) :
    ∀ {S : SigS}, Inv S.info → TLe (typesI S.info) τ → Adm dflt S.info τ → (∀ l ∈ ls, LitOK τ l) →
      ∃ S' cs, readItems dflt S (ls.map Item.lit) = .ok (S', cs) ∧ TLe (typesI S'.info) τ := by
  induction ls with
  | nil => intro S hI hf _ _; exact ⟨S, [], rfl, hf⟩
  | cons l ls ih =>
    intro S hI hf ha hl
    obtain ⟨S1, c, e1, e2⟩ := readLit_complete hd hN hI hf ha (hl l List.mem_cons_self)
    obtain ⟨d1, d2, _, _⟩ := readLit_sound hd hI e1
    obtain ⟨S2, cs, g1, g2⟩ := ih d1 e2 (ha.mono d2) (fun l' h => hl l' (List.mem_cons_of_mem _ h))
    refine ⟨S2, c :: cs, ?_, g2⟩
    simp only [List.map_cons, readItems, e1, g1]

theorem litsOf_map (ds : List (Nat × FTy)) (ls : List PLit) :
    litsOf (ds.map (fun d => Item.decl d.1 d.2) ++ ls.map Item.lit) = ls := by
  induction ds with
  | nil =>
    induction ls with
    | nil => rfl
    | cons l ls ih => simp only [List.map_nil, List.nil_append] at ih; simp only [List.map_nil, List.nil_append, List.map_cons, litsOf, ih]
  | cons d ds ih => simpa only [List.map_cons, List.cons_append, litsOf] using ih

theorem inv_sig0 : Inv sig0.info := by intro k i h; cases h

theorem readItems_complete {dflt : Nat → Nat} (hd : ∀ f, dflt f ≠ 0) {τ : Typing} (hN : ∀ k ty, τ k = some ty → 0 ∉ ty.args) (ds : List (Nat × FTy))
    (ls : List PLit) (h1 : ∀ d ∈ ds, τ (d.1, d.2.args.length) = some d.2)
    (h2 : ∀ k ty, τ k = some ty → (∀ d ∈ ds, (d.1, d.2.args.length) ≠ k) → Default dflt k ty) (h3 : ∀ l ∈ ls, LitOK τ l) :
    ∃ S, readItems dflt sig0 (ds.map (fun d => Item.decl d.1 d.2) ++ ls.map Item.lit) = .ok (S, ls.map (annotLit τ)) ∧
      TLe (typesI S.info) τ := by
  obtain ⟨S1, e1, e2, e3, _, e5⟩ := readDecls_complete (dflt := dflt) (ls.map Item.lit) ds (S := sig0) inv_sig0 (by intro k ty h; cases h) h1
  obtain ⟨S2, cs, g1, g2⟩ := readLits_complete hd hN ls (S := S1) e2 e3 (by
    intro k ty hk ht
    refine h2 k ty ht fun d hd he => ?_
    rw [← he, e5 d hd] at hk
    cases hk) h3
  have g0 := e1.trans g1
  obtain ⟨_, _, q3, q4, _⟩ := readItems_sound hd _ inv_sig0 g0
  rw [litsOf_map] at q3 q4
  refine ⟨S2, ?_, g2⟩
  rw [g0, q4]
  congr 2
  refine List.map_congr_left fun l hl => ?_
  exact ((q3 l hl).mono g2).2.symm

end Sorts
end Verif
