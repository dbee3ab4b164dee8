import Verif.Clauses.BceProof
import Verif.Props.Inst

/-!
# Blocked clause elimination: the two tests
-/

namespace Verif.BceProof
open SemProof Props CNFProof SaturateProof Term

universe u

variable {sg : Sig}

/-! ## With equality -/

theorem mem_zipWith_get {α β γ : Type} (f : α → β → γ) : ∀ (as : List α) (bs : List β) (c : γ), c ∈ List.zipWith f as bs →
    ∃ (i : Nat) (a : α) (b : β), as[i]? = some a ∧ bs[i]? = some b ∧ c = f a b
  | [], _, c, h => by simp at h
  | _ :: _, [], c, h => by simp at h
  | a :: as, b :: bs, c, h => by
    rcases List.mem_cons.1 h with rfl | h
    · exact ⟨0, a, b, rfl, rfl, rfl⟩
    · obtain ⟨i, a', b', h1, h2, h3⟩ := mem_zipWith_get f as bs c h
      exact ⟨i + 1, a', b', h1, h2, h3⟩

theorem checkEq_nobad (hsg : SigOK sg) (hF : FOSig sg) (ha : AltTyped sg) (I : Interp.{u} sg) {p : Nat} (hp : PredOK sg p) {pol : Bool}
    {taut : List Lit → Bool} (htaut : ∀ X, taut X = true → Valid.{u} sg X) {C D : List Lit} (hC : ∀ K ∈ C, FOLit sg K) (hD : ∀ K ∈ D, FOLit sg K)
    (heC : EvenVars C) (heD : EvenVars D) {j : Nat} {ts : List Term} (hj : C[j]? = some ⟨pol, .app p ts, tTrue⟩) (h : checkEq taut (copyDisjoint C) j D = true)
    (S : Set (List I.D)) (v w : Nat → I.D) (hv : I.Sorted v) (hw : I.Sorted w) (hf : ¬ (flipI hsg hF I hp pol S).ClauseTrue v C)
    (ht : (flipI hsg hF I hp pol S).ClauseTrue w D) : ∃ K ∈ D, (flipI hsg hF I hp pol S).LitTrue w K ∧ ¬ Opp I p pol w (ts.map (I.eval v)) K := by
  obtain ⟨N, hN, hNt⟩ := ht
  by_cases hO : Opp I p pol w (ts.map (I.eval v)) N
  swap
  · exact ⟨N, hN, hNt, hO⟩
  obtain ⟨us, rfl, hus⟩ := hO
  have hcopy := copy_eq hC
  have hj' : (copyDisjoint C)[j]? = some ⟨pol, .app p (ts.map (Term.subst fun x => .var (x - 1))), tTrue⟩ := by
    rw [hcopy, csubst, List.getElem?_map, hj]
    simp [Lit.subst, subst_app, tTrue]
  have hwc := (copyDisjoint_ok.{u} hsg ha (fun K hK => (hC K hK).wt) heC).1
  have hLmem : (⟨pol, .app p ts, tTrue⟩ : Lit) ∈ C := List.mem_of_getElem? hj
  have hz : (flipI hsg hF I hp pol S).Sorted (joinV v w) := join_sorted ha (flipI hsg hF I hp pol S) hv hw
  unfold checkEq at h
  rw [hj'] at h
  simp only [List.all_eq_true, List.mem_reverse, List.mem_filter] at h
  obtain ⟨K, hK, hKt⟩ := htaut _ (h ⟨!pol, .app p us, tTrue⟩ ⟨hN, by simp [oppHead, Lit.equ, Term.code]⟩) (flipI hsg hF I hp pol S) (joinV v w)
  unfold blockClause at hK
  rw [List.mem_append, List.mem_append, List.mem_reverse, List.mem_map, List.mem_map] at hK
  rcases hK with (hK | ⟨K', hK', rfl⟩) | ⟨K', hK', rfl⟩
  · obtain ⟨i, a, b, h1, h2, rfl⟩ := mem_zipWith_get _ _ _ _ hK
    simp only [Term.argList] at h1 h2
    rw [List.getElem?_map] at h2
    cases h3 : ts[i]? with
    | none => rw [h3] at h2; cases h2
    | some b0 =>
      rw [h3] at h2
      cases h2
      have hwN := (hD _ hN).wt.1
      have hwL := (hC _ hLmem).wt.1
      have hwL' := (hwc _ (List.mem_of_getElem? hj')).1
      have ha1 := List.mem_of_getElem? h1
      have hb1 := List.mem_of_getElem? h3
      have hb2 : b0.subst (fun x => .var (x - 1)) ∈ ts.map (Term.subst fun x => .var (x - 1)) := List.mem_map_of_mem hb1
      have hty : sg.ty a = sg.ty (b0.subst fun x => .var (x - 1)) := by
        have e1 := (Sig.wt_app.1 hwN).1
        have e2 := (Sig.wt_app.1 hwL').1
        have := congrArg (fun l => l[i]?) (e1.trans e2.symm)
        simp [h1, h3] at this
        exact this
      rw [mkEqn_true hsg (flipI hsg hF I hp pol S) hz ⟨(Sig.wt_app.1 hwN).2 a ha1, (Sig.wt_app.1 hwL').2 _ hb2, hty⟩] at hKt
      refine absurd ?_ (show (flipI hsg hF I hp pol S).eval (joinV v w) a ≠ (flipI hsg hF I hp pol S).eval (joinV v w) _ from hKt)
      have ev1 : ∀ x ∈ a.vars, x % 2 = 0 := fun x hx => (even_of heD hN x (by simp [Lit.vars, vars]; exact .inl ⟨a, ha1, hx⟩)).1
      have ev2 : ∀ x ∈ b0.vars, x % 2 = 0 ∧ 0 < x := fun x hx => even_of heC hLmem x (by simp [Lit.vars, vars]; exact .inl ⟨b0, hb1, hx⟩)
      refine (eval_join_even (flipI hsg hF I hp pol S) v w ev1).trans (.trans ?_ (eval_join_copy (flipI hsg hF I hp pol S) v w ev2).symm)
      rw [eval_flip hsg hF I hp pol S w a ((Sig.wt_app.1 hwN).2 a ha1) (arg_ty hF hwN ha1),
        eval_flip hsg hF I hp pol S v b0 ((Sig.wt_app.1 hwL).2 b0 hb1) (arg_ty hF hwL hb1)]
      have := congrArg (fun l => l[i]?) hus
      simp [h1, h3] at this
      exact this
  · refine absurd ?_ hf
    have hm := List.mem_of_mem_eraseIdx hK'
    have hnf : K'.NF := by
      obtain ⟨K0, _, rfl⟩ := List.mem_map.1 hm
      exact LitProof.mkEqn_nf _ _ _
    rw [LitProof.mkEqn_of_nf hnf] at hKt
    rw [hcopy] at hm
    obtain ⟨K0, hK0, rfl⟩ := List.mem_map.1 hm
    exact ⟨K0, hK0, (lit_join_copy (flipI hsg hF I hp pol S) v w (even_of heC hK0)).1 hKt⟩
  · rw [List.mem_reverse, List.mem_filter] at hK'
    rw [LitProof.mkEqn_of_nf (hD _ hK'.1).nf] at hKt
    refine ⟨K', hK'.1, (lit_join_even (flipI hsg hF I hp pol S) v w fun x hx => (even_of heD hK'.1 x hx).1).1 hKt, ?_⟩
    rintro ⟨us', rfl, _⟩
    simp [oppHead, Lit.equ, Term.code] at hK'

/-! ## Without equality: the term model -/

open Classical in
/-- The interpretation by terms with the atoms true under `v` in `I`. -/
noncomputable def termModel (hsg : SigOK sg) (hF : FOSig sg) (hV : ∀ ty, ty ≠ sg.fty 1 → ∃ x, sg.vty x = ty) (I : Interp.{u} sg) (v : Nat → I.D) : Interp.{u} sg where
  D := ULift.{u} Term
  mem ty d := if ty = sg.fty 1 then d.down = tTrue ∨ d.down = tFalse else sg.WT d.down ∧ sg.ty d.down = ty
  inhab ty := by
    by_cases h : ty = sg.fty 1
    · exact ⟨⟨tTrue⟩, by rw [if_pos h]; exact .inl rfl⟩
    · obtain ⟨x, hx⟩ := hV ty h
      exact ⟨⟨.var x⟩, by rw [if_neg h]; exact ⟨by simp [Sig.WT], hx⟩⟩
  fn f ds := if sg.fty f = sg.fty 1 then (if I.eval v (.app f (ds.map ULift.down)) = I.fn 1 [] then ⟨tTrue⟩ else ⟨tFalse⟩) else ⟨.app f (ds.map ULift.down)⟩
  fn_mem f ds hds := by
    by_cases h : sg.fty f = sg.fty 1
    · rw [if_pos h, if_pos h]
      split
      · exact .inl rfl
      · exact .inr rfl
    · rw [if_neg h, if_neg h]
      refine ⟨?_, rfl⟩
      rw [Sig.wt_app]
      have hargs := hF.args f
      clear h
      revert hargs hds
      generalize sg.fargs f = as
      intro hds
      induction hds with
      | nil => intro _; simp
      | cons hab _ ih =>
        intro hargs
        rw [List.mem_cons, not_or] at hargs
        rw [if_neg (Ne.symm hargs.1)] at hab
        obtain ⟨h1, h2⟩ := ih hargs.2
        simp only [List.map_cons]
        refine ⟨by rw [hab.2, h1], fun t ht => ?_⟩
        rcases List.mem_cons.1 ht with rfl | ht
        · exact hab.1
        · exact h2 t ht
  tf := by
    have e1 : I.eval v (.app 1 []) = I.fn 1 [] := eval_true I v
    have e2 : I.eval v (.app 2 []) ≠ I.fn 1 [] := by
      rw [show I.eval v (.app 2 []) = I.fn 2 [] from eval_false I v]
      exact I.tf.symm
    simp [← hsg.tf, e1, e2, tTrue, tFalse]
  bool2 d hd := by
    have e1 : I.eval v (.app 1 []) = I.fn 1 [] := eval_true I v
    have e2 : I.eval v (.app 2 []) ≠ I.fn 1 [] := by
      rw [show I.eval v (.app 2 []) = I.fn 2 [] from eval_false I v]
      exact I.tf.symm
    rw [if_pos rfl] at hd
    simp only [← hsg.tf, List.map_nil, e1, e2, if_true, if_false]
    rcases hd with h | h
    · exact .inl (ULift.ext _ _ h)
    · exact .inr (ULift.ext _ _ h)
  dist f g hf hg hfg := by
    rw [if_neg (hF.dist f hf), if_neg (hF.dist g hg)]
    intro h
    have := congrArg ULift.down h
    simp only [List.map_nil, Term.app.injEq] at this
    exact hfg this.1

section
variable (hsg : SigOK sg) (hF : FOSig sg) (hV : ∀ ty, ty ≠ sg.fty 1 → ∃ x, sg.vty x = ty) (I : Interp.{u} sg) (v0 : Nat → I.D)

theorem tm_eval (v : Nat → ULift.{u} Term) (t : Term) (hw : sg.WT t) (ht : sg.ty t ≠ sg.fty 1) :
    (termModel hsg hF hV I v0).eval v t = ⟨t.subst fun x => (v x).down⟩ := by
  induction t using Term.ind with
  | hv x => rfl
  | ha f ts ih =>
    refine (eval_app (termModel hsg hF hV I v0) v f ts).trans ?_
    refine (if_neg ht).trans ?_
    have e : (ts.map ((termModel hsg hF hV I v0).eval v)).map ULift.down = ts.map (Term.subst fun x => (v x).down) :=
      List.map_map.trans (List.map_congr_left fun t h => congrArg ULift.down (ih t h ((Sig.wt_app.1 hw).2 t h) (arg_ty hF hw h)))
    rw [subst_app]
    exact congrArg (fun l => (⟨.app f l⟩ : ULift.{u} Term)) e

theorem tm_evals (v : Nat → ULift.{u} Term) {f : Nat} {ts : List Term} (hw : sg.WT (.app f ts)) :
    ts.map ((termModel hsg hF hV I v0).eval v) = ts.map fun t => ⟨t.subst fun x => (v x).down⟩ :=
  List.map_congr_left fun t h => tm_eval hsg hF hV I v0 v t ((Sig.wt_app.1 hw).2 t h) (arg_ty hF hw h)

/-- Valuations are substitutions. -/
theorem tm_sorted {v : Nat → ULift.{u} Term} : (termModel hsg hF hV I v0).Sorted v ↔ sg.WTSubst fun x => (v x).down := by
  refine forall_congr' fun x => ?_
  show (if sg.vty x = sg.fty 1 then _ else _) ↔ _
  rw [if_neg (hF.vars x)]
  exact And.comm

open Classical in
theorem tm_atom (v : Nat → ULift.{u} Term) {f : Nat} {ts : List Term} (hw : sg.WT (.app f ts)) (hf : sg.fty f = sg.fty 1) :
    (termModel hsg hF hV I v0).eval v (.app f ts) = if I.eval v0 ((Term.app f ts).subst fun x => (v x).down) = I.fn 1 [] then ⟨tTrue⟩ else ⟨tFalse⟩ := by
  refine (eval_app (termModel hsg hF hV I v0) v f ts).trans ?_
  refine (if_pos hf).trans ?_
  have e : ((ts.map ((termModel hsg hF hV I v0).eval v)).map ULift.down) = ts.map (Term.subst fun x => (v x).down) :=
    (congrArg (List.map ULift.down) (tm_evals hsg hF hV I v0 v hw)).trans List.map_map
  rw [subst_app]
  exact congrArg (fun l => if I.eval v0 (Term.app f l) = I.fn 1 [] then (⟨tTrue⟩ : ULift.{u} Term) else ⟨tFalse⟩) e

theorem tm_models (hv0 : I.Sorted v0) {D : List Lit} (hD : ∀ K ∈ D, FOLit sg K) (hne : ∀ K ∈ D, K.equ = false) (h : I.Models D) :
    (termModel hsg hF hV I v0).Models D := by
  intro (v : Nat → ULift.{u} Term) hv
  have hσ := (tm_sorted hsg hF hV I v0).1 hv
  obtain ⟨K, hK, hKt⟩ := h _ (sorted_subst I hv0 hσ)
  refine ⟨K, hK, ?_⟩
  rcases lit_cases hsg hF (hD K hK) with ⟨h1, _, _⟩ | ⟨f, ts, e, h1, h2, h3, h4, _, _⟩
  · rw [hne K hK] at h1; cases h1
  · rw [← litTrue_subst, e] at hKt
    rw [e]
    have e1 := tm_atom hsg hF hV I v0 v h4 h3
    have e2 : (termModel hsg hF hV I v0).eval v tTrue = ⟨tTrue⟩ := by
      refine (tm_atom hsg hF hV I v0 v (wt_true hsg) rfl).trans (if_pos ?_)
      exact eval_true I v0
    unfold Interp.LitTrue at hKt ⊢
    simp only [e1, e2]
    simp only [Lit.subst, show tTrue.subst (fun x => (v x).down) = tTrue from rfl, eval_true] at hKt
    cases hp : K.pos with
    | true =>
      rw [hp] at hKt
      simp only [if_true] at hKt ⊢
      exact if_pos hKt
    | false =>
      rw [hp] at hKt
      simp only [Bool.false_eq_true, if_false] at hKt ⊢
      intro h
      have := congrArg ULift.down ((if_neg hKt).symm.trans h)
      simp [tTrue, tFalse] at this

end

/-! ## Without equality: the loops -/

/-- Everything that respects the bindings absorbs their full application. -/
theorem full_absorb {b : Nat → Option Term} (hb : GoodBindings sg b) {σ θ : Nat → Term} (hσ : FullInst b σ) (hθ : ∀ x u, b x = some u → θ x = u.subst θ) (x : Nat) :
    (σ x).subst θ = θ x := by
  obtain ⟨rank, hr⟩ := hb.acyclic
  induction h : rank x using Nat.strong_induction_on generalizing x with
  | _ n ih =>
    subst h
    cases hx : b x with
    | none => rw [hσ.free x hx]; rfl
    | some u =>
      rw [hσ.bound x u hx, subst_comp, hθ x u hx]
      exact subst_congr fun y hy => ih _ (hr x u hx y hy) y rfl

theorem inst_absorb {b : Nat → Option Term} (hb : GoodBindings sg b) {θ : Nat → Term} (hθ : ∀ x u, b x = some u → θ x = u.subst θ) {k : Nat} {t r : Term}
    (h : instOpt b (fun _ => none) k t = some r) : r.subst θ = t.subst θ := by
  obtain ⟨σ, h1, _, h2⟩ := instantiate_exact sg b (fun _ => none) hb t
  rw [h2 k r h, subst_comp, subst_comp]
  exact subst_congr fun x _ => full_absorb hb h1 hθ x

/-- Atoms other than `$true`. -/
def IsAtom (K : Lit) : Prop := K.r = tTrue ∧ ∃ q us, K.l = .app q us ∧ q ≠ 1

section
variable {θ : Nat → Term}

theorem equalDeref_true {b : Nat → Option Term} (hb : GoodBindings sg b) (hθ : ∀ x u, b x = some u → θ x = u.subst θ) {k : Nat} {K M : Lit} (hK : IsAtom K) (hM : IsAtom M)
    (h : equalDeref k b K M = some true) : K.l.subst θ = M.l.subst θ := by
  unfold equalDeref at h
  split at h
  · next a b' c d h1 h2 h3 h4 =>
    simp only [Option.some.injEq, Bool.or_eq_true, decide_eq_true_eq] at h
    rcases h with ⟨h, _⟩ | ⟨h, _⟩
    · rw [← inst_absorb hb hθ h1, ← inst_absorb hb hθ h3, h]
    · have : K.l.subst θ = M.r.subst θ := by rw [← inst_absorb hb hθ h1, ← inst_absorb hb hθ h4, h]
      obtain ⟨q, us, e, hq⟩ := hK.2
      rw [e, hM.1, subst_app] at this
      simp [tTrue, subst_app] at this
      exact absurd this.1 hq
  · cases h

theorem findComp_true {b : Nat → Option Term} (hb : GoodBindings sg b) (hθ : ∀ x u, b x = some u → θ x = u.subst θ) {k : Nat} {M : Lit} (hM : IsAtom M) :
    ∀ {C : List Lit}, (∀ K ∈ C, IsAtom K) → findComp k b C M = some true → ∃ K ∈ C, K.pos ≠ M.pos ∧ K.l.subst θ = M.l.subst θ
  | [], _, h => by simp [findComp] at h
  | K :: C, hC, h => by
    unfold findComp at h
    split at h
    · obtain ⟨K', h1, h2⟩ := findComp_true hb hθ hM (fun K' h' => hC K' (List.mem_cons_of_mem _ h')) h
      exact ⟨K', List.mem_cons_of_mem _ h1, h2⟩
    · next hne =>
      split at h
      · cases h
      · next e => exact ⟨K, List.mem_cons_self, hne, equalDeref_true hb hθ (hC K List.mem_cons_self) hM e⟩
      · obtain ⟨K', h1, h2⟩ := findComp_true hb hθ hM (fun K' h' => hC K' (List.mem_cons_of_mem _ h')) h
        exact ⟨K', List.mem_cons_of_mem _ h1, h2⟩

theorem anyComp_true {k : Nat} {b : Nat → Option Term} {C : List Lit} : ∀ {Ms : List Lit}, anyComp k b C Ms = some true → ∃ M ∈ Ms, findComp k b C M = some true
  | [], h => by simp [anyComp] at h
  | M :: Ms, h => by
    unfold anyComp at h
    split at h
    · cases h
    · next e => exact ⟨M, List.mem_cons_self, e⟩
    · obtain ⟨M', h1, h2⟩ := anyComp_true h
      exact ⟨M', List.mem_cons_of_mem _ h1, h2⟩

theorem newComp_mem {k : Nat} {b : Nat → Option Term} {C : List Lit} {proc : List Nat} : ∀ {Ms : List Lit} {i : Nat} {r : List (Nat × Lit)}, newComp k b C proc i Ms = some r →
    ∀ q ∈ r, q.2 ∈ Ms ∧ findComp k b C q.2 = some true
  | [], i, r, h => by
    simp [newComp] at h
    subst h
    simp
  | M :: Ms, i, r, h => by
    unfold newComp at h
    split at h
    · cases h
    · next r' e =>
      have ih := newComp_mem e
      have ih' : ∀ q ∈ r', q.2 ∈ M :: Ms ∧ findComp k b C q.2 = some true := fun q hq => ⟨List.mem_cons_of_mem _ (ih q hq).1, (ih q hq).2⟩
      split at h
      · cases h; exact ih'
      · split at h
        · cases h
        · next e2 =>
          cases h
          intro q hq
          rcases List.mem_cons.1 hq with rfl | hq
          · exact ⟨List.mem_cons_self, e2⟩
          · exact ih' q hq
        · cases h; exact ih'

/-- One unification with a unifier at hand. -/
theorem unify_keeps (hty : ∀ x, sg.ty (θ x) = sg.vty x) {pp : Term → Bool} {k : Nat} {s t : Term} {st st' : SubstSt} {r : Bool} (hst : GoodBindings sg st.bind)
    (hθ : ∀ x u, st.bind x = some u → θ x = u.subst θ) (hs : s.isVar = false) (ht : t.isVar = false) (he : s.subst θ = t.subst θ)
    (h : unify sg pp k s t st = some (r, st')) : r = true ∧ GoodBindings sg st'.bind ∧ ∀ x u, st'.bind x = some u → θ x = u.subst θ := by
  have hu : IsUnifier sg st.bind s t θ := ⟨hty, hθ, he⟩
  cases r with
  | false =>
    rcases (mgu_failure sg k s t _ _ st st' hst h).2 with h | h
    · simp [hs, ht] at h
    · exact absurd ⟨θ, hu⟩ h
  | true =>
    obtain ⟨h1, _, σ, h2, _, h3⟩ := mgu_success sg k s t _ _ st st' hst h
    refine ⟨rfl, h1, fun x u hx => ?_⟩
    rw [← h3 θ hu x, h2.bound x u hx, subst_comp]
    exact subst_congr fun y _ => h3 θ hu y

theorem unifyNew_keeps (hty : ∀ x, sg.ty (θ x) = sg.vty x) {pp : Term → Bool} {k : Nat} {l : Term} (hl : l.isVar = false) :
    ∀ {Ms : List (Nat × Lit)} {st : SubstSt} {r : Option SubstSt}, (∀ q ∈ Ms, q.2.l.isVar = false ∧ l.subst θ = q.2.l.subst θ) → GoodBindings sg st.bind →
      (∀ x u, st.bind x = some u → θ x = u.subst θ) → unifyNew sg pp k l Ms st = some r →
      ∃ st', r = some st' ∧ GoodBindings sg st'.bind ∧ ∀ x u, st'.bind x = some u → θ x = u.subst θ
  | [], st, r, _, hst, hθ, h => by
    simp [unifyNew] at h
    exact ⟨st, h.symm, hst, hθ⟩
  | (i, M) :: Ms, st, r, hM, hst, hθ, h => by
    unfold unifyNew at h
    have hM1 := hM (i, M) List.mem_cons_self
    split at h
    · cases h
    · next e =>
      have := (unify_keeps hty hst hθ hl hM1.1 hM1.2 e).1
      cases this
    · next st' e =>
      obtain ⟨_, h1, h2⟩ := unify_keeps hty hst hθ hl hM1.1 hM1.2 e
      exact unifyNew_keeps hty hl (fun q hq => hM q (List.mem_cons_of_mem _ hq)) h1 h2 h

theorem isVar_atom {K : Lit} (h : IsAtom K) : K.l.isVar = false := by
  obtain ⟨_, q, us, e, _⟩ := h
  rw [e]; rfl

/-- Truth of an instance. -/
def InstTrue (θ : Nat → Term) (Val : Term → Prop) (K : Lit) : Prop := K.pos = true ↔ Val (K.l.subst θ)

theorem inst_opposite {Val : Term → Prop} {K M : Lit} (hp : K.pos ≠ M.pos) (he : K.l.subst θ = M.l.subst θ) (h : ¬ InstTrue θ Val K) : InstTrue θ Val M := by
  unfold InstTrue at *
  rw [he] at h
  revert hp h
  cases K.pos <;> cases M.pos <;> simp

theorem resolventLoop_false (hty : ∀ x, sg.ty (θ x) = sg.vty x) {Val : Term → Prop} {pp : Term → Bool} {k : Nat} {C : List Lit} {l : Term} {unif nonUnif : List Lit}
    (hl : l.isVar = false) (hC : ∀ K ∈ C, IsAtom K) (hU : ∀ K ∈ unif, IsAtom K) (hN : ∀ K ∈ nonUnif, IsAtom K) (hCf : ∀ K ∈ C, ¬ InstTrue θ Val K)
    (hNf : ∀ K ∈ nonUnif, ¬ InstTrue θ Val K) (hUt : ∀ K ∈ unif, InstTrue θ Val K → l.subst θ = K.l.subst θ) :
    ∀ {n : Nat} {proc : List Nat} {st : SubstSt}, GoodBindings sg st.bind → (∀ x u, st.bind x = some u → θ x = u.subst θ) →
      resolventLoop sg pp k C l unif nonUnif n proc st ≠ some true
  | 0, _, _, _, _ => by simp [resolventLoop]
  | n + 1, proc, st, hst, hθ => by
    intro h
    unfold resolventLoop at h
    split at h
    · cases h
    · next e =>
      obtain ⟨M, hM, e⟩ := anyComp_true e
      obtain ⟨K, hK, h1, h2⟩ := findComp_true hst hθ (hN M hM) hC e
      exact hNf M hM (inst_opposite h1 h2 (hCf K hK))
    · split at h
      · cases h
      · split at h
        · cases h
        · cases h
        · next q new e =>
          have key : ∀ r ∈ q :: new, r.2.l.isVar = false ∧ l.subst θ = r.2.l.subst θ := by
            intro r hr
            obtain ⟨h1, h2⟩ := newComp_mem e r hr
            refine ⟨isVar_atom (hU _ h1), hUt _ h1 ?_⟩
            obtain ⟨K, hK, h3, h4⟩ := findComp_true hst hθ (hU _ h1) hC h2
            exact inst_opposite h3 h4 (hCf K hK)
          split at h
          · cases h
          · next e2 =>
            obtain ⟨_, h1, _⟩ := unifyNew_keeps hty hl key hst hθ e2
            cases h1
          · next st' e2 =>
            obtain ⟨st'', h1, h2, h3⟩ := unifyNew_keeps hty hl key hst hθ e2
            cases h1
            exact resolventLoop_false hty hl hC hU hN hCf hNf hUt h2 h3 h

theorem good_none : GoodBindings sg (fun _ => none) := ⟨⟨[], by simp⟩, ⟨fun _ => 0, by simp⟩, by simp⟩

theorem split_spec (hty : ∀ x, sg.ty (θ x) = sg.vty x) {pp : Term → Bool} {k : Nat} {L : Lit} (hL : L.l.isVar = false) : ∀ {D U V : List Lit},
    (∀ K ∈ D, IsAtom K) → splitPartner sg pp k L D = some (U, V) →
      (∀ K ∈ U, K ∈ D) ∧ (∀ K ∈ V, K ∈ D ∧ ¬ (L.pos ≠ K.pos ∧ K.equ = false ∧ L.l.subst θ = K.l.subst θ)) ∧ ∀ K ∈ D, K ∈ U ∨ K ∈ V
  | [], U, V, _, h => by
    simp [splitPartner] at h
    obtain ⟨rfl, rfl⟩ := h
    simp
  | M :: D, U, V, hD, h => by
    unfold splitPartner at h
    split at h
    · cases h
    · next u v e =>
      obtain ⟨h1, h2, h3⟩ := split_spec hty hL (fun K hK => hD K (List.mem_cons_of_mem _ hK)) e
      have toU : some (M :: u, v) = some (U, V) → (∀ K ∈ U, K ∈ M :: D) ∧
          (∀ K ∈ V, K ∈ M :: D ∧ ¬ (L.pos ≠ K.pos ∧ K.equ = false ∧ L.l.subst θ = K.l.subst θ)) ∧ ∀ K ∈ M :: D, K ∈ U ∨ K ∈ V := by
        intro h
        cases h
        refine ⟨fun K hK => ?_, fun K hK => ⟨List.mem_cons_of_mem _ (h2 K hK).1, (h2 K hK).2⟩, fun K hK => ?_⟩
        · rcases List.mem_cons.1 hK with rfl | hK
          · exact List.mem_cons_self
          · exact List.mem_cons_of_mem _ (h1 K hK)
        · rcases List.mem_cons.1 hK with rfl | hK
          · exact .inl List.mem_cons_self
          · exact (h3 K hK).imp (List.mem_cons_of_mem _) id
      have toV : ¬ (L.pos ≠ M.pos ∧ M.equ = false ∧ L.l.subst θ = M.l.subst θ) → some (u, M :: v) = some (U, V) → (∀ K ∈ U, K ∈ M :: D) ∧
          (∀ K ∈ V, K ∈ M :: D ∧ ¬ (L.pos ≠ K.pos ∧ K.equ = false ∧ L.l.subst θ = K.l.subst θ)) ∧ ∀ K ∈ M :: D, K ∈ U ∨ K ∈ V := by
        intro hn h
        cases h
        refine ⟨fun K hK => List.mem_cons_of_mem _ (h1 K hK), fun K hK => ?_, fun K hK => ?_⟩
        · rcases List.mem_cons.1 hK with rfl | hK
          · exact ⟨List.mem_cons_self, hn⟩
          · exact ⟨List.mem_cons_of_mem _ (h2 K hK).1, (h2 K hK).2⟩
        · rcases List.mem_cons.1 hK with rfl | hK
          · exact .inr List.mem_cons_self
          · exact (h3 K hK).imp id (List.mem_cons_of_mem _)
      split at h
      · split at h
        · cases h
        · exact toU h
        · next e2 =>
          refine toV (fun hn => ?_) h
          have := (unify_keeps (θ := θ) hty good_none (by simp) hL (isVar_atom (hD M List.mem_cons_self)) hn.2.2 e2).1
          cases this
      · next hn => exact toV (fun h' => hn ⟨h'.1, h'.2.1⟩) h

theorem checkUnif_false (hty : ∀ x, sg.ty (θ x) = sg.vty x) {Val : Term → Prop} {pp : Term → Bool} {k : Nat} {C : List Lit} {l : Term} {unif nonUnif : List Lit}
    (hl : l.isVar = false) (hC : ∀ K ∈ C, IsAtom K) (hU : ∀ K ∈ unif, IsAtom K) (hN : ∀ K ∈ nonUnif, IsAtom K) (hCf : ∀ K ∈ C, ¬ InstTrue θ Val K)
    (hNf : ∀ K ∈ nonUnif, ¬ InstTrue θ Val K) (hUt : ∀ K ∈ unif, InstTrue θ Val K → l.subst θ = K.l.subst θ) :
    ∀ {Ms : List Lit} {i : Nat}, (∀ K ∈ Ms, K ∈ unif) → (∃ K ∈ Ms, InstTrue θ Val K) → checkUnif sg pp k C l unif nonUnif i Ms ≠ some true
  | [], _, _, ⟨_, h, _⟩ => by cases h
  | M :: Ms, i, hMs, hex => by
    intro h
    unfold checkUnif at h
    split at h
    · cases h
    · next r st e =>
      split at h
      · cases h
      · cases h
      · next e2 =>
        by_cases hM : InstTrue θ Val M
        · have hMU := hMs M List.mem_cons_self
          obtain ⟨_, h1, h2⟩ := unify_keeps hty good_none (by simp) hl (isVar_atom (hU M hMU)) (hUt M hMU hM) e
          exact resolventLoop_false hty hl hC hU hN hCf hNf hUt h1 h2 e2
        · refine checkUnif_false hty hl hC hU hN hCf hNf hUt (fun K hK => hMs K (List.mem_cons_of_mem _ hK)) ?_ h
          obtain ⟨K, hK, hKt⟩ := hex
          rcases List.mem_cons.1 hK with rfl | hK
          · exact absurd hKt hM
          · exact ⟨K, hK, hKt⟩

theorem checkNeq_false (hty : ∀ x, sg.ty (θ x) = sg.vty x) {Val : Term → Prop} {pp : Term → Bool} {k j : Nat} {C D : List Lit} {L : Lit} (hj : C[j]? = some L)
    (hC : ∀ K ∈ C, IsAtom K) (hD : ∀ K ∈ D, IsAtom K) (hCf : ∀ K ∈ C, ¬ InstTrue θ Val K) (hex : ∃ M ∈ D, InstTrue θ Val M)
    (hDt : ∀ M ∈ D, InstTrue θ Val M → L.pos ≠ M.pos ∧ M.equ = false ∧ L.l.subst θ = M.l.subst θ) : checkNeq sg pp k C j D ≠ some true := by
  intro h
  unfold checkNeq at h
  rw [hj] at h
  simp only at h
  have hL := isVar_atom (hC L (List.mem_of_getElem? hj))
  split at h
  · cases h
  · next u v e =>
    obtain ⟨h1, h2, h3⟩ := split_spec hty hL hD e
    have hv : ∀ K ∈ D, InstTrue θ Val K → K ∈ u := fun K hK hKt => (h3 K hK).resolve_right fun h => (h2 K h).2 (hDt K hK hKt)
    refine checkUnif_false hty (Val := Val) hL (fun K hK => hC K (List.mem_of_mem_eraseIdx hK)) (fun K hK => hD K (h1 K hK)) (fun K hK => hD K (h2 K hK).1)
      (fun K hK => hCf K (List.mem_of_mem_eraseIdx hK)) ?_ (fun K hK hKt => (hDt K (h1 K hK) hKt).2.2) (fun K hK => hK) ?_ h
    · exact fun K hK hKt => (h2 K hK).2 (hDt K (h2 K hK).1 hKt)
    · obtain ⟨M, hM, hMt⟩ := hex
      exact ⟨M, hv M hM hMt, hMt⟩

end

/-- Truth of an atom over the terms. -/
def atomVal (J : Interp.{u} sg) (up : Term → J.D) : Term → Prop
  | .var _ => False
  | .app f us => J.fn f (us.map up) = J.fn 1 []

section
variable (hsg : SigOK sg) (hF : FOSig sg) (hV : ∀ ty, ty ≠ sg.fty 1 → ∃ x, sg.vty x = ty) (I : Interp.{u} sg) (v0 : Nat → I.D) {p : Nat} (hp : PredOK sg p) (pol : Bool)

theorem flip_atom (S : Set (List (ULift.{u} Term))) (v : Nat → ULift.{u} Term) {K : Lit} (hK : FOLit sg K) (hne : K.equ = false) :
    (flipI hsg hF (termModel hsg hF hV I v0) hp pol S).LitTrue v K ↔
      InstTrue (fun x => (v x).down) (atomVal (flipI hsg hF (termModel hsg hF hV I v0) hp pol S) ULift.up) K := by
  rcases lit_cases hsg hF hK with ⟨h1, _, _⟩ | ⟨f, ts, e, _, _, h3, h4, _, _⟩
  · rw [hne] at h1; cases h1
  · have e1 : (flipI hsg hF (termModel hsg hF hV I v0) hp pol S).eval v (.app f ts) =
        (flipI hsg hF (termModel hsg hF hV I v0) hp pol S).fn f ((ts.map (Term.subst fun x => (v x).down)).map ULift.up) := by
      refine (eval_app _ _ _ _).trans (congrArg _ ?_)
      refine (evals_flip hsg hF (termModel hsg hF hV I v0) hp pol S v h4).trans ?_
      refine (tm_evals hsg hF hV I v0 v h4).trans ?_
      exact List.map_map.symm
    have e2 : (flipI hsg hF (termModel hsg hF hV I v0) hp pol S).eval v tTrue = (flipI hsg hF (termModel hsg hF hV I v0) hp pol S).fn 1 [] := eval_true _ _
    rw [e]
    unfold Interp.LitTrue InstTrue
    simp only [e1, e2, subst_app, atomVal]
    cases K.pos
    · simp only [Bool.false_eq_true, if_false, false_iff, ne_eq]
    · simp

theorem checkNeq_nobad (ha : AltTyped sg) {pp : Term → Bool} {k j : Nat} {C D : List Lit} (hC : ∀ K ∈ C, FOLit sg K) (hD : ∀ K ∈ D, FOLit sg K)
    (hCn : ∀ K ∈ C, K.equ = false) (hDn : ∀ K ∈ D, K.equ = false) (heC : EvenVars C) (heD : EvenVars D) {ts : List Term}
    (hj : C[j]? = some ⟨pol, .app p ts, tTrue⟩) (h : checkNeq sg pp k (copyDisjoint C) j D = some true)
    (S : Set (List (ULift.{u} Term))) (v w : Nat → ULift.{u} Term) (hv : (termModel hsg hF hV I v0).Sorted v) (hw : (termModel hsg hF hV I v0).Sorted w)
    (hf : ¬ (flipI hsg hF (termModel hsg hF hV I v0) hp pol S).ClauseTrue v C) (ht : (flipI hsg hF (termModel hsg hF hV I v0) hp pol S).ClauseTrue w D) :
    ∃ K ∈ D, (flipI hsg hF (termModel hsg hF hV I v0) hp pol S).LitTrue w K ∧
      ¬ Opp (termModel hsg hF hV I v0) p pol w (ts.map ((termModel hsg hF hV I v0).eval v)) K := by
  by_contra hno
  push Not at hno
  have hcopy := copy_eq hC
  have hz := (tm_sorted hsg hF hV I v0).1 (join_sorted ha (termModel hsg hF hV I v0) hv hw)
  have hat : ∀ K, FOLit sg K → K.equ = false → IsAtom K := by
    intro K hK hn
    rcases lit_cases hsg hF hK with ⟨h1, _, _⟩ | ⟨f, us, e, h1, _⟩
    · rw [hn] at h1; cases h1
    · rw [e]; exact ⟨rfl, f, us, rfl, h1⟩
  have hLmem : (⟨pol, .app p ts, tTrue⟩ : Lit) ∈ C := List.mem_of_getElem? hj
  have hj' : (copyDisjoint C)[j]? = some ((⟨pol, .app p ts, tTrue⟩ : Lit).subst fun x => .var (x - 1)) := by
    rw [hcopy, csubst, List.getElem?_map, hj]; rfl
  have hE : ∀ M ∈ D, M.l.subst (fun x => (joinV v w x).down) = M.l.subst fun x => (w x).down := fun M hM =>
    subst_congr fun x hx => congrArg ULift.down (joinV_even v w (even_of heD hM x (by simp [Lit.vars, hx])).1)
  have hO : ∀ K ∈ C, (K.l.subst fun x => .var (x - 1)).subst (fun x => (joinV v w x).down) = K.l.subst fun x => (v x).down := fun K hK => by
    rw [subst_comp]
    exact subst_congr fun x hx => congrArg ULift.down (joinV_pred v w (even_of heC hK x (by simp [Lit.vars, hx])))
  have hDiff : ∀ M ∈ D, InstTrue (fun x => (joinV v w x).down) (atomVal (flipI hsg hF (termModel hsg hF hV I v0) hp pol S) ULift.up) M →
      (flipI hsg hF (termModel hsg hF hV I v0) hp pol S).LitTrue w M := by
    intro M hM hMt
    refine (flip_atom hsg hF hV I v0 hp pol S w (hD M hM) (hDn M hM)).2 ?_
    unfold InstTrue at hMt ⊢
    rwa [hE M hM] at hMt
  refine checkNeq_false (sg := sg) (θ := fun x => (joinV v w x).down) (fun x => (hz x).1) (Val := atomVal (flipI hsg hF (termModel hsg hF hV I v0) hp pol S) ULift.up) hj'
    ?_ (fun K hK => hat K (hD K hK) (hDn K hK)) ?_ ?_ ?_ h
  · intro K hK
    rw [hcopy] at hK
    obtain ⟨K0, hK0, rfl⟩ := List.mem_map.1 hK
    obtain ⟨h1, q, us, h2, h3⟩ := hat K0 (hC K0 hK0) (hCn K0 hK0)
    exact ⟨by simp [Lit.subst, h1, tTrue, subst_app], q, _, by simp only [Lit.subst, h2, subst_app]; rfl, h3⟩
  · intro K hK hKt
    rw [hcopy] at hK
    obtain ⟨K0, hK0, rfl⟩ := List.mem_map.1 hK
    refine hf ⟨K0, hK0, (flip_atom hsg hF hV I v0 hp pol S v (hC K0 hK0) (hCn K0 hK0)).2 ?_⟩
    unfold InstTrue at hKt ⊢
    rw [← hO K0 hK0]
    exact hKt
  · obtain ⟨M, hM, hMt⟩ := ht
    refine ⟨M, hM, ?_⟩
    have := (flip_atom hsg hF hV I v0 hp pol S w (hD M hM) (hDn M hM)).1 hMt
    unfold InstTrue at this ⊢
    rwa [hE M hM]
  · intro M hM hMt
    obtain ⟨us, rfl, e⟩ := hno M hM (hDiff M hM hMt)
    refine ⟨by simp [Lit.subst], by simp [Lit.equ], ?_⟩
    have h1 := hO _ hLmem
    have h2 := hE _ hM
    show ((Term.app p ts).subst _).subst _ = (Term.app p us).subst _
    refine h1.trans (.trans ?_ h2.symm)
    have e1 := tm_evals hsg hF hV I v0 w (hD _ hM).wt.1
    have e2 := tm_evals hsg hF hV I v0 v (hC _ hLmem).wt.1
    have e3 := congrArg (List.map ULift.down) (e1.symm.trans (e.trans e2))
    show (Term.app p ts).subst _ = (Term.app p us).subst _
    rw [subst_app, subst_app]
    congr 1
    exact (List.map_map (f := fun t : Term => (⟨t.subst fun x => (v x).down⟩ : ULift.{u} Term)) (g := ULift.down)).symm.trans (e3.symm.trans List.map_map)

end

end Verif.BceProof
