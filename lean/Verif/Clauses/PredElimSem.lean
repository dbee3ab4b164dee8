import Verif.Clauses.PredElim
import Verif.Clauses.BceCheck

/-!
# Predicate elimination: resolvents
-/

namespace Verif.PeProof
open SemProof Props CNFProof SaturateProof BceProof Term

universe u

variable {sg : Sig}

/-- First-order clauses with even variables. -/
structure FOC (sg : Sig) (C : List Lit) : Prop where
  fo : ∀ K ∈ C, FOLit sg K
  ev : EvenVars C

/-- The renaming of `copyDisjoint`. -/
def ρ (x : Nat) : Term := .var (x - 1)

theorem wtc {C : List Lit} (h : ∀ K ∈ C, FOLit sg K) : sg.WTClause C := fun K hK => (h K hK).wt

/-! ## Finding a literal -/

theorem findHead_spec {f : Nat} {s : Option Bool} : ∀ {C rest : List Lit} {L : Lit} {R : List Lit}, findHead f s C rest = some (L, R) →
    ∃ A B, C = A ++ L :: B ∧ R = B.reverse ++ (A.reverse ++ rest) ∧ L.l.code = f ∧ (s = none ∨ s = some L.pos) ∧ ∀ K ∈ A, ¬ (K.l.code = f ∧ (s = none ∨ s = some K.pos))
  | [], _, _, _, h => by simp [findHead] at h
  | K :: C, rest, L, R, h => by
    rw [findHead] at h
    split at h
    · rename_i hc
      cases h
      exact ⟨[], C, rfl, by simp, hc.1, hc.2, by simp⟩
    · rename_i hc
      obtain ⟨A, B, e1, e2, h1, h2, h3⟩ := findHead_spec h
      refine ⟨K :: A, B, by rw [e1]; rfl, by simp [e2], h1, h2, fun M hM => ?_⟩
      rcases List.mem_cons.1 hM with rfl | hM
      · exact hc
      · exact h3 M hM

theorem findHead_none {f : Nat} {s : Option Bool} : ∀ {C rest : List Lit}, findHead f s C rest = none → ∀ K ∈ C, ¬ (K.l.code = f ∧ (s = none ∨ s = some K.pos))
  | [], _, _ => by simp
  | K :: C, rest, h => by
    rw [findHead] at h
    split at h
    · cases h
    · rename_i hc
      intro M hM
      rcases List.mem_cons.1 hM with rfl | hM
      · exact hc
      · exact findHead_none h M hM

theorem code_iff (hsg : SigOK sg) (hF : FOSig sg) {f : Nat} (hp : PredOK sg f) {K : Lit} (hK : FOLit sg K) (h0 : ∀ x ∈ K.vars, 0 < x) :
    K.l.code = f ↔ ∃ ts, K = ⟨K.pos, .app f ts, tTrue⟩ := by
  constructor
  · intro h
    rcases lit_cases hsg hF hK with ⟨_, h2, _⟩ | ⟨g, ts, e, _⟩
    · cases hl : K.l with
      | var x =>
        rw [hl] at h
        have := h0 x (by simp [Lit.vars, hl, vars])
        simp only [Term.code] at h
        omega
      | app g ts =>
        rw [hl] at h h2
        simp only [Term.code, Nat.cast_inj] at h
        subst h
        exact absurd hp.ty h2
    · rw [e] at h
      simp only [Term.code, Nat.cast_inj] at h
      subst h
      exact ⟨ts, e⟩
  · rintro ⟨ts, e⟩
    rw [e]
    rfl

theorem pred_iff (hsg : SigOK sg) (hF : FOSig sg) {f : Nat} {K : Lit} (hK : FOLit sg K) : K.predCode? = some f ↔ ∃ ts, K = ⟨K.pos, .app f ts, tTrue⟩ := by
  constructor
  · intro h
    rcases lit_cases hsg hF hK with ⟨_, _, h3⟩ | ⟨g, ts, e, _, _, _, _, _, h5⟩
    · rw [h3] at h; cases h
    · rw [h5] at h
      cases h
      exact ⟨ts, e⟩
  · rintro ⟨ts, e⟩
    rw [e]
    simp [Lit.predCode?, Lit.equ]

theorem pos_of (h : EvenVars C) {K : Lit} (hK : K ∈ C) : ∀ x ∈ K.vars, 0 < x := fun x hx => (even_of h hK x hx).2

/-- The literal found in a copy with other variables comes from a literal of the clause. -/
theorem head_copy (hsg : SigOK sg) (hF : FOSig sg) {f : Nat} (hp : PredOK sg f) {C : List Lit} (hC : FOC sg C) {s : Option Bool} {pl : Lit} {prest : List Lit}
    (h : findHead f s (copyDisjoint C) [] = some (pl, prest)) :
    ∃ b ts R, (s = none ∨ s = some b) ∧ C.Perm (⟨b, .app f ts, tTrue⟩ :: R) ∧ pl = ⟨b, .app f (ts.map (subst ρ)), tTrue⟩ ∧ prest = csubst ρ R := by
  obtain ⟨A, B, e1, e2, h1, h2, -⟩ := findHead_spec h
  rw [copy_eq hC.fo, csubst, List.map_eq_append_iff] at e1
  obtain ⟨A', B', rfl, rfl, e1⟩ := e1
  rw [List.map_eq_cons_iff] at e1
  obtain ⟨L, B'', rfl, rfl, rfl⟩ := e1
  have hL : L ∈ A' ++ L :: B'' := by simp
  have : L.l.code = f := by
    simp only [Lit.subst] at h1
    cases hl : L.l with
    | var x =>
      rw [hl] at h1
      have := even_of hC.ev hL x (by simp [Lit.vars, hl, vars])
      simp only [Term.subst, Term.code] at h1
      omega
    | app g ts =>
      rw [hl, subst_app] at h1
      exact h1
  obtain ⟨ts, e⟩ := (code_iff hsg hF hp (hC.fo L hL) (pos_of hC.ev hL)).1 this
  refine ⟨L.pos, ts, B''.reverse ++ A'.reverse, ?_, ?_, ?_, ?_⟩
  · simpa [Lit.subst] using h2
  · rw [← e]
    refine List.perm_middle.trans (List.Perm.cons _ ?_)
    exact (List.perm_append_comm).trans (((List.reverse_perm _).append (List.reverse_perm _)).symm)
  · conv_lhs => rw [e]
    simp only [Lit.subst, subst_app]
    rfl
  · rw [e2]
    simp only [csubst, List.map_append, List.map_reverse, List.append_nil]
    rfl

theorem copy_id {C : List Lit} (hC : ∀ K ∈ C, FOLit sg K) : (C.map fun K => mkEqn K.pos K.l K.r) = C := by
  conv_rhs => rw [← List.map_id C]
  exact List.map_congr_left fun K hK => LitProof.mkEqn_of_nf (hC K hK).nf

theorem head_plain (hsg : SigOK sg) (hF : FOSig sg) {f : Nat} (hp : PredOK sg f) {C : List Lit} (hC : FOC sg C) {s : Option Bool} {pl : Lit} {prest : List Lit}
    (h : findHead f s C [] = some (pl, prest)) :
    ∃ b ts, (s = none ∨ s = some b) ∧ C.Perm (⟨b, .app f ts, tTrue⟩ :: prest) ∧ pl = ⟨b, .app f ts, tTrue⟩ := by
  obtain ⟨A, B, e1, e2, h1, h2, -⟩ := findHead_spec h
  have hL : pl ∈ C := by rw [e1]; simp
  obtain ⟨ts, e⟩ := (code_iff hsg hF hp (hC.fo _ hL) (pos_of hC.ev hL)).1 h1
  refine ⟨pl.pos, ts, h2, ?_, e⟩
  rw [e1, e2, ← e]
  refine List.perm_middle.trans (List.Perm.cons _ ?_)
  simp only [List.append_nil]
  exact (List.perm_append_comm).trans (((List.reverse_perm _).append (List.reverse_perm _)).symm)

/-! ## Instances of first-order literals -/

/-- What stays the same in an instance. -/
theorem inst_fo (hsg : SigOK sg) (hF : FOSig sg) {σ : Nat → Term} (hσ : sg.WTSubst σ) {L : Lit} (hL : FOLit sg L) :
    FOLit sg (mkEqn L.pos (L.l.subst σ) (L.r.subst σ)) ∧ (mkEqn L.pos (L.l.subst σ) (L.r.subst σ)).predCode? = L.predCode? ∧
      (mkEqn L.pos (L.l.subst σ) (L.r.subst σ)).equ = L.equ ∧ (mkEqn L.pos (L.l.subst σ) (L.r.subst σ)).pos = L.pos := by
  have hw := wtLit_subst hL.wt hσ
  rcases lit_cases hsg hF hL with ⟨h1, h2, h3⟩ | ⟨g, ts, e, h1, h2, h3, h4, h5, h6⟩
  · have t1 : sg.ty (L.l.subst σ) ≠ sg.fty 1 := by rw [Sig.ty_subst (fun x => (hσ x).1)]; exact h2
    have t2 : sg.ty (L.r.subst σ) ≠ sg.fty 1 := by rw [Sig.ty_subst (fun x => (hσ x).1), ← hL.wt.2.2]; exact h2
    have nl1 : L.l.subst σ ≠ tTrue := fun h => t1 (by rw [h]; rfl)
    have nl2 : L.l.subst σ ≠ tFalse := fun h => t1 (by rw [h]; exact hsg.tf.symm)
    have nr1 : L.r.subst σ ≠ tTrue := fun h => t2 (by rw [h]; rfl)
    have nr2 : L.r.subst σ ≠ tFalse := fun h => t2 (by rw [h]; exact hsg.tf.symm)
    have e : mkEqn L.pos (L.l.subst σ) (L.r.subst σ) = ⟨L.pos, L.l.subst σ, L.r.subst σ⟩ := by simp [mkEqn, nl1, nl2, nr2]
    rw [e]
    refine ⟨⟨hw, ⟨nl2, nr2, fun h => absurd h nl1⟩, nl1, fun h => absurd h t1⟩, ?_, ?_, rfl⟩
    · rw [h3]; simp [Lit.predCode?, Lit.equ, nr1]
    · rw [h1]; simp [Lit.equ, nr1]
  · have e' : mkEqn L.pos (L.l.subst σ) (L.r.subst σ) = ⟨L.pos, .app g (ts.map (subst σ)), tTrue⟩ := by
      rw [e]
      simp only [subst_app]
      rw [show tTrue.subst σ = tTrue from rfl]
      exact LitProof.mkEqn_of_nf (L := ⟨L.pos, .app g (ts.map (subst σ)), tTrue⟩)
        ⟨by simp [tFalse, h2], by simp [tTrue, tFalse], by intro _; rfl⟩
    rw [e']
    have hw' := mkEqn_wt hsg hw
    have hw' : sg.WTLit (mkEqn L.pos (L.l.subst σ) (L.r.subst σ)) := hw'
    rw [e'] at hw'
    refine ⟨⟨hw', ⟨by simp [tFalse, h2], by simp [tTrue, tFalse], fun _ => rfl⟩, by simp [tTrue, h1], fun _ => rfl⟩, ?_, ?_, rfl⟩
    · rw [h6]; simp [Lit.predCode?, Lit.equ]
    · rw [h5]; simp [Lit.equ]

theorem insts_fo (hsg : SigOK sg) (hF : FOSig sg) {σ : Nat → Term} (hσ : sg.WTSubst σ) {C : List Lit} (hC : ∀ K ∈ C, FOLit sg K) :
    ∀ K ∈ C.map (fun L => mkEqn L.pos (L.l.subst σ) (L.r.subst σ)), FOLit sg K := by
  intro K hK
  obtain ⟨L, hL, rfl⟩ := List.mem_map.1 hK
  exact (inst_fo hsg hF hσ (hC L hL)).1

/-- Number of literals with a predicate. -/
def cnt (f : Nat) (C : List Lit) : Nat := C.countP fun K => K.predCode? == some f

theorem cnt_insts (hsg : SigOK sg) (hF : FOSig sg) {σ : Nat → Term} (hσ : sg.WTSubst σ) {C : List Lit} (hC : ∀ K ∈ C, FOLit sg K) (f : Nat) :
    cnt f (C.map fun L => mkEqn L.pos (L.l.subst σ) (L.r.subst σ)) = cnt f C := by
  unfold cnt
  rw [List.countP_map]
  refine List.countP_congr fun K hK => ?_
  simp [(inst_fo hsg hF hσ (hC K hK)).2.1]

theorem removeDup_sublist (C : List Lit) : (removeDup C).Sublist C := by
  have : ∀ (C seen : List Lit), (removeDupAux seen C).Sublist C := by
    intro C
    induction C with
    | nil => intro seen; simp [removeDupAux]
    | cons K C ih =>
      intro seen
      rw [removeDupAux]
      split
      · exact (ih _).cons _
      · exact (ih _).cons_cons _
  exact this C []

theorem finish_sublist (C : List Lit) : (peFinish sg C).Sublist C := (removeDup_sublist _).trans List.filter_sublist

theorem cnt_finish (f : Nat) (C : List Lit) : cnt f (peFinish sg C) ≤ cnt f C := (finish_sublist C).countP_le

/-! ## Unifiers -/

theorem full_none (σ : Nat → Term) : InstProof.full σ (fun _ => none) = σ := by
  funext x
  simp only [InstProof.full]
  conv_rhs => rw [← subst_id (σ x)]
  rfl

/-- What a unifier of two atoms does to the other literals. -/
theorem mgu_inst {pp : Term → Bool} {k : Nat} {s t : Term} {st : SubstSt} (hs : sg.WT s) (ht : sg.WT t) (h : unify sg pp k s t ⟨fun _ => none, []⟩ = some (true, st)) :
    ∃ σ, sg.WTSubst σ ∧ s.subst σ = t.subst σ ∧ (∀ θ, (∀ x, sg.ty (θ x) = sg.vty x) → s.subst θ = t.subst θ → ∀ x, (σ x).subst θ = θ x) ∧
      ∀ C A, copyLits st.bind (fun _ => none) k C = some A → A = C.map fun L => mkEqn L.pos (L.l.subst σ) (L.r.subst σ) := by
  obtain ⟨h1, _, σ, h2, h3, h4⟩ := mgu_success sg k s t _ _ ⟨fun _ => none, []⟩ st good_none h
  obtain ⟨_, h6⟩ := mgu_welltyped sg k s t _ _ ⟨fun _ => none, []⟩ st good_none (by simp) hs ht h
  refine ⟨σ, h6 σ h2, h3.unifies, fun θ hθ he => h4 θ ⟨hθ, by simp, he⟩, fun C A hA => ?_⟩
  have := LitProof.copyLits_eq h2 hA
  rwa [full_none] at this

/-- If there is a unifier, unification succeeds. -/
theorem mgu_true {pp : Term → Bool} {k : Nat} {s t : Term} {r : Bool} {st : SubstSt} (hs : s.isVar = false) (ht : t.isVar = false) {θ : Nat → Term} (hθ : ∀ x, sg.ty (θ x) = sg.vty x)
    (he : s.subst θ = t.subst θ) (h : unify sg pp k s t ⟨fun _ => none, []⟩ = some (r, st)) : r = true :=
  (unify_keeps (st := ⟨fun _ => none, []⟩) hθ good_none (by simp) hs ht he h).1

/-! ## Distinct variables -/

/-- The arguments `ss`, which are distinct variables, are replaced by `ts`. -/
def zipSubst (ss ts : List Term) (x : Nat) : Term := ((ss.zip ts).lookup (.var x)).getD (.var x)

theorem lookup_zip_get : ∀ {ss ts : List Term} {s t : Term} {i : Nat}, ss.Nodup → ss[i]? = some s → ts[i]? = some t → (ss.zip ts).lookup s = some t
  | [], _, _, _, _, _, h, _ => by simp at h
  | _ :: _, [], _, _, _, _, _, h => by simp at h
  | a :: ss, b :: ts, s, t, 0, _, h1, h2 => by
    simp at h1 h2
    subst h1 h2
    simp
  | a :: ss, b :: ts, s, t, i + 1, hn, h1, h2 => by
    rw [List.nodup_cons] at hn
    simp only [List.getElem?_cons_succ] at h1 h2
    have : s ≠ a := by
      rintro rfl
      exact hn.1 (List.mem_of_getElem? h1)
    rw [List.zip_cons_cons, List.lookup_cons, beq_eq_false_iff_ne.2 this]
    exact lookup_zip_get hn.2 h1 h2

theorem lookup_zip_mem : ∀ {ss ts : List Term} {s t : Term}, (ss.zip ts).lookup s = some t → ∃ i : Nat, ss[i]? = some s ∧ ts[i]? = some t
  | [], _, _, _, h => by simp at h
  | _ :: _, [], _, _, h => by simp at h
  | a :: ss, b :: ts, s, t, h => by
    rw [List.zip_cons_cons, List.lookup_cons] at h
    split at h
    · rename_i e
      cases h
      exact ⟨0, by simp [beq_iff_eq.1 e], rfl⟩
    · obtain ⟨i, h1, h2⟩ := lookup_zip_mem h
      exact ⟨i + 1, h1, h2⟩

/-- The substitution is a unifier that does not change values. -/
theorem zip_unifies {f : Nat} {ss ts : List Term} (hs : sg.WT (.app f ss)) (ht : sg.WT (.app f ts)) (hd : distinctVars ss = true)
    (hdis : ∀ x ∈ (Term.app f ss).vars, x ∉ (Term.app f ts).vars) :
    (∀ x, sg.ty (zipSubst ss ts x) = sg.vty x) ∧ (Term.app f ss).subst (zipSubst ss ts) = (Term.app f ts).subst (zipSubst ss ts) ∧
      ∀ (I : Interp.{u} sg) (u : Nat → I.D), ss.map (I.eval u) = ts.map (I.eval u) → ∀ x, I.eval u (zipSubst ss ts x) = u x := by
  simp only [distinctVars, Bool.and_eq_true, List.all_eq_true, decide_eq_true_eq] at hd
  have htys : ss.map sg.ty = ts.map sg.ty := (Sig.wt_app.1 hs).1.trans (Sig.wt_app.1 ht).1.symm
  have hlen : ss.length = ts.length := by simpa using congrArg List.length htys
  refine ⟨fun x => ?_, ?_, fun I u he x => ?_⟩
  · unfold zipSubst
    cases h : (ss.zip ts).lookup (.var x) with
    | none => rfl
    | some t =>
      obtain ⟨i, h1, h2⟩ := lookup_zip_mem h
      have := congrArg (fun l => l[i]?) htys
      simp [h1, h2] at this
      exact this.symm
  · have e1 : ss.map (subst (zipSubst ss ts)) = ts := by
      refine List.ext_getElem? fun i => ?_
      rw [List.getElem?_map]
      cases h1 : ss[i]? with
      | none =>
        rw [List.getElem?_eq_none_iff] at h1
        simp only [Option.map_none]
        rw [eq_comm, List.getElem?_eq_none_iff]
        omega
      | some s =>
        obtain ⟨t, h2⟩ : ∃ t, ts[i]? = some t := by
          have := (List.getElem?_eq_some_iff.1 h1).1
          exact ⟨_, List.getElem?_eq_getElem (by omega)⟩
        have hv := hd.1 s (List.mem_of_getElem? h1)
        cases s with
        | app g us => simp [Term.isVar] at hv
        | var x =>
          rw [Option.map_some, h2]
          simp only [Term.subst, zipSubst, lookup_zip_get hd.2 h1 h2, Option.getD_some]
    have e2 : ts.map (subst (zipSubst ss ts)) = ts := by
      conv_rhs => rw [← List.map_id ts]
      refine List.map_congr_left fun t ht' => ?_
      conv_rhs => rw [id, ← subst_id t]
      refine subst_congr fun x hx => ?_
      unfold zipSubst
      cases h : (ss.zip ts).lookup (.var x) with
      | none => rfl
      | some t' =>
        obtain ⟨i, h1, _⟩ := lookup_zip_mem h
        refine absurd ?_ (hdis x ?_)
        · simp only [vars, varsL_eq]; exact List.mem_flatMap.2 ⟨t, ht', hx⟩
        · simp only [vars, varsL_eq]; exact List.mem_flatMap.2 ⟨_, List.mem_of_getElem? h1, by simp [vars]⟩
    rw [subst_app, subst_app, e1, e2]
  · unfold zipSubst
    cases h : (ss.zip ts).lookup (.var x) with
    | none => rfl
    | some t =>
      obtain ⟨i, h1, h2⟩ := lookup_zip_mem h
      have := congrArg (fun l => l[i]?) he
      simp only [List.getElem?_map, h1, h2, Option.map_some, Option.some.injEq] at this
      exact this.symm

/-! ## Interpretations of terms -/

/-- The elements stand for terms that have themselves as value. -/
structure Herb (sg : Sig) (I : Interp.{u} sg) (d : I.D → Term) : Prop where
  inj : Function.Injective d
  wt : ∀ v, I.Sorted v → sg.WTSubst fun x => d (v x)
  eval : ∀ v t, sg.WT t → sg.ty t ≠ sg.fty 1 → d (I.eval v t) = t.subst fun x => d (v x)

/-- A unifier that does not change values. -/
def GoodUni (sg : Sig) (I : Interp.{u} sg) (u : Nat → I.D) (f : Nat) (ss ts : List Term) : Prop :=
  ∃ θ : Nat → Term, (∀ x, sg.ty (θ x) = sg.vty x) ∧ (Term.app f ss).subst θ = (Term.app f ts).subst θ ∧
    ∀ t x, sg.WT t → sg.ty t = sg.vty x → t.subst θ = θ x → I.eval u t = u x

theorem GoodUni.symm {I : Interp.{u} sg} {w : Nat → I.D} {f : Nat} {ss ts : List Term} (h : GoodUni sg I w f ss ts) : GoodUni sg I w f ts ss := by
  obtain ⟨θ, h1, h2, h3⟩ := h
  exact ⟨θ, h1, h2.symm, h3⟩

theorem herb_uni (hF : FOSig sg) {I : Interp.{u} sg} {d : I.D → Term} (hd : Herb sg I d) {w : Nat → I.D} (hw : I.Sorted w) {f : Nat} {ss ts : List Term}
    (hs : sg.WT (.app f ss)) (ht : sg.WT (.app f ts)) (he : ss.map (I.eval w) = ts.map (I.eval w)) : GoodUni sg I w f ss ts := by
  refine ⟨fun x => d (w x), fun x => (hd.wt w hw x).1, ?_, fun t x h1 h2 h3 => hd.inj ?_⟩
  · rw [subst_app, subst_app]
    have : ∀ us : List Term, sg.WT (.app f us) → us.map (subst fun x => d (w x)) = (us.map (I.eval w)).map d := by
      intro us hus
      rw [List.map_map]
      exact List.map_congr_left fun t h => (hd.eval w t ((Sig.wt_app.1 hus).2 t h) (arg_ty hF hus h)).symm
    rw [this ss hs, this ts ht, he]
  · rw [hd.eval w t h1 (h2 ▸ hF.vars x)]
    exact h3

theorem zip_uni {I : Interp.{u} sg} {w : Nat → I.D} {f : Nat} {ss ts : List Term} (hs : sg.WT (.app f ss)) (ht : sg.WT (.app f ts)) (hd : distinctVars ss = true)
    (hdis : ∀ x ∈ (Term.app f ss).vars, x ∉ (Term.app f ts).vars) (he : ss.map (I.eval w) = ts.map (I.eval w)) : GoodUni sg I w f ss ts := by
  obtain ⟨h1, h2, h3⟩ := zip_unifies.{u} hs ht hd hdis
  refine ⟨zipSubst ss ts, h1, h2, fun t x _ _ h => ?_⟩
  have e : I.eval w (t.subst (zipSubst ss ts)) = I.eval w t := by
    rw [eval_subst]
    exact eval_congr I fun y _ => h3 I w he y
  rw [← e, h]
  exact h3 I w he x

/-- With such a unifier, unification succeeds, and the instances have the same truth values. -/
theorem uni_true (hsg : SigOK sg) {I : Interp.{u} sg} {w : Nat → I.D} (hw : I.Sorted w) {f : Nat} {ss ts : List Term} (hs : sg.WT (.app f ss)) (ht : sg.WT (.app f ts))
    (hu : GoodUni sg I w f ss ts) {pp : Term → Bool} {k : Nat} {r : Bool} {st : SubstSt} (h : unify sg pp k (.app f ss) (.app f ts) ⟨fun _ => none, []⟩ = some (r, st)) :
    r = true ∧ ∀ C A, sg.WTClause C → copyLits st.bind (fun _ => none) k C = some A → (I.ClauseTrue w A ↔ I.ClauseTrue w C) := by
  obtain ⟨θ, h1, h2, h3⟩ := hu
  obtain rfl := mgu_true rfl rfl h1 h2 h
  obtain ⟨σ, g1, g2, g3, g4⟩ := mgu_inst hs ht h
  refine ⟨rfl, fun C A hC hA => ?_⟩
  have e : (fun x => I.eval w (σ x)) = w := funext fun x => h3 (σ x) x (g1 x).2 (g1 x).1 (g3 θ h1 h2 x)
  rw [g4 C A hA]
  unfold Interp.ClauseTrue
  constructor
  · rintro ⟨K, hK, hT⟩
    obtain ⟨L, hL, rfl⟩ := List.mem_map.1 hK
    refine ⟨L, hL, ?_⟩
    have := (mkEqn_true hsg I hw (wtLit_subst (hC L hL) g1)).1 hT
    rw [show (⟨L.pos, L.l.subst σ, L.r.subst σ⟩ : Lit) = L.subst σ from rfl, litTrue_subst, e] at this
    exact this
  · rintro ⟨L, hL, hT⟩
    refine ⟨_, List.mem_map.2 ⟨L, hL, rfl⟩, (mkEqn_true hsg I hw (wtLit_subst (hC L hL) g1)).2 ?_⟩
    show I.LitTrue w (L.subst σ)
    rw [litTrue_subst, e]
    exact hT

/-! ## The resolvents -/

theorem clauseTrue_perm {I : Interp.{u} sg} {v : Nat → I.D} {C D : List Lit} (h : C.Perm D) : I.ClauseTrue v C ↔ I.ClauseTrue v D :=
  exists_congr fun _ => and_congr_left' h.mem_iff

theorem atom_true {I : Interp.{u} sg} {v : Nat → I.D} {b : Bool} {f : Nat} {ts : List Term} :
    I.LitTrue v ⟨b, .app f ts, tTrue⟩ ↔ (b = true ↔ I.fn f (ts.map (I.eval v)) = I.fn 1 []) := by
  unfold Interp.LitTrue
  rw [eval_app, eval_true]
  cases b <;> simp

theorem foc_perm {C D : List Lit} (h : C.Perm D) (hC : FOC sg C) : FOC sg D :=
  ⟨fun K hK => hC.fo K (h.mem_iff.2 hK), fun x hx => hC.ev x (by
    obtain ⟨K, hK, hx⟩ := List.mem_flatMap.1 hx
    exact List.mem_flatMap.2 ⟨K, h.mem_iff.2 hK, hx⟩)⟩

theorem foc_tail {L : Lit} {C : List Lit} (h : FOC sg (L :: C)) : FOC sg C :=
  ⟨fun K hK => h.fo K (List.mem_cons_of_mem _ hK), fun x hx => h.ev x (by
    obtain ⟨K, hK, hx⟩ := List.mem_flatMap.1 hx
    exact List.mem_flatMap.2 ⟨K, List.mem_cons_of_mem _ hK, hx⟩)⟩

theorem ρ_wt (ha : AltTyped sg) : ∀ x, x % 2 = 0 ∧ 0 < x → sg.vty (x - 1) = sg.vty x := fun x hx => ha x hx.1 hx.2

/-- Literals of even variables under the renaming. -/
theorem lit_ρ (ha : AltTyped sg) {K : Lit} (hK : FOLit sg K) (he : ∀ x ∈ K.vars, x % 2 = 0 ∧ 0 < x) : ∃ τ, sg.WTSubst τ ∧ K.subst ρ = K.subst τ ∧ K.subst ρ = mkEqn K.pos (K.l.subst τ) (K.r.subst τ) := by
  refine ⟨fun x => if x % 2 = 0 ∧ 0 < x then .var (x - 1) else .var x, fun x => ?_, ?_, ?_⟩
  · dsimp only
    split
    · rename_i h
      exact ⟨ha x h.1 h.2, by simp [Sig.WT]⟩
    · exact ⟨rfl, by simp [Sig.WT]⟩
  · have : ∀ t : Term, (∀ x ∈ t.vars, x ∈ K.vars) → t.subst ρ = t.subst fun x => if x % 2 = 0 ∧ 0 < x then .var (x - 1) else .var x :=
      fun t ht => subst_congr fun x hx => by
        show Term.var (x - 1) = _
        rw [if_pos (he x (ht x hx))]
    unfold Lit.subst
    rw [this K.l fun x hx => by simp [Lit.vars, hx], this K.r fun x hx => by simp [Lit.vars, hx]]
  · have : ∀ t : Term, (∀ x ∈ t.vars, x ∈ K.vars) → t.subst ρ = t.subst fun x => if x % 2 = 0 ∧ 0 < x then .var (x - 1) else .var x :=
      fun t ht => subst_congr fun x hx => by
        show Term.var (x - 1) = _
        rw [if_pos (he x (ht x hx))]
    rw [← this K.l fun x hx => by simp [Lit.vars, hx], ← this K.r fun x hx => by simp [Lit.vars, hx]]
    have h1 : (K.subst ρ).NF := LitProof.nf_rename hK.nf fun x => ⟨_, rfl⟩
    exact (LitProof.mkEqn_of_nf h1).symm

theorem copy_fo (hsg : SigOK sg) (hF : FOSig sg) (ha : AltTyped sg) {C : List Lit} (hC : FOC sg C) :
    (∀ K ∈ csubst ρ C, FOLit sg K) ∧ (∀ g, cnt g (csubst ρ C) = cnt g C) ∧ ((∀ K ∈ C, K.equ = false) → ∀ K ∈ csubst ρ C, K.equ = false) := by
  have key : ∀ K ∈ C, FOLit sg (K.subst ρ) ∧ (K.subst ρ).predCode? = K.predCode? ∧ (K.subst ρ).equ = K.equ := by
    intro K hK
    obtain ⟨τ, h1, _, h3⟩ := lit_ρ ha (hC.fo K hK) (even_of hC.ev hK)
    rw [h3]
    have := inst_fo hsg hF h1 (hC.fo K hK)
    exact ⟨this.1, this.2.1, this.2.2.1⟩
  refine ⟨fun K hK => ?_, fun g => ?_, fun he K hK => ?_⟩
  · obtain ⟨L, hL, rfl⟩ := List.mem_map.1 hK
    exact (key L hL).1
  · unfold cnt csubst
    rw [List.countP_map]
    exact List.countP_congr fun K hK => by simp [(key K hK).2.1]
  · obtain ⟨L, hL, rfl⟩ := List.mem_map.1 hK
    rw [(key L hL).2.2]
    exact he L hL

/-- Truth of a clause and of a copy with other variables. -/
theorem copy_join {I : Interp.{u} sg} (v w : Nat → I.D) {C : List Lit} (hC : FOC sg C) : I.ClauseTrue (joinV v w) (csubst ρ C) ↔ I.ClauseTrue v C := by
  constructor
  · rintro ⟨K, hK, hT⟩
    obtain ⟨L, hL, rfl⟩ := List.mem_map.1 hK
    exact ⟨L, hL, (lit_join_copy I v w (even_of hC.ev hL)).1 hT⟩
  · rintro ⟨L, hL, hT⟩
    exact ⟨_, List.mem_map.2 ⟨L, hL, rfl⟩, (lit_join_copy I v w (even_of hC.ev hL)).2 hT⟩

theorem plain_join {I : Interp.{u} sg} (v w : Nat → I.D) {C : List Lit} (hC : FOC sg C) : I.ClauseTrue (joinV v w) C ↔ I.ClauseTrue w C := by
  constructor
  · rintro ⟨K, hK, hT⟩
    exact ⟨K, hK, (lit_join_even I v w fun x hx => (even_of hC.ev hK x hx).1).1 hT⟩
  · rintro ⟨K, hK, hT⟩
    exact ⟨K, hK, (lit_join_even I v w fun x hx => (even_of hC.ev hK x hx).1).2 hT⟩

theorem args_copy {I : Interp.{u} sg} (v w : Nat → I.D) {f : Nat} {ts : List Term} (h : ∀ x ∈ (Term.app f ts).vars, x % 2 = 0 ∧ 0 < x) :
    (ts.map (subst ρ)).map (I.eval (joinV v w)) = ts.map (I.eval v) := by
  rw [List.map_map]
  refine List.map_congr_left fun t ht => eval_join_copy I v w fun x hx => h x ?_
  simp only [vars, varsL_eq]
  exact List.mem_flatMap.2 ⟨t, ht, hx⟩

theorem args_plain {I : Interp.{u} sg} (v w : Nat → I.D) {f : Nat} {ts : List Term} (h : ∀ x ∈ (Term.app f ts).vars, x % 2 = 0 ∧ 0 < x) :
    ts.map (I.eval (joinV v w)) = ts.map (I.eval w) := by
  refine List.map_congr_left fun t ht => eval_join_even I v w fun x hx => (h x ?_).1
  simp only [vars, varsL_eq]
  exact List.mem_flatMap.2 ⟨t, ht, hx⟩

/-- The resolution step. -/
theorem resolution (hsg : SigOK sg) (ha : AltTyped sg) {I : Interp.{u} sg} {P N RP RN : List Lit} {f : Nat} {ts us : List Term} (hP : FOC sg P) (mP : I.Models P) (mN : I.Models N)
    (pP : P.Perm (⟨true, .app f ts, tTrue⟩ :: RP)) (pN : N.Perm (⟨false, .app f us, tTrue⟩ :: RN)) {w : Nat → I.D} (hw : I.Sorted w)
    (he : (ts.map (subst ρ)).map (I.eval w) = us.map (I.eval w)) : I.ClauseTrue w (csubst ρ RP) ∨ I.ClauseTrue w RN := by
  have h1 := (copyDisjoint_ok.{u} hsg ha (wtc hP.fo) hP.ev).2 I mP w hw
  have h2 := mN w hw
  rw [copy_eq hP.fo] at h1
  rw [csubst, clauseTrue_perm (pP.map _)] at h1
  rw [clauseTrue_perm pN] at h2
  rcases (clauseTrue_cons I w _ _).1 h1 with h1 | h1
  · rcases (clauseTrue_cons I w _ _).1 h2 with h2 | h2
    · exfalso
      have h1 : I.LitTrue w ⟨true, .app f (ts.map (subst ρ)), tTrue⟩ := by
        have e : (⟨true, .app f ts, tTrue⟩ : Lit).subst (fun x => .var (x - 1)) = ⟨true, .app f (ts.map (subst ρ)), tTrue⟩ := by
          simp only [Lit.subst, subst_app]
          rfl
        rw [e] at h1
        exact h1
      rw [atom_true] at h1 h2
      rw [he] at h1
      simp at h1 h2
      exact h2 h1
    · exact .inr h2
  · exact .inl h1

/-- What is used about a resolvent: it follows from its parents, and it is false if both parents are false apart from the literals resolved upon. -/
structure Res (sg : Sig) (f : Nat) (P N : List Lit) (cond : Interp.{u} sg → Prop) (res : Option (List Lit)) (ts us : List Term) (RP RN : List Lit) : Prop where
  pp : P.Perm (⟨true, .app f ts, tTrue⟩ :: RP)
  nn : N.Perm (⟨false, .app f us, tTrue⟩ :: RN)
  fo : ∀ R, res = some R → ∀ K ∈ R, FOLit sg K
  cnt : ∀ R, res = some R → ∀ g, cnt g R ≤ cnt g RP + cnt g RN
  sound : ∀ R, res = some R → ∀ I : Interp.{u} sg, I.Models P → I.Models N → I.Models R
  refute : ∀ (I : Interp.{u} sg) (v w : Nat → I.D), cond I → I.Sorted v → I.Sorted w → ts.map (I.eval v) = us.map (I.eval w) →
    ∃ R, res = some R ∧ ∃ u, I.Sorted u ∧ (I.ClauseTrue u R → I.ClauseTrue v RP ∨ I.ClauseTrue w RN)

theorem distinct_ρ {f : Nat} {ts : List Term} (hd : distinctVars ts = true) (he : ∀ x ∈ (Term.app f ts).vars, x % 2 = 0 ∧ 0 < x) : distinctVars (ts.map (subst ρ)) = true := by
  simp only [distinctVars, Bool.and_eq_true, List.all_eq_true, decide_eq_true_eq] at hd ⊢
  refine ⟨fun t ht => ?_, ?_⟩
  · obtain ⟨s, hs, rfl⟩ := List.mem_map.1 ht
    have := hd.1 s hs
    cases s with
    | var x => rfl
    | app g us => simp [Term.isVar] at this
  · refine List.Nodup.map_on (fun s hs t ht h => ?_) hd.2
    have h1 := hd.1 s hs
    have h2 := hd.1 t ht
    cases s with
    | app g us => simp [Term.isVar] at h1
    | var x =>
      cases t with
      | app g us => simp [Term.isVar] at h2
      | var y =>
        have hx := he x (by simp only [vars, varsL_eq]; exact List.mem_flatMap.2 ⟨_, hs, by simp [vars]⟩)
        have hy := he y (by simp only [vars, varsL_eq]; exact List.mem_flatMap.2 ⟨_, ht, by simp [vars]⟩)
        simp only [Term.subst, ρ, Term.var.injEq] at h
        rw [Term.var.injEq]
        omega

theorem disjoint_ρ {f : Nat} {ts us : List Term} (he : ∀ x ∈ (Term.app f ts).vars, x % 2 = 0 ∧ 0 < x) (hu : ∀ x ∈ (Term.app f us).vars, x % 2 = 0 ∧ 0 < x) :
    ∀ x ∈ (Term.app f (ts.map (subst ρ))).vars, x ∉ (Term.app f us).vars := by
  intro x hx hx'
  have h1 := hu x hx'
  simp only [vars, varsL_eq] at hx
  obtain ⟨t, ht, hx⟩ := List.mem_flatMap.1 hx
  obtain ⟨s, hs, rfl⟩ := List.mem_map.1 ht
  obtain ⟨y, hy, hx⟩ := mem_vars_subst.1 hx
  simp only [ρ, vars, List.mem_singleton] at hx
  have := he y (by simp only [vars, varsL_eq]; exact List.mem_flatMap.2 ⟨s, hs, hy⟩)
  omega

theorem lit_wt {f : Nat} {P RP : List Lit} {ts : List Term} {b : Bool} (hP : FOC sg P) (pP : P.Perm (⟨b, .app f ts, tTrue⟩ :: RP)) : sg.WT (.app f ts) :=
  ((foc_perm pP hP).fo _ (List.mem_cons_self ..)).wt.1

theorem lit_even {f : Nat} {P RP : List Lit} {ts : List Term} {b : Bool} (hP : FOC sg P) (pP : P.Perm (⟨b, .app f ts, tTrue⟩ :: RP)) :
    ∀ x ∈ (Term.app f ts).vars, x % 2 = 0 ∧ 0 < x :=
  fun x hx => even_of (foc_perm pP hP).ev (List.mem_cons_self ..) x (by simp [Lit.vars, hx])

theorem wt_ρ (ha : AltTyped sg) {f : Nat} {ts : List Term} (hw : sg.WT (.app f ts)) (he : ∀ x ∈ (Term.app f ts).vars, x % 2 = 0 ∧ 0 < x) : sg.WT (.app f (ts.map (subst ρ))) := by
  have : (Term.app f ts).subst ρ = (Term.app f ts).subst fun x => if x % 2 = 0 ∧ 0 < x then .var (x - 1) else .var x :=
    subst_congr fun x hx => by
      show Term.var (x - 1) = _
      rw [if_pos (he x hx)]
  rw [← subst_app, this]
  refine Sig.wt_subst (fun x => ?_) hw
  split
  · rename_i h
    exact ⟨ha x h.1 h.2, by simp [Sig.WT]⟩
  · exact ⟨rfl, by simp [Sig.WT]⟩

section
variable (hsg : SigOK sg) (hF : FOSig sg) (ha : AltTyped sg) {f : Nat} {P N RP RN : List Lit} {ts us : List Term}
  (hP : FOC sg P) (hN : FOC sg N) (pP : P.Perm (⟨true, .app f ts, tTrue⟩ :: RP)) (pN : N.Perm (⟨false, .app f us, tTrue⟩ :: RN))

include hsg hF ha hP hN pP pN in
/-- The resolvent by a most general unifier. -/
theorem mgu_res {pp : Term → Bool} {k : Nat} {a b : List Term} (hab : a = ts.map (subst ρ) ∧ b = us ∨ a = us ∧ b = ts.map (subst ρ)) {st : SubstSt}
    (h : unify sg pp k (.app f a) (.app f b) ⟨fun _ => none, []⟩ = some (true, st)) {A B : List Lit} (hA : copyLits st.bind (fun _ => none) k (csubst ρ RP) = some A)
    (hB : copyLits st.bind (fun _ => none) k RN = some B) :
    (∀ K ∈ peFinish sg (A ++ B), FOLit sg K) ∧ (∀ g, cnt g (peFinish sg (A ++ B)) ≤ cnt g RP + cnt g RN) ∧
      ((∀ K ∈ P, K.equ = false) → (∀ K ∈ N, K.equ = false) → ∀ K ∈ peFinish sg (A ++ B), K.equ = false) ∧
      ∀ I : Interp.{u} sg, I.Models P → I.Models N → I.Models (peFinish sg (A ++ B)) := by
  have w1 := wt_ρ ha (lit_wt hP pP) (lit_even hP pP)
  have w2 := lit_wt hN pN
  have hRP := foc_tail (foc_perm pP hP)
  have hRN := foc_tail (foc_perm pN hN)
  obtain ⟨c1, c2, c3⟩ := copy_fo hsg hF ha hRP
  obtain ⟨σ, g1, g2, -, g4⟩ := mgu_inst (by rcases hab with ⟨rfl, rfl⟩ | ⟨rfl, rfl⟩ <;> assumption) (by rcases hab with ⟨rfl, rfl⟩ | ⟨rfl, rfl⟩ <;> assumption) h
  have hu : (ts.map (subst ρ)).map (subst σ) = us.map (subst σ) := by
    rcases hab with ⟨rfl, rfl⟩ | ⟨rfl, rfl⟩
    · simpa [subst_app] using g2
    · simpa [subst_app, eq_comm] using g2
  have eA := g4 _ _ hA
  have eB := g4 _ _ hB
  have hs := finish_sublist (sg := sg) (A ++ B)
  have fA := insts_fo hsg hF g1 c1
  have fB := insts_fo hsg hF g1 hRN.fo
  refine ⟨fun K hK => ?_, fun g => ?_, fun e1 e2 K hK => ?_, fun I mP mN w hw => ?_⟩
  · rcases List.mem_append.1 (hs.subset hK) with hK | hK
    · rw [eA] at hK; exact fA K hK
    · rw [eB] at hK; exact fB K hK
  · refine (cnt_finish g _).trans ?_
    rw [eA, eB]
    unfold cnt
    rw [List.countP_append]
    exact le_of_eq (congrArg₂ _ ((cnt_insts hsg hF g1 c1 g).trans (c2 g)) (cnt_insts hsg hF g1 hRN.fo g))
  · rcases List.mem_append.1 (hs.subset hK) with hK | hK
    · rw [eA] at hK
      obtain ⟨L, hL, rfl⟩ := List.mem_map.1 hK
      rw [(inst_fo hsg hF g1 (c1 L hL)).2.2.1]
      exact c3 (fun K hK => e1 K (pP.mem_iff.2 (List.mem_cons_of_mem _ hK))) L hL
    · rw [eB] at hK
      obtain ⟨L, hL, rfl⟩ := List.mem_map.1 hK
      rw [(inst_fo hsg hF g1 (hRN.fo L hL)).2.2.1]
      exact e2 L (pN.mem_iff.2 (List.mem_cons_of_mem _ hL))
  · refine (InferProof.finish_true I w _).2 ((clauseTrue_append I w _ _).2 ?_)
    have hw' := sorted_subst I hw g1
    have := resolution hsg ha hP mP mN pP pN hw' (by
      have := congrArg (List.map (I.eval w)) hu
      simp only [List.map_map] at this ⊢
      have e : (fun t : Term => I.eval (fun x => I.eval w (σ x)) t) = I.eval w ∘ subst σ := funext fun t => (eval_subst I w σ t).symm
      show List.map ((fun t : Term => I.eval (fun x => I.eval w (σ x)) t) ∘ subst ρ) ts = List.map (fun t : Term => I.eval (fun x => I.eval w (σ x)) t) us
      rw [e]
      exact this)
    rw [eA, eB]
    refine this.imp ?_ ?_
    · rintro ⟨L, hL, hT⟩
      refine ⟨_, List.mem_map.2 ⟨L, hL, rfl⟩, (mkEqn_true hsg I hw (wtLit_subst (c1 L hL).wt g1)).2 ?_⟩
      show I.LitTrue w (L.subst σ)
      rw [litTrue_subst]
      exact hT
    · rintro ⟨L, hL, hT⟩
      refine ⟨_, List.mem_map.2 ⟨L, hL, rfl⟩, (mkEqn_true hsg I hw (wtLit_subst (hRN.fo L hL).wt g1)).2 ?_⟩
      show I.LitTrue w (L.subst σ)
      rw [litTrue_subst]
      exact hT

include hF ha hP hN pP pN in
/-- Unifiers exist in term models, and if the arguments of one literal are different variables. -/
theorem good_uni {I : Interp.{u} sg} {v w : Nat → I.D} (hv : I.Sorted v) (hw : I.Sorted w) (he : ts.map (I.eval v) = us.map (I.eval w))
    (hc : (∃ d, Herb sg I d) ∨ distinctVars (ts.map (subst ρ)) = true ∨ distinctVars us = true) : GoodUni sg I (joinV v w) f (ts.map (subst ρ)) us := by
  have w1 := wt_ρ ha (lit_wt hP pP) (lit_even hP pP)
  have w2 := lit_wt hN pN
  have ee : (ts.map (subst ρ)).map (I.eval (joinV v w)) = us.map (I.eval (joinV v w)) := by
    rw [args_copy v w (lit_even hP pP), args_plain v w (lit_even hN pN), he]
  rcases hc with ⟨d, hd⟩ | hc | hc
  · exact herb_uni hF hd (join_sorted ha I hv hw) w1 w2 ee
  · exact zip_uni w1 w2 hc (disjoint_ρ (lit_even hP pP) (lit_even hN pN)) ee
  · refine (zip_uni w2 w1 hc (fun x hx hx' => ?_) ee.symm).symm
    exact disjoint_ρ (lit_even hP pP) (lit_even hN pN) x hx' hx

include hsg ha hP hN pP pN in
theorem mgu_refute {I : Interp.{u} sg} {v w : Nat → I.D} (hv : I.Sorted v) (hw : I.Sorted w) {pp : Term → Bool} {k : Nat} {a b : List Term}
    (hab : a = ts.map (subst ρ) ∧ b = us ∨ a = us ∧ b = ts.map (subst ρ)) {st : SubstSt} {r : Bool} (hg : GoodUni sg I (joinV v w) f (ts.map (subst ρ)) us)
    (h : unify sg pp k (.app f a) (.app f b) ⟨fun _ => none, []⟩ = some (r, st)) :
    r = true ∧ ∀ A B, (∀ K ∈ csubst ρ RP, FOLit sg K) → copyLits st.bind (fun _ => none) k (csubst ρ RP) = some A → copyLits st.bind (fun _ => none) k RN = some B →
      ∃ u, I.Sorted u ∧ (I.ClauseTrue u (peFinish sg (A ++ B)) → I.ClauseTrue v RP ∨ I.ClauseTrue w RN) := by
  have w1 := wt_ρ ha (lit_wt hP pP) (lit_even hP pP)
  have w2 := lit_wt hN pN
  have hRP := foc_tail (foc_perm pP hP)
  have hRN := foc_tail (foc_perm pN hN)
  have hg' : GoodUni sg I (joinV v w) f a b := by
    rcases hab with ⟨rfl, rfl⟩ | ⟨rfl, rfl⟩
    · exact hg
    · exact hg.symm
  obtain ⟨h1, h2⟩ := uni_true hsg (join_sorted ha I hv hw) (by rcases hab with ⟨rfl, rfl⟩ | ⟨rfl, rfl⟩ <;> assumption)
    (by rcases hab with ⟨rfl, rfl⟩ | ⟨rfl, rfl⟩ <;> assumption) hg' h
  refine ⟨h1, fun A B c1 hA hB => ⟨joinV v w, join_sorted ha I hv hw, fun hT => ?_⟩⟩
  rcases (clauseTrue_append I _ _ _).1 ((InferProof.finish_true I _ _).1 hT) with hT | hT
  · exact .inl ((copy_join v w hRP).1 ((h2 _ _ (wtc c1) hA).1 hT))
  · exact .inr ((plain_join v w hRN).1 ((h2 _ _ (wtc hRN.fo) hB).1 hT))

end

/-- The literal of a clause that `buildNeq` takes from its first argument, and the other literals. -/
def HeadC (f : Nat) (P : List Lit) (ts : List Term) (RP : List Lit) : Prop :=
  findHead f (some true) (copyDisjoint P) [] = some (⟨true, .app f (ts.map (subst ρ)), tTrue⟩, csubst ρ RP) ∧ P.Perm (⟨true, .app f ts, tTrue⟩ :: RP)

/-- The literal of a clause that `buildNeq` takes from its second argument, and the other literals. -/
def HeadN (f : Nat) (N : List Lit) (us : List Term) (RN : List Lit) : Prop :=
  findHead f (some false) N [] = some (⟨false, .app f us, tTrue⟩, RN) ∧ N.Perm (⟨false, .app f us, tTrue⟩ :: RN)

theorem buildNeq_heads {p : PeParams} (hsg : SigOK p.sg) (hF : FOSig p.sg) {f : Nat} (hp : PredOK p.sg f) {k : Nat} {P N : List Lit} (hP : FOC p.sg P) (hN : FOC p.sg N)
    {res : Option (List Lit)} (h : buildNeq p k P N f = some res) : (∃ ts RP, HeadC f P ts RP) ∧ ∃ us RN, HeadN f N us RN := by
  unfold buildNeq at h
  rw [copy_id hN.fo] at h
  split at h
  case h_2 => cases h
  case h_1 pl prest nl nrest h1 h2 =>
    obtain ⟨b, ts, RP, hb, pP, rfl, rfl⟩ := head_copy hsg hF hp hP h1
    obtain ⟨b', us, hb', pN, rfl⟩ := head_plain hsg hF hp hN h2
    obtain rfl : b = true := by simpa using hb.symm
    obtain rfl : b' = false := by simpa using hb'.symm
    exact ⟨⟨ts, RP, h1, pP⟩, us, nrest, h2, pN⟩

theorem buildNeq_at {p : PeParams} (hsg : SigOK p.sg) (hF : FOSig p.sg) (ha : AltTyped p.sg) {f : Nat} {k : Nat} {P N : List Lit} (hP : FOC p.sg P) (hN : FOC p.sg N)
    {res : Option (List Lit)} {ts us : List Term} {RP nrest : List Lit} (hh1 : HeadC f P ts RP) (hh2 : HeadN f N us nrest) (h : buildNeq p k P N f = some res) :
    Res.{u} p.sg f P N (fun I => (∃ d, Herb p.sg I d) ∨ distinctVars ts = true ∨ distinctVars us = true) res ts us RP nrest ∧
      ∀ R, res = some R → (∀ K ∈ P, K.equ = false) → (∀ K ∈ N, K.equ = false) → ∀ K ∈ R, K.equ = false := by
  obtain ⟨h1, pP⟩ := hh1
  obtain ⟨h2, pN⟩ := hh2
  unfold buildNeq at h
  rw [copy_id hN.fo, h1, h2] at h
  have cop := copy_fo hsg hF ha (foc_tail (foc_perm pP hP))
  have hgu : ∀ (I : Interp.{u} p.sg) (v w : Nat → I.D), ((∃ d, Herb p.sg I d) ∨ distinctVars ts = true ∨ distinctVars us = true) → I.Sorted v → I.Sorted w →
      ts.map (I.eval v) = us.map (I.eval w) → GoodUni p.sg I (joinV v w) f (ts.map (subst ρ)) us := fun I v w hc hv hw he =>
    good_uni hF ha hP hN pP pN hv hw he (hc.imp_right fun h => h.imp_left fun h => distinct_ρ h (lit_even hP pP))
  dsimp only at h
  split at h
  · cases h
  · rename_i st hu
    cases h
    refine ⟨⟨pP, pN, by simp, by simp, by simp, fun I v w hc hv hw he => ?_⟩, by simp⟩
    have := (mgu_refute hsg ha hP hN pP pN hv hw (.inr ⟨rfl, rfl⟩) (hgu I v w hc hv hw he) hu).1
    cases this
  · rename_i st hu
    split at h
    · rename_i A B hA hB
      cases h
      obtain ⟨r1, r2, r3, r4⟩ := mgu_res.{u} hsg hF ha hP hN pP pN (.inr ⟨rfl, rfl⟩) hu hA hB
      refine ⟨⟨pP, pN, ?_, ?_, ?_, fun I v w hc hv hw he => ?_⟩, ?_⟩
      · rintro _ ⟨⟩; exact r1
      · rintro _ ⟨⟩; exact r2
      · rintro _ ⟨⟩; exact r4
      · exact ⟨_, rfl, (mgu_refute hsg ha hP hN pP pN hv hw (.inr ⟨rfl, rfl⟩) (hgu I v w hc hv hw he) hu).2 A B cop.1 hA hB⟩
      · rintro _ ⟨⟩; exact r3
    · cases h

/-- The resolvents of `buildNeq`. -/
theorem buildNeq_res {p : PeParams} (hsg : SigOK p.sg) (hF : FOSig p.sg) (ha : AltTyped p.sg) {f : Nat} (hp : PredOK p.sg f) {k : Nat} {P N : List Lit} (hP : FOC p.sg P) (hN : FOC p.sg N)
    {res : Option (List Lit)} (h : buildNeq p k P N f = some res) :
    ∃ ts us RP RN, Res.{u} p.sg f P N (fun I => (∃ d, Herb p.sg I d) ∨ distinctVars ts = true ∨ distinctVars us = true) res ts us RP RN ∧
      ∀ R, res = some R → (∀ K ∈ P, K.equ = false) → (∀ K ∈ N, K.equ = false) → ∀ K ∈ R, K.equ = false := by
  obtain ⟨⟨ts, RP, h1⟩, us, RN, h2⟩ := buildNeq_heads hsg hF hp hP hN h
  exact ⟨ts, us, RP, RN, buildNeq_at hsg hF ha hP hN h1 h2 h⟩

/-! ## Disequations -/

theorem diseq_fo (hsg : SigOK sg) {s t : Term} (hs : sg.WT s) (ht : sg.WT t) (he : sg.ty s = sg.ty t) (hb : sg.ty s ≠ sg.fty 1) :
    mkEqn false s t = ⟨false, s, t⟩ ∧ FOLit sg (mkEqn false s t) ∧ (mkEqn false s t).predCode? = none := by
  have hb' : sg.ty t ≠ sg.fty 1 := he ▸ hb
  have nl1 : s ≠ tTrue := fun h => hb (by rw [h]; rfl)
  have nl2 : s ≠ tFalse := fun h => hb (by rw [h]; exact hsg.tf.symm)
  have nr1 : t ≠ tTrue := fun h => hb' (by rw [h]; rfl)
  have nr2 : t ≠ tFalse := fun h => hb' (by rw [h]; exact hsg.tf.symm)
  have e : mkEqn false s t = ⟨false, s, t⟩ := by simp [mkEqn, nl1, nl2, nr2]
  rw [e]
  exact ⟨rfl, ⟨⟨hs, ht, he⟩, ⟨nl2, nr2, fun h => absurd h nl1⟩, nl1, fun h => absurd h hb⟩, by simp [Lit.predCode?, Lit.equ, nr1]⟩

theorem diseqs_fo (hsg : SigOK sg) (hF : FOSig sg) {f : Nat} {ss ts : List Term} (hs : sg.WT (.app f ss)) (ht : sg.WT (.app f ts)) :
    ∀ K ∈ List.zipWith (fun s t => mkEqn false s t) ss ts, FOLit sg K ∧ K.predCode? = none := by
  intro K hK
  rw [← List.map_uncurry_zip_eq_zipWith, List.mem_map] at hK
  obtain ⟨⟨s, t⟩, hm, rfl⟩ := hK
  have h1 := (List.of_mem_zip hm).1
  have h2 := (List.of_mem_zip hm).2
  have hty : sg.ty s = sg.ty t := by
    have htys : ss.map sg.ty = ts.map sg.ty := (Sig.wt_app.1 hs).1.trans (Sig.wt_app.1 ht).1.symm
    obtain ⟨i, hi, e⟩ := List.getElem_of_mem hm
    simp only [List.getElem_zip, Prod.mk.injEq] at e
    have := congrArg (fun l => l[i]?) htys
    simp only [List.getElem?_map] at this
    rw [List.getElem?_eq_getElem (by simp at hi; omega), List.getElem?_eq_getElem (by simp at hi; omega), e.1, e.2] at this
    simpa using this
  exact (diseq_fo hsg ((Sig.wt_app.1 hs).2 s h1) ((Sig.wt_app.1 ht).2 t h2) hty (arg_ty hF hs h1)).2

theorem diseqs_true (hsg : SigOK sg) {I : Interp.{u} sg} {w : Nat → I.D} (hw : I.Sorted w) : ∀ {ss ts : List Term}, ss.map sg.ty = ts.map sg.ty → (∀ s ∈ ss, sg.WT s) → (∀ t ∈ ts, sg.WT t) →
    (I.ClauseTrue w (List.zipWith (fun s t => mkEqn false s t) ss ts) ↔ ss.map (I.eval w) ≠ ts.map (I.eval w))
  | [], [], _, _, _ => by simp [Interp.ClauseTrue]
  | [], _ :: _, h, _, _ => by simp at h
  | _ :: _, [], h, _, _ => by simp at h
  | s :: ss, t :: ts, h, h1, h2 => by
    simp only [List.map_cons, List.cons.injEq] at h
    rw [List.zipWith_cons_cons, clauseTrue_cons, diseqs_true hsg hw h.2 (fun s hs => h1 s (List.mem_cons_of_mem _ hs)) (fun t ht => h2 t (List.mem_cons_of_mem _ ht)),
      mkEqn_true hsg I hw ⟨h1 s (List.mem_cons_self ..), h2 t (List.mem_cons_self ..), h.1⟩]
    simp only [Interp.LitTrue, List.map_cons, ne_eq, List.cons.injEq, not_and_or]
    simp

/-- The resolvents of `buildEq`. -/
theorem buildEq_res {p : PeParams} (hsg : SigOK p.sg) (hF : FOSig p.sg) (ha : AltTyped p.sg) {f : Nat} (hp : PredOK p.sg f) {k : Nat} {P N : List Lit} (hP : FOC p.sg P) (hN : FOC p.sg N)
    {res : Option (List Lit)} (h : buildEq p k P N f = some res) :
    ∃ ts us RP RN, Res.{u} p.sg f P N (fun _ => True) res ts us RP RN := by
  unfold buildEq at h
  rw [copy_id hN.fo] at h
  split at h
  case h_2 => cases h
  case h_1 pl prest nl nrest h1 h2 =>
    obtain ⟨b, ts, RP, hb, pP, rfl, rfl⟩ := head_copy hsg hF hp hP h1
    obtain ⟨b', us, hb', pN, rfl⟩ := head_plain hsg hF hp hN h2
    obtain rfl : b = true := by simpa using hb.symm
    obtain rfl : b' = false := by simpa using hb'.symm
    have hRP := foc_tail (foc_perm pP hP)
    have hRN := foc_tail (foc_perm pN hN)
    have cop := copy_fo hsg hF ha hRP
    have w1 := wt_ρ ha (lit_wt hP pP) (lit_even hP pP)
    have w2 := lit_wt hN pN
    refine ⟨ts, us, RP, nrest, ?_⟩
    split at h
    · rename_i hd
      dsimp only at h
      have hd : (distinctVars (ts.map (subst ρ)) || distinctVars us) = true := hd
      rw [Bool.or_eq_true] at hd
      split at h
      · cases h
      · rename_i r st hu
        obtain rfl : r = true := by
          rcases hd with hd | hd
          · obtain ⟨z1, z2, _⟩ := zip_unifies.{0} w1 w2 hd (disjoint_ρ (lit_even hP pP) (lit_even hN pN))
            exact mgu_true rfl rfl z1 z2 hu
          · obtain ⟨z1, z2, _⟩ := zip_unifies.{0} w2 w1 hd (fun x hx hx' => disjoint_ρ (lit_even hP pP) (lit_even hN pN) x hx' hx)
            exact mgu_true rfl rfl z1 z2.symm hu
        split at h
        · rename_i A B hA hB
          cases h
          obtain ⟨r1, r2, r3, r4⟩ := mgu_res.{u} hsg hF ha hP hN pP pN (.inl ⟨rfl, rfl⟩) hu hA hB
          refine ⟨pP, pN, ?_, ?_, ?_, fun I v w _ hv hw he => ?_⟩
          · rintro _ ⟨⟩; exact r1
          · rintro _ ⟨⟩; exact r2
          · rintro _ ⟨⟩; exact r4
          · exact ⟨_, rfl, (mgu_refute hsg ha hP hN pP pN hv hw (.inl ⟨rfl, rfl⟩) (good_uni hF ha hP hN pP pN hv hw he (.inr hd)) hu).2 A B cop.1 hA hB⟩
        · cases h
    · simp only [Term.argList] at h
      cases h
      have hdf := diseqs_fo hsg hF w1 w2
      have htys : (ts.map (subst ρ)).map p.sg.ty = us.map p.sg.ty := (Sig.wt_app.1 w1).1.trans (Sig.wt_app.1 w2).1.symm
      refine ⟨pP, pN, ?_, ?_, ?_, fun I v w _ hv hw he => ?_⟩
      · rintro _ ⟨⟩ K hK
        have hK := (finish_sublist _).subset hK
        simp only [List.mem_append, List.mem_reverse] at hK
        rcases hK with (hK | hK) | hK
        · exact (hdf K hK).1
        · exact cop.1 K hK
        · exact hRN.fo K hK
      · rintro _ ⟨⟩ g
        refine (cnt_finish g _).trans ?_
        have e1 : cnt g (List.zipWith (fun s t => mkEqn false s t) (ts.map (subst ρ)) us).reverse = 0 := by
          unfold cnt
          rw [List.countP_eq_zero]
          intro K hK
          rw [List.mem_reverse] at hK
          simp [(hdf K hK).2]
        have e2 := cop.2.1 g
        unfold cnt at *
        rw [List.countP_append, List.countP_append, e1, e2]
        omega
      · rintro _ ⟨⟩ I mP mN w hw
        refine (InferProof.finish_true I w _).2 ?_
        rw [clauseTrue_append, clauseTrue_append, clauseTrue_perm (List.reverse_perm _), diseqs_true hsg hw htys (Sig.wt_app.1 w1).2 (Sig.wt_app.1 w2).2]
        by_cases he : (ts.map (subst ρ)).map (I.eval w) = us.map (I.eval w)
        · rcases resolution hsg ha hP mP mN pP pN hw he with h | h
          · exact .inl (.inr h)
          · exact .inr h
        · exact .inl (.inl he)
      · refine ⟨_, rfl, joinV v w, join_sorted ha I hv hw, fun hT => ?_⟩
        have hT := (InferProof.finish_true I _ _).1 hT
        rw [clauseTrue_append, clauseTrue_append, clauseTrue_perm (List.reverse_perm _), diseqs_true hsg (join_sorted ha I hv hw) htys (Sig.wt_app.1 w1).2 (Sig.wt_app.1 w2).2,
          args_copy v w (lit_even hP pP), args_plain v w (lit_even hN pN), copy_join v w hRP, plain_join v w hRN] at hT
        rcases hT with (hT | hT) | hT
        · exact absurd he hT
        · exact .inl hT
        · exact .inr hT

end Verif.PeProof
