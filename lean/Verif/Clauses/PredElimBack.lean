import Verif.Clauses.PredElimSem

/-!
# Predicate elimination: giving a meaning to the predicate
-/

namespace Verif.PeProof
open SemProof Props CNFProof SaturateProof BceProof Term Classical

universe u

variable {sg : Sig}

/-! ## A new meaning for a predicate -/

noncomputable def setFn (I : Interp.{u} sg) (p : Nat) (S : Set (List I.D)) : Nat → List I.D → I.D :=
  fun s ds => if s = p then tv I (decide (ds ∈ S)) else I.fn s ds

theorem set_other (I : Interp.{u} sg) {p s : Nat} {S : Set (List I.D)} (h : s ≠ p) : setFn I p S s = I.fn s := by
  funext ds
  simp [setFn, h]

theorem set_self (I : Interp.{u} sg) {p : Nat} {S : Set (List I.D)} (ds : List I.D) : setFn I p S p ds = tv I (decide (ds ∈ S)) := if_pos rfl

theorem set_ok (hsg : SigOK sg) (hF : FOSig sg) (I : Interp.{u} sg) {p : Nat} (hp : PredOK sg p) (S : Set (List I.D)) : I.FnOK (setFn I p S) := by
  have h1 : setFn I p S 1 = I.fn 1 := set_other I hp.one.symm
  have h2 : setFn I p S 2 = I.fn 2 := set_other I hp.two.symm
  have hd : ∀ f, sg.distinct f → f ≠ p := by
    rintro f hf rfl
    exact hF.dist f hf hp.ty
  refine ⟨?_, ?_, ?_, ?_⟩
  · intro f ds hds
    unfold setFn
    split
    · next h =>
      rw [h, hp.ty]
      unfold tv
      split
      · exact I.fn_mem 1 [] (by rw [hsg.targs]; exact .nil)
      · rw [hsg.tf]; exact I.fn_mem 2 [] (by rw [hsg.fargs]; exact .nil)
    · exact I.fn_mem f ds hds
  · rw [h1, h2]; exact I.tf
  · rw [h1, h2]; exact I.bool2
  · intro f g hf hg hfg
    rw [set_other I (hd f hf), set_other I (hd g hg)]
    exact I.dist f g hf hg hfg

noncomputable def setI (hsg : SigOK sg) (hF : FOSig sg) (I : Interp.{u} sg) {p : Nat} (hp : PredOK sg p) (S : Set (List I.D)) : Interp.{u} sg :=
  I.reint (setFn I p S) (set_ok hsg hF I hp S)

section
variable (hsg : SigOK sg) (hF : FOSig sg) (I : Interp.{u} sg) {p : Nat} (hp : PredOK sg p) (S : Set (List I.D))

theorem eval_set (v : Nat → I.D) (t : Term) (hw : sg.WT t) (ht : sg.ty t ≠ sg.fty 1) : (setI hsg hF I hp S).eval v t = I.eval v t := by
  induction t using Term.ind with
  | hv x => rfl
  | ha f ts ih =>
    have hf : f ≠ p := by
      rintro rfl
      exact ht hp.ty
    rw [eval_app I]
    refine (eval_app (setI hsg hF I hp S) v f ts).trans ((congrFun (set_other I hf) _).trans (congrArg _ ?_))
    exact List.map_congr_left fun t h => ih t h ((Sig.wt_app.1 hw).2 t h) (arg_ty hF hw h)

theorem evals_set (v : Nat → I.D) {f : Nat} {ts : List Term} (hw : sg.WT (.app f ts)) : ts.map ((setI hsg hF I hp S).eval v) = ts.map (I.eval v) :=
  List.map_congr_left fun t h => eval_set hsg hF I hp S v t ((Sig.wt_app.1 hw).2 t h) (arg_ty hF hw h)

theorem true_set : (setI hsg hF I hp S).fn 1 [] = I.fn 1 [] := congrFun (set_other I hp.one.symm) []

theorem lit_set_other (v : Nat → I.D) {K : Lit} (hK : FOLit sg K) (h : K.predCode? ≠ some p) : (setI hsg hF I hp S).LitTrue v K ↔ I.LitTrue v K := by
  have key : (setI hsg hF I hp S).eval v K.l = I.eval v K.l ∧ (setI hsg hF I hp S).eval v K.r = I.eval v K.r := by
    rcases lit_cases hsg hF hK with ⟨_, h2, _⟩ | ⟨f, ts, e, _, _, h3, h4, _, h5⟩
    · exact ⟨eval_set hsg hF I hp S v _ hK.wt.1 h2, eval_set hsg hF I hp S v _ hK.wt.2.1 (hK.wt.2.2 ▸ h2)⟩
    · have hf : f ≠ p := by
        rintro rfl
        exact h h5
      rw [e]
      refine ⟨?_, ?_⟩
      · show (setI hsg hF I hp S).eval v (.app f ts) = I.eval v (.app f ts)
        rw [eval_app I]
        exact (eval_app (setI hsg hF I hp S) v f ts).trans ((congrFun (set_other I hf) _).trans (congrArg _ (evals_set hsg hF I hp S v h4)))
      · show (setI hsg hF I hp S).eval v tTrue = I.eval v tTrue
        rw [eval_true I]
        exact (eval_true (setI hsg hF I hp S) v).trans (true_set hsg hF I hp S)
  unfold Interp.LitTrue
  rw [key.1, key.2]
  rfl

theorem lit_set (v : Nat → I.D) {b : Bool} {ts : List Term} (hw : sg.WT (.app p ts)) :
    (setI hsg hF I hp S).LitTrue v ⟨b, .app p ts, tTrue⟩ ↔ (b = true ↔ ts.map (I.eval v) ∈ S) := by
  have e1 : (setI hsg hF I hp S).eval v (.app p ts) = tv I (decide (ts.map (I.eval v) ∈ S)) := by
    refine (eval_app (setI hsg hF I hp S) v p ts).trans ((congrArg _ (evals_set hsg hF I hp S v hw)).trans ?_)
    exact set_self I _
  have e2 : (setI hsg hF I hp S).eval v tTrue = I.fn 1 [] := (eval_true (setI hsg hF I hp S) v).trans (true_set hsg hF I hp S)
  unfold Interp.LitTrue
  simp only [e1, e2, tv]
  have := I.tf
  by_cases hm : ts.map (I.eval v) ∈ S <;> cases b <;> simp only [hm, decide_true, decide_false]
  · exact ⟨fun h => absurd rfl h, fun h => by simp at h⟩
  · exact ⟨fun _ => by simp, fun _ => rfl⟩
  · exact ⟨fun _ => by simp, fun _ h => this h.symm⟩
  · exact ⟨fun h => absurd h.symm this, fun h => by simp at h⟩

theorem clause_set_other (v : Nat → I.D) {C : List Lit} (hC : ∀ K ∈ C, FOLit sg K) (h : cnt p C = 0) : (setI hsg hF I hp S).ClauseTrue v C ↔ I.ClauseTrue v C := by
  unfold cnt at h
  rw [List.countP_eq_zero] at h
  exact exists_congr fun K => and_congr_right fun hK => lit_set_other hsg hF I hp S v (hC K hK) (by simpa using h K hK)

theorem models_set_other {C : List Lit} (hC : ∀ K ∈ C, FOLit sg K) (h : cnt p C = 0) : (setI hsg hF I hp S).Models C ↔ I.Models C :=
  forall_congr' fun (v : Nat → I.D) => forall_congr' fun _ => clause_set_other hsg hF I hp S v hC h

theorem herb_set {d : I.D → Term} (h : Herb sg I d) : Herb sg (setI hsg hF I hp S) d :=
  ⟨h.inj, fun v hv => h.wt v hv, fun (v : Nat → I.D) t hw ht => (congrArg d (eval_set hsg hF I hp S v t hw ht)).trans (h.eval v t hw ht)⟩

end

/-! ## Clauses with one literal of the predicate -/

/-- The clause has exactly one literal with the predicate, of the given sign. -/
def One (f : Nat) (b : Bool) (C : List Lit) : Prop := ∃ ts R, C.Perm (⟨b, .app f ts, tTrue⟩ :: R) ∧ cnt f R = 0

/-- The clause demands that the predicate is true (or false) for the arguments `ds`. -/
def Demands (I : Interp.{u} sg) (f : Nat) (b : Bool) (C : List Lit) (ds : List I.D) : Prop :=
  ∃ v, I.Sorted v ∧ ∃ ts R, C.Perm (⟨b, .app f ts, tTrue⟩ :: R) ∧ ts.map (I.eval v) = ds ∧ ¬ I.ClauseTrue v R

theorem cnt_cons {f : Nat} {b : Bool} {ts : List Term} {R : List Lit} : cnt f (⟨b, .app f ts, tTrue⟩ :: R) = cnt f R + 1 := by
  unfold cnt
  rw [List.countP_cons_of_pos]
  simp [Lit.predCode?, Lit.equ]

theorem cnt_perm {f : Nat} {C D : List Lit} (h : C.Perm D) : cnt f C = cnt f D := h.countP_eq _

theorem one_unique {f : Nat} {b b' : Bool} {C R R' : List Lit} {ts ts' : List Term} (h : C.Perm (⟨b, .app f ts, tTrue⟩ :: R)) (h0 : cnt f R = 0)
    (h' : C.Perm (⟨b', .app f ts', tTrue⟩ :: R')) : b' = b ∧ ts' = ts ∧ R'.Perm R := by
  have hm : (⟨b', .app f ts', tTrue⟩ : Lit) ∈ (⟨b, .app f ts, tTrue⟩ : Lit) :: R := (h'.symm.trans h).subset (List.mem_cons_self ..)
  rcases List.mem_cons.1 hm with e | hm
  · simp only [Lit.mk.injEq, Term.app.injEq, true_and, and_true] at e
    obtain ⟨rfl, rfl⟩ := e
    exact ⟨rfl, rfl, (List.perm_cons _).1 (h'.symm.trans h)⟩
  · unfold cnt at h0
    rw [List.countP_eq_zero] at h0
    have := h0 _ hm
    simp [Lit.predCode?, Lit.equ] at this

/-- Such a clause is true if the meaning of the predicate is as demanded. -/
theorem one_models (hsg : SigOK sg) (hF : FOSig sg) (I : Interp.{u} sg) {f : Nat} (hp : PredOK sg f) (S : Set (List I.D)) {b : Bool} {C : List Lit} (hC : ∀ K ∈ C, FOLit sg K)
    (h1 : One f b C) (hd : ∀ ds, Demands I f b C ds → (b = true ↔ ds ∈ S)) : (setI hsg hF I hp S).Models C := by
  obtain ⟨ts, R, h, h0⟩ := h1
  intro (v : Nat → I.D) hv
  refine (clauseTrue_perm (I := setI hsg hF I hp S) h).2 ?_
  have hC' : ∀ K ∈ (⟨b, .app f ts, tTrue⟩ : Lit) :: R, FOLit sg K := fun K hK => hC K (h.mem_iff.2 hK)
  refine (clauseTrue_cons (setI hsg hF I hp S) v _ _).2 ?_
  by_cases hR : I.ClauseTrue v R
  · exact .inr ((clause_set_other hsg hF I hp S v (fun K hK => hC' K (List.mem_cons_of_mem _ hK)) h0).2 hR)
  · exact .inl ((lit_set hsg hF I hp S v (hC' _ (List.mem_cons_self ..)).wt.1).2 (hd _ ⟨v, hv, ts, R, h, rfl, hR⟩))

/-- If the resolvent holds, the parents do not contradict each other. -/
theorem res_contra {I : Interp.{u} sg} {f : Nat} {P N : List Lit} {cond : Interp.{u} sg → Prop} {res : Option (List Lit)} {ts us : List Term} {RP RN : List Lit}
    (h : Res sg f P N cond res ts us RP RN) (hc : cond I) (hP : One f true P) (hN : One f false N) (hm : ∀ R, res = some R → I.Models R) (ds : List I.D)
    (h1 : Demands I f true P ds) (h2 : Demands I f false N ds) : False := by
  obtain ⟨v, hv, ts', R', p1, e1, f1⟩ := h1
  obtain ⟨w, hw, us', R'', p2, e2, f2⟩ := h2
  obtain ⟨tsP, RP', q1, z1⟩ := hP
  obtain ⟨tsN, RN', q2, z2⟩ := hN
  obtain ⟨-, rfl, r1⟩ := one_unique q1 z1 p1
  obtain ⟨-, e3, r1'⟩ := one_unique q1 z1 h.pp
  obtain ⟨-, rfl, r2⟩ := one_unique q2 z2 p2
  obtain ⟨-, e4, r2'⟩ := one_unique q2 z2 h.nn
  subst e3 e4
  obtain ⟨R, eR, w', hw', himp⟩ := h.refute I v w hc hv hw (e1.trans e2.symm)
  rcases himp (hm R eR w' hw') with hT | hT
  · exact f1 ((clauseTrue_perm (r1'.trans r1.symm)).1 hT)
  · exact f2 ((clauseTrue_perm (r2'.trans r2.symm)).1 hT)

end Verif.PeProof
