import Verif.Formulas.CNFClauses

/-!
# Clausification of one formula and of a list of formulas
-/

namespace Verif.CNFProof
open Form SemProof Props

universe u

variable {sg : Sig}

theorem partsOK_wt (hs : SigOK sg) : PartsOK (fun l r => sg.WT l ∧ sg.WT r ∧ sg.ty l = sg.ty r) (fun t => sg.WT t ∧ sg.ty t = sg.fty 1) := by
  have ht : sg.WT tTrue := wt_true hs
  have hf : sg.WT tFalse := by
    simp only [tFalse, Sig.wt_app, List.not_mem_nil, false_implies, implies_true, and_true, List.map_nil]
    exact hs.fargs.symm
  refine ⟨⟨ht, ht, rfl⟩, fun t h => ⟨h.1, ht, h.2⟩, fun t h => ?_⟩
  rcases h with rfl | rfl
  · exact ⟨ht, ht, rfl⟩
  · exact ⟨hf, hf, rfl⟩

theorem partsOK_syms {n : Nat} (hn : 2 < n) : PartsOK (fun l r => l.SymsBelow n ∧ r.SymsBelow n) (fun t => t.SymsBelow n) := by
  have ht : tTrue.SymsBelow n := ⟨(by omega : 1 < n), trivial⟩
  have hf : tFalse.SymsBelow n := ⟨hn, trivial⟩
  refine ⟨⟨ht, ht⟩, fun t h => ⟨h, ht⟩, fun t h => ?_⟩
  rcases h with rfl | rfl
  · exact ⟨ht, ht⟩
  · exact ⟨hf, hf⟩

theorem partsOK_vars {P : Nat → Prop} : PartsOK (fun l r => (∀ x ∈ l.vars, P x) ∧ ∀ x ∈ r.vars, P x) (fun t => ∀ x ∈ t.vars, P x) := by
  have ht : ∀ x ∈ tTrue.vars, P x := by simp [tTrue, Term.vars]
  have hf : ∀ x ∈ tFalse.vars, P x := by simp [tFalse, Term.vars]
  refine ⟨⟨ht, ht⟩, fun t h => ⟨h, ht⟩, fun t h => ?_⟩
  rcases h with rfl | rfl
  · exact ⟨ht, ht⟩
  · exact ⟨hf, hf⟩

theorem fv_allVars {P : Nat → Prop} {f : Form} (h : f.AllVars P) : ∀ x, f.FV x → P x := by
  induction f with
  | lit p l r => rintro x (hx | hx); exacts [h.1 x hx, h.2 x hx]
  | atom t => exact h
  | not f ih => exact ih h
  | bin op f g ih1 ih2 => rintro x (hx | hx); exacts [ih1 h.1 x hx, ih2 h.2 x hx]
  | qu q y f ih => exact fun x hx => ih h.2 x hx.2

theorem valid_congr {I : Interp.{u} sg} {f g : Form} (h : ∀ v, f.Holds I v ↔ g.Holds I v) : f.Valid I ↔ g.Valid I :=
  ⟨fun hf v hv => (h v).1 (hf v hv), fun hg v hv => (h v).2 (hg v hv)⟩

theorem wtSubst_var : sg.WTSubst Term.var := fun x => ⟨rfl, trivial⟩

/-- What is known of the formula before Skolemization. -/
theorem skInv_outer {f : Form} (hb : (binders f).Nodup) (hf : ∀ y ∈ binders f, ¬ f.FV y) : SkInv f (collectFree f (fun _ => false) []) Term.var where
  nodup := hb
  new y hy h := hf y hy (mem_freeVars.1 h)
  self _ _ := rfl
  apart y _ z hz h := hz ((List.mem_singleton.1 h).symm)

/-- The formula `g`, in negation normal form with distinct quantified variables, is Skolemized. -/
theorem skolem_outer {f : Form} {n : Nat} (hn : f.IsNNF) (hb : (binders f).Nodup) (hf : ∀ y ∈ binders f, ¬ f.FV y) (h2 : 2 < n) (hs : f.SymsBelow n)
    (hd : Declared sg (skolemizeOutermost sg f n).2.2) :
    (∀ I : Interp.{u} sg, (skolemizeOutermost sg f n).1.Valid I → f.Valid I) ∧
    ∀ I : Interp.{u} sg, f.Valid I → ∃ F, ∃ h : I.FnOK F, (∀ s, ¬ CodesIn n (skolemizeOutermost sg f n).2.1 s → F s = I.fn s) ∧
      (skolemizeOutermost sg f n).1.Valid (I.reint F h) := by
  have hi := skInv_outer hb hf
  have hev : ∀ (I : Interp.{u} sg) v, (fun x => I.eval v (Term.var x)) = v := fun I v => rfl
  refine ⟨fun I h v hv => ?_, fun I h => ?_⟩
  · have := skolem_sound I f _ _ n hn hi wtSubst_var hd v hv (h v hv)
    rwa [hev] at this
  · obtain ⟨F, hF, h1, h3⟩ := skolem_extend f I _ _ n h2 hn hi (fun z hz y hy => by
      have : y = z := by simpa [Term.vars] using hy
      subst this; exact mem_freeVars.2 hz) hs (fun z => trivial) hd
    exact ⟨F, hF, h1, fun v hv => h3 v hv (h v hv :)⟩

/-- What `conjunctiveNF` computes. -/
structure CnfOut (sg : Sig) (f : Form) (b : VarBank) (n : Nat) (f' : Form) (b' : VarBank) (n' : Nat) : Prop where
  sound : ∀ I : Interp.{u} sg, f'.Valid I → f.Valid I
  extend : ∀ I : Interp.{u} sg, f.Valid I → ∃ F, ∃ h : I.FnOK F, (∀ s, ¬ CodesIn n n' s → F s = I.fn s) ∧ f'.Valid (I.reint F h)
  shape : ∃ (xs : List Nat) (c : Form), f' = xs.foldr (qu true) c ∧ c.IsCNF
  wt : f'.WT sg
  syms : f'.SymsBelow n'
  le : n ≤ n'
  grows : Grows b b'

theorem conj_out (hs : SigOK sg) {small cand : Form → Bool} {k : Nat} {f : Form} {b : VarBank} {n : Nat} {f' : Form} {b' : VarBank} {n' : Nat} {ds : List SkDecl}
    (e : conjunctiveNF sg small cand k f b n = some (f', b', n', ds)) (hb : b.Inv) (ha : BankAgrees sg b') (hv : f.AllVars (· ≤ b.fresh)) (h2 : 2 < n)
    (hw : f.WT sg) (hsy : f.SymsBelow n) (hd : Declared sg ds) : CnfOut.{u} sg f b n f' b' n' := by
  simp only [conjunctiveNF, Option.bind_eq_bind, Option.bind_eq_some_iff] at e
  obtain ⟨f1, e1, f2, e2, f3, e3, f6, e6, f7, e7, e8⟩ := e
  simp only [pure, Option.some.injEq, Prod.mk.injEq] at e8
  obtain ⟨rfl, rfl, e9⟩ := e8
  obtain rfl : n' = _ := (congrArg Prod.fst e9).symm
  obtain rfl : ds = _ := (congrArg Prod.snd e9).symm
  clear e9
  have hB := basic_simplify small k _ _ e1
  have hn2 := nnf_shape k 1 _ _ e2 hB
  have hn3 := copyMod_nnf cand k _ _ e3 hn2
  have hk : ∀ {Pl : Term → Term → Prop} {Pa : Term → Prop} {Px : Nat → Prop}, PartsOK Pl Pa → f.Parts Pl Pa Px → f3.Parts Pl Pa Px := fun hp h =>
    parts_copyMod cand k _ _ e3 (parts_nnf hp k 1 _ _ e2 (parts_simplify hp small k _ _ e1 h))
  have hw3 : f3.WT sg := hk (partsOK_wt hs) hw
  have hs3 : f3.SymsBelow n := hk (partsOK_syms h2) hsy
  have hv3 : f3.AllVars (· ≤ b.fresh) := hk partsOK_vars hv
  have hF := full_setUsed hb
  have hh3 : ∀ (I : Interp.{u} sg) v, f3.Holds I v ↔ f.Holds I v := fun I v =>
    ((copyMod_holds I cand k _ _ e3 v).trans (nnf_holds I k 1 _ _ e2 v)).trans (simplify_holds I small k _ _ e1 v)
  generalize hr : varRename sg f3 id b.setUsed = r at *
  have hn4 : r.1.IsNNF := hr ▸ varRename_nnf (sg := sg) hn3 id b.setUsed
  have hb4 : (binders r.1).Nodup ∧ ∀ y ∈ binders r.1, b.fresh < y ∧ y ≤ r.2.fresh := hr ▸ varRename_binders (sg := sg) f3 id hF
  have hfv4 : ∀ y ∈ binders r.1, ¬ r.1.FV y := by
    intro y hy hfy
    have : ∃ z, f3.FV z ∧ y = id z := varRename_fv (sg := sg) f3 id b.setUsed (by rw [hr]; exact hfy)
    obtain ⟨z, hz, e⟩ := this
    have h1 := fv_allVars hv3 z hz
    have h3 := (hb4.2 _ hy).1
    simp only [id] at e
    subst e
    exact Nat.not_lt.2 h1 h3
  have hh4 : ∀ (I : Interp.{u} sg) v, r.1.Holds I v ↔ f3.Holds I v := fun I v => by
    have := varRename_holds (sg := sg) I f3 id hF (by rw [hr]; exact ha) (fun z hz => fv_allVars hv3 z hz) v
    rw [hr] at this; exact this
  have hw4 : r.1.WT sg := by
    have := varRename_wt (sg := sg) f3 id hF (by rw [hr]; exact ha) (fun z => rfl) hw3
    rwa [hr] at this
  have hs4 : r.1.SymsBelow n := hr ▸ varRename_syms (sg := sg) f3 id b.setUsed hs3
  have hg : Grows b r.2 := by
    have := varRename_grows (sg := sg) f3 id hF
    rw [hr] at this
    exact ⟨this.full, this.le, this.stk⟩
  have hi := skInv_outer hb4.1 hfv4
  obtain ⟨q1, q2⟩ := skolem_outer.{u} (sg := sg) (n := n) hn4 hb4.1 hfv4 h2 hs4 hd
  have hn5 := skolem_shape (sg := sg) hn4 (collectFree r.1 (fun _ => false) []) Term.var n
  have hb5 := skolem_binders (sg := sg) r.1 (collectFree r.1 (fun _ => false) []) Term.var n
  have hf5 := skolem_fv (sg := sg) r.1 (collectFree r.1 (fun _ => false) []) Term.var n hn4 (fun z hz y hy => by
      have : y = z := by simpa [Term.vars] using hy
      subst this; exact mem_freeVars.2 hz) hi
  have hw5 := skolem_wt (sg := sg) r.1 (collectFree r.1 (fun _ => false) []) Term.var n wtSubst_var hd hw4
  have hs5 := skolem_syms (sg := sg) r.1 (collectFree r.1 (fun _ => false) []) Term.var n hs4 (fun z => trivial)
  have hx5 := skolem_next (sg := sg) r.1 (collectFree r.1 (fun _ => false) []) Term.var n
  change (skolemizeOutermost sg r.1 n).1.IsNNF ∧ (skolemizeOutermost sg r.1 n).1.AllQ at hn5
  change (binders (skolemizeOutermost sg r.1 n).1).Sublist _ at hb5
  change ∀ y, (skolemizeOutermost sg r.1 n).1.FV y → _ at hf5
  change (skolemizeOutermost sg r.1 n).1.WT sg at hw5
  change (skolemizeOutermost sg r.1 n).1.SymsBelow (skolemizeOutermost sg r.1 n).2.1 at hs5
  replace hx5 : n ≤ (skolemizeOutermost sg r.1 n).2.1 := hx5.1
  generalize skolemizeOutermost sg r.1 n = s at *
  have hsh : ∀ (I : Interp.{u} sg) v, (shiftQuantors s.1).Holds I v ↔ s.1.Holds I v := fun I =>
    shift_holds I s.1 hn5.1 hn5.2 (hb5.nodup hb4.1) fun y hy hfy => hfv4 y (hb5.subset hy) (mem_freeVars.1 (hf5 y hfy))
  have hc := extractCore_shape hn5.1
  have hpre : shiftQuantors s.1 = (extractCore s.1).2.foldr (qu true) (extractCore s.1).1 := rfl
  have hnn : (shiftQuantors s.1).IsNNF := by
    rw [hpre]
    have : ∀ (xs : List Nat) (c : Form), c.IsNNF → (xs.foldr (qu true) c).IsNNF := by
      intro xs c hc
      induction xs with
      | nil => exact hc
      | cons x xs ih => exact ih
    exact this _ _ hc.2
  have e6' : f6 = shiftQuantors s.1 := nnf_id k 1 _ _ e6 hnn
  subst e6'
  have hk7 : ∀ {Pl : Term → Term → Prop} {Pa : Term → Prop} {Px : Nat → Prop}, s.1.Parts Pl Pa Px → f7.Parts Pl Pa Px := fun h =>
    parts_distribute k _ _ e7 (parts_prefix (parts_extractCore h).1 (parts_extractCore h).2)
  have hall : ∀ (I : Interp.{u} sg), f7.Valid I ↔ s.1.Valid I := fun I =>
    valid_congr fun v => (distribute_holds I k _ _ e7 v).trans (hsh I v)
  have hall4 : ∀ (I : Interp.{u} sg), r.1.Valid I ↔ f.Valid I := fun I => valid_congr fun v => (hh4 I v).trans (hh3 I v)
  refine ⟨fun I h => (hall4 I).1 (q1 I ((hall I).1 h)), fun I h => ?_, ?_, hk7 hw5, hk7 hs5, hx5, hg⟩
  · obtain ⟨F, hF, h1, h3⟩ := q2 I ((hall4 I).2 h)
    exact ⟨F, hF, h1, (hall _).2 h3⟩
  · rw [hpre] at e7
    obtain ⟨k', c', e9, rfl⟩ := distribute_prefix e7
    exact ⟨_, c', rfl, distribute_shape k' _ _ e9 hc.1 hc.2⟩

/-! ## Clauses -/

/-- What is known of the clauses made from a list of disjunctions. -/
structure ClausesOut (sg : Sig) (fs : List Form) (b : VarBank) (b' : VarBank) (Cs : List (List Lit)) : Prop where
  inv : b'.Inv
  fresh : b.fresh ≤ b'.fresh
  stk : ∀ ty, b.vstk ty <+: b'.vstk ty
  sem : BankAgrees sg b' → ∀ I : Interp.{u} sg, (∀ C ∈ Cs, I.Models C) ↔ ∀ f ∈ fs, f.Valid I
  wt : BankAgrees sg b' → ∀ C ∈ Cs, sg.WTClause C
  below : ∀ n, 2 < n → (∀ f ∈ fs, f.SymsBelow n) → ∀ C ∈ Cs, ClauseBelow n C

theorem renameClause_below {n : Nat} {ρ : Nat → Nat} {C : List Lit} (h : ClauseBelow n C) : ClauseBelow n (renameClause ρ C) := by
  intro L hL
  obtain ⟨M, hM, rfl⟩ := List.mem_map.1 hL
  exact ⟨symsBelow_subst (h M hM).1 fun _ _ => trivial, symsBelow_subst (h M hM).2 fun _ _ => trivial⟩

theorem clauses_out (hs : SigOK sg) {k : Nat} (fs : List Form) : ∀ {b b' : VarBank} {Cs : List (List Lit)}, clausesOf sg k fs b = some (b', Cs) → b.Inv →
    (∀ f ∈ fs, f.IsDisj) → (∀ f ∈ fs, f.WT sg) → ClausesOut.{u} sg fs b b' Cs := by
  induction fs with
  | nil =>
    intro b b' Cs e hb _ _
    simp only [clausesOf, Option.some.injEq, Prod.mk.injEq] at e
    obtain ⟨rfl, rfl⟩ := e
    exact ⟨hb, Nat.le_refl _, fun _ => List.prefix_refl _, by simp, by simp, by simp⟩
  | cons f fs ih =>
    intro b b' Cs e hb hd hw
    simp only [clausesOf, Option.bind_eq_bind, Option.bind_eq_some_iff] at e
    obtain ⟨⟨b1, C1⟩, e1, ⟨b2, Cs2⟩, e2, e3⟩ := e
    cases e3
    have hnf := collectLits_nf f
    obtain ⟨hb1, ρ, hC, hinj, hty⟩ := normalize_variant sg k b b1 _ C1 hb hnf e1
    obtain ⟨hf1, hp1⟩ := normalize_bank sg k b b1 _ C1 hb hnf e1
    have o := ih e2 hb1 (fun g hg => hd g (by simp [hg])) (fun g hg => hw g (by simp [hg]))
    have hd1 := hd f (by simp)
    have hw1 := hw f (by simp)
    have hty' : BankAgrees sg b2 → ∀ x ∈ cvars (collectLits f), sg.vty (ρ x) = sg.vty x := fun ha x hx =>
      ha _ _ ((o.stk _).subset (hty x hx))
    have hwc := collectLits_wt hs hd1 hw1
    refine ⟨o.inv, Nat.le_trans hf1 o.fresh, fun t => (hp1 t).trans (o.stk t), fun ha I => ?_, fun ha => ?_, fun n h2 hsy => ?_⟩
    · have key : I.Models (elimBoolVars sg C1) ↔ f.Valid I := by
        rw [elim_models hs I (by rw [hC]; exact rename_wt (hty' ha) hwc), hC, rename_models I hinj (hty' ha)]
        exact ⟨fun h v hv => (collectLits_true hs I hv hd1 hw1).1 (h v hv), fun h v hv => (collectLits_true hs I hv hd1 hw1).2 (h v hv)⟩
      simp only [List.forall_mem_cons]
      rw [key, o.sem ha I]
    · simp only [List.forall_mem_cons]
      exact ⟨elim_wt hs (by rw [hC]; exact rename_wt (hty' ha) hwc), o.wt ha⟩
    · simp only [List.forall_mem_cons] at hsy ⊢
      exact ⟨elim_below h2 (by rw [hC]; exact renameClause_below (collectLits_below (by omega) hsy.1)), o.below n h2 hsy.2⟩

/-- What is known of the clauses made from a formula or a list of formulas. -/
structure SetOut (sg : Sig) (fs : List Form) (b : VarBank) (n : Nat) (Cs : List (List Lit)) (b' : VarBank) (n' : Nat) : Prop where
  inv : b'.Inv
  fresh : b.fresh ≤ b'.fresh
  stk : ∀ ty c, c ∈ b.vstk ty → c ∈ b'.vstk ty
  le : n ≤ n'
  sound : ∀ I : Interp.{u} sg, (∀ C ∈ Cs, I.Models C) → ∀ f ∈ fs, f.Valid I
  extend : ∀ I : Interp.{u} sg, (∀ f ∈ fs, f.Valid I) → ∃ F, ∃ h : I.FnOK F, (∀ s, ¬ CodesIn n n' s → F s = I.fn s) ∧ ∀ C ∈ Cs, (I.reint F h).Models C
  wt : ∀ C ∈ Cs, sg.WTClause C
  below : ∀ C ∈ Cs, ClauseBelow n' C

theorem conj_bank {small cand : Form → Bool} {k : Nat} {f : Form} {b : VarBank} {n : Nat} {r} (e : conjunctiveNF sg small cand k f b n = some r) (hb : b.Inv) :
    Grows b r.2.1 := by
  simp only [conjunctiveNF, Option.bind_eq_bind, Option.bind_eq_some_iff] at e
  obtain ⟨f1, _, f2, _, f3, _, f6, _, f7, _, e8⟩ := e
  cases e8
  have hg := varRename_grows (sg := sg) f3 id (full_setUsed hb)
  exact ⟨hg.full, hg.le, hg.stk⟩

theorem clausesOf_bank {k : Nat} (fs : List Form) : ∀ {b : VarBank} {r}, clausesOf sg k fs b = some r → b.Inv →
    r.1.Inv ∧ ∀ ty c, c ∈ b.vstk ty → c ∈ r.1.vstk ty := by
  induction fs with
  | nil => intro b r e hb; cases e; exact ⟨hb, fun _ _ h => h⟩
  | cons f fs ih =>
    intro b r e hb
    simp only [clausesOf, Option.bind_eq_bind, Option.bind_eq_some_iff] at e
    obtain ⟨⟨b1, C1⟩, e1, ⟨b2, Cs2⟩, e2, e3⟩ := e
    cases e3
    have hnf := collectLits_nf f
    have h1 := normalize_variant sg k b b1 _ C1 hb hnf e1
    have h3 := normalize_bank sg k b b1 _ C1 hb hnf e1
    have h4 := ih e2 h1.1
    exact ⟨h4.1, fun ty c h => h4.2 ty c ((h3.2 ty).subset h)⟩

/-- Growth of the banks, without knowledge of the types. -/
theorem formulaCNF_bank {small cand : Form → Bool} {k : Nat} {f : Form} {b : VarBank} {n : Nat} {Cs : List (List Lit)} {b' : VarBank} {n' : Nat} {ds : List SkDecl}
    (e : formulaCNF sg small cand k f b n = some (Cs, b', n', ds)) (hb : b.Inv) :
    b'.Inv ∧ (∀ ty c, c ∈ b.vstk ty → c ∈ b'.vstk ty) := by
  simp only [formulaCNF, Option.bind_eq_bind, Option.bind_eq_some_iff] at e
  obtain ⟨⟨f1, b1, n1, ds1⟩, e1, ⟨b2, Cs2⟩, e2, e3⟩ := e
  cases e3
  have hg := conj_bank e1 hb
  obtain ⟨h1, h2⟩ := clausesOf_bank _ e2 hg.full.1
  exact ⟨h1, fun ty c h => h2 ty c (hg.stk ty c h)⟩

theorem formula_out (hs : SigOK sg) {small cand : Form → Bool} {k : Nat} {f : Form} {b : VarBank} {n : Nat} {Cs : List (List Lit)} {b' : VarBank} {n' : Nat}
    {ds : List SkDecl} (e : formulaCNF sg small cand k f b n = some (Cs, b', n', ds)) (hb : b.Inv) (ha : BankAgrees sg b') (hv : f.AllVars (· ≤ b.fresh))
    (h2 : 2 < n) (hw : f.WT sg) (hsy : f.SymsBelow n) (hd : Declared sg ds) : SetOut.{u} sg [f] b n Cs b' n' := by
  simp only [formulaCNF, Option.bind_eq_bind, Option.bind_eq_some_iff] at e
  obtain ⟨⟨f1, b1, n1, ds1⟩, e1, ⟨b2, Cs2⟩, e2, e3⟩ := e
  simp only [pure, Option.some.injEq, Prod.mk.injEq] at e3
  obtain ⟨rfl, rfl, rfl, rfl⟩ := e3
  have hg1 : b1.Inv := (conj_bank e1 hb).full.1
  have hbank := (clausesOf_bank _ e2 hg1).2
  have ha1 : BankAgrees sg b1 := fun ty c hc => ha ty c (hbank ty c hc)
  have o := conj_out.{u} hs e1 hb ha1 hv h2 hw hsy hd
  obtain ⟨xs, c, rfl, hc⟩ := o.shape
  have hskip : (xs.foldr (qu true) c).skipAll = c := skipAll_prefix (cnf_qf hc).1
  simp only [formToCNF] at e2
  rw [hskip] at e2
  have hwc : c.WT sg := parts_of_prefix o.wt
  have hsc : c.SymsBelow n1 := parts_of_prefix o.syms
  have q := clauses_out.{u} hs c.conjuncts e2 hg1 (conjuncts_disj hc) (conjuncts_parts hwc)
  have hval : ∀ I : Interp.{u} sg, (∀ C ∈ Cs2, I.Models C) ↔ (xs.foldr (qu true) c).Valid I := by
    intro I
    rw [q.sem ha I, valid_prefix]
    constructor
    · exact fun h v hv => (conjuncts_holds I c v).2 fun d hd => h d hd v hv
    · exact fun h d hd v hv => (conjuncts_holds I c v).1 (h v hv) d hd
  refine ⟨q.inv, Nat.le_trans o.grows.le q.fresh, fun ty c h => (q.stk ty).subset (o.grows.stk ty c h), o.le, fun I h => ?_, fun I h => ?_, q.wt ha, q.below _ ?_ (conjuncts_parts hsc)⟩
  · simp only [List.mem_singleton, forall_eq]
    exact o.sound I ((hval I).1 h)
  · obtain ⟨F, hF, h1, h3⟩ := o.extend I (h f (by simp))
    exact ⟨F, hF, h1, (hval _).2 h3⟩
  · exact Nat.lt_of_lt_of_le h2 o.le

/-- The conditions on the input. -/
structure WForm.OK (sg : Sig) (m n : Nat) (w : WForm) : Prop where
  wt : w.form.WT sg
  vars : w.form.AllVars (· ≤ m)
  syms : w.form.SymsBelow n
  clause : w.isClause = true → w.form.IsDisj

theorem parts_mono {Pl Pl' : Term → Term → Prop} {Pa Pa' : Term → Prop} {Px Px' : Nat → Prop} (h1 : ∀ l r, Pl l r → Pl' l r) (h2 : ∀ t, Pa t → Pa' t)
    (h3 : ∀ x, Px x → Px' x) {f : Form} (hf : f.Parts Pl Pa Px) : f.Parts Pl' Pa' Px' := by
  induction f with
  | lit p l r => exact h1 _ _ hf
  | atom t => exact h2 _ hf
  | not f ih => exact ih hf
  | bin op f g ih1 ih2 => exact ⟨ih1 hf.1, ih2 hf.2⟩
  | qu q x f ih => exact ⟨h3 _ hf.1, ih hf.2⟩

theorem WForm.OK.mono {m n m' n' : Nat} {w : WForm} (h : WForm.OK sg m n w) (hm : m ≤ m') (hn : n ≤ n') : WForm.OK sg m' n' w where
  wt := h.wt
  vars := parts_mono (fun l r h => ⟨fun x hx => Nat.le_trans (h.1 x hx) hm, fun x hx => Nat.le_trans (h.2 x hx) hm⟩) (fun t h x hx => Nat.le_trans (h x hx) hm)
    (fun x h => Nat.le_trans h hm) h.vars
  syms := parts_mono (fun l r h => ⟨symsBelow_mono hn _ h.1, symsBelow_mono hn _ h.2⟩) (fun t h => symsBelow_mono hn _ h) (fun _ h => h) h.syms
  clause := h.clause

theorem wcnf_bank {small cand : Form → Bool} {k : Nat} {w : WForm} {b : VarBank} {n : Nat} {Cs : List (List Lit)} {b' : VarBank} {n' : Nat} {ds : List SkDecl}
    (e : w.cnf sg small cand k b n = some (Cs, b', n', ds)) (hb : b.Inv) :
    b'.Inv ∧ (∀ ty c, c ∈ b.vstk ty → c ∈ b'.vstk ty) := by
  unfold WForm.cnf at e
  split at e
  · cases e; exact ⟨hb, fun _ _ h => h⟩
  · exact formulaCNF_bank e hb

theorem wcnf_out (hs : SigOK sg) {small cand : Form → Bool} {k : Nat} {w : WForm} {b : VarBank} {n : Nat} {Cs : List (List Lit)} {b' : VarBank} {n' : Nat}
    {ds : List SkDecl} (e : w.cnf sg small cand k b n = some (Cs, b', n', ds)) (hb : b.Inv) (ha : BankAgrees sg b') (hok : WForm.OK sg b.fresh n w)
    (h2 : 2 < n) (hd : Declared sg ds) : SetOut.{u} sg [w.form] b n Cs b' n' := by
  unfold WForm.cnf at e
  split at e
  · rename_i hc
    cases e
    have hdj := hok.clause hc
    have key : ∀ I : Interp.{u} sg, I.Models w.form.collectLits ↔ w.form.Valid I := fun I =>
      ⟨fun h v hv => (collectLits_true hs I hv hdj hok.wt).1 (h v hv), fun h v hv => (collectLits_true hs I hv hdj hok.wt).2 (h v hv)⟩
    refine ⟨hb, Nat.le_refl _, fun _ _ h => h, Nat.le_refl _, fun I h => ?_, fun I h => ⟨I.fn, fnOK_self I, fun _ _ => rfl, ?_⟩, ?_, ?_⟩
    · simpa [key] using h
    · show ∀ C ∈ _, I.Models C
      simpa [key] using h
    · simpa using collectLits_wt hs hdj hok.wt
    · simpa using collectLits_below (by omega) hok.syms
  · exact formula_out hs e hb ha hok.vars h2 hok.wt hok.syms hd

theorem models_reint (I : Interp.{u} sg) {F : Nat → List I.D → I.D} (h : I.FnOK F) {n : Nat} (hF : ∀ s, s < n → F s = I.fn s) {C : List Lit} (hC : ClauseBelow n C) :
    (I.reint F h).Models C ↔ I.Models C := by
  have : ∀ v : Nat → I.D, (I.reint F h).ClauseTrue v C ↔ I.ClauseTrue v C := fun v =>
    ⟨fun ⟨L, hL, ht⟩ => ⟨L, hL, (litTrue_reint I h hF v L (hC L hL).1 (hC L hL).2).1 ht⟩,
     fun ⟨L, hL, ht⟩ => ⟨L, hL, (litTrue_reint I h hF v L (hC L hL).1 (hC L hL).2).2 ht⟩⟩
  exact ⟨fun hm v hv => (this v).1 (hm v hv), fun hm v hv => (this v).2 (hm v hv)⟩

theorem valid_reint (I : Interp.{u} sg) {F : Nat → List I.D → I.D} (h : I.FnOK F) {n : Nat} (hn : 1 < n) (hF : ∀ s, s < n → F s = I.fn s) {f : Form} (hf : f.SymsBelow n) :
    f.Valid (I.reint F h) ↔ f.Valid I :=
  ⟨fun hm v hv => (holds_reint I h hn hF f v hf).1 (hm v hv), fun hm v hv => (holds_reint I h hn hF f v hf).2 (hm v hv)⟩

theorem formulas_out (hs : SigOK sg) {small cand : Form → Bool} {k : Nat} (ws : List WForm) : ∀ {b : VarBank} {n : Nat} {Cs : List (List Lit)} {b' : VarBank}
    {n' : Nat} {ds : List SkDecl}, formulasCNF sg small cand k ws b n = some (Cs, b', n', ds) → b.Inv → BankAgrees sg b' → (∀ w ∈ ws, WForm.OK sg b.fresh n w) →
    2 < n → Declared sg ds → SetOut.{u} sg (ws.map WForm.form) b n Cs b' n' := by
  have hbank : ∀ (ws : List WForm) {b : VarBank} {n : Nat} {r}, formulasCNF sg small cand k ws b n = some r → b.Inv → ∀ ty c, c ∈ b.vstk ty → c ∈ r.2.1.vstk ty := by
    intro ws
    induction ws with
    | nil => intro b n r e hb; cases e; exact fun _ _ h => h
    | cons w ws ih =>
      intro b n r e hb
      simp only [formulasCNF, Option.bind_eq_some_iff] at e
      obtain ⟨⟨C1, b1, n1, d1⟩, e1, ⟨C2, b2, n2, d2⟩, e2, e3⟩ := e
      cases e3
      have h1 := wcnf_bank e1 hb
      exact fun ty c h => ih e2 h1.1 ty c (h1.2 ty c h)
  induction ws with
  | nil =>
    intro b n Cs b' n' ds e hb ha _ h2 _
    cases e
    exact ⟨hb, Nat.le_refl _, fun _ _ h => h, Nat.le_refl _, by simp, fun I _ => ⟨I.fn, fnOK_self I, fun _ _ => rfl, by simp⟩, by simp, by simp⟩
  | cons w ws ih =>
    intro b n Cs b' n' ds e hb ha hok h2 hd
    simp only [formulasCNF, Option.bind_eq_some_iff] at e
    obtain ⟨⟨C1, b1, n1, d1⟩, e1, ⟨C2, b2, n2, d2⟩, e2, e3⟩ := e
    cases e3
    have h1 := wcnf_bank e1 hb
    have hst := hbank ws e2 h1.1
    have o := wcnf_out.{u} hs e1 hb (fun ty c hc => ha ty c (hst ty c hc)) (hok w (by simp)) h2 (fun d hd' => hd d (by simp [hd']))
    have q := ih e2 o.inv ha (fun w' hw' => (hok w' (by simp [hw'])).mono o.fresh o.le) (Nat.lt_of_lt_of_le h2 o.le) (fun d hd' => hd d (by simp [hd']))
    refine ⟨q.inv, Nat.le_trans o.fresh q.fresh, fun ty c h => q.stk ty c (o.stk ty c h), Nat.le_trans o.le q.le, fun I h => ?_, fun I h => ?_, ?_, ?_⟩
    · intro f hf
      rcases List.mem_cons.1 hf with rfl | hf
      · exact o.sound I (fun C hC => h C (by simp [hC])) _ (by simp)
      · exact q.sound I (fun C hC => h C (by simp [hC])) f hf
    · obtain ⟨F, hF, u1, u2⟩ := o.extend I (fun f hf => h f (by simp only [List.mem_singleton] at hf; simp [hf]))
      have hlow : ∀ s, s < n → F s = I.fn s := fun s hs => u1 s fun hc => by have := hc.1; omega
      obtain ⟨G, hG, v1, v2⟩ := q.extend (I.reint F hF) fun f hf => by
        obtain ⟨w', hw', rfl⟩ := List.mem_map.1 hf
        exact (valid_reint I hF (by omega) hlow (hok w' (by simp [hw'])).syms).2 (h _ (by simp only [List.map_cons, List.mem_cons]; right; exact List.mem_map.2 ⟨w', hw', rfl⟩))
      have hG' : I.FnOK G := ⟨hG.mem, hG.tf, hG.bool2, hG.dist⟩
      refine ⟨G, hG', fun s hs => ?_, fun C hC => ?_⟩
      · rw [v1 s fun hc => hs ⟨Nat.le_trans o.le hc.1, hc.2⟩]
        exact u1 s fun hc => hs ⟨hc.1, Nat.lt_of_lt_of_le hc.2 q.le⟩
      · rcases List.mem_append.1 hC with hC | hC
        · exact (models_reint (I.reint F hF) hG (fun s hs => v1 s fun hc => Nat.lt_irrefl _ (Nat.lt_of_lt_of_le hs hc.1)) (o.below C hC)).2 (u2 C hC)
        · exact v2 C hC
    · intro C hC
      rcases List.mem_append.1 hC with hC | hC
      · exact o.wt C hC
      · exact q.wt C hC
    · intro C hC
      rcases List.mem_append.1 hC with hC | hC
      · exact fun L hL => ⟨symsBelow_mono q.le _ (o.below C hC L hL).1, symsBelow_mono q.le _ (o.below C hC L hL).2⟩
      · exact q.below C hC

/-! ## Types without variables -/

theorem getFresh_types {b : VarBank} {ty t : Nat} (h : t ≠ ty) : (b.getFresh t).2.vstk ty = b.vstk ty := by
  unfold VarBank.getFresh
  split
  · rfl
  · exact if_neg (Ne.symm h)

theorem varRename_types {ty : Nat} (h : ∀ x, sg.vty x ≠ ty) (f : Form) : ∀ (ρ : Nat → Nat) (b : VarBank), (varRename sg f ρ b).2.vstk ty = b.vstk ty := by
  induction f with
  | lit => intro ρ b; rfl
  | atom => intro ρ b; rfl
  | not f ih => exact fun ρ b => ih ρ b
  | bin op f g ih1 ih2 => exact fun ρ b => (ih2 ρ _).trans (ih1 ρ b)
  | qu q x f ih => exact fun ρ b => (ih _ _).trans (getFresh_types (h x))

theorem normalize_types {ty : Nat} (h : ∀ x, sg.vty x ≠ ty) {k : Nat} {b b' : VarBank} {C C' : List Lit} (hnf : ∀ L ∈ C, L.NF)
    (e : clauseNormalizeVars sg k b C = some (b', C')) : b'.vstk ty = b.vstk ty := by
  by_cases hC : C = []
  · subst hC
    simp [clauseNormalizeVars] at e
    rw [e.1]
  · obtain ⟨rfl, rfl⟩ := Props.NormClause.spec hnf e hC
    have : ∀ (vs : List Nat) (s : VarBank × Rn), (vs.foldl (normVar sg) s).1.vstk ty = s.1.vstk ty := by
      intro vs
      induction vs with
      | nil => intro s; rfl
      | cons v vs ih =>
        intro s
        refine (ih _).trans ?_
        unfold normVar
        cases s.2.lookup v with
        | some c => rfl
        | none => exact getFresh_types (h v)
    exact this _ (b.reset, [])

theorem formulas_types {ty : Nat} (h : ∀ x, sg.vty x ≠ ty) {small cand : Form → Bool} {k : Nat} (ws : List WForm) : ∀ {b : VarBank} {n : Nat} {r},
    formulasCNF sg small cand k ws b n = some r → r.2.1.vstk ty = b.vstk ty := by
  have hcl : ∀ (fs : List Form) {b : VarBank} {r}, clausesOf sg k fs b = some r → r.1.vstk ty = b.vstk ty := by
    intro fs
    induction fs with
    | nil => intro b r e; cases e; rfl
    | cons f fs ih =>
      intro b r e
      simp only [clausesOf, Option.bind_eq_bind, Option.bind_eq_some_iff] at e
      obtain ⟨⟨b1, C1⟩, e1, ⟨b2, Cs2⟩, e2, e3⟩ := e
      cases e3
      exact (ih e2).trans (normalize_types h (collectLits_nf f) e1)
  induction ws with
  | nil => intro b n r e; cases e; rfl
  | cons w ws ih =>
    intro b n r e
    simp only [formulasCNF, Option.bind_eq_some_iff] at e
    obtain ⟨r1, e1, r2, e2, e3⟩ := e
    cases e3
    refine (ih e2).trans ?_
    unfold WForm.cnf at e1
    split at e1
    · cases e1; rfl
    · simp only [formulaCNF, Option.bind_eq_bind, Option.bind_eq_some_iff] at e1
      obtain ⟨s1, e1, s2, e4, e3⟩ := e1
      cases e3
      simp only [conjunctiveNF, Option.bind_eq_bind, Option.bind_eq_some_iff] at e1
      obtain ⟨f1, _, f2, _, f3, _, f6, _, f7, _, e8⟩ := e1
      cases e8
      exact (hcl _ e4).trans (varRename_types h f3 id b.setUsed)

end Verif.CNFProof
