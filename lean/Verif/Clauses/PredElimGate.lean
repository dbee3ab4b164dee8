import Verif.Clauses.PredElimLoop
import Verif.Props.SatCheck
import Verif.Props.Match

/-!
# Predicate elimination: recognition of gates
-/

namespace Verif.PeProof
open SemProof Props CNFProof SaturateProof BceProof Term

universe u

variable {sg : Sig}

/-! ## The propositional check -/

/-- The solver reports only unsatisfiable cores. -/
def SolverOK (solve : List SatClause → Option (List Nat)) : Prop := ∀ Cs is, solve Cs = some is → ∀ α, ¬ PropSat α (is.filterMap (Cs[·]?))

/-- For every interpretation and values of the variables some clause of an unsatisfiable core is false. -/
theorem core_false {ad : Term → Nat} {eqc : Nat} {Cs : List (List Lit)} (hno : NoEqAtom eqc Term.var Cs) {core : List SatClause}
    (hcore : ∀ C ∈ core, C ∈ (markPure (satImport ad eqc Term.var (.empty none) Cs)).set) (hun : ∀ α, ¬ PropSat α core) (I : Interp.{u} sg) (v : Nat → I.D) :
    ∃ C ∈ core, ¬ I.ClauseTrue v C.source := by
  by_contra hall
  push Not at hall
  obtain ⟨h1, -, P, -, h4, h5⟩ := Sat.import_ok (ad := ad) (eqc := eqc) (σ := Term.var) Cs (Sat.empty_inv none)
  have hP : P = Cs := h5 rfl
  subst hP
  generalize hs : satImport ad eqc Term.var (.empty none) P = s at h1 h4 hcore
  have hc : ∀ C ∈ core, ∃ D ∈ s.set, D.lits = C.lits ∧ D.source = C.source := by
    intro C hC
    have := hcore C hC
    simp only [markPure, List.mem_map] at this
    obtain ⟨D, hD, rfl⟩ := this
    exact ⟨D, hD, rfl, rfl⟩
  let tr : Term → Prop := fun t => (∃ l r, t = .app eqc [l, r] ∧ I.eval v l = I.eval v r) ∨ ((∀ ts, t ≠ .app eqc ts) ∧ I.eval v t = I.eval v tTrue)
  refine hun (fun a => ∃ t, s.index.lookup t = some a ∧ tr t) fun C hC => ?_
  obtain ⟨D, hD, e1, e2⟩ := hc C hC
  obtain ⟨L, hL, hLt⟩ := hall C hC
  have hfa := h1.codes D hD
  rw [e1, e2] at hfa
  have hsrc : C.source ∈ P := by
    have : D.source ∈ s.set.map (·.source) := List.mem_map_of_mem hD
    rw [h4, e2] at this
    simpa [SatSet.empty] using this
  obtain ⟨i, hi, rfl⟩ := List.mem_iff_getElem.1 hL
  have hlen := hfa.length_eq
  have hco := (List.forall₂_iff_get.1 hfa).2 i hi (by omega)
  simp only [List.get_eq_getElem] at hco
  refine ⟨C.lits[i], List.getElem_mem _, ?_⟩
  generalize C.lits[i] = l at hco
  generalize C.source[i] = L at hco hL hLt
  obtain ⟨a, ha, rfl⟩ := hco
  have ra := h1.range _ _ ha
  have hkey : tr (satKey ad eqc Term.var L) ↔ I.eval v L.l = I.eval v L.r := by
    simp only [tr, satKey, subst_id]
    cases hequ : L.equ with
    | false =>
      have hr : L.r = tTrue := by simpa [Lit.equ] using hequ
      have hne := hno _ hsrc L hL hequ
      simp only [subst_id] at hne
      simp only [Bool.false_eq_true, if_false, hr]
      constructor
      · rintro (⟨l, r, h, -⟩ | h)
        · exact absurd h (hne _)
        · exact h.2
      · exact fun h => .inr ⟨hne, h⟩
    | true =>
      simp only [if_true]
      split <;> simp [eq_comm]
  have huniq : (∃ t, s.index.lookup t = some a ∧ tr t) ↔ tr (satKey ad eqc Term.var L) :=
    ⟨fun ⟨t, ht, h⟩ => by rwa [h1.inj _ _ _ ht ha] at h, fun h => ⟨_, ha, h⟩⟩
  unfold PLitTrue
  unfold Interp.LitTrue at hLt
  cases hp : L.pos with
  | true =>
    simp only [hp, if_true] at hLt ⊢
    rw [if_pos (by omega)]
    simpa [huniq, hkey] using hLt
  | false =>
    simp only [hp, Bool.false_eq_true, if_false] at hLt ⊢
    rw [if_neg (by omega)]
    simp only [Int.natAbs_neg, Int.natAbs_natCast, huniq, hkey]
    exact hLt

/-! ## Values for the arguments -/

theorem choose_args (I : Interp.{u} sg) : ∀ {xs : List Nat} {ds : List I.D}, xs.Nodup → List.Forall₂ I.mem (xs.map sg.vty) ds → ∃ w, I.Sorted w ∧ xs.map w = ds
  | [], ds, _, h => by
    cases h
    choose d hd using I.inhab
    exact ⟨fun x => d (sg.vty x), fun x => hd _, rfl⟩
  | x :: xs, ds, hn, h => by
    obtain ⟨d, ds', h1, h2, rfl⟩ := List.forall₂_cons_left_iff.1 h
    obtain ⟨w, hw, e⟩ := choose_args I (List.nodup_cons.1 hn).2 h2
    refine ⟨fun y => if y = x then d else w y, fun y => ?_, ?_⟩
    · by_cases hy : y = x
      · simp only [hy, if_true]
        exact h1
      · simp only [hy, if_false]
        exact hw y
    · simp only [List.map_cons, if_true, List.cons.injEq, true_and]
      rw [← e]
      refine List.map_congr_left fun y hy => if_neg ?_
      rintro rfl
      exact (List.nodup_cons.1 hn).1 hy

theorem distinct_vars {ts : List Term} (h : distinctVars ts = true) : ∃ xs : List Nat, ts = xs.map .var ∧ xs.Nodup := by
  simp only [distinctVars, Bool.and_eq_true, List.all_eq_true, decide_eq_true_eq] at h
  obtain ⟨h1, h2⟩ := h
  have : ∃ xs : List Nat, ts = xs.map .var := by
    clear h2
    induction ts with
    | nil => exact ⟨[], rfl⟩
    | cons t ts ih =>
      obtain ⟨xs, rfl⟩ := ih fun s hs => h1 s (List.mem_cons_of_mem _ hs)
      have := h1 t (List.mem_cons_self ..)
      cases t with
      | var x => exact ⟨x :: xs, rfl⟩
      | app g us => simp [Term.isVar] at this
  obtain ⟨xs, rfl⟩ := this
  exact ⟨xs, rfl, List.Nodup.of_map _ h2⟩

/-- There are values for the variables such that the arguments have given values. -/
theorem args_values (I : Interp.{u} sg) {f : Nat} {ts : List Term} (hw : sg.WT (.app f ts)) (hd : distinctVars ts = true) {ds : List I.D} (h : SArgs I f ds) :
    ∃ w, I.Sorted w ∧ ts.map (I.eval w) = ds := by
  obtain ⟨xs, rfl, hn⟩ := distinct_vars hd
  rw [Sig.wt_app] at hw
  have e : xs.map sg.vty = sg.fargs f := by
    rw [← hw.1, List.map_map]
    rfl
  unfold SArgs at h
  rw [← e] at h
  obtain ⟨w, h1, h2⟩ := choose_args I hn h
  refine ⟨w, h1, ?_⟩
  rw [List.map_map, ← h2]
  exact List.map_congr_left fun x _ => by simp [Interp.eval]

/-! ## Bodies -/

section
variable (p : PeParams) (hsg : SigOK p.sg) (hF : FOSig p.sg) (ha : AltTyped p.sg)

include hsg hF in
/-- The body of a gate clause with the variables of the pivot. -/
theorem gateBody_spec {k f : Nat} {us : List Term} (hu : p.sg.WT (.app f us)) (hodd : ∀ t ∈ us, ∃ y, t = .var y ∧ y % 2 = 1) {C B : List Lit} (hC : FOC p.sg C) {b : Bool}
    (hg : GateCl f b C) (hp : PredOK p.sg f) (h : gateBody p k f (.app f us) C = some B) :
    (∀ K ∈ B, FOLit p.sg K) ∧ (∀ g, cnt g B ≤ cnt g C) ∧ ∀ (I : Interp.{u} p.sg) (v : Nat → I.D), I.Sorted v → ¬ I.ClauseTrue v B → Demands I f b C (us.map (I.eval v)) := by
  unfold gateBody at h
  split at h
  · cases h
  · rename_i L R hL
    obtain ⟨b', ts, -, pC, rfl⟩ := head_plain hsg hF hp hC hL
    obtain ⟨_, R0, q1, q2, q3, -⟩ := hg
    obtain ⟨rfl, rfl, -⟩ := one_unique q1 q2 pC
    have hLm : (⟨b', .app f ts, tTrue⟩ : Lit) ∈ C := pC.mem_iff.2 (List.mem_cons_self ..)
    have pe := List.perm_cons_erase hLm
    have hwt : p.sg.WT (.app f ts) := lit_wt hC pC
    have hev := lit_even hC pC
    have huv : ∀ x ∈ (Term.app f us).vars, x % 2 = 1 := by
      intro x hx
      rw [vars, varsL_eq, List.mem_flatMap] at hx
      obtain ⟨t, ht, hx⟩ := hx
      obtain ⟨y, rfl, hy⟩ := hodd t ht
      rw [vars, List.mem_singleton] at hx
      rw [hx]
      exact hy
    dsimp only at h
    obtain ⟨res, st, hm, hiff⟩ := matching_exact p.sg (.app f ts) (.app f us) (p.pp (.app f us)) ⟨fun _ => none, []⟩
    have hres : res = true := by
      refine hiff.2 ⟨by simp [Term.isVar], zipSubst ts us, ⟨by simp, ?_, ?_⟩⟩
      · exact fun x _ => (zip_unifies.{0} hwt hu q3 fun x hx hx' => by have := hev x hx; have := huv x hx'; omega).1 x
      · rw [(zip_unifies.{0} hwt hu q3 fun x hx hx' => by have := hev x hx; have := huv x hx'; omega).2.1]
        have hz : ∀ x ∈ (Term.app f us).vars, zipSubst ts us x = .var x := by
          intro x hx
          unfold zipSubst
          cases hl : (ts.zip us).lookup (.var x) with
          | none => rfl
          | some t =>
            exfalso
            obtain ⟨i, hm', -⟩ := lookup_zip_mem hl
            have := hev x (by
              rw [vars, varsL_eq, List.mem_flatMap]
              exact ⟨_, List.mem_of_getElem? hm', by simp [vars]⟩)
            have := huv x hx
            omega
        rw [subst_congr hz, subst_id]
    subst hres
    rw [hm] at h
    dsimp only at h
    obtain ⟨M, hb1, new, -, hb2, hb3⟩ := matching_success p.sg _ _ _ _ _ hm
    have hbn : ∀ x, x ∉ (Term.app f ts).vars → st.bind x = none := by
      intro x hx
      rw [hb3 x fun hc => hx ((hb2 x).1 hc).1]
    let σ : Nat → Term := fun x => (st.bind x).getD (.var x)
    obtain ⟨xs, rfl, hnd⟩ := distinct_vars q3
    have hinst : (xs.map Term.var).map (subst σ) = us := by
      have := M.inst
      rw [subst_app] at this
      exact (Term.app.inj this).2
    have hσu : ∀ x ∈ (Term.app f (xs.map .var)).vars, σ x ∈ us := by
      intro x hx
      rw [vars, varsL_eq, List.mem_flatMap] at hx
      obtain ⟨t, ht, hx⟩ := hx
      obtain ⟨y, hy, rfl⟩ := List.mem_map.1 ht
      rw [vars, List.mem_singleton] at hx
      subst hx
      rw [← hinst]
      exact List.mem_map.2 ⟨_, ht, by rw [Term.subst]⟩
    have hfull : FullInst st.bind σ := by
      refine ⟨fun x t hx => ?_, fun x hx => by simp [σ, hx]⟩
      have hxv : x ∈ (Term.app f (xs.map .var)).vars := by
        by_contra hc
        rw [hbn x hc] at hx
        cases hx
      have e : σ x = t := by simp [σ, hx]
      have := hσu x hxv
      rw [e] at this
      obtain ⟨y, rfl, hy⟩ := hodd t this
      rw [e, Term.subst]
      have : st.bind y = none := hbn y fun hc => by have := hev y hc; omega
      simp [σ, this]
    have hσw : p.sg.WTSubst σ := by
      intro x
      by_cases hx : x ∈ (Term.app f (xs.map .var)).vars
      · refine ⟨M.typed x hx, ?_⟩
        obtain ⟨y, hy, -⟩ := hodd _ (hσu x hx)
        rw [hy]
        simp [Sig.WT]
      · have : σ x = .var x := by simp [σ, hbn x hx]
        rw [this]
        exact ⟨rfl, by simp [Sig.WT]⟩
    have eB := LitProof.copyLits_eq hfull h
    have efull : InstProof.full σ (fun _ => none) = σ := by
      funext x
      have : varOut (fun _ => none) = Term.var := rfl
      simp only [InstProof.full, this, subst_id]
    rw [efull] at eB
    have hCe : ∀ K ∈ C.erase ⟨b', .app f (xs.map .var), tTrue⟩, FOLit p.sg K := fun K hK => hC.fo K (List.mem_of_mem_erase hK)
    refine ⟨?_, fun g => ?_, fun I v hv hfalse => ?_⟩
    · rw [eB]
      exact insts_fo hsg hF hσw hCe
    · rw [eB, cnt_insts hsg hF hσw hCe]
      exact List.erase_sublist.countP_le
    · refine ⟨fun x => I.eval v (σ x), sorted_subst I hv hσw, xs.map .var, _, pe, ?_, fun hc => hfalse ?_⟩
      · rw [← hinst, List.map_map (f := subst σ)]
        exact List.map_congr_left fun t _ => (eval_subst I v σ t).symm
      · obtain ⟨K, hK, hKt⟩ := hc
        rw [eB]
        refine ⟨_, List.mem_map.2 ⟨K, hK, rfl⟩, ?_⟩
        refine (mkEqn_true hsg I hv (wtLit_subst (hCe K hK).wt hσw)).2 ?_
        exact (litTrue_subst I v σ K).2 hKt

/-! ## The core -/

include ha hsg hF in
/-- The body of the pivot. -/
theorem pivot_spec {f : Nat} {C RP : List Lit} {ts : List Term} {b : Bool} (hC : FOC p.sg C) (hp : C.Perm (⟨b, .app f ts, tTrue⟩ :: RP)) (I : Interp.{u} p.sg) (v : Nat → I.D) (hv : I.Sorted v)
    (hf : ¬ I.ClauseTrue v (csubst ρ RP)) : Demands I f b C ((ts.map (subst ρ)).map (I.eval v)) := by
  have hev := lit_even hC hp
  have hRP := foc_tail (foc_perm hp hC)
  refine ⟨fun x => if x % 2 = 0 ∧ 0 < x then v (x - 1) else v x, fun x => ?_, ts, RP, hp, ?_, fun hc => hf ?_⟩
  · by_cases hx : x % 2 = 0 ∧ 0 < x
    · simp only [hx, and_self, if_true]
      rw [← ha x hx.1 hx.2]
      exact hv _
    · simp only [hx, if_false]
      exact hv x
  · rw [List.map_map]
    refine List.map_congr_left fun t ht => ?_
    simp only [Function.comp]
    rw [eval_subst]
    refine eval_congr I fun x hx => ?_
    have := hev x (by
      rw [vars, varsL_eq, List.mem_flatMap]
      exact ⟨t, ht, hx⟩)
    rw [if_pos this]
    simp [ρ, Interp.eval]
  · rw [clauseTrue_subst]
    refine (clauseTrue_congr I fun x hx => ?_).1 hc
    rw [if_pos (hRP.ev x hx)]
    simp [ρ, Interp.eval]

theorem zip_source {α : Type} {g : α → List Lit} : ∀ {l : List α} {m : List SatClause}, m.map (·.source) = l.map g → ∀ e ∈ l.zip m, e.2.source = g e.1
  | [], _, _ => by simp
  | a :: l, [], h => by simp
  | a :: l, c :: m, h => by
    simp only [List.map_cons, List.cons.injEq] at h
    intro e he
    rcases List.mem_cons.1 he with rfl | he
    · exact h.1
    · exact zip_source h.2 e he

/-- A clause of the gate, with its number. -/
def IsGate (s : PeSt) (t : PeTask) (f : Nat) (c : Nat × List Lit) : Prop :=
  c ∈ s.passive ∧ (c.1 ∈ t.posG.set ∧ GateCl f true c.2 ∨ c.1 ∈ t.negG.set ∧ GateCl f false c.2)

variable {p}
include ha hsg hF in
/-- The core found by the solver determines the predicate. -/
theorem checkUnsat_core (hord : ∀ l, (p.ord l).Perm l) (hsolve : SolverOK p.solve) {s : PeSt} (hfo : ∀ c ∈ s.passive, FOC p.sg c.2) (hnd : (s.passive.map Prod.fst).Nodup)
    (hno : ∀ c ∈ s.passive, cnt p.eqc c.2 = 0) {t : PeTask} {f k : Nat} (T : BuildOK (fun i C => (i, C) ∈ s.passive) t f) {t' : PeTask} (h : checkUnsatTauto p k f s t = some t') :
    t' = t.notGate ∨ ∃ core, checkTautologies p k f t core = some t' ∧ PredOK p.sg f ∧ (∀ c ∈ core, IsGate s t f c) ∧
      ∀ (I : Interp.{u} p.sg) (ds : List I.D), SArgs I f ds → ∃ c ∈ core, ∃ b, GateCl f b c.2 ∧ Demands I f b c.2 ds := by
  unfold checkUnsatTauto at h
  split at h
  · cases h
  · rename_i pivot others hgs
    have hall : ∀ c, c ∈ pivot :: others → IsGate s t f c := by
      intro c hc
      rw [← hgs, List.mem_reverse, List.mem_append, mem_clauses hnd, mem_clauses hnd, (hord _).mem_iff, (hord _).mem_iff] at hc
      rcases hc with ⟨h1, h2⟩ | ⟨h1, h2⟩
      · obtain ⟨-, D, hD, hg⟩ := T.sp c.1 h1
        have : c.2 = D := ids_unique hnd (i := c.1) h2 hD
        exact ⟨h2, .inl ⟨h1, this ▸ hg⟩⟩
      · obtain ⟨-, D, hD, hg⟩ := T.sn c.1 h1
        have : c.2 = D := ids_unique hnd (i := c.1) h2 hD
        exact ⟨h2, .inr ⟨h1, this ▸ hg⟩⟩
    have hgc : ∀ {c}, IsGate s t f c → ∃ b, GateCl f b c.2 := by
      rintro c ⟨-, h1 | h1⟩
      · exact ⟨true, h1.2⟩
      · exact ⟨false, h1.2⟩
    have hpv := hall pivot (List.mem_cons_self ..)
    obtain ⟨bp, hbp⟩ := hgc hpv
    have hp : PredOK p.sg f := predOK_of hsg hF (hfo _ hpv.1).fo (by rw [(gateCl_cnt hbp).1]; omega)
    split at h
    · cases h
    · rename_i fl frest hfl
      obtain ⟨b, ts, RP, -, pP, rfl, rfl⟩ := head_copy hsg hF hp (hfo _ hpv.1) hfl
      have hdt : distinctVars ts = true := gateCl_distinct hbp pP
      have hbb : b = bp := by
        obtain ⟨_, _, q1, q2, _⟩ := hbp
        exact (one_unique q1 q2 pP).1
      subst hbb
      have hwt := lit_wt (hfo _ hpv.1) pP
      have hev := lit_even (hfo _ hpv.1) pP
      have hwρ := wt_ρ ha hwt hev
      have hodd : ∀ u ∈ ts.map (subst ρ), ∃ y, u = .var y ∧ y % 2 = 1 := by
        intro u hu
        obtain ⟨w, hw, rfl⟩ := List.mem_map.1 hu
        obtain ⟨xs, rfl, -⟩ := distinct_vars hdt
        obtain ⟨x, hx, rfl⟩ := List.mem_map.1 hw
        have := hev x (by
          rw [vars, varsL_eq, List.mem_flatMap]
          exact ⟨_, hw, by simp [vars]⟩)
        exact ⟨x - 1, rfl, by omega⟩
      dsimp only at h
      split at h
      · cases h
      · rename_i bodies hbod
        have hF2 := InstProof.mapOpt_some hbod
        -- what is known about the bodies
        have henv : ∀ e ∈ (pivot, csubst ρ RP) :: bodies, IsGate s t f e.1 ∧ (∀ K ∈ e.2, FOLit p.sg K) ∧ cnt p.eqc e.2 = 0 ∧
            ∃ b', GateCl f b' e.1.2 ∧ ∀ (I : Interp.{u} p.sg) (v : Nat → I.D), I.Sorted v → ¬ I.ClauseTrue v e.2 → Demands I f b' e.1.2 ((ts.map (subst ρ)).map (I.eval v)) := by
          intro e he
          rcases List.mem_cons.1 he with rfl | he
          · have cf := copy_fo hsg hF ha (foc_tail (foc_perm pP (hfo _ hpv.1)))
            refine ⟨hpv, cf.1, ?_, b, hbp, fun I v hv hc => pivot_spec p hsg hF ha (hfo _ hpv.1) pP I v hv hc⟩
            rw [cf.2.1]
            have := hno _ hpv.1
            rw [cnt_perm pP] at this
            have h2 : cnt p.eqc RP ≤ cnt p.eqc (⟨b, .app f ts, tTrue⟩ :: RP) := (List.sublist_cons_self _ _).countP_le
            omega
          · obtain ⟨i, hi, rfl⟩ := List.mem_iff_getElem.1 he
            have hlen := hF2.length_eq
            have hq := (List.forall₂_iff_get.1 hF2).2 i (by omega) hi
            simp only [List.get_eq_getElem] at hq
            rw [Option.map_eq_some_iff] at hq
            obtain ⟨B, hB, eB⟩ := hq
            rw [← eB]
            have hig := hall others[i] (List.mem_cons_of_mem _ (List.getElem_mem _))
            obtain ⟨b', hb'⟩ := hgc hig
            obtain ⟨g1, g2, g3⟩ := gateBody_spec.{u} p hsg hF hwρ hodd (hfo _ hig.1) hb' hp hB
            refine ⟨hig, g1, ?_, b', hb', g3⟩
            have := g2 p.eqc
            have := hno _ hig.1
            show cnt p.eqc B = 0
            omega
        have hnoeq : NoEqAtom p.eqc Term.var (((pivot, csubst ρ RP) :: bodies).map Prod.snd) := by
          intro C hC L hL heq us hl
          obtain ⟨e, he, rfl⟩ := List.mem_map.1 hC
          obtain ⟨-, h1, h2, -⟩ := henv e he
          rw [subst_id] at hl
          have : 0 < cnt p.eqc e.2 := cnt_pos_iff.2 ⟨L, hL, by
            have hr : L.r = tTrue := by simpa [Lit.equ] using heq
            rcases lit_cases hsg hF (h1 L hL) with ⟨q, _⟩ | ⟨g, ws, q, _, _, _, _, _, q'⟩
            · rw [heq] at q
              cases q
            · rw [q] at hl
              simp only [Term.app.injEq] at hl
              rw [q', hl.1]⟩
          omega
        split at h
        · cases h
          exact .inl rfl
        · rename_i is hsol
          refine .inr ⟨_, h, hp, fun c hc => ?_, fun I ds hds => ?_⟩
          · obtain ⟨i, -, hi⟩ := List.mem_filterMap.1 hc
            obtain ⟨e, he, rfl⟩ := Option.map_eq_some_iff.1 hi
            have := List.mem_of_mem_filter (List.mem_of_getElem? he)
            exact (henv e.1 (List.of_mem_zip this).1).1
          · obtain ⟨v, hv, ev⟩ := args_values I hwρ (distinct_ρ hdt hev) hds
            have hsub : ∀ C ∈ is.filterMap ((List.map Prod.snd ((((pivot, csubst ρ RP) :: bodies).zip (markPure (satImport p.ad p.eqc Term.var (.empty none)
                (((pivot, csubst ρ RP) :: bodies).map Prod.snd))).set).filter fun e => !e.2.pure))[·]?),
                C ∈ (markPure (satImport p.ad p.eqc Term.var (.empty none) (((pivot, csubst ρ RP) :: bodies).map Prod.snd))).set := by
              intro C hC
              obtain ⟨i, -, hi⟩ := List.mem_filterMap.1 hC
              obtain ⟨e, he, rfl⟩ := List.mem_map.1 (List.mem_of_getElem? hi)
              exact (List.of_mem_zip (List.mem_of_mem_filter he)).2
            obtain ⟨C, hC, hfalse⟩ := core_false hnoeq hsub (hsolve _ _ hsol) I v
            obtain ⟨i, hi, hCi⟩ := List.mem_filterMap.1 hC
            rw [List.getElem?_map, Option.map_eq_some_iff] at hCi
            obtain ⟨e, he, rfl⟩ := hCi
            have hez := List.mem_of_mem_filter (List.mem_of_getElem? he)
            have hsrc : e.2.source = e.1.2 := by
              refine zip_source (g := Prod.snd) ?_ e hez
              obtain ⟨-, -, P, -, h4, h5⟩ := Sat.import_ok (ad := p.ad) (eqc := p.eqc) (σ := Term.var) (((pivot, csubst ρ RP) :: bodies).map Prod.snd) (Sat.empty_inv none)
              have hP := h5 rfl
              subst hP
              simp only [markPure, List.map_map]
              simpa [SatSet.empty, Function.comp_def] using h4
            rw [hsrc] at hfalse
            obtain ⟨-, -, -, b', hb', hd⟩ := henv e.1 (List.of_mem_zip hez).1
            refine ⟨e.1.1, List.mem_filterMap.2 ⟨i, hi, by rw [he]; rfl⟩, b', hb', ?_⟩
            rw [← ev]
            exact hd I v hv hfalse

/-! ## Tautologies -/

theorem inner_same (r : Bool) (n : Nat) : ∀ k i, (tautInner r n k i r).2 = r
  | 0, _ => rfl
  | k + 1, i => by
    unfold tautInner
    split
    · exact inner_same r n k (i + 1)
    · rfl

theorem outer_false (test : Nat → Option Bool) (np nn : Nat) : ∀ k i, tautOuter test np nn k i false = some false
  | 0, _ => rfl
  | k + 1, i => by
    unfold tautOuter
    split
    · simp only [Bool.false_and, Bool.false_eq_true, if_false]
      exact outer_false test np nn k (i + 1)
    · rfl

/-- Only the resolvent of the first clauses is tested. -/
theorem outer_first {test : Nat → Option Bool} {np nn : Nat} (hp : 0 < np) (hn : 0 < nn) (h : tautOuter test np nn np 0 true = some true) : test 0 = some true := by
  obtain ⟨np, rfl⟩ : ∃ m, np = m + 1 := ⟨np - 1, by omega⟩
  obtain ⟨nn, rfl⟩ : ∃ m, nn = m + 1 := ⟨nn - 1, by omega⟩
  unfold tautOuter at h
  simp only [Nat.succ_pos, if_true, Bool.true_and, decide_true] at h
  split at h
  · cases h
  · rename_i r hr
    rw [hr]
    cases r
    · exfalso
      have : (tautInner false (nn + 1) (nn + 1) 0 true).2 = false := by
        unfold tautInner
        simp only [Nat.succ_pos, Bool.true_and, decide_true, if_true]
        exact inner_same false _ _ _
      rw [this, outer_false] at h
      cases h
    · rfl

theorem fold_store : ∀ {l : List (Nat × List Lit)} {s : CCS}, s.set.Nodup →
    (l.foldl (fun s c => (s.store c.1).1) s).set.Nodup ∧ ∀ j, j ∈ (l.foldl (fun s c => (s.store c.1).1) s).set ↔ j ∈ s.set ∨ j ∈ l.map Prod.fst
  | [], s, h => ⟨h, by simp⟩
  | c :: l, s, h => by
    obtain ⟨h1, h2⟩ := fold_store (l := l) (nodup_store (i := c.1) h)
    refine ⟨h1, fun j => ?_⟩
    rw [List.foldl_cons, h2 j, mem_store]
    simp only [List.map_cons, List.mem_cons, or_assoc]

theorem fold_remove : ∀ {l : List (Nat × List Lit)} {s : CCS}, s.set.Nodup →
    (l.foldl (fun s c => (s.remove c.1).1) s).set.Nodup ∧ ∀ j, j ∈ (l.foldl (fun s c => (s.remove c.1).1) s).set ↔ j ∈ s.set ∧ j ∉ l.map Prod.fst
  | [], s, h => ⟨h, by simp⟩
  | c :: l, s, h => by
    obtain ⟨h1, h2⟩ := fold_remove (l := l) (nodup_remove (i := c.1) h)
    refine ⟨h1, fun j => ?_⟩
    rw [List.foldl_cons, h2 j, mem_remove h]
    simp only [List.map_cons, List.mem_cons, not_or, and_assoc, ne_eq]

theorem notGate_ok {G : Prop} {R : Nat → List Lit → Prop} {t : PeTask} {f : Nat} (h : BuildOK R t f) : TaskOK.{u} G p.sg R t.notGate f := by
  refine ⟨⟨fun i => ?_, fun i => ?_, h.reg.off, h.reg.card, h.reg.ndp, h.reg.ndn, h.reg.ndo, List.nodup_nil, List.nodup_nil⟩, by simp [PeTask.notGate, CCS.empty],
    by simp [PeTask.notGate, CCS.empty], fun _ => ⟨rfl, rfl⟩, fun h => by simp [PeTask.notGate] at h⟩
  · rw [← h.reg.pos i]
    simp only [PeTask.notGate, CCS.empty, List.not_mem_nil, or_false]
    exact ⟨.inl, fun h' => h'.elim id fun h' => (h.sp i h').1⟩
  · rw [← h.reg.neg i]
    simp only [PeTask.notGate, CCS.empty, List.not_mem_nil, or_false]
    exact ⟨.inl, fun h' => h'.elim id fun h' => (h.sn i h').1⟩

/-- A positive and a negative clause of a gate do not contradict each other. -/
def AgreeCl (sg : Sig) (f : Nat) (P N : List Lit) : Prop := ∀ (I : Interp.{u} sg) (ds : List I.D), Demands I f true P ds → Demands I f false N ds → False

/-- For every predicate, the clauses that can be part of a gate do not contradict each other, or there is at most one of each sign. -/
def GatesOK (sg : Sig) (V : List (Nat × List Lit)) : Prop := ∀ f,
  (∀ c ∈ V, ∀ d ∈ V, GateCl f true c.2 → GateCl f false d.2 → AgreeCl.{u} sg f c.2 d.2) ∨
    ((∀ c ∈ V, ∀ d ∈ V, GateCl f true c.2 → GateCl f true d.2 → c = d) ∧ ∀ c ∈ V, ∀ d ∈ V, GateCl f false c.2 → GateCl f false d.2 → c = d)

include hsg hF ha in
theorem checkTaut_ok {G : Prop} {V : List (Nat × List Lit)} (hG : G → GatesOK.{u} p.sg V) (hTG : ∀ C, (∀ K ∈ C, FOLit p.sg K) → p.tautG C = true → Valid.{u} p.sg C)
    {s : PeSt} (hV : s.passive = V) (hfo : ∀ c ∈ s.passive, FOC p.sg c.2) (hnd : (s.passive.map Prod.fst).Nodup)
    {t : PeTask} {f k : Nat} (hp : PredOK p.sg f) (T : BuildOK (fun i C => (i, C) ∈ s.passive) t f) {t' : PeTask} {core : List (Nat × List Lit)}
    (hcore : ∀ c ∈ core, IsGate s t f c) (hcov : ∀ (I : Interp.{u} p.sg) (ds : List I.D), SArgs I f ds → ∃ c ∈ core, ∃ b, GateCl f b c.2 ∧ Demands I f b c.2 ds)
    (h : checkTautologies p k f t core = some t') : t'.size = t.size ∧ TaskOK.{u} G p.sg (fun i C => (i, C) ∈ s.passive) t' f := by
  subst hV
  unfold checkTautologies at h
  dsimp only at h
  -- the sign of a clause of the core
  have hsign : ∀ c ∈ core, ∀ b, GateCl f b c.2 → (((findHead f none c.2 []).map fun q => q.1.pos) == some true) = b := by
    intro c hc b hb
    cases hh : findHead f none c.2 [] with
    | none =>
      exfalso
      obtain ⟨ts, R, q1, -⟩ := hb
      exact findHead_none hh _ (q1.mem_iff.2 (List.mem_cons_self ..)) ⟨rfl, .inl rfl⟩
    | some q =>
      obtain ⟨L, R⟩ := q
      obtain ⟨b', ts, -, pC, rfl⟩ := head_plain hsg hF hp (hfo _ (hcore c hc).1) hh
      obtain ⟨_, _, q1, q2, _⟩ := hb
      obtain ⟨rfl, -, -⟩ := one_unique q1 q2 pC
      cases b' <;> rfl
  generalize hP : core.reverse.filter (fun c => ((findHead f none c.2 []).map fun q => q.1.pos) == some true) = P at h
  generalize hN : core.reverse.filter (fun c => !(((findHead f none c.2 []).map fun q => q.1.pos) == some true)) = N at h
  have memP : ∀ c, c ∈ P ↔ c ∈ core ∧ GateCl f true c.2 := by
    intro c
    rw [← hP, List.mem_filter, List.mem_reverse]
    refine and_congr_right fun hc => ?_
    constructor
    · intro h'
      rcases (hcore c hc).2 with h1 | h1
      · exact h1.2
      · rw [hsign c hc _ h1.2] at h'
        cases h'
    · intro h'
      exact hsign c hc _ h'
  have memN : ∀ c, c ∈ N ↔ c ∈ core ∧ GateCl f false c.2 := by
    intro c
    rw [← hN, List.mem_filter, List.mem_reverse]
    refine and_congr_right fun hc => ?_
    constructor
    · intro h'
      rcases (hcore c hc).2 with h1 | h1
      · rw [hsign c hc _ h1.2] at h'
        cases h'
      · exact h1.2
    · intro h'
      rw [hsign c hc _ h']
      rfl
  clear hP hN hsign
  have gsub : ∀ c, c ∈ core → GateCl f true c.2 → c.1 ∈ t.posG.set := by
    intro c hc hg
    rcases (hcore c hc).2 with h1 | h1
    · exact h1.1
    · obtain ⟨_, _, q1, q2, _⟩ := hg
      obtain ⟨_, _, q3, _⟩ := h1.2
      cases (one_unique q1 q2 q3).1
  have gsubN : ∀ c, c ∈ core → GateCl f false c.2 → c.1 ∈ t.negG.set := by
    intro c hc hg
    rcases (hcore c hc).2 with h1 | h1
    · obtain ⟨_, _, q1, q2, _⟩ := hg
      obtain ⟨_, _, q3, _⟩ := h1.2
      cases (one_unique q1 q2 q3).1
    · exact h1.1
  split at h
  · cases h
  · cases h
    exact ⟨rfl, notGate_ok T⟩
  · rename_i htest
    cases h
    obtain ⟨sP1, sP2⟩ := fold_store (l := P.reverse) (s := CCS.empty) List.nodup_nil
    obtain ⟨sN1, sN2⟩ := fold_store (l := N.reverse) (s := CCS.empty) List.nodup_nil
    obtain ⟨rP1, rP2⟩ := fold_remove (l := P.reverse) T.reg.ndp
    obtain ⟨rN1, rN2⟩ := fold_remove (l := N.reverse) T.reg.ndn
    have idP : ∀ j, j ∈ P.reverse.map Prod.fst ↔ ∃ c ∈ P, c.1 = j := by simp
    have idN : ∀ j, j ∈ N.reverse.map Prod.fst ↔ ∃ c ∈ N, c.1 = j := by simp
    simp only [idP, idN, CCS.empty, List.not_mem_nil, false_or] at sP2 sN2 rP2 rN2
    have subP : ∀ j, (∃ c ∈ P, c.1 = j) → j ∈ t.posG.set := by
      rintro _ ⟨c, hc, rfl⟩
      exact gsub c ((memP c).1 hc).1 ((memP c).1 hc).2
    have subN : ∀ j, (∃ c ∈ N, c.1 = j) → j ∈ t.negG.set := by
      rintro _ ⟨c, hc, rfl⟩
      exact gsubN c ((memN c).1 hc).1 ((memN c).1 hc).2
    have clP : ∀ c ∈ P, (s.passive.lookup c.1).getD [] = c.2 := fun c hc => by
      rw [(lookup_iff hnd).2 (show (c.1, c.2) ∈ s.passive from (hcore c ((memP c).1 hc).1).1)]
      rfl
    have clN : ∀ c ∈ N, (s.passive.lookup c.1).getD [] = c.2 := fun c hc => by
      rw [(lookup_iff hnd).2 (show (c.1, c.2) ∈ s.passive from (hcore c ((memN c).1 hc).1).1)]
      rfl
    refine ⟨rfl, ⟨⟨fun i => ?_, fun i => ?_, T.reg.off, T.reg.card, rP1, rN1, T.reg.ndo, sP1, sN1⟩, fun i hi hi' => ?_, fun i hi hi' => ?_, fun h => (by cases h), fun _ => ?_⟩⟩
    · refine Iff.trans ?_ (T.reg.pos i)
      show i ∈ (P.reverse.foldl (fun s c => (s.remove c.1).1) t.pos).set ∨ i ∈ (P.reverse.foldl (fun (s : CCS) c => (s.store c.1).1) ⟨0, []⟩).set ↔ _
      rw [rP2 i, sP2 i]
      constructor
      · rintro (h' | h')
        · exact .inl h'.1
        · exact .inr (subP i h')
      · intro h'
        by_cases hm : ∃ c ∈ P, c.1 = i
        · exact .inr hm
        · exact .inl ⟨h'.elim id fun h' => (T.sp i h').1, hm⟩
    · refine Iff.trans ?_ (T.reg.neg i)
      show i ∈ (N.reverse.foldl (fun s c => (s.remove c.1).1) t.neg).set ∨ i ∈ (N.reverse.foldl (fun (s : CCS) c => (s.store c.1).1) ⟨0, []⟩).set ↔ _
      rw [rN2 i, sN2 i]
      constructor
      · rintro (h' | h')
        · exact .inl h'.1
        · exact .inr (subN i h')
      · intro h'
        by_cases hm : ∃ c ∈ N, c.1 = i
        · exact .inr hm
        · exact .inl ⟨h'.elim id fun h' => (T.sn i h').1, hm⟩
    · exact ((rP2 i).1 hi).2 ((sP2 i).1 hi')
    · exact ((rN2 i).1 hi).2 ((sN2 i).1 hi')
    · refine ⟨fun i => (s.passive.lookup i).getD [], fun i hi => ?_, fun i hi => ?_, fun I ds hds => ?_, fun hg I ds C hC D hD d1 d2 => ?_⟩
      · obtain ⟨c, hc, rfl⟩ := (sP2 i).1 hi
        dsimp only
        rw [clP c hc]
        exact ⟨(hcore c ((memP c).1 hc).1).1, ((memP c).1 hc).2⟩
      · obtain ⟨c, hc, rfl⟩ := (sN2 i).1 hi
        dsimp only
        rw [clN c hc]
        exact ⟨(hcore c ((memN c).1 hc).1).1, ((memN c).1 hc).2⟩
      · obtain ⟨c, hc, b, hb, hd⟩ := hcov I ds hds
        cases b
        · have hcN := (memN c).2 ⟨hc, hb⟩
          exact .inr ⟨c.2, List.mem_map.2 ⟨c.1, (sN2 _).2 ⟨c, hcN, rfl⟩, clN c hcN⟩, hd⟩
        · have hcP := (memP c).2 ⟨hc, hb⟩
          exact .inl ⟨c.2, List.mem_map.2 ⟨c.1, (sP2 _).2 ⟨c, hcP, rfl⟩, clP c hcP⟩, hd⟩
      · obtain ⟨i, hi, rfl⟩ := List.mem_map.1 hC
        obtain ⟨j, hj, rfl⟩ := List.mem_map.1 hD
        obtain ⟨c, hc, rfl⟩ := (sP2 i).1 hi
        obtain ⟨d, hd, rfl⟩ := (sN2 j).1 hj
        rw [clP c hc] at d1
        rw [clN d hd] at d2
        have gc := (memP c).1 hc
        have gd := (memN d).1 hd
        rcases hG hg f with h' | ⟨h1, h2⟩
        · exact h' c (hcore c gc.1).1 d (hcore d gd.1).1 gc.2 gd.2 I ds d1 d2
        · have hP0 : 0 < P.length := List.length_pos_of_mem hc
          have hN0 : 0 < N.length := List.length_pos_of_mem hd
          have ht := outer_first hP0 hN0 htest
          rw [List.getElem?_eq_getElem hP0, List.getElem?_eq_getElem hN0] at ht
          have e1 : P[0] = c := by
            have g0 := (memP P[0]).1 (List.getElem_mem _)
            exact h1 _ (hcore _ g0.1).1 _ (hcore c gc.1).1 g0.2 gc.2
          have e2 : N[0] = d := by
            have g0 := (memN N[0]).1 (List.getElem_mem _)
            exact h2 _ (hcore _ g0.1).1 _ (hcore d gd.1).1 g0.2 gd.2
          rw [e1, e2] at ht
          dsimp only at ht
          split at ht
          · rename_i R hR
            obtain ⟨ts, us, RP, RN, hres, -⟩ := buildNeq_res.{u} hsg hF ha hp (hfo _ (hcore c gc.1).1) (hfo _ (hcore d gd.1).1) hR
            refine res_contra hres (.inr (.inl (gateCl_distinct gc.2 hres.pp))) (gateCl_one gc.2) (gateCl_one gd.2) (fun R' hR' => ?_) ds d1 d2
            cases hR'
            exact fun v _ => hTG R (hres.fo R rfl) (Option.some.inj ht) I v
          · cases ht

/-! ## The initial state -/

section
variable (hord : ∀ l, (p.ord l).Perm l) {G : Prop} {Cs : List (List Lit)} (hfo : ∀ C ∈ Cs, FOC p.sg C)

theorem numbered_snd : (numbered Cs).map Prod.snd = Cs := by
  unfold numbered
  rw [List.map_snd_zip]
  simp

theorem numbered_fst : (numbered Cs).map Prod.fst = List.range Cs.length := by
  unfold numbered
  rw [List.map_fst_zip]
  simp

theorem mem_numbered {c : Nat × List Lit} (h : c ∈ numbered Cs) : c.1 < Cs.length ∧ c.2 ∈ Cs := by
  constructor
  · have : c.1 ∈ (numbered Cs).map Prod.fst := List.mem_map_of_mem h
    rw [numbered_fst] at this
    simpa using this
  · have : c.2 ∈ (numbered Cs).map Prod.snd := List.mem_map_of_mem h
    rwa [numbered_snd] at this

theorem scanAll_same (cs : List (Nat × List Lit)) : ∀ s : PeSt, (scanAll p cs s).passive = s.passive ∧ (scanAll p cs s).next = s.next ∧ (scanAll p cs s).vars = s.vars := by
  unfold scanAll
  induction cs with
  | nil => exact fun s => ⟨rfl, rfl, rfl⟩
  | cons c cs ih =>
    intro s
    obtain ⟨h1, h2, h3⟩ := ih (scanClause p.maxOccs p.gates (p.ignoreConj && p.conj c.1) c.1 c.2 s)
    obtain ⟨g1, g2, g3⟩ := scanClause_passive (m := p.maxOccs) (recog := p.gates) (block := p.ignoreConj && p.conj c.1) (i := c.1) (C := c.2) (s := s)
    exact ⟨h1.trans g1, h2.trans g2, h3.trans g3⟩

include hfo in
theorem scanAll_ok {Q : (Nat → List Lit → Prop) → PeTask → Nat → Prop} (hQ : QOK p.sg Q p.gates) (b : VarBank) :
    StOK Q (fun _ i C => (i, C) ∈ numbered Cs) (scanAll p (numbered Cs) ⟨numbered Cs, Cs.length, fun _ => none, [], [], b⟩) := by
  have hnd : ((numbered Cs).map Prod.fst).Nodup := by
    rw [numbered_fst]
    exact List.nodup_range
  have key : ∀ (B A : List (Nat × List Lit)) (s : PeSt), A ++ B = numbered Cs → StOK Q (fun _ i C => (i, C) ∈ A) s →
      StOK Q (fun _ i C => (i, C) ∈ numbered Cs) (scanAll p B s) := by
    intro B
    induction B with
    | nil =>
      intro A s e h
      rw [List.append_nil] at e
      rw [← e]
      exact h
    | cons c B ih =>
      intro A s e h
      have hc : c ∈ numbered Cs := by rw [← e]; simp
      refine ih (A ++ [c]) _ (by rw [← e]; simp) ?_
      refine scanClause_ok hQ (hfo _ (mem_numbered hc).2).fo (fun C' hC' => ?_) h
      rw [← e, List.map_append, List.nodup_append] at hnd
      exact hnd.2.2 c.1 (List.mem_map.2 ⟨_, hC', rfl⟩) c.1 (by simp) rfl
  refine key _ [] _ rfl ⟨fun _ _ _ _ h => (by cases h), fun f t h => (by cases h), fun f => (by simp), List.nodup_nil, List.nodup_nil, fun f h => (by cases h)⟩

end

theorem checkUnsat_size {k f : Nat} {s : PeSt} {t t' : PeTask} (h : checkUnsatTauto p k f s t = some t') : t'.size = t.size := by
  unfold checkUnsatTauto at h
  split at h
  · cases h
  · split at h
    · cases h
    · split at h
      · cases h
      · dsimp only at h
        split at h
        · cases h
          rfl
        · unfold checkTautologies at h
          dsimp only at h
          split at h
          · cases h
          · cases h
            rfl
          · cases h
            rfl

theorem gateStatus_same {k f : Nat} {s s' : PeSt} (h : gateStatus p k s f = some s') : s'.passive = s.passive ∧ s'.next = s.next ∧ s'.vars = s.vars ∧ s'.keys = s.keys ∧ s'.queue = s.queue := by
  unfold gateStatus at h
  split at h
  · cases h
    exact ⟨rfl, rfl, rfl, rfl, rfl⟩
  · split at h
    · simp only [Option.map_eq_some_iff] at h
      obtain ⟨t', -, rfl⟩ := h
      exact ⟨rfl, rfl, rfl, rfl, rfl⟩
    · cases h
      exact ⟨rfl, rfl, rfl, rfl, rfl⟩

theorem gateStatuses_same {k : Nat} : ∀ {l : List Nat} {s s' : PeSt}, gateStatuses p k l s = some s' →
    s'.passive = s.passive ∧ s'.next = s.next ∧ s'.vars = s.vars ∧ s'.keys = s.keys ∧ s'.queue = s.queue
  | [], _, _, h => by
    cases h
    exact ⟨rfl, rfl, rfl, rfl, rfl⟩
  | f :: l, s, s', h => by
    simp only [gateStatuses, Option.bind_eq_some_iff] at h
    obtain ⟨s1, h1, h2⟩ := h
    obtain ⟨a1, a2, a3, a4, a5⟩ := gateStatus_same h1
    obtain ⟨b1, b2, b3, b4, b5⟩ := gateStatuses_same h2
    exact ⟨b1.trans a1, b2.trans a2, b3.trans a3, b4.trans a4, b5.trans a5⟩

section
variable (hord : ∀ l, (p.ord l).Perm l) (hsolve : SolverOK p.solve) (hTG : ∀ C, (∀ K ∈ C, FOLit p.sg K) → p.tautG C = true → Valid.{u} p.sg C)
  {G : Prop} {V : List (Nat × List Lit)} (hG : G → GatesOK.{u} p.sg V) (hfo : ∀ c ∈ V, FOC p.sg c.2) (hnd : (V.map Prod.fst).Nodup) (hno : ∀ c ∈ V, cnt p.eqc c.2 = 0)
include hsg hF ha hord hsolve hTG hG hfo hnd hno

theorem gateStatus_ok {k f : Nat} {s s' : PeSt} (hV : s.passive = V)
    (hB : ∀ t, s.tasks f = some t → t.size ≠ -1 → BuildOK (fun i C => (i, C) ∈ V) t f) (h : gateStatus p k s f = some s') :
    (∀ g, g ≠ f → s'.tasks g = s.tasks g) ∧ (s'.tasks f = none ↔ s.tasks f = none) ∧
      ∀ t, s'.tasks f = some t → t.size ≠ -1 → TaskOK.{u} G p.sg (fun i C => (i, C) ∈ V) t f := by
  unfold gateStatus at h
  split at h
  · rename_i e
    cases h
    exact ⟨fun _ _ => rfl, Iff.rfl, fun t ht => by rw [e] at ht; cases ht⟩
  · rename_i t e
    split at h
    · simp only [Option.map_eq_some_iff] at h
      obtain ⟨t', ht', rfl⟩ := h
      refine ⟨fun g hg => by simp [PeSt.setTask, hg], by simp [PeSt.setTask, e], fun t'' h1 h2 => ?_⟩
      simp only [PeSt.setTask, if_true, Option.some.injEq] at h1
      subst h1
      have T := hB t e (by rw [← checkUnsat_size ht']; exact h2)
      subst hV
      rcases checkUnsat_core.{u} hsg hF ha hord hsolve hfo hnd hno T ht' with rfl | ⟨core, h1, h2, h3, h4⟩
      · exact notGate_ok T
      · exact (checkTaut_ok hsg hF ha hG hTG rfl hfo hnd h2 T h3 h4 h1).2
    · cases h
      refine ⟨fun g hg => by simp [PeSt.setTask, hg], by simp [PeSt.setTask, e], fun t'' h1 h2 => ?_⟩
      simp only [PeSt.setTask, if_true, Option.some.injEq] at h1
      subst h1
      exact notGate_ok (hB t e h2)

theorem gateStatuses_ok {k : Nat} : ∀ {l : List Nat} {s s' : PeSt}, l.Nodup → s.passive = V →
    (∀ f ∈ l, ∀ t, s.tasks f = some t → t.size ≠ -1 → BuildOK (fun i C => (i, C) ∈ V) t f) → gateStatuses p k l s = some s' →
    (∀ g, g ∉ l → s'.tasks g = s.tasks g) ∧ (∀ g, s'.tasks g = none ↔ s.tasks g = none) ∧
      ∀ f ∈ l, ∀ t, s'.tasks f = some t → t.size ≠ -1 → TaskOK.{u} G p.sg (fun i C => (i, C) ∈ V) t f
  | [], _, _, _, _, _, h => by
    cases h
    exact ⟨fun _ _ => rfl, fun _ => Iff.rfl, fun f hf => by cases hf⟩
  | f :: l, s, s', hl, hV, hB, h => by
    simp only [gateStatuses, Option.bind_eq_some_iff] at h
    obtain ⟨s1, h1, h2⟩ := h
    rw [List.nodup_cons] at hl
    obtain ⟨a1, a2, a3⟩ := gateStatus_ok hsg hF ha hord hsolve hTG hG hfo hnd hno hV (hB f (List.mem_cons_self ..)) h1
    obtain ⟨b1, b2, b3⟩ := gateStatuses_ok hl.2 ((gateStatus_same h1).1.trans hV) (fun g hg t ht => by
      rw [a1 g (fun e => hl.1 (e ▸ hg))] at ht
      exact hB g (List.mem_cons_of_mem _ hg) t ht) h2
    refine ⟨fun g hg => ?_, fun g => ?_, fun g hg t ht => ?_⟩
    · rw [List.mem_cons, not_or] at hg
      rw [b1 g hg.2, a1 g hg.1]
    · rw [b2 g]
      by_cases e : g = f
      · subst e
        exact a2
      · rw [a1 g e]
    · rcases List.mem_cons.1 hg with rfl | hg
      · rw [b1 g hl.1] at ht
        exact a3 t ht
      · exact b3 g hg t ht

end

theorem scanClause_queue {m : Nat} {recog block : Bool} {i : Nat} {C : List Lit} {s : PeSt} (h : s.queue = []) : (scanClause m recog block i C s).queue = [] := by
  unfold scanClause
  generalize List.range C.length = l
  induction l generalizing s with
  | nil => exact h
  | cons j l ih =>
    refine ih ?_
    unfold scanLit
    split
    · exact h
    · split
      · exact h
      · rename_i f _
        have key : ∀ (s' : PeSt) (t t2 : PeTask), s'.queue = [] → (if t.size = -1 then s'.setTask f t else if f ∈ (s'.setTask f t2).queue ∧ t2.canSchedule = false then
            { s'.setTask f t2 with queue := (s'.setTask f t2).queue.erase f } else s'.setTask f t2).queue = [] := by
          intro s' t t2 hs'
          split
          · exact hs'
          · split
            · simp [PeSt.setTask, hs']
            · exact hs'
        refine key _ _ _ ?_
        split <;> exact h

theorem scanAll_queue (cs : List (Nat × List Lit)) : ∀ s : PeSt, s.queue = [] → (scanAll p cs s).queue = [] := by
  unfold scanAll
  induction cs with
  | nil => exact fun s h => h
  | cons c cs ih => exact fun s h => ih _ (scanClause_queue h)

/-- The conditions under which gates are found. -/
structure GateHyp (G : Prop) (Cs : List (List Lit)) : Prop where
  solve : SolverOK p.solve
  taut : ∀ C, (∀ K ∈ C, FOLit p.sg K) → p.tautG C = true → Valid.{u} p.sg C
  noeq : ∀ C ∈ Cs, cnt p.eqc C = 0
  gates : G → GatesOK.{u} p.sg (numbered Cs)

include hsg hF ha in
/-- The queue is built. -/
theorem buildQueue_ok (hord : ∀ l, (p.ord l).Perm l) {G : Prop} {Cs : List (List Lit)} (hfo : ∀ C ∈ Cs, FOC p.sg C) (hg : p.gates = true → GateHyp.{u} (p := p) G Cs)
    {k : Nat} {b : VarBank} (hb : b.Inv) {s : PeSt} (h : buildQueue p k Cs b = some s) : SInv.{u} p G s ∧ s.passive = numbered Cs ∧ s.vars = b := by
  have hnd : ((numbered Cs).map Prod.fst).Nodup := by
    rw [numbered_fst]
    exact List.nodup_range
  have hfo' : ∀ c ∈ numbered Cs, FOC p.sg c.2 := fun c hc => hfo _ (mem_numbered hc).2
  obtain ⟨e1, e2, e3⟩ := scanAll_same (p := p) (numbered Cs) ⟨numbered Cs, Cs.length, fun _ => none, [], [], b⟩
  unfold buildQueue at h
  dsimp only at h
  simp only [Option.map_eq_some_iff] at h
  obtain ⟨s1, h1, rfl⟩ := h
  suffices hs : (s1.passive = numbered Cs ∧ s1.next = Cs.length ∧ s1.vars = b) ∧ StOK (TaskOK.{u} G p.sg) (fun _ i C => (i, C) ∈ numbered Cs) s1 by
    obtain ⟨⟨q1, q2, q3⟩, q⟩ := hs
    refine ⟨⟨?_, ?_, ?_, ?_, ?_⟩, q1, q3⟩
    · intro c hc
      exact hfo' c (by rwa [← q1])
    · show (s1.passive.map Prod.fst).Nodup
      rw [q1]
      exact hnd
    · intro c hc
      show c.1 < s1.next
      rw [q2]
      exact (mem_numbered (by rwa [← q1])).1
    · show StOK _ (fun _ i C => (i, C) ∈ s1.passive) _
      rw [q1]
      refine ⟨q.empty, q.task, q.keys, q.ndk, q.ndk.filter _, fun f hf => ?_⟩
      obtain ⟨-, hf⟩ := List.mem_filter.1 hf
      cases ht : s1.tasks f with
      | none => rw [ht] at hf; cases hf
      | some t => rw [ht] at hf; exact ⟨t, rfl, .inr hf⟩
    · show s1.vars.Inv
      rw [q3]
      exact hb
  split at h1
  · rename_i hgt
    have H := hg hgt
    obtain ⟨c1, c2, c3, c4, c5⟩ := gateStatuses_same h1
    refine ⟨⟨c1.trans e1, c2.trans e2, c3.trans e3⟩, ?_⟩
    have hs := scanAll_ok (p := p) (Cs := Cs) hfo (build_qok hsg hF p.gates) b
    obtain ⟨d1, d2, d3⟩ := gateStatuses_ok.{u} hsg hF ha hord H.solve H.taut H.gates hfo' hnd (fun c hc => H.noeq _ (mem_numbered hc).2) hs.ndk e1 (fun f _ => hs.task f) h1
    refine ⟨fun f hf => hs.empty f ((d2 f).1 hf), fun f t ht => ?_, fun f => ?_, ?_, ?_, ?_⟩
    · refine d3 f ?_ t ht
      rw [hs.keys]
      intro e
      rw [(d2 f).2 e] at ht
      cases ht
    · rw [c4, hs.keys]
      exact not_congr (d2 f).symm
    · rw [c4]
      exact hs.ndk
    · rw [c5]
      exact hs.ndq
    · intro f hf
      exfalso
      rw [c5, scanAll_queue _ _ rfl] at hf
      cases hf
  · rename_i hgt
    cases h1
    refine ⟨⟨e1, e2, e3⟩, scanAll_ok hfo ?_ b⟩
    rw [Bool.not_eq_true] at hgt
    rw [hgt]
    exact main_qok G

end

end Verif.PeProof
