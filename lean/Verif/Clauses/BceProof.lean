import Verif.Clauses.Bce
import Verif.Clauses.PreprocProof
import Mathlib.Order.Zorn

/-!
# Blocked clause elimination: changing the meaning of one predicate
-/

namespace Verif.BceProof
open SemProof Props CNFProof SaturateProof Term

universe u

variable {sg : Sig}

/-! ## Literals -/

/-- The two kinds of literals. -/
theorem lit_cases (hsg : SigOK sg) (hF : FOSig sg) {L : Lit} (h : FOLit sg L) :
    (L.equ = true ∧ sg.ty L.l ≠ sg.fty 1 ∧ L.predCode? = none) ∨
      ∃ f ts, L = ⟨L.pos, .app f ts, tTrue⟩ ∧ f ≠ 1 ∧ f ≠ 2 ∧ sg.fty f = sg.fty 1 ∧ sg.WT (.app f ts) ∧ L.equ = false ∧ L.predCode? = some f := by
  obtain ⟨⟨w1, w2, w3⟩, ⟨n1, n2, _⟩, n4, n5⟩ := h
  by_cases e : L.r = tTrue
  · right
    obtain ⟨pos, l, r⟩ := L
    simp only at *
    subst e
    cases l with
    | var x => exact absurd w3 (hF.vars x)
    | app f ts =>
      have hf : sg.fty f = sg.fty 1 := w3
      refine ⟨f, ts, rfl, ?_, ?_, hf, w1, by simp [Lit.equ], by simp [Lit.predCode?, Lit.equ]⟩
      · rintro rfl
        rw [Sig.wt_app, hsg.targs] at w1
        exact n4 (by rw [tTrue, List.map_eq_nil_iff.1 w1.1])
      · rintro rfl
        rw [Sig.wt_app, hsg.fargs] at w1
        exact n1 (by rw [tFalse, List.map_eq_nil_iff.1 w1.1])
  · left
    refine ⟨by simp [Lit.equ, e], fun h => e (n5 h), by simp [Lit.predCode?, Lit.equ, e]⟩

theorem arg_ty (hF : FOSig sg) {f : Nat} {ts : List Term} (h : sg.WT (.app f ts)) {t : Term} (ht : t ∈ ts) : sg.ty t ≠ sg.fty 1 := by
  intro e
  rw [Sig.wt_app] at h
  exact hF.args f (h.1 ▸ e ▸ List.mem_map_of_mem ht)

/-! ## Flipping a predicate -/

/-- The truth value for a sign. -/
def tv (I : Interp.{u} sg) (b : Bool) : I.D := if b then I.fn 1 [] else I.fn 2 []

open Classical in
/-- The functions where the atoms `p(ds)`, `ds ∈ S`, get the value `pol`. -/
noncomputable def flipFn (I : Interp.{u} sg) (p : Nat) (pol : Bool) (S : Set (List I.D)) : Nat → List I.D → I.D :=
  fun s ds => if s = p ∧ ds ∈ S then tv I pol else I.fn s ds

theorem flip_other (I : Interp.{u} sg) {p : Nat} {pol : Bool} {S : Set (List I.D)} {s : Nat} (h : s ≠ p) : flipFn I p pol S s = I.fn s := by
  funext ds
  simp [flipFn, h]

/-- A predicate the meaning of which may be changed. -/
structure PredOK (sg : Sig) (p : Nat) : Prop where
  one : p ≠ 1
  two : p ≠ 2
  ty : sg.fty p = sg.fty 1

theorem flip_ok (hsg : SigOK sg) (hF : FOSig sg) (I : Interp.{u} sg) {p : Nat} (hp : PredOK sg p) (pol : Bool) (S : Set (List I.D)) : I.FnOK (flipFn I p pol S) := by
  have h1 : flipFn I p pol S 1 = I.fn 1 := flip_other I hp.one.symm
  have h2 : flipFn I p pol S 2 = I.fn 2 := flip_other I hp.two.symm
  have hd : ∀ f, sg.distinct f → f ≠ p := by
    rintro f hf rfl
    exact hF.dist f hf hp.ty
  refine ⟨?_, ?_, ?_, ?_⟩
  · intro f ds hds
    unfold flipFn
    split
    · next h =>
      rw [h.1, hp.ty]
      unfold tv
      split
      · exact I.fn_mem 1 [] (by rw [hsg.targs]; exact .nil)
      · rw [hsg.tf]; exact I.fn_mem 2 [] (by rw [hsg.fargs]; exact .nil)
    · exact I.fn_mem f ds hds
  · rw [h1, h2]; exact I.tf
  · rw [h1, h2]; exact I.bool2
  · intro f g hf hg hfg
    rw [flip_other I (hd f hf), flip_other I (hd g hg)]
    exact I.dist f g hf hg hfg

/-- The interpretation with the flipped predicate. -/
noncomputable def flipI (hsg : SigOK sg) (hF : FOSig sg) (I : Interp.{u} sg) {p : Nat} (hp : PredOK sg p) (pol : Bool) (S : Set (List I.D)) : Interp.{u} sg :=
  I.reint (flipFn I p pol S) (flip_ok hsg hF I hp pol S)

section
variable (hsg : SigOK sg) (hF : FOSig sg) (I : Interp.{u} sg) {p : Nat} (hp : PredOK sg p) (pol : Bool)

theorem eval_flip (S : Set (List I.D)) (v : Nat → I.D) (t : Term) (hw : sg.WT t) (ht : sg.ty t ≠ sg.fty 1) :
    (flipI hsg hF I hp pol S).eval v t = I.eval v t := by
  induction t using Term.ind with
  | hv x => rfl
  | ha f ts ih =>
    have hf : f ≠ p := by
      rintro rfl
      exact ht hp.ty
    rw [eval_app I]
    refine (eval_app (flipI hsg hF I hp pol S) v f ts).trans ((congrFun (flip_other I hf) _).trans (congrArg _ ?_))
    exact List.map_congr_left fun t h => ih t h ((Sig.wt_app.1 hw).2 t h) (arg_ty hF hw h)

theorem evals_flip (S : Set (List I.D)) (v : Nat → I.D) {f : Nat} {ts : List Term} (hw : sg.WT (.app f ts)) :
    ts.map ((flipI hsg hF I hp pol S).eval v) = ts.map (I.eval v) :=
  List.map_congr_left fun t h => eval_flip hsg hF I hp pol S v t ((Sig.wt_app.1 hw).2 t h) (arg_ty hF hw h)

theorem true_flip (S : Set (List I.D)) : (flipI hsg hF I hp pol S).fn 1 [] = I.fn 1 [] := congrFun (flip_other I hp.one.symm) []

/-- Literals of other predicates. -/
theorem lit_flip_other (S : Set (List I.D)) (v : Nat → I.D) {K : Lit} (hK : FOLit sg K) (h : K.predCode? ≠ some p) :
    (flipI hsg hF I hp pol S).LitTrue v K ↔ I.LitTrue v K := by
  have key : (flipI hsg hF I hp pol S).eval v K.l = I.eval v K.l ∧ (flipI hsg hF I hp pol S).eval v K.r = I.eval v K.r := by
    rcases lit_cases hsg hF hK with ⟨_, h2, _⟩ | ⟨f, ts, e, _, _, h3, h4, _, h5⟩
    · exact ⟨eval_flip hsg hF I hp pol S v _ hK.wt.1 h2, eval_flip hsg hF I hp pol S v _ hK.wt.2.1 (hK.wt.2.2 ▸ h2)⟩
    · have hf : f ≠ p := by
        rintro rfl
        exact h h5
      rw [e]
      refine ⟨?_, ?_⟩
      · show (flipI hsg hF I hp pol S).eval v (.app f ts) = I.eval v (.app f ts)
        rw [eval_app I]
        exact (eval_app (flipI hsg hF I hp pol S) v f ts).trans ((congrFun (flip_other I hf) _).trans (congrArg _ (evals_flip hsg hF I hp pol S v h4)))
      · show (flipI hsg hF I hp pol S).eval v tTrue = I.eval v tTrue
        rw [eval_true I]
        exact (eval_true (flipI hsg hF I hp pol S) v).trans (true_flip hsg hF I hp pol S)
  unfold Interp.LitTrue
  rw [key.1, key.2]
  rfl

theorem lit_flip_in (S : Set (List I.D)) (v : Nat → I.D) {pos : Bool} {ts : List Term} (hw : sg.WT (.app p ts)) (h : ts.map (I.eval v) ∈ S) :
    (flipI hsg hF I hp pol S).LitTrue v ⟨pos, .app p ts, tTrue⟩ ↔ pos = pol := by
  have e1 : (flipI hsg hF I hp pol S).eval v (.app p ts) = tv I pol := by
    refine (eval_app (flipI hsg hF I hp pol S) v p ts).trans ((congrArg _ (evals_flip hsg hF I hp pol S v hw)).trans ?_)
    exact if_pos ⟨rfl, h⟩
  have e2 : (flipI hsg hF I hp pol S).eval v tTrue = I.fn 1 [] := (eval_true (flipI hsg hF I hp pol S) v).trans (true_flip hsg hF I hp pol S)
  unfold Interp.LitTrue
  simp only [e1, e2, tv]
  have := I.tf
  cases pos <;> cases pol
  · exact ⟨fun _ => rfl, fun _ h => this h.symm⟩
  · exact ⟨fun h => absurd rfl h, fun h => nomatch h⟩
  · exact ⟨fun h => absurd h.symm this, fun h => nomatch h⟩
  · exact ⟨fun _ => rfl, fun _ => rfl⟩

theorem lit_flip_out (S : Set (List I.D)) (v : Nat → I.D) {pos : Bool} {ts : List Term} (hw : sg.WT (.app p ts)) (h : ts.map (I.eval v) ∉ S) :
    (flipI hsg hF I hp pol S).LitTrue v ⟨pos, .app p ts, tTrue⟩ ↔ I.LitTrue v ⟨pos, .app p ts, tTrue⟩ := by
  have e1 : (flipI hsg hF I hp pol S).eval v (.app p ts) = I.eval v (.app p ts) := by
    rw [eval_app I]
    refine (eval_app (flipI hsg hF I hp pol S) v p ts).trans ((congrArg _ (evals_flip hsg hF I hp pol S v hw)).trans ?_)
    exact if_neg fun h' => h h'.2
  have e2 : (flipI hsg hF I hp pol S).eval v tTrue = I.eval v tTrue := by
    rw [eval_true I]
    exact (eval_true (flipI hsg hF I hp pol S) v).trans (true_flip hsg hF I hp pol S)
  unfold Interp.LitTrue
  simp only [e1, e2]
  rfl

/-- The truth of a literal depends on the membership of its arguments only. -/
theorem lit_flip_congr (S T : Set (List I.D)) (v : Nat → I.D) {K : Lit} (hK : FOLit sg K)
    (h : ∀ ts, K.l = .app p ts → (ts.map (I.eval v) ∈ S ↔ ts.map (I.eval v) ∈ T)) :
    (flipI hsg hF I hp pol S).LitTrue v K ↔ (flipI hsg hF I hp pol T).LitTrue v K := by
  by_cases hc : K.predCode? = some p
  · rcases lit_cases hsg hF hK with ⟨_, _, h3⟩ | ⟨f, ts, e, _, _, h3, h4, _, h5⟩
    · rw [h3] at hc; cases hc
    · rw [h5] at hc
      cases hc
      have := h ts (by rw [e])
      rw [e]
      by_cases hS : ts.map (I.eval v) ∈ S
      · exact (lit_flip_in hsg hF I hp pol S v h4 hS).trans (lit_flip_in hsg hF I hp pol T v h4 (this.1 hS)).symm
      · exact (lit_flip_out hsg hF I hp pol S v h4 hS).trans (lit_flip_out hsg hF I hp pol T v h4 fun h => hS (this.2 h)).symm
  · exact (lit_flip_other hsg hF I hp pol S v hK hc).trans (lit_flip_other hsg hF I hp pol T v hK hc).symm

theorem models_flip_empty {D : List Lit} (hD : ∀ K ∈ D, FOLit sg K) (h : I.Models D) : (flipI hsg hF I hp pol ∅).Models D := by
  intro v hv
  obtain ⟨K, hK, hT⟩ := h v hv
  refine ⟨K, hK, ?_⟩
  by_cases hc : K.predCode? = some p
  · rcases lit_cases hsg hF (hD K hK) with ⟨_, _, h3⟩ | ⟨f, ts, e, _, _, h3, h4, _, h5⟩
    · rw [h3] at hc; cases hc
    · rw [h5] at hc
      cases hc
      rw [e] at hT ⊢
      exact (lit_flip_out hsg hF I hp pol ∅ v h4 (by simp)).2 hT
  · exact (lit_flip_other hsg hF I hp pol ∅ v (hD K hK) hc).2 hT

/-- In a chain, one set decides all literals of a clause as the union does. -/
theorem chain_clause {c : Set (Set (List I.D))} (hc : IsChain (· ⊆ ·) c) (hne : c.Nonempty) (v : Nat → I.D) (D : List Lit) :
    ∃ S ∈ c, ∀ K ∈ D, ∀ ts, K.l = .app p ts → (ts.map (I.eval v) ∈ S ↔ ts.map (I.eval v) ∈ ⋃₀ c) := by
  have key : ∃ S ∈ c, ∀ K ∈ D, ∀ ts, K.l = .app p ts → ts.map (I.eval v) ∈ ⋃₀ c → ts.map (I.eval v) ∈ S := by
    induction D with
    | nil =>
      obtain ⟨S, hS⟩ := hne
      exact ⟨S, hS, by simp⟩
    | cons K D ih =>
      obtain ⟨S, hS, hSD⟩ := ih
      by_cases h : ∃ ts, K.l = .app p ts ∧ ts.map (I.eval v) ∈ ⋃₀ c
      · obtain ⟨ts, e, T, hT, hm⟩ := h
        rcases hc.total hS hT with hST | hTS
        · refine ⟨T, hT, fun K' hK' us e' hu => ?_⟩
          rcases List.mem_cons.1 hK' with rfl | hK'
          · rw [e] at e'
            cases e'
            exact hm
          · exact hST (hSD K' hK' us e' hu)
        · refine ⟨S, hS, fun K' hK' us e' hu => ?_⟩
          rcases List.mem_cons.1 hK' with rfl | hK'
          · rw [e] at e'
            cases e'
            exact hTS hm
          · exact hSD K' hK' us e' hu
      · refine ⟨S, hS, fun K' hK' us e' hu => ?_⟩
        rcases List.mem_cons.1 hK' with rfl | hK'
        · exact absurd ⟨us, e', hu⟩ h
        · exact hSD K' hK' us e' hu
  obtain ⟨S, hS, h⟩ := key
  exact ⟨S, hS, fun K hK ts e => ⟨fun hm => ⟨S, hS, hm⟩, h K hK ts e⟩⟩

/-- A literal of the opposite sign with the same arguments. -/
def Opp (I : Interp.{u} sg) (p : Nat) (pol : Bool) (w : Nat → I.D) (ds : List I.D) (K : Lit) : Prop :=
  ∃ us, K = ⟨!pol, .app p us, tTrue⟩ ∧ us.map (I.eval w) = ds

/-- The clause `C` with the literal `pol p(ts)` can be made true, if its falsity never makes all true literals of another clause be complementary to the literal. -/
theorem flip_exists {Fs : List (List Lit)} {C : List Lit} (hI : ∀ D ∈ Fs, I.Models D) (hFs : ∀ D ∈ Fs, ∀ K ∈ D, FOLit sg K) (hC : ∀ K ∈ C, FOLit sg K)
    {ts : List Term} (hL : (⟨pol, .app p ts, tTrue⟩ : Lit) ∈ C)
    (hnb : ∀ (S : Set (List I.D)) (v w : Nat → I.D), I.Sorted v → I.Sorted w → ∀ D ∈ Fs, ¬ (flipI hsg hF I hp pol S).ClauseTrue v C →
      (flipI hsg hF I hp pol S).ClauseTrue w D → ∃ K ∈ D, (flipI hsg hF I hp pol S).LitTrue w K ∧ ¬ Opp I p pol w (ts.map (I.eval v)) K) :
    ∃ S : Set (List I.D), (flipI hsg hF I hp pol S).Models C ∧ ∀ D ∈ Fs, (flipI hsg hF I hp pol S).Models D := by
  obtain ⟨S, hS⟩ := zorn_subset {S : Set (List I.D) | ∀ D ∈ Fs, (flipI hsg hF I hp pol S).Models D} (by
    intro c hcs hc
    rcases Set.eq_empty_or_nonempty c with rfl | hne
    · exact ⟨∅, fun D hD => models_flip_empty hsg hF I hp pol (hFs D hD) (hI D hD), by simp⟩
    · refine ⟨⋃₀ c, fun D hD (v : Nat → I.D) hv => ?_, fun s hs => Set.subset_sUnion_of_mem hs⟩
      obtain ⟨T, hT, h⟩ := chain_clause I (p := p) hc hne v D
      obtain ⟨K, hK, hKt⟩ := hcs hT D hD v hv
      exact ⟨K, hK, (lit_flip_congr hsg hF I hp pol T (⋃₀ c) v (hFs D hD K hK) (h K hK)).1 hKt⟩)
  refine ⟨S, ?_, hS.prop⟩
  by_contra hno
  have hno' : ∃ v : Nat → I.D, I.Sorted v ∧ ¬ (flipI hsg hF I hp pol S).ClauseTrue v C := by
    by_contra h
    push Not at h
    exact hno fun v hv => h v hv
  obtain ⟨v, hv, hf⟩ := hno'
  have hwL : sg.WT (.app p ts) := (hC _ hL).wt.1
  have hds : ts.map (I.eval v) ∉ S := fun h => hf ⟨_, hL, (lit_flip_in hsg hF I hp pol S v hwL h).2 rfl⟩
  refine hds (hS.2 (y := insert (ts.map (I.eval v)) S) ?_ (Set.subset_insert _ _) (Set.mem_insert _ _))
  intro D hD (w : Nat → I.D) hw
  obtain ⟨K, hK, hKt, hKo⟩ := hnb S v w hv hw D hD hf (hS.prop D hD w hw)
  refine ⟨K, hK, ?_⟩
  have hKF := hFs D hD K hK
  by_cases hc : K.predCode? = some p
  · rcases lit_cases hsg hF hKF with ⟨_, _, h3⟩ | ⟨f, us, e, _, _, h3, h4, _, h5⟩
    · rw [h3] at hc; cases hc
    · rw [h5] at hc
      cases hc
      by_cases he : us.map (I.eval w) = ts.map (I.eval v)
      · have hpos : K.pos = pol := by
          by_contra h
          exact hKo ⟨us, by rw [e]; congr 1; revert h; cases K.pos <;> cases pol <;> simp, he⟩
        rw [e]
        exact (lit_flip_in hsg hF I hp pol _ w h4 (by rw [he]; exact Set.mem_insert _ _)).2 hpos
      · refine (lit_flip_congr hsg hF I hp pol S _ w hKF fun us' e' => ?_).1 hKt
        rw [e] at e'
        cases e'
        exact ⟨fun h => Set.mem_insert_of_mem _ h, fun h => h.resolve_left he⟩
  · exact (lit_flip_other hsg hF I hp pol _ w hKF hc).2 ((lit_flip_other hsg hF I hp pol S w hKF hc).1 hKt)

end

/-! ## The copy with other variables -/

theorem copy_eq {C : List Lit} (hC : ∀ K ∈ C, FOLit sg K) : copyDisjoint C = csubst (fun x => .var (x - 1)) C := by
  unfold copyDisjoint csubst
  refine List.map_congr_left fun K hK => ?_
  exact LitProof.mkEqn_of_nf (LitProof.nf_rename (hC K hK).nf fun x => ⟨_, rfl⟩)

/-- Values for the copy of one clause and for another clause. -/
def joinV {α : Type u} (v w : Nat → α) (x : Nat) : α := if x % 2 = 0 then w x else v (x + 1)

theorem joinV_even {α : Type u} (v w : Nat → α) {x : Nat} (h : x % 2 = 0) : joinV v w x = w x := if_pos h

theorem joinV_pred {α : Type u} (v w : Nat → α) {x : Nat} (h : x % 2 = 0 ∧ 0 < x) : joinV v w (x - 1) = v x := by
  unfold joinV
  rw [if_neg (by omega), show x - 1 + 1 = x by omega]

theorem join_sorted (ha : AltTyped sg) (I : Interp.{u} sg) {v w : Nat → I.D} (hv : I.Sorted v) (hw : I.Sorted w) : I.Sorted (joinV v w) := by
  intro x
  unfold joinV
  split
  · exact hw x
  · have h1 := ha (x + 1) (by omega) (by omega)
    have h2 := hv (x + 1)
    rw [← h1] at h2
    exact h2

theorem lit_join_even (I : Interp.{u} sg) (v w : Nat → I.D) {K : Lit} (h : ∀ x ∈ K.vars, x % 2 = 0) : I.LitTrue (joinV v w) K ↔ I.LitTrue w K :=
  litTrue_congr I fun x hx => joinV_even v w (h x (by simpa [Lit.vars] using hx))

theorem lit_join_copy (I : Interp.{u} sg) (v w : Nat → I.D) {K : Lit} (h : ∀ x ∈ K.vars, x % 2 = 0 ∧ 0 < x) :
    I.LitTrue (joinV v w) (K.subst fun x => .var (x - 1)) ↔ I.LitTrue v K := by
  rw [litTrue_subst]
  exact litTrue_congr I fun x hx => joinV_pred v w (h x (by simpa [Lit.vars] using hx))

theorem eval_join_even (I : Interp.{u} sg) (v w : Nat → I.D) {t : Term} (h : ∀ x ∈ t.vars, x % 2 = 0) : I.eval (joinV v w) t = I.eval w t :=
  eval_congr I fun x hx => joinV_even v w (h x hx)

theorem eval_join_copy (I : Interp.{u} sg) (v w : Nat → I.D) {t : Term} (h : ∀ x ∈ t.vars, x % 2 = 0 ∧ 0 < x) :
    I.eval (joinV v w) (t.subst fun x => .var (x - 1)) = I.eval v t := by
  rw [eval_subst]
  exact eval_congr I fun x hx => joinV_pred v w (h x hx)

theorem even_of {C : List Lit} (h : EvenVars C) {K : Lit} (hK : K ∈ C) : ∀ x ∈ K.vars, x % 2 = 0 ∧ 0 < x :=
  fun x hx => h x (List.mem_flatMap.2 ⟨K, hK, hx⟩)

end Verif.BceProof
