import Verif.Clauses.SupCases
import Verif.Clauses.PredElimSem

/-!
# The interpretation given by normal forms (proof of C61)

Domain elements are terms in normal form; Boolean terms get the value `$true` if that is their normal form and `$false` otherwise.
-/

namespace Verif.Sup
open Verif Term LitCmpProof Interp SemProof

variable {sg : Sig} {N : Nat} {gt : Term → Term → Prop}

section
variable (ν : Term → Term)

open scoped Classical in
/-- The value of a ground term. -/
noncomputable def gval (sg : Sig) (t : Term) : Term := if sg.ty t = sg.fty 1 then (if ν t = tTrue then tTrue else tFalse) else ν t

open scoped Classical in
/-- Some element of a type. -/
noncomputable def gdef (sg : Sig) (N : Nat) (ty : Nat) : Term :=
  if ty = sg.fty 1 then tTrue else if h : ∃ t, Gnd sg N t ∧ sg.ty t = ty then ν h.choose else tTrue

def gmem (sg : Sig) (N : Nat) (ty : Nat) (d : Term) : Prop :=
  if ty = sg.fty 1 then d = tTrue ∨ d = tFalse else (Gnd sg N d ∧ sg.ty d = ty ∧ ν d = d) ∨ ((¬ ∃ t, Gnd sg N t ∧ sg.ty t = ty) ∧ d = tTrue)

open scoped Classical in
noncomputable def gfn (sg : Sig) (N : Nat) (f : Nat) (ds : List Term) : Term :=
  if f = 1 ∧ ds = [] then tTrue else if f = 2 ∧ ds = [] then tFalse else if Gnd sg N (.app f ds) then gval ν sg (.app f ds) else gdef ν sg N (sg.fty f)

end

section
variable (h : SupOrd sg N gt) {G : List Lit → Prop} (hG : GClauses sg N G) (hsg : SigOK sg) (hF : FOSig sg) (hd : ∀ f, ¬ sg.distinct f)
include h hG hsg

theorem gdef_mem (ty : Nat) : gmem (nf h G) sg N ty (gdef (nf h G) sg N ty) := by
  unfold gmem gdef
  by_cases e : ty = sg.fty 1
  · simp [e]
  · simp only [e, if_false]
    by_cases hex : ∃ t, Gnd sg N t ∧ sg.ty t = ty
    · rw [dif_pos hex]
      obtain ⟨h1, h2⟩ := hex.choose_spec
      exact Or.inl ⟨nf_gnd h hG h1, (nf_ty h hG h1).trans h2, nf_idem h hG h1⟩
    · rw [dif_neg hex]
      exact Or.inr ⟨hex, rfl⟩

theorem gval_mem {t : Term} (ht : Gnd sg N t) : gmem (nf h G) sg N (sg.ty t) (gval (nf h G) sg t) := by
  unfold gmem gval
  by_cases e : sg.ty t = sg.fty 1
  · simp only [e, if_true]
    split
    · exact Or.inl rfl
    · exact Or.inr rfl
  · simp only [e, if_false]
    exact Or.inl ⟨nf_gnd h hG ht, nf_ty h hG ht, nf_idem h hG ht⟩

/-- Ground literals whose truth can be read from the normal forms. -/
structure GLit (sg : Sig) (L : Lit) : Prop where
  nf : L.l ≠ tFalse ∧ L.r ≠ tFalse
  ty : sg.ty L.l = sg.ty L.r
  atom : sg.ty L.l = sg.fty 1 → L.r = tTrue

/-- The interpretation. -/
noncomputable def ginterp (hd : ∀ f, ¬ sg.distinct f) : Interp.{0} sg where
  D := Term
  mem := gmem (nf h G) sg N
  inhab ty := ⟨_, gdef_mem h hG hsg ty⟩
  fn := gfn (nf h G) sg N
  fn_mem f ds hds := by
    unfold gfn
    split
    · rename_i e
      rw [e.1]; simp [gmem]
    · split
      · rename_i e
        rw [e.1, ← hsg.tf]; simp [gmem]
      · split
        · rename_i e
          exact gval_mem h hG hsg e
        · exact gdef_mem h hG hsg _
  tf := by simp [gfn, tTrue, tFalse]
  bool2 d hd := by
    simp only [gmem, if_true] at hd
    simpa [gfn] using hd
  dist f g hf := absurd hf (hd f)

theorem nf_true (h1 : 1 < N) : nf h G tTrue = tTrue := by
  have hg : Gnd sg N tTrue := gnd_app.2 ⟨by simp [hsg.targs], h1, by simp⟩
  by_contra hne
  have h2 := h.least _ (nf_gnd h hG hg) hne
  rcases nf_le h hG hg with h3 | h3
  · exact hne h3
  · exact g_irrefl h hg (g_trans h hg (nf_gnd h hG hg) hg h3 h2)

include hF

theorem eval_gval (h1 : 1 < N) (v : Nat → (ginterp h hG hsg hd).D) {t : Term} (ht : Gnd sg N t) (hf : t ≠ tFalse) :
    (ginterp h hG hsg hd).eval v t = gval (nf h G) sg t := by
  induction t using Term.ind with
  | hv x => exact absurd ht.ground (by simp [vars])
  | ha f ts ih =>
    have ht' := gnd_app.1 ht
    have hargs : ∀ t ∈ ts, sg.ty t ≠ sg.fty 1 := by
      intro t h2 h3
      apply hF.args f
      rw [← h3, ← ht'.1]
      exact List.mem_map_of_mem h2
    have hmap : ts.map ((ginterp h hG hsg hd).eval v) = ts.map (nf h G) := by
      refine List.map_congr_left fun t h2 => ?_
      rw [ih t h2 (ht'.2.2 t h2)]
      · simp only [gval, if_neg (hargs t h2)]
        rfl
      · rintro rfl
        exact hargs _ h2 (by show sg.fty 2 = _; exact hsg.tf.symm)
    rw [eval_app, hmap]
    show gfn (nf h G) sg N f (ts.map (nf h G)) = _
    have hgn : Gnd sg N (.app f (ts.map (nf h G))) := by
      refine gnd_app.2 ⟨?_, ht'.2.1, ?_⟩
      · rw [← ht'.1, List.map_map]
        exact List.map_congr_left fun t h2 => nf_ty h hG (ht'.2.2 t h2)
      · intro t h2
        obtain ⟨u, h3, rfl⟩ := List.mem_map.1 h2
        exact nf_gnd h hG (ht'.2.2 u h3)
    unfold gfn
    split
    · rename_i e
      obtain ⟨rfl, e2⟩ := e
      have e2 : ts = [] := by simpa using e2
      subst e2
      have := nf_true h hG hsg h1
      simp only [tTrue] at this
      simp [gval, this, tTrue, Sig.ty]
    · split
      · rename_i e
        obtain ⟨rfl, e2⟩ := e
        have e2 : ts = [] := by simpa using e2
        subst e2
        exact absurd rfl hf
      · show gval _ _ _ = gval _ _ _
        unfold gval
        rw [nf_app h hG ht]
        rfl

theorem lit_iff (h1 : 1 < N) (v : Nat → (ginterp h hG hsg hd).D) {L : Lit} (hL : GLit sg L) (hg : L.In (Gnd sg N)) :
    (ginterp h hG hsg hd).LitTrue v L ↔ GTrue (nf h G) L := by
  have hnf := hL.nf
  have e1 := eval_gval h hG hsg hF hd h1 v hg.1 hnf.1
  have e2 := eval_gval h hG hsg hF hd h1 v hg.2 hnf.2
  have hT : nf h G tTrue = tTrue := nf_true h hG hsg h1
  unfold LitTrue GTrue
  by_cases hb : sg.ty L.l = sg.fty 1
  · have hr := hL.atom hb
    have ht : sg.ty tTrue = sg.fty 1 := rfl
    have key : (ginterp h hG hsg hd).eval v L.l = (ginterp h hG hsg hd).eval v L.r ↔ nf h G L.l = nf h G L.r := by
      rw [e1, e2, hr]
      simp only [gval, hb, ht, if_true, hT]
      split
      · rename_i e
        exact ⟨fun _ => e, fun _ => rfl⟩
      · rename_i e
        constructor
        · intro h2
          have h3 : tFalse = tTrue := h2
          simp [tTrue, tFalse] at h3
        · intro h2; exact absurd h2 e
    split
    · exact key
    · exact not_congr key
  · have hb2 : sg.ty L.r ≠ sg.fty 1 := by rw [← hL.ty]; exact hb
    have e1 : (ginterp h hG hsg hd).eval v L.l = nf h G L.l := by rw [e1]; simp only [gval, if_neg hb]; rfl
    have e2 : (ginterp h hG hsg hd).eval v L.r = nf h G L.r := by rw [e2]; simp only [gval, if_neg hb2]; rfl
    rw [e1, e2]
    exact Iff.rfl

/-- Valuations are normalised substitutions. -/
theorem sorted_norm (hinh : ∀ x, ∃ t, Gnd sg N t ∧ sg.ty t = sg.vty x) {v : Nat → Term} (hv : (ginterp h hG hsg hd).Sorted v) :
    GSubst sg N v ∧ ∀ x, nf h G (v x) = v x := by
  have key : ∀ x, Gnd sg N (v x) ∧ sg.ty (v x) = sg.vty x ∧ nf h G (v x) = v x := by
    intro x
    have hm : gmem (nf h G) sg N (sg.vty x) (v x) := hv x
    unfold gmem at hm
    rw [if_neg (hF.vars x)] at hm
    rcases hm with hm | ⟨hm, -⟩
    · exact hm
    · exact absurd (hinh x) hm
  exact ⟨fun x => ⟨(key x).1, (key x).2.1⟩, fun x => (key x).2.2⟩

theorem eval_self (h1 : 1 < N) (hinh : ∀ x, ∃ t, Gnd sg N t ∧ sg.ty t = sg.vty x) {v : Nat → Term} (hv : (ginterp h hG hsg hd).Sorted v) (L : Lit) :
    (ginterp h hG hsg hd).LitTrue v (L.subst v) ↔ (ginterp h hG hsg hd).LitTrue v L := by
  obtain ⟨k1, k2⟩ := sorted_norm h hG hsg hF hd hinh hv
  refine (litTrue_subst (ginterp h hG hsg hd) v v L).trans ?_
  have : (fun x => (ginterp h hG hsg hd).eval v (v x)) = v := by
    funext x
    have hty : sg.ty (v x) ≠ sg.fty 1 := by rw [(k1 x).2]; exact hF.vars x
    rw [eval_gval h hG hsg hF hd h1 v (k1 x).1]
    · simp only [gval, if_neg hty]; exact k2 x
    · intro e
      apply hty
      rw [e]
      exact hsg.tf.symm
  rw [this]

end
end Verif.Sup
