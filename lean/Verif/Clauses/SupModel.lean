import Verif.Clauses.SupOrd

/-!
# Model construction for a set of ground clauses (proof of C61)

Every ground term gets a normal form: arguments are normalised first; a term with normal arguments is rewritten to the least
`t` such that some clause of `G` has the strictly maximal literal `s = t` and its other literals are false once `s` is identified with `t`.
-/

namespace Verif.Sup
open Verif Term LitCmpProof

variable {sg : Sig} {N : Nat} {gt : Term → Term → Prop}

/-- Truth of a ground literal when terms are identified by `g`. -/
def GTrue (g : Term → Term) (L : Lit) : Prop := if L.pos then g L.l = g L.r else g L.l ≠ g L.r

/-- The function `g` after identifying `s` with `t`. -/
noncomputable def ident (g : Term → Term) (s t u : Term) : Term := by classical exact if u = s then g t else g u

/-- Literal `i` of `C` justifies the rule `s → t`. -/
structure Produces (sg : Sig) (N : Nat) (gt : Term → Term → Prop) (G : List Lit → Prop) (g : Term → Term) (s t : Term) (C : List Lit) (i : Nat) (L : Lit) : Prop where
  mem : G C
  lit : C[i]? = some L
  pos : L.pos = true
  hi : hiSide gt L = s
  lo : loSide gt L = t
  ord : gt s t
  max : ∀ (j : Nat) (K : Lit), j ≠ i → C[j]? = some K → LitLt sg N gt K L
  rest : ∀ (j : Nat) (K : Lit), j ≠ i → C[j]? = some K → ¬ GTrue (ident g s t) K

def Cand (sg : Sig) (N : Nat) (gt : Term → Term → Prop) (G : List Lit → Prop) (g : Term → Term) (s t : Term) : Prop :=
  ∃ C i L, Produces sg N gt G g s t C i L

def MinCand (sg : Sig) (N : Nat) (gt : Term → Term → Prop) (G : List Lit → Prop) (g : Term → Term) (s t : Term) : Prop :=
  Cand sg N gt G g s t ∧ ∀ t', Cand sg N gt G g s t' → t' = t ∨ gt t' t

def mapArgs (g : Term → Term) : Term → Term
  | .var x => .var x
  | .app f ts => .app f (ts.map g)

open scoped Classical in
noncomputable def nfStep (sg : Sig) (N : Nat) (gt : Term → Term → Prop) (G : List Lit → Prop) (s : Term) (rec : ∀ t, TLt sg N gt t s → Term) : Term :=
  let r := fun u => if h : TLt sg N gt u s then rec u h else u
  if mapArgs r s ≠ s then r (mapArgs r s)
  else if h : ∃ t, MinCand sg N gt G r s t then r h.choose else s

noncomputable def nf (h : SupOrd sg N gt) (G : List Lit → Prop) : Term → Term := (tlt_wf h).fix (nfStep sg N gt G)

/-- Ground well-typed clauses. -/
def GClauses (sg : Sig) (N : Nat) (G : List Lit → Prop) : Prop := ∀ C, G C → ∀ L ∈ C, L.In (Gnd sg N) ∧ sg.ty L.l = sg.ty L.r

section
variable (h : SupOrd sg N gt) {G : List Lit → Prop} (hG : GClauses sg N G)
include h

theorem app_le {f : Nat} {pre ts us : List Term} (h1 : Gnd sg N (.app f (pre ++ ts)))
    (h2 : List.Forall₂ (fun t u => Gnd sg N u ∧ sg.ty u = sg.ty t ∧ (u = t ∨ gt t u)) ts us) :
    Gnd sg N (.app f (pre ++ us)) ∧ (us = ts ∨ gt (.app f (pre ++ ts)) (.app f (pre ++ us))) := by
  induction h2 generalizing pre with
  | nil => exact ⟨h1, Or.inl rfl⟩
  | @cons t u ts us htu _ ih =>
    obtain ⟨g1, g2, g3⟩ := htu
    have hm : Gnd sg N (.app f ((pre ++ [u]) ++ ts)) := by
      rw [gnd_app] at h1 ⊢
      refine ⟨?_, h1.2.1, ?_⟩
      · rw [← h1.1]; simp [g2]
      · intro w hw
        simp only [List.append_assoc, List.singleton_append, List.mem_append, List.mem_cons] at hw
        rcases hw with hw | rfl | hw
        · exact h1.2.2 w (by simp [hw])
        · exact g1
        · exact h1.2.2 w (by simp [hw])
    obtain ⟨k1, k2⟩ := ih hm
    simp only [List.append_assoc, List.singleton_append] at k1 k2 hm
    refine ⟨k1, ?_⟩
    rcases g3 with rfl | g3
    · rcases k2 with k2 | k2
      · exact Or.inl (by rw [k2])
      · exact Or.inr k2
    · right
      have := h.simpl.context f pre ts t u ⟨h1.wt, h1.below⟩ ⟨g1.wt, g1.below⟩ g3
      rcases k2 with k2 | k2
      · rw [k2]; exact this
      · exact g_trans h h1 hm k1 this k2

theorem minCand_exists (hG : GClauses sg N G) {g : Term → Term} {s : Term} (hc : ∃ t, Cand sg N gt G g s t) : ∃ t, MinCand sg N gt G g s t := by
  have hg : ∀ t, Cand sg N gt G g s t → Gnd sg N t := by
    rintro t ⟨C, i, L, hp⟩
    rw [← hp.lo]
    exact (hi_in (hG C hp.mem L (List.mem_of_getElem? hp.lit)).1).2
  obtain ⟨t, ht, hmin⟩ := (tlt_wf h).has_min {t | Cand sg N gt G g s t} hc
  refine ⟨t, ht, fun t' ht' => ?_⟩
  rcases g_total h (hg t' ht') (hg t ht) with h1 | h1 | h1
  · exact Or.inr h1
  · exact Or.inl h1
  · exact absurd ⟨hg t' ht', hg t ht, h1⟩ (hmin t' ht')

omit h in
theorem produces_congr (hG : GClauses sg N G) {g g' : Term → Term} {s t : Term} (hg : ∀ u, TLt sg N gt u s → g u = g' u) {C : List Lit} {i : Nat} {L : Lit} (h : SupOrd sg N gt)
    (hp : Produces sg N gt G g s t C i L) : Produces sg N gt G g' s t C i L := by
  have hL := (hG C hp.mem L (List.mem_of_getElem? hp.lit)).1
  have hs : Gnd sg N s := by rw [← hp.hi]; exact (hi_in hL).1
  have ht : Gnd sg N t := by rw [← hp.lo]; exact (hi_in hL).2
  refine ⟨hp.mem, hp.lit, hp.pos, hp.hi, hp.lo, hp.ord, hp.max, fun j K hj hK => ?_⟩
  have hlt := hp.max j K hj hK
  have hKg := hlt.1
  have hle : ∀ u, (u = K.l ∨ u = K.r) → u = s ∨ TLt sg N gt u s := by
    have h1 : hiSide gt K = s ∨ TLt sg N gt (hiSide gt K) s := by
      rcases litLt_key h hlt with h1 | ⟨h1, -⟩
      · rw [hp.hi] at h1; exact Or.inr h1
      · rw [hp.hi] at h1; exact Or.inl h1
    have h2 : loSide gt K = s ∨ TLt sg N gt (loSide gt K) s := by
      have g1 := (hi_in (gt := gt) hKg).1
      have g2 := (hi_in (gt := gt) hKg).2
      rcases hi_ge h hKg with e | e
      · rw [← e]; exact h1
      · rcases h1 with h1 | h1
        · rw [h1] at e; exact Or.inr ⟨g2, hs, e⟩
        · exact Or.inr ⟨g2, hs, g_trans h hs g1 g2 h1.2.2 e⟩
    rcases hi_lo (gt := gt) K with ⟨e1, e2, -⟩ | ⟨e1, e2, -⟩ <;> rw [e1] at h1 <;> rw [e2] at h2 <;> rintro u (rfl | rfl) <;> assumption
  have hid : ∀ u, (u = K.l ∨ u = K.r) → ident g s t u = ident g' s t u := by
    intro u hu
    unfold ident
    rcases hle u hu with e | e
    · rw [if_pos e, if_pos e]; exact hg t ⟨ht, hs, hp.ord⟩
    · by_cases e' : u = s
      · rw [if_pos e', if_pos e']; exact hg t ⟨ht, hs, hp.ord⟩
      · rw [if_neg e', if_neg e']; exact hg u e
  have := hp.rest j K hj hK
  unfold GTrue at this ⊢
  rwa [← hid _ (Or.inl rfl), ← hid _ (Or.inr rfl)]

/-- The characteristic properties of normal forms. -/
theorem nf_spec (hG : GClauses sg N G) (s : Term) (hs : Gnd sg N s) :
    (Gnd sg N (nf h G s) ∧ sg.ty (nf h G s) = sg.ty s ∧ (nf h G s = s ∨ gt s (nf h G s)) ∧ nf h G (nf h G s) = nf h G s) ∧
    (mapArgs (nf h G) s ≠ s → nf h G s = nf h G (mapArgs (nf h G) s) ∧ gt s (nf h G s)) ∧
    (mapArgs (nf h G) s = s → (∃ t, MinCand sg N gt G (nf h G) s t ∧ nf h G s = nf h G t) ∨
      ((¬ ∃ t, Cand sg N gt G (nf h G) s t) ∧ nf h G s = s)) ∧
    nf h G (mapArgs (nf h G) s) = nf h G s := by
  classical
  induction s using (tlt_wf h).induction with
  | _ s ih =>
  have heq : nf h G s = nfStep sg N gt G s fun t _ => nf h G t := WellFounded.fix_eq _ _ _
  unfold nfStep at heq
  simp only [dite_eq_ite] at heq
  set r := fun u => if TLt sg N gt u s then nf h G u else u with hr
  have hrs : ∀ u, TLt sg N gt u s → r u = nf h G u := fun u hu => by simp [hr, hu]
  cases s with
  | var x => exact absurd hs.ground (by simp [vars])
  | app f ts =>
    have hs' := gnd_app.1 hs
    have hsub : ∀ t ∈ ts, TLt sg N gt t (.app f ts) := fun t ht => ⟨hs'.2.2 t ht, hs, g_sub h hs ht⟩
    have hmap : mapArgs r (.app f ts) = mapArgs (nf h G) (.app f ts) := by
      simp only [mapArgs]
      congr 1
      exact List.map_congr_left fun t ht => hrs t (hsub t ht)
    rw [hmap] at heq
    have hall : List.Forall₂ (fun t u => Gnd sg N u ∧ sg.ty u = sg.ty t ∧ (u = t ∨ gt t u)) ts (ts.map (nf h G)) := by
      rw [List.forall₂_map_right_iff, List.forall₂_same]
      intro t ht
      obtain ⟨⟨a, b, c, -⟩, -⟩ := ih t (hsub t ht) (hs'.2.2 t ht)
      exact ⟨a, b, c⟩
    obtain ⟨m1, m2⟩ := app_le h (pre := []) hs hall
    simp only [List.nil_append] at m1 m2
    by_cases hne : mapArgs (nf h G) (.app f ts) = .app f ts
    · rw [if_neg (by simpa using hne)] at heq
      refine ⟨?_, fun h1 => absurd hne h1, ?_, by rw [hne]⟩
      · split at heq
        · rename_i hex
          obtain ⟨⟨C, i, L, hp⟩, -⟩ := hex.choose_spec
          have hL := hG C hp.mem L (List.mem_of_getElem? hp.lit)
          have ht : Gnd sg N hex.choose := by rw [← hp.lo]; exact (hi_in hL.1).2
          have hlt : TLt sg N gt hex.choose (.app f ts) := ⟨ht, hs, hp.ord⟩
          have hty : sg.ty hex.choose = sg.ty (.app f ts) := by
            rw [← hp.lo, ← hp.hi]
            rcases hi_lo (gt := gt) L with ⟨e1, e2, -⟩ | ⟨e1, e2, -⟩ <;> rw [e1, e2]
            · exact hL.2.symm
            · exact hL.2
          rw [if_pos hlt] at heq
          obtain ⟨⟨a, b, c, d⟩, -⟩ := ih _ hlt ht
          rw [heq]
          refine ⟨a, b.trans hty, Or.inr ?_, d⟩
          rcases c with c | c
          · rw [c]; exact hp.ord
          · exact g_trans h hs ht a hp.ord c
        · rw [heq]; exact ⟨hs, rfl, Or.inl rfl, heq⟩
      · intro _
        have hcong : ∀ t, Cand sg N gt G r (.app f ts) t ↔ Cand sg N gt G (nf h G) (.app f ts) t := by
          intro t
          constructor
          · rintro ⟨C, i, L, hp⟩; exact ⟨C, i, L, produces_congr hG hrs h hp⟩
          · rintro ⟨C, i, L, hp⟩; exact ⟨C, i, L, produces_congr hG (fun u hu => (hrs u hu).symm) h hp⟩
        have hcongM : ∀ t, MinCand sg N gt G r (.app f ts) t ↔ MinCand sg N gt G (nf h G) (.app f ts) t := by
          intro t; simp only [MinCand, hcong]
        split at heq
        · rename_i hex
          have hc := hex.choose_spec
          obtain ⟨C, i, L, hp⟩ := hc.1
          have hL := hG C hp.mem L (List.mem_of_getElem? hp.lit)
          have ht : Gnd sg N hex.choose := by rw [← hp.lo]; exact (hi_in hL.1).2
          rw [if_pos ⟨ht, hs, hp.ord⟩] at heq
          exact Or.inl ⟨_, (hcongM _).1 hc, heq⟩
        · rename_i hex
          right
          refine ⟨fun ⟨t, ht⟩ => hex ?_, heq⟩
          exact minCand_exists h hG ⟨t, (hcong t).2 ht⟩
    · rw [if_pos hne] at heq
      have hgt : gt (.app f ts) (mapArgs (nf h G) (.app f ts)) := by
        rcases m2 with m2 | m2
        · exact absurd (by simp [mapArgs, m2]) hne
        · exact m2
      have hlt : TLt sg N gt (mapArgs (nf h G) (.app f ts)) (.app f ts) := ⟨m1, hs, hgt⟩
      rw [if_pos hlt] at heq
      obtain ⟨⟨a, b, c, d⟩, -⟩ := ih _ hlt m1
      have hgt2 : gt (.app f ts) (nf h G (mapArgs (nf h G) (.app f ts))) := by
        rcases c with c | c
        · rw [c]; exact hgt
        · exact g_trans h hs m1 a hgt c
      refine ⟨?_, fun _ => ⟨heq, by rw [heq]; exact hgt2⟩, fun h1 => absurd h1 hne, heq.symm⟩
      rw [heq]
      exact ⟨a, b, Or.inr hgt2, d⟩

end
end Verif.Sup
