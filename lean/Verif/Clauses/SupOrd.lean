import Verif.Orderings.SimplOrder
import Verif.Clauses.LitCmpProof
import Verif.Clauses.Sem
import Mathlib.Logic.Hydra
import Mathlib.Order.WellFounded
import Mathlib.Order.OrderIsoNat

/-!
# Ground terms, literals and clauses, ordered

Specification for C61.  Terms are compared by a simplification ordering `gt`, literals by the relation
`LGt gt` computed by `LiteralCompare` (C15), clauses by the multiset extension of it.
-/

namespace Verif
open Term LitCmpProof

/-- Ground terms over the symbols with a code below `N`. -/
structure Gnd (sg : Sig) (N : Nat) (t : Term) : Prop where
  wt : sg.WT t
  ground : t.vars = []
  below : t.SymsBelow N

/-- Ground substitutions that respect types. -/
def GSubst (sg : Sig) (N : Nat) (θ : Nat → Term) : Prop := ∀ x, Gnd sg N (θ x) ∧ sg.ty (θ x) = sg.vty x

/-- A simplification ordering on the terms over the symbols below `N`, where `$true` is the least ground term. -/
structure SupOrd (sg : Sig) (N : Nat) (gt : Term → Term → Prop) : Prop where
  simpl : SimplOrder (fun t => sg.WT t ∧ t.SymsBelow N) gt
  least : ∀ t, Gnd sg N t → t ≠ tTrue → gt t tTrue

/-- Smaller ground literal. -/
def LitLt (sg : Sig) (N : Nat) (gt : Term → Term → Prop) (K L : Lit) : Prop := K.In (Gnd sg N) ∧ L.In (Gnd sg N) ∧ LGt gt L K

open Classical in
/-- The ground literal with the greater side first. -/
noncomputable def Lit.desc (gt : Term → Term → Prop) (L : Lit) : Lit := if gt L.r L.l then ⟨L.pos, L.r, L.l⟩ else L

/-- Smaller ground clause: some literals are replaced by finitely many smaller ones (the transitive closure of
replacing one literal, which is the multiset extension).  The order of sides in a literal does not matter. -/
def ClauseLt (sg : Sig) (N : Nat) (gt : Term → Term → Prop) : List Lit → List Lit → Prop :=
  fun C D => Relation.TransGen (Relation.CutExpand (LitLt sg N gt)) (C.map (Lit.desc gt) : Multiset Lit) (D.map (Lit.desc gt) : Multiset Lit)

namespace Sup
variable {sg : Sig} {N : Nat} {gt : Term → Term → Prop}

theorem gnd_app {f : Nat} {ts : List Term} : Gnd sg N (.app f ts) ↔ ts.map sg.ty = sg.fargs f ∧ f < N ∧ ∀ t ∈ ts, Gnd sg N t := by
  constructor
  · rintro ⟨h1, h2, h3⟩
    rw [Sig.wt_app] at h1
    rw [symsBelow_app] at h3
    refine ⟨h1.1, h3.1, fun t ht => ⟨h1.2 t ht, ?_, h3.2 t ht⟩⟩
    rw [List.eq_nil_iff_forall_not_mem] at h2 ⊢
    intro x hx
    exact h2 x (by simp only [vars, mem_varsL]; exact ⟨t, ht, hx⟩)
  · rintro ⟨h1, h2, h3⟩
    refine ⟨Sig.wt_app.2 ⟨h1, fun t ht => (h3 t ht).wt⟩, ?_, symsBelow_app.2 ⟨h2, fun t ht => (h3 t ht).below⟩⟩
    rw [List.eq_nil_iff_forall_not_mem]
    intro x hx
    simp only [vars, mem_varsL] at hx
    obtain ⟨t, ht, hx⟩ := hx
    rw [(h3 t ht).ground] at hx
    exact absurd hx (by simp)

theorem gnd_subst {θ : Nat → Term} (hθ : GSubst sg N θ) {t : Term} (ht : sg.WT t) (hb : t.SymsBelow N) : Gnd sg N (t.subst θ) := by
  induction t using Term.ind with
  | hv x => exact (hθ x).1
  | ha f ts ih =>
    rw [Sig.wt_app] at ht
    rw [symsBelow_app] at hb
    rw [subst_app, gnd_app]
    refine ⟨?_, hb.1, ?_⟩
    · rw [← ht.1, List.map_map]
      exact List.map_congr_left fun t _ => Sig.ty_subst (fun x => (hθ x).2) t
    · intro u hu
      obtain ⟨t, h1, rfl⟩ := List.mem_map.1 hu
      exact ih t h1 (ht.2 t h1) (hb.2 t h1)

/-- Smaller ground term. -/
def TLt (sg : Sig) (N : Nat) (gt : Term → Term → Prop) (s t : Term) : Prop := Gnd sg N s ∧ Gnd sg N t ∧ gt t s

theorem tlt_wf (h : SupOrd sg N gt) : WellFounded (TLt sg N gt) := by
  by_contra hn
  rw [wellFounded_iff_isEmpty_descending_chain] at hn
  simp only [isEmpty_subtype, not_forall] at hn
  obtain ⟨c, hc⟩ := hn
  simp only [not_exists, not_not] at hc
  exact h.simpl.wf N ⟨c, fun n => ⟨⟨(hc n).2.1.wt, (hc n).2.1.below⟩, (hc n).2.1.below⟩, fun n => (hc n).2.2⟩

section
variable (h : SupOrd sg N gt)
include h

theorem g_irrefl {s : Term} (hs : Gnd sg N s) : ¬ gt s s := h.simpl.irrefl s ⟨hs.wt, hs.below⟩

theorem g_trans {s t u : Term} (hs : Gnd sg N s) (ht : Gnd sg N t) (hu : Gnd sg N u) (h1 : gt s t) (h2 : gt t u) : gt s u :=
  h.simpl.trans s t u ⟨hs.wt, hs.below⟩ ⟨ht.wt, ht.below⟩ ⟨hu.wt, hu.below⟩ h1 h2

theorem g_total {s t : Term} (hs : Gnd sg N s) (ht : Gnd sg N t) : gt s t ∨ s = t ∨ gt t s :=
  h.simpl.total s t ⟨hs.wt, hs.below⟩ ⟨ht.wt, ht.below⟩ hs.ground ht.ground

theorem g_sub {f : Nat} {ts : List Term} {t : Term} (hs : Gnd sg N (.app f ts)) (ht : t ∈ ts) : gt (.app f ts) t :=
  h.simpl.subterm f ts t ⟨hs.wt, hs.below⟩ ht

/-- The ordering of ground terms, as a comparison function. -/
theorem ordCmp : ∃ cmp, OrdCmp (Gnd sg N) cmp gt := by
  classical
  refine ⟨fun s t => if s = t then .equal else if gt s t then .greater else if gt t s then .lesser else .uncomparable, ?_⟩
  have hi := fun s => g_irrefl h (s := s)
  have as : ∀ s t, Gnd sg N s → Gnd sg N t → gt s t → ¬ gt t s := fun s t hs ht h1 h2 => hi s hs (g_trans h hs ht hs h1 h2)
  constructor
  · intro s t hs ht
    by_cases e : s = t
    · subst e; simp [hi s hs]
    · by_cases e1 : gt s t <;> by_cases e2 : gt t s <;> simp [e, e1, e2]
  · intro s t hs ht
    by_cases e : s = t
    · subst e; simp [hi s hs]
    · by_cases e1 : gt s t <;> by_cases e2 : gt t s <;> simp [e, e1, e2]
      exact as s t hs ht e1 e2
  · intro s t hs ht
    by_cases e : s = t
    · subst e; simp
    · by_cases e1 : gt s t <;> by_cases e2 : gt t s <;> simp [e, e1, e2]
  · intro s t hs ht
    by_cases e : s = t
    · subst e; simp
    · by_cases e1 : gt s t <;> by_cases e2 : gt t s <;> simp [e, e1, e2]
  · exact fun hs => hi _ hs
  · exact fun hs ht hu => g_trans h hs ht hu

/-- The greater side of a ground literal. -/
noncomputable def hiSide (gt : Term → Term → Prop) (L : Lit) : Term := by classical exact if gt L.r L.l then L.r else L.l
noncomputable def loSide (gt : Term → Term → Prop) (L : Lit) : Term := by classical exact if gt L.r L.l then L.l else L.r

omit h in
theorem hi_lo (L : Lit) : (hiSide gt L = L.l ∧ loSide gt L = L.r ∧ ¬ gt L.r L.l) ∨ (hiSide gt L = L.r ∧ loSide gt L = L.l ∧ gt L.r L.l) := by
  unfold hiSide loSide
  by_cases e : gt L.r L.l <;> simp [e]

theorem hi_ge {L : Lit} (hL : L.In (Gnd sg N)) : hiSide gt L = loSide gt L ∨ gt (hiSide gt L) (loSide gt L) := by
  rcases hi_lo (gt := gt) L with ⟨e1, e2, e3⟩ | ⟨e1, e2, e3⟩ <;> rw [e1, e2]
  · rcases g_total h hL.1 hL.2 with h1 | h1 | h1
    · exact Or.inr h1
    · exact Or.inl h1
    · exact absurd h1 e3
  · exact Or.inr e3

omit h in
theorem hi_leq (L : Lit) : LEq L ⟨L.pos, hiSide gt L, loSide gt L⟩ := by
  rcases hi_lo (gt := gt) L with ⟨e1, e2, e3⟩ | ⟨e1, e2, e3⟩ <;> rw [e1, e2]
  · exact ⟨rfl, Or.inl ⟨rfl, rfl⟩⟩
  · exact ⟨rfl, Or.inr ⟨rfl, rfl⟩⟩

omit h in
theorem hi_in {L : Lit} (hL : L.In (Gnd sg N)) : Gnd sg N (hiSide gt L) ∧ Gnd sg N (loSide gt L) := by
  rcases hi_lo (gt := gt) L with ⟨e1, e2, e3⟩ | ⟨e1, e2, e3⟩ <;> rw [e1, e2]
  · exact hL
  · exact hL.symm

/-- Ground literals are compared by their greater sides, then by the sign, then by their smaller sides. -/
theorem litLt_key {K L : Lit} (hl : LitLt sg N gt K L) :
    TLt sg N gt (hiSide gt K) (hiSide gt L) ∨ (hiSide gt K = hiSide gt L ∧
      ((K.pos = true ∧ L.pos = false) ∨ (K.pos = L.pos ∧ TLt sg N gt (loSide gt K) (loSide gt L)))) := by
  obtain ⟨hK, hL, hl⟩ := hl
  have hl := lgt_leq (leq_lgt (leq_symm (hi_leq (gt := gt) L)) hl) (hi_leq (gt := gt) K)
  have g1 := hi_ge h hK
  have g2 := hi_ge h hL
  obtain ⟨k1, k2⟩ := hi_in (gt := gt) hK
  obtain ⟨l1, l2⟩ := hi_in (gt := gt) hL
  generalize hiSide gt K = kl at *
  generalize hiSide gt L = ll at *
  generalize loSide gt K = kr at *
  generalize loSide gt L = lr at *
  generalize K.pos = kp at *
  generalize L.pos = lp at *
  clear hK hL
  have t3 := g_total h k1 l1
  have t6 := g_total h k2 l2
  have i1 := g_irrefl h k1
  have i2 := g_irrefl h k2
  have i3 := g_irrefl h l1
  have i4 := g_irrefl h l2
  have tr : ∀ {s t u}, Gnd sg N s → Gnd sg N t → Gnd sg N u → gt s t → gt t u → gt s u := fun hs ht hu => g_trans h hs ht hu
  clear h
  simp only [LGt, PosGt, PNGt, PNLt, TLt] at *
  cases kp <;> cases lp <;> simp only [reduceIte, Bool.false_eq_true, Bool.true_eq_false] at hl ⊢ <;> grind

/-- Conversely. -/
theorem litLt_of_key {K L : Lit} (hK : K.In (Gnd sg N)) (hL : L.In (Gnd sg N)) (hl : gt (hiSide gt L) (hiSide gt K) ∨ (hiSide gt K = hiSide gt L ∧
      ((K.pos = true ∧ L.pos = false) ∨ (K.pos = L.pos ∧ gt (loSide gt L) (loSide gt K))))) : LitLt sg N gt K L := by
  refine ⟨hK, hL, leq_lgt (hi_leq (gt := gt) L) (lgt_leq ?_ (leq_symm (hi_leq (gt := gt) K)))⟩
  have g1 := hi_ge h hK
  have g2 := hi_ge h hL
  obtain ⟨k1, k2⟩ := hi_in (gt := gt) hK
  obtain ⟨l1, l2⟩ := hi_in (gt := gt) hL
  generalize hiSide gt K = kl at *
  generalize hiSide gt L = ll at *
  generalize loSide gt K = kr at *
  generalize loSide gt L = lr at *
  generalize K.pos = kp at *
  generalize L.pos = lp at *
  clear hK hL
  have tr : ∀ {s t u}, Gnd sg N s → Gnd sg N t → Gnd sg N u → gt s t → gt t u → gt s u := fun hs ht hu => g_trans h hs ht hu
  clear h
  simp only [LGt, PosGt, PNGt, PNLt] at *
  cases kp <;> cases lp <;> simp only [reduceIte, Bool.false_eq_true, Bool.true_eq_false] at hl ⊢ <;> grind

theorem litLt_wf : WellFounded (LitLt sg N gt) := by
  have hw := tlt_wf h
  have hb : WellFounded (fun a b : Bool => a = true ∧ b = false) :=
    ⟨fun a => ⟨a, fun b ⟨h1, h2⟩ => ⟨b, fun c ⟨h3, h4⟩ => by rw [h1] at h4; cases h4⟩⟩⟩
  refine Subrelation.wf ?_ (InvImage.wf (fun L : Lit => (hiSide gt L, L.pos, loSide gt L)) (hw.prod_lex (hb.prod_lex hw)))
  intro K L hl
  show Prod.Lex _ _ _ _
  rw [Prod.lex_def]
  rcases litLt_key h hl with h1 | ⟨h1, h2⟩
  · exact Or.inl h1
  · exact Or.inr ⟨h1, Prod.lex_def.2 h2⟩

theorem clauseLt_wf : WellFounded (ClauseLt sg N gt) :=
  InvImage.wf (fun C : List Lit => (C.map (Lit.desc gt) : Multiset Lit)) (litLt_wf h).cutExpand.transGen

end
end Sup
end Verif
