import Verif.Clauses.SupModel
import Verif.Clauses.SupSpec
import Verif.Clauses.Infer

/-!
# A false clause has an inference (proof of C61)

In the structure given by the normal forms, a clause that is false under a normalised substitution has an eligible literal on
which equality resolution, superposition or equality factoring applies.
-/

namespace Verif.Sup
open Verif Term LitCmpProof

variable {sg : Sig} {N : Nat} {gt : Term → Term → Prop}

section
variable (h : SupOrd sg N gt) {G : List Lit → Prop} (hG : GClauses sg N G)
include h

theorem litLt_trans {a b c : Lit} (h1 : LitLt sg N gt a b) (h2 : LitLt sg N gt b c) : LitLt sg N gt a c := by
  obtain ⟨cmp, ho⟩ := ordCmp h
  exact ⟨h1.1, h2.2.1, lgt_trans ho h2.2.1 h1.2.1 h1.1 h2.2.2 h1.2.2⟩

theorem litLt_irrefl {a : Lit} : ¬ LitLt sg N gt a a := fun h1 => (litLt_wf h).irrefl.irrefl a h1

theorem litLt_total {K L : Lit} (hK : K.In (Gnd sg N)) (hL : L.In (Gnd sg N)) (h1 : ¬ LitLt sg N gt K L) (h2 : ¬ LitLt sg N gt L K) :
    K.pos = L.pos ∧ hiSide gt K = hiSide gt L ∧ loSide gt K = loSide gt L := by
  have k1 := mt (litLt_of_key h hK hL) h1
  have k2 := mt (litLt_of_key h hL hK) h2
  obtain ⟨a1, a2⟩ := hi_in (gt := gt) hK
  obtain ⟨b1, b2⟩ := hi_in (gt := gt) hL
  have t1 := g_total h a1 b1
  have t2 := g_total h a2 b2
  cases hp : K.pos <;> cases hq : L.pos <;> simp only [hp, hq, not_or, not_and] at k1 k2 <;> grind

theorem exists_maximal {C : List Lit} (hC : C ≠ []) : ∃ m ∈ C, ∀ x ∈ C, ¬ LitLt sg N gt m x := by
  induction C with
  | nil => exact absurd rfl hC
  | cons a C ih =>
    by_cases hC' : C = []
    · subst hC'
      exact ⟨a, by simp, fun x hx => by simp only [List.mem_singleton] at hx; subst hx; exact litLt_irrefl h⟩
    · obtain ⟨m, hm, hmax⟩ := ih hC'
      by_cases hma : LitLt sg N gt m a
      · refine ⟨a, by simp, fun x hx hax => ?_⟩
        rcases List.mem_cons.1 hx with rfl | hx
        · exact litLt_irrefl h hax
        · exact hmax x hx (litLt_trans h hma hax)
      · refine ⟨m, by simp [hm], fun x hx => ?_⟩
        rcases List.mem_cons.1 hx with rfl | hx
        · exact hma
        · exact hmax x hx

include hG

theorem nf_le {s : Term} (hs : Gnd sg N s) : nf h G s = s ∨ gt s (nf h G s) := (nf_spec h hG s hs).1.2.2.1
theorem nf_gnd {s : Term} (hs : Gnd sg N s) : Gnd sg N (nf h G s) := (nf_spec h hG s hs).1.1
theorem nf_ty {s : Term} (hs : Gnd sg N s) : sg.ty (nf h G s) = sg.ty s := (nf_spec h hG s hs).1.2.1
theorem nf_idem {s : Term} (hs : Gnd sg N s) : nf h G (nf h G s) = nf h G s := (nf_spec h hG s hs).1.2.2.2

theorem nf_app {f : Nat} {ts : List Term} (hs : Gnd sg N (.app f ts)) : nf h G (.app f (ts.map (nf h G))) = nf h G (.app f ts) :=
  (nf_spec h hG _ hs).2.2.2

/-- Equal normal forms of the arguments give equal normal forms. -/
theorem nf_congr {f : Nat} {ts us : List Term} (hs : Gnd sg N (.app f ts)) (ht : Gnd sg N (.app f us))
    (he : ts.map (nf h G) = us.map (nf h G)) : nf h G (.app f ts) = nf h G (.app f us) := by
  rw [← nf_app h hG hs, ← nf_app h hG ht, he]

/-- A reducible term with normal arguments is the left side of a rule. -/
theorem nf_rule {s : Term} (hs : Gnd sg N s) (hn : nf h G s ≠ s) (ha : mapArgs (nf h G) s = s) :
    ∃ t C i L, Produces sg N gt G (nf h G) s t C i L ∧ nf h G s = nf h G t ∧ ∀ t', Cand sg N gt G (nf h G) s t' → t' = t ∨ gt t' t := by
  rcases (nf_spec h hG s hs).2.2.1 ha with ⟨t, ⟨⟨C, i, L, hp⟩, hm⟩, he⟩ | ⟨-, he⟩
  · exact ⟨t, C, i, L, hp, he, hm⟩
  · exact absurd he hn

omit h hG in
theorem posSubterm_cons {f : Nat} {ts : List Term} {i : Nat} {u : Term} (hu : ts[i]? = some u) (pos : List (Term × Nat)) :
    posSubterm (.app f ts) ((.app f ts, i) :: pos) = posSubterm u pos := by
  cases pos with
  | nil => simp [posSubterm, hu]
  | cons p pos =>
    unfold posSubterm
    rw [List.getLast?_cons_cons]
    cases e : (p :: pos).getLast? with
    | none => simp at e
    | some q => obtain ⟨_ | _, _⟩ := q <;> rfl

omit hG in
/-- A term with a reducible instance under a normalised substitution has a position, not that of a variable, where a rule applies. -/
theorem exists_redex {θ : Nat → Term} (hθ : GSubst sg N θ) {s : Term} (hw : sg.WT s) (hb : s.SymsBelow N)
    (hirr : ∀ x ∈ s.vars, nf h G (θ x) = θ x) (hn : nf h G (s.subst θ) ≠ s.subst θ) :
    ∃ pos sub, IsPos s pos ∧ posSubterm s pos = some sub ∧ sub.isVar = false ∧ sg.WT sub ∧ sub.SymsBelow N ∧
      mapArgs (nf h G) (sub.subst θ) = sub.subst θ ∧ nf h G (sub.subst θ) ≠ sub.subst θ ∧ (sub.subst θ = s.subst θ → pos = []) := by
  induction s using Term.ind with
  | hv x => exact absurd (hirr x (by simp [vars])) hn
  | ha f ts ih =>
    have hg := gnd_subst hθ hw hb
    by_cases ha : mapArgs (nf h G) ((app f ts).subst θ) = (app f ts).subst θ
    · exact ⟨[], app f ts, trivial, rfl, rfl, hw, hb, ha, hn, fun _ => rfl⟩
    · have hex : ∃ t ∈ ts, nf h G (t.subst θ) ≠ t.subst θ := by
        by_contra hno
        push Not at hno
        apply ha
        rw [subst_app]
        simp only [mapArgs, List.map_map]
        congr 1
        exact List.map_congr_left fun t ht => hno t ht
      obtain ⟨t, ht, hnt⟩ := hex
      rw [Sig.wt_app] at hw
      rw [symsBelow_app] at hb
      obtain ⟨pos, sub, p1, p2, p3, p4, p5, p6, p7, p8⟩ := ih t ht (hw.2 t ht) (hb.2 t ht)
        (fun x hx => hirr x (by simp only [vars, mem_varsL]; exact ⟨t, ht, hx⟩)) hnt
      obtain ⟨i, hi⟩ := List.getElem?_of_mem ht
      refine ⟨(app f ts, i) :: pos, sub, ⟨rfl, f, ts, t, rfl, hi, p1⟩, by rw [posSubterm_cons hi, p2], p3, p4, p5, p6, p7, ?_⟩
      intro he
      rw [he] at p6
      exact absurd p6 ha

/-- Replacing a subterm by a smaller or equal term. -/
theorem repl_spec {θ : Nat → Term} (hθ : GSubst sg N θ) {w sub : Term} (hww : Gnd sg N (w.subst θ)) (hwt : sg.ty (w.subst θ) = sg.ty (sub.subst θ))
    (hwn : nf h G (w.subst θ) = nf h G (sub.subst θ)) (hgt : gt (sub.subst θ) (w.subst θ)) {pos : List (Term × Nat)} :
    ∀ {s : Term}, sg.WT s → s.SymsBelow N → IsPos s pos → posSubterm s pos = some sub →
    Gnd sg N ((posReplace pos w).subst θ) ∧ sg.ty ((posReplace pos w).subst θ) = sg.ty (s.subst θ) ∧
    nf h G ((posReplace pos w).subst θ) = nf h G (s.subst θ) ∧ gt (s.subst θ) ((posReplace pos w).subst θ) ∧
    (sub.subst θ = s.subst θ ∨ gt (s.subst θ) (sub.subst θ)) := by
  induction pos with
  | nil =>
    intro s hw hb _ hsub
    simp only [posSubterm, List.getLast?_nil, Option.some.injEq] at hsub
    subst hsub
    exact ⟨hww, hwt, hwn, hgt, Or.inl rfl⟩
  | cons p pos ih =>
    intro s hw hb hp hsub
    obtain ⟨p1, i⟩ := p
    obtain ⟨rfl, f, ts, u, rfl, hi, hpos⟩ := hp
    rw [posSubterm_cons hi] at hsub
    have hg := gnd_subst hθ hw hb
    rw [Sig.wt_app] at hw
    rw [symsBelow_app] at hb
    have hu := List.mem_of_getElem? hi
    obtain ⟨g1, g2, g3, g4, g5⟩ := ih (hw.2 u hu) (hb.2 u hu) hpos hsub
    have e : (posReplace ((app f ts, i) :: pos) w).subst θ = app f ((ts.map (subst θ)).set i ((posReplace pos w).subst θ)) := by
      show (app f (ts.set i (posReplace pos w))).subst θ = _
      rw [subst_app, List.map_set]
    obtain ⟨hi', hu'⟩ := List.getElem?_eq_some_iff.1 hi
    have hsplit : ts.map (subst θ) = (ts.map (subst θ)).take i ++ u.subst θ :: (ts.map (subst θ)).drop (i + 1) := by
      have := List.take_append_drop i (ts.map (subst θ))
      rw [List.drop_eq_getElem_cons (by simpa using hi')] at this
      simp only [List.getElem_map, hu'] at this
      exact this.symm
    have hset : (ts.map (subst θ)).set i ((posReplace pos w).subst θ) =
        (ts.map (subst θ)).take i ++ (posReplace pos w).subst θ :: (ts.map (subst θ)).drop (i + 1) := by
      rw [List.set_eq_take_append_cons_drop, if_pos (by simpa using hi')]
    rw [subst_app] at hg ⊢
    rw [e, hset]
    generalize (ts.map (subst θ)).take i = pre at *
    generalize (ts.map (subst θ)).drop (i + 1) = post at *
    rw [hsplit] at hg ⊢
    have hgu : Gnd sg N (u.subst θ) := (gnd_app.1 hg).2.2 _ (by simp)
    have hnew : Gnd sg N (app f (pre ++ (posReplace pos w).subst θ :: post)) := by
      have hg' := gnd_app.1 hg
      refine gnd_app.2 ⟨?_, hg'.2.1, ?_⟩
      · rw [← hg'.1]; simp [g2]
      · intro x hx
        simp only [List.mem_append, List.mem_cons] at hx
        rcases hx with hx | rfl | hx
        · exact hg'.2.2 x (by simp [hx])
        · exact g1
        · exact hg'.2.2 x (by simp [hx])
    refine ⟨hnew, rfl, ?_, ?_, Or.inr ?_⟩
    · exact nf_congr h hG hnew hg (by simp [g3])
    · exact h.simpl.context f pre post _ _ ⟨hg.wt, hg.below⟩ ⟨g1.wt, g1.below⟩ g4
    · have h1 : gt (app f (pre ++ u.subst θ :: post)) (u.subst θ) := g_sub h hg (by simp)
      rcases g5 with g5 | g5
      · rw [g5]; exact h1
      · have hsb : Gnd sg N (sub.subst θ) := by
          -- a subterm of a ground term
          have : ∀ {pos : List (Term × Nat)} {s : Term}, Gnd sg N (s.subst θ) → IsPos s pos → posSubterm s pos = some sub → Gnd sg N (sub.subst θ) := by
            intro pos
            induction pos with
            | nil => intro s hs _ hsub; simp only [posSubterm, List.getLast?_nil, Option.some.injEq] at hsub; exact hsub ▸ hs
            | cons p pos ih =>
              intro s hs hp hsub
              obtain ⟨p1, i⟩ := p
              obtain ⟨rfl, f, ts, u, rfl, hi, hpos⟩ := hp
              rw [posSubterm_cons hi] at hsub
              rw [subst_app, gnd_app] at hs
              exact ih (hs.2.2 _ (List.mem_map_of_mem (List.mem_of_getElem? hi))) hpos hsub
          exact this hgu hpos hsub
        exact g_trans h hg hgu hsb h1 g5

omit h hG in
theorem sides_of (θ : Nat → Term) (L : Lit) : ∃ c, (L.side c).subst θ = hiSide gt (L.subst θ) ∧ (L.side !c).subst θ = loSide gt (L.subst θ) := by
  rcases hi_lo (gt := gt) (L.subst θ) with ⟨e1, e2, -⟩ | ⟨e1, e2, -⟩
  · exact ⟨true, by rw [e1]; rfl, by rw [e2]; rfl⟩
  · exact ⟨false, by rw [e1]; rfl, by rw [e2]; rfl⟩

omit h hG in
theorem gtrue_sides (g : Term → Term) (L : Lit) : GTrue g L ↔ if L.pos then g (hiSide gt L) = g (loSide gt L) else g (hiSide gt L) ≠ g (loSide gt L) := by
  unfold GTrue
  rcases hi_lo (gt := gt) L with ⟨e1, e2, -⟩ | ⟨e1, e2, -⟩ <;> rw [e1, e2]
  split
  · exact eq_comm
  · exact ne_comm

omit hG in
/-- The clause with strictly maximal literal that made a rule: its other literals are false. -/
theorem rest_false {s t : Term} {C : List Lit} {i : Nat} {L : Lit} (hp : Produces sg N gt G (nf h G) s t C i L) (he : nf h G s = nf h G t)
    {j : Nat} {K : Lit} (hj : j ≠ i) (hK : C[j]? = some K) : ¬ GTrue (nf h G) K := by
  have : ident (nf h G) s t = nf h G := by
    funext u
    unfold ident
    split
    · rename_i e; rw [e, he]
    · rfl
  have h2 := hp.rest j K hj hK
  rwa [this] at h2

/-- A literal reducible on its greater side. -/
theorem sup_case {θ : Nat → Term} (hθ : GSubst sg N θ) {L : Lit} (hw : sg.WTLit L) (hb : L.In (Term.SymsBelow N))
    (hirr : ∀ x ∈ L.vars, nf h G (θ x) = θ x) (hn : nf h G (hiSide gt (L.subst θ)) ≠ hiSide gt (L.subst θ)) :
    ∃ c pos sub, (L.side c).subst θ = hiSide gt (L.subst θ) ∧ (L.side !c).subst θ = loSide gt (L.subst θ) ∧
      IsPos (L.side c) pos ∧ posSubterm (L.side c) pos = some sub ∧ sub.isVar = false ∧
      mapArgs (nf h G) (sub.subst θ) = sub.subst θ ∧
      ∃ t D k K, Produces sg N gt G (nf h G) (sub.subst θ) t D k K ∧ nf h G (sub.subst θ) = nf h G t ∧
        ∀ t', Cand sg N gt G (nf h G) (sub.subst θ) t' → t' = t ∨ gt t' t := by
  obtain ⟨c, hc1, hc2⟩ := sides_of (gt := gt) θ L
  have hwc : sg.WT (L.side c) ∧ (L.side c).SymsBelow N ∧ ∀ x ∈ (L.side c).vars, x ∈ L.vars := by
    cases c
    · exact ⟨hw.2.1, hb.2, fun x hx => by simp only [Lit.vars, List.mem_append]; exact Or.inr hx⟩
    · exact ⟨hw.1, hb.1, fun x hx => by simp only [Lit.vars, List.mem_append]; exact Or.inl hx⟩
  rw [← hc1] at hn
  obtain ⟨pos, sub, p1, p2, p3, p4, p5, p6, p7, -⟩ := exists_redex h hθ hwc.1 hwc.2.1 (fun x hx => hirr x (hwc.2.2 x hx)) hn
  obtain ⟨t, D, k, K, q1, q2, q3⟩ := nf_rule h hG (gnd_subst hθ p4 p5) p7 p6
  exact ⟨c, pos, sub, hc1, hc2, p1, p2, p3, p6, t, D, k, K, q1, q2, q3⟩

/-- The possible inferences on a false clause. -/
inductive Case (sg : Sig) (N : Nat) (gt : Term → Term → Prop) (G : List Lit → Prop) (ν : Term → Term) (sel : Nat → Prop) (θ : Nat → Term) (C : List Lit) : Prop
  | eqRes (i : Nat) (L : Lit) (hi : C[i]? = some L) (hneg : L.pos = false) (he : NegElig gt sel θ C i L) (heq : L.l.subst θ = L.r.subst θ)
  | sup (i : Nat) (L : Lit) (c : Bool) (pos : List (Term × Nat)) (sub t : Term) (D : List Lit) (k : Nat) (K : Lit)
      (hi : C[i]? = some L) (hneg : L.pos = false → NegElig gt sel θ C i L) (hpos : L.pos = true → StrictElig gt sel θ C i L)
      (hc : gt ((L.side c).subst θ) ((L.side !c).subst θ)) (hp : IsPos (L.side c) pos) (hsub : posSubterm (L.side c) pos = some sub) (hv : sub.isVar = false)
      (hprod : Produces sg N gt G ν (sub.subst θ) t D k K) (hν : ν (sub.subst θ) = ν t)
      (htop : L.pos = true → sub.subst θ = (L.side c).subst θ → gt ((L.side !c).subst θ) t)
  | eqFact (i j : Nat) (L K : Lit) (c d : Bool) (hij : i ≠ j) (hi : C[i]? = some L) (hj : C[j]? = some K) (hpi : L.pos = true) (hpj : K.pos = true)
      (he : PosElig gt sel θ C L) (hs : (L.side c).subst θ = (K.side d).subst θ) (hgt : gt ((L.side c).subst θ) ((L.side !c).subst θ))
      (hle : (L.side !c).subst θ = (K.side !d).subst θ ∨ gt ((L.side !c).subst θ) ((K.side !d).subst θ))
      (hν : ν ((L.side !c).subst θ) = ν ((K.side !d).subst θ))

theorem false_case {θ : Nat → Term} (hθ : GSubst sg N θ) {C : List Lit} (hw : sg.WTClause C) (hb : ∀ L ∈ C, L.In (Term.SymsBelow N))
    (hirr : ∀ x ∈ cvars C, nf h G (θ x) = θ x) (hne : C ≠ []) (hf : ∀ L ∈ C, ¬ GTrue (nf h G) (L.subst θ))
    {sel : Nat → Prop} (hsel : ∀ i, sel i → ∃ L, C[i]? = some L ∧ L.pos = false) (hGC : (∀ i, ¬ sel i) → G (csubst θ C)) :
    Case sg N gt G (nf h G) sel θ C := by
  have hgl : ∀ L ∈ C, (L.subst θ).In (Gnd sg N) := fun L hL => ⟨gnd_subst hθ (hw L hL).1 (hb L hL).1, gnd_subst hθ (hw L hL).2.1 (hb L hL).2⟩
  have hirrL : ∀ L ∈ C, ∀ x ∈ L.vars, nf h G (θ x) = θ x := fun L hL x hx => hirr x (by simp only [cvars, List.mem_flatMap]; exact ⟨L, hL, hx⟩)
  -- negative literals
  have hneg : ∀ i L, C[i]? = some L → L.pos = false → NegElig gt sel θ C i L → Case sg N gt G (nf h G) sel θ C := by
    intro i L hi hp he
    have hL := List.mem_of_getElem? hi
    have hfl := hf L hL
    rw [gtrue_sides (gt := gt)] at hfl
    have hp' : (L.subst θ).pos = false := hp
    simp only [hp', Bool.false_eq_true, if_false, ne_eq, not_not] at hfl
    obtain ⟨g1, g2⟩ := hi_in (gt := gt) (hgl L hL)
    rcases hi_ge h (hgl L hL) with e | e
    · refine .eqRes i L hi hp he ?_
      rcases hi_lo (gt := gt) (L.subst θ) with ⟨e1, e2, -⟩ | ⟨e1, e2, -⟩
      · rw [e1, e2] at e; exact e
      · rw [e1, e2] at e; exact e.symm
    · have hn : nf h G (hiSide gt (L.subst θ)) ≠ hiSide gt (L.subst θ) := by
        rw [hfl]
        intro hh
        rcases nf_le h hG g2 with k | k
        · rw [k] at hh; rw [hh] at e; exact g_irrefl h g1 e
        · rw [hh] at k; exact g_irrefl h g1 (g_trans h g1 g2 g1 e k)
      obtain ⟨c, pos, sub, hc1, hc2, p1, p2, p3, p6, t, D, k, K, q1, q2, q3⟩ := sup_case h hG hθ (hw L hL) (hb L hL) (hirrL L hL) hn
      exact .sup i L c pos sub t D k K hi (fun _ => he) (fun h1 => by rw [hp] at h1; cases h1) (by rw [hc1, hc2]; exact e) p1 p2 p3 q1 q2
        (fun h1 => by rw [hp] at h1; cases h1)
  by_cases hs : ∃ i, sel i
  · classical
    let S := (List.range C.length).filter fun i => decide (sel i)
    have hS : ∀ i, i ∈ S ↔ sel i := by
      intro i
      simp only [S, List.mem_filter, List.mem_range, decide_eq_true_eq, and_iff_right_iff_imp]
      intro hi
      obtain ⟨L, h1, -⟩ := hsel i hi
      exact (List.getElem?_eq_some_iff.1 h1).1
    let A := S.map fun i => (C[i]?.getD ⟨true, tTrue, tTrue⟩).subst θ
    have hA : A ≠ [] := by
      obtain ⟨i, hi⟩ := hs
      have := (hS i).2 hi
      intro he
      simp only [A, List.map_eq_nil_iff] at he
      rw [he] at this
      cases this
    obtain ⟨M, hM, hmax⟩ := exists_maximal h (sg := sg) (N := N) (gt := gt) hA
    obtain ⟨i, hi, rfl⟩ := List.mem_map.1 hM
    obtain ⟨L, h1, h2⟩ := hsel i ((hS i).1 hi)
    refine hneg i L h1 h2 ⟨Or.inl ((hS i).1 hi), fun j K hj hs hgt => ?_⟩
    refine hmax (K.subst θ) (List.mem_map.2 ⟨j, (hS j).2 (hs ((hS i).1 hi)), by rw [hj]; rfl⟩) ?_
    rw [h1]
    exact ⟨hgl L (List.mem_of_getElem? h1), hgl K (List.mem_of_getElem? hj), hgt⟩
  push Not at hs
  obtain ⟨M, hM, hmax⟩ := exists_maximal h (sg := sg) (N := N) (gt := gt) (C := csubst θ C) (by simpa [csubst] using hne)
  obtain ⟨L, hL, rfl⟩ := List.mem_map.1 hM
  obtain ⟨i, hi⟩ := List.getElem?_of_mem hL
  have hmx : ∀ (j : Nat) (K : Lit), C[j]? = some K → ¬ LGt gt (K.subst θ) (L.subst θ) := by
    intro j K hK hgt
    have hKC := List.mem_of_getElem? hK
    exact hmax (K.subst θ) (List.mem_map_of_mem hKC) ⟨hgl L hL, hgl K hKC, hgt⟩
  cases hp : L.pos with
  | false => exact hneg i L hi hp ⟨Or.inr hs, fun j K hj _ => hmx j K hj⟩
  | true =>
    have hp' : (L.subst θ).pos = true := hp
    have hfl := hf L hL
    rw [gtrue_sides (gt := gt)] at hfl
    simp only [hp', if_true] at hfl
    obtain ⟨g1, g2⟩ := hi_in (gt := gt) (hgl L hL)
    have hst : gt (hiSide gt (L.subst θ)) (loSide gt (L.subst θ)) := by
      rcases hi_ge h (hgl L hL) with e | e
      · exact absurd (by rw [e]) hfl
      · exact e
    by_cases hdup : ∃ j K, j ≠ i ∧ C[j]? = some K ∧ ¬ LitLt sg N gt (K.subst θ) (L.subst θ)
    · obtain ⟨j, K, hji, hj, hnlt⟩ := hdup
      have hK := List.mem_of_getElem? hj
      obtain ⟨e1, e2, e3⟩ := litLt_total h (hgl K hK) (hgl L hL) hnlt (hmax _ (List.mem_map_of_mem hK))
      obtain ⟨c, c1, c2⟩ := sides_of (gt := gt) θ L
      obtain ⟨d, d1, d2⟩ := sides_of (gt := gt) θ K
      refine .eqFact i j L K c d (Ne.symm hji) hi hj hp (e1.trans hp') ⟨hs, hmx⟩ (by rw [c1, d1, e2]) (by rw [c1, c2]; exact hst) (Or.inl (by rw [c2, d2, e3])) (by rw [c2, d2, e3])
    push Not at hdup
    have hstrict : StrictElig gt sel θ C i L := ⟨hs, fun j K hj hK => (hdup j K hj hK).2.2⟩
    obtain ⟨c, c1, c2⟩ := sides_of (gt := gt) θ L
    by_cases ha : mapArgs (nf h G) (hiSide gt (L.subst θ)) = hiSide gt (L.subst θ)
    · by_cases hrest : ∀ (j : Nat) (K : Lit), j ≠ i → C[j]? = some K → ¬ GTrue (ident (nf h G) (hiSide gt (L.subst θ)) (loSide gt (L.subst θ))) (K.subst θ)
      · have hcand : Cand sg N gt G (nf h G) (hiSide gt (L.subst θ)) (loSide gt (L.subst θ)) := by
          refine ⟨csubst θ C, i, L.subst θ, hGC hs, by simp [csubst, hi], hp', rfl, rfl, hst, ?_, ?_⟩
          · intro j K hj hK
            simp only [csubst, List.getElem?_map, Option.map_eq_some_iff] at hK
            obtain ⟨K', hK', rfl⟩ := hK
            exact hdup j K' hj hK'
          · intro j K hj hK
            simp only [csubst, List.getElem?_map, Option.map_eq_some_iff] at hK
            obtain ⟨K', hK', rfl⟩ := hK
            exact hrest j K' hj hK'
        have hn : nf h G (hiSide gt (L.subst θ)) ≠ hiSide gt (L.subst θ) := by
          intro he
          rcases (nf_spec h hG _ g1).2.2.1 ha with ⟨t, ⟨⟨C', i', L', q⟩, -⟩, e⟩ | ⟨e, -⟩
          · have hgt := q.ord
            have ht : Gnd sg N t := by rw [← q.lo]; exact (hi_in (hG _ q.mem _ (List.mem_of_getElem? q.lit)).1).2
            rw [he] at e
            rcases nf_le h hG ht with k | k
            · rw [← e] at k; rw [k] at hgt; exact g_irrefl h ht hgt
            · rw [← e] at k; exact g_irrefl h g1 (g_trans h g1 ht g1 hgt k)
          · exact e ⟨_, hcand⟩
        obtain ⟨t, D, k, K, q1, q2, q3⟩ := nf_rule h hG g1 hn ha
        have htt : gt (loSide gt (L.subst θ)) t := by
          rcases q3 _ hcand with e | e
          · exact absurd (by rw [q2, e]) hfl
          · exact e
        rw [← c1] at q1 q2 hn
        refine .sup i L c [] (L.side c) t D k K hi (fun h1 => by rw [hp] at h1; cases h1) (fun _ => hstrict) (by rw [c1, c2]; exact hst) trivial rfl ?_ q1 q2
          (fun _ _ => by rw [c2]; exact htt)
        cases hvar : L.side c with
        | app f ts => rfl
        | var x =>
          exfalso
          apply hn
          rw [hvar]
          refine hirrL L hL x ?_
          cases c <;> simp only [Lit.side, Bool.false_eq_true, if_false, if_true] at hvar <;> simp [Lit.vars, hvar, vars]
      · push Not at hrest
        obtain ⟨j, K, hji, hj, htrue⟩ := hrest
        have hK := List.mem_of_getElem? hj
        have hlt := hdup j K hji hj
        have hfK := hf K hK
        obtain ⟨k1, k2⟩ := hi_in (gt := gt) (hgl K hK)
        rw [gtrue_sides (gt := gt)] at htrue hfK
        have hlos : loSide gt (K.subst θ) ≠ hiSide gt (L.subst θ) ∨ hiSide gt (K.subst θ) = hiSide gt (L.subst θ) := by
          by_cases e : loSide gt (K.subst θ) = hiSide gt (L.subst θ)
          · right
            rcases litLt_key h hlt with e1 | ⟨e1, -⟩
            · exfalso
              rw [← e] at e1
              rcases hi_ge h (hgl K hK) with e2 | e2
              · rw [e2] at e1; exact g_irrefl h k2 e1.2.2
              · exact g_irrefl h k2 (g_trans h k2 k1 k2 e1.2.2 e2)
            · exact e1
          · exact Or.inl e
        rcases litLt_key h hlt with e1 | ⟨e1, e2 | ⟨e2, e3⟩⟩
        · exfalso
          have n1 : hiSide gt (K.subst θ) ≠ hiSide gt (L.subst θ) := fun e => by rw [e] at e1; exact g_irrefl h g1 e1.2.2
          have n2 : loSide gt (K.subst θ) ≠ hiSide gt (L.subst θ) := by
            rcases hlos with e | e
            · exact e
            · exact absurd e n1
          simp only [ident, if_neg n1, if_neg n2] at htrue
          exact hfK htrue
        · exact absurd e2.2 (by rw [hp']; simp)
        · have n2 : loSide gt (K.subst θ) ≠ hiSide gt (L.subst θ) := fun e => by
            rw [e] at e3
            exact g_irrefl h g1 (g_trans h g1 g2 g1 hst e3.2.2)
          have hKp : (K.subst θ).pos = true := e2.trans hp'
          simp only [hKp, if_true, ident, if_pos e1, if_neg n2] at htrue
          obtain ⟨d, d1, d2⟩ := sides_of (gt := gt) θ K
          exact .eqFact i j L K c d (Ne.symm hji) hi hj hp hKp ⟨hs, hmx⟩ (by rw [c1, d1, e1]) (by rw [c1, c2]; exact hst)
            (Or.inr (by rw [c2, d2]; exact e3.2.2)) (by rw [c2, d2]; exact htrue)
    · have hn : nf h G (hiSide gt (L.subst θ)) ≠ hiSide gt (L.subst θ) := by
        intro he
        have := ((nf_spec h hG _ g1).2.1 ha).2
        rw [he] at this
        exact g_irrefl h g1 this
      obtain ⟨c, pos, sub, hc1, hc2, p1, p2, p3, p6, t, D, k, K, q1, q2, q3⟩ := sup_case h hG hθ (hw L hL) (hb L hL) (hirrL L hL) hn
      refine .sup i L c pos sub t D k K hi (fun h1 => by rw [hp] at h1; cases h1) (fun _ => hstrict) (by rw [hc1, hc2]; exact hst) p1 p2 p3 q1 q2
        (fun _ e => ?_)
      rw [e, hc1] at p6
      exact absurd p6 ha

end
end Verif.Sup
