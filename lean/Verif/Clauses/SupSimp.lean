import Verif.Clauses.SupRed
import Verif.Clauses.Bce
import Verif.Props.Rewrite
import Verif.Props.UnitSimp
import Verif.Props.Condense
import Verif.Props.AC

/-!
# Redundancy by unit clauses and rewriting (proof of C62)
-/

namespace Verif.Sup
open Verif Term LitCmpProof Relation Props SubsProof Interp SemProof RewriteProof

variable {sg : Sig} {N : Nat} {gt : Term → Term → Prop} {Ns : List Lit → Prop}

/-- Well-typed, over the symbols below `N`, and `$false` is not a side (`EqnAlloc` replaces it). -/
structure LitOK (sg : Sig) (N : Nat) (L : Lit) : Prop where
  wt : sg.WTLit L
  below : L.In (Term.SymsBelow N)
  left : L.l ≠ tFalse
  right : L.r ≠ tFalse

theorem subst_ne_false (hsg : SigOK sg) (hF : FOSig sg) {ρ : Nat → Term} (hρ : GSubst sg N ρ) {t : Term} (ht : t ≠ tFalse) : t.subst ρ ≠ tFalse := by
  cases t with
  | var x =>
    intro e
    refine hF.vars x ?_
    rw [← (hρ x).2]
    have : ρ x = tFalse := e
    rw [this]
    exact hsg.tf.symm
  | app f ts =>
    rw [subst_app]
    intro e
    simp only [tFalse, app.injEq, List.map_eq_nil_iff] at e
    exact ht (by rw [tFalse, e.1, e.2])

theorem inst_leq (hsg : SigOK sg) (hF : FOSig sg) {ρ : Nat → Term} (hρ : GSubst sg N ρ) {L : Lit} (hL : LitOK sg N L) :
    LEq (mkEqn L.pos (L.l.subst ρ) (L.r.subst ρ)) (L.subst ρ) :=
  mkEqn_leq (subst_ne_false hsg hF hρ hL.left) (subst_ne_false hsg hF hρ hL.right)

theorem subst_in {ρ : Nat → Term} (hρ : GSubst sg N ρ) {L : Lit} (hL : LitOK sg N L) : (L.subst ρ).In (Gnd sg N) :=
  ⟨gnd_subst hρ hL.wt.1 hL.below.1, gnd_subst hρ hL.wt.2.1 hL.below.2⟩

theorem leq_in' {K L : Lit} (h : LEq K L) {P : Term → Prop} (hL : L.In P) : K.In P := by
  rcases h.2 with ⟨e1, e2⟩ | ⟨e1, e2⟩
  · exact ⟨e1 ▸ hL.1, e2 ▸ hL.2⟩
  · exact ⟨e1 ▸ hL.2, e2 ▸ hL.1⟩

theorem litLe_leq {a a' b b' : Lit} (ha : LEq a a') (hb : LEq b b') (h : LitLe sg N gt a' b') : LitLe sg N gt a b := by
  rcases h with h | ⟨i1, i2, h⟩
  · exact Or.inl (leq_trans (leq_trans ha h) (leq_symm hb))
  · exact Or.inr ⟨leq_in' ha i1, leq_in' hb i2, lgt_leq (leq_lgt hb h) (leq_symm ha)⟩

/-- A literal with both sides smaller than one side of a positive literal is smaller. -/
theorem litLt_pos (h : SupOrd sg N gt) {K L : Lit} (hK : K.In (Gnd sg N)) (hL : L.In (Gnd sg N)) (hk : K.pos = true) (b : Bool)
    (h1 : gt (L.side b) K.l) (h2 : gt (L.side b) K.r) : LitLt sg N gt K L := by
  cases hl : L.pos with
  | false => exact litLt_neg h hK hL hk hl b (Or.inr h1) (Or.inr h2)
  | true =>
    refine ⟨hK, hL, ?_⟩
    obtain ⟨kp, kl, kr⟩ := K
    obtain ⟨lp, ll, lr⟩ := L
    obtain ⟨k1, k2⟩ := hK
    obtain ⟨l1, l2⟩ := hL
    simp only at hk hl k1 k2 l1 l2
    subst hk hl
    have t2 := g_total h l1 l2
    have tr : ∀ {s t u}, Gnd sg N s → Gnd sg N t → Gnd sg N u → gt s t → gt t u → gt s u := fun hs ht hu => g_trans h hs ht hu
    have i3 := g_irrefl h l1
    have i4 := g_irrefl h l2
    have i1 := g_irrefl h k1
    have i2 := g_irrefl h k2
    clear h
    cases b <;> simp only [Lit.side, if_true, if_false, Bool.false_eq_true] at h1 h2 <;>
      simp only [LGt, PosGt, if_true] <;> grind

/-! ## Unit clauses -/

/-- A ground unit clause, not greater than a literal of the clause, may be used. -/
theorem use_unit (h : SupOrd sg N gt) (hsg : SigOK sg) (hF : FOSig sg) (h1 : 1 < N) {D : List Lit} (hD : ∀ K ∈ D, LitOK sg N K) {ρ : Nat → Term} (hρ : GSubst sg N ρ)
    {L K : Lit} (hL : LitOK sg N L) {θ : Nat → Term} (hθ : GSubst sg N θ) (hK : K ∈ D) (hle : LitLe sg N gt (L.subst θ) (K.subst ρ)) :
    ClauseLe sg N gt (gInst θ [L]) (gInst ρ D) := by
  refine clauseLe_single h (L := mkEqn K.pos (K.l.subst ρ) (K.r.subst ρ)) (List.mem_map_of_mem hK) (gInst_in hsg h1 hρ fun M hM => ⟨(hD M hM).wt, (hD M hM).below⟩) ?_
  exact litLe_leq (inst_leq hsg hF hθ hL) (inst_leq hsg hF hρ (hD K hK)) hle

theorem literalSubsumes_ex {pp : Term → Bool} {L : Lit} {D : List Lit} (h : literalSubsumes sg pp L D = true) :
    ∃ K ∈ D, K.pos = L.pos ∧ (L.pos = true → subsumesPair sg pp L K.l.size K.l K.r = some true) ∧ (L.pos = false → topSubsumes sg pp L K.l K.r = true) := by
  induction D with
  | nil => simp [literalSubsumes] at h
  | cons K D ih =>
    rw [literalSubsumes, Bool.or_eq_true] at h
    rcases h with h | h
    · refine ⟨K, by simp, ?_⟩
      by_cases hp : L.pos = true
      · rw [if_pos hp, Bool.and_eq_true] at h
        refine ⟨by rw [h.1, hp], fun _ => ?_, by simp [hp]⟩
        cases hq : subsumesPair sg pp L K.l.size K.l K.r with
        | none => simp [hq] at h
        | some b => simp [hq] at h; rw [h.2]
      · rw [if_neg hp, Bool.and_eq_true] at h
        refine ⟨by simp_all, by simp [hp], fun _ => h.2⟩
    · obtain ⟨K, hK, hh⟩ := ih h
      exact ⟨K, by simp [hK], hh⟩

theorem red_of_literal (h : SupOrd sg N gt) (hsg : SigOK sg) (hF : FOSig sg) (h1 : 1 < N) {pp : Term → Bool} {L : Lit} {D : List Lit}
    (hL : LitOK sg N L) (hD : ∀ K ∈ D, LitOK sg N K) (hN : Ns [L]) (hs : literalSubsumes sg pp L D = true) : Red sg N gt Ns D := by
  intro ρ hρ I v hv hE
  obtain ⟨K, hK, hp, hpos, hneg⟩ := literalSubsumes_ex hs
  have okK := hD K hK
  have hle : ∀ θ, GSubst sg N θ → LitLe sg N gt (L.subst θ) (K.subst ρ) → I.LitTrue v (L.subst θ) := by
    intro θ hθ hle
    have := hE [L] θ hN hθ (use_unit h hsg hF h1 hD hρ hL hθ hK hle)
    rw [gInst_true hsg hv hθ (by intro M hM; rw [List.mem_singleton.1 hM]; exact hL.wt)] at this
    obtain ⟨M, hM, ht⟩ := this
    rw [List.mem_singleton.1 hM] at ht
    exact ht
  rw [gInst_true hsg hv hρ fun M hM => (hD M hM).wt]
  refine ⟨K.subst ρ, List.mem_map_of_mem hK, ?_⟩
  cases hq : L.pos with
  | false =>
    have := topSubsumes_inst okK.wt.1 okK.wt.2.1 (hneg hq)
    have hinst : ∀ {s t : Term}, s.SymsBelow N → t.SymsBelow N → PairInst sg L.l L.r s t →
        ∃ θ, GSubst sg N θ ∧ L.l.subst θ = s.subst ρ ∧ L.r.subst θ = t.subst ρ := by
      rintro s t hs ht ⟨τ, hτ, rfl, rfl⟩
      refine ⟨fun x => (restrict (L.l.vars ++ L.r.vars) τ x).subst ρ, restrict_gsubst hρ fun x hx => ⟨(hτ x).1, (hτ x).2, ?_⟩, ?_, ?_⟩
      · rcases List.mem_append.1 hx with hx | hx
        · exact RewriteProof.symsBelow_of_subst hs x hx
        · exact RewriteProof.symsBelow_of_subst ht x hx
      · rw [← subst_comp, restrict_subst fun x hx => List.mem_append_left _ hx]
      · rw [← subst_comp, restrict_subst fun x hx => List.mem_append_right _ hx]
    have : ∃ θ, GSubst sg N θ ∧ LEq (L.subst θ) (K.subst ρ) := by
      rcases this with hi | hi
      · obtain ⟨θ, hθ, e1, e2⟩ := hinst okK.below.1 okK.below.2 hi
        exact ⟨θ, hθ, hp.symm, Or.inl ⟨e1, e2⟩⟩
      · obtain ⟨θ, hθ, e1, e2⟩ := hinst okK.below.2 okK.below.1 hi
        exact ⟨θ, hθ, hp.symm, Or.inr ⟨e1, e2⟩⟩
    obtain ⟨θ, hθ, he⟩ := this
    exact (leq_true he I v).1 (hle θ hθ (Or.inl he))
  | true =>
    have hq' : K.pos = true := hp.trans hq
    have := pair_eval h hsg hL.wt hL.below hρ hv okK.wt.1 okK.wt.2.1 okK.below.1 okK.below.2 (fun θ hθ hs => ?_) (hpos hq)
    · show I.LitTrue v ⟨K.pos, _, _⟩
      unfold Interp.LitTrue
      rw [if_pos hq']
      exact this
    · have := hle θ hθ ?_
      · unfold Interp.LitTrue at this
        rw [if_pos (show (L.subst θ).pos = true from hq)] at this
        exact this
      · rcases hs with ⟨s1, s2⟩ | ⟨s1, s2⟩
        · exact litLe_sides h (subst_in hθ hL) (subst_in hρ okK) hp.symm s1 s2
        · have hsw : LEq (K.subst ρ) ⟨K.pos, K.r.subst ρ, K.l.subst ρ⟩ := ⟨rfl, Or.inr ⟨rfl, rfl⟩⟩
          refine litLe_leq (leq_refl _) hsw (litLe_sides h (subst_in hθ hL) ?_ hp.symm s1 s2)
          exact ⟨(subst_in hρ okK).2, (subst_in hρ okK).1⟩

theorem red_of_subsumes (h : SupOrd sg N gt) (hsg : SigOK sg) (hF : FOSig sg) (h1 : 1 < N) {pp : Term → Bool} {C D : List OLit}
    (hC : ∀ K ∈ OLit.plain C, LitOK sg N K) (hD : ∀ K ∈ OLit.plain D, LitOK sg N K) (hN : Ns (OLit.plain C))
    (hs : clauseSubsumes sg pp C D = true) : Red sg N gt Ns (OLit.plain D) := by
  match C, hC, hN, hs with
  | [], _, hN, _ => exact red_of_part h hsg h1 hN (fun K hK => ⟨(hD K hK).wt, (hD K hK).below⟩) (X := []) .nil (List.nil_subperm)
  | [L], hC, hN, hs => exact red_of_literal h hsg hF h1 (hC L.toLit (by simp [OLit.plain])) hD hN hs
  | L :: K :: C, hC, hN, hs =>
    obtain ⟨σ, h2, h3⟩ := subsumes_mapsInto (by simp) hs
    exact red_of_maps h hsg h1 hN (fun K hK => ⟨(hD K hK).wt, (hD K hK).below⟩) h2 h3

/-! ## Sets of units -/

/-- Instances of the positive units, not greater than a pair of terms, hold. -/
def PairUse (sg : Sig) (N : Nat) (gt : Term → Term → Prop) (units : List UnitPos) (ρ : Nat → Term) (I : Interp.{0} sg) (v : Nat → I.D) (t1 t2 : Term) : Prop :=
  ∀ w ∈ units, w.lit.pos = true → ∀ θ, GSubst sg N θ → TermLe gt (w.this.subst θ) (t1.subst ρ) → TermLe gt (w.other.subst θ) (t2.subst ρ) →
    I.eval v (w.this.subst θ) = I.eval v (w.other.subst θ)

theorem pairInst_gsubst {ρ : Nat → Term} (hρ : GSubst sg N ρ) {a b s t : Term} (hs : s.SymsBelow N) (ht : t.SymsBelow N) (hi : PairInst sg a b s t) :
    ∃ θ, GSubst sg N θ ∧ a.subst θ = s.subst ρ ∧ b.subst θ = t.subst ρ := by
  obtain ⟨τ, hτ, rfl, rfl⟩ := hi
  refine ⟨fun x => (restrict (a.vars ++ b.vars) τ x).subst ρ, restrict_gsubst hρ fun x hx => ⟨(hτ x).1, (hτ x).2, ?_⟩, ?_, ?_⟩
  · rcases List.mem_append.1 hx with hx | hx
    · exact RewriteProof.symsBelow_of_subst hs x hx
    · exact RewriteProof.symsBelow_of_subst ht x hx
  · rw [← subst_comp, restrict_subst fun x hx => List.mem_append_left _ hx]
  · rw [← subst_comp, restrict_subst fun x hx => List.mem_append_right _ hx]

theorem unitPos_in {w : UnitPos} {P : Term → Prop} (h : w.lit.In P) : P w.this ∧ P w.other := by
  unfold UnitPos.this UnitPos.other
  split
  · exact ⟨h.1, h.2⟩
  · exact ⟨h.2, h.1⟩

theorem PairUse.top {units : List UnitPos} {ρ : Nat → Term} (hρ : GSubst sg N ρ) {I : Interp.{0} sg} {v : Nat → I.D} {t1 t2 : Term} (h : PairUse sg N gt units ρ I v t1 t2)
    (b1 : t1.SymsBelow N) (b2 : t2.SymsBelow N) {w : UnitPos} (hw : w ∈ units) (hp : w.lit.pos = true) (hi : PairInst sg w.this w.other t1 t2) :
    I.eval v (t1.subst ρ) = I.eval v (t2.subst ρ) := by
  obtain ⟨θ, hθ, e1, e2⟩ := pairInst_gsubst hρ b1 b2 hi
  rw [← e1, ← e2]
  exact h w hw hp θ hθ (Or.inl e1) (Or.inl e2)

theorem PairUse.sub (ho : SupOrd sg N gt) {units : List UnitPos} (hu : ∀ w ∈ units, LitOK sg N w.lit) {ρ : Nat → Term} (hρ : GSubst sg N ρ) {I : Interp.{0} sg} {v : Nat → I.D}
    {f g : Nat} {ss ts : List Term} (h : PairUse sg N gt units ρ I v (.app f ss) (.app g ts)) (w1 : sg.WT (.app f ss)) (w2 : sg.WT (.app g ts))
    (b1 : (Term.app f ss).SymsBelow N) (b2 : (Term.app g ts).SymsBelow N) {s t : Term} (hs : s ∈ ss) (ht : t ∈ ts) : PairUse sg N gt units ρ I v s t := by
  intro w hw hp θ hθ l1 l2
  have g1 := gnd_subst hρ w1 b1
  have g2 := gnd_subst hρ w2 b2
  have gs := gnd_subst hρ (wt_args w1 s hs) ((symsBelow_app.1 b1).2 s hs)
  have gt' := gnd_subst hρ (wt_args w2 t ht) ((symsBelow_app.1 b2).2 t ht)
  have wu : w.lit.In sg.WT := ⟨(hu w hw).wt.1, (hu w hw).wt.2.1⟩
  have u1 := gnd_subst hθ (unitPos_in wu).1 (unitPos_in (hu w hw).below).1
  have u2 := gnd_subst hθ (unitPos_in wu).2 (unitPos_in (hu w hw).below).2
  rw [subst_app] at g1 g2
  have k1 := g_sub ho g1 (List.mem_map_of_mem hs)
  have k2 := g_sub ho g2 (List.mem_map_of_mem ht)
  have lift : ∀ {u w W : Term}, Gnd sg N u → Gnd sg N w → Gnd sg N W → TermLe gt u w → gt W w → TermLe gt u W := by
    rintro u w W hu hw hW (rfl | hh) hg
    · exact Or.inr hg
    · exact Or.inr (g_trans ho hW hw hu hg hh)
  refine h w hw hp θ hθ ?_ ?_ <;> rw [subst_app]
  · exact lift u1 gs g1 l1 k1
  · exact lift u2 gt' g2 l2 k2

theorem findUnitLoop_eval (ho : SupOrd sg N gt) {pp : Term → Bool} {units : List UnitPos} (hu : ∀ w ∈ units, LitOK sg N w.lit) {ρ : Nat → Term} (hρ : GSubst sg N ρ)
    {I : Interp.{0} sg} {v : Nat → I.D} {n : Nat} {t1 t2 : Term} {w : UnitPos} (w1 : sg.WT t1) (w2 : sg.WT t2) (b1 : t1.SymsBelow N) (b2 : t2.SymsBelow N)
    (hU : PairUse sg N gt units ρ I v t1 t2) (h : findUnitLoop sg pp units n t1 t2 = some w) : I.eval v (t1.subst ρ) = I.eval v (t2.subst ρ) := by
  induction n generalizing t1 t2 with
  | zero => simp [findUnitLoop] at h
  | succ n ih =>
    unfold findUnitLoop at h
    split at h
    · rename_i f ss g ts
      split at h
      · cases h
      · rename_i hc
        rw [not_or, not_not] at hc
        obtain ⟨rfl, -⟩ := hc
        have hl := len_of_wt w1 w2
        split at h
        · rename_i s t hd
          have hst := argDiff_one' hl hd
          have hU' := hU.sub ho hu hρ w1 w2 b1 b2 hst.1 hst.2
          have bs := (symsBelow_app.1 b1).2 s hst.1
          have bt := (symsBelow_app.1 b2).2 t hst.2
          have ws := wt_args w1 s hst.1
          have wt := wt_args w2 t hst.2
          obtain ⟨a, b, rfl, rfl⟩ := argDiff_one hl hd
          have he : I.eval v (s.subst ρ) = I.eval v (t.subst ρ) := by
            split at h
            · rename_i w' hw
              obtain ⟨h1, h2, h3⟩ := findTopUnit_spec ws wt hw
              exact hU'.top hρ bs bt h1 (h2 true rfl) h3
            · exact ih ws wt bs bt hU' h
          rw [subst_app, subst_app, eval_app, eval_app]
          simp [he]
        · cases h
    · cases h

theorem strongUnit_eval (ho : SupOrd sg N gt) {pp : Term → Bool} {units : List UnitPos} (hu : ∀ w ∈ units, LitOK sg N w.lit) {ρ : Nat → Term} (hρ : GSubst sg N ρ)
    {I : Interp.{0} sg} {v : Nat → I.D} {n : Nat} {stk : List (Term × Term)} {res : Option UnitPos} {w : UnitPos}
    (hw : ∀ p ∈ stk, sg.WT p.1 ∧ sg.WT p.2 ∧ p.1.SymsBelow N ∧ p.2.SymsBelow N ∧ PairUse sg N gt units ρ I v p.1 p.2)
    (h : strongUnit sg pp units true n stk res = some w) : ∀ p ∈ stk, I.eval v (p.1.subst ρ) = I.eval v (p.2.subst ρ) := by
  induction n generalizing stk res with
  | zero => simp [strongUnit] at h
  | succ n ih =>
    cases stk with
    | nil => simp
    | cons p stk =>
      obtain ⟨t1, t2⟩ := p
      obtain ⟨w1, w2, b1, b2, hU⟩ := hw (t1, t2) (by simp)
      have hw' := fun p hp => hw p (List.mem_cons_of_mem (t1, t2) hp)
      unfold strongUnit at h
      split at h
      · rename_i w' hf
        obtain ⟨h1, h2, h3⟩ := findTopUnit_spec w1 w2 hf
        intro p hp
        rcases List.mem_cons.1 hp with rfl | hp
        · exact hU.top hρ b1 b2 h1 (h2 true rfl) h3
        · exact ih hw' h p hp
      · cases t1 with
        | var x => simp at h
        | app f ss =>
        cases t2 with
        | var x => simp at h
        | app g ts =>
          simp only at h
          split at h
          · cases h
          · rename_i hc
            rw [not_or, not_not] at hc
            obtain ⟨rfl, -⟩ := hc
            have hl := len_of_wt w1 w2
            have hmem : ∀ p ∈ ss.zip ts, p.1 ∈ ss ∧ p.2 ∈ ts := fun p hp => ⟨(List.of_mem_zip hp).1, (List.of_mem_zip hp).2⟩
            have g3 := ih (stk := ((ss.zip ts).filter fun p => decide (p.1 ≠ p.2)).reverse ++ stk) (fun p hp => by
              rcases List.mem_append.1 hp with hp | hp
              · have := hmem p (List.mem_of_mem_filter (List.mem_reverse.1 hp))
                exact ⟨wt_args w1 _ this.1, wt_args w2 _ this.2, (symsBelow_app.1 b1).2 _ this.1, (symsBelow_app.1 b2).2 _ this.2,
                  hU.sub ho hu hρ w1 w2 b1 b2 this.1 this.2⟩
              · exact hw' p hp) h
            intro p hp
            rcases List.mem_cons.1 hp with rfl | hp
            · have hz : ∀ p ∈ ss.zip ts, I.eval v (p.1.subst ρ) = I.eval v (p.2.subst ρ) := by
                intro p hp
                by_cases he : p.1 = p.2
                · rw [he]
                · exact g3 p (List.mem_append_left _ (List.mem_reverse.2 (List.mem_filter.2 ⟨hp, by simpa using he⟩)))
              simp only
              rw [subst_app, subst_app, eval_app, eval_app]
              congr 1
              apply List.ext_getElem (by simpa using hl)
              intro i h1 h2
              simp only [List.length_map] at h1 h2
              simp only [List.getElem_map]
              exact hz (ss[i], ts[i]) (by
                rw [List.mem_iff_getElem]
                exact ⟨i, by simp; omega, by simp⟩)
            · exact g3 p (List.mem_append_right _ hp)

theorem findPosUnit_eval (ho : SupOrd sg N gt) {pp : Term → Bool} {units : List UnitPos} (hu : ∀ w ∈ units, LitOK sg N w.lit) {ρ : Nat → Term} (hρ : GSubst sg N ρ)
    {I : Interp.{0} sg} {v : Nat → I.D} {strong : Bool} {n : Nat} {t1 t2 : Term} {w : UnitPos} (w1 : sg.WT t1) (w2 : sg.WT t2) (b1 : t1.SymsBelow N) (b2 : t2.SymsBelow N)
    (hU : PairUse sg N gt units ρ I v t1 t2) (h : findPosUnit sg pp units strong n t1 t2 = some w) : I.eval v (t1.subst ρ) = I.eval v (t2.subst ρ) := by
  unfold findPosUnit at h
  split at h
  · exact strongUnit_eval ho hu hρ (stk := [(t1, t2)]) (by simp [w1, w2, b1, b2, hU]) h (t1, t2) (by simp)
  · unfold findUnit at h
    split at h
    · rename_i w' hf
      obtain ⟨h1, h2, h3⟩ := findTopUnit_spec w1 w2 hf
      exact hU.top hρ b1 b2 h1 (h2 true (by simp)) h3
    · exact findUnitLoop_eval ho hu hρ w1 w2 b1 b2 hU h

theorem red_of_units (h : SupOrd sg N gt) (hsg : SigOK sg) (hF : FOSig sg) (h1 : 1 < N) {pp : Term → Bool} {units : List UnitPos} {strong : Bool} {n : Nat} {D : List Lit}
    {w : UnitPos} (hu : ∀ w ∈ units, LitOK sg N w.lit ∧ Ns [w.lit]) (hD : ∀ K ∈ D, LitOK sg N K) (hs : unitSetSubsumes sg pp units strong n D = some w) :
    Red sg N gt Ns D := by
  intro ρ hρ I v hv hE
  obtain ⟨K, hK, w', hw'⟩ : ∃ K ∈ D, ∃ w', (if K.pos then findPosUnit sg pp units strong n K.l K.r else findTopUnit sg pp units (some false) K.l K.r) = some w' := by
    clear hD hE
    induction D with
    | nil => simp [unitSetSubsumes] at hs
    | cons K D ih =>
      rw [unitSetSubsumes] at hs
      split at hs
      · rename_i w' hw
        exact ⟨K, by simp, w', hw⟩
      · obtain ⟨K', hK, hh⟩ := ih hs
        exact ⟨K', by simp [hK], hh⟩
  have okK := hD K hK
  have hle : ∀ w ∈ units, ∀ θ, GSubst sg N θ → LitLe sg N gt (w.lit.subst θ) (K.subst ρ) → I.LitTrue v (w.lit.subst θ) := by
    intro w hw θ hθ hle
    obtain ⟨okw, hNw⟩ := hu w hw
    have := hE [w.lit] θ hNw hθ (use_unit h hsg hF h1 hD hρ okw hθ hK hle)
    rw [gInst_true hsg hv hθ (by intro M hM; rw [List.mem_singleton.1 hM]; exact okw.wt)] at this
    obtain ⟨M, hM, ht⟩ := this
    rw [List.mem_singleton.1 hM] at ht
    exact ht
  have sides : ∀ (w : UnitPos) (θ : Nat → Term), LEq ⟨w.lit.pos, w.this.subst θ, w.other.subst θ⟩ (w.lit.subst θ) := by
    intro w θ
    unfold UnitPos.this UnitPos.other Lit.subst LEq SameSides
    split <;> simp
  rw [gInst_true hsg hv hρ fun M hM => (hD M hM).wt]
  refine ⟨K.subst ρ, List.mem_map_of_mem hK, ?_⟩
  by_cases hp : K.pos = true
  · rw [if_pos hp] at hw'
    have := findPosUnit_eval h (fun w hw => (hu w hw).1) hρ (I := I) (v := v) okK.wt.1 okK.wt.2.1 okK.below.1 okK.below.2 (fun w hw hwp θ hθ l1 l2 => ?_) hw'
    · show I.LitTrue v ⟨K.pos, _, _⟩
      unfold Interp.LitTrue
      rw [if_pos hp]
      exact this
    · have ok := (hu w hw).1
      have hin : Lit.In (Gnd sg N) ⟨w.lit.pos, w.this.subst θ, w.other.subst θ⟩ := leq_in' (sides w θ) (subst_in hθ ok)
      have := hle w hw θ hθ (litLe_leq (leq_symm (sides w θ)) (leq_refl _)
        (litLe_sides h hin (subst_in hρ okK) (hwp.trans hp.symm) l1 l2))
      rw [← leq_true (sides w θ)] at this
      unfold Interp.LitTrue at this
      rw [if_pos (by exact hwp)] at this
      exact this
  · rw [if_neg hp] at hw'
    obtain ⟨q1, q2, q3⟩ := findTopUnit_spec okK.wt.1 okK.wt.2.1 hw'
    obtain ⟨θ, hθ, e1, e2⟩ := pairInst_gsubst hρ okK.below.1 okK.below.2 q3
    have he : LEq (w'.lit.subst θ) (K.subst ρ) := by
      refine leq_trans (leq_symm (sides w' θ)) ⟨?_, Or.inl ⟨e1, e2⟩⟩
      show w'.lit.pos = K.pos
      rw [q2 false rfl]
      simpa using hp
    exact (leq_true he I v).1 (hle w' q1 θ hθ (Or.inl he))

end Verif.Sup
