import Verif.Clauses.RewriteClause

/-!
# Finding rewritable clauses
-/

namespace Verif
namespace RewriteProof
open Term

variable {x : RWCtx} {D : Demod → Prop} {W : Term → Prop} {S : Term → Term → Prop}

/-- Flags are only set. -/
structure FlagsMono (st st' : RWSt) : Prop where
  rw : ∀ v, (st v).rewritable = true → (st' v).rewritable = true
  rrw : ∀ v, (st v).rrewritable = true → (st' v).rrewritable = true
  done : ∀ v, (st v).rewritten = true → (st' v).rewritten = true

theorem FlagsMono.refl (st : RWSt) : FlagsMono st st := ⟨fun _ h => h, fun _ h => h, fun _ h => h⟩
theorem FlagsMono.trans {a b c : RWSt} (h : FlagsMono a b) (h' : FlagsMono b c) : FlagsMono a c :=
  ⟨fun v hv => h'.rw v (h.rw v hv), fun v hv => h'.rrw v (h.rrw v hv), fun v hv => h'.done v (h.done v hv)⟩

/-- The effect of the test at the top of a term. -/
structure TopEff (x : RWCtx) (D : Demod → Prop) (W : Term → Prop) (S : Term → Term → Prop) (st st' : RWSt) : Prop where
  links : LinksOK x D W S st → LinksOK x D W S st'
  nf : ∀ v, (st' v).nf0 = (st v).nf0 ∧ (st' v).nf1 = (st v).nf1
  mono : FlagsMono st st'

theorem TopEff.refl (st : RWSt) : TopEff x D W S st st := ⟨id, fun _ => ⟨rfl, rfl⟩, .refl st⟩
theorem TopEff.trans {a b c : RWSt} (h : TopEff x D W S a b) (h' : TopEff x D W S b c) : TopEff x D W S a c :=
  ⟨h'.links ∘ h.links, fun v => ⟨(h'.nf v).1.trans (h.nf v).1, (h'.nf v).2.trans (h.nf v).2⟩, h.mono.trans h'.mono⟩

theorem topEff_set (st : RWSt) (t : Term) (al : Bool) : TopEff x D W S st (setRewritable st t al) := by
  refine ⟨fun h => linksOK_upd h rfl rfl rfl, fun v => ?_, ⟨fun v => ?_, fun v => ?_, fun v => ?_⟩⟩ <;>
    by_cases hv : v = t <;> (try subst hv) <;> simp_all [setRewritable, RWSt.upd]

theorem topEff_add (st : RWSt) {t u : Term} {d : Demod} {al : Bool} {right : Bool} (hd : D d) (hs : S t u) (h : TopStep x d right t u) :
    TopEff x D W S st (addRWLink st t u (some d) al) := by
  refine ⟨fun hl => linksOK_add hl (fun _ => hs) (fun _ e he => ?_) (by simp), fun v => ?_, ⟨fun v => ?_, fun v => ?_, fun v => ?_⟩⟩
  · cases he; exact ⟨hd, right, h⟩
  all_goals by_cases hv : v = t <;> (try subst hv) <;> simp_all [addRWLink, RWSt.upd]

theorem onlyVariants_of {d : Demod} {t : Term} (ho : d.oriented = true) {sb : SubstSt} (hm : matchSt x d.l t = some sb)
    (hr : substIsRenaming sb = true) : OnlyVariants x d t := by
  intro right u σ h
  obtain ⟨hr', hn⟩ := h.rule ho
  subst hr'
  refine ⟨ho, ?_⟩
  obtain ⟨sb', hm', hl⟩ := matchSt_exists h.inst h.typed h.pred
  simp only [Demod.lhs, Bool.false_eq_true, if_false] at hm' hl
  rw [hm] at hm'
  cases hm'
  have hM := matchSt_some hm
  rw [isRenaming_iff hM.stack] at hr
  exact (renamesOn_congr (fun y => by rw [hM.stack.bound y, hM.dom y]) fun y hy => by
    rw [hM.stack.bound y, hM.dom y] at hy; exact hl y hy).1 hr

theorem topRewritableL_ok (hL : RWLaws x D W S) {d : Demod} (hD : D d) {st : RWSt} {t : Term} (hw : W t) {res : RWRes} {st' : RWSt}
    (h : topRewritableL x st t d = (res, st')) :
    TopEff x D W S st st' ∧ (res = .no → st' = st ∧ ∀ u, ¬ TopStep x d false t u) ∧
      (res = .limited → d.oriented = true ∧ OnlyVariants x d t) := by
  unfold topRewritableL at h
  cases hm : matchSt x d.l t with
  | none =>
    simp only [hm, Prod.mk.injEq] at h
    obtain ⟨rfl, rfl⟩ := h
    refine ⟨.refl _, fun _ => ⟨rfl, fun u hu => ?_⟩, by simp⟩
    obtain ⟨sb, hsb⟩ := (tryDemod_complete hu).1
    simp [Demod.lhs, hm] at hsb
  | some sb =>
    simp only [hm] at h
    cases hi : (if d.oriented then (true, sb) else instanceIsRule x d.l d.r sb) with
    | mk ok sb1 =>
      simp only [hi] at h
      have hp : tryDemod x false d false t = if ok then some (instFO sb1.bind d.r) else none := by
        simp [tryDemod, hm, hi]
      cases ok with
      | false =>
        simp only [Bool.false_eq_true, if_false, Prod.mk.injEq] at h
        obtain ⟨rfl, rfl⟩ := h
        refine ⟨.refl _, fun _ => ⟨rfl, fun u hu => ?_⟩, by simp⟩
        obtain ⟨u', hu'⟩ := (tryDemod_complete hu).2
        simp [hp] at hu'
      | true =>
        simp only [if_true] at h hp
        have hst := tryDemod_sound (by simp) hp
        have hS := hL.step hw hD hst
        have hne : instFO sb1.bind d.r ≠ t := fun e => irrefl hL t (by rw [e] at hS; exact hS)
        generalize hres : (if (!d.oriented || !substIsRenaming sb1) = true then RWRes.always else RWRes.limited) = rs at h
        have hno : rs ≠ .no := by subst hres; split <;> simp
        have hlim : rs = .limited → d.oriented = true ∧ OnlyVariants x d t := by
          intro e
          subst e
          have hc : ¬ (!d.oriented || !substIsRenaming sb1) = true := by
            intro hc; rw [if_pos hc] at hres; cases hres
          simp only [Bool.or_eq_true, Bool.not_eq_true', not_or, Bool.not_eq_false] at hc
          refine ⟨hc.1, ?_⟩
          simp only [hc.1, if_true, Prod.mk.injEq, true_and] at hi
          subst hi
          exact onlyVariants_of hc.1 hm hc.2
        simp only [if_neg hne] at h
        split at h
        · simp only [Prod.mk.injEq] at h
          obtain ⟨rfl, rfl⟩ := h
          exact ⟨(topEff_set _ _ _).trans (topEff_add _ hD hS hst), fun e => absurd e hno, hlim⟩
        · simp only [Prod.mk.injEq] at h
          obtain ⟨rfl, rfl⟩ := h
          exact ⟨topEff_set _ _ _, fun e => absurd e hno, hlim⟩

theorem topRewritable_ok (hL : RWLaws x D W S) {d : Demod} (hD : D d) {st : RWSt} {t : Term} (hw : W t) {rs : Bool} {res : RWRes}
    {st' : RWSt} (h : topRewritable x st t d rs = (res, st')) :
    TopEff x D W S st st' ∧ (res = .no → st' = st ∧ ∀ right u, ¬ TopStep x d right t u) ∧
      (res = .limited → OnlyVariants x d t) := by
  unfold topRewritable at h
  cases h1 : topRewritableL x st t d with
  | mk r1 st1 =>
    simp only [h1] at h
    obtain ⟨g1, g2, g3⟩ := topRewritableL_ok hL hD hw h1
    split at h
    · rename_i hc
      simp only [Prod.mk.injEq] at h
      obtain ⟨rfl, rfl⟩ := h
      refine ⟨g1, fun e => ⟨(g2 e).1, fun right u hu => ?_⟩, fun e => (g3 e).2⟩
      subst e
      simp only [reduceCtorEq, and_false, false_or] at hc
      obtain ⟨σ, hu⟩ := hu
      have := (hu.rule hc).1
      subst this
      exact (g2 rfl).2 u ⟨σ, hu⟩
    · rename_i hc
      simp only [not_or] at hc
      obtain ⟨c1, c2, c3⟩ := hc
      have hor : d.oriented = false := by simpa using c3
      have hr1 : r1 = .no := by
        cases r1 with
        | no => rfl
        | always => exact absurd rfl c1
        | limited => exact absurd (g3 rfl).1 c3
      subst hr1
      obtain ⟨rfl, g5⟩ := g2 rfl
      cases hm : matchSt x d.r t with
      | none =>
        simp only [hm, Prod.mk.injEq] at h
        obtain ⟨rfl, rfl⟩ := h
        refine ⟨.refl _, fun _ => ⟨rfl, fun right u hu => ?_⟩, by simp⟩
        cases right with
        | false => exact g5 u hu
        | true => obtain ⟨sb, hsb⟩ := (tryDemod_complete hu).1; simp [Demod.lhs, hm] at hsb
      | some sb =>
        simp only [hm] at h
        cases hi : instanceIsRule x d.r d.l sb with
        | mk ok sb1 =>
          simp only [hi] at h
          have hp : tryDemod x false d true t = if ok then some (instFO sb1.bind d.l) else none := by
            simp [tryDemod, hm, hi]
          cases ok with
          | false =>
            simp only [Bool.false_eq_true, if_false, Prod.mk.injEq] at h
            obtain ⟨rfl, rfl⟩ := h
            refine ⟨.refl _, fun _ => ⟨rfl, fun right u hu => ?_⟩, by simp⟩
            cases right with
            | false => exact g5 u hu
            | true => obtain ⟨u', hu'⟩ := (tryDemod_complete hu).2; simp [hp] at hu'
          | true =>
            simp only [if_true] at h hp
            have hst := tryDemod_sound (fun _ => hor) hp
            have hS := hL.step hw hD hst
            have hne : instFO sb1.bind d.l ≠ t := fun e => irrefl hL t (by rw [e] at hS; exact hS)
            simp only [if_neg hne, Prod.mk.injEq] at h
            obtain ⟨rfl, rfl⟩ := h
            exact ⟨(topEff_set _ _ _).trans (topEff_add _ hD hS hst), by simp, by simp⟩

/-! ### Terms -/

/-- The invariant during the search with the new demodulator `d`. -/
structure BackInv (x : RWCtx) (D : Demod → Prop) (W : Term → Prop) (S : Term → Term → Prop) (sets : List DSet) (d : Demod)
    (st : RWSt) : Prop where
  links : LinksOK x D W S st
  dates : DatesOK x W sets st
  past : ∀ t, (st t).nf0 ≤ d.date ∧ (st t).nf1 ≤ d.date
  raw0 : ∀ t, W t → (st t).nf0 = d.date → ¬ Reducible x d t
  raw1 : ∀ t, W t → (st t).nf1 = d.date → ¬ Reducible x d t

theorem clean_mono {sets : List DSet} {st st' : RWSt} (h : FlagsMono st st') {t : Term} (hc : RWClean x sets st t) :
    RWClean x sets st' t := by
  intro h1 h2 h3
  refine hc ?_ ?_ ?_
  · cases e : (st t).rewritable with
    | false => rfl
    | true => simp [h.rw t e] at h1
  · cases e : (st t).rrewritable with
    | false => rfl
    | true => simp [h.rrw t e] at h2
  · cases e : (st t).rewritten with
    | false => rfl
    | true => simp [h.done t e] at h3

theorem backInv_eff {sets : List DSet} {d : Demod} {st st' : RWSt} (h : BackInv x D W S sets d st) (he : TopEff x D W S st st') :
    BackInv x D W S sets d st' := by
  have hn : ∀ t, (st' t).rewritten = false → (st t).rewritten = false := by
    intro t ht
    cases e : (st t).rewritten with
    | false => rfl
    | true => simp [he.mono.done t e] at ht
  refine ⟨he.links h.links, ⟨fun t hw hr => ?_, fun t hw hr => ?_⟩, fun t => ?_, fun t hw => ?_, fun t hw => ?_⟩
  · rw [(he.nf t).1]; exact h.dates.nf0 t hw (hn t hr)
  · rw [(he.nf t).2]; exact h.dates.nf1 t hw (hn t hr)
  · rw [(he.nf t).1, (he.nf t).2]; exact h.past t
  · rw [(he.nf t).1]; exact h.raw0 t hw
  · rw [(he.nf t).2]; exact h.raw1 t hw

theorem kept_of {d : Demod} {rs : Bool} {t : Term} (h : ¬ Reducible x d t) : Kept x d rs t := by
  unfold Kept
  cases rs with
  | false => simpa using h
  | true =>
    simp only [if_true]
    refine ⟨fun f ts he s hs hr => h ?_, fun right u σ hu => absurd ⟨t, mem_subterms_self t, right, u, σ, hu⟩ h⟩
    subst he
    obtain ⟨v, hv, hr⟩ := hr
    exact ⟨v, by simp only [subterms, List.mem_cons, mem_subtermsL]; exact .inr ⟨s, hs, hv⟩, hr⟩

section
variable {sets : List DSet} {d : Demod} (hL : RWLaws x D W S) (hD : D d)
include hL hD

theorem termIsRewritable_ok : ∀ (t : Term) {st : RWSt} {rs res : Bool} {st' : RWSt}, BackInv x D W S sets d st → W t →
    (∀ s ∈ t.subterms, RWClean x sets st s) → termIsRewritable x d d.date st t rs = (res, st') →
    BackInv x D W S sets d st' ∧ FlagsMono st st' ∧ (res = false → Kept x d rs t) := by
  intro t
  induction t using Term.ind with
  | hv y =>
    intro st rs res st' hi hw _ h
    simp only [termIsRewritable, Prod.mk.injEq] at h
    obtain ⟨rfl, rfl⟩ := h
    refine ⟨hi, .refl _, fun _ => kept_of ?_⟩
    rintro ⟨s, hs, right, u, hu⟩
    simp only [subterms, List.mem_singleton] at hs
    subst hs
    exact hL.noVar (hL.step hw hD hu)
  | ha f ts ih =>
    intro st rs res st' hi hw hcl h
    have hargs : ∀ (ss : List Term), (∀ s ∈ ss, s ∈ ts) → ∀ {st : RWSt} {res : Bool} {st' : RWSt}, BackInv x D W S sets d st →
        (∀ s ∈ (Term.app f ts).subterms, RWClean x sets st s) → anyArgRewritable x d d.date st ss = (res, st') →
        BackInv x D W S sets d st' ∧ FlagsMono st st' ∧ (res = false → ∀ s ∈ ss, ¬ Reducible x d s) := by
      intro ss
      induction ss with
      | nil =>
        intro _ st res st' hi _ h
        simp only [anyArgRewritable, Prod.mk.injEq] at h
        obtain ⟨rfl, rfl⟩ := h
        exact ⟨hi, .refl _, by simp⟩
      | cons s ss ih2 =>
        intro hsub st res st' hi hcl h
        simp only [anyArgRewritable] at h
        cases h1 : termIsRewritable x d d.date st s false with
        | mk r1 st1 =>
          simp only [h1] at h
          have hs := hsub s (by simp)
          obtain ⟨g1, g2, g3⟩ := ih s hs hi (hL.arg hw hs) (fun v hv => hcl v (by
            simp only [subterms, List.mem_cons, mem_subtermsL]; exact .inr ⟨s, hs, hv⟩)) h1
          cases r1 with
          | true =>
            simp only [if_true, Prod.mk.injEq] at h
            obtain ⟨rfl, rfl⟩ := h
            exact ⟨g1, g2, by simp⟩
          | false =>
            simp only [Bool.false_eq_true, if_false] at h
            obtain ⟨k1, k2, k3⟩ := ih2 (fun v hv => hsub v (by simp [hv])) g1 (fun v hv => clean_mono g2 (hcl v hv)) h
            refine ⟨k1, g2.trans k2, fun e v hv => ?_⟩
            rcases List.mem_cons.1 hv with rfl | hv
            · simpa [Kept] using g3 rfl
            · exact k3 e v hv
    simp only [termIsRewritable] at h
    split at h
    · simp only [Prod.mk.injEq] at h
      obtain ⟨rfl, rfl⟩ := h
      exact ⟨hi, .refl _, by simp⟩
    split at h
    · rename_i hnf
      simp only [Prod.mk.injEq] at h
      obtain ⟨rfl, rfl⟩ := h
      exact ⟨hi, .refl _, fun _ => kept_of (hi.raw1 _ hw hnf)⟩
    cases h1 : anyArgRewritable x d d.date st ts with
    | mk r1 st1 =>
      simp only [h1] at h
      obtain ⟨g1, g2, g3⟩ := hargs ts (fun _ h => h) hi hcl h1
      cases r1 with
      | true =>
        simp only [if_true, Prod.mk.injEq] at h
        obtain ⟨rfl, rfl⟩ := h
        have he := topEff_set (x := x) (D := D) (W := W) (S := S) st1 (.app f ts) true
        exact ⟨backInv_eff g1 he, g2.trans he.mono, by simp⟩
      | false =>
        simp only [Bool.false_eq_true, if_false] at h
        have ga := g3 rfl
        cases h2 : topRewritable x st1 (.app f ts) d rs with
        | mk top st2 =>
          simp only [h2] at h
          obtain ⟨k1, k2, k3⟩ := topRewritable_ok hL hD hw h2
          have b2 := backInv_eff g1 k1
          cases top with
          | limited =>
            simp only [Prod.mk.injEq] at h
            obtain ⟨rfl, rfl⟩ := h
            refine ⟨b2, g2.trans k1.mono, fun e => ?_⟩
            have : rs = true := by simpa using e
            subst this
            simp only [Kept, if_true]
            exact ⟨fun f' ts' he => by cases he; exact ga, k3 rfl⟩
          | always =>
            simp only [Prod.mk.injEq] at h
            obtain ⟨rfl, rfl⟩ := h
            exact ⟨b2, g2.trans k1.mono, by simp⟩
          | no =>
            have hred : ¬ Reducible x d (.app f ts) := by
              rintro ⟨v, hv, right, u, hu⟩
              simp only [subterms, List.mem_cons, mem_subtermsL] at hv
              rcases hv with rfl | ⟨s, hs, hv⟩
              · exact (k2 rfl).2 right u hu
              · exact ga s hs ⟨v, hv, right, u, hu⟩
            simp only at h
            split at h
            · rename_i hc
              simp only [Bool.and_eq_true, Bool.not_eq_true', Bool.or_eq_false_iff] at hc
              simp only [Prod.mk.injEq] at h
              obtain ⟨rfl, rfl⟩ := h
              have hirr := clean_mono (g2.trans k1.mono) (hcl _ (mem_subterms_self _)) hc.1.1.1.1 hc.1.1.1.2 hc.1.1.2
              refine ⟨⟨linksOK_upd b2.links rfl rfl rfl, ⟨fun v hw' hr => ?_, fun v hw' hr => ?_⟩, fun v => ?_,
                fun v hw' => ?_, fun v hw' => ?_⟩, (g2.trans k1.mono).trans ⟨fun v => ?_, fun v => ?_, fun v => ?_⟩,
                fun _ => kept_of hred⟩
              all_goals by_cases hv : v = .app f ts
              all_goals first
                | (subst hv
                   simp only [upd_self] at *
                   first
                     | exact fun s hs e he _ _ => hirr s hs e he
                     | exact fun s hs e he _ => hirr s hs e he
                     | exact ⟨le_refl _, le_refl _⟩
                     | exact fun _ => hred
                     | exact id)
                | (rw [upd_ne hv] at *
                   first
                     | exact b2.dates.nf0 v hw' hr
                     | exact b2.dates.nf1 v hw' hr
                     | exact b2.past v
                     | exact b2.raw0 v hw'
                     | exact b2.raw1 v hw'
                     | exact id)
            · simp only [Prod.mk.injEq] at h
              obtain ⟨rfl, rfl⟩ := h
              exact ⟨b2, g2.trans k1.mono, fun _ => kept_of hred⟩

theorem clauseIsRewritable_ok : ∀ (C : List RLit) {st : RWSt} {res : Bool} {st' : RWSt}, BackInv x D W S sets d st →
    (∀ L ∈ C, RLit.In W L) → RWCleanC x sets st C → clauseIsRewritable x d d.date st C = (res, st') →
    BackInv x D W S sets d st' ∧ FlagsMono st st' ∧ (res = false → ∀ L ∈ C, KeptLit x d L) := by
  intro C
  induction C with
  | nil =>
    intro st res st' hi _ _ h
    simp only [clauseIsRewritable, Prod.mk.injEq] at h
    obtain ⟨rfl, rfl⟩ := h
    exact ⟨hi, .refl _, by simp⟩
  | cons L C ih =>
    intro st res st' hi hw hcl h
    simp only [clauseIsRewritable] at h
    cases h1 : termIsRewritable x d d.date st L.lit.l (L.maximal && L.lit.pos && L.oriented) with
    | mk r1 st1 =>
      simp only [h1] at h
      have hwL := hw L (by simp)
      obtain ⟨a1, a2, a3⟩ := termIsRewritable_ok hL hD _ hi hwL.1 (fun s hs => hcl L (by simp) s (.inl hs)) h1
      cases h2 : termIsRewritable x d d.date st1 L.lit.r false with
      | mk r2 st2 =>
        simp only [h2] at h
        obtain ⟨b1, b2, b3⟩ := termIsRewritable_ok hL hD _ a1 hwL.2
          (fun s hs => clean_mono a2 (hcl L (by simp) s (.inr hs))) h2
        cases h3 : clauseIsRewritable x d d.date st2 C with
        | mk r3 st3 =>
          simp only [h3, Prod.mk.injEq] at h
          obtain ⟨rfl, rfl⟩ := h
          obtain ⟨c1, c2, c3⟩ := ih b1 (fun M hM => hw M (by simp [hM]))
            (fun M hM s hs => clean_mono (a2.trans b2) (hcl M (by simp [hM]) s hs)) h3
          refine ⟨c1, (a2.trans b2).trans c2, fun e M hM => ?_⟩
          simp only [Bool.or_eq_false_iff] at e
          rcases List.mem_cons.1 hM with rfl | hM
          · exact ⟨a3 e.1.1, by simpa [Kept] using b3 e.1.2⟩
          · exact c3 e.2 M hM

theorem findRewritable_ok : ∀ (Cs : List (List RLit)) {st : RWSt} {out : List (List RLit)} {st' : RWSt}, BackInv x D W S sets d st →
    (∀ C ∈ Cs, ∀ L ∈ C, RLit.In W L) → (∀ C ∈ Cs, RWCleanC x sets st C) → findRewritableClauses x d d.date st Cs = (out, st') →
    BackInv x D W S sets d st' ∧ FlagsMono st st' ∧ (∀ C ∈ out, C ∈ Cs) ∧ ∀ C ∈ Cs, C ∉ out → ∀ L ∈ C, KeptLit x d L := by
  intro Cs
  induction Cs with
  | nil =>
    intro st out st' hi _ _ h
    simp only [findRewritableClauses, Prod.mk.injEq] at h
    obtain ⟨rfl, rfl⟩ := h
    exact ⟨hi, .refl _, by simp, by simp⟩
  | cons C Cs ih =>
    intro st out st' hi hw hcl h
    simp only [findRewritableClauses] at h
    cases h1 : clauseIsRewritable x d d.date st C with
    | mk r1 st1 =>
      simp only [h1] at h
      obtain ⟨a1, a2, a3⟩ := clauseIsRewritable_ok hL hD C hi (hw C (by simp)) (hcl C (by simp)) h1
      cases h2 : findRewritableClauses x d d.date st1 Cs with
      | mk o2 st2 =>
        simp only [h2, Prod.mk.injEq] at h
        obtain ⟨rfl, rfl⟩ := h
        obtain ⟨b1, b2, b3, b4⟩ := ih a1 (fun E hE => hw E (by simp [hE]))
          (fun E hE M hM s hs => clean_mono a2 (hcl E (by simp [hE]) M hM s hs)) h2
        refine ⟨b1, a2.trans b2, fun E hE => ?_, fun E hE hn => ?_⟩
        · cases r1 with
          | true =>
            simp only [if_true, List.mem_cons] at hE ⊢
            exact hE.imp id (b3 E)
          | false => exact List.mem_cons_of_mem _ (b3 E hE)
        · rcases List.mem_cons.1 hE with rfl | hE
          · cases r1 with
            | true => simp at hn
            | false => exact a3 rfl
          · refine b4 E hE fun hm => hn ?_
            cases r1 with
            | true => simp [hm]
            | false => exact hm

end

/-! ### The invariant when demodulators come and go -/

theorem backInv_start {sets : List DSet} {d : Demod} {st : RWSt} (h : RWInv x D W S sets st) (hd : maxDate sets < d.date) :
    BackInv x D W S sets d st := by
  refine ⟨h.links, h.dates, fun t => ?_, fun t _ he => ?_, fun t _ he => ?_⟩
  · have := h.past t; omega
  · have := h.past t; omega
  · have := h.past t; omega

/-- After the search the new demodulator may be added to the sets. -/
theorem rwInv_of_back {sets sets' : List DSet} {d : Demod} {st : RWSt} (h : BackInv x D W S sets d st)
    (hm : ∀ s ∈ sets', ∀ e ∈ s.mem, e = d ∨ ∃ s ∈ sets, e ∈ s.mem) (hd : d.date ≤ maxDate sets') :
    RWInv x D W S sets' st := by
  refine ⟨h.links, ⟨fun t hw hr s hs e he ho hle => ?_, fun t hw hr s hs e he hle => ?_⟩, fun t => ?_⟩
  · rcases hm s hs e he with rfl | ⟨s', hs', he'⟩
    · exact h.raw0 t hw (by have := h.past t; omega)
    · exact h.dates.nf0 t hw hr s' hs' e he' ho hle
  · rcases hm s hs e he with rfl | ⟨s', hs', he'⟩
    · exact h.raw1 t hw (by have := h.past t; omega)
    · exact h.dates.nf1 t hw hr s' hs' e he' hle
  · have := h.past t; omega

theorem rwInv_sub {sets sets' : List DSet} {st : RWSt} (h : RWInv x D W S sets st)
    (hm : ∀ s ∈ sets', ∀ e ∈ s.mem, ∃ s ∈ sets, e ∈ s.mem) (hd : maxDate sets ≤ maxDate sets') : RWInv x D W S sets' st := by
  refine ⟨h.links, ⟨fun t hw hr s hs e he => ?_, fun t hw hr s hs e he => ?_⟩, fun t => ?_⟩
  · obtain ⟨s', hs', he'⟩ := hm s hs e he
    exact h.dates.nf0 t hw hr s' hs' e he'
  · obtain ⟨s', hs', he'⟩ := hm s hs e he
    exact h.dates.nf1 t hw hr s' hs' e he'
  · have := h.past t; omega

end RewriteProof
end Verif
