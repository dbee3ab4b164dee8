import Verif.Clauses.SplitSem

/-!
# C28: splitting preserves satisfiability

Model: `Verif.Clauses.Split`; specification: `Verif.Clauses.SplitSpec`.
-/

namespace Verif.Props
open Verif Interp SemProof SplitProof

universe u

variable {x : SplitCtx}

/-- Variables of a part. -/
def partVars (b : List OLit) : List Nat := cvars (OLit.plain b)

theorem split_some {marked : Bool} {how : SplitHow} {fresh : Bool} {sv : List Nat} {C : List OLit} {st : SplitSt}
    {r : List (List Lit) × List Lit × SplitSt} (h : x.split marked how fresh sv C st = some r) :
    C ≠ [] ∧ 1 < (splitParts how sv C).length ∧ r = x.defineAll fresh sv (splitParts how sv C) st [] := by
  unfold SplitCtx.split at h
  split at h
  · cases h
  · rename_i hc
    dsimp only at h
    split at h
    · rename_i hl
      refine ⟨?_, hl, (Option.some.inj h).symm⟩
      rintro rfl
      exact hc (Or.inl (by simp))
    · cases h

/-- C28, the parts: if a clause is split, there are at least two parts, none is empty, every literal of the clause is in
exactly one part, and different parts share no variables other than the split variables. -/
theorem split_parts {marked : Bool} {how : SplitHow} {fresh : Bool} {sv : List Nat} {C : List OLit} {st : SplitSt}
    {r : List (List Lit) × List Lit × SplitSt} (h : x.split marked how fresh sv C st = some r) :
    2 ≤ (splitParts how sv C).length ∧
    (splitParts how sv C).flatten.Perm C ∧
    (∀ b ∈ splitParts how sv C, b ≠ []) ∧
    (splitParts how sv C).Pairwise fun a b => ∀ y ∈ partVars a, y ∈ partVars b → y ∈ sv := by
  obtain ⟨h1, h2, -⟩ := split_some h
  have hinv := ((TInv.init how sv C).resolve_right h1).loop
  have hlen : 1 < (splitTable how sv C).2 := by simpa [splitParts] using h2
  change TInv sv C (splitTable how sv C).2 (splitTable how sv C).1 ∧ ∀ e ∈ (splitTable how sv C).1, e.part ≠ 0 at hinv
  obtain ⟨hi, h0⟩ := hinv
  refine ⟨h2, ?_, ?_, ?_⟩
  · have := parts_perm h0 (n := (splitTable how sv C).2) (fun e he => by have := hi.bound e he; omega)
    rwa [hi.lits] at this
  · intro b hb
    obtain ⟨i, hi', rfl⟩ := List.mem_map.1 hb
    obtain ⟨e, he, hp⟩ := hi.used (i + 1) (by omega) (by have := List.mem_range.1 hi'; omega)
    have : e.lit ∈ assemblePart (splitTable how sv C).1 (i + 1) := by
      simp only [assemblePart, List.mem_reverse, List.mem_map, List.mem_filter]
      exact ⟨e, ⟨he, by simpa using hp⟩, rfl⟩
    exact List.ne_nil_of_mem this
  · unfold splitParts
    rw [List.pairwise_map]
    refine List.Pairwise.imp ?_ (List.nodup_range : (List.range _).Nodup)
    intro i j hij y hy hy'
    have key : ∀ k, y ∈ partVars (assemblePart (splitTable how sv C).1 (k + 1)) → y ∉ sv →
        ∃ e ∈ (splitTable how sv C).1, e.part = k + 1 ∧ y ∈ LitDesc.own sv e.lit := by
      intro k hk hsv
      simp only [partVars, cvars, OLit.plain, assemblePart, List.mem_flatMap, List.mem_map, List.mem_reverse,
        List.mem_filter] at hk
      obtain ⟨_, ⟨_, ⟨e, ⟨he, hp⟩, rfl⟩, rfl⟩, hy⟩ := hk
      exact ⟨e, he, by simpa using hp, List.mem_filter.2 ⟨hy, by simpa using hsv⟩⟩
    by_contra hsv
    obtain ⟨e, he, hp, hm⟩ := key i hy hsv
    obtain ⟨e', he', hp', hm'⟩ := key j hy' hsv
    exact hi.disj e he e' he' (by omega) (by omega) y hm hm'

/-- Instances of the parts that are false separately are false together. -/
theorem combine {sg : Sig} (I : Interp.{u} sg) (sv : List Nat) {v : Nat → I.D} (hv : I.Sorted v) (bs : List (List OLit))
    (hd : bs.Pairwise fun a b => ∀ y ∈ partVars a, y ∈ partVars b → y ∈ sv)
    (h : ∀ b ∈ bs, ∃ v', I.Sorted v' ∧ (∀ y ∈ sv, v' y = v y) ∧ ¬ I.ClauseTrue v' (OLit.plain b)) :
    ∃ w, I.Sorted w ∧ (∀ y ∈ sv, w y = v y) ∧ (∀ y, (∀ b ∈ bs, y ∉ partVars b) → w y = v y) ∧
      ∀ b ∈ bs, ¬ I.ClauseTrue w (OLit.plain b) := by
  classical
  have congr : ∀ (C : List OLit) (w w' : Nat → I.D), (∀ y ∈ partVars C, w y = w' y) →
      I.ClauseTrue w (OLit.plain C) → I.ClauseTrue w' (OLit.plain C) := by
    rintro C w w' he ⟨L, hL, ht⟩
    refine ⟨L, hL, ?_⟩
    have h1 : ∀ y ∈ L.l.vars ++ L.r.vars, w y = w' y := fun y hy =>
      he y (List.mem_flatMap.2 ⟨L, hL, hy⟩)
    unfold LitTrue at ht ⊢
    rw [← eval_congr I fun y hy => h1 y (by simp [hy]), ← eval_congr I (t := L.r) fun y hy => h1 y (by simp [hy])]
    exact ht
  induction bs with
  | nil => exact ⟨v, hv, fun _ _ => rfl, fun _ _ => rfl, by simp⟩
  | cons b bs ih =>
    rw [List.pairwise_cons] at hd
    obtain ⟨w, w1, w2, w3, w4⟩ := ih hd.2 fun b hb => h b (by simp [hb])
    obtain ⟨v', q1, q2, q3⟩ := h b (by simp)
    refine ⟨fun y => if y ∈ partVars b then v' y else w y, fun y => ?_, fun y hy => ?_, fun y hy => ?_, ?_⟩
    · dsimp only; split
      · exact q1 y
      · exact w1 y
    · dsimp only; split
      · exact q2 y hy
      · exact w2 y hy
    · have := hy b (by simp)
      simp only [this, if_false]
      exact w3 y fun c hc => hy c (by simp [hc])
    · intro c hc
      rcases List.mem_cons.1 hc with rfl | hc
      · exact fun ht => q3 (congr c _ v' (fun y hy => by simp [hy]) ht)
      · refine fun ht => w4 c hc (congr c _ w (fun y hy => ?_) ht)
        by_cases hyb : y ∈ partVars b
        · simp only [hyb, if_true]
          have hs := hd.1 c hc y hyb hy
          rw [q2 y hs, w2 y hs]
        · simp [hyb]

theorem parts_wt {C : List OLit} {bs : List (List OLit)} (hp : bs.flatten.Perm C) {Q : Lit → Prop}
    (h : ∀ L ∈ OLit.plain C, Q L) : ∀ b ∈ bs, ∀ L ∈ OLit.plain b, Q L := by
  intro b hb L hL
  obtain ⟨K, hK, rfl⟩ := List.mem_map.1 hL
  exact h _ (List.mem_map.2 ⟨K, hp.mem_iff.1 (List.mem_flatten.2 ⟨b, hb, hK⟩), rfl⟩)

/-- C28, from the results to the clause: the clauses produced, with the definition clauses of the store, imply the
original clause. -/
theorem split_entails (hs : SigOK x.sg) (hsrt : ∀ l, (x.srt l).Perm l) {marked : Bool} {how : SplitHow} {fresh : Bool}
    {sv : List Nat} {C : List OLit} {st st' : SplitSt} {news : List (List Lit)} {rest : List Lit}
    (hst : StInv x.sg st) (hC : x.sg.WTClause (OLit.plain C)) (hCb : ClauseBelow st.next (OLit.plain C))
    (h : x.split marked how fresh sv C st = some (news, rest, st')) (hd : DeclaredPreds x.sg st.next st'.next sv) :
    Entails.{u} x.sg (news ++ rest :: st.store.map storeClause) (OLit.plain C) ∧
    ∀ e ∈ st'.store, Entails.{u} x.sg (news ++ rest :: st.store.map storeClause) (storeClause e) := by
  obtain ⟨-, hperm, -, -⟩ := split_parts h
  obtain ⟨-, -, hr⟩ := split_some h
  have e1 : news = (x.defineAll fresh sv (splitParts how sv C) st []).1 := congrArg Prod.fst hr
  have e2 : rest = (x.defineAll fresh sv (splitParts how sv C) st []).2.1 := congrArg (fun r => r.2.1) hr
  have e3 : st' = (x.defineAll fresh sv (splitParts how sv C) st []).2.2 := congrArg (fun r => r.2.2) hr
  subst e1 e2 e3
  have key := fun (I : Interp.{u} x.sg) h1 h2 => defineAll_holds (fresh := fresh) (sv := sv) (join := []) hs hsrt hst (parts_wt hperm hC)
    (parts_wt (Q := fun L => L.l.SymsBelow _ ∧ L.r.SymsBelow _) hperm hCb) hd I h1 h2
  constructor
  · intro I hI v hv
    obtain ⟨-, k2⟩ := key I (fun e he => hI _ (by simp only [List.mem_append, List.mem_cons, List.mem_map]; exact Or.inr (Or.inr ⟨e, he, rfl⟩)))
      (fun C hC => hI C (by simp [hC]))
    rcases k2 v hv (hI _ (by simp) v hv) with ⟨L, hL, -⟩ | ⟨b, hb, L, hL, ht⟩
    · cases hL
    · obtain ⟨K, hK, rfl⟩ := List.mem_map.1 hL
      exact ⟨_, List.mem_map.2 ⟨K, hperm.mem_iff.1 (List.mem_flatten.2 ⟨b, hb, hK⟩), rfl⟩, ht⟩
  · intro e he I hI
    exact (key I (fun e he => hI _ (by simp only [List.mem_append, List.mem_cons, List.mem_map]; exact Or.inr (Or.inr ⟨e, he, rfl⟩)))
      (fun C hC => hI C (by simp [hC]))).1 e he

/-- C28, from the clause to the results: a model of the clause (in which the stored definitions hold) becomes a model of
all results by interpreting only the new predicates, and the stored definitions hold again. -/
theorem split_extends (hs : SigOK x.sg) (hsrt : ∀ l, (x.srt l).Perm l) {marked : Bool} {how : SplitHow} {fresh : Bool}
    {sv : List Nat} {C : List OLit} {st st' : SplitSt} {news : List (List Lit)} {rest : List Lit}
    (hst : StInv x.sg st) (hC : x.sg.WTClause (OLit.plain C)) (hCb : ClauseBelow st.next (OLit.plain C))
    (h : x.split marked how fresh sv C st = some (news, rest, st')) (hd : DeclaredPreds x.sg st.next st'.next sv)
    (hnew : NewPreds x.sg (CodesIn st.next st'.next)) (I : Interp.{u} x.sg) (hS : StoreTrue I st) (hI : I.Models (OLit.plain C)) :
    ∃ P, (∀ D ∈ news, (I.withPreds _ hnew P).Models D) ∧ (I.withPreds _ hnew P).Models rest ∧
      StoreTrue (I.withPreds _ hnew P) st' ∧
      ∀ D, ClauseBelow st.next D → ((I.withPreds _ hnew P).Models D ↔ I.Models D) := by
  obtain ⟨-, hperm, -, hdis⟩ := split_parts h
  obtain ⟨-, -, hr⟩ := split_some h
  have e1 : news = (x.defineAll fresh sv (splitParts how sv C) st []).1 := congrArg Prod.fst hr
  have e2 : rest = (x.defineAll fresh sv (splitParts how sv C) st []).2.1 := congrArg (fun r => r.2.1) hr
  have e3 : st' = (x.defineAll fresh sv (splitParts how sv C) st []).2.2 := congrArg (fun r => r.2.2) hr
  subst e1 e2 e3
  obtain ⟨P, p1, p2, -, p4⟩ := defineAll_model hs hsrt hst (parts_wt hperm hC)
    (parts_wt (Q := fun L => L.l.SymsBelow _ ∧ L.r.SymsBelow _) hperm hCb) hd hnew I hS
  have hsame : ∀ D, ClauseBelow st.next D → ((I.withPreds _ hnew P).Models D ↔ I.Models D) := fun D hD =>
    models_withPreds I hnew P codesIn_below hD
  refine ⟨P, p1, ?_, p2, hsame⟩
  have hJC := (hsame _ hCb).2 hI
  generalize I.withPreds _ hnew P = J at hJC p4 ⊢
  intro v hv
  by_contra hno
  have hall : ∀ b ∈ splitParts how sv C, ∃ v', J.Sorted v' ∧ (∀ y ∈ sv, v' y = v y) ∧ ¬ J.ClauseTrue v' (OLit.plain b) := by
    intro b hb
    obtain ⟨p, hp, hm, he⟩ := p4 b hb
    refine he v hv ?_
    rw [defLit_true (by omega) (by omega)]
    by_contra hf
    exact hno ⟨_, hm, (defLit_false (by omega) (by omega) _ _ _).2 hf⟩
  obtain ⟨w, w1, -, -, w4⟩ := combine J sv hv _ hdis hall
  obtain ⟨L, hL, ht⟩ := hJC w w1
  obtain ⟨K, hK, rfl⟩ := List.mem_map.1 hL
  obtain ⟨b, hb, hKb⟩ := List.mem_flatten.1 (hperm.mem_iff.2 hK)
  exact w4 b hb ⟨_, List.mem_map.2 ⟨K, hKb, rfl⟩, ht⟩

/-- The clauses produced are well typed and use only declared symbols. -/
theorem split_wt (hs : SigOK x.sg) (hsrt : ∀ l, (x.srt l).Perm l) {marked : Bool} {how : SplitHow} {fresh : Bool}
    {sv : List Nat} {C : List OLit} {st st' : SplitSt} {news : List (List Lit)} {rest : List Lit}
    (hst : StInv x.sg st) (hC : x.sg.WTClause (OLit.plain C)) (hCb : ClauseBelow st.next (OLit.plain C))
    (h : x.split marked how fresh sv C st = some (news, rest, st')) (hd : DeclaredPreds x.sg st.next st'.next sv) :
    st.next ≤ st'.next ∧ StInv x.sg st' ∧ ∀ D ∈ rest :: news, x.sg.WTClause D ∧ ClauseBelow st'.next D := by
  obtain ⟨-, hperm, -, -⟩ := split_parts h
  obtain ⟨-, -, hr⟩ := split_some h
  have e1 : news = (x.defineAll fresh sv (splitParts how sv C) st []).1 := congrArg Prod.fst hr
  have e2 : rest = (x.defineAll fresh sv (splitParts how sv C) st []).2.1 := congrArg (fun r => r.2.1) hr
  have e3 : st' = (x.defineAll fresh sv (splitParts how sv C) st []).2.2 := congrArg (fun r => r.2.2) hr
  subst e1 e2 e3
  have := defineAll_inv (fresh := fresh) (sv := sv) (join := []) hs hsrt hst (parts_wt hperm hC)
    (parts_wt (Q := fun L => L.l.SymsBelow _ ∧ L.r.SymsBelow _) hperm hCb) ⟨(by intro L hL; cases hL), (by intro L hL; cases hL)⟩ hd
  exact ⟨defineAll_next_le _ _ _ _ _, this.1, this.2⟩

theorem reach_inv (hs : SigOK x.sg) (hsrt : ∀ l, (x.srt l).Perm l) {keep : Prop} {n0 : Nat} (hn0 : 2 < n0) {S0 : List (List Lit)}
    {st : SplitSt} {S : List (List Lit)} (h : SplitReach.{u} x keep n0 S0 st S) :
    (∀ C ∈ S0, ClauseBelow n0 C) ∧ n0 ≤ st.next ∧ StInv x.sg st ∧ (∀ C ∈ S, x.sg.WTClause C ∧ ClauseBelow st.next C) ∧
    (keep → (∀ C ∈ S0, Entails.{u} x.sg S C) ∧ (∀ e ∈ st.store, Entails.{u} x.sg S (storeClause e))) ∧
    ∃ hnew : NewPreds x.sg (CodesIn n0 st.next), ∀ I : Interp.{u} x.sg, (∀ C ∈ S0, I.Models C) →
      ∃ P, (∀ C ∈ S, (I.withPreds _ hnew P).Models C) ∧ StoreTrue (I.withPreds _ hnew P) st := by
  induction h with
  | init h0 =>
    refine ⟨fun C hC => (h0 C hC).2, le_refl _, ⟨hn0, by simp, by simp, by simp⟩, h0,
      fun _ => ⟨fun C hC I hI => hI C hC, by simp⟩, ?_⟩
    have hnone : ∀ f, ¬ CodesIn n0 n0 f := fun f hf => by have := hf.1; have := hf.2; omega
    refine ⟨⟨hs, fun f hf => absurd hf (hnone f), hnone 1, hnone 2, fun f hf => absurd hf (hnone f)⟩, fun I hI => ?_⟩
    refine ⟨fun _ _ => True, ?_⟩
    rw [withPreds_none I _ _ hnone]
    exact ⟨hI, by intro e he; cases he⟩
  | derive _ hent hwt hbel ih =>
    obtain ⟨i0, i1, i2, i3, i4, hnew, i6⟩ := ih
    refine ⟨i0, i1, i2, ?_, fun hk => ⟨fun C hC I hI => (i4 hk).1 C hC I fun D hD => hI D (by simp [hD]),
      fun e he I hI => (i4 hk).2 e he I fun D hD => hI D (by simp [hD])⟩, hnew, fun I hI => ?_⟩
    · intro C hC
      rcases List.mem_cons.1 hC with rfl | hC
      · exact ⟨hwt, hbel⟩
      · exact i3 C hC
    · obtain ⟨P, h1, h2⟩ := i6 I hI
      refine ⟨P, fun C hC => ?_, h2⟩
      rcases List.mem_cons.1 hC with rfl | hC
      · exact hent _ h1
      · exact h1 C hC
  | remove _ hsub hred ih =>
    obtain ⟨i0, i1, i2, i3, i4, hnew, i6⟩ := ih
    refine ⟨i0, i1, i2, fun C hC => i3 C (hsub hC), fun hk => ⟨fun C hC I hI => (i4 hk).1 C hC I fun D hD => hred hk D hD I hI,
      fun e he I hI => (i4 hk).2 e he I fun D hD => hred hk D hD I hI⟩, hnew, fun I hI => ?_⟩
    obtain ⟨P, h1, h2⟩ := i6 I hI
    exact ⟨P, fun C hC => h1 C (hsub hC), h2⟩
  | @split st S1 S2 C marked how fresh sv news rest st' _ hsp hd hkeep ih =>
    obtain ⟨i0, i1, i2, i3, i4, hnew, i6⟩ := ih
    obtain ⟨hCw, hCb⟩ := i3 (OLit.plain C) (by simp)
    obtain ⟨w1, w2, w3⟩ := split_wt hs hsrt i2 hCw hCb hsp hd
    obtain ⟨t1, t2⟩ := split_entails.{u} hs hsrt i2 hCw hCb hsp hd
    have hmem : ∀ D ∈ S1 ++ S2, D ∈ S1 ++ OLit.plain C :: S2 := by
      intro D hD
      rcases List.mem_append.1 hD with hD | hD <;> simp [hD]
    -- the new set gives all premises of `split_entails`
    have hprem : keep → ∀ I : Interp.{u} x.sg, (∀ D ∈ news ++ rest :: (S1 ++ S2), I.Models D) →
        ∀ D ∈ news ++ rest :: st.store.map storeClause, I.Models D := by
      intro hk I hI E hE
      rcases List.mem_append.1 hE with hE | hE
      · exact hI E (by simp [hE])
      · rcases List.mem_cons.1 hE with rfl | hE
        · exact hI _ (by simp)
        · obtain ⟨e, he, rfl⟩ := List.mem_map.1 hE
          exact hkeep hk e he I fun D hD => hI D (by rcases List.mem_append.1 hD with hD | hD <;> simp [hD])
    have hnew2 : NewPreds x.sg (CodesIn st.next st'.next) :=
      { hs with
        ty := hd.ty
        notTrue := fun h => by have := h.1; have := i2.next; omega
        notFalse := fun h => by have := h.1; have := i2.next; omega
        notDistinct := hd.notDistinct }
    have hnew' : NewPreds x.sg (CodesIn n0 st'.next) :=
      { hs with
        ty := fun f hf => by
          rcases Nat.lt_or_ge f st.next with h | h
          · exact hnew.ty f ⟨hf.1, h⟩
          · exact hnew2.ty f ⟨h, hf.2⟩
        notTrue := fun h => by have := h.1; omega
        notFalse := fun h => by have := h.1; omega
        notDistinct := fun f hf => by
          rcases Nat.lt_or_ge f st.next with h | h
          · exact hnew.notDistinct f ⟨hf.1, h⟩
          · exact hnew2.notDistinct f ⟨h, hf.2⟩ }
    refine ⟨i0, by omega, w2, ?_, fun hk => ⟨?_, ?_⟩, hnew', ?_⟩
    · intro D hD
      rcases List.mem_append.1 hD with hD | hD
      · exact w3 D (by simp [hD])
      · rcases List.mem_cons.1 hD with rfl | hD
        · exact w3 _ (by simp)
        · exact ⟨(i3 D (hmem D hD)).1, below_mono w1 (i3 D (hmem D hD)).2⟩
    · intro D hD I hI
      refine (i4 hk).1 D hD I fun E hE => ?_
      rcases List.mem_append.1 hE with hE | hE
      · exact hI E (by simp [hE])
      · rcases List.mem_cons.1 hE with rfl | hE
        · exact t1 I (hprem hk I hI)
        · exact hI E (by simp [hE])
    · exact fun e he I hI => t2 e he I (hprem hk I hI)
    · intro I hI
      obtain ⟨P, h1, h2⟩ := i6 I hI
      obtain ⟨Q, q1, q2, q3, q4⟩ := split_extends hs hsrt i2 hCw hCb hsp hd hnew2 (I.withPreds _ hnew P) h2 (h1 _ (by simp))
      have hS : ∀ D ∈ S1 ++ S2, ((I.withPreds _ hnew P).withPreds _ hnew2 Q).Models D := fun D hD =>
        (q4 D (i3 D (hmem D hD)).2).2 (h1 D (hmem D hD))
      rw [withPreds_comp I i1 w1 hnew hnew2 hnew' P Q] at q1 q2 q3 hS
      refine ⟨_, fun D hD => ?_, q3⟩
      rcases List.mem_append.1 hD with hD | hD
      · exact q1 D hD
      · rcases List.mem_cons.1 hD with rfl | hD
        · exact q2
        · exact hS D hD

/-- C28 over whole runs, models are not lost: whatever is deduced, removed and split, every model of the original clauses
becomes a model of the current clauses by interpreting only predicates introduced since.  In particular, if the empty clause
is reached, the original clauses are unsatisfiable. -/
theorem split_run_sound (hs : SigOK x.sg) (hsrt : ∀ l, (x.srt l).Perm l) {keep : Prop} {n0 : Nat} (hn0 : 2 < n0)
    {S0 : List (List Lit)} {st : SplitSt} {S : List (List Lit)} (h : SplitReach.{u} x keep n0 S0 st S) :
    ∃ hnew : NewPreds x.sg (CodesIn n0 st.next), ∀ I : Interp.{u} x.sg, (∀ C ∈ S0, I.Models C) →
      ∃ P, ∀ C ∈ S, (I.withPreds _ hnew P).Models C := by
  obtain ⟨-, -, -, -, -, hnew, h6⟩ := reach_inv hs hsrt hn0 h
  refine ⟨hnew, fun I hI => ?_⟩
  obtain ⟨P, h1, -⟩ := h6 I hI
  exact ⟨P, h1⟩

/-- C28 over whole runs, both directions: if only redundant clauses are removed and definitions that are reused still follow from
the other clauses, the models of the original clauses are exactly the interpretations that become models of the current clauses by interpreting
the new predicates, and the current clauses imply the original ones.  Partial: that reused definitions still follow is assumed, and
`definition_split_again` shows that the code does not ensure it (with fresh definitions the assumption is empty). -/
theorem split_run_equisat_partial (hs : SigOK x.sg) (hsrt : ∀ l, (x.srt l).Perm l) {n0 : Nat} (hn0 : 2 < n0)
    {S0 : List (List Lit)} {st : SplitSt} {S : List (List Lit)} (h : SplitReach.{u} x True n0 S0 st S) :
    (∀ C ∈ S0, Entails.{u} x.sg S C) ∧
    ∃ hnew : NewPreds x.sg (CodesIn n0 st.next), ∀ I : Interp.{u} x.sg, (∀ C ∈ S0, I.Models C) ↔
      ∃ P, ∀ C ∈ S, (I.withPreds _ hnew P).Models C := by
  obtain ⟨h0, -, -, -, h4, hnew, h6⟩ := reach_inv hs hsrt hn0 h
  refine ⟨(h4 trivial).1, hnew, fun I => ⟨fun hI => ?_, fun ⟨P, hP⟩ C hC => ?_⟩⟩
  · obtain ⟨P, h1, -⟩ := h6 I hI
    exact ⟨P, h1⟩
  · exact (models_withPreds I hnew P codesIn_below (h0 C hC)).1 ((h4 trivial).1 C hC _ hP)

end Verif.Props

namespace Verif.Props
open Verif Interp SemProof SplitProof

/-! ## Definition clauses can be split again

`ClauseHasSplitLiteral` is meant to keep definition clauses from being split.  Because EPIsSplitLit is 65636, the test
fails as soon as the definition literal is marked as not strictly maximal. -/

/-- After `ClauseMarkMaximalTerms`, a definition literal that is smaller than the part it defines is no longer recognised. -/
theorem definition_literal_forgotten (cmp : Term → Term → Cmp) (lc : FLit → FLit → Cmp) {a : Term} {b : FLit} (hb : b.splitBit = false)
    (h : lc (genDefLit a true) (eqnOrient cmp b).2 = .lesser) :
    hasSplitLiteral [genDefLit a true, b] = true ∧
    hasSplitLiteral (markMaximalTerms cmp lc [genDefLit a true, b]) = false := by
  have h1 : (eqnOrient cmp (genDefLit a true)).2 = genDefLit a true := by simp [eqnOrient, genDefLit]
  have h2 : (eqnOrient cmp b).2.splitBit = false := by
    unfold eqnOrient
    split
    · exact hb
    · split <;> simp [FLit.swapSides, hb]
  have h3 : List.range [genDefLit a true, (eqnOrient cmp b).2].length = [0, 1] := by simp [List.range_succ]
  refine ⟨by simp [hasSplitLiteral, genDefLit], ?_⟩
  unfold markMaximalTerms maximalLiterals
  simp only [List.map_cons, List.map_nil, h1, h3]
  simp only [maxOuter, maxInner, List.getD_cons_zero, List.getD_cons_succ, h, clearAt, List.mapIdx_cons, List.mapIdx_nil,
    hasSplitLiteral, List.any_cons, List.any_nil]
  simp [h2]

namespace SplitAgain

/-- `$true` = 1, `$false` = 2, `a` = 3 (a constant), `r` = 4 and `s` = 5 (unary predicates); type 0 is Boolean. -/
def sg : Sig where
  vty _ := 1
  fty f := if f = 3 then 1 else 0
  fargs f := if f = 4 ∨ f = 5 then [1] else []
  distinct _ := false

def x : SplitCtx := { sg := sg, pp := fun _ => false, srt := id, idx := fun _ _ => true }

def r (t : Term) : OLit := { pos := true, l := .app 4 [t], r := tTrue, ori := false }
def s (t : Term) : OLit := { pos := true, l := .app 5 [t], r := tTrue, ori := false }
def d (p : Nat) (pos : Bool) : OLit := { pos := pos, l := .app p [], r := tTrue, ori := false }
def neg (L : OLit) : OLit := { L with pos := false }

def a : Term := .app 3 []

/-- `r(X) ∨ s(Y)`, `¬r(a)`, `¬s(a)`. -/
def S0 : List (List Lit) := [OLit.plain [r (.var 0), s (.var 1)], OLit.plain [neg (r a)], OLit.plain [neg (s a)]]

/-- The clause is split into `6 ∨ r(X)`, `7 ∨ s(Y)` and `¬7 ∨ ¬6`. -/
theorem first : x.split false .groundOne false [] [r (.var 0), s (.var 1)] ⟨6, []⟩ =
    some ([OLit.plain [d 6 true, r (.var 0)], OLit.plain [d 7 true, s (.var 1)]], OLit.plain [d 7 false, d 6 false],
      ⟨8, [([r (.var 0)], 6), ([s (.var 1)], 7)]⟩) := by decide +kernel

/-- The definition clause `6 ∨ r(X)` is split into `8 ∨ 6` and `¬6 ∨ ¬8`: the definition of `6` is used for `r(X)`, and lost. -/
theorem second : x.split false .groundOne false [] [d 6 true, r (.var 0)] ⟨8, [([r (.var 0)], 6), ([s (.var 1)], 7)]⟩ =
    some ([OLit.plain [d 8 true, d 6 true]], OLit.plain [d 6 false, d 8 false],
      ⟨9, [([r (.var 0)], 6), ([s (.var 1)], 7), ([d 6 true], 8)]⟩) := by decide +kernel

/-- `8 ∨ 6`, `¬6 ∨ ¬8`, `7 ∨ s(Y)`, `¬7 ∨ ¬6`, `¬r(a)`, `¬s(a)`. -/
def S2 : List (List Lit) :=
  [OLit.plain [d 8 true, d 6 true], OLit.plain [d 6 false, d 8 false], OLit.plain [d 7 true, s (.var 1)],
    OLit.plain [d 7 false, d 6 false], OLit.plain [neg (r a)], OLit.plain [neg (s a)]]

/-- Everything Boolean; `7` and `8` are true, `6`, `r` and `s` are false. -/
def I : Interp.{0} sg where
  D := Bool
  mem _ _ := True
  inhab _ := ⟨true, trivial⟩
  fn f _ := f == 1 || f == 7 || f == 8
  fn_mem _ _ _ := trivial
  tf := by decide
  bool2 d _ := by cases d <;> decide
  dist _ _ h := by simp [sg] at h

end SplitAgain

open SplitAgain in
/-- **C28 fails when a definition clause is split again and definitions are reused** (option `--split-reuse-defs`): starting from an
unsatisfiable clause set, two splits and nothing else lead to a satisfiable one.  The second split is the one
`ClauseHasSplitLiteral` should prevent (`definition_literal_forgotten`). -/
theorem definition_split_again : ∃ st, SplitReach.{0} x False 6 S0 st S2 ∧
    (∀ I : Interp.{0} sg, ¬ ∀ C ∈ S0, I.Models C) ∧ ∀ C ∈ S2, SplitAgain.I.Models C := by
  refine ⟨⟨9, [([r (.var 0)], 6), ([s (.var 1)], 7), ([d 6 true], 8)]⟩, ?_, ?_, ?_⟩
  · have hdecl : ∀ n m, 6 ≤ n → DeclaredPreds x.sg n m [] := fun n m hn =>
      ⟨fun f hf => by have h1 := hf.1; have : f ≠ 3 := by omega
                      simp [x, sg, this],
       fun f hf => by have h1 := hf.1; have h4 : f ≠ 4 := by omega
                      have h5 : f ≠ 5 := by omega
                      simp [x, sg, h4, h5],
       fun f _ => by simp [x, sg]⟩
    have h0 : SplitReach.{0} x False 6 S0 ⟨6, []⟩ S0 := by
      refine .init fun C hC => ?_
      simp only [S0, List.mem_cons, List.not_mem_nil, or_false] at hC
      rcases hC with rfl | rfl | rfl
      all_goals
        constructor <;> intro L hL <;>
        simp only [OLit.plain, List.map_cons, List.map_nil, List.mem_cons, List.not_mem_nil, or_false] at hL <;>
        (try rcases hL with rfl | rfl) <;> (try subst hL) <;>
        simp [Sig.WTLit, Sig.wt_app, Sig.WT, Sig.ty, x, sg, r, s, neg, a, tTrue, Term.symsBelow_app, Term.SymsBelow, Term.SymsBelowL, Sig.WTL]
    have h1 := SplitReach.split (S1 := []) h0 first (hdecl _ _ (by decide)) (fun h => h.elim)
    exact SplitReach.split (S1 := []) h1 second (hdecl _ _ (by decide)) (fun h => h.elim)
  · intro I hI
    obtain ⟨w, hw⟩ : ∃ w : Nat → I.D, I.Sorted w := ⟨fun y => (I.inhab (sg.vty y)).choose, fun y => (I.inhab (sg.vty y)).choose_spec⟩
    have hv : I.Sorted (fun _ => I.fn 3 []) := fun y => I.fn_mem 3 [] .nil
    obtain ⟨L, hL, ht⟩ := hI _ (by simp [S0]; exact Or.inl rfl) _ hv
    obtain ⟨L2, hL2, ht2⟩ := hI (OLit.plain [neg (r a)]) (by simp [S0]) w hw
    obtain ⟨L3, hL3, ht3⟩ := hI (OLit.plain [neg (s a)]) (by simp [S0]) w hw
    simp only [OLit.plain, List.map_cons, List.map_nil, List.mem_cons, List.not_mem_nil, or_false] at hL hL2 hL3
    subst hL2 hL3
    simp only [LitTrue, neg, r, s, a, Bool.false_eq_true, if_false] at ht2 ht3
    rcases hL with rfl | rfl
    · exact ht2 ht
    · exact ht3 ht
  · have heval : ∀ (v : Nat → SplitAgain.I.D) f ts, SplitAgain.I.eval v (.app f ts) = (f == 1 || f == 7 || f == 8) :=
      fun v f ts => eval_app SplitAgain.I v f ts
    intro C hC v _
    simp only [S2, List.mem_cons, List.not_mem_nil, or_false] at hC
    rcases hC with rfl | rfl | rfl | rfl | rfl | rfl
    all_goals
      simp [ClauseTrue, OLit.plain, LitTrue, d, r, s, neg, a, tTrue, heval v]
    all_goals rfl

/-! ## The order of literals matters

`find_free_literal` returns an index but is used as a truth value (CLAUSES/ccl_splitting.c:299): ground literals are split off
only if the first literal is ground. -/

open SplitAgain in
/-- `s(a) ∨ r(X)` is split with SplitGroundOne, `r(X) ∨ s(a)` is not. -/
theorem split_depends_on_order :
    (splitParts .groundOne [] [s a, r (.var 0)]).length = 2 ∧ (splitParts .groundOne [] [r (.var 0), s a]).length = 1 := by
  decide +kernel

/-! ## Examples -/

open SplitAgain in
/-- A history in which a definition is reused (the second clause is split with the definition of `r(X)` made for the first one) meets
the premises of `split_run_equisat_partial`. -/
example : ∃ st S, SplitReach.{0} x True 6
    [OLit.plain [r (.var 0), s (.var 1)], OLit.plain [r (.var 2), neg (s (.var 0))]] st S ∧ st.store.length = 3 ∧ S.length = 5 := by
    have hdecl : ∀ n m, 6 ≤ n → DeclaredPreds x.sg n m [] := fun n m hn =>
      ⟨fun f hf => by have h1 := hf.1; have : f ≠ 3 := by omega
                      simp [x, sg, this],
       fun f hf => by have h1 := hf.1; have h4 : f ≠ 4 := by omega
                      have h5 : f ≠ 5 := by omega
                      simp [x, sg, h4, h5],
       fun f _ => by simp [x, sg]⟩
    have h0 : SplitReach.{0} x True 6 [OLit.plain [r (.var 0), s (.var 1)], OLit.plain [r (.var 2), neg (s (.var 0))]] ⟨6, []⟩
        [OLit.plain [r (.var 0), s (.var 1)], OLit.plain [r (.var 2), neg (s (.var 0))]] := by
      refine .init fun C hC => ?_
      simp only [List.mem_cons, List.not_mem_nil, or_false] at hC
      rcases hC with rfl | rfl
      all_goals
        constructor <;> intro L hL <;>
        simp only [OLit.plain, List.map_cons, List.map_nil, List.mem_cons, List.not_mem_nil, or_false] at hL <;>
        rcases hL with rfl | rfl <;>
        simp [Sig.WTLit, Sig.wt_app, Sig.WT, Sig.ty, x, sg, r, s, neg, tTrue, Term.symsBelow_app, Term.SymsBelow]
    have h1 := SplitReach.split (S1 := []) h0 first (hdecl _ _ (by decide)) (fun _ e he => by cases he)
    have third : x.split false .groundOne false [] [r (.var 2), neg (s (.var 0))] ⟨8, [([r (.var 0)], 6), ([s (.var 1)], 7)]⟩ =
      some ([OLit.plain [d 8 true, neg (s (.var 0))]], OLit.plain [d 8 false, d 6 false],
        ⟨9, [([r (.var 0)], 6), ([s (.var 1)], 7), ([neg (s (.var 0))], 8)]⟩) := by decide +kernel
    have h3 := SplitReach.split (S1 := [_, _, _]) (S2 := []) h1 third (hdecl _ _ (by decide)) (fun _ e he => ?_)
    · exact ⟨_, _, h3, rfl, rfl⟩
    simp only [List.mem_cons, List.not_mem_nil, or_false] at he
    rcases he with rfl | rfl
    · exact fun I hI => hI _ (by simp; exact Or.inl rfl)
    · exact fun I hI => hI _ (by simp; exact Or.inr (Or.inl rfl))

/-- Splitting with a split variable: `r(X) ∨ s(X)` (two parts that share only `X`). -/
example : (SplitAgain.x.split false .groundFull false [0] [SplitAgain.r (.var 0), SplitAgain.s (.var 0)] ⟨6, []⟩).map Prod.fst =
    some [defLit 6 true [0] :: OLit.plain [SplitAgain.r (.var 0)], defLit 7 true [0] :: OLit.plain [SplitAgain.s (.var 0)]] := by
  decide +kernel

/-- A definition literal smaller than the part it defines (literals compared by KBO or any other ordering with `6 < r(X)`). -/
example : ∃ (cmp : Term → Term → Cmp) (lc : FLit → FLit → Cmp),
    lc (genDefLit (.app 6 []) true) (eqnOrient cmp { lit := ⟨true, .app 4 [.var 0], tTrue⟩ }).2 = .lesser :=
  ⟨fun s t => if s.size < t.size then .lesser else .greater,
    literalCompare .normal (fun s t => if s.size < t.size then .lesser else if t.size < s.size then .greater else if s = t then .equal
      else .uncomparable) (fun _ _ => .uncomparable), by decide +kernel⟩

end Verif.Props
