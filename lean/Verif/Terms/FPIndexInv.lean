import Verif.Terms.FPIndexKeys
import Mathlib.Data.List.Nodup

/-!
# The invariant of fingerprint indices
-/

namespace Verif.FPProof

variable {x : FPCtx} {β : Type}

/-- Computing the fingerprint does not change the static variables any more. -/
def Settled (x : FPCtx) (st : FPStat) (t : Term) : Prop := fpTouch x.pp x.kind st t = st

structure StatOK (st : FPStat) : Prop where
  f : st.frep = 0 ∨ GoodCode st.frep
  p : st.prep = 0 ∨ GoodCode st.prep

theorem touch_other {k : FPKind} (h : k ≠ .fpfp) (pp st t) : fpTouch pp k st t = st := by
  cases k <;> first | rfl | exact absurd rfl h

theorem touch_cases (x : FPCtx) (st : FPStat) (t : Term) : fpTouch x.pp x.kind st t = st ∨
    ∃ f ts, t = .app f ts ∧ x.kind = .fpfp ∧
      ((x.pp t = true ∧ st.prep = 0 ∧ fpTouch x.pp x.kind st t = { st with prep := (f : Int) }) ∨
       (x.pp t = false ∧ st.frep = 0 ∧ fpTouch x.pp x.kind st t = { st with frep := (f : Int) })) := by
  by_cases hk : x.kind = .fpfp
  · cases t with
    | var y => rw [hk]; exact Or.inl rfl
    | app f ts =>
      rw [hk]
      simp only [fpTouch]
      by_cases hp : x.pp (.app f ts) = true
      · rw [if_pos hp]
        by_cases h0 : st.prep = 0
        · rw [if_pos h0]
          exact Or.inr ⟨f, ts, rfl, trivial, Or.inl ⟨hp, h0, rfl⟩⟩
        · rw [if_neg h0]; exact Or.inl rfl
      · rw [if_neg hp]
        by_cases h0 : st.frep = 0
        · rw [if_pos h0]
          exact Or.inr ⟨f, ts, rfl, trivial, Or.inr ⟨by simpa using hp, h0, rfl⟩⟩
        · rw [if_neg h0]; exact Or.inl rfl
  · exact Or.inl (touch_other hk _ _ _)

theorem statOK_touch {st : FPStat} (h : StatOK st) {t : Term} (ht : FPTermOK x.ar t) : StatOK (fpTouch x.pp x.kind st t) := by
  rcases touch_cases x st t with h' | ⟨f, ts, rfl, _, ⟨_, _, h'⟩ | ⟨_, _, h'⟩⟩
  · rwa [h']
  · rw [h']; exact ⟨h.f, Or.inr (ok_good ht)⟩
  · rw [h']; exact ⟨Or.inr (ok_good ht), h.p⟩

/-- For an application, the representative of its class is set. -/
theorem settled_app {st : FPStat} (hk : x.kind = .fpfp) {f : Nat} {ts : List Term} (hf : 0 < f) :
    Settled x st (.app f ts) ↔ (if x.pp (.app f ts) then st.prep else st.frep) ≠ 0 := by
  unfold Settled
  rw [hk]
  simp only [fpTouch]
  cases st with
  | mk fr pr =>
    by_cases hp : x.pp (.app f ts) = true
    · simp only [hp, if_true]
      by_cases h0 : pr = 0
      · simp [h0]; omega
      · simp [h0]
    · simp only [hp]
      by_cases h0 : fr = 0
      · simp [h0]; omega
      · simp [h0]

theorem settled_touch {st : FPStat} {t : Term} (ht : FPTermOK x.ar t) : Settled x (fpTouch x.pp x.kind st t) t := by
  by_cases hk : x.kind = .fpfp
  · cases t with
    | var y => unfold Settled; rw [hk]; rfl
    | app f ts =>
      have hf := (ok_app.1 ht).1.1
      rw [settled_app hk hf]
      rcases touch_cases x st (.app f ts) with h' | ⟨g, us, he, _, ⟨h1, _, h'⟩ | ⟨h1, _, h'⟩⟩
      · rw [h']; exact (settled_app hk hf).1 h'
      · cases he; rw [h']; simp [h1]; omega
      · cases he; rw [h']; simp [h1]; omega
  · exact touch_other hk _ _ _

theorem settled_mono {st : FPStat} {t u : Term} (ht : FPTermOK x.ar t) (h : Settled x st t) :
    Settled x (fpTouch x.pp x.kind st u) t ∧
    fpKeyOf x.pp x.kind (fpTouch x.pp x.kind st u) t = fpKeyOf x.pp x.kind st t := by
  rcases touch_cases x st u with h' | ⟨g, us, rfl, hk, hc⟩
  · rw [h']; exact ⟨h, rfl⟩
  · cases t with
    | var y => unfold Settled; rw [hk]; exact ⟨rfl, rfl⟩
    | app f ts =>
      have hf := (ok_app.1 ht).1.1
      have hs := (settled_app hk hf).1 h
      rw [settled_app hk hf]
      have : (if x.pp (.app f ts) then (fpTouch x.pp x.kind st (.app g us)).prep else (fpTouch x.pp x.kind st (.app g us)).frep) =
          (if x.pp (.app f ts) then st.prep else st.frep) := by
        rcases hc with ⟨_, h0, h'⟩ | ⟨_, h0, h'⟩
        · rw [h']
          by_cases hp : x.pp (.app f ts) = true
          · simp [hp, h0] at hs
          · simp [hp]
        · rw [h']
          by_cases hp : x.pp (.app f ts) = true
          · simp [hp]
          · simp [hp, h0] at hs
      refine ⟨by rw [this]; exact hs, ?_⟩
      rw [hk] at this ⊢
      simp only [fpKeyOf, this]

theorem keyOf_other {k : FPKind} (h1 : k ≠ .fpfp) (h2 : k ≠ .dt) (pp st t) : fpKeyOf pp k st t = k.positions.map (fpSample t) := by
  cases k <;> first | rfl | exact absurd rfl h1 | exact absurd rfl h2

/-- Keys that can be stored. -/
def ValidKey (x : FPCtx) (st : FPStat) (path : List Int) : Prop :=
  ∃ t, FPTermOK x.ar t ∧ path = fpKeyOf x.pp x.kind st t

theorem validKey_prefixFree {st : FPStat} (p q : List Int) (h1 : ValidKey x st p) (h2 : ValidKey x st (p ++ q)) : q = [] := by
  obtain ⟨t, ht, rfl⟩ := h1
  obtain ⟨t', ht', he⟩ := h2
  by_cases hd : x.kind = .dt
  · rw [hd] at he
    have : pushFCodes t ++ q = pushFCodes t' ++ [] := by simpa [fpKeyOf] using he
    exact push_cancel t t' ht ht' _ _ this
  · have hl : ∀ u, (fpKeyOf x.pp x.kind st u).length = x.kind.positions.length := by
      intro u
      by_cases hf : x.kind = .fpfp
      · rw [hf]; cases u <;> rfl
      · rw [keyOf_other hf hd]; simp
    have := congrArg List.length he
    rw [List.length_append, hl, hl] at this
    exact List.length_eq_zero_iff.1 (by omega)

/-- The invariant. -/
structure IInv (x : FPCtx) (ix : FPIndex β) (S : Term → β → Prop) : Prop where
  wf : WF ix.tree
  stat : StatOK ix.st
  mem : ∀ path e, e ∈ ents ix.tree path ↔ S e.1 e.2 ∧ path = fpKeyOf x.pp x.kind ix.st e.1
  nodup : ∀ path, (ents ix.tree path).Nodup
  ok : ∀ t b, S t b → FPTermOK x.ar t ∧ Settled x ix.st t

theorem iinv_touch {ix : FPIndex β} {S} (h : IInv x ix S) {t : Term} (ht : FPTermOK x.ar t) :
    IInv x ⟨fpTouch x.pp x.kind ix.st t, ix.tree⟩ S := by
  refine ⟨h.wf, statOK_touch h.stat ht, fun path e => ?_, h.nodup, fun u b hu => ?_⟩
  · rw [h.mem path e]
    refine and_congr_right fun hS => ?_
    rw [(settled_mono (u := t) (h.ok _ _ hS).1 (h.ok _ _ hS).2).2]
  · exact ⟨(h.ok u b hu).1, (settled_mono (u := t) (h.ok _ _ hu).1 (h.ok _ _ hu).2).1⟩

theorem iinv_insert [DecidableEq β] {ix : FPIndex β} {S} (h : IInv x ix S) {t : Term} (ht : FPTermOK x.ar t) (b : β) :
    IInv x (fpInsert x ix t b) fun u c => S u c ∨ (u = t ∧ c = b) := by
  have h' := iinv_touch h ht
  have hst : Settled x (fpTouch x.pp x.kind ix.st t) t := settled_touch ht
  unfold fpInsert
  generalize fpTouch x.pp x.kind ix.st t = st at h' hst ⊢
  simp only
  refine ⟨wf_insert _ _ _ h'.wf, h'.stat, fun path e => ?_, fun path => ?_, fun u c hu => ?_⟩
  · simp only
    rw [ents_insert _ _ _ h'.wf]
    have hm := h'.mem path e
    simp only at hm
    by_cases hp : path = fpKeyOf x.pp x.kind st t
    · rw [if_pos hp]
      subst hp
      obtain ⟨u, c⟩ := e
      split
      · rename_i hin
        rw [hm]
        constructor
        · rintro ⟨h1, h2⟩; exact ⟨Or.inl h1, h2⟩
        · rintro ⟨h1 | ⟨rfl, rfl⟩, h2⟩
          · exact ⟨h1, h2⟩
          · exact (h'.mem _ _).1 hin
      · rw [List.mem_cons, hm, Prod.mk.injEq]
        constructor
        · rintro (⟨rfl, rfl⟩ | ⟨h1, h2⟩)
          · exact ⟨Or.inr ⟨rfl, rfl⟩, rfl⟩
          · exact ⟨Or.inl h1, h2⟩
        · rintro ⟨h1 | ⟨rfl, rfl⟩, h2⟩
          · exact Or.inr ⟨h1, h2⟩
          · exact Or.inl ⟨rfl, rfl⟩
    · rw [if_neg hp, hm]
      constructor
      · rintro ⟨h1, h2⟩; exact ⟨Or.inl h1, h2⟩
      · rintro ⟨h1 | ⟨h3, h4⟩, h2⟩
        · exact ⟨h1, h2⟩
        · exact absurd (h3 ▸ h2) hp
  · simp only
    rw [ents_insert _ _ _ h'.wf]
    split
    · split
      · exact h'.nodup _
      · rename_i hn
        exact List.nodup_cons.2 ⟨hn, h'.nodup _⟩
    · exact h'.nodup _
  · rcases hu with hu | ⟨rfl, rfl⟩
    · exact h'.ok u c hu
    · exact ⟨ht, hst⟩

theorem iinv_delete [DecidableEq β] {ix : FPIndex β} {S} (h : IInv x ix S) {t : Term} (ht : FPTermOK x.ar t) (del : β → Bool) :
    IInv x (fpDelete x ix t del) fun u c => S u c ∧ ¬ (u = t ∧ del c = true) := by
  have h' := iinv_touch h ht
  unfold fpDelete
  generalize fpTouch x.pp x.kind ix.st t = st at h' ⊢
  simp only
  rcases hf : ix.tree.find (fpKeyOf x.pp x.kind st t) with _ | p
  · refine ⟨h'.wf, h'.stat, fun path e => ?_, h'.nodup, fun u c hu => h'.ok u c hu.1⟩
    have hm := h'.mem path e
    simp only at hm ⊢
    rw [hm]
    constructor
    · rintro ⟨h1, h2⟩
      refine ⟨⟨h1, ?_⟩, h2⟩
      rintro ⟨h3, _⟩
      have : e ∈ ents ix.tree path := hm.2 ⟨h1, h2⟩
      rw [h2, h3, ents, hf] at this
      cases this
    · rintro ⟨⟨h1, _⟩, h2⟩; exact ⟨h1, h2⟩
  · have hp : ents ix.tree (fpKeyOf x.pp x.kind st t) = p := by rw [ents, hf]; rfl
    simp only
    generalize hp' : p.filter (fun e => !(decide (e.1 = t) && del e.2)) = p'
    have hmod := ents_modify (fun _ => p') _ _ h'.wf (by rw [hf]; rfl)
    have hwm := wf_modify (fun _ => p') (fpKeyOf x.pp x.kind st t) _ h'.wf
    simp only at hmod hwm
    generalize FPTree.modify (fun _ => p') (fpKeyOf x.pp x.kind st t) ix.tree = T at hmod hwm ⊢
    have hmem : ∀ path e, e ∈ ents T path ↔ (S e.1 e.2 ∧ ¬ (e.1 = t ∧ del e.2 = true)) ∧ path = fpKeyOf x.pp x.kind st e.1 := by
      intro path e
      have hm := h'.mem path e
      simp only at hm
      rw [hmod]
      by_cases hpath : path = fpKeyOf x.pp x.kind st t
      · rw [if_pos hpath, ← hp', List.mem_filter, ← hp, ← hpath, hm]
        simp only [Bool.not_eq_true', Bool.and_eq_false_iff, decide_eq_false_iff_not]
        constructor
        · rintro ⟨⟨h1, h2⟩, h3⟩
          refine ⟨⟨h1, ?_⟩, h2⟩
          rintro ⟨h4, h5⟩
          rcases h3 with h3 | h3
          · exact h3 h4
          · rw [h5] at h3; cases h3
        · rintro ⟨⟨h1, h3⟩, h2⟩
          refine ⟨⟨h1, h2⟩, ?_⟩
          by_cases h4 : e.1 = t
          · right
            by_contra h5
            exact h3 ⟨h4, by simpa using h5⟩
          · exact Or.inl h4
      · rw [if_neg hpath, hm]
        constructor
        · rintro ⟨h1, h2⟩
          exact ⟨⟨h1, fun h3 => hpath (h3.1 ▸ h2)⟩, h2⟩
        · rintro ⟨⟨h1, _⟩, h2⟩; exact ⟨h1, h2⟩
    have hnd : ∀ path, (ents T path).Nodup := by
      intro path
      rw [hmod]
      split
      · rw [← hp', ← hp]; exact (h'.nodup _).filter _
      · exact h'.nodup _
    by_cases he : p'.isEmpty = true
    · simp only [he, if_true]
      have hd := ents_rekDelete (fpKeyOf x.pp x.kind st t) T (ValidKey x st) hwm validKey_prefixFree ⟨t, ht, rfl⟩
        (fun path hne => by
          obtain ⟨e, hm⟩ := List.exists_mem_of_ne_nil _ hne
          obtain ⟨⟨h1, _⟩, h2⟩ := (hmem path e).1 hm
          exact ⟨e.1, (h'.ok _ _ h1).1, h2⟩)
        (by rw [hmod, if_pos rfl]; exact List.isEmpty_iff.1 he)
      refine ⟨wf_rekDelete _ _ hwm, h'.stat, fun path e => ?_, fun path => ?_, fun u c hu => h'.ok u c hu.1⟩
      · simp only; rw [hd.1]; exact hmem path e
      · simp only; rw [hd.1]; exact hnd path
    · simp only [he]
      exact ⟨hwm, h'.stat, hmem, hnd, fun u c hu => h'.ok u c hu.1⟩

theorem reach_inv [DecidableEq β] {ix : FPIndex β} {S} (h : FPReach x ix S) : IInv x ix S := by
  induction h with
  | alloc =>
    refine ⟨wf_empty, ⟨Or.inl rfl, Or.inl rfl⟩, fun path e => ?_, fun path => ?_, fun _ _ h => h.elim⟩
    · rw [show (FPIndex.alloc {} : FPIndex β).tree = FPTree.empty from rfl, ents_empty]; simp
    · rw [show (FPIndex.alloc {} : FPIndex β).tree = FPTree.empty from rfl, ents_empty]; exact List.nodup_nil
  | insert t b _ ht ih => exact iinv_insert ih ht b
  | delete t del _ ht ih => exact iinv_delete ih ht del
  | query_unif t _ ht ih => exact iinv_touch ih ht
  | query_match t _ ht ih => exact iinv_touch ih ht
  | other t _ ht ih => exact iinv_touch ih ht

/-- The payloads picked from an index, as entries. -/
theorem mem_picked {ix : FPIndex β} {S} (h : IInv x ix S) {g : List Int → Bool} {R : List (List (Term × β))} (hR : R.Perm (pick g ix.tree))
    {t : Term} {b : β} : (t, b) ∈ R.flatten ↔ S t b ∧ g (fpKeyOf x.pp x.kind ix.st t) = true := by
  rw [(hR.flatten).mem_iff, List.mem_flatten]
  constructor
  · rintro ⟨p, hp, hm⟩
    obtain ⟨path, hf, hg⟩ := (mem_pick h.wf).1 hp
    have : (t, b) ∈ ents ix.tree path := by rw [ents, hf]; exact hm
    obtain ⟨h1, h2⟩ := (h.mem _ _).1 this
    exact ⟨h1, by rw [← h2]; exact hg⟩
  · rintro ⟨h1, h2⟩
    have := (h.mem _ (t, b)).2 ⟨h1, rfl⟩
    rcases hf : ix.tree.find (fpKeyOf x.pp x.kind ix.st t) with _ | p
    · rw [ents, hf] at this; cases this
    · rw [ents, hf] at this
      exact ⟨p, (mem_pick h.wf).2 ⟨_, hf, h2⟩, this⟩

mutual
theorem leaves_nodup {α : Type} : ∀ T : FPTree α, WF T → ((leaves T).map (·.1)).Nodup
  | .node a c p, h => by
    rw [leaves, List.map_cons, List.nodup_cons]
    refine ⟨?_, leavesL_nodup a h.asc fun i t hm => h.child (mem_get a i t h.asc hm)⟩
    rw [leavesL_eq]
    simp
theorem leavesL_nodup {α : Type} : ∀ a : FPAlts α, Asc a → (∀ i t, (i, t) ∈ a.toList → WF t) → ((leavesL a).map (·.1)).Nodup
  | .nil, _, _ => by simp [leavesL]
  | .cons k t r, ha, h => by
    obtain ⟨h1, h2⟩ := asc_cons.1 ha
    rw [leavesL, List.map_append, List.nodup_append]
    refine ⟨?_, leavesL_nodup r h2 fun i u hm => h i u (by simp [FPAlts.toList, hm]), ?_⟩
    · rw [List.map_map]
      have := leaves_nodup t (h k t (by simp [FPAlts.toList]))
      rw [show ((fun x : List Int × List α => x.1) ∘ fun e : List Int × List α => (k :: e.1, e.2)) = (fun q => k :: q) ∘ fun e : List Int × List α => e.1 from rfl, ← List.map_map]
      exact List.Nodup.map (fun a b hab => (List.cons.inj hab).2) this
    · intro p1 hp1 p2 hp2 he
      subst he
      obtain ⟨e1, he1, rfl⟩ := List.mem_map.1 hp1
      obtain ⟨e1', _, rfl⟩ := List.mem_map.1 he1
      obtain ⟨e2, he2, he⟩ := List.mem_map.1 hp2
      rw [leavesL_eq] at he2
      obtain ⟨kt, hkt, he2⟩ := List.mem_flatMap.1 he2
      obtain ⟨e2', _, rfl⟩ := List.mem_map.1 he2
      have := h1 kt.1 (List.mem_map.2 ⟨kt, hkt, rfl⟩)
      simp only [List.cons.injEq] at he
      omega
end

theorem picked_nodup {ix : FPIndex β} {S} (h : IInv x ix S) {g : List Int → Bool} {R : List (List (Term × β))} (hR : R.Perm (pick g ix.tree)) :
    R.flatten.Nodup := by
  rw [hR.flatten.nodup_iff]
  unfold pick
  rw [List.nodup_flatten]
  have hl := leaves_nodup ix.tree h.wf
  refine ⟨fun p hp => ?_, ?_⟩
  · obtain ⟨e, he, rfl⟩ := List.mem_map.1 hp
    have := (mem_leaves e.1 ix.tree e.2 h.wf).1 (List.mem_filter.1 he).1
    have hn := h.nodup e.1
    rwa [ents, this] at hn
  · rw [List.pairwise_map]
    refine List.Pairwise.filter _ ?_
    have hl' : (leaves ix.tree).Pairwise fun a b => a.1 ≠ b.1 := List.pairwise_map.1 hl
    refine hl'.imp_of_mem ?_
    intro a b ha hb hne
    rw [List.disjoint_left]
    intro e h1 h2
    have fa := (mem_leaves a.1 ix.tree a.2 h.wf).1 ha
    have fb := (mem_leaves b.1 ix.tree b.2 h.wf).1 hb
    have ea := (h.mem a.1 e).1 (by rw [ents, fa]; exact h1)
    have eb := (h.mem b.1 e).1 (by rw [ents, fb]; exact h2)
    exact hne (ea.2.trans eb.2.symm)

/-- What a search for unification partners returns. -/
theorem find_unif {ix : FPIndex β} (h : WF ix.tree) (q : Term) : ∃ g : List Int → Bool,
    (fpFindUnifiable x ix q).1.Perm (pick g ix.tree) ∧
    g = (if x.kind = .dt then fun path => dtAccU (symUnifiesVar x.isPred) x.ar path (fpKeyOf x.pp x.kind (fpTouch x.pp x.kind ix.st q) q) 0
      else accept (compatU (symUnifiesVar x.isPred)) (fpKeyOf x.pp x.kind (fpTouch x.pp x.kind ix.st q) q)) := by
  refine ⟨_, ?_, rfl⟩
  unfold fpFindUnifiable
  simp only
  split
  · exact dtUnif_perm _ _ _ h _ _
  · exact findUnif_perm _ _ _ h

theorem find_match {ix : FPIndex β} (h : WF ix.tree) (q : Term) : ∃ g : List Int → Bool,
    (fpFindMatchable x ix q).1.Perm (pick g ix.tree) ∧
    g = (if x.kind = .dt then fun path => dtAccM (symUnifiesVar x.isPred) x.ar path (fpKeyOf x.pp x.kind (fpTouch x.pp x.kind ix.st q) q) 0
      else accept (compatM (symUnifiesVar x.isPred)) (fpKeyOf x.pp x.kind (fpTouch x.pp x.kind ix.st q) q)) := by
  refine ⟨_, ?_, rfl⟩
  unfold fpFindMatchable
  simp only
  split
  · exact dtMatch_perm _ _ _ h _ _
  · exact findMatch_perm _ _ _ h

/-- The sample of `fp` for a settled first-order term. -/
theorem fpfp_key (hx : x.OK) (hk : x.kind = .fpfp) {st : FPStat} (hs : StatOK st) {f : Nat} {ts : List Term} (ht : FPTermOK x.ar (.app f ts))
    (h : Settled x st (.app f ts)) : ∃ k, GoodCode k ∧ ∀ us, fpKeyOf x.pp x.kind st (.app f us) = [k] := by
  have h0 := (settled_app hk (ok_app.1 ht).1.1).1 h
  refine ⟨if x.pp (.app f ts) then st.prep else st.frep, ?_, fun us => ?_⟩
  · split at h0
    · rename_i hp; rw [if_pos hp]; exact hs.p.resolve_left h0
    · rename_i hp; rw [if_neg hp]; exact hs.f.resolve_left h0
  · rw [hk]
    simp only [fpKeyOf]
    rw [hx hk f us ts]

theorem accept_unif (hx : x.OK) {st : FPStat} (hs : StatOK st) {q t : Term} (hq : FPTermOK x.ar q) (ht : FPTermOK x.ar t)
    (hsq : Settled x st q) (hst : Settled x st t) {σ τ : Nat → Term} (he : t.subst σ = q.subst τ) (hc : FPTermOK x.ar (q.subst τ)) :
    (if x.kind = .dt then fun path => dtAccU (symUnifiesVar x.isPred) x.ar path (fpKeyOf x.pp x.kind st q) 0
      else accept (compatU (symUnifiesVar x.isPred)) (fpKeyOf x.pp x.kind st q)) (fpKeyOf x.pp x.kind st t) = true := by
  split
  · rename_i hd
    rw [hd]
    have := accU_term (isPred := x.isPred) σ τ q t hq ht he [] [] (by simp [dtAccU])
    simpa [fpKeyOf] using this
  · rename_i hd
    by_cases hf : x.kind = .fpfp
    · cases q with
      | var y =>
        cases t with
        | var z => rw [hf]; rfl
        | app g us =>
          obtain ⟨k, hk, hkey⟩ := fpfp_key hx hf hs ht hst
          rw [hkey, hf]
          have := hk.1
          simp [fpKeyOf, accept, compatU, uv_of_good hk, anyVar, belowVar, notInTerm]
          omega
      | app f ts =>
        obtain ⟨k, hk, hkey⟩ := fpfp_key hx hf hs hq hsq
        rw [hkey]
        cases t with
        | var z => rw [hf]; simp [fpKeyOf, accept, compatU, uv_of_good hk, hk.1]
        | app g us =>
          rw [Term.subst_app, Term.subst_app, Term.app.injEq] at he
          rw [he.1, hkey]
          simp [accept, compatU, hk.1]
    · rw [keyOf_other hf hd, keyOf_other hf hd]
      exact accept_map (fun p => sample_compatU he hq ht hc p) _

theorem accept_match (hx : x.OK) {st : FPStat} (hs : StatOK st) {q t : Term} (hq : FPTermOK x.ar q) (ht : FPTermOK x.ar t)
    (hsq : Settled x st q) (hst : Settled x st t) {σ : Nat → Term} (he : t = q.subst σ) :
    (if x.kind = .dt then fun path => dtAccM (symUnifiesVar x.isPred) x.ar path (fpKeyOf x.pp x.kind st q) 0
      else accept (compatM (symUnifiesVar x.isPred)) (fpKeyOf x.pp x.kind st q)) (fpKeyOf x.pp x.kind st t) = true := by
  split
  · rename_i hd
    rw [hd]
    have := accM_term (isPred := x.isPred) σ q hq (he ▸ ht) [] [] (by simp [dtAccM])
    simpa [fpKeyOf, ← he] using this
  · rename_i hd
    by_cases hf : x.kind = .fpfp
    · cases q with
      | var y =>
        cases t with
        | var z => rw [hf]; rfl
        | app g us =>
          obtain ⟨k, hk, hkey⟩ := fpfp_key hx hf hs ht hst
          rw [hkey, hf]
          have := hk.1
          simp [fpKeyOf, accept, compatM, uv_of_good hk, anyVar, belowVar, notInTerm]
          omega
      | app f ts =>
        obtain ⟨k, hk, hkey⟩ := fpfp_key hx hf hs hq hsq
        rw [hkey]
        rw [he, Term.subst_app, hkey]
        simp [accept, compatM, hk.1]
    · rw [keyOf_other hf hd, keyOf_other hf hd]
      exact accept_map (fun p => sample_compatM he hq ht p) _

end Verif.FPProof
