import Verif.Clauses.FVIndexVec
import Verif.Clauses.FVIndexTree
import Mathlib.Data.List.Sort

/-!
# C31: the feature vector index
-/

namespace Verif.Props
open Verif Term FVProof

variable {sg : Sig} {pp : Term → Bool}

/-! ## Features -/

/-- C31: if the code finds that `C` subsumes `D`, then no feature of `C` exceeds that of `D`, for every kind of feature vector.  The
literals of `D` are well typed and no positive one has identical sides (`features_trivial_literal`). -/
theorem features_monotone (cs : FVCollect) {C D : List OLit} (hD : sg.WTClause (OLit.plain D)) (hn : NoTrivial D)
    (h : clauseSubsumes sg pp C D = true) :
    List.Forall₂ (· ≤ ·) (varFreqVec cs (fun _ => 0) (OLit.plain C)).1 (varFreqVec cs (fun _ => 0) (OLit.plain D)).1 :=
  varFreqVec_mono cs (subsumes_emb hD hn h)

/-- C31: the same if the literals of `C` are mapped to different literals of `D` by a substitution. -/
theorem features_monotone_instance (cs : FVCollect) {σ : Nat → Term} {C D : List Lit} (h : MapsInto σ C D) :
    List.Forall₂ (· ≤ ·) (varFreqVec cs (fun _ => 0) C).1 (varFreqVec cs (fun _ => 0) D).1 :=
  varFreqVec_mono cs (mapsInto_emb h)

/-- C31: the features do not depend on the order of the literals and of their sides. -/
theorem features_order (cs : FVCollect) {C D : List OLit} (h : SameLits C D) :
    varFreqVec cs (fun _ => 0) (OLit.plain C) = varFreqVec cs (fun _ => 0) (OLit.plain D) := by
  have := fvVector_same (cs := cs) (perm := none) (sameLits_emb h) (sameLits_emb (sameLits_symm h))
  simp only [fvVector, Prod.mk.injEq, Option.some.injEq] at this
  exact Prod.ext this.1 this.2

/-- C31: nothing is written outside of the vector, for the vectors with fixed layout and for those collected by a suitable specification. -/
theorem features_inside (cs : FVCollect) (hcs : cs.OK) (C : List Lit) (j : Nat) (hj : cs.len ≤ j) :
    (if cs.feat = .collect then (collectVec cs (fun _ => 0) C).1 j else addVals cs.feat cs.maxSymbols C j) = 0 := by
  unfold FVCollect.len at hj
  split
  · rename_i hf
    rw [if_pos hf] at hj
    exact collectVec_bound hcs hf C j hj
  · rename_i hf
    rw [if_neg hf] at hj
    exact addVals_bound _ _ C j hj

/-- Where a position goes. -/
theorem resIndex_cases {cs : FVCollect} {i r : Nat} (h : cs.resIndex i = some r) :
    (i < cs.assLen ∧ cs.ass i = some r) ∨
      ∃ q ∈ [cs.pc, cs.pd, cs.nc, cs.nd], q.2.2 ≠ 0 ∧ r = q.1 + (q.2.1 + i / 4) % q.2.2 := by
  unfold FVCollect.resIndex at h
  split at h
  · rename_i hi
    exact .inl ⟨hi, h⟩
  · right
    have key : ∀ q : Nat × Nat × Nat, (if q.2.2 ≠ 0 then some (q.1 + (q.2.1 + i / 4) % q.2.2) else none) = some r →
        q.2.2 ≠ 0 ∧ r = q.1 + (q.2.1 + i / 4) % q.2.2 := by
      intro q hq
      split at hq
      · rename_i hne
        exact ⟨hne, by simpa using hq.symm⟩
      · cases hq
    refine ⟨_, ?_, key (if i % 4 = 0 then cs.pc else if i % 4 = 1 then cs.pd else if i % 4 = 2 then cs.nc else cs.nd) h⟩
    split
    · simp
    · split
      · simp
      · split <;> simp

/-- C31: the default kind of vectors. -/
theorem acFold_ok (s : Nat) : (acFold s).OK := by
  refine ⟨fun _ _ => by simp [acFold], fun _ i r h => ?_⟩
  have := fun (a : Nat) (hs : s ≠ 0) => Nat.mod_lt a (Nat.pos_of_ne_zero hs)
  rcases resIndex_cases h with ⟨h1, -⟩ | ⟨q, hq, h1, rfl⟩
  · simp [acFold] at h1
  · simp only [acFold, List.mem_cons, List.not_mem_nil, or_false] at hq ⊢
    rcases hq with rfl | rfl | rfl | rfl
    · have := this (0 + i / 4) h1; simp only at *; omega
    · simp at h1
    · have := this (0 + i / 4) h1; simp only at *; omega
    · simp at h1

theorem acStagger_ok (s : Nat) : (acStagger s).OK := by
  refine ⟨fun _ _ => by simp [acStagger], fun _ i r h => ?_⟩
  have := fun (a : Nat) (hs : 2 * s ≠ 0) => Nat.mod_lt a (Nat.pos_of_ne_zero hs)
  rcases resIndex_cases h with ⟨h1, -⟩ | ⟨q, hq, h1, rfl⟩
  · simp [acStagger] at h1
  · simp only [acStagger, List.mem_cons, List.not_mem_nil, or_false] at hq ⊢
    rcases hq with rfl | rfl | rfl | rfl
    · have := this (0 + i / 4) h1; simp only at *; omega
    · simp at h1
    · have := this (2 + s + i / 4) h1; simp only at *; omega
    · simp at h1

theorem classical_ok (fe : FVFeat) (s : Nat) (h : fe ≠ .collect) : (classical fe s).OK :=
  ⟨fun h' => absurd h' h, fun h' => absurd h' h⟩

/-! ### Selecting the features of the most important symbols -/

theorem billLimit_spec (c len p f : Nat) (hc : c ≤ len) :
    (billLimit c len p f).1 ≤ p ∧ (billLimit c len p f).2 ≤ f ∧ c + 2 * (billLimit c len p f).1 + 4 * (billLimit c len p f).2 ≤ len := by
  fun_induction billLimit c len p f with
  | case1 p f h => exact ⟨Nat.le_refl _, Nat.le_refl _, h⟩
  | case2 p f h hp ih => obtain ⟨h1, h2, h3⟩ := ih; exact ⟨by omega, h2, h3⟩
  | case3 p f h hp hf ih => obtain ⟨h1, h2, h3⟩ := ih; exact ⟨h1, by omega, h3⟩
  | case4 p f h hp hf => omega

/-- The symbols from `i` on that are selected. -/
def selFrom (sel : Nat → Bool) (fcount i : Nat) : Nat := ((List.range (fcount + 1)).filter fun j => decide (i ≤ j) && sel j).length

theorem selFrom_step (sel : Nat → Bool) (fcount i : Nat) (hi : i ≤ fcount) :
    selFrom sel fcount i = (if sel i then 1 else 0) + selFrom sel fcount (i + 1) := by
  unfold selFrom
  have key : ∀ n, ((List.range n).filter fun j => decide (i ≤ j) && sel j).length =
      (if i < n ∧ sel i = true then 1 else 0) + ((List.range n).filter fun j => decide (i + 1 ≤ j) && sel j).length := by
    intro n
    induction n with
    | zero => simp
    | succ n ih =>
      rw [List.range_succ, List.filter_append, List.filter_append, List.length_append, List.length_append, ih,
        List.filter_cons, List.filter_nil, List.filter_cons, List.filter_nil]
      rcases Nat.lt_trichotomy i n with h | h | h
      · have h1 : i < n + 1 := by omega
        have h2 : i ≤ n := by omega
        have h3 : i + 1 ≤ n := by omega
        simp only [h, h1, h2, h3, decide_true, Bool.true_and, true_and]
        rw [Nat.add_assoc]
      · subst h
        have h1 : ¬ i + 1 ≤ i := by omega
        cases hs : sel i <;> simp [h1]
        omega
      · have : ¬ i ≤ n := by omega
        have h2 : ¬ i < n := by omega
        have h3 : ¬ i < n + 1 := by omega
        have h4 : ¬ i + 1 ≤ n := by omega
        simp [this, h2, h3, h4]
  rw [key]
  simp [Nat.lt_succ_of_le hi]

theorem selFrom_end (sel : Nat → Bool) (fcount i : Nat) (hi : fcount < i) : selFrom sel fcount i = 0 := by
  unfold selFrom
  rw [List.length_eq_zero_iff, List.filter_eq_nil_iff]
  intro j hj
  have := List.mem_range.1 hj
  have h : ¬ i ≤ j := by omega
  simp [h]

theorem billAssign_spec (sel : Nat → Bool) (w fcount : Nat) (fuel i n pos : Nat) (ass : Nat → Option Nat)
    (hn : n ≤ selFrom sel fcount i) (hf : fcount + 1 ≤ fuel + i) (ha : ∀ j r, ass j = some r → r < pos) :
    ∃ ass', billAssign sel w fcount fuel i n pos ass = some (pos + w * n, ass') ∧ ∀ j r, ass' j = some r → r < pos + w * n := by
  induction fuel generalizing i n pos ass with
  | zero =>
    have h0 : n = 0 := by rw [selFrom_end sel fcount i (by omega)] at hn; omega
    subst h0
    exact ⟨ass, by simp [billAssign], by simpa using ha⟩
  | succ fuel ih =>
    cases n with
    | zero => exact ⟨ass, by simp [billAssign], by simpa using ha⟩
    | succ n =>
      have hi : ¬ fcount < i := fun h => by rw [selFrom_end sel fcount i h] at hn; omega
      rw [selFrom_step sel fcount i (by omega)] at hn
      rw [billAssign, if_neg hi]
      by_cases hs : sel i = true
      · rw [if_pos hs]
        rw [if_pos hs] at hn
        obtain ⟨ass', h1, h2⟩ := ih (i + 1) n (pos + w) (fun j => if 4 * i ≤ j ∧ j < 4 * i + w then some (pos + (j - 4 * i)) else ass j)
          (by omega) (by omega) (fun j r hr => by
            split at hr
            · have : pos + (j - 4 * i) = r := by simpa using hr
              omega
            · have := ha j r hr; omega)
        have e : pos + w + w * n = pos + w * (n + 1) := by rw [Nat.mul_succ]; omega
        rw [e] at h1 h2
        exact ⟨ass', h1, h2⟩
      · rw [if_neg hs]
        rw [if_neg hs] at hn
        exact ih (i + 1) (n + 1) pos ass (by omega) (by omega) ha

/-- C31: the construction of the "Bill" specifications ends and gives one that stays inside of the vector. -/
theorem bill_ok (g : FVSig) (plus : Bool) (len symbols : Nat) (hl : (if plus then 6 else 2) ≤ len) :
    ∃ cs, billAlloc g plus len symbols = some cs ∧ cs.OK ∧ cs.len = len := by
  unfold billAlloc
  obtain ⟨h1, h2, h3⟩ := billLimit_spec (if plus then 6 else 2) len (g.count g.isPred) (g.count g.isFun) hl
  generalize billLimit (if plus then 6 else 2) len (g.count g.isPred) (g.count g.isFun) = pf at *
  obtain ⟨p, f⟩ := pf
  simp only at h1 h2 h3 ⊢
  obtain ⟨a1, e1, b1⟩ := billAssign_spec (fun i => !g.special i && g.isPred i) 2 g.fcount (g.fcount + 1) (g.internal + 1) p 2
    (fun _ => none) (by simpa [selFrom, FVSig.count] using h1) (by omega) (fun _ _ h => by cases h)
  obtain ⟨a2, e2, b2⟩ := billAssign_spec (fun i => !g.special i && g.isFun i) 4 g.fcount (g.fcount + 1) (g.internal + 1) f (2 + 2 * p)
    a1 (by simpa [selFrom, FVSig.count] using h2) (by omega) b1
  rw [e1]
  simp only
  rw [e2]
  simp only
  cases plus with
  | false =>
    refine ⟨_, rfl, ⟨fun _ _ => by simp at hl ⊢; exact hl, fun _ i r h => ?_⟩, rfl⟩
    rcases resIndex_cases h with ⟨-, h⟩ | ⟨q, hq, h1, rfl⟩
    · have := b2 i r h; simp at h3 ⊢; omega
    · simp at hq; subst hq; simp at h1
  | true =>
    simp only [if_true] at hl h3
    refine ⟨_, rfl, ⟨fun _ _ => show 2 ≤ len by omega, fun _ i r h => ?_⟩, rfl⟩
    rcases resIndex_cases h with ⟨-, h⟩ | ⟨q, hq, h1, rfl⟩
    · have := b2 i r h; show r < len; omega
    · simp only [List.mem_cons, List.not_mem_nil, or_false] at hq
      rcases hq with rfl | rfl | rfl | rfl <;> simp only [Nat.mod_one] <;> omega

/-- C31: the permutation vector selects different positions of the vector, and at least one. -/
theorem permVector_ok (fmax fmin : List Int) (fsum : List Nat) (maxLen : Nat) (elim : Bool) (h : fsum ≠ []) :
    (permVector fmax fmin fsum maxLen elim).Nodup ∧ (∀ i ∈ permVector fmax fmin fsum maxLen elim, i < fsum.length) ∧
      permVector fmax fmin fsum maxLen elim ≠ [] := by
  have hpos : 0 < fsum.length := List.length_pos_iff.2 h
  unfold permVector
  generalize hA : ((List.range fsum.length).map fun i => ((fmax[i]?.getD 0) - (fmin[i]?.getD 0), fsum[i]?.getD 0, i)) = A
  have hB := List.perm_insertionSort (fun a b => tuple3Le a b = true) A
  have e : A.map (fun e => e.2.2) = List.range fsum.length := by
    rw [← hA, List.map_map]
    exact List.map_id _
  have hp : ((A.insertionSort fun a b => tuple3Le a b = true).map fun e => e.2.2).Perm (List.range fsum.length) := e ▸ hB.map _
  have hlen : (A.insertionSort fun a b => tuple3Le a b = true).length = fsum.length := by rw [hB.length_eq, ← hA]; simp
  generalize (A.insertionSort fun a b => tuple3Le a b = true) = B at *
  simp only
  have hs : ∀ start, List.Sublist ((B.drop start).map fun e => e.2.2) (B.map fun e => e.2.2) := fun start =>
    (List.drop_sublist _ _).map _
  refine ⟨(hp.nodup_iff.2 List.nodup_range).sublist (hs _), fun i hi => ?_, ?_⟩
  · exact List.mem_range.1 (hp.subset ((hs _).subset hi))
  · intro h0
    have h1 := congrArg List.length h0
    have h2 : (if elim then (B.takeWhile fun e => decide (e.1 = 0)).length else 0) ≤ fsum.length := by
      split
      · rw [← hlen]; exact (List.takeWhile_sublist _).length_le
      · omega
    generalize (if elim then (B.takeWhile fun e => decide (e.1 = 0)).length else 0) = s1 at *
    simp only [List.length_map, List.length_drop, hlen, List.length_nil] at h1
    split at h1 <;> split at h1 <;> omega

theorem charVecs_len (cs : FVCollect) (full : Arr) (Cs : List (List Lit)) (acc : List Nat × List Int × List Int)
    (h : acc.1.length = cs.len) : (charVecs cs full Cs acc).1.1.length = cs.len := by
  induction Cs generalizing full acc with
  | nil => exact h
  | cons C Cs ih =>
    rw [charVecs]
    refine ih _ _ ?_
    rw [List.length_zipWith, h, varFreqVec_length, Nat.min_self]

/-- C31: the permutation vector computed from the axioms fits the vectors for which it was computed. -/
theorem permCompute_ok (cs : FVCollect) (full : Arr) (Cs : List (List Lit)) (elim : Bool) (h : 0 < cs.len) :
    (permCompute cs full Cs elim).1.Nodup ∧ ∀ i ∈ (permCompute cs full Cs elim).1, i < cs.len := by
  have hl := charVecs_len cs full Cs (List.replicate cs.len 0, List.replicate cs.len 0, List.replicate cs.len longMax) (by simp)
  unfold permCompute
  generalize charVecs cs full Cs (List.replicate cs.len 0, List.replicate cs.len 0, List.replicate cs.len longMax) = r at *
  obtain ⟨h1, h2, -⟩ := permVector_ok r.1.2.1 r.1.2.2 r.1.1 cs.maxSymbols elim
    (fun e => by rw [e] at hl; simp at hl; omega)
  exact ⟨h1, fun i hi => hl ▸ h2 i hi⟩

/-! ## The index -/

/-- The permutation fits the vectors. -/
def PermOK (cs : FVCollect) (perm : Option (List Nat)) : Prop := ∀ p, perm = some p → ∀ i ∈ p, i < cs.len

/-- Vectors can be computed. -/
theorem fvVector_total {cs : FVCollect} {perm : Option (List Nat)} (hp : PermOK cs perm) (full : Arr) (C : List Lit) :
    ∃ v, (fvVector cs perm full C).1 = some v := by
  unfold fvVector
  cases perm with
  | none => exact ⟨_, rfl⟩
  | some p =>
    obtain ⟨v, hv, -⟩ := mapM_get_some (a := (varFreqVec cs full C).1) (p := p) fun i hi => by
      rw [varFreqVec_length]; exact hp p rfl i hi
    exact ⟨v, hv⟩

/-- The vector of a clause. -/
def vecOf (cs : FVCollect) (perm : Option (List Nat)) (C : List OLit) : Option (List Nat) := (fvVector cs perm (fun _ => 0) (OLit.plain C)).1

structure FVInv (cs : FVCollect) (perm : Option (List Nat)) (full : Arr) (T : FVTree Nat) (S : List Nat) (H : Nat → List OLit) : Prop where
  clear : full = fun _ => 0
  wf : WF (vecLen cs perm) T
  nodup : S.Nodup
  vecs : ∀ a ∈ S, (vecOf cs perm (H a)).isSome
  ents : (ents T).Perm (S.map fun a => ((vecOf cs perm (H a)).getD [], a))

theorem fvInv {cs : FVCollect} {perm : Option (List Nat)} {full : Arr} {T : FVTree Nat} {S : List Nat} {H : Nat → List OLit}
    (h : FVReach cs perm full T S H) : FVInv cs perm full T S H := by
  induction h with
  | init H => exact ⟨rfl, wf_alloc _, List.nodup_nil, (fun a ha => by cases ha), .refl _⟩
  | vector cs' perm' C _ ih =>
    refine ⟨?_, ih.wf, ih.nodup, ih.vecs, ih.ents⟩
    rw [ih.clear]
    exact fvVector_full cs' perm' C
  | @edit full T S H H' _ he ih =>
    have hv : ∀ a ∈ S, vecOf cs perm (H a) = vecOf cs perm (H' a) := fun a ha =>
      congrArg Prod.fst (fvVector_same (sameLits_emb (he a ha)) (sameLits_emb (sameLits_symm (he a ha))))
    refine ⟨ih.clear, ih.wf, ih.nodup, fun a ha => hv a ha ▸ ih.vecs a ha, ?_⟩
    refine ih.ents.trans (List.Perm.of_eq (List.map_congr_left fun a ha => by rw [hv a ha]))
  | @insert full full' T T' S H a v _ ha hv hi ih =>
    have hc := ih.clear
    subst hc
    have e : vecOf cs perm (H a) = some v := congrArg Prod.fst hv
    have hl : v.length = vecLen cs perm := fvVector_length (congrArg Prod.fst hv)
    have hn : (v, a) ∉ ents T := fun hm => by
      obtain ⟨b, hb, hb'⟩ := List.mem_map.1 (ih.ents.subset hm)
      simp only [Prod.mk.injEq] at hb'
      exact ha (hb'.2 ▸ hb)
    obtain ⟨T'', h1, h2, h3⟩ := insert_spec ih.wf hl hn
    rw [hi] at h1
    cases h1
    refine ⟨(congrArg Prod.snd hv).symm.trans (fvVector_full cs perm _), h2, List.nodup_cons.2 ⟨ha, ih.nodup⟩, ?_, ?_⟩
    · intro b hb
      rcases List.mem_cons.1 hb with rfl | hb
      · rw [e]; rfl
      · exact ih.vecs b hb
    · rw [List.map_cons, e]
      exact h3.trans (ih.ents.cons _)
  | @delete full full' T T' S H a v found _ ha hv hd ih =>
    have hc := ih.clear
    subst hc
    have e : vecOf cs perm (H a) = some v := congrArg Prod.fst hv
    have hl : v.length = vecLen cs perm := fvVector_length (congrArg Prod.fst hv)
    have hm : (v, a) ∈ ents T := ih.ents.symm.subset (List.mem_map.2 ⟨a, ha, by rw [e]; rfl⟩)
    obtain ⟨T'', h1, h2, h3⟩ := delete_spec ih.wf hl hm
    rw [hd] at h1
    cases h1
    refine ⟨(congrArg Prod.snd hv).symm.trans (fvVector_full cs perm _), h2, ih.nodup.erase a,
      fun b hb => ih.vecs b (List.mem_of_mem_erase hb), ?_⟩
    have h4 := (h3.symm.trans ih.ents).trans ((List.perm_cons_erase ha).map fun a => ((vecOf cs perm (H a)).getD [], a))
    rw [List.map_cons, e] at h4
    exact h4.cons_inv

/-- C31: the static array in which the features are counted is clear between the computations, so that they do not
influence each other. -/
theorem fv_static_clear {cs : FVCollect} {perm : Option (List Nat)} {full : Arr} {T : FVTree Nat} {S : List Nat} {H : Nat → List OLit}
    (h : FVReach cs perm full T S H) : full = fun _ => 0 := (fvInv h).clear

variable {cs : FVCollect} {perm : Option (List Nat)} {full : Arr} {T : FVTree Nat} {S : List Nat} {H : Nat → List OLit}

/-- C31: inserting a clause that is not yet stored succeeds. -/
theorem fv_insert_total (hp : PermOK cs perm) (h : FVReach cs perm full T S H) {a : Nat} (ha : a ∉ S) :
    ∃ v full' T', fvVector cs perm full (OLit.plain (H a)) = (some v, full') ∧ fvInsert a v T = some T' ∧
      FVReach cs perm full' T' (a :: S) H := by
  obtain ⟨v, hv⟩ := fvVector_total hp full (OLit.plain (H a))
  have ih := fvInv h
  have hn : (v, a) ∉ ents T := fun hm => by
    obtain ⟨b, hb, hb'⟩ := List.mem_map.1 (ih.ents.subset hm)
    simp only [Prod.mk.injEq] at hb'
    exact ha (hb'.2 ▸ hb)
  obtain ⟨T', h1, -, -⟩ := insert_spec ih.wf (fvVector_length hv) hn
  exact ⟨v, _, T', Prod.ext hv rfl, h1, .insert h ha (Prod.ext hv rfl) h1⟩

/-- C31: removing a stored clause succeeds: it is found although its literals may have been rearranged, and it is no longer stored. -/
theorem fv_delete_total (hp : PermOK cs perm) (h : FVReach cs perm full T S H) {a : Nat} (ha : a ∈ S) :
    ∃ v full' T', fvVector cs perm full (OLit.plain (H a)) = (some v, full') ∧ fvDelete a v T = some (T', true) ∧
      FVReach cs perm full' T' (S.erase a) H := by
  obtain ⟨v, hv⟩ := fvVector_total hp full (OLit.plain (H a))
  have ih := fvInv h
  have hc := ih.clear
  subst hc
  have e : vecOf cs perm (H a) = some v := hv
  have hm : (v, a) ∈ ents T := ih.ents.symm.subset (List.mem_map.2 ⟨a, ha, by rw [e]; rfl⟩)
  obtain ⟨T', h1, -, -⟩ := delete_spec ih.wf (fvVector_length hv) hm
  exact ⟨v, _, T', Prod.ext hv rfl, h1, .delete h ha (Prod.ext hv rfl) h1⟩

theorem ents_leV {test : Nat → Bool} (h : FVReach cs perm full T S H) {D : List OLit} {v : List Nat} {full' : Arr}
    (hv : fvVector cs perm full (OLit.plain D) = (some v, full')) {a : Nat} (ha : a ∈ S) (he : CEmb (OLit.plain (H a)) (OLit.plain D))
    (ht : test a = true) : ∃ e ∈ ents T, (leV e.1 v && test e.2) = true ∧ e.2 = a := by
  have ih := fvInv h
  have hc := ih.clear
  subst hc
  obtain ⟨w, hw⟩ := Option.isSome_iff_exists.1 (ih.vecs a ha)
  refine ⟨(w, a), ih.ents.symm.subset (List.mem_map.2 ⟨a, ha, by rw [hw]; rfl⟩), ?_, rfl⟩
  rw [Bool.and_eq_true]
  exact ⟨leV_iff.2 (fvVector_mono cs perm he hw (congrArg Prod.fst hv)), ht⟩

/-- C31, forward search: what is returned is stored and passes the test. -/
theorem fv_forward_sound (h : FVReach cs perm full T S H) (test : Nat → Bool) {D : List OLit} {v : List Nat} {full' : Arr}
    (hv : fvVector cs perm full (OLit.plain D) = (some v, full')) {a : Nat} (ha : fvFindSubsuming test T v = some a) :
    a ∈ S ∧ test a = true := by
  have ih := fvInv h
  rw [findSubsuming_spec test _ T v ih.wf (fvVector_length (congrArg Prod.fst hv))] at ha
  obtain ⟨e, he, rfl⟩ := Option.map_eq_some_iff.1 ha
  have h1 := List.find?_some he
  obtain ⟨b, hb, hb'⟩ := List.mem_map.1 (ih.ents.subset (List.mem_of_find?_eq_some he))
  rw [Bool.and_eq_true] at h1
  exact ⟨by rw [← hb']; exact hb, h1.2⟩

/-- C31, forward search: a stored clause whose literals are mapped to different literals of the query is visited: if it passes
the test, the search is successful. -/
theorem fv_forward_visits (h : FVReach cs perm full T S H) (test : Nat → Bool) {D : List OLit} {v : List Nat} {full' : Arr}
    (hv : fvVector cs perm full (OLit.plain D) = (some v, full')) {a : Nat} (ha : a ∈ S) {σ : Nat → Term}
    (hm : MapsInto σ (OLit.plain (H a)) (OLit.plain D)) (ht : test a = true) : (fvFindSubsuming test T v).isSome := by
  obtain ⟨e, he, h1, -⟩ := ents_leV (test := test) h hv ha (mapsInto_emb hm) ht
  rw [findSubsuming_spec test _ T v (fvInv h).wf (fvVector_length (congrArg Prod.fst hv)), Option.isSome_map, List.find?_isSome]
  exact ⟨e, he, h1⟩

/-- C31, forward search: after any history the search is successful if and only if some stored clause subsumes the query. -/
theorem fv_forward_exact (h : FVReach cs perm full T S H) {D : List OLit} (hD : sg.WTClause (OLit.plain D)) (hn : NoTrivial D)
    {v : List Nat} {full' : Arr} (hv : fvVector cs perm full (OLit.plain D) = (some v, full')) :
    (fvFindSubsuming (fun a => clauseSubsumes sg pp (H a) D) T v).isSome ↔ ∃ a ∈ S, clauseSubsumes sg pp (H a) D = true := by
  constructor
  · intro hs
    obtain ⟨a, ha⟩ := Option.isSome_iff_exists.1 hs
    exact ⟨a, fv_forward_sound h _ hv ha⟩
  · rintro ⟨a, ha, ht⟩
    obtain ⟨e, he, h1, -⟩ := ents_leV (test := fun a => clauseSubsumes sg pp (H a) D) h hv ha (subsumes_emb hD hn ht) ht
    rw [findSubsuming_spec _ _ T v (fvInv h).wf (fvVector_length (congrArg Prod.fst hv)), Option.isSome_map, List.find?_isSome]
    exact ⟨e, he, h1⟩

theorem leV_ents (h : FVReach cs perm full T S H) {C : List OLit} {v : List Nat} {full' : Arr}
    (hv : fvVector cs perm full (OLit.plain C) = (some v, full')) {a : Nat} (ha : a ∈ S) (he : CEmb (OLit.plain C) (OLit.plain (H a))) :
    leV v ((vecOf cs perm (H a)).getD []) = true := by
  have ih := fvInv h
  have hc := ih.clear
  subst hc
  obtain ⟨w, hw⟩ := Option.isSome_iff_exists.1 (ih.vecs a ha)
  rw [hw]
  exact leV_iff.2 (fvVector_mono cs perm he (congrArg Prod.fst hv) hw)

/-- C31, backward search: after any history exactly the stored clauses subsumed by the query are returned, each once. -/
theorem fv_backward_exact (h : FVReach cs perm full T S H) {C : List OLit} (hD : ∀ a ∈ S, sg.WTClause (OLit.plain (H a)) ∧ NoTrivial (H a))
    {v : List Nat} {full' : Arr} (hv : fvVector cs perm full (OLit.plain C) = (some v, full')) :
    (fvFindSubsumed (fun a => clauseSubsumes sg pp C (H a)) T v).Perm (S.filter fun a => clauseSubsumes sg pp C (H a)) := by
  have ih := fvInv h
  rw [findSubsumed_spec _ _ T v ih.wf (fvVector_length (congrArg Prod.fst hv))]
  refine ((ih.ents.filter _).map _).trans ?_
  rw [List.filter_map, List.map_map]
  have e : S.filter ((fun e : List Nat × Nat => leV v e.1 && clauseSubsumes sg pp C (H e.2)) ∘ fun a => ((vecOf cs perm (H a)).getD [], a)) =
      S.filter fun a => clauseSubsumes sg pp C (H a) := by
    refine List.filter_congr fun a ha => ?_
    simp only [Function.comp]
    cases ht : clauseSubsumes sg pp C (H a) with
    | false => simp
    | true => rw [leV_ents h hv ha (subsumes_emb (hD a ha).1 (hD a ha).2 ht)]; rfl
  rw [e]
  exact List.Perm.of_eq (List.map_id _)

/-- C31: the search for one subsumed clause is successful if there is one, and returns one. -/
theorem fv_first_subsumed (h : FVReach cs perm full T S H) {C : List OLit} (hD : ∀ a ∈ S, sg.WTClause (OLit.plain (H a)) ∧ NoTrivial (H a))
    {v : List Nat} {full' : Arr} (hv : fvVector cs perm full (OLit.plain C) = (some v, full')) :
    (∀ a, fvFirstSubsumed (fun a => clauseSubsumes sg pp C (H a)) T v = some a → a ∈ S ∧ clauseSubsumes sg pp C (H a) = true) ∧
    ((∃ a ∈ S, clauseSubsumes sg pp C (H a) = true) → (fvFirstSubsumed (fun a => clauseSubsumes sg pp C (H a)) T v).isSome) := by
  have ih := fvInv h
  rw [firstSubsumed_spec _ _ T v ih.wf (fvVector_length (congrArg Prod.fst hv))]
  refine ⟨fun a ha => ?_, ?_⟩
  · obtain ⟨e, he, rfl⟩ := Option.map_eq_some_iff.1 ha
    have h1 := List.find?_some he
    obtain ⟨b, hb, hb'⟩ := List.mem_map.1 (ih.ents.subset (List.mem_of_find?_eq_some he))
    rw [Bool.and_eq_true] at h1
    exact ⟨by rw [← hb']; exact hb, h1.2⟩
  · rintro ⟨a, ha, ht⟩
    rw [Option.isSome_map, List.find?_isSome]
    refine ⟨_, ih.ents.symm.subset (List.mem_map.2 ⟨a, ha, rfl⟩), ?_⟩
    rw [Bool.and_eq_true]
    exact ⟨leV_ents h hv ha (subsumes_emb (hD a ha).1 (hD a ha).2 ht), ht⟩

/-- C31: the search for variants (used for definitions in splitting) returns a stored clause that subsumes the query and
is subsumed by it, if there is one. -/
theorem fv_variant_exact (h : FVReach cs perm full T S H) {D : List OLit} (hD : sg.WTClause (OLit.plain D)) (hn : NoTrivial D)
    (hS : ∀ a ∈ S, sg.WTClause (OLit.plain (H a)) ∧ NoTrivial (H a))
    {v : List Nat} {full' : Arr} (hv : fvVector cs perm full (OLit.plain D) = (some v, full')) :
    (∀ a, fvFindVariant (fun a => clauseSubsumes sg pp (H a) D && clauseSubsumes sg pp D (H a)) v T = some a →
      a ∈ S ∧ clauseSubsumes sg pp (H a) D = true ∧ clauseSubsumes sg pp D (H a) = true) ∧
    ((∃ a ∈ S, clauseSubsumes sg pp (H a) D = true ∧ clauseSubsumes sg pp D (H a) = true) →
      (fvFindVariant (fun a => clauseSubsumes sg pp (H a) D && clauseSubsumes sg pp D (H a)) v T).isSome) := by
  have ih := fvInv h
  have hl := fvVector_length (congrArg Prod.fst hv)
  refine ⟨fun a ha => ?_, ?_⟩
  · obtain ⟨h1, h2⟩ := findVariant_some ih.wf hl ha
    obtain ⟨b, hb, hb'⟩ := List.mem_map.1 (ih.ents.subset h1)
    simp only [Prod.mk.injEq] at hb'
    rw [Bool.and_eq_true] at h2
    exact ⟨hb'.2 ▸ hb, h2⟩
  · rintro ⟨a, ha, h1, h2⟩
    have hc := ih.clear
    subst hc
    have e : vecOf cs perm (H a) = some v := by
      have := fvVector_same (cs := cs) (perm := perm) (subsumes_emb hD hn h1) (subsumes_emb (hS a ha).1 (hS a ha).2 h2)
      exact (congrArg Prod.fst this).trans (congrArg Prod.fst hv)
    refine findVariant_complete ih.wf hl (b := a) (ih.ents.symm.subset (List.mem_map.2 ⟨a, ha, by rw [e]; rfl⟩)) ?_
    simp only [h1, h2, Bool.and_self]

/-! ## Disagreements and examples -/

namespace FVExample

/-- Predicates 20 (unary), functions 10 (unary), constants 11-13. -/
def sgV : Sig :=
  ⟨fun _ => 0, fun f => if f ≤ 2 ∨ f = 20 then 1 else 0, fun f => if f = 10 ∨ f = 20 then [0] else [], fun _ => false⟩

def noPP : Term → Bool := fun _ => false

/-- `a = b` and `f(c) = f(c)` -/
def unitV : List OLit := [⟨⟨true, .app 11 [], .app 12 []⟩, true⟩]
def trivV : List OLit := [⟨⟨true, .app 10 [.app 13 []], .app 10 [.app 13 []]⟩, false⟩]

/-- `p(X)`, `p(a) ∨ ¬p(f(a))` and the latter with the literals exchanged. -/
def pX : List OLit := [⟨⟨true, .app 20 [.var 2], tTrue⟩, true⟩]
def pA : List OLit := [⟨⟨true, .app 20 [.app 11 []], tTrue⟩, true⟩, ⟨⟨false, .app 20 [.app 10 [.app 11 []]], tTrue⟩, true⟩]
def pA' : List OLit := [⟨⟨false, .app 20 [.app 10 [.app 11 []]], tTrue⟩, true⟩, ⟨⟨true, .app 20 [.app 11 []], tTrue⟩, true⟩]

end FVExample
open FVExample

/-- A positive literal with identical sides is found to be subsumed by every positive unit clause
(CLAUSES/ccl_subsumption.c:251-254), and then features are not monotone: the search in the index misses the subsuming
clause.  Such clauses are tautologies, which are normally removed before. -/
theorem features_trivial_literal :
    clauseSubsumes sgV noPP unitV trivV = true ∧ sgV.WTClause (OLit.plain trivV) ∧
      ¬ List.Forall₂ (· ≤ ·) (varFreqVec (classical .all 17) (fun _ => 0) (OLit.plain unitV)).1
        (varFreqVec (classical .all 17) (fun _ => 0) (OLit.plain trivV)).1 := by
  refine ⟨by decide, ?_, by decide +kernel⟩
  intro L hL
  simp only [OLit.plain, trivV, List.map_cons, List.map_nil, List.mem_singleton] at hL
  subst hL
  simp [Sig.WTLit, sgV, Sig.ty, Sig.WT, Sig.WTL]

/-- Deleting a clause that is not stored damages the index: the counters on the path are decremented all the same
(CLAUSES/ccl_fcvindexing.c:463-475), and a stored clause is no longer found. -/
theorem fv_delete_absent :
    ∃ (full : Arr) (T T' : FVTree Nat) (v : List Nat) (H : Nat → List OLit), FVReach (acFold 3) none full T [0] H ∧
      (fvVector (acFold 3) none full (OLit.plain (H 1))).1 = some v ∧
      fvDelete 1 v T = some (T', false) ∧
      fvFindSubsuming (fun a => clauseSubsumes sgV noPP (H a) pX) T v = some 0 ∧
      fvFindSubsuming (fun a => clauseSubsumes sgV noPP (H a) pX) T' v = none := by
  have hv : fvVector (acFold 3) none (fun _ => 0) (OLit.plain pX) =
      (some [1, 0, 0, 1, 1, 0, 0, 0], (fvVector (acFold 3) none (fun _ => 0) (OLit.plain pX)).2) :=
    Prod.ext (by decide +kernel) rfl
  have hr := FVReach.insert (cs := acFold 3) (perm := none) (H := fun _ => pX) (a := 0) (.init _) (by simp) hv rfl
  refine ⟨_, _, _, [1, 0, 0, 1, 1, 0, 0, 0], fun _ => pX, hr, ?_, rfl, by decide +kernel, by decide +kernel⟩
  rw [fv_static_clear hr]
  exact congrArg Prod.fst hv

/-- The index of the definition store gets the permutation vector computed for the main index (CONTROL/cco_proofproc.c:1407,
1427-1440), although its vectors are shorter if features other than the default are chosen; then the computation
of its vectors reads behind their end. -/
theorem def_store_perm_out_of_range :
    (fvVector (acFold 3) (some (permCompute (classical .all 3) (fun _ => 0) [OLit.plain pX, OLit.plain pA] true).1) (fun _ => 0)
      (OLit.plain pA)).1 = none := by decide +kernel

/-- The same with the default features is fine. -/
example : ((fvVector (acFold 3) (some (permCompute (acFold 3) (fun _ => 0) [OLit.plain pX, OLit.plain pA] true).1) (fun _ => 0)
      (OLit.plain pA)).1).isSome = true := by decide +kernel

theorem wt_pA : sgV.WTClause (OLit.plain pA) ∧ NoTrivial pA := by
  refine ⟨?_, ?_⟩
  · intro L hL
    simp only [OLit.plain, pA, List.map_cons, List.map_nil, List.mem_cons, List.not_mem_nil, or_false] at hL
    rcases hL with rfl | rfl <;> simp [Sig.WTLit, sgV, Sig.ty, Sig.WT, Sig.WTL, tTrue]
  · unfold NoTrivial pA; decide

/-- `p(X)` subsumes `p(a) ∨ ¬p(f(a))`, whose vector is greater. -/
example : clauseSubsumes sgV noPP pX pA = true ∧
    (varFreqVec (acFold 3) (fun _ => 0) (OLit.plain pX)).1 = [1, 0, 0, 1, 1, 0, 0, 0] ∧
    (varFreqVec (acFold 3) (fun _ => 0) (OLit.plain pA)).1 = [1, 1, 0, 1, 2, 0, 2, 2] := by decide +kernel

example : SameLits pA pA' := by
  refine ⟨pA, ?_, ?_⟩
  · exact List.Perm.swap _ _ _
  · exact .cons ⟨rfl, .inl ⟨rfl, rfl⟩⟩ (.cons ⟨rfl, .inl ⟨rfl, rfl⟩⟩ .nil)

/-- A history: two clauses are inserted, the first is rearranged, then removed. -/
example : ∃ full T, FVReach (acFold 3) none full T [1] (fun a => if a = 0 then pA' else pA) := by
  have hp : PermOK (acFold 3) none := fun p h => by cases h
  have h0 : FVReach (acFold 3) none (fun _ => 0) .alloc [] (fun _ => pA) := .init _
  obtain ⟨_, _, _, -, -, h1⟩ := fv_insert_total hp h0 (a := 1) (by simp)
  obtain ⟨_, _, _, -, -, h2⟩ := fv_insert_total hp h1 (a := 0) (by simp)
  have h3 := FVReach.edit (H' := fun a => if a = 0 then pA' else pA) h2 (fun a ha => by
    simp only [List.mem_cons, List.not_mem_nil, or_false] at ha
    rcases ha with rfl | rfl
    · refine ⟨pA, List.Perm.swap _ _ _, .cons ⟨rfl, .inl ⟨rfl, rfl⟩⟩ (.cons ⟨rfl, .inl ⟨rfl, rfl⟩⟩ .nil)⟩
    · exact sameLits_refl _)
  obtain ⟨_, _, _, -, -, h4⟩ := fv_delete_total hp h3 (a := 0) (by simp)
  exact ⟨_, _, h4⟩

end Verif.Props
