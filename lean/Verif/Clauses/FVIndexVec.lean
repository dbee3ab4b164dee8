import Verif.Clauses.FVIndexProof

/-!
# Feature vectors are monotone
-/

namespace Verif.FVProof
open Verif Term

/-! ## Classical vectors -/

def fidx (s f : Nat) : Nat := if f < s then f else 0

theorem fidx_lt (s f : Nat) : fidx s f < s + 1 := by unfold fidx; split <;> omega

def stepL (fp dp : Bool → FPtr) (s : Nat) (a : Arr) (o : Occ) : Arr :=
  (a.mod (fp o.1) (fidx s o.2.1) (· + 1)).mod (dp o.1) (fidx s o.2.1) (max o.2.2)

mutual
theorem addFeatLim_occ (fp dp : Bool → FPtr) (s : Nat) (b : Bool) (t : Term) (d : Nat) (a : Arr) :
    addFeatLim (fp b) (dp b) s t d a = (occT b t d).foldl (stepL fp dp s) a := by
  cases t with
  | var x => rfl
  | app f ts => rw [addFeatLim, occT, List.foldl_cons]; exact addFeatLimL_occ fp dp s b ts (d + 1) _
theorem addFeatLimL_occ (fp dp : Bool → FPtr) (s : Nat) (b : Bool) (ts : List Term) (d : Nat) (a : Arr) :
    addFeatLimL (fp b) (dp b) s ts d a = (occL b ts d).foldl (stepL fp dp s) a := by
  cases ts with
  | nil => rfl
  | cons t ts => rw [addFeatLimL, occL, List.foldl_append, addFeatLim_occ, addFeatLimL_occ]
end

/-- The occurrences counted in a cell. -/
def hit (fp : Bool → FPtr) (s j : Nat) (b : Bool) (f : Nat) : Bool := decide ((fp b).map (· + fidx s f) = some j)

theorem mod_at (a : Arr) (p : FPtr) (i j : Nat) (f : Nat → Nat) :
    (a.mod p i f) j = if p.map (· + i) = some j then f (a j) else a j := by
  cases p with
  | none => rfl
  | some b =>
    simp only [Arr.mod, Arr.set, Option.map_some, Option.some.injEq]
    by_cases h : j = b + i
    · subst h; simp
    · rw [if_neg h, if_neg (fun e => h e.symm)]

theorem stepL_at (fp dp : Bool → FPtr) (s : Nat) (a : Arr) (o : Occ) (j : Nat) :
    stepL fp dp s a o j =
      let x := if hit fp s j o.1 o.2.1 then a j + 1 else a j
      if hit dp s j o.1 o.2.1 then max o.2.2 x else x := by
  simp only [stepL, mod_at, hit, decide_eq_true_eq]

theorem val_count {fp dp : Bool → FPtr} {s j : Nat} (h : ∀ b f, hit dp s j b f = false) (A : List Occ) (a : Arr) :
    A.foldl (stepL fp dp s) a j = a j + A.countP fun o => hit fp s j o.1 o.2.1 := by
  induction A generalizing a with
  | nil => simp
  | cons o A ih =>
    rw [List.foldl_cons, ih, stepL_at, List.countP_cons, h]
    simp only [Bool.false_eq_true, if_false]
    split <;> omega

theorem val_depth {fp dp : Bool → FPtr} {s j : Nat} (h : ∀ b f, hit fp s j b f = false) (A : List Occ) (a : Arr) :
    A.foldl (stepL fp dp s) a j = max (a j) (maxD (hit dp s j) A) := by
  induction A generalizing a with
  | nil => simp [maxD]
  | cons o A ih =>
    rw [List.foldl_cons, ih, stepL_at, maxD, h]
    simp only [Bool.false_eq_true, if_false]
    split <;> omega

def fpOf (fe : FVFeat) (s : Nat) (b : Bool) : FPtr := if b then (fe.ptrs s).1 else (fe.ptrs s).2.1
def dpOf (fe : FVFeat) (s : Nat) (b : Bool) : FPtr := if b then (fe.ptrs s).2.2.1 else (fe.ptrs s).2.2.2

def baseOf (fe : FVFeat) (C : List Lit) : Arr :=
  if fe = .ss then fun _ => 0 else (Arr.set (fun _ => 0) 0 (posLits C)).set 1 (negLits C)

theorem addVals_occ (fe : FVFeat) (s : Nat) (C : List Lit) :
    addVals fe s C = (occC C).foldl (stepL (fpOf fe s) (dpOf fe s) s) (baseOf fe C) := by
  have key : ∀ (D : List Lit) (a : Arr), D.foldl (fun a L => if L.pos then eqnFeatLim (fe.ptrs s).1 (fe.ptrs s).2.2.1 s L a
      else eqnFeatLim (fe.ptrs s).2.1 (fe.ptrs s).2.2.2 s L a) a = (occC D).foldl (stepL (fpOf fe s) (dpOf fe s) s) a := by
    intro D
    induction D with
    | nil => intro a; rfl
    | cons L D ih =>
      intro a
      rw [List.foldl_cons, ih, show occC (L :: D) = occLit L ++ occC D from List.flatMap_cons, List.foldl_append]
      refine congrArg (fun a => List.foldl _ a _) ?_
      rw [occLit, List.foldl_append, ← addFeatLim_occ, ← addFeatLim_occ]
      cases hp : L.pos <;> simp [eqnFeatLim, fpOf, dpOf]
  exact key C _

theorem hit_kinds (fe : FVFeat) (s j : Nat) : (∀ b f, hit (dpOf fe s) s j b f = false) ∨ (∀ b f, hit (fpOf fe s) s j b f = false) := by
  have hx := fidx_lt s
  cases fe with
  | ac => left; intro b f; cases b <;> simp [hit, dpOf, FVFeat.ptrs]
  | ss => right; intro b f; cases b <;> simp [hit, fpOf, FVFeat.ptrs]
  | all =>
    by_cases hj : j < 2 + 2 * (s + 1)
    · left; intro b f; have := hx f; cases b <;> simp [hit, dpOf, FVFeat.ptrs] <;> omega
    · right; intro b f; have := hx f; cases b <;> simp [hit, fpOf, FVFeat.ptrs] <;> omega
  | collect =>
    by_cases hj : j < 2 + 2 * (s + 1)
    · left; intro b f; have := hx f; cases b <;> simp [hit, dpOf, FVFeat.ptrs] <;> omega
    · right; intro b f; have := hx f; cases b <;> simp [hit, fpOf, FVFeat.ptrs] <;> omega

theorem litCount_mono {C D : List Lit} (h : CEmb C D) (j : Nat) :
    (Arr.set (Arr.set (fun _ => 0) 0 (posLits C)) 1 (negLits C)) j ≤ (Arr.set (Arr.set (fun _ => 0) 0 (posLits D)) 1 (negLits D)) j := by
  have h1 := h.pos
  have h2 := h.neg
  simp only [Arr.set]
  split
  · exact h2
  · split
    · exact h1
    · exact Nat.le_refl _

theorem addVals_mono (fe : FVFeat) (s : Nat) {C D : List Lit} (h : CEmb C D) (j : Nat) : addVals fe s C j ≤ addVals fe s D j := by
  have hb : baseOf fe C j ≤ baseOf fe D j := by
    unfold baseOf
    split
    · exact Nat.le_refl _
    · exact litCount_mono h j
  rw [addVals_occ, addVals_occ]
  rcases hit_kinds fe s j with hk | hk
  · rw [val_count hk, val_count hk]
    have := emb_countP h.occ (hit (fpOf fe s) s j)
    omega
  · rw [val_depth hk, val_depth hk]
    have := emb_maxD h.occ (hit (dpOf fe s) s j)
    omega

/-- Nothing is written behind the vector. -/
theorem addVals_bound (fe : FVFeat) (s : Nat) (C : List Lit) (j : Nat) (hj : fe.size s ≤ j) : addVals fe s C j = 0 := by
  have hx := fidx_lt s
  have hb : baseOf fe C j = 0 := by
    unfold baseOf
    split
    · rfl
    · rename_i hne
      have : 2 ≤ j := by cases fe <;> simp [FVFeat.size] at hj hne <;> omega
      simp only [Arr.set]
      rw [if_neg (by omega), if_neg (by omega)]
  have h1 : ∀ b f, hit (dpOf fe s) s j b f = false := by
    intro b f; have := hx f; cases fe <;> cases b <;> simp [hit, dpOf, FVFeat.ptrs, FVFeat.size] at hj ⊢ <;> omega
  have h2 : ∀ b f, hit (fpOf fe s) s j b f = false := by
    intro b f; have := hx f; cases fe <;> cases b <;> simp [hit, fpOf, FVFeat.ptrs, FVFeat.size] at hj ⊢ <;> omega
  rw [addVals_occ, val_count h1, hb]
  simp [h2]

/-! ## Collected vectors -/

def okey (b : Bool) (f : Nat) : Nat := 4 * f + if b then 0 else 2

theorem okey_even (b : Bool) (f : Nat) : okey b f % 2 = 0 := by unfold okey; split <;> omega

def cstep (s : List Nat × Arr) (o : Occ) : List Nat × Arr :=
  let i := okey o.1 o.2.1
  let stk := if s.2 i = 0 then i :: s.1 else s.1
  let a := s.2.set i (s.2 i + 1)
  (stk, a.set (i + 1) (max o.2.2 (a (i + 1))))

mutual
theorem addSym_occ (b : Bool) (t : Term) (d : Nat) (s : List Nat × Arr) :
    addSym (if b then 0 else 2) t d s = (occT b t d).foldl cstep s := by
  cases t with
  | var x => rfl
  | app f ts => rw [addSym, occT, List.foldl_cons]; exact addSymL_occ b ts (d + 1) _
theorem addSymL_occ (b : Bool) (ts : List Term) (d : Nat) (s : List Nat × Arr) :
    addSymL (if b then 0 else 2) ts d s = (occL b ts d).foldl cstep s := by
  cases ts with
  | nil => rfl
  | cons t ts => rw [addSymL, occL, List.foldl_append, addSym_occ, addSymL_occ]
end

theorem clauseAddSym_occ (C : List Lit) (s : List Nat × Arr) : clauseAddSym C s = (occC C).foldl cstep s := by
  unfold clauseAddSym occC
  induction C generalizing s with
  | nil => rfl
  | cons L C ih =>
    rw [List.foldl_cons, ih, List.flatMap_cons, List.foldl_append]
    rw [occLit, List.foldl_append, ← addSym_occ, ← addSym_occ]

def isKey (i : Nat) (b : Bool) (f : Nat) : Bool := decide (okey b f = i)

/-- The array and the stack after the occurrences `A`. -/
structure CInv (A : List Occ) (s : List Nat × Arr) : Prop where
  cnt : ∀ i, i % 2 = 0 → s.2 i = A.countP fun o => isKey i o.1 o.2.1
  dep : ∀ i, i % 2 = 0 → s.2 (i + 1) = maxD (isKey i) A
  nodup : s.1.Nodup
  mem : ∀ i, i ∈ s.1 ↔ ∃ o ∈ A, okey o.1 o.2.1 = i

theorem maxD_snoc (p : Bool → Nat → Bool) (A : List Occ) (o : Occ) :
    maxD p (A ++ [o]) = if p o.1 o.2.1 then max o.2.2 (maxD p A) else maxD p A := by
  induction A with
  | nil => simp [maxD]
  | cons x A ih => simp only [List.cons_append, maxD, ih]; split <;> split <;> omega

theorem cinv_step {A : List Occ} {s : List Nat × Arr} (h : CInv A s) (o : Occ) : CInv (A ++ [o]) (cstep s o) := by
  have he := okey_even o.1 o.2.1
  have hz : s.2 (okey o.1 o.2.1) = 0 ↔ okey o.1 o.2.1 ∉ s.1 := by
    rw [h.cnt _ he, h.mem, List.countP_eq_zero]
    simp [isKey]
  refine ⟨fun i hi => ?_, fun i hi => ?_, ?_, fun i => ?_⟩
  · simp only [cstep, Arr.set]
    rw [if_neg (by omega), List.countP_append, ← h.cnt i hi]
    by_cases e : i = okey o.1 o.2.1
    · simp [e, isKey]
    · rw [if_neg e]
      simp [isKey, Ne.symm e]
  · simp only [cstep, Arr.set]
    rw [maxD_snoc]
    by_cases e : i = okey o.1 o.2.1
    · subst e
      simp [isKey, h.dep _ hi]
    · rw [if_neg (by omega), if_neg (by omega), h.dep i hi]
      simp [isKey, Ne.symm e]
  · simp only [cstep]
    split
    · rename_i h0
      exact List.nodup_cons.2 ⟨hz.1 h0, h.nodup⟩
    · exact h.nodup
  · simp only [cstep]
    have e1 : (∃ o' ∈ A ++ [o], okey o'.1 o'.2.1 = i) ↔ i ∈ s.1 ∨ okey o.1 o.2.1 = i := by
      rw [h.mem]
      constructor
      · rintro ⟨o', ho', e⟩
        rcases List.mem_append.1 ho' with ho' | ho'
        · exact .inl ⟨o', ho', e⟩
        · rw [List.mem_singleton.1 ho'] at e; exact .inr e
      · rintro (⟨o', ho', e⟩ | e)
        · exact ⟨o', List.mem_append_left _ ho', e⟩
        · exact ⟨o, by simp, e⟩
    rw [e1]
    split
    · simp only [List.mem_cons]
      constructor
      · rintro (e | e)
        · exact .inr e.symm
        · exact .inl e
      · rintro (e | e)
        · exact .inr e
        · exact .inl e.symm
    · rename_i h0
      have : okey o.1 o.2.1 ∈ s.1 := by
        by_contra hc
        exact h0 (hz.2 hc)
      constructor
      · exact .inl
      · rintro (e | rfl)
        · exact e
        · exact this

theorem cinv_foldl (B : List Occ) {A : List Occ} {s : List Nat × Arr} (h : CInv A s) : CInv (A ++ B) (B.foldl cstep s) := by
  induction B generalizing A s with
  | nil => simpa using h
  | cons o B ih => simpa using ih (cinv_step h o)

theorem cinv_init : CInv [] ([], fun _ => 0) := ⟨fun _ _ => by simp, fun _ _ => rfl, List.nodup_nil, fun i => by simp⟩

theorem cinv_clause (C : List Lit) : CInv (occC C) (clauseAddSym C ([], fun _ => 0)) := by
  rw [clauseAddSym_occ]
  exact cinv_foldl (occC C) cinv_init

/-- What position `i` contributes to cell `r`. -/
def contrib (cs : FVCollect) (full : Arr) (r i : Nat) : Nat := if cs.resIndex i = some r then full i else 0

theorem gather_at (cs : FVCollect) (full vec : Arr) (i r : Nat) : gather cs full vec i r = vec r + contrib cs full r i := by
  unfold gather contrib
  cases cs.resIndex i with
  | none => simp
  | some r' =>
    simp only [Arr.set, Option.some.injEq]
    by_cases e : r = r'
    · subst e; simp
    · rw [if_neg e, if_neg (fun e' => e e'.symm)]; rfl

theorem gatherAll_spec (cs : FVCollect) (stk : List Nat) (full vec : Arr) (hn : stk.Nodup) (he : ∀ i ∈ stk, i % 2 = 0) :
    (∀ r, (gatherAll cs stk full vec).1 r = vec r + (stk.map fun i => contrib cs full r i + contrib cs full r (i + 1)).sum) ∧
    (∀ j, (gatherAll cs stk full vec).2 j = if j - j % 2 ∈ stk then 0 else full j) := by
  induction stk generalizing full vec with
  | nil => simp [gatherAll]
  | cons i stk ih =>
    obtain ⟨h1, h2⟩ := List.nodup_cons.1 hn
    have hi := he i (by simp)
    have ih := ih ((full.set i 0).set (i + 1) 0) (gather cs (full.set i 0) (gather cs full vec i) (i + 1)) h2
      (fun k hk => he k (by simp [hk]))
    rw [gatherAll]
    refine ⟨fun r => ?_, fun j => ?_⟩
    · rw [ih.1, gather_at, gather_at, List.map_cons, List.sum_cons]
      have e1 : contrib cs (full.set i 0) r (i + 1) = contrib cs full r (i + 1) := by
        unfold contrib
        simp [Arr.set]
      have e2 : (stk.map fun k => contrib cs ((full.set i 0).set (i + 1) 0) r k + contrib cs ((full.set i 0).set (i + 1) 0) r (k + 1))
          = stk.map fun k => contrib cs full r k + contrib cs full r (k + 1) := by
        refine List.map_congr_left fun k hk => ?_
        have hk2 := he k (by simp [hk])
        have hne : k ≠ i := fun e => h1 (e ▸ hk)
        unfold contrib
        simp only [Arr.set]
        rw [if_neg (c := k = i + 1) (by omega), if_neg hne, if_neg (c := k + 1 = i + 1) (by omega), if_neg (c := k + 1 = i) (by omega)]
      rw [e1, e2]
      omega
    · rw [ih.2]
      by_cases hj : j - j % 2 ∈ stk
      · rw [if_pos hj, if_pos (by simp [hj])]
      · rw [if_neg hj]
        simp only [Arr.set, List.mem_cons, hj, or_false]
        by_cases e : j - j % 2 = i
        · rw [if_pos e]
          by_cases e1 : j = i + 1
          · rw [if_pos e1]
          · rw [if_neg e1, if_pos (by omega)]
        · rw [if_neg e, if_neg (by omega), if_neg (by omega)]

theorem stk_even {A : List Occ} {s : List Nat × Arr} (h : CInv A s) : ∀ i ∈ s.1, i % 2 = 0 := fun i hi => by
  obtain ⟨o, -, rfl⟩ := (h.mem i).1 hi
  exact okey_even _ _

theorem collectVec_full (cs : FVCollect) (C : List Lit) : (collectVec cs (fun _ => 0) C).2 = fun _ => 0 := by
  unfold collectVec
  split
  · rfl
  · have hc := cinv_clause C
    obtain ⟨-, h⟩ := gatherAll_spec cs _ (clauseAddSym C ([], fun _ => 0)).2
      (if cs.useLit then (Arr.set (fun _ => 0) 0 (posLits C)).set 1 (negLits C) else fun _ => 0) hc.nodup (stk_even hc)
    funext j
    refine (h j).trans ?_
    split
    · rfl
    · rename_i hj
      rw [hc.mem] at hj
      rcases Nat.mod_two_eq_zero_or_one j with e | e
      · rw [hc.cnt j e, List.countP_eq_zero]
        intro o ho hk
        exact hj ⟨o, ho, by simp [isKey] at hk; omega⟩
      · have e2 : (j - 1) % 2 = 0 := by omega
        have := hc.dep (j - 1) e2
        rw [show j - 1 + 1 = j by omega] at this
        rw [this, ← Nat.le_zero, maxD_le]
        intro o ho hk
        exact absurd ⟨o, ho, by simp [isKey] at hk; omega⟩ hj

theorem sum_le_subperm {E D : List Nat} {f g : Nat → Nat} (hfg : ∀ i, f i ≤ g i) (h : List.Subperm E D) :
    (E.map f).sum ≤ (D.map g).sum := by
  obtain ⟨l, hp, hs⟩ := h
  rw [← (hp.map f).sum_eq]
  clear hp
  induction hs with
  | slnil => simp
  | cons a _ ih => simp only [List.map_cons, List.sum_cons]; omega
  | cons_cons a _ ih => have := hfg a; simp only [List.map_cons, List.sum_cons]; omega

theorem collectVec_at (cs : FVCollect) (C : List Lit) (hC : C ≠ []) (r : Nat) :
    (collectVec cs (fun _ => 0) C).1 r = (if cs.useLit then (Arr.set (fun _ => 0) 0 (posLits C)).set 1 (negLits C) else fun _ => 0) r +
      ((clauseAddSym C ([], fun _ => 0)).1.map fun i => contrib cs (clauseAddSym C ([], fun _ => 0)).2 r i +
        contrib cs (clauseAddSym C ([], fun _ => 0)).2 r (i + 1)).sum := by
  have hc := cinv_clause C
  obtain ⟨h, -⟩ := gatherAll_spec cs _ (clauseAddSym C ([], fun _ => 0)).2
    (if cs.useLit then (Arr.set (fun _ => 0) 0 (posLits C)).set 1 (negLits C) else fun _ => 0) hc.nodup (stk_even hc)
  unfold collectVec
  rw [if_neg (by simpa using hC)]
  exact h r

theorem collectVec_mono (cs : FVCollect) {C D : List Lit} (h : CEmb C D) (r : Nat) :
    (collectVec cs (fun _ => 0) C).1 r ≤ (collectVec cs (fun _ => 0) D).1 r := by
  by_cases hC : C = []
  · subst hC
    exact Nat.zero_le _
  · have hD : D ≠ [] := by
      rintro rfl
      have h1 := h.pos
      have h2 := h.neg
      cases C with
      | nil => exact hC rfl
      | cons L C => cases hp : L.pos <;> simp [posLits, negLits, hp] at h1 h2
    rw [collectVec_at cs C hC, collectVec_at cs D hD]
    have hc := cinv_clause C
    have hd := cinv_clause D
    generalize clauseAddSym C ([], fun _ => 0) = sc at *
    generalize clauseAddSym D ([], fun _ => 0) = sd at *
    have hle : ∀ i, sc.2 i ≤ sd.2 i := fun i => by
      rcases Nat.mod_two_eq_zero_or_one i with e | e
      · rw [hc.cnt i e, hd.cnt i e]
        exact emb_countP h.occ _
      · have e2 : (i - 1) % 2 = 0 := by omega
        have h1 := hc.dep (i - 1) e2
        have h2 := hd.dep (i - 1) e2
        rw [show i - 1 + 1 = i by omega] at h1 h2
        rw [h1, h2]
        exact emb_maxD h.occ _
    have hsub : List.Subperm sc.1 sd.1 := by
      refine hc.nodup.subperm fun i hi => ?_
      rw [hc.mem] at hi
      obtain ⟨o, ho, e⟩ := hi
      obtain ⟨E, h1, h2⟩ := h.occ
      obtain ⟨o', ho', hl⟩ := Props.forall2_mem h1 ho
      rw [hd.mem]
      exact ⟨o', h2.subset ho', by rw [← hl.1, ← hl.2.1]; exact e⟩
    have hs : ∀ i, contrib cs sc.2 r i ≤ contrib cs sd.2 r i := fun i => by
      unfold contrib
      split
      · exact hle i
      · exact Nat.le_refl _
    have h3 := sum_le_subperm (f := fun i => contrib cs sc.2 r i + contrib cs sc.2 r (i + 1))
      (g := fun i => contrib cs sd.2 r i + contrib cs sd.2 r (i + 1)) (fun i => Nat.add_le_add (hs _) (hs _)) hsub
    refine Nat.add_le_add ?_ h3
    split
    · exact litCount_mono h r
    · exact Nat.le_refl _

/-- Nothing is written behind the vector. -/
theorem collectVec_bound {cs : FVCollect} (hcs : cs.OK) (hf : cs.feat = .collect) (C : List Lit) (r : Nat) (hr : cs.resLen ≤ r) :
    (collectVec cs (fun _ => 0) C).1 r = 0 := by
  by_cases hC : C = []
  · subst hC; rfl
  · rw [collectVec_at cs C hC]
    have h0 : ∀ a i, contrib cs a r i = 0 := fun a i => by
      unfold contrib
      rw [if_neg]
      intro e
      have := hcs.bound hf i r e
      omega
    simp only [h0]
    have : (if cs.useLit then (Arr.set (fun _ => 0) 0 (posLits C)).set 1 (negLits C) else fun _ => 0) r = 0 := by
      split
      · rename_i hu
        have := hcs.lits hf hu
        simp only [Arr.set]
        rw [if_neg (by omega), if_neg (by omega)]
      · rfl
    rw [this]
    simp

/-! ## Vectors in general -/

theorem varFreqVec_full (cs : FVCollect) (C : List Lit) : (varFreqVec cs (fun _ => 0) C).2 = fun _ => 0 := by
  unfold varFreqVec
  split
  · exact collectVec_full cs C
  · rfl

theorem fvVector_full (cs : FVCollect) (perm : Option (List Nat)) (C : List Lit) : (fvVector cs perm (fun _ => 0) C).2 = fun _ => 0 := by
  unfold fvVector
  cases perm <;> exact varFreqVec_full cs C

theorem varFreqVec_mono (cs : FVCollect) {C D : List Lit} (h : CEmb C D) :
    List.Forall₂ (· ≤ ·) (varFreqVec cs (fun _ => 0) C).1 (varFreqVec cs (fun _ => 0) D).1 := by
  have key : ∀ (l : List Nat) (f g : Arr), (∀ i, f i ≤ g i) → List.Forall₂ (· ≤ ·) (l.map f) (l.map g) := by
    intro l f g hfg
    induction l with
    | nil => exact .nil
    | cons i l ih => exact .cons (hfg i) ih
  unfold varFreqVec
  split
  · exact key _ _ _ (collectVec_mono cs h)
  · exact key _ _ _ (addVals_mono cs.feat cs.maxSymbols h)

theorem varFreqVec_length (cs : FVCollect) (full : Arr) (C : List Lit) : (varFreqVec cs full C).1.length = cs.len := by
  unfold varFreqVec
  split <;> simp

theorem mapM_get_mono {p : List Nat} {a b : List Nat} (h : List.Forall₂ (· ≤ ·) a b) {v w : List Nat}
    (hv : p.mapM (fun i => a[i]?) = some v) (hw : p.mapM (fun i => b[i]?) = some w) : List.Forall₂ (· ≤ ·) v w := by
  induction p generalizing v w with
  | nil => simp at hv hw; subst hv hw; exact .nil
  | cons i p ih =>
    simp only [List.mapM_cons, Option.bind_eq_bind, Option.bind_eq_some_iff, Option.pure_def, Option.some.injEq] at hv hw
    obtain ⟨x, hx, v', hv', rfl⟩ := hv
    obtain ⟨y, hy, w', hw', rfl⟩ := hw
    refine .cons ?_ (ih hv' hw')
    rw [List.forall₂_iff_get] at h
    obtain ⟨hi, ex⟩ := List.getElem?_eq_some_iff.1 hx
    obtain ⟨hi', ey⟩ := List.getElem?_eq_some_iff.1 hy
    have := h.2 i hi hi'
    simp only [List.get_eq_getElem] at this
    omega

theorem fvVector_mono (cs : FVCollect) (perm : Option (List Nat)) {C D : List Lit} (h : CEmb C D) {v w : List Nat}
    (hv : (fvVector cs perm (fun _ => 0) C).1 = some v) (hw : (fvVector cs perm (fun _ => 0) D).1 = some w) :
    List.Forall₂ (· ≤ ·) v w := by
  unfold fvVector at hv hw
  cases perm with
  | none =>
    simp only [Option.some.injEq] at hv hw
    subst hv hw
    exact varFreqVec_mono cs h
  | some p => exact mapM_get_mono (varFreqVec_mono cs h) hv hw

theorem mapM_get_some {p : List Nat} {a : List Nat} (h : ∀ i ∈ p, i < a.length) : ∃ v, p.mapM (fun i => a[i]?) = some v ∧ v.length = p.length := by
  induction p with
  | nil => exact ⟨[], rfl, rfl⟩
  | cons i p ih =>
    obtain ⟨v, hv, hl⟩ := ih fun k hk => h k (by simp [hk])
    refine ⟨a[i]'(h i (by simp)) :: v, ?_, by simp [hl]⟩
    simp [List.mapM_cons, hv, h i (by simp)]

theorem mapM_get_len {p : List Nat} {a : List Nat} {v : List Nat} (h : p.mapM (fun i => a[i]?) = some v) : v.length = p.length := by
  induction p generalizing v with
  | nil => simp at h; subst h; rfl
  | cons i p ih =>
    simp only [List.mapM_cons, Option.bind_eq_bind, Option.bind_eq_some_iff, Option.pure_def, Option.some.injEq] at h
    obtain ⟨x, -, v', hv', rfl⟩ := h
    simp [ih hv']

def vecLen (cs : FVCollect) (perm : Option (List Nat)) : Nat := match perm with | none => cs.len | some p => p.length

theorem fvVector_length {cs : FVCollect} {perm : Option (List Nat)} {full : Arr} {C : List Lit} {v : List Nat}
    (h : (fvVector cs perm full C).1 = some v) : v.length = vecLen cs perm := by
  unfold fvVector at h
  cases perm with
  | none => simp only [Option.some.injEq] at h; subst h; exact varFreqVec_length cs full C
  | some p => exact mapM_get_len h

theorem forall2_antisymm {v w : List Nat} (h : List.Forall₂ (· ≤ ·) v w) (h' : List.Forall₂ (· ≤ ·) w v) : v = w := by
  induction h with
  | nil => rfl
  | cons h _ ih =>
    cases h' with
    | cons h1 h2 => rw [Nat.le_antisymm h h1, ih h2]

theorem fvVector_same {cs : FVCollect} {perm : Option (List Nat)} {C D : List Lit} (h : CEmb C D) (h' : CEmb D C) :
    fvVector cs perm (fun _ => 0) C = fvVector cs perm (fun _ => 0) D := by
  have e : (varFreqVec cs (fun _ => 0) C).1 = (varFreqVec cs (fun _ => 0) D).1 :=
    forall2_antisymm (varFreqVec_mono cs h) (varFreqVec_mono cs h')
  have e2 := (varFreqVec_full cs C).trans (varFreqVec_full cs D).symm
  have e3 : varFreqVec cs (fun _ => 0) C = varFreqVec cs (fun _ => 0) D := Prod.ext e e2
  unfold fvVector
  rw [e3]

end Verif.FVProof
