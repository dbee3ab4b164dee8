import Verif.Formulas.LetSem
import Mathlib.Data.List.Nodup

/-!
# Lemmas about the lifting of `$let`
-/

namespace Verif.LetLift

variable {D : Type} {ar : Nat → Nat}

theorem replaceL_map (m : List Entry) (ts : List LT) : replaceL m ts = ts.map (replace m) := by
  induction ts with
  | nil => rfl
  | cons t ts ih => rw [replaceL, ih]; rfl

theorem valL_map (I : Interp D) (v) (ts : List LT) : valL I v ts = ts.map (val I v) := by
  induction ts with
  | nil => rfl
  | cons t ts ih => rw [valL, ih]; rfl

theorem WFL_iff {k S F} {ts : List LT} : WFL ar k S F ts ↔ ∀ t ∈ ts, WF ar k S F t := by
  induction ts with
  | nil => simp [WFL]
  | cons t ts ih => simp [WFL, ih]

theorem LetFreeL_iff {ts : List LT} : LetFreeL ts ↔ ∀ t ∈ ts, LetFree t := by
  induction ts with
  | nil => simp [LetFreeL]
  | cons t ts ih => simp [LetFreeL, ih]

theorem fvsL_mem {ts : List LT} {x : Nat} : x ∈ fvsL ts ↔ ∃ t ∈ ts, x ∈ fvs t := by
  induction ts with
  | nil => simp [fvsL]
  | cons t ts ih => simp [fvsL, ih]

theorem updL_nmem (v : Nat → D) (xs : List Nat) (as : List D) {x : Nat} (h : x ∉ xs) : updL v xs as x = v x := by
  induction xs generalizing as with
  | nil => rfl
  | cons y xs ih =>
    cases as with
    | nil => rfl
    | cons a as =>
      simp at h
      rw [updL, upd1, if_neg h.1]
      exact ih as h.2

theorem updL_map (v : Nat → D) (xs : List Nat) (as : List D) (hn : xs.Nodup) (hl : as.length = xs.length) : xs.map (updL v xs as) = as := by
  induction xs generalizing as with
  | nil => cases as with
    | nil => rfl
    | cons => simp at hl
  | cons y xs ih =>
    cases as with
    | nil => simp at hl
    | cons a as =>
      simp at hl
      rw [List.nodup_cons] at hn
      rw [List.map_cons, updL]
      congr 1
      · simp [upd1]
      · conv => rhs; rw [← ih as hn.2 hl]
        refine List.map_congr_left fun x hx => ?_
        rw [upd1, if_neg]
        rintro rfl
        exact hn.1 hx

theorem valF_heads (I : Interp D) (v) (hs : List (Nat × List Nat)) (rs : List LT) {f : Nat} (h : f ∉ hs.map (·.1)) :
    (valF I v hs rs).lookup f = none := by
  induction rs generalizing hs with
  | nil => rw [valF]; rfl
  | cons r rs ih =>
    cases hs with
    | nil => rw [valF]; rfl
    | cons hd hs =>
      simp at h
      rw [valF]
      rw [List.lookup_cons]
      have : (f == hd.1) = false := by simp [h.1]
      rw [this]
      exact ih hs (by simpa using h.2)

/-! ## The value depends on the symbols that occur only -/

mutual
theorem val_ext {k : Nat} {I J : Interp D} (hq : I.qu = J.qu) (hf : ∀ f, f < k → I.fn f = J.fn f) : ∀ (t : LT) (S F : List Nat) (v : Nat → D),
    WF ar k S F t → val I v t = val J v t
  | .var n, S, F, v, h => by rw [val, val]
  | .app f ts, S, F, v, h => by
    rw [WF] at h
    rw [val, val, hf f h.1, valL_ext hq hf ts S F v h.2.2]
  | .quant q n b, S, F, v, h => by
    rw [WF] at h
    rw [val, val, hq]
    congr 1
    funext d
    exact val_ext hq hf b _ _ _ h.2
  | .letIn hs rs b, S, F, v, h => by
    rw [WF] at h
    rw [val, val, valF_ext hq hf rs hs S F v h.2.2.2.1]
    refine val_ext (I := over I _) (J := over J _) hq (fun f hk => ?_) b _ _ v h.2.2.2.2
    simp only [over, hf f hk]
theorem valL_ext {k : Nat} {I J : Interp D} (hq : I.qu = J.qu) (hf : ∀ f, f < k → I.fn f = J.fn f) : ∀ (ts : List LT) (S F : List Nat) (v : Nat → D),
    WFL ar k S F ts → valL I v ts = valL J v ts
  | [], S, F, v, h => by rw [valL, valL]
  | t :: ts, S, F, v, h => by
    rw [WFL] at h
    rw [valL, valL, val_ext hq hf t S F v h.1, valL_ext hq hf ts S F v h.2]
theorem valF_ext {k : Nat} {I J : Interp D} (hq : I.qu = J.qu) (hf : ∀ f, f < k → I.fn f = J.fn f) : ∀ (rs : List LT) (hs : List (Nat × List Nat)) (S F : List Nat)
    (v : Nat → D), WFD ar k S F hs rs → valF I v hs rs = valF J v hs rs
  | [], hs, S, F, v, h => by rw [valF, valF]
  | r :: rs, [], S, F, v, h => by rw [valF, valF]
  | r :: rs, hd :: hs, S, F, v, h => by
    rw [WFD] at h
    rw [valF, valF]
    rw [valF_ext hq hf rs hs S F v h.2]
    congr 2
    funext as
    exact val_ext hq hf r _ _ _ h.1
end

/-! ## Without `$let`: the value depends on the variables that occur only -/

mutual
theorem val_vars {k : Nat} {I : Interp D} : ∀ (t : LT) (S F : List Nat) (v w : Nat → D), LetFree t → WF ar k S F t → (∀ x ∈ S, v x = w x) →
    val I v t = val I w t
  | .var n, S, F, v, w, _, h, hv => by rw [WF] at h; rw [val, val]; exact hv n h
  | .app f ts, S, F, v, w, hl, h, hv => by
    rw [WF] at h
    rw [LetFree] at hl
    rw [val, val, valL_vars ts S F v w hl h.2.2 hv]
  | .quant q n b, S, F, v, w, hl, h, hv => by
    rw [WF] at h
    rw [LetFree] at hl
    rw [val, val]
    congr 1
    funext d
    refine val_vars b _ _ _ _ hl h.2 fun x hx => ?_
    unfold upd1
    split
    · rfl
    · next hne =>
      rcases List.mem_cons.1 hx with rfl | hx
      · exact absurd rfl hne
      · exact hv x hx
  | .letIn hs rs b, S, F, v, w, hl, h, hv => by rw [LetFree] at hl; exact hl.elim
theorem valL_vars {k : Nat} {I : Interp D} : ∀ (ts : List LT) (S F : List Nat) (v w : Nat → D), LetFreeL ts → WFL ar k S F ts → (∀ x ∈ S, v x = w x) →
    valL I v ts = valL I w ts
  | [], S, F, v, w, _, h, hv => by rw [valL, valL]
  | t :: ts, S, F, v, w, hl, h, hv => by
    rw [WFL] at h
    rw [LetFreeL] at hl
    rw [valL, valL, val_vars t S F v w hl.1 h.1 hv, valL_vars ts S F v w hl.2 h.2 hv]
end

mutual
/-- Scopes can be reduced to the free variables. -/
theorem wf_scope {k : Nat} : ∀ (t : LT) (S S' F : List Nat), LetFree t → WF ar k S F t → (∀ x ∈ S', x ∈ S) → (∀ x ∈ fvs t, x ∈ S') → WF ar k S' F t
  | .var n, S, S', F, _, h, h1, h2 => by rw [WF]; exact h2 n (by simp [fvs])
  | .app f ts, S, S', F, hl, h, h1, h2 => by
    rw [WF] at h ⊢
    rw [LetFree] at hl
    exact ⟨h.1, h.2.1, wfL_scope ts S S' F hl h.2.2 h1 (by rwa [fvs] at h2)⟩
  | .quant q n b, S, S', F, hl, h, h1, h2 => by
    rw [WF] at h ⊢
    rw [LetFree] at hl
    refine ⟨fun hn => h.1 (h1 n hn), wf_scope b (n :: S) (n :: S') F hl h.2 ?_ ?_⟩
    · intro x hx
      rcases List.mem_cons.1 hx with rfl | hx
      · simp
      · exact List.mem_cons_of_mem _ (h1 x hx)
    · intro x hx
      by_cases e : x = n
      · simp [e]
      · exact List.mem_cons_of_mem _ (h2 x (by rw [fvs]; simp [hx, e]))
  | .letIn hs rs b, S, S', F, hl, h, h1, h2 => by rw [LetFree] at hl; exact hl.elim
theorem wfL_scope {k : Nat} : ∀ (ts : List LT) (S S' F : List Nat), LetFreeL ts → WFL ar k S F ts → (∀ x ∈ S', x ∈ S) → (∀ x ∈ fvsL ts, x ∈ S') →
    WFL ar k S' F ts
  | [], S, S', F, _, h, h1, h2 => by rw [WFL]; trivial
  | t :: ts, S, S', F, hl, h, h1, h2 => by
    rw [WFL] at h ⊢
    rw [LetFreeL] at hl
    rw [fvsL] at h2
    exact ⟨wf_scope t S S' F hl.1 h.1 h1 fun x hx => h2 x (by simp [hx]), wfL_scope ts S S' F hl.2 h.2 h1 fun x hx => h2 x (by simp [hx])⟩
end

mutual
theorem fvs_scope {k : Nat} : ∀ (t : LT) (S F : List Nat), LetFree t → WF ar k S F t → ∀ x ∈ fvs t, x ∈ S
  | .var n, S, F, _, h, x, hx => by rw [fvs] at hx; rw [WF] at h; simp at hx; rwa [hx]
  | .app f ts, S, F, hl, h, x, hx => by
    rw [WF] at h
    rw [LetFree] at hl
    rw [fvs] at hx
    exact fvsL_scope ts S F hl h.2.2 x hx
  | .quant q n b, S, F, hl, h, x, hx => by
    rw [WF] at h
    rw [LetFree] at hl
    rw [fvs] at hx
    simp at hx
    rcases List.mem_cons.1 (fvs_scope b _ _ hl h.2 x hx.1) with e | hx'
    · exact absurd e hx.2
    · exact hx'
  | .letIn hs rs b, S, F, hl, h, x, hx => by rw [LetFree] at hl; exact hl.elim
theorem fvsL_scope {k : Nat} : ∀ (ts : List LT) (S F : List Nat), LetFreeL ts → WFL ar k S F ts → ∀ x ∈ fvsL ts, x ∈ S
  | [], S, F, _, h, x, hx => by rw [fvsL] at hx; simp at hx
  | t :: ts, S, F, hl, h, x, hx => by
    rw [WFL] at h
    rw [LetFreeL] at hl
    rw [fvsL] at hx
    rcases List.mem_append.1 hx with hx | hx
    · exact fvs_scope t S F hl.1 h.1 x hx
    · exact fvsL_scope ts S F hl.2 h.2 x hx
end

mutual
/-- More symbols. -/
theorem wf_mono {k k' : Nat} (hk : k ≤ k') : ∀ (t : LT) (S F : List Nat), WF ar k S F t → WF ar k' S F t
  | .var n, S, F, h => by rw [WF] at h ⊢; exact h
  | .app f ts, S, F, h => by
    rw [WF] at h ⊢
    exact ⟨by omega, h.2.1, wfL_mono hk ts S F h.2.2⟩
  | .quant q n b, S, F, h => by
    rw [WF] at h ⊢
    exact ⟨h.1, wf_mono hk b _ _ h.2⟩
  | .letIn hs rs b, S, F, h => by
    rw [WF] at h ⊢
    refine ⟨h.1, h.2.1, fun x hx => ?_, wfD_mono hk rs hs S F h.2.2.2.1, wf_mono hk b _ _ h.2.2.2.2⟩
    have := h.2.2.1 x hx
    exact ⟨this.1, by omega, this.2.2⟩
theorem wfL_mono {k k' : Nat} (hk : k ≤ k') : ∀ (ts : List LT) (S F : List Nat), WFL ar k S F ts → WFL ar k' S F ts
  | [], S, F, h => by rw [WFL]; trivial
  | t :: ts, S, F, h => by
    rw [WFL] at h ⊢
    exact ⟨wf_mono hk t S F h.1, wfL_mono hk ts S F h.2⟩
theorem wfD_mono {k k' : Nat} (hk : k ≤ k') : ∀ (rs : List LT) (hs : List (Nat × List Nat)) (S F : List Nat), WFD ar k S F hs rs → WFD ar k' S F hs rs
  | [], hs, S, F, h => by rw [WFD]; trivial
  | r :: rs, [], S, F, h => by rw [WFD]; trivial
  | r :: rs, hd :: hs, S, F, h => by
    rw [WFD] at h ⊢
    exact ⟨wf_mono hk r _ _ h.1, wfD_mono hk rs hs S F h.2⟩
end

/-! ## Replacement in the body -/

/-- The entries are as `close_let_def` makes them. -/
def MOK (ar : Nat → Nat) (k : Nat) (S F : List Nat) (m : List Entry) : Prop := ∀ f e, find m f = some e →
  f ∈ F ∧ k ≤ e.g ∧ e.xs.length = ar f ∧ e.xs.Nodup ∧ ∀ x ∈ e.fv, x ∈ S ∧ x ∉ e.xs

theorem MOK.mono {k S F S' F' m} (h : MOK ar k S F m) (hS : ∀ x ∈ S, x ∈ S') (hF : ∀ x ∈ F, x ∈ F') : MOK ar k S' F' m :=
  fun f e he => ⟨hF _ (h f e he).1, (h f e he).2.1, (h f e he).2.2.1, (h f e he).2.2.2.1,
    fun x hx => ⟨hS x ((h f e he).2.2.2.2 x hx).1, ((h f e he).2.2.2.2 x hx).2⟩⟩

theorem lookup_zip_nmem {xs : List Nat} {as : List LT} {x : Nat} (h : x ∉ xs) : (xs.zip as).lookup x = none := by
  induction xs generalizing as with
  | nil => rfl
  | cons y xs ih =>
    cases as with
    | nil => rfl
    | cons a as =>
      simp at h
      rw [List.zip_cons_cons, List.lookup_cons]
      have : (x == y) = false := by simp [h.1]
      rw [this]
      exact ih h.2

theorem map_lookup_zip {xs : List Nat} {as : List LT} (hn : xs.Nodup) (hl : as.length = xs.length) :
    xs.map (fun x => ((xs.zip as).lookup x).getD (.var x)) = as := by
  induction xs generalizing as with
  | nil => cases as with
    | nil => rfl
    | cons => simp at hl
  | cons y xs ih =>
    cases as with
    | nil => simp at hl
    | cons a as =>
      simp at hl
      rw [List.nodup_cons] at hn
      rw [List.map_cons]
      congr 1
      · simp
      · conv => rhs; rw [← ih hn.2 hl]
        refine List.map_congr_left fun x hx => ?_
        have : (x == y) = false := by
          simp only [beq_eq_false_iff_ne]
          rintro rfl
          exact hn.1 hx
        rw [List.zip_cons_cons, List.lookup_cons, this]

theorem instDef_eq {e : Entry} {as : List LT} (hn : e.xs.Nodup) (hl : as.length = e.xs.length) (hf : ∀ x ∈ e.fv, x ∉ e.xs) :
    instDef e as = .app e.g (e.fv.map .var ++ as) := by
  unfold instDef
  rw [List.map_append, map_lookup_zip hn hl]
  congr 2
  refine List.map_congr_left fun x hx => ?_
  rw [lookup_zip_nmem (hf x hx)]
  rfl

/-- The interpretation of the new symbols `J` fits the interpretation `J'` of the local ones. -/
def Fits (ar : Nat → Nat) (k : Nat) (m : List Entry) (J J' : Interp D) (v : Nat → D) : Prop := J.qu = J'.qu ∧ ∀ f, f < k →
  (find m f = none → J.fn f = J'.fn f) ∧ (∀ e, find m f = some e → ∀ as, as.length = ar f → J.fn e.g (e.fv.map v ++ as) = J'.fn f as)

theorem Fits.vars {k S F m} {J J' : Interp D} {v w : Nat → D} (h : Fits ar k m J J' v) (hm : MOK ar k S F m) (hv : ∀ x ∈ S, w x = v x) : Fits ar k m J J' w := by
  refine ⟨h.1, fun f hf => ⟨(h.2 f hf).1, fun e he as hl => ?_⟩⟩
  rw [← (h.2 f hf).2 e he as hl]
  congr 2
  exact List.map_congr_left fun x hx => hv x (((hm f e he).2.2.2.2 x hx).1)

theorem Fits.over {k S F m} {J J' : Interp D} {v : Nat → D} (h : Fits ar k m J J' v) (hm : MOK ar k S F m) {fs : List (Nat × (List D → D))}
    (h1 : ∀ f, f ∈ F → fs.lookup f = none) (h2 : ∀ f, k ≤ f → fs.lookup f = none) : Fits ar k m (over J fs) (over J' fs) v := by
  refine ⟨h.1, fun f hf => ⟨fun hn => ?_, fun e he as hl => ?_⟩⟩
  · simp only [LetLift.over, (h.2 f hf).1 hn]
  · have hh := hm f e he
    simp only [LetLift.over, h1 f hh.1, h2 e.g hh.2.1, Option.getD_none]
    exact (h.2 f hf).2 e he as hl

mutual
theorem val_replace {k : Nat} {m : List Entry} : ∀ (t : LT) (S F : List Nat) (J J' : Interp D) (v : Nat → D), WF ar k S F t → MOK ar k S F m →
    Fits ar k m J J' v → val J v (replace m t) = val J' v t
  | .var n, S, F, J, J', v, h, hm, hf => by rw [replace, val, val]
  | .app f ts, S, F, J, J', v, h, hm, hf => by
    rw [WF] at h
    have ih := valL_replace ts S F J J' v h.2.2 hm hf
    rw [replace]
    cases he : find m f with
    | none =>
      dsimp only
      rw [val, val, ih, (hf.2 f h.1).1 he]
    | some e =>
      dsimp only
      have hh := hm f e he
      have hl : (replaceL m ts).length = e.xs.length := by rw [replaceL_map, List.length_map, hh.2.2.1]; exact h.2.1 hh.1
      rw [instDef_eq hh.2.2.2.1 hl fun x hx => (hh.2.2.2.2 x hx).2, val, val, valL_map, List.map_append, ← valL_map J v (replaceL m ts), ih]
      rw [← (hf.2 f h.1).2 e he (valL J' v ts) (by rw [valL_map, List.length_map]; exact h.2.1 hh.1)]
      congr 2
      rw [List.map_map]
      refine List.map_congr_left fun x _ => ?_
      simp [val]
  | .quant q n b, S, F, J, J', v, h, hm, hf => by
    rw [WF] at h
    rw [replace, val, val, hf.1]
    congr 1
    funext d
    refine val_replace b _ _ _ _ _ h.2 (hm.mono (fun x hx => List.mem_cons_of_mem _ hx) fun x hx => hx) (hf.vars hm fun x hx => ?_)
    rw [upd1, if_neg]
    rintro rfl
    exact h.1 hx
  | .letIn hs rs b, S, F, J, J', v, h, hm, hf => by
    rw [WF] at h
    rw [replace, val, val, valF_replace rs hs S F J J' v h.2.2.2.1 (fun hd hhd => (h.2.2.1 hd hhd).2.2.2.2) hm hf]
    refine val_replace b S _ _ _ v h.2.2.2.2 (hm.mono (fun x hx => hx) fun x hx => List.mem_append_right _ hx) (hf.over hm ?_ ?_)
    · intro f hF
      refine valF_heads _ _ _ _ fun hmem => ?_
      obtain ⟨hd, hhd, rfl⟩ := List.mem_map.1 hmem
      exact (h.2.2.1 hd hhd).1 hF
    · intro f hF
      refine valF_heads _ _ _ _ fun hmem => ?_
      obtain ⟨hd, hhd, rfl⟩ := List.mem_map.1 hmem
      have := (h.2.2.1 hd hhd).2.1
      omega
theorem valL_replace {k : Nat} {m : List Entry} : ∀ (ts : List LT) (S F : List Nat) (J J' : Interp D) (v : Nat → D), WFL ar k S F ts → MOK ar k S F m →
    Fits ar k m J J' v → valL J v (replaceL m ts) = valL J' v ts
  | [], S, F, J, J', v, h, hm, hf => by rw [replaceL, valL, valL]
  | t :: ts, S, F, J, J', v, h, hm, hf => by
    rw [WFL] at h
    rw [replaceL, valL, valL, val_replace t S F J J' v h.1 hm hf, valL_replace ts S F J J' v h.2 hm hf]
theorem valF_replace {k : Nat} {m : List Entry} : ∀ (rs : List LT) (hs : List (Nat × List Nat)) (S F : List Nat) (J J' : Interp D) (v : Nat → D), WFD ar k S F hs rs →
    (∀ h ∈ hs, ∀ x ∈ h.2, x ∉ S) → MOK ar k S F m → Fits ar k m J J' v → valF J v hs (replaceL m rs) = valF J' v hs rs
  | [], hs, S, F, J, J', v, h, hx, hm, hf => by rw [replaceL, valF, valF]
  | r :: rs, [], S, F, J, J', v, h, hx, hm, hf => by rw [replaceL, valF, valF]
  | r :: rs, hd :: hs, S, F, J, J', v, h, hx, hm, hf => by
    rw [WFD] at h
    rw [replaceL, valF, valF]
    rw [valF_replace rs hs S F J J' v h.2 (fun x hh => hx x (List.mem_cons_of_mem _ hh)) hm hf]
    congr 2
    funext as
    refine val_replace r _ _ _ _ _ h.1 (hm.mono (fun x hx => List.mem_append_right _ hx) fun x hx => hx) (hf.vars hm fun x hxS => ?_)
    exact updL_nmem _ _ _ fun hmem => hx hd (by simp) x hmem hxS
end

mutual
theorem wf_replace {k k' : Nat} {m : List Entry} (hk : k ≤ k') (hg : ∀ f e, find m f = some e → e.g < k') : ∀ (t : LT) (S F F' : List Nat), WF ar k S F t →
    MOK ar k S F m → (∀ f ∈ F', f < k ∧ f ∈ F ∧ find m f = none) → WF ar k' S F' (replace m t)
  | .var n, S, F, F', h, hm, hF => by rw [WF] at h; rw [replace, WF]; exact h
  | .app f ts, S, F, F', h, hm, hF => by
    rw [WF] at h
    have ih := wfL_replace hk hg ts S F F' h.2.2 hm hF
    rw [replace]
    cases he : find m f with
    | none =>
      dsimp only
      rw [WF]
      exact ⟨by omega, fun hf => by rw [replaceL_map, List.length_map]; exact h.2.1 (hF f hf).2.1, ih⟩
    | some e =>
      dsimp only
      have hh := hm f e he
      have hl : (replaceL m ts).length = e.xs.length := by rw [replaceL_map, List.length_map, hh.2.2.1]; exact h.2.1 hh.1
      rw [instDef_eq hh.2.2.2.1 hl fun x hx => (hh.2.2.2.2 x hx).2, WF]
      refine ⟨hg f e he, fun hf => ?_, ?_⟩
      · have := (hF _ hf).1
        omega
      · rw [WFL_iff] at ih ⊢
        intro t ht
        rcases List.mem_append.1 ht with ht | ht
        · obtain ⟨x, hx, rfl⟩ := List.mem_map.1 ht
          rw [WF]
          exact (hh.2.2.2.2 x hx).1
        · exact ih t ht
  | .quant q n b, S, F, F', h, hm, hF => by
    rw [WF] at h
    rw [replace, WF]
    exact ⟨h.1, wf_replace hk hg b _ _ _ h.2 (hm.mono (fun x hx => List.mem_cons_of_mem _ hx) fun x hx => hx) hF⟩
  | .letIn hs rs b, S, F, F', h, hm, hF => by
    rw [WF] at h
    rw [replace, WF]
    refine ⟨by rw [replaceL_map, List.length_map]; exact h.1, h.2.1, fun hd hhd => ?_, wfD_replace hk hg rs hs S F F' h.2.2.2.1 hm hF,
      wf_replace hk hg b S _ _ h.2.2.2.2 (hm.mono (fun x hx => hx) fun x hx => List.mem_append_right _ hx) ?_⟩
    · have := h.2.2.1 hd hhd
      exact ⟨fun hf => this.1 (hF _ hf).2.1, by omega, this.2.2⟩
    · intro f hf
      rcases List.mem_append.1 hf with hf | hf
      · refine ⟨?_, List.mem_append_left _ hf, ?_⟩
        · obtain ⟨hd, hhd, rfl⟩ := List.mem_map.1 hf
          exact (h.2.2.1 hd hhd).2.1
        · obtain ⟨hd, hhd, rfl⟩ := List.mem_map.1 hf
          cases he : find m hd.1 with
          | none => rfl
          | some e => exact absurd (hm _ _ he).1 (h.2.2.1 hd hhd).1
      · have := hF f hf
        exact ⟨this.1, List.mem_append_right _ this.2.1, this.2.2⟩
theorem wfL_replace {k k' : Nat} {m : List Entry} (hk : k ≤ k') (hg : ∀ f e, find m f = some e → e.g < k') : ∀ (ts : List LT) (S F F' : List Nat), WFL ar k S F ts →
    MOK ar k S F m → (∀ f ∈ F', f < k ∧ f ∈ F ∧ find m f = none) → WFL ar k' S F' (replaceL m ts)
  | [], S, F, F', h, hm, hF => by rw [replaceL, WFL]; trivial
  | t :: ts, S, F, F', h, hm, hF => by
    rw [WFL] at h
    rw [replaceL, WFL]
    exact ⟨wf_replace hk hg t S F F' h.1 hm hF, wfL_replace hk hg ts S F F' h.2 hm hF⟩
theorem wfD_replace {k k' : Nat} {m : List Entry} (hk : k ≤ k') (hg : ∀ f e, find m f = some e → e.g < k') : ∀ (rs : List LT) (hs : List (Nat × List Nat)) (S F F' : List Nat),
    WFD ar k S F hs rs → MOK ar k S F m → (∀ f ∈ F', f < k ∧ f ∈ F ∧ find m f = none) → WFD ar k' S F' hs (replaceL m rs)
  | [], hs, S, F, F', h, hm, hF => by rw [replaceL, WFD]; trivial
  | r :: rs, [], S, F, F', h, hm, hF => by rw [replaceL, WFD]; trivial
  | r :: rs, hd :: hs, S, F, F', h, hm, hF => by
    rw [WFD] at h
    rw [replaceL, WFD]
    exact ⟨wf_replace hk hg r _ F F' h.1 (hm.mono (fun x hx => List.mem_append_right _ hx) fun x hx => hx) hF, wfD_replace hk hg rs hs S F F' h.2 hm hF⟩
end

end Verif.LetLift
