import Verif.Formulas.LetProof

/-!
# The lifting of `$let`: invariants
-/

namespace Verif.LetLift

variable {D : Type} {ar : Nat → Nat}

/-- New definitions: new symbols, and right sides over older symbols and the variables of the left sides. -/
structure New (ar : Nat → Nat) (lo hi : Nat) (ds : List Def) : Prop where
  rng : ∀ d ∈ ds, lo ≤ d.g ∧ d.g < hi
  ok : ∀ d ∈ ds, LetFree d.rhs ∧ d.vars.Nodup ∧ WF ar d.g d.vars [] d.rhs
  nd : (ds.map (·.g)).Nodup

theorem New.nil {lo hi} : New ar lo hi [] := ⟨by simp, by simp, by simp⟩

theorem New.append {lo mid hi ds es} (h : New ar lo mid ds) (h2 : New ar mid hi es) (h1 : lo ≤ mid) (h3 : mid ≤ hi) : New ar lo hi (ds ++ es) := by
  refine ⟨fun d hd => ?_, fun d hd => ?_, ?_⟩
  · rcases List.mem_append.1 hd with hd | hd
    · have := h.rng d hd; omega
    · have := h2.rng d hd; omega
  · rcases List.mem_append.1 hd with hd | hd
    · exact h.ok d hd
    · exact h2.ok d hd
  · rw [List.map_append, List.nodup_append]
    refine ⟨h.nd, h2.nd, fun a ha b hb e => ?_⟩
    obtain ⟨d, hd, rfl⟩ := List.mem_map.1 ha
    obtain ⟨d', hd', rfl⟩ := List.mem_map.1 hb
    have := h.rng d hd
    have := h2.rng d' hd'
    omega

/-- The definition of an entry. -/
def Entry.toDef (e : Entry) (r : LT) : Def := ⟨e.g, e.fv ++ e.xs, r⟩

/-- The entries and right sides that belong to left sides. -/
inductive Ents (ar : Nat → Nat) (S : List Nat) : List (Nat × List Nat) → List LT → List Entry → Prop
  | nil : Ents ar S [] [] []
  | cons {h hs r rs e m} : e.f = h.1 → e.xs = h.2 → e.fv.Nodup → (∀ x ∈ e.fv, x ∈ S ∧ x ∉ h.2) → LetFree r → WF ar e.g (e.fv ++ e.xs) [] r →
      Ents ar S hs rs m → Ents ar S (h :: hs) (r :: rs) (e :: m)

theorem Ents.f {S hs rs m} (h : Ents ar S hs rs m) : m.map (·.f) = hs.map (·.1) := by
  induction h with
  | nil => rfl
  | cons h1 _ _ _ _ _ _ ih => simp [h1, ih]

theorem find_none {m : List Entry} {f : Nat} (h : f ∉ m.map (·.f)) : find m f = none := by
  unfold find
  rw [List.find?_eq_none]
  intro e he
  simp only [decide_eq_true_eq]
  rintro rfl
  exact h (List.mem_map_of_mem he)

theorem find_cons (e : Entry) (m : List Entry) (f : Nat) : find (e :: m) f = if e.f = f then some e else find m f := by
  unfold find
  rw [List.find?_cons]
  by_cases h : e.f = f <;> simp [h]

theorem makeDefs_eq {S hs rs m} (h : Ents ar S hs rs m) (pre : List Entry) (hn : ((pre ++ m).map (·.f)).Nodup) :
    makeDefs (pre ++ m) hs rs = List.zipWith Entry.toDef m rs := by
  induction h generalizing pre with
  | nil => simp [makeDefs]
  | @cons hd hs r rs e m h1 h2 h3 h4 h5 h6 _ ih =>
    have hf : find (pre ++ e :: m) hd.1 = some e := by
      unfold find
      rw [List.find?_append]
      have : pre.find? (·.f = hd.1) = none := by
        rw [List.find?_eq_none]
        intro e' he'
        simp only [decide_eq_true_eq]
        intro e0
        rw [List.map_append, List.nodup_append] at hn
        exact hn.2.2 e'.f (List.mem_map_of_mem he') e.f (by simp) (by rw [e0, h1])
      rw [this]
      simp [h1]
    rw [makeDefs, hf]
    have := ih (pre ++ [e]) (by simpa using hn)
    simp only [List.append_assoc, List.cons_append, List.nil_append] at this
    rw [this]
    rfl

theorem MOK_of {S hs rs m} {k : Nat} (h : Ents ar S hs rs m) (hh : ∀ h ∈ hs, h.2.length = ar h.1 ∧ h.2.Nodup) (hk : ∀ e ∈ m, k ≤ e.g) :
    MOK ar k S (hs.map (·.1)) m := by
  induction h with
  | nil => intro f e he; simp [find] at he
  | @cons hd hs r rs e m h1 h2 h3 h4 h5 h6 _ ih =>
    intro f e' he'
    rw [find_cons] at he'
    split at he'
    · next hf =>
      cases he'
      have := hh hd (by simp)
      refine ⟨by simp [← hf, h1], hk e (by simp), by rw [h2, this.1, ← hf, h1], by rw [h2]; exact this.2, fun x hx => ?_⟩
      rw [h2]
      exact h4 x hx
    · obtain ⟨q1, q2⟩ := ih (fun h hm => hh h (List.mem_cons_of_mem _ hm)) (fun e hm => hk e (List.mem_cons_of_mem _ hm)) f e' he'
      exact ⟨List.mem_cons_of_mem _ q1, q2⟩

/-- If the definitions hold, the new symbols fit the local ones. -/
theorem fits_of {S hs rs m} (h : Ents ar S hs rs m) (hh : ∀ h ∈ hs, h.2.length = ar h.1 ∧ h.2.Nodup) (I : Interp D) (v : Nat → D)
    (hd : ∀ d ∈ List.zipWith Entry.toDef m rs, Holds I d) (f : Nat) :
    (find m f = none → (valF I v hs rs).lookup f = none) ∧
    (∀ e, find m f = some e → ∃ F, (valF I v hs rs).lookup f = some F ∧ ∀ as, as.length = ar f → I.fn e.g (e.fv.map v ++ as) = F as) := by
  induction h with
  | nil => simp [find, valF]
  | @cons h hs r rs e m h1 h2 h3 h4 h5 h6 _ ih =>
    rw [find_cons, valF, List.lookup_cons]
    by_cases hf : e.f = f
    · rw [if_pos hf]
      have : (f == h.1) = true := by rw [← hf, h1]; simp
      rw [this]
      refine ⟨by simp, fun e' he' => ?_⟩
      cases he'
      refine ⟨_, rfl, fun as hl => ?_⟩
      have hx := hh h (by simp)
      have hl' : as.length = h.2.length := by rw [hl, hx.1, ← hf, h1]
      have := hd (e.toDef r) (by simp) (updL v h.2 as)
      rw [← show (e.toDef r).rhs = r from rfl, ← this]
      show _ = I.fn e.g ((e.fv ++ e.xs).map _)
      rw [List.map_append, h2, updL_map _ _ _ hx.2 hl']
      congr 2
      exact List.map_congr_left fun x hxm => (updL_nmem _ _ _ (h4 x hxm).2).symm
    · rw [if_neg hf]
      have : (f == h.1) = false := by
        rw [← h1]
        simp [Ne.symm hf]
      rw [this]
      exact ih (fun h hm => hh h (List.mem_cons_of_mem _ hm)) fun d hdm => hd d (by simp [hdm])

/-- What `lift_lets` guarantees. -/
structure Post (ar : Nat → Nat) (S : List Nat) (st st' : St) (t t' : LT) (new : List Def) : Prop where
  le : st.k ≤ st'.k
  defs : st'.defs = st.defs ++ new
  isNew : New ar st.k st'.k new
  free : LetFree t'
  wf : WF ar st'.k S [] t'
  val : ∀ (D : Type) (I : Interp D), (∀ d ∈ new, Holds I d) → ∀ v, val I v t' = val I v t

structure PostL (ar : Nat → Nat) (S : List Nat) (st st' : St) (ts ts' : List LT) (new : List Def) : Prop where
  le : st.k ≤ st'.k
  defs : st'.defs = st.defs ++ new
  isNew : New ar st.k st'.k new
  free : LetFreeL ts'
  wf : WFL ar st'.k S [] ts'
  val : ∀ (D : Type) (I : Interp D), (∀ d ∈ new, Holds I d) → ∀ v, valL I v ts' = valL I v ts

structure PostD (ar : Nat → Nat) (S : List Nat) (st st' : St) (hs : List (Nat × List Nat)) (rs rs' : List LT) (m : List Entry) (new : List Def) : Prop where
  le : st.k ≤ st'.k
  defs : st'.defs = st.defs ++ new
  isNew : New ar st.k st'.k (new ++ List.zipWith Entry.toDef m rs')
  ents : Ents ar S hs rs' m
  rng : ∀ e ∈ m, st.k ≤ e.g ∧ e.g < st'.k
  val : ∀ (D : Type) (I : Interp D), (∀ d ∈ new, Holds I d) → ∀ v, valF I v hs rs' = valF I v hs rs

theorem closeDef_fv {k : Nat} {h : Nat × List Nat} {r : LT} {S : List Nat} {k' : Nat} (hl : LetFree r) (hw : WF ar k' (h.2 ++ S) [] r) :
    (closeDef k h r).fv.Nodup ∧ (∀ x ∈ (closeDef k h r).fv, x ∈ S ∧ x ∉ h.2) ∧ WF ar k' ((closeDef k h r).fv ++ h.2) [] r := by
  have hmem : ∀ x, x ∈ (closeDef k h r).fv ↔ x ∈ fvs r ∧ x ∉ h.2 := by
    intro x
    simp [closeDef]
  refine ⟨List.nodup_dedup _, fun x hx => ?_, ?_⟩
  · obtain ⟨h1, h2⟩ := (hmem x).1 hx
    refine ⟨?_, h2⟩
    rcases List.mem_append.1 (fvs_scope r _ _ hl hw x h1) with h3 | h3
    · exact absurd h3 h2
    · exact h3
  · refine wf_scope r _ _ _ hl hw (fun x hx => ?_) fun x hx => ?_
    · rcases List.mem_append.1 hx with hx | hx
      · exact fvs_scope r _ _ hl hw x ((hmem x).1 hx).1
      · exact List.mem_append_left _ hx
    · by_cases h2 : x ∈ h.2
      · exact List.mem_append_right _ h2
      · exact List.mem_append_left _ ((hmem x).2 ⟨hx, h2⟩)

theorem lift_post (n : Nat) :
    (∀ t st t' st' S, WF ar st.k S [] t → lift n t st = some (t', st') → ∃ new, Post ar S st st' t t' new) ∧
    (∀ ts st ts' st' S, WFL ar st.k S [] ts → liftL n ts st = some (ts', st') → ∃ new, PostL ar S st st' ts ts' new) ∧
    (∀ hs rs st rs' m st' S, hs.length = rs.length → (∀ h ∈ hs, h.2.Nodup) → WFD ar st.k S [] hs rs → liftDs n hs rs st = some (rs', m, st') →
      ∃ new, PostD ar S st st' hs rs rs' m new) := by
  induction n with
  | zero => simp [lift, liftL, liftDs]
  | succ n ih =>
    obtain ⟨ihA, ihB, ihC⟩ := ih
    refine ⟨fun t st t' st' S hw h => ?_, fun ts st ts' st' S hw h => ?_, fun hs rs st rs' m st' S hlen hnd hw h => ?_⟩
    · cases t with
      | var x =>
        rw [lift] at h
        cases h
        exact ⟨[], Nat.le_refl _, by simp, New.nil, by simp [LetFree], hw, fun _ _ _ _ => rfl⟩
      | app f ts =>
        rw [lift] at h
        simp only [Option.map_eq_some_iff] at h
        obtain ⟨⟨ts', st1⟩, h1, h2⟩ := h
        cases h2
        rw [WF] at hw
        obtain ⟨new, p⟩ := ihB _ _ _ _ S hw.2.2 h1
        refine ⟨new, p.le, p.defs, p.isNew, by rw [LetFree]; exact p.free, ?_, fun D I hd v => ?_⟩
        · rw [WF]
          exact ⟨Nat.lt_of_lt_of_le hw.1 p.le, by simp, p.wf⟩
        · rw [val, val, p.val D I hd v]
      | quant q x b =>
        rw [lift] at h
        simp only [Option.map_eq_some_iff] at h
        obtain ⟨⟨b', st1⟩, h1, h2⟩ := h
        cases h2
        rw [WF] at hw
        obtain ⟨new, p⟩ := ihA _ _ _ _ _ hw.2 h1
        refine ⟨new, p.le, p.defs, p.isNew, by rw [LetFree]; exact p.free, by rw [WF]; exact ⟨hw.1, p.wf⟩, fun D I hd v => ?_⟩
        rw [val, val]
        congr 1
        funext d
        exact p.val D I hd _
      | letIn hs rs b =>
        rw [lift] at h
        split at h
        · cases h
        · next rs' m st1 h1 =>
          rw [WF] at hw
          obtain ⟨w1, w2, w3, w4, w5⟩ := hw
          obtain ⟨new, p⟩ := ihC _ _ _ _ _ _ S w1 (fun h hm => (w3 h hm).2.2.2.1) w4 h1
          have hh : ∀ h ∈ hs, h.2.length = ar h.1 ∧ h.2.Nodup := fun h hm => ⟨(w3 h hm).2.2.1, (w3 h hm).2.2.2.1⟩
          have hmok : MOK ar st.k S (hs.map (·.1) ++ []) m := by
            rw [List.append_nil]
            exact MOK_of p.ents hh fun e he => (p.rng e he).1
          have hmd : makeDefs m hs rs' = List.zipWith Entry.toDef m rs' :=
            makeDefs_eq p.ents [] (by rw [List.nil_append, p.ents.f]; exact w2)
          have hg : ∀ f e, find m f = some e → e.g < st1.k := by
            intro f e he
            exact (p.rng e (List.mem_of_find?_eq_some he)).2
          have hwb : WF ar st1.k S [] (replace m b) := wf_replace p.le hg b S _ [] w5 hmok (by simp)
          obtain ⟨new2, p2⟩ := ihA _ _ _ _ S (by exact hwb) h
          refine ⟨(new ++ List.zipWith Entry.toDef m rs') ++ new2, Nat.le_trans p.le p2.le, ?_, p.isNew.append p2.isNew p.le p2.le, p2.free, p2.wf, fun D I hd v => ?_⟩
          · rw [p2.defs]
            simp only [p.defs, hmd, List.append_assoc]
          · rw [p2.val D I (fun d hm => hd d (by simp [hm])) v, val, ← p.val D I (fun d hm => hd d (by simp [hm])) v]
            refine val_replace b S _ _ _ v w5 hmok ⟨rfl, fun f hf => ?_⟩
            obtain ⟨q1, q2⟩ := fits_of p.ents hh I v (fun d hm => hd d (by simp [hm])) f
            refine ⟨fun hn => ?_, fun e he as hl => ?_⟩
            · simp only [over, q1 hn, Option.getD_none]
            · obtain ⟨F, hF, hF2⟩ := q2 e he
              simp only [over, hF, Option.getD_some]
              exact hF2 as hl
    · cases ts with
      | nil =>
        rw [liftL] at h
        cases h
        exact ⟨[], Nat.le_refl _, by simp, New.nil, by simp [LetFreeL], by simp [WFL], fun _ _ _ _ => rfl⟩
      | cons t ts =>
        rw [liftL] at h
        split at h
        · cases h
        · next t' st1 h1 =>
          simp only [Option.map_eq_some_iff] at h
          obtain ⟨⟨ts', st2⟩, h2, h3⟩ := h
          cases h3
          rw [WFL] at hw
          obtain ⟨new, p⟩ := ihA _ _ _ _ S hw.1 h1
          obtain ⟨new2, p2⟩ := ihB _ _ _ _ S (wfL_mono p.le _ _ _ hw.2) h2
          refine ⟨new ++ new2, Nat.le_trans p.le p2.le, by rw [p2.defs, p.defs, List.append_assoc], p.isNew.append p2.isNew p.le p2.le,
            by rw [LetFreeL]; exact ⟨p.free, p2.free⟩, by rw [WFL]; exact ⟨wf_mono p2.le _ _ _ p.wf, p2.wf⟩, fun D I hd v => ?_⟩
          rw [valL, valL, p.val D I (fun d hm => hd d (by simp [hm])) v, p2.val D I (fun d hm => hd d (by simp [hm])) v]
    · cases hs with
      | nil =>
        cases rs with
        | nil =>
          simp only [liftDs] at h
          cases h
          exact ⟨[], Nat.le_refl _, by simp, New.nil, .nil, by simp, fun _ _ _ _ => rfl⟩
        | cons => simp at hlen
      | cons hd hs =>
        cases rs with
        | nil => simp at hlen
        | cons r rs =>
          rw [liftDs] at h
          split at h
          · cases h
          · next r' st1 h1 =>
            simp only [Option.map_eq_some_iff] at h
            obtain ⟨⟨rs', m', st2⟩, h2, h3⟩ := h
            simp only [Prod.mk.injEq] at h3
            obtain ⟨rfl, rfl, rfl⟩ := h3
            rw [WFD] at hw
            obtain ⟨new, p⟩ := ihA _ _ _ _ _ hw.1 h1
            have hle : st1.k ≤ st1.k + 1 := Nat.le_succ _
            obtain ⟨new2, p2⟩ := ihC _ _ _ _ _ _ S (by simpa using hlen) (fun h hm => hnd h (List.mem_cons_of_mem _ hm))
              (wfD_mono (k' := st1.k + 1) (Nat.le_trans p.le hle) _ _ _ _ hw.2) h2
            obtain ⟨c1, c2, c3⟩ := closeDef_fv (k := st1.k) p.free p.wf
            have l1 := p.le
            have l2 : st1.k + 1 ≤ st2.k := p2.le
            have hn1 : New ar st1.k (st1.k + 1) [(closeDef st1.k hd r').toDef r'] := by
              refine ⟨?_, ?_, by simp⟩
              · simp [Entry.toDef, closeDef]
              · intro d hdm
                simp only [List.mem_singleton] at hdm
                subst hdm
                refine ⟨p.free, ?_, c3⟩
                show ((closeDef st1.k hd r').fv ++ hd.2).Nodup
                rw [List.nodup_append]
                refine ⟨c1, hnd hd (by simp), fun a ha b hb e => ?_⟩
                exact (c2 a ha).2 (e ▸ hb)
            have hn2 : New ar st.k st2.k ((new ++ [(closeDef st1.k hd r').toDef r']) ++ (new2 ++ List.zipWith Entry.toDef m' rs')) :=
              (p.isNew.append hn1 l1 hle).append p2.isNew (Nat.le_trans l1 hle) l2
            refine ⟨new ++ new2, by omega, by rw [p2.defs]; simp [p.defs], ?_, ?_, ?_, fun D I hdf v => ?_⟩
            · have hperm : ((new ++ [(closeDef st1.k hd r').toDef r']) ++ (new2 ++ List.zipWith Entry.toDef m' rs')).Perm
                  ((new ++ new2) ++ List.zipWith Entry.toDef (closeDef st1.k hd r' :: m') (r' :: rs')) := by
                simp only [List.append_assoc, List.zipWith_cons_cons, List.cons_append, List.nil_append]
                exact List.Perm.append_left _ (List.perm_middle.symm)
              exact ⟨fun d hdm => hn2.rng d (hperm.mem_iff.2 hdm), fun d hdm => hn2.ok d (hperm.mem_iff.2 hdm), ((hperm.map _).nodup_iff).1 hn2.nd⟩
            · exact .cons rfl rfl c1 c2 p.free c3 p2.ents
            · intro e he
              rcases List.mem_cons.1 he with rfl | he
              · exact ⟨l1, l2⟩
              · have := p2.rng e he
                dsimp only at this
                omega
            · rw [valF, valF, p2.val D I (fun d hm => hdf d (by simp [hm])) v]
              congr 2
              funext as
              exact p.val D I (fun d hm => hdf d (by simp [hm])) _

/-! ## New definitions are conservative -/

theorem extend {lo : Nat} {hi : Nat} {ds : List Def} (h : New ar lo hi ds) (I : Interp D) : ∀ N, ∃ J : Interp D, J.qu = I.qu ∧ (∀ f, f < lo → J.fn f = I.fn f) ∧
    ∀ d ∈ ds, d.g < N → Holds J d := by
  intro N
  induction N with
  | zero => exact ⟨I, rfl, fun _ _ => rfl, fun d _ h => by omega⟩
  | succ N ih =>
    obtain ⟨J, j1, j2, j3⟩ := ih
    by_cases hex : ∃ d ∈ ds, d.g = N
    · obtain ⟨d, hd, hg⟩ := hex
      by_cases hD : Nonempty D
      · obtain ⟨a⟩ := hD
        let v0 : Nat → D := fun _ => a
        let K : Interp D := ⟨fun f => if f = N then fun as => val J (updL v0 d.vars as) d.rhs else J.fn f, J.qu⟩
        have hK : ∀ f, f < N → J.fn f = K.fn f := by
          intro f hf
          show J.fn f = if f = N then _ else _
          rw [if_neg (by omega)]
        refine ⟨K, j1, fun f hf => ?_, fun d' hd' hlt => ?_⟩
        · have := (h.rng d hd).1
          rw [← hK f (by omega)]
          exact j2 f hf
        · have hok' := h.ok d' hd'
          by_cases he : d'.g = N
          · have : d' = d := List.inj_on_of_nodup_map h.nd hd' hd (by rw [he, hg])
            subst this
            intro v
            rw [← val_ext (I := J) (J := K) rfl hK d'.rhs _ _ v (by rw [← he]; exact hok'.2.2)]
            have hfn : K.fn d'.g = fun as => val J (updL v0 d'.vars as) d'.rhs := if_pos he
            rw [hfn]
            refine val_vars (ar := ar) d'.rhs d'.vars [] _ _ hok'.1 hok'.2.2 fun x hx => ?_
            have hm := updL_map v0 d'.vars (d'.vars.map v) hok'.2.1 (by simp)
            exact List.map_inj_left.1 hm x hx
          · intro v
            have hlt' : d'.g < N := by omega
            rw [← hK _ hlt', j3 d' hd' hlt' v]
            exact val_ext (I := J) (J := K) rfl (fun f hf => hK f (by omega)) d'.rhs _ _ v hok'.2.2
      · exact ⟨J, j1, j2, fun d' _ _ v => absurd ⟨v 0⟩ hD⟩
    · refine ⟨J, j1, j2, fun d hd hlt => j3 d hd ?_⟩
      have : d.g ≠ N := fun e => hex ⟨d, hd, e⟩
      omega

/-! ## Termination -/

mutual
def lets : LT → Nat
  | .var _ => 0
  | .app _ ts => letsL ts
  | .quant _ _ b => lets b
  | .letIn _ rs b => letsL rs + lets b + 1
def letsL : List LT → Nat
  | [] => 0
  | t :: ts => lets t + letsL ts
end

mutual
def size : LT → Nat
  | .var _ => 1
  | .app _ ts => sizeL ts + 1
  | .quant _ _ b => size b + 1
  | .letIn _ rs b => sizeL rs + size b + 1
def sizeL : List LT → Nat
  | [] => 0
  | t :: ts => size t + sizeL ts + 1
end

theorem letsL_sum (ts : List LT) : letsL ts = (ts.map lets).sum := by
  induction ts with
  | nil => rfl
  | cons t ts ih => rw [letsL, ih]; rfl

theorem lookup_mem {xs : List Nat} {as : List LT} (hn : xs.Nodup) : (xs.map fun x => lets (((xs.zip as).lookup x).getD (.var x))).sum ≤ (as.map lets).sum := by
  induction xs generalizing as with
  | nil => simp
  | cons y xs ih =>
    rw [List.nodup_cons] at hn
    cases as with
    | nil =>
      have := ih (as := []) hn.2
      simp [lets] at this ⊢
    | cons a as =>
      have := ih (as := as) hn.2
      simp only [List.map_cons, List.sum_cons, List.zip_cons_cons]
      have e : (xs.map fun x => lets (((y, a) :: xs.zip as).lookup x |>.getD (.var x))) = xs.map fun x => lets (((xs.zip as).lookup x).getD (.var x)) := by
        refine List.map_congr_left fun x hx => ?_
        have : (x == y) = false := by
          simp only [beq_eq_false_iff_ne]
          rintro rfl
          exact hn.1 hx
        rw [List.lookup_cons, this]
      rw [e]
      simp
      omega

mutual
theorem lets_replace {m : List Entry} (hm : ∀ f e, find m f = some e → e.xs.Nodup ∧ ∀ x ∈ e.fv, x ∉ e.xs) : ∀ t : LT, lets (replace m t) ≤ lets t
  | .var n => by rw [replace]; exact Nat.le_refl _
  | .app f ts => by
    have ih := letsL_replace hm ts
    rw [replace]
    cases he : find m f with
    | none => dsimp only; rw [lets, lets]; exact ih
    | some e =>
      dsimp only
      obtain ⟨h1, h2⟩ := hm f e he
      rw [instDef, lets, lets, letsL_sum, List.map_map, List.map_append, List.sum_append]
      have z : (e.fv.map (lets ∘ fun x => ((e.xs.zip (replaceL m ts)).lookup x).getD (.var x))).sum = 0 := by
        have : e.fv.map (lets ∘ fun x => ((e.xs.zip (replaceL m ts)).lookup x).getD (.var x)) = e.fv.map fun _ => 0 := by
          refine List.map_congr_left fun x hx => ?_
          simp only [Function.comp, lookup_zip_nmem (h2 x hx), Option.getD_none, lets]
        rw [this]
        simp
      rw [z, Nat.zero_add]
      refine Nat.le_trans (lookup_mem (as := replaceL m ts) h1) ?_
      rw [← letsL_sum]
      exact ih
  | .quant q n b => by
    rw [replace, lets, lets]
    exact lets_replace hm b
  | .letIn hs rs b => by
    rw [replace, lets, lets]
    have := lets_replace hm b
    have := letsL_replace hm rs
    omega
theorem letsL_replace {m : List Entry} (hm : ∀ f e, find m f = some e → e.xs.Nodup ∧ ∀ x ∈ e.fv, x ∉ e.xs) : ∀ ts : List LT, letsL (replaceL m ts) ≤ letsL ts
  | [] => by rw [replaceL]; exact Nat.le_refl _
  | t :: ts => by
    rw [replaceL, letsL, letsL]
    have := lets_replace hm t
    have := letsL_replace hm ts
    omega
end

theorem lift_mono (n : Nat) : (∀ t st r, lift n t st = some r → lift (n + 1) t st = some r) ∧ (∀ ts st r, liftL n ts st = some r → liftL (n + 1) ts st = some r) ∧
    (∀ hs rs st r, liftDs n hs rs st = some r → liftDs (n + 1) hs rs st = some r) := by
  induction n with
  | zero => simp [lift, liftL, liftDs]
  | succ n ih =>
    obtain ⟨ihA, ihB, ihC⟩ := ih
    refine ⟨fun t st r h => ?_, fun ts st r h => ?_, fun hs rs st r h => ?_⟩
    · cases t with
      | var x => rw [lift] at h ⊢; exact h
      | app f ts =>
        rw [lift] at h
        simp only [Option.map_eq_some_iff] at h
        obtain ⟨r', h1, h2⟩ := h
        rw [lift, ihB _ _ _ h1]
        simpa using h2
      | quant q x b =>
        rw [lift] at h
        simp only [Option.map_eq_some_iff] at h
        obtain ⟨r', h1, h2⟩ := h
        rw [lift, ihA _ _ _ h1]
        simpa using h2
      | letIn hs rs b =>
        rw [lift] at h
        split at h
        · cases h
        · next rs' m st1 h1 =>
          rw [lift, ihC _ _ _ _ h1]
          exact ihA _ _ _ h
    · cases ts with
      | nil => rw [liftL] at h ⊢; exact h
      | cons t ts =>
        rw [liftL] at h
        split at h
        · cases h
        · next t' st1 h1 =>
          simp only [Option.map_eq_some_iff] at h
          obtain ⟨r', h2, h3⟩ := h
          rw [liftL, ihA _ _ _ h1]
          dsimp only
          rw [ihB _ _ _ h2]
          simpa using h3
    · cases hs with
      | nil =>
        simp only [liftDs] at h ⊢
        exact h
      | cons hd hs =>
        cases rs with
        | nil =>
          simp only [liftDs] at h ⊢
          exact h
        | cons rr rs =>
          rw [liftDs] at h
          split at h
          · cases h
          · next r' st1 h1 =>
            simp only [Option.map_eq_some_iff] at h
            obtain ⟨r2, h2, h3⟩ := h
            rw [liftDs, ihA _ _ _ h1]
            dsimp only
            rw [ihC _ _ _ _ h2]
            simpa using h3

theorem lift_mono_le {n m : Nat} (h : n ≤ m) : (∀ t st r, lift n t st = some r → lift m t st = some r) ∧ (∀ ts st r, liftL n ts st = some r → liftL m ts st = some r) ∧
    (∀ hs rs st r, liftDs n hs rs st = some r → liftDs m hs rs st = some r) := by
  induction h with
  | refl => exact ⟨fun _ _ _ h => h, fun _ _ _ h => h, fun _ _ _ _ h => h⟩
  | @step m _ ih =>
    have := lift_mono m
    exact ⟨fun _ _ _ h => this.1 _ _ _ (ih.1 _ _ _ h), fun _ _ _ h => this.2.1 _ _ _ (ih.2.1 _ _ _ h), fun _ _ _ _ h => this.2.2 _ _ _ _ (ih.2.2 _ _ _ _ h)⟩

/-- The three statements for terms with at most `N` definitions and size at most `M`. -/
def Tot (ar : Nat → Nat) (N M : Nat) : Prop :=
  (∀ t st S, lets t ≤ N → size t ≤ M → WF ar st.k S [] t → ∃ n r, lift n t st = some r) ∧
  (∀ ts st S, letsL ts ≤ N → sizeL ts ≤ M → WFL ar st.k S [] ts → ∃ n r, liftL n ts st = some r) ∧
  (∀ hs rs st S, letsL rs ≤ N → sizeL rs ≤ M → hs.length = rs.length → (∀ h ∈ hs, h.2.Nodup) → WFD ar st.k S [] hs rs → ∃ n r, liftDs n hs rs st = some r)

theorem tot (N M : Nat) : Tot ar N M := by
  induction N using Nat.strongRecOn generalizing M with
  | _ N ihN =>
    induction M with
    | zero =>
      refine ⟨fun t st S _ h => ?_, fun ts st S _ h _ => ?_, fun hs rs st S _ h hl _ _ => ?_⟩
      · cases t <;> simp [size] at h
      · cases ts with
        | nil => exact ⟨1, _, by rw [liftL]⟩
        | cons => simp [sizeL] at h
      · cases rs with
        | nil =>
          cases hs with
          | nil => exact ⟨1, ([], [], st), by simp [liftDs]⟩
          | cons => simp at hl
        | cons => simp [sizeL] at h
    | succ M ihM =>
      obtain ⟨ihA, ihB, ihC⟩ := ihM
      refine ⟨fun t st S hN hM hw => ?_, fun ts st S hN hM hw => ?_, fun hs rs st S hN hM hl hnd hw => ?_⟩
      · cases t with
        | var x => exact ⟨1, _, by rw [lift]⟩
        | app f ts =>
          rw [lets] at hN
          rw [size] at hM
          rw [WF] at hw
          obtain ⟨n, r, h⟩ := ihB ts st S hN (by omega) hw.2.2
          exact ⟨n + 1, _, by rw [lift, h]; rfl⟩
        | quant q x b =>
          rw [lets] at hN
          rw [size] at hM
          rw [WF] at hw
          obtain ⟨n, r, h⟩ := ihA b st _ hN (by omega) hw.2
          exact ⟨n + 1, _, by rw [lift, h]; rfl⟩
        | letIn hs rs b =>
          rw [lets] at hN
          rw [size] at hM
          rw [WF] at hw
          obtain ⟨w1, w2, w3, w4, w5⟩ := hw
          obtain ⟨n, ⟨rs', m, st1⟩, h⟩ := ihC hs rs st S (by omega) (by omega) w1 (fun h hm => (w3 h hm).2.2.2.1) w4
          obtain ⟨new, p⟩ := (lift_post n).2.2 _ _ _ _ _ _ S w1 (fun h hm => (w3 h hm).2.2.2.1) w4 h
          have hh : ∀ h ∈ hs, h.2.length = ar h.1 ∧ h.2.Nodup := fun h hm => ⟨(w3 h hm).2.2.1, (w3 h hm).2.2.2.1⟩
          have hmok : MOK ar st.k S (hs.map (·.1) ++ []) m := by
            rw [List.append_nil]
            exact MOK_of p.ents hh fun e he => (p.rng e he).1
          have hg : ∀ f e, find m f = some e → e.g < st1.k := by
            intro f e he
            exact (p.rng e (List.mem_of_find?_eq_some he)).2
          have hwb : WF ar st1.k S [] (replace m b) := wf_replace p.le hg b S _ [] w5 hmok (by simp)
          have hlt := lets_replace (m := m) (fun f e he => ⟨(hmok f e he).2.2.2.1, fun x hx => ((hmok f e he).2.2.2.2 x hx).2⟩) b
          obtain ⟨n2, r2, h2⟩ := (ihN (lets b) (by omega) (size (replace m b))).1 (replace m b) { st1 with defs := st1.defs ++ makeDefs m hs rs' } S hlt
            (Nat.le_refl _) hwb
          refine ⟨max n n2 + 1, r2, ?_⟩
          rw [lift, (lift_mono_le (Nat.le_max_left n n2)).2.2 _ _ _ _ h]
          exact (lift_mono_le (Nat.le_max_right n n2)).1 _ _ _ h2
      · cases ts with
        | nil => exact ⟨1, _, by rw [liftL]⟩
        | cons t ts =>
          rw [letsL] at hN
          rw [sizeL] at hM
          rw [WFL] at hw
          obtain ⟨n, ⟨t', st1⟩, h⟩ := ihA t st S (by omega) (by omega) hw.1
          obtain ⟨new, p⟩ := (lift_post n).1 _ _ _ _ S hw.1 h
          obtain ⟨n2, r2, h2⟩ := ihB ts st1 S (by omega) (by omega) (wfL_mono p.le _ _ _ hw.2)
          refine ⟨max n n2 + 1, (t' :: r2.1, r2.2), ?_⟩
          rw [liftL, (lift_mono_le (Nat.le_max_left n n2)).1 _ _ _ h]
          dsimp only
          rw [(lift_mono_le (Nat.le_max_right n n2)).2.1 _ _ _ h2]
          rfl
      · cases hs with
        | nil => exact ⟨1, ([], [], st), by simp [liftDs]⟩
        | cons hd hs =>
          cases rs with
          | nil => simp at hl
          | cons r rs =>
            rw [letsL] at hN
            rw [sizeL] at hM
            rw [WFD] at hw
            obtain ⟨n, ⟨r', st1⟩, h⟩ := ihA r st _ (by omega) (by omega) hw.1
            obtain ⟨new, p⟩ := (lift_post n).1 _ _ _ _ _ hw.1 h
            obtain ⟨n2, r2, h2⟩ := ihC hs rs { st1 with k := st1.k + 1 } S (by omega) (by omega) (by simpa using hl) (fun h hm => hnd h (List.mem_cons_of_mem _ hm))
              (wfD_mono (Nat.le_trans p.le (Nat.le_succ _)) _ _ _ _ hw.2)
            refine ⟨max n n2 + 1, (r' :: r2.1, closeDef st1.k hd r' :: r2.2.1, r2.2.2), ?_⟩
            rw [liftDs, (lift_mono_le (Nat.le_max_left n n2)).1 _ _ _ h]
            dsimp only
            rw [(lift_mono_le (Nat.le_max_right n n2)).2.2 _ _ _ _ h2]
            rfl

end Verif.LetLift
