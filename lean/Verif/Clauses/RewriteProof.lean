import Verif.Clauses.RewriteStep

/-!
# Normalisation: links, dates, normal forms, termination
-/

namespace Verif
namespace RewriteProof
open Term

variable {x : RWCtx} {D : Demod → Prop} {W : Term → Prop} {S : Term → Term → Prop}

/-- Weakly decreasing. -/
def Le (S : Term → Term → Prop) (t u : Term) : Prop := u = t ∨ S t u

theorem Le.trans (hL : RWLaws x D W S) {a b c : Term} (h : Le S a b) (h' : Le S b c) : Le S a c := by
  rcases h with rfl | h
  · exact h'
  · rcases h' with rfl | h'
    · exact .inr h
    · exact .inr (hL.trans h h')

theorem Le.dom (hL : RWLaws x D W S) {a b : Term} (h : Le S a b) (ha : W a) : W b := by
  rcases h with rfl | h
  · exact ha
  · exact (hL.dom h).2

theorem irrefl (hL : RWLaws x D W S) (t : Term) : ¬ S t t := fun h =>
  hL.wf.asymmetric _ _ (Or.inl h) (Or.inl h)

/-! ### Links -/

theorem upd_self (st : RWSt) (t : Term) (i : RWInfo) : st.upd t i t = i := by simp [RWSt.upd]
theorem upd_ne {st : RWSt} {t u : Term} {i : RWInfo} (h : u ≠ t) : st.upd t i u = st u := by simp [RWSt.upd, h]

/-- Only link-independent fields change. -/
theorem linksOK_upd {st : RWSt} (h : LinksOK x D W S st) {t : Term} {i : RWInfo} (h1 : i.rewritten = (st t).rewritten)
    (h2 : i.repl = (st t).repl) (h3 : i.demod = (st t).demod) : LinksOK x D W S (st.upd t i) := by
  have key : ∀ u, (st.upd t i u).rewritten = (st u).rewritten ∧ (st.upd t i u).repl = (st u).repl ∧
      (st.upd t i u).demod = (st u).demod := by
    intro u
    by_cases hu : u = t
    · subst hu; simp [upd_self, h1, h2, h3]
    · simp [upd_ne hu]
  refine ⟨fun u hw hr => ?_, fun u d hw hr hd => ?_, fun u hw hr hd => ?_⟩
  · rw [(key u).1] at hr; rw [(key u).2.1]; exact h.lt u hw hr
  · rw [(key u).1] at hr; rw [(key u).2.1]; rw [(key u).2.2] at hd; exact h.top u d hw hr hd
  · rw [(key u).1] at hr; rw [(key u).2.1]; rw [(key u).2.2] at hd; exact h.args u hw hr hd

theorem linksOK_add {st : RWSt} (h : LinksOK x D W S st) {t u : Term} {o : Option Demod} {al : Bool}
    (h1 : W t → S t u) (h2 : W t → ∀ d, o = some d → D d ∧ ∃ right, TopStep x d right t u)
    (h3 : o = none → ∃ f ts us, t = .app f ts ∧ u = .app f us ∧ ts.length = us.length) :
    LinksOK x D W S (addRWLink st t u o al) := by
  unfold addRWLink
  refine ⟨fun v hw hr => ?_, fun v d hw hr hd => ?_, fun v hw hr hd => ?_⟩
  · by_cases hv : v = t
    · subst hv; simp only [upd_self]; exact h1 hw
    · rw [upd_ne hv] at hr ⊢; exact h.lt v hw hr
  · by_cases hv : v = t
    · subst hv; simp only [upd_self] at hd ⊢; exact h2 hw d hd
    · rw [upd_ne hv] at hr hd ⊢; exact h.top v d hw hr hd
  · by_cases hv : v = t
    · subst hv; simp only [upd_self] at hd ⊢; exact h3 hd
    · rw [upd_ne hv] at hr hd ⊢; exact h.args v hw hr hd

theorem datesOK_add {sets : List DSet} {st : RWSt} (h : DatesOK x W sets st) (t u : Term) (o : Option Demod) (al : Bool) :
    DatesOK x W sets (addRWLink st t u o al) := by
  unfold addRWLink
  refine ⟨fun v hw hr => ?_, fun v hw hr => ?_⟩
  · by_cases hv : v = t
    · subst hv; simp [upd_self] at hr
    · rw [upd_ne hv] at hr ⊢; exact h.nf0 v hw hr
  · by_cases hv : v = t
    · subst hv; simp [upd_self] at hr
    · rw [upd_ne hv] at hr ⊢; exact h.nf1 v hw hr

theorem datesPast_add {sets : List DSet} {st : RWSt} (h : DatesPast sets st) (t u : Term) (o : Option Demod) (al : Bool) :
    DatesPast sets (addRWLink st t u o al) := by
  intro v
  unfold addRWLink
  by_cases hv : v = t
  · subst hv; simp only [upd_self]; exact h v
  · rw [upd_ne hv]; exact h v

theorem followTop_ok (hL : RWLaws x D W S) {st : RWSt} (h : LinksOK x D W S st) : ∀ {n : Nat} {t u : Term} {rs : Bool}, W t →
    followTop st n t rs = some u → Le S t u ∧ ((st u).topRewritten && (!rs || (st u).rrewritten)) = false := by
  intro n
  induction n with
  | zero => intro t u rs _ he; simp [followTop] at he
  | succ n ih =>
    intro t u rs hw he
    simp only [followTop] at he
    split at he
    · rename_i hc
      simp only [Bool.and_eq_true] at hc
      have h1 : (st t).rewritten = true := by
        have := hc.1; simp only [RWInfo.topRewritten, Bool.and_eq_true] at this; exact this.1
      have h2 := h.lt t hw h1
      obtain ⟨h3, h4⟩ := ih (hL.dom h2).2 he
      exact ⟨Le.trans hL (.inr h2) h3, h4⟩
    · rename_i hc
      simp at he; subst he
      exact ⟨.inl rfl, by simpa using hc⟩

/-! ### Searching a demodulator -/

theorem findDemod_some {rs : Bool} {i : RWInfo} {t : Term} {d : Demod} {u : Term} : ∀ {cs : List (Demod × Bool)},
    (∀ p ∈ cs, p.2 = true → p.1.oriented = false) → findDemod x rs i t cs = some (d, u) →
    ∃ right, (d, right) ∈ cs ∧ TopStep x d right t u := by
  intro cs
  induction cs with
  | nil => intro _ h; simp [findDemod] at h
  | cons c cs ih =>
    intro hc h
    obtain ⟨d', right⟩ := c
    simp only [findDemod] at h
    split at h
    · obtain ⟨r, h1, h2⟩ := ih (fun p hp => hc p (by simp [hp])) h
      exact ⟨r, by simp [h1], h2⟩
    · cases ht : tryDemod x rs d' right t with
      | none =>
        simp only [ht] at h
        obtain ⟨r, h1, h2⟩ := ih (fun p hp => hc p (by simp [hp])) h
        exact ⟨r, by simp [h1], h2⟩
      | some u' =>
        simp only [ht, Option.some.injEq, Prod.mk.injEq] at h
        obtain ⟨rfl, rfl⟩ := h
        exact ⟨right, by simp, tryDemod_sound (hc (d', right) (by simp)) ht⟩

theorem findDemod_none {i : RWInfo} {t : Term} : ∀ {cs : List (Demod × Bool)},
    findDemod x false i t cs = none → ∀ d right, (d, right) ∈ cs →
    ((d.oriented = true ∧ d.date ≤ i.nfDate 1) ∨ (d.oriented = false ∧ d.date ≤ i.nfDate 2)) ∨ ∀ u, ¬ TopStep x d right t u := by
  intro cs
  induction cs with
  | nil => intro _ d r hm; simp at hm
  | cons c cs ih =>
    intro h d r hm
    obtain ⟨d', right⟩ := c
    simp only [findDemod] at h
    split at h
    · rename_i hc
      rcases List.mem_cons.1 hm with he | hm
      · simp only [Prod.mk.injEq] at he; obtain ⟨rfl, rfl⟩ := he; exact .inl hc
      · exact ih h d r hm
    · cases ht : tryDemod x false d' right t with
      | some u' => simp [ht] at h
      | none =>
        simp only [ht] at h
        rcases List.mem_cons.1 hm with he | hm
        · simp only [Prod.mk.injEq] at he; obtain ⟨rfl, rfl⟩ := he
          refine .inr fun u hu => ?_
          obtain ⟨u', hu'⟩ := (tryDemod_complete hu).2
          rw [ht] at hu'; simp at hu'
        · exact ih h d r hm

/-- What rewriting at the top with a list of sets does to the state. -/
theorem rewriteWithSets_ok (hL : RWLaws x D W S) {level : Nat} {rs : Bool} {st : RWSt} {t : Term} (hw : W t) :
    ∀ {sets : List DSet}, (∀ s ∈ sets, s.OK x) → (∀ s ∈ sets, ∀ d ∈ s.mem, D d) →
    let st1 := rewriteWithSets x level rs st t sets
    (st1 = st ∧ (rs = false → ∀ s ∈ sets, (st t).nfDate level < s.date →
        findDemod x false (st t) t (s.enum t ((st t).nfDate level)) = none)) ∨
    ∃ d u right, D d ∧ TopStep x d right t u ∧ st1 = addRWLink st t u (some d) rs := by
  intro sets
  induction sets with
  | nil => intro _ _; exact .inl ⟨rfl, by simp⟩
  | cons s ss ih =>
    intro hok hD
    have ih' := ih (fun s hs => hok s (by simp [hs])) (fun s hs => hD s (by simp [hs]))
    simp only [rewriteWithSets]
    by_cases hdt : (st t).nfDate level < s.date
    · rw [if_pos hdt]
      cases hf : findDemod x rs (st t) t (s.enum t ((st t).nfDate level)) with
      | none =>
        simp only
        rcases ih' with ⟨h1, h2⟩ | h
        · refine .inl ⟨h1, fun hrs s' hs' hd' => ?_⟩
          rcases List.mem_cons.1 hs' with rfl | hs'
          · subst hrs; exact hf
          · exact h2 hrs s' hs' hd'
        · exact .inr h
      | some p =>
        obtain ⟨d, u⟩ := p
        obtain ⟨right, h1, h2⟩ := findDemod_some (fun p hp => ((hok s (by simp)).sound (d := p.1) (right := p.2) hp).2) hf
        have hd : D d := hD s (by simp) d ((hok s (by simp)).sound h1).1
        have hu : u ≠ t := by
          rintro rfl
          exact irrefl hL u (hL.step hw hd h2)
        simp only [if_neg hu]
        exact .inr ⟨d, u, right, hd, h2, rfl⟩
    · rw [if_neg hdt]
      rcases ih' with ⟨h1, h2⟩ | h
      · refine .inl ⟨h1, fun hrs s' hs' hd' => ?_⟩
        rcases List.mem_cons.1 hs' with rfl | hs'
        · exact absurd hd' hdt
        · exact h2 hrs s' hs' hd'
      · exact .inr h

/-- Not reducible at the top by the first `level` sets. -/
def TopIrr (x : RWCtx) (sets : List DSet) (level : Nat) (t : Term) : Prop :=
  ∀ s ∈ sets.take level, ∀ d ∈ s.mem, ∀ right u, ¬ TopStep x d right t u

theorem mem_subterms_self (t : Term) : t ∈ t.subterms := by cases t <;> simp [subterms]

theorem rules_mem {sets : List DSet} (hs : SetsOK x sets) {s : DSet} (h : s ∈ sets) {d : Demod} (hd : d ∈ s.mem)
    (ho : d.oriented = true) {level : Nat} (hl : level = 1 ∨ level = 2) : s ∈ sets.take level := by
  obtain ⟨i, hi⟩ := List.mem_iff_getElem?.1 h
  cases i with
  | zero =>
    refine List.mem_iff_getElem?.2 ⟨0, ?_⟩
    rw [List.getElem?_take]
    rcases hl with rfl | rfl <;> simpa using hi
  | succ i => have := hs.eqns i s hi d hd; simp [ho] at this

theorem take_two {sets : List DSet} (hs : SetsOK x sets) : sets.take 2 = sets := List.take_of_length_le hs.len

theorem level_two_of {sets : List DSet} (hs : SetsOK x sets) {level : Nat} (hl : level = 1 ∨ level = 2) {s : DSet}
    (h : s ∈ sets.take level) {d : Demod} (hd : d ∈ s.mem) (ho : d.oriented = false) : level = 2 := by
  rcases hl with rfl | rfl
  · exfalso
    cases sets with
    | nil => simp at h
    | cons a l =>
      simp only [List.take_succ_cons, List.take_zero, List.mem_singleton] at h
      subst h
      have := hs.rules s rfl d hd
      simp [ho] at this
  · rfl

/-- An unsuccessful search at a term without trustworthy link means that nothing applies at the top. -/
theorem topIrr_of_search {sets : List DSet} (hs : SetsOK x sets) {st : RWSt} (hd : DatesOK x W sets st) {level : Nat}
    (hl : level = 1 ∨ level = 2) {t : Term} (hw : W t)
    (h : ∀ s ∈ sets.take level, (st t).nfDate level < s.date →
      findDemod x false (st t) t (s.enum t ((st t).nfDate level)) = none) : TopIrr x sets level t := by
  intro s hm d hdm right u hst
  have hms : s ∈ sets := List.mem_of_mem_take hm
  have hok := hs.ok s hms
  have hpos := (hok.dates d hdm).1
  have hle := (hok.dates d hdm).2
  have hred : Reducible x d t := ⟨t, mem_subterms_self t, right, u, hst⟩
  obtain ⟨σ, hσ⟩ := hst
  have hr : right = true → d.oriented = false := by
    intro h1
    by_contra hc
    have := (hσ.rule (by simpa using hc)).1
    simp [h1] at this
  have hst : TopStep x d right t u := ⟨σ, hσ⟩
  obtain ⟨⟨sb, hsb⟩, -⟩ := tryDemod_complete hst
  -- dates of a term with a link are 0, otherwise the date invariant applies
  have hlate0 : d.oriented = true → (st t).nfDate 1 < d.date := by
    intro ho
    unfold RWInfo.nfDate
    split
    · exact hpos
    · rename_i hrw
      by_contra hc
      exact hd.nf0 t hw (by simpa using hrw) s hms d hdm ho (by simpa [RWInfo.nf] using hc) hred
  have hlate1 : (st t).nfDate 2 < d.date := by
    unfold RWInfo.nfDate
    split
    · exact hpos
    · rename_i hrw
      by_contra hc
      exact hd.nf1 t hw (by simpa using hrw) s hms d hdm (by simpa [RWInfo.nf] using hc) hred
  have hlate : (st t).nfDate level < d.date := by
    rcases hl with rfl | rfl
    · refine hlate0 ?_
      by_contra hc
      have := level_two_of hs (.inl rfl) hm hdm (by simpa using hc)
      simp at this
    · exact hlate1
  have hfd := h s hm (by omega)
  rcases findDemod_none hfd d right (hok.complete hdm hlate hr hsb) with (⟨h1, h2⟩ | ⟨h1, h2⟩) | h3
  · have := hlate0 h1; omega
  · omega
  · exact h3 u hst

/-! ### Normal-form dates -/

theorem date_ge {d : RWDesc} {s : DSet} (h : s ∈ d.sets.take d.level) : s.date ≤ d.date := by
  have key : ∀ (l : List Nat) (a : Nat), a ≤ l.foldl max a ∧ ∀ y ∈ l, y ≤ l.foldl max a := by
    intro l
    induction l with
    | nil => intro a; simp
    | cons b l ih =>
      intro a
      obtain ⟨h1, h2⟩ := ih (max a b)
      refine ⟨by simp only [List.foldl_cons]; omega, fun y hy => ?_⟩
      simp only [List.foldl_cons]
      rcases List.mem_cons.1 hy with rfl | hy
      · omega
      · exact h2 y hy
  exact (key _ 0).2 _ (List.mem_map.2 ⟨s, h, rfl⟩)

/-- Early exit: a sufficiently new date means normal form. -/
theorem irr_of_date {d : RWDesc} (hs : SetsOK x d.sets) {st : RWSt} (hd : DatesOK x W d.sets st) (hl : d.level = 1 ∨ d.level = 2)
    {t : Term} (hw : W t) (hr : (st t).rewritten = false) (h : d.date ≤ (st t).nf d.level) :
    Irreducible x d.sets d.level t := by
  intro s hm e he
  have hms : s ∈ d.sets := List.mem_of_mem_take hm
  have h1 := ((hs.ok s hms).dates e he).2
  have h2 := date_ge hm
  by_cases ho : e.oriented = true
  · rcases hl with h3 | h3
    · refine hd.nf0 t hw hr s hms e he ho ?_
      rw [h3] at h; simp only [RWInfo.nf, if_true] at h; omega
    · refine hd.nf1 t hw hr s hms e he ?_
      rw [h3] at h; simp [RWInfo.nf] at h; omega
  · have h3 := level_two_of hs hl hm he (by simpa using ho)
    refine hd.nf1 t hw hr s hms e he ?_
    rw [h3] at h; simp [RWInfo.nf] at h; omega

theorem setNF_links {d : RWDesc} {st : RWSt} (h : LinksOK x D W S st) (t : Term) (rs : Bool) :
    LinksOK x D W S (setNF d st t rs) := by
  unfold setNF
  split
  · exact linksOK_upd h rfl rfl rfl
  · exact h

theorem setNF_dates {d : RWDesc} (hs : SetsOK x d.sets) {st : RWSt} (h : DatesOK x W d.sets st) (hl : d.level = 1 ∨ d.level = 2)
    {t : Term} {rs : Bool} (ht : rs = false → Irreducible x d.sets d.level t) : DatesOK x W d.sets (setNF d st t rs) := by
  unfold setNF
  split
  · rename_i hc
    have hirr := ht hc.2
    refine ⟨fun u hw hr s hms e he ho hle => ?_, fun u hw hr s hms e he hle => ?_⟩
    · by_cases hu : u = t
      · subst hu
        exact hirr s (rules_mem hs hms he ho hl) e he
      · rw [upd_ne hu] at hr hle; exact h.nf0 u hw hr s hms e he ho hle
    · by_cases hu : u = t
      · subst hu
        simp only [upd_self] at hle
        by_cases h2 : d.level = 2
        · refine hirr s ?_ e he
          rw [h2, take_two hs]; exact hms
        · rw [if_neg h2] at hle
          exact h.nf1 u hw hc.1 s hms e he hle
      · rw [upd_ne hu] at hr hle; exact h.nf1 u hw hr s hms e he hle
  · exact h

theorem foldl_max_mono (l m : List Nat) (h : ∀ y ∈ l, y ∈ m) : l.foldl max 0 ≤ m.foldl max 0 := by
  have ge : ∀ (l : List Nat) (a : Nat), a ≤ l.foldl max a ∧ ∀ y ∈ l, y ≤ l.foldl max a := by
    intro l
    induction l with
    | nil => intro a; simp
    | cons b l ih =>
      intro a
      obtain ⟨h1, h2⟩ := ih (max a b)
      refine ⟨by simp only [List.foldl_cons]; omega, fun y hy => ?_⟩
      simp only [List.foldl_cons]
      rcases List.mem_cons.1 hy with rfl | hy
      · omega
      · exact h2 y hy
  have mem : ∀ (l : List Nat) (a : Nat), l.foldl max a = a ∨ l.foldl max a ∈ l := by
    intro l
    induction l with
    | nil => intro a; simp
    | cons b l ih =>
      intro a
      simp only [List.foldl_cons]
      rcases ih (max a b) with h | h
      · rw [h]
        rcases Nat.le_total a b with h' | h'
        · right; simp [max_eq_right h']
        · left; omega
      · right; simp [h]
  rcases mem l 0 with h' | h'
  · omega
  · exact (ge m 0).2 _ (h _ h')

theorem date_le_max (d : RWDesc) : d.date ≤ maxDate d.sets :=
  foldl_max_mono _ _ fun y hy => by
    obtain ⟨s, h1, h2⟩ := List.mem_map.1 hy
    exact List.mem_map.2 ⟨s, List.mem_of_mem_take h1, h2⟩

theorem setNF_past {d : RWDesc} {st : RWSt} (h : DatesPast d.sets st) (t : Term) (rs : Bool) :
    DatesPast d.sets (setNF d st t rs) := by
  unfold setNF
  split
  · intro u
    by_cases hu : u = t
    · subst hu
      simp only [upd_self]
      refine ⟨date_le_max d, ?_⟩
      split
      · exact date_le_max d
      · exact (h u).2
    · rw [upd_ne hu]; exact h u
  · exact h

/-! ### Normalisation -/

/-- The invariant of the cached data. -/
structure RWInv (x : RWCtx) (D : Demod → Prop) (W : Term → Prop) (S : Term → Term → Prop) (sets : List DSet) (st : RWSt) : Prop where
  links : LinksOK x D W S st
  dates : DatesOK x W sets st
  past : DatesPast sets st

theorem rwInv_add {sets : List DSet} {st : RWSt} (h : RWInv x D W S sets st) {t u : Term} {o : Option Demod} {al : Bool}
    (h1 : W t → S t u) (h2 : W t → ∀ d, o = some d → D d ∧ ∃ right, TopStep x d right t u)
    (h3 : o = none → ∃ f ts us, t = .app f ts ∧ u = .app f us ∧ ts.length = us.length) :
    RWInv x D W S sets (addRWLink st t u o al) :=
  ⟨linksOK_add h.links h1 h2 h3, datesOK_add h.dates _ _ _ _, datesPast_add h.past _ _ _ _⟩

theorem irr_app {sets : List DSet} {level : Nat} {f : Nat} {ts : List Term} (h1 : TopIrr x sets level (.app f ts))
    (h2 : ∀ t ∈ ts, Irreducible x sets level t) : Irreducible x sets level (.app f ts) := by
  rintro s hs d hd ⟨v, hv, right, u, hu⟩
  simp only [subterms, List.mem_cons, mem_subtermsL] at hv
  rcases hv with rfl | ⟨t, ht, hv⟩
  · exact h1 s hs d hd right u hu
  · exact h2 t ht s hs d hd ⟨v, hv, right, u, hu⟩

theorem irr_var (hL : RWLaws x D W S) {sets : List DSet} (hD : ∀ s ∈ sets, ∀ d ∈ s.mem, D d) {level : Nat} {y : Nat}
    (hw : W (.var y)) : Irreducible x sets level (.var y) := by
  rintro s hs d hd ⟨v, hv, right, u, hu⟩
  simp only [subterms, List.mem_singleton] at hv
  subst hv
  exact hL.noVar (hL.step hw (hD s (List.mem_of_mem_take hs) d hd) hu)

/-- What one call guarantees. -/
def Good (x : RWCtx) (D : Demod → Prop) (W : Term → Prop) (S : Term → Term → Prop) (d : RWDesc) (t : Term) (rs : Bool)
    (u : Term) (st' : RWSt) : Prop :=
  RWInv x D W S d.sets st' ∧ Le S t u ∧ (rs = false → Irreducible x d.sets d.level u)

theorem nfArgs_ok {d : RWDesc} {nf : RWSt → Term → Option (Term × RWSt)}
    (hnf : ∀ {st t u st'}, RWInv x D W S d.sets st → W t → nf st t = some (u, st') → Good x D W S d t false u st') :
    ∀ {ts : List Term} {st : RWSt} {us : List Term} {st' : RWSt}, RWInv x D W S d.sets st → (∀ t ∈ ts, W t) →
    nfArgs nf st ts = some (us, st') → RWInv x D W S d.sets st' ∧ List.Forall₂ (fun a b => a = b ∨ S a b) ts us ∧
      ∀ u ∈ us, Irreducible x d.sets d.level u := by
  intro ts
  induction ts with
  | nil =>
    intro st us st' hi _ h
    simp [nfArgs] at h
    obtain ⟨rfl, rfl⟩ := h
    exact ⟨hi, .nil, by simp⟩
  | cons t ts ih =>
    intro st us st' hi hw h
    simp only [nfArgs] at h
    cases h1 : nf st t with
    | none => simp [h1] at h
    | some p =>
      obtain ⟨u, st1⟩ := p
      simp only [h1] at h
      obtain ⟨g1, g2, g3⟩ := hnf hi (hw t (by simp)) h1
      cases h2 : nfArgs nf st1 ts with
      | none => simp [h2] at h
      | some q =>
        obtain ⟨vs, st2⟩ := q
        simp only [h2, Option.some.injEq, Prod.mk.injEq] at h
        obtain ⟨rfl, rfl⟩ := h
        obtain ⟨k1, k2, k3⟩ := ih g1 (fun t ht => hw t (by simp [ht])) h2
        refine ⟨k1, .cons (g2.imp Eq.symm id) k2, fun v hv => ?_⟩
        rcases List.mem_cons.1 hv with rfl | hv
        · exact g3 rfl
        · exact k3 v hv

theorem subRewrite_ok {d : RWDesc} (hL : RWLaws x D W S) {nf : RWSt → Term → Option (Term × RWSt)}
    (hnf : ∀ {st t u st'}, RWInv x D W S d.sets st → W t → nf st t = some (u, st') → Good x D W S d t false u st')
    {st : RWSt} {t : Term} {m : Bool} {u : Term} {st' : RWSt} (hi : RWInv x D W S d.sets st) (hw : W t)
    (h : subRewrite nf st t = some (m, u, st')) :
    RWInv x D W S d.sets st' ∧ (m = false → u = t) ∧ (m = true → S t u) ∧
      (m = false → ∀ f ts, t = .app f ts → ∀ a ∈ ts, Irreducible x d.sets d.level a) := by
  cases t with
  | var y =>
    simp [subRewrite] at h
    obtain ⟨rfl, rfl, rfl⟩ := h
    exact ⟨hi, by simp, by simp, by simp⟩
  | app f ts =>
    simp only [subRewrite] at h
    cases h1 : nfArgs nf st ts with
    | none => simp [h1] at h
    | some p =>
      obtain ⟨us, st1⟩ := p
      simp only [h1] at h
      obtain ⟨g1, g2, g3⟩ := nfArgs_ok hnf hi (fun t ht => hL.arg hw ht) h1
      split at h
      · rename_i he
        simp at h
        obtain ⟨rfl, rfl, rfl⟩ := h
        refine ⟨g1, by simp, by simp, fun _ f' ts' he' a ha => ?_⟩
        simp only [Term.app.injEq] at he'
        obtain ⟨rfl, rfl⟩ := he'
        exact g3 a (he ▸ ha)
      · rename_i he
        simp at h
        obtain ⟨rfl, rfl, rfl⟩ := h
        have hS := hL.congr hw g2 (fun hc => he hc.symm)
        exact ⟨rwInv_add g1 (fun _ => hS) (by simp) (fun _ => ⟨f, ts, us, rfl, rfl, g2.length_eq⟩), by simp, fun _ => hS, by simp⟩

theorem topRewrite_ok {d : RWDesc} (hL : RWLaws x D W S) (hs : SetsOK x d.sets) (hD : ∀ s ∈ d.sets, ∀ e ∈ s.mem, D e)
    (hl : d.level = 1 ∨ d.level = 2) {n : Nat}
    {st : RWSt} {t : Term} {rs : Bool} {u : Term} {st' : RWSt} (hi : RWInv x D W S d.sets st) (hw : W t)
    (h : topRewrite x d n st t rs = some (u, st')) :
    RWInv x D W S d.sets st' ∧ Le S t u ∧ (u = t → rs = false → TopIrr x d.sets d.level t) := by
  unfold topRewrite at h
  simp only [Option.map_eq_some_iff, Prod.mk.injEq] at h
  obtain ⟨u', hf, rfl, rfl⟩ := h
  by_cases ht : (st t).topRewritten = true
  · simp only [ht, if_true] at hf ⊢
    obtain ⟨h1, h2⟩ := followTop_ok hL hi.links hw hf
    refine ⟨hi, h1, fun he hrs => ?_⟩
    subst he; subst hrs
    simp [ht] at h2
  · have htf : (st t).topRewritten = false := by simpa using ht
    rw [if_neg ht] at hf ⊢
    rcases rewriteWithSets_ok (level := d.level) (rs := rs) (st := st) hL hw (sets := d.sets.take d.level)
      (fun s hm => hs.ok s (List.mem_of_mem_take hm)) (fun s hm => hD s (List.mem_of_mem_take hm)) with ⟨h1, h2⟩ | ⟨e, v, right, h1, h2, h3⟩
    · rw [h1] at hf ⊢
      obtain ⟨h3, h4⟩ := followTop_ok hL hi.links hw hf
      exact ⟨hi, h3, fun _ hrs => topIrr_of_search hs hi.dates hl hw (h2 hrs)⟩
    · rw [h3] at hf ⊢
      have hS := hL.step hw h1 h2
      have hi' : RWInv x D W S d.sets (addRWLink st t v (some e) rs) :=
        rwInv_add hi (fun _ => hS) (fun _ e' he' => by
          simp only [Option.some.injEq] at he'; subst he'; exact ⟨h1, right, h2⟩) (by simp)
      obtain ⟨h4, h5⟩ := followTop_ok hL hi'.links hw hf
      refine ⟨hi', h4, fun he hrs => ?_⟩
      subst he; subst hrs
      simp [addRWLink, upd_self, RWInfo.topRewritten] at h5

/-- Partial correctness for any amount of fuel. -/
theorem liNF_ok {d : RWDesc} (hL : RWLaws x D W S) (hs : SetsOK x d.sets) (hD : ∀ s ∈ d.sets, ∀ e ∈ s.mem, D e)
    (hl : d.level = 1 ∨ d.level = 2) : ∀ n : Nat,
    (∀ {st t rs u st'}, RWInv x D W S d.sets st → W t → liNF x d n st t rs = some (u, st') → Good x D W S d t rs u st') ∧
    (∀ {st t rs u st'}, RWInv x D W S d.sets st → W t → liLoop x d n st t rs = some (u, st') → Good x D W S d t rs u st') := by
  intro n
  induction n with
  | zero => exact ⟨by intros; simp_all [liNF], by intros; simp_all [liLoop]⟩
  | succ n ih =>
    obtain ⟨ih1, ih2⟩ := ih
    refine ⟨fun {st t rs u st'} hi hw h => ?_, fun {st t rs u st'} hi hw h => ?_⟩
    · rw [liNF] at h
      have hl0 : ¬ d.level = 0 := by omega
      rw [if_neg hl0] at h
      cases hf : followTop st n t rs with
      | none => simp [hf] at h
      | some t1 =>
        simp only [hf] at h
        obtain ⟨h1, h2⟩ := followTop_ok hL hi.links hw hf
        have hw1 := h1.dom hL hw
        split at h
        · rename_i hc
          simp at h; obtain ⟨rfl, rfl⟩ := h
          exact ⟨hi, h1, fun _ => irr_of_date hs hi.dates hl hw1 hc.1 hc.2⟩
        · split at h
          · rename_i hv
            simp at h; obtain ⟨rfl, rfl⟩ := h
            refine ⟨hi, h1, fun _ => ?_⟩
            cases t1 with
            | var y => exact irr_var hL hD hw1
            | app f ts => simp [isVar] at hv
          · obtain ⟨k1, k2, k3⟩ := ih2 hi hw1 h
            exact ⟨k1, h1.trans hL k2, k3⟩
    · rw [liLoop] at h
      cases hsr : subRewrite (fun s u => liNF x d n s u false) st t with
      | none => simp [hsr] at h
      | some p =>
        obtain ⟨m, t1, st1⟩ := p
        simp only [hsr] at h
        obtain ⟨g1, g2, g3, g4⟩ := subRewrite_ok hL (fun hi hw h => ih1 hi hw h) hi hw hsr
        have hle : Le S t t1 := by
          cases m with
          | false => exact .inl (g2 rfl)
          | true => exact .inr (g3 rfl)
        have hw1 := hle.dom hL hw
        split at h
        · rename_i hv
          simp at h; obtain ⟨rfl, rfl⟩ := h
          have hirr : Irreducible x d.sets d.level t1 := by
            cases t1 with
            | var y => exact irr_var hL hD hw1
            | app f ts => simp [isVar] at hv
          exact ⟨⟨setNF_links g1.links _ _, setNF_dates hs g1.dates hl (fun _ => hirr), setNF_past g1.past _ _⟩, hle, fun _ => hirr⟩
        · cases htr : topRewrite x d n st1 t1 (rs && !m) with
          | none => simp [htr] at h
          | some q =>
            obtain ⟨t2, st2⟩ := q
            simp only [htr] at h
            obtain ⟨k1, k2, k3⟩ := topRewrite_ok hL hs hD hl g1 hw1 htr
            split at h
            · obtain ⟨j1, j2, j3⟩ := ih2 k1 (k2.dom hL hw1) h
              exact ⟨j1, (hle.trans hL k2).trans hL j2, j3⟩
            · rename_i hc
              simp only [Bool.or_eq_true, decide_eq_true_eq, not_or, Bool.not_eq_true, not_not] at hc
              obtain ⟨rfl, rfl⟩ := hc
              simp at h; obtain ⟨rfl, rfl⟩ := h
              have ht := g2 rfl
              have hirr : rs = false → Irreducible x d.sets d.level t2 := by
                intro hrs
                have htop := k3 rfl (by simp [hrs])
                cases t2 with
                | var y => exact irr_var hL hD hw1
                | app f ts => exact irr_app htop (g4 rfl f ts ht.symm)
              exact ⟨⟨setNF_links k1.links _ _, setNF_dates hs k1.dates hl hirr, setNF_past k1.past _ _⟩, hle, hirr⟩

/-! ### Termination -/

theorem followTop_mono {st : RWSt} : ∀ {n m : Nat} {t u : Term} {rs : Bool}, n ≤ m → followTop st n t rs = some u →
    followTop st m t rs = some u := by
  intro n
  induction n with
  | zero => intro m t u rs _ h; simp [followTop] at h
  | succ n ih =>
    intro m t u rs hm h
    obtain ⟨m, rfl⟩ : ∃ k, m = k + 1 := ⟨m - 1, by omega⟩
    simp only [followTop] at h ⊢
    split at h
    · rename_i hc; rw [if_pos hc]; exact ih (by omega) h
    · rename_i hc; rw [if_neg hc]; exact h

theorem followTop_total (hL : RWLaws x D W S) {st : RWSt} (h : LinksOK x D W S st) (rs : Bool) (t : Term) :
    W t → ∃ n u, followTop st n t rs = some u := by
  induction t using hL.wf.induction with
  | _ t ih =>
    intro hw
    by_cases hc : ((st t).topRewritten && (!rs || (st t).rrewritten)) = true
    · have h1 : (st t).rewritten = true := by
        simp only [Bool.and_eq_true, RWInfo.topRewritten] at hc; exact hc.1.1
      have h2 := h.lt t hw h1
      obtain ⟨n, u, hu⟩ := ih _ (.inl h2) (hL.dom h2).2
      exact ⟨n + 1, u, by rw [followTop, if_pos hc]; exact hu⟩
    · exact ⟨1, t, by rw [followTop, if_neg hc]⟩

theorem nfArgs_mono {nf nf' : RWSt → Term → Option (Term × RWSt)} (h : ∀ st t r, nf st t = some r → nf' st t = some r) :
    ∀ {ts : List Term} {st : RWSt} {r : List Term × RWSt}, nfArgs nf st ts = some r → nfArgs nf' st ts = some r := by
  intro ts
  induction ts with
  | nil => intro st r hr; exact hr
  | cons t ts ih =>
    intro st r hr
    simp only [nfArgs] at hr ⊢
    cases h1 : nf st t with
    | none => simp [h1] at hr
    | some p =>
      simp only [h1] at hr
      rw [h _ _ _ h1]
      cases h2 : nfArgs nf p.2 ts with
      | none => simp [h2] at hr
      | some q => simp only [ih h2]; simpa [h2] using hr

theorem subRewrite_mono {nf nf' : RWSt → Term → Option (Term × RWSt)} (h : ∀ st t r, nf st t = some r → nf' st t = some r)
    {st : RWSt} {t : Term} {r : Bool × Term × RWSt} (hr : subRewrite nf st t = some r) : subRewrite nf' st t = some r := by
  cases t with
  | var y => exact hr
  | app f ts =>
    simp only [subRewrite] at hr ⊢
    cases h1 : nfArgs nf st ts with
    | none => simp [h1] at hr
    | some p => rw [nfArgs_mono h h1]; simpa [h1] using hr

theorem topRewrite_mono {d : RWDesc} {n m : Nat} (hm : n ≤ m) {st : RWSt} {t : Term} {rs : Bool} {r : Term × RWSt}
    (h : topRewrite x d n st t rs = some r) : topRewrite x d m st t rs = some r := by
  unfold topRewrite at h ⊢
  simp only [Option.map_eq_some_iff] at h ⊢
  obtain ⟨u, h1, h2⟩ := h
  exact ⟨u, followTop_mono hm h1, h2⟩

theorem liNF_mono {d : RWDesc} : ∀ n m : Nat, n ≤ m →
    (∀ {st t rs r}, liNF x d n st t rs = some r → liNF x d m st t rs = some r) ∧
    (∀ {st t rs r}, liLoop x d n st t rs = some r → liLoop x d m st t rs = some r) := by
  intro n
  induction n with
  | zero => intro m _; exact ⟨by intros; simp_all [liNF], by intros; simp_all [liLoop]⟩
  | succ n ih =>
    intro m hm
    obtain ⟨m, rfl⟩ : ∃ k, m = k + 1 := ⟨m - 1, by omega⟩
    obtain ⟨ih1, ih2⟩ := ih m (by omega)
    refine ⟨fun {st t rs r} h => ?_, fun {st t rs r} h => ?_⟩
    · rw [liNF] at h ⊢
      split at h
      · rename_i hc; rw [if_pos hc]; exact h
      · rename_i hc
        rw [if_neg hc]
        cases hf : followTop st n t rs with
        | none => simp [hf] at h
        | some t1 =>
          rw [followTop_mono (by omega) hf]
          simp only [hf] at h ⊢
          split at h
          · rename_i hc; rw [if_pos hc]; exact h
          · rename_i hc
            rw [if_neg hc]
            split at h
            · rename_i hc; rw [if_pos hc]; exact h
            · rename_i hc; rw [if_neg hc]; exact ih2 h
    · rw [liLoop] at h ⊢
      cases hs : subRewrite (fun s u => liNF x d n s u false) st t with
      | none => simp [hs] at h
      | some p =>
        rw [subRewrite_mono (fun st t r hr => ih1 hr) hs]
        obtain ⟨b, t1, st1⟩ := p
        simp only [hs] at h ⊢
        split at h
        · rename_i hc; rw [if_pos hc]; exact h
        · rename_i hc
          rw [if_neg hc]
          cases ht : topRewrite x d n st1 t1 (rs && !b) with
          | none => simp [ht] at h
          | some q =>
            rw [topRewrite_mono (by omega) ht]
            simp only [ht] at h ⊢
            split at h
            · rename_i hc; rw [if_pos hc]; exact ih2 h
            · rename_i hc; rw [if_neg hc]; exact h

theorem nfArgs_total {d : RWDesc} (hL : RWLaws x D W S) (hs : SetsOK x d.sets) (hD : ∀ s ∈ d.sets, ∀ e ∈ s.mem, D e)
    (hl : d.level = 1 ∨ d.level = 2) : ∀ {ts : List Term} {st : RWSt}, RWInv x D W S d.sets st → (∀ t ∈ ts, W t) →
    (∀ t ∈ ts, ∀ st, RWInv x D W S d.sets st → ∃ n r, liNF x d n st t false = some r) →
    ∃ n r, nfArgs (fun s u => liNF x d n s u false) st ts = some r := by
  intro ts
  induction ts with
  | nil => intro st _ _ _; exact ⟨0, ([], st), rfl⟩
  | cons t ts ih =>
    intro st hi hw h
    obtain ⟨n, ⟨u, st1⟩, h1⟩ := h t (by simp) st hi
    obtain ⟨g1, -, -⟩ := (liNF_ok hL hs hD hl n).1 hi (hw t (by simp)) h1
    obtain ⟨m, ⟨us, st2⟩, h2⟩ := ih g1 (fun t ht => hw t (by simp [ht])) (fun t ht => h t (by simp [ht]))
    refine ⟨n + m, (u :: us, st2), ?_⟩
    simp only [nfArgs]
    rw [(liNF_mono n (n + m) (by omega)).1 h1]
    simp only
    rw [nfArgs_mono (fun st t r hr => (liNF_mono m (n + m) (by omega)).1 hr) h2]

theorem subRewrite_total {d : RWDesc} (hL : RWLaws x D W S) (hs : SetsOK x d.sets) (hD : ∀ s ∈ d.sets, ∀ e ∈ s.mem, D e)
    (hl : d.level = 1 ∨ d.level = 2) {st : RWSt} {t : Term} (hi : RWInv x D W S d.sets st) (hw : W t)
    (h : ∀ f ts, t = .app f ts → ∀ a ∈ ts, ∀ st, RWInv x D W S d.sets st → ∃ n r, liNF x d n st a false = some r) :
    ∃ n r, subRewrite (fun s u => liNF x d n s u false) st t = some r := by
  cases t with
  | var y => exact ⟨0, _, rfl⟩
  | app f ts =>
    obtain ⟨n, ⟨us, st1⟩, h1⟩ := nfArgs_total hL hs hD hl hi (fun t ht => hL.arg hw ht) (h f ts rfl)
    by_cases he : us = ts
    · exact ⟨n, _, by simp only [subRewrite, h1]; rw [if_pos he]⟩
    · exact ⟨n, _, by simp only [subRewrite, h1]; rw [if_neg he]⟩

theorem topRewrite_total {d : RWDesc} (hL : RWLaws x D W S) (hs : SetsOK x d.sets) (hD : ∀ s ∈ d.sets, ∀ e ∈ s.mem, D e)
    {st : RWSt} {t : Term} (hi : RWInv x D W S d.sets st) (hw : W t) (rs : Bool) :
    ∃ n r, topRewrite x d n st t rs = some r := by
  have hlinks : LinksOK x D W S (if (st t).topRewritten then st else rewriteWithSets x d.level rs st t (d.sets.take d.level)) := by
    split
    · exact hi.links
    · rcases rewriteWithSets_ok (level := d.level) (rs := rs) (st := st) hL hw (sets := d.sets.take d.level)
        (fun s hm => hs.ok s (List.mem_of_mem_take hm)) (fun s hm => hD s (List.mem_of_mem_take hm)) with ⟨h1, -⟩ | ⟨e, v, right, h1, h2, h3⟩
      · rw [h1]; exact hi.links
      · rw [h3]
        exact linksOK_add hi.links (fun _ => hL.step hw h1 h2) (fun _ e' he' => by
          simp only [Option.some.injEq] at he'; subst he'; exact ⟨h1, right, h2⟩) (by simp)
  obtain ⟨n, u, hu⟩ := followTop_total hL hlinks rs t hw
  exact ⟨n, (u, _), by unfold topRewrite; simp only [hu, Option.map_some]; rfl⟩

/-- Normalisation ends. -/
theorem liNF_total {d : RWDesc} (hL : RWLaws x D W S) (hs : SetsOK x d.sets) (hD : ∀ s ∈ d.sets, ∀ e ∈ s.mem, D e)
    (hl : d.level = 1 ∨ d.level = 2) (t : Term) : W t →
    (∀ st rs, RWInv x D W S d.sets st → ∃ n r, liNF x d n st t rs = some r) ∧
    (∀ st rs, RWInv x D W S d.sets st → ∃ n r, liLoop x d n st t rs = some r) := by
  induction t using hL.wf.induction with
  | _ t ih =>
    intro hw
    have hloop : ∀ st rs, RWInv x D W S d.sets st → ∃ n r, liLoop x d n st t rs = some r := by
      intro st rs hi
      obtain ⟨n1, ⟨m, t1, st1⟩, h1⟩ := subRewrite_total hL hs hD hl hi hw
        (fun f ts he a ha st hi => (ih a (.inr ⟨hw, f, ts, he, ha⟩) (hL.arg (he ▸ hw) ha)).1 st false hi)
      obtain ⟨g1, g2, g3, -⟩ := subRewrite_ok hL (fun hi hw h => (liNF_ok hL hs hD hl n1).1 hi hw h) hi hw h1
      by_cases hv : t1.isVar = true
      · refine ⟨n1 + 1, (t1, setNF d st1 t1 rs), ?_⟩
        rw [liLoop]; simp only [h1]; rw [if_pos hv]
      · have hle : Le S t t1 := by
          cases m with
          | false => exact .inl (g2 rfl)
          | true => exact .inr (g3 rfl)
        have hw1 := hle.dom hL hw
        obtain ⟨n2, ⟨t2, st2⟩, h2⟩ := topRewrite_total hL hs hD g1 hw1 (rs && !m)
        obtain ⟨k1, k2, -⟩ := topRewrite_ok hL hs hD hl g1 hw1 h2
        by_cases hc : (m || decide (t2 ≠ t1)) = true
        · have hlt : S t t2 := by
            rcases Bool.or_eq_true_iff.1 hc with hm | hne
            · rcases k2 with rfl | k2
              · exact g3 hm
              · exact hL.trans (g3 hm) k2
            · have hne := of_decide_eq_true hne
              rcases k2 with rfl | k2
              · exact absurd rfl hne
              · rcases hle with rfl | hle
                · exact k2
                · exact hL.trans hle k2
          obtain ⟨n3, r, h3⟩ := (ih t2 (.inl hlt) (hL.dom hlt).2).2 st2 rs k1
          refine ⟨n1 + n2 + n3 + 1, r, ?_⟩
          rw [liLoop, subRewrite_mono (fun st t r hr => (liNF_mono n1 (n1 + n2 + n3) (by omega)).1 hr) h1]
          simp only
          rw [if_neg hv, topRewrite_mono (by omega) h2]
          simp only
          rw [if_pos hc]
          exact (liNF_mono n3 (n1 + n2 + n3) (by omega)).2 h3
        · refine ⟨n1 + n2 + 1, (t2, setNF d st2 t2 rs), ?_⟩
          rw [liLoop, subRewrite_mono (fun st t r hr => (liNF_mono n1 (n1 + n2) (by omega)).1 hr) h1]
          simp only
          rw [if_neg hv, topRewrite_mono (by omega) h2]
          simp only
          rw [if_neg hc]
    refine ⟨fun st rs hi => ?_, hloop⟩
    obtain ⟨n1, t1, h1⟩ := followTop_total hL hi.links rs t hw
    obtain ⟨k1, -⟩ := followTop_ok hL hi.links hw h1
    have hl0 : ¬ d.level = 0 := by omega
    have hloop1 : ∃ n r, liLoop x d n st t1 rs = some r := by
      rcases k1 with rfl | k1
      · exact hloop st rs hi
      · exact (ih t1 (.inl k1) (hL.dom k1).2).2 st rs hi
    obtain ⟨n2, r, h2⟩ := hloop1
    by_cases hc : (st t1).rewritten = false ∧ d.date ≤ (st t1).nf d.level
    · exact ⟨n1 + 1, (t1, st), by rw [liNF, if_neg hl0, h1]; simp only; rw [if_pos hc]⟩
    · by_cases hv : t1.isVar = true
      · exact ⟨n1 + 1, (t1, st), by rw [liNF, if_neg hl0, h1]; simp only; rw [if_neg hc, if_pos hv]⟩
      · refine ⟨n1 + n2 + 1, r, ?_⟩
        rw [liNF, if_neg hl0, followTop_mono (by omega) h1]; simp only
        rw [if_neg hc, if_neg hv]
        exact (liNF_mono n2 (n1 + n2) (by omega)).2 h2

end RewriteProof
end Verif
