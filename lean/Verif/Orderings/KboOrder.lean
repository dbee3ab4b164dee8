import Verif.Orderings.Spec
import Mathlib.Data.List.Perm.Subperm
import Mathlib.Data.List.Count
import Mathlib.Algebra.BigOperators.Group.List.Basic
import Mathlib.Algebra.Order.BigOperators.Group.List

/-!
# Order theory of the textbook Knuth-Bendix ordering (helper lemmas for C08, C09)
-/

namespace Verif.KboOrder
open Verif Term

variable {P : KboPar}

theorem wtL_eq (ts : List Term) : P.wtL ts = (ts.map P.wt).sum := by
  induction ts with
  | nil => rfl
  | cons t ts ih => simp [KboPar.wtL, ih]

theorem wt_app (f : Nat) (ts : List Term) : P.wt (.app f ts) = P.w f + (ts.map P.wt).sum := by
  rw [KboPar.wt, wtL_eq]

theorem VarCond.refl (s : Term) : VarCond s s := fun _ => le_refl _
theorem VarCond.trans {s t u : Term} (h1 : VarCond s t) (h2 : VarCond t u) : VarCond s u :=
  fun x => (h2 x).trans (h1 x)

theorem kbo_wt_le {s t : Term} (h : KBO P s t) : P.wt t ≤ P.wt s := by
  cases h with
  | weight _ h => omega
  | var h => omega
  | prec _ h => omega
  | lex _ h => omega

theorem vars_pow (f n : Nat) (t : Term) : (Term.pow f n t).vars = t.vars := by
  induction n with
  | zero => rfl
  | succ n ih => simp [Term.pow, vars, varsL, ih]

theorem kbo_vars {s t : Term} (h : KBO P s t) : VarCond s t := by
  cases h with
  | weight h _ => exact h
  | var h => intro x; rw [vars_pow]
  | prec h => exact h
  | lex h => exact h

theorem wt_ge (hA : P.Admissible) {t : Term} (ht : t.HasAr P.ar) : P.w0 ≤ P.wt t := by
  induction t using Term.ind with
  | hv x => simp [KboPar.wt]
  | ha f ts ih =>
    obtain ⟨h1, h2⟩ := hasAr_app.1 ht
    rw [wt_app]
    cases ts with
    | nil =>
      have := hA.const f (by simpa using h1.symm)
      omega
    | cons t ts =>
      have := ih t (by simp) (h2 t (by simp))
      simp only [List.map_cons, List.sum_cons]
      omega

theorem hasAr_subst {ar : Nat → Nat} {σ : Nat → Term} (hσ : ∀ x, (σ x).HasAr ar) {t : Term} (ht : t.HasAr ar) :
    (t.subst σ).HasAr ar := by
  induction t using Term.ind with
  | hv x => exact hσ x
  | ha f ts ih =>
    obtain ⟨h1, h2⟩ := hasAr_app.1 ht
    rw [subst_app, hasAr_app]
    refine ⟨by simpa using h1, ?_⟩
    simp only [List.mem_map]
    rintro _ ⟨t, hm, rfl⟩
    exact ih t hm (h2 t hm)

/-- A term with the weight of a variable that contains a variable is a tower of the zero-weight unary symbol. -/
theorem pow_of_wt (hP : StrictPrec P.gt) (hA : P.Admissible) {x : Nat} {s : Term} (hs : s.HasAr P.ar) (hx : x ∈ s.vars)
    (hw : P.wt s = P.w0) : s = .var x ∨ ∃ f n, P.ar f = 1 ∧ P.w f = 0 ∧ s = Term.pow f (n + 1) (.var x) := by
  induction s using Term.ind with
  | hv y => simp [vars] at hx; subst hx; exact Or.inl rfl
  | ha f ts ih =>
    obtain ⟨h1, h2⟩ := hasAr_app.1 hs
    rw [wt_app] at hw
    match ts, h1, h2, hx, hw, ih with
    | [], _, _, hx, _, _ => simp [vars, varsL] at hx
    | [t], h1, h2, hx, hw, ih =>
      have hg := wt_ge hA (h2 t (by simp))
      simp only [List.map_cons, List.map_nil, List.sum_cons, List.sum_nil] at hw
      have har : P.ar f = 1 := by simpa using h1.symm
      have hwf : P.w f = 0 := by omega
      refine Or.inr ?_
      rcases ih t (by simp) (h2 t (by simp)) (by simpa [vars, varsL] using hx) (by omega) with rfl | ⟨g, n, hg1, hg2, rfl⟩
      · exact ⟨f, 0, har, hwf, rfl⟩
      · have : g = f := by
          by_contra hne
          exact hP.irrefl f (hP.trans _ _ _ (hA.unary f har hwf g hne) (hA.unary g hg1 hg2 f fun h => hne h.symm))
        subst this
        exact ⟨g, n + 1, har, hwf, rfl⟩
    | t :: u :: ts, _, h2, _, hw, _ =>
      have hg := wt_ge hA (h2 t (by simp))
      have hg' := wt_ge hA (h2 u (by simp))
      have := hA.w0_pos
      simp only [List.map_cons, List.sum_cons] at hw
      omega

theorem varCond_ctx {s t : Term} (h : VarCond s t) (f : Nat) (pre post : List Term) :
    VarCond (.app f (pre ++ s :: post)) (.app f (pre ++ t :: post)) := by
  intro x
  simp only [vars, varsL_append, varsL, List.count_append]
  have := h x
  omega

/-- Compatibility with contexts. -/
theorem kbo_mono {s t : Term} (h : KBO P s t) (f : Nat) (pre post : List Term) :
    KBO P (.app f (pre ++ s :: post)) (.app f (pre ++ t :: post)) := by
  have hw := kbo_wt_le h
  have hv := varCond_ctx (kbo_vars h) f pre post
  rcases Nat.lt_or_eq_of_le hw with hlt | heq
  · refine .weight hv ?_
    simp only [wt_app, List.map_append, List.map_cons, List.sum_append, List.sum_cons]
    omega
  · refine .lex hv ?_ rfl h
    simp only [wt_app, List.map_append, List.map_cons, List.sum_append, List.sum_cons]
    omega

theorem varCond_arg {f : Nat} {t : Term} {ts : List Term} (h : t ∈ ts) : VarCond (.app f ts) t := by
  intro x
  obtain ⟨a, b, rfl⟩ := List.append_of_mem h
  simp only [vars, varsL_append, varsL, List.count_append]
  omega

theorem wt_arg {f : Nat} {t : Term} {ts : List Term} (h : t ∈ ts) : P.wt t ≤ P.wt (.app f ts) := by
  obtain ⟨a, b, rfl⟩ := List.append_of_mem h
  simp only [wt_app, List.map_append, List.map_cons, List.sum_append, List.sum_cons]
  omega

/-- Immediate subterms are smaller. -/
theorem kbo_arg (hA : P.Admissible) {f : Nat} {t : Term} {ts : List Term} (hs : (Term.app f ts).HasAr P.ar) (h : t ∈ ts) :
    KBO P (.app f ts) t := by
  induction t using Term.ind generalizing f ts with
  | hv x =>
    rcases Nat.lt_or_eq_of_le (wt_arg (P := P) (f := f) h) with hlt | heq
    · exact .weight (varCond_arg h) hlt
    · obtain ⟨h1, h2⟩ := hasAr_app.1 hs
      obtain ⟨a, b, rfl⟩ := List.append_of_mem h
      simp only [wt_app, List.map_append, List.map_cons, List.sum_append, List.sum_cons] at heq
      have ha : a = [] := by
        rcases a with - | ⟨u, a⟩
        · rfl
        · have := wt_ge hA (h2 u (by simp)); have := hA.w0_pos
          simp only [List.map_cons, List.sum_cons] at heq; omega
      have hb : b = [] := by
        rcases b with - | ⟨u, b⟩
        · rfl
        · have := wt_ge hA (h2 u (by simp)); have := hA.w0_pos
          simp only [List.map_cons, List.sum_cons] at heq; omega
      subst ha hb
      have : KBO P (Term.pow f (0 + 1) (.var x)) (.var x) := .var (by
        simp only [Term.pow, wt_app, List.map_cons, List.map_nil, List.sum_cons, List.sum_nil] at heq ⊢
        omega)
      simpa [Term.pow] using this
  | ha g us ih =>
    rcases Nat.lt_or_eq_of_le (wt_arg (P := P) (f := f) h) with hlt | heq
    · exact .weight (varCond_arg h) hlt
    · obtain ⟨h1, h2⟩ := hasAr_app.1 hs
      have hvc := varCond_arg (f := f) h
      obtain ⟨a, b, rfl⟩ := List.append_of_mem h
      have heq' := heq
      rw [wt_app f] at heq
      simp only [List.map_append, List.map_cons, List.sum_append, List.sum_cons] at heq
      have ha : a = [] := by
        rcases a with - | ⟨u, a⟩
        · rfl
        · have := wt_ge hA (h2 u (by simp)); have := hA.w0_pos
          simp only [List.map_cons, List.sum_cons] at heq; omega
      have hb : b = [] := by
        rcases b with - | ⟨u, b⟩
        · rfl
        · have := wt_ge hA (h2 u (by simp)); have := hA.w0_pos
          simp only [List.map_cons, List.sum_cons] at heq; omega
      subst ha hb
      simp only [List.map_nil, List.sum_nil] at heq
      have hwf : P.w f = 0 := by omega
      have har : P.ar f = 1 := by simpa using h1.symm
      by_cases hgf : g = f
      · subst hgf
        have hu := h2 (.app g us) (by simp)
        have hl := (hasAr_app.1 hu).1
        rw [har] at hl
        obtain ⟨u, rfl⟩ := List.length_eq_one_iff.1 hl
        have hr := ih u (by simp) hu (by simp)
        exact KBO.lex (pre := []) (ss := []) (ts := []) hvc heq'.symm rfl hr
      · exact .prec hvc heq'.symm (hA.unary f har hwf g hgf)

theorem kbo_var_left {x : Nat} {t : Term} (hA : P.Admissible) (ht : t.HasAr P.ar) : ¬ KBO P (.var x) t := by
  intro h
  have hw := kbo_wt_le h
  have := wt_ge hA ht
  generalize hs : Term.var x = s at h
  cases h with
  | weight _ h => subst hs; simp only [KboPar.wt] at h; omega
  | var _ => simp [Term.pow] at hs
  | prec => cases hs
  | lex => cases hs

theorem pow_app {f n : Nat} {t : Term} : Term.pow f (n + 1) t = .app f [Term.pow f n t] := rfl

theorem kbo_var_right (hP : StrictPrec P.gt) (hA : P.Admissible) {s : Term} {x : Nat} (hs : s.HasAr P.ar) :
    KBO P s (.var x) ↔ x ∈ s.vars ∧ s ≠ .var x := by
  constructor
  · intro h
    refine ⟨?_, ?_⟩
    · have := kbo_vars h x
      simp only [vars, List.count_singleton_self] at this
      exact List.count_pos_iff.1 (by omega)
    · rintro rfl
      exact kbo_var_left hA (by trivial) h
  · rintro ⟨hx, hne⟩
    have hv : VarCond s (.var x) := by
      intro y
      by_cases hy : y = x
      · subst hy; simpa [vars] using List.count_pos_iff.2 hx
      · rw [vars, List.count_eq_zero.2 (by simpa using hy)]; exact Nat.zero_le _
    rcases Nat.lt_or_eq_of_le (wt_ge hA hs) with hlt | heq
    · exact .weight hv (by simpa [KboPar.wt] using hlt)
    · rcases pow_of_wt hP hA hs hx heq.symm with h | ⟨f, n, -, -, rfl⟩
      · exact absurd h hne
      · exact .var (by rw [← heq]; rfl)

/-! ### Lexicographic comparison of lists -/

/-- First difference decides. -/
inductive LexGt (R : Term → Term → Prop) : List Term → List Term → Prop
  | head {s t ss ts} : ss.length = ts.length → R s t → LexGt R (s :: ss) (t :: ts)
  | tail {s ss ts} : LexGt R ss ts → LexGt R (s :: ss) (s :: ts)

theorem lexGt_of {R : Term → Term → Prop} {s t : Term} {ss ts : List Term} (pre : List Term) (hl : ss.length = ts.length)
    (h : R s t) : LexGt R (pre ++ s :: ss) (pre ++ t :: ts) := by
  induction pre with
  | nil => exact .head hl h
  | cons u pre ih => exact .tail ih

theorem lexGt_iff {R : Term → Term → Prop} {as bs : List Term} :
    LexGt R as bs ↔ ∃ pre s t ss ts, as = pre ++ s :: ss ∧ bs = pre ++ t :: ts ∧ ss.length = ts.length ∧ R s t := by
  constructor
  · intro h
    induction h with
    | head hl h => exact ⟨[], _, _, _, _, rfl, rfl, hl, h⟩
    | tail _ ih =>
      obtain ⟨pre, s, t, ss, ts, rfl, rfl, hl, h⟩ := ih
      exact ⟨_ :: pre, s, t, ss, ts, rfl, rfl, hl, h⟩
  · rintro ⟨pre, s, t, ss, ts, rfl, rfl, hl, h⟩
    exact lexGt_of pre hl h

theorem LexGt.length {R : Term → Term → Prop} {as bs : List Term} (h : LexGt R as bs) : as.length = bs.length := by
  induction h with
  | head hl _ => simp [hl]
  | tail _ ih => simp [ih]

theorem LexGt.trans {R : Term → Term → Prop} {as bs cs : List Term}
    (hR : ∀ a ∈ as, ∀ b ∈ bs, ∀ c ∈ cs, R a b → R b c → R a c)
    (h1 : LexGt R as bs) (h2 : LexGt R bs cs) : LexGt R as cs := by
  induction h1 generalizing cs with
  | head hl h =>
    cases h2 with
    | head hl2 h2 => exact .head (hl.trans hl2) (hR _ (by simp) _ (by simp) _ (by simp) h h2)
    | tail h2 => exact .head (hl.trans h2.length) h
  | tail h1 ih =>
    cases h2 with
    | head hl2 h2 => exact .head (h1.length.trans hl2) h2
    | tail h2 =>
      exact .tail (ih (fun a ha b hb c hc => hR a (by simp [ha]) b (by simp [hb]) c (by simp [hc])) h2)

/-- The KBO in terms of `LexGt`. -/
theorem kbo_app_iff {f g : Nat} {ss ts : List Term} :
    KBO P (.app f ss) (.app g ts) ↔ VarCond (.app f ss) (.app g ts) ∧
      (P.wt (.app g ts) < P.wt (.app f ss) ∨
        P.wt (.app f ss) = P.wt (.app g ts) ∧ (P.gt f g ∨ f = g ∧ LexGt (KBO P) ss ts)) := by
  constructor
  · intro h
    refine ⟨kbo_vars h, ?_⟩
    cases h with
    | weight _ h => exact Or.inl h
    | prec _ hw h => exact Or.inr ⟨hw, Or.inl h⟩
    | lex _ hw hl h => exact Or.inr ⟨hw, Or.inr ⟨rfl, lexGt_of _ hl h⟩⟩
  · rintro ⟨hv, h | ⟨hw, h | ⟨rfl, h⟩⟩⟩
    · exact .weight hv h
    · exact .prec hv hw h
    · obtain ⟨pre, s, t, ss, ts, rfl, rfl, hl, h⟩ := lexGt_iff.1 h
      exact .lex hv hw hl h

/-- Transitivity. -/
theorem kbo_trans (hP : StrictPrec P.gt) (hA : P.Admissible) {s t u : Term} (hs : s.HasAr P.ar) (ht : t.HasAr P.ar)
    (hu : u.HasAr P.ar) (h1 : KBO P s t) (h2 : KBO P t u) : KBO P s u := by
  induction s using Term.ind generalizing t u with
  | hv x => exact absurd h1 (kbo_var_left hA ht)
  | ha f ss ih =>
    have hv := VarCond.trans (kbo_vars h1) (kbo_vars h2)
    cases t with
    | var x => exact absurd h2 (kbo_var_left hA hu)
    | app g ts =>
      cases u with
      | var x =>
        rw [kbo_var_right hP hA hs]
        refine ⟨?_, by simp⟩
        have := hv x
        simp only [vars, List.count_singleton_self] at this
        exact List.count_pos_iff.1 (by simp only [vars]; omega)
      | app h us =>
        rw [kbo_app_iff] at h1 h2 ⊢
        refine ⟨hv, ?_⟩
        obtain ⟨-, h1⟩ := h1
        obtain ⟨-, h2⟩ := h2
        rcases h1 with h1 | ⟨w1, h1⟩ <;> rcases h2 with h2 | ⟨w2, h2⟩
        · left; omega
        · left; omega
        · left; omega
        · right
          refine ⟨w1.trans w2, ?_⟩
          rcases h1 with h1 | ⟨rfl, h1⟩ <;> rcases h2 with h2 | ⟨rfl, h2⟩
          · exact Or.inl (hP.trans _ _ _ h1 h2)
          · exact Or.inl h1
          · exact Or.inl h2
          · refine Or.inr ⟨rfl, h1.trans (fun a ha b hb c hc r1 r2 => ?_) h2⟩
            exact ih a ha ((hasAr_app.1 hs).2 a ha) ((hasAr_app.1 ht).2 b hb) ((hasAr_app.1 hu).2 c hc) r1 r2

/-- Irreflexivity. -/
theorem kbo_irrefl (hP : StrictPrec P.gt) {s : Term} : ¬ KBO P s s := by
  induction s using Term.ind with
  | hv x =>
    intro h
    generalize hs : Term.var x = s at h
    have hw : P.wt s = P.wt (.var x) := by rw [hs]
    have : ∀ s t, KBO P s t → s = .var x → t = .var x → False := by
      intro s t h
      cases h with
      | weight _ h => rintro rfl rfl; omega
      | var => intro h; simp [Term.pow] at h
      | prec => intro h; cases h
      | lex => intro h; cases h
    exact this _ _ h hs.symm hs.symm
  | ha f ss ih =>
    rw [kbo_app_iff]
    rintro ⟨-, h | ⟨-, h | ⟨-, h⟩⟩⟩
    · omega
    · exact hP.irrefl _ h
    · have : ∀ {as bs : List Term}, LexGt (KBO P) as bs → (∀ a ∈ as, ¬ KBO P a a) → as = bs → False := by
        intro as bs h
        induction h with
        | head _ h => intro hi he; cases he; exact hi _ (by simp) h
        | tail _ ih => intro hi he; cases he; exact ih (fun a ha => hi a (by simp [ha])) rfl
      exact this h ih rfl

/-- Terms without variables compare in one direction or the other. -/
theorem kbo_total (hP : TotalPrec P.gt) {s t : Term} (hs : s.HasAr P.ar) (ht : t.HasAr P.ar)
    (gs : s.vars = []) (gt : t.vars = []) (hne : s ≠ t) : KBO P s t ∨ KBO P t s := by
  induction s using Term.ind generalizing t with
  | hv x => simp [vars] at gs
  | ha f ss ih =>
    cases t with
    | var x => simp [vars] at gt
    | app g ts =>
      have v1 : VarCond (.app f ss) (.app g ts) := fun x => by rw [gs, gt]
      have v2 : VarCond (.app g ts) (.app f ss) := fun x => by rw [gs, gt]
      rw [kbo_app_iff, kbo_app_iff]
      rcases lt_trichotomy (P.wt (.app f ss)) (P.wt (.app g ts)) with h | h | h
      · exact Or.inr ⟨v2, Or.inl h⟩
      · by_cases hfg : f = g
        · subst hfg
          have hss := (hasAr_app.1 hs).2
          have hts := (hasAr_app.1 ht).2
          have hl : ss.length = ts.length := (hasAr_app.1 hs).1.trans (hasAr_app.1 ht).1.symm
          have hne' : ss ≠ ts := fun e => hne (by rw [e])
          have key : ∀ (ss ts : List Term), (∀ s ∈ ss, ∀ t ∈ ts, s ≠ t → KBO P s t ∨ KBO P t s) →
              ss.length = ts.length → ss ≠ ts → LexGt (KBO P) ss ts ∨ LexGt (KBO P) ts ss := by
            intro ss
            induction ss with
            | nil => intro ts _ hl hne; cases ts <;> simp_all
            | cons s ss ih =>
              intro ts hc hl hne
              cases ts with
              | nil => simp at hl
              | cons t ts =>
                by_cases he : s = t
                · subst he
                  rcases ih ts (fun a ha b hb => hc a (by simp [ha]) b (by simp [hb])) (by simpa using hl)
                    (fun e => hne (by rw [e])) with h | h
                  · exact Or.inl (.tail h)
                  · exact Or.inr (.tail h)
                · rcases hc s (by simp) t (by simp) he with h | h
                  · exact Or.inl (.head (by simpa using hl) h)
                  · exact Or.inr (.head (by simpa using hl.symm) h)
          have gv : ∀ (l : List Term), Term.vars (.app f l) = [] → ∀ t ∈ l, t.vars = [] := by
            intro l hl t htm
            rw [List.eq_nil_iff_forall_not_mem] at hl ⊢
            exact fun x hx => hl x (by simp only [vars, mem_varsL]; exact ⟨t, htm, hx⟩)
          rcases key ss ts (fun s hsm t htm => ih s hsm (hss s hsm) (hts t htm) (gv _ gs s hsm) (gv _ gt t htm)) hl hne' with
            h' | h'
          · exact Or.inl ⟨v1, Or.inr ⟨h, Or.inr ⟨rfl, h'⟩⟩⟩
          · exact Or.inr ⟨v2, Or.inr ⟨h.symm, Or.inr ⟨rfl, h'⟩⟩⟩
        · rcases hP.total f g hfg with h' | h'
          · exact Or.inl ⟨v1, Or.inr ⟨h, Or.inl h'⟩⟩
          · exact Or.inr ⟨v2, Or.inr ⟨h.symm, Or.inl h'⟩⟩
      · exact Or.inl ⟨v1, Or.inl h⟩

/-! ### Substitutions -/

theorem vars_subst (σ : Nat → Term) (t : Term) : (t.subst σ).vars = t.vars.flatMap fun x => (σ x).vars := by
  induction t using Term.ind with
  | hv x => simp [vars]
  | ha f ts ih =>
    rw [subst_app]
    simp only [vars]
    rw [varsL_eq, varsL_eq, List.flatMap_assoc, List.flatMap_map]
    exact List.flatMap_congr fun t ht => ih t ht

theorem wt_subst (σ : Nat → Term) (t : Term) :
    (P.wt (t.subst σ) : Int) = P.wt t + (t.vars.map fun x => (P.wt (σ x) : Int) - P.w0).sum := by
  induction t using Term.ind with
  | hv x => simp [vars, KboPar.wt]
  | ha f ts ih =>
    rw [subst_app, wt_app, wt_app]
    simp only [vars, Nat.cast_add]
    rw [add_assoc]
    congr 1
    clear f
    induction ts with
    | nil => simp [varsL]
    | cons t ts iht =>
      simp only [List.map_cons, List.sum_cons, Nat.cast_add, varsL, List.map_append, List.sum_append]
      rw [ih t (by simp), iht fun u hu => ih u (by simp [hu])]
      omega

theorem varCond_iff {s t : Term} : VarCond s t ↔ t.vars.Subperm s.vars :=
  Iff.trans (by
    constructor
    · intro h x _; exact h x
    · intro h x
      by_cases hx : x ∈ t.vars
      · exact h x hx
      · rw [List.count_eq_zero.2 hx]; exact Nat.zero_le _) List.subperm_ext_iff.symm

theorem sublist_flatMap {l l' : List Nat} (h : l.Sublist l') (g : Nat → List Nat) :
    (l.flatMap g).Sublist (l'.flatMap g) := by
  induction h with
  | slnil => exact List.Sublist.refl _
  | cons a _ ih => exact ih.trans (List.sublist_append_right _ _)
  | cons_cons a _ ih => exact (List.Sublist.refl _).append ih

theorem varCond_subst {s t : Term} (h : VarCond s t) (σ : Nat → Term) : VarCond (s.subst σ) (t.subst σ) := by
  rw [varCond_iff] at *
  rw [vars_subst, vars_subst]
  obtain ⟨l, hp, hs⟩ := h
  exact ⟨_, hp.flatMap_right _, sublist_flatMap hs _⟩

theorem sum_subperm {l l' : List Nat} (h : l.Subperm l') {g : Nat → Int} (hg : ∀ x, 0 ≤ g x) :
    (l.map g).sum ≤ (l'.map g).sum := by
  obtain ⟨m, hp, hs⟩ := h
  rw [← (hp.map g).sum_eq]
  exact (hs.map g).sum_le_sum (by simp only [List.mem_map]; rintro _ ⟨x, -, rfl⟩; exact hg x)

theorem wt_subst_le (hA : P.Admissible) {σ : Nat → Term} (hσ : ∀ x, (σ x).HasAr P.ar) {s t : Term} (h : VarCond s t) :
    (P.wt (t.subst σ) : Int) - P.wt t ≤ P.wt (s.subst σ) - P.wt s := by
  rw [wt_subst, wt_subst]
  have := sum_subperm (varCond_iff.1 h) (g := fun x => (P.wt (σ x) : Int) - P.w0)
    (fun x => by have := wt_ge hA (hσ x); omega)
  omega

theorem hasAr_pow {ar : Nat → Nat} {f n : Nat} {t : Term} (hf : ar f = 1) (ht : t.HasAr ar) : (Term.pow f n t).HasAr ar := by
  induction n with
  | zero => exact ht
  | succ n ih => exact hasAr_app.2 ⟨by simp [hf], by simpa using ih⟩

theorem subst_pow (σ : Nat → Term) (f n : Nat) (t : Term) : (Term.pow f n t).subst σ = Term.pow f n (t.subst σ) := by
  induction n with
  | zero => rfl
  | succ n ih => simp [Term.pow, subst_app, ih]

theorem kbo_pow (hP : StrictPrec P.gt) (hA : P.Admissible) {f n : Nat} {t : Term} (hf : P.ar f = 1) (ht : t.HasAr P.ar) :
    KBO P (Term.pow f (n + 1) t) t := by
  induction n with
  | zero => exact kbo_arg hA (hasAr_pow (n := 1) hf ht) (by simp [Term.pow])
  | succ n ih =>
    exact kbo_trans hP hA (hasAr_pow (n := n + 2) hf ht) (hasAr_pow (n := n + 1) hf ht) ht
      (kbo_arg hA (hasAr_pow (n := n + 2) hf ht) (by simp [Term.pow])) ih

/-- Stability under substitutions. -/
theorem kbo_subst (hP : StrictPrec P.gt) (hA : P.Admissible) {σ : Nat → Term} (hσ : ∀ x, (σ x).HasAr P.ar) {s t : Term}
    (hs : s.HasAr P.ar) (ht : t.HasAr P.ar) (h : KBO P s t) : KBO P (s.subst σ) (t.subst σ) := by
  induction h with
  | weight hv hw =>
    refine .weight (varCond_subst hv σ) ?_
    have := wt_subst_le hA hσ hv
    omega
  | @var f n x hw =>
    rw [subst_pow]
    exact kbo_pow hP hA (hasAr_app.1 hs).1.symm (by simpa using hσ x)
  | @prec f g ss ts hv hw hg =>
    have h1 := wt_subst_le hA hσ hv
    have h2 := varCond_subst hv σ
    rw [subst_app, subst_app] at h1 h2 ⊢
    rcases Nat.lt_or_ge (P.wt (.app g (ts.map (subst σ)))) (P.wt (.app f (ss.map (subst σ)))) with h | h
    · exact .weight h2 h
    · exact .prec h2 (by omega) hg
  | @lex f pre s t ss ts hv hw hl _ ih =>
    have h1 := wt_subst_le hA hσ hv
    have h2 := varCond_subst hv σ
    have ih' := ih ((hasAr_app.1 hs).2 s (by simp)) ((hasAr_app.1 ht).2 t (by simp))
    rw [subst_app, subst_app] at h1 h2 ⊢
    simp only [List.map_append, List.map_cons] at h1 h2 ⊢
    rcases Nat.lt_or_ge (P.wt (.app f (pre.map (subst σ) ++ t.subst σ :: ts.map (subst σ))))
      (P.wt (.app f (pre.map (subst σ) ++ s.subst σ :: ss.map (subst σ)))) with h | h
    · exact .weight h2 h
    · exact .lex h2 (by omega) (by simpa using hl) ih'

/-! ### Well-foundedness -/

/-- Induction over lists of accessible elements: a property of lists of length `n` that holds of `as` whenever it
holds of all lexicographically smaller lists of accessible elements holds of all lists of accessible elements. -/
theorem lex_induct {R : Term → Term → Prop} (n : Nat) :
    ∀ {Q : List Term → Prop},
    (∀ as, as.length = n → (∀ a ∈ as, Acc (fun a b => R b a) a) →
      (∀ bs, LexGt R as bs → (∀ b ∈ bs, Acc (fun a b => R b a) b) → Q bs) → Q as) →
    ∀ as, as.length = n → (∀ a ∈ as, Acc (fun a b => R b a) a) → Q as := by
  induction n with
  | zero =>
    intro Q h as hl ha
    obtain rfl : as = [] := List.length_eq_zero_iff.1 hl
    exact h [] rfl ha fun bs hb => by cases hb
  | succ n ih =>
    intro Q h as hl ha
    obtain ⟨a, as, rfl⟩ := List.exists_cons_of_length_eq_add_one hl
    have hacc := ha a (by simp)
    have hl' : as.length = n := by simpa using hl
    have has : ∀ b ∈ as, Acc (fun a b => R b a) b := fun b hb => ha b (by simp [hb])
    clear hl ha
    induction hacc generalizing as with
    | intro a hacc iha =>
      refine ih (Q := fun l => Q (a :: l)) ?_ as hl' has
      intro l hl hla ihl
      refine h (a :: l) (by simp [hl]) ?_ ?_
      · intro b hb
        rcases List.mem_cons.1 hb with rfl | hb
        · exact ⟨_, hacc⟩
        · exact hla b hb
      · intro bs hb hbs
        cases hb with
        | @head _ t _ ts hl2 hr =>
          exact iha t hr ts (by omega) fun b hb => hbs b (by simp [hb])
        | tail hb => exact ihl _ hb fun b hb => hbs b (by simp [hb])

/-- The KBO restricted to terms with correct arities. -/
def Gt (P : KboPar) (s t : Term) : Prop := s.HasAr P.ar ∧ t.HasAr P.ar ∧ KBO P s t

theorem acc_app (hP : StrictPrec P.gt) (hA : P.Admissible) (hwf : WellFounded fun f g => P.gt g f) :
    ∀ (w : Nat) (f : Nat) (ss : List Term), P.wt (.app f ss) = w → (∀ s ∈ ss, Acc (fun a b => Gt P b a) s) →
      Acc (fun a b => Gt P b a) (.app f ss) := by
  intro w
  induction w using Nat.strong_induction_on with
  | _ w ihw =>
    intro f
    induction f using hwf.induction with
    | _ f ihf =>
      intro ss hw hacc
      refine lex_induct (R := Gt P) ss.length
        (Q := fun ss => P.wt (.app f ss) = w → Acc (fun a b => Gt P b a) (.app f ss)) ?_ ss rfl hacc hw
      clear hacc hw
      intro as hl hacc ihl hw
      refine ⟨_, fun t ht => ?_⟩
      have key : ∀ t, Gt P (.app f as) t → Acc (fun a b => Gt P b a) t := by
        intro t
        induction t using Term.ind with
        | hv x =>
          intro _
          exact ⟨_, fun u hu => absurd hu.2.2 (kbo_var_left hA hu.2.1)⟩
        | ha g ts ih =>
          rintro ⟨h1, h2, h⟩
          have hts : ∀ t ∈ ts, Acc (fun a b => Gt P b a) t := fun t htm =>
            ih t htm ⟨h1, (hasAr_app.1 h2).2 t htm, kbo_trans hP hA h1 h2 ((hasAr_app.1 h2).2 t htm) h (kbo_arg hA h2 htm)⟩
          rw [kbo_app_iff] at h
          obtain ⟨-, h⟩ := h
          rcases h with h | ⟨hw', h | ⟨rfl, h⟩⟩
          · exact ihw _ (by omega) g ts rfl hts
          · exact ihf g h ts (by omega) hts
          · refine ihl ts ?_ hts (by omega)
            have ha := (hasAr_app.1 h1).2
            have hb := (hasAr_app.1 h2).2
            clear hts ih h1 h2 hw' hw hacc ihl ht hl ihf
            induction h with
            | head hl h => exact .head hl ⟨ha _ (by simp), hb _ (by simp), h⟩
            | tail _ ih => exact .tail (ih (fun t ht => ha t (by simp [ht])) fun t ht => hb t (by simp [ht]))
      exact key t ht

/-- No infinite descending chains. -/
theorem kbo_wf (hP : StrictPrec P.gt) (hA : P.Admissible) (hwf : WellFounded fun f g => P.gt g f) :
    WellFounded fun s t => Gt P t s := by
  refine ⟨fun t => ?_⟩
  induction t using Term.ind with
  | hv x => exact ⟨_, fun u hu => absurd hu.2.2 (kbo_var_left hA hu.2.1)⟩
  | ha f ts ih => exact acc_app hP hA hwf _ f ts rfl ih

/-! ## Finitely many symbols -/

/-- The precedence cut down to the symbols below `N`; all others are minimal. -/
def cut (gt : Nat → Nat → Prop) (N : Nat) (f g : Nat) : Prop := f < N ∧ (N ≤ g ∨ g < N ∧ gt f g)

theorem cut_strict {gt : Nat → Nat → Prop} (h : StrictPrec gt) (N : Nat) : StrictPrec (cut gt N) := by
  refine ⟨fun f hf => ?_, fun f g k h1 h2 => ?_⟩
  · rcases hf with ⟨h1, h2 | ⟨-, h2⟩⟩
    · omega
    · exact h.irrefl f h2
  · rcases h1 with ⟨h1, h3 | ⟨h3, h4⟩⟩
    · have := h2.1; omega
    · rcases h2 with ⟨-, h5 | ⟨h5, h6⟩⟩
      · exact ⟨h1, Or.inl h5⟩
      · exact ⟨h1, Or.inr ⟨h5, h.trans f g k h4 h6⟩⟩

open Classical in
theorem cut_wf {gt : Nat → Nat → Prop} (h : StrictPrec gt) (N : Nat) : WellFounded fun f g => cut gt N g f := by
  have key : ∀ f g, cut gt N f g →
      (if g < N then 1 + ((List.range N).filter (fun k => gt g k)).length else 0)
        < (if f < N then 1 + ((List.range N).filter (fun k => gt f k)).length else 0) := by
    rintro f g ⟨h1, h2 | ⟨h2, h3⟩⟩
    · rw [if_pos h1, if_neg (by omega)]; omega
    · rw [if_pos h1, if_pos h2]
      have hsub : ((List.range N).filter (fun k => gt g k)).length < ((List.range N).filter (fun k => gt f k)).length := by
        have hn : ∀ q : Nat → Bool, ((List.range N).filter q).Nodup := fun q => (List.nodup_range).filter _
        have hs : (g :: (List.range N).filter (fun k => gt g k)).Subperm ((List.range N).filter (fun k => gt f k)) := by
          refine List.Nodup.subperm (List.nodup_cons.2 ⟨?_, hn _⟩) fun k hk => ?_
          · simp only [List.mem_filter, decide_eq_true_eq, not_and]
            exact fun _ => h.irrefl g
          · rcases List.mem_cons.1 hk with rfl | hk
            · simp [h2, h3]
            · simp only [List.mem_filter, List.mem_range, decide_eq_true_eq] at hk ⊢
              exact ⟨hk.1, h.trans f g k h3 hk.2⟩
        have := hs.length_le
        rw [List.length_cons] at this; omega
      omega
  exact Subrelation.wf (fun {f g} h => key g f h) (measure fun f =>
    if f < N then 1 + ((List.range N).filter (fun k => gt f k)).length else 0).wf

/-- The parameters cut down to the symbols below `N`. -/
def KboPar.cut (P : KboPar) (N : Nat) : KboPar := ⟨P.ar, fun f => if f < N then P.w f else P.w0, P.w0, KboOrder.cut P.gt N⟩

theorem cut_admissible (hA : P.Admissible) (N : Nat) : (KboPar.cut P N).Admissible := by
  refine ⟨hA.w0_pos, fun f hf => ?_, fun f hf hw g hg => ?_⟩
  · simp only [KboPar.cut]
    split
    · exact hA.const f hf
    · exact le_refl _
  · simp only [KboPar.cut] at hw ⊢
    have := hA.w0_pos
    by_cases hN : f < N
    · rw [if_pos hN] at hw
      by_cases hg' : g < N
      · exact ⟨hN, Or.inr ⟨hg', hA.unary f hf hw g hg⟩⟩
      · exact ⟨hN, Or.inl (by omega)⟩
    · rw [if_neg hN] at hw; omega

theorem cut_wt {N : Nat} {t : Term} (h : t.SymsBelow N) : (KboPar.cut P N).wt t = P.wt t := by
  induction t using Term.ind with
  | hv x => rfl
  | ha f ts ih =>
    obtain ⟨h1, h2⟩ := symsBelow_app.1 h
    rw [wt_app, wt_app]
    simp only [KboPar.cut, if_pos h1]
    congr 2
    exact List.map_congr_left fun t ht => ih t ht (h2 t ht)

theorem cut_kbo {N : Nat} {s t : Term} (h : KBO P s t) (hs : s.SymsBelow N) (ht : t.SymsBelow N) :
    KBO (KboPar.cut P N) s t := by
  induction h with
  | weight hv hw => exact .weight hv (by rw [cut_wt hs, cut_wt ht]; exact hw)
  | var hw => exact .var (by rw [cut_wt hs, cut_wt ht]; exact hw)
  | prec hv hw hg =>
    exact .prec hv (by rw [cut_wt hs, cut_wt ht]; exact hw)
      ⟨(symsBelow_app.1 hs).1, Or.inr ⟨(symsBelow_app.1 ht).1, hg⟩⟩
  | lex hv hw hl _ ih =>
    exact .lex hv (by rw [cut_wt hs, cut_wt ht]; exact hw) hl
      (ih ((symsBelow_app.1 hs).2 _ (by simp)) ((symsBelow_app.1 ht).2 _ (by simp)))

theorem kbo_wf_finite (hP : StrictPrec P.gt) (hA : P.Admissible) (N : Nat) :
    WellFounded fun s t : Term => s.SymsBelow N ∧ t.SymsBelow N ∧ Gt P t s := by
  refine Subrelation.wf ?_ (kbo_wf (P := KboPar.cut P N) (cut_strict hP N) (cut_admissible hA N) (cut_wf hP N))
  rintro s t ⟨h1, h2, h3, h4, h5⟩
  exact ⟨h3, h4, cut_kbo h5 h2 h1⟩

end Verif.KboOrder
