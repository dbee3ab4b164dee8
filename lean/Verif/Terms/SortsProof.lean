import Verif.Terms.SortsSpec

/-!
# Reading gives a well-sorted problem
-/

namespace Verif
namespace Sorts

abbrev Infos := Sym → Option SInfo

def updI (I : Infos) (k : Sym) (i : SInfo) : Infos := fun j => if j = k then some i else I j

/-- The typing in a signature. -/
def typesI (I : Infos) : Typing := fun k => (I k).bind (·.ty)

/-- Between literals all known symbols have a fixed type. -/
def Inv (I : Infos) : Prop := ∀ k i, I k = some i → ∃ ty, i = ⟨some ty, true⟩ ∧ ty.args.length = k.2

def Le (I J : Infos) : Prop := ∀ k i, I k = some i → J k = some i

theorem Le.refl (I : Infos) : Le I I := fun _ _ h => h
theorem Le.trans {I J K : Infos} (h1 : Le I J) (h2 : Le J K) : Le I K := fun k i h => h2 k i (h1 k i h)

def TLe (τ σ : Typing) : Prop := ∀ k ty, τ k = some ty → σ k = some ty

theorem Le.types {I J : Infos} (h : Le I J) : TLe (typesI I) (typesI J) := by
  intro k ty hk
  simp only [typesI, Option.bind_eq_some_iff] at hk ⊢
  obtain ⟨i, h1, h2⟩ := hk
  exact ⟨i, h k i h1, h2⟩

theorem updI_self {I : Infos} {k : Sym} {i : SInfo} (h : I k = some i) : updI I k i = I := by
  funext j
  simp only [updI]
  split
  · rename_i hj; rw [hj, h]
  · rfl

theorem updI_updI (I : Infos) (k : Sym) (i j : SInfo) : updI (updI I k i) k j = updI I k j := by
  funext l; simp only [updI]; split <;> rfl

theorem updI_at (I : Infos) (k : Sym) (i : SInfo) : updI I k i k = some i := by simp [updI]

theorem updI_ne {I : Infos} {k l : Sym} {i : SInfo} (h : l ≠ k) : updI I k i l = I l := by simp [updI, h]

theorem le_updI {I : Infos} {k : Sym} {i : SInfo} (h : I k = none) : Le I (updI I k i) := by
  intro l j hl
  rw [updI_ne (by rintro rfl; rw [h] at hl; cases hl)]
  exact hl

theorem inv_updI {I : Infos} {k : Sym} {ty : FTy} (hI : Inv I) (hl : ty.args.length = k.2) : Inv (updI I k ⟨some ty, true⟩) := by
  intro l j hj
  by_cases h : l = k
  · subst h; rw [updI_at] at hj; cases hj; exact ⟨ty, rfl, hl⟩
  · rw [updI_ne h] at hj; exact hI l j hj

/-! ## Sorts -/

theorem sort_mono {τ σ : Typing} (h : TLe τ σ) : (∀ t s, sortOf τ t = some s → sortOf σ t = some s ∧ annot σ t = annot τ t) ∧
    ∀ as ss, sortsOf τ as = some ss → sortsOf σ as = some ss ∧ annots σ as = annots τ as := by
  have hT : ∀ t s, sortOf τ t = some s → sortOf σ t = some s ∧ annot σ t = annot τ t := by
    intro t
    induction t using PTm.rec (motive_2 := fun as => ∀ ss, sortsOf τ as = some ss → sortsOf σ as = some ss ∧ annots σ as = annots τ as) with
    | var x s => intro r h; exact ⟨h, rfl⟩
    | fn f as ih =>
      intro r hr
      have hr0 := hr
      rw [sortOf] at hr
      cases ha : sortsOf τ as with
      | none => rw [ha] at hr; cases hr
      | some ss =>
        rw [ha] at hr
        simp only at hr
        obtain ⟨e1, e2⟩ := ih ss ha
        cases hk : τ (f, ss.length) with
        | none => rw [hk] at hr; cases hr
        | some ty =>
          rw [hk] at hr
          simp only at hr
          have e3 : sortOf σ (.fn f as) = some r := by
            rw [sortOf, e1]
            simp only [h _ _ hk]
            exact hr
          exact ⟨e3, by rw [annot, annot, e2, e3, hr0]⟩
    | nil => exact ⟨‹_›, rfl⟩
    | cons a as ih1 ih2 =>
      rename_i ss hs
      rw [sortsOf] at hs
      cases ha : sortOf τ a with
      | none => rw [ha] at hs; cases hs
      | some s =>
        rw [ha] at hs
        simp only at hs
        split at hs
        · cases hs
        · rename_i h0
          cases hb : sortsOf τ as with
          | none => rw [hb] at hs; cases hs
          | some rs =>
            rw [hb] at hs
            cases hs
            obtain ⟨a1, a2⟩ := ih1 s ha
            obtain ⟨b1, b2⟩ := ih2 rs hb
            exact ⟨by rw [sortsOf, a1, b1]; simp only [h0, if_false], by rw [annots, annots, a2, b2]⟩
  refine ⟨hT, ?_⟩
  intro as
  induction as with
  | nil => intro ss h; exact ⟨h, rfl⟩
  | cons a as ih =>
    intro ss hs
    rw [sortsOf] at hs
    cases ha : sortOf τ a with
    | none => rw [ha] at hs; cases hs
    | some s =>
      rw [ha] at hs
      simp only at hs
      split at hs
      · cases hs
      · rename_i h0
        cases hb : sortsOf τ as with
        | none => rw [hb] at hs; cases hs
        | some rs =>
          rw [hb] at hs
          cases hs
          obtain ⟨a1, a2⟩ := hT a s ha
          obtain ⟨b1, b2⟩ := ih rs hb
          exact ⟨by rw [sortsOf, a1, b1]; simp only [h0, if_false], by rw [annots, annots, a2, b2]⟩

theorem sortsOf_cons {τ : Typing} {a : PTm} {as : List PTm} {ss : List Nat} (h : sortsOf τ (a :: as) = some ss) :
    ∃ s rs, ss = s :: rs ∧ s ≠ 0 ∧ sortOf τ a = some s ∧ sortsOf τ as = some rs := by
  rw [sortsOf] at h
  cases ha : sortOf τ a with
  | none => rw [ha] at h; cases h
  | some s =>
    rw [ha] at h
    simp only at h
    split at h
    · cases h
    · rename_i h0
      cases hb : sortsOf τ as with
      | none => rw [hb] at h; cases h
      | some rs => rw [hb] at h; cases h; exact ⟨s, rs, rfl, h0, rfl, rfl⟩

theorem sortsOf_cons' {τ : Typing} {a : PTm} {as : List PTm} {s : Nat} {rs : List Nat} (h0 : s ≠ 0) (h1 : sortOf τ a = some s) (h2 : sortsOf τ as = some rs) :
    sortsOf τ (a :: as) = some (s :: rs) := by
  rw [sortsOf, h1, h2]; simp only [h0, if_false]

theorem sortOf_fn {τ : Typing} {f : Nat} {as : List PTm} {s : Nat} (h : sortOf τ (.fn f as) = some s) :
    ∃ ss, sortsOf τ as = some ss ∧ τ (f, ss.length) = some ⟨ss, s⟩ := by
  rw [sortOf] at h
  cases ha : sortsOf τ as with
  | none => rw [ha] at h; cases h
  | some ss =>
    rw [ha] at h
    simp only at h
    cases hk : τ (f, ss.length) with
    | none => rw [hk] at h; cases h
    | some ty =>
      rw [hk] at h
      simp only at h
      split at h
      · rename_i he; cases h; subst he; exact ⟨ty.args, rfl, hk⟩
      · cases h

theorem sortOf_fn' {τ : Typing} {f : Nat} {as : List PTm} {s : Nat} {ss : List Nat} (h1 : sortsOf τ as = some ss) (h2 : τ (f, ss.length) = some ⟨ss, s⟩) :
    sortOf τ (.fn f as) = some s := by
  rw [sortOf, h1]; simp only [h2, if_true]

theorem annot_ty {τ : Typing} {t : PTm} {s : Nat} (h : sortOf τ t = some s) : (annot τ t).ty = s := by
  cases t with
  | var x r => rw [sortOf] at h; cases h; rfl
  | fn f as => rw [annot, h]; rfl

theorem annots_ty {τ : Typing} (as : List PTm) : ∀ {ss : List Nat}, sortsOf τ as = some ss → (annots τ as).map STm.ty = ss := by
  induction as with
  | nil => intro ss h; rw [sortsOf] at h; cases h; rfl
  | cons a as ih =>
    intro ss h
    obtain ⟨s, rs, rfl, h0, h1, h2⟩ := sortsOf_cons h
    rw [annots, List.map_cons, ih h2, annot_ty h1]

theorem annots_length {τ : Typing} {as : List PTm} {ss : List Nat} (h : sortsOf τ as = some ss) : (annots τ as).length = ss.length := by
  rw [← annots_ty as h, List.length_map]

/-! ## Operations on one symbol with a type -/

theorem getType_of {S : SigS} {k : Sym} {ty : FTy} {b : Bool} (h : S.info k = some ⟨some ty, b⟩) : getType S k = some ty := by simp [getType, h]

theorem isFixed_of {S : SigS} {k : Sym} {ty : FTy} {b : Bool} (h : S.info k = some ⟨some ty, b⟩) : isFixed S k = b := by simp [isFixed, h]

theorem isPredicate_of {S : SigS} {k : Sym} {ty : FTy} {b : Bool} (h : S.info k = some ⟨some ty, b⟩) : isPredicate S k = (ty.ret == 0) := by
  simp [isPredicate, getType_of h]

theorem isFunction_of {S : SigS} {k : Sym} {ty : FTy} {b : Bool} (h : S.info k = some ⟨some ty, b⟩) : isFunction S k = (b && ty.ret != 0) := by
  simp [isFunction, getType_of h, isFixed_of h]

theorem upd_info (S : SigS) (k : Sym) (i : SInfo) : (upd S k i).info = updI S.info k i := rfl

theorem fixType_info {S : SigS} {k : Sym} {ty : FTy} {b : Bool} (h : S.info k = some ⟨some ty, b⟩) : (fixType S k).info = updI S.info k ⟨some ty, true⟩ := by
  rw [fixType, getType_of h]; rfl

theorem fixType_self {S : SigS} {k : Sym} {ty : FTy} (h : S.info k = some ⟨some ty, true⟩) : fixType S k = S := by
  have := fixType_info h
  rw [updI_self h] at this
  cases S with
  | mk raw info => simp only [fixType, upd] at this ⊢; rw [this]

theorem declareFun_of {S : SigS} {k : Sym} {ty : FTy} {b : Bool} (h : S.info k = some ⟨some ty, b⟩) : declareFun S k = .ok (fixType S k) := by
  simp only [declareFun, getType_of h]
  split
  · rename_i hb
    simp only [isBool, Bool.and_eq_true, List.isEmpty_iff, beq_iff_eq] at hb
    have e : changeRet ty 1 = ty := by
      cases ty with
      | mk args ret => simp only at hb; simp [changeRet, hb.1, hb.2]
    simp only [declareFinal, declareType, getType_of h, e, ne_eq, not_true_eq_false, if_false]
  · rfl

theorem changeRet_zero (ty : FTy) : changeRet ty 0 = ⟨ty.args, 0⟩ := by
  unfold changeRet
  split
  · rename_i h; rw [List.isEmpty_iff.1 h]
  · rfl

theorem declarePred_pred {S : SigS} {k : Sym} {ty : FTy} {b : Bool} (h : S.info k = some ⟨some ty, b⟩) (h0 : ty.ret = 0) :
    declarePred S k = .ok (fixType S k) := by
  simp only [declarePred, getType_of h]
  split
  · have e : changeRet ty 0 = ty := by rw [changeRet_zero, ← h0]
    simp only [declareFinal, declareType, getType_of h, e, ne_eq, not_true_eq_false, if_false]
  · rfl

theorem declarePred_new {S : SigS} {k : Sym} {ty : FTy} (h : S.info k = some ⟨some ty, false⟩) (h0 : ty.ret ≠ 0) :
    ∃ S', declarePred S k = .ok S' ∧ S'.info = updI S.info k ⟨some ⟨ty.args, 0⟩, true⟩ := by
  have hb : isBool ty = false := by simp [isBool, h0]
  have hne : ty ≠ ⟨ty.args, 0⟩ := by intro he; exact h0 (congrArg FTy.ret he)
  refine ⟨fixType (upd S k ⟨some ⟨ty.args, 0⟩, false⟩) k, by
    simp only [declarePred, getType_of h, hb, Bool.not_false, if_true, changeRet_zero, declareFinal, declareType, ne_eq, hne, not_false_eq_true,
      isFixed_of h, Bool.false_eq_true, if_false], ?_⟩
  have : (upd S k ⟨some ⟨ty.args, 0⟩, false⟩).info k = some ⟨some ⟨ty.args, 0⟩, false⟩ := updI_at _ _ _
  rw [fixType_info this, upd_info, updI_updI]

theorem inferSort_of {dflt : Nat → Nat} {S : SigS} {f : Nat} {ss : List Nat} {r : Nat} {b : Bool}
    (h : S.info (f, ss.length) = some ⟨some ⟨ss, r⟩, b⟩) : inferSort dflt S f ss = .ok (S, r) := by
  simp only [inferSort, getType_of h, ne_eq, not_true_eq_false, and_false, if_false, ite_self]
  split <;> rfl

/-! ## Terms -/

/-- What reading a term gives, before the symbol at the top is dealt with. -/
def TermRes (dflt : Nat → Nat) (I : Infos) (t : PTm) (S1 : SigS) (c : STm) (I0 : Infos) : Prop :=
  Inv I0 ∧ Le I I0 ∧ match t with
  | .var x s => S1.info = I0 ∧ c = .var x s
  | .fn f as => ∃ ss r, sortsOf (typesI I0) as = some ss ∧ c = .fn f (annots (typesI I0) as) r ∧
      ((S1.info = I0 ∧ I0 (f, ss.length) = some ⟨some ⟨ss, r⟩, true⟩) ∨
        (I0 (f, ss.length) = none ∧ S1.info = updI I0 (f, ss.length) ⟨some ⟨ss, dflt f⟩, false⟩ ∧ r = dflt f))

/-- What is known of a term once its symbols are fixed. -/
def Done (I : Infos) (t : PTm) (S2 : SigS) (c : STm) : Prop :=
  Inv S2.info ∧ Le I S2.info ∧ sortOf (typesI S2.info) t = some c.ty ∧ c = annot (typesI S2.info) t

theorem done_known {I I0 : Infos} {f : Nat} {as : List PTm} {ss : List Nat} {r : Nat} {S : SigS} (hI : Inv I0) (hle : Le I I0)
    (hs : sortsOf (typesI I0) as = some ss) (hk : I0 (f, ss.length) = some ⟨some ⟨ss, r⟩, true⟩) (hS : S.info = I0) :
    Done I (.fn f as) S (.fn f (annots (typesI I0) as) r) := by
  subst hS
  have e := sortOf_fn' (f := f) (s := r) hs (by simp [typesI, hk])
  exact ⟨hI, hle, e, by rw [annot, e]; rfl⟩

theorem done_new {I I0 : Infos} {f : Nat} {as : List PTm} {ss : List Nat} {r : Nat} {S : SigS} (hI : Inv I0) (hle : Le I I0)
    (hs : sortsOf (typesI I0) as = some ss) (hk : I0 (f, ss.length) = none) (hS : S.info = updI I0 (f, ss.length) ⟨some ⟨ss, r⟩, true⟩) :
    Done I (.fn f as) S (.fn f (annots (typesI I0) as) r) := by
  have hl := le_updI (i := ⟨some ⟨ss, r⟩, true⟩) hk
  obtain ⟨m1, m2⟩ := (sort_mono hl.types).2 as ss hs
  rw [← m2]
  exact done_known (inv_updI hI rfl) (hle.trans hl) m1 (updI_at _ _ _) hS

/-- The symbol at the top is fixed. -/
theorem done_fix {dflt : Nat → Nat} {I I0 : Infos} {f : Nat} {as : List PTm} {S1 : SigS} {c : STm} (h : TermRes dflt I (.fn f as) S1 c I0) :
    ∃ cs r ss b, c = .fn f cs r ∧ cs.length = ss.length ∧ cs.map STm.ty = ss ∧ S1.info (f, ss.length) = some ⟨some ⟨ss, r⟩, b⟩ ∧
      Done I (.fn f as) (fixType S1 (f, ss.length)) c := by
  obtain ⟨h1, h2, ss, r, h3, rfl, h4⟩ := h
  refine ⟨annots (typesI I0) as, r, ss, ?_⟩
  rcases h4 with ⟨h4, h5⟩ | ⟨h4, h5, rfl⟩
  · have hk : S1.info (f, ss.length) = some ⟨some ⟨ss, r⟩, true⟩ := by rw [h4]; exact h5
    refine ⟨true, rfl, annots_length h3, annots_ty as h3, hk, done_known h1 h2 h3 h5 ?_⟩
    rw [fixType_self hk, h4]
  · have hk : S1.info (f, ss.length) = some ⟨some ⟨ss, dflt f⟩, false⟩ := by rw [h5]; exact updI_at _ _ _
    refine ⟨false, rfl, annots_length h3, annots_ty as h3, hk, done_new h1 h2 h3 h4 ?_⟩
    rw [fixType_info hk, h5, updI_updI]

/-- Fixing the symbol at the top. -/
def fixTop (S : SigS) : STm → SigS
  | .var _ _ => S
  | .fn f as _ => fixType S (f, as.length)

theorem declareNotPred_done {dflt : Nat → Nat} {I I0 : Infos} {t : PTm} {S1 : SigS} {c : STm} (h : TermRes dflt I t S1 c I0) :
    ∃ S2, declareNotPred dflt S1 c = .ok (S2, c) ∧ Done I t S2 c ∧
      S2 = fixTop S1 c := by
  cases t with
  | var x s =>
    obtain ⟨h1, h2, h3, rfl⟩ := h
    exact ⟨S1, rfl, ⟨by rw [h3]; exact h1, by rw [h3]; exact h2, rfl, rfl⟩, rfl⟩
  | fn f as =>
    obtain ⟨cs, r, ss, b, rfl, e1, e2, e3, e4⟩ := done_fix h
    refine ⟨fixType S1 (f, ss.length), ?_, e4, by rw [fixTop, e1]⟩
    simp only [declareNotPred, e2, inferSort_of e3, e1, declareFun_of e3]

theorem subFix_done {dflt : Nat → Nat} (hd : ∀ f, dflt f ≠ 0) {I I0 : Infos} {t : PTm} {S1 : SigS} {c : STm} (h : TermRes dflt I t S1 c I0) :
    (c.ty ≠ 0 → ∃ S2, subFix dflt S1 c = .ok (S2, c) ∧ Done I t S2 c ∧
      S2 = fixTop S1 c) ∧ (c.ty = 0 → ∃ e, subFix dflt S1 c = .error e) := by
  cases t with
  | var x s =>
    obtain ⟨h1, h2, h3, rfl⟩ := h
    refine ⟨fun _ => ⟨S1, rfl, ⟨by rw [h3]; exact h1, by rw [h3]; exact h2, rfl, rfl⟩, rfl⟩, fun h0 => by simp [STm.ty] at h0⟩
  | fn f as =>
    have h' := h
    obtain ⟨cs, r, ss, b, rfl, e1, e2, e3, e4⟩ := done_fix h
    refine ⟨fun h0 => ?_, fun h0 => ?_⟩
    · have h0 : r ≠ 0 := h0
      refine ⟨fixType S1 (f, ss.length), ?_, e4, by rw [fixTop, e1]⟩
      simp only [subFix, e1, isPredicate_of e3, beq_iff_eq, h0, if_false]
    · have h0 : r = 0 := h0
      subst h0
      refine ⟨.typeErr, ?_⟩
      have hb : b = true := by
        obtain ⟨_, _, ss', r', _, hc, h4⟩ := h'
        obtain ⟨hc1, rfl⟩ : cs = annots (typesI I0) as ∧ (0 : Nat) = r' := by injection hc with _ a b; exact ⟨a, b⟩
        rcases h4 with ⟨h4, h5⟩ | ⟨_, _, h6⟩
        · have : ss' = ss := by
            rename_i h3
            rw [← e2, hc1, annots_ty as h3]
          subst this
          rw [h4, h5] at e3
          cases e3; rfl
        · exact absurd h6.symm (hd f)
      subst hb
      simp only [subFix, e1, isPredicate_of e3, isFixed_of e3, beq_self_eq_true, if_true]

/-- A symbol with a fixed type keeps it while a term is read. -/
theorem termRes_keeps {dflt : Nat → Nat} {I I0 : Infos} {t : PTm} {S1 : SigS} {c : STm} (h : TermRes dflt I t S1 c I0) {k : Sym} {i : SInfo}
    (hk : I k = some i) : S1.info k = some i := by
  obtain ⟨_, h2, h3⟩ := h
  cases t with
  | var x s => rw [h3.1]; exact h2 _ _ hk
  | fn f as =>
    obtain ⟨ss, r, _, _, ⟨h4, _⟩ | ⟨h4, h5, _⟩⟩ := h3
    · rw [h4]; exact h2 _ _ hk
    · rw [h5]; exact le_updI h4 _ _ (h2 _ _ hk)

/-- Symbols get their record. -/
theorem inferSort_insert {dflt : Nat → Nat} {S : SigS} {f : Nat} {as : List Nat} (hI : Inv S.info) :
    (∃ ty, S.info (f, as.length) = some ⟨some ty, true⟩ ∧
      ((ty.args = as ∧ ∃ S1, inferSort dflt (sigInsert S f as.length) f as = .ok (S1, ty.ret) ∧ S1.info = S.info) ∨
        (ty.args ≠ as ∧ inferSort dflt (sigInsert S f as.length) f as = .error .typeErr))) ∨
    (S.info (f, as.length) = none ∧ ∃ S1, inferSort dflt (sigInsert S f as.length) f as = .ok (S1, dflt f) ∧
      S1.info = updI S.info (f, as.length) ⟨some ⟨as, dflt f⟩, false⟩) := by
  cases hk : S.info (f, as.length) with
  | some i =>
    left
    obtain ⟨ty, rfl, hl⟩ := hI _ _ hk
    have hs : (sigInsert S f as.length).info = S.info := by
      funext j
      simp only [sigInsert, hk]
      simp
    refine ⟨ty, rfl, ?_⟩
    have hk' : (sigInsert S f as.length).info (f, as.length) = some ⟨some ty, true⟩ := by rw [hs]; exact hk
    by_cases he : ty.args = as
    · left
      refine ⟨he, _, ?_, hs⟩
      subst he
      exact inferSort_of (ss := ty.args) (r := ty.ret) hk'
    · right
      refine ⟨he, ?_⟩
      simp only at hl
      simp only [inferSort, getType_of hk', isFixed_of hk']
      split
      · rw [if_neg (by rw [hl]; simp), if_pos ⟨trivial, fun h => he h.symm⟩]
      · rename_i h0
        have h0 : ty.args = [] := by simpa using h0
        rw [h0] at hl he
        have : as = [] := List.eq_nil_of_length_eq_zero hl.symm
        exact absurd this.symm he
  | none =>
    right
    have hk' : (sigInsert S f as.length).info (f, as.length) = some ⟨none, false⟩ := by simp [sigInsert, hk]
    have hg : getType (sigInsert S f as.length) (f, as.length) = none := by simp [getType, hk']
    have hf : isFixed (sigInsert S f as.length) (f, as.length) = false := by simp [isFixed, hk']
    refine ⟨rfl, upd (sigInsert S f as.length) (f, as.length) ⟨some ⟨as, dflt f⟩, false⟩, by simp only [inferSort, declareType, hg, hf], ?_⟩
    rw [upd_info]
    funext j
    simp only [updI, sigInsert]
    split
    · rfl
    · rename_i hj
      rw [if_neg fun h => hj h.1]

/-! ## Soundness -/

theorem readTerm_sound {dflt : Nat → Nat} (hd : ∀ f, dflt f ≠ 0) (t : PTm) : ∀ {S S1 : SigS} {c : STm}, Inv S.info →
    readTerm dflt S t = .ok (S1, c) → ∃ I0, TermRes dflt S.info t S1 c I0 := by
  induction t using PTm.rec (motive_2 := fun as => ∀ {S S1 : SigS} {tys : List Nat} {cs : List STm}, Inv S.info →
      readArgs dflt S tys as = .ok (S1, cs) → Inv S1.info ∧ Le S.info S1.info ∧ ∃ ss, sortsOf (typesI S1.info) as = some ss ∧
        cs = annots (typesI S1.info) as) with
  | var x s =>
    intro S S1 c hI h
    rw [readTerm] at h
    cases h
    exact ⟨S.info, hI, .refl _, rfl, rfl⟩
  | fn f as ih =>
    intro S S1 c hI h
    rw [readTerm] at h
    cases ha : readArgs dflt S (rawArgs S f) as with
    | error e => rw [ha] at h; cases h
    | ok p =>
      obtain ⟨S', cs⟩ := p
      rw [ha] at h
      simp only at h
      obtain ⟨h1, h2, ss, h3, rfl⟩ := ih hI ha
      rw [annots_ty as h3, annots_length h3] at h
      refine ⟨S'.info, h1, h2, ?_⟩
      rcases inferSort_insert (dflt := dflt) (f := f) (as := ss) h1 with ⟨ty, k1, ⟨k2, S2, k3, k4⟩ | ⟨_, k3⟩⟩ | ⟨k1, S2, k3, k4⟩
      · rw [k3] at h
        cases h
        subst k2
        exact ⟨ty.args, ty.ret, h3, rfl, .inl ⟨k4, k1⟩⟩
      · rw [k3] at h; cases h
      · rw [k3] at h
        cases h
        exact ⟨ss, dflt f, h3, rfl, .inr ⟨k1, k4, rfl⟩⟩
  | nil =>
    rename_i S S1 tys cs hI h
    rw [readArgs] at h
    cases h
    exact ⟨hI, .refl _, [], rfl, rfl⟩
  | cons a as ih1 ih2 =>
    rename_i S S1 tys cs hI h
    rw [readArgs] at h
    split at h
    · cases h
    · cases ha : readTerm dflt S a with
      | error e => rw [ha] at h; cases h
      | ok p =>
        obtain ⟨Sa, c⟩ := p
        rw [ha] at h
        simp only at h
        obtain ⟨I0, hr⟩ := ih1 hI ha
        by_cases h0 : c.ty = 0
        · obtain ⟨e, he⟩ := (subFix_done hd hr).2 h0
          rw [he] at h
          cases h
        · obtain ⟨S2, he, ⟨d1, d2, d3, d4⟩, _⟩ := (subFix_done hd hr).1 h0
          rw [he] at h
          simp only at h
          cases hb : readArgs dflt S2 tys.tail as with
          | error e => rw [hb] at h; cases h
          | ok p =>
            obtain ⟨S3, cs'⟩ := p
            rw [hb] at h
            cases h
            obtain ⟨g1, g2, ss, g3, rfl⟩ := ih2 d1 hb
            obtain ⟨m1, m2⟩ := (sort_mono g2.types).1 a _ d3
            exact ⟨g1, d2.trans g2, c.ty :: ss, sortsOf_cons' h0 m1 g3, by rw [annots, m2, ← d4]⟩

/-- A literal that has been read. -/
def LitDone (I : Infos) (l : PLit) (S2 : SigS) (c : SLit) : Prop :=
  Inv S2.info ∧ Le I S2.info ∧ LitOK (typesI S2.info) l ∧ c = annotLit (typesI S2.info) l

theorem eqn_done {I I1 : Infos} {l r : PTm} {S S' : SigS} {cl cr : STm} {c : SLit} (hle : Le I I1) (hl1 : sortOf (typesI I1) l = some cl.ty)
    (hl2 : cl = annot (typesI I1) l) (h0 : cl.ty ≠ 0) (hr : Done I1 r S cr) (h : eqnAlloc S cl (some cr) = .ok (S', c)) : LitDone I (.eqn l r) S' c := by
  simp only [eqnAlloc] at h
  split at h
  · cases h
  · rename_i he
    cases h
    have he : cl.ty = cr.ty := by simpa using he
    obtain ⟨d1, d2, d3, d4⟩ := hr
    obtain ⟨m1, m2⟩ := (sort_mono d2.types).1 l _ hl1
    exact ⟨d1, hle.trans d2, ⟨cl.ty, h0, m1, by rw [he]; exact d3⟩, by rw [annotLit, m2, ← hl2, ← d4]⟩

theorem readLit_sound {dflt : Nat → Nat} (hd : ∀ f, dflt f ≠ 0) {S S' : SigS} {l : PLit} {c : SLit} (hI : Inv S.info)
    (h : readLit dflt S l = .ok (S', c)) : LitDone S.info l S' c := by
  cases l with
  | atom t =>
    rw [readLit] at h
    cases ha : readTerm dflt S t with
    | error e => rw [ha] at h; cases h
    | ok p =>
      obtain ⟨S1, ct⟩ := p
      obtain ⟨I0, hr⟩ := readTerm_sound hd t hI ha
      rw [ha] at h
      cases t with
      | var x s => obtain ⟨_, _, _, rfl⟩ := hr; cases h
      | fn f as =>
        obtain ⟨h1, h2, ss, r, h3, rfl, h4⟩ := hr
        simp only [annots_length h3] at h
        rcases h4 with ⟨h4, h5⟩ | ⟨h4, h5, rfl⟩
        · have hk : S1.info (f, ss.length) = some ⟨some ⟨ss, r⟩, true⟩ := by rw [h4]; exact h5
          simp only [isPredicate_of hk, isFixed_of hk, isFunction_of hk, Bool.and_true, Bool.true_and, beq_iff_eq] at h
          by_cases h0 : r = 0
          · subst h0
            simp only [if_true, eqnAlloc, annots_length h3, declarePred_pred hk rfl, fixType_self hk, ne_eq, not_true_eq_false, if_false] at h
            cases h
            obtain ⟨d1, d2, d3, d4⟩ := done_known h1 h2 h3 h5 h4
            exact ⟨d1, d2, d3, by rw [annotLit, ← d4]⟩
          · simp only [h0, if_false, bne_iff_ne, ne_eq, not_false_eq_true, if_true] at h
            cases h
        · have hk : S1.info (f, ss.length) = some ⟨some ⟨ss, dflt f⟩, false⟩ := by rw [h5]; exact updI_at _ _ _
          simp only [isPredicate_of hk, isFixed_of hk, isFunction_of hk, Bool.and_false, Bool.false_and, Bool.false_eq_true, if_false, or_true, if_true] at h
          obtain ⟨S2, g1, g2⟩ := declarePred_new hk (hd f)
          have g3 : S2.info = updI I0 (f, ss.length) ⟨some ⟨ss, 0⟩, true⟩ := by rw [g2, h5, updI_updI]
          have g4 : S2.info (f, ss.length) = some ⟨some ⟨ss, 0⟩, true⟩ := by rw [g3]; exact updI_at _ _ _
          simp only [g1, setTop, eqnAlloc, annots_length h3, declarePred_pred g4 rfl, fixType_self g4, ne_eq, not_true_eq_false, if_false] at h
          cases h
          obtain ⟨d1, d2, d3, d4⟩ := done_new h1 h2 h3 h4 g3
          exact ⟨d1, d2, d3, by rw [annotLit, ← d4]⟩
  | eqn l r =>
    rw [readLit] at h
    cases ha : readTerm dflt S l with
    | error e => rw [ha] at h; cases h
    | ok p =>
      obtain ⟨S1, cl⟩ := p
      obtain ⟨I0, hr⟩ := readTerm_sound hd l hI ha
      rw [ha] at h
      cases l with
      | var x s =>
        obtain ⟨h1, h2, h3, rfl⟩ := hr
        simp only at h
        subst h3
        cases hb : readTerm dflt S1 r with
        | error e => rw [hb] at h; cases h
        | ok p =>
          obtain ⟨S2, cr⟩ := p
          obtain ⟨I1, hr1⟩ := readTerm_sound hd r h1 hb
          obtain ⟨S3, e1, e2, _⟩ := declareNotPred_done hr1
          rw [hb] at h
          simp only [e1] at h
          exact eqn_done (l := .var x s) (cl := .var x s) h2 rfl rfl (Nat.succ_ne_zero _) e2 h
      | fn f as =>
        have hr0 := hr
        obtain ⟨h1, h2, ss, q, h3, rfl, h4⟩ := hr
        simp only [annots_length h3] at h
        rcases h4 with ⟨h4, h5⟩ | ⟨h4, h5, rfl⟩
        · have hk : S1.info (f, ss.length) = some ⟨some ⟨ss, q⟩, true⟩ := by rw [h4]; exact h5
          simp only [isPredicate_of hk, isFixed_of hk, isFunction_of hk, Bool.and_true, Bool.true_and, beq_iff_eq] at h
          by_cases h0 : q = 0
          · rw [if_pos h0] at h; cases h
          · simp only [h0, if_false, bne_iff_ne, ne_eq, not_false_eq_true, if_true] at h
            cases hb : readTerm dflt S1 r with
            | error e => rw [hb] at h; cases h
            | ok p =>
              obtain ⟨S2, cr⟩ := p
              obtain ⟨d1, d2, d3, d4⟩ := done_known h1 h2 h3 h5 h4
              obtain ⟨I1, hr1⟩ := readTerm_sound hd r d1 hb
              obtain ⟨S3, e1, e2, _⟩ := declareNotPred_done hr1
              rw [hb] at h
              simp only [e1] at h
              exact eqn_done d2 d3 d4 h0 e2 h
        · have hk : S1.info (f, ss.length) = some ⟨some ⟨ss, dflt f⟩, false⟩ := by rw [h5]; exact updI_at _ _ _
          simp only [isPredicate_of hk, isFixed_of hk, isFunction_of hk, Bool.and_false, Bool.false_and, Bool.false_eq_true, if_false, ne_eq, hd f,
            not_false_eq_true, if_true] at h
          obtain ⟨S2, e1, ⟨d1, d2, d3, d4⟩, e3⟩ := declareNotPred_done hr0
          rw [e1] at h
          simp only at h
          cases hb : readTerm dflt S2 r with
          | error e => rw [hb] at h; cases h
          | ok p =>
            obtain ⟨S3, cr⟩ := p
            obtain ⟨I1, hr1⟩ := readTerm_sound hd r d1 hb
            rw [hb] at h
            simp only at h
            have hk2 : S2.info (f, ss.length) = some ⟨some ⟨ss, dflt f⟩, true⟩ := by
              rw [e3, fixTop, annots_length h3]; rw [fixType_info hk]; exact updI_at _ _ _
            have hk3 := termRes_keeps hr1 hk2
            have e4 : declareNotPred dflt S3 (.fn f (annots (typesI I0) as) (dflt f)) = .ok (S3, .fn f (annots (typesI I0) as) (dflt f)) := by
              simp only [declareNotPred, annots_ty as h3, inferSort_of hk3, annots_length h3, declareFun_of hk3, fixType_self hk3]
            rw [e4] at h
            simp only at h
            obtain ⟨S4, g1, g2, _⟩ := declareNotPred_done hr1
            simp only [g1] at h
            exact eqn_done d2 d3 d4 (hd f) g2 h

theorem readDecl_spec {S : SigS} {f : Nat} {ty : FTy} (hI : Inv S.info) :
    (∃ S', readDecl S f ty = .ok S' ∧ Inv S'.info ∧ Le S.info S'.info ∧ S'.info (f, ty.args.length) = some ⟨some ty, true⟩ ∧
      ∀ k, k ≠ (f, ty.args.length) → S'.info k = S.info k) ∨
    ((∃ old, old ≠ ty ∧ typesI S.info (f, ty.args.length) = some old) ∧ readDecl S f ty = .error .typeErr) := by
  cases hk : S.info (f, ty.args.length) with
  | some i =>
    obtain ⟨old, rfl, hl⟩ := hI _ _ hk
    have hs : (sigInsert S f ty.args.length).info = S.info := by
      funext j
      simp only [sigInsert, hk]
      simp
    have hk' : (sigInsert S f ty.args.length).info (f, ty.args.length) = some ⟨some old, true⟩ := by rw [hs]; exact hk
    by_cases he : old = ty
    · subst he
      left
      refine ⟨sigInsert S f old.args.length, ?_, by rw [hs]; exact hI, by rw [hs]; exact .refl _, hk', fun k _ => by rw [hs]⟩
      simp only [readDecl, declareType, getType_of hk', ne_eq, not_true_eq_false, if_false, fixType_self hk']
    · right
      refine ⟨⟨old, he, by simp [typesI, hk]⟩, ?_⟩
      simp only [readDecl, declareType, getType_of hk', ne_eq, he, not_false_eq_true, if_true, isFixed_of hk']
  | none =>
    left
    have hk' : (sigInsert S f ty.args.length).info (f, ty.args.length) = some ⟨none, false⟩ := by simp [sigInsert, hk]
    have hg : getType (sigInsert S f ty.args.length) (f, ty.args.length) = none := by simp [getType, hk']
    have hf : isFixed (sigInsert S f ty.args.length) (f, ty.args.length) = false := by simp [isFixed, hk']
    have hu : (upd (sigInsert S f ty.args.length) (f, ty.args.length) ⟨some ty, false⟩).info (f, ty.args.length) = some ⟨some ty, false⟩ := updI_at _ _ _
    have hi : (fixType (upd (sigInsert S f ty.args.length) (f, ty.args.length) ⟨some ty, false⟩) (f, ty.args.length)).info =
        updI S.info (f, ty.args.length) ⟨some ty, true⟩ := by
      rw [fixType_info hu, upd_info, updI_updI]
      funext j
      simp only [updI, sigInsert]
      split
      · rfl
      · rename_i hj; rw [if_neg fun h => hj h.1]
    refine ⟨fixType (upd (sigInsert S f ty.args.length) (f, ty.args.length) ⟨some ty, false⟩) (f, ty.args.length), ?_, ?_, ?_, ?_, ?_⟩
    · simp only [readDecl, declareType, hg, hf]
    · rw [hi]; exact inv_updI hI rfl
    · rw [hi]; exact le_updI hk
    · rw [hi]; exact updI_at _ _ _
    · intro k hk; rw [hi]; exact updI_ne hk

theorem LitOK.mono {τ σ : Typing} (h : TLe τ σ) {l : PLit} (hl : LitOK τ l) : LitOK σ l ∧ annotLit σ l = annotLit τ l := by
  cases l with
  | atom t => obtain ⟨a, b⟩ := (sort_mono h).1 t 0 hl; exact ⟨a, by rw [annotLit, annotLit, b]⟩
  | eqn l r =>
    obtain ⟨s, h0, h1, h2⟩ := hl
    obtain ⟨a, b⟩ := (sort_mono h).1 l s h1
    obtain ⟨c, d⟩ := (sort_mono h).1 r s h2
    exact ⟨⟨s, h0, a, c⟩, by rw [annotLit, annotLit, b, d]⟩

theorem readItems_sound {dflt : Nat → Nat} (hd : ∀ f, dflt f ≠ 0) (is : List Item) : ∀ {S S' : SigS} {cs : List SLit}, Inv S.info →
    readItems dflt S is = .ok (S', cs) → Inv S'.info ∧ Le S.info S'.info ∧ (∀ l ∈ litsOf is, LitOK (typesI S'.info) l) ∧
      cs = (litsOf is).map (annotLit (typesI S'.info)) ∧ ∀ f ty, Item.decl f ty ∈ is → typesI S'.info (f, ty.args.length) = some ty := by
  induction is with
  | nil => intro S S' cs hI h; rw [readItems] at h; cases h; exact ⟨hI, .refl _, by simp [litsOf], rfl, by simp⟩
  | cons i is ih =>
    intro S S' cs hI h
    cases i with
    | decl f ty =>
      rw [readItems] at h
      rcases readDecl_spec (f := f) (ty := ty) hI with ⟨S1, e1, e2, e3, e4, _⟩ | ⟨_, e1⟩
      · rw [e1] at h
        obtain ⟨a, b, c, d, e⟩ := ih e2 h
        refine ⟨a, e3.trans b, c, d, ?_⟩
        intro g ty' hg
        rcases List.mem_cons.1 hg with hg | hg
        · cases hg; simp [typesI, b _ _ e4]
        · exact e g ty' hg
      · rw [e1] at h; cases h
    | lit l =>
      rw [readItems] at h
      cases hl : readLit dflt S l with
      | error e => rw [hl] at h; cases h
      | ok p =>
        obtain ⟨S1, c1⟩ := p
        rw [hl] at h
        simp only at h
        obtain ⟨e1, e2, e3, e4⟩ := readLit_sound hd hI hl
        cases hi : readItems dflt S1 is with
        | error e => rw [hi] at h; cases h
        | ok p =>
          obtain ⟨S2, cs'⟩ := p
          rw [hi] at h
          cases h
          obtain ⟨a, b, c, d, e⟩ := ih e1 hi
          obtain ⟨m1, m2⟩ := e3.mono b.types
          refine ⟨a, e2.trans b, ?_, ?_, ?_⟩
          · intro l' hl'
            rcases List.mem_cons.1 hl' with rfl | hl'
            · exact m1
            · exact c l' hl'
          · rw [litsOf, List.map_cons, ← d, m2, ← e4]
          · intro g ty hg
            rcases List.mem_cons.1 hg with hg | hg
            · cases hg
            · exact e g ty hg

end Sorts
end Verif
