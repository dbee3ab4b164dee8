import Verif.Terms.SortsComplete

/-!
# Types of symbols without a declaration
-/

namespace Verif
namespace Sorts

/-- Symbols outside `D` are predicates or give the default sort. -/
def QD (dflt : Nat → Nat) (D : Sym → Prop) (S : SigS) : Prop := ∀ k ty, getType S k = some ty → D k ∨ Default dflt k ty

variable {dflt : Nat → Nat} {D : Sym → Prop}

theorem QD.upd {S : SigS} (h : QD dflt D S) {k : Sym} {ty : Option FTy} {b : Bool} (hk : ∀ t, ty = some t → D k ∨ Default dflt k t) :
    QD dflt D (upd S k ⟨ty, b⟩) := by
  intro j t hj
  by_cases he : j = k
  · subst he
    refine hk t ?_
    simpa [getType, Sorts.upd] using hj
  · refine h j t ?_
    simpa [getType, Sorts.upd, he] using hj

theorem QD.insert {S : SigS} (h : QD dflt D S) (f n : Nat) : QD dflt D (sigInsert S f n) := by
  intro j t hj
  refine h j t ?_
  simp only [getType, sigInsert] at hj ⊢
  split at hj
  · cases hj
  · exact hj

theorem QD.fix {S : SigS} (h : QD dflt D S) (k : Sym) : QD dflt D (fixType S k) := h.upd (h k)

theorem QD.declareType {S S' : SigS} {k : Sym} {ty : FTy} (h : QD dflt D S) (hk : D k ∨ Default dflt k ty) (he : declareType S k ty = .ok S') :
    QD dflt D S' := by
  have hu : ∀ b, QD dflt D (Sorts.upd S k ⟨some ty, b⟩) := fun b => h.upd fun t ht => by cases ht; exact hk
  unfold Sorts.declareType at he
  split at he
  · split at he
    · split at he
      · cases he
      · cases he; exact hu _
    · cases he; exact h
  · cases he; exact hu _

theorem QD.declareFinal {S S' : SigS} {k : Sym} {ty : FTy} (h : QD dflt D S) (hk : D k ∨ Default dflt k ty) (he : declareFinal S k ty = .ok S') :
    QD dflt D S' := by
  unfold Sorts.declareFinal at he
  split at he
  · rename_i S1 h1
    cases he
    exact (h.declareType hk h1).fix k
  · cases he

theorem QD.declareFun {S S' : SigS} {k : Sym} (h : QD dflt D S) (he : declareFun S k = .ok S') : QD dflt D S' := by
  unfold Sorts.declareFun at he
  split at he
  · rename_i ty _
    split at he
    · rename_i hb
      refine h.declareFinal (.inr (.inr ?_)) he
      simp only [isBool, Bool.and_eq_true] at hb
      simp [changeRet, hb.1]
    · cases he; exact h.fix k
  · cases he; exact h.fix k

theorem QD.declarePred {S S' : SigS} {k : Sym} (h : QD dflt D S) (he : declarePred S k = .ok S') : QD dflt D S' := by
  unfold Sorts.declarePred at he
  split at he
  · rename_i ty _
    split at he
    · refine h.declareFinal (.inr (.inr ?_)) he
      rw [changeRet_zero]
    · cases he; exact h.fix k
  · cases he; exact h.fix k

theorem QD.inferSort {S S' : SigS} {f r : Nat} {as : List Nat} (h : QD dflt D S) (he : inferSort dflt S f as = .ok (S', r)) : QD dflt D S' := by
  unfold Sorts.inferSort at he
  split at he
  · split at he
    · split at he
      · cases he
      · split at he
        · cases he
        · cases he; exact h
    · split at he
      · cases he
      · cases he; exact h
  · split at he
    · rename_i S1 h1
      cases he
      exact h.declareType (.inr (.inl rfl)) h1
    · cases he

theorem QD.subFix {S S' : SigS} {c c' : STm} (h : QD dflt D S) (he : subFix dflt S c = .ok (S', c')) : QD dflt D S' := by
  cases c with
  | var x s => cases he; exact h
  | fn f as ty =>
    rw [Sorts.subFix] at he
    split at he
    · split at he
      · cases he
      · split at he
        · cases he
        · rename_i S1 h1
          split at he
          · cases he
          · rename_i S2 ty h2
            cases he
            exact (h.declareFun h1).inferSort h2
    · cases he; exact h.fix _

theorem QD.readTerm (t : PTm) : ∀ {S S' : SigS} {c : STm}, QD dflt D S → readTerm dflt S t = .ok (S', c) → QD dflt D S' := by
  induction t using PTm.rec (motive_2 := fun as => ∀ {S S' : SigS} {tys : List Nat} {cs : List STm}, QD dflt D S →
      readArgs dflt S tys as = .ok (S', cs) → QD dflt D S') with
  | var x s => intro S S' c h he; rw [Sorts.readTerm] at he; cases he; exact h
  | fn f as ih =>
    intro S S' c h he
    rw [Sorts.readTerm] at he
    split at he
    · cases he
    · rename_i S1 cs h1
      split at he
      · cases he
      · rename_i S2 ty h2
        cases he
        exact ((ih h h1).insert _ _).inferSort h2
  | nil => rename_i S S' tys cs h he; rw [readArgs] at he; cases he; exact h
  | cons a as ih1 ih2 =>
    rename_i S S' tys cs h he
    rw [readArgs] at he
    split at he
    · cases he
    · split at he
      · cases he
      · rename_i S1 c h1
        split at he
        · cases he
        · rename_i S2 c h2
          split at he
          · cases he
          · rename_i S3 cs h3
            cases he
            exact ih2 ((ih1 h h1).subFix h2) h3

theorem QD.declareNotPred {S S' : SigS} {c c' : STm} (h : QD dflt D S) (he : declareNotPred dflt S c = .ok (S', c')) : QD dflt D S' := by
  cases c with
  | var x s => cases he; exact h
  | fn f as ty =>
    rw [Sorts.declareNotPred] at he
    split at he
    · cases he
    · rename_i S1 r h1
      split at he
      · cases he
      · rename_i S2 h2
        cases he
        exact (h.inferSort h1).declareFun h2

theorem QD.eqnAlloc {S S' : SigS} {l : STm} {r : Option STm} {c : SLit} (h : QD dflt D S) (he : eqnAlloc S l r = .ok (S', c)) : QD dflt D S' := by
  unfold Sorts.eqnAlloc at he
  split at he
  · split at he
    · cases he
    · split at he
      · cases he
      · rename_i S1 h1
        split at he
        · cases he
        · cases he; exact h.declarePred h1
  · split at he
    · cases he
    · cases he; exact h

theorem QD.readLit {S S' : SigS} {l : PLit} {c : SLit} (h : QD dflt D S) (he : readLit dflt S l = .ok (S', c)) : QD dflt D S' := by
  cases l with
  | atom t =>
    rw [Sorts.readLit] at he
    split at he
    · cases he
    · cases he
    · rename_i S1 f as ty h1
      have q1 := QD.readTerm t h h1
      split at he
      · exact q1.eqnAlloc he
      · split at he
        · cases he
        · split at he
          · split at he
            · cases he
            · rename_i S2 h2
              exact (q1.declarePred h2).eqnAlloc he
          · cases he
  | eqn l r =>
    rw [Sorts.readLit] at he
    split at he
    · cases he
    · rename_i S1 x s h1
      have q1 := QD.readTerm l h h1
      split at he
      · cases he
      · rename_i S2 cr h2
        split at he
        · cases he
        · rename_i S3 cr h3
          exact ((QD.readTerm r q1 h2).declareNotPred h3).eqnAlloc he
    · rename_i S1 f as ty h1
      have q1 := QD.readTerm l h h1
      split at he
      · cases he
      · split at he
        · split at he
          · cases he
          · rename_i S2 cr h2
            split at he
            · cases he
            · rename_i S3 cr h3
              exact ((QD.readTerm r q1 h2).declareNotPred h3).eqnAlloc he
        · split at he
          · split at he
            · cases he
            · rename_i S2 cl h2
              split at he
              · cases he
              · rename_i S3 cr h3
                split at he
                · cases he
                · rename_i S4 cl h4
                  split at he
                  · cases he
                  · rename_i S5 cr h5
                    exact (((QD.readTerm r (q1.declareNotPred h2) h3).declareNotPred h4).declareNotPred h5).eqnAlloc he
          · cases he

theorem QD.readItems (is : List Item) : ∀ {S S' : SigS} {cs : List SLit}, QD dflt D S → (∀ f ty, Item.decl f ty ∈ is → D (f, ty.args.length)) →
    readItems dflt S is = .ok (S', cs) → QD dflt D S' := by
  induction is with
  | nil => intro S S' cs h _ he; rw [Sorts.readItems] at he; cases he; exact h
  | cons i is ih =>
    intro S S' cs h hD he
    have hD' : ∀ f ty, Item.decl f ty ∈ is → D (f, ty.args.length) := fun f ty h => hD f ty (List.mem_cons_of_mem _ h)
    cases i with
    | decl f ty =>
      rw [Sorts.readItems] at he
      split at he
      · cases he
      · rename_i S1 h1
        refine ih ?_ hD' he
        unfold readDecl at h1
        split at h1
        · rename_i S2 h2
          cases h1
          exact ((h.insert _ _).declareType (.inl (hD f ty List.mem_cons_self)) h2).fix _
        · cases h1
    | lit l =>
      rw [Sorts.readItems] at he
      split at he
      · cases he
      · rename_i S1 c h1
        split at he
        · cases he
        · rename_i S2 cs' h2
          cases he
          exact ih (h.readLit h1) hD' h2

/-! ## Types with `$o` as argument are not needed -/

/-- The typing without the types that have `$o` as an argument. -/
def noBool (τ : Typing) : Typing := fun k => (τ k).filter fun ty => !ty.args.contains 0

theorem sortsOf_nonzero {τ : Typing} (as : List PTm) : ∀ {ss : List Nat}, sortsOf τ as = some ss → 0 ∉ ss := by
  induction as with
  | nil => intro ss h; rw [sortsOf] at h; cases h; simp
  | cons a as ih =>
    intro ss h
    obtain ⟨s, rs, rfl, h0, _, h2⟩ := sortsOf_cons h
    simp only [List.mem_cons, not_or]
    exact ⟨fun h => h0 h.symm, ih h2⟩

theorem noBool_some {τ : Typing} {k : Sym} {ty : FTy} : noBool τ k = some ty ↔ τ k = some ty ∧ 0 ∉ ty.args := by
  simp [noBool, Option.filter_eq_some_iff]

theorem noBool_sort {τ : Typing} (t : PTm) : ∀ {s : Nat}, sortOf τ t = some s → sortOf (noBool τ) t = some s := by
  induction t using PTm.rec (motive_2 := fun as => ∀ {ss : List Nat}, sortsOf τ as = some ss → sortsOf (noBool τ) as = some ss) with
  | var x s => intro r h; exact h
  | fn f as ih =>
    intro s h
    obtain ⟨ss, h1, h2⟩ := sortOf_fn h
    exact sortOf_fn' (ih h1) (noBool_some.2 ⟨h2, sortsOf_nonzero as h1⟩)
  | nil => rename_i ss h; exact h
  | cons a as ih1 ih2 =>
    rename_i ss h
    obtain ⟨s, rs, rfl, h0, h1, h2⟩ := sortsOf_cons h
    exact sortsOf_cons' h0 (ih1 h1) (ih2 h2)

theorem noBool_le (τ : Typing) : TLe (noBool τ) τ := fun _ _ h => (noBool_some.1 h).1

theorem noBool_lit {τ : Typing} {l : PLit} (h : LitOK τ l) : LitOK (noBool τ) l := by
  cases l with
  | atom t => exact noBool_sort t h
  | eqn l r => obtain ⟨s, h0, h1, h2⟩ := h; exact ⟨s, h0, noBool_sort l h1, noBool_sort r h2⟩

end Sorts
end Verif
