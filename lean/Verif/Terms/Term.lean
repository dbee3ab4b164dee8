import Mathlib.Data.List.Basic
import Mathlib.Tactic.Linarith

/-!
# First-order terms

Model of `TermCell` (TERMS/cte_termtypes.h:129-164) without the bookkeeping
fields.  In C a cell with `f_code < 0` is a variable and one with `f_code > 0`
is an application of a symbol to `arity` arguments; `var x` stands for
`f_code = -x`, `app f args` for `f_code = f`.  A cell of a shared term is
modelled by the term it denotes; that pointer equality is syntactic equality is
proved for the term bank separately (`Verif.Terms.TermBank`).
-/

namespace Verif

inductive Term where
  | var (x : Nat)
  | app (f : Nat) (args : List Term)
deriving Repr

namespace Term

instance : Inhabited Term := ⟨var 0⟩

/-- Induction over terms with the hypothesis for all arguments. -/
theorem ind {P : Term → Prop} (hv : ∀ x, P (var x))
    (ha : ∀ f ts, (∀ t ∈ ts, P t) → P (app f ts)) : ∀ t, P t := by
  intro t
  induction t using Term.rec (motive_2 := fun ts => ∀ t ∈ ts, P t) with
  | var x => exact hv x
  | app f ts ih => exact ha f ts ih
  | nil u hu => exact absurd hu (by simp)
  | cons t ts h1 h2 u hu =>
    rcases List.mem_cons.1 hu with rfl | h
    · exact h1
    · exact h2 u h

mutual
/-- Syntactic equality test (C: pointer equality on shared terms). -/
def beq : Term → Term → Bool
  | var x, var y => x == y
  | app f ts, app g us => f == g && beqL ts us
  | _, _ => false
def beqL : List Term → List Term → Bool
  | [], [] => true
  | t :: ts, u :: us => beq t u && beqL ts us
  | _, _ => false
end

mutual
theorem beq_iff : ∀ s t : Term, beq s t = true ↔ s = t
  | var x, var y => by simp [beq]
  | app f ts, app g us => by simp [beq, beqL_iff ts us]
  | var x, app g us => by simp [beq]
  | app f ts, var y => by simp [beq]
theorem beqL_iff : ∀ s t : List Term, beqL s t = true ↔ s = t
  | [], [] => by simp [beqL]
  | t :: ts, u :: us => by simp [beqL, beq_iff t u, beqL_iff ts us]
  | [], u :: us => by simp [beqL]
  | t :: ts, [] => by simp [beqL]
end

instance : DecidableEq Term := fun s t => decidable_of_iff _ (beq_iff s t)

/-- `TermIsFreeVar` (TERMS/cte_termtypes.h:236). -/
def isVar : Term → Bool
  | var _ => true
  | app _ _ => false

mutual
/-- Number of term cells. -/
def size : Term → Nat
  | var _ => 1
  | app _ ts => 1 + sizeL ts
def sizeL : List Term → Nat
  | [] => 0
  | t :: ts => size t + sizeL ts
end

mutual
/-- Variables in left-to-right order, with repetitions. -/
def vars : Term → List Nat
  | var x => [x]
  | app _ ts => varsL ts
def varsL : List Term → List Nat
  | [] => []
  | t :: ts => vars t ++ varsL ts
end

mutual
/-- `TermWeight(term, vweight, fweight)` (TERMS/cte_termfunc.c): every variable
counts `vw`, every symbol occurrence `fw`. -/
def weight (vw fw : Nat) : Term → Nat
  | var _ => vw
  | app _ ts => fw + weightL vw fw ts
def weightL (vw fw : Nat) : List Term → Nat
  | [] => 0
  | t :: ts => weight vw fw t + weightL vw fw ts
end

mutual
/-- Simultaneous substitution. -/
def subst (σ : Nat → Term) : Term → Term
  | var x => σ x
  | app f ts => app f (substL σ ts)
def substL (σ : Nat → Term) : List Term → List Term
  | [] => []
  | t :: ts => subst σ t :: substL σ ts
end

theorem substL_eq (σ : Nat → Term) (ts : List Term) : substL σ ts = ts.map (subst σ) := by
  induction ts with
  | nil => rfl
  | cons t ts ih => simp [substL, ih]

theorem varsL_eq (ts : List Term) : varsL ts = ts.flatMap vars := by
  induction ts with
  | nil => rfl
  | cons t ts ih => simp [varsL, ih]

@[simp] theorem mem_varsL {x : Nat} {ts : List Term} : x ∈ varsL ts ↔ ∃ t ∈ ts, x ∈ vars t := by
  simp [varsL_eq]

@[simp] theorem subst_var (σ : Nat → Term) (x : Nat) : subst σ (var x) = σ x := rfl
theorem subst_app (σ : Nat → Term) (f : Nat) (ts : List Term) :
    subst σ (app f ts) = app f (ts.map (subst σ)) := by simp [subst, substL_eq]

theorem size_pos : ∀ t : Term, 0 < size t
  | var _ => by simp [size]
  | app _ _ => by simp [size]

theorem size_le_sizeL {t : Term} {ts : List Term} (h : t ∈ ts) : size t ≤ sizeL ts := by
  induction ts with
  | nil => simp at h
  | cons u us ih =>
    rcases List.mem_cons.1 h with rfl | h
    · simp [sizeL]
    · have := ih h; simp [sizeL]; omega

theorem size_arg_lt {f : Nat} {t : Term} {ts : List Term} (h : t ∈ ts) :
    size t < size (app f ts) := by
  have := size_le_sizeL h; simp [size]; omega

theorem sizeL_append (a b : List Term) : sizeL (a ++ b) = sizeL a + sizeL b := by
  induction a with
  | nil => simp [sizeL]
  | cons t ts ih => simp [sizeL, ih]; omega

theorem varsL_append (a b : List Term) : varsL (a ++ b) = varsL a ++ varsL b := by
  simp [varsL_eq]

theorem subst_id (t : Term) : subst var t = t := by
  induction t using Term.ind with
  | hv x => rfl
  | ha f ts ih =>
    rw [subst_app]; congr 1
    conv => rhs; rw [← List.map_id ts]
    exact List.map_congr_left (by simpa using ih)

theorem subst_comp (σ τ : Nat → Term) (t : Term) :
    subst τ (subst σ t) = subst (fun x => subst τ (σ x)) t := by
  induction t using Term.ind with
  | hv x => rfl
  | ha f ts ih =>
    simp only [subst_app, List.map_map]; congr 1
    exact List.map_congr_left (by simpa using ih)

/-- A substitution only matters on the variables of the term. -/
theorem subst_congr {σ τ : Nat → Term} {t : Term} (h : ∀ x ∈ vars t, σ x = τ x) :
    subst σ t = subst τ t := by
  induction t using Term.ind with
  | hv x => exact h x (by simp [vars])
  | ha f ts ih =>
    simp only [subst_app]; congr 1
    refine List.map_congr_left fun t ht => ih t ht fun x hx => h x ?_
    simp only [vars, mem_varsL]; exact ⟨t, ht, hx⟩

theorem subst_eq_iff {σ τ : Nat → Term} {t : Term} :
    subst σ t = subst τ t ↔ ∀ x ∈ vars t, σ x = τ x := by
  refine ⟨?_, subst_congr⟩
  induction t using Term.ind with
  | hv x => intro h y hy; simp [vars] at hy; subst hy; simpa using h
  | ha f ts ih =>
    simp only [subst_app, app.injEq, true_and]
    intro h x hx
    simp only [vars, mem_varsL] at hx
    obtain ⟨t, ht, hx⟩ := hx
    exact ih t ht (List.map_inj_left.1 h t ht) x hx

theorem mem_vars_subst {σ : Nat → Term} {t : Term} {y : Nat} :
    y ∈ vars (subst σ t) ↔ ∃ x ∈ vars t, y ∈ vars (σ x) := by
  induction t using Term.ind with
  | hv x => simp [vars]
  | ha f ts ih =>
    simp only [subst_app, vars, mem_varsL, List.mem_map]
    constructor
    · rintro ⟨_, ⟨t, ht, rfl⟩, hy⟩
      obtain ⟨x, hx, hy⟩ := (ih t ht).1 hy
      exact ⟨x, ⟨t, ht, hx⟩, hy⟩
    · rintro ⟨x, ⟨t, ht, hx⟩, hy⟩
      exact ⟨_, ⟨t, ht, rfl⟩, (ih t ht).2 ⟨x, hx, hy⟩⟩

/-- Single-variable substitution. -/
def single (x : Nat) (u : Term) : Nat → Term := fun y => if y = x then u else var y

@[simp] theorem single_self (x : Nat) (u : Term) : single x u x = u := by simp [single]
theorem single_ne {x y : Nat} (u : Term) (h : y ≠ x) : single x u y = var y := by simp [single, h]

theorem subst_single_of_not_mem {x : Nat} {u t : Term} (h : x ∉ vars t) :
    subst (single x u) t = t := by
  conv => rhs; rw [← subst_id t]
  refine subst_congr fun y hy => single_ne u ?_
  rintro rfl; exact h hy

mutual
/-- The subterm relation as a list: all subterms of a term, itself first. -/
def subterms : Term → List Term
  | var x => [var x]
  | app f ts => app f ts :: subtermsL ts
def subtermsL : List Term → List Term
  | [] => []
  | t :: ts => subterms t ++ subtermsL ts
end

theorem mem_subtermsL {s : Term} {ts : List Term} : s ∈ subtermsL ts ↔ ∃ t ∈ ts, s ∈ subterms t := by
  induction ts with
  | nil => simp [subtermsL]
  | cons t ts ih => simp [subtermsL, ih]

end Term

/-- Types of symbols: `vty x` is the type of variable `x` (TERMS/cte_termvars.c:
every variable cell has one fixed type), `fty f`/`fargs f` the result and
argument types of symbol `f` (TERMS/cte_signature.c). -/
structure Sig where
  vty : Nat → Nat
  fty : Nat → Nat
  fargs : Nat → List Nat
  distinct : Nat → Bool := fun _ => false

namespace Sig

/-- `term->type`: type of a term, that of its head. -/
def ty (sg : Sig) : Term → Nat
  | .var x => sg.vty x
  | .app f _ => sg.fty f

mutual
/-- Well-typed terms: arguments match the declared argument types. -/
def WT (sg : Sig) : Term → Prop
  | .var _ => True
  | .app f ts => WTL sg (sg.fargs f) ts
def WTL (sg : Sig) : List Nat → List Term → Prop
  | [], [] => True
  | a :: as, t :: ts => sg.ty t = a ∧ WT sg t ∧ WTL sg as ts
  | _, _ => False
end

theorem wtl_iff {sg : Sig} {as : List Nat} {ts : List Term} :
    WTL sg as ts ↔ ts.map sg.ty = as ∧ ∀ t ∈ ts, WT sg t := by
  induction ts generalizing as with
  | nil => cases as <;> simp [WTL]
  | cons t ts ih =>
    cases as with
    | nil => simp [WTL]
    | cons a as => simp [WTL, ih]; tauto

theorem wt_app {sg : Sig} {f : Nat} {ts : List Term} :
    WT sg (.app f ts) ↔ ts.map sg.ty = sg.fargs f ∧ ∀ t ∈ ts, WT sg t := by
  simp [WT, wtl_iff]

/-- A type-respecting substitution. -/
def WTSubst (sg : Sig) (σ : Nat → Term) : Prop := ∀ x, sg.ty (σ x) = sg.vty x ∧ WT sg (σ x)

theorem ty_subst {sg : Sig} {σ : Nat → Term} (h : ∀ x, sg.ty (σ x) = sg.vty x) (t : Term) :
    sg.ty (t.subst σ) = sg.ty t := by
  cases t with
  | var x => exact h x
  | app f ts => rfl

theorem wt_subst {sg : Sig} {σ : Nat → Term} (h : WTSubst sg σ) {t : Term} (ht : WT sg t) :
    WT sg (t.subst σ) := by
  induction t using Term.ind with
  | hv x => exact (h x).2
  | ha f ts ih =>
    rw [Term.subst_app, wt_app]
    rw [wt_app] at ht
    refine ⟨?_, ?_⟩
    · rw [← ht.1, List.map_map]
      exact List.map_congr_left fun t _ => ty_subst (fun x => (h x).1) t
    · simp only [List.mem_map]
      rintro _ ⟨t, htm, rfl⟩
      exact ih t htm (ht.2 t htm)

theorem wtSubst_var (sg : Sig) : WTSubst sg Term.var := fun _ => ⟨rfl, trivial⟩

end Sig

end Verif
