import Verif.Formulas.ProblemProof

/-!
# C54: introduction of definitions

`introduceDefs sg limit ws n` (Formulas/Defs.lean) is the list of formulas after large subformulas have been replaced by new predicates, with the definitions of these
predicates (an implication where the subformula occurs with one polarity only).  The formulas are those made by `Form.simplify` (`Form.Basic`, see `cnf_simplify`).
-/

namespace Verif.Props
open Verif CNFProof Form

universe u
variable {sg : Sig}

/-- **C54, models**: a model of the result is a model of the given formulas, and a model of these becomes a model of the result if only the new predicates are interpreted
anew. -/
theorem defs_models (hs : SigOK sg) {limit : Int} {ws : List WForm} {n : Nat} (hb : ∀ w ∈ ws, w.form.Basic) (hsy : ∀ w ∈ ws, w.form.SymsBelow n) (h2 : 2 < n)
    (hd : Declared sg (introduceDefs sg limit ws n).2.2) :
    (∀ I : Interp.{u} sg, (∀ w ∈ (introduceDefs sg limit ws n).1, w.form.Valid I) → ∀ w ∈ ws, w.form.Valid I) ∧
    ∀ I : Interp.{u} sg, (∀ w ∈ ws, w.form.Valid I) → ∃ F, ∃ hF : I.FnOK F, (∀ c, ¬ CodesIn n (introduceDefs sg limit ws n).2.1 c → F c = I.fn c) ∧
      ∀ w ∈ (introduceDefs sg limit ws n).1, w.form.Valid (I.reint F hF) :=
  ⟨fun I h => introduceDefs_sound hb hsy I h, fun I h => introduceDefs_extend hs h2 hsy hd I h⟩

/-- **C54, satisfiability** is not changed. -/
theorem defs_satisfiable (hs : SigOK sg) {limit : Int} {ws : List WForm} {n : Nat} (hb : ∀ w ∈ ws, w.form.Basic) (hsy : ∀ w ∈ ws, w.form.SymsBelow n) (h2 : 2 < n)
    (hd : Declared sg (introduceDefs sg limit ws n).2.2) :
    (∃ I : Interp.{u} sg, ∀ w ∈ (introduceDefs sg limit ws n).1, w.form.Valid I) ↔ ∃ I : Interp.{u} sg, ∀ w ∈ ws, w.form.Valid I := by
  obtain ⟨h3, h4⟩ := defs_models.{u} hs hb hsy h2 hd
  constructor
  · exact fun ⟨I, hI⟩ => ⟨I, h3 I hI⟩
  · rintro ⟨I, hI⟩
    obtain ⟨F, hF, -, h5⟩ := h4 I hI
    exact ⟨_, h5⟩

/-- **C54, well-formedness**: the formulas remain well-typed over the known variables, clauses remain clauses; every new predicate has a code of its own that was not in use. -/
theorem defs_wellformed (hs : SigOK sg) {limit : Int} {ws : List WForm} {m n : Nat} (h2 : 2 < n) (hok : ∀ w ∈ ws, WForm.OK sg m n w)
    (hd : Declared sg (introduceDefs sg limit ws n).2.2) :
    (∀ w ∈ (introduceDefs sg limit ws n).1, WForm.OK sg m (introduceDefs sg limit ws n).2.1 w) ∧ n ≤ (introduceDefs sg limit ws n).2.1 ∧
    ((introduceDefs sg limit ws n).2.2.map SkDecl.code).Nodup ∧ ∀ d ∈ (introduceDefs sg limit ws n).2.2, CodesIn n (introduceDefs sg limit ws n).2.1 d.code := by
  obtain ⟨h3, h4⟩ := introduceDefs_ok hs h2 hok hd
  have hc := consec_defs (sg := sg) (limit := limit) (ws := ws) (n := n)
  refine ⟨h4, h3, ?_, fun d hd => ?_⟩
  · rw [hc.2]; exact List.nodup_range'
  · have : d.code ∈ List.range' n ((introduceDefs sg limit ws n).2.1 - n) := hc.2 ▸ List.mem_map_of_mem hd
    rw [List.mem_range'_1] at this
    have h5 := hc.1
    exact ⟨this.1, by omega⟩

/-- **C54, nothing to do**: with limit 0 no definition is introduced. -/
theorem defs_disabled (ws : List WForm) (n : Nat) : (introduceDefs sg 0 ws n) = (ws, n, []) := by
  have h1 : formulasFindDefs 0 ws n = ⟨[], n⟩ := by
    unfold formulasFindDefs
    generalize (⟨[], n⟩ : Defs) = s
    induction ws generalizing s with
    | nil => rfl
    | cons w ws ih => rw [List.foldl_cons, if_neg (fun h => h.2 rfl)]; exact ih s
  have h2 : ∀ (b : Option Nat) (f : Form), f.copyDef [] b = f := by
    intro b f
    induction f with
    | lit => rfl
    | atom => rfl
    | not f ih => simp only [copyDef, usable, List.find?_nil, ih]
    | bin op f g ih1 ih2 => simp only [copyDef, usable, List.find?_nil, ih1, ih2]
    | qu q x f ih => simp only [copyDef, usable, List.find?_nil, ih]
  unfold introduceDefs
  rw [h1]
  simp only [h2, List.map_nil, List.append_nil, List.map_id']

namespace DefsEx

/-- Type 0 is Boolean, type 1 individuals; 20 and 23 are unary predicates, 21 is a binary predicate, 22 a constant. -/
def sig : Sig where
  vty _ := 1
  fty f := if f = 22 then 1 else 0
  fargs f := if f = 20 ∨ f = 23 then [1] else if f = 21 then [1, 1] else []

theorem sigOK : SigOK sig := ⟨rfl, rfl, rfl⟩

def P (t : Term) : Form := .lit true (.app 20 [t]) tTrue
def R (s t : Term) : Form := .lit true (.app 21 [s, t]) tTrue
def Q (t : Term) : Form := .lit true (.app 23 [t]) tTrue

/-- `∀x (p(c) ∨ (p(x) ∧ r(x,x)))`. -/
def fm : Form := .qu true 2 (.bin .or (P (.app 22 [])) (.bin .and (P (.var 2)) (R (.var 2) (.var 2))))

/-- The clause `p(x) ∨ p(c)`. -/
def cl : Form := .bin .or (P (.var 2)) (P (.app 22 []))

def inp : List WForm := [⟨false, fm⟩, ⟨true, cl⟩]

/-- `∀x (p(c) ∨ q(x))`, the clause, and `∀x (q(x) ⇒ p(x) ∧ r(x,x))`. -/
def out : List (Bool × Form) :=
  [(false, .qu true 2 (.bin .or (P (.app 22 [])) (Q (.var 2)))), (true, cl),
   (false, .qu true 2 (.bin .impl (Q (.var 2)) (.bin .and (P (.var 2)) (R (.var 2) (.var 2)))))]

theorem run : ((introduceDefs sig 1 inp 23).1.map (fun w => (w.isClause, w.form)), (introduceDefs sig 1 inp 23).2) = (out, 24, [⟨23, [2], 0⟩]) := by decide +kernel

theorem run_decls : (introduceDefs sig 1 inp 23).2.2 = [⟨23, [2], 0⟩] := congrArg (fun r => r.2.2) run

theorem declared : Declared sig (introduceDefs sig 1 inp 23).2.2 := by
  rw [run_decls]; simp [Declared, sig]

theorem inp_ok : ∀ w ∈ inp, WForm.OK sig 4 23 w := by
  intro w hw
  simp only [inp, List.mem_cons, List.not_mem_nil, or_false] at hw
  rcases hw with rfl | rfl
  · refine ⟨?_, ?_, ?_, by simp⟩
    · simp [fm, P, R, Form.WT, Parts, Sig.WT, Sig.WTL, Sig.ty, sig, tTrue]
    · simp [fm, P, R, AllVars, Parts, Term.vars, Term.varsL, tTrue]
    · simp [fm, P, R, Form.SymsBelow, Parts, Term.SymsBelow, Term.SymsBelowL, tTrue]
  · refine ⟨?_, ?_, ?_, fun _ => ⟨rfl, trivial, trivial⟩⟩
    · simp [cl, P, Form.WT, Parts, Sig.WT, Sig.WTL, Sig.ty, sig, tTrue]
    · simp [cl, P, AllVars, Parts, Term.vars, Term.varsL, tTrue]
    · simp [cl, P, Form.SymsBelow, Parts, Term.SymsBelow, Term.SymsBelowL, tTrue]

theorem inp_basic : ∀ w ∈ inp, w.form.Basic := by
  intro w hw
  simp only [inp, List.mem_cons, List.not_mem_nil, or_false] at hw
  rcases hw with rfl | rfl
  · simp [fm, P, R, Basic]
  · simp [cl, P, Basic]

example : (∃ I : Interp.{u} sig, ∀ w ∈ (introduceDefs sig 1 inp 23).1, w.form.Valid I) ↔ ∃ I : Interp.{u} sig, ∀ w ∈ inp, w.form.Valid I :=
  defs_satisfiable sigOK inp_basic (fun w hw => (inp_ok w hw).syms) (by decide) declared

example : ∀ w ∈ (introduceDefs sig 1 inp 23).1, WForm.OK sig 4 24 w :=
  have h : (introduceDefs sig 1 inp 23).2.1 = 24 := congrArg (fun r => r.2.1) run
  h ▸ (defs_wellformed sigOK (by decide) inp_ok declared).1

end DefsEx
end Verif.Props
