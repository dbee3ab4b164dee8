import Verif.Formulas.CNFSet
import Verif.Formulas.CNFTotal

/-!
# C51–C53: transformation of formulas into clauses

Specification: `Verif.Formulas.Form`; model: `Verif.Formulas.CNF`.
-/

namespace Verif.Props
open Form CNFProof SemProof

universe u

variable {sg : Sig}

/-! ## C51: the steps without new symbols -/

/-- **C51, simplification** gives an equivalent formula without exclusive or, nand, nor and reversed implication. -/
theorem cnf_simplify {small : Form → Bool} {k : Nat} {f f' : Form} (e : f.simplify small k = some f') :
    Form.Equiv.{u} sg f f' ∧ f'.Basic :=
  ⟨fun I v => (simplify_holds I small k f f' e v).symm, basic_simplify small k f f' e⟩

/-- **C51, negation normal form** is equivalent and of the required shape. -/
theorem cnf_nnf {k : Nat} {pol : Int} {f f' : Form} (e : f.nnf k pol = some f') :
    Form.Equiv.{u} sg f f' ∧ (f.Basic → f'.IsNNF) :=
  ⟨fun I v => (nnf_holds I k pol f f' e v).symm, nnf_shape k pol f f' e⟩

/-- **C51, miniscoping** gives an equivalent formula and keeps negation normal form, whatever candidates are chosen. -/
theorem cnf_miniscope {cand : Form → Bool} {k : Nat} {f f' : Form} (e : f.miniScope3 cand k = some f') :
    Form.Equiv.{u} sg f f' ∧ (f.IsNNF → f'.IsNNF) :=
  ⟨fun I v => (copyMod_holds I cand k f f' e v).symm, copyMod_nnf cand k f f' e⟩

/-- **C51, renaming** of the quantified variables gives an equivalent formula in which every quantifier has a variable of its own that does not occur free. -/
theorem cnf_rename {f : Form} {b : VarBank} (hb : b.Inv) (ha : BankAgrees sg (f.varRename sg id b.setUsed).2) (hv : ∀ x, f.FV x → x ≤ b.fresh) :
    Form.Equiv.{u} sg f (f.varRename sg id b.setUsed).1 ∧ (f.varRename sg id b.setUsed).1.binders.Nodup ∧
    ∀ y ∈ (f.varRename sg id b.setUsed).1.binders, b.fresh < y ∧ ¬ (f.varRename sg id b.setUsed).1.FV y := by
  have hF := full_setUsed hb
  have h1 := varRename_binders (sg := sg) f id hF
  refine ⟨fun I v => (varRename_holds I f id hF ha hv v).symm, h1.1, fun y hy => ⟨(h1.2 y hy).1, fun hfy => ?_⟩⟩
  obtain ⟨z, hz, e⟩ := varRename_fv (sg := sg) f id b.setUsed hfy
  have h2 := hv z hz
  have h3 := (h1.2 y hy).1
  simp only [id] at e
  subst e
  exact Nat.not_lt.2 h2 h3

/-- **C51, prenex form**: moving universal quantifiers to the front gives an equivalent formula if each of them has a variable of its own. -/
theorem cnf_prenex {f : Form} (hn : f.IsNNF) (ha : f.AllQ) (hb : f.binders.Nodup) (hf : ∀ y ∈ f.binders, ¬ f.FV y) :
    Form.Equiv.{u} sg f f.shiftQuantors ∧ ∃ (xs : List Nat) (c : Form), f.shiftQuantors = xs.foldr (Form.qu true) c ∧ c.QF ∧ c.IsNNF :=
  ⟨fun I v => (shift_holds I f hn ha hb hf v).symm, _, _, rfl, extractCore_shape hn⟩

/-- **C51, distribution** gives an equivalent formula; without quantifiers it is a conjunction of disjunctions of literals. -/
theorem cnf_distribute {k : Nat} {f f' : Form} (e : f.distribute k = some f') :
    Form.Equiv.{u} sg f f' ∧ (f.QF → f.IsNNF → f'.IsCNF) :=
  ⟨fun I v => (distribute_holds I k f f' e v).symm, distribute_shape k f f' e⟩

/-- **C51, termination**: each of the steps ends, with a result that does not depend on the fuel. -/
theorem cnf_steps_terminate (small cand : Form → Bool) (f : Form) :
    (∃ N r, ∀ k ≥ N, f.simplify small k = some r) ∧
    (f.Basic → ∀ pol, ∃ N r, ∀ k ≥ N, f.nnf k pol = some r) ∧
    (∃ N r, ∀ k ≥ N, f.miniScope3 cand k = some r) ∧
    (∃ N r, ∀ k ≥ N, f.distribute k = some r) := by
  have sw : ∀ {φ : Nat → Option Form}, (∃ r, Ev φ r) → ∃ N r, ∀ k ≥ N, φ k = some r := fun ⟨r, N, h⟩ => ⟨N, r, h⟩
  exact ⟨sw (simplify_total small f), fun hf pol => sw (nnf_total f hf pol), sw (copyMod_total cand f), sw (distribute_total f)⟩

/-! ## C52: Skolemization -/

/-- **C52**: Skolemization removes all existential quantifiers.  Every model of the result is a model of the formula, and every model of the formula becomes a model
of the result if only the new symbols are interpreted anew. -/
theorem skolem_preserves {f : Form} {n : Nat} (hn : f.IsNNF) (hb : f.binders.Nodup) (hf : ∀ y ∈ f.binders, ¬ f.FV y) (h2 : 2 < n) (hs : f.SymsBelow n)
    (hd : Declared sg (f.skolemizeOutermost sg n).2.2) :
    (f.skolemizeOutermost sg n).1.AllQ ∧
    (∀ I : Interp.{u} sg, (f.skolemizeOutermost sg n).1.Valid I → f.Valid I) ∧
    ∀ I : Interp.{u} sg, f.Valid I → ∃ F, ∃ h : I.FnOK F, (∀ s, ¬ CodesIn n (f.skolemizeOutermost sg n).2.1 s → F s = I.fn s) ∧
      (f.skolemizeOutermost sg n).1.Valid (I.reint F h) :=
  ⟨(skolem_shape hn _ _ _).2, skolem_outer hn hb hf h2 hs hd⟩

/-- **C52, the new symbols**: every new symbol has a code of its own that was not in use. -/
theorem skolem_codes (f : Form) (n : Nat) (hs : f.SymsBelow n) :
    ((f.skolemizeOutermost sg n).2.2.map SkDecl.code).Nodup ∧ (∀ d ∈ (f.skolemizeOutermost sg n).2.2, CodesIn n (f.skolemizeOutermost sg n).2.1 d.code) ∧
    (f.skolemizeOutermost sg n).1.SymsBelow (f.skolemizeOutermost sg n).2.1 := by
  refine ⟨?_, (skolem_next f _ _ n).2, skolem_syms f _ _ n hs fun _ => trivial⟩
  unfold skolemizeOutermost
  generalize collectFree f (fun _ => false) [] = vs
  generalize Term.var = σ
  clear hs
  induction f generalizing vs σ n with
  | lit p l r => simp only [skolemize]; split <;> exact List.nodup_nil
  | atom t => exact List.nodup_nil
  | not f ih => simp only [skolemize]; split; exacts [List.nodup_nil, ih _ _ _]
  | bin op f g ih1 ih2 =>
    simp only [skolemize]
    split
    · exact List.nodup_nil
    · simp only [List.map_append]
      refine List.nodup_append.2 ⟨ih1 _ _ _, ih2 _ _ _, ?_⟩
      intro a ha c hc e
      obtain ⟨d, hd, rfl⟩ := List.mem_map.1 ha
      obtain ⟨d', hd', rfl⟩ := List.mem_map.1 hc
      have h1 := (skolem_next (sg := sg) f vs σ n).2 d hd
      have h2 := (skolem_next (sg := sg) g vs σ (skolemize sg f vs σ n).2.1).2 d' hd'
      omega
  | qu q x f ih =>
    cases q with
    | true => exact ih _ _ _
    | false =>
      simp only [skolemize, List.map_cons, List.nodup_cons]
      refine ⟨fun h => ?_, ih _ _ _⟩
      obtain ⟨d, hd, e⟩ := List.mem_map.1 h
      have := ((skolem_next (sg := sg) f _ _ _).2 d hd).1
      omega

/-! ## C53: clausification -/

/-- **C53, soundness and completeness** for a list of formulas and clauses: a model of the clauses is a model of the formulas, and a model of the formulas becomes a
model of the clauses if only symbols with new codes are interpreted anew. -/
theorem cnf_models (hs : SigOK sg) {small cand : Form → Bool} {k : Nat} {ws : List WForm} {b : VarBank} {n : Nat} {Cs : List (List Lit)} {b' : VarBank} {n' : Nat}
    {ds : List SkDecl} (e : formulasCNF sg small cand k ws b n = some (Cs, b', n', ds)) (hb : b.Inv) (ha : BankAgrees sg b')
    (hok : ∀ w ∈ ws, WForm.OK sg b.fresh n w) (h2 : 2 < n) (hd : Declared sg ds) :
    (∀ I : Interp.{u} sg, (∀ C ∈ Cs, I.Models C) → ∀ w ∈ ws, w.form.Valid I) ∧
    ∀ I : Interp.{u} sg, (∀ w ∈ ws, w.form.Valid I) → ∃ F, ∃ h : I.FnOK F, (∀ s, ¬ CodesIn n n' s → F s = I.fn s) ∧ ∀ C ∈ Cs, (I.reint F h).Models C := by
  have o := formulas_out.{u} hs ws e hb ha hok h2 hd
  refine ⟨fun I h w hw => o.sound I h _ (List.mem_map.2 ⟨w, hw, rfl⟩), fun I h => o.extend I fun f hf => ?_⟩
  obtain ⟨w, hw, rfl⟩ := List.mem_map.1 hf
  exact h w hw

/-- **C53, satisfiability** is the same for the formulas and for the clauses. -/
theorem cnf_satisfiable (hs : SigOK sg) {small cand : Form → Bool} {k : Nat} {ws : List WForm} {b : VarBank} {n : Nat} {Cs : List (List Lit)} {b' : VarBank} {n' : Nat}
    {ds : List SkDecl} (e : formulasCNF sg small cand k ws b n = some (Cs, b', n', ds)) (hb : b.Inv) (ha : BankAgrees sg b')
    (hok : ∀ w ∈ ws, WForm.OK sg b.fresh n w) (h2 : 2 < n) (hd : Declared sg ds) :
    (∃ I : Interp.{u} sg, ∀ C ∈ Cs, I.Models C) ↔ ∃ I : Interp.{u} sg, ∀ w ∈ ws, w.form.Valid I := by
  have := cnf_models.{u} hs e hb ha hok h2 hd
  constructor
  · exact fun ⟨I, h⟩ => ⟨I, this.1 I h⟩
  · rintro ⟨I, h⟩
    obtain ⟨F, hF, _, h3⟩ := this.2 I h
    exact ⟨_, h3⟩

/-- **C53, well-formed clauses**: the clauses are well-typed and use only symbols that are known afterwards; the bank keeps its variables. -/
theorem cnf_wellformed (hs : SigOK sg) {small cand : Form → Bool} {k : Nat} {ws : List WForm} {b : VarBank} {n : Nat} {Cs : List (List Lit)} {b' : VarBank} {n' : Nat}
    {ds : List SkDecl} (e : formulasCNF sg small cand k ws b n = some (Cs, b', n', ds)) (hb : b.Inv) (ha : BankAgrees sg b')
    (hok : ∀ w ∈ ws, WForm.OK sg b.fresh n w) (h2 : 2 < n) (hd : Declared sg ds) :
    (∀ C ∈ Cs, sg.WTClause C ∧ ClauseBelow n' C) ∧ n ≤ n' ∧ b'.Inv ∧ ∀ ty c, c ∈ b.vstk ty → c ∈ b'.vstk ty := by
  have o := formulas_out.{0} hs ws e hb ha hok h2 hd
  exact ⟨fun C hC => ⟨o.wt C hC, o.below C hC⟩, o.le, o.inv, o.stk⟩

/-- **C53, termination**: clausification always ends, with a result that does not depend on the fuel. -/
theorem cnf_terminates (sg : Sig) (small cand : Form → Bool) (ws : List WForm) (b : VarBank) (n : Nat) :
    ∃ N r, ∀ k ≥ N, formulasCNF sg small cand k ws b n = some r := by
  obtain ⟨r, N, h⟩ := formulasCNF_total sg small cand ws b n
  exact ⟨N, r, h⟩

/-! ## An example -/

namespace CNFEx

/-- Type 0 is Boolean, type 1 individuals; 20 is a unary, 21 a binary predicate, 22 a constant, 23 a unary function symbol. -/
def sig : Sig where
  vty _ := 1
  fty f := if f = 22 ∨ f = 23 then 1 else 0
  fargs f := if f = 20 then [1] else if f = 21 then [1, 1] else if f = 23 then [1] else []

theorem sigOK : SigOK sig := ⟨rfl, rfl, rfl⟩

/-- A bank with the variables 2 and 4. -/
def bank : VarBank := ((VarBank.init.getFresh 1).2.getFresh 1).2

def P (t : Term) : Form := .atom (.app 20 [t])
def R (s t : Term) : Form := .atom (.app 21 [s, t])

/-- `∀x (p(x) ⇔ ∃y r(x,y))`. -/
def fm : Form := .qu true 2 (.bin .equiv (P (.var 2)) (.qu false 4 (R (.var 2) (.var 4))))

/-- The clause `p(x) ∨ ¬p(c)`. -/
def cl : Form := .bin .or (.lit true (.app 20 [.var 2]) tTrue) (.lit false (.app 20 [.app 22 []]) tTrue)

def inp : List WForm := [⟨false, fm⟩, ⟨true, cl⟩]

/-- The clauses `¬r(x,y) ∨ p(x)` and `¬p(x) ∨ r(x,f(x))`, and the given one. -/
def out : List (List Lit) :=
  [[⟨false, .app 21 [.var 2, .var 4], tTrue⟩, ⟨true, .app 20 [.var 2], tTrue⟩],
   [⟨false, .app 20 [.var 2], tTrue⟩, ⟨true, .app 21 [.var 2, .app 23 [.var 2]], tTrue⟩],
   [⟨true, .app 20 [.var 2], tTrue⟩, ⟨false, .app 20 [.app 22 []], tTrue⟩]]

theorem run : (formulasCNF sig (fun _ => true) (fun _ => true) 30 inp bank 23).map (fun r => (r.1, r.2.2)) = some (out, 24, [⟨23, [6], 1⟩]) := by
  decide +kernel

/-- The result with the variable bank. -/
theorem run_bank : ∃ b', formulasCNF sig (fun _ => true) (fun _ => true) 30 inp bank 23 = some (out, b', 24, [⟨23, [6], 1⟩]) := by
  obtain ⟨⟨r1, r2, r3⟩, e1, e2⟩ := Option.map_eq_some_iff.1 run
  cases e2
  exact ⟨r2, e1⟩

theorem bank_inv : bank.Inv := VarBank.inv_getFresh (VarBank.inv_getFresh VarBank.inv_init _) _

theorem declared : Declared sig [⟨23, [6], 1⟩] := by
  simp [Declared, sig]

theorem wt_P {x : Nat} : (P (.var x)).WT sig := by
  refine ⟨?_, rfl⟩; simp [Sig.WT, Sig.WTL, Sig.ty, sig]

theorem wt_R {x y : Nat} : (R (.var x) (.var y)).WT sig := by
  refine ⟨?_, rfl⟩; simp [Sig.WT, Sig.WTL, Sig.ty, sig]

theorem inp_ok : ∀ w ∈ inp, WForm.OK sig bank.fresh 23 w := by
  have hf : bank.fresh = 4 := rfl
  intro w hw
  simp only [inp, List.mem_cons, List.not_mem_nil, or_false] at hw
  rcases hw with rfl | rfl
  · refine ⟨⟨trivial, wt_P, trivial, wt_R⟩, ?_, ?_, by simp⟩
    · rw [hf]
      simp [fm, P, R, AllVars, Parts, Term.vars, Term.varsL]
    · simp [fm, P, R, Form.SymsBelow, Parts, Term.SymsBelow, Term.SymsBelowL]
  · refine ⟨?_, ?_, ?_, fun _ => ⟨rfl, trivial, trivial⟩⟩
    · simp [cl, Form.WT, Parts, Sig.WT, Sig.WTL, Sig.ty, sig, tTrue]
    · rw [hf]
      simp [cl, AllVars, Parts, Term.vars, Term.varsL, tTrue]
    · simp [cl, Form.SymsBelow, Parts, Term.SymsBelow, Term.SymsBelowL, tTrue]

theorem agrees {b' : VarBank} (e : formulasCNF sig (fun _ => true) (fun _ => true) 30 inp bank 23 = some (out, b', 24, [⟨23, [6], 1⟩])) : BankAgrees sig b' := by
  intro ty c hc
  by_contra h
  have h0 := formulas_types (sg := sig) (ty := ty) (fun x hx => h hx) inp e
  have h1 : bank.vstk ty = [] := by
    have : ty ≠ 1 := fun e => h e.symm
    simp [bank, VarBank.getFresh, VarBank.init, this]
  simp only at h0
  rw [h0, h1] at hc
  cases hc

/-- The clauses of the example are satisfiable just as the formulas. -/
example : (∃ I : Interp.{u} sig, ∀ C ∈ out, I.Models C) ↔ ∃ I : Interp.{u} sig, ∀ w ∈ inp, w.form.Valid I := by
  obtain ⟨b', e⟩ := run_bank
  exact cnf_satisfiable sigOK e bank_inv (agrees e) inp_ok (by decide) declared

example : ∀ C ∈ out, sig.WTClause C := by
  obtain ⟨b', e⟩ := run_bank
  exact fun C hC => ((cnf_wellformed sigOK e bank_inv (agrees e) inp_ok (by decide) declared).1 C hC).1

/-- `∃y (p(y) ∧ ∀x r(x,y))`. -/
def ex : Form := .qu false 4 (.bin .and (.lit true (.app 20 [.var 4]) tTrue) (.qu true 2 (.lit true (.app 21 [.var 2, .var 4]) tTrue)))

/-- A signature in which 22 is the Skolem constant. -/
example : (ex.skolemizeOutermost sig 22).1 =
    .bin .and (.lit true (.app 20 [.app 22 []]) tTrue) (.qu true 2 (.lit true (.app 21 [.var 2, .app 22 []]) tTrue)) := by decide +kernel

example : (∀ I : Interp.{u} sig, (ex.skolemizeOutermost sig 22).1.Valid I → ex.Valid I) :=
  (skolem_preserves (sg := sig) (f := ex) (n := 22) ⟨.inl rfl, trivial, trivial⟩ (by decide) (by simp [ex, binders, FV, Term.vars, Term.varsL, tTrue]) (by decide)
    (by simp [ex, Form.SymsBelow, Parts, Term.SymsBelow, Term.SymsBelowL, tTrue]) (by simp [ex, skolemizeOutermost, collectFree, skolemize, isGround, Declared, sig, Term.vars, Term.varsL, tTrue])).2.1

example : ∃ f', (Form.not (.bin .xor (P (.var 2)) (R (.var 2) (.var 4)))).simplify (fun _ => true) 20 = some f' ∧ f'.Basic := by
  obtain ⟨f', h⟩ : ∃ f', (Form.not (.bin .xor (P (.var 2)) (R (.var 2) (.var 4)))).simplify (fun _ => true) 20 = some f' := Option.isSome_iff_exists.1 (by decide +kernel)
  exact ⟨f', h, (cnf_simplify.{0} (sg := sig) h).2⟩

end CNFEx
end Verif.Props
