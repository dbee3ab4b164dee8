import Verif.Clauses.BceFix
import Verif.Props.Problem

/-!
# C57: blocked clause elimination
-/

namespace Verif.Props
open BceProof SaturateProof

universe u

section
variable {sg : Sig} {Cs : List (List Lit)} {taut : List Lit → Bool} {pp : Term → Bool} {pick : List BceTask → Nat} {k limit : Nat} {arch : List Nat}

/-- C57: on first-order clauses with equality every model of the clauses that are kept becomes a model of all clauses, if only the meaning of predicates other than `$true`
and `$false` is changed.  The tests for tautologies are those of C23. -/
theorem bce_converts (hsg : SigOK sg) (hF : FOSig sg) (ha : AltTyped sg) (hfo : ∀ C ∈ Cs, ∀ K ∈ C, FOLit sg K) (hev : ∀ C ∈ Cs, EvenVars C)
    (htaut : ∀ X, taut X = true → ∃ no ps ns n, Numbered no X ∧ Sorted no X ps ns ∧ clauseIsTautology sg no ps ns n X = some true)
    (heq : ∃ C ∈ Cs, ∃ L ∈ C, L.r ≠ tTrue) (h : eliminateBlocked sg taut pp pick k limit Cs = some arch) :
    Converts.{u} sg (fun s => s ≠ 1 ∧ s ≠ 2 ∧ sg.fty s = sg.fty 1) (keptClauses Cs arch) Cs := by
  have he : eqFound Cs = true := by
    obtain ⟨C, hC, L, hL, h⟩ := heq
    exact List.any_eq_true.2 ⟨C, hC, List.any_eq_true.2 ⟨L, hL, by simpa [Lit.equ] using h⟩⟩
  have hv : ∀ X, taut X = true → Valid.{u} sg X := fun X hX => by
    obtain ⟨no, ps, ns, n, h1, h2, h3⟩ := htaut X hX
    exact tautology_sound h1 h2 h3
  have key : Converts.{u} sg (PredOK sg) (keptClauses Cs arch) Cs := by
    refine loop_inv (Q := fun arch => Converts.{u} sg (PredOK sg) (keptClauses Cs arch) Cs) (fun arch cl lit _ hcov hQ =>
      PreprocProof.conv_trans (step_eq hsg hF ha ⟨hfo, hev⟩ hv he hcov) hQ) (start_ok limit Cs _) ?_ h
    refine PreprocProof.conv_of_models fun I hI C hC => hI C (mem_kept.2 ?_)
    obtain ⟨i, hi⟩ := List.mem_iff_getElem?.1 hC
    exact ⟨i, hi, by simp⟩
  exact PreprocProof.conv_mono key fun s hs => ⟨hs.one, hs.two, hs.ty⟩

/-- C57: the clauses that are kept have a model if and only if all clauses have one. -/
theorem bce_satisfiable (hsg : SigOK sg) (hF : FOSig sg) (ha : AltTyped sg) (hV : ∀ ty, ty ≠ sg.fty 1 → ∃ x, sg.vty x = ty)
    (hfo : ∀ C ∈ Cs, ∀ K ∈ C, FOLit sg K) (hev : ∀ C ∈ Cs, EvenVars C)
    (htaut : ∀ X, taut X = true → ∃ no ps ns n, Numbered no X ∧ Sorted no X ps ns ∧ clauseIsTautology sg no ps ns n X = some true)
    (h : eliminateBlocked sg taut pp pick k limit Cs = some arch) :
    (∃ I : Interp.{u} sg, ∀ C ∈ keptClauses Cs arch, I.Models C) ↔ ∃ I : Interp.{u} sg, ∀ C ∈ Cs, I.Models C := by
  constructor
  · intro hI
    by_cases heq : ∃ C ∈ Cs, ∃ L ∈ C, L.r ≠ tTrue
    · obtain ⟨I, hI⟩ := hI
      obtain ⟨F, hF', _, h2⟩ := bce_converts.{u} hsg hF ha hfo hev htaut heq h I hI
      exact ⟨_, h2⟩
    · have he : eqFound Cs = false := by
        push Not at heq
        simp only [eqFound, List.any_eq_false, Bool.not_eq_true]
        exact fun C hC L hL => by simp [Lit.equ, heq C hC L hL]
      refine loop_inv (Q := fun arch => (∃ I : Interp.{u} sg, ∀ C ∈ keptClauses Cs arch, I.Models C) → ∃ I : Interp.{u} sg, ∀ C ∈ Cs, I.Models C)
        (fun arch cl lit _ hcov hQ ⟨I, hI⟩ => hQ (step_neq hsg hF ha ⟨hfo, hev⟩ hV he hcov I hI)) (start_ok limit Cs _) ?_ h hI
      rintro ⟨I, hI⟩
      refine ⟨I, fun C hC => hI C (mem_kept.2 ?_)⟩
      obtain ⟨i, hi⟩ := List.mem_iff_getElem?.1 hC
      exact ⟨i, hi, by simp⟩
  · rintro ⟨I, hI⟩
    refine ⟨I, fun C hC => hI C ?_⟩
    obtain ⟨i, hi, _⟩ := mem_kept.1 hC
    exact List.mem_of_getElem? hi

/-- C57: hence the clauses that are kept have a refutation if and only if all clauses have one. -/
theorem bce_refutation (hsg : SigOK sg) (hF : FOSig sg) (ha : AltTyped sg) (hV : ∀ ty, ty ≠ sg.fty 1 → ∃ x, sg.vty x = ty)
    (hfo : ∀ C ∈ Cs, ∀ K ∈ C, FOLit sg K) (hev : ∀ C ∈ Cs, EvenVars C)
    (htaut : ∀ X, taut X = true → ∃ no ps ns n, Numbered no X ∧ Sorted no X ps ns ∧ clauseIsTautology sg no ps ns n X = some true)
    (h : eliminateBlocked sg taut pp pick k limit Cs = some arch) : Entails.{u} sg (keptClauses Cs arch) [] ↔ Entails.{u} sg Cs [] := by
  have key : ∀ Ds : List (List Lit), Entails.{u} sg Ds [] ↔ ¬ ∃ I : Interp.{u} sg, ∀ C ∈ Ds, I.Models C := by
    intro Ds
    constructor
    · rintro h ⟨I, hI⟩
      obtain ⟨L, hL, _⟩ := h I hI (fun x => (I.inhab (sg.vty x)).choose) fun x => (I.inhab (sg.vty x)).choose_spec
      cases hL
    · exact fun h I hI => absurd ⟨I, hI⟩ h
  rw [key, key, bce_satisfiable.{u} hsg hF ha hV hfo hev htaut h]

/-- C57: the elimination ends, whichever task is taken first. -/
theorem bce_terminates (sg : Sig) (taut : List Lit → Bool) (pp : Term → Bool) (pick : List BceTask → Nat) (limit : Nat) (Cs : List (List Lit)) :
    ∃ N, ∀ k ≥ N, ∃ arch, eliminateBlocked sg taut pp pick k limit Cs = some arch := by
  obtain ⟨N, hN⟩ := bceCheck_total (sg := sg) taut pp Cs
  refine ⟨max N (taskSum (makeTasks (makeSymMap limit Cs) Cs) + 1), fun k hk => ?_⟩
  have := loop_total (hN k (by omega)) pick k (start_ok limit Cs _) (by simp [blockSum]; omega)
  exact Option.ne_none_iff_exists'.1 this

/-- C57: without a limit on the occurrences nothing is left to be done: each predicate literal of a clause that is kept has failed the test against another clause that is kept
and has a literal with the same predicate and the other sign. -/
theorem bce_complete (hsg : SigOK sg) (hF : FOSig sg) (hfo : ∀ C ∈ Cs, ∀ K ∈ C, FOLit sg K) (h : eliminateBlocked sg taut pp pick k 0 Cs = some arch)
    {cl lit f : Nat} {pos : Bool} {ts : List Term} {C : List Lit} (hC : Cs[cl]? = some C) (hk : cl ∉ arch) (hL : C[lit]? = some ⟨pos, .app f ts, tTrue⟩) :
    ∃ c D, Cs[c]? = some D ∧ c ≠ cl ∧ c ∉ arch ∧ (∃ us, (⟨!pos, .app f us, tTrue⟩ : Lit) ∈ D) ∧ bceCheck sg taut pp k Cs cl lit c = some false := by
  have hL' : (copyDisjoint C)[lit]? = some ⟨pos, .app f (ts.map (Term.subst fun x => .var (x - 1))), tTrue⟩ := by
    rw [copy_eq (hfo C (List.mem_of_getElem? hC)), csubst, List.getElem?_map, hL]
    simp [Lit.subst, Term.subst_app, tTrue]
  obtain ⟨t, ht, h1, h2, h3⟩ := makeTasks_all (f := f) hC hL' (by simp [Lit.predCode?, Lit.equ])
  rcases loop_account (check := bceCheck sg taut pp k Cs) (O := Occ Cs f (!pos)) (cl := cl) (lit := lit) (.inr (.inl ⟨t, ht, h1, h2, h3⟩)) h with h' | ⟨c, hO, h4, h5, h6⟩
  · exact absurd h' hk
  · obtain ⟨D, hD, K, hK, h7, h8⟩ := hO
    refine ⟨c, D, hD, h4, h5, ?_, h6⟩
    rcases lit_cases hsg hF (hfo D (List.mem_of_getElem? hD) K hK) with ⟨_, _, h9⟩ | ⟨g, us, e, _, _, _, _, _, h9⟩
    · rw [h9] at h7; cases h7
    · rw [h9] at h7
      cases h7
      rw [h8] at e
      exact ⟨us, e ▸ hK⟩

/-- C57: with equality this test, spelled out, is for a clause that is no tautology: it consists of disequations between the arguments, the rest of a copy of the clause, and the literals
of the other clause that do not have the same predicate and the opposite sign. -/
theorem bce_complete_eq (hsg : SigOK sg) (hF : FOSig sg) (hfo : ∀ C ∈ Cs, ∀ K ∈ C, FOLit sg K) (heq : ∃ C ∈ Cs, ∃ L ∈ C, L.r ≠ tTrue) (h : eliminateBlocked sg taut pp pick k 0 Cs = some arch)
    {cl lit f : Nat} {pos : Bool} {ts : List Term} {C : List Lit} (hC : Cs[cl]? = some C) (hk : cl ∉ arch) (hL : C[lit]? = some ⟨pos, .app f ts, tTrue⟩) :
    ∃ c D us X, Cs[c]? = some D ∧ c ≠ cl ∧ c ∉ arch ∧ (⟨!pos, .app f us, tTrue⟩ : Lit) ∈ D ∧ taut X = false ∧
      ∀ K, K ∈ X ↔ (∃ p ∈ us.zip ts, K = mkEqn false p.1 (p.2.subst fun x => .var (x - 1))) ∨ (∃ i, i ≠ lit ∧ (csubst (fun x => .var (x - 1)) C)[i]? = some K) ∨
        (K ∈ D ∧ ∀ us, K ≠ ⟨!pos, .app f us, tTrue⟩) := by
  obtain ⟨c, D, hD, h1, h2, -, h4⟩ := bce_complete hsg hF hfo h hC hk hL
  have he : eqFound Cs = true := by
    obtain ⟨C, hC, L, hL, h⟩ := heq
    exact List.any_eq_true.2 ⟨C, hC, List.any_eq_true.2 ⟨L, hL, by simpa [Lit.equ] using h⟩⟩
  have hfC := hfo C (List.mem_of_getElem? hC)
  have hfD := hfo D (List.mem_of_getElem? hD)
  have hcp := copy_eq hfC
  have hL' : (copyDisjoint C)[lit]? = some ⟨pos, .app f (ts.map (Term.subst fun x => .var (x - 1))), tTrue⟩ := by
    rw [hcp, csubst, List.getElem?_map, hL]
    simp [Lit.subst, Term.subst_app, tTrue]
  have hopp : ∀ K ∈ D, oppHead ⟨pos, .app f (ts.map (Term.subst fun x => .var (x - 1))), tTrue⟩ K = true ↔ ∃ us, K = ⟨!pos, .app f us, tTrue⟩ := by
    intro K hK
    rcases lit_cases hsg hF (hfD K hK) with ⟨h9, -⟩ | ⟨g, us, e, -⟩
    · refine ⟨fun h => ?_, ?_⟩
      · simp [oppHead, h9] at h
      · rintro ⟨us, rfl⟩; simp [Lit.equ] at h9
    · rw [e]
      cases pos <;> cases K.pos <;> simp [oppHead, Lit.equ, Term.code] <;> exact eq_comm
  simp only [bceCheck, hC, hD, Option.getD_some, he, if_true, checkEq, hL', Option.some.injEq, List.all_eq_false, Bool.not_eq_true] at h4
  obtain ⟨N, hN, hT⟩ := h4
  rw [List.mem_reverse, List.mem_filter] at hN
  obtain ⟨us, rfl⟩ := (hopp N hN.1).1 hN.2
  refine ⟨c, D, us, _, hD, h1, h2, hN.1, hT, fun K => ?_⟩
  have hid : ∀ K : Lit, K.NF → mkEqn K.pos K.l K.r = K := fun K h => LitProof.mkEqn_of_nf h
  have hnf : ∀ K ∈ csubst (fun x => .var (x - 1)) C, K.NF := by
    intro K hK
    obtain ⟨M, hM, rfl⟩ := List.mem_map.1 hK
    exact LitProof.nf_rename (hfC M hM).nf fun x => ⟨_, rfl⟩
  simp only [blockClause, List.mem_append, List.mem_reverse, List.mem_map, or_assoc]
  refine or_congr ?_ (or_congr ?_ ?_)
  · simp only [Term.argList, List.zipWith_map_right]
    rw [← List.map_uncurry_zip_eq_zipWith, List.mem_map]
    constructor
    · rintro ⟨p, hp, rfl⟩; exact ⟨p, hp, rfl⟩
    · rintro ⟨p, hp, rfl⟩; exact ⟨p, hp, rfl⟩
  · rw [hcp]
    simp only [List.mem_eraseIdx_iff_getElem?]
    constructor
    · rintro ⟨M, ⟨i, hi, hM⟩, rfl⟩
      rw [hid M (hnf M (List.mem_of_getElem? hM))]
      exact ⟨i, hi, hM⟩
    · rintro ⟨i, hi, hM⟩
      exact ⟨K, ⟨i, hi, hM⟩, hid K (hnf K (List.mem_of_getElem? hM))⟩
  · simp only [List.mem_filter, Bool.not_eq_true', ← Bool.not_eq_true]
    constructor
    · rintro ⟨M, ⟨hM, hM'⟩, rfl⟩
      rw [hid M (hfD M hM).nf]
      exact ⟨hM, fun us e => hM' ((hopp M hM).2 ⟨us, e⟩)⟩
    · rintro ⟨hK, hK'⟩
      exact ⟨K, ⟨hK, fun h => by obtain ⟨us, e⟩ := (hopp K hK).1 h; exact hK' us e⟩, hid K (hfD K hK).nf⟩

/-- C57: in particular a clause with a predicate that never occurs with the other sign in another clause is removed. -/
theorem bce_pure (hsg : SigOK sg) (hF : FOSig sg) (hfo : ∀ C ∈ Cs, ∀ K ∈ C, FOLit sg K) (h : eliminateBlocked sg taut pp pick k 0 Cs = some arch)
    {cl f : Nat} {pos : Bool} {ts : List Term} {C : List Lit} (hC : Cs[cl]? = some C) (hL : (⟨pos, .app f ts, tTrue⟩ : Lit) ∈ C)
    (hpure : ∀ D ∈ Cs, ∀ us, (⟨!pos, .app f us, tTrue⟩ : Lit) ∉ D) : cl ∈ arch := by
  by_contra hk
  obtain ⟨lit, hlit⟩ := List.mem_iff_getElem?.1 hL
  obtain ⟨c, D, hD, _, _, ⟨us, hus⟩, _⟩ := bce_complete hsg hF hfo h hC hk hlit
  exact hpure D (List.mem_of_getElem? hD) us hus

end

namespace BceEx

/-- 20 and 22 are unary predicates, 21 is a constant, 16 is `$answer`. -/
def sig : Sig where
  vty x := if x ≤ 8 then 2 else (x + 1) / 2 - 4
  fty f := if f = 21 then 2 else 0
  fargs f := if f = 20 ∨ f = 22 ∨ f = 16 then [2] else []

theorem sigOK : SigOK sig := ⟨rfl, rfl, rfl⟩

theorem foSig : FOSig sig := by
  refine ⟨fun f => ?_, fun x => ?_, fun f h => by simp [sig] at h⟩
  · simp only [sig]; split <;> simp
  · simp only [sig]; split <;> simp <;> omega

theorem altTyped : AltTyped sig := by
  intro x h1 h2
  simp only [sig]
  by_cases h : x ≤ 8
  · rw [if_pos h, if_pos (by omega)]
  · rw [if_neg h, if_neg (by omega)]; omega

theorem allVars (ty : Nat) (h : ty ≠ sig.fty 1) : ∃ x, sig.vty x = ty := by
  have h' : ty ≠ 0 := h
  refine ⟨2 * ty + 8, ?_⟩
  simp only [sig]
  rw [if_neg (by omega)]
  omega

def a : Term := .app 21 []
def P (pos : Bool) (t : Term) : Lit := ⟨pos, .app 20 [t], tTrue⟩
def Q (pos : Bool) (t : Term) : Lit := ⟨pos, .app 22 [t], tTrue⟩

/-- `p(x) ∨ ¬q(x)`; `¬p(x) ∨ q(x)`; `q(a)`; `¬q(x)`. -/
def inp : List (List Lit) := [[P true (.var 2), Q false (.var 2)], [P false (.var 2), Q true (.var 2)], [Q true a], [Q false (.var 2)]]

theorem inp_fo : ∀ C ∈ inp, ∀ K ∈ C, FOLit sig K := by
  intro C hC K hK
  have : K ∈ inp.flatten := List.mem_flatten.2 ⟨C, hC, hK⟩
  simp [inp, P, Q, a] at this
  rcases this with rfl | rfl | rfl | rfl | rfl | rfl <;>
    exact ⟨by simp [Sig.WTLit, Sig.WT, Sig.WTL, Sig.ty, sig, tTrue], by decide, by decide, fun _ => rfl⟩

theorem inp_even : ∀ C ∈ inp, EvenVars C := by
  intro C hC x hx
  simp [inp] at hC
  rcases hC with rfl | rfl | rfl | rfl <;> simp [cvars, Lit.vars, P, Q, a, tTrue, Term.vars, Term.varsL] at hx <;> subst hx <;> decide

/-- The first two clauses are eliminated. -/
theorem run : eliminateBlocked sig (fun _ => false) (fun _ => false) (fun _ => 0) 30 0 inp = some [1, 0] := by decide +kernel

example := bce_satisfiable.{u} sigOK foSig altTyped allVars inp_fo inp_even (fun _ h => by simp at h) run

example := bce_refutation.{u} sigOK foSig altTyped allVars inp_fo inp_even (fun _ h => by simp at h) run

/-- `q(a)` stays because of `¬q(x)`. -/
example := bce_complete sigOK foSig inp_fo run (cl := 2) (lit := 0) (f := 22) (pos := true) (ts := [a]) rfl (by decide) rfl

/-- `p(x) ∨ x ≠ a`; `¬p(x) ∨ x = a`; `q(a)`; `¬q(x)`. -/
def inpEq : List (List Lit) :=
  [[P true (.var 2), ⟨false, .var 2, a⟩], [P false (.var 2), ⟨true, .var 2, a⟩], [Q true a], [Q false (.var 2)]]

/-- `x ≠ y ∨ y ≠ a ∨ x = a`. -/
def valid : List Lit := [⟨false, .var 2, .var 1⟩, ⟨false, .var 1, a⟩, ⟨true, .var 2, a⟩]

def taut (X : List Lit) : Bool := X == valid

theorem taut_ok : ∀ X, taut X = true → ∃ no ps ns n, Numbered no X ∧ Sorted no X ps ns ∧ clauseIsTautology sig no ps ns n X = some true := by
  intro X hX
  have : X = valid := by simpa [taut] using hX
  subst this
  refine ⟨fun t => match t with | .var x => x | .app f _ => f, [⟨true, .var 2, a⟩], [⟨false, .var 2, .var 1⟩, ⟨false, .var 1, a⟩], 20, ?_, ⟨?_, ?_, ?_, ?_⟩, ?_⟩
  · rintro s t ⟨L, hL, hs⟩ ⟨K, hK, ht⟩ e
    simp [valid] at hL hK
    rcases hL with rfl | rfl | rfl <;> rcases hK with rfl | rfl | rfl <;> rcases hs with rfl | rfl <;> rcases ht with rfl | rfl <;> simp [a] at e ⊢
  · simp [valid]
  · simp [valid]
  · simp
  · decide
  · decide +kernel

theorem inpEq_fo : ∀ C ∈ inpEq, ∀ K ∈ C, FOLit sig K := by
  intro C hC K hK
  have : K ∈ inpEq.flatten := List.mem_flatten.2 ⟨C, hC, hK⟩
  simp [inpEq, P, Q, a] at this
  rcases this with rfl | rfl | rfl | rfl | rfl | rfl <;>
    exact ⟨by simp [Sig.WTLit, Sig.WT, Sig.WTL, Sig.ty, sig, tTrue], by decide, by decide, by simp [Sig.ty, sig]⟩

theorem inpEq_even : ∀ C ∈ inpEq, EvenVars C := by
  intro C hC x hx
  simp [inpEq] at hC
  rcases hC with rfl | rfl | rfl | rfl <;> simp [cvars, Lit.vars, P, Q, a, tTrue, Term.vars, Term.varsL] at hx <;> subst hx <;> decide

theorem runEq : eliminateBlocked sig taut (fun _ => false) (fun _ => 0) 30 0 inpEq = some [1, 0] := by decide +kernel

example := bce_converts.{u} sigOK foSig altTyped inpEq_fo inpEq_even taut_ok ⟨_, List.mem_cons_self, ⟨false, .var 2, a⟩, by simp, by decide⟩ runEq

/-- `q(a)` stays because of `¬q(x)`: the clause tested is `x ≠ a`. -/
example := bce_complete_eq sigOK foSig inpEq_fo ⟨_, List.mem_cons_self, ⟨false, .var 2, a⟩, by simp, by decide⟩ runEq (cl := 2) (lit := 0) (f := 22) (pos := true) (ts := [a]) rfl (by decide) rfl

/-- The negated question `¬p(x) ∨ $answer(x)` and the axiom `p(a)`. -/
def question : List (List Lit) := [[P false (.var 2), ⟨true, .app 16 [.var 2], tTrue⟩], [P true a]]

theorem question_fo : ∀ C ∈ question, ∀ K ∈ C, FOLit sig K := by
  intro C hC K hK
  have : K ∈ question.flatten := List.mem_flatten.2 ⟨C, hC, hK⟩
  simp [question, P, a] at this
  rcases this with rfl | rfl | rfl <;>
    exact ⟨by simp [Sig.WTLit, Sig.WT, Sig.WTL, Sig.ty, sig, tTrue], by decide, by decide, fun _ => rfl⟩

/-- The question is eliminated, by `bce_pure`. -/
example {arch : List Nat} (h : eliminateBlocked sig (fun _ => false) (fun _ => false) (fun _ => 0) 30 0 question = some arch) : 0 ∈ arch :=
  bce_pure sigOK foSig question_fo h (f := 16) (pos := true) (ts := [.var 2]) rfl (by simp) (by simp [question, P])

theorem question_run : eliminateBlocked sig (fun _ => false) (fun _ => false) (fun _ => 0) 30 0 question = some [1, 0] := by decide +kernel

/-- If `$answer` is nowhere true, the question is contradictory. -/
theorem question_contra (I : Interp.{u} sig) (hI : I.NoAnswer 16) : ¬ ∀ C ∈ question, I.Models C := by
  intro hm
  have h1 := hm _ (List.mem_cons_self)
  have h2 := hm [P true a] (by simp [question])
  have hmem : I.mem 2 (I.fn 21 []) := I.fn_mem 21 [] .nil
  let v : Nat → I.D := fun x => if x = 2 then I.fn 21 [] else (I.inhab (sig.vty x)).choose
  have hv : I.Sorted v := by
    intro x
    by_cases hx : x = 2
    · simp only [v, if_pos hx]; rw [hx]; exact hmem
    · simp only [v, if_neg hx]; exact (I.inhab (sig.vty x)).choose_spec
  obtain ⟨L, hL, hLt⟩ := h2 v hv
  rw [List.mem_singleton.1 hL] at hLt
  have e1 : I.fn 20 [I.fn 21 []] = I.fn 1 [] := hLt
  obtain ⟨K, hK, hKt⟩ := h1 v hv
  rcases List.mem_cons.1 hK with rfl | hK
  · exact (show I.fn 20 [I.fn 21 []] ≠ I.fn 1 [] from hKt) e1
  · rw [List.mem_singleton.1 hK] at hKt
    exact hI _ (show I.fn 16 [v 2] = I.fn 1 [] from hKt)

end BceEx

/-- C57: the pseudo predicate `$answer` is not exempt.  If it is nowhere true (no answer is accepted), the example `¬p(x) ∨ $answer(x)`, `p(a)` is contradictory, but
both clauses are removed: the answer `a` is lost. -/
theorem bce_loses_answer : ∃ (sg : Sig) (Cs : List (List Lit)) (arch : List Nat), SigOK sg ∧ FOSig sg ∧ (∀ C ∈ Cs, ∀ K ∈ C, FOLit sg K) ∧
    eliminateBlocked sg (fun _ => false) (fun _ => false) (fun _ => 0) 30 0 Cs = some arch ∧
    (∀ I : Interp.{u} sg, I.NoAnswer 16 → ¬ ∀ C ∈ Cs, I.Models C) ∧ keptClauses Cs arch = [] := by
  refine ⟨BceEx.sig, BceEx.question, [1, 0], BceEx.sigOK, BceEx.foSig, BceEx.question_fo, BceEx.question_run, BceEx.question_contra, by decide⟩

end Verif.Props
