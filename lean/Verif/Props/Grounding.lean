import Verif.Clauses.GroundingSem

/-!
# C77: `eground` produces an equisatisfiable propositional problem
-/

namespace Verif
namespace Props
open Ground

universe u

variable {sg : Sig} {tb : List SymInfo} {sk : Nat} {vs : List Lit → List Nat} {S : List (List Lit)}

/-- **C77.**  Near-propositional clauses are turned into a finite set of ground clauses, whatever the options.  What is printed in DIMACS format on the standard
output has a satisfying assignment if the clauses have a model, and only then.  Missing: output to a file (`eground_file_wrong`), splitting. -/
theorem eground_dimacs_partial (h : Input sg tb sk vs S) (hn : NearProp tb S) (o : Opts) {no : Term → Nat} (hpos : ∀ a, InstAtom S (constTerms tb sk) a → 0 < no a)
    (hinj : ∀ a a', InstAtom S (constTerms tb sk) a → InstAtom S (constTerms tb sk) a' → no a = no a' → a = a') :
    ∃ gs, (∃ N, ∀ k, N ≤ k → eground k no o tb sk vs S = some (.done gs)) ∧
      ((∃ I : Interp.{u} sg, ∀ C ∈ S, I.Models C) → ∃ β, DSat β (output true (printSet no gs))) ∧
      ((∃ β, DSat β (output true (printSet no gs))) → ∃ I : Interp.{0} sg, ∀ C ∈ S, I.Models C) := by
  refine ⟨result no o tb sk vs S, eground_result hn no o, ?_⟩
  rw [dimacs_sat (result_inv h no o) hpos hinj, result_sat h hn no o]
  exact h.herbrand hn

/-- **C77.**  The numbers announced in the header are right: the number of clauses is exact, and no variable is larger than announced. -/
theorem eground_header (h : Input sg tb sk vs S) (o : Opts) {no : Term → Nat} (hpos : ∀ a, InstAtom S (constTerms tb sk) a → 0 < no a) {k : Nat} {gs : GroundSet}
    (he : eground k no o tb sk vs S = some (.done gs)) (fixMinisat : Bool) :
    (dimacsClauses [] (output true (printSet no gs))).length = (header no fixMinisat gs).2 ∧
      ∀ c ∈ dimacsClauses [] (output true (printSet no gs)), ∀ i ∈ c, 1 ≤ i.natAbs ∧ i.natAbs ≤ (header no fixMinisat gs).1 := by
  have hn : NearProp tb S := by
    by_contra hn
    unfold eground at he
    rw [if_pos (nearProp_iff.2 hn)] at he
    simp at he
  obtain ⟨N, hN⟩ := eground_result (sk := sk) (vs := vs) hn no o
  have hgs : gs = result no o tb sk vs S := eground_unique he (hN (max N k) (Nat.le_max_left _ _)) (Nat.le_max_right _ _)
  subst hgs
  exact header_ok (result_inv h no o) hpos fixMinisat

/-- **C77.**  The program refuses exactly the clause sets that have a variable and a function symbol with arguments in their signature. -/
theorem eground_refuses {no : Term → Nat} {o : Opts} {k : Nat} : eground k no o tb sk vs S = some .notNearProp ↔
    (∃ s ∈ tb, s.pred = false ∧ s.special = false ∧ s.arity ≠ 0) ∧ ∃ C ∈ S, cvars C ≠ [] := by
  have hnp : ¬ NearProp tb S ↔ (∃ s ∈ tb, s.pred = false ∧ s.special = false ∧ s.arity ≠ 0) ∧ ∃ C ∈ S, cvars C ≠ [] := by
    unfold NearProp
    push Not
    rfl
  rw [← hnp, ← nearProp_iff]
  unfold eground
  split
  · rename_i h
    simp [h]
  · rename_i h
    constructor
    · intro h'
      rw [Option.map_eq_some_iff] at h'
      obtain ⟨_, _, h'⟩ := h'
      simp at h'
    · exact fun h' => absurd h' h

namespace GroundingEx

/-- Predicates p = 4, q = 5, r = 6, constants a = 7, b = 8; types: Boolean 0, individuals 1. -/
def esg : Sig where
  vty := fun _ => 1
  fty := fun f => if f = 7 ∨ f = 8 then 1 else 0
  fargs := fun f => if f = 4 ∨ f = 5 then [1] else if f = 6 then [1, 1] else []
  distinct := fun _ => false

def a : Term := .app 7 []
def b : Term := .app 8 []
def lit (s : Bool) (p : Nat) (ts : List Term) : Lit := { pos := s, l := .app p ts, r := tTrue }

def etb : List SymInfo := [⟨4, 1, true, false⟩, ⟨5, 1, true, false⟩, ⟨6, 2, true, false⟩, ⟨7, 0, false, false⟩, ⟨8, 0, false, false⟩]

/-- p(a); ¬p(x) ∨ q(x) ∨ r(x,y); ¬r(a,b); ¬q(x) ∨ r(x,x). -/
def eS : List (List Lit) := [[lit true 4 [a]], [lit false 4 [.var 2], lit true 5 [.var 2], lit true 6 [.var 2, .var 4]], [lit false 6 [a, b]],
  [lit false 5 [.var 2], lit true 6 [.var 2, .var 2]]]

/-- Numbers of the atoms. -/
def eno : Term → Nat
  | .app 4 [.app 7 []] => 10
  | .app 4 [.app 8 []] => 11
  | .app 5 [.app 7 []] => 12
  | .app 5 [.app 8 []] => 13
  | .app 6 [.app 7 [], .app 7 []] => 14
  | .app 6 [.app 7 [], .app 8 []] => 15
  | .app 6 [.app 8 [], .app 7 []] => 16
  | .app 6 [.app 8 [], .app 8 []] => 17
  | _ => 0

def evs (C : List Lit) : List Nat := (cvars C).dedup

theorem einput : Input esg etb 100 evs eS where
  sig := ⟨rfl, rfl, rfl⟩
  dist := by intro f h; simp [esg] at h
  cl := by
    intro C hC
    simp only [eS, List.mem_cons, List.not_mem_nil, or_false] at hC
    rcases hC with rfl | rfl | rfl | rfl <;> constructor <;> intro L hL <;> simp only [List.mem_cons, List.not_mem_nil, or_false] at hL
    · subst hL
      refine ⟨rfl, 4, [a], rfl, by decide, by decide, rfl, rfl, ?_⟩
      simp [a, Sig.wt_app, esg, Term.subterms, Term.subtermsL, Sig.ty]
    · rcases hL with rfl | rfl | rfl
      · refine ⟨rfl, 4, [.var 2], rfl, by decide, by decide, rfl, rfl, ?_⟩
        simp [Sig.WT, esg, Term.subterms, Sig.ty]
      · refine ⟨rfl, 5, [.var 2], rfl, by decide, by decide, rfl, rfl, ?_⟩
        simp [Sig.WT, esg, Term.subterms, Sig.ty]
      · refine ⟨rfl, 6, [.var 2, .var 4], rfl, by decide, by decide, rfl, rfl, ?_⟩
        simp [Sig.WT, esg, Term.subterms, Sig.ty]
    · subst hL
      refine ⟨rfl, 6, [a, b], rfl, by decide, by decide, rfl, rfl, ?_⟩
      simp [a, b, Sig.wt_app, esg, Term.subterms, Term.subtermsL, Sig.ty]
    · rcases hL with rfl | rfl
      · refine ⟨rfl, 5, [.var 2], rfl, by decide, by decide, rfl, rfl, ?_⟩
        simp [Sig.WT, esg, Term.subterms, Sig.ty]
      · refine ⟨rfl, 6, [.var 2, .var 2], rfl, by decide, by decide, rfl, rfl, ?_⟩
        simp [Sig.WT, esg, Term.subterms, Sig.ty]
  syms := by
    intro C hC L hL t ht f us hf
    simp only [eS, List.mem_cons, List.not_mem_nil, or_false] at hC
    rcases hC with rfl | rfl | rfl | rfl <;> simp only [List.mem_cons, List.not_mem_nil, or_false] at hL <;> (first | (rcases hL with rfl | rfl | rfl) | (rcases hL with rfl | rfl) | (subst hL)) <;>
      simp [lit, atomArgs] at ht <;> (try rcases ht with rfl | rfl) <;> (try subst ht) <;> simp [a, b, Term.subterms, Term.subtermsL] at hf <;> simp [etb, hf]
  arity := by decide
  sk := rfl
  vars := by intro C _ x; simp [evs]

theorem enear : NearProp etb eS := by left; decide

theorem eatoms {t : Term} (h : InstAtom eS (constTerms etb 100) t) : t ∈ [Term.app 4 [a], .app 4 [b], .app 5 [a], .app 5 [b], .app 6 [a, a], .app 6 [a, b], .app 6 [b, a], .app 6 [b, b]] := by
  have hc : ∀ t ∈ constTerms etb 100, t = a ∨ t = b := by decide +kernel
  obtain ⟨C, hC, L, hL, σ, hσ, rfl⟩ := h
  simp only [eS, List.mem_cons, List.not_mem_nil, or_false] at hC
  rcases hC with rfl | rfl | rfl | rfl
  · simp only [List.mem_cons, List.not_mem_nil, or_false] at hL
    subst hL
    simp [lit, a, Term.subst_app]
  · have h2 := hc _ (hσ 2 (by decide +kernel))
    have h4 := hc _ (hσ 4 (by decide +kernel))
    simp only [List.mem_cons, List.not_mem_nil, or_false] at hL
    rcases hL with rfl | rfl | rfl <;> rcases h2 with h2 | h2 <;> rcases h4 with h4 | h4 <;> simp [lit, h2, h4, Term.subst_app]
  · simp only [List.mem_cons, List.not_mem_nil, or_false] at hL
    subst hL
    simp [lit, a, b, Term.subst_app]
  · have h2 := hc _ (hσ 2 (by decide +kernel))
    simp only [List.mem_cons, List.not_mem_nil, or_false] at hL
    rcases hL with rfl | rfl <;> rcases h2 with h2 | h2 <;> simp [lit, h2, Term.subst_app]

theorem epos (t : Term) (h : InstAtom eS (constTerms etb 100) t) : 0 < eno t := by
  have : ∀ t ∈ [Term.app 4 [a], .app 4 [b], .app 5 [a], .app 5 [b], .app 6 [a, a], .app 6 [a, b], .app 6 [b, a], .app 6 [b, b]], 0 < eno t := by decide +kernel
  exact this t (eatoms h)

/-- The hypotheses are met by the example. -/
example : ∃ gs, (∃ N, ∀ k, N ≤ k → eground k eno { constraints := true } etb 100 evs eS = some (.done gs)) ∧
    ((∃ I : Interp.{0} esg, ∀ C ∈ eS, I.Models C) → ∃ β, DSat β (output true (printSet eno gs))) ∧
    ((∃ β, DSat β (output true (printSet eno gs))) → ∃ I : Interp.{0} esg, ∀ C ∈ eS, I.Models C) :=
  eground_dimacs_partial einput enear _ epos fun t t' h h' he => by
    have h1 := eatoms h
    have h2 := eatoms h'
    simp only [List.mem_cons, List.not_mem_nil, or_false] at h1 h2
    rcases h1 with rfl | rfl | rfl | rfl | rfl | rfl | rfl | rfl <;> rcases h2 with rfl | rfl | rfl | rfl | rfl | rfl | rfl | rfl <;> first | rfl | (exact absurd he (by decide +kernel))

/-- What is printed for the example with constraints: p(a), ¬r(a,b), and one instance of the second clause. -/
example : (eground 100 eno { constraints := true } etb 100 evs eS).map (fun r => match r with | .done gs => output true (printSet eno gs) | _ => []) =
    some [10, 0, -15, 0, 12, 15, 0] := by decide +kernel

/-- The same without: four instances. -/
example : (eground 100 eno {} etb 100 evs eS).map (fun r => match r with | .done gs => output true (printSet eno gs) | _ => []) =
    some [10, 0, -15, 0, -11, 13, 17, 0, 12, 15, 0, -11, 13, 16, 0, 12, 14, 0, -13, 17, 0, -12, 14, 0] := by decide +kernel

/-- The program refuses clauses with variables and a function symbol. -/
example : eground 100 eno {} (⟨9, 1, false, false⟩ :: etb) 100 evs eS = some .notNearProp := eground_refuses.2 ⟨⟨⟨9, 1, false, false⟩, by simp, by decide⟩, _, .tail _ (.head _), by decide +kernel⟩

/-- **C77, violated.**  Clauses with more than one literal are printed to the standard output even if the output goes to a file, where only the final 0 arrives: the
file for the satisfiable clause p(a) ∨ p(b) contains an empty clause.  (CLAUSES/ccl_grounding.c:587, 591: `stdout` instead of `out`.) -/
theorem eground_file_wrong :
    (∃ gs, eground 100 eno {} etb 100 evs [[lit true 4 [a], lit true 4 [b]]] = some (.done gs) ∧ (∃ β, DSat β (output true (printSet eno gs))) ∧
      ¬ ∃ β, DSat β (output false (printSet eno gs))) := by
  refine ⟨⟨[], [[lit true 4 [a], lit true 4 [b]]], 11⟩, ?_, ⟨fun _ => true, ?_⟩, ?_⟩
  · rfl
  · intro c hc
    have : c = [10, 11] := by
      revert hc
      simp [printSet, printClause, output, dimacsClauses, litNo, lit, eno, a, b]
    subst this
    exact ⟨10, by simp, by simp [NumSat]⟩
  · rintro ⟨β, hβ⟩
    obtain ⟨i, hi, _⟩ := hβ [] (by simp [printSet, printClause, output, dimacsClauses, litNo, lit, eno, a, b])
    simp at hi

/-- **C77, violated.**  `--give-up` without `--constraints` has no effect: the number of constants is stored as a truth value.  (CLAUSES/ccl_grounding.c:1014, 1023.) -/
theorem giveUp_ineffective (terms vars giveUp : Nat) (h : 1 ≤ giveUp) : givesUp terms vars giveUp = false := by
  unfold givesUp
  simp only [List.any_eq_false, decide_eq_true_eq]
  intro i _
  split
  · rw [Nat.one_pow]; omega
  · rw [Nat.zero_pow (by omega)]; omega

end GroundingEx
end Props
end Verif
