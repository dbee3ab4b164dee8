import Verif.Clauses.ClauseIndexProof
import Verif.Props.FPIndex

/-!
# Clause indices: compact positions, paramodulation candidates, backward rewriting

C42 and C43.
-/

namespace Verif.Props
open Verif CIProof

/-! ## Compact positions -/

/-- **C43.** Every position of a subterm has a compact form; packing and unpacking are inverse to each other. -/
theorem cpos_round_trip (C : List XLit) :
    (∀ q c, packClause C q = some c ↔ unpackClause C c = some q) ∧
    (∀ q t, clauseAt C q = some t → ∃ c, packClause C q = some c ∧ cposSubterm C c = some t) ∧
    ∀ q q' c, packClause C q = some c → packClause C q' = some c → q = q' := by
  refine ⟨fun q c => (unpackClause_iff C q c).symm, fun q t h => ?_, fun q q' c h h' => ?_⟩
  · obtain ⟨c, hc⟩ := (packClause_defined C q).2 ⟨t, h⟩
    exact ⟨c, hc, by rw [cposSubterm, (unpackClause_iff C q c).2 hc]; exact h⟩
  · have h1 := (unpackClause_iff C q c).2 h
    rw [(unpackClause_iff C q' c).2 h'] at h1
    cases h1; rfl

/-! ## Overlap indices -/

variable {x : FPCtx} {k : OvKind} {st : Stored}

/-- **C43, completeness.** After any history, looking up a term in an overlap index returns every position the index has to cover
in every stored clause where the subterm has a common instance with the query. -/
theorem overlap_complete (hx : x.OK) {ix : FPIndex (Nat × Nat)} (h : OvReach x k ix st) {c : Nat} {C : List XLit} (hs : st c = some C)
    {q : CPos} (hq : k.Covers C q) {t : Term} (ht : clauseAt C q = some t) {s : Term} (hok : FPTermOK x.ar s) {σ τ : Nat → Term}
    (hu : t.subst σ = s.subst τ) (hc : FPTermOK x.ar (s.subst τ)) :
    ∃ n, (t, (c, n)) ∈ (fpFindUnifiable x ix s).1.flatten ∧ unpackClause C n = some q := by
  obtain ⟨n, hn⟩ := (packClause_defined C q).2 ⟨t, ht⟩
  refine ⟨n, fp_find_unifiable hx (ovReach h).2 hok ⟨C, hs, (entries_iff k C t n).2 ⟨q, hq, ht, hn⟩⟩ hu hc, (unpackClause_iff C q n).2 hn⟩

/-- **C43, soundness.** Everything returned is a position of a clause that is stored now, of the kind the index covers, and unpacks
to the subterm returned with it; nothing is returned twice. -/
theorem overlap_sound {ix : FPIndex (Nat × Nat)} (h : OvReach x k ix st) (s : Term) :
    (∀ t c n, (t, (c, n)) ∈ (fpFindUnifiable x ix s).1.flatten →
      ∃ C q, st c = some C ∧ k.Covers C q ∧ unpackClause C n = some q ∧ clauseAt C q = some t) ∧
    (fpFindUnifiable x ix s).1.flatten.Nodup := by
  obtain ⟨⟨h1, h2⟩, _⟩ := fp_find_stored (ovReach h).2 s
  refine ⟨fun t c n hm => ?_, h2⟩
  obtain ⟨C, hC, he⟩ := h1 t (c, n) hm
  obtain ⟨q, hq, ht, hn⟩ := (entries_iff k C t n).1 he
  exact ⟨C, q, hC, hq, (unpackClause_iff C q n).2 hn, ht⟩

/-! ## Backward rewriting -/

/-- One search from one side of the demodulator. -/
private theorem side_iff (hx : x.OK) {ld : Bool} {ix : FPIndex (Nat × Bool)} (h : SubReach x ld ix st) {rx : RWCtx} {l r : Term}
    (hl : FPTermOK x.ar l) {o : Bool} {c : Nat} : c ∈ (findRwSide x rx ix l r o).1 ↔
      ∃ C, st c = some C ∧ ∃ L ∈ C, ∃ s rs, L.RwPlace1 ld s rs ∧ ∃ al, rwHit rx l r o s = some al ∧ (al || !rs) = true := by
  unfold findRwSide
  simp only [List.mem_filterMap]
  constructor
  · rintro ⟨⟨s, d, rs⟩, hm, he⟩
    obtain ⟨C, hC, L, hL, hp⟩ := (fp_find_stored (subReach h).2 l).2.1 s (d, rs) hm
    simp only at he hC hp
    cases ha : rwHit rx l r o s with
    | none => simp [ha] at he
    | some al =>
      simp only [ha] at he
      split at he
      · rename_i hal
        cases he
        exact ⟨C, hC, L, hL, s, rs, hp, al, ha, hal⟩
      · cases he
  · rintro ⟨C, hC, L, hL, s, rs, hp, al, ha, hal⟩
    obtain ⟨σ, hσ⟩ := rwHit_inst ha
    refine ⟨(s, (c, rs)), fp_find_matchable hx (subReach h).2 hl ⟨C, hC, L, hL, hp⟩ hσ, ?_⟩
    simp only [ha, hal, if_true]

/-- **C42, what the search does.** After any history, the indexed search returns exactly the stored clauses that the new demodulator
rewrites at a side of a literal or, unless the option `lambda_demod` is set, at an immediate argument of a side.  Missing for the full claim: deeper subterms,
which are not indexed (`bw_search_misses_deep_subterms`). -/
theorem bw_search_exact_partial (hx : x.OK) {ld : Bool} {ix : FPIndex (Nat × Bool)} (h : SubReach x ld ix st) {rx : RWCtx} {d : Demod}
    (hl : FPTermOK x.ar d.l) (hr : FPTermOK x.ar d.r) (c : Nat) : c ∈ (findRwIndexed x rx ix d).1 ↔
      ∃ C, st c = some C ∧ ∃ L ∈ C, ∃ s restricted, L.RwPlace1 ld s restricted ∧ HitAt rx d restricted s := by
  unfold findRwIndexed
  have h1 := side_iff hx h (rx := rx) (r := d.r) hl (o := d.oriented) (c := c)
  have h2 := side_iff hx (.query d.l h hl) (rx := rx) (r := d.l) hr (o := false) (c := c)
  have e2 : (findRwSide x rx ix d.l d.r d.oriented).2 = (fpFindMatchable x ix d.l).2 := rfl
  simp only [e2]
  cases ho : d.oriented with
  | true =>
    simp only [if_true]
    rw [ho] at h1
    rw [h1]
    refine exists_congr fun C => and_congr_right fun _ => exists_congr fun L => and_congr_right fun _ => exists_congr fun s =>
      exists_congr fun rs => and_congr_right fun _ => ?_
    rw [hitAt_iff, ho]
    constructor
    · rintro ⟨al, ha⟩; exact ⟨false, al, by simp, ha⟩
    · rintro ⟨right, al, hright, ha⟩
      cases right with
      | false => exact ⟨al, ha⟩
      | true => simp at hright
  | false =>
    simp only [Bool.false_eq_true, if_false, List.mem_append]
    rw [ho] at h1
    rw [h1, h2]
    constructor
    · rintro (⟨C, hC, L, hL, s, rs, hp, al, ha⟩ | ⟨C, hC, L, hL, s, rs, hp, al, ha⟩)
      · exact ⟨C, hC, L, hL, s, rs, hp, hitAt_iff.2 ⟨false, al, by simp, by rw [ho]; exact ha⟩⟩
      · exact ⟨C, hC, L, hL, s, rs, hp, hitAt_iff.2 ⟨true, al, fun _ => ho, by rw [ho]; exact ha⟩⟩
    · rintro ⟨C, hC, L, hL, s, rs, hp, hh⟩
      obtain ⟨right, al, _, ha⟩ := hitAt_iff.1 hh
      rw [ho] at ha
      cases right with
      | false => exact Or.inl ⟨C, hC, L, hL, s, rs, hp, al, ha⟩
      | true => exact Or.inr ⟨C, hC, L, hL, s, rs, hp, al, ha⟩

/-- **C42, no false candidates.** Every clause returned is stored and contains a place where the demodulator applies. -/
theorem bw_search_sound (hx : x.OK) {ld : Bool} {ix : FPIndex (Nat × Bool)} (h : SubReach x ld ix st) {rx : RWCtx} {d : Demod}
    (hl : FPTermOK x.ar d.l) (hr : FPTermOK x.ar d.r) {c : Nat} (hc : c ∈ (findRwIndexed x rx ix d).1) :
    ∃ C, st c = some C ∧ ∃ L ∈ C, ∃ s restricted, L.RwPlace s restricted ∧ HitAt rx d restricted s := by
  obtain ⟨C, hC, L, hL, s, rs, ⟨hv, hp⟩, hh⟩ := (bw_search_exact_partial hx h hl hr c).1 hc
  refine ⟨C, hC, L, hL, s, rs, ⟨hv, ?_⟩, hh⟩
  have self : ∀ t : Term, t ∈ t.subterms := RewriteProof.mem_subterms_self
  rcases hp with hp | ⟨hrs, rfl | ⟨_, f, ts, hs, he | he⟩⟩
  · exact Or.inl hp
  · exact Or.inr ⟨hrs, Or.inl (self _)⟩
  · refine Or.inr ⟨hrs, Or.inr ?_⟩
    rw [he, Term.subterms]
    refine ⟨List.mem_cons.2 (Or.inr (Term.mem_subtermsL.2 ⟨s, hs, self s⟩)), fun e => ?_⟩
    subst e
    have : ∀ us : List Term, Term.app f ts ∈ us → sizeOf (Term.app f ts) < sizeOf us := fun us h => List.sizeOf_lt_of_mem h
    have := this ts hs
    simp at this
  · refine Or.inr ⟨hrs, Or.inl ?_⟩
    rw [he, Term.subterms]
    exact List.mem_cons.2 (Or.inr (Term.mem_subtermsL.2 ⟨s, hs, self s⟩))

/-! ## Examples -/

namespace CIExample

def ctx : FPCtx := ⟨.fp7, fun _ => false, fun f => if f = 20 then 0 else if f = 21 then 0 else if f = 22 then 1 else if f = 1 then 0 else 1, fun _ => false⟩
def a : Term := .app 20 []
def b : Term := .app 21 []
def f (t : Term) : Term := .app 22 [t]
def p (t : Term) : Term := .app 23 [t]

/-- `p(f(f(a)))`, unit and maximal. -/
def cl : List XLit := [⟨⟨true, p (f (f a)), tTrue⟩, true, true, false⟩]
/-- `p(f(X)) | ~p(X)`, both maximal. -/
def cl2 : List XLit := [⟨⟨true, p (f (.var 0)), tTrue⟩, true, true, false⟩, ⟨⟨false, p (.var 0), tTrue⟩, true, true, false⟩]

def sg : Sig := ⟨fun _ => 0, fun _ => 0, fun g => List.replicate (ctx.ar g) 0, fun _ => false⟩
def rx : RWCtx := ⟨sg, fun _ => false, false, fun _ => a, fun _ _ => false⟩
/-- The rule `a -> b`. -/
def rule : Demod := ⟨0, a, b, true, 1⟩

private theorem ok_of (t : Term) (h : t.subterms.all (fun u => match u with
    | .var _ => true | .app f ts => decide (0 < f ∧ f ≠ 17 ∧ f ≠ 19 ∧ ts.length = ctx.ar f)) = true) :
    FPTermOK ctx.ar t := by
  intro f ts hm
  have := List.all_eq_true.1 h _ hm
  exact of_decide_eq_true this

private theorem cl_ok : ClauseFPOK ctx.ar cl := by
  intro L hL
  simp only [cl, List.mem_singleton] at hL
  subst hL
  exact ⟨ok_of _ (by decide), ok_of _ (by decide)⟩

private theorem cl2_ok : ClauseFPOK ctx.ar cl2 := by
  intro L hL
  simp only [cl2, List.mem_cons, List.not_mem_nil, or_false] at hL
  rcases hL with rfl | rfl
  · exact ⟨ok_of _ (by decide), ok_of _ (by decide)⟩
  · exact ⟨ok_of _ (by decide), ok_of _ (by decide)⟩

def ix (ld : Bool) : FPIndex (Nat × Bool) := subInsertClause ctx ld (FPIndex.alloc {}) 5 cl

theorem reached (ld : Bool) : SubReach ctx ld (ix ld) (Stored.set (fun _ => none) 5 (some cl)) := .insert 5 cl .alloc rfl cl_ok

/-- The hypotheses of `bw_search_exact_partial`: the clause is found for the rule `f(f(X)) → X`. -/
example : 5 ∈ (findRwIndexed ctx rx (ix false) ⟨0, f (f (.var 0)), .var 0, true, 1⟩).1 := by
  rw [bw_search_exact_partial (fun h => by cases h) (reached false) (ok_of _ (by decide)) (ok_of _ (by decide))]
  refine ⟨cl, rfl, _, List.mem_singleton.2 rfl, f (f a), false, ⟨rfl, Or.inr ⟨rfl, Or.inr ⟨rfl, 23, [f (f a)], by simp, Or.inl rfl⟩⟩⟩, ?_⟩
  refine ⟨⟨false, a, fun y => if y = 0 then a else .var y, ?_⟩, by simp⟩
  refine ⟨?_, ?_, ?_, ?_, ?_, ?_, ?_, ?_, ?_⟩ <;> simp [Demod.lhs, Demod.rhs, f, a, Term.subst, Term.substL, Term.vars, Term.varsL, Sig.ty, sg, rx]

end CIExample

/-- The full claim of C42 fails: the clause `p(f(f(a)))` contains `a`, which the rule `a → b` rewrites, but the search does not
return it, whatever the option (CLAUSES/ccl_subterm_index.c:81 passes `true` for `lambda_demod`). -/
theorem bw_search_misses_deep_subterms :
    ∃ (x : FPCtx) (rx : RWCtx) (C : List XLit) (d : Demod), x.OK ∧ ∀ ld, ∃ (ix : FPIndex (Nat × Bool)) (st : Stored) (c : Nat), SubReach x ld ix st ∧
      FPTermOK x.ar d.l ∧ FPTermOK x.ar d.r ∧ st c = some C ∧ (∃ L ∈ C, ∃ s, L.RwPlace s false ∧ HitAt rx d false s) ∧
      c ∉ (findRwIndexed x rx ix d).1 := by
  refine ⟨CIExample.ctx, CIExample.rx, CIExample.cl, CIExample.rule, (fun h => by cases h), fun ld =>
    ⟨CIExample.ix ld, _, 5, CIExample.reached ld, CIExample.ok_of _ (by decide), CIExample.ok_of _ (by decide), rfl, ?_, ?_⟩⟩
  · refine ⟨_, List.mem_singleton.2 rfl, CIExample.a, ⟨rfl, Or.inr ⟨rfl, Or.inr ⟨?_, ?_⟩⟩⟩, ⟨false, CIExample.b, Term.var, ?_⟩, by simp⟩
    · decide
    · decide
    · refine ⟨?_, ?_, ?_, ?_, ?_, ?_, ?_, ?_, ?_⟩ <;>
        simp [CIExample.rule, Demod.lhs, Demod.rhs, CIExample.a, CIExample.b, Term.subst, Term.substL, Term.vars, Term.varsL, CIExample.rx]
  · cases ld <;> decide +kernel

namespace CIExample

/-- The hypotheses of `overlap_complete`: the position of `f(X)` in `p(f(X)) | ~p(X)` is found for the query `f(a)`. -/
example : ∃ n, (f (.var 0), (7, n)) ∈ (fpFindUnifiable ctx (ovInsertClause ctx .into (FPIndex.alloc {}) 7 cl2) (f a)).1.flatten ∧
    unpackClause cl2 n = some ⟨0, false, [0]⟩ := by
  refine overlap_complete (k := .into) (fun h => by cases h) (.insert 7 cl2 .alloc rfl cl2_ok) (C := cl2) rfl (q := ⟨0, false, [0]⟩)
    ⟨_, rfl, rfl, by simp, ⟨22, [.var 0], rfl⟩, by simp⟩ rfl (ok_of _ (by decide)) (σ := fun _ => a) (τ := Term.var) (by rfl) (ok_of _ (by decide))

/-- The negated atom is found in the other index. -/
example : ∃ n, (p (.var 0), (7, n)) ∈ (fpFindUnifiable ctx (ovInsertClause ctx .negp (FPIndex.alloc {}) 7 cl2) (p a)).1.flatten ∧
    unpackClause cl2 n = some ⟨1, false, []⟩ := by
  refine overlap_complete (k := .negp) (fun h => by cases h) (.insert 7 cl2 .alloc rfl cl2_ok) (C := cl2) rfl (q := ⟨1, false, []⟩)
    ⟨_, rfl, rfl, by simp, ⟨23, [.var 0], rfl⟩, ⟨rfl, rfl⟩, rfl, rfl⟩ rfl (ok_of _ (by decide)) (σ := fun _ => a) (τ := Term.var) (by rfl) (ok_of _ (by decide))

end CIExample

end Verif.Props
