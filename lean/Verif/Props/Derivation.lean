import Verif.Clauses.DerivationProof
import Verif.Props.Status

/-!
# C50: proof objects

The list of steps printed as a proof object contains each clause and formula that the proof depends on exactly once, every step
comes after the steps it cites, and the names under which the steps are printed are different.
-/

namespace Verif.Props
open Verif Verif.DerivationProof Relation

variable {E : DerivEnv} {roots : List Nat}

/-- The step `n` of a proof object cites `p`: an argument of an inference, where plain copies stand for their originals, or one of the
AC axioms used. -/
def DerivEnv.Cites (E : DerivEnv) (n p : Nat) : Prop :=
  (∃ q, DGraph.Uses E.g n q ∧ DGraph.Origin E.g q p) ∨ (E.g.steps n ≠ [] ∧ p ∈ E.acAx.take (E.acN n))

/-- Derivations refer to older clauses only. -/
structure DerivEnv.OK (E : DerivEnv) : Prop where
  graph : DGraph.OK E.g
  ac : ∀ n, E.g.steps n ≠ [] → ∀ p ∈ E.acAx.take (E.acN n), p < n

/-- The proof of the root clauses depends on `n`. -/
def DerivEnv.Needed (E : DerivEnv) (roots : List Nat) (n : Nat) : Prop :=
  ∃ r ∈ roots, ∃ o, DGraph.Origin E.g r o ∧ ReflTransGen (DerivEnv.Cites E) o n

/-- The roots stand for different clauses. -/
def DerivEnv.Distinct (E : DerivEnv) (roots : List Nat) : Prop :=
  roots.Pairwise fun a b => ∀ o, DGraph.Origin E.g a o → ¬ DGraph.Origin E.g b o

private theorem hasDeriv_iff {n : Nat} : E.hasDeriv n = true ↔ E.g.steps n ≠ [] := by
  simp [DerivEnv.hasDeriv]

private theorem par_iff (h : DerivEnv.OK E) {n p : Nat} : p ∈ E.par n ↔ DerivEnv.Cites E n p := by
  unfold DerivEnv.par DerivEnv.args DerivEnv.Cites
  rw [← DGraph.mem_parents_iff h.graph]
  by_cases hd : E.hasDeriv n = true
  · have := hasDeriv_iff.1 hd
    simp only [hd, if_true, List.mem_append, List.mem_reverse, List.mem_filter]
    cases E.isClause p <;> simp [this]
  · have h0 : E.g.steps n = [] := by
      by_contra hc; exact hd (hasDeriv_iff.2 hc)
    simp [hd, h0, DGraph.parents]

private theorem par_lt (h : DerivEnv.OK E) (n : Nat) : ∀ p ∈ E.par n, p < n := by
  intro p hp
  rcases (par_iff h).1 hp with ⟨q, hq, ho⟩ | ⟨hs, hp⟩
  · exact (DGraph.origin_le h.graph ho).trans_lt (h.graph.older n q hq)
  · exact h.ac n hs p hp

private theorem par_nil (n : Nat) (h : E.hasDeriv n = false) : E.par n = [] := by
  simp [DerivEnv.par, DerivEnv.args, h]

private theorem roots_nodup (h : DerivEnv.OK E) (hr : DerivEnv.Distinct E roots) :
    (roots.map fun r => E.g.first r r).Nodup := by
  rw [List.Nodup, List.pairwise_map]
  refine hr.imp fun {a b} hab e => ?_
  exact hab _ (DGraph.origin_first h.graph a) (e ▸ DGraph.origin_first h.graph b)

/-- What is known about the printed list. -/
private theorem printed_inv (h : DerivEnv.OK E) (hr : DerivEnv.Distinct E roots) {k l} (hl : E.printed k roots = some l) :
    ∃ V o ax r r' W, l = (o ++ ax).reverse ∧ ExInv E (roots.map fun r => E.g.first r r) V [] V r ∧
      TsInv E V (roots.map fun r => E.g.first r r) o [] ax r' W ∧ (o ++ ax).Perm V := by
  simp only [DerivEnv.printed, Option.bind_eq_bind, Option.bind_eq_some_iff] at hl
  obtain ⟨r, hr1, o, ho, e⟩ := hl
  have hn := roots_nodup h hr
  obtain ⟨V, hV⟩ := exLoop_spec E _ k _ _ [] _ r (ex_init E hn) hr1
  have hnV : V.Nodup := by simpa using hV.nodup
  obtain ⟨o', ax, r', W, rfl, hi⟩ := tsLoop_spec E V _ hV.closed k _ _ _ _ V o (ts_init E hn hV) ho
  simp only [Option.pure_def, Option.some.injEq] at e
  exact ⟨V, o', ax, r, r', W, e.symm, hV, hi, ts_final E (par_lt h) par_nil hnV hi⟩

private theorem mem_needed (h : DerivEnv.OK E) {V r} (hV : ExInv E (roots.map fun r => E.g.first r r) V [] V r) (n : Nat) :
    n ∈ V ↔ DerivEnv.Needed E roots n := by
  constructor
  · have hb : ∀ m ∈ V, ∃ N, m ≤ N := fun m _ => ⟨m, le_rfl⟩
    obtain ⟨N, hN⟩ : ∃ N, ∀ v ∈ V, v < N := by
      clear hV hb
      induction V with
      | nil => exact ⟨0, by simp⟩
      | cons a V ih =>
        obtain ⟨N, hN⟩ := ih
        refine ⟨max N (a+1), fun v hv => ?_⟩
        rcases List.mem_cons.1 hv with rfl | hv
        · omega
        · have := hN v hv; omega
    have main : ∀ d, ∀ v ∈ V, N - v ≤ d → DerivEnv.Needed E roots v := by
      intro d
      induction d with
      | zero => intro v hv h; have := hN v hv; omega
      | succ d ih =>
        intro v hv hd
        rcases hV.src v hv with hr | ⟨m, hm, hvm⟩
        · obtain ⟨r0, hr0, rfl⟩ := List.mem_map.1 hr
          exact ⟨r0, hr0, _, DGraph.origin_first h.graph r0, .refl⟩
        · have := par_lt h m v hvm
          have := hN m hm
          obtain ⟨r0, hr0, o, ho, hc⟩ := ih m hm (by omega)
          exact ⟨r0, hr0, o, ho, hc.tail ((par_iff h).1 hvm)⟩
    exact fun hn => main _ n hn le_rfl
  · rintro ⟨r0, hr0, o, ho, hc⟩
    have h0 : o ∈ V := by
      rw [DGraph.origin_unique ho (DGraph.origin_first h.graph r0)]
      exact hV.base _ (List.mem_map.2 ⟨r0, hr0, rfl⟩)
    clear ho
    induction hc with
    | refl => exact h0
    | tail _ hbc ih => exact hV.closed _ ih _ ((par_iff h).2 hbc)

/-- **C50.** The computation of a proof object ends. -/
theorem derivation_total (h : DerivEnv.OK E) (hr : DerivEnv.Distinct E roots) :
    ∃ K, ∀ k ≥ K, ∃ l, E.printed k roots = some l := by
  have hn := roots_nodup h hr
  obtain ⟨N, hN⟩ : ∃ N, ∀ v ∈ roots.map fun r => E.g.first r r, v < N := by
    clear hn hr
    generalize roots.map (fun r => E.g.first r r) = R
    induction R with
    | nil => exact ⟨0, by simp⟩
    | cons a V ih =>
      obtain ⟨N, hN⟩ := ih
      refine ⟨max N (a+1), fun v hv => ?_⟩
      rcases List.mem_cons.1 hv with rfl | hv
      · omega
      · have := hN v hv; omega
  refine ⟨N + 1, fun k hk => ?_⟩
  obtain ⟨r, hr1⟩ := exLoop_total E (par_lt h) N k (roots.map fun r => E.g.first r r) (roots.map fun r => E.g.first r r).reverse
    (fun _ => 0) hn hN (by simp) (by simp; omega)
  obtain ⟨V, hV⟩ := exLoop_spec E _ k _ _ [] _ r (ex_init E hn) hr1
  have hnV : V.Nodup := by simpa using hV.nodup
  have hVN : V.length ≤ N := by
    have hlt : ∀ v ∈ V, v < N := by
      intro v hv
      obtain ⟨r0, hr0, o, ho, hc⟩ := (mem_needed h hV v).1 hv
      have hle : v ≤ o := by
        clear ho hr0 hv
        induction hc with
        | refl => exact le_rfl
        | tail _ hbc ih => exact (par_lt h _ _ ((par_iff h).2 hbc)).le.trans ih
      rw [DGraph.origin_unique ho (DGraph.origin_first h.graph r0)] at hle
      exact hle.trans_lt (hN _ (List.mem_map.2 ⟨r0, hr0, rfl⟩))
    have := (List.subperm_of_subset hnV (l₂ := List.range N) (fun a ha => by simpa using hlt a ha)).length_le
    simpa using this
  obtain ⟨o, ho⟩ := tsLoop_total E V _ hV.closed k _ _ _ _ V (ts_init E hn hV) (by simp; omega)
  refine ⟨o.reverse, ?_⟩
  simp only [DerivEnv.printed, Option.bind_eq_bind, Option.bind_eq_some_iff]
  exact ⟨r, hr1, o, ho, rfl⟩

/-- **C50.** Each clause and formula the proof depends on is listed exactly once, and nothing else. -/
theorem derivation_steps_partial (h : DerivEnv.OK E) (hr : DerivEnv.Distinct E roots) {k l} (hl : E.printed k roots = some l) :
    l.Nodup ∧ ∀ n, n ∈ l ↔ DerivEnv.Needed E roots n := by
  obtain ⟨V, o, ax, r, r', W, rfl, hV, hi, hp⟩ := printed_inv h hr hl
  refine ⟨?_, fun n => ?_⟩
  · rw [List.nodup_reverse]; simpa using hi.nodup
  · rw [List.mem_reverse, hp.mem_iff, mem_needed h hV]

/-- **C50.** Every step comes after all the steps it cites. -/
theorem derivation_order_partial (h : DerivEnv.OK E) (hr : DerivEnv.Distinct E roots) {k l} (hl : E.printed k roots = some l)
    {pre post : List Nat} {n : Nat} (hn : l = pre ++ n :: post) {p : Nat} (hp : DerivEnv.Cites E n p) : p ∈ pre := by
  obtain ⟨V, o, ax, r, r', W, rfl, hV, hi, hperm⟩ := printed_inv h hr hl
  have hpar := (par_iff h).2 hp
  have e : o ++ ax = post.reverse ++ n :: pre.reverse := by
    have := congrArg List.reverse hn; simpa using this
  have hnV : n ∈ V := hperm.mem_iff.1 (by rw [e]; simp)
  have hpV : p ∈ V := hV.closed n hnV p hpar
  rw [← List.mem_reverse]
  have hnd : (o ++ ax).Nodup := by simpa using hi.nodup
  have hpm : p ∈ post.reverse ++ n :: pre.reverse := by rw [← e]; exact hperm.mem_iff.2 hpV
  rcases List.mem_append.1 hpm with hpost | hpre
  · exfalso
    -- `p` would precede `n` in the sorted list
    obtain ⟨a, b, hab⟩ := List.append_of_mem hpost
    have e2 : o ++ ax = a ++ p :: (b ++ n :: pre.reverse) := by rw [e, hab]; simp
    have hna : n ∉ a := by
      intro hna
      rw [e2] at hnd
      have := (List.nodup_append.1 hnd).2.2 n hna n (by simp)
      exact this rfl
    rcases List.append_eq_append_iff.1 e2 with ⟨as, h1, h2⟩ | ⟨bs, h1, h2⟩
    · -- `p` and all after it are axioms
      have hnax : n ∈ ax := by rw [h2]; simp
      have := par_nil n (hi.deriv n hnax)
      rw [this] at hpar; simp at hpar
    · cases bs with
      | nil =>
        simp at h2
        have hnax : n ∈ ax := by rw [← h2]; simp
        have := par_nil n (hi.deriv n hnax)
        rw [this] at hpar; simp at hpar
      | cons b' bs =>
        simp at h2
        obtain ⟨rfl, h2⟩ := h2
        exact hna (hi.order a p bs h1 n hnV hpar)
  · rcases List.mem_cons.1 hpre with rfl | h'
    · exact absurd (par_lt h p p hpar) (lt_irrefl _)
    · exact h'

/-- **C50.** The input clauses and formulas come first: what precedes one of them (unless it is itself a root) was not derived either. -/
theorem derivation_axioms_partial (h : DerivEnv.OK E) (hr : DerivEnv.Distinct E roots) {k l} (hl : E.printed k roots = some l)
    {pre post : List Nat} {n : Nat} (hn : l = pre ++ n :: post) (hs : E.g.steps n = []) (hnr : ∀ r ∈ roots, ¬ DGraph.Origin E.g r n) :
    ∀ m ∈ pre, E.g.steps m = [] := by
  obtain ⟨V, o, ax, r, r', W, rfl, hV, hi, hperm⟩ := printed_inv h hr hl
  have e : o ++ ax = post.reverse ++ n :: pre.reverse := by
    have := congrArg List.reverse hn; simpa using this
  have hd : E.hasDeriv n = false := by simp [DerivEnv.hasDeriv, hs]
  have hno : n ∉ o := by
    intro ho
    obtain ⟨r0, hr0, rfl⟩ := List.mem_map.1 (hi.noax n (by simp [ho]) hd)
    exact hnr r0 hr0 (DGraph.origin_first h.graph r0)
  intro m hm
  have hmax : m ∈ ax := by
    rcases List.append_eq_append_iff.1 e with ⟨as, h1, h2⟩ | ⟨bs, h1, h2⟩
    · rw [h2]; simp [hm]
    · cases bs with
      | nil => simp at h2; rw [← h2]; simp [hm]
      | cons b bs =>
        simp at h2
        exact absurd (by rw [h1, h2.1]; simp) hno
  have := hi.deriv m hmax
  simpa [DerivEnv.hasDeriv] using this

/-! ## Names -/

private theorem digit_range : ∀ d < 10, '0' ≤ Char.ofNat (48 + d) ∧ Char.ofNat (48 + d) ≤ '9' := by decide

private theorem digit_val : ∀ d < 10, (Char.ofNat (48 + d)).toNat - 48 = d := by decide

private theorem dec_ne_nil (n : Nat) : decDigits n ≠ [] := by
  unfold decDigits; split <;> simp

private theorem dec_digits (n : Nat) : ∀ c ∈ decDigits n, '0' ≤ c ∧ c ≤ '9' := by
  fun_induction decDigits n with
  | case1 n h => simpa using digit_range n h
  | case2 n h ih =>
    intro c hc
    rcases List.mem_append.1 hc with hc | hc
    · exact ih c hc
    · rw [List.mem_singleton.1 hc]; exact digit_range _ (by omega)

private theorem read_append (l rest : List Char) (acc : Nat) (h : ∀ c ∈ l, '0' ≤ c ∧ c ≤ '9') :
    readDigits acc (l ++ rest) = readDigits (readDigits acc l).1 rest := by
  induction l generalizing acc with
  | nil => simp [readDigits]
  | cons c l ih =>
    have hc := h c (by simp)
    simp only [List.cons_append, readDigits, if_pos hc]
    exact ih _ fun c' hc' => h c' (by simp [hc'])

private theorem read_dec (n : Nat) : readDigits 0 (decDigits n) = (n, []) := by
  fun_induction decDigits n with
  | case1 n h =>
    simp only [readDigits, if_pos (digit_range n h)]
    have := digit_val n h
    simp [this]
  | case2 n h ih =>
    rw [read_append _ _ _ (dec_digits _), ih]
    simp only [readDigits, if_pos (digit_range (n % 10) (by omega))]
    rw [digit_val (n % 10) (by omega)]
    simp only [Prod.mk.injEq, and_true]
    omega

private theorem strtol_dec (n : Nat) : cStrtol (decDigits n) = ((n : Int), []) := by
  have hr := read_dec n
  have hd := dec_digits n
  cases e : decDigits n with
  | nil => exact absurd e (dec_ne_nil n)
  | cons c cs =>
    rw [e] at hr hd
    have hc := hd c (by simp)
    have h1 : c ≠ ' ' := fun h => by subst h; revert hc; decide
    have h2 : c ≠ '\t' := fun h => by subst h; revert hc; decide
    have h3 : c ≠ '\n' := fun h => by subst h; revert hc; decide
    have h4 : c ≠ '-' := fun h => by subst h; revert hc; decide
    have h5 : c ≠ '+' := fun h => by subst h; revert hc; decide
    have hdw : (c :: cs).dropWhile (fun c => c == ' ' || c == '\t' || c == '\n') = c :: cs := by
      simp [h1, h2, h3]
    have hsg : cSign (c :: cs) = (false, c :: cs) := by
      unfold cSign
      split
      · next h => simp at h; exact absurd h.1 h4
      · next h => simp at h; exact absurd h.1 h5
      · rfl
    unfold cStrtol
    simp only [hdw, hsg, if_pos hc, hr]
    simp

/-- The counter in the name of a step is its number. -/
theorem idCounter_dec (n : Nat) : idCounter (some ("c_0_".toList ++ decDigits n)) = n := by
  have e : "c_0_".toList = ['c', '_', '0', '_'] := by decide
  have hs : cStrtol ('_' :: decDigits n) = (0, '_' :: decDigits n) := by
    simp [cStrtol, cSign]
  rw [e]
  simp only [List.cons_append, List.nil_append, idCounter, hs]
  simp [strtol_dec]

private theorem maxId_aux (E : DerivEnv) (l : List Nat) (m : Int) :
    m ≤ l.foldl (fun m n => if !E.isClause n && m < idCounter (E.inName n) then idCounter (E.inName n) else m) m ∧
    ∀ n ∈ l, E.isClause n = false → idCounter (E.inName n) ≤
      l.foldl (fun m n => if !E.isClause n && m < idCounter (E.inName n) then idCounter (E.inName n) else m) m := by
  induction l generalizing m with
  | nil => simp
  | cons a l ih =>
    simp only [List.foldl_cons]
    generalize hm : (if !E.isClause a && m < idCounter (E.inName a) then idCounter (E.inName a) else m) = m'
    obtain ⟨h1, h2⟩ := ih m'
    have hmm : m ≤ m' ∧ (E.isClause a = false → idCounter (E.inName a) ≤ m') := by
      subst hm
      split
      · next h => simp at h; exact ⟨by omega, fun _ => le_rfl⟩
      · next h => simp at h; exact ⟨le_rfl, fun ha => h ha⟩
    refine ⟨hmm.1.trans h1, fun n hn hc => ?_⟩
    rcases List.mem_cons.1 hn with rfl | hn
    · exact (hmm.2 hc).trans h1
    · exact h2 n hn hc

private theorem maxId_le {l : List Nat} {n : Nat} (hn : n ∈ l) (hc : E.isClause n = false) : idCounter (E.inName n) ≤ E.maxId l :=
  (maxId_aux E l (-1)).2 n hn hc

private theorem maxId_ge (l : List Nat) : -1 ≤ E.maxId l := (maxId_aux E l (-1)).1

/-- **C50.** The steps are numbered in the order printed. -/
theorem derivation_numbers (l : List Nat) : (E.idents l).length = l.length ∧ (E.idents l).Pairwise (· < ·) := by
  refine ⟨by simp [DerivEnv.idents], ?_⟩
  unfold DerivEnv.idents
  rw [List.pairwise_map]
  exact List.pairwise_lt_range.imp fun h => by omega

/-- **C50.** No two steps are printed under the same name, provided that the input formulas have different names. -/
theorem derivation_names {l : List Nat} (hl : l.Nodup)
    (hin : ∀ n ∈ l, ∀ m ∈ l, E.isClause n = false → E.isClause m = false → ∀ s, E.inName n = some s → E.inName m = some s → n = m) :
    (E.names l).Nodup := by
  have hlen : (E.names l).length = l.length := by simp [DerivEnv.names, DerivEnv.idents]
  have get : ∀ i (h : i < l.length), (E.names l)[i]'(by omega) = E.stepName l[i] ((E.maxId l + 1).toNat + i) := by
    intro i h; simp [DerivEnv.names, DerivEnv.idents]
  have nm : ∀ i (h : i < l.length), (∃ s, E.isClause l[i] = false ∧ E.inName l[i] = some s ∧ E.stepName l[i] ((E.maxId l + 1).toNat + i) = s)
      ∨ E.stepName l[i] ((E.maxId l + 1).toNat + i) = "c_0_".toList ++ decDigits ((E.maxId l + 1).toNat + i) := by
    intro i h
    unfold DerivEnv.stepName
    cases hc : E.isClause l[i]
    · cases hs : E.inName l[i] with
      | none => right; simp
      | some s => left; exact ⟨s, rfl, rfl, by simp⟩
    · right; simp
  have key : ∀ i (hi : i < l.length) j, ∀ s, E.isClause l[i] = false → E.inName l[i] = some s →
      s ≠ "c_0_".toList ++ decDigits ((E.maxId l + 1).toNat + j) := by
    intro i hi j s hc hs e
    have h1 := maxId_le (List.getElem_mem hi) hc
    rw [hs, e, idCounter_dec] at h1
    have := maxId_ge (E := E) l
    omega
  rw [List.nodup_iff_injective_getElem]
  rintro ⟨i, hi⟩ ⟨j, hj⟩ e
  rw [hlen] at hi hj
  simp only [get i hi, get j hj] at e
  simp only [Fin.mk.injEq]
  rcases nm i hi with ⟨s, hc, hs, hn⟩ | hn <;> rcases nm j hj with ⟨s', hc', hs', hn'⟩ | hn'
  · rw [hn, hn'] at e; subst e
    have := hin _ (List.getElem_mem hi) _ (List.getElem_mem hj) hc hc' s hs hs'
    exact (hl.getElem_inj_iff).1 this
  · rw [hn, hn'] at e
    exact absurd e (key i hi j s hc hs)
  · rw [hn, hn'] at e
    exact absurd e.symm (key j hj i s' hc' hs')
  · rw [hn, hn'] at e
    have := congrArg (fun s => idCounter (some s)) e
    simp only [idCounter_dec] at this
    omega

/-! ## A root listed twice

The stack of roots may contain a clause twice: `ProcessClause` pushes an answer clause (CONTROL/cco_proofproc.c:1612) and, if more answers
are wanted, goes on to put it into the set of processed clauses, whose members are all pushed with `--full-deriv` (PROVER/eprover.c:853-865). -/

namespace DerivEx

/-- Clause 2 is an input clause, 3 its copy, 4 is derived from 3 and the formula 1, 5 from 4 and 2, and 6 from 5 with one AC axiom. -/
def gr : DGraph where
  steps
    | 3 => [⟨true, [2]⟩]
    | 4 => [⟨false, [3, 1]⟩]
    | 5 => [⟨false, [4, 2]⟩, ⟨false, [2]⟩]
    | 6 => [⟨false, [5]⟩, ⟨false, []⟩]
    | _ => []
  isEmpty n := n == 6
  conj _ := false

def env : DerivEnv where
  g := gr
  isClause n := n != 1
  acAx := [2, 0]
  acN n := if n = 6 then 1 else 0
  inName n := if n = 1 then some "c_0_4".toList else none

theorem graph_ok : DGraph.OK gr where
  older n p h := by
    obtain ⟨t, ht, hp⟩ := h
    unfold gr at ht
    dsimp only at ht
    split at ht <;> simp at ht
    · subst ht; simp at hp; omega
    · subst ht; simp at hp; omega
    · rcases ht with rfl | rfl <;> simp at hp <;> omega
    · rcases ht with rfl | rfl <;> simp at hp; omega
  copy _ _ _ := rfl

theorem ok : DerivEnv.OK env where
  graph := graph_ok
  ac n _ p hp := by
    by_cases h : n = 6
    · subst h; simp [env] at hp; omega
    · simp [env, h] at hp

/-- What is printed for the roots 6 and 4. -/
theorem printed_E : env.printed 20 [6, 4] = some [1, 2, 4, 5, 6] := by decide +kernel

/-- The formula 1 keeps its input name `c_0_4`, so the numbers start at 5. -/
example : env.idents [1, 2, 4, 5, 6] = [5, 6, 7, 8, 9] := by decide +kernel

theorem distinct_E : DerivEnv.Distinct env [6, 4] := by
  have h6 : ∀ o, DGraph.Origin env.g 6 o → o = 6 := fun o h => by
    cases h with
    | refl => rfl
    | copy e => simp [env, gr] at e
  have h4 : ∀ o, DGraph.Origin env.g 4 o → o = 4 := fun o h => by
    cases h with
    | refl => rfl
    | copy e => simp [env, gr] at e
  simp only [DerivEnv.Distinct, List.pairwise_cons, List.mem_singleton, List.not_mem_nil, List.Pairwise.nil, forall_eq, and_true,
    IsEmpty.forall_iff, implies_true]
  intro o h h'
  have := h6 o h; have := h4 o h'; omega

example : ∃ K, ∀ k ≥ K, ∃ l, env.printed k [6, 4] = some l := derivation_total ok distinct_E

example : DerivEnv.Needed env [6, 4] 1 := ((derivation_steps_partial ok distinct_E printed_E).2 1).1 (by simp)

example : (2 : Nat) ∈ [1, 2, 4] :=
  derivation_order_partial ok distinct_E printed_E (pre := [1, 2, 4]) (n := 5) (post := [6]) rfl
    (Or.inl ⟨2, ⟨⟨false, [2]⟩, by simp [env, gr], by simp⟩, .refl (by simp [env, gr])⟩)

example : (env.names [1, 2, 4, 5, 6]).Nodup := derivation_names (by decide) fun n _ m _ hn hm s _ _ => by
  simp [env] at hn hm; omega

end DerivEx

/-- **C50, a clause pushed twice.**  If a root is listed twice and nothing else cites it, it is printed twice; if another root cites
it, the steps it depends on are not printed at all: without the premise `Distinct`, neither `derivation_steps_partial` nor
`derivation_order_partial` holds. -/
theorem derivation_repeated_root :
    (∀ k, DerivEx.env.printed (k + 20) [4, 4] = some [1, 2, 4, 4]) ∧
    (∀ k, DerivEx.env.printed (k + 20) [4, 5, 4] = some [4, 5]) :=
  ⟨fun _ => rfl, fun _ => rfl⟩

end Verif.Props
