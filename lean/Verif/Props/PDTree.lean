import Verif.Clauses.PDTreeReach
import Verif.Clauses.RewriteSpec

/-!
# C29: the discrimination tree index of demodulators
-/

namespace Verif.Props
open Verif PDProof

variable {sg : Sig}

theorem passB_iff {x : PDCtx} {q : PDQuery} {e : PDEntry} : passB x q e = true ↔ e.Passes x q := by
  simp only [passB, PDEntry.Passes, Bool.or_eq_true, Bool.not_eq_true', beq_iff_eq, decide_eq_true_eq, ne_eq]
  cases x.useAge <;> simp
  by_cases h : q.date = 0 <;> simp [h]

/-! ## Search -/

/-- C29: after any history, calling `PDTreeFindNextDemodulator` until it returns NULL ends, restores the substitution, and
hands out
* only stored entries of which the indexed side matches the query, each at a moment when the substitution is exactly the one
  `SubstComputeMatch` computes, and
* every stored entry of which the side matches the query and that is later than the date of the query (if ages are used).

The substitution at the start must not bind a variable that is itself an indexed side; in the prover it is empty. -/
theorem pdtree_search_exact {T : PDTree} {S : List PDEntry} (h : PDReach sg T S) (x : PDCtx) (hx : x.sg = sg) (q : PDQuery) (t : Term)
    (ht : sg.WT t) (hp : x.ArgsPlain t) (sub : SubstSt) (h0 : ∀ e ∈ S, ∀ y, e.side = .var y → sub.bind y = none) :
    ∃ N em s', pdAll x q N (pdSearchInit q T t sub) [] = some (em, s') ∧ s'.sub = sub ∧
      (∀ e σ, (e, σ) ∈ em → e ∈ S ∧ e.MatchedBy x t sub σ) ∧
      (∀ e σ, e ∈ S → e.Passes x q → e.MatchedBy x t sub σ → (e, σ) ∈ em) := by
  subst hx
  have hi := reach_inv h
  obtain ⟨N, em, s', h1, -, h3, h4, h5⟩ := search_all hi x q t sub
  refine ⟨N, em, s', h1, h3, fun e σ hm => ?_, fun e σ he hpa hm => ?_⟩
  · obtain ⟨h6, h7⟩ := h4 e σ hm
    exact ⟨h6, (walk_iff_match x (hi.wt e h6) ht hp (h0 e h6)).1 h7⟩
  · have := h5 e σ he (passB_iff.2 hpa) ((walk_iff_match x (hi.wt e he) ht hp (h0 e he)).2 hm)
    have hmem : (e, σ) ∈ em.filter (fun p => decide (p.1 = e)) := by rw [this]; simp
    exact (List.mem_filter.1 hmem).1

/-- C29: the same in terms of matching substitutions: a stored entry not older than the query is handed out if and only if some substitution
maps its indexed side to the query (and the side is not a variable while the query is an atom). -/
theorem pdtree_search_matches {T : PDTree} {S : List PDEntry} (h : PDReach sg T S) (x : PDCtx) (hx : x.sg = sg) (q : PDQuery) (t : Term)
    (ht : sg.WT t) (hp : x.ArgsPlain t) :
    ∃ N em s', pdAll x q N (pdSearchInit q T t .empty) [] = some (em, s') ∧ s'.sub = .empty ∧
      (∀ e σ, (e, σ) ∈ em → e ∈ S ∧ e.side.subst σ.toFun = t) ∧
      ∀ e ∈ S, e.Passes x q → ((∃ σ, (e, σ) ∈ em) ↔
        ¬ (x.pp t = true ∧ e.side.isVar = true) ∧ ∃ σ : Nat → Term, (∀ y ∈ e.side.vars, sg.ty (σ y) = sg.vty y) ∧ e.side.subst σ = t) := by
  obtain ⟨N, em, s', h1, h2, h3, h4⟩ := pdtree_search_exact h x hx q t ht hp .empty (fun _ _ _ _ => rfl)
  subst hx
  refine ⟨N, em, s', h1, h2, fun e σ hm => ⟨(h3 e σ hm).1, ?_⟩, fun e he hpa => ?_⟩
  · exact (matching_success x.sg _ _ _ _ _ (h3 e σ hm).2).1.inst
  · obtain ⟨res, st', hr, hiff⟩ := matching_exact x.sg e.side t (x.pp t) .empty
    constructor
    · rintro ⟨σ, hm⟩
      have := (h3 e σ hm).2
      rw [PDEntry.MatchedBy, hr] at this
      cases this
      obtain ⟨h5, σ', h6⟩ := hiff.1 rfl
      exact ⟨h5, σ', h6.typed, h6.inst⟩
    · rintro ⟨h5, σ', h6, h7⟩
      have : res = true := hiff.2 ⟨h5, σ', ⟨(fun y u hy => by simp [SubstSt.empty] at hy), h6, h7⟩⟩
      subst this
      exact ⟨st', h4 e st' he hpa hr⟩

/-- The code hands out every matching entry *twice*: after `pdtree_forward` has entered a leaf its entries are handed out (lines 1474-1478),
and the next call, which finds the same leaf not closed, hands them out again (lines 1465-1470). -/
theorem pdtree_search_twice {T : PDTree} {S : List PDEntry} (h : PDReach sg T S) (x : PDCtx) (hx : x.sg = sg) (q : PDQuery) (t : Term)
    (ht : sg.WT t) (hp : x.ArgsPlain t) :
    ∃ N em s', pdAll x q N (pdSearchInit q T t .empty) [] = some (em, s') ∧
      ∀ e σ, e ∈ S → e.Passes x q → e.MatchedBy x t .empty σ → em.filter (fun p => decide (p.1 = e)) = [(e, σ), (e, σ)] := by
  subst hx
  have hi := reach_inv h
  obtain ⟨N, em, s', h1, -, -, -, h5⟩ := search_all hi x q t .empty
  exact ⟨N, em, s', h1, fun e σ he hpa hm =>
    h5 e σ he (passB_iff.2 hpa) ((walk_iff_match x (hi.wt e he) ht hp (fun _ _ => rfl)).2 hm)⟩

/-- C29: searching never changes what later searches find: the constraint fields may be recomputed, the stored entries stay. -/
theorem pdtree_search_keeps {T : PDTree} {S : List PDEntry} (h : PDReach sg T S) {x : PDCtx} (hx : x.sg = sg) {q : PDQuery} {t : Term}
    {sub : SubstSt} {em s} (hs : PDSteps x q (pdSearchInit q T t sub) em s) : PDReach sg ⟨T.root, s.size, s.age⟩ S :=
  .search h hx hs

/-! ## Deletion -/

/-- C29: deleting a clause from under a term for which something is stored ends properly, and reports the number of entries
removed: those of this clause with this side. -/
theorem pdtree_delete_count {T : PDTree} {S : List PDEntry} (h : PDReach sg T S) {t : Term} (c date : Nat) (hin : ∃ e ∈ S, e.side = t)
    (hd : ∀ e ∈ S, e.clause = c → e.date = date) :
    ∃ T' res, pdDelete T t c date = some (T', res) ∧ res = (S.filter fun e => decide (e.side = t) && e.clause == c).length ∧
      PDReach sg T' (S.filter fun e => !(decide (e.side = t) && e.clause == c)) := by
  have hi := reach_inv h
  obtain ⟨e, he, rfl⟩ := hin
  obtain ⟨⟨n, res⟩, hdel⟩ := del_total c (pdFlat e.side) T.root e hi.wf ((mem_all hi).2 ⟨he, rfl⟩)
  have hpd : pdDelete T e.side c date = some (⟨n, pdDelMap (e.side.weight VW FW) (pdFlat e.side) [] T.size,
      pdDelMap date (pdFlat e.side) [] T.age⟩, res) := by simp [pdDelete, hdel]
  refine ⟨_, res, hpd, ?_, .delete e.side c date h (hi.wt e he) hd hpd⟩
  have h1 := (inv_delete hi (hi.wt e he) hd hpd).2
  have h2 := List.length_eq_length_filter_add (l := S) (fun e' => decide (e'.side = e.side) && e'.clause == c)
  simp only [PDProof.rest] at h1
  omega

/-- C29: the constraint fields of every node are invalid or exact: the size field is the minimum of the weights of the entries below the node,
the age field the maximum of the dates. -/
theorem pdtree_constraints {T : PDTree} {S : List PDEntry} (h : PDReach sg T S) :
    (∀ v, T.size [] = some v → v = (S.map PDEntry.weight).foldr min pdLongMax) ∧
    (∀ v, T.age [] = some v → v = (S.map PDEntry.date).foldr max 0) := by
  have hi := reach_inv h
  refine ⟨fun v hv => ?_, fun v hv => ?_⟩
  · rw [hi.size [] T.root .root v (by simpa using hv), agg, selMin.foldr_perm (hi.perm.map _), List.map_map]
    rfl
  · rw [hi.age [] T.root .root v (by simpa using hv), agg, selMax.foldr_perm (hi.perm.map _), List.map_map]
    rfl

/-! ## The index as a set of demodulators -/

/-- The entry `ClauseSetPDTIndexedInsert` (CLAUSES/ccl_clausesets.c:538-570) makes for one side of a unit clause. -/
def demodEntry (d : Demod) (right : Bool) : PDEntry := ⟨2 * d.id + right.toNat, d.id, d.lhs right, d.date⟩

/-- The tree holds the left sides of all demodulators and the right sides of the unoriented ones. -/
def Indexes (S : List PDEntry) (mem : List Demod) : Prop :=
  ∀ e, e ∈ S ↔ ∃ d ∈ mem, ∃ right, (right = true → d.oriented = false) ∧ e = demodEntry d right

/-- C29 with C20: a reachable tree that indexes a set of demodulators provides the enumeration that the theorems about rewriting assume
(`DSet.OK`).  For a query with an atom below the top, which does not occur, the enumeration is unspecified. -/
theorem pdtree_realises_index {T : PDTree} {S : List PDEntry} (h : PDReach sg T S) (x : RWCtx) (hx : x.sg = sg) (useSize useAge general : Bool)
    (mem : List Demod) (date : Nat) (hm : Indexes S mem)  (hdate : ∀ d ∈ mem, 0 < d.date ∧ d.date ≤ date) :
    ∃ enum : Term → Nat → List (Demod × Bool), DSet.OK x ⟨mem, date, enum⟩ ∧
      ∀ t k, PDCtx.ArgsPlain ⟨sg, x.pp, useSize, useAge⟩ t →
        ∃ N em s', pdAll ⟨sg, x.pp, useSize, useAge⟩ ⟨k, general⟩ N (pdSearchInit ⟨k, general⟩ T t .empty) [] = some (em, s') ∧
          ∀ d right, (d, right) ∈ enum t k ↔
            d ∈ mem ∧ (right = true → d.oriented = false) ∧ ∃ σ, (demodEntry d right, σ) ∈ em := by
  classical
  subst hx
  have hi := reach_inv h
  let c : PDCtx := ⟨x.sg, x.pp, useSize, useAge⟩
  have hs := fun t k => search_all hi c ⟨k, general⟩ t .empty
  choose N em s' h1 _ _ h4 h5 using hs
  let cand : List (Demod × Bool) := mem.flatMap fun d => (d, false) :: if d.oriented then [] else [(d, true)]
  have hcand : ∀ d right, (d, right) ∈ cand ↔ d ∈ mem ∧ (right = true → d.oriented = false) := by
    intro d right
    simp only [cand, List.mem_flatMap]
    constructor
    · rintro ⟨d', hd', hmm⟩
      rcases List.mem_cons.1 hmm with hmm | hmm
      · cases hmm; exact ⟨hd', fun h => by cases h⟩
      · split at hmm
        · cases hmm
        · next ho =>
          simp only [List.mem_singleton] at hmm
          cases hmm
          exact ⟨hd', fun _ => by simpa using ho⟩
    · rintro ⟨hd, ho⟩
      refine ⟨d, hd, ?_⟩
      cases right with
      | false => simp
      | true => simp [ho rfl]
  refine ⟨fun t k => if c.ArgsPlain t then cand.filter fun p => decide (∃ σ, (demodEntry p.1 p.2, σ) ∈ em t k) else cand, ?_, ?_⟩
  · refine ⟨?_, ?_, hdate⟩
    · intro t k d right hmm
      simp only at hmm
      split at hmm
      · exact (hcand d right).1 (List.mem_filter.1 hmm).1
      · exact (hcand d right).1 hmm
    · intro t k d right sb hd hk ho hmt
      simp only
      split
      · next hp =>
        refine List.mem_filter.2 ⟨(hcand d right).2 ⟨hd, ho⟩, ?_⟩
        have he : demodEntry d right ∈ S := (hm _).2 ⟨d, hd, right, ho, rfl⟩
        have hmt' : substComputeMatch x.sg (d.lhs right) t (x.pp t) .empty = some (true, sb) := by
          simp only [matchSt] at hmt
          split at hmt
          · next hq => cases hmt; exact hq
          · cases hmt
        have hw := match_walk c (s := d.lhs right) (t := t) (sub := .empty) (s' := sb) hp hmt'
        have := h5 t k (demodEntry d right) sb he (by simp [passB, demodEntry, hk]) hw
        simp only [decide_eq_true_eq]
        refine ⟨sb, ?_⟩
        have hmem : (demodEntry d right, sb) ∈ (em t k).filter (fun p => decide (p.1 = demodEntry d right)) := by rw [this]; simp
        exact (List.mem_filter.1 hmem).1
      · exact (hcand d right).2 ⟨hd, ho⟩
  · intro t k hp
    refine ⟨N t k, em t k, s' t k, h1 t k, fun d right => ?_⟩
    simp only
    rw [if_pos (show c.ArgsPlain t from hp), List.mem_filter, hcand]
    simp only [decide_eq_true_eq, and_assoc]

/-! ## Examples -/

namespace PDTreeEx

/-- `f(x)` -/
def s1 : Term := .app 3 [.var 0]
/-- `g(x, x)` -/
def s2 : Term := .app 4 [.var 0, .var 0]
/-- `g(x, f(y))` -/
def s3 : Term := .app 4 [.var 0, .app 3 [.var 1]]
/-- `f(a)` -/
def fa : Term := .app 3 [.app 2 []]
/-- `g(f(a), f(a))` -/
def t : Term := .app 4 [fa, fa]

def sig : Sig := { vty := fun _ => 0, fty := fun _ => 0, fargs := fun f => if f = 3 then [0] else if f = 4 then [0, 0] else [] }
def x : PDCtx := ⟨sig, fun _ => false, true, true⟩

def e1 : PDEntry := ⟨10, 1, s1, 5⟩
def e2 : PDEntry := ⟨11, 2, s2, 6⟩
def e3 : PDEntry := ⟨12, 3, s3, 7⟩
def T : PDTree := pdInsert (pdInsert (pdInsert .empty e1) e2) e3

theorem reach : PDReach sig T [e3, e2, e1] := by
  refine .insert e3 (.insert e2 (.insert e1 .empty ?_ ?_ ?_) ?_ ?_ ?_) ?_ ?_ ?_
  all_goals simp [e1, e2, e3, s1, s2, s3, sig, Sig.WT, Sig.WTL, Sig.ty]

theorem wt : sig.WT t := by simp [t, fa, sig, Sig.WT, Sig.WTL, Sig.ty]
theorem plain : x.ArgsPlain t := fun _ _ _ _ _ _ _ => rfl

/-- The hypotheses of the theorems hold for a concrete tree and query. -/
example : ∃ N em s', pdAll x ⟨0, true⟩ N (pdSearchInit ⟨0, true⟩ T t .empty) [] = some (em, s') ∧ s'.sub = .empty ∧
    (∀ e σ, (e, σ) ∈ em → e ∈ [e3, e2, e1] ∧ e.MatchedBy x t .empty σ) ∧
    (∀ e σ, e ∈ [e3, e2, e1] → e.Passes x ⟨0, true⟩ → e.MatchedBy x t .empty σ → (e, σ) ∈ em) :=
  pdtree_search_exact reach x rfl ⟨0, true⟩ t wt plain .empty (fun _ _ _ _ => rfl)

/-- Two of the three entries match, and each is handed out twice. -/
theorem twice : (pdAll x ⟨0, true⟩ 40 (pdSearchInit ⟨0, true⟩ T t .empty) []).map (fun r => r.1.map fun p => p.1.id) =
    some [12, 12, 11, 11] := by decide +kernel

/-- With a date, only entries that are later come (the first one is handed out once although it is too old: its node is not
checked before). -/
example : (pdAll x ⟨6, true⟩ 40 (pdSearchInit ⟨6, true⟩ T t .empty) []).map (fun r => r.1.map fun p => (p.1.id, p.1.date)) =
    some [(12, 7), (12, 7), (11, 6)] := by decide +kernel

/-- Deletion. -/
example : ∃ T' res, pdDelete T s2 2 6 = some (T', res) ∧ res = 1 ∧ PDReach sig T' [e3, e1] := by
  obtain ⟨T', res, h1, h2, h3⟩ := pdtree_delete_count reach 2 6 (t := s2) ⟨e2, by simp, rfl⟩ (by simp [e1, e2, e3])
  exact ⟨T', res, h1, by rw [h2]; decide +kernel, by simpa [e1, e2, e3, s1, s2, s3] using h3⟩

def xr : RWCtx := ⟨sig, fun _ => false, false, fun _ => .app 2 [], fun _ _ => false⟩
/-- `g(x, x) = f(x)`, not oriented. -/
def d : Demod := ⟨7, s2, s1, false, 4⟩

/-- The hypotheses of `pdtree_realises_index`. -/
example : ∃ enum, DSet.OK xr ⟨[d], 9, enum⟩ := by
  have hr : PDReach sig (pdInsert (pdInsert .empty (demodEntry d false)) (demodEntry d true)) [demodEntry d true, demodEntry d false] := by
    refine .insert _ (.insert _ .empty ?_ ?_ ?_) ?_ ?_ ?_
    all_goals simp [demodEntry, d, Demod.lhs, s1, s2, sig, Sig.WT, Sig.WTL, Sig.ty]
  obtain ⟨enum, h, -⟩ := pdtree_realises_index hr xr rfl true true true [d] 9 (by
    intro e
    simp only [List.mem_cons, List.not_mem_nil, or_false, exists_eq_left, Bool.exists_bool]
    simp [d, or_comm]) (by simp [d])
  exact ⟨enum, h⟩

end PDTreeEx

end Verif.Props
