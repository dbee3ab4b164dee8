import Verif.Clauses.BceLoop
import Mathlib.Data.List.Perm.Subperm
import Mathlib.Data.List.Range

/-!
# Blocked clause elimination: termination
-/

namespace Verif.BceProof
open Props Term

variable {sg : Sig}

/-- The same result for all sufficiently large amounts of fuel. -/
def Settles {α : Type} (f : Nat → Option α) (P : α → Prop) : Prop := ∃ N r, P r ∧ ∀ k ≥ N, f k = some r

theorem settles_mono {α : Type} {f : Nat → Option α} {P Q : α → Prop} (h : Settles f P) (hPQ : ∀ r, P r → Q r) : Settles f Q := by
  obtain ⟨N, r, h1, h2⟩ := h
  exact ⟨N, r, hPQ r h1, h2⟩

theorem settles_pure {α : Type} {P : α → Prop} (r : α) (h : P r) : Settles (fun _ => some r) P := ⟨0, r, h, fun _ _ => rfl⟩

/-- Sequencing. -/
theorem settles_then {α β : Type} {f : Nat → Option α} {g : Nat → Option β} {P : α → Prop} {Q : β → Prop} (hf : Settles f P)
    (hg : ∀ r, P r → ∃ g', Settles g' Q ∧ ∀ k, f k = some r → g k = g' k) : Settles g Q := by
  obtain ⟨N, r, h1, h2⟩ := hf
  obtain ⟨g', ⟨M, q, h3, h4⟩, h5⟩ := hg r h1
  exact ⟨max N M, q, h3, fun k hk => (h5 k (h2 k (le_trans (le_max_left _ _) hk))).trans (h4 k (le_trans (le_max_right _ _) hk))⟩

theorem inst_settles {b : Nat → Option Term} (hb : GoodBindings sg b) (t : Term) : Settles (fun k => instOpt b (fun _ => none) k t) fun _ => True := by
  obtain ⟨σ, _, ⟨N, h⟩, _⟩ := instantiate_exact sg b (fun _ => none) hb t
  exact ⟨N, _, trivial, h⟩

theorem equalDeref_settles {b : Nat → Option Term} (hb : GoodBindings sg b) (K M : Lit) : Settles (fun k => equalDeref k b K M) fun _ => True := by
  obtain ⟨N1, a, _, h1⟩ := inst_settles hb K.l
  obtain ⟨N2, b', _, h2⟩ := inst_settles hb K.r
  obtain ⟨N3, c, _, h3⟩ := inst_settles hb M.l
  obtain ⟨N4, d, _, h4⟩ := inst_settles hb M.r
  refine ⟨max (max N1 N2) (max N3 N4), decide (a = c ∧ b' = d) || decide (a = d ∧ b' = c), trivial, fun k hk => ?_⟩
  simp only [equalDeref, h1 k (by omega), h2 k (by omega), h3 k (by omega), h4 k (by omega)]

theorem findComp_settles {b : Nat → Option Term} (hb : GoodBindings sg b) (M : Lit) : ∀ C : List Lit, Settles (fun k => findComp k b C M) fun _ => True
  | [] => settles_pure false trivial
  | K :: C => by
    by_cases h : K.pos = M.pos
    · obtain ⟨N, r, h1, h2⟩ := findComp_settles hb M C
      exact ⟨N, r, h1, fun k hk => by simp only [findComp, if_pos h]; exact h2 k hk⟩
    · refine settles_then (equalDeref_settles hb K M) fun r _ => ?_
      cases r with
      | true => exact ⟨_, settles_pure true trivial, fun k e => by simp only [findComp, if_neg h, e]⟩
      | false => exact ⟨_, findComp_settles hb M C, fun k e => by simp only [findComp, if_neg h, e]⟩

theorem anyComp_settles {b : Nat → Option Term} (hb : GoodBindings sg b) (C : List Lit) : ∀ Ms : List Lit, Settles (fun k => anyComp k b C Ms) fun _ => True
  | [] => settles_pure false trivial
  | M :: Ms => by
    refine settles_then (findComp_settles hb M C) fun r _ => ?_
    cases r with
    | true => exact ⟨_, settles_pure true trivial, fun k e => by simp only [anyComp, e]⟩
    | false => exact ⟨_, anyComp_settles hb C Ms, fun k e => by simp only [anyComp, e]⟩

/-- Positions of the literals added: new, different, in range. -/
theorem newComp_settles {b : Nat → Option Term} (hb : GoodBindings sg b) (C : List Lit) (proc : List Nat) : ∀ (Ms : List Lit) (i : Nat),
    Settles (fun k => newComp k b C proc i Ms) fun r => (r.map Prod.fst).Nodup ∧ ∀ q ∈ r, q.1 ∉ proc ∧ i ≤ q.1 ∧ q.1 < i + Ms.length
  | [], i => settles_pure [] (by simp)
  | M :: Ms, i => by
    refine settles_then (newComp_settles hb C proc Ms (i + 1)) fun r hr => ?_
    have hr' : ∀ q ∈ r, q.1 ∉ proc ∧ i ≤ q.1 ∧ q.1 < i + (M :: Ms).length := fun q hq => by
      obtain ⟨h1, h2, h3⟩ := hr.2 q hq
      exact ⟨h1, by omega, by simp; omega⟩
    by_cases hp : proc.contains i = true
    · exact ⟨_, settles_pure r ⟨hr.1, hr'⟩, fun k e => by simp only [newComp, e, if_pos hp]⟩
    · refine ⟨fun k => match findComp k b C M with | none => none | some true => some ((i, M) :: r) | some false => some r,
        settles_then (findComp_settles hb M C) fun x _ => ?_, fun k e => by
          simp only [newComp, e, if_neg hp]
          rcases findComp k b C M with _ | _ | _ <;> rfl⟩
      cases x with
      | false => exact ⟨_, settles_pure r ⟨hr.1, hr'⟩, fun k e => by simp only [e]⟩
      | true =>
        refine ⟨_, settles_pure ((i, M) :: r) ⟨?_, fun q hq => ?_⟩, fun k e => by simp only [e]⟩
        · simp only [List.map_cons, List.nodup_cons]
          refine ⟨fun h => ?_, hr.1⟩
          obtain ⟨q, hq, e⟩ := List.mem_map.1 h
          have := (hr.2 q hq).2.1
          omega
        · rcases List.mem_cons.1 hq with rfl | hq
          · exact ⟨by simpa using hp, Nat.le_refl _, by simp⟩
          · exact hr' q hq

theorem unify_settles {pp : Term → Bool} {st : SubstSt} (hst : GoodBindings sg st.bind) (s t : Term) : Settles (fun k => unify sg pp k s t st) fun r => GoodBindings sg r.2.bind := by
  obtain ⟨N, ⟨r, st'⟩, h⟩ := mgu_terminates sg s t (pp s) (pp t) st hst
  refine ⟨N, (r, st'), ?_, h⟩
  have e := h N (le_refl N)
  cases r with
  | true => exact (mgu_success sg N s t _ _ st st' hst e).1
  | false => rw [(mgu_failure sg N s t _ _ st st' hst e).1]; exact hst

theorem unifyNew_settles {pp : Term → Bool} (l : Term) : ∀ (Ms : List (Nat × Lit)) {st : SubstSt}, GoodBindings sg st.bind →
    Settles (fun k => unifyNew sg pp k l Ms st) fun r => ∀ st', r = some st' → GoodBindings sg st'.bind
  | [], st, hst => settles_pure (some st) fun st' h => by cases h; exact hst
  | (i, M) :: Ms, st, hst => by
    refine settles_then (unify_settles (pp := pp) hst l M.l) fun r hr => ?_
    obtain ⟨r, st'⟩ := r
    cases r with
    | false => exact ⟨_, settles_pure (none : Option SubstSt) (by simp), fun k e => by simp only [unifyNew, e]⟩
    | true => exact ⟨_, unifyNew_settles (pp := pp) l Ms hr, fun k e => by simp only [unifyNew, e]⟩

theorem resolventLoop_settles {pp : Term → Bool} (C : List Lit) (l : Term) (unif nonUnif : List Lit) : ∀ (d : Nat) {proc : List Nat} {st : SubstSt}, GoodBindings sg st.bind →
    proc.Nodup → (∀ i ∈ proc, i < unif.length) → unif.length - proc.length ≤ d →
      ∃ N r, ∀ k ≥ N, ∀ n ≥ d + 1, resolventLoop sg pp k C l unif nonUnif n proc st = some r := by
  intro d
  induction d with
  | zero =>
    intro proc st hst hnd hlt hd
    have hlen : proc.length = unif.length := by
      have : proc.length ≤ (List.range unif.length).length :=
        (List.subperm_of_subset hnd fun i hi => List.mem_range.2 (hlt i hi)).length_le
      rw [List.length_range] at this
      omega
    obtain ⟨N, r, _, h⟩ := anyComp_settles hst C nonUnif
    refine ⟨N, r, fun k hk n hn => ?_⟩
    obtain ⟨n, rfl⟩ : ∃ m, n = m + 1 := ⟨n - 1, by omega⟩
    have h' : anyComp k st.bind C nonUnif = some _ := h k hk
    unfold resolventLoop
    rw [h']
    cases r <;> simp [hlen]
  | succ d ih =>
    intro proc st hst hnd hlt hd
    obtain ⟨N, r, _, h⟩ := anyComp_settles hst C nonUnif
    cases r with
    | true =>
      refine ⟨N, true, fun k hk n hn => ?_⟩
      obtain ⟨n, rfl⟩ : ∃ m, n = m + 1 := ⟨n - 1, by omega⟩
      have h' : anyComp k st.bind C nonUnif = some _ := h k hk
      unfold resolventLoop
      rw [h']
    | false =>
      by_cases hlen : proc.length = unif.length
      · refine ⟨N, false, fun k hk n hn => ?_⟩
        obtain ⟨n, rfl⟩ : ∃ m, n = m + 1 := ⟨n - 1, by omega⟩
        have h' : anyComp k st.bind C nonUnif = some _ := h k hk
        unfold resolventLoop
        rw [h']
        simp only [if_pos hlen]
      · obtain ⟨N2, r2, hr2, h2⟩ := newComp_settles hst C proc unif 0
        cases r2 with
        | nil =>
          refine ⟨max N N2, false, fun k hk n hn => ?_⟩
          obtain ⟨n, rfl⟩ : ∃ m, n = m + 1 := ⟨n - 1, by omega⟩
          have h' : anyComp k st.bind C nonUnif = some _ := h k (by omega)
          have h2' : newComp k st.bind C proc 0 unif = some _ := h2 k (by omega)
          unfold resolventLoop
          rw [h']
          simp only [if_neg hlen, h2']
        | cons q new =>
          obtain ⟨N3, r3, hr3, h3⟩ := unifyNew_settles (pp := pp) l (q :: new) hst
          cases r3 with
          | none =>
            refine ⟨max N (max N2 N3), true, fun k hk n hn => ?_⟩
            obtain ⟨n, rfl⟩ : ∃ m, n = m + 1 := ⟨n - 1, by omega⟩
            have h' : anyComp k st.bind C nonUnif = some _ := h k (by omega)
            have h2' : newComp k st.bind C proc 0 unif = some _ := h2 k (by omega)
            have h3' : unifyNew sg pp k l (q :: new) st = some _ := h3 k (by omega)
            unfold resolventLoop
            rw [h']
            simp only [if_neg hlen, h2', h3']
          | some st' =>
            have hlt' : ∀ i ∈ proc ++ (q :: new).map Prod.fst, i < unif.length := by
              intro i hi
              rcases List.mem_append.1 hi with hi | hi
              · exact hlt i hi
              · obtain ⟨x, hx, rfl⟩ := List.mem_map.1 hi
                have := (hr2.2 x hx).2.2
                omega
            have hnd' : (proc ++ (q :: new).map Prod.fst).Nodup := by
              refine List.nodup_append.2 ⟨hnd, hr2.1, ?_⟩
              rintro a ha b hb rfl
              obtain ⟨x, hx, rfl⟩ := List.mem_map.1 hb
              exact (hr2.2 x hx).1 ha
            obtain ⟨N4, r4, h4⟩ := ih (hr3 st' rfl) hnd' hlt' (by simp only [List.length_append, List.length_map, List.length_cons]; omega)
            refine ⟨max N (max N2 (max N3 N4)), r4, fun k hk n hn => ?_⟩
            obtain ⟨n, rfl⟩ : ∃ m, n = m + 1 := ⟨n - 1, by omega⟩
            have h' : anyComp k st.bind C nonUnif = some _ := h k (by omega)
            have h2' : newComp k st.bind C proc 0 unif = some _ := h2 k (by omega)
            have h3' : unifyNew sg pp k l (q :: new) st = some _ := h3 k (by omega)
            unfold resolventLoop
            rw [h']
            simp only [if_neg hlen, h2', h3']
            exact h4 k (by omega) n (by omega)

theorem splitPartner_settles {pp : Term → Bool} (L : Lit) : ∀ D : List Lit, Settles (fun k => splitPartner sg pp k L D) fun _ => True
  | [] => settles_pure ([], []) trivial
  | M :: D => by
    refine settles_then (splitPartner_settles (pp := pp) L D) fun r _ => ?_
    obtain ⟨u, v⟩ := r
    by_cases hc : L.pos ≠ M.pos ∧ M.equ = false
    · refine ⟨fun k => match unify sg pp k L.l M.l ⟨fun _ => none, []⟩ with | none => none | some (true, _) => some (M :: u, v) | some (false, _) => some (u, M :: v),
        settles_then (unify_settles (sg := sg) (pp := pp) (st := ⟨fun _ => none, []⟩) good_none L.l M.l) fun x _ => ?_, fun k e => by
          simp only [splitPartner, e, if_pos hc]
          rcases unify sg pp k L.l M.l ⟨fun _ => none, []⟩ with _ | ⟨_ | _, _⟩ <;> rfl⟩
      obtain ⟨x, st⟩ := x
      cases x with
      | true => exact ⟨_, settles_pure (M :: u, v) trivial, fun k e => by simp only [e]⟩
      | false => exact ⟨_, settles_pure (u, M :: v) trivial, fun k e => by simp only [e]⟩
    · exact ⟨_, settles_pure (u, M :: v) trivial, fun k e => by simp only [splitPartner, e, if_neg hc]⟩

theorem checkUnif_settles {pp : Term → Bool} (C : List Lit) (l : Term) (unif nonUnif : List Lit) : ∀ (Ms : List Lit) (i : Nat), i + Ms.length ≤ unif.length →
    Settles (fun k => checkUnif sg pp k C l unif nonUnif i Ms) fun _ => True
  | [], i, _ => settles_pure true trivial
  | M :: Ms, i, hi => by
    simp only [List.length_cons] at hi
    refine settles_then (unify_settles (sg := sg) (pp := pp) (st := ⟨fun _ => none, []⟩) good_none l M.l) fun r hr => ?_
    obtain ⟨r, st⟩ := r
    have hloop : Settles (fun k => resolventLoop sg pp k C l unif nonUnif k [i] st) fun _ => True := by
      obtain ⟨N, x, h⟩ := resolventLoop_settles (pp := pp) C l unif nonUnif (unif.length - 1) (proc := [i]) hr (by simp) (by simp; omega) (by simp)
      exact ⟨max N (unif.length - 1 + 1), x, trivial, fun k hk => h k (le_trans (le_max_left _ _) hk) k (le_trans (le_max_right _ _) hk)⟩
    refine ⟨fun k => match resolventLoop sg pp k C l unif nonUnif k [i] st with
        | none => none | some false => some false | some true => checkUnif sg pp k C l unif nonUnif (i + 1) Ms, settles_then hloop fun x _ => ?_, fun k e => by
          simp only [checkUnif, e]
          rcases resolventLoop sg pp k C l unif nonUnif k [i] st with _ | _ | _ <;> rfl⟩
    cases x with
    | false => exact ⟨_, settles_pure false trivial, fun k e => by simp only [e]⟩
    | true => exact ⟨_, checkUnif_settles (pp := pp) C l unif nonUnif Ms (i + 1) (by omega), fun k e => by simp only [e]⟩

theorem checkNeq_settles {pp : Term → Bool} (C : List Lit) (j : Nat) (D : List Lit) : Settles (fun k => checkNeq sg pp k C j D) fun _ => True := by
  unfold checkNeq
  split
  · exact settles_pure true trivial
  · next L _ =>
    refine settles_then (splitPartner_settles (sg := sg) (pp := pp) L D) fun r _ => ?_
    obtain ⟨u, v⟩ := r
    exact ⟨_, checkUnif_settles (sg := sg) (pp := pp) (C.eraseIdx j) L.l u v u 0 (by omega), fun k e => by simp only [e]⟩

/-- Finitely many tests need a bounded amount of fuel. -/
theorem forall_lt_settles {P : Nat → Nat → Prop} : ∀ n : Nat, (∀ i < n, ∃ N, ∀ k ≥ N, P i k) → ∃ N, ∀ k ≥ N, ∀ i < n, P i k
  | 0, _ => ⟨0, by simp⟩
  | n + 1, h => by
    obtain ⟨N, hN⟩ := forall_lt_settles n fun i hi => h i (by omega)
    obtain ⟨M, hM⟩ := h n (by omega)
    refine ⟨max N M, fun k hk i hi => ?_⟩
    rcases Nat.lt_succ_iff_lt_or_eq.1 hi with hi | rfl
    · exact hN k (by omega) i hi
    · exact hM k (by omega)

theorem bceCheck_total (taut : List Lit → Bool) (pp : Term → Bool) (Cs : List (List Lit)) : ∃ N, ∀ k ≥ N, ∀ cl lit i, bceCheck sg taut pp k Cs cl lit i ≠ none := by
  by_cases he : eqFound Cs = true
  · exact ⟨0, fun k _ cl lit i => by simp [bceCheck, he]⟩
  · -- numbers beyond the end of a list behave like the end
    have h1 : ∀ cl < Cs.length + 1, ∃ N, ∀ k ≥ N, ∀ i < Cs.length + 1, ∀ lit < (copyDisjoint (Cs[cl]?.getD [])).length + 1, bceCheck sg taut pp k Cs cl lit i ≠ none := by
      intro cl _
      refine forall_lt_settles (P := fun i k => ∀ lit < (copyDisjoint (Cs[cl]?.getD [])).length + 1, bceCheck sg taut pp k Cs cl lit i ≠ none) _ fun i _ => ?_
      refine forall_lt_settles (P := fun lit k => bceCheck sg taut pp k Cs cl lit i ≠ none) _ fun lit _ => ?_
      obtain ⟨N, r, _, h⟩ := checkNeq_settles (sg := sg) (pp := pp) (copyDisjoint (Cs[cl]?.getD [])) lit (Cs[i]?.getD [])
      exact ⟨N, fun k hk => by simp [bceCheck, he, h k hk]⟩
    obtain ⟨N, hN⟩ := forall_lt_settles (P := fun cl k => ∀ i < Cs.length + 1, ∀ lit < (copyDisjoint (Cs[cl]?.getD [])).length + 1, bceCheck sg taut pp k Cs cl lit i ≠ none) _ h1
    refine ⟨N, fun k hk cl lit i => ?_⟩
    have e1 : Cs[cl]? = Cs[min cl Cs.length]? := by
      by_cases h : cl < Cs.length
      · rw [Nat.min_eq_left (by omega)]
      · rw [Nat.min_eq_right (by omega), List.getElem?_eq_none (by omega), List.getElem?_eq_none (by omega)]
    have e2 : Cs[i]? = Cs[min i Cs.length]? := by
      by_cases h : i < Cs.length
      · rw [Nat.min_eq_left (by omega)]
      · rw [Nat.min_eq_right (by omega), List.getElem?_eq_none (by omega), List.getElem?_eq_none (by omega)]
    by_cases hl : lit < (copyDisjoint (Cs[min cl Cs.length]?.getD [])).length
    · have := hN k hk (min cl Cs.length) (by omega) (min i Cs.length) (by omega) lit (by omega)
      simpa only [bceCheck, e1, e2, he] using this
    · have e3 : (copyDisjoint (Cs[cl]?.getD []))[lit]? = none := by
        rw [e1]; exact List.getElem?_eq_none (by omega)
      simp [bceCheck, he, checkNeq, e3]

/-! ## The loop -/

def taskSum (q : List BceTask) : Nat := (q.map fun t => 2 * t.rem.length + 1).sum

def blockSum (b : List (Nat × BceTask)) : Nat := (b.map fun t => 2 * t.2.rem.length).sum

theorem taskSum_erase : ∀ {q : List BceTask} {i : Nat} {t : BceTask}, q[i]? = some t → taskSum q = taskSum (q.eraseIdx i) + (2 * t.rem.length + 1)
  | [], i, t, h => by simp at h
  | x :: q, 0, t, h => by
    simp at h
    subst h
    simp [taskSum]
    omega
  | x :: q, i + 1, t, h => by
    have := taskSum_erase (q := q) (i := i) (t := t) (by simpa using h)
    simp only [taskSum, List.eraseIdx_cons_succ, List.map_cons, List.sum_cons] at this ⊢
    omega

theorem taskSum_append (a b : List BceTask) : taskSum (a ++ b) = taskSum a + taskSum b := by simp [taskSum]

theorem resume_sum (c : Nat) : ∀ {b : List (Nat × BceTask)}, (∀ x ∈ b, ∃ cs, x.2.rem = x.1 :: cs) →
    taskSum ((b.filter fun b => b.1 = c).map fun b => ⟨b.2.cl, b.2.lit, b.2.rem.tail⟩) + blockSum (b.filter fun b => b.1 ≠ c) ≤ blockSum b
  | [], _ => by simp [taskSum, blockSum]
  | x :: b, h => by
    have ih := resume_sum c (b := b) fun y hy => h y (List.mem_cons_of_mem _ hy)
    obtain ⟨cs, hcs⟩ := h x List.mem_cons_self
    by_cases hx : x.1 = c
    · have e1 : ((x :: b).filter fun b => b.1 = c) = x :: b.filter fun b => b.1 = c := by simp [hx]
      have e2 : ((x :: b).filter fun b => b.1 ≠ c) = b.filter fun b => b.1 ≠ c := by simp [hx]
      rw [e1, e2]
      simp only [taskSum, blockSum, List.map_cons, List.sum_cons] at ih ⊢
      rw [hcs]
      simp only [List.tail_cons, List.length_cons]
      omega
    · have e1 : ((x :: b).filter fun b => b.1 = c) = b.filter fun b => b.1 = c := by simp [hx]
      have e2 : ((x :: b).filter fun b => b.1 ≠ c) = x :: b.filter fun b => b.1 ≠ c := by simp [hx]
      rw [e1, e2]
      simp only [taskSum, blockSum, List.map_cons, List.sum_cons] at ih ⊢
      omega

theorem skip_total {check : Nat → Option Bool} (hc : ∀ i, check i ≠ none) (arch : List Nat) (cl : Nat) : ∀ cs : List Nat, skipCands check arch cl cs ≠ none
  | [] => by simp [skipCands]
  | c :: cs => by
    unfold skipCands
    split
    · exact skip_total hc arch cl cs
    · split
      · next e => exact absurd e (hc c)
      · exact skip_total hc arch cl cs
      · simp

theorem loop_total {Cs : List (List Lit)} {check : Nat → Nat → Nat → Option Bool} (hc : ∀ cl lit i, check cl lit i ≠ none) (pick : List BceTask → Nat) :
    ∀ (n : Nat) {s : BceSt}, LoopOK Cs check s → taskSum s.queue + blockSum s.blocked < n → bceLoop check pick n s ≠ none
  | 0, s, _, h => by omega
  | n + 1, s, hs, h => by
    unfold bceLoop
    split
    · simp
    · next t e =>
      have hsum := taskSum_erase e
      simp only
      split
      · exact loop_total hc pick n (step_drop hs _) (by simp only; omega)
      · split
        · next e2 => exact absurd e2 (skip_total (hc t.cl t.lit) _ _ _)
        · next e2 =>
          refine loop_total hc pick n (step_done hs _ t.cl) ?_
          have := resume_sum t.cl (b := s.blocked) fun x hx => (hs.blocked x hx).2
          simp only [taskSum_append]
          omega
        · next c cs e2 =>
          refine loop_total hc pick n (step_block hs _ (pick_mem e) e2) ?_
          have := (skip_spec e2).2
          simp only [blockSum, List.map_cons, List.sum_cons, List.length_cons] at this h ⊢
          omega

end Verif.BceProof
