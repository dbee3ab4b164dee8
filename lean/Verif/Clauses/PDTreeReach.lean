import Verif.Clauses.PDTreeEnum
import Verif.Clauses.PDTreeSpec

/-! # Proofs about discrimination trees: histories -/

namespace Verif.PDProof
open Verif

structure Inv (sg : Sig) (T : PDTree) (S : List PDEntry) : Prop where
  wf : WF T.root
  size : COK min pdLongMax PDEntry.weight T.size [] T.root
  age : COK max 0 PDEntry.date T.age [] T.root
  perm : (all T.root).Perm (S.map fun e => (pdFlat e.side, e))
  wt : ∀ e ∈ S, sg.WT e.side
  ids : (S.map PDEntry.id).Nodup

theorem inv_empty (sg : Sig) : Inv sg .empty [] := by
  have hat : ∀ r n', At PDNode.alloc r n' → n' = PDNode.alloc := by
    intro r n' h
    induction h with
    | root => rfl
    | @child p m k m' _ h2 ih =>
      rw [ih] at h2
      cases k <;> simp [PDNode.alloc, PDNode.child, PDNode.fa, PDNode.va, PDAlts.get] at h2
  refine ⟨by simp [PDTree.empty, PDNode.alloc, WF, WFA], ?_, ?_, by simp [PDTree.empty, PDNode.alloc, all, allA], by simp, by simp⟩
  · intro r n' h v hv
    rw [hat r n' h]
    simp [PDTree.empty] at hv
    simp [agg, PDNode.alloc, all, allA, ← hv]
  · intro r n' h v hv
    rw [hat r n' h]
    simp [PDTree.empty] at hv
    simp [agg, PDNode.alloc, all, allA, ← hv]

theorem mem_all {sg : Sig} {T : PDTree} {S : List PDEntry} (h : Inv sg T S) {p e} : (p, e) ∈ all T.root ↔ e ∈ S ∧ p = pdFlat e.side := by
  rw [h.perm.mem_iff, List.mem_map]
  constructor
  · rintro ⟨e', h1, h2⟩; cases h2; exact ⟨h1, rfl⟩
  · rintro ⟨h1, rfl⟩; exact ⟨e, h1, rfl⟩

theorem inv_insert {sg : Sig} {T : PDTree} {S : List PDEntry} (h : Inv sg T S) (e : PDEntry) (hwt : sg.WT e.side)
    (hf : ∀ e' ∈ S, e'.id ≠ e.id) : Inv sg (pdInsert T e) (e :: S) := by
  have hf' : ∀ pe ∈ all T.root, pe.2.id ≠ e.id := fun pe hpe => hf pe.2 ((mem_all h (p := pe.1) (e := pe.2)).1 hpe).1
  obtain ⟨h1, h2, -⟩ := ins_spec e (pdFlat e.side) T.root h.wf hf'
  refine ⟨h1, ins_cok selMin e _ _ _ _ h.wf hf' h.size, ins_cok selMax e _ _ _ _ h.wf hf' h.age, ?_, ?_, ?_⟩
  · exact h2.trans (by simpa using h.perm)
  · intro e' he
    rcases List.mem_cons.1 he with rfl | he
    · exact hwt
    · exact h.wt e' he
  · rw [List.map_cons, List.nodup_cons]
    refine ⟨?_, h.ids⟩
    rw [List.mem_map]
    rintro ⟨e', h3, h4⟩
    exact hf e' h3 h4

/-- The entries a deletion leaves. -/
def rest (t : Term) (c : Nat) (S : List PDEntry) : List PDEntry := S.filter fun e => !(decide (e.side = t) && e.clause == c)

theorem inv_delete {sg : Sig} {T T' : PDTree} {S : List PDEntry} (h : Inv sg T S) {t : Term} {c date res : Nat} (hwt : sg.WT t)
    (hd : ∀ e ∈ S, e.clause = c → e.date = date) (hdel : pdDelete T t c date = some (T', res)) :
    Inv sg T' (rest t c S) ∧ res + (rest t c S).length = S.length := by
  simp only [pdDelete] at hdel
  cases hp : pdDel c (pdFlat t) T.root with
  | none => rw [hp] at hdel; cases hdel
  | some r =>
    obtain ⟨n, res'⟩ := r
    rw [hp] at hdel
    simp only [Option.some.injEq, Prod.mk.injEq] at hdel
    obtain ⟨rfl, rfl⟩ := hdel
    obtain ⟨h1, h2, -, h4⟩ := del_spec c _ _ _ _ h.wf hp
    have hside : ∀ pe ∈ all T.root, pe.1 = pdFlat t → pe.2.side = t := by
      rintro ⟨p, e⟩ hpe rfl
      obtain ⟨h5, h6⟩ := (mem_all h).1 hpe
      exact (flat_eq hwt (h.wt e h5) h6).symm
    have hperm : (all n).Perm ((rest t c S).map fun e => (pdFlat e.side, e)) := by
      refine h2.trans ((h.perm.filter _).trans ?_)
      rw [List.filter_map, rest]
      have : S.filter ((keep (pdFlat t) c) ∘ fun e => (pdFlat e.side, e)) = S.filter fun e => !(decide (e.side = t) && e.clause == c) := by
        apply List.filter_congr
        intro e he
        have : (pdFlat e.side = pdFlat t) ↔ (e.side = t) := ⟨fun h' => flat_eq (h.wt e he) hwt h', fun h' => by rw [h']⟩
        simp [keep, this]
      rw [this]
    refine ⟨⟨h1, ?_, ?_, hperm, fun e he => h.wt e (List.mem_filter.1 he).1, ?_⟩, ?_⟩
    · refine del_cok selMin _ _ _ _ _ _ h.wf hp ?_ h.size
      intro pe hpe hk _
      rw [PDEntry.weight, hside pe hpe hk]
    · refine del_cok selMax _ _ _ _ _ _ h.wf hp ?_ h.age
      intro pe hpe _ hc
      exact hd pe.2 ((mem_all h (p := pe.1) (e := pe.2)).1 hpe).1 hc
    · exact List.Sublist.nodup (List.Sublist.map _ List.filter_sublist) h.ids
    · have h5 := hperm.length_eq
      have h6 := h.perm.length_eq
      simp only [List.length_map] at h5 h6
      omega

theorem inv_search {sg : Sig} {T : PDTree} {S : List PDEntry} (h : Inv sg T S) {x : PDCtx} {q : PDQuery} {t sub em s}
    (hs : PDSteps x q (pdSearchInit q T t sub) em s) : Inv sg ⟨T.root, s.size, s.age⟩ S := by
  have := steps_keep h.wf hs (by
    intro fr hfr
    simp only [pdSearchInit, List.mem_singleton] at hfr
    subst hfr
    refine ⟨.root, fun y c hy => ?_⟩
    simp only [pdEnter] at hy ⊢
    split at hy
    · simp [toL] at hy
    · exact hy) ⟨h.size, h.age⟩
  exact ⟨h.wf, this.size, this.age, h.perm, h.wt, h.ids⟩

theorem reach_inv {sg : Sig} {T : PDTree} {S : List PDEntry} (h : PDReach sg T S) : Inv sg T S := by
  induction h with
  | empty => exact inv_empty sg
  | insert e _ hwt hf _ ih => exact inv_insert ih e hwt hf
  | delete t c date _ hwt hd hdel ih => exact (inv_delete ih hwt hd hdel).1
  | search _ _ hs ih => exact inv_search ih hs

theorem flat_ne_nil (s : Term) : pdFlat s ≠ [] := by cases s <;> simp [pdFlat]

/-- The whole search over a reachable tree. -/
theorem search_all {sg : Sig} {T : PDTree} {S : List PDEntry} (h : Inv sg T S) (x : PDCtx) (q : PDQuery) (t : Term) (sub : SubstSt) :
    ∃ N em s', pdAll x q N (pdSearchInit q T t sub) [] = some (em, s') ∧ s'.frames = [] ∧ s'.sub = sub ∧
      (∀ e σ, (e, σ) ∈ em → e ∈ S ∧ walk x (pdFlat e.side) [t] sub = some σ) ∧
      (∀ e σ, e ∈ S → passB x q e = true → walk x (pdFlat e.side) [t] sub = some σ →
        em.filter (fun p => decide (p.1 = e)) = [(e, σ), (e, σ)]) := by
  obtain ⟨s', h1, h2, h3, -⟩ := run_search (x := x) (q := q) h.wf T rfl h.size h.age t sub
  obtain ⟨N, hN⟩ := steps_all h1 h2
  refine ⟨N, _, s', hN, h2, h3, ?_, ?_⟩
  · intro e σ hm
    obtain ⟨p, h4, h5⟩ := enumN_sound x q T.root [t] sub t.sw e σ hm
    obtain ⟨h6, rfl⟩ := (mem_all h).1 h4
    exact ⟨h6, h5⟩
  · intro e σ he hp hk
    have hcount := enumN_count x q T.root [t] sub t.sw h.wf ⟨0, by simp [Term.weightL, Term.sw], by
      rintro ⟨p, e'⟩ hpe
      obtain ⟨-, rfl⟩ := (mem_all h).1 hpe
      simp [PDEntry.weight, keyW_flat]⟩
    have hcount := hcount.trans (h.perm.flatMap_right _)
    have hf := hcount.filter (fun p => decide (p.1 = e))
    rw [List.filter_filter] at hf
    have e1 : (enumN x q T.root [t] sub t.sw).filter (fun p => decide (p.1 = e) && passB x q p.1) =
        (enumN x q T.root [t] sub t.sw).filter (fun p => decide (p.1 = e)) := by
      apply List.filter_congr
      intro p _
      by_cases hpe : p.1 = e
      · simp [hpe, hp]
      · simp [hpe]
    rw [e1, List.flatMap_map] at hf
    have e2 : ∀ (S : List PDEntry), (S.map PDEntry.id).Nodup → e ∈ S →
        (S.flatMap fun e => D1 x q [t] sub (pdFlat e.side, e)).filter (fun p => decide (p.1 = e)) = [(e, σ), (e, σ)] := by
      intro S
      have hother : ∀ e', e' ≠ e → (D1 x q [t] sub (pdFlat e'.side, e')).filter (fun p => decide (p.1 = e)) = [] := by
        intro e' hne
        simp only [D1]
        split
        · split
          · rfl
          · split <;> simp [hne]
        · rfl
      induction S with
      | nil => intro _ h; cases h
      | cons a S ih =>
        intro hn hm
        rw [List.map_cons, List.nodup_cons] at hn
        rw [List.flatMap_cons, List.filter_append]
        rcases List.mem_cons.1 hm with rfl | hm
        · have hz : (S.flatMap fun e => D1 x q [t] sub (pdFlat e.side, e)).filter (fun p => decide (p.1 = e)) = [] := by
            rw [List.filter_flatMap]
            apply flatMap_eq_nil'
            intro e' he'
            apply hother
            rintro rfl
            exact hn.1 (List.mem_map_of_mem he')
          rw [hz, List.append_nil]
          simp [D1, hp, hk, flat_ne_nil]
        · have hne : a ≠ e := by
            rintro rfl
            exact hn.1 (List.mem_map_of_mem hm)
          rw [hother a hne, List.nil_append]
          exact ih hn.2 hm
    rw [e2 S h.ids he] at hf
    have hr : [(e, σ), (e, σ)] = List.replicate 2 (e, σ) := rfl
    rw [hr] at hf ⊢
    exact List.perm_replicate.1 hf

end Verif.PDProof
