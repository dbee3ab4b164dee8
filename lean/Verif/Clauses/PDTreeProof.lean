import Verif.Clauses.PDTreeSpec
import Mathlib.Data.List.Perm.Basic
import Mathlib.Data.List.Perm.Lattice

/-! # Proofs about discrimination trees: flattening, contents, constraints -/

namespace Verif.PDProof
open Verif

/-! ## Flattening -/

theorem flatL_append (a b : List Term) : pdFlatL (a ++ b) = pdFlatL a ++ pdFlatL b := by
  induction a with
  | nil => simp [pdFlatL]
  | cons t a ih => simp [pdFlatL, ih]

theorem lrKeys_flat (stk : List Term) : ∀ n, Term.sizeL stk ≤ n → lrKeys n stk = pdFlatL stk := by
  intro n
  induction n generalizing stk with
  | zero =>
    intro h
    cases stk with
    | nil => simp [lrKeys, pdFlatL]
    | cons t ts => cases t <;> simp [Term.sizeL, Term.size] at h
  | succ n ih =>
    intro h
    cases stk with
    | nil => simp [lrKeys, lrNext, pdFlatL]
    | cons t ts =>
      cases t with
      | var y =>
        simp only [lrKeys, lrNext, pdKey, pdFlatL, pdFlat, List.singleton_append]
        rw [ih]; simp [Term.sizeL, Term.size] at h; omega
      | app f us =>
        simp only [lrKeys, lrNext, pdKey, pdFlatL, pdFlat, List.cons_append]
        rw [ih, flatL_append]
        have : ∀ a b : List Term, Term.sizeL (a ++ b) = Term.sizeL a + Term.sizeL b := by
          intro a b; induction a with
          | nil => simp [Term.sizeL]
          | cons t a ih => simp [Term.sizeL, ih]; omega
        rw [this]; simp [Term.sizeL, Term.size] at h; omega

/-- Weight of a key. -/
def kw : PDKey → Nat
  | .sym _ => FW
  | .var _ => VW

def keyW (p : List PDKey) : Nat := (p.map kw).sum

@[simp] theorem keyW_nil : keyW [] = 0 := rfl
@[simp] theorem keyW_cons (k p) : keyW (k :: p) = kw k + keyW p := by simp [keyW]
theorem keyW_append (a b) : keyW (a ++ b) = keyW a + keyW b := by simp [keyW]

mutual
theorem keyW_flat : ∀ t : Term, keyW (pdFlat t) = t.weight VW FW
  | .var x => by simp [pdFlat, Term.weight, kw]
  | .app f ts => by simp [pdFlat, Term.weight, kw, keyW_flatL ts]
theorem keyW_flatL : ∀ ts : List Term, keyW (pdFlatL ts) = Term.weightL VW FW ts
  | [] => by simp [pdFlatL, Term.weightL]
  | t :: ts => by simp [pdFlatL, Term.weightL, keyW_append, keyW_flat t, keyW_flatL ts]
end

mutual
theorem flat_inj (sg : Sig) : ∀ (s t : Term) (r r' : List PDKey), sg.WT s → sg.WT t →
    pdFlat s ++ r = pdFlat t ++ r' → s = t ∧ r = r'
  | .var x, .var y, r, r', _, _, h => by simp [pdFlat] at h; simp [h]
  | .var x, .app f ts, r, r', _, _, h => by simp [pdFlat] at h
  | .app f ts, .var y, r, r', _, _, h => by simp [pdFlat] at h
  | .app f ts, .app g us, r, r', hs, ht, h => by
    simp only [pdFlat, List.cons_append, List.cons.injEq, PDKey.sym.injEq] at h
    obtain ⟨rfl, h⟩ := h
    rw [Sig.wt_app] at hs ht
    have hl : ts.length = us.length := by
      have h1 := congrArg List.length hs.1
      have h2 := congrArg List.length ht.1
      simp at h1 h2; omega
    obtain ⟨h1, h2⟩ := flatL_inj sg ts us r r' hs.2 ht.2 hl h
    exact ⟨by rw [h1], h2⟩
theorem flatL_inj (sg : Sig) : ∀ (ss ts : List Term) (r r' : List PDKey), (∀ s ∈ ss, sg.WT s) → (∀ t ∈ ts, sg.WT t) →
    ss.length = ts.length → pdFlatL ss ++ r = pdFlatL ts ++ r' → ss = ts ∧ r = r'
  | [], [], r, r', _, _, _, h => by simpa [pdFlatL] using h
  | [], _ :: _, _, _, _, _, hl, _ => by simp at hl
  | _ :: _, [], _, _, _, _, hl, _ => by simp at hl
  | s :: ss, t :: ts, r, r', hs, ht, hl, h => by
    simp only [pdFlatL, List.append_assoc] at h
    obtain ⟨h1, h2⟩ := flat_inj sg s t _ _ (hs s (by simp)) (ht t (by simp)) h
    obtain ⟨h3, h4⟩ := flatL_inj sg ss ts r r' (fun a ha => hs a (by simp [ha])) (fun a ha => ht a (by simp [ha]))
      (by simpa using hl) h2
    exact ⟨by rw [h1, h3], h4⟩
end

theorem flat_eq {sg : Sig} {s t : Term} (hs : sg.WT s) (ht : sg.WT t) (h : pdFlat s = pdFlat t) : s = t :=
  (flat_inj sg s t [] [] hs ht (by rw [h])).1

/-! ## Contents -/

mutual
/-- All entries at or below a node with the keys leading to them. -/
def all : PDNode → List (List PDKey × PDEntry)
  | .mk _ _ es fa va => es.map (fun e => ([], e)) ++ (allA .sym fa ++ allA .var va)
def allA (mk : Nat → PDKey) : PDAlts → List (List PDKey × PDEntry)
  | .nil => []
  | .cons k n r => (all n).map (fun pe => (mk k :: pe.1, pe.2)) ++ allA mk r
end

def keys : PDAlts → List Nat
  | .nil => []
  | .cons k _ r => k :: keys r

mutual
/-- Structural invariant of a node and everything below. -/
def WF : PDNode → Prop
  | .mk leaf _ _ fa va => (leaf = true → fa = .nil ∧ va = .nil) ∧ WFA fa ∧ WFA va
def WFA : PDAlts → Prop
  | .nil => True
  | .cons k n r => k ∉ keys r ∧ WF n ∧ n.ref = (all n).length ∧ all n ≠ [] ∧ WFA r
end

theorem get_none {a : PDAlts} {k : Nat} : a.get k = none ↔ k ∉ keys a := by
  fun_induction PDAlts.get a k with
  | case1 => simp [keys]
  | case2 => simp [keys]
  | case3 k n r j h ih => simp [keys, ih]; omega

theorem keys_set (a : PDAlts) (k : Nat) (n : PDNode) : ∀ j, j ∈ keys (a.set k n) ↔ j = k ∨ j ∈ keys a := by
  fun_induction PDAlts.set a k n with
  | case1 => simp [keys]
  | case2 => simp [keys]
  | case3 k n r j m h ih => intro i; simp [keys, ih]; tauto

theorem keys_erase (a : PDAlts) (k : Nat) : ∀ j, j ∈ keys (a.erase k) → j ∈ keys a := by
  fun_induction PDAlts.erase a k with
  | case1 => simp [keys]
  | case2 => intro j h; simp [keys, h]
  | case3 k n r j h ih => intro i hi; simp only [keys, List.mem_cons] at hi ⊢; rcases hi with h | h; exact .inl h; exact .inr (ih i h)

/-- The contents of the child for a key, or nothing. -/
def childAll (a : PDAlts) (k : Nat) : List (List PDKey × PDEntry) :=
  match a.get k with | none => [] | some n => all n

theorem wfa_get {a : PDAlts} {k : Nat} {n : PDNode} (h : WFA a) (hg : a.get k = some n) :
    WF n ∧ n.ref = (all n).length ∧ all n ≠ [] := by
  fun_induction PDAlts.get a k with
  | case1 => simp at hg
  | case2 n0 r j => simp only [Option.some.injEq] at hg; subst hg; exact ⟨h.2.1, h.2.2.1, h.2.2.2.1⟩
  | case3 k n r j hne ih => exact ih h.2.2.2.2 hg

theorem set_spec {a : PDAlts} {k : Nat} {n : PDNode} (h : WFA a) (hn : WF n) (hr : n.ref = (all n).length)
    (hne : all n ≠ []) : WFA (a.set k n) := by
  fun_induction PDAlts.set a k n with
  | case1 => exact ⟨by simp [keys], hn, hr, hne, trivial⟩
  | case2 n0 r j => exact ⟨h.1, hn, hr, hne, h.2.2.2.2⟩
  | case3 k n0 r j n hkj ih =>
    refine ⟨fun hm => ?_, h.2.1, h.2.2.1, h.2.2.2.1, ih h.2.2.2.2 hn hr hne⟩
    rcases (keys_set r j n k).1 hm with h1 | h1
    · exact hkj h1
    · exact h.1 h1

theorem erase_spec {a : PDAlts} {k : Nat} (h : WFA a) : WFA (a.erase k) := by
  fun_induction PDAlts.erase a k with
  | case1 => exact h
  | case2 => exact h.2.2.2.2
  | case3 k n0 r j hkj ih =>
    exact ⟨fun hm => h.1 (keys_erase _ _ _ hm), h.2.1, h.2.2.1, h.2.2.2.1, ih h.2.2.2.2⟩

/-- Everything stored in alternatives other than `k`. -/
def others (mk : Nat → PDKey) (a : PDAlts) (k : Nat) : List (List PDKey × PDEntry) := allA mk (a.erase k)

theorem allA_get {mk : Nat → PDKey} {a : PDAlts} {k : Nat} {n : PDNode} (hg : a.get k = some n) :
    (allA mk a).Perm ((all n).map (fun pe => (mk k :: pe.1, pe.2)) ++ others mk a k) := by
  fun_induction PDAlts.get a k with
  | case1 => simp at hg
  | case2 n0 r j => simp only [Option.some.injEq] at hg; subst hg; simp [allA, others, PDAlts.erase]
  | case3 k n0 r j hne ih =>
    simp only [others, PDAlts.erase, if_neg hne, allA]
    refine ((ih hg).append_left _).trans ?_
    rw [← List.append_assoc, ← List.append_assoc]
    exact List.perm_append_comm.append_right _

theorem others_eq_of_get_none {mk : Nat → PDKey} {a : PDAlts} {k : Nat} (hg : a.get k = none) : others mk a k = allA mk a := by
  fun_induction PDAlts.get a k with
  | case1 => simp [others, PDAlts.erase]
  | case2 n0 r j => simp at hg
  | case3 k n0 r j hne ih =>
    have := ih hg
    simp only [others] at this
    simp [others, PDAlts.erase, if_neg hne, allA, this]

theorem erase_set (a : PDAlts) (k : Nat) (n : PDNode) : (a.set k n).erase k = a.erase k := by
  fun_induction PDAlts.set a k n with
  | case1 => simp [PDAlts.erase]
  | case2 => simp [PDAlts.erase]
  | case3 k n0 r j n hkj ih => simp [PDAlts.erase, if_neg hkj, ih]

theorem get_set (a : PDAlts) (k j : Nat) (n : PDNode) : (a.set k n).get j = if j = k then some n else a.get j := by
  fun_induction PDAlts.set a k n with
  | case1 i m => simp only [PDAlts.get]; by_cases h : i = j <;> simp [h]; omega
  | case2 n0 r i m => simp only [PDAlts.get]; by_cases h : i = j <;> simp [h]; omega
  | case3 k n0 r i n hki ih =>
    simp only [PDAlts.get, ih]
    by_cases h : k = j
    · simp [h]; omega
    · simp [h]

theorem get_erase_ne {a : PDAlts} {k j : Nat} (h : j ≠ k) : (a.erase k).get j = a.get j := by
  fun_induction PDAlts.erase a k with
  | case1 => simp
  | case2 n0 r i => simp [PDAlts.get, Ne.symm h]
  | case3 k n0 r i hki ih => simp [PDAlts.get, ih h]

theorem get_erase_self {a : PDAlts} {k : Nat} (hw : WFA a) : (a.erase k).get k = none := by
  fun_induction PDAlts.erase a k with
  | case1 => simp [PDAlts.get]
  | case2 n0 r i => exact get_none.2 hw.1
  | case3 k n0 r i hki ih => simp [PDAlts.get, hki, ih hw.2.2.2.2]

theorem allA_set {mk : Nat → PDKey} (a : PDAlts) (k : Nat) (n : PDNode) :
    (allA mk (a.set k n)).Perm ((all n).map (fun pe => (mk k :: pe.1, pe.2)) ++ others mk a k) := by
  have := allA_get (mk := mk) (a := a.set k n) (k := k) (n := n) (by simp [get_set])
  rwa [others, erase_set] at this

/-! ### Insertion -/

theorem any_false {es : List PDEntry} {e : PDEntry} (h : ∀ e' ∈ es, e'.id ≠ e.id) : pdStore es e = e :: es := by
  simp only [pdStore]
  rw [if_neg]
  simpa using fun x hx => h x hx

theorem all_alloc : all .alloc = [] := by simp [PDNode.alloc, all, allA]
theorem wf_alloc : WF .alloc := by simp [PDNode.alloc, WF, WFA]

theorem ins_spec (e : PDEntry) : ∀ (ks : List PDKey) (n : PDNode), WF n → (∀ pe ∈ all n, pe.2.id ≠ e.id) →
    WF (pdIns e ks n) ∧ (all (pdIns e ks n)).Perm ((ks, e) :: all n) ∧ (pdIns e ks n).ref = n.ref + 1 := by
  intro ks
  induction ks with
  | nil =>
    rintro ⟨leaf, ref, es, fa, va⟩ hw hf
    have := any_false (es := es) (e := e) (fun e' he => hf ([], e') (by simp [all, he]))
    simp only [pdIns, this]
    exact ⟨hw, by simp [all], rfl⟩
  | cons k ks ih =>
    rintro ⟨leaf, ref, es, fa, va⟩ ⟨hl, hfa, hva⟩ hf
    have key : ∀ (mk : Nat → PDKey) (a : PDAlts) (j : Nat) (n : PDNode), WFA a → (a.get j = some n ∨ a.get j = none ∧ n = .alloc) →
        (∀ pe ∈ allA mk a, pe.2.id ≠ e.id) →
        WFA (a.set j (pdIns e ks n)) ∧ (allA mk (a.set j (pdIns e ks n))).Perm ((mk j :: ks, e) :: allA mk a) := by
      intro mk a j n ha hg hfr
      have hn : WF n ∧ n.ref = (all n).length := by
        rcases hg with hg | ⟨-, rfl⟩
        · exact ⟨(wfa_get ha hg).1, (wfa_get ha hg).2.1⟩
        · exact ⟨wf_alloc, by simp [all_alloc]; rfl⟩
      have hperm : (allA mk a).Perm ((all n).map (fun pe => (mk j :: pe.1, pe.2)) ++ others mk a j) := by
        rcases hg with hg | ⟨hg, rfl⟩
        · exact allA_get hg
        · rw [all_alloc, others_eq_of_get_none hg]; simp
      obtain ⟨h1, h2, h3⟩ := ih n hn.1 (fun pe hpe => hfr (mk j :: pe.1, pe.2)
        (hperm.mem_iff.2 (List.mem_append_left _ (List.mem_map.2 ⟨pe, hpe, rfl⟩))))
      refine ⟨set_spec ha h1 (by rw [h3, h2.length_eq, hn.2]; simp) (fun hnil => by
          rw [hnil] at h2; have := h2.length_eq; simp at this), ?_⟩
      refine (allA_set a j _).trans ?_
      refine ((h2.map _).append_right _).trans ?_
      simp only [List.map_cons, List.cons_append]
      exact (hperm.symm).cons _
    cases k with
    | sym f =>
      have hfr : ∀ pe ∈ allA .sym fa, pe.2.id ≠ e.id := fun pe hpe => hf pe (by simp [all, hpe])
      have fin : ∀ n l, (fa.get f = some n ∧ l = leaf ∨ fa.get f = none ∧ n = .alloc ∧ l = false) →
          WF (.mk l (ref + 1) es (fa.set f (pdIns e ks n)) va) ∧
          (all (.mk l (ref + 1) es (fa.set f (pdIns e ks n)) va)).Perm ((.sym f :: ks, e) :: all (.mk leaf ref es fa va)) := by
        intro n l hn
        obtain ⟨h1, h2⟩ := key .sym fa f n hfa (by tauto) hfr
        refine ⟨⟨fun hl' => ?_, h1, hva⟩, ?_⟩
        · rcases hn with ⟨hg, rfl⟩ | ⟨-, -, rfl⟩
          · rw [(hl hl').1] at hg; simp [PDAlts.get] at hg
          · cases hl'
        · simp only [all]
          refine (List.Perm.append_left _ (h2.append_right _)).trans ?_
          exact List.perm_middle
      simp only [pdIns]
      split
      · next n hg => exact ⟨(fin n leaf (.inl ⟨hg, rfl⟩)).1, (fin n leaf (.inl ⟨hg, rfl⟩)).2, rfl⟩
      · next hg => exact ⟨(fin _ false (.inr ⟨hg, rfl, rfl⟩)).1, (fin _ false (.inr ⟨hg, rfl, rfl⟩)).2, rfl⟩
    | var y =>
      have hfr : ∀ pe ∈ allA .var va, pe.2.id ≠ e.id := fun pe hpe => hf pe (by simp [all, hpe])
      have fin : ∀ n l, (va.get y = some n ∧ l = leaf ∨ va.get y = none ∧ n = .alloc ∧ l = false) →
          WF (.mk l (ref + 1) es fa (va.set y (pdIns e ks n))) ∧
          (all (.mk l (ref + 1) es fa (va.set y (pdIns e ks n)))).Perm ((.var y :: ks, e) :: all (.mk leaf ref es fa va)) := by
        intro n l hn
        obtain ⟨h1, h2⟩ := key .var va y n hva (by tauto) hfr
        refine ⟨⟨fun hl' => ?_, hfa, h1⟩, ?_⟩
        · rcases hn with ⟨hg, rfl⟩ | ⟨-, -, rfl⟩
          · rw [(hl hl').2] at hg; simp [PDAlts.get] at hg
          · cases hl'
        · simp only [all]
          rw [← List.append_assoc, ← List.append_assoc]
          refine (List.Perm.append_left _ h2).trans ?_
          exact List.perm_middle
      simp only [pdIns]
      split
      · next n hg => exact ⟨(fin n leaf (.inl ⟨hg, rfl⟩)).1, (fin n leaf (.inl ⟨hg, rfl⟩)).2, rfl⟩
      · next hg => exact ⟨(fin _ false (.inr ⟨hg, rfl, rfl⟩)).1, (fin _ false (.inr ⟨hg, rfl, rfl⟩)).2, rfl⟩

/-! ### Deletion -/

/-- What a deletion keeps. -/
def keep (ks : List PDKey) (c : Nat) (pe : List PDKey × PDEntry) : Bool := !(decide (pe.1 = ks) && pe.2.clause == c)

theorem filter_other {mk : Nat → PDKey} {a : PDAlts} {k : PDKey} {ks : List PDKey} {c : Nat}
    (h : ∀ j ∈ keys a, mk j ≠ k) : (allA mk a).filter (keep (k :: ks) c) = allA mk a := by
  rw [List.filter_eq_self]
  intro pe hpe
  induction a using PDAlts.rec (motive_1 := fun _ => True) with
  | mk => trivial
  | nil => simp [allA] at hpe
  | cons j n r _ ih =>
    simp only [allA, List.mem_append, List.mem_map] at hpe
    rcases hpe with ⟨pe', -, rfl⟩ | hpe
    · have : mk j ≠ k := h j (by simp [keys])
      simp [keep, this]
    · exact ih (fun i hi => h i (by simp [keys, hi])) hpe

theorem keys_erase_ne {a : PDAlts} {k : Nat} (hw : WFA a) : k ∉ keys (a.erase k) :=
  get_none.1 (get_erase_self hw)

theorem del_spec (c : Nat) : ∀ (ks : List PDKey) (n n' : PDNode) (res : Nat), WF n → pdDel c ks n = some (n', res) →
    WF n' ∧ (all n').Perm ((all n).filter (keep ks c)) ∧ n'.ref = n.ref ∧ res + (all n').length = (all n).length := by
  intro ks
  induction ks with
  | nil =>
    rintro ⟨leaf, ref, es, fa, va⟩ n' res ⟨hl, hfa, hva⟩ h
    simp only [pdDel, Option.some.injEq, Prod.mk.injEq] at h
    obtain ⟨rfl, rfl⟩ := h
    have hkeep : ∀ (mk : Nat → PDKey) a, (allA mk a).filter (keep [] c) = allA mk a := by
      intro mk a
      rw [List.filter_eq_self]
      intro pe hpe
      induction a using PDAlts.rec (motive_1 := fun _ => True) with
      | mk => trivial
      | nil => simp [allA] at hpe
      | cons j n r _ ih =>
        simp only [allA, List.mem_append, List.mem_map] at hpe
        rcases hpe with ⟨pe', -, rfl⟩ | hpe
        · simp [keep]
        · exact ih hpe
    have hes : (es.map (fun e => (([] : List PDKey), e))).filter (keep [] c) =
        (es.filter fun e => e.clause != c).map (fun e => (([] : List PDKey), e)) := by
      rw [List.filter_map]
      congr 1
    have hall : (all (.mk leaf ref es fa va)).filter (keep [] c) = all (.mk leaf ref (es.filter fun e => e.clause != c) fa va) := by
      simp only [all, List.filter_append, hkeep, hes]
    refine ⟨⟨hl, hfa, hva⟩, by rw [hall], rfl, ?_⟩
    simp only [all, List.length_append, List.length_map]
    have := List.length_eq_length_filter_add (l := es) (fun e => e.clause == c)
    have h2 : (fun e : PDEntry => !(e.clause == c)) = fun e => e.clause != c := rfl
    rw [h2] at this
    omega
  | cons k ks ih =>
    rintro ⟨leaf, ref, es, fa, va⟩ n' res ⟨hl, hfa, hva⟩ h
    have key : ∀ (mk : Nat → PDKey) (a : PDAlts) (j : Nat) (n m : PDNode), (∀ i, mk i = mk j → i = j) → WFA a →
        a.get j = some n → pdDel c ks n = some (m, res) →
        WFA (pdUnlink res j m a) ∧ (allA mk (pdUnlink res j m a)).Perm ((allA mk a).filter (keep (mk j :: ks) c)) ∧
        res + (allA mk (pdUnlink res j m a)).length = (allA mk a).length := by
      intro mk a j n m hinj ha hg hd
      obtain ⟨hwn, hrn, hne⟩ := wfa_get ha hg
      obtain ⟨h1, h2, h3, h4⟩ := ih n m res hwn hd
      have hfil : ((all n).map (fun pe => (mk j :: pe.1, pe.2))).filter (keep (mk j :: ks) c) =
          ((all n).filter (keep ks c)).map (fun pe => (mk j :: pe.1, pe.2)) := by
        rw [List.filter_map]
        congr 1
        apply List.filter_congr
        intro e _
        simp [keep]
      have hoth : (others mk a j).filter (keep (mk j :: ks) c) = others mk a j := by
        apply filter_other
        intro i hi he
        rw [hinj i he] at hi
        exact keys_erase_ne ha hi
      have hper := (allA_get (mk := mk) hg).filter (keep (mk j :: ks) c)
      rw [List.filter_append, hfil, hoth] at hper
      have hlen := (allA_get (mk := mk) hg).length_eq
      simp only [List.length_append, List.length_map] at hlen
      simp only [pdUnlink]
      by_cases hz : m.ref - res = 0
      · rw [if_pos hz]
        have hnil : all m = [] := by
          rw [← List.length_eq_zero_iff]; omega
        have hn0 : (all n).filter (keep ks c) = [] := by
          rw [hnil] at h2; exact h2.symm.eq_nil
        rw [hn0] at hper
        refine ⟨erase_spec ha, hper.symm, ?_⟩
        simp only [others] at hlen
        rw [hnil] at h4
        simp at h4
        omega
      · rw [if_neg hz]
        set m' := PDNode.mk (if m.ref - (res : Int) = m.ents.length then true else m.leaf) (m.ref - res) m.ents m.fa m.va with hm'
        have hall : all m' = all m := by
          rcases m with ⟨l, r, e, f, v⟩
          simp [hm', all, PDNode.ents, PDNode.fa, PDNode.va]
        have hlen' : m.ref - (res : Int) = (all m).length := by
          rw [h3, hrn]; omega
        have hwm' : WF m' := by
          rcases m with ⟨l, r, e, f, v⟩
          refine ⟨?_, h1.2.1, h1.2.2⟩
          intro hleaf
          split at hleaf
          · next he =>
            rw [he] at hlen'
            have hlen' : (e.length : Int) = (all (.mk l r e f v)).length := hlen'
            simp only [all, List.length_append, List.length_map] at hlen'
            have aux : ∀ (mk : Nat → PDKey) a, WFA a → (allA mk a).length = 0 → a = .nil := by
              intro mk a ha h0
              cases a with
              | nil => rfl
              | cons k n r =>
                have := ha.2.2.2.1
                rw [← List.length_pos_iff] at this
                simp only [allA, List.length_append, List.length_map] at h0
                omega
            exact ⟨aux .sym f h1.2.1 (by omega), aux .var v h1.2.2 (by omega)⟩
          · exact h1.1 hleaf
        have hm2 : m'.ref = (all m').length := by rw [hall]; exact hlen'
        have hm3 : all m' ≠ [] := by
          rw [hall, ← List.length_pos_iff]
          omega
        have hps := allA_set (mk := mk) a j m'
        rw [hall] at hps
        refine ⟨set_spec ha hwm' hm2 hm3, ?_, ?_⟩
        · exact (hps.trans ((h2.map _).append_right _)).trans hper.symm
        · rw [hps.length_eq]; simp only [List.length_append, List.length_map]; omega
    have hkeepE : ∀ es : List PDEntry, (es.map (fun e => (([] : List PDKey), e))).filter (keep (k :: ks) c) = es.map (fun e => ([], e)) := by
      intro es
      rw [List.filter_eq_self]
      intro pe hpe
      obtain ⟨e, -, rfl⟩ := List.mem_map.1 hpe
      simp [keep]
    cases k with
    | sym f =>
      simp only [pdDel] at h
      split at h
      · cases h
      · next n hg =>
        split at h
        · cases h
        · next m r hd =>
          simp only [Option.some.injEq, Prod.mk.injEq] at h
          obtain ⟨rfl, rfl⟩ := h
          obtain ⟨h1, h2, h3⟩ := key .sym fa f n m (by simp) hfa hg hd
          refine ⟨⟨fun hh => ?_, h1, hva⟩, ?_, rfl, ?_⟩
          · rw [(hl hh).1] at hg; simp [PDAlts.get] at hg
          · simp only [all, List.filter_append, hkeepE]
            rw [filter_other (mk := .var) (a := va) (by simp)]
            exact List.Perm.append_left _ (h2.append_right _)
          · simp only [all, List.length_append, List.length_map]; omega
    | var y =>
      simp only [pdDel] at h
      split at h
      · cases h
      · next n hg =>
        split at h
        · cases h
        · next m r hd =>
          simp only [Option.some.injEq, Prod.mk.injEq] at h
          obtain ⟨rfl, rfl⟩ := h
          obtain ⟨h1, h2, h3⟩ := key .var va y n m (by simp) hva hg hd
          refine ⟨⟨fun hh => ?_, hfa, h1⟩, ?_, rfl, ?_⟩
          · rw [(hl hh).2] at hg; simp [PDAlts.get] at hg
          · simp only [all, List.filter_append, hkeepE]
            rw [filter_other (mk := .sym) (a := fa) (by simp)]
            exact List.Perm.append_left _ (List.Perm.append_left _ h2)
          · simp only [all, List.length_append, List.length_map]; omega

theorem mem_allA {mk : Nat → PDKey} {a : PDAlts} (hw : WFA a) {pe : List PDKey × PDEntry} :
    pe ∈ allA mk a ↔ ∃ j n p, a.get j = some n ∧ (p, pe.2) ∈ all n ∧ pe.1 = mk j :: p := by
  induction a using PDAlts.rec (motive_1 := fun _ => True) with
  | mk => trivial
  | nil => simp [allA, PDAlts.get]
  | cons k n r _ ih =>
    simp only [allA, List.mem_append, List.mem_map, ih hw.2.2.2.2]
    constructor
    · rintro (⟨pe', hm, rfl⟩ | ⟨j, m, p, hg, hm, he⟩)
      · exact ⟨k, n, pe'.1, by simp [PDAlts.get], hm, rfl⟩
      · refine ⟨j, m, p, ?_, hm, he⟩
        rw [PDAlts.get, if_neg, hg]
        rintro rfl
        have := get_none.2 hw.1
        rw [hg] at this; cases this
    · rintro ⟨j, m, p, hg, hm, he⟩
      rw [PDAlts.get] at hg
      split at hg
      · next hkj =>
        cases hg
        exact .inl ⟨(p, pe.2), hm, by rw [← hkj] at he; exact Prod.ext he.symm rfl⟩
      · exact .inr ⟨j, m, p, hg, hm, he⟩

/-- Deletion finds the node of every stored entry. -/
theorem del_total (c : Nat) : ∀ (ks : List PDKey) (n : PDNode) (e : PDEntry), WF n → (ks, e) ∈ all n →
    ∃ r, pdDel c ks n = some r := by
  intro ks
  induction ks with
  | nil => rintro ⟨leaf, ref, es, fa, va⟩ e - -; exact ⟨_, rfl⟩
  | cons k ks ih =>
    rintro ⟨leaf, ref, es, fa, va⟩ e ⟨-, hfa, hva⟩ he
    simp only [all, List.mem_append, List.mem_map, Prod.mk.injEq, reduceCtorEq, false_and, and_false] at he
    rcases he with ⟨_, h⟩ | he | he
    · exact h.elim
    · obtain ⟨j, n, p, hg, hm, hk⟩ := (mem_allA hfa).1 he
      simp only [List.cons.injEq] at hk
      obtain ⟨rfl, rfl⟩ := hk
      obtain ⟨⟨r1, r2⟩, hr⟩ := ih n e (wfa_get hfa hg).1 hm
      exact ⟨_, by simp only [pdDel, hg, hr]; rfl⟩
    · obtain ⟨j, n, p, hg, hm, hk⟩ := (mem_allA hva).1 he
      simp only [List.cons.injEq] at hk
      obtain ⟨rfl, rfl⟩ := hk
      obtain ⟨⟨r1, r2⟩, hr⟩ := ih n e (wfa_get hva hg).1 hm
      exact ⟨_, by simp only [pdDel, hg, hr]; rfl⟩

end Verif.PDProof
