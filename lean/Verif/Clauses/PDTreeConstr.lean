import Verif.Clauses.PDTreeProof

/-! # Proofs about discrimination trees: the constraint fields are exact or invalid -/

namespace Verif.PDProof
open Verif

/-- Minimum and maximum. -/
structure SelOp (op : Nat → Nat → Nat) : Prop where
  comm : ∀ a b, op a b = op b a
  assoc : ∀ a b c, op (op a b) c = op a (op b c)
  sel : ∀ a b, op a b = a ∨ op a b = b

theorem selMin : SelOp min := ⟨Nat.min_comm, Nat.min_assoc, fun a b => by omega⟩
theorem selMax : SelOp max := ⟨Nat.max_comm, Nat.max_assoc, fun a b => by omega⟩

section
variable {op : Nat → Nat → Nat} {u : Nat} {val : PDEntry → Nat}

theorem SelOp.idem (h : SelOp op) (a : Nat) : op a a = a := by rcases h.sel a a with h | h <;> exact h
theorem SelOp.left (h : SelOp op) (a b c : Nat) : op a (op b c) = op b (op a c) := by
  rw [← h.assoc, h.comm a b, h.assoc]

theorem SelOp.foldr_op (h : SelOp op) (x acc : Nat) (l : List Nat) : op x (l.foldr op acc) = l.foldr op (op x acc) := by
  induction l with
  | nil => rfl
  | cons a l ih => simp only [List.foldr_cons]; rw [h.left, ih]

theorem SelOp.foldl_foldr (h : SelOp op) (acc : Nat) (es : List PDEntry) :
    es.foldl (fun a e => op a (val e)) acc = (es.map val).foldr op acc := by
  induction es generalizing acc with
  | nil => rfl
  | cons a l ih => simp only [List.foldl_cons, List.map_cons, List.foldr_cons, ih]; rw [h.foldr_op, h.comm]

theorem SelOp.foldr_perm (h : SelOp op) {acc : Nat} {l l' : List Nat} (hp : l.Perm l') :
    l.foldr op acc = l'.foldr op acc := by
  induction hp with
  | nil => rfl
  | cons x _ ih => simp [ih]
  | swap x y l => simp only [List.foldr_cons]; rw [h.left]
  | trans _ _ h1 h2 => rw [h1, h2]

theorem SelOp.absorb (h : SelOp op) (l : List Nat) (u : Nat) : op (l.foldr op u) u = l.foldr op u := by
  rw [h.comm, h.foldr_op, h.idem]

/-- The exact value of the constraint of a node. -/
def agg (op : Nat → Nat → Nat) (u : Nat) (val : PDEntry → Nat) (n : PDNode) : Nat :=
  ((all n).map fun pe => val pe.2).foldr op u

theorem agg_perm (h : SelOp op) {n n' : PDNode} (hp : (all n').Perm (all n)) : agg op u val n' = agg op u val n :=
  h.foldr_perm (hp.map _)

/-- `n'` is the node reached from `n` by the keys `r` (deepest first). -/
inductive At (n : PDNode) : List PDKey → PDNode → Prop
  | root : At n [] n
  | child {p m k m'} : At n p m → m.child k = some m' → At n (k :: p) m'

theorem At.snoc {n c : PDNode} {k : PDKey} (hc : n.child k = some c) {r n'} (h : At c r n') : At n (r ++ [k]) n' := by
  induction h with
  | root => exact .child .root hc
  | child _ h2 ih => exact .child ih h2

theorem At.cases_snoc {n : PDNode} {r n'} (h : At n r n') :
    (r = [] ∧ n' = n) ∨ ∃ k c r', r = r' ++ [k] ∧ n.child k = some c ∧ At c r' n' := by
  induction h with
  | root => exact .inl ⟨rfl, rfl⟩
  | @child p m k m' h1 h2 ih =>
    rcases ih with ⟨rfl, rfl⟩ | ⟨j, c, r', rfl, hc, ha⟩
    · exact .inr ⟨k, m', [], rfl, h2, .root⟩
    · exact .inr ⟨j, c, k :: r', rfl, hc, .child ha h2⟩

theorem At.func {n : PDNode} {r a b} (h : At n r a) (h' : At n r b) : a = b := by
  induction h generalizing b with
  | root => cases h'; rfl
  | child h1 h2 ih =>
    cases h' with
    | child g1 g2 => cases ih g1; rw [h2] at g2; exact Option.some.inj g2

theorem At.split {n : PDNode} {r p a b} (h : At n p a) (h' : At n (r ++ p) b) : At a r b := by
  induction r generalizing b with
  | nil => cases h.func h'; exact .root
  | cons k r ih =>
    cases h' with
    | child g1 g2 => exact .child (ih g1) g2

theorem At.comp {n a b : PDNode} {p r} (h : At n p a) (h' : At a r b) : At n (r ++ p) b := by
  induction h' with
  | root => exact h
  | child _ g2 ih => exact .child ih g2

theorem wf_child {n c : PDNode} {k : PDKey} (hw : WF n) (hc : n.child k = some c) : WF c := by
  rcases n with ⟨l, r, es, fa, va⟩
  cases k with
  | sym f => exact (wfa_get hw.2.1 hc).1
  | var y => exact (wfa_get hw.2.2 hc).1

theorem At.wf {n : PDNode} (hw : WF n) {r a} (h : At n r a) : WF a := by
  induction h with
  | root => exact hw
  | child _ h2 ih => exact wf_child ih h2

/-- Every valid field at or below the node with path `p` is exact. -/
def COK (op : Nat → Nat → Nat) (u : Nat) (val : PDEntry → Nat) (m : PDMap) (p : List PDKey) (n : PDNode) : Prop :=
  ∀ r n', At n r n' → ∀ v, m (r ++ p) = some v → v = agg op u val n'

theorem cok_child {m : PDMap} {p n k c} (h : COK op u val m p n) (hc : n.child k = some c) :
    COK op u val m (k :: p) c := by
  intro r n' ha v hv
  exact h (r ++ [k]) n' (.snoc hc ha) v (by simpa using hv)

theorem cok_intro {m : PDMap} {p n} (h1 : ∀ v, m p = some v → v = agg op u val n)
    (h2 : ∀ k c, n.child k = some c → COK op u val m (k :: p) c) : COK op u val m p n := by
  intro r n' ha v hv
  rcases ha.cases_snoc with ⟨rfl, rfl⟩ | ⟨k, c, r', rfl, hc, ha'⟩
  · exact h1 v (by simpa using hv)
  · exact h2 k c hc r' n' ha' v (by simpa using hv)

theorem suffix_inj {a b : PDKey} {p r : List PDKey} (h : (a :: p) <:+ (r ++ b :: p)) : a = b := by
  have h2 : (b :: p) <:+ (r ++ b :: p) := List.suffix_append _ _
  have := (List.suffix_of_suffix_length_le h h2 (by simp)).eq_of_length (by simp)
  exact (List.cons.inj this).1

theorem not_suffix_self {a : PDKey} {p : List PDKey} : ¬ (a :: p) <:+ p := by
  intro h; have := h.length_le; simp at this

theorem cok_congr {m m' : PDMap} {p n} (h : ∀ r, p <:+ r → m' r = m r) (hc : COK op u val m p n) : COK op u val m' p n := by
  intro r n' ha v hv
  rw [h _ (List.suffix_append _ _)] at hv
  exact hc r n' ha v hv

theorem upd_ne {m : PDMap} {p r v} (h : r ≠ p) : m.upd p v r = m r := by simp [PDMap.upd, h]
theorem upd_self {m : PDMap} {p v} : m.upd p v p = v := by simp [PDMap.upd]

/-- Updating the field of a node itself does not concern its children. -/
theorem cok_upd_parent {m : PDMap} {p n k v} (hc : COK op u val m (k :: p) n) : COK op u val (m.upd p v) (k :: p) n :=
  cok_congr (fun r hr => upd_ne (fun h => by subst h; exact not_suffix_self hr)) hc

theorem allA_vals (mk mk' : Nat → PDKey) (a : PDAlts) : (allA mk a).map (fun pe => val pe.2) = (allA mk' a).map (fun pe => val pe.2) := by
  induction a using PDAlts.rec (motive_1 := fun _ => True) with
  | mk => trivial
  | nil => simp [allA]
  | cons k n r _ ih => simp [allA, ih, Function.comp_def]

theorem agg_mk (h : SelOp op) (l r es fa va) : agg op u val (.mk l r es fa va) =
    ((allA .var va).map fun pe => val pe.2).foldr op (((allA .sym fa).map fun pe => val pe.2).foldr op (pdEntAgg op u val es)) := by
  rw [pdEntAgg, h.foldl_foldr, ← List.foldr_append, ← List.foldr_append]
  apply h.foldr_perm
  simp only [all, List.map_append, List.map_map, Function.comp_def]
  refine List.perm_append_comm.trans ?_
  exact (List.perm_append_comm).append_right _ |>.trans (by simp)

mutual
theorem get_agg (h : SelOp op) : ∀ (n : PDNode) (m : PDMap) (p : List PDKey), WF n → COK op u val m p n →
    (pdGet op u val m p n).1 = agg op u val n ∧ COK op u val (pdGet op u val m p n).2 p n ∧
      ∀ r, ¬ p <:+ r → (pdGet op u val m p n).2 r = m r
  | .mk leaf ref es fa va, m, p, hw, hc => by
    simp only [pdGet]
    cases hm : m p with
    | some v => exact ⟨hc [] _ .root v (by simpa using hm), hc, fun _ _ => rfl⟩
    | none =>
      have key : ∀ (x : Nat) (m' : PDMap), x = agg op u val (.mk leaf ref es fa va) →
          (∀ k c, (PDNode.mk leaf ref es fa va).child k = some c → COK op u val m' (k :: p) c) →
          (∀ r, ¬ p <:+ r → m' r = m r) →
          x = agg op u val (.mk leaf ref es fa va) ∧ COK op u val (m'.upd p (some x)) p (.mk leaf ref es fa va) ∧
            ∀ r, ¬ p <:+ r → (m'.upd p (some x)) r = m r := by
        intro x m' hx hk hf
        refine ⟨hx, cok_intro (fun v hv => ?_) (fun k c hkc => cok_upd_parent (hk k c hkc)), fun r hr => ?_⟩
        · rw [upd_self] at hv; cases hv; exact hx
        · rw [upd_ne (by rintro rfl; exact hr (List.suffix_refl _)), hf r hr]
      by_cases hl : leaf = true
      · simp only [hl, if_true]
        obtain ⟨rfl, rfl⟩ := hw.1 hl
        subst hl
        exact key _ m (by rw [agg_mk h]; simp [allA]) (fun k c hkc => cok_child hc hkc) (fun _ _ => rfl)
      · simp only [if_neg hl]
        have habs : op (pdEntAgg op u val es) u = pdEntAgg op u val es := by
          rw [pdEntAgg, h.foldl_foldr]; exact h.absorb _ _
        obtain ⟨a1, a2, a3⟩ := getAlts_agg h fa .sym (by simp) m p (pdEntAgg op u val es) hw.2.1
          (fun j n hj => cok_child hc (k := .sym j) hj) habs
        have habs2 : op (pdGetAlts op u val .sym p (pdEntAgg op u val es) m fa).1 u =
            (pdGetAlts op u val .sym p (pdEntAgg op u val es) m fa).1 := by
          rw [a1, h.comm, h.foldr_op, h.comm, habs]
        obtain ⟨b1, b2, b3⟩ := getAlts_agg h va .var (by simp) (pdGetAlts op u val .sym p (pdEntAgg op u val es) m fa).2 p
          (pdGetAlts op u val .sym p (pdEntAgg op u val es) m fa).1 hw.2.2
          (fun j n hj => cok_congr (fun r hr => a3 r (fun i _ hi => by
            obtain ⟨r', rfl⟩ := hr
            have := suffix_inj hi
            cases this)) (cok_child hc (k := .var j) hj)) habs2
        apply key
        · rw [b1, a1, agg_mk h]
        · intro k c hkc
          cases k with
          | var y => exact b2 y c hkc
          | sym f =>
            refine cok_congr (fun r hr => b3 r (fun i _ hi => ?_)) (a2 f c hkc)
            obtain ⟨r', rfl⟩ := hr
            have := suffix_inj hi
            cases this
        · intro r hr
          rw [b3 r (fun i _ hi => hr (List.IsSuffix.trans (List.suffix_cons _ _) hi)),
            a3 r (fun i _ hi => hr (List.IsSuffix.trans (List.suffix_cons _ _) hi))]
theorem getAlts_agg (h : SelOp op) : ∀ (a : PDAlts) (mk : Nat → PDKey) (_ : ∀ i j, mk i = mk j → i = j) (m : PDMap) (p : List PDKey) (acc : Nat),
    WFA a → (∀ j n, a.get j = some n → COK op u val m (mk j :: p) n) → op acc u = acc →
    (pdGetAlts op u val mk p acc m a).1 = ((allA mk a).map fun pe => val pe.2).foldr op acc ∧
      (∀ j n, a.get j = some n → COK op u val (pdGetAlts op u val mk p acc m a).2 (mk j :: p) n) ∧
      ∀ r, (∀ j ∈ keys a, ¬ (mk j :: p) <:+ r) → (pdGetAlts op u val mk p acc m a).2 r = m r
  | .nil, mk, _, m, p, acc, _, _, _ => by simp [pdGetAlts, allA, PDAlts.get]
  | .cons k n r, mk, hinj, m, p, acc, hw, hc, hacc => by
    simp only [pdGetAlts]
    obtain ⟨a1, a2, a3⟩ := get_agg h n m (mk k :: p) hw.2.1 (hc k n (by simp [PDAlts.get]))
    have hacc' : op (op acc (pdGet op u val m (mk k :: p) n).1) u = op acc (pdGet op u val m (mk k :: p) n).1 := by
      rw [h.comm _ u, h.left, a1, agg, h.comm u, h.absorb]
    have hkr : ∀ j c, r.get j = some c → k ≠ j := by
      rintro j c hj rfl
      have := get_none.2 hw.1
      rw [hj] at this; cases this
    obtain ⟨b1, b2, b3⟩ := getAlts_agg h r mk hinj (pdGet op u val m (mk k :: p) n).2 p _ hw.2.2.2.2
      (fun j c hj => cok_congr (fun q hq => a3 q (fun hi => by
        obtain ⟨q', rfl⟩ := hq
        exact hkr j c hj (hinj _ _ (suffix_inj hi)))) (hc j c (by simp [PDAlts.get, hkr j c hj, hj]))) hacc'
    refine ⟨?_, ?_, ?_⟩
    · rw [b1, a1, agg, h.foldr_op, hacc, ← List.foldr_append]
      apply h.foldr_perm
      simp only [allA, List.map_append, List.map_map, Function.comp_def]
      exact List.perm_append_comm
    · intro j c hj
      rw [PDAlts.get] at hj
      split at hj
      · next hkj =>
        cases hj
        subst hkj
        refine cok_congr (fun q hq => b3 q (fun i hi hs => ?_)) a2
        obtain ⟨q', rfl⟩ := hq
        have := hinj _ _ (suffix_inj hs)
        subst this
        exact hw.1 hi
      · exact b2 j c hj
    · intro q hq
      rw [b3 q (fun j hj => hq j (by simp [keys, hj])), a3 q (hq k (by simp [keys]))]
end

/-- A lookup at a node inside a tree. -/
theorem get_at (h : SelOp op) {root n : PDNode} {p : List PDKey} {m : PDMap} (hw : WF root) (hat : At root p n)
    (hc : COK op u val m [] root) :
    (pdGet op u val m p n).1 = agg op u val n ∧ COK op u val (pdGet op u val m p n).2 [] root := by
  have hcn : COK op u val m p n := fun r n' ha v hv => hc (r ++ p) n' (hat.comp ha) v (by simpa using hv)
  obtain ⟨h1, h2, h3⟩ := get_agg h n m p (hat.wf hw) hcn
  refine ⟨h1, fun r n' ha v hv => ?_⟩
  rw [List.append_nil] at hv
  by_cases hs : p <:+ r
  · obtain ⟨r', rfl⟩ := hs
    exact h2 r' n' (hat.split ha) v hv
  · rw [h3 r hs] at hv
    exact hc r n' ha v (by simpa using hv)

/-! ## Insertion -/

theorem child_ins (e : PDEntry) (k : PDKey) (ks : List PDKey) (n : PDNode) (j : PDKey) :
    (pdIns e (k :: ks) n).child j = if j = k then some (pdIns e ks ((n.child k).getD .alloc)) else n.child j := by
  rcases n with ⟨l, r, es, fa, va⟩
  cases k with
  | sym f =>
    simp only [pdIns]
    split
    · next n hg =>
      cases j with
      | sym g => simp [PDNode.child, PDNode.fa, get_set, hg]
      | var y => simp [PDNode.child, PDNode.va]
    · next hg =>
      cases j with
      | sym g => simp [PDNode.child, PDNode.fa, get_set, hg]
      | var y => simp [PDNode.child, PDNode.va]
  | var x =>
    simp only [pdIns]
    split
    · next n hg =>
      cases j with
      | sym g => simp [PDNode.child, PDNode.fa]
      | var y => simp [PDNode.child, PDNode.va, get_set, hg]
    · next hg =>
      cases j with
      | sym g => simp [PDNode.child, PDNode.fa]
      | var y => simp [PDNode.child, PDNode.va, get_set, hg]

theorem child_alloc (k : PDKey) : PDNode.alloc.child k = none := by
  cases k <;> simp [PDNode.alloc, PDNode.child, PDNode.fa, PDNode.va, PDAlts.get]

theorem child_mem {n c : PDNode} {k : PDKey} (hw : WF n) (hc : n.child k = some c) {pe : List PDKey × PDEntry} (h : pe ∈ all c) :
    (k :: pe.1, pe.2) ∈ all n := by
  rcases n with ⟨l, r, es, fa, va⟩
  cases k with
  | sym f =>
    simp only [all, List.mem_append]
    exact .inr (.inl ((mem_allA hw.2.1).2 ⟨f, c, pe.1, hc, h, rfl⟩))
  | var y =>
    simp only [all, List.mem_append]
    exact .inr (.inr ((mem_allA hw.2.2).2 ⟨y, c, pe.1, hc, h, rfl⟩))

theorem insMap_frame (v : Nat) : ∀ (ks p : List PDKey) (n : PDNode) (m : PDMap) (r : List PDKey), ¬ p <:+ r →
    pdInsMap op u v ks p n m r = m r := by
  intro ks
  induction ks with
  | nil => intro p n m r hr; exact upd_ne (by rintro rfl; exact hr (List.suffix_refl _))
  | cons k ks ih =>
    intro p n m r hr
    have h1 : ∀ v', m.upd p v' r = m r := fun v' => upd_ne (by rintro rfl; exact hr (List.suffix_refl _))
    have h2 : ¬ (k :: p) <:+ r := fun h => hr (List.IsSuffix.trans (List.suffix_cons _ _) h)
    simp only [pdInsMap]
    cases n.child k with
    | some n' => exact (ih _ _ _ _ h2).trans (h1 _)
    | none => show pdInsMap op u v ks (k :: p) _ _ r = _; rw [ih _ _ _ _ h2, upd_ne (by rintro rfl; exact h2 (List.suffix_refl _)), h1]

theorem insMap_head (v : Nat) (ks p : List PDKey) (n : PDNode) (m : PDMap) :
    pdInsMap op u v ks p n m p = (m p).map (op v) := by
  cases ks with
  | nil => exact upd_self
  | cons k ks =>
    simp only [pdInsMap]
    cases n.child k with
    | some n' => exact (insMap_frame _ _ _ _ _ _ not_suffix_self).trans upd_self
    | none => show pdInsMap op u v ks (k :: p) _ _ p = _; rw [insMap_frame _ _ _ _ _ _ not_suffix_self, upd_ne (by simp), upd_self]

theorem ins_cok (h : SelOp op) (e : PDEntry) : ∀ (ks p : List PDKey) (n : PDNode) (m : PDMap), WF n →
    (∀ pe ∈ all n, pe.2.id ≠ e.id) → COK op u val m p n →
    COK op u val (pdInsMap op u (val e) ks p n m) p (pdIns e ks n) := by
  intro ks
  induction ks with
  | nil =>
    intro p n m hw hf hc
    have hagg : agg op u val (pdIns e [] n) = op (val e) (agg op u val n) := by
      rw [agg, h.foldr_perm ((ins_spec e [] n hw hf).2.1.map _)]; rfl
    refine cok_intro (fun v hv => ?_) (fun k c hk => ?_)
    · rw [insMap_head] at hv
      obtain ⟨w, hw', rfl⟩ := Option.map_eq_some_iff.1 hv
      rw [hagg, hc [] n .root w (by simpa using hw')]
    · have : n.child k = some c := by
        rcases n with ⟨l, r, es, fa, va⟩
        cases k <;> exact hk
      exact cok_upd_parent (cok_child hc this)
  | cons k ks ih =>
    intro p n m hw hf hc
    have hagg : agg op u val (pdIns e (k :: ks) n) = op (val e) (agg op u val n) := by
      rw [agg, h.foldr_perm ((ins_spec e (k :: ks) n hw hf).2.1.map _)]; rfl
    refine cok_intro (fun v hv => ?_) (fun j c hj => ?_)
    · rw [insMap_head] at hv
      obtain ⟨w, hw', rfl⟩ := Option.map_eq_some_iff.1 hv
      rw [hagg, hc [] n .root w (by simpa using hw')]
    · rw [child_ins] at hj
      simp only [pdInsMap]
      by_cases hjk : j = k
      · subst hjk
        rw [if_pos rfl] at hj
        cases hj
        cases hch : n.child j with
        | some c =>
          exact ih (j :: p) c _ (wf_child hw hch) (fun pe hpe => hf (j :: pe.1, pe.2) (child_mem hw hch hpe))
            (cok_upd_parent (cok_child hc hch))
        | none =>
          refine ih (j :: p) .alloc _ wf_alloc (by simp [all_alloc]) ?_
          refine cok_intro (fun v hv => ?_) (fun i c hi => ?_)
          · rw [upd_self] at hv; cases hv; simp [agg, all_alloc]
          · rw [child_alloc] at hi; cases hi
      · rw [if_neg hjk] at hj
        have hns : ∀ r, (j :: p) <:+ r → ¬ (k :: p) <:+ r := by
          rintro r ⟨r', rfl⟩ hs
          exact hjk (suffix_inj hs).symm
        refine cok_congr (fun r hr => ?_) (cok_upd_parent (v := (m p).map (op (val e))) (cok_child hc hj))
        cases n.child k with
        | some n' => exact insMap_frame _ _ _ _ _ _ (hns r hr)
        | none =>
          show pdInsMap op u (val e) ks (k :: p) _ _ r = _
          rw [insMap_frame _ _ _ _ _ _ (hns r hr), upd_ne (by rintro rfl; exact hns _ hr (List.suffix_refl _))]

/-! ## Deletion -/

theorem delMap_frame (v : Nat) : ∀ (ks p : List PDKey) (m : PDMap) (r : List PDKey), ¬ p <:+ r → pdDelMap v ks p m r = m r := by
  intro ks
  induction ks with
  | nil =>
    intro p m r hr
    simp only [pdDelMap]
    split
    · exact upd_ne (by rintro rfl; exact hr (List.suffix_refl _))
    · rfl
  | cons k ks ih =>
    intro p m r hr
    have h2 : ¬ (k :: p) <:+ r := fun h => hr (List.IsSuffix.trans (List.suffix_cons _ _) h)
    simp only [pdDelMap]
    rw [ih _ _ _ h2]
    split
    · exact upd_ne (by rintro rfl; exact hr (List.suffix_refl _))
    · rfl

theorem delMap_head (v : Nat) (ks p : List PDKey) (m : PDMap) :
    pdDelMap v ks p m p = if m p = some v then none else m p := by
  cases ks with
  | nil =>
    simp only [pdDelMap]
    split
    · exact upd_self
    · rfl
  | cons k ks =>
    simp only [pdDelMap]
    rw [delMap_frame _ _ _ _ _ not_suffix_self]
    split
    · exact upd_self
    · rfl

/-- Removing elements of value `v` does not change an aggregate other than `v`. -/
theorem SelOp.remove (h : SelOp op) {l : List Nat} {v : Nat} {q : Nat × Bool → Bool} (l' : List (Nat × Bool))
    (hl : l'.map Prod.fst = l) (hq : ∀ x ∈ l', q x = false → x.1 = v) (hne : l.foldr op u ≠ v) :
    ((l'.filter q).map Prod.fst).foldr op u = l.foldr op u := by
  subst hl
  have key : (l'.map Prod.fst).foldr op u = ((l'.filter q).map Prod.fst).foldr op u ∨
      (l'.map Prod.fst).foldr op u = op v (((l'.filter q).map Prod.fst).foldr op u) := by
    clear hne
    induction l' with
    | nil => exact .inl rfl
    | cons a l' ih =>
      have ih := ih (fun x hx => hq x (by simp [hx]))
      by_cases ha : q a = true
      · simp only [List.filter_cons, ha, if_true, List.map_cons, List.foldr_cons]
        rcases ih with h1 | h1
        · exact .inl (by rw [h1])
        · exact .inr (by rw [h1, h.left])
      · have hav := hq a (by simp) (by simpa using ha)
        simp only [List.filter_cons, ha, List.map_cons, List.foldr_cons, hav]
        rcases ih with h1 | h1
        · exact .inr (by rw [h1]; rfl)
        · refine .inr ?_
          rw [h1, ← h.assoc, h.idem]; rfl
  rcases key with h1 | h1
  · exact h1.symm
  · rcases h.sel v (((l'.filter q).map Prod.fst).foldr op u) with h2 | h2
    · rw [h2] at h1; exact absurd h1 hne
    · rw [h1, h2]

theorem agg_filter (h : SelOp op) {n n' : PDNode} {ks c v} (hp : (all n').Perm ((all n).filter (keep ks c)))
    (hv : ∀ pe ∈ all n, pe.1 = ks → pe.2.clause = c → val pe.2 = v) (hne : agg op u val n ≠ v) :
    agg op u val n' = agg op u val n := by
  have h1 : agg op u val n' = (((all n).filter (keep ks c)).map fun pe => val pe.2).foldr op u := h.foldr_perm (hp.map _)
  have h2 := h.remove (u := u) (l := (all n).map fun pe : List PDKey × PDEntry => val pe.2) (v := v) (q := Prod.snd)
    ((all n).map fun pe : List PDKey × PDEntry => (val pe.2, keep ks c pe)) (by simp [Function.comp_def]) (by
      intro x hx hq
      obtain ⟨pe, hpe, rfl⟩ := List.mem_map.1 hx
      simp only [keep, Bool.not_eq_false', Bool.and_eq_true, decide_eq_true_eq, beq_iff_eq] at hq
      exact hv pe hpe hq.1 hq.2) hne
  rw [h1, agg, ← h2, List.filter_map]
  simp [Function.comp_def]

theorem child_del {c : Nat} {k ks n n' res} (hw : WF n) (h : pdDel c (k :: ks) n = some (n', res)) :
    ∃ m m', n.child k = some m ∧ pdDel c ks m = some (m', res) ∧ (∀ j, j ≠ k → n'.child j = n.child j) ∧
      (n'.child k = none ∨ ∃ l r, n'.child k = some (.mk l r m'.ents m'.fa m'.va)) := by
  rcases n with ⟨l, r, es, fa, va⟩
  have hunl : ∀ a j (m' : PDNode), WFA a → ((pdUnlink res j m' a).get j = none ∨
      ∃ l r, (pdUnlink res j m' a).get j = some (.mk l r m'.ents m'.fa m'.va)) ∧
      ∀ i, i ≠ j → (pdUnlink res j m' a).get i = a.get i := by
    intro a j m' ha
    simp only [pdUnlink]
    split
    · exact ⟨.inl (get_erase_self ha), fun i hi => get_erase_ne hi⟩
    · exact ⟨.inr ⟨_, _, by rw [get_set, if_pos rfl]⟩, fun i hi => by rw [get_set, if_neg hi]⟩
  cases k with
  | sym f =>
    simp only [pdDel] at h
    split at h
    · cases h
    · next m hg =>
      split at h
      · cases h
      · next m' r hd =>
        simp only [Option.some.injEq, Prod.mk.injEq] at h
        obtain ⟨rfl, rfl⟩ := h
        obtain ⟨h1, h2⟩ := hunl fa f m' hw.2.1
        refine ⟨m, m', hg, hd, fun j hj => ?_, h1⟩
        cases j with
        | sym g => exact h2 g (fun h => hj (by rw [h]))
        | var y => rfl
  | var x =>
    simp only [pdDel] at h
    split at h
    · cases h
    · next m hg =>
      split at h
      · cases h
      · next m' r hd =>
        simp only [Option.some.injEq, Prod.mk.injEq] at h
        obtain ⟨rfl, rfl⟩ := h
        obtain ⟨h1, h2⟩ := hunl va x m' hw.2.2
        refine ⟨m, m', hg, hd, fun j hj => ?_, h1⟩
        cases j with
        | sym g => rfl
        | var y => exact h2 y (fun h => hj (by rw [h]))

theorem del_cok (h : SelOp op) {c v : Nat} : ∀ (ks p : List PDKey) (n n' : PDNode) (res : Nat) (m : PDMap), WF n →
    pdDel c ks n = some (n', res) → (∀ pe ∈ all n, pe.1 = ks → pe.2.clause = c → val pe.2 = v) → COK op u val m p n →
    COK op u val (pdDelMap v ks p m) p n' := by
  intro ks
  induction ks with
  | nil =>
    intro p n n' res m hw hd hv hc
    have hsp := del_spec c [] n n' res hw hd
    refine cok_intro (fun w hw' => ?_) (fun k ch hk => ?_)
    · rw [delMap_head] at hw'
      split at hw'
      · cases hw'
      · next hne =>
        have := hc [] n .root w (by simpa using hw')
        rw [agg_filter h hsp.2.1 hv (by rw [← this]; rintro rfl; exact hne hw'), this]
    · have hk' : n.child k = some ch := by
        rcases n with ⟨l, r, es, fa, va⟩
        simp only [pdDel, Option.some.injEq, Prod.mk.injEq] at hd
        obtain ⟨rfl, -⟩ := hd
        cases k <;> exact hk
      simp only [pdDelMap]
      split
      · exact cok_upd_parent (cok_child hc hk')
      · exact cok_child hc hk'
  | cons k ks ih =>
    intro p n n' res m hw hd hv hc
    have hsp := del_spec c (k :: ks) n n' res hw hd
    obtain ⟨a, a', hca, hda, hoth, hself⟩ := child_del hw hd
    refine cok_intro (fun w hw' => ?_) (fun j ch hj => ?_)
    · rw [delMap_head] at hw'
      split at hw'
      · cases hw'
      · next hne =>
        have := hc [] n .root w (by simpa using hw')
        rw [agg_filter h hsp.2.1 hv (by rw [← this]; rintro rfl; exact hne hw'), this]
    · have hm1 : ∀ i b, COK op u val m (i :: p) b → COK op u val (if m p = some v then m.upd p none else m) (i :: p) b := by
        intro i b hb
        split
        · exact cok_upd_parent hb
        · exact hb
      simp only [pdDelMap]
      by_cases hjk : j = k
      · subst hjk
        rcases hself with h0 | ⟨l, r, h1⟩
        · rw [h0] at hj; cases hj
        · rw [h1] at hj
          cases hj
          have hr := ih (j :: p) a a' res _ (wf_child hw hca) hda
            (fun pe hpe h1 h2 => hv (j :: pe.1, pe.2) (child_mem hw hca hpe) (by rw [h1]) h2) (hm1 j a (cok_child hc hca))
          rcases a' with ⟨l', r', es', fa', va'⟩
          exact cok_intro (fun w hw' => by
              have := hr [] _ .root w (by simpa using hw')
              rw [this]; rfl)
            (fun i b hb => cok_child hr (k := i) (by cases i <;> exact hb))
      · rw [hoth j hjk] at hj
        refine cok_congr (fun r hr => delMap_frame _ _ _ _ _ ?_) (hm1 j ch (cok_child hc hj))
        intro hs
        obtain ⟨r', rfl⟩ := hr
        exact hjk (suffix_inj hs).symm

end
end Verif.PDProof
