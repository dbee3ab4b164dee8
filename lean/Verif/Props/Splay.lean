import Verif.Basics.SplayProof

/-!
# C32: splay trees behave as finite maps
-/

namespace Verif.Props
open Verif Verif.STree

variable {E K : Type} {cmp : K → K → Ordering} {key : E → K}

/-! ## Specification: a finite map as a list of entries with distinct keys -/

/-- The entry for a key. -/
def look (cmp : K → K → Ordering) (key : E → K) (m : List E) (k : K) : Option E := m.find? fun x => cmp k (key x) == .eq

/-- Operations on a tree. -/
inductive TreeOp (E K : Type) where
  | insert (e : E)
  | find (k : K)
  | findBinary (k : K)
  | extract (k : K)

/-- What an operation answers and does on a finite map. -/
def mapStep (cmp : K → K → Ordering) (key : E → K) (m : List E) : TreeOp E K → Option E × List E
  | .insert e => match look cmp key m (key e) with
    | some x => (some x, m)
    | none => (none, e :: m)
  | .find k => (look cmp key m k, m)
  | .findBinary k => (look cmp key m k, m)
  | .extract k => (look cmp key m k, m.filter fun x => cmp k (key x) != .eq)

/-- What an operation answers and does on a splay tree. -/
def treeStep (cmp : K → K → Ordering) (key : E → K) (t : STree E) : TreeOp E K → Option E × STree E
  | .insert e => insert cmp key e t
  | .find k => find cmp key k t
  | .findBinary k => (findBinary cmp key k t, t)
  | .extract k => extract cmp key k t

/-- The answers of a sequence of operations, and the final map or tree. -/
def runOps {S O A : Type} (step : S → O → A × S) : S → List O → List A × S
  | s, [] => ([], s)
  | s, o :: os => let r := step s o; let rs := runOps step r.2 os; (r.1 :: rs.1, rs.2)

/-- The keys of a list of entries are distinct. -/
def Distinct (cmp : K → K → Ordering) (key : E → K) (m : List E) : Prop := m.Pairwise fun a b => cmp (key a) (key b) ≠ .eq

/-! ## Proofs -/

section
variable [Std.TransCmp cmp]

omit [Std.TransCmp cmp] in
theorem sorted_distinct {t : STree E} (h : Sorted cmp key t) : Distinct cmp key t.toList := by
  apply List.Pairwise.imp _ h
  intro a b hab
  rw [hab]; simp

theorem distinct_perm {m m' : List E} (h : m.Perm m') (hd : Distinct cmp key m) : Distinct cmp key m' := by
  refine (h.pairwise_iff ?_).1 hd
  intro a b hab hc
  exact hab (Std.OrientedCmp.eq_symm hc)

theorem look_iff {m : List E} (hd : Distinct cmp key m) {k : K} {x : E} :
    look cmp key m k = some x ↔ x ∈ m ∧ cmp k (key x) = .eq := by
  induction m with
  | nil => simp [look]
  | cons y m ih =>
    obtain ⟨h1, h2⟩ := List.pairwise_cons.1 hd
    unfold look at *
    rw [List.find?_cons]
    by_cases hy : cmp k (key y) = .eq
    · simp only [hy, beq_self_eq_true, Option.some.injEq, List.mem_cons]
      constructor
      · rintro rfl; exact ⟨Or.inl rfl, hy⟩
      · rintro ⟨rfl | hx, hk⟩
        · rfl
        · exact absurd (Std.TransCmp.eq_trans (Std.OrientedCmp.eq_symm hy) hk) (h1 x hx)
    · have : (cmp k (key y) == Ordering.eq) = false := by simpa using hy
      simp only [this, List.mem_cons]
      rw [ih h2]
      constructor
      · rintro ⟨hx, hk⟩; exact ⟨Or.inr hx, hk⟩
      · rintro ⟨rfl | hx, hk⟩
        · exact absurd hk hy
        · exact ⟨hx, hk⟩

omit [Std.TransCmp cmp] in
theorem look_none {m : List E} {k : K} : look cmp key m k = none ↔ ∀ x ∈ m, cmp k (key x) ≠ .eq := by
  simp [look]

theorem look_ext {m m' : List E} (hd : Distinct cmp key m) (hd' : Distinct cmp key m') (h : ∀ x, x ∈ m ↔ x ∈ m') (k : K) :
    look cmp key m k = look cmp key m' k := by
  cases hl : look cmp key m k with
  | none =>
    rw [look_none] at hl
    symm
    rw [look_none]
    intro x hx
    exact hl x ((h x).2 hx)
  | some x =>
    rw [look_iff hd] at hl
    symm
    rw [look_iff hd']
    exact ⟨(h x).1 hl.1, hl.2⟩

/-- The tree and the map have the same entries. -/
def TreeRel (cmp : K → K → Ordering) (key : E → K) (t : STree E) (m : List E) : Prop := Sorted cmp key t ∧ t.toList.Perm m

theorem cmp_lt_ne {a b : K} (h : cmp a b = .lt) : cmp a b ≠ .eq ∧ cmp b a ≠ .eq :=
  ⟨by rw [h]; simp, fun hc => by rw [Std.OrientedCmp.eq_symm hc] at h; simp at h⟩

theorem pairwise_mid {l r : List E} {x : E} {p : E → E → Prop} : (l ++ x :: r).Pairwise p ↔
    l.Pairwise p ∧ r.Pairwise p ∧ (∀ a ∈ l, p a x) ∧ (∀ b ∈ r, p x b) ∧ ∀ a ∈ l, ∀ b ∈ r, p a b := by
  simp only [List.pairwise_append, List.pairwise_cons, List.mem_cons]
  constructor
  · rintro ⟨h1, ⟨h2, h3⟩, h4⟩
    exact ⟨h1, h3, fun a ha => h4 a ha x (Or.inl rfl), h2, fun a ha b hb => h4 a ha b (Or.inr hb)⟩
  · rintro ⟨h1, h2, h3, h4, h5⟩
    refine ⟨h1, ⟨h4, h2⟩, fun a ha b hb => ?_⟩
    rcases hb with rfl | hb
    · exact h3 a ha
    · exact h5 a ha b hb

theorem insert_rel {t : STree E} {m : List E} (h : TreeRel cmp key t m) (e : E) :
    (insert cmp key e t).1 = (mapStep cmp key m (.insert e)).1 ∧ TreeRel cmp key (insert cmp key e t).2 (mapStep cmp key m (.insert e)).2 := by
  obtain ⟨hs, hp⟩ := h
  have hdt := sorted_distinct hs
  have hdm := distinct_perm hp hdt
  cases ht : t with
  | leaf =>
    subst ht
    have : m = [] := by simpa [toList] using hp
    subst this
    simp [STree.insert, mapStep, look, TreeRel, Sorted, toList]
  | node a b c =>
    rw [← ht]
    obtain ⟨l, x, r, es, h1, h2, h3⟩ := splay_split (key e) (by rw [ht]; simp) hs
    have hi : insert cmp key e t = match cmp (key e) (key x) with
      | .lt => (none, .node l e (.node .leaf x r))
      | .gt => (none, .node (.node l x .leaf) e r)
      | .eq => (some x, .node l x r) := by
      rw [ht] at es ⊢
      simp only [STree.insert, es]
      cases cmp (key e) (key x) <;> rfl
    rw [Sorted, h3] at hs
    rw [h3] at hp
    obtain ⟨s1, s2, s3, s4, s5⟩ := pairwise_mid.1 hs
    cases hc : cmp (key e) (key x) with
    | eq =>
      have hl : look cmp key m (key e) = some x := (look_iff hdm).2 ⟨hp.mem_iff.1 (by simp), hc⟩
      rw [hi, hc]
      simp only [mapStep, hl]
      exact ⟨trivial, by rw [Sorted, toList]; exact hs, by rw [toList]; exact hp⟩
    | lt =>
      have hl : look cmp key m (key e) = none := by
        rw [look_none]
        intro y hy
        have hy' := hp.mem_iff.2 hy
        simp only [List.mem_append, List.mem_cons] at hy'
        rcases hy' with hy' | rfl | hy'
        · exact (cmp_lt_ne (h1 y hy')).2
        · rw [hc]; simp
        · exact (cmp_lt_ne (h2 y hy')).1
      rw [hi, hc]
      simp only [mapStep, hl]
      refine ⟨trivial, ?_, ?_⟩
      · simp only [Sorted, toList, List.nil_append]
        rw [pairwise_mid]
        refine ⟨s1, List.pairwise_cons.2 ⟨s4, s2⟩, h1, ?_, ?_⟩
        · intro b hb
          rcases List.mem_cons.1 hb with rfl | hb
          · exact hc
          · exact h2 b hb
        · intro a ha b hb
          rcases List.mem_cons.1 hb with rfl | hb
          · exact s3 a ha
          · exact s5 a ha b hb
      · simp only [toList, List.nil_append]
        exact List.perm_middle.trans (hp.cons e)
    | gt =>
      have hc' : cmp (key x) (key e) = .lt := Std.OrientedCmp.lt_of_gt hc
      have hl : look cmp key m (key e) = none := by
        rw [look_none]
        intro y hy
        have hy' := hp.mem_iff.2 hy
        simp only [List.mem_append, List.mem_cons] at hy'
        rcases hy' with hy' | rfl | hy'
        · exact (cmp_lt_ne (h1 y hy')).2
        · rw [hc]; simp
        · exact (cmp_lt_ne (h2 y hy')).1
      rw [hi, hc]
      simp only [mapStep, hl]
      refine ⟨trivial, ?_, ?_⟩
      · simp only [Sorted, toList]
        rw [pairwise_mid]
        refine ⟨?_, s2, ?_, h2, ?_⟩
        · rw [pairwise_mid]; exact ⟨s1, by simp, s3, by simp, by simp⟩
        · intro a ha
          simp only [List.mem_append, List.mem_cons, List.not_mem_nil, or_false] at ha
          rcases ha with ha | rfl
          · exact h1 a ha
          · exact hc'
        · intro a ha b hb
          simp only [List.mem_append, List.mem_cons, List.not_mem_nil, or_false] at ha
          rcases ha with ha | rfl
          · exact s5 a ha b hb
          · exact s4 b hb
      · simp only [toList]
        refine List.perm_middle.trans (List.Perm.cons e ?_)
        simpa using hp

theorem find_rel {t : STree E} {m : List E} (h : TreeRel cmp key t m) (k : K) :
    (find cmp key k t).1 = look cmp key m k ∧ TreeRel cmp key (find cmp key k t).2 m := by
  obtain ⟨hs, hp⟩ := h
  have hdm := distinct_perm hp (sorted_distinct hs)
  cases ht : t with
  | leaf =>
    subst ht
    have : m = [] := by simpa [toList] using hp
    subst this
    simp [find, splay, splayGo, look, TreeRel, Sorted, toList]
  | node a b c =>
    rw [← ht]
    obtain ⟨l, x, r, es, h1, h2, h3⟩ := splay_split k (by rw [ht]; simp) hs
    rw [Sorted, h3] at hs
    rw [h3] at hp
    have hR : TreeRel cmp key (.node l x r) m := ⟨by rw [Sorted, toList]; exact hs, by rw [toList]; exact hp⟩
    by_cases hc : cmp (key x) k = .eq
    · have hl : look cmp key m k = some x := (look_iff hdm).2 ⟨hp.mem_iff.1 (by simp), Std.OrientedCmp.eq_symm hc⟩
      rw [find, es, hl]
      simp only [if_pos hc]
      exact ⟨trivial, hR⟩
    · have hl : look cmp key m k = none := by
        rw [look_none]
        intro y hy
        have hy' := hp.mem_iff.2 hy
        simp only [List.mem_append, List.mem_cons] at hy'
        rcases hy' with hy' | rfl | hy'
        · exact (cmp_lt_ne (h1 y hy')).2
        · exact fun h => hc (Std.OrientedCmp.eq_symm h)
        · exact (cmp_lt_ne (h2 y hy')).1
      rw [find, es, hl]
      simp only [if_neg hc]
      exact ⟨trivial, hR⟩

theorem findBinary_look {t : STree E} (hs : Sorted cmp key t) (k : K) : findBinary cmp key k t = look cmp key t.toList k := by
  induction t with
  | leaf => rfl
  | node l x r ihl ihr =>
    have hd := sorted_distinct hs
    have hs' := hs
    simp only [Sorted, toList] at hs'
    obtain ⟨s1, s2, s3, s4, s5⟩ := pairwise_mid.1 hs'
    simp only [findBinary]
    cases hc : cmp k (key x) with
    | eq =>
      symm
      simp only [look_iff hd]
      exact ⟨by simp [toList], hc⟩
    | lt =>
      simp only [ihl s1]
      simp only [look, toList, List.find?_append, List.find?_cons, hc]
      have : r.toList.find? (fun x => cmp k (key x) == .eq) = none := by
        rw [List.find?_eq_none]
        intro y hy
        have := (cmp_lt_ne (Std.TransCmp.lt_trans hc (s4 y hy))).1
        simpa using this
      rw [this]
      simp
    | gt =>
      simp only [ihr s2]
      simp only [look, toList, List.find?_append, List.find?_cons, hc]
      have : l.toList.find? (fun x => cmp k (key x) == .eq) = none := by
        rw [List.find?_eq_none]
        intro y hy
        have := (cmp_lt_ne (Std.TransCmp.lt_trans (s3 y hy) (Std.OrientedCmp.lt_of_gt hc))).2
        simpa using this
      rw [this]
      simp

theorem extract_rel {t : STree E} {m : List E} (h : TreeRel cmp key t m) (k : K) :
    (extract cmp key k t).1 = look cmp key m k ∧ TreeRel cmp key (extract cmp key k t).2 (m.filter fun x => cmp k (key x) != .eq) := by
  obtain ⟨hs, hp⟩ := h
  have hdm := distinct_perm hp (sorted_distinct hs)
  cases ht : t with
  | leaf =>
    subst ht
    have : m = [] := by simpa [toList] using hp
    subst this
    simp [extract, splay, splayGo, look, TreeRel, Sorted, toList]
  | node a b c =>
    rw [← ht]
    obtain ⟨l, x, r, es, h1, h2, h3⟩ := splay_split k (by rw [ht]; simp) hs
    rw [Sorted, h3] at hs
    rw [h3] at hp
    obtain ⟨s1, s2, s3, s4, s5⟩ := pairwise_mid.1 hs
    have fl : l.toList.filter (fun x => cmp k (key x) != .eq) = l.toList := by
      rw [List.filter_eq_self]
      intro y hy
      simpa using (cmp_lt_ne (h1 y hy)).2
    have fr : r.toList.filter (fun x => cmp k (key x) != .eq) = r.toList := by
      rw [List.filter_eq_self]
      intro y hy
      simpa using (cmp_lt_ne (h2 y hy)).1
    have hpf := hp.filter (fun x => cmp k (key x) != .eq)
    rw [List.filter_append, List.filter_cons, fl, fr] at hpf
    by_cases hc : cmp k (key x) = .eq
    · have hl : look cmp key m k = some x := (look_iff hdm).2 ⟨hp.mem_iff.1 (by simp), hc⟩
      simp only [hc, bne_self_eq_false, Bool.false_eq_true, if_false] at hpf
      rw [extract, es, hl]
      simp only [if_pos hc]
      cases hlc : l with
      | leaf =>
        rw [hlc] at hpf
        exact ⟨rfl, s2, by simpa [toList] using hpf⟩
      | node la lb lc =>
        obtain ⟨l2, x2, r2, es2, g1, g2, g3⟩ := splay_split (cmp := cmp) (key := key) k (t := l) (by rw [hlc]; simp) s1
        have hr2 : r2.toList = [] := by
          rw [List.eq_nil_iff_forall_not_mem]
          intro y hy
          have := h1 y (by rw [g3]; simp [hy])
          rw [Std.OrientedCmp.gt_of_lt (g2 y hy)] at this
          simp at this
        rw [hr2] at g3
        simp only [← hlc, es2]
        rw [g3] at s1 hpf s3 s5
        refine ⟨trivial, ?_, ?_⟩
        · simp only [Sorted, toList]
          rw [pairwise_mid] at s1 ⊢
          refine ⟨s1.1, s2, s1.2.2.1, fun b hb => s5 x2 (by simp) b hb, fun a ha b hb => s5 a (by simp [ha]) b hb⟩
        · simp only [toList]
          simpa using hpf
    · have hl : look cmp key m k = none := by
        rw [look_none]
        intro y hy
        have hy' := hp.mem_iff.2 hy
        simp only [List.mem_append, List.mem_cons] at hy'
        rcases hy' with hy' | rfl | hy'
        · exact (cmp_lt_ne (h1 y hy')).2
        · exact hc
        · exact (cmp_lt_ne (h2 y hy')).1
      have : (cmp k (key x) != .eq) = true := by simpa using hc
      rw [this, if_pos rfl] at hpf
      rw [extract, es, hl]
      simp only [if_neg hc]
      exact ⟨trivial, by rw [Sorted, toList]; exact hs, by rw [toList]; exact hpf⟩

theorem step_rel {t : STree E} {m : List E} (h : TreeRel cmp key t m) (o : TreeOp E K) :
    (treeStep cmp key t o).1 = (mapStep cmp key m o).1 ∧ TreeRel cmp key (treeStep cmp key t o).2 (mapStep cmp key m o).2 := by
  cases o with
  | insert e => exact insert_rel h e
  | find k => exact find_rel h k
  | findBinary k =>
    refine ⟨?_, h⟩
    simp only [treeStep, mapStep]
    rw [findBinary_look h.1]
    exact look_ext (sorted_distinct h.1) (distinct_perm h.2 (sorted_distinct h.1)) (fun x => h.2.mem_iff) k
  | extract k => exact extract_rel h k

/-- For every history of operations on an initially empty tree, all answers are those of a finite map; the tree holds exactly
the entries of the map, each once, and its in-order contents are sorted. -/
theorem splay_refines_map (ops : List (TreeOp E K)) :
    (runOps (treeStep cmp key) .leaf ops).1 = (runOps (mapStep cmp key) [] ops).1 ∧
    (runOps (treeStep cmp key) .leaf ops).2.toList.Perm (runOps (mapStep cmp key) [] ops).2 ∧
    (runOps (treeStep cmp key) .leaf ops).2.toList.Pairwise fun a b => cmp (key a) (key b) = .lt := by
  have gen : ∀ (ops : List (TreeOp E K)) (t : STree E) (m : List E), TreeRel cmp key t m →
      (runOps (treeStep cmp key) t ops).1 = (runOps (mapStep cmp key) m ops).1 ∧
      TreeRel cmp key (runOps (treeStep cmp key) t ops).2 (runOps (mapStep cmp key) m ops).2 := by
    intro ops
    induction ops with
    | nil => intro t m h; exact ⟨rfl, h⟩
    | cons o ops ih =>
      intro t m h
      obtain ⟨h1, h2⟩ := step_rel h o
      obtain ⟨h3, h4⟩ := ih _ _ h2
      simp only [runOps]
      exact ⟨by rw [h1, h3], h4⟩
  obtain ⟨h1, h2⟩ := gen ops .leaf [] ⟨by simp [Sorted, toList], by simp [toList]⟩
  exact ⟨h1, h2.2, h2.1⟩

/-- The map keeps distinct keys, so that "the entry for a key" is unique. -/
theorem map_keys_distinct (ops : List (TreeOp E K)) {x y : E} {k : K} (hx : x ∈ (runOps (mapStep cmp key) [] ops).2)
    (hy : y ∈ (runOps (mapStep cmp key) [] ops).2) (kx : cmp k (key x) = .eq) (ky : cmp k (key y) = .eq) : x = y := by
  obtain ⟨-, h2, h3⟩ := splay_refines_map (cmp := cmp) (key := key) ops
  have hd := distinct_perm h2 (sorted_distinct h3)
  have e1 := (look_iff hd).2 ⟨hx, kx⟩
  rw [(look_iff hd).2 ⟨hy, ky⟩] at e1
  exact (Option.some.inj e1).symm

/-- Extracting the root takes one entry out and leaves the others. -/
theorem extractRoot_correct {t : STree E} (hs : t.toList.Pairwise fun a b => cmp (key a) (key b) = .lt) :
    match extractRoot cmp key t with
    | (none, t') => t.toList = [] ∧ t'.toList = []
    | (some x, t') => t.toList.Perm (x :: t'.toList) ∧ t'.toList.Pairwise fun a b => cmp (key a) (key b) = .lt := by
  cases t with
  | leaf => exact ⟨rfl, rfl⟩
  | node l x r =>
    have hR : TreeRel cmp key (.node l x r) (STree.node l x r).toList := ⟨hs, List.Perm.refl _⟩
    obtain ⟨e1, e2⟩ := extract_rel hR (key x)
    have hd := sorted_distinct hs
    have hl : look cmp key (STree.node l x r).toList (key x) = some x := (look_iff hd).2 ⟨by simp [toList], Std.ReflCmp.compare_self⟩
    rw [hl] at e1
    have hx : extractRoot cmp key (.node l x r) = (some x, (extract cmp key (key x) (.node l x r)).2) := by
      rw [← e1]; rfl
    rw [hx]
    refine ⟨?_, e2.1⟩
    simp only [toList] at hs
    obtain ⟨s1, s2, s3, s4, s5⟩ := pairwise_mid.1 hs
    have hf : (STree.node l x r).toList.filter (fun y => cmp (key x) (key y) != .eq) = l.toList ++ r.toList := by
      simp only [toList, List.filter_append, List.filter_cons]
      have hxx : cmp (key x) (key x) = .eq := Std.ReflCmp.compare_self
      simp only [hxx, bne_self_eq_false, Bool.false_eq_true, if_false]
      rw [List.filter_eq_self.2, List.filter_eq_self.2]
      · intro y hy
        simpa using (cmp_lt_ne (s4 y hy)).1
      · intro y hy
        simpa using (cmp_lt_ne (s3 y hy)).2
    have h2 := e2.2
    rw [hf] at h2
    simp only [toList]
    exact List.perm_middle.trans (h2.symm.cons x)

omit [Std.TransCmp cmp] in
/-- The smallest entry is the one at the left end of the tree. -/
theorem findSmallest_correct {t : STree E} (hs : t.toList.Pairwise fun a b => cmp (key a) (key b) = .lt) :
    match findSmallest t with
    | none => t.toList = []
    | some x => x ∈ t.toList ∧ ∀ y ∈ t.toList, y = x ∨ cmp (key x) (key y) = .lt := by
  have hh : ∀ t : STree E, findSmallest t = t.toList.head? := by
    intro t
    fun_induction findSmallest t with
    | case1 => rfl
    | case2 x r => simp [toList]
    | case3 x r a b c ih => rw [ih]; simp [toList]
  rw [hh]
  cases hl : t.toList with
  | nil => rfl
  | cons x l =>
    rw [hl] at hs
    simp only [List.head?_cons]
    refine ⟨by simp, fun y hy => ?_⟩
    rcases List.mem_cons.1 hy with rfl | hy
    · exact Or.inl rfl
    · exact Or.inr ((List.pairwise_cons.1 hs).1 y hy)

/-- Merging inserts every entry of the second tree whose key is new. -/
theorem merge_correct {t : STree E} (hs : t.toList.Pairwise fun a b => cmp (key a) (key b) = .lt) (u : STree E) (k : K) :
    ((merge cmp key t u).toList.Pairwise fun a b => cmp (key a) (key b) = .lt) ∧
    ((∃ x ∈ (merge cmp key t u).toList, cmp k (key x) = .eq) ↔ (∃ x ∈ t.toList, cmp k (key x) = .eq) ∨ ∃ x ∈ u.toList, cmp k (key x) = .eq) ∧
    (∀ x ∈ t.toList, x ∈ (merge cmp key t u).toList) ∧ (∀ x ∈ (merge cmp key t u).toList, x ∈ t.toList ∨ x ∈ u.toList) := by
  have ins : ∀ {t : STree E} (hs : Sorted cmp key t) (e : E), Sorted cmp key (insert cmp key e t).2 ∧
      (∀ k, (∃ x ∈ (insert cmp key e t).2.toList, cmp k (key x) = .eq) ↔ (∃ x ∈ t.toList, cmp k (key x) = .eq) ∨ cmp k (key e) = .eq) ∧
      (∀ x ∈ t.toList, x ∈ (insert cmp key e t).2.toList) ∧ (∀ x ∈ (insert cmp key e t).2.toList, x ∈ t.toList ∨ x = e) := by
    intro t hs e
    obtain ⟨-, h1, h2⟩ := insert_rel (⟨hs, List.Perm.refl _⟩ : TreeRel cmp key t t.toList) e
    refine ⟨h1, ?_⟩
    simp only [mapStep] at h2
    cases hl : look cmp key t.toList (key e) with
    | none =>
      rw [hl] at h2
      simp only [h2.mem_iff, List.mem_cons]
      refine ⟨?_, fun x hx => Or.inr hx, fun x hx => hx.symm⟩
      intro k
      constructor
      · rintro ⟨x, rfl | hx, hk⟩
        · exact Or.inr hk
        · exact Or.inl ⟨x, hx, hk⟩
      · rintro (⟨x, hx, hk⟩ | hk)
        · exact ⟨x, Or.inr hx, hk⟩
        · exact ⟨e, Or.inl rfl, hk⟩
    | some y =>
      rw [hl] at h2
      simp only [h2.mem_iff]
      refine ⟨?_, fun x hx => hx, fun x hx => Or.inl hx⟩
      intro k
      have := (look_iff (sorted_distinct hs)).1 hl
      constructor
      · exact fun h => Or.inl h
      · rintro (h | hk)
        · exact h
        · exact ⟨y, this.1, Std.TransCmp.eq_trans hk this.2⟩
  induction u generalizing t with
  | leaf => simp only [merge, toList, List.not_mem_nil]; exact ⟨hs, by simp, fun x hx => hx, fun x hx => Or.inl hx⟩
  | node l x r ihl ihr =>
    obtain ⟨i1, i2, i3, i4⟩ := ins hs x
    obtain ⟨r1, r2, r3, r4⟩ := ihr i1
    obtain ⟨l1, l2, l3, l4⟩ := ihl r1
    simp only [merge]
    refine ⟨l1, ?_, fun y hy => l3 y (r3 y (i3 y hy)), ?_⟩
    · rw [l2, r2, i2]
      simp only [toList, List.mem_append, List.mem_cons]
      constructor
      · rintro (((h | h) | ⟨y, hy, h⟩) | ⟨y, hy, h⟩)
        · exact Or.inl h
        · exact Or.inr ⟨x, Or.inr (Or.inl rfl), h⟩
        · exact Or.inr ⟨y, Or.inr (Or.inr hy), h⟩
        · exact Or.inr ⟨y, Or.inl hy, h⟩
      · rintro (h | ⟨y, hy | rfl | hy, h⟩)
        · exact Or.inl (Or.inl (Or.inl h))
        · exact Or.inr ⟨y, hy, h⟩
        · exact Or.inl (Or.inl (Or.inr h))
        · exact Or.inl (Or.inr ⟨y, hy, h⟩)
    · intro y hy
      simp only [toList, List.mem_append, List.mem_cons]
      rcases l4 y hy with hy | hy
      · rcases r4 y hy with hy | hy
        · rcases i4 y hy with hy | hy
          · exact Or.inl hy
          · exact Or.inr (Or.inr (Or.inl hy))
        · exact Or.inr (Or.inr (Or.inr hy))
      · exact Or.inr (Or.inl hy)

end

/-- The stack-driven traversal visits the entries in order, each once. -/
theorem traverse_correct (t : STree E) : traverseAll (t.toList.length + 1) (pushSpine t []) = some t.toList := by
  -- what a stack still has to deliver
  let rest : List (STree E) → List E := fun s => s.flatMap fun u => match u with
    | .leaf => []
    | .node _ x r => x :: r.toList
  have hpush : ∀ (t : STree E) (s : List (STree E)), rest (pushSpine t s) = t.toList ++ rest s := by
    intro t
    induction t with
    | leaf => intro s; rfl
    | node l x r ihl _ => intro s; simp only [pushSpine, ihl, toList]; simp [rest]
  have hne : ∀ (t : STree E) (s : List (STree E)), (∀ u ∈ s, u ≠ .leaf) → ∀ u ∈ pushSpine t s, u ≠ .leaf := by
    intro t
    induction t with
    | leaf => intro s h; exact h
    | node l x r ihl _ =>
      intro s h
      apply ihl
      intro u hu
      rcases List.mem_cons.1 hu with rfl | hu
      · simp
      · exact h u hu
  have main : ∀ (n : Nat) (s : List (STree E)), (∀ u ∈ s, u ≠ .leaf) → (rest s).length < n → traverseAll n s = some (rest s) := by
    intro n
    induction n with
    | zero => intro s _ h; omega
    | succ n ih =>
      intro s hs hl
      cases s with
      | nil => rfl
      | cons u s =>
        cases u with
        | leaf => exact absurd rfl (hs .leaf (by simp))
        | node l x r =>
          have hr : rest (.node l x r :: s) = x :: rest (pushSpine r s) := by rw [hpush]; simp [rest]
          rw [hr] at hl
          simp only [List.length_cons] at hl
          simp only [traverseAll, traverseNext]
          rw [ih _ (hne r s fun u hu => hs u (by simp [hu])) (by omega), hr]
          rfl
  have h0 : rest (pushSpine t []) = t.toList := by rw [hpush]; simp [rest]
  rw [main _ _ (hne t [] (by simp)) (by rw [h0]; omega), h0]

/-! ## Examples -/

/-- A history with a collision, an extraction and a missing key; integer keys with a payload. -/
example : (runOps (treeStep (compare : Int → Int → Ordering) (Prod.fst : Int × Nat → Int)) .leaf
    [.insert (5, 0), .insert (2, 1), .insert (9, 2), .insert (2, 7), .find 9, .extract 5, .find 5, .findBinary 2]).1 =
    [none, none, none, some (2, 1), some (9, 2), some (5, 0), none, some (2, 1)] := by decide

example : Std.TransCmp (compare : Int → Int → Ordering) := inferInstance

end Verif.Props
