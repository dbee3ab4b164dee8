import Verif.Basics.Splay

/-!
# Helper lemmas for C32
-/

namespace Verif.STree
variable {E K : Type} {cmp : K → K → Ordering} {key : E → K}

/-- In-order contents are strictly increasing. -/
def Sorted (cmp : K → K → Ordering) (key : E → K) (t : STree E) : Prop :=
  t.toList.Pairwise fun a b => cmp (key a) (key b) = .lt

def accL : List (STree E × E) → List E
  | [] => []
  | (l, x) :: L => accL L ++ l.toList ++ [x]

def accR : List (E × STree E) → List E
  | [] => []
  | (x, r) :: R => x :: (r.toList ++ accR R)

theorem toList_plugL (L : List (STree E × E)) : ∀ t, (plugL L t).toList = accL L ++ t.toList := by
  induction L with
  | nil => intro t; rfl
  | cons p L ih => intro t; obtain ⟨l, x⟩ := p; simp [plugL, ih, accL, toList]

theorem toList_plugR (R : List (E × STree E)) : ∀ t, (plugR R t).toList = t.toList ++ accR R := by
  induction R with
  | nil => intro t; simp [plugR, accR]
  | cons p R ih => intro t; obtain ⟨x, r⟩ := p; simp [plugR, ih, accR, toList]

theorem toList_assemble (L : List (STree E × E)) (R : List (E × STree E)) (l : STree E) (x : E) (r : STree E) :
    (assemble L R l x r).toList = accL L ++ (l.toList ++ x :: r.toList) ++ accR R := by
  simp [assemble, toList, toList_plugL, toList_plugR]

theorem splayGo_toList (k : K) (t : STree E) (L : List (STree E × E)) (R : List (E × STree E)) (ht : t ≠ .leaf) :
    (splayGo cmp key k t L R).toList = accL L ++ t.toList ++ accR R := by
  fun_induction splayGo cmp key k t L R with
  | case1 => exact absurd rfl ht
  | case2 => simp [toList_assemble, toList]
  | case3 => simp [toList_assemble, toList]
  | case4 x r L R h1 y lr h2 a b c ih => rw [ih (by simp)]; simp [toList, accR]
  | case5 x r L R h1 ll y lr h2 ih => rw [ih (by simp)]; simp [toList, accR]
  | case6 => simp [toList_assemble, toList]
  | case7 => simp [toList_assemble, toList]
  | case8 l x L R h1 rl z h2 a b c ih => rw [ih (by simp)]; simp [toList, accL]
  | case9 l x L R h1 rl z rr h2 ih => rw [ih (by simp)]; simp [toList, accL]
  | case10 => simp [toList_assemble, toList]

theorem splay_toList (k : K) (t : STree E) : (splay cmp key k t).toList = t.toList := by
  cases t with
  | leaf => rfl
  | node l x r => rw [splay, splayGo_toList k _ _ _ (by simp)]; simp [accL, accR]

variable [Std.TransCmp cmp]

/-- The result of the loop separates the smaller from the greater keys. -/
theorem splayGo_split (k : K) (t : STree E) (L : List (STree E × E)) (R : List (E × STree E)) (ht : t ≠ .leaf)
    (hs : Sorted cmp key t) (hL : ∀ y ∈ accL L, cmp (key y) k = .lt) (hR : ∀ y ∈ accR R, cmp k (key y) = .lt) :
    ∃ l x r, splayGo cmp key k t L R = .node l x r ∧ (∀ y ∈ l.toList, cmp (key y) k = .lt) ∧ (∀ y ∈ r.toList, cmp k (key y) = .lt) := by
  have tr : ∀ {a b c : K}, cmp a b = .lt → cmp b c = .lt → cmp a c = .lt := fun h1 h2 => Std.TransCmp.lt_trans h1 h2
  have gtlt : ∀ {a b : K}, cmp a b = .gt → cmp b a = .lt := fun h => Std.OrientedCmp.lt_of_gt h
  have eqlt : ∀ {a b c : K}, cmp a b = .eq → cmp b c = .lt → cmp a c = .lt := fun h1 h2 => Std.TransCmp.lt_of_eq_of_lt h1 h2
  have lteq : ∀ {a b c : K}, cmp a b = .lt → cmp c b = .eq → cmp a c = .lt := fun h1 h2 =>
    Std.TransCmp.lt_of_lt_of_eq h1 (Std.OrientedCmp.eq_symm h2)
  -- a general way to finish at a break
  have fin : ∀ (L : List (STree E × E)) (R : List (E × STree E)) (l : STree E) (x : E) (r : STree E),
      (∀ y ∈ accL L, cmp (key y) k = .lt) → (∀ y ∈ accR R, cmp k (key y) = .lt) →
      (∀ y ∈ l.toList, cmp (key y) k = .lt) → (∀ y ∈ r.toList, cmp k (key y) = .lt) →
      ∃ l' x' r', assemble L R l x r = .node l' x' r' ∧ (∀ y ∈ l'.toList, cmp (key y) k = .lt) ∧ (∀ y ∈ r'.toList, cmp k (key y) = .lt) := by
    intro L R l x r h1 h2 h3 h4
    refine ⟨_, _, _, rfl, ?_, ?_⟩
    · intro y hy
      rw [toList_plugL] at hy
      rcases List.mem_append.1 hy with h | h
      · exact h1 y h
      · exact h3 y h
    · intro y hy
      rw [toList_plugR] at hy
      rcases List.mem_append.1 hy with h | h
      · exact h4 y h
      · exact h2 y h
  fun_induction splayGo cmp key k t L R with
  | case1 => exact absurd rfl ht
  | case2 x r L R h1 =>
    simp only [Sorted, toList, List.nil_append, List.pairwise_cons] at hs
    exact fin L R _ _ _ hL hR (by simp [toList]) fun y hy => tr h1 (hs.1 y hy)
  | case3 x r L R h1 y lr h2 =>
    simp only [Sorted, toList, List.nil_append, List.cons_append, List.pairwise_cons] at hs
    refine fin L R _ _ _ hL hR (by simp [toList]) fun z hz => tr h2 (hs.1 z ?_)
    simpa [toList] using hz
  | case4 x r L R h1 y lr h2 a b c ih =>
    simp only [Sorted, toList, List.append_assoc, List.cons_append, List.pairwise_append, List.pairwise_cons] at hs
    refine ih (by simp) ?_ hL ?_
    · simp only [Sorted, toList, List.pairwise_append, List.pairwise_cons]
      exact ⟨hs.1, ⟨fun z hz => hs.2.1.1 z (by simp [hz]), hs.2.1.2.1⟩, fun z hz w hw => hs.2.2 z hz w (by
        rcases List.mem_cons.1 hw with rfl | hw
        · simp
        · simp [hw])⟩
    · intro z hz
      simp only [accR, List.mem_cons, List.mem_append, toList] at hz
      rcases hz with rfl | (hz | rfl | hz) | hz
      · exact h2
      · exact tr h2 (hs.2.1.2.2.1.1 z (by simp [hz]))
      · exact h1
      · exact tr h2 (hs.2.1.2.2.1.1 z (by simp [hz]))
      · exact hR z hz
  | case5 x r L R h1 ll y lr h2 ih =>
    simp only [Sorted, toList, List.append_assoc, List.cons_append, List.pairwise_append, List.pairwise_cons] at hs
    refine ih (by simp) ?_ hL ?_
    · simp only [Sorted, toList, List.pairwise_append, List.pairwise_cons]
      exact ⟨hs.1, ⟨fun z hz => hs.2.1.1 z (by simp [hz]), hs.2.1.2.1⟩, fun z hz w hw => hs.2.2 z hz w (by
        rcases List.mem_cons.1 hw with rfl | hw
        · simp
        · simp [hw])⟩
    · intro z hz
      simp only [accR, List.mem_cons, List.mem_append] at hz
      rcases hz with rfl | hz | hz
      · exact h1
      · exact tr h1 (hs.2.1.2.2.1.1 z hz)
      · exact hR z hz
  | case6 l x L R h1 =>
    simp only [Sorted, toList, List.pairwise_append, List.pairwise_cons] at hs
    exact fin L R _ _ _ hL hR (fun y hy => tr (hs.2.2 y hy x (by simp)) (gtlt h1)) (by simp [toList])
  | case7 l x L R h1 rl z h2 =>
    simp only [Sorted, toList, List.pairwise_append, List.pairwise_cons] at hs
    refine fin L R _ _ _ hL hR (fun y hy => ?_) (by simp [toList])
    simp only [toList, List.mem_append, List.mem_cons] at hy
    rcases hy with hy | rfl | hy
    · exact tr (hs.2.2 y hy z (by simp)) (gtlt h2)
    · exact gtlt h1
    · exact tr (hs.2.1.2.2.2 y hy z (by simp)) (gtlt h2)
  | case8 l x L R h1 rl z h2 a b c ih =>
    simp only [Sorted, toList, List.pairwise_append, List.pairwise_cons] at hs
    refine ih (by simp) ?_ ?_ hR
    · simp only [Sorted, toList, List.pairwise_append, List.pairwise_cons]
      exact hs.2.1.2.2.1.2
    · intro y hy
      simp only [accL, List.mem_append, toList, List.mem_cons] at hy
      rcases hy with (hy | hy | rfl | hy) | hy
      · exact hL y hy
      · exact tr (hs.2.2 y hy z (by simp)) (gtlt h2)
      · exact gtlt h1
      · exact tr (hs.2.1.2.2.2 y hy z (by simp)) (gtlt h2)
      · rcases hy with rfl | hy
        · exact gtlt h2
        · simp at hy
  | case9 l x L R h1 rl z rr h2 ih =>
    simp only [Sorted, toList, List.pairwise_append, List.pairwise_cons] at hs
    refine ih (by simp) ?_ ?_ hR
    · simp only [Sorted, toList, List.pairwise_append, List.pairwise_cons]
      exact hs.2.1.2
    · intro y hy
      simp only [accL, List.mem_append, List.mem_cons] at hy
      rcases hy with (hy | hy) | hy | hy
      · exact hL y hy
      · exact tr (hs.2.2 y hy x (by simp)) (gtlt h1)
      · rw [hy]; exact gtlt h1
      · simp at hy
  | case10 l x r L R h1 =>
    simp only [Sorted, toList, List.pairwise_append, List.pairwise_cons] at hs
    exact fin L R _ _ _ hL hR (fun y hy => lteq (hs.2.2 y hy x (by simp)) h1) fun y hy => eqlt h1 (hs.2.1.1 y hy)

theorem splay_split (k : K) {t : STree E} (ht : t ≠ .leaf) (hs : Sorted cmp key t) :
    ∃ l x r, splay cmp key k t = .node l x r ∧ (∀ y ∈ l.toList, cmp (key y) k = .lt) ∧ (∀ y ∈ r.toList, cmp k (key y) = .lt) ∧
      t.toList = l.toList ++ x :: r.toList := by
  obtain ⟨l, x, r, e, h1, h2⟩ := splayGo_split (cmp := cmp) (key := key) k t [] [] ht hs (by simp [accL]) (by simp [accR])
  refine ⟨l, x, r, e, h1, h2, ?_⟩
  rw [← splay_toList (cmp := cmp) (key := key) k t, splay, e, toList]

end Verif.STree
