import Verif.Clauses.BceTotal

/-!
# Blocked clause elimination: nothing is left to do
-/

namespace Verif.BceProof
open Props Term

variable {sg : Sig}

/-! ## The occurrence map without a limit -/

/-- Clause `c` has a literal with this predicate and sign. -/
def Occ (Cs : List (List Lit)) (f : Nat) (pos : Bool) (c : Nat) : Prop := ∃ D, Cs[c]? = some D ∧ ∃ K ∈ D, K.predCode? = some f ∧ K.pos = pos

/-- All entries are occurrences, no entry is empty. -/
def MapExact (P : Nat → Bool → Nat → Prop) (m : SymMap) : Prop := ∀ f pos l, m f pos = some l → l ≠ [] ∧ ∀ c ∈ l, P f pos c

theorem symAdd_exact {P : Nat → Bool → Nat → Prop} {m : SymMap} (h : MapExact P m) {i : Nat} {L : Lit} (hL : ∀ f, L.predCode? = some f → P f L.pos i) :
    MapExact P (symAdd 0 i m L) := by
  unfold symAdd
  split
  · exact h
  · next f e =>
    split
    · exact h
    · split
      · next h0 => exact absurd h0.1 (Nat.lt_irrefl 0)
      · have key : ∀ l, (∀ x ∈ l, P f L.pos x) → l ≠ [] → MapExact P (m.set f L.pos l) := by
          intro l hl hne g pos l' e'
          unfold SymMap.set at e'
          split at e'
          · next hg =>
            cases e'
            obtain ⟨rfl, rfl⟩ := hg
            exact ⟨hne, hl⟩
          · exact h g pos l' e'
        split
        · exact key [i] (by simpa using hL f e) (by simp)
        · next l e2 =>
          split
          · exact h
          · refine key (l ++ [i]) (fun x hx => ?_) (by simp)
            rcases List.mem_append.1 hx with hx | hx
            · exact (h f L.pos l e2).2 x hx
            · rw [List.mem_singleton.1 hx]; exact hL f e

theorem makeSymMap_exact (Cs : List (List Lit)) : MapExact (Occ Cs) (makeSymMap 0 Cs) := by
  have key : ∀ (l : List (List Lit × Nat)) {m : SymMap}, (∀ c ∈ l, Cs[c.2]? = some c.1) → MapExact (Occ Cs) m →
      MapExact (Occ Cs) (l.foldl (fun m c => c.1.foldl (symAdd 0 c.2) m) m) := by
    intro l
    induction l with
    | nil => exact fun _ h => h
    | cons c l ih =>
      intro m hl h
      refine ih (fun c' hc' => hl c' (List.mem_cons_of_mem _ hc')) ?_
      have hc := hl c List.mem_cons_self
      have key2 : ∀ (C : List Lit) {m : SymMap}, (∀ K ∈ C, K ∈ c.1) → MapExact (Occ Cs) m → MapExact (Occ Cs) (C.foldl (symAdd 0 c.2) m) := by
        intro C
        induction C with
        | nil => exact fun _ h => h
        | cons K C ih2 =>
          intro m hC h
          exact ih2 (fun K' hK' => hC K' (List.mem_cons_of_mem _ hK')) (symAdd_exact h fun f hf => ⟨c.1, hc, K, hC K List.mem_cons_self, hf, rfl⟩)
      exact key2 c.1 (fun _ h => h) h
  exact key Cs.zipIdx (fun c hc => List.mem_zipIdx_iff_getElem?.1 hc) (fun _ _ _ h => by cases h)

/-- A task for every literal. -/
theorem makeTasks_all {Cs : List (List Lit)} {cl lit f : Nat} {C : List Lit} {L : Lit} (h1 : Cs[cl]? = some C) (h2 : (copyDisjoint C)[lit]? = some L) (h3 : L.predCode? = some f) :
    ∃ t ∈ makeTasks (makeSymMap 0 Cs) Cs, t.cl = cl ∧ t.lit = lit ∧ ∀ c ∈ t.rem, Occ Cs f (!L.pos) c := by
  have hne : makeSymMap 0 Cs f (!L.pos) ≠ some [] := fun h => (makeSymMap_exact Cs f (!L.pos) [] h).1 rfl
  refine ⟨⟨cl, lit, (makeSymMap 0 Cs f (!L.pos)).getD []⟩, List.mem_flatMap.2 ⟨(C, cl), List.mem_zipIdx_iff_getElem?.2 h1,
    List.mem_filterMap.2 ⟨(L, lit), List.mem_zipIdx_iff_getElem?.2 h2, ?_⟩⟩, rfl, rfl, ?_⟩
  · simp only [h3, if_neg hne]
  · intro c hc
    simp only at hc
    cases e : makeSymMap 0 Cs f (!L.pos) with
    | none => rw [e] at hc; cases hc
    | some l => rw [e] at hc; exact (makeSymMap_exact Cs f (!L.pos) l e).2 c hc

/-! ## The loop -/

/-- A literal of a clause is accounted for: the clause is gone, the task is waiting, or there is a remaining clause it failed against. -/
def Account (check : Nat → Nat → Nat → Option Bool) (O : Nat → Prop) (cl lit : Nat) (s : BceSt) : Prop :=
  cl ∈ s.arch ∨ (∃ t ∈ s.queue, t.cl = cl ∧ t.lit = lit ∧ ∀ c ∈ t.rem, O c) ∨
    ∃ b ∈ s.blocked, b.2.cl = cl ∧ b.2.lit = lit ∧ (∀ c ∈ b.2.rem, O c) ∧ O b.1 ∧ b.1 ≠ cl ∧ b.1 ∉ s.arch ∧ check cl lit b.1 = some false

theorem skip_head {check : Nat → Option Bool} {arch : List Nat} {cl : Nat} : ∀ {cs : List Nat} {c : Nat} {r : List Nat}, skipCands check arch cl cs = some (c :: r) →
    (∀ x ∈ c :: r, x ∈ cs) ∧ c ≠ cl ∧ c ∉ arch ∧ check c = some false
  | [], c, r, h => by simp [skipCands] at h
  | x :: cs, c, r, h => by
    unfold skipCands at h
    split at h
    · obtain ⟨h1, h2⟩ := skip_head h
      exact ⟨fun y hy => List.mem_cons_of_mem _ (h1 y hy), h2⟩
    · next hx =>
      split at h
      · cases h
      · obtain ⟨h1, h2⟩ := skip_head h
        exact ⟨fun y hy => List.mem_cons_of_mem _ (h1 y hy), h2⟩
      · next e =>
        cases h
        rw [not_or] at hx
        exact ⟨fun y hy => hy, hx.1, hx.2, e⟩

theorem mem_erase_of_ne {q : List BceTask} {i : Nat} {t t' : BceTask} (h : q[i]? = some t) (ht : t' ∈ q) : t' = t ∨ t' ∈ q.eraseIdx i := by
  obtain ⟨j, hj⟩ := List.mem_iff_getElem?.1 ht
  by_cases e : j = i
  · subst e
    rw [h] at hj
    cases hj
    exact .inl rfl
  · exact .inr (List.mem_eraseIdx_iff_getElem?.2 ⟨j, e, hj⟩)

theorem loop_account {check : Nat → Nat → Nat → Option Bool} {pick : List BceTask → Nat} {O : Nat → Prop} {cl lit : Nat} : ∀ {n : Nat} {s : BceSt} {arch : List Nat},
    Account check O cl lit s → bceLoop check pick n s = some arch → cl ∈ arch ∨ ∃ c, O c ∧ c ≠ cl ∧ c ∉ arch ∧ check cl lit c = some false
  | 0, _, _, _, h => by simp [bceLoop] at h
  | n + 1, s, arch, hs, h => by
    unfold bceLoop at h
    split at h
    · next e =>
      cases h
      have hq : s.queue = [] := by
        rw [List.getElem?_eq_none_iff] at e
        by_contra hne
        have := Nat.mod_lt (pick s.queue) (List.length_pos_iff.2 hne)
        omega
      rcases hs with hs | ⟨t, ht, _⟩ | ⟨b, _, _, _, _, h1, h2, h3, h4⟩
      · exact .inl hs
      · rw [hq] at ht; cases ht
      · exact .inr ⟨b.1, h1, h2, h3, h4⟩
    · next t e =>
      simp only at h
      split at h
      · next ha =>
        refine loop_account ?_ h
        rcases hs with hs | ⟨t', ht', h1, h2⟩ | hs
        · exact .inl hs
        · rcases mem_erase_of_ne e ht' with rfl | ht'
          · exact .inl (h1 ▸ ha)
          · exact .inr (.inl ⟨t', ht', h1, h2⟩)
        · exact .inr (.inr hs)
      · split at h
        · cases h
        · next e2 =>
          refine loop_account ?_ h
          by_cases hc : cl = t.cl
          · exact .inl (by rw [hc]; exact List.mem_cons_self)
          · rcases hs with hs | ⟨t', ht', h1, h2⟩ | ⟨b, hb, h1, h2, h3, h4, h5, h6, h7⟩
            · exact .inl (List.mem_cons_of_mem _ hs)
            · rcases mem_erase_of_ne e ht' with rfl | ht'
              · exact absurd h1.symm hc
              · exact .inr (.inl ⟨t', List.mem_append_left _ ht', h1, h2⟩)
            · by_cases hbt : b.1 = t.cl
              · refine .inr (.inl ⟨⟨b.2.cl, b.2.lit, b.2.rem.tail⟩, List.mem_append_right _ (List.mem_map.2 ⟨b, List.mem_filter.2 ⟨hb, by simpa using hbt⟩, rfl⟩), h1, h2, ?_⟩)
                exact fun c hc => h3 c (List.mem_of_mem_tail hc)
              · exact .inr (.inr ⟨b, List.mem_filter.2 ⟨hb, by simpa using hbt⟩, h1, h2, h3, h4, h5, by simp [hbt, h6], h7⟩)
        · next c cs e2 =>
          refine loop_account ?_ h
          rcases hs with hs | ⟨t', ht', h1, h2, h3⟩ | ⟨b, hb, hs⟩
          · exact .inl hs
          · rcases mem_erase_of_ne e ht' with rfl | ht'
            · obtain ⟨k1, k2, k3, k4⟩ := skip_head e2
              refine .inr (.inr ⟨_, List.mem_cons_self, h1, h2, fun x hx => h3 x (k1 x hx), h3 c (k1 c List.mem_cons_self), ?_, k3, ?_⟩)
              · rw [← h1]; exact k2
              · rw [← h1, ← h2]; exact k4
            · exact .inr (.inl ⟨t', ht', h1, h2, h3⟩)
          · exact .inr (.inr ⟨b, List.mem_cons_of_mem _ hb, hs⟩)

end Verif.BceProof
