import Verif.Terms.TermBankGC

/-!
# The term bank shares terms (C04)

All theorems are about the histories `TBReach` of a bank: insertions of terms, of single cells over shared arguments, of
instances and replacements, lookups, changes of rewrite links, and garbage collections that mark everything in use.
-/

namespace Verif.Props
open TBProof

/-! ## Histories keep the invariant -/

theorem inv_empty {x : TBCtx} : Inv x .empty := by
  refine ⟨fun i => ?_, fun i a => ?_, ?_, ?_, ?_, ?_, ?_, ?_⟩ <;> simp [TBank.empty, STree.Sorted, STree.toList]

theorem readsL_of_mem {b : TBank} {H as : List (TRef × Term)} (hH : ∀ p ∈ H, Reads b p.1 p.2)
    (has : ∀ p ∈ as, p ∈ H ∨ ∃ n, p = (.var n, .var n)) : ReadsL b (as.map (·.1)) (as.map (·.2)) := by
  induction as with
  | nil => exact .nil
  | cons p as ih =>
    refine .cons ?_ (ih fun q hq => has q (by simp [hq]))
    rcases has p (by simp) with h | ⟨n, rfl⟩
    · exact hH p h
    · exact .var n

theorem bank_inv {x : TBCtx} (hx : x.OK) {b : TBank} {H : List (TRef × Term)} (h : TBReach x b H) :
    Inv x b ∧ Unmarked b ∧ ∀ p ∈ H, Reads b p.1 p.2 := by
  induction h with
  | init => exact ⟨inv_empty, fun a ha => by simp [TBank.empty] at ha, by simp⟩
  | insert t _ ih =>
    obtain ⟨h1, h2, h3⟩ := ih
    obtain ⟨g, hr⟩ := tbInsert_grow hx t h1
    refine ⟨g.inv, g.unmarked h2, fun p hp => ?_⟩
    rcases List.mem_cons.1 hp with rfl | hp
    · exact hr
    · exact reads_ext g.ext (h3 p hp)
  | top f as _ has ih =>
    obtain ⟨h1, h2, h3⟩ := ih
    obtain ⟨g, hr⟩ := insertTop_grow hx h1 f (readsL_of_mem h3 has)
    refine ⟨g.inv, g.unmarked h2, fun p hp => ?_⟩
    rcases List.mem_cons.1 hp with rfl | hp
    · exact hr
    · exact reads_ext g.ext (h3 p hp)
  | find f rs _ ih =>
    obtain ⟨h1, h2, h3⟩ := ih
    obtain ⟨g, _⟩ := tbFind_spec hx h1 f rs
    exact ⟨g.inv, g.unmarked h2, fun p hp => reads_ext g.ext (h3 p hp)⟩
  | inst _ hr hσ hv he ih =>
    obtain ⟨h1, h2, h3⟩ := ih
    obtain ⟨g, hg⟩ := instShared_grow hx _ _ _ _ _ _ h1 (fun v => ⟨fun s hs => by
      rcases hσ v s hs with h | ⟨m, rfl, h⟩
      · exact h3 _ h
      · rw [h]; exact .var m, hv v⟩) (h3 _ hr) he
    refine ⟨g.inv, g.unmarked h2, fun p hp => ?_⟩
    rcases List.mem_cons.1 hp with rfl | hp
    · exact hg
    · exact reads_ext g.ext (h3 p hp)
  | repl _ hr ho hp he ih =>
    obtain ⟨h1, h2, h3⟩ := ih
    obtain ⟨g, hg⟩ := replShared_grow hx _ _ _ _ _ _ h1 (h3 _ ho) (h3 _ hp) (h3 _ hr) he
    refine ⟨g.inv, g.unmarked h2, fun p hp => ?_⟩
    rcases List.mem_cons.1 hp with rfl | hp
    · exact hg
    · exact reads_ext g.ext (h3 p hp)
  | addLink _ ha hr ih =>
    obtain ⟨h1, h2, h3⟩ := ih
    rename_i r _ _ _
    obtain ⟨g1, g2, g3⟩ := setLink_inv h1 (l := some r) fun c hc => by
      have := h3 _ hr
      simp only [Option.some.injEq] at hc
      subst hc
      exact (reads_cell.1 this).1
    exact ⟨g1, g2 h2, fun p hp => g3 _ _ (h3 p hp)⟩
  | delLink _ ha ih =>
    obtain ⟨h1, h2, h3⟩ := ih
    obtain ⟨g1, g2, g3⟩ := setLink_inv h1 (l := none) fun c hc => by cases hc
    exact ⟨g1, g2 h2, fun p hp => g3 _ _ (h3 p hp)⟩
  | drop _ hs ih => exact ⟨ih.1, ih.2.1, fun p hp => ih.2.2 p (hs p hp)⟩
  | follow _ _ _ t ht ih =>
    refine ⟨ih.1, ih.2.1, fun p hp => ?_⟩
    rcases List.mem_cons.1 hp with rfl | hp
    · exact ht
    · exact ih.2.2 p hp
  | gc _ hH hroots he ih =>
    obtain ⟨h1, h2, h3⟩ := ih
    rename_i b0 H0 n roots b5 _
    have hr : ∀ a, TRef.cell a ∈ roots → a ∈ b0.used := fun a ha => by
      obtain ⟨t, ht⟩ := hroots _ ha
      exact (reads_cell.1 ht).1
    obtain ⟨g1, g2, g3, g4⟩ := gc_spec hx h1 h2 hr he
    refine ⟨g1, g2, fun p hp => gc_reads hx h1 h2 hr he (h3 p hp) fun a ha => .root ?_⟩
    rw [← ha]; exact hH p hp

/-! ## The property -/

section
variable {x : TBCtx} {b : TBank} {H : List (TRef × Term)}

/-- Whatever happened since a pointer was obtained, it still reads as the term it was obtained for. -/
theorem bank_reads_back (hx : x.OK) (h : TBReach x b H) {r : TRef} {t : Term} (hr : (r, t) ∈ H) :
    Reads b r t ∧ ∀ u, Reads b r u → u = t :=
  ⟨(bank_inv hx h).2.2 _ hr, fun _ hu => reads_func hu ((bank_inv hx h).2.2 _ hr)⟩

/-- Two terms in use share their cell exactly if they are equal: pointer comparison decides equality of terms. -/
theorem bank_sharing (hx : x.OK) (h : TBReach x b H) {r s : TRef} {t u : Term} (hr : (r, t) ∈ H) (hs : (s, u) ∈ H) :
    r = s ↔ t = u := by
  obtain ⟨h1, _, h3⟩ := bank_inv hx h
  constructor
  · rintro rfl; exact reads_func (h3 _ hr) (h3 _ hs)
  · rintro rfl; exact reads_inj hx h1 (h3 _ hr) (h3 _ hs)

/-- The same for all subterms of terms in use, and all cells of the bank. -/
theorem bank_sharing_cells (hx : x.OK) (h : TBReach x b H) {a c : Nat} (ha : a ∈ b.used) (hc : c ∈ b.used) :
    ∃ t u, Reads b (.cell a) t ∧ Reads b (.cell c) u ∧ (a = c ↔ t = u) := by
  obtain ⟨h1, _, _⟩ := bank_inv hx h
  obtain ⟨t, ht⟩ := reads_total (r := .cell a) h1 fun e he => by cases he; exact ha
  obtain ⟨u, hu⟩ := reads_total (r := .cell c) h1 fun e he => by cases he; exact hc
  refine ⟨t, u, ht, hu, ?_, ?_⟩
  · rintro rfl; exact reads_func ht hu
  · rintro rfl
    have := reads_inj hx h1 ht hu
    cases this; rfl

theorem weight_counts (vw fw : Nat) (t : Term) : t.vars.length * vw + t.weight 0 1 * fw = t.weight vw fw := by
  have h : ∀ ts : List Term, (∀ t ∈ ts, t.vars.length * vw + t.weight 0 1 * fw = t.weight vw fw) →
      (Term.varsL ts).length * vw + Term.weightL 0 1 ts * fw = Term.weightL vw fw ts := by
    intro ts
    induction ts with
    | nil => intro _; simp [Term.varsL, Term.weightL]
    | cons t ts ih =>
      intro h
      have h1 := h t (by simp)
      have h2 := ih fun u hu => h u (by simp [hu])
      simp only [Term.varsL, Term.weightL, List.length_append, Nat.add_mul]
      omega
  induction t using Term.ind with
  | hv v => simp [Term.vars, Term.weight]
  | ha f ts ih =>
    have := h ts ih
    simp only [Term.vars, Term.weight, Nat.add_mul]
    omega

/-- The cached values of a cell in use are those of the term: number of variable occurrences, number of function symbol
occurrences, standard weight, groundness; and the weight computed from the two counts for any weights of variables and symbols
(`TermWeight`, TERMS/cte_termfunc.h:101) is the weight of the term. -/
theorem bank_counts (hx : x.OK) (h : TBReach x b H) {a : Nat} {t : Term} (hr : (.cell a, t) ∈ H) :
    (b.cell a).vCount = t.vars.length ∧ (b.cell a).fCount = t.weight 0 1 ∧ (b.cell a).weight = t.weight 1 2 ∧
      ((b.cell a).ground = true ↔ t.vars = []) ∧ ∀ vw fw, (b.cell a).vCount * vw + (b.cell a).fCount * fw = t.weight vw fw := by
  obtain ⟨h1, _, h3⟩ := bank_inv hx h
  have hread := h3 _ hr
  have hc := reads_counts h1 t a hread
  simp only [counts, Prod.mk.injEq] at hc
  refine ⟨hc.1, hc.2.1, hc.2.2, ?_, fun vw fw => by rw [hc.1, hc.2.1]; exact weight_counts vw fw t⟩
  rw [h1.ground a (reads_cell.1 hread).1, hc.1]
  simp

/-- Inserting a term changes no cell in use and frees none. -/
theorem bank_insert_keeps (hx : x.OK) (h : TBReach x b H) (t : Term) {a : Nat} (ha : a ∈ b.used) :
    a ∈ (tbInsert x t b).2.used ∧ (tbInsert x t b).2.cell a = b.cell a := by
  obtain ⟨h1, _, _⟩ := bank_inv hx h
  have g := (tbInsert_grow hx t h1).1
  exact ⟨g.ext.used a ha, g.ext.cell a ha⟩

/-- Looking up a cell over shared arguments finds the pointer that reads as the term, if there is one. -/
theorem bank_find (hx : x.OK) (h : TBReach x b H) (f : Nat) (as : List (TRef × Term)) (has : ∀ p ∈ as, p ∈ H) (r : TRef) :
    (tbFind x b f (as.map (·.1))).1 = some r ↔ Reads b r (.app f (as.map (·.2))) := by
  obtain ⟨h1, _, h3⟩ := bank_inv hx h
  have hl := readsL_of_mem h3 fun p hp => Or.inl (has p hp)
  rw [(tbFind_spec hx h1 f _).2 r]
  constructor
  · rintro ⟨a, rfl, ha, hk⟩
    simp only [keyOf, Prod.mk.injEq] at hk
    rw [reads_cell]
    exact ⟨ha, _, by rw [hk.1], by rw [hk.2]; exact hl⟩
  · intro hr
    cases r with
    | var n => cases hr
    | cell a =>
      obtain ⟨ha, us, he, hus⟩ := reads_cell.1 hr
      simp only [Term.app.injEq] at he
      refine ⟨a, rfl, ha, ?_⟩
      simp only [keyOf, ← he.1, Prod.mk.injEq, true_and]
      rw [← he.2] at hus
      clear hr he has
      revert hl hus
      generalize (b.cell a).args = ss, as.map (·.1) = rs, as.map (·.2) = ts
      intro hl hus
      induction hl generalizing ss with
      | nil => cases hus; rfl
      | cons k1 k2 ih =>
        cases hus with
        | cons j1 j2 => rw [reads_inj hx h1 k1 j1, ih _ j2]

/-! ### A term that is already there -/

theorem insertTop_existing (hx : x.OK) (hb : Inv x b) {a : Nat} (ha : a ∈ b.used) :
    (insertTop x b (b.cell a).f (b.cell a).args).1 = .cell a ∧ (insertTop x b (b.cell a).f (b.cell a).args).2.used = b.used ∧
      (insertTop x b (b.cell a).f (b.cell a).args).2.inCount = b.inCount ∧ (insertTop x b (b.cell a).f (b.cell a).args).2.cell = b.cell := by
  obtain ⟨h1, h2, _, _, e, h5, h6, h7⟩ := insertTop_spec hx hb (b.cell a).f fun c hc => (hb.closed a ha c hc).1
  have hea : e = a := h1.unique hx h6 (h2.used a ha) (by rw [h7]; simp only [keyOf, h2.cell a ha])
  subst hea
  have hn : e ≠ x.alloc b := fun hc => hx.fresh b (hc ▸ ha)
  refine ⟨h5, ?_⟩
  revert h5
  unfold insertTop
  simp only
  split
  · intro _; exact ⟨rfl, rfl, rfl⟩
  · intro h5; simp only [TRef.cell.injEq] at h5; exact absurd h5.symm hn

mutual
theorem tbInsert_existing (hx : x.OK) : ∀ (t : Term) {b : TBank} {r : TRef}, Inv x b → Reads b r t →
    (tbInsert x t b).1 = r ∧ (tbInsert x t b).2.used = b.used ∧ (tbInsert x t b).2.inCount = b.inCount ∧ (tbInsert x t b).2.cell = b.cell
  | .var n, b, r, _, hr => by cases hr; exact ⟨rfl, rfl, rfl, rfl⟩
  | .app f ts, b, r, hb, hr => by
    cases r with
    | var n => cases hr
    | cell a =>
      obtain ⟨ha, us, he, hus⟩ := reads_cell.1 hr
      simp only [Term.app.injEq] at he
      obtain ⟨rfl, rfl⟩ := he
      obtain ⟨h1, h2, h3, h4⟩ := tbInsertL_existing hx ts hb hus
      have g := (tbInsertL_grow hx ts hb).1
      have := insertTop_existing hx g.inv (a := a) (by rw [h2]; exact ha)
      rw [h4, h2, h3] at this
      simp only [tbInsert, h1]
      exact this
theorem tbInsertL_existing (hx : x.OK) : ∀ (ts : List Term) {b : TBank} {rs : List TRef}, Inv x b → ReadsL b rs ts →
    (tbInsertL x ts b).1 = rs ∧ (tbInsertL x ts b).2.used = b.used ∧ (tbInsertL x ts b).2.inCount = b.inCount ∧
      (tbInsertL x ts b).2.cell = b.cell
  | [], b, _, _, .nil => ⟨rfl, rfl, rfl, rfl⟩
  | t :: ts, b, r :: rs, hb, .cons h1 h2 => by
    obtain ⟨k1, k2, k3, k4⟩ := tbInsert_existing hx t hb h1
    have g := (tbInsert_grow hx t hb).1
    obtain ⟨j1, j2, j3, j4⟩ := tbInsertL_existing hx ts g.inv (readsL_ext g.ext h2)
    simp only [tbInsertL]
    exact ⟨by rw [k1, j1], j2.trans k2, j3.trans k3, j4.trans k4⟩
end

/-- Inserting a term that some pointer already reads as returns that pointer and allocates nothing. -/
theorem bank_insert_existing (hx : x.OK) (h : TBReach x b H) {r : TRef} {t : Term} (hr : Reads b r t) :
    (tbInsert x t b).1 = r ∧ (tbInsert x t b).2.used = b.used ∧ (tbInsert x t b).2.cell = b.cell := by
  obtain ⟨h1, h2, _, h4⟩ := tbInsert_existing hx t (bank_inv hx h).1 hr
  exact ⟨h1, h2, h4⟩

/-! ### Building terms from shared terms -/

/-- Instantiating a shared term: with enough fuel there is a result, and it reads as the instance. -/
theorem bank_instance (hx : x.OK) (h : TBReach x b H) {r : TRef} {t : Term} (hr : (r, t) ∈ H) {bind : Nat → Option TRef}
    {σ : Nat → Term} (hσ : ∀ v s, bind v = some s → (s, σ v) ∈ H) (hv : ∀ v, bind v = none → σ v = .var v) :
    (∃ n p, instShared x bind n r b = some p) ∧
      ∀ n r' b', instShared x bind n r b = some (r', b') → Reads b' r' (t.subst σ) ∧ ∀ a ∈ b.used, a ∈ b'.used ∧ b'.cell a = b.cell a := by
  obtain ⟨h1, _, h3⟩ := bank_inv hx h
  have hB : BindReads b bind σ := fun v => ⟨fun s hs => h3 _ (hσ v s hs), hv v⟩
  refine ⟨⟨t.size, instShared_total hx _ r t b h1 hB (h3 _ hr) (Nat.le_refl _)⟩, fun n r' b' he => ?_⟩
  obtain ⟨g, hg⟩ := instShared_grow hx n r t b r' b' h1 hB (h3 _ hr) he
  exact ⟨hg, fun a ha => ⟨g.ext.used a ha, g.ext.cell a ha⟩⟩

/-- Replacing all occurrences of a shared subterm, with the shortcut by cached weights: the result reads as the term in which all
occurrences are replaced. -/
theorem bank_replace (hx : x.OK) (h : TBReach x b H) {r old rep : TRef} {t told trep : Term} (hr : (r, t) ∈ H) (ho : (old, told) ∈ H)
    (hp : (rep, trep) ∈ H) :
    (∃ n p, replShared x old rep n r b = some p) ∧
      ∀ n r' b', replShared x old rep n r b = some (r', b') → Reads b' r' (replaceAll told trep t) := by
  obtain ⟨h1, _, h3⟩ := bank_inv hx h
  refine ⟨⟨t.size, replShared_total hx _ r t b h1 (h3 _ ho) (h3 _ hp) (h3 _ hr) (Nat.le_refl _)⟩, fun n r' b' he => ?_⟩
  rw [← InstProof.replPlain_eq]
  exact (replShared_grow hx n r t b r' b' h1 (h3 _ ho) (h3 _ hp) (h3 _ hr) he).2

/-! ### Garbage collection -/

/-- A collection terminates, frees exactly the cells not reached from the terms marked, and changes no other cell but for the
garbage flag. -/
theorem bank_gc (hx : x.OK) (h : TBReach x b H) {roots : List TRef} (hroots : ∀ r ∈ roots, ∃ t, Reads b r t) :
    (∃ n b', gc x n roots b = some b') ∧ ∀ n b', gc x n roots b = some b' →
      (∀ a, a ∈ b'.used ↔ Reached b roots a) ∧ ∀ a, ∃ fl, b'.cell a = { b.cell a with flag := fl } := by
  obtain ⟨h1, h2, _⟩ := bank_inv hx h
  have hr : ∀ a, .cell a ∈ roots → a ∈ b.used := fun a ha => by
    obtain ⟨t, ht⟩ := hroots _ ha
    exact (reads_cell.1 ht).1
  refine ⟨gc_total h1 hr, fun n b' he => ?_⟩
  obtain ⟨_, _, g3, g4⟩ := gc_spec hx h1 h2 hr he
  exact ⟨g3, g4⟩

/-- The rewrite link of a term in use never dangles, although the replacement need not be in use elsewhere. -/
theorem bank_links (hx : x.OK) (h : TBReach x b H) {a : Nat} {s : Term} (ha : (.cell a, s) ∈ H) {r : TRef}
    (hl : (b.cell a).link = some r) : ∃ t, Reads b r t := by
  obtain ⟨h1, _, h3⟩ := bank_inv hx h
  refine reads_total h1 ?_
  rintro c rfl
  exact h1.link a (reads_cell.1 (h3 _ ha)).1 c hl

end

/-! ## Examples -/

namespace BankExample

/-- Addresses are numbers; variable cells have even ones. -/
def addr : TRef → Nat
  | .var n => 2 * n
  | .cell a => 2 * a + 1

def ctx : TBCtx where
  pcmp r s := compare (addr r) (addr s)
  hash k := (k.1 + k.2.length) % 4
  size := 4
  alloc b := b.used.foldl max 0 + 1

theorem addr_inj {r s : TRef} (h : addr r = addr s) : r = s := by
  cases r <;> cases s <;> simp only [addr] at h
  · congr 1; omega
  · omega
  · omega
  · congr 1; omega

theorem foldl_max (l : List Nat) (m : Nat) : m ≤ l.foldl max m ∧ ∀ a ∈ l, a ≤ l.foldl max m := by
  induction l generalizing m with
  | nil => simp
  | cons c l ih =>
    obtain ⟨h1, h2⟩ := ih (max m c)
    refine ⟨by simp only [List.foldl_cons]; omega, fun a ha => ?_⟩
    rcases List.mem_cons.1 ha with rfl | ha
    · simp only [List.foldl_cons]; omega
    · exact h2 a ha

theorem ctx_ok : ctx.OK where
  trans := {
    eq_swap := fun {a b} => Std.OrientedCmp.eq_swap (cmp := (compare : Nat → Nat → Ordering)) (a := addr a) (b := addr b)
    isLE_trans := fun {a b c} h1 h2 => Std.TransCmp.isLE_trans (cmp := (compare : Nat → Nat → Ordering)) (a := addr a) (b := addr b) (c := addr c) h1 h2 }
  lawful r s h := addr_inj (Nat.compare_eq_eq.1 h)
  hash k := Nat.mod_lt _ (by decide)
  fresh b h := by have := (foldl_max b.used 0).2 _ h; simp only [ctx] at this; omega

/-- `f(X,a)`. -/
abbrev t1 : Term := .app 1 [.var 3, .app 2 []]
/-- `g(f(X,a), a)`. -/
abbrev t2 : Term := .app 4 [t1, .app 2 []]
abbrev c : Term := .app 7 []

abbrev b1 := tbInsert ctx t1 .empty
abbrev b2 := tbInsert ctx t2 b1.2
abbrev b3 := tbInsert ctx c b2.2
/-- `a` is rewritten to `c`. -/
abbrev b4 := addLink (tbInsert ctx (.app 2 []) b3.2).2 1 (.cell 4)

-- inserting the second term allocates one cell only; its counts
example : b1.1 = .cell 2 ∧ b2.1 = .cell 3 ∧ b2.2.used = [3, 2, 1] ∧ (b2.2.cell 3).args = [.cell 2, .cell 1] ∧
    ((b2.2.cell 3).vCount, (b2.2.cell 3).fCount, (b2.2.cell 3).weight) = (1, 4, 9) := by decide +kernel

theorem reach4 : TBReach ctx b4 [(.cell 4, c), (.cell 3, t2), (.cell 2, t1)] := by
  have h1 : TBReach ctx b1.2 [(.cell 2, t1)] := TBReach.insert t1 .init
  have h2 : TBReach ctx b2.2 [(.cell 3, t2), (.cell 2, t1)] := TBReach.insert t2 h1
  have h3 : TBReach ctx b3.2 [(.cell 4, c), (.cell 3, t2), (.cell 2, t1)] := TBReach.insert c h2
  have h4 : TBReach ctx (tbInsert ctx (.app 2 []) b3.2).2 [(.cell 1, .app 2 []), (.cell 4, c), (.cell 3, t2), (.cell 2, t1)] :=
    TBReach.insert (.app 2 []) h3
  exact TBReach.drop (TBReach.addLink h4 (a := 1) (r := .cell 4) (s := .app 2 []) (t := c) (by simp) (by simp)) (by simp)

-- collecting with only `f(X,a)` in use: `g(..)` is freed; `c` is kept, since `a` was rewritten to it
example : ∃ b5, gc ctx 20 [.cell 2] b4 = some b5 ∧ b5.used = [4, 2, 1] ∧ TBReach ctx b5 [(.cell 2, t1)] := by
  have hd : TBReach ctx b4 [(.cell 2, t1)] := reach4.drop (by simp)
  cases hg : gc ctx 20 [.cell 2] b4 with
  | none =>
    have : (gc ctx 20 [.cell 2] b4).isSome = true := by decide +kernel
    rw [hg] at this; cases this
  | some b5 =>
    have hu : (gc ctx 20 [.cell 2] b4).map (·.used) = some [4, 2, 1] := by decide +kernel
    rw [hg] at hu
    simp only [Option.map_some, Option.some.injEq] at hu
    refine ⟨b5, rfl, hu, .gc hd (by simp) ?_ hg⟩
    intro r hr
    simp only [List.mem_singleton] at hr
    subst hr
    exact ⟨t1, (bank_inv ctx_ok hd).2.2 (.cell 2, t1) (by simp)⟩

-- the freed address is used again
example : (((gc ctx 20 [.cell 2] b4).map fun b5 => (tbInsert ctx (.app 9 [.var 3]) b5).1)) = some (.cell 5) := by decide +kernel
example : (((gc ctx 20 [.cell 4] b4).map fun b5 => (b5.used, (tbInsert ctx t2 b5).1))) = some ([4], .cell 7) := by decide +kernel

-- instantiating and replacing
example : (instShared ctx (fun v => if v = 3 then some (.cell 1) else none) 5 (.cell 2) b4).map (fun p => (p.1, (p.2.cell 5).args)) =
    some (.cell 5, [.cell 1, .cell 1]) := by decide +kernel
example : (replShared ctx (.cell 1) (.cell 4) 5 (.cell 3) b4).map (fun p => (p.1, (p.2.cell 6).args, (p.2.cell 5).args)) =
    some (.cell 6, [.cell 5, .cell 4], [.var 3, .cell 4]) := by decide +kernel

end BankExample
end Verif.Props
