import Verif.Terms.Subst
import Mathlib.Data.List.Dedup

/-!
# First-order unification

Model of `TermDerefAlways` (TERMS/cte_termtypes.h:468-481), `OccurCheck`
(TERMS/cte_match_mgu_1-1.c:93-111) and `SubstComputeMgu`
(TERMS/cte_match_mgu_1-1.c:463-560).  All loops carry fuel; `none` means that
the fuel ran out.
-/

namespace Verif

/-- `TermDerefAlways` (TERMS/cte_termtypes.h:468-481), first-order case: follow
bindings until an unbound variable or an application is reached. -/
def derefAlways (bind : Nat → Option Term) : Nat → Term → Option Term
  | _, .app f ts => some (.app f ts)
  | n, .var x =>
    match bind x with
    | none => some (.var x)
    | some u =>
      match n with
      | 0 => none
      | n + 1 => derefAlways bind n u

mutual
/-- `OccurCheck(term, var)` (TERMS/cte_match_mgu_1-1.c:93-111). -/
def occurCheck (bind : Nat → Option Term) : Nat → Term → Nat → Option Bool
  | 0, _, _ => none
  | n + 1, t, x =>
    match derefAlways bind n t with
    | none => none
    | some (.var y) => some (y == x)
    | some (.app _ ts) => occurCheckL bind n ts x
/-- The argument loop of `OccurCheck` (lines 102-108). -/
def occurCheckL (bind : Nat → Option Term) : Nat → List Term → Nat → Option Bool
  | _, [], _ => some false
  | 0, _ :: _, _ => none
  | n + 1, t :: ts, x =>
    match occurCheck bind n t x with
    | none => none
    | some true => some true
    | some false => occurCheckL bind n ts x
end

/-- The argument loop of `SubstComputeMgu` (lines 528-541), from the last
argument to the first: pairs with a (syntactic) variable are buried at the far
end of the queue, the others are stored at the near end. -/
def pushArgs (ps jobs : List (Term × Term)) : List (Term × Term) :=
  ps.foldr (fun p js => if p.1.isVar || p.2.isVar then js ++ [p] else p :: js) jobs

/-- The main loop of `SubstComputeMgu` (lines 488-544).  The queue is a list of
pairs, the next one to be taken (`PQueueGetLast` twice) first. -/
def mguLoop (sg : Sig) : Nat → List (Term × Term) → SubstSt → Option (Bool × SubstSt)
  | _, [], st => some (true, st)
  | 0, _ :: _, _ => none
  | n + 1, (a, b) :: jobs, st =>
    match derefAlways st.bind n a, derefAlways st.bind n b with
    | some t1, some t2 =>
      -- lines 493-496: make t1 the variable if there is one
      let p := if t2.isVar then (t2, t1) else (t1, t2)
      match p.1 with
      | .var x =>
        if p.1 = p.2 then mguLoop sg n jobs st
        else if sg.vty x ≠ sg.ty p.2 then some (false, st)
        else
          match occurCheck st.bind n p.2 x with
          | none => none
          | some true => some (false, st)
          | some false => mguLoop sg n jobs (st.addBinding x p.2)
      | .app f ts =>
        match p.2 with
        | .var _ => some (false, st) -- unreachable: t2 is not a variable here
        | .app g us =>
          if f ≠ g ∨ ts.length ≠ us.length then some (false, st)
          else mguLoop sg n (pushArgs (ts.zip us) jobs) st
    | _, _ => none

/-- `SubstComputeMgu(t1, t2, subst)`; `pp1`, `pp2` are the `TPPredPos`
properties of the two terms (lines 473-479). -/
def substComputeMgu (sg : Sig) (fuel : Nat) (t1 t2 : Term) (pp1 pp2 : Bool) (st : SubstSt) :
    Option (Bool × SubstSt) :=
  if (pp1 = true ∧ t2.isVar = true) ∨ (pp2 = true ∧ t1.isVar = true) then some (false, st)
  else
    match mguLoop sg fuel [(t1, t2)] st with
    | none => none
    | some (true, st') => some (true, st')
    | some (false, st') => some (false, st'.backtrackToPos st.stack.length)

namespace MguProof

open Term

/-- Bindings in the order in which they were made, newest first. -/
abbrev Trail := List (Nat × Term)

/-- Full instantiation by a trail. -/
def inst : Trail → Nat → Term
  | [] => var
  | (x, u) :: tr => fun y => (inst tr y).subst (single x (u.subst (inst tr)))

def keys (tr : Trail) : List Nat := tr.map Prod.fst

def look : Trail → Nat → Option Term
  | [], _ => none
  | (x, u) :: tr, y => if y = x then some u else look tr y

/-- Triangular form: each variable bound once, to a term that does not contain
it after instantiation. -/
def Tri : Trail → Prop
  | [] => True
  | (x, u) :: tr => Tri tr ∧ x ∉ keys tr ∧ x ∉ (u.subst (inst tr)).vars

theorem look_none {tr : Trail} {x : Nat} : look tr x = none ↔ x ∉ keys tr := by
  induction tr with
  | nil => simp [look, keys]
  | cons p tr ih =>
    obtain ⟨y, u⟩ := p
    by_cases h : x = y
    · simp [look, keys, h]
    · simp [look, h, ih, keys]

theorem inst_cons (x : Nat) (u t : Term) (tr : Trail) :
    t.subst (inst ((x, u) :: tr)) = (t.subst (inst tr)).subst (single x (u.subst (inst tr))) := by
  rw [subst_comp]; rfl

theorem inst_unbound {tr : Trail} {x : Nat} (h : look tr x = none) : inst tr x = var x := by
  induction tr with
  | nil => rfl
  | cons p tr ih =>
    obtain ⟨y, u⟩ := p
    by_cases hxy : x = y
    · simp [look, hxy] at h
    · simp [look, hxy] at h
      simp [inst, ih h, single_ne _ hxy]

theorem inst_bound {tr : Trail} (ht : Tri tr) {x : Nat} {u : Term} (h : look tr x = some u) :
    inst tr x = u.subst (inst tr) := by
  induction tr with
  | nil => simp [look] at h
  | cons p tr ih =>
    obtain ⟨y, w⟩ := p
    obtain ⟨ht, hk, hv⟩ := ht
    rw [inst_cons]
    by_cases hxy : x = y
    · subst hxy
      simp [look] at h; subst h
      rw [subst_single_of_not_mem hv]
      simp only [inst]
      rw [inst_unbound (look_none.2 hk)]; simp
    · simp [look, hxy] at h
      rw [← ih ht h]; rfl

/-- No instantiated term contains a bound variable. -/
theorem inst_vars_unbound {tr : Trail} (ht : Tri tr) {t : Term} {x : Nat}
    (hx : x ∈ (t.subst (inst tr)).vars) : look tr x = none := by
  induction tr generalizing t with
  | nil => rfl
  | cons p tr ih =>
    obtain ⟨y, w⟩ := p
    obtain ⟨ht, hk, hv⟩ := ht
    rw [inst_cons, mem_vars_subst] at hx
    obtain ⟨z, hz, hx⟩ := hx
    by_cases hzy : z = y
    · subst hzy
      simp only [single_self] at hx
      have h1 : x ≠ z := fun h => hv (h ▸ hx)
      simp only [look, if_neg h1]
      exact ih ht hx
    · rw [single_ne _ hzy] at hx
      simp [vars] at hx; subst hx
      simp only [look, if_neg hzy]
      exact ih ht hz

/-- `θ` satisfies the bindings. -/
def Sat (bind : Nat → Option Term) (θ : Nat → Term) : Prop :=
  ∀ x u, bind x = some u → θ x = u.subst θ

/-- A substitution satisfying the bindings factors through the instantiation. -/
theorem sat_factor {tr : Trail} (ht : Tri tr) {θ : Nat → Term} (h : Sat (look tr) θ) (y : Nat) :
    (inst tr y).subst θ = θ y := by
  induction tr generalizing y with
  | nil => rfl
  | cons p tr ih =>
    obtain ⟨x, u⟩ := p
    obtain ⟨ht, hk, hv⟩ := ht
    have hsat : Sat (look tr) θ := by
      intro z w hz
      refine h z w ?_
      have : z ≠ x := by
        rintro rfl
        rw [look_none.2 hk] at hz; simp at hz
      simp [look, this, hz]
    have ih' := ih ht hsat
    simp only [inst, subst_comp]
    rw [← ih' y]
    refine subst_congr fun z _ => ?_
    by_cases hz : z = x
    · subst hz
      simp only [single_self, subst_comp]
      rw [h z u (by simp [look])]
      exact subst_congr fun w _ => ih' w
    · simp [single_ne _ hz]

theorem sat_inst {tr : Trail} (ht : Tri tr) : Sat (look tr) (inst tr) :=
  fun _ _ h => inst_bound ht h

theorem sat_factor_term {tr : Trail} (ht : Tri tr) {θ : Nat → Term} (h : Sat (look tr) θ) (t : Term) :
    (t.subst (inst tr)).subst θ = t.subst θ := by
  rw [subst_comp]
  exact subst_congr fun y _ => sat_factor ht h y

/-- Dereferencing does not change instances under satisfying substitutions. -/
theorem deref_sat {bind : Nat → Option Term} {θ : Nat → Term} (h : Sat bind θ) :
    ∀ (n : Nat) (t r : Term), derefAlways bind n t = some r → r.subst θ = t.subst θ := by
  intro n
  induction n with
  | zero =>
    intro t r hr
    cases t with
    | app f ts => simp [derefAlways] at hr; rw [← hr]
    | var x =>
      cases hb : bind x with
      | none => simp [derefAlways, hb] at hr; rw [← hr]
      | some u => simp [derefAlways, hb] at hr
  | succ n ih =>
    intro t r hr
    cases t with
    | app f ts => simp [derefAlways] at hr; rw [← hr]
    | var x =>
      cases hb : bind x with
      | none => simp [derefAlways, hb] at hr; rw [← hr]
      | some u =>
        simp [derefAlways, hb] at hr
        rw [ih u r hr, subst_var, h x u hb]

/-- The result of dereferencing is an application or an unbound variable. -/
theorem deref_result {bind : Nat → Option Term} :
    ∀ (n : Nat) (t : Term) (x : Nat), derefAlways bind n t = some (var x) → bind x = none := by
  intro n
  induction n with
  | zero =>
    intro t x hr
    cases t with
    | app f ts => simp [derefAlways] at hr
    | var y =>
      cases hb : bind y with
      | none => simp [derefAlways, hb] at hr; rw [← hr, hb]
      | some u => simp [derefAlways, hb] at hr
  | succ n ih =>
    intro t x hr
    cases t with
    | app f ts => simp [derefAlways] at hr
    | var y =>
      cases hb : bind y with
      | none => simp [derefAlways, hb] at hr; rw [← hr, hb]
      | some u => simp [derefAlways, hb] at hr; exact ih u x hr

/-- Variables of the result occur in the start term or in a bound term. -/
theorem deref_vars {bind : Nat → Option Term} {V : List Nat}
    (hV : ∀ x u, bind x = some u → ∀ y ∈ u.vars, y ∈ V) :
    ∀ (n : Nat) (t r : Term), derefAlways bind n t = some r → (∀ y ∈ t.vars, y ∈ V) →
      ∀ y ∈ r.vars, y ∈ V := by
  intro n
  induction n with
  | zero =>
    intro t r hr ht
    cases t with
    | app f ts => simp [derefAlways] at hr; rw [← hr]; exact ht
    | var x =>
      cases hb : bind x with
      | none => simp [derefAlways, hb] at hr; rw [← hr]; exact ht
      | some u => simp [derefAlways, hb] at hr
  | succ n ih =>
    intro t r hr ht
    cases t with
    | app f ts => simp [derefAlways] at hr; rw [← hr]; exact ht
    | var x =>
      cases hb : bind x with
      | none => simp [derefAlways, hb] at hr; rw [← hr]; exact ht
      | some u =>
        simp [derefAlways, hb] at hr
        exact ih u r hr (hV x u hb)

theorem deref_wt {sg : Sig} {bind : Nat → Option Term}
    (hB : ∀ x u, bind x = some u → sg.ty u = sg.vty x ∧ sg.WT u) :
    ∀ (n : Nat) (t r : Term), derefAlways bind n t = some r → sg.ty r = sg.ty t ∧ (sg.WT t → sg.WT r) := by
  intro n
  induction n with
  | zero =>
    intro t r hr
    cases t with
    | app f ts => simp [derefAlways] at hr; rw [← hr]; exact ⟨rfl, id⟩
    | var x =>
      cases hb : bind x with
      | none => simp [derefAlways, hb] at hr; rw [← hr]; exact ⟨rfl, id⟩
      | some u => simp [derefAlways, hb] at hr
  | succ n ih =>
    intro t r hr
    cases t with
    | app f ts => simp [derefAlways] at hr; rw [← hr]; exact ⟨rfl, id⟩
    | var x =>
      cases hb : bind x with
      | none => simp [derefAlways, hb] at hr; rw [← hr]; exact ⟨rfl, id⟩
      | some u =>
        simp [derefAlways, hb] at hr
        have := ih u r hr
        exact ⟨by rw [this.1, (hB x u hb).1]; rfl, fun _ => this.2 (hB x u hb).2⟩

/-- Acyclic bindings: a rank that decreases along bindings. -/
def Acyclic (bind : Nat → Option Term) : Prop :=
  ∃ rank : Nat → Nat, ∀ x u, bind x = some u → ∀ y ∈ u.vars, rank y < rank x

theorem deref_total {bind : Nat → Option Term} (h : Acyclic bind) (t : Term) :
    ∃ N r, ∀ n ≥ N, derefAlways bind n t = some r := by
  obtain ⟨rank, hr⟩ := h
  cases t with
  | app f ts => exact ⟨0, app f ts, fun n _ => by cases n <;> simp [derefAlways]⟩
  | var x =>
    induction hk : rank x using Nat.strong_induction_on generalizing x with
    | _ k ih =>
      cases hb : bind x with
      | none => exact ⟨0, var x, fun n _ => by cases n <;> simp [derefAlways, hb]⟩
      | some u =>
        cases u with
        | app f ts =>
          refine ⟨1, app f ts, fun n hn => ?_⟩
          obtain ⟨m, rfl⟩ : ∃ m, n = m + 1 := ⟨n - 1, by omega⟩
          simp only [derefAlways, hb]
        | var y =>
          have hlt := hr x _ hb y (by simp [vars])
          obtain ⟨N, r, hN⟩ := ih (rank y) (by omega) y rfl
          refine ⟨N + 1, r, fun n hn => ?_⟩
          obtain ⟨m, rfl⟩ : ∃ m, n = m + 1 := ⟨n - 1, by omega⟩
          rw [derefAlways]
          simp only [hb]
          exact hN m (by omega)

/-- A triangular trail is acyclic. -/
theorem tri_acyclic {tr : Trail} (ht : Tri tr) : ∃ rank : Nat → Nat,
    (∀ x u, look tr x = some u → ∀ y ∈ u.vars, rank y < rank x) := by
  induction tr with
  | nil => exact ⟨fun _ => 0, by simp [look]⟩
  | cons p tr ih =>
    obtain ⟨x, u⟩ := p
    obtain ⟨ht, hk, hv⟩ := ht
    obtain ⟨rank, hr⟩ := ih ht
    have hK : ∃ M, ∀ y ∈ u.vars, rank y < M := by
      generalize u.vars = L
      induction L with
      | nil => exact ⟨0, by simp⟩
      | cons a L ihL =>
        obtain ⟨M, hM⟩ := ihL
        refine ⟨M + rank a + 1, fun y hy => ?_⟩
        rcases List.mem_cons.1 hy with rfl | hy
        · omega
        · have := hM y hy; omega
    obtain ⟨M, hM⟩ := hK
    classical
    refine ⟨fun y => if x ∈ (inst tr y).vars then rank y + M else rank y, ?_⟩
    intro z w hz y hy
    by_cases hzx : z = x
    · subst hzx
      simp [look] at hz; subst hz
      have h1 : z ∉ (inst tr y).vars := fun h => hv (mem_vars_subst.2 ⟨y, hy, h⟩)
      have h2 : z ∈ (inst tr z).vars := by rw [inst_unbound (look_none.2 hk)]; simp [vars]
      simp only [if_neg h1, if_pos h2]
      have := hM y hy; omega
    · simp [look, hzx] at hz
      have hlt := hr z w hz y hy
      have himp : x ∈ (inst tr y).vars → x ∈ (inst tr z).vars := fun h => by
        rw [inst_bound ht hz]; exact mem_vars_subst.2 ⟨y, hy, h⟩
      by_cases h1 : x ∈ (inst tr y).vars
      · simp only [if_pos h1, if_pos (himp h1)]; omega
      · simp only [if_neg h1]; split <;> omega

/-- Occurs check: soundness and completeness of an answer. -/
theorem occur_iff {tr : Trail} (ht : Tri tr) (x : Nat) : ∀ n : Nat,
    (∀ t b, occurCheck (look tr) n t x = some b → (b = true ↔ x ∈ (t.subst (inst tr)).vars ∧ look tr x = none)) ∧
    (∀ ts b, occurCheckL (look tr) n ts x = some b →
      (b = true ↔ ∃ t ∈ ts, x ∈ (t.subst (inst tr)).vars ∧ look tr x = none)) := by
  intro n
  induction n with
  | zero =>
    refine ⟨fun t b h => by simp [occurCheck] at h, fun ts b h => ?_⟩
    cases ts with
    | nil => simp [occurCheckL] at h; subst h; simp
    | cons t ts => simp [occurCheckL] at h
  | succ n ih =>
    refine ⟨fun t b h => ?_, fun ts b h => ?_⟩
    · cases hd : derefAlways (look tr) n t with
      | none => simp [occurCheck, hd] at h
      | some r =>
        have hs := deref_sat (sat_inst ht) n t r hd
        rw [← hs]
        cases r with
        | var y =>
          simp only [occurCheck, hd, Option.some.injEq] at h
          have hy := deref_result n t y hd
          rw [subst_var, inst_unbound hy, ← h]
          simp only [beq_iff_eq, vars, List.mem_singleton]
          constructor
          · rintro rfl; exact ⟨rfl, hy⟩
          · exact fun h => h.1.symm
        | app f ts =>
          simp only [occurCheck, hd] at h
          rw [ih.2 ts b h, subst_app, vars, mem_varsL]
          constructor
          · rintro ⟨t, htm, hx, hl⟩
            exact ⟨⟨_, List.mem_map_of_mem htm, hx⟩, hl⟩
          · rintro ⟨⟨_, ht', hx⟩, hl⟩
            obtain ⟨t, htm, rfl⟩ := List.mem_map.1 ht'
            exact ⟨t, htm, hx, hl⟩
    · cases ts with
      | nil => simp [occurCheckL] at h; subst h; simp
      | cons t ts =>
        simp only [occurCheckL] at h
        cases ho : occurCheck (look tr) n t x with
        | none => simp [ho] at h
        | some c =>
          have h1 := ih.1 t c ho
          cases c with
          | true =>
            simp [ho] at h; subst h
            simp only [true_iff] at h1 ⊢
            exact ⟨t, by simp, h1⟩
          | false =>
            simp [ho] at h
            rw [ih.2 ts b h]
            simp only [Bool.false_eq_true, false_iff] at h1
            constructor
            · rintro ⟨u, hu, hh⟩; exact ⟨u, by simp [hu], hh⟩
            · rintro ⟨u, hu, hh⟩
              rcases List.mem_cons.1 hu with rfl | hu
              · exact absurd hh h1
              · exact ⟨u, hu, hh⟩

theorem deref_total' {tr : Trail} (ht : Tri tr) (t : Term) :
    ∃ N r, ∀ n ≥ N, derefAlways (look tr) n t = some r :=
  deref_total (tri_acyclic ht) t

/-- The occurs check terminates. -/
theorem occur_total {tr : Trail} (ht : Tri tr) (x : Nat) : ∀ (k : Nat),
    (∀ t : Term, (t.subst (inst tr)).size ≤ k →
      ∃ N b, ∀ n ≥ N, occurCheck (look tr) n t x = some b) := by
  intro k
  induction k with
  | zero => intro t h; have := size_pos (t.subst (inst tr)); omega
  | succ k ih =>
    intro t hsz
    obtain ⟨N, r, hN⟩ := deref_total' ht t
    have hs := deref_sat (sat_inst ht) N t r (hN N (le_refl _))
    cases r with
    | var y =>
      refine ⟨N + 1, y == x, fun n hn => ?_⟩
      obtain ⟨m, rfl⟩ : ∃ m, n = m + 1 := ⟨n - 1, by omega⟩
      simp only [occurCheck, hN m (by omega)]
    | app f ts =>
      rw [← hs, subst_app] at hsz
      have hL : ∀ us : List Term, (∀ u ∈ us, u ∈ ts) →
          ∃ N b, ∀ n ≥ N, occurCheckL (look tr) n us x = some b := by
        intro us
        induction us with
        | nil => intro _; exact ⟨0, false, fun n _ => by cases n <;> simp [occurCheckL]⟩
        | cons u us ihu =>
          intro hus
          have hu : (u.subst (inst tr)).size ≤ k := by
            have := size_arg_lt (f := f) (List.mem_map_of_mem (f := subst (inst tr)) (hus u (by simp)))
            omega
          obtain ⟨N1, b1, h1⟩ := ih u hu
          obtain ⟨N2, b2, h2⟩ := ihu fun v hv => hus v (by simp [hv])
          refine ⟨N1 + N2 + 1, if b1 then true else b2, fun n hn => ?_⟩
          obtain ⟨m, rfl⟩ : ∃ m, n = m + 1 := ⟨n - 1, by omega⟩
          simp only [occurCheckL, h1 m (by omega), h2 m (by omega)]
          cases b1 <;> simp
      obtain ⟨N2, b, h2⟩ := hL ts fun _ h => h
      refine ⟨N + N2 + 1, b, fun n hn => ?_⟩
      obtain ⟨m, rfl⟩ : ∃ m, n = m + 1 := ⟨n - 1, by omega⟩
      simp only [occurCheck, hN m (by omega), h2 m (by omega)]

theorem mem_pushArgs {ps jobs : List (Term × Term)} {p : Term × Term} :
    p ∈ pushArgs ps jobs ↔ p ∈ ps ∨ p ∈ jobs := by
  induction ps with
  | nil => simp [pushArgs]
  | cons q ps ih =>
    have : pushArgs (q :: ps) jobs =
        if q.1.isVar || q.2.isVar then pushArgs ps jobs ++ [q] else q :: pushArgs ps jobs := rfl
    rw [this]
    split
    · simp [ih]; tauto
    · simp [ih]; tauto

/-- Sum of the instantiated sizes of all jobs. -/
def jsz (σ : Nat → Term) : List (Term × Term) → Nat
  | [] => 0
  | p :: ps => (p.1.subst σ).size + (p.2.subst σ).size + jsz σ ps

theorem jsz_append (σ : Nat → Term) (a b : List (Term × Term)) :
    jsz σ (a ++ b) = jsz σ a + jsz σ b := by
  induction a with
  | nil => simp [jsz]
  | cons p a ih => simp [jsz, ih]; omega

theorem jsz_pushArgs (σ : Nat → Term) (ps jobs : List (Term × Term)) :
    jsz σ (pushArgs ps jobs) = jsz σ ps + jsz σ jobs := by
  induction ps with
  | nil => simp [pushArgs, jsz]
  | cons q ps ih =>
    have : pushArgs (q :: ps) jobs =
        if q.1.isVar || q.2.isVar then pushArgs ps jobs ++ [q] else q :: pushArgs ps jobs := rfl
    rw [this]
    split
    · simp [jsz_append, jsz, ih]; omega
    · simp [jsz, ih]; omega

theorem jsz_zip_le (σ : Nat → Term) (ts us : List Term) :
    jsz σ (ts.zip us) ≤ sizeL (ts.map (subst σ)) + sizeL (us.map (subst σ)) := by
  induction ts generalizing us with
  | nil => simp [jsz]
  | cons t ts ih =>
    cases us with
    | nil => simp [jsz]
    | cons u us => have := ih us; simp [jsz, sizeL]; omega

/-- `θ` unifies all jobs. -/
def Unif (θ : Nat → Term) (jobs : List (Term × Term)) : Prop :=
  ∀ p ∈ jobs, p.1.subst θ = p.2.subst θ

theorem map_subst_zip2 {θ : Nat → Term} {ts us : List Term} (h : ts.length = us.length) :
    ts.map (subst θ) = us.map (subst θ) ↔ Unif θ (ts.zip us) := by
  induction ts generalizing us with
  | nil => cases us <;> simp_all [Unif]
  | cons t ts ih =>
    cases us with
    | nil => simp at h
    | cons u us =>
      have := ih (by simpa using h : ts.length = us.length)
      simp only [List.map_cons, List.cons.injEq, this, List.zip_cons_cons, Unif, List.mem_cons,
        forall_eq_or_imp]

/-- The state is represented by a triangular trail. -/
structure Inv (sg : Sig) (st : SubstSt) (tr : Trail) : Prop where
  repr : st.bind = look tr
  tri : Tri tr
  typed : ∀ x u, look tr x = some u → sg.ty u = sg.vty x

/-- Specification of the outcome of the loop. -/
structure Out (sg : Sig) (st : SubstSt) (tr : Trail) (jobs : List (Term × Term))
    (r : Bool × SubstSt) : Prop where
  ext : ∃ new, SubstSt.Extends st r.2 new
  succ : r.1 = true → ∃ tr', Inv sg r.2 tr' ∧
    ∀ θ, (Sat r.2.bind θ ↔ Sat st.bind θ ∧ Unif θ jobs)
  fail : r.1 = false → ∀ θ, (∀ x, sg.ty (θ x) = sg.vty x) → Sat st.bind θ → ¬ Unif θ jobs

theorem size_subst_le_of_mem {t : Term} {x : Nat} (h : x ∈ t.vars) (θ : Nat → Term) :
    (θ x).size ≤ (t.subst θ).size := by
  induction t using Term.ind with
  | hv y => simp [vars] at h; subst h; simp
  | ha f ts ih =>
    simp only [vars, mem_varsL] at h
    obtain ⟨t, ht, hx⟩ := h
    have h1 := ih t ht hx
    have h2 := size_arg_lt (f := f) (List.mem_map_of_mem (f := subst θ) ht)
    rw [subst_app]; omega

/-- Occurs-check failure: no solution. -/
theorem occurs_no_solution {tr : Trail} (ht : Tri tr) {x f : Nat} {ts : List Term}
    (hx : x ∈ ((app f ts).subst (inst tr)).vars) {θ : Nat → Term} (hs : Sat (look tr) θ) :
    θ x ≠ (app f ts).subst θ := by
  intro h
  have h1 := sat_factor_term ht hs (app f ts)
  rw [subst_app, vars, mem_varsL] at hx
  obtain ⟨t, htm, hx⟩ := hx
  rw [subst_app, subst_app] at h1
  have h2 := size_subst_le_of_mem hx θ
  have h3 := size_arg_lt (f := f) (List.mem_map_of_mem (f := subst θ) htm)
  rw [h1, ← h] at h3
  omega

/-- Adding a binding that passed the checks keeps the invariant. -/
theorem inv_add {sg : Sig} {st : SubstSt} {tr : Trail} (h : Inv sg st tr) {x : Nat} {t : Term}
    (hx : look tr x = none) (hty : sg.vty x = sg.ty t) (hocc : x ∉ (t.subst (inst tr)).vars) :
    Inv sg (st.addBinding x t) ((x, t) :: tr) := by
  refine ⟨?_, ⟨h.tri, look_none.1 hx, hocc⟩, ?_⟩
  · funext y
    by_cases hy : y = x <;> simp [SubstSt.addBinding, look, hy, h.repr]
  · intro y u hy
    by_cases hyx : y = x
    · subst hyx; simp [look] at hy; subst hy; exact hty.symm
    · simp [look, hyx] at hy; exact h.typed y u hy

theorem sat_add {st : SubstSt} {x : Nat} {t : Term} (hx : st.bind x = none) (θ : Nat → Term) :
    Sat (st.addBinding x t).bind θ ↔ Sat st.bind θ ∧ θ x = t.subst θ := by
  constructor
  · intro h
    refine ⟨fun y u hy => h y u ?_, h x t (by simp [SubstSt.addBinding])⟩
    have : y ≠ x := by rintro rfl; rw [hx] at hy; simp at hy
    simp [SubstSt.addBinding, this, hy]
  · rintro ⟨h1, h2⟩ y u hy
    by_cases hyx : y = x
    · subst hyx; simp [SubstSt.addBinding] at hy; subst hy; exact h2
    · simp [SubstSt.addBinding, hyx] at hy; exact h1 y u hy

theorem deref_ty {sg : Sig} {bind : Nat → Option Term}
    (hB : ∀ x u, bind x = some u → sg.ty u = sg.vty x) :
    ∀ (n : Nat) (t r : Term), derefAlways bind n t = some r → sg.ty r = sg.ty t := by
  intro n
  induction n with
  | zero =>
    intro t r hr
    cases t with
    | app f ts => simp [derefAlways] at hr; rw [← hr]
    | var x =>
      cases hb : bind x with
      | none => simp [derefAlways, hb] at hr; rw [← hr]
      | some u => simp [derefAlways, hb] at hr
  | succ n ih =>
    intro t r hr
    cases t with
    | app f ts => simp [derefAlways] at hr; rw [← hr]
    | var x =>
      cases hb : bind x with
      | none => simp [derefAlways, hb] at hr; rw [← hr]
      | some u =>
        simp [derefAlways, hb] at hr
        rw [ih u r hr, hB x u hb]; rfl

theorem extends_trans {a b c : SubstSt} {n1 n2 : List Nat} (h1 : SubstSt.Extends a b n1)
    (h2 : SubstSt.Extends b c n2) : SubstSt.Extends a c (n2 ++ n1) := by
  refine ⟨by simp [h1.stack, h2.stack], ?_, ?_, ?_⟩
  · intro x hx
    simp only [List.mem_append, not_or] at hx
    rw [h2.old x hx.1, h1.old x hx.2]
  · intro x hx
    rcases List.mem_append.1 hx with hx | hx
    · by_cases h : x ∈ n1
      · exact h1.fresh x h
      · rw [← h1.old x h]; exact h2.fresh x hx
    · exact h1.fresh x hx
  · intro x hx
    by_cases h : x ∈ n2
    · exact h2.bound x h
    · obtain ⟨t, ht⟩ := h1.bound x ((List.mem_append.1 hx).resolve_left h)
      exact ⟨t, by rw [h2.old x h, ht]⟩

/-- One step of the loop after dereferencing, as a case distinction. -/
def stepCase (sg : Sig) (n : Nat) (t1 t2 : Term) (jobs : List (Term × Term)) (st : SubstSt) :
    Option (Bool × SubstSt) :=
  let p := if t2.isVar then (t2, t1) else (t1, t2)
  match p.1 with
  | .var x =>
    if p.1 = p.2 then mguLoop sg n jobs st
    else if sg.vty x ≠ sg.ty p.2 then some (false, st)
    else
      match occurCheck st.bind n p.2 x with
      | none => none
      | some true => some (false, st)
      | some false => mguLoop sg n jobs (st.addBinding x p.2)
  | .app f ts =>
    match p.2 with
    | .var _ => some (false, st)
    | .app g us =>
      if f ≠ g ∨ ts.length ≠ us.length then some (false, st)
      else mguLoop sg n (pushArgs (ts.zip us) jobs) st

theorem loop_step (sg : Sig) (n : Nat) (a b : Term) (jobs : List (Term × Term)) (st : SubstSt)
    {t1 t2 : Term} (h1 : derefAlways st.bind n a = some t1) (h2 : derefAlways st.bind n b = some t2) :
    mguLoop sg (n + 1) ((a, b) :: jobs) st = stepCase sg n t1 t2 jobs st := by
  simp only [mguLoop, h1, h2]; rfl

/-- The variable case of a step: `x` against `t` (both dereferenced). -/
theorem var_case {sg : Sig} {st : SubstSt} {tr : Trail} (hI : Inv sg st tr)
    {x : Nat} {t : Term} (hx : st.bind x = none) (ht : ∀ y, t = var y → st.bind y = none)
    {n : Nat} {b : Bool} (hne : var x ≠ t)
    (ho : occurCheck st.bind n t x = some b) :
    (b = true → ∀ θ, Sat st.bind θ → θ x ≠ t.subst θ) ∧
    (b = false → x ∉ (t.subst (inst tr)).vars) := by
  rw [hI.repr] at ho
  have hiff := (occur_iff hI.tri x n).1 t b ho
  refine ⟨fun hb => ?_, fun hb h => ?_⟩
  · intro θ hs
    have hxm := (hiff.1 hb).1
    cases t with
    | var y =>
      have := ht y rfl
      rw [hI.repr] at this
      rw [subst_var, inst_unbound this] at hxm
      simp [vars] at hxm
      exact absurd (by rw [hxm]) hne
    | app f ts =>
      rw [hI.repr] at hs
      exact occurs_no_solution hI.tri hxm hs
  · rw [hI.repr] at hx
    have := hiff.2 ⟨h, hx⟩
    simp [hb] at this

/-- Partial correctness of the loop. -/
theorem loop_correct (sg : Sig) : ∀ (n : Nat) (jobs : List (Term × Term)) (st : SubstSt) (tr : Trail)
    (r : Bool × SubstSt), Inv sg st tr → mguLoop sg n jobs st = some r → Out sg st tr jobs r := by
  intro n
  induction n with
  | zero =>
    intro jobs st tr r hI h
    cases jobs with
    | nil =>
      simp [mguLoop] at h; subst h
      exact ⟨⟨[], SubstSt.Extends.refl st⟩, fun _ => ⟨tr, hI, fun θ => by simp [Unif]⟩, by simp⟩
    | cons p js => simp [mguLoop] at h
  | succ n ih =>
    intro jobs st tr r hI h
    cases jobs with
    | nil =>
      simp [mguLoop] at h; subst h
      exact ⟨⟨[], SubstSt.Extends.refl st⟩, fun _ => ⟨tr, hI, fun θ => by simp [Unif]⟩, by simp⟩
    | cons p js =>
      obtain ⟨a, b⟩ := p
      cases hd1 : derefAlways st.bind n a with
      | none => simp [mguLoop, hd1] at h
      | some t1 =>
      cases hd2 : derefAlways st.bind n b with
      | none => simp [mguLoop, hd1, hd2] at h
      | some t2 =>
      rw [loop_step sg n a b js st hd1 hd2] at h
      -- unifying the job is unifying the dereferenced pair
      have hU : ∀ θ, Sat st.bind θ → (Unif θ ((a, b) :: js) ↔ t1.subst θ = t2.subst θ ∧ Unif θ js) := by
        intro θ hs
        simp only [Unif, List.mem_cons, forall_eq_or_imp]
        rw [deref_sat hs n a t1 hd1, deref_sat hs n b t2 hd2]
      have hr1 := fun y (hy : t1 = var y) => deref_result n a y (hy ▸ hd1)
      have hr2 := fun y (hy : t2 = var y) => deref_result n b y (hy ▸ hd2)
      clear hd1 hd2
      -- the variable case, generic in the orientation
      have hvar : ∀ (x : Nat) (t : Term), st.bind x = none → (∀ y, t = var y → st.bind y = none) →
          (∀ θ, t1.subst θ = t2.subst θ ↔ θ x = t.subst θ) →
          (if var x = t then mguLoop sg n js st
           else if sg.vty x ≠ sg.ty t then some (false, st)
           else match occurCheck st.bind n t x with
            | none => none
            | some true => some (false, st)
            | some false => mguLoop sg n js (st.addBinding x t)) = some r →
          Out sg st tr ((a, b) :: js) r := by
        intro x t hx ht hE hrun
        by_cases heq : var x = t
        · rw [if_pos heq] at hrun
          have hO := ih js st tr r hI hrun
          refine ⟨hO.ext, fun h1 => ?_, fun h1 θ hty hs hu => ?_⟩
          · obtain ⟨tr', hI', hθ⟩ := hO.succ h1
            refine ⟨tr', hI', fun θ => ?_⟩
            rw [hθ θ]
            refine ⟨fun h => ⟨h.1, (hU θ h.1).2 ⟨(hE θ).2 (by rw [← heq]; rfl), h.2⟩⟩,
              fun h => ⟨h.1, ((hU θ h.1).1 h.2).2⟩⟩
          · exact hO.fail h1 θ hty hs ((hU θ hs).1 hu).2
        · rw [if_neg heq] at hrun
          by_cases hty : sg.vty x = sg.ty t
          swap
          · rw [if_pos hty] at hrun
            simp at hrun; subst hrun
            refine ⟨⟨[], SubstSt.Extends.refl st⟩, by simp, fun _ θ hθ hs hu => hty ?_⟩
            have h1 := (hE θ).1 ((hU θ hs).1 hu).1
            have h2 := Sig.ty_subst hθ t
            rw [← h1, hθ x] at h2; exact h2
          · rw [if_neg (by simpa using hty)] at hrun
            cases ho : occurCheck st.bind n t x with
            | none => simp [ho] at hrun
            | some c =>
              obtain ⟨hc1, hc2⟩ := var_case hI hx ht heq ho
              cases c with
              | true =>
                simp [ho] at hrun; subst hrun
                refine ⟨⟨[], SubstSt.Extends.refl st⟩, by simp, fun _ θ _ hs hu => ?_⟩
                exact hc1 rfl θ hs ((hE θ).1 ((hU θ hs).1 hu).1)
              | false =>
                simp only [ho] at hrun
                have hI' := inv_add hI (by rw [← hI.repr]; exact hx) hty (hc2 rfl)
                have hO := ih js _ _ r hI' hrun
                have hEx : SubstSt.Extends st (st.addBinding x t) [x] :=
                  (SubstSt.Extends.refl st).add t hx
                refine ⟨?_, fun h1 => ?_, fun h1 θ hty' hs hu => ?_⟩
                · obtain ⟨new, hnew⟩ := hO.ext
                  exact ⟨_, extends_trans hEx hnew⟩
                · obtain ⟨tr', hI'', hθ⟩ := hO.succ h1
                  refine ⟨tr', hI'', fun θ => ?_⟩
                  rw [hθ θ, sat_add hx]
                  constructor
                  · rintro ⟨⟨h1, h2⟩, h3⟩
                    exact ⟨h1, (hU θ h1).2 ⟨(hE θ).2 h2, h3⟩⟩
                  · rintro ⟨h1, h2⟩
                    have := (hU θ h1).1 h2
                    exact ⟨⟨h1, (hE θ).1 this.1⟩, this.2⟩
                · have h3 := (hU θ hs).1 hu
                  exact hO.fail h1 θ hty' ((sat_add hx θ).2 ⟨hs, (hE θ).1 h3.1⟩) h3.2
      cases t2 with
      | var y =>
        refine hvar y t1 (hr2 y rfl) hr1 (fun θ => ⟨fun h => h.symm, fun h => h.symm⟩) ?_
        simpa [stepCase, isVar] using h
      | app g us =>
        cases t1 with
        | var x =>
          refine hvar x (app g us) (hr1 x rfl) hr2 (fun θ => Iff.rfl) ?_
          simpa [stepCase, isVar] using h
        | app f ts =>
          simp only [stepCase, isVar, Bool.false_eq_true, if_false] at h
          by_cases hfg : f = g ∧ ts.length = us.length
          swap
          · rw [if_pos (by tauto)] at h
            simp at h; subst h
            refine ⟨⟨[], SubstSt.Extends.refl st⟩, by simp, fun _ θ _ hs hu => ?_⟩
            have := ((hU θ hs).1 hu).1
            simp only [subst_app, app.injEq] at this
            exact hfg ⟨this.1, by simpa using congrArg List.length this.2⟩
          · obtain ⟨rfl, hl⟩ := hfg
            rw [if_neg (by simp [hl])] at h
            have hO := ih _ st tr r hI h
            have hU' : ∀ θ, Unif θ (pushArgs (ts.zip us) js) ↔
                (app f ts).subst θ = (app f us).subst θ ∧ Unif θ js := by
              intro θ
              simp only [subst_app, app.injEq, true_and, map_subst_zip2 hl]
              simp only [Unif, mem_pushArgs]
              constructor
              · exact fun h => ⟨fun p hp => h p (Or.inl hp), fun p hp => h p (Or.inr hp)⟩
              · rintro ⟨h1, h2⟩ p (hp | hp)
                · exact h1 p hp
                · exact h2 p hp
            refine ⟨hO.ext, fun h1 => ?_, fun h1 θ hty' hs hu => ?_⟩
            · obtain ⟨tr', hI', hθ⟩ := hO.succ h1
              refine ⟨tr', hI', fun θ => ?_⟩
              rw [hθ θ]
              constructor
              · rintro ⟨h1, h2⟩; exact ⟨h1, (hU θ h1).2 ((hU' θ).1 h2)⟩
              · rintro ⟨h1, h2⟩; exact ⟨h1, (hU' θ).2 ((hU θ h1).1 h2)⟩
            · exact hO.fail h1 θ hty' hs ((hU' θ).2 ((hU θ hs).1 hu))

/-- Number of variables of `V` that are not bound. -/
def unbound (V : List Nat) (bind : Nat → Option Term) : Nat :=
  (V.dedup.filter fun x => (bind x).isNone).length

theorem unbound_add_lt {V : List Nat} {st : SubstSt} {x : Nat} {t : Term} (hx : st.bind x = none)
    (hV : x ∈ V) : unbound V (st.addBinding x t).bind < unbound V st.bind := by
  have hsub : ∀ L : List Nat, L.Nodup → x ∈ L →
      (L.filter fun y => ((st.addBinding x t).bind y).isNone).length <
      (L.filter fun y => (st.bind y).isNone).length := by
    intro L
    induction L with
    | nil => simp
    | cons y L ih =>
      intro hnd hm
      have hge : ∀ M : List Nat, (M.filter fun y => ((st.addBinding x t).bind y).isNone).length ≤
          (M.filter fun y => (st.bind y).isNone).length := by
        intro M
        induction M with
        | nil => simp
        | cons z M ihM =>
          by_cases hz : z = x
          · subst hz
            simp only [List.filter_cons, SubstSt.addBinding, if_true, hx]
            simp only [SubstSt.addBinding] at ihM
            simp; omega
          · have : (st.addBinding x t).bind z = st.bind z := by simp [SubstSt.addBinding, hz]
            simp only [List.filter_cons, this]
            split
            · simp; exact ihM
            · exact ihM
      by_cases hyx : y = x
      · subst hyx
        have := hge L
        simp only [List.filter_cons]
        simp [hx]
        have h0 : ((st.addBinding y t).bind y) = some t := by simp [SubstSt.addBinding]
        simp only [h0]
        simp
        omega
      · have hm' : x ∈ L := by
          rcases List.mem_cons.1 hm with h | h
          · exact absurd h.symm hyx
          · exact h
        have h1 := ih (List.nodup_cons.1 hnd).2 hm'
        have : (st.addBinding x t).bind y = st.bind y := by simp [SubstSt.addBinding, hyx]
        simp only [List.filter_cons, this]
        split
        · simp; exact h1
        · exact h1
  exact hsub V.dedup (List.nodup_dedup V) (List.mem_dedup.2 hV)

/-- The loop terminates: with enough fuel there is an answer. -/
theorem loop_total (sg : Sig) (V : List Nat) : ∀ (u k : Nat) (jobs : List (Term × Term)) (st : SubstSt)
    (tr : Trail), Inv sg st tr → unbound V st.bind = u → jsz (inst tr) jobs = k →
    (∀ x w, st.bind x = some w → ∀ y ∈ w.vars, y ∈ V) →
    (∀ p ∈ jobs, (∀ y ∈ p.1.vars, y ∈ V) ∧ (∀ y ∈ p.2.vars, y ∈ V)) →
    ∃ N r, ∀ n ≥ N, mguLoop sg n jobs st = some r := by
  intro u
  induction u using Nat.strong_induction_on with
  | _ u ihu =>
  intro k
  induction k using Nat.strong_induction_on with
  | _ k ihk =>
  intro jobs st tr hI hu hk hV hJ
  cases jobs with
  | nil => exact ⟨0, (true, st), fun n _ => by cases n <;> simp [mguLoop]⟩
  | cons p js =>
    obtain ⟨a, b⟩ := p
    obtain ⟨N1, t1, h1⟩ := deref_total' hI.tri a
    obtain ⟨N2, t2, h2⟩ := deref_total' hI.tri b
    rw [← hI.repr] at h1 h2
    have hv1 := deref_vars hV N1 a t1 (h1 N1 (le_refl _)) (hJ (a, b) (by simp)).1
    have hv2 := deref_vars hV N2 b t2 (h2 N2 (le_refl _)) (hJ (a, b) (by simp)).2
    have hr1 := fun y (hy : t1 = var y) => deref_result N1 a y (hy ▸ h1 N1 (le_refl _))
    have hr2 := fun y (hy : t2 = var y) => deref_result N2 b y (hy ▸ h2 N2 (le_refl _))
    have hsat : Sat st.bind (inst tr) := by rw [hI.repr]; exact sat_inst hI.tri
    have hs1 := deref_sat hsat N1 a t1 (h1 N1 (le_refl _))
    have hs2 := deref_sat hsat N2 b t2 (h2 N2 (le_refl _))
    have hJ' : ∀ p ∈ js, (∀ y ∈ p.1.vars, y ∈ V) ∧ (∀ y ∈ p.2.vars, y ∈ V) :=
      fun p hp => hJ p (by simp [hp])
    have hkjs : jsz (inst tr) js < k := by
      have := size_pos (a.subst (inst tr))
      simp [jsz] at hk; omega
    -- enough that the step case terminates
    suffices hstep : ∃ N r, ∀ n ≥ N, stepCase sg n t1 t2 js st = some r by
      obtain ⟨N, r, hN⟩ := hstep
      refine ⟨N + N1 + N2 + 1, r, fun n hn => ?_⟩
      obtain ⟨m, rfl⟩ : ∃ m, n = m + 1 := ⟨n - 1, by omega⟩
      rw [loop_step sg m a b js st (h1 m (by omega)) (h2 m (by omega))]
      exact hN m (by omega)
    have hvar : ∀ (x : Nat) (t : Term), x ∈ V → (∀ y ∈ t.vars, y ∈ V) → st.bind x = none →
        (∀ y, t = var y → st.bind y = none) →
        ∃ N r, ∀ n ≥ N, (if var x = t then mguLoop sg n js st
           else if sg.vty x ≠ sg.ty t then some (false, st)
           else match occurCheck st.bind n t x with
            | none => none
            | some true => some (false, st)
            | some false => mguLoop sg n js (st.addBinding x t)) = some r := by
      intro x t hxV htV hx ht
      by_cases heq : var x = t
      · obtain ⟨N, r, hN⟩ := ihk _ hkjs js st tr hI hu rfl hV hJ'
        exact ⟨N, r, fun n hn => by rw [if_pos heq]; exact hN n hn⟩
      · by_cases hty : sg.vty x = sg.ty t
        swap
        · exact ⟨0, (false, st), fun n _ => by rw [if_neg heq, if_pos hty]⟩
        obtain ⟨N, c, hN⟩ := occur_total hI.tri x _ t (le_refl _)
        rw [← hI.repr] at hN
        obtain ⟨-, hc2⟩ := var_case hI hx ht heq (hN N (le_refl _))
        cases c with
        | true =>
          exact ⟨N, (false, st), fun n hn => by
            rw [if_neg heq, if_neg (by simpa using hty), hN n hn]⟩
        | false =>
          have hI' := inv_add hI (by rw [← hI.repr]; exact hx) hty (hc2 rfl)
          have hlt := unbound_add_lt (t := t) hx hxV
          obtain ⟨N', r, hN'⟩ := ihu _ (by omega) _ js (st.addBinding x t) _ hI' rfl rfl (by
            intro y w hy
            by_cases hyx : y = x
            · subst hyx; simp [SubstSt.addBinding] at hy; subst hy; exact htV
            · simp [SubstSt.addBinding, hyx] at hy; exact hV y w hy) hJ'
          refine ⟨N + N', r, fun n hn => ?_⟩
          rw [if_neg heq, if_neg (by simpa using hty), hN n (by omega)]
          exact hN' n (by omega)
    cases t2 with
    | var y =>
      obtain ⟨N, r, hN⟩ := hvar y t1 (hv2 y (by simp [vars])) hv1 (hr2 y rfl) hr1
      exact ⟨N, r, fun n hn => by simpa [stepCase, isVar] using hN n hn⟩
    | app g us =>
      cases t1 with
      | var x =>
        obtain ⟨N, r, hN⟩ := hvar x (app g us) (hv1 x (by simp [vars])) hv2 (hr1 x rfl) hr2
        exact ⟨N, r, fun n hn => by simpa [stepCase, isVar] using hN n hn⟩
      | app f ts =>
        by_cases hfg : f = g ∧ ts.length = us.length
        swap
        · refine ⟨0, (false, st), fun n _ => ?_⟩
          simp only [stepCase, isVar, Bool.false_eq_true, if_false]
          rw [if_pos (by tauto)]
        · obtain ⟨rfl, hl⟩ := hfg
          have hlt : jsz (inst tr) (pushArgs (ts.zip us) js) < k := by
            have h1 := jsz_zip_le (inst tr) ts us
            rw [jsz_pushArgs]
            simp only [jsz, ← hs1, ← hs2, subst_app, size] at hk
            omega
          obtain ⟨N, r, hN⟩ := ihk _ hlt _ st tr hI hu rfl hV (by
            intro p hp
            rcases mem_pushArgs.1 hp with hp | hp
            · have := List.of_mem_zip (a := p.1) (b := p.2) hp
              refine ⟨fun y hy => hv1 y ?_, fun y hy => hv2 y ?_⟩
              · simp only [vars, mem_varsL]; exact ⟨_, this.1, hy⟩
              · simp only [vars, mem_varsL]; exact ⟨_, this.2, hy⟩
            · exact hJ' p hp)
          refine ⟨N, r, fun n hn => ?_⟩
          simp only [stepCase, isVar, Bool.false_eq_true, if_false]
          rw [if_neg (by simp [hl])]
          exact hN n hn

/-- Every acyclic finite set of bindings is described by a triangular trail. -/
theorem trail_of_acyclic : ∀ (L : List Nat) (bind : Nat → Option Term),
    Acyclic bind → (∀ x, bind x ≠ none → x ∈ L) → ∃ tr, Tri tr ∧ bind = look tr := by
  intro L
  induction hk : L.length using Nat.strong_induction_on generalizing L with
  | _ k ih =>
    intro bind hac hL
    by_cases hnone : ∀ x, bind x = none
    · exact ⟨[], trivial, funext fun x => by simp [look, hnone x]⟩
    · obtain ⟨rank, hr⟩ := hac
      -- a bound variable of greatest rank
      have hmax : ∀ M : List Nat, (∃ x ∈ M, bind x ≠ none) →
          ∃ x ∈ M, bind x ≠ none ∧ ∀ y ∈ M, bind y ≠ none → rank y ≤ rank x := by
        intro M
        induction M with
        | nil => simp
        | cons z M ihM =>
          intro hex
          by_cases hM : ∃ x ∈ M, bind x ≠ none
          · obtain ⟨x, hxM, hxb, hx⟩ := ihM hM
            by_cases hz : bind z ≠ none ∧ rank x < rank z
            · refine ⟨z, by simp, hz.1, fun y hy hyb => ?_⟩
              rcases List.mem_cons.1 hy with rfl | hy
              · exact le_refl _
              · have := hx y hy hyb; omega
            · refine ⟨x, by simp [hxM], hxb, fun y hy hyb => ?_⟩
              rcases List.mem_cons.1 hy with rfl | hy
              · by_contra hc; exact hz ⟨hyb, by omega⟩
              · exact hx y hy hyb
          · obtain ⟨x, hx, hxb⟩ := hex
            rcases List.mem_cons.1 hx with rfl | hx
            · refine ⟨x, by simp, hxb, fun y hy hyb => ?_⟩
              rcases List.mem_cons.1 hy with rfl | hy
              · exact le_refl _
              · exact absurd ⟨y, hy, hyb⟩ hM
            · exact absurd ⟨x, hx, hxb⟩ hM
      push Not at hnone
      obtain ⟨x0, hx0⟩ := hnone
      obtain ⟨x, hxL, hxb, hx⟩ := hmax L ⟨x0, hL x0 hx0, hx0⟩
      obtain ⟨u, hu⟩ := Option.ne_none_iff_exists'.1 hxb
      let bind' : Nat → Option Term := fun y => if y = x then none else bind y
      have hlen : (L.filter (· ≠ x)).length < k := by
        rw [← hk]
        refine List.length_filter_lt_length_iff_exists.2 ⟨x, hxL, by simp⟩
      obtain ⟨tr, htr, hrep⟩ := ih _ hlen (L.filter (· ≠ x)) rfl bind'
        ⟨rank, fun y w hy z hz => by
          by_cases hyx : y = x
          · simp [bind', hyx] at hy
          · simp [bind', hyx] at hy; exact hr y w hy z hz⟩
        (fun y hy => by
          by_cases hyx : y = x
          · simp [bind', hyx] at hy
          · simp only [bind', if_neg hyx] at hy
            exact List.mem_filter.2 ⟨hL y hy, by simpa using hyx⟩)
      have hxn : look tr x = none := by rw [← hrep]; simp [bind']
      -- instantiating with variables of smaller rank only gives smaller ranks
      have hrank : ∀ (m : Nat) (t : Term), (∀ y ∈ t.vars, rank y < m) →
          ∀ y ∈ (t.subst (inst tr)).vars, rank y < m := by
        intro m
        have hone : ∀ (j z : Nat), rank z = j → ∀ y ∈ (inst tr z).vars, rank y ≤ rank z := by
          intro j
          induction j using Nat.strong_induction_on with
          | _ j ihj =>
            intro z hz y hy
            cases hlz : look tr z with
            | none => rw [inst_unbound hlz] at hy; simp [vars] at hy; rw [hy]
            | some w =>
              rw [inst_bound htr hlz, mem_vars_subst] at hy
              obtain ⟨v, hv, hy⟩ := hy
              have hzb : bind z = some w := by
                have : bind' z = some w := by rw [hrep]; exact hlz
                by_cases hzx : z = x
                · simp [bind', hzx] at this
                · simpa [bind', hzx] using this
              have h1 := hr z w hzb v hv
              have h2 := ihj (rank v) (by omega) v rfl y hy
              omega
        intro t ht y hy
        obtain ⟨z, hz, hy⟩ := mem_vars_subst.1 hy
        have := hone _ z rfl y hy
        have := ht z hz
        omega
      refine ⟨(x, u) :: tr, ⟨htr, look_none.1 hxn, fun h => ?_⟩, ?_⟩
      · have := hrank (rank x) u (hr x u hu) x h
        omega
      · funext y
        by_cases hyx : y = x
        · subst hyx; simp [look, hu]
        · simp only [look, if_neg hyx, ← hrep, bind']

end MguProof
end Verif

namespace Verif.MguProof
open Verif Term

theorem pushArgs_forall {P : Term × Term → Prop} {ps jobs : List (Term × Term)}
    (h1 : ∀ p ∈ ps, P p) (h2 : ∀ p ∈ jobs, P p) : ∀ p ∈ pushArgs ps jobs, P p :=
  fun p hp => (mem_pushArgs.1 hp).elim (h1 p) (h2 p)

/-- Well-typed problems only create well-typed bindings. -/
theorem loop_wt (sg : Sig) : ∀ (n : Nat) (jobs : List (Term × Term)) (st : SubstSt)
    (r : Bool × SubstSt), (∀ x u, st.bind x = some u → sg.ty u = sg.vty x ∧ sg.WT u) →
    (∀ p ∈ jobs, sg.WT p.1 ∧ sg.WT p.2) → mguLoop sg n jobs st = some r →
    ∀ x u, r.2.bind x = some u → sg.ty u = sg.vty x ∧ sg.WT u := by
  intro n
  induction n with
  | zero =>
    intro jobs st r hB hJ h
    cases jobs with
    | nil => simp [mguLoop] at h; subst h; exact hB
    | cons p js => simp [mguLoop] at h
  | succ n ih =>
    intro jobs st r hB hJ h
    cases jobs with
    | nil => simp [mguLoop] at h; subst h; exact hB
    | cons p js =>
      obtain ⟨a, b⟩ := p
      cases hd1 : derefAlways st.bind n a with
      | none => simp [mguLoop, hd1] at h
      | some t1 =>
      cases hd2 : derefAlways st.bind n b with
      | none => simp [mguLoop, hd1, hd2] at h
      | some t2 =>
      rw [loop_step sg n a b js st hd1 hd2] at h
      have w1 := (deref_wt hB n a t1 hd1).2 (hJ (a, b) (by simp)).1
      have w2 := (deref_wt hB n b t2 hd2).2 (hJ (a, b) (by simp)).2
      have hJ' : ∀ p ∈ js, sg.WT p.1 ∧ sg.WT p.2 := fun p hp => hJ p (by simp [hp])
      have hvar : ∀ (x : Nat) (t : Term), sg.WT t →
          (if var x = t then mguLoop sg n js st
           else if sg.vty x ≠ sg.ty t then some (false, st)
           else match occurCheck st.bind n t x with
            | none => none
            | some true => some (false, st)
            | some false => mguLoop sg n js (st.addBinding x t)) = some r →
          ∀ x u, r.2.bind x = some u → sg.ty u = sg.vty x ∧ sg.WT u := by
        intro x t hw hrun
        by_cases heq : var x = t
        · rw [if_pos heq] at hrun; exact ih js st r hB hJ' hrun
        · rw [if_neg heq] at hrun
          by_cases hty : sg.vty x = sg.ty t
          swap
          · rw [if_pos hty] at hrun; simp at hrun; subst hrun; exact hB
          · rw [if_neg (by simpa using hty)] at hrun
            cases ho : occurCheck st.bind n t x with
            | none => simp [ho] at hrun
            | some c =>
              cases c with
              | true => simp [ho] at hrun; subst hrun; exact hB
              | false =>
                simp only [ho] at hrun
                refine ih js _ r ?_ hJ' hrun
                intro y u hy
                by_cases hyx : y = x
                · subst hyx; simp [SubstSt.addBinding] at hy; subst hy; exact ⟨hty.symm, hw⟩
                · simp [SubstSt.addBinding, hyx] at hy; exact hB y u hy
      cases t2 with
      | var y => exact hvar y t1 w1 (by simpa [stepCase, isVar] using h)
      | app g us =>
        cases t1 with
        | var x => exact hvar x (app g us) w2 (by simpa [stepCase, isVar] using h)
        | app f ts =>
          simp only [stepCase, isVar, Bool.false_eq_true, if_false] at h
          by_cases hfg : f = g ∧ ts.length = us.length
          swap
          · rw [if_pos (by tauto)] at h
            simp at h; subst h; exact hB
          · rw [if_neg (by simp [hfg])] at h
            refine ih _ st r hB (pushArgs_forall (fun p hp => ?_) hJ') h
            have := List.of_mem_zip (a := p.1) (b := p.2) hp
            exact ⟨((Sig.wt_app).1 w1).2 _ this.1, ((Sig.wt_app).1 w2).2 _ this.2⟩

theorem inst_ty {sg : Sig} {tr : Trail} (ht : Tri tr)
    (h : ∀ x u, look tr x = some u → sg.ty u = sg.vty x) (x : Nat) :
    sg.ty (inst tr x) = sg.vty x := by
  induction tr generalizing x with
  | nil => rfl
  | cons p tr ih =>
    obtain ⟨y, u⟩ := p
    obtain ⟨ht, hk, hv⟩ := ht
    have h' : ∀ x u, look tr x = some u → sg.ty u = sg.vty x := by
      intro z w hz
      have : z ≠ y := by
        rintro rfl
        rw [look_none.2 hk] at hz; simp at hz
      exact h z w (by simp [look, this, hz])
    have ih' := ih ht h'
    have hs : ∀ z, sg.ty (single y (u.subst (inst tr)) z) = sg.vty z := by
      intro z
      by_cases hz : z = y
      · subst hz
        simp only [single_self]
        rw [Sig.ty_subst ih']
        exact h z u (by simp [look])
      · rw [single_ne _ hz]; rfl
    simp only [inst]
    rw [Sig.ty_subst hs, ih' x]

theorem inst_wt {sg : Sig} {tr : Trail} (ht : Tri tr)
    (h : ∀ x u, look tr x = some u → sg.ty u = sg.vty x ∧ sg.WT u) : sg.WTSubst (inst tr) := by
  induction tr with
  | nil => exact Sig.wtSubst_var sg
  | cons p tr ih =>
    obtain ⟨y, u⟩ := p
    obtain ⟨ht, hk, hv⟩ := ht
    have h' : ∀ x u, look tr x = some u → sg.ty u = sg.vty x ∧ sg.WT u := by
      intro z w hz
      have : z ≠ y := by
        rintro rfl
        rw [look_none.2 hk] at hz; simp at hz
      exact h z w (by simp [look, this, hz])
    have ih' := ih ht h'
    have hu := h y u (by simp [look])
    have hs : sg.WTSubst (single y (u.subst (inst tr))) := by
      intro z
      by_cases hz : z = y
      · subst hz
        simp only [single_self]
        exact ⟨by rw [Sig.ty_subst fun x => (ih' x).1]; exact hu.1, Sig.wt_subst ih' hu.2⟩
      · rw [single_ne _ hz]; exact Sig.wtSubst_var sg z
    intro z
    simp only [inst]
    exact ⟨by rw [Sig.ty_subst fun x => (hs x).1]; exact (ih' z).1, Sig.wt_subst hs (ih' z).2⟩

end Verif.MguProof
