import Verif.Clauses.PDTreeSearch
import Verif.Props.Match
import Verif.Clauses.PDTreeSpec

/-! # Proofs about discrimination trees: what the enumeration contains -/

namespace Verif.PDProof
open Verif

/-- Following the keys of an entry through the query. -/
def walk (x : PDCtx) : List PDKey → List Term → SubstSt → Option SubstSt
  | [], [], sub => some sub
  | .sym f :: ks, .app g us :: tl, sub => if f = g then walk x ks (us ++ tl) sub else none
  | .var y :: ks, t :: tl, sub =>
    match pdBindVar x sub y t with
    | none => none
    | some s' => walk x ks tl s'
  | _, _, _ => none

theorem weightL_append (a b : List Term) : Term.weightL VW FW (a ++ b) = Term.weightL VW FW a + Term.weightL VW FW b := by
  induction a with
  | nil => simp [Term.weightL]
  | cons t a ih => simp [Term.weightL, ih]; omega

theorem walk_weight {x : PDCtx} : ∀ (p : List PDKey) (ts : List Term) (sub s' : SubstSt), walk x p ts sub = some s' →
    keyW p ≤ Term.weightL VW FW ts := by
  intro p ts sub
  fun_induction walk x p ts sub with
  | case1 => simp
  | case2 ks g us tl sub ih =>
    intro s' h
    have := ih s' h
    rw [weightL_append] at this
    simp only [keyW_cons, kw, Term.weightL, Term.weight]; omega
  | case3 => intro s' h; cases h
  | case4 => intro s' h; cases h
  | case5 y ks t tl sub s1 hb ih =>
    intro s' h
    have := ih s' h
    have h1 := MatchProof.weight_pos t
    simp only [keyW_cons, kw, Term.weightL]
    show 1 + keyW ks ≤ _
    omega
  | case6 => intro s' h; cases h

theorem agg_min_le {n : PDNode} {pe} (h : pe ∈ all n) : agg min pdLongMax PDEntry.weight n ≤ pe.2.weight := by
  simp only [agg]
  have : pe.2.weight ∈ (all n).map fun pe => pe.2.weight := List.mem_map.2 ⟨pe, h, rfl⟩
  revert this
  generalize ((all n).map fun pe : List PDKey × PDEntry => pe.2.weight) = l
  intro hm
  induction l with
  | nil => simp at hm
  | cons a l ih =>
    simp only [List.foldr_cons]
    rcases List.mem_cons.1 hm with h | h
    · omega
    · have := ih h; omega

theorem le_agg_max {n : PDNode} {pe} (h : pe ∈ all n) : pe.2.date ≤ agg max 0 PDEntry.date n := by
  simp only [agg]
  have : pe.2.date ∈ (all n).map fun pe => pe.2.date := List.mem_map.2 ⟨pe, h, rfl⟩
  revert this
  generalize ((all n).map fun pe : List PDKey × PDEntry => pe.2.date) = l
  intro hm
  induction l with
  | nil => simp at hm
  | cons a l ih =>
    simp only [List.foldr_cons]
    rcases List.mem_cons.1 hm with h | h
    · omega
    · have := ih h; omega

def passB (x : PDCtx) (q : PDQuery) (e : PDEntry) : Bool := !x.useAge || q.date == 0 || decide (q.date < e.date)

/-- What is handed out for one entry below a node, after it has been entered. -/
def D1 (x : PDCtx) (q : PDQuery) (ts : List Term) (sub : SubstSt) (pe : List PDKey × PDEntry) : List (PDEntry × SubstSt) :=
  if passB x q pe.2 then
    match walk x pe.1 ts sub with
    | none => []
    | some s' => if pe.1.isEmpty then [(pe.2, s')] else [(pe.2, s'), (pe.2, s')]
  else []

/-- What is handed out for one entry at or below a node. -/
def D2 (x : PDCtx) (q : PDQuery) (ts : List Term) (sub : SubstSt) (pe : List PDKey × PDEntry) : List (PDEntry × SubstSt) :=
  if passB x q pe.2 then
    match walk x pe.1 ts sub with
    | none => []
    | some s' => [(pe.2, s'), (pe.2, s')]
  else []

/-- The weight of the query generalised so far, and of the entries. -/
def WOK (n : List (List PDKey × PDEntry)) (ts : List Term) (w : Int) : Prop :=
  ∃ W : Nat, w = (W : Int) + Term.weightL VW FW ts ∧ ∀ pe ∈ n, pe.2.weight = W + keyW pe.1

theorem flatMap_eq_nil' {α β : Type} {l : List α} {f : α → List β} (h : ∀ a ∈ l, f a = []) : l.flatMap f = [] :=
  List.flatMap_eq_nil_iff.2 h

theorem allA_ne_nil {mk : Nat → PDKey} {a : PDAlts} {pe} (h : pe ∈ allA mk a) : pe.1 ≠ [] := by
  induction a using PDAlts.rec (motive_1 := fun _ => True) with
  | mk => trivial
  | nil => simp [allA] at h
  | cons k n r _ ih =>
    simp only [allA, List.mem_append, List.mem_map] at h
    rcases h with ⟨pe', -, rfl⟩ | h
    · simp
    · exact ih h

theorem okB_of {x : PDCtx} {q : PDQuery} {n : PDNode} {ts sub w pe s'} (hw : WOK (all n) ts w) (hm : pe ∈ all n)
    (hp : passB x q pe.2 = true) (hk : walk x pe.1 ts sub = some s') : okB x q w n = true := by
  obtain ⟨W, rfl, hW⟩ := hw
  have h1 := walk_weight _ _ _ _ hk
  have h2 := hW pe hm
  have h3 := agg_min_le hm
  have h4 := le_agg_max hm
  simp only [okB, Bool.and_eq_true, Bool.or_eq_true, Bool.not_eq_true', decide_eq_true_eq]
  refine ⟨.inr (by omega), ?_⟩
  simp only [passB, Bool.or_eq_true, Bool.not_eq_true', decide_eq_true_eq] at hp
  rcases hp with hp | hp
  · exact .inl hp
  · exact .inr (by omega)

theorem ent_D2 {x : PDCtx} {q : PDQuery} (n : PDNode) (ts : List Term) (sub : SubstSt) :
    ((ent n ts sub).filter (fun p => passB x q p.1) ++ (all n).flatMap (D1 x q ts sub)).Perm ((all n).flatMap (D2 x q ts sub)) := by
  rcases n with ⟨l, r, es, fa, va⟩
  simp only [all, List.flatMap_append]
  have hA : ∀ (mk : Nat → PDKey) a, (allA mk a).flatMap (D1 x q ts sub) = (allA mk a).flatMap (D2 x q ts sub) := by
    intro mk a
    apply List.flatMap_congr
    intro pe hpe
    have := allA_ne_nil hpe
    simp [D1, D2, this]
  rw [hA, hA, ← List.append_assoc]
  refine List.Perm.append_right _ ?_
  cases ts with
  | nil =>
    have : (ent (.mk l r es fa va) [] sub) = es.map (fun e => (e, sub)) := by simp [ent, PDNode.ents]
    rw [this]
    induction es with
    | nil => simp
    | cons e es ih =>
      by_cases hp : passB x q e = true
      · simp only [List.map_cons, List.flatMap_cons, D1, D2, hp, walk, if_true, List.isEmpty_nil, List.filter_cons]
        simp only [List.cons_append, List.nil_append]
        refine List.Perm.cons _ ?_
        refine List.perm_middle.trans (List.Perm.cons _ ?_)
        exact ih (by simp [ent, PDNode.ents])
      · simp only [List.map_cons, List.flatMap_cons, D1, D2, hp, List.filter_cons]
        simp only [Bool.false_eq_true, if_false, List.nil_append]
        exact ih (by simp [ent, PDNode.ents])
  | cons t tl =>
    have : (ent (.mk l r es fa va) (t :: tl) sub) = [] := by simp [ent]
    rw [this]
    rw [flatMap_eq_nil' (by
      intro a ha
      obtain ⟨e, -, rfl⟩ := List.mem_map.1 ha
      simp [D1, walk]), flatMap_eq_nil' (by
      intro a ha
      obtain ⟨e, -, rfl⟩ := List.mem_map.1 ha
      simp [D2, walk])]
    simp

/-- Lifting the contribution of a child. -/
theorem D1_sym {x : PDCtx} {q : PDQuery} (f : Nat) (us tl : List Term) (sub : SubstSt) (pe : List PDKey × PDEntry) :
    D1 x q (.app f us :: tl) sub (.sym f :: pe.1, pe.2) = D2 x q (us ++ tl) sub pe := by
  simp [D1, D2, walk]

theorem D1_var {x : PDCtx} {q : PDQuery} (y : Nat) (t : Term) (tl : List Term) (sub s' : SubstSt) (hb : pdBindVar x sub y t = some s')
    (pe : List PDKey × PDEntry) : D1 x q (t :: tl) sub (.var y :: pe.1, pe.2) = D2 x q tl s' pe := by
  cases t <;> simp [D1, D2, walk, hb]

mutual
theorem enumN_count (x : PDCtx) (q : PDQuery) : ∀ (n : PDNode) (ts : List Term) (sub : SubstSt) (w : Int), WF n → WOK (all n) ts w →
    ((enumN x q n ts sub w).filter (fun p => passB x q p.1)).Perm ((all n).flatMap (D1 x q ts sub))
  | .mk l r es fa va, ts, sub, w, hwf, hw => by
    by_cases ho : okB x q w (.mk l r es fa va) = true
    · cases ts with
      | nil =>
        rw [enumN, if_pos ho]
        simp only [all, List.flatMap_append]
        rw [flatMap_eq_nil' (l := allA .sym fa), flatMap_eq_nil' (l := allA .var va)]
        · rw [List.append_nil, List.append_nil]
          have : ∀ es : List PDEntry, (es.map (fun e => (e, sub))).filter (fun p => passB x q p.1) =
              (es.map (fun e => (([] : List PDKey), e))).flatMap (D1 x q [] sub) := by
            intro es
            induction es with
            | nil => simp
            | cons e es ih =>
              by_cases hp : passB x q e = true <;> simp [hp, D1, walk, ih]
          rw [← this]
        · intro pe hpe
          have := allA_ne_nil hpe
          rcases pe with ⟨_ | ⟨_ | _, _⟩, e⟩
          · exact absurd rfl this
          · simp [D1, walk]
          · simp [D1, walk]
        · intro pe hpe
          have := allA_ne_nil hpe
          rcases pe with ⟨_ | ⟨_ | _, _⟩, e⟩
          · exact absurd rfl this
          · simp [D1, walk]
          · simp [D1, walk]
      | cons t tl =>
        have hws : WOK (allA .sym fa) (t :: tl) w := by
          obtain ⟨W, h1, h2⟩ := hw
          exact ⟨W, h1, fun pe hpe => h2 pe (by simp [all, hpe])⟩
        have hwv : WOK (allA .var va) (t :: tl) w := by
          obtain ⟨W, h1, h2⟩ := hw
          exact ⟨W, h1, fun pe hpe => h2 pe (by simp [all, hpe])⟩
        have hS := enumS_count x q fa t tl sub w hwf.2.1 hws
        have hV := enumV_count x q va t tl sub w hwf.2.2 hwv
        rw [enumN, if_pos ho]
        simp only [all, List.flatMap_append]
        rw [flatMap_eq_nil' (l := es.map (fun e => (([] : List PDKey), e))) (by
          intro a ha
          obtain ⟨e, -, rfl⟩ := List.mem_map.1 ha
          simp [D1, walk])]
        rw [List.nil_append]
        by_cases hg : q.general = true
        · simp only [hg, if_true, List.filter_append]
          exact hS.append hV
        · simp only [if_neg hg, List.filter_append]
          exact (hV.append hS).trans List.perm_append_comm
    · have hz : enumN x q (.mk l r es fa va) ts sub w = [] := by
        cases ts <;> rw [enumN, if_neg ho]
      rw [hz, flatMap_eq_nil' (l := all (.mk l r es fa va))]
      · simp
      · intro pe hpe
        by_cases hp : passB x q pe.2 = true
        · cases hk : walk x pe.1 ts sub with
          | none => simp [D1, hk]
          | some s' => exact absurd (okB_of hw hpe hp hk) ho
        · simp [D1, hp]
theorem enumS_count (x : PDCtx) (q : PDQuery) : ∀ (a : PDAlts) (t : Term) (tl : List Term) (sub : SubstSt) (w : Int), WFA a → WOK (allA .sym a) (t :: tl) w →
    ((enumS x q a t tl sub w).filter (fun p => passB x q p.1)).Perm ((allA .sym a).flatMap (D1 x q (t :: tl) sub))
  | .nil, _, _, _, _, _, _ => by simp [enumS, allA]
  | .cons g n r, t, tl, sub, w, hwf, hw => by
    cases t with
    | var y =>
      rw [enumS]
      rw [flatMap_eq_nil' (l := allA .sym (.cons g n r))]
      · simp
      · intro pe hpe
        obtain ⟨j, m, p, -, -, hk⟩ := (mem_allA hwf).1 hpe
        rcases pe with ⟨p', e⟩
        simp only at hk
        subst hk
        simp [D1, walk]
    | app f us =>
      simp only [enumS, allA, List.flatMap_append]
      by_cases hgf : g = f
      · subst hgf
        rw [if_pos rfl]
        have hr : (allA .sym r).flatMap (D1 x q (.app g us :: tl) sub) = [] := by
          apply flatMap_eq_nil'
          intro pe hpe
          obtain ⟨j, m, p, hg', -, hk⟩ := (mem_allA hwf.2.2.2.2).1 hpe
          have hne : j ≠ g := by
            rintro rfl
            rw [get_none.2 hwf.1] at hg'; cases hg'
          rcases pe with ⟨p', e⟩
          simp only at hk
          subst hk
          simp [D1, walk, hne]
        rw [hr, List.append_nil, List.flatMap_map]
        have hcg : (all n).flatMap (fun pe => D1 x q (.app g us :: tl) sub (.sym g :: pe.1, pe.2)) = (all n).flatMap (D2 x q (us ++ tl) sub) :=
          List.flatMap_congr fun pe _ => D1_sym g us tl sub pe
        rw [hcg, List.filter_append]
        have hwn : WOK (all n) (us ++ tl) w := by
          obtain ⟨W, h1, h2⟩ := hw
          refine ⟨W + FW, ?_, fun pe hpe => ?_⟩
          · rw [h1, weightL_append]; simp only [Term.weightL, Term.weight]; push_cast; omega
          · have := h2 (.sym g :: pe.1, pe.2) (by simp only [allA, List.mem_append, List.mem_map]; exact .inl ⟨pe, hpe, rfl⟩)
            simp only [keyW_cons, kw] at this
            omega
        exact ((enumN_count x q n (us ++ tl) sub w hwf.2.1 hwn).append_left _).trans (ent_D2 n (us ++ tl) sub)
      · rw [if_neg hgf]
        have hn : ((all n).map (fun pe => (PDKey.sym g :: pe.1, pe.2))).flatMap (D1 x q (.app f us :: tl) sub) = [] := by
          apply flatMap_eq_nil'
          intro a ha
          obtain ⟨pe, -, rfl⟩ := List.mem_map.1 ha
          simp [D1, walk, hgf]
        rw [hn, List.nil_append]
        refine enumS_count x q r (.app f us) tl sub w hwf.2.2.2.2 ?_
        obtain ⟨W, h1, h2⟩ := hw
        exact ⟨W, h1, fun pe hpe => h2 pe (by simp [allA, hpe])⟩
theorem enumV_count (x : PDCtx) (q : PDQuery) : ∀ (a : PDAlts) (t : Term) (tl : List Term) (sub : SubstSt) (w : Int), WFA a → WOK (allA .var a) (t :: tl) w →
    ((enumV x q a t tl sub w).filter (fun p => passB x q p.1)).Perm ((allA .var a).flatMap (D1 x q (t :: tl) sub))
  | .nil, _, _, _, _, _, _ => by simp [enumV, allA]
  | .cons y n r, t, tl, sub, w, hwf, hw => by
    have ih := enumV_count x q r t tl sub w hwf.2.2.2.2 (by
      obtain ⟨W, h1, h2⟩ := hw
      exact ⟨W, h1, fun pe hpe => h2 pe (by simp [allA, hpe])⟩)
    simp only [enumV, allA, List.flatMap_append, List.filter_append]
    refine List.Perm.append ?_ ih
    cases hb : pdBindVar x sub y t with
    | none =>
      rw [flatMap_eq_nil' (l := (all n).map (fun pe => (PDKey.var y :: pe.1, pe.2)))]
      · simp
      · intro a ha
        obtain ⟨pe, -, rfl⟩ := List.mem_map.1 ha
        cases t <;> simp [D1, walk, hb]
    | some s' =>
      rw [List.flatMap_map]
      have hcg : (all n).flatMap (fun pe => D1 x q (t :: tl) sub (.var y :: pe.1, pe.2)) = (all n).flatMap (D2 x q tl s') :=
        List.flatMap_congr fun pe _ => D1_var y t tl sub s' hb pe
      rw [hcg]
      simp only [List.filter_append]
      have hwn : WOK (all n) tl (w - (t.sw - VW)) := by
        obtain ⟨W, h1, h2⟩ := hw
        refine ⟨W + VW, ?_, fun pe hpe => ?_⟩
        · rw [h1]; simp only [Term.weightL, Term.sw]; push_cast; omega
        · have := h2 (.var y :: pe.1, pe.2) (by simp only [allA, List.mem_append, List.mem_map]; exact .inl ⟨pe, hpe, rfl⟩)
          simp only [keyW_cons, kw] at this
          omega
      exact ((enumN_count x q n tl s' _ hwf.2.1 hwn).append_left _).trans (ent_D2 n tl s')
end

mutual
theorem enumN_sound (x : PDCtx) (q : PDQuery) : ∀ (n : PDNode) (ts : List Term) (sub : SubstSt) (w : Int) (e s'),
    (e, s') ∈ enumN x q n ts sub w → ∃ p, (p, e) ∈ all n ∧ walk x p ts sub = some s'
  | .mk l r es fa va, ts, sub, w, e, s', h => by
    by_cases ho : okB x q w (.mk l r es fa va) = true
    · cases ts with
      | nil =>
        rw [enumN, if_pos ho] at h
        obtain ⟨e', he, h⟩ := List.mem_map.1 h
        cases h
        exact ⟨[], by simp [all, he], by simp [walk]⟩
      | cons t tl =>
        rw [enumN, if_pos ho] at h
        have : (e, s') ∈ enumS x q fa t tl sub w ∨ (e, s') ∈ enumV x q va t tl sub w := by
          split at h
          · exact List.mem_append.1 h
          · exact (List.mem_append.1 h).symm
        rcases this with h | h
        · obtain ⟨p, h1, h2⟩ := enumS_sound x q fa t tl sub w e s' h
          exact ⟨p, by simp [all, h1], h2⟩
        · obtain ⟨p, h1, h2⟩ := enumV_sound x q va t tl sub w e s' h
          exact ⟨p, by simp [all, h1], h2⟩
    · have hz : enumN x q (.mk l r es fa va) ts sub w = [] := by
        cases ts <;> rw [enumN, if_neg ho]
      rw [hz] at h
      cases h
theorem enumS_sound (x : PDCtx) (q : PDQuery) : ∀ (a : PDAlts) (t : Term) (tl : List Term) (sub : SubstSt) (w : Int) (e s'),
    (e, s') ∈ enumS x q a t tl sub w → ∃ p, (p, e) ∈ allA .sym a ∧ walk x p (t :: tl) sub = some s'
  | .nil, _, _, _, _, _, _, h => by simp [enumS] at h
  | .cons g n r, t, tl, sub, w, e, s', h => by
    cases t with
    | var y => simp [enumS] at h
    | app f us =>
      simp only [enumS] at h
      split at h
      · next hgf =>
        subst hgf
        have : ∃ p, (p, e) ∈ all n ∧ walk x p (us ++ tl) sub = some s' := by
          rcases List.mem_append.1 h with h | h
          · simp only [ent] at h
            split at h
            · next he =>
              obtain ⟨e', he', h⟩ := List.mem_map.1 h
              cases h
              rcases n with ⟨l', r', es', fa', va'⟩
              refine ⟨[], by simp only [all, List.mem_append, List.mem_map]; exact .inl ⟨e, he', rfl⟩, ?_⟩
              rw [List.isEmpty_iff] at he
              rw [he]; simp [walk]
            · cases h
          · exact enumN_sound x q n _ sub w e s' h
        obtain ⟨p, h1, h2⟩ := this
        refine ⟨.sym g :: p, ?_, by simpa [walk] using h2⟩
        simp only [allA, List.mem_append, List.mem_map]
        exact .inl ⟨(p, e), h1, rfl⟩
      · obtain ⟨p, h1, h2⟩ := enumS_sound x q r (.app f us) tl sub w e s' h
        exact ⟨p, by simp [allA, h1], h2⟩
theorem enumV_sound (x : PDCtx) (q : PDQuery) : ∀ (a : PDAlts) (t : Term) (tl : List Term) (sub : SubstSt) (w : Int) (e s'),
    (e, s') ∈ enumV x q a t tl sub w → ∃ p, (p, e) ∈ allA .var a ∧ walk x p (t :: tl) sub = some s'
  | .nil, _, _, _, _, _, _, h => by simp [enumV] at h
  | .cons y n r, t, tl, sub, w, e, s', h => by
    simp only [enumV] at h
    rcases List.mem_append.1 h with h | h
    · split at h
      · cases h
      · next s1 hb =>
        have : ∃ p, (p, e) ∈ all n ∧ walk x p tl s1 = some s' := by
          rcases List.mem_append.1 h with h | h
          · simp only [ent] at h
            split at h
            · next he =>
              obtain ⟨e', he', h⟩ := List.mem_map.1 h
              cases h
              rcases n with ⟨l', r', es', fa', va'⟩
              refine ⟨[], by simp only [all, List.mem_append, List.mem_map]; exact .inl ⟨e, he', rfl⟩, ?_⟩
              rw [List.isEmpty_iff] at he
              rw [he]; simp [walk]
            · cases h
          · exact enumN_sound x q n _ _ _ e s' h
        obtain ⟨p, h1, h2⟩ := this
        refine ⟨.var y :: p, ?_, by cases t <;> simpa [walk, hb] using h2⟩
        simp only [allA, List.mem_append, List.mem_map]
        exact .inl ⟨(p, e), h1, rfl⟩
    · obtain ⟨p, h1, h2⟩ := enumV_sound x q r t tl sub w e s' h
      exact ⟨p, by simp [allA, h1], h2⟩
end

/-! ## Walking through the query is matching -/

theorem bindVar_iff {x : PDCtx} {sub s' : SubstSt} {y : Nat} {t : Term} : pdBindVar x sub y t = some s' ↔
    x.sg.vty y = x.sg.ty t ∧ (sub.bind y = some t ∧ s' = sub ∨ sub.bind y = none ∧ x.pp t = false ∧ s' = sub.addBinding y t) := by
  have hsw := MatchProof.sw_pos t
  simp only [pdBindVar]
  by_cases hty : x.sg.vty y = x.sg.ty t
  · rw [if_neg (by simpa using hty)]
    cases hb : sub.bind y with
    | some u =>
      by_cases hu : u = t
      · subst hu; simp only [if_true, hty, Option.some.injEq, true_and, reduceCtorEq, false_and, or_false]; exact ⟨fun h => h.symm, fun h => h.symm⟩
      · simp [hu]
    | none =>
      have hvw : (Term.var y).sw = 1 := by simp [Term.sw, Term.weight]
      have : substComputeMatch x.sg (.var y) t (x.pp t) sub = if x.pp t = true then some (false, sub) else some (true, sub.addBinding y t) := by
        simp only [substComputeMatch, hvw, Term.isVar, and_true, Term.size, matchLoop, hb, hty, ne_eq, not_true_eq_false, if_false]
        by_cases hp : x.pp t = true
        · rw [if_pos (.inr hp), if_pos hp]
        · rw [if_neg (by rintro (h | h); omega; exact hp h), if_neg hp, if_neg (by simp only [VW]; push_cast; omega)]
      simp only [this]
      by_cases hp : x.pp t = true
      · simp [hp]
      · simp only [hp, hty]
        simp only [Bool.not_eq_true] at hp
        simp [eq_comm]
  · rw [if_pos (by simpa using hty)]; simp [hty]

/-- Walking past one term. -/
structure Walked (x : PDCtx) (ss ts : List Term) (sub s1 : SubstSt) : Prop where
  ext : ∃ new, SubstSt.Extends sub s1 new
  bound : ∀ s ∈ ss, ∀ y ∈ s.vars, ∃ u, s1.bind y = some u ∧ x.sg.ty u = x.sg.vty y
  inst : ss.map (fun s => s.subst s1.toFun) = ts

theorem subst_stable {s : Term} {a b : SubstSt} {new} (h : SubstSt.Extends a b new) (hb : ∀ y ∈ s.vars, ∃ u, a.bind y = some u) :
    s.subst b.toFun = s.subst a.toFun := by
  apply Term.subst_congr
  intro y hy
  obtain ⟨u, hu⟩ := hb y hy
  simp [SubstSt.toFun, hu, h.mono hu]

mutual
theorem walk_flat (x : PDCtx) : ∀ (s : Term) (t : Term) (p' : List PDKey) (tl : List Term) (sub s' : SubstSt), x.sg.WT s → x.sg.WT t →
    walk x (pdFlat s ++ p') (t :: tl) sub = some s' → ∃ s1, walk x p' tl s1 = some s' ∧ Walked x [s] [t] sub s1
  | .var y, t, p', tl, sub, s', hs, ht, h => by
    have h : walk x (.var y :: p') (t :: tl) sub = some s' := by simpa [pdFlat] using h
    cases hb : pdBindVar x sub y t with
    | none => cases t <;> simp [walk, hb] at h
    | some s1 =>
      have h2 : walk x p' tl s1 = some s' := by cases t <;> simpa [walk, hb] using h
      obtain ⟨hty, hc⟩ := bindVar_iff.1 hb
      refine ⟨s1, h2, ?_⟩
      rcases hc with ⟨h3, rfl⟩ | ⟨h3, -, rfl⟩
      · exact ⟨⟨[], .refl _⟩, by simp [Term.vars, h3, hty], by simp [Term.subst, SubstSt.toFun, h3]⟩
      · exact ⟨⟨[y], (SubstSt.Extends.refl sub).add t h3⟩, by simp [Term.vars, SubstSt.addBinding, hty],
          by simp [Term.subst, SubstSt.toFun, SubstSt.addBinding]⟩
  | .app f ms, .var y, p', tl, sub, s', _, _, h => by simp [pdFlat, walk] at h
  | .app f ms, .app g us, p', tl, sub, s', hs, ht, h => by
    simp only [pdFlat, List.cons_append, walk] at h
    split at h
    · next hfg =>
      subst hfg
      rw [Sig.wt_app] at hs ht
      have hl : ms.length = us.length := by
        have h1 := congrArg List.length hs.1
        have h2 := congrArg List.length ht.1
        simp at h1 h2; omega
      obtain ⟨s1, h1, h2⟩ := walk_flatL x ms us p' tl sub s' hs.2 ht.2 hl h
      refine ⟨s1, h1, ⟨h2.ext, ?_, ?_⟩⟩
      · intro s hs' y hy
        simp only [List.mem_singleton] at hs'
        subst hs'
        rw [Term.vars, Term.mem_varsL] at hy
        obtain ⟨m, hm, hy⟩ := hy
        exact h2.bound m hm y hy
      · simp [Term.subst_app, h2.inst]
    · cases h
theorem walk_flatL (x : PDCtx) : ∀ (ss ts : List Term) (p' : List PDKey) (tl : List Term) (sub s' : SubstSt), (∀ s ∈ ss, x.sg.WT s) → (∀ t ∈ ts, x.sg.WT t) →
    ss.length = ts.length → walk x (pdFlatL ss ++ p') (ts ++ tl) sub = some s' → ∃ s1, walk x p' tl s1 = some s' ∧ Walked x ss ts sub s1
  | [], [], p', tl, sub, s', _, _, _, h => ⟨sub, by simpa [pdFlatL] using h, ⟨[], .refl _⟩, by simp, by simp⟩
  | [], _ :: _, _, _, _, _, _, _, hl, _ => by simp at hl
  | _ :: _, [], _, _, _, _, _, _, hl, _ => by simp at hl
  | s :: ss, t :: ts, p', tl, sub, s', hs, ht, hl, h => by
    simp only [pdFlatL, List.append_assoc, List.cons_append] at h
    obtain ⟨s1, h1, w1⟩ := walk_flat x s t _ _ sub s' (hs s (by simp)) (ht t (by simp)) h
    obtain ⟨s2, h2, w2⟩ := walk_flatL x ss ts p' tl s1 s' (fun a ha => hs a (by simp [ha])) (fun a ha => ht a (by simp [ha]))
      (by simpa using hl) h1
    obtain ⟨n1, e1⟩ := w1.ext
    obtain ⟨n2, e2⟩ := w2.ext
    refine ⟨s2, h2, ⟨⟨_, MatchProof.Extends.trans e1 e2⟩, ?_, ?_⟩⟩
    · intro a ha y hy
      rcases List.mem_cons.1 ha with rfl | ha
      · obtain ⟨u, hu, hut⟩ := w1.bound a (by simp) y hy
        exact ⟨u, e2.mono hu, hut⟩
      · exact w2.bound a ha y hy
    · have := w1.inst
      simp only [List.map_cons, List.map_nil, List.cons.injEq, and_true] at this
      simp only [List.map_cons, w2.inst, List.cons.injEq, and_true]
      rw [subst_stable e2 (fun y hy => (w1.bound s (by simp) y hy).imp fun u hu => hu.1), this]
end

theorem matchLoop_walk (x : PDCtx) (tw : Int) : ∀ (n : Nat) (jobs : List (Term × Term)) (mw : Int) (st st' : SubstSt),
    (∀ j ∈ jobs, (j.1.isVar = true → x.pp j.2 = false) ∧ x.ArgsPlain j.2) →
    matchLoop x.sg tw n jobs mw st = some (true, st') →
    walk x (pdFlatL (jobs.map Prod.fst)) (jobs.map Prod.snd) st = some st' := by
  intro n jobs mw st st'
  fun_induction matchLoop x.sg tw n jobs mw st with
  | case1 => intro _ h; simpa [pdFlatL, walk] using h
  | case2 => intro _ h; cases h
  | case3 => intro _ h; simp at h
  | case4 => intro _ h; simp at h
  | case5 => intro _ h; simp at h
  | case6 n t jobs mw st y hty u hu hut mw' hle ih =>
    intro hj h
    have := ih (fun j hj' => hj j (by simp [hj'])) h
    have hut : u = t := by simpa using hut
    have hb : pdBindVar x st y t = some st := bindVar_iff.2 ⟨by simpa using hty, .inl ⟨by rw [hu, hut], rfl⟩⟩
    cases t <;> simpa [pdFlatL, pdFlat, walk, hb] using this
  | case7 => intro _ h; simp at h
  | case8 n t jobs mw st y hty hu st1 mw' hle ih =>
    intro hj h
    have := ih (fun j hj' => hj j (by simp [hj'])) h
    have hb : pdBindVar x st y t = some st1 := bindVar_iff.2 ⟨by simpa using hty,
      .inr ⟨hu, (hj (.var y, t) (by simp)).1 rfl, rfl⟩⟩
    cases t <;> simpa [pdFlatL, pdFlat, walk, hb] using this
  | case9 => intro _ h; simp at h
  | case10 => intro _ h; simp at h
  | case11 n jobs mw st f ms g ts hc ih =>
    intro hj h
    have hc : f = g ∧ ms.length = ts.length := by
      simp only [not_or, ne_eq, not_not] at hc; exact hc
    obtain ⟨rfl, hl⟩ := hc
    have hap := (hj (.app f ms, .app f ts) (by simp)).2 f ts rfl
    have := ih (by
      intro j hj'
      simp only [pushPairs, List.mem_append] at hj'
      rcases hj' with hj' | hj'
      · have hm := (List.of_mem_zip hj').2
        refine ⟨fun _ => hap j.2 hm j.2 (by cases j.2 <;> simp [Term.subterms]), ?_⟩
        intro g us hg u hu v hv
        exact hap j.2 hm v (by
          rw [hg, Term.subterms]
          exact List.mem_cons_of_mem _ (Term.mem_subtermsL.2 ⟨u, hu, hv⟩))
      · exact hj j (by simp [hj'])) h
    have h1 : (ms.zip ts).map Prod.fst = ms := List.map_fst_zip (by omega)
    have h2 : (ms.zip ts).map Prod.snd = ts := List.map_snd_zip (by omega)
    rw [pushPairs, List.map_append, List.map_append, h1, h2, flatL_append] at this
    simpa [pdFlatL, pdFlat, walk] using this

theorem match_walk (x : PDCtx) {s t : Term} {sub s' : SubstSt} (hp : x.ArgsPlain t)
    (h : substComputeMatch x.sg s t (x.pp t) sub = some (true, s')) : walk x (pdFlat s) [t] sub = some s' := by
  simp only [substComputeMatch] at h
  split at h
  · simp at h
  · next hn =>
    split at h
    · cases h
    · next st' hm =>
      cases h
      have := matchLoop_walk x _ _ _ _ _ _ (by
        intro j hj
        simp only [List.mem_singleton] at hj
        subst hj
        refine ⟨fun hv => ?_, hp⟩
        cases hpp : x.pp t with
        | false => rfl
        | true => exact absurd (.inr ⟨hpp, hv⟩) hn) hm
      simpa [pdFlatL] using this
    · simp at h

theorem walk_iff_match (x : PDCtx) {s t : Term} {sub s' : SubstSt} (hs : x.sg.WT s) (ht : x.sg.WT t) (hp : x.ArgsPlain t)
    (h0 : ∀ y, s = .var y → sub.bind y = none) :
    walk x (pdFlat s) [t] sub = some s' ↔ substComputeMatch x.sg s t (x.pp t) sub = some (true, s') := by
  have fwd := fun s'' => match_walk x (s := s) (t := t) (sub := sub) (s' := s'') hp
  constructor
  · intro h
    obtain ⟨s1, h1, hwk⟩ := walk_flat x s t [] [] sub s' hs ht (by simpa using h)
    obtain ⟨res, st', hr, hiff⟩ := Props.matching_exact x.sg s t (x.pp t) sub
    have hres : res = true := by
      rw [hiff]
      constructor
      · rintro ⟨h2, h3⟩
        cases s with
        | app f ms => simp [Term.isVar] at h3
        | var y =>
          cases hb : pdBindVar x sub y t with
          | none => cases t <;> simp [pdFlat, walk, hb] at h
          | some s2 =>
            obtain ⟨-, hc⟩ := bindVar_iff.1 hb
            rcases hc with ⟨h4, -⟩ | ⟨-, h4, -⟩
            · rw [h0 y rfl] at h4; cases h4
            · rw [h4] at h2; cases h2
      · obtain ⟨new, he⟩ := hwk.ext
        refine ⟨s1.toFun, ⟨fun y u hy => MatchProof.toFun_of_bind (he.mono hy), ?_, by simpa using hwk.inst⟩⟩
        intro y hy
        obtain ⟨u, hu, hut⟩ := hwk.bound s (by simp) y hy
        rw [MatchProof.toFun_of_bind hu, hut]
    subst hres
    have := fwd st' hr
    rw [h] at this
    cases this
    exact hr
  · exact fwd s'

end Verif.PDProof
