import Verif.Clauses.PDTreeConstr

/-! # Proofs about discrimination trees: the search machine performs a depth-first enumeration -/

namespace Verif.PDProof
open Verif

/-- What the constraints of a node say, computed from the contents. -/
def okB (x : PDCtx) (q : PDQuery) (w : Int) (n : PDNode) : Bool :=
  (!x.useSize || decide ((agg min pdLongMax PDEntry.weight n : Int) ≤ w)) &&
  (!x.useAge || q.date == 0 || decide (q.date < agg max 0 PDEntry.date n))

/-- The constraint fields are exact or invalid. -/
structure Caches (root : PDNode) (s : PDSt) : Prop where
  size : COK min pdLongMax PDEntry.weight s.size [] root
  age : COK max 0 PDEntry.date s.age [] root

/-- The same terms, substitution and weight. -/
structure Same (s s' : PDSt) : Prop where
  ts : s'.ts = s.ts
  proc : s'.proc = s.proc
  sub : s'.sub = s.sub
  w : s'.w = s.w

theorem Same.trans {a b c : PDSt} (h1 : Same a b) (h2 : Same b c) : Same a c :=
  ⟨h2.ts.trans h1.ts, h2.proc.trans h1.proc, h2.sub.trans h1.sub, h2.w.trans h1.w⟩

theorem verify_spec (x : PDCtx) (q : PDQuery) {root : PDNode} {s : PDSt} {fr : PDFrame} (hw : WF root)
    (hat : At root fr.path fr.node) (hc : Caches root s) :
    (pdVerify x q s fr).1 = okB x q s.w fr.node ∧ Same s (pdVerify x q s fr).2 ∧ Caches root (pdVerify x q s fr).2 := by
  obtain ⟨a1, a2⟩ := get_at selMin hw hat hc.size
  obtain ⟨b1, b2⟩ := get_at selMax hw hat hc.age
  have hsz : ∀ b, COK min pdLongMax PDEntry.weight (if x.useSize then pdGet min pdLongMax PDEntry.weight s.size fr.path fr.node else (b, s.size)).2 [] root := by
    intro b; split
    · exact a2
    · exact hc.size
  simp only [pdVerify]
  by_cases hs : x.useSize = true
  · simp only [hs, if_true, a1, Bool.true_and, decide_eq_true_eq, okB, Bool.not_true, Bool.false_or]
    by_cases hlt : s.w < (agg min pdLongMax PDEntry.weight fr.node : Int)
    · rw [if_pos hlt]
      refine ⟨?_, ⟨rfl, rfl, rfl, rfl⟩, ⟨a2, hc.age⟩⟩
      rw [decide_eq_false (by omega)]; simp
    · rw [if_neg hlt]
      rw [decide_eq_true (show _ ≤ s.w by omega)]
      by_cases ha : x.useAge = true
      · by_cases hd : q.date = 0
        · simp only [ha, hd]
          exact ⟨rfl, ⟨rfl, rfl, rfl, rfl⟩, ⟨a2, hc.age⟩⟩
        · have hd' : (q.date != 0) = true := by simpa using hd
          have hd2 : (q.date == 0) = false := by simpa using hd
          simp only [ha, hd', hd2, b1, Bool.and_self, if_true]
          exact ⟨by simp, ⟨rfl, rfl, rfl, rfl⟩, ⟨a2, b2⟩⟩
      · simp only [Bool.not_eq_true] at ha
        simp only [ha, Bool.false_and]
        exact ⟨by simp, ⟨rfl, rfl, rfl, rfl⟩, ⟨a2, hc.age⟩⟩
  · simp only [Bool.not_eq_true] at hs
    simp only [hs, Bool.false_and, okB, Bool.not_false, Bool.true_or, Bool.true_and]
    by_cases ha : x.useAge = true
    · by_cases hd : q.date = 0
      · simp only [ha, hd]
        exact ⟨rfl, ⟨rfl, rfl, rfl, rfl⟩, ⟨hc.size, hc.age⟩⟩
      · have hd' : (q.date != 0) = true := by simpa using hd
        have hd2 : (q.date == 0) = false := by simpa using hd
        simp only [ha, hd', hd2, b1]
        exact ⟨by simp, ⟨rfl, rfl, rfl, rfl⟩, ⟨hc.size, b2⟩⟩
    · simp only [Bool.not_eq_true] at ha
      simp only [ha]
      exact ⟨by simp, ⟨rfl, rfl, rfl, rfl⟩, ⟨hc.size, hc.age⟩⟩

/-- The entries handed out on entering a node. -/
def ent (n : PDNode) (ts : List Term) (sub : SubstSt) : List (PDEntry × SubstSt) :=
  if ts.isEmpty then n.ents.map (fun e => (e, sub)) else []

mutual
/-- What is handed out from entering a node (after the entries `ent`) to leaving it. -/
def enumN (x : PDCtx) (q : PDQuery) : PDNode → List Term → SubstSt → Int → List (PDEntry × SubstSt)
  | .mk l r es fa va, ts, sub, w =>
    if okB x q w (.mk l r es fa va) then
      match ts with
      | [] => es.map (fun e => (e, sub))
      | t :: tl =>
        if q.general then enumS x q fa t tl sub w ++ enumV x q va t tl sub w
        else enumV x q va t tl sub w ++ enumS x q fa t tl sub w
    else []
def enumS (x : PDCtx) (q : PDQuery) : PDAlts → Term → List Term → SubstSt → Int → List (PDEntry × SubstSt)
  | .nil, _, _, _, _ => []
  | .cons g n r, t, tl, sub, w =>
    match t with
    | .var _ => []
    | .app f us => if g = f then ent n (us ++ tl) sub ++ enumN x q n (us ++ tl) sub w else enumS x q r t tl sub w
def enumV (x : PDCtx) (q : PDQuery) : PDAlts → Term → List Term → SubstSt → Int → List (PDEntry × SubstSt)
  | .nil, _, _, _, _ => []
  | .cons y n r, t, tl, sub, w =>
    (match pdBindVar x sub y t with
    | none => []
    | some sub' => ent n tl sub' ++ enumN x q n tl sub' (w - (t.sw - VW))) ++ enumV x q r t tl sub w
end

theorem enumS_get (x : PDCtx) (q : PDQuery) (a : PDAlts) (t : Term) (tl : List Term) (sub : SubstSt) (w : Int) :
    enumS x q a t tl sub w = match t with
      | .var _ => []
      | .app f us => match a.get f with
        | none => []
        | some n => ent n (us ++ tl) sub ++ enumN x q n (us ++ tl) sub w := by
  induction a using PDAlts.rec (motive_1 := fun _ => True) with
  | mk => trivial
  | nil => cases t <;> simp [enumS, PDAlts.get]
  | cons k n r _ ih =>
    cases t with
    | var y => simp [enumS]
    | app f us =>
      simp only at ih
      simp only [enumS, PDAlts.get, ih]
      by_cases h : k = f <;> simp [h]

theorem bindVar_extends {x : PDCtx} {sub sub' : SubstSt} {y : Nat} {t : Term} (h : pdBindVar x sub y t = some sub') :
    sub'.backtrackToPos sub.stack.length = sub := by
  simp only [pdBindVar] at h
  split at h
  · cases h
  · split at h
    · split at h
      · cases h; exact (SubstSt.Extends.refl sub).backtrack
      · cases h
    · next hb =>
      split at h
      · next s2 hm =>
        cases h
        have : sub' = sub.addBinding y t := by
          simp only [substComputeMatch, Term.size, matchLoop, hb] at hm
          grind
        subst this
        exact ((SubstSt.Extends.refl sub).add t hb).backtrack
      · cases h

theorem tryVars_none {x : PDCtx} {q : PDQuery} {sub : SubstSt} {t : Term} {a r : PDAlts} (tl : List Term) (w : Int)
    (h : pdTryVars x sub t a = (none, r)) : enumV x q a t tl sub w = [] ∧ r = .nil := by
  fun_induction pdTryVars x sub t a with
  | case1 => simp at h; simp [enumV, h]
  | case2 => simp at h
  | case3 y n r' hb ih => simp [enumV, hb, ih h]

def toL : PDAlts → List (Nat × PDNode)
  | .nil => []
  | .cons k n r => (k, n) :: toL r

theorem tryVars_some {x : PDCtx} {q : PDQuery} {sub : SubstSt} {t : Term} {a r : PDAlts} {y n sub'} (tl : List Term) (w : Int)
    (h : pdTryVars x sub t a = (some (y, n, sub'), r)) :
    pdBindVar x sub y t = some sub' ∧ (∃ pre, toL a = pre ++ (y, n) :: toL r) ∧
    enumV x q a t tl sub w = ent n tl sub' ++ enumN x q n tl sub' (w - (t.sw - VW)) ++ enumV x q r t tl sub w := by
  fun_induction pdTryVars x sub t a with
  | case1 => simp at h
  | case2 y' n' r' s hb =>
    simp only [Prod.mk.injEq, Option.some.injEq] at h
    obtain ⟨⟨rfl, rfl, rfl⟩, rfl⟩ := h
    refine ⟨hb, ⟨[], rfl⟩, ?_⟩
    simp [enumV, hb]
  | case3 y' n' r' hb ih =>
    obtain ⟨h1, ⟨pre, h2⟩, h3⟩ := ih h
    refine ⟨h1, ⟨(y', n') :: pre, by simp [toL, h2]⟩, ?_⟩
    simp [enumV, hb, h3]

theorem toL_get {a : PDAlts} (hw : WFA a) {k n} (h : (k, n) ∈ toL a) : a.get k = some n := by
  induction a using PDAlts.rec (motive_1 := fun _ => True) with
  | mk => trivial
  | nil => simp [toL] at h
  | cons j m r _ ih =>
    simp only [toL, List.mem_cons, Prod.mk.injEq] at h
    rcases h with ⟨rfl, rfl⟩ | h
    · simp [PDAlts.get]
    · have := ih hw.2.2.2.2 h
      rw [PDAlts.get, if_neg, this]
      rintro rfl
      rw [get_none.2 hw.1] at this; cases this

theorem get_sizeOf {a : PDAlts} {k n} (h : a.get k = some n) : sizeOf n < sizeOf a := by
  fun_induction PDAlts.get a k with
  | case1 => simp at h
  | case2 n0 r j => cases h; simp; omega
  | case3 k n0 r j hne ih => have := ih h; simp; omega

theorem child_sizeOf {n c : PDNode} {k} (h : n.child k = some c) : sizeOf c < sizeOf n := by
  rcases n with ⟨l, r, es, fa, va⟩
  cases k with
  | sym f => have := get_sizeOf (a := fa) h; simp; omega
  | var y => have := get_sizeOf (a := va) h; simp; omega

/-- Whether a round ends the loop after a forward move. -/
def brk (s : PDSt) : Bool := !s.topEnts.isEmpty && s.ts.isEmpty

/-- The entries handed out when the loop has ended in this state. -/
def emit (s : PDSt) : List (PDEntry × SubstSt) := if brk s then s.topEnts.map (fun e => (e, s.sub)) else []

theorem emit_enter {s : PDSt} {fr fs} (h : s.frames = fr :: fs) : emit s = ent fr.node s.ts s.sub := by
  have ht : s.topEnts = fr.node.ents := by simp [PDSt.topEnts, h]
  simp only [emit, brk, ent, ht]
  cases h1 : fr.node.ents with
  | nil => simp
  | cons e es => simp

section
variable {x : PDCtx} {q : PDQuery} {root : PDNode} (hw : WF root)
include hw

theorem step_back {s : PDSt} {fr rest} (hat : At root fr.path fr.node) (hc : Caches root s)
    (hd : okB x q s.w fr.node = false ∨ fr.st = 2) :
    ∃ s0, Same s s0 ∧ Caches root s0 ∧ pdStep x q s fr rest = (pdBacktrack s0 fr rest, false) := by
  obtain ⟨h1, h2, h3⟩ := verify_spec x q hw hat hc
  refine ⟨(pdVerify x q s fr).2, h2, h3, ?_⟩
  simp only [pdStep, h1]
  rw [if_pos]
  rcases hd with hd | hd <;> simp [hd]

theorem step_forward {s : PDSt} {fr rest t tl} (hat : At root fr.path fr.node) (hc : Caches root s)
    (ho : okB x q s.w fr.node = true) (hst : fr.st ≠ 2) (hts : s.ts = t :: tl) :
    ∃ s0, Same s s0 ∧ Caches root s0 ∧ pdStep x q s fr rest =
      (pdGo x q s0 rest t tl (q.order.drop fr.st) fr, brk (pdGo x q s0 rest t tl (q.order.drop fr.st) fr)) := by
  obtain ⟨h1, h2, h3⟩ := verify_spec x q hw hat hc
  refine ⟨(pdVerify x q s fr).2, h2, h3, ?_⟩
  have hts2 : (pdVerify x q s fr).2.ts = t :: tl := by rw [h2.ts, hts]
  simp only [pdStep, h1, ho]
  rw [if_neg (by simpa using hst), if_neg (by simp [hts2])]
  simp only [pdForward, hts2]
  rfl

/-- Running a node from entering it to the point where it is left. -/
def RunN (x : PDCtx) (q : PDQuery) (root n : PDNode) : Prop :=
  ∀ (s : PDSt) (fr : PDFrame) (rest : List PDFrame), s.frames = fr :: rest → fr.node = n → At root fr.path n → fr.st = 0 →
    fr.vrest = (if q.general then .nil else n.va) → Caches root s →
    ∃ s' fr', PDSteps x q s (enumN x q n s.ts s.sub s.w) s' ∧ s'.frames = fr' :: rest ∧ Same s s' ∧ Caches root s' ∧
      fr'.path = fr.path ∧ fr'.node = n ∧ fr'.prev = fr.prev ∧ (okB x q s.w n = false ∨ fr'.st = 2)

omit hw in
theorem steps_trans {a b c : PDSt} {e1 e2} (h1 : PDSteps x q a e1 b) (h2 : PDSteps x q b e2 c) : PDSteps x q a (e1 ++ e2) c := by
  induction h1 with
  | refl => simpa using h2
  | step hf hs _ ih => rw [List.append_assoc]; exact .step hf hs (ih h2)

/-- What the remaining phases at a node hand out. -/
def remE (x : PDCtx) (q : PDQuery) (n : PDNode) (t : Term) (tl : List Term) (sub : SubstSt) (w : Int) :
    List PDPhase → PDAlts → List (PDEntry × SubstSt)
  | [], _ => []
  | .syms :: more, vr =>
    enumS x q n.fa t tl sub w ++ remE x q n t tl sub w more (pdNextVars more n.va vr)
  | .vars :: more, vr => enumV x q vr t tl sub w ++ remE x q n t tl sub w more .nil

/-- Continuing from a state reached by the forward move to the end of the node. -/
def Cont (x : PDCtx) (q : PDQuery) (root : PDNode) (s1 : PDSt) (total : List (PDEntry × SubstSt)) (s : PDSt) (fr : PDFrame) (rest : List PDFrame) : Prop :=
  ∃ em s' fr', total = emit s1 ++ em ∧ PDSteps x q s1 em s' ∧ s'.frames = fr' :: rest ∧ Same s s' ∧ Caches root s' ∧
    fr'.path = fr.path ∧ fr'.node = fr.node ∧ fr'.prev = fr.prev ∧ fr'.st = 2

/-- After a child has been run and left, the node continues with its remaining phases. -/
theorem resume {s s1 : PDSt} {fr1 rest t tl c k prev} {more : List PDPhase} {total : List (PDEntry × SubstSt)}
    (hat : At root fr1.path fr1.node) (hts : s.ts = t :: tl) (ho : okB x q s.w fr1.node = true)
    (hk : fr1.node.child k = some c) (hrun : RunN x q root c) (hs1c : Caches root s1)
    (hs1f : s1.frames = pdEnter q (k :: fr1.path) c prev :: fr1 :: rest)
    (hback : ∀ (s' : PDSt) fr', Same s1 s' → fr'.path = k :: fr1.path → fr'.prev = prev → Same s (pdBacktrack s' fr' (fr1 :: rest)))
    (hbf : ∀ (s' : PDSt) fr', (pdBacktrack s' fr' (fr1 :: rest)).frames = fr1 :: rest ∧
      (pdBacktrack s' fr' (fr1 :: rest)).size = s'.size ∧ (pdBacktrack s' fr' (fr1 :: rest)).age = s'.age)
    (hmore : q.order.drop fr1.st = more) (hlen : fr1.st + more.length = 2)
    (hrest : more ≠ [] → ∀ s0, Same s s0 → Caches root s0 → Cont x q root (pdGo x q s0 rest t tl more fr1) total s0 fr1 rest)
    (hnil : more = [] → total = []) :
    Cont x q root s1 (ent c s1.ts s1.sub ++ enumN x q c s1.ts s1.sub s1.w ++ total) s fr1 rest := by
  obtain ⟨s2, fr2, r1, r2, r3, r4, r5, r6, r7, r8⟩ := hrun s1 (pdEnter q (k :: fr1.path) c prev) (fr1 :: rest) hs1f rfl
    (.child hat hk) rfl rfl hs1c
  have hst : okB x q s2.w fr2.node = false ∨ fr2.st = 2 := by
    rw [r3.w, r6]; exact r8
  obtain ⟨s3, b1, b2, b3⟩ := step_back (x := x) (q := q) (rest := fr1 :: rest) hw
    (show At root fr2.path fr2.node by rw [r5, r6]; exact .child hat hk) r4 hst
  set s4 := pdBacktrack s3 fr2 (fr1 :: rest) with hs4
  have hsame4 : Same s s4 := hback s3 fr2 (r3.trans b1) r5 r7
  have hf4 : s4.frames = fr1 :: rest := (hbf s3 fr2).1
  have hc4 : Caches root s4 := ⟨by rw [hs4, (hbf s3 fr2).2.1]; exact b2.size, by rw [hs4, (hbf s3 fr2).2.2]; exact b2.age⟩
  have hsteps : PDSteps x q s1 (enumN x q c s1.ts s1.sub s1.w) s4 := by
    have := steps_trans r1 (.step r2 b3 (.refl s4))
    simpa using this
  have hem : emit s1 = ent c s1.ts s1.sub := emit_enter hs1f
  cases hm : more with
  | nil =>
    rw [hm] at hlen
    rw [hnil hm, List.append_nil]
    exact ⟨_, s4, fr1, by rw [hem], hsteps, hf4, hsame4, hc4, rfl, rfl, rfl, by simpa using hlen⟩
  | cons ph ms =>
    have hne : more ≠ [] := by rw [hm]; simp
    have hst1 : fr1.st ≠ 2 := by rw [hm] at hlen; simp at hlen; omega
    obtain ⟨s5, c1, c2, c3⟩ := step_forward (x := x) (q := q) (rest := rest) hw hat hc4
      (by rw [hsame4.w]; exact ho) hst1 (by rw [hsame4.ts]; exact hts)
    rw [hmore] at c3
    obtain ⟨em, s', fr', d1, d2, d3, d4, d5, d6, d7, d8, d9⟩ := hrest hne s5 (hsame4.trans c1) c2
    refine ⟨enumN x q c s1.ts s1.sub s1.w ++ total, s', fr', by rw [hem, List.append_assoc], ?_, d3,
      (hsame4.trans c1).trans d4, d5, d6, d7, d8, d9⟩
    refine steps_trans hsteps ?_
    have := PDSteps.step hf4 c3 d2
    rw [d1]
    exact this

theorem run_phases {n : PDNode} (hn : ∀ k c, n.child k = some c → RunN x q root c) {t : Term} {tl : List Term} :
    ∀ (phases : List PDPhase) (fr : PDFrame) (s : PDSt) (rest : List PDFrame), fr.node = n → At root fr.path n →
      (∀ y c, (y, c) ∈ toL fr.vrest → (y, c) ∈ toL n.va) →
      Caches root s → s.ts = t :: tl → okB x q s.w n = true → q.order.drop fr.st = phases → fr.st + phases.length = 2 →
      Cont x q root (pdGo x q s rest t tl phases fr) (remE x q n t tl s.sub s.w phases fr.vrest) s fr rest := by
  intro phases
  induction phases with
  | nil =>
    intro fr s rest hfn hat hv hc hts ho hp hl
    refine ⟨[], { s with frames := fr :: rest }, fr, ?_, .refl _, rfl, ⟨rfl, rfl, rfl, rfl⟩, ⟨hc.size, hc.age⟩, rfl, rfl, rfl,
      by simpa using hl⟩
    simp [remE, pdGo, emit, brk, hts]
  | cons ph more ih =>
    have hdrop : ∀ fr : PDFrame, q.order.drop fr.st = ph :: more → q.order.drop (fr.st + 1) = more := by
      intro fr h
      rw [← List.drop_drop, h]; rfl
    cases ph with
    | syms =>
      intro fr s rest hfn hat hv hc hts ho hp hl
      set vr := (pdNextVars more fr.node.va fr.vrest) with hvr
      set fr1 : PDFrame := { fr with st := fr.st + 1, vrest := vr } with hfr1
      have hvr1 : ∀ y c, (y, c) ∈ toL fr1.vrest → (y, c) ∈ toL n.va := by
        intro y c hyc
        simp only [hfr1, hvr, hfn, pdNextVars] at hyc
        split at hyc
        · exact hyc
        · exact hv y c hyc
      have hskip : Cont x q root (pdGo x q s rest t tl more fr1) (remE x q n t tl s.sub s.w more vr) s fr rest := by
        have := ih fr1 s rest hfn hat hvr1 hc hts ho (hdrop fr hp) (by simp [hfr1] at hl ⊢; omega)
        exact this
      have hrem : remE x q n t tl s.sub s.w (.syms :: more) fr.vrest =
          enumS x q n.fa t tl s.sub s.w ++ remE x q n t tl s.sub s.w more vr := by
        simp only [remE, hvr, hfn]
      rw [hrem, enumS_get]
      cases t with
      | var y => simpa [pdGo, hvr, hfr1] using hskip
      | app f us =>
        cases hg : n.fa.get f with
        | none =>
          have hg' : fr.node.fa.get f = none := by rw [hfn]; exact hg
          simpa [pdGo, hg', hvr, hfr1, hg] using hskip
        | some c =>
          have hgo : pdGo x q s rest (.app f us) tl (.syms :: more) fr =
              { s with frames := pdEnter q (.sym f :: fr.path) c s.sub.stack.length :: fr1 :: rest,
                       ts := us ++ tl, proc := .app f us :: s.proc } := by
            have hg' : fr.node.fa.get f = some c := by rw [hfn]; exact hg
            simp only [pdGo, hg', hfr1, hvr]
          rw [hgo]
          have hk : n.child (.sym f) = some c := hg
          simp only [hg]
          exact resume (total := remE x q n (.app f us) tl s.sub s.w more vr) (s := s) (s1 := { s with frames := pdEnter q (.sym f :: fr.path) c s.sub.stack.length :: fr1 :: rest, ts := us ++ tl, proc := .app f us :: s.proc }) (k := .sym f) (prev := s.sub.stack.length) (fr1 := fr1) (more := more) hw (by rw [← hfn] at hat; exact hat) hts (by rw [← hfn] at ho; exact ho)
            (by rw [← hfn] at hk; exact hk) (hn _ _ hk) ⟨hc.size, hc.age⟩ rfl
            (by
              intro s' fr' hsm hpth hpr
              have hp' : s'.proc = .app f us :: s.proc := hsm.proc
              have ht' : s'.ts = us ++ tl := hsm.ts
              simp only [pdBacktrack, hpth, hp', ht']
              refine ⟨?_, rfl, hsm.sub, hsm.w⟩
              simp [hts])
            (by
              intro s' fr'
              simp only [pdBacktrack]
              split <;> exact ⟨rfl, rfl, rfl⟩)
            (hdrop fr hp) (by simp [hfr1] at hl ⊢; omega)
            (by
              intro _ s0 hs0 hc0
              have := ih fr1 s0 rest hfn hat hvr1 hc0 (by rw [hs0.ts]; exact hts) (by rw [hs0.w]; exact ho) (hdrop fr hp)
                (by simp [hfr1] at hl ⊢; omega)
              rw [hs0.sub, hs0.w] at this
              exact this)
            (by intro h; subst h; simp [remE])
    | vars =>
      intro fr s rest hfn hat hv hc hts ho hp hl
      obtain ⟨len, hlen⟩ : ∃ len, (toL fr.vrest).length = len := ⟨_, rfl⟩
      induction len using Nat.strong_induction_on generalizing fr s with
      | _ len ih2 =>
        rcases htv : pdTryVars x s.sub t fr.vrest with ⟨_ | ⟨y, c, sub'⟩, r⟩
        · obtain ⟨h1, h2⟩ := tryVars_none (q := q) tl s.w htv
          subst h2
          simp only [remE, h1, List.nil_append, pdGo, htv]
          exact ih { fr with st := fr.st + 1, vrest := .nil } s rest hfn hat (by simp [toL]) hc hts ho (hdrop fr hp)
            (by simp at hl ⊢; omega)
        · obtain ⟨h1, ⟨pre, h2⟩, h3⟩ := tryVars_some (q := q) tl s.w htv
          set fr1 : PDFrame := { fr with vrest := r } with hfr1
          have hgo : pdGo x q s rest t tl (.vars :: more) fr =
              { s with frames := pdEnter q (.var y :: fr.path) c s.sub.stack.length :: fr1 :: rest,
                       ts := tl, proc := t :: s.proc, sub := sub', w := s.w - (t.sw - VW) } := by
            simp only [pdGo, htv, hfr1]
          have hmem : (y, c) ∈ toL n.va := hv y c (by rw [h2]; simp)
          have hwn : WF n := hat.wf hw
          have hk : n.child (.var y) = some c := by
            rcases n with ⟨l, rf, es, fa, va⟩
            exact toL_get hwn.2.2 hmem
          have hv1 : ∀ y c, (y, c) ∈ toL fr1.vrest → (y, c) ∈ toL n.va := fun y c hyc => hv y c (by
            rw [h2]; exact List.mem_append_right _ (List.mem_cons_of_mem _ hyc))
          have hrem : remE x q n t tl s.sub s.w (.vars :: more) fr.vrest = ent c tl sub' ++
              enumN x q c tl sub' (s.w - (t.sw - VW)) ++ remE x q n t tl s.sub s.w (.vars :: more) r := by
            simp only [remE, h3, List.append_assoc]
          rw [hrem, hgo]
          have hcont := resume (x := x) (q := q) (s := s) (s1 := { s with frames := pdEnter q (.var y :: fr.path) c s.sub.stack.length :: fr1 :: rest, ts := tl, proc := t :: s.proc, sub := sub', w := s.w - (t.sw - VW) })
            (t := t) (tl := tl) (total := remE x q n t tl s.sub s.w (.vars :: more) r)
            (k := .var y) (prev := s.sub.stack.length) (fr1 := fr1) (rest := rest) (c := c) (more := .vars :: more) hw (by rw [← hfn] at hat; exact hat) hts
            (by rw [← hfn] at ho; exact ho) (by rw [← hfn] at hk; exact hk) (hn _ _ hk) ⟨hc.size, hc.age⟩ rfl
            (by
              intro s' fr' hsm hpth hpr
              have hp' : s'.proc = t :: s.proc := hsm.proc
              simp only [pdBacktrack, hpth, hp', hpr]
              refine ⟨?_, rfl, ?_, ?_⟩
              · show t :: s'.ts = _
                rw [show s'.ts = tl from hsm.ts, hts]
              · show s'.sub.backtrackToPos _ = _
                rw [show s'.sub = sub' from hsm.sub, bindVar_extends h1]
              · show s'.w + (t.sw - VW) = s.w
                rw [show s'.w = s.w - (t.sw - VW) from hsm.w]; omega)
            (by
              intro s' fr'
              simp only [pdBacktrack]
              split <;> exact ⟨rfl, rfl, rfl⟩)
            hp hl
            (by
              intro _ s0 hs0 hc0
              have := ih2 (toL r).length (by rw [← hlen, h2]; simp; omega) fr1 s0 hfn hat hv1 hc0 (by rw [hs0.ts]; exact hts)
                (by rw [hs0.w]; exact ho) hp hl rfl
              rw [hs0.sub, hs0.w] at this
              exact this)
            (by intro h; cases h)
          exact hcont

theorem run_node : ∀ n : PDNode, RunN x q root n := by
  intro n
  obtain ⟨k, hk⟩ : ∃ k, sizeOf n = k := ⟨_, rfl⟩
  induction k using Nat.strong_induction_on generalizing n with
  | _ k ih =>
    have hch : ∀ key c, n.child key = some c → RunN x q root c := fun key c hc =>
      ih (sizeOf c) (by rw [← hk]; exact child_sizeOf hc) c rfl
    intro s fr rest hf hfn hat hst hvr hc
    by_cases ho : okB x q s.w n = true
    · cases hts : s.ts with
      | cons t tl =>
        obtain ⟨s0, h1, h2, h3⟩ := step_forward (x := x) (q := q) (rest := rest) hw (by rw [← hfn] at hat; exact hat) hc
          (by rw [← hfn] at ho; exact ho) (by omega) hts
        have hord : q.order.drop fr.st = q.order := by rw [hst]; rfl
        rw [hord] at h3
        obtain ⟨em, s', fr', d1, d2, d3, d4, d5, d6, d7, d8, d9⟩ := run_phases (x := x) (q := q) hw hch q.order fr s0 rest hfn hat
          (by
            intro y c hyc
            rw [hvr] at hyc
            split at hyc
            · simp [toL] at hyc
            · exact hyc)
          h2 (by rw [h1.ts, hts]) (by rw [h1.w]; exact ho) hord (by simp [hst, PDQuery.order]; split <;> rfl)
        refine ⟨s', fr', ?_, d3, h1.trans d4, d5, d6, by rw [d7, hfn], d8, .inr d9⟩
        have he : enumN x q n (t :: tl) s.sub s.w = remE x q n t tl s.sub s.w q.order fr.vrest := by
          rcases n with ⟨l, r, es, fa, va⟩
          rw [enumN, if_pos ho]
          simp only [PDQuery.order]
          by_cases hg : q.general = true
          · simp [hg, remE, PDNode.fa, PDNode.va, pdNextVars]
          · simp only [hg, hvr]
            simp [remE, PDNode.fa, PDNode.va]
        rw [he]
        rw [h1.sub, h1.w] at d1
        rw [d1]
        exact .step hf h3 d2
      | nil =>
        obtain ⟨h1, h2, h3⟩ := verify_spec x q hw (by rw [← hfn] at hat; exact hat) hc
        have ho' : (pdVerify x q s fr).1 = true := by rw [h1, hfn]; exact ho
        have hts' : (pdVerify x q s fr).2.ts = [] := by rw [h2.ts, hts]
        have henum : enumN x q n [] s.sub s.w = n.ents.map (fun e => (e, s.sub)) := by
          rcases n with ⟨l, r, es, fa, va⟩
          rw [enumN, if_pos ho]; rfl
        rw [henum]
        by_cases hlf : fr.node.leaf = true
        · refine ⟨{ (pdVerify x q s fr).2 with frames := { fr with st := 2 } :: rest }, { fr with st := 2 }, ?_, rfl, ⟨h2.ts, h2.proc, h2.sub, h2.w⟩,
            ⟨h3.size, h3.age⟩, rfl, hfn, rfl, .inr rfl⟩
          have hstep : pdStep x q s fr rest = ({ (pdVerify x q s fr).2 with frames := { fr with st := 2 } :: rest }, true) := by
            simp only [pdStep, ho', hlf, hts']
            rw [if_neg (by simp [hst]), if_pos (by simp)]
          have := PDSteps.step hf hstep (.refl _)
          have he : (if true = true then List.map (fun e => (e, (pdVerify x q s fr).2.sub)) fr.node.ents else []) ++ [] = n.ents.map (fun e => (e, s.sub)) := by
            rw [hfn, h2.sub]; simp
          rw [← he]
          exact this
        · refine ⟨{ (pdVerify x q s fr).2 with frames := { fr with st := 2, vrest := .nil } :: rest }, { fr with st := 2, vrest := .nil }, ?_, rfl, ⟨h2.ts, h2.proc, h2.sub, h2.w⟩,
            ⟨h3.size, h3.age⟩, rfl, hfn, rfl, .inr rfl⟩
          have hstep : pdStep x q s fr rest = ({ (pdVerify x q s fr).2 with frames := { fr with st := 2, vrest := .nil } :: rest }, !n.ents.isEmpty) := by
            simp only [pdStep, ho', hts']
            rw [if_neg (by simp [hst]), if_neg (by simp [hlf])]
            simp only [pdForward, hts', PDSt.topEnts, hfn]
            simp
          have := PDSteps.step hf hstep (.refl _)
          have he : (if (!n.ents.isEmpty) = true then List.map (fun e => (e, (pdVerify x q s fr).2.sub)) fr.node.ents else []) ++ [] = n.ents.map (fun e => (e, s.sub)) := by
            rw [hfn, h2.sub]
            cases n.ents <;> simp
          rw [← he]
          exact this
    · have ho' : okB x q s.w n = false := by simpa using ho
      refine ⟨s, fr, ?_, hf, ⟨rfl, rfl, rfl, rfl⟩, hc, rfl, hfn, rfl, .inl ho'⟩
      have : enumN x q n s.ts s.sub s.w = [] := by
        rcases n with ⟨l, r, es, fa, va⟩
        cases hts : s.ts <;> rw [enumN, if_neg ho]
      rw [this]
      exact .refl _

/-- A whole search. -/
theorem run_search (T : PDTree) (hroot : T.root = root) (hsz : COK min pdLongMax PDEntry.weight T.size [] root)
    (hag : COK max 0 PDEntry.date T.age [] root) (t : Term) (sub : SubstSt) :
    ∃ s', PDSteps x q (pdSearchInit q T t sub) (enumN x q root [t] sub t.sw) s' ∧ s'.frames = [] ∧ s'.sub = sub ∧
      Caches root s' := by
  subst hroot
  obtain ⟨s1, fr1, r1, r2, r3, r4, r5, r6, r7, r8⟩ := run_node (x := x) (q := q) hw T.root (pdSearchInit q T t sub)
    (pdEnter q [] T.root 0) [] rfl rfl .root rfl rfl ⟨hsz, hag⟩
  obtain ⟨s2, b1, b2, b3⟩ := step_back (x := x) (q := q) (rest := []) hw (show At T.root fr1.path fr1.node by
      rw [r5, r6]; exact .root) r4 (by rw [r6, r3.w]; exact r8)
  have hbt : pdBacktrack s2 fr1 [] = { s2 with frames := [] } := by
    simp only [pdBacktrack, r5]; rfl
  refine ⟨pdBacktrack s2 fr1 [], ?_, by rw [hbt], by rw [hbt]; exact b1.sub.trans r3.sub, by rw [hbt]; exact ⟨b2.size, b2.age⟩⟩
  have := steps_trans r1 (.step r2 b3 (.refl _))
  simp only [Bool.false_eq_true, if_false, List.append_nil] at this
  exact this

end

/-! ## The calls of `PDTreeFindNextDemodulator` -/

theorem findLeaf_mono {x : PDCtx} {q : PDQuery} : ∀ {n n' : Nat} {s s' : PDSt}, n ≤ n' → pdFindLeaf x q n s = some s' →
    pdFindLeaf x q n' s = some s' := by
  intro n
  induction n with
  | zero => intro n' s s' _ h; simp [pdFindLeaf] at h
  | succ n ih =>
    intro n' s s' hn h
    obtain ⟨m, rfl⟩ : ∃ m, n' = m + 1 := ⟨n' - 1, by omega⟩
    simp only [pdFindLeaf] at h ⊢
    split
    · next hf => simpa [hf] using h
    · next fr rest hf =>
      simp only [hf] at h
      split
      · next s1 hs => simpa [hs] using h
      · next s1 hs =>
        simp only [hs] at h
        exact ih (by omega) h

theorem findDemod_mono {x : PDCtx} {q : PDQuery} : ∀ {n n' : Nat} {s : PDSt} {st r}, n ≤ n' → pdFindDemod x q n s st = some r →
    pdFindDemod x q n' s st = some r := by
  intro n
  induction n with
  | zero => intro n' s st r _ h; simp [pdFindDemod] at h
  | succ n ih =>
    intro n' s st r hn h
    obtain ⟨m, rfl⟩ : ∃ m, n' = m + 1 := ⟨n' - 1, by omega⟩
    simp only [pdFindDemod] at h ⊢
    split
    · next hf => simpa [hf] using h
    · next hf => simpa [hf] using h
    · next hf =>
      simp only [hf] at h
      split at h
      · cases h
      · next s' hs =>
        rw [findLeaf_mono (show n ≤ m by omega) hs]
        exact ih (by omega) h

theorem pdAll_mono {x : PDCtx} {q : PDQuery} : ∀ {n n' : Nat} {s : PDSt} {st r}, n ≤ n' → pdAll x q n s st = some r →
    pdAll x q n' s st = some r := by
  intro n
  induction n with
  | zero => intro n' s st r _ h; simp [pdAll] at h
  | succ n ih =>
    intro n' s st r hn h
    obtain ⟨m, rfl⟩ : ∃ m, n' = m + 1 := ⟨n' - 1, by omega⟩
    simp only [pdAll] at h ⊢
    split at h
    · cases h
    · next s' _ hs => rw [findDemod_mono (show n ≤ m by omega) hs]; simpa using h
    · next e s' st' hs =>
      rw [findDemod_mono (show n ≤ m by omega) hs]
      split at h
      · cases h
      · next l z hl => simp only [ih (show n ≤ m by omega) hl]; exact h

/-- Handing out stored entries first. -/
theorem pdAll_store {x : PDCtx} {q : PDQuery} {s : PDSt} {fr rest l z} (hf : s.frames = fr :: rest) :
    ∀ (es : List PDEntry), (∃ N, pdAll x q N s [] = some (l, z)) →
      ∃ N, pdAll x q N s es = some (es.map (fun e => (e, s.sub)) ++ l, z) := by
  intro es
  induction es with
  | nil => simp
  | cons e es ih =>
    intro h
    obtain ⟨N, hN⟩ := ih h
    refine ⟨N + 2, ?_⟩
    have h1 : pdFindDemod x q (N + 1) s (e :: es) = some (some e, s, es) := by simp [pdFindDemod, hf]
    have h2 := pdAll_mono (show N ≤ N + 1 by omega) hN
    rw [pdAll, h1]
    simp only [h2]
    rfl

theorem findDemod_go {x : PDCtx} {q : PDQuery} {s : PDSt} {fr rest} (n : Nat) (hf : s.frames = fr :: rest) :
    pdFindDemod x q (n + 1) s [] = match pdFindLeaf x q n s with
      | none => none
      | some s' => pdFindDemod x q n s' s'.topEnts := by
  simp only [pdFindDemod, hf]
  cases pdFindLeaf x q n s <;> rfl

theorem findDemod_end {x : PDCtx} {q : PDQuery} {s : PDSt} {st} (n : Nat) (hf : s.frames = []) :
    pdFindDemod x q (n + 1) s st = some (none, s, []) := by
  cases st <;> simp [pdFindDemod, hf]

/-- A non-final round does not change what the calls hand out. -/
theorem pdAll_skip {x : PDCtx} {q : PDQuery} {s s1 : PDSt} {fr rest r} (hf : s.frames = fr :: rest)
    (hs : pdStep x q s fr rest = (s1, false)) (h : ∃ N, pdAll x q N s1 [] = some r) : ∃ N, pdAll x q N s [] = some r := by
  obtain ⟨N, hN⟩ := h
  cases N with
  | zero => simp [pdAll] at hN
  | succ N =>
    rw [pdAll] at hN
    have key : ∀ {d}, pdFindDemod x q N s1 [] = some d → pdFindDemod x q (N + 2) s [] = some d := by
      intro d hd
      cases N with
      | zero => simp [pdFindDemod] at hd
      | succ N =>
        have hl : pdFindLeaf x q (N + 2) s = pdFindLeaf x q (N + 1) s1 := by rw [pdFindLeaf]; simp only [hf, hs]
        rw [findDemod_go _ hf, hl]
        cases hf1 : s1.frames with
        | nil =>
          rw [findDemod_end _ hf1] at hd
          have : pdFindLeaf x q (N + 1) s1 = some s1 := by rw [pdFindLeaf]; simp only [hf1]
          rw [this]
          exact (findDemod_end _ hf1).trans hd
        | cons a b =>
          rw [findDemod_go _ hf1] at hd
          split at hd
          · cases hd
          · next s' hs' =>
            rw [findLeaf_mono (show N ≤ N + 1 by omega) hs']
            exact findDemod_mono (by omega) hd
    refine ⟨N + 3, ?_⟩
    rw [pdAll]
    split at hN
    · cases hN
    · next s' _ hd => rw [key hd]; exact hN
    · next e s' st' hd =>
      rw [key hd]
      split at hN
      · cases hN
      · next l z hl => simp only [pdAll_mono (show N ≤ N + 2 by omega) hl]; exact hN

theorem pdAll_stop {x : PDCtx} {q : PDQuery} {s s1 : PDSt} {fr rest r} (hf : s.frames = fr :: rest)
    (hs : pdStep x q s fr rest = (s1, true)) (h : ∃ N, pdAll x q N s1 s1.topEnts = some r) : ∃ N, pdAll x q N s [] = some r := by
  obtain ⟨N, hN⟩ := h
  cases N with
  | zero => simp [pdAll] at hN
  | succ N =>
    rw [pdAll] at hN
    have key : ∀ {d}, pdFindDemod x q N s1 s1.topEnts = some d → pdFindDemod x q (N + 2) s [] = some d := by
      intro d hd
      have hl : pdFindLeaf x q (N + 1) s = some s1 := by rw [pdFindLeaf]; simp only [hf, hs]
      rw [findDemod_go _ hf, hl]
      exact findDemod_mono (by omega) hd
    refine ⟨N + 3, ?_⟩
    rw [pdAll]
    split at hN
    · cases hN
    · next s' _ hd => rw [key hd]; exact hN
    · next e s' st' hd =>
      rw [key hd]
      split at hN
      · cases hN
      · next l z hl => simp only [pdAll_mono (show N ≤ N + 2 by omega) hl]; exact hN

theorem steps_all {x : PDCtx} {q : PDQuery} {s s' : PDSt} {em} (h : PDSteps x q s em s') (hend : s'.frames = []) :
    ∃ N, pdAll x q N s [] = some (em, s') := by
  induction h with
  | refl s => exact ⟨2, by simp [pdAll, pdFindDemod, hend]⟩
  | @step s fr rest s1 b em s2 hf hs hrest ih =>
    have ih := ih hend
    cases b with
    | false => exact pdAll_skip hf hs (by simpa using ih)
    | true =>
      refine pdAll_stop hf hs ?_
      cases hf1 : s1.frames with
      | nil =>
        have : s1.topEnts = [] := by simp [PDSt.topEnts, hf1]
        rw [this]; simpa using ih
      | cons a b => simpa using pdAll_store hf1 s1.topEnts ih

/-! ## Searches that are abandoned -/

theorem step_keeps {x : PDCtx} {q : PDQuery} {root : PDNode} (hw : WF root) {s s1 : PDSt} {fr rest b}
    (hf : s.frames = fr :: rest) (hfr : ∀ fr ∈ s.frames, At root fr.path fr.node ∧ (∀ y c, (y, c) ∈ toL fr.vrest → (y, c) ∈ toL fr.node.va))
    (hc : Caches root s) (hs : pdStep x q s fr rest = (s1, b)) :
    (∀ fr ∈ s1.frames, At root fr.path fr.node ∧ (∀ y c, (y, c) ∈ toL fr.vrest → (y, c) ∈ toL fr.node.va)) ∧ Caches root s1 := by
  have hfr0 := hfr fr (by rw [hf]; simp)
  have hrest : ∀ g ∈ rest, At root g.path g.node ∧ (∀ y c, (y, c) ∈ toL g.vrest → (y, c) ∈ toL g.node.va) :=
    fun g hg => hfr g (by rw [hf]; simp [hg])
  obtain ⟨h1, h2, h3⟩ := verify_spec x q hw hfr0.1 hc
  have henter : ∀ k c, fr.node.child k = some c → ∀ prev, At root (pdEnter q (k :: fr.path) c prev).path (pdEnter q (k :: fr.path) c prev).node ∧
      (∀ y d, (y, d) ∈ toL (pdEnter q (k :: fr.path) c prev).vrest → (y, d) ∈ toL (pdEnter q (k :: fr.path) c prev).node.va) := by
    intro k c hk prev
    refine ⟨.child hfr0.1 hk, fun y d h => ?_⟩
    simp only [pdEnter] at h ⊢
    split at h
    · simp [toL] at h
    · exact h
  have hgo : ∀ (phases : List PDPhase) (s0 : PDSt) (g : PDFrame) t tl, g.path = fr.path → g.node = fr.node →
      (∀ y c, (y, c) ∈ toL g.vrest → (y, c) ∈ toL fr.node.va) → Caches root s0 →
      (∀ g' ∈ (pdGo x q s0 rest t tl phases g).frames, At root g'.path g'.node ∧ (∀ y c, (y, c) ∈ toL g'.vrest → (y, c) ∈ toL g'.node.va)) ∧
      Caches root (pdGo x q s0 rest t tl phases g) := by
    intro phases
    induction phases with
    | nil =>
      intro s0 g t tl hp hn hv hc0
      refine ⟨fun g' hg' => ?_, ⟨hc0.size, hc0.age⟩⟩
      simp only [pdGo, List.mem_cons] at hg'
      rcases hg' with rfl | hg'
      · rw [hp, hn]; exact ⟨hfr0.1, hv⟩
      · exact hrest g' hg'
    | cons ph more ih =>
      intro s0 g t tl hp hn hv hc0
      cases ph with
      | syms =>
        have hv' : ∀ y c, (y, c) ∈ toL (pdNextVars more g.node.va g.vrest) → (y, c) ∈ toL fr.node.va := by
          intro y c h
          simp only [pdNextVars] at h
          split at h
          · rw [hn] at h; exact h
          · exact hv y c h
        simp only [pdGo]
        split
        · exact ih s0 _ _ tl hp hn hv' hc0
        · next f us =>
          split
          · exact ih s0 _ _ tl hp hn hv' hc0
          · next c hg =>
            refine ⟨fun g' hg' => ?_, ⟨hc0.size, hc0.age⟩⟩
            simp only [List.mem_cons] at hg'
            rcases hg' with rfl | rfl | hg'
            · rw [hp]
              exact henter (.sym f) c (by rw [← hn]; exact hg) _
            · simp only [hp, hn]; rw [hn] at hv'; exact ⟨hfr0.1, hv'⟩
            · exact hrest g' hg'
      | vars =>
        simp only [pdGo]
        split
        · next y c sub' r htv =>
          obtain ⟨-, ⟨pre, h4⟩, -⟩ := tryVars_some (q := q) tl s0.w htv
          refine ⟨fun g' hg' => ?_, ⟨hc0.size, hc0.age⟩⟩
          simp only [List.mem_cons] at hg'
          rcases hg' with rfl | rfl | hg'
          · rw [hp]
            have hwn := hfr0.1.wf hw
            refine henter (.var y) c ?_ _
            have hm := hv y c (by rw [h4]; simp)
            rcases hfn : fr.node with ⟨l, rr, es, fa, va⟩
            rw [hfn] at hwn hm
            exact toL_get hwn.2.2 hm
          · simp only [hp, hn]
            exact ⟨hfr0.1, fun y c h => hv y c (by rw [h4]; exact List.mem_append_right _ (List.mem_cons_of_mem _ h))⟩
          · exact hrest g' hg'
        · next r htv =>
          obtain ⟨-, rfl⟩ := tryVars_none (q := q) tl s0.w htv
          exact ih s0 { g with st := g.st + 1, vrest := .nil } t tl hp hn (by simp [toL]) hc0
  simp only [pdStep] at hs
  split at hs
  · cases hs
    simp only [pdBacktrack]
    split <;> exact ⟨hrest, ⟨h3.size, h3.age⟩⟩
  · split at hs
    · cases hs
      refine ⟨fun g hg => ?_, ⟨h3.size, h3.age⟩⟩
      simp only [List.mem_cons] at hg
      rcases hg with rfl | hg
      · exact hfr0
      · exact hrest g hg
    · cases hs
      simp only [pdForward]
      split
      · refine ⟨fun g hg => ?_, ⟨h3.size, h3.age⟩⟩
        simp only [List.mem_cons] at hg
        rcases hg with rfl | hg
        · exact ⟨hfr0.1, by simp [toL]⟩
        · exact hrest g hg
      · exact hgo _ _ fr _ _ rfl rfl hfr0.2 h3

theorem steps_keep {x : PDCtx} {q : PDQuery} {root : PDNode} (hw : WF root) {s s' : PDSt} {em} (h : PDSteps x q s em s')
    (hfr : ∀ fr ∈ s.frames, At root fr.path fr.node ∧ (∀ y c, (y, c) ∈ toL fr.vrest → (y, c) ∈ toL fr.node.va))
    (hc : Caches root s) : Caches root s' := by
  induction h with
  | refl => exact hc
  | step hf hs _ ih =>
    obtain ⟨h1, h2⟩ := step_keeps hw hf hfr hc hs
    exact ih h1 h2

end Verif.PDProof
