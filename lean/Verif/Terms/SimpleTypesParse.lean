import Verif.Terms.SimpleTypesProof

/-!
# Types: the parser follows the grammar
-/

namespace Verif.STyProof
open Verif

variable {N N' : TNames} {ar : Nat → Nat}

/-! ## Sizes (fuel) -/

mutual
def sglSize : SglE → Nat
  | .mk _ ss => 2 + sglSizeL ss
def sglSizeL : List SglE → Nat
  | [] => 0
  | s :: ss => 1 + sglSize s + sglSizeL ss
end

def tySize : TyE → Nat
  | .sgl s => sglSize s + 4
  | .par e => tySize e + 6
  | .fnS s e => sglSize s + tySize e + 6
  | .fnP a e => tySize a + tySize e + 8

/-! ## Names -/

theorem tcCode_ok (hN : N.OK ar) {x : Nat} (hx : x ≠ 0) : ∃ c N', tcCode N x (ar x) = some (c, N') ∧ N <+: N' ∧ N'.OK ar ∧
    N'[c]? = some (x, ar x) ∧ c ≠ 0 ∧ (c = 3 → x = 3) ∧ (x ∈ N.map (·.1) → N' = N) := by
  obtain ⟨k0, h0⟩ := hN.arrow
  obtain ⟨k3, h3⟩ := hN.kind
  cases hf : N.findIdx? (·.1 == x) with
  | none =>
    have hno : x ∉ N.map (·.1) := by
      intro hm
      obtain ⟨p, hp, e⟩ := List.mem_map.1 hm
      have := List.findIdx?_eq_none_iff.1 hf p hp
      simp [e] at this
    refine ⟨N.length, N ++ [(x, ar x)], by simp [tcCode, hf], List.prefix_append _ _, ?_, by simp, ?_, ?_, fun h => absurd h hno⟩
    · refine ⟨?_, ?_, ⟨k0, getElem?_prefix (List.prefix_append _ _) h0⟩, ⟨k3, getElem?_prefix (List.prefix_append _ _) h3⟩⟩
      · rw [List.map_append]
        exact List.nodup_append.2 ⟨hN.nodup, by simp, by
          intro a ha b hb
          simp only [List.map_cons, List.map_nil, List.mem_singleton] at hb
          subst hb
          exact fun e => hno (e ▸ ha)⟩
      · intro p hp
        rcases List.mem_append.1 hp with hp | hp
        · exact hN.arity p hp
        · rw [List.mem_singleton.1 hp]
    · have := (List.getElem?_eq_some_iff.1 h0).1; omega
    · have := (List.getElem?_eq_some_iff.1 h3).1; intro e; omega
  | some c =>
    obtain ⟨hlt, hp, -⟩ := List.findIdx?_eq_some_iff_getElem.1 hf
    have hc : N[c]? = some (N[c].1, N[c].2) := by simp [hlt]
    have hx' : N[c].1 = x := by simpa using hp
    have har : N[c].2 = ar x := by rw [← hx']; exact hN.arity _ (List.getElem_mem hlt)
    rw [hx', har] at hc
    refine ⟨c, N, by simp [tcCode, hf, hc], List.prefix_rfl, hN, hc, ?_, ?_, fun _ => rfl⟩
    · rintro rfl
      rw [h0] at hc
      simp only [Option.some.injEq, Prod.mk.injEq] at hc
      exact hx hc.1.symm
    · rintro rfl
      rw [h3] at hc
      simp only [Option.some.injEq, Prod.mk.injEq] at hc
      exact hc.1.symm

/-! ## Single types -/

theorem sgl_toks (s : SglE) : ∃ x r, s.toks = .name x :: r := by
  obtain ⟨x, ss⟩ := s
  simp only [SglE.toks]
  split
  · exact ⟨_, _, rfl⟩
  · exact ⟨_, _, rfl⟩

theorem toksL_cons2 (s u : SglE) (ss : List SglE) : SglE.toksL (s :: u :: ss) = s.toks ++ .comma :: SglE.toksL (u :: ss) := rfl

theorem parseSingle_const {n x : Nat} {rest : List TTok} (h : rest.head? ≠ some .lpar) :
    parseSingle (n + 1) (.name x :: rest) N = (tcCode N x 0).map fun p => (.con p.1 [], rest, p.2) := by
  match rest with
  | [] => rfl
  | t :: r =>
    cases t with
    | lpar => simp at h
    | _ => rfl

structure SRes (ar : Nat → Nat) (N : TNames) (s : SglE) (t : STy) (N' : TNames) : Prop where
  pre : N <+: N'
  ok : N'.OK ar
  wf : t.WF N'
  narr : t.isArrow = false
  kind : t.code = 3 → s.head = 3
  den : t.den N' = s.den
  same : s.In N → N' = N

structure SResL (ar : Nat → Nat) (N : TNames) (ss : List SglE) (ts : List STy) (N' : TNames) : Prop where
  pre : N <+: N'
  ok : N'.OK ar
  wf : STy.WFL N' ts
  all : ∀ t ∈ ts, t.isArrow = false ∧ t.code ≠ 3
  len : ts.length = ss.length
  den : STy.denL N' ts = SglE.denL ss
  same : SglE.InL N ss → N' = N

mutual
theorem parseSingle_ok : ∀ (s : SglE) (N : TNames) (n : Nat) (rest : List TTok), s.OK ar → N.OK ar → sglSize s ≤ n →
    rest.head? ≠ some .lpar → ∃ t N', parseSingle n (s.toks ++ rest) N = some (t, rest, N') ∧ SRes ar N s t N'
  | .mk x [], N, n, rest, hs, hN, hn, hr => by
    simp only [SglE.OK, List.length_nil] at hs
    obtain ⟨c, N', h1, h2, h3, h4, h5, h6, h7⟩ := tcCode_ok hN hs.1
    obtain ⟨m, rfl⟩ : ∃ m, n = m + 1 := ⟨n - 1, by simp only [sglSize] at hn; omega⟩
    refine ⟨.con c [], N', ?_, h2, h3, ?_, by simp [STy.isArrow, STy.code, h5], by simpa [STy.code, SglE.head] using h6, ?_, ?_⟩
    · rw [SglE.toks, if_pos (by simp), List.singleton_append, parseSingle_const hr, hs.2.1, h1]
      rfl
    · simp [STy.WF, STy.WFL, h5, h4, ← hs.2.1]
    · simp [STy.den, h5, tcName, h4, STy.denL, SglE.den, SglE.denL]
    · simp only [SglE.In, and_imp]
      exact fun h _ => h7 h
  | .mk x (s :: ss), N, n, rest, hs, hN, hn, hr => by
    simp only [SglE.OK] at hs
    obtain ⟨m, rfl⟩ : ∃ m, n = m + 1 := ⟨n - 1, by simp only [sglSize] at hn; omega⟩
    obtain ⟨ts, N1, h1, r1⟩ := parseTypeArgs_ok (s :: ss) N m (.rpar :: rest) hs.2.2 hN (by simp only [sglSize] at hn; omega) (by simp)
      (by simp) (by simp)
    obtain ⟨c, N', g1, g2, g3, g4, g5, g6, g7⟩ := tcCode_ok r1.ok hs.1
    have hl : ts.length = ar x := r1.len.trans hs.2.1
    refine ⟨.con c ts, N', ?_, r1.pre.trans g2, g3, ?_, by simp [STy.isArrow, STy.code, g5], by simpa [STy.code, SglE.head] using g6, ?_, ?_⟩
    · rw [SglE.toks, if_neg (by simp)]
      simp only [List.cons_append, List.append_assoc, List.nil_append, parseSingle, h1, Option.bind_some, hl, g1, Option.map_some]
    · simp only [STy.WF, if_neg g5]
      exact ⟨wfL_prefix g2 _ r1.wf, by simp [g4, hl], r1.all⟩
    · simp only [STy.den, if_neg g5, tcName, g4, Option.map_some, Option.getD_some, SglE.den]
      rw [denL_prefix g2 _ r1.wf, r1.den]
    · intro hin
      have e1 := r1.same (by simp only [SglE.In] at hin; exact hin.2)
      subst e1
      exact g7 (by simp only [SglE.In] at hin; exact hin.1)
theorem parseTypeArgs_ok : ∀ (ss : List SglE) (N : TNames) (n : Nat) (rest : List TTok), SglE.OKL ar ss → N.OK ar → sglSizeL ss ≤ n →
    ss ≠ [] → rest.head? ≠ some .lpar → rest.head? ≠ some .comma →
    ∃ ts N', parseTypeArgs n (SglE.toksL ss ++ rest) N = some (ts, rest, N') ∧ SResL ar N ss ts N'
  | [], _, _, _, _, _, _, h, _, _ => absurd rfl h
  | [s], N, n, rest, hs, hN, hn, _, hr, hc => by
    obtain ⟨m, rfl⟩ : ∃ m, n = m + 1 := ⟨n - 1, by simp only [sglSizeL] at hn; omega⟩
    obtain ⟨t, N1, h1, r1⟩ := parseSingle_ok s N m rest hs.1 hN (by simp only [sglSizeL] at hn; omega) hr
    have hk : t.code ≠ 3 := fun e => hs.2.1 (r1.kind e)
    refine ⟨[t], N1, ?_, r1.pre, r1.ok, ⟨r1.wf, trivial⟩, by simpa using ⟨r1.narr, hk⟩, rfl, by simp [STy.denL, SglE.denL, r1.den], ?_⟩
    · rw [SglE.toksL, parseTypeArgs, h1]
      simp only [Option.bind_some, if_neg hk]
      match rest with
      | [] => rfl
      | t :: r =>
        cases t with
        | comma => simp at hc
        | _ => rfl
    · intro hin
      exact r1.same hin.1
  | s :: u :: ss, N, n, rest, hs, hN, hn, _, hr, hc => by
    obtain ⟨m, rfl⟩ : ∃ m, n = m + 1 := ⟨n - 1, by simp only [sglSizeL] at hn; omega⟩
    obtain ⟨t, N1, h1, r1⟩ := parseSingle_ok s N m (.comma :: SglE.toksL (u :: ss) ++ rest) hs.1 hN (by simp only [sglSizeL] at hn; omega) (by simp)
    have hk : t.code ≠ 3 := fun e => hs.2.1 (r1.kind e)
    obtain ⟨ts, N2, h2, r2⟩ := parseTypeArgs_ok (u :: ss) N1 m rest hs.2.2 r1.ok (by simp only [sglSizeL] at hn ⊢; omega) (by simp) hr hc
    refine ⟨t :: ts, N2, ?_, r1.pre.trans r2.pre, r2.ok, ⟨wf_prefix r2.pre _ r1.wf, r2.wf⟩, ?_, by simp [r2.len], ?_, ?_⟩
    · rw [toksL_cons2, parseTypeArgs, List.append_assoc, List.cons_append]
      rw [List.cons_append] at h1
      rw [h1]
      simp only [Option.bind_some, if_neg hk, h2, Option.map_some]
    · intro x hx
      rcases List.mem_cons.1 hx with rfl | hx
      · exact ⟨r1.narr, hk⟩
      · exact r2.all x hx
    · rw [STy.denL, SglE.denL, r2.den, den_prefix r2.pre _ r1.wf, r1.den]
    · intro hin
      have e1 := r1.same hin.1
      subst e1
      exact r2.same hin.2
end

/-! ## Type expressions -/

structure TRes (ar : Nat → Nat) (N : TNames) (e : TyE) (t : STy) (N' : TNames) : Prop where
  pre : N <+: N'
  ok : N'.OK ar
  wf : t.WF N'
  den : t.den N' = e.den
  same : e.In N → N' = N

structure LRes (ar : Nat → Nat) (N : TNames) (acc : List STy) (e : TyE) (t : STy) (N' : TNames) : Prop where
  pre : N <+: N'
  ok : N'.OK ar
  wf : t.WF N'
  den : t.den N' = CTy.curry (acc.map (STy.den N)) e.den
  same : e.In N → N' = N

theorem end2_end1 {t : TTok} (h : t.isEnd2 = true) : t.isEnd1 = true := by cases t <;> simp_all [TTok.isEnd1, TTok.isEnd2]

theorem end2_lpar {t : TTok} (h : t.isEnd2 = true) (r : List TTok) : (t :: r).head? ≠ some .lpar := by
  rintro ⟨⟩
  simp [TTok.isEnd2] at h

theorem parseLeft_sgl (s : SglE) (n : Nat) (r : List TTok) : parseLeft (n + 1) (s.toks ++ r) N = parseSingle n (s.toks ++ r) N := by
  obtain ⟨x, q, hq⟩ := sgl_toks s
  rw [hq]
  rfl

theorem parseRight_sgl (s : SglE) (n : Nat) (r : List TTok) : parseRight (n + 1) (s.toks ++ r) N = parseHO n (s.toks ++ r) N := by
  obtain ⟨x, q, hq⟩ := sgl_toks s
  rw [hq]
  rfl

theorem map_den_prefix {acc : List STy} (h : N <+: N') (hw : STy.WFL N acc) : acc.map (STy.den N') = acc.map (STy.den N) :=
  List.map_congr_left fun t ht => den_prefix h t (wfL_iff.1 hw t ht)

theorem parse_ok (e : TyE) : e.OK ar →
    (∀ (N : TNames) (n : Nat) (t : TTok) (rest : List TTok), N.OK ar → tySize e ≤ n → t.isEnd2 = true →
      ∃ ty N', parseHO n (e.toks ++ t :: rest) N = some (ty, t :: rest, N') ∧ TRes ar N e ty N') ∧
    (∀ (N : TNames) (n : Nat) (acc : List STy) (t : TTok) (rest : List TTok), N.OK ar → tySize e + 2 ≤ n → STy.WFL N acc → t.isEnd2 = true →
      ∃ ty N', parseLoop n acc (.gt :: (e.toks ++ t :: rest)) N = some (ty, t :: rest, N') ∧ LRes ar N acc e ty N') := by
  induction e with
  | sgl s =>
    intro hs
    have P : ∀ (N : TNames) (n : Nat) (t : TTok) (rest : List TTok), N.OK ar → tySize (.sgl s) ≤ n → t.isEnd2 = true →
        ∃ ty N', parseHO n (s.toks ++ t :: rest) N = some (ty, t :: rest, N') ∧ TRes ar N (.sgl s) ty N' := by
      intro N n t rest hN hn ht
      obtain ⟨m, rfl⟩ : ∃ m, n = m + 2 := ⟨n - 2, by simp only [tySize] at hn; omega⟩
      obtain ⟨ty, N', h1, r1⟩ := parseSingle_ok s N m (t :: rest) hs hN (by simp only [tySize] at hn; omega) (end2_lpar ht _)
      refine ⟨ty, N', ?_, r1.pre, r1.ok, r1.wf, r1.den, r1.same⟩
      rw [parseHO, parseLeft_sgl, h1]
      simp [end2_end1 ht]
    refine ⟨P, ?_⟩
    intro N n acc t rest hN hn hw ht
    obtain ⟨m, rfl⟩ : ∃ m, n = m + 2 := ⟨n - 2, by simp only [tySize] at hn; omega⟩
    obtain ⟨ty, N', h1, r1⟩ := P N m t rest hN (by omega) ht
    obtain ⟨f1, f2⟩ := finishArrow_ok (wfL_prefix r1.pre _ hw) r1.wf
    refine ⟨finishArrow (acc ++ [ty]), N', ?_, r1.pre, r1.ok, f1, by rw [f2, map_den_prefix r1.pre hw, r1.den], r1.same⟩
    rw [parseLoop, TyE.toks, parseRight_sgl, h1]
    simp [ht]
  | par e ih =>
    intro he
    obtain ⟨P, -⟩ := ih he
    constructor
    · intro N n t rest hN hn ht
      obtain ⟨m, rfl⟩ : ∃ m, n = m + 2 := ⟨n - 2, by simp only [tySize] at hn; omega⟩
      obtain ⟨ty, N', h1, r1⟩ := P N m .rpar (t :: rest) hN (by simp only [tySize] at hn; omega) rfl
      refine ⟨ty, N', ?_, r1.pre, r1.ok, r1.wf, r1.den, r1.same⟩
      rw [TyE.toks, parseHO]
      simp only [List.cons_append, List.append_assoc, List.nil_append, parseLeft, h1, Option.bind_some, end2_end1 ht, if_true]
    · intro N n acc t rest hN hn hw ht
      obtain ⟨m, rfl⟩ : ∃ m, n = m + 2 := ⟨n - 2, by simp only [tySize] at hn; omega⟩
      obtain ⟨ty, N', h1, r1⟩ := P N m .rpar (t :: rest) hN (by simp only [tySize] at hn; omega) rfl
      obtain ⟨f1, f2⟩ := finishArrow_ok (wfL_prefix r1.pre _ hw) r1.wf
      refine ⟨finishArrow (acc ++ [ty]), N', ?_, r1.pre, r1.ok, f1, by rw [f2, map_den_prefix r1.pre hw, r1.den]; rfl, r1.same⟩
      rw [TyE.toks, parseLoop]
      simp only [List.cons_append, List.append_assoc, List.nil_append, parseRight, h1, Option.bind_some, ht, if_true]
  | fnS s e ih =>
    intro he
    obtain ⟨-, Q⟩ := ih he.2
    have P : ∀ (N : TNames) (n : Nat) (t : TTok) (rest : List TTok), N.OK ar → tySize (.fnS s e) ≤ n → t.isEnd2 = true →
        ∃ ty N', parseHO n ((TyE.fnS s e).toks ++ t :: rest) N = some (ty, t :: rest, N') ∧ TRes ar N (.fnS s e) ty N' := by
      intro N n t rest hN hn ht
      obtain ⟨m, rfl⟩ : ∃ m, n = m + 2 := ⟨n - 2, by simp only [tySize] at hn; omega⟩
      obtain ⟨l, N1, h1, r1⟩ := parseSingle_ok s N m (.gt :: (e.toks ++ t :: rest)) he.1 hN (by simp only [tySize] at hn; omega) (by simp)
      obtain ⟨ty, N', h2, r2⟩ := Q N1 (m + 1) [l] t rest r1.ok (by simp only [tySize] at hn; omega) ⟨r1.wf, trivial⟩ ht
      refine ⟨ty, N', ?_, r1.pre.trans r2.pre, r2.ok, r2.wf, ?_, ?_⟩
      · rw [TyE.toks, parseHO, List.append_assoc, List.cons_append, parseLeft_sgl, h1]
        simp only [Option.bind_some, TTok.isEnd1, Bool.false_eq_true, if_false, h2]
      · rw [r2.den, List.map_singleton, r1.den]
        rfl
      · intro hin
        have e1 := r1.same hin.1
        subst e1
        exact r2.same hin.2
    refine ⟨P, ?_⟩
    intro N n acc t rest hN hn hw ht
    obtain ⟨m, rfl⟩ : ∃ m, n = m + 2 := ⟨n - 2, by simp only [tySize] at hn; omega⟩
    obtain ⟨ty, N', h1, r1⟩ := P N m t rest hN (by omega) ht
    obtain ⟨f1, f2⟩ := finishArrow_ok (wfL_prefix r1.pre _ hw) r1.wf
    refine ⟨finishArrow (acc ++ [ty]), N', ?_, r1.pre, r1.ok, f1, by rw [f2, map_den_prefix r1.pre hw, r1.den], r1.same⟩
    rw [TyE.toks, List.append_assoc, List.cons_append] at h1 ⊢
    rw [parseLoop, parseRight_sgl, h1]
    simp [ht]
  | fnP a e iha ih =>
    intro he
    obtain ⟨Pa, -⟩ := iha he.1
    obtain ⟨-, Q⟩ := ih he.2
    constructor
    · intro N n t rest hN hn ht
      obtain ⟨m, rfl⟩ : ∃ m, n = m + 2 := ⟨n - 2, by simp only [tySize] at hn; omega⟩
      obtain ⟨l, N1, h1, r1⟩ := Pa N m .rpar (.gt :: (e.toks ++ t :: rest)) hN (by simp only [tySize] at hn; omega) rfl
      obtain ⟨ty, N', h2, r2⟩ := Q N1 (m + 1) [l] t rest r1.ok (by simp only [tySize] at hn; omega) ⟨r1.wf, trivial⟩ ht
      refine ⟨ty, N', ?_, r1.pre.trans r2.pre, r2.ok, r2.wf, ?_, ?_⟩
      · rw [TyE.toks, parseHO]
        simp only [List.cons_append, List.append_assoc, parseLeft, h1, Option.bind_some, TTok.isEnd1, Bool.false_eq_true, if_false, h2]
      · rw [r2.den, List.map_singleton, r1.den]
        rfl
      · intro hin
        have e1 := r1.same hin.1
        subst e1
        exact r2.same hin.2
    · intro N n acc t rest hN hn hw ht
      obtain ⟨m, rfl⟩ : ∃ m, n = m + 2 := ⟨n - 2, by simp only [tySize] at hn; omega⟩
      obtain ⟨l, N1, h1, r1⟩ := Pa N m .rpar (.gt :: (e.toks ++ t :: rest)) hN (by simp only [tySize] at hn; omega) rfl
      obtain ⟨ty, N', h2, r2⟩ := Q N1 (m + 1) (acc ++ [l]) t rest r1.ok (by simp only [tySize] at hn; omega)
        (wfL_append.2 ⟨wfL_prefix r1.pre _ hw, r1.wf, trivial⟩) ht
      refine ⟨ty, N', ?_, r1.pre.trans r2.pre, r2.ok, r2.wf, ?_, ?_⟩
      · rw [TyE.toks, parseLoop]
        simp only [List.cons_append, List.append_assoc, parseRight, h1, Option.bind_some, TTok.isEnd2, Bool.false_eq_true, if_false, h2]
      · rw [r2.den, List.map_append, map_den_prefix r1.pre hw, List.map_singleton, r1.den]
        generalize acc.map (STy.den N) = l
        induction l with
        | nil => rfl
        | cons b l ih => rw [List.cons_append, CTy.curry, ih]; rfl
      · intro hin
        have e1 := r1.same hin.1
        subst e1
        exact r2.same hin.2

end Verif.STyProof
