import Verif.Terms.SimpleTypesParse

/-!
# Types: printed types are expressions of the grammar; sharing
-/

namespace Verif.STyProof
open Verif

variable {N N' : TNames} {ar : Nat → Nat}

/- The expression printed for a type. -/
mutual
def toS (N : TNames) : STy → SglE
  | .con c ts => .mk (tcName N c) (toSL N ts)
def toSL (N : TNames) : List STy → List SglE
  | [] => []
  | t :: ts => toS N t :: toSL N ts
end

mutual
def toE (N : TNames) : STy → TyE
  | .con c ts => if c = 0 then toArrow N ts else .sgl (toS N (.con c ts))
def toArrow (N : TNames) : List STy → TyE
  | [] => .sgl (.mk 0 [])
  | [t] => toE N t
  | t :: ts => if t.isArrow then .fnP (toE N t) (toArrow N ts) else .fnS (toS N t) (toArrow N ts)
end

theorem toSL_length (ts : List STy) : (toSL N ts).length = ts.length := by
  induction ts with
  | nil => rfl
  | cons t ts ih => simp [toSL, ih]

theorem wf_con {c : Nat} {ts : List STy} (h : (STy.con c ts).WF N) (hc : c ≠ 0) :
    STy.WFL N ts ∧ (N[c]?.map (·.2)) = some ts.length ∧ ∀ t ∈ ts, t.isArrow = false ∧ t.code ≠ 3 := by
  simpa [STy.WF, hc] using h

mutual
theorem toS_ok (hN : N.OK ar) : ∀ t : STy, t.WF N → t.isArrow = false →
    (toS N t).toks = printHO N t ∧ (toS N t).den = t.den N ∧ (toS N t).OK ar ∧ (toS N t).In N ∧ ((toS N t).head = 3 → t.code = 3)
  | .con c ts, hw, ha => by
    have hc : c ≠ 0 := by simpa [STy.isArrow, STy.code] using ha
    obtain ⟨h1, h2, h3⟩ := wf_con hw hc
    obtain ⟨x, hx⟩ := code_ok h2
    have hname : tcName N c = x := by simp [tcName, hx]
    have hmem : (x, ts.length) ∈ N := List.mem_of_getElem? hx
    obtain ⟨g1, g2, g3, g4⟩ := toSL_ok hN ts h1 h3
    obtain ⟨k0, h0⟩ := hN.arrow
    obtain ⟨k3, h30⟩ := hN.kind
    have uniq : ∀ d y k l, N[c]? = some (y, k) → N[d]? = some (y, l) → c = d := by
      intro d y k l hc' hd
      refine name_inj hN.nodup (k := k) (l := l) (by simp [hc']) (by simp [hd]) (by simp [tcName, hc', hd])
    refine ⟨?_, ?_, ?_, ?_, ?_⟩
    · simp only [toS, SglE.toks, printHO, if_neg hc]
      cases ts with
      | nil => rfl
      | cons a l =>
        rw [if_neg (by simp [toSL]), if_neg (by simp), g1]
    · simp only [toS, SglE.den, STy.den, if_neg hc, g2]
    · simp only [toS, SglE.OK]
      refine ⟨?_, ?_, g3⟩
      · rw [hname]
        rintro rfl
        exact hc (uniq 0 0 _ _ hx h0)
      · rw [toSL_length, hname]
        exact hN.arity _ hmem
    · simp only [toS, SglE.In]
      exact ⟨by rw [hname]; exact List.mem_map_of_mem (f := (·.1)) hmem, g4⟩
    · simp only [toS, SglE.head, STy.code, hname]
      rintro rfl
      exact uniq 3 3 _ _ hx h30
theorem toSL_ok (hN : N.OK ar) : ∀ ts : List STy, STy.WFL N ts → (∀ t ∈ ts, t.isArrow = false ∧ t.code ≠ 3) →
    SglE.toksL (toSL N ts) = printArgs N ts ∧ SglE.denL (toSL N ts) = STy.denL N ts ∧ SglE.OKL ar (toSL N ts) ∧ SglE.InL N (toSL N ts)
  | [], _, _ => ⟨rfl, rfl, trivial, trivial⟩
  | [t], hw, ha => by
    obtain ⟨h1, h2, h3, h4, h5⟩ := toS_ok hN t hw.1 (ha t (by simp)).1
    exact ⟨h1, by simp [toSL, SglE.denL, STy.denL, h2], ⟨h3, fun e => (ha t (by simp)).2 (h5 e), trivial⟩, h4, trivial⟩
  | t :: u :: ts, hw, ha => by
    obtain ⟨h1, h2, h3, h4, h5⟩ := toS_ok hN t hw.1 (ha t (by simp)).1
    obtain ⟨g1, g2, g3, g4⟩ := toSL_ok hN (u :: ts) hw.2 fun x hx => ha x (List.mem_cons_of_mem _ hx)
    refine ⟨?_, ?_, ⟨h3, fun e => (ha t (by simp)).2 (h5 e), g3⟩, h4, g4⟩
    · show (toS N t).toks ++ .comma :: SglE.toksL (toSL N (u :: ts)) = printHO N t ++ .comma :: printArgs N (u :: ts)
      rw [h1, g1]
    · rw [toSL, SglE.denL, STy.denL, h2, g2]
end

theorem toArrow_cons2 (t u : STy) (ts : List STy) :
    toArrow N (t :: u :: ts) = if t.isArrow then .fnP (toE N t) (toArrow N (u :: ts)) else .fnS (toS N t) (toArrow N (u :: ts)) := rfl

theorem printArrow_cons2 (t u : STy) (ts : List STy) :
    printArrow N (t :: u :: ts) = (if t.isArrow then .lpar :: printHO N t ++ [.rpar] else printHO N t) ++ .gt :: printArrow N (u :: ts) := rfl

mutual
theorem toE_ok (hN : N.OK ar) : ∀ t : STy, t.WF N →
    (toE N t).toks = printHO N t ∧ (toE N t).den = t.den N ∧ (toE N t).OK ar ∧ (toE N t).In N
  | .con c ts, hw => by
    by_cases hc : c = 0
    · subst hc
      obtain ⟨h1, h2, -⟩ := wf_arrow (t := .con 0 ts) rfl hw
      exact toArrow_ok hN ts h1 (by rintro rfl; simp [STy.args] at h2)
    · obtain ⟨h1, h2, h3, h4, -⟩ := toS_ok hN (.con c ts) hw (by simp [STy.isArrow, STy.code, hc])
      simp only [toE, if_neg hc]
      exact ⟨h1, h2, h3, h4⟩
theorem toArrow_ok (hN : N.OK ar) : ∀ ts : List STy, STy.WFL N ts → ts ≠ [] →
    (toArrow N ts).toks = printArrow N ts ∧ (toArrow N ts).den = STy.denArrow N ts ∧ (toArrow N ts).OK ar ∧ (toArrow N ts).In N
  | [], _, h => absurd rfl h
  | [t], hw, _ => toE_ok hN t hw.1
  | t :: u :: ts, hw, _ => by
    obtain ⟨g1, g2, g3, g4⟩ := toArrow_ok hN (u :: ts) hw.2 (by simp)
    rw [toArrow_cons2, printArrow_cons2, denArrow_cons2]
    by_cases ha : t.isArrow
    · obtain ⟨h1, h2, h3, h4⟩ := toE_ok hN t hw.1
      rw [if_pos ha, if_pos ha]
      exact ⟨by simp [TyE.toks, h1, g1], by rw [TyE.den, h2, g2], ⟨h3, g3⟩, h4, g4⟩
    · obtain ⟨h1, h2, h3, h4, -⟩ := toS_ok hN t hw.1 (by simpa using ha)
      rw [if_neg ha, if_neg ha]
      exact ⟨by simp [TyE.toks, h1, g1], by rw [TyE.den, h2, g2], ⟨h3, g3⟩, h4, g4⟩
end

/-- A printed single type is read back. -/
theorem single_print_parse (hN : N.OK ar) {t : STy} (hw : t.WF N) (ha : t.isArrow = false) {n : Nat} (hn : sglSize (toS N t) ≤ n)
    {rest : List TTok} (hr : rest.head? ≠ some .lpar) : parseSingle n (printHO N t ++ rest) N = some (t, rest, N) := by
  obtain ⟨h1, h2, h3, h4, -⟩ := toS_ok hN t hw ha
  obtain ⟨t', N', g, r⟩ := parseSingle_ok (toS N t) N n rest h3 hN hn hr
  have e := r.same h4
  subst e
  rw [← h1, g, den_inj hN.nodup t' t r.wf hw (r.den.trans h2)]

/-- A printed product is read back. -/
theorem product_print_parse (hN : N.OK ar) : ∀ {ts : List STy}, STy.WFL N ts → (∀ t ∈ ts, t.isArrow = false) → ts ≠ [] →
    ∀ {n : Nat}, sglSizeL (toSL N ts) ≤ n → ∀ {rest : List TTok}, rest.head? ≠ some .lpar → rest.head? ≠ some .star →
    parseProduct n (printProduct N ts ++ rest) N = some (ts, rest, N)
  | [], _, _, h, _, _, _, _, _ => absurd rfl h
  | [t], hw, ha, _, n, hn, rest, hr, hs => by
    obtain ⟨m, rfl⟩ : ∃ m, n = m + 1 := ⟨n - 1, by simp only [toSL, sglSizeL] at hn; omega⟩
    have h1 := single_print_parse hN hw.1 (ha t (by simp)) (n := m) (by simp only [toSL, sglSizeL] at hn; omega) hr
    rw [printProduct, parseProduct, h1]
    simp only [Option.bind_some]
    match rest with
    | [] => rfl
    | x :: r =>
      cases x with
      | star => simp at hs
      | _ => rfl
  | t :: u :: ts, hw, ha, _, n, hn, rest, hr, hs => by
    obtain ⟨m, rfl⟩ : ∃ m, n = m + 1 := ⟨n - 1, by simp only [toSL, sglSizeL] at hn; omega⟩
    have h1 := single_print_parse hN hw.1 (ha t (by simp)) (n := m) (by rw [toSL, sglSizeL] at hn; omega)
      (rest := .star :: (printProduct N (u :: ts) ++ rest)) (by simp)
    have h2 := product_print_parse hN hw.2 (fun x hx => ha x (List.mem_cons_of_mem _ hx)) (by simp) (n := m)
      (by rw [toSL, sglSizeL] at hn; omega) hr hs
    show parseProduct (m + 1) ((printHO N t ++ .star :: printProduct N (u :: ts)) ++ rest) N = _
    rw [List.append_assoc, List.cons_append, parseProduct, h1]
    simp only [Option.bind_some, h2, Option.map_some]

/-! ## Sharing -/

/-- The types of the cells of a bank, in the order of the cells. -/
def decodeStep (acc : List STy) (p : Nat × List Nat) : List STy := acc ++ [.con p.1 (p.2.map fun i => acc.getD i default)]

theorem decode_snoc (cs : List (Nat × List Nat)) (p : Nat × List Nat) :
    (cs ++ [p]).foldl decodeStep [] = decodeStep (cs.foldl decodeStep []) p := by rw [List.foldl_append]; rfl

/-- All cells are different, and refer to earlier ones. -/
structure BankOK (cs : List (Nat × List Nat)) : Prop where
  len : (cs.foldl decodeStep []).length = cs.length
  cell : ∀ (i : Nat) (p : Nat × List Nat), cs[i]? = some p → (∀ j ∈ p.2, j < i) ∧
    (cs.foldl decodeStep [])[i]? = some (.con p.1 (p.2.map fun j => (cs.foldl decodeStep []).getD j default))
  nodup : (cs.foldl decodeStep []).Nodup

theorem bankOK_nil : BankOK [] := ⟨rfl, by simp, by simp⟩

theorem getD_of {l : List STy} {i : Nat} {t : STy} (h : l[i]? = some t) : l.getD i default = t := by
  simp [List.getD, h]

theorem map_getD {l : List STy} {is : List Nat} {ts : List STy} (h : List.Forall₂ (fun i t => l[i]? = some t) is ts) :
    (is.map fun i => l.getD i default) = ts := by
  induction h with
  | nil => rfl
  | cons h _ ih => rw [List.map_cons, ih, getD_of h]

theorem forall2_getD {l : List STy} {is : List Nat} (h : ∀ i ∈ is, i < l.length) :
    List.Forall₂ (fun i t => l[i]? = some t) is (is.map fun i => l.getD i default) := by
  induction is with
  | nil => exact .nil
  | cons i is ih =>
    refine .cons ?_ (ih fun j hj => h j (List.mem_cons_of_mem _ hj))
    have := h i (by simp)
    simp [List.getD, this]

theorem forall2_prefix {l l' : List STy} (hp : l <+: l') {is : List Nat} {ts : List STy} (h : List.Forall₂ (fun i t => l[i]? = some t) is ts) :
    List.Forall₂ (fun i t => l'[i]? = some t) is ts := h.imp fun _ _ hi => getElem?_prefix hp hi

theorem forall2_unique {l : List STy} (hn : l.Nodup) {is js : List Nat} {ts : List STy} (h : List.Forall₂ (fun i t => l[i]? = some t) is ts)
    (h' : List.Forall₂ (fun i t => l[i]? = some t) js ts) : is = js := by
  induction h generalizing js with
  | nil => cases h'; rfl
  | @cons i t is ts h _ ih =>
    cases h' with
    | cons g g' =>
      rw [ih g']
      congr 1
      obtain ⟨a, ha⟩ := List.getElem?_eq_some_iff.1 h
      obtain ⟨b, hb⟩ := List.getElem?_eq_some_iff.1 g
      exact (hn.getElem_inj_iff).1 (ha.trans hb.symm)

theorem forall2_lt {l : List STy} {is : List Nat} {ts : List STy} (h : List.Forall₂ (fun i t => l[i]? = some t) is ts) :
    ∀ i ∈ is, i < l.length := by
  induction h with
  | nil => simp
  | cons h _ ih =>
    intro i hi
    rcases List.mem_cons.1 hi with rfl | hi
    · exact (List.getElem?_eq_some_iff.1 h).1
    · exact ih i hi

mutual
theorem insertType_ok : ∀ (t : STy) (cs : List (Nat × List Nat)), BankOK cs → BankOK (insertType t cs).2 ∧
    cs.foldl decodeStep [] <+: (insertType t cs).2.foldl decodeStep [] ∧ ((insertType t cs).2.foldl decodeStep [])[(insertType t cs).1]? = some t
  | .con c ts, cs, hb => by
    obtain ⟨h1, h2, h3⟩ := insertTypes_ok ts cs hb
    rw [insertType]
    cases hf : (insertTypes ts cs).2.findIdx? (· == (c, (insertTypes ts cs).1)) with
    | some i =>
      obtain ⟨hlt, hp, -⟩ := List.findIdx?_eq_some_iff_getElem.1 hf
      simp only [hf]
      refine ⟨h1, h2, ?_⟩
      have hi : (insertTypes ts cs).2[i]? = some (c, (insertTypes ts cs).1) := by
        rw [List.getElem?_eq_getElem hlt, eq_of_beq hp]
      rw [(h1.cell i _ hi).2, map_getD h3]
    | none =>
      simp only [hf]
      have hno : (c, (insertTypes ts cs).1) ∉ (insertTypes ts cs).2 := fun hm => by
        have := List.findIdx?_eq_none_iff.1 hf _ hm
        simp at this
      generalize (insertTypes ts cs).2 = cs1 at *
      generalize (insertTypes ts cs).1 = is at *
      have hd : (cs1 ++ [(c, is)]).foldl decodeStep [] = cs1.foldl decodeStep [] ++ [.con c ts] := by
        rw [decode_snoc, decodeStep, map_getD h3]
      have hpre : cs1.foldl decodeStep [] <+: (cs1 ++ [(c, is)]).foldl decodeStep [] := by rw [hd]; exact List.prefix_append _ _
      have hlast : ((cs1 ++ [(c, is)]).foldl decodeStep [])[cs1.length]? = some (.con c ts) := by
        rw [hd, ← h1.len]
        simp
      refine ⟨⟨by rw [hd]; simp [h1.len], ?_, ?_⟩, h2.trans hpre, hlast⟩
      · intro i p hi
        by_cases hl : i < cs1.length
        · rw [List.getElem?_append_left hl] at hi
          obtain ⟨a, b⟩ := h1.cell i p hi
          refine ⟨a, ?_⟩
          rw [getElem?_prefix hpre b]
          congr 2
          have f := forall2_getD (l := cs1.foldl decodeStep []) (is := p.2) (fun j hj => by have := a j hj; rw [h1.len]; omega)
          rw [map_getD (forall2_prefix hpre f)]
        · rw [List.getElem?_append_right (by omega)] at hi
          have hi0 : i = cs1.length := by
            have := (List.getElem?_eq_some_iff.1 hi).1
            simp at this
            omega
          subst hi0
          simp only [Nat.sub_self, List.getElem?_cons_zero, Option.some.injEq] at hi
          subst hi
          refine ⟨fun j hj => by have := forall2_lt h3 j hj; rwa [h1.len] at this, ?_⟩
          rw [hlast, map_getD (forall2_prefix hpre h3)]
      · rw [hd]
        refine List.nodup_append.2 ⟨h1.nodup, by simp, ?_⟩
        intro a ha b hb e
        rw [List.mem_singleton.1 hb] at e
        subst e
        obtain ⟨i, hi⟩ := List.mem_iff_getElem?.1 ha
        have hil : i < cs1.length := by
          have := (List.getElem?_eq_some_iff.1 hi).1
          rwa [h1.len] at this
        obtain ⟨q1, q2⟩ := h1.cell i cs1[i] (List.getElem?_eq_getElem hil)
        rw [hi] at q2
        simp only [Option.some.injEq, STy.con.injEq] at q2
        have f := forall2_getD (l := cs1.foldl decodeStep []) (is := cs1[i].2) (fun j hj => by have := q1 j hj; rw [h1.len]; omega)
        rw [← q2.2] at f
        have : cs1[i] = (c, is) := Prod.ext q2.1.symm (forall2_unique h1.nodup f h3)
        exact hno (this ▸ List.getElem_mem hil)
theorem insertTypes_ok : ∀ (ts : List STy) (cs : List (Nat × List Nat)), BankOK cs → BankOK (insertTypes ts cs).2 ∧
    cs.foldl decodeStep [] <+: (insertTypes ts cs).2.foldl decodeStep [] ∧
    List.Forall₂ (fun i t => ((insertTypes ts cs).2.foldl decodeStep [])[i]? = some t) (insertTypes ts cs).1 ts
  | [], cs, hb => ⟨hb, List.prefix_rfl, .nil⟩
  | t :: ts, cs, hb => by
    obtain ⟨h1, h2, h3⟩ := insertType_ok t cs hb
    obtain ⟨g1, g2, g3⟩ := insertTypes_ok ts _ h1
    rw [insertTypes]
    exact ⟨g1, h2.trans g2, .cons (getElem?_prefix g2 h3) g3⟩
end

end Verif.STyProof
