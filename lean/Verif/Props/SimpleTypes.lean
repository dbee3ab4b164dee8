import Verif.Terms.SimpleTypesPrint
import Verif.Terms.SimpleTypesArity

/-!
# C85: types

`t.den N`: the curried type denoted by a cell; `t.WF N`: the types E works with (Verif/Terms/SimpleTypesSpec.lean).
-/

namespace Verif.Props
open Verif STyProof

variable {N : TNames} {ar : Nat → Nat}

/-! ## Flat types -/

/-- **C85.** Every type has one representation: cells that denote the same type are the same. -/
theorem type_unique (hN : N.OK ar) {t t' : STy} (h : t.WF N) (h' : t'.WF N) (hd : t.den N = t'.den N) : t = t' :=
  den_inj hN.nodup t t' h h' hd

/-- **C85.** `ArrowTypeFlattened` gives the type of functions with the given types of arguments and result. -/
theorem type_arrow {args : List STy} {r : STy} (h : ∀ t ∈ args, t.WF N) (hr : r.WF N) :
    (arrowFlattened args r).WF N ∧ (arrowFlattened args r).den N = CTy.curry (args.map (STy.den N)) (r.den N) := by
  unfold arrowFlattened
  cases args with
  | nil => exact ⟨hr, rfl⟩
  | cons a l =>
    have e : flattenType (allocArrow (a :: l ++ [r])) = finishArrow (a :: l ++ [r]) := by
      have e0 : allocArrow (a :: l ++ [r]) = .con 0 (a :: l ++ [r]) := by
        cases l <;> rfl
      rw [e0, flattenType, finishArrow]
      simp only [STy.args]
      cases hg : (a :: l ++ [r]).getLast? with
      | none => rw [e0]
      | some q => simp only [e0]
    rw [if_neg (by simp), e]
    exact finishArrow_ok (wfL_iff.2 h) hr

/-- The type of `n` applications. -/
def CTy.appN : Nat → CTy → Option CTy
  | 0, t => some t
  | n + 1, .arr _ b => appN n b
  | _ + 1, .atom _ _ => none

private theorem appN_denArrow : ∀ (ts : List STy) (n : Nat), STy.WFL N ts → (∀ r, ts.getLast? = some r → r.isArrow = false) → ts ≠ [] →
    CTy.appN n (STy.denArrow N ts) = if n < ts.length then some (STy.denArrow N (ts.drop n)) else none
  | [], _, _, _, h => absurd rfl h
  | _ :: _, 0, _, _, _ => by simp [CTy.appN]
  | [t], n + 1, _, hl, _ => by
    rw [if_neg (by simp)]
    show CTy.appN (n + 1) (t.den N) = none
    rw [den_atom (hl t rfl)]
    rfl
  | t :: u :: ts, n + 1, hw, hl, _ => by
    rw [denArrow_cons2, CTy.appN, appN_denArrow (u :: ts) n hw.2 (by simpa using hl) (by simp)]
    simp

private theorem determine_aux {ts : List STy} {n : Nat} (h1 : STy.WFL N ts) (h2 : 2 ≤ ts.length)
    (h3 : ∀ r, ts.getLast? = some r → r.isArrow = false) (hn : n < ts.length) :
    (allocArrow (ts.drop n)).WF N ∧ (allocArrow (ts.drop n)).den N = STy.denArrow N (ts.drop n) := by
  refine wf_allocArrow ?_ (by simp; omega) ?_
  · exact wfL_iff.2 fun t ht => wfL_iff.1 h1 t (List.mem_of_mem_drop ht)
  · intro r hr
    rw [List.getLast?_drop, if_neg (by omega)] at hr
    exact h3 r hr

/-- **C85.** The type of a symbol of function type applied to `n` arguments is the one obtained by `n` applications, and there is none exactly
if there are too many arguments. -/
theorem type_application {t : STy} (h : t.WF N) (ha : t.isArrow = true) (n : Nat) :
    (determineType t n).map (STy.den N) = CTy.appN n (t.den N) ∧ ∀ r, determineType t n = some r → r.WF N := by
  obtain ⟨h1, h2, h3⟩ := wf_arrow ha h
  have hne : t.args ≠ [] := by rintro e; rw [e] at h2; simp at h2
  rw [den_arrow ha, appN_denArrow t.args n h1 h3 hne]
  unfold determineType
  by_cases e : t.args.length - 1 = n
  · rw [if_pos e, if_pos (by omega)]
    obtain ⟨a, b⟩ := determine_aux h1 h2 h3 (n := n) (by omega)
    have hd : t.args.drop n = [t.args[n]'(by omega)] := by
      rw [List.drop_eq_getElem_cons (by omega), List.drop_eq_nil_of_le (by omega)]
    have hg : t.args[n]? = some (t.args[n]'(by omega)) := List.getElem?_eq_getElem (by omega)
    rw [hg, hd]
    refine ⟨rfl, ?_⟩
    rintro r ⟨⟩
    exact wfL_iff.1 h1 _ (List.getElem_mem _)
  · rw [if_neg e]
    by_cases e2 : t.args.length - 1 < n
    · rw [if_pos e2, if_neg (by omega)]
      exact ⟨rfl, by simp⟩
    · rw [if_neg e2, if_pos (by omega)]
      obtain ⟨a, b⟩ := determine_aux h1 h2 h3 (n := n) (by omega)
      refine ⟨by rw [Option.map_some, b], ?_⟩
      rintro r ⟨⟩
      exact a

/-- **C85.** `TypeDropFirstArg` gives the type of one application. -/
theorem type_drop {t : STy} (h : t.WF N) (ha : t.isArrow = true) :
    (dropFirstArg t).WF N ∧ ∃ a, t.den N = .arr a ((dropFirstArg t).den N) := by
  obtain ⟨h1, h2, h3⟩ := wf_arrow ha h
  obtain ⟨a, b⟩ := determine_aux h1 h2 h3 (n := 1) (by omega)
  have e : dropFirstArg t = allocArrow (t.args.drop 1) := by
    unfold dropFirstArg
    split
    · rename_i x y hxy
      rw [hxy]
      rfl
    · rfl
  rw [e]
  refine ⟨a, ?_⟩
  rw [b, den_arrow ha]
  match ht : t.args with
  | [] => rw [ht] at h2; simp at h2
  | [x] => rw [ht] at h2; simp at h2
  | x :: y :: l => exact ⟨_, denArrow_cons2⟩

/-! ## The type of choice operators -/

mutual
theorem sty_beq : ∀ t u : STy, t.beq u = true ↔ t = u
  | .con c ts, .con d us => by simp [STy.beq, sty_beqL ts us]
theorem sty_beqL : ∀ ts us : List STy, STy.beqL ts us = true ↔ ts = us
  | [], [] => by simp [STy.beqL]
  | [], _ :: _ => by simp [STy.beqL]
  | _ :: _, [] => by simp [STy.beqL]
  | t :: ts, u :: us => by simp [STy.beqL, sty_beq t u, sty_beqL ts us]
end

/-- **C85.** `IsChoiceType` recognises exactly the types `(A > $o) > A`; name 1 with code 1 is `$o`. -/
theorem type_choice (hN : N.OK ar) (hb : N[1]? = some (1, 0)) {t : STy} (h : t.WF N) :
    isChoiceType t = true ↔ ∃ A, t.den N = .arr (.arr A (.atom 1 [])) A := by
  have hbool : ∀ r : STy, r.WF N → (r.isBool = true ↔ r.den N = .atom 1 []) := by
    rintro ⟨c, ts⟩ hw
    constructor
    · intro hc
      simp only [STy.isBool, STy.code, beq_iff_eq] at hc
      subst hc
      obtain ⟨-, h2, -⟩ := wf_con hw (by simp)
      simp only [hb, Option.map_some, Option.some.injEq] at h2
      obtain rfl := List.length_eq_zero_iff.1 h2.symm
      simp [STy.den, tcName, hb, STy.denL]
    · intro hd
      have hc : c ≠ 0 := by
        rintro rfl
        obtain ⟨a, b, e⟩ := den_arr_of_arrow rfl hw
        rw [e] at hd
        cases hd
      obtain ⟨-, h2, -⟩ := wf_con hw hc
      simp only [STy.den, if_neg hc] at hd
      injection hd with e1 _
      have := name_inj hN.nodup (c := c) (d := 1) h2 (by rw [hb]; rfl) (by rw [e1]; simp [tcName, hb])
      simp [STy.isBool, STy.code, this]
  constructor
  · intro hc
    unfold isChoiceType at hc
    split at hc
    · rename_i p rest hargs
      split at hc
      · rename_i hcond
        simp only [Bool.and_eq_true, decide_eq_true_eq, beq_iff_eq] at hcond
        obtain ⟨⟨ha, hl⟩, ⟨hpa, hpl⟩, hpp⟩ := hcond
        obtain ⟨h1, h2, h3⟩ := wf_arrow ha h
        rw [hargs] at h1 h2 h3
        have hrest : rest ≠ [] := by rintro rfl; simp at h2
        obtain ⟨p1, p2, p3⟩ := wf_arrow hpa h1.1
        match hp : p.args with
        | [] => rw [hp] at hpl; simp at hpl
        | [x] => rw [hp] at hpl; simp at hpl
        | x :: y :: z :: l => rw [hp] at hpl; simp at hpl
        | [a, o] =>
          rw [hp] at p1 hc
          have ho : o.den N = .atom 1 [] := by
            refine (hbool o p1.2.1).1 ?_
            have hnb : p.isBool = false := by
              simp only [STy.isArrow, beq_iff_eq] at hpa
              simp [STy.isBool, hpa]
            simp only [STy.isPredicate, hnb, hpa, hp, Bool.false_or, Bool.true_and] at hpp
            exact hpp
          refine ⟨a.den N, ?_⟩
          rw [den_arrow ha, hargs, denArrow_cons hrest, den_arrow hpa, hp]
          have hpd : STy.denArrow N [a, o] = .arr (a.den N) (.atom 1 []) := by rw [← ho]; rfl
          rw [hpd]
          congr 1
          simp only at hc
          split at hc
          · rename_i hcond
            simp only [Bool.and_eq_true, beq_iff_eq] at hcond
            rw [den_arrow hcond.1, (sty_beqL _ _).1 hc]
          · split at hc
            · rename_i hcond
              simp only [Bool.and_eq_true, beq_iff_eq, Bool.not_eq_true', hargs] at hcond
              match rest, hrest with
              | [r], _ => rw [(sty_beq _ _).1 hc]; rfl
              | r :: q :: l, _ => simp at hcond
            · cases hc
      · cases hc
    · cases hc
  · rintro ⟨A, hA⟩
    have ha : t.isArrow = true := (isArrow_iff_arr h).2 ⟨_, _, hA⟩
    obtain ⟨h1, h2, h3⟩ := wf_arrow ha h
    rw [den_arrow ha] at hA
    match hargs : t.args with
    | [] => rw [hargs] at h2; simp at h2
    | [x] => rw [hargs] at h2; simp at h2
    | p :: q :: rest =>
      rw [hargs] at h1 h3 hA
      rw [denArrow_cons2] at hA
      injection hA with e1 e2
      have hpa : p.isArrow = true := (isArrow_iff_arr h1.1).2 ⟨_, _, e1⟩
      obtain ⟨p1, p2, p3⟩ := wf_arrow hpa h1.1
      rw [den_arrow hpa] at e1
      match hp : p.args with
      | [] => rw [hp] at p2; simp at p2
      | [x] => rw [hp] at p2; simp at p2
      | x :: y :: z :: l =>
        rw [hp, denArrow_cons2, denArrow_cons2] at e1
        injection e1 with _ e
        cases e
      | [a, o] =>
        rw [hp] at e1 p1
        have e1' : CTy.arr (a.den N) (o.den N) = CTy.arr A (.atom 1 []) := e1
        injection e1' with ea eo
        have hob : o.isBool = true := (hbool o p1.2.1).2 eo
        unfold isChoiceType
        rw [hargs]
        simp only
        rw [if_pos (by simp [ha, hpa, hp, STy.isPredicate, hob])]
        rw [hp]
        simp only
        by_cases haa : a.isArrow = true
        · obtain ⟨a1, a2, a3⟩ := wf_arrow haa p1.1
          have hl : a.args = q :: rest := by
            refine denArrow_inj hN.nodup _ _ a1 h1.2 (by rintro e; rw [e] at a2; simp at a2) (by simp) a3 (by simpa using h3) ?_
            rw [← den_arrow haa, ea, e2]
          rw [if_pos (by simp [haa, hl]), hl]
          exact (sty_beqL _ _).2 rfl
        · have hna : a.isArrow = false := by simpa using haa
          match rest with
          | [] =>
            have : a = q := den_inj hN.nodup a q p1.1 h1.2.1 (ea.trans e2.symm)
            rw [if_neg (by simp [hna]), if_pos (by simp [hna])]
            exact (sty_beq _ _).2 this
          | r :: rs =>
            exfalso
            rw [denArrow_cons2, ← ea] at e2
            exact haa ((isArrow_iff_arr p1.1).2 ⟨_, _, e2.symm⟩)

/-! ## Reading and printing -/

/-- **C85.** Reading a type expression of the grammar (`>` associates to the right, any parentheses) followed by a closing bracket, comma or full
stop gives the cell that denotes the type; new names are added to the table, and nothing is added if all names are known. -/
theorem type_parse (hN : N.OK ar) {e : TyE} (he : e.OK ar) {n : Nat} (hn : tySize e ≤ n) {t : TTok} (ht : t.isEnd2 = true) (rest : List TTok) :
    ∃ ty N', parseHO n (e.toks ++ t :: rest) N = some (ty, t :: rest, N') ∧ N <+: N' ∧ N'.OK ar ∧ ty.WF N' ∧ ty.den N' = e.den ∧
      (e.In N → N' = N) := by
  obtain ⟨ty, N', h, r⟩ := (parse_ok e he).1 N n t rest hN hn ht
  exact ⟨ty, N', h, r.pre, r.ok, r.wf, r.den, r.same⟩

/-- **C85.** A printed type is read back (higher-order syntax). -/
theorem type_print_parse (hN : N.OK ar) {t : STy} (h : t.WF N) {n : Nat} (hn : tySize (toE N t) ≤ n) {e : TTok} (he : e.isEnd2 = true)
    (rest : List TTok) : parseHO n (printHO N t ++ e :: rest) N = some (t, e :: rest, N) := by
  obtain ⟨h1, h2, h3, h4⟩ := toE_ok hN t h
  obtain ⟨ty, N', g, r⟩ := (parse_ok (toE N t) h3).1 N n e rest hN hn he
  have e := r.same h4
  subst e
  rw [← h1, g, den_inj hN.nodup ty t r.wf h (r.den.trans h2)]

private theorem openParens_name {k x : Nat} {r : List TTok} : openParens k (.name x :: r) = (0, .name x :: r) := by cases k <;> rfl

private theorem open_print (hN : N.OK ar) {t : STy} (hw : t.WF N) (ha : t.isArrow = false) (k : Nat) (r : List TTok) :
    openParens k (printHO N t ++ r) = (0, printHO N t ++ r) := by
  obtain ⟨h1, -⟩ := toS_ok hN t hw ha
  obtain ⟨x, q, hq⟩ := sgl_toks (toS N t)
  rw [← h1, hq]
  exact openParens_name

private theorem open_product (hN : N.OK ar) {ts : List STy} (hw : STy.WFL N ts) (ha : ∀ t ∈ ts, t.isArrow = false) (hne : ts ≠ []) (k : Nat)
    (r : List TTok) : openParens k (printProduct N ts ++ r) = (0, printProduct N ts ++ r) := by
  match ts, hne with
  | [t], _ => exact open_print hN hw.1 (ha t (by simp)) k r
  | t :: u :: ts, _ =>
    show openParens k ((printHO N t ++ .star :: printProduct N (u :: ts)) ++ r) = (0, (printHO N t ++ .star :: printProduct N (u :: ts)) ++ r)
    rw [List.append_assoc]
    exact open_print hN hw.1 (ha t (by simp)) k _

/-- **C85.** Whatever the text, in a type that is read all constructors are used with the number of arguments in the table, and the table is only
extended (`STy.Aritied`, Verif/Terms/SimpleTypesArity.lean). -/
theorem type_read_arity {n : Nat} {toks r : List TTok} {N' : TNames} {t : STy}
    (h : parseHO n toks N = some (t, r, N') ∨ parseFO n toks N = some (t, r, N')) : N <+: N' ∧ t.Aritied N' :=
  h.elim (ho_arity n).1 fo_arity

/-- **C85.** A printed type is read back (first-order syntax), for types without functions as arguments. -/
theorem type_print_parse_fo (hN : N.OK ar) {t : STy} (h : t.WF N) (hfo : t.isArrow = true → ∀ a ∈ t.args, a.isArrow = false) {n : Nat}
    (hn : sglSize (toS N t) + 1 ≤ n) {e : TTok} (he : e.isEnd2 = true) (rest : List TTok) :
    parseFO n (printFO N t ++ e :: rest) N = some (t, e :: rest, N) := by
  have hel : (e :: rest).head? ≠ some .lpar := end2_lpar he rest
  have hes : (e :: rest).head? ≠ some .star := by rintro ⟨⟩; simp [TTok.isEnd2] at he
  have hclose : closeOpt 0 (e :: rest) = (0, e :: rest) := by cases e <;> rfl
  have hres : ∀ ts, parseResult n ts (e :: rest) N = some (ts, e :: rest, N) := by
    intro ts
    cases e <;> first | rfl | simp [TTok.isEnd2] at he
  by_cases ha : t.isArrow = true
  · obtain ⟨h1, h2, h3⟩ := wf_arrow ha h
    have hall := hfo ha
    obtain ⟨c, ts⟩ := t
    have hc : c = 0 := by simpa [STy.isArrow, STy.code] using ha
    subst hc
    simp only [STy.args] at h1 h2 h3 hall
    obtain ⟨as, r, rfl⟩ : ∃ as r, ts = as ++ [r] := by
      rcases List.eq_nil_or_concat ts with e0 | ⟨as, r, e0⟩
      · rw [e0] at h2; simp at h2
      · exact ⟨as, r, by simpa using e0⟩
    have hwas := (wfL_append.1 h1).1
    have hwr := (wfL_append.1 h1).2.1
    have hne : as ≠ [] := by rintro rfl; simp at h2
    have hsz : sglSizeL (toSL N (as ++ [r])) + 3 ≤ n := by simp only [toS, sglSize] at hn; omega
    have hsplit : ∀ l : List STy, sglSizeL (toSL N (l ++ [r])) = sglSizeL (toSL N l) + (1 + sglSize (toS N r)) := by
      intro l
      induction l with
      | nil => simp [toSL, sglSizeL]
      | cons a l ih => simp only [List.cons_append, toSL, sglSizeL, ih]; omega
    rw [hsplit] at hsz
    have hrp := single_print_parse hN hwr (hall r (by simp)) (n := n) (by omega) hel
    have hal : allocArrow (as ++ [r]) = .con 0 (as ++ [r]) := by
      match as, hne with
      | [a], _ => rfl
      | a :: b :: l, _ => rfl
    match as, hne with
    | [a], _ =>
      have hp := product_print_parse hN (ts := [a]) hwas (fun x hx => hall x (List.mem_append_left _ hx)) (by simp) (n := n) (by omega)
        (rest := .gt :: (printHO N r ++ e :: rest)) (by simp) (by simp)
      have ho := open_print hN hwas.1 (hall a (by simp)) 2 (.gt :: (printHO N r ++ e :: rest))
      have hq : printFO N (.con 0 ([a] ++ [r])) ++ e :: rest = printHO N a ++ .gt :: (printHO N r ++ e :: rest) := by
        simp [printFO, STy.isArrow, STy.code, STy.args]
      rw [printProduct] at hp
      rw [hq, parseFO]
      simp [ho, hp, closeOpt, parseResult, hrp, closeReq]
      exact hal
    | a :: b :: l, _ =>
      have hp := product_print_parse hN (ts := a :: b :: l) hwas (fun x hx => hall x (List.mem_append_left _ hx)) (by simp) (n := n) (by omega)
        (rest := .rpar :: .gt :: (printHO N r ++ e :: rest)) (by simp) (by simp)
      have ho := open_product hN (ts := a :: b :: l) hwas (fun x hx => hall x (List.mem_append_left _ hx)) (by simp) 1
        (.rpar :: .gt :: (printHO N r ++ e :: rest))
      have hq : printFO N (.con 0 (a :: b :: l ++ [r])) ++ e :: rest =
          .lpar :: (printProduct N (a :: b :: l) ++ .rpar :: .gt :: (printHO N r ++ e :: rest)) := by
        have hdl : (a :: b :: l ++ [r]).dropLast = a :: b :: l := List.dropLast_concat
        have hgl : (a :: b :: l ++ [r]).getLast? = some r := List.getLast?_concat
        have e1 : printFO N (.con 0 (a :: b :: l ++ [r])) = .lpar :: printProduct N (a :: b :: l ++ [r]).dropLast ++ .rpar :: .gt ::
            (match (a :: b :: l ++ [r]).getLast? with
            | some r => printHO N r
            | none => []) := by
          cases l <;> rfl
        rw [e1, hdl, hgl]
        simp
      rw [hq, parseFO]
      simp [openParens, ho, hp, closeOpt, parseResult, hrp, closeReq]
      exact hal
  · have hna : t.isArrow = false := by simpa using ha
    have ho := open_print hN h hna 2 (e :: rest)
    have hp := product_print_parse hN (ts := [t]) ⟨h, trivial⟩ (by simpa using hna) (by simp) (n := n) (by simp only [toSL, sglSizeL]; omega) hel hes
    rw [printProduct] at hp
    rw [printFO, if_neg ha, parseFO]
    simp only [ho, hp, Option.bind_some, hclose, hres, Option.map_some, closeReq]
    simp [allocArrow]

/-! ## Sharing -/

/-- **C85.** Of types inserted into a bank in any order, two have the same address iff they are equal. -/
theorem type_sharing (ts : List STy) {i j : Nat} (hi : i < ts.length) (hj : j < ts.length) :
    (insertTypes ts []).1[i]? = (insertTypes ts []).1[j]? ↔ ts[i]? = ts[j]? := by
  obtain ⟨h1, -, h3⟩ := insertTypes_ok ts [] bankOK_nil
  have hlen := h3.length_eq
  have key : ∀ k (hk : k < ts.length), ((insertTypes ts []).2.foldl decodeStep [])[(insertTypes ts []).1[k]'(by omega)]? = some ts[k] :=
    fun k hk => (List.forall₂_iff_get.1 h3).2 k (by omega) hk
  rw [List.getElem?_eq_getElem (by omega), List.getElem?_eq_getElem (by omega), List.getElem?_eq_getElem hi, List.getElem?_eq_getElem hj]
  simp only [Option.some.injEq]
  constructor
  · intro e
    have a := key i hi
    rw [e, key j hj] at a
    exact (Option.some.inj a).symm
  · intro e
    obtain ⟨a, ha⟩ := List.getElem?_eq_some_iff.1 (key i hi)
    obtain ⟨b, hb⟩ := List.getElem?_eq_some_iff.1 (key j hj)
    exact (h1.nodup.getElem_inj_iff).1 (ha.trans (e.trans hb.symm))

/-! ## Examples and the disagreement -/

namespace SimpleTypesEx

/-- The table of names: `>`, `$o`, `$i`, `$tType`, and a unary constructor `list`, number 4. -/
def names : TNames := [(0, 0), (1, 0), (2, 0), (3, 0), (4, 1)]

def arity : Nat → Nat := fun x => if x = 4 then 1 else 0

theorem names_ok : names.OK arity :=
  ⟨by decide, by decide, ⟨0, rfl⟩, ⟨0, rfl⟩⟩

/-- `list($i)` -/
def lst : STy := .con 4 [.con 2 []]

/-- `(list($i) > $o) > list($i)`, a choice type. -/
def choice : STy := .con 0 [.con 0 [lst, .con 1 []], lst]

/-- `(list($i) * $i) > $o` -/
def pred : STy := .con 0 [lst, .con 2 [], .con 1 []]

theorem choice_wf : choice.WF names := by
  simp [choice, lst, STy.WF, STy.WFL, names, STy.isArrow, STy.code]

theorem pred_wf : pred.WF names := by
  simp [pred, lst, STy.WF, STy.WFL, names, STy.isArrow, STy.code]

example : isChoiceType choice = true := by decide +kernel
example : ∃ A, choice.den names = .arr (.arr A (.atom 1 [])) A := (type_choice names_ok rfl choice_wf).1 (by decide +kernel)
example : isChoiceType pred = false := by decide +kernel

/-- `list($i) > ($i > $o)` is flattened. -/
example : (arrowFlattened [lst] (.con 0 [.con 2 [], .con 1 []])).beq pred = true := by decide +kernel

example : (determineType pred 2).isSome = true ∧ (determineType pred 3).isSome = false := by decide +kernel

example : printHO names choice = [.lpar, .name 4, .lpar, .name 2, .rpar, .gt, .name 1, .rpar, .gt, .name 4, .lpar, .name 2, .rpar] := by
  decide +kernel

example : parseHO 60 (printHO names choice ++ [.rpar]) names = some (choice, [.rpar], names) :=
  type_print_parse names_ok choice_wf (by decide +kernel) rfl []

example : printFO names pred = [.lpar, .name 4, .lpar, .name 2, .rpar, .star, .name 2, .rpar, .gt, .name 1] := by decide +kernel

example : parseFO 30 (printFO names pred ++ [.rpar]) names = some (pred, [.rpar], names) :=
  type_print_parse_fo names_ok pred_wf (by intro _; decide +kernel) (by decide +kernel) rfl []

/-- `$i > (($i > $o))`, a name that is new, in the grammar. -/
def expr : TyE := .fnS (.mk 7 []) (.par (.par (.fnS (.mk 2 []) (.sgl (.mk 1 [])))))

example : ∃ ty N', parseHO 40 (expr.toks ++ [.rpar]) names = some (ty, [.rpar], N') ∧ N'.OK arity ∧ ty.den N' = expr.den := by
  obtain ⟨ty, N', h, -, h2, -, h3, -⟩ := type_parse names_ok (e := expr) (by simp [expr, TyE.OK, SglE.OK, SglE.OKL, arity]) (n := 40)
    (by decide +kernel) (t := .rpar) rfl []
  exact ⟨ty, N', h, h2, h3⟩

/-- `list` without an argument and `$i($i)` are refused. -/
example : parseHO 40 [.name 4, .rpar] names = none ∧ parseFO 40 [.name 2, .lpar, .name 2, .rpar, .rpar] names = none := by decide +kernel

/-- Non-vacuity of `type_read_arity`. -/
example : ∃ t r N', parseFO 40 [.name 4, .lpar, .name 9, .rpar, .rpar] names = some (t, r, N') ∧ names <+: N' ∧ t.Aritied N' := by
  refine ⟨.con 4 [.con 5 []], [.rpar], names ++ [(9, 0)], by rfl, ?_⟩
  exact type_read_arity (n := 40) (toks := [.name 4, .lpar, .name 9, .rpar, .rpar]) (r := [.rpar]) (.inr (by rfl))

/-- Both occurrences of `list($i)` get the same address. -/
example : (insertTypes [lst, pred, lst] []).1 = [1, 3, 1] := by decide +kernel

/-- **C85 fails for products without an arrow**: in first-order problems `$i * $o` is read as `$i > $o`. -/
theorem type_product_read :
    parseFO 9 [.name 2, .star, .name 1, .rpar] names = some (.con 0 [.con 2 [], .con 1 []], [.rpar], names) := by
  rfl

/-- **C85 fails for doubled parentheses**: of `(($i > $o))` the last parenthesis is not read, although `(($i) > $o)` is read as a whole. -/
theorem type_parens_left :
    parseFO 9 [.lpar, .lpar, .name 2, .gt, .name 1, .rpar, .rpar, .fullstop] names = some (.con 0 [.con 2 [], .con 1 []], [.rpar, .fullstop], names) ∧
    parseFO 9 [.lpar, .lpar, .name 2, .rpar, .gt, .name 1, .rpar, .fullstop] names = some (.con 0 [.con 2 [], .con 1 []], [.fullstop], names) :=
  ⟨rfl, rfl⟩

end SimpleTypesEx

end Verif.Props
