import Verif.Text.ParseProof

/-!
# Reading printed clauses
-/

namespace Verif

namespace Text

variable {V : Vocab}

/-- What may follow a literal. -/
structure Follow (ts : List Tok) : Prop where
  after : After ts
  eqn : akt ts ≠ .equalSign
  neq : akt ts ≠ .negEqualSign

theorem Rd.inv_app {sg : SigTab} {st : PSt} {f : Nat} {ts : List Term} {u : Term} (h : Rd V sg st (.app f ts) u) :
    ∃ g us, u = .app g us ∧ SymRel V sg st.sig f g ∧ Rds V sg st ts us := by
  cases u with
  | var y => simp [Rd, TRel] at h
  | app g us => simp only [Rd, TRel] at h; exact ⟨g, us, rfl, h.1, h.2⟩

theorem Rds.inv_nil {sg : SigTab} {st : PSt} {ts : List Term} (h : Rds V sg st ts []) : ts = [] := by
  cases ts with
  | nil => rfl
  | cons t ts => simp [Rds, TRels] at h

theorem Rds.inv_nil' {sg : SigTab} {st : PSt} {us : List Term} (h : Rds V sg st [] us) : us = [] := by
  cases us with
  | nil => rfl
  | cons t ts => simp [Rds, TRels] at h

/-- Boolean constants are read as themselves and nothing else is. -/
theorem Rd.tf {sg : SigTab} (hV : VocabTF V) (hs : SigFor V sg) (htf : SigTF sg) {ti : Nat} {st : PSt} (h : POK V ti st) {t u : Term}
    (hr : Rd V sg st t u) : (u = tTrue ↔ t = tTrue) ∧ (u = tFalse ↔ t = tFalse) := by
  obtain ⟨q1, q2⟩ := symRel_tf hV htf h.tf
  have key : ∀ c, SymRel V sg st.sig c c → (u = .app c [] ↔ t = .app c []) := by
    intro c hc
    constructor
    · rintro rfl
      cases t with
      | var x => simp [Rd, TRel] at hr
      | app f ts =>
        obtain ⟨g, us, e, h1, h2⟩ := hr.inv_app
        cases e
        rw [h2.inv_nil, h1.left hs hc]
    · rintro rfl
      obtain ⟨g, us, e, h1, h2⟩ := hr.inv_app
      rw [e, h2.inv_nil', h1.right h.sig hc]
  exact ⟨key 1 q1, key 2 q2⟩

theorem rd_true {sg : SigTab} (hV : VocabTF V) (htf : SigTF sg) {ti : Nat} {st : PSt} (h : POK V ti st) : Rd V sg st tTrue tTrue := by
  simp only [Rd, tTrue, TRel]
  exact ⟨(symRel_tf hV htf h.tf).1, by simp [TRels]⟩

/-- Reading an atom. -/
theorem infix_atom {sg : SigTab} (hV : VocabTF V) (hs : SigFor V sg) (htf : SigTF sg) {ti : Nat} {st : PSt} (h : POK V ti st) {l : Term}
    (hl : AtomOK V sg l) (hne : l ≠ tFalse) {ts : List Tok} (hf : Follow ts) {n : Nat} (hn : (toksTerm sg l).length ≤ n) :
    ∃ l' st', parseInfix ti n st (toksTerm sg l ++ ts) = some (true, l', tTrue, st', ts) ∧ POK V ti st' ∧ PExt st st' ∧ Rd V sg st' l l' := by
  obtain ⟨l', st1, hp, k1, k2, k3⟩ := parse_term hV sg ti l hl.top h hf.after hn
  cases l with
  | var x => exact absurd hl id
  | app f us =>
    have hne' : l' ≠ tFalse := fun e => hne (((k3.tf hV hs htf k1).2).1 e)
    obtain ⟨g, as, rfl, h1, h2⟩ := k3.inv_app
    have hpr : isPredSym V st1.sig g = true := by rw [h1.pred]; exact hl.2.1
    obtain ⟨e, e', g1, g2, g3, g4, g5, g6⟩ := h1
    have hpr' : V.pred (rawName e'.pname) e'.arity = true := by simpa [isPredSym, g2] using hpr
    have hro : st1.sig.roleOf g = some e'.role := by simp [SigTab.roleOf, g2]
    rcases k1.sig.role e' (entry_mem g2) g4 with hr | hr
    · have g0 := entry_ne_zero g2
      have hx : PExt st1 { st1 with sig := st1.sig.setRole g .pred } := ⟨SigExt.setRole _ g0 _, fun _ _ e => e⟩
      refine ⟨.app g as, { st1 with sig := st1.sig.setRole g .pred }, ?_, k1.withSig (k1.sig.setRole g2 (by rw [hpr']; rfl)) (k1.tf.setRole g0 (Or.inl rfl)),
        k2.trans hx, Rd.mono hx k3⟩
      simp only [parseInfix, hp, if_neg hne', hro, hr, hf.eqn, hf.neq]
      simp [hne']
    · rw [hpr'] at hr
      refine ⟨.app g as, st1, ?_, k1, k2, k3⟩
      simp only [parseInfix, hp, if_neg hne', hro, hr]
      simp [hne']

/-- Reading `$false`. -/
theorem infix_false {sg : SigTab} (hV : VocabTF V) (hs : SigFor V sg) (htf : SigTF sg) {ti : Nat} {st : PSt} (h : POK V ti st)
    {ts : List Tok} (hf : Follow ts) {n : Nat} (hn : 1 ≤ n) :
    ∃ st', parseInfix ti n st (nameTok "$false".toList :: ts) = some (false, tTrue, tTrue, st', ts) ∧ POK V ti st' ∧ PExt st st' := by
  obtain ⟨e, he, hpn, har, _⟩ := htf.f
  have hnm : symName sg 2 = "$false".toList := by simp only [symName, he, hpn]
  have htop : TopOK V sg tFalse := ⟨⟨e, he, har, by rw [hpn, har]; exact hV.f_ok⟩, by simp [FnTerms]⟩
  have htk : toksTerm sg tFalse = [nameTok "$false".toList] := by simp only [tFalse, toksTerm, toksArgs, hnm]
  obtain ⟨l', st1, hp, k1, k2, k3⟩ := parse_term hV sg ti tFalse (n := n) htop h hf.after (by rw [htk]; exact hn)
  have : l' = tFalse := ((k3.tf hV hs htf k1).2).2 rfl
  subst this
  rw [htk] at hp
  have hro : st1.sig.roleOf 1 = some .pred := by
    obtain ⟨e1, h1, _, _, h4⟩ := k1.tf.t
    simp [SigTab.roleOf, h1, h4]
  refine ⟨st1, ?_, k1, k2⟩
  simp only [List.singleton_append] at hp
  simp only [parseInfix, hp, if_true]
  simp only [tTrue, hro, if_true]
  simp

theorem parse_rhs {sg : SigTab} (hV : VocabTF V) {ti : Nat} {st : PSt} (h : POK V ti st) {r : Term}
    (hr : FnTerm V sg r) (pos : Bool) {ts : List Tok} (hf : Follow ts) {n : Nat} (hn : (toksTerm sg r).length ≤ n) :
    ∃ r' st', parseRhs ti n st ((if pos then tkEq else tkNeq) :: (toksTerm sg r ++ ts)) = some (pos, r', st', ts) ∧ POK V ti st' ∧
      PExt st st' ∧ Rd V sg st' r r' := by
  obtain ⟨r', st1, hp, k1, k2, k3⟩ := parse_term hV sg ti r hr.top h hf.after hn
  obtain ⟨st2, hd, l1, l2⟩ := declFn_spec hV k1 hr k3
  refine ⟨r', st2, ?_, l1, k2.trans l2, k3.mono l2⟩
  cases pos <;> simp [parseRhs, akt, tkEq, tkNeq, hp, hd]

/-- Reading an equation. -/
theorem infix_eqn {sg : SigTab} (hV : VocabTF V) (hs : SigFor V sg) (htf : SigTF sg) {ti : Nat} {st : PSt} (h : POK V ti st) {l r : Term}
    (hl : FnTerm V sg l) (hr : FnTerm V sg r) (pos : Bool) {ts : List Tok} (hf : Follow ts) {n : Nat} (hn : (toksTerm sg l).length ≤ n)
    (hn' : (toksTerm sg r).length ≤ n) :
    ∃ l' r' st', parseInfix ti n st (toksTerm sg l ++ (if pos then tkEq else tkNeq) :: (toksTerm sg r ++ ts)) = some (pos, l', r', st', ts) ∧
      POK V ti st' ∧ PExt st st' ∧ Rd V sg st' l l' ∧ Rd V sg st' r r' := by
  have hak : akt ((if pos then tkEq else tkNeq) :: (toksTerm sg r ++ ts)) = if pos then .equalSign else .negEqualSign := by
    cases pos <;> rfl
  obtain ⟨l', st1, hp, k1, k2, k3⟩ := parse_term hV sg ti l (ts := (if pos then tkEq else tkNeq) :: (toksTerm sg r ++ ts)) hl.top h
    (by constructor <;> (rw [hak]; cases pos <;> simp)) hn
  have hne' : l' ≠ tFalse := fun e => (hl.ne_tf hV htf).2 (((k3.tf hV hs htf k1).2).1 e)
  obtain ⟨st2, hd, l1, l2⟩ := declFn_spec hV k1 hl k3
  cases l' with
  | var y =>
    obtain ⟨r', st3, hq, j1, j2, j3⟩ := parse_rhs hV k1 hr pos hf hn'
    refine ⟨.var y, r', st3, ?_, j1, k2.trans j2, k3.mono j2, j3⟩
    simp only [parseInfix, hp, if_neg hne', hq, Option.map_some]
    cases pos <;> simp [hne']
  | app g as =>
    obtain ⟨r', st3, hq, j1, j2, j3⟩ := parse_rhs hV l1 hr pos hf hn'
    refine ⟨.app g as, r', st3, ?_, j1, (k2.trans l2).trans j2, k3.mono (l2.trans j2), j3⟩
    have hnp : st1.sig.roleOf g ≠ some .pred := by
      intro hc
      simp only [declFn, hc, if_true] at hd
      cases hd
    have hor : st1.sig.roleOf g = some .fn ∨ akt ((if pos then tkEq else tkNeq) :: (toksTerm sg r ++ ts)) = .equalSign ∨
        akt ((if pos then tkEq else tkNeq) :: (toksTerm sg r ++ ts)) = .negEqualSign := by
      rw [hak]; cases pos <;> simp
    simp only [parseInfix, hp, if_neg hne', if_neg hnp, if_pos hor, hd, hq, Option.map_some]
    cases pos <;> simp [hne']

/-- What a literal is read as. -/
def asReadLit (L : Lit) : Lit := if L.pos = false ∧ L.l = L.r then falseLit else L

/-- The literal read stands for the literal printed. -/
def RdLit (V : Vocab) (sg : SigTab) (st : PSt) (L L' : Lit) : Prop :=
  L'.pos = (asReadLit L).pos ∧ Rd V sg st (asReadLit L).l L'.l ∧ Rd V sg st (asReadLit L).r L'.r

theorem RdLit.mono {sg : SigTab} {st st' : PSt} (h : PExt st st') {L L' : Lit} (ht : RdLit V sg st L L') : RdLit V sg st' L L' :=
  ⟨ht.1, ht.2.1.mono h, ht.2.2.mono h⟩

theorem nameTok_false : (nameTok "$false".toList).tok = .semIdent := by decide

theorem toksTerm_akt (sg : SigTab) (u : Term) (ts : List Tok) : isFuncSym (akt (toksTerm sg u ++ ts)) = true := by
  obtain ⟨t, ts', e, hf⟩ := toksTerm_head sg u
  rw [e]; exact hf

theorem ne_tilde {k : TokT} (h : isFuncSym k = true) : k ≠ .tilde := by rintro rfl; revert h; decide

theorem parse_lit {sg : SigTab} (hV : VocabTF V) (hs : SigFor V sg) (htf : SigTF sg) {ti : Nat} {st : PSt} (h : POK V ti st) {L : Lit}
    (hL : SidesOK V sg L.l L.r) {ts : List Tok} (hf : Follow ts) {n : Nat} (hn : (toksLit sg L).length ≤ n) :
    ∃ L' st', parseLit ti n st (toksLit sg L ++ ts) = some (L', st', ts) ∧ POK V ti st' ∧ PExt st st' ∧ RdLit V sg st' L L' := by
  have tft : tTrue ≠ tFalse := by decide
  by_cases hff : L.pos = false ∧ L.l = L.r
  · have etk : toksLit sg L = [nameTok "$false".toList] := by unfold toksLit; rw [if_pos hff]
    have er : asReadLit L = falseLit := by unfold asReadLit; rw [if_pos hff]
    rw [etk] at hn ⊢
    obtain ⟨st1, hp, k1, k2⟩ := infix_false hV hs htf h hf (n := n) (by simpa using hn)
    refine ⟨falseLit, st1, ?_, k1, k2, ?_⟩
    · have ha : akt ([nameTok "$false".toList] ++ ts) ≠ .tilde := by
        show (nameTok "$false".toList).tok ≠ _
        rw [nameTok_false]; simp
      simp only [parseLit, if_neg ha]
      simp only [List.singleton_append, hp]
      simp [mkEqn, tft, falseLit]
    · rw [RdLit, er]
      exact ⟨rfl, rd_true hV htf k1, rd_true hV htf k1⟩
  · have etk : toksLit sg L = toksSides sg L.pos L.l L.r := by unfold toksLit; rw [if_neg hff]
    have er : asReadLit L = L := by unfold asReadLit; rw [if_neg hff]
    rw [etk] at hn ⊢
    unfold toksSides at hn ⊢
    by_cases hrt : L.r = tTrue
    · rw [if_neg (not_not.2 hrt)] at hn ⊢
      have hA : AtomOK V sg L.l ∧ L.l ≠ tFalse := by
        rcases hL with hL | hL
        · exact ⟨hL.1, hL.2.1⟩
        · exact absurd hrt (hL.2.ne_tf hV htf).1
      have hn' : (toksTerm sg L.l).length ≤ n := by
        cases hp : L.pos <;> simp [hp] at hn <;> omega
      obtain ⟨l', st1, hp, k1, k2, k3⟩ := infix_atom hV hs htf h hA.1 hA.2 hf hn'
      have hne : l' ≠ tFalse := fun e => hA.2 (((k3.tf hV hs htf k1).2).1 e)
      refine ⟨⟨L.pos, l', tTrue⟩, st1, ?_, k1, k2, ?_⟩
      · have hmk : ∀ p, mkEqn p l' tTrue = ⟨p, l', tTrue⟩ := by
          intro p
          by_cases hl : l' = tTrue
          · subst hl; simp [mkEqn, tft]
          · simp [mkEqn, tft, hne, hl]
        cases hpos : L.pos with
        | true =>
          have ha := ne_tilde (toksTerm_akt sg L.l ts)
          simp only [if_true, List.nil_append, parseLit, if_neg ha, hp, hmk]
        | false =>
          have ha : akt (tkTilde :: (toksTerm sg L.l ++ ts)) = .tilde := rfl
          simp only [Bool.false_eq_true, if_false, List.cons_append, List.nil_append, parseLit, ha, if_true, List.tail_cons, hp, hmk, Bool.not_true]
      · rw [RdLit, er, hrt]
        exact ⟨rfl, k3, rd_true hV htf k1⟩
    · rw [if_pos hrt] at hn ⊢
      obtain ⟨hl, hr⟩ : FnTerm V sg L.l ∧ FnTerm V sg L.r := by
        rcases hL with hL | hL
        · exact absurd hL.2.2 hrt
        · exact hL
      simp only [List.length_append, List.length_cons] at hn
      obtain ⟨l', r', st1, hp, k1, k2, k3, k4⟩ := infix_eqn hV hs htf h hl hr L.pos hf (n := n) (by omega) (by omega)
      refine ⟨⟨L.pos, l', r'⟩, st1, ?_, k1, k2, ?_⟩
      · have h1 : l' ≠ tTrue := fun e => (hl.ne_tf hV htf).1 (((k3.tf hV hs htf k1).1).1 e)
        have h2 : l' ≠ tFalse := fun e => (hl.ne_tf hV htf).2 (((k3.tf hV hs htf k1).2).1 e)
        have h4 : r' ≠ tFalse := fun e => (hr.ne_tf hV htf).2 (((k4.tf hV hs htf k1).2).1 e)
        have hmk : ∀ p, mkEqn p l' r' = ⟨p, l', r'⟩ := by intro p; simp [mkEqn, h1, h2, h4]
        have e : (toksTerm sg L.l ++ (if L.pos then tkEq else tkNeq) :: toksTerm sg L.r) ++ ts =
            toksTerm sg L.l ++ (if L.pos then tkEq else tkNeq) :: (toksTerm sg L.r ++ ts) := by simp
        rw [e]
        have ha := ne_tilde (toksTerm_akt sg L.l ((if L.pos then tkEq else tkNeq) :: (toksTerm sg L.r ++ ts)))
        simp only [parseLit, if_neg ha, hp, hmk]
      · rw [RdLit, er]
        exact ⟨rfl, k3, k4⟩

/-- The literals read stand for the literals printed. -/
def RdLits (V : Vocab) (sg : SigTab) (st : PSt) : List Lit → List Lit → Prop := List.Forall₂ (RdLit V sg st)

theorem parse_lits1 {sg : SigTab} (hV : VocabTF V) (hs : SigFor V sg) (htf : SigTF sg) {ti : Nat} : ∀ {C : List Lit} {st : PSt} {n : Nat}, C ≠ [] →
    ClauseOK V sg C → POK V ti st → ∀ {ts : List Tok}, Follow ts → akt ts ≠ .pipe → (toksLits sg C).length < n →
    ∃ C' st', parseLits1 ti n st (toksLits sg C ++ ts) = some (C', st', ts) ∧ POK V ti st' ∧ PExt st st' ∧ RdLits V sg st' C C'
  | [], _, _, h0, _, _, _, _, _, _ => absurd rfl h0
  | [L], st, n, _, hC, h, ts, hf, hp, hn => by
    obtain ⟨m, rfl⟩ : ∃ m, n = m + 1 := ⟨n - 1, by omega⟩
    obtain ⟨L', st1, hq, k1, k2, k3⟩ := parse_lit hV hs htf h (hC L (by simp)) hf (n := m) (by simp only [toksLits] at hn; omega)
    refine ⟨[L'], st1, ?_, k1, k2, List.Forall₂.cons k3 .nil⟩
    simp only [toksLits, parseLits1, hq, if_neg hp]
  | L :: M :: Ls, st, n, _, hC, h, ts, hf, hp, hn => by
    obtain ⟨m, rfl⟩ : ∃ m, n = m + 1 := ⟨n - 1, by omega⟩
    simp only [toksLits, List.length_append, List.length_cons] at hn
    obtain ⟨L', st1, hq, k1, k2, k3⟩ := parse_lit hV hs htf h (hC L (by simp)) (ts := tkPipe :: (toksLits sg (M :: Ls) ++ ts))
      ⟨by simp [After, akt, tkPipe], by simp [akt, tkPipe], by simp [akt, tkPipe]⟩ (n := m) (by omega)
    obtain ⟨C', st2, hr, j1, j2, j3⟩ := parse_lits1 hV hs htf (C := M :: Ls) (n := m) (by simp) (fun K hK => hC K (List.mem_cons_of_mem _ hK)) k1 hf hp
      (by omega)
    refine ⟨L' :: C', st2, ?_, j1, k2.trans j2, List.Forall₂.cons (k3.mono j2) j3⟩
    have e : toksLits sg (L :: M :: Ls) ++ ts = toksLit sg L ++ tkPipe :: (toksLits sg (M :: Ls) ++ ts) := by simp [toksLits]
    have ea : akt (tkPipe :: (toksLits sg (M :: Ls) ++ ts)) = .pipe := rfl
    rw [e]
    simp only [parseLits1, hq, ea, if_true, List.tail_cons, hr, Option.map_some]

theorem toksLit_akt (sg : SigTab) (L : Lit) (ts : List Tok) :
    isFuncSym (akt (toksLit sg L ++ ts)) = true ∨ akt (toksLit sg L ++ ts) = .tilde := by
  unfold toksLit toksSides
  split
  · exact Or.inl (by show isFuncSym (nameTok "$false".toList).tok = true; rw [nameTok_false]; rfl)
  · split
    · rw [List.append_assoc]; exact Or.inl (toksTerm_akt _ _ _)
    · cases L.pos with
      | true => exact Or.inl (toksTerm_akt _ _ _)
      | false => exact Or.inr rfl

/-- Reading the literals of a clause. -/
theorem parse_core {sg : SigTab} (hV : VocabTF V) (hs : SigFor V sg) (htf : SigTF sg) {ti : Nat} {C : List Lit} (hC : ClauseOK V sg C) {st : PSt}
    (h : POK V ti st) {ts : List Tok} (hf : Follow ts) (hp : akt ts ≠ .pipe) {n : Nat} (hn : (toksCore sg C).length < n) :
    ∃ C' st', parseLits ti n st (toksCore sg C ++ ts) = some (C', st', ts) ∧ POK V ti st' ∧ PExt st st' ∧
      RdLits V sg st' (if C = [] then [falseLit] else C) C' := by
  have key : ∀ D : List Lit, D ≠ [] → toksCore sg C = toksLits sg D → ClauseOK V sg D →
      ∃ C' st', parseLits ti n st (toksCore sg C ++ ts) = some (C', st', ts) ∧ POK V ti st' ∧ PExt st st' ∧ RdLits V sg st' D C' := by
    intro D hD e hok
    rw [e] at hn ⊢
    obtain ⟨C', st1, hq, k1, k2, k3⟩ := parse_lits1 hV hs htf hD hok h hf hp hn
    refine ⟨C', st1, ?_, k1, k2, k3⟩
    have ha : isFuncSym (akt (toksLits sg D ++ ts)) = true ∨ akt (toksLits sg D ++ ts) = .tilde := by
      match D, hD with
      | [L], _ => exact toksLit_akt sg L ts
      | L :: M :: Ls, _ => simp only [toksLits, List.append_assoc]; exact toksLit_akt sg L _
    unfold parseLits
    rw [if_pos (by rcases ha with ha | ha <;> simp [ha]), hq]
  by_cases hC0 : C = []
  · rw [if_pos hC0]
    refine key [falseLit] (by simp) ?_ ?_
    · simp only [toksCore, if_pos hC0, toksLits, toksLit, falseLit, and_self, if_true]
    · intro L hL
      simp only [List.mem_singleton] at hL
      subst hL
      obtain ⟨e, he, hpn, har, _⟩ := htf.t
      refine Or.inl ⟨⟨⟨e, he, har, by rw [hpn, har]; exact hV.t_ok⟩, (isPred_tf hV htf).1, by simp [FnTerms]⟩, by decide, rfl⟩
  · rw [if_neg hC0]
    exact key C hC0 (by simp only [toksCore, if_neg hC0]) hC

theorem role_tok (role : CRole) : (wordTok role.print).tok = .ident := by cases role <;> decide

theorem role_parse {role : CRole} (h : role ≠ .conjecture) : parseRole role.print = some role := by
  cases role <;> first | exact absurd rfl h | decide

/-- Reading a clause. -/
theorem parse_clause {sg : SigTab} (hV : VocabTF V) (hs : SigFor V sg) (htf : SigTF sg) (ti : Nat) {C : List Lit} (hC : ClauseOK V sg C) {st : PSt}
    (h : ReadOK V st) (nm : List Char) {role : CRole} (hrole : role ≠ .conjecture) {n : Nat} (hn : (toksCore sg C).length < n) :
    ∃ C' st', parseClause ti n st (toksClause sg nm role C) = some ((nm, role, C'), st', []) ∧ POK V ti st' ∧ SigExt st.sig st'.sig ∧
      RdLits V sg st' (if C = [] then [falseLit] else C) C' := by
  have h0 : POK V ti { st with ext := [], bank := st.bank.reset } :=
    { sig := h.sig, tf := h.tf, bank := VarBank.inv_reset h.bank, inj := fun _ _ _ e => by simp at e, used := fun _ _ e => by simp at e }
  obtain ⟨C', st1, hp, k1, k2, k3⟩ := parse_core hV hs htf hC h0 (ts := [tkClose, tkClose, ⟨.fullstop, ['.']⟩])
    ⟨by simp [After, akt, tkClose], by simp [akt, tkClose], by simp [akt, tkClose]⟩ (by simp [akt, tkClose]) hn
  refine ⟨C', st1, ?_, k1, k2.sig, k3⟩
  have hk : (wordTok "cnf".toList).tok = .ident := by decide
  have hkl : (wordTok "cnf".toList).lit = "cnf".toList := rfl
  have hrl : (wordTok role.print).lit = role.print := rfl
  have hnl : (wordTok nm).lit = nm := rfl
  have hcond : ((wordTok "cnf".toList).tok = .ident ∨ (wordTok "cnf".toList).tok = .idnum) ∧ (wordTok "cnf".toList).lit = "cnf".toList ∧
      tkOpen.tok = .openBracket ∧
      ((wordTok nm).tok = .ident ∨ (wordTok nm).tok = .idnum ∨ (wordTok nm).tok = .string ∨ (wordTok nm).tok = .posInt ∨ (wordTok nm).tok = .sqString) ∧
      tkComma.tok = .comma ∧ (wordTok role.print).tok = .ident ∧ tkComma.tok = .comma := by
    refine ⟨Or.inl hk, hkl, rfl, ?_, rfl, role_tok role, rfl⟩
    rcases wordTok_cases nm with e | e
    · exact Or.inl e
    · exact Or.inr (Or.inl e)
  have ha : akt (tkOpen :: (toksCore sg C ++ [tkClose, tkClose, ⟨.fullstop, ['.']⟩])) = .openBracket := rfl
  simp only [toksClause, parseClause, if_pos hcond, hrl, role_parse hrole, ha, if_true, List.tail_cons, hp, hnl]
  rfl

/-! ## The maps of symbols and variables -/

/-- The symbol with the same name. -/
noncomputable def symMap (V : Vocab) (sg : SigTab) (st : PSt) (f : Nat) : Nat :=
  open scoped Classical in if h : ∃ g, SymRel V sg st.sig f g then h.choose else f

/-- The variable with the name. -/
def varMap (st : PSt) (x : Nat) : Nat := (st.ext.lookup (varName x)).getD x

theorem symMap_eq {sg : SigTab} {st : PSt} (hs : SigFor V st.sig) {f g : Nat} (h : SymRel V sg st.sig f g) : symMap V sg st f = g := by
  have he : ∃ g, SymRel V sg st.sig f g := ⟨g, h⟩
  unfold symMap
  rw [dif_pos he]
  exact he.choose_spec.right hs h

theorem varMap_eq {st : PSt} {x y : Nat} (h : st.ext.lookup (varName x) = some y) : varMap st x = y := by
  simp [varMap, h]

mutual
theorem Rd.map {sg : SigTab} {st : PSt} (hs : SigFor V st.sig) : ∀ (t u : Term), Rd V sg st t u →
    u = mapTerm (symMap V sg st) (varMap st) t ∧ (∀ f ∈ termSyms t, SymRel V sg st.sig f (symMap V sg st f)) ∧
      ∀ x ∈ t.vars, st.ext.lookup (varName x) = some (varMap st x)
  | .var x, .var y, h => by
    simp only [Rd, TRel] at h
    have := varMap_eq h
    simp [mapTerm, this, termSyms, Term.vars, h]
  | .app f ts, .app g us, h => by
    simp only [Rd, TRel] at h
    obtain ⟨h1, h2, h3⟩ := Rds.map hs ts us h.2
    have h4 := symMap_eq hs h.1
    refine ⟨by simp only [mapTerm]; rw [h4, h1], ?_, ?_⟩
    · intro k hk
      simp only [termSyms, List.mem_cons] at hk
      rcases hk with rfl | hk
      · rw [h4]; exact h.1
      · exact h2 k hk
    · intro x hx
      simp only [Term.vars] at hx
      exact h3 x hx
  | .var _, .app _ _, h => by simp [Rd, TRel] at h
  | .app _ _, .var _, h => by simp [Rd, TRel] at h
theorem Rds.map {sg : SigTab} {st : PSt} (hs : SigFor V st.sig) : ∀ (ts us : List Term), Rds V sg st ts us →
    us = mapTerms (symMap V sg st) (varMap st) ts ∧ (∀ f ∈ termSymsL ts, SymRel V sg st.sig f (symMap V sg st f)) ∧
      ∀ x ∈ Term.varsL ts, st.ext.lookup (varName x) = some (varMap st x)
  | [], [], _ => by simp [mapTerms, termSymsL, Term.varsL]
  | t :: ts, u :: us, h => by
    simp only [Rds, TRels] at h
    obtain ⟨h1, h2, h3⟩ := Rd.map hs t u h.1
    obtain ⟨k1, k2, k3⟩ := Rds.map hs ts us h.2
    refine ⟨by simp only [mapTerms]; rw [← h1, ← k1], ?_, ?_⟩
    · intro f hf
      simp only [termSymsL, List.mem_append] at hf
      rcases hf with hf | hf
      · exact h2 f hf
      · exact k2 f hf
    · intro x hx
      simp only [Term.varsL, List.mem_append] at hx
      rcases hx with hx | hx
      · exact h3 x hx
      · exact k3 x hx
  | [], _ :: _, h => by simp [Rds, TRels] at h
  | _ :: _, [], h => by simp [Rds, TRels] at h
end

end Text

end Verif
