import Verif.Text.ClauseProof

/-!
# Reading printed formulas
-/

namespace Verif

namespace Text

variable {V : Vocab}

/-- Formulas related by a relation of symbols and a relation of variables. -/
def FRel (V : Vocab) (sg : SigTab) (st : PSt) : Form → Form → Prop
  | .lit p l r, .lit p' l' r' => p' = p ∧ Rd V sg st l l' ∧ Rd V sg st r r'
  | .not f, .not f' => FRel V sg st f f'
  | .bin op f g, .bin op' f' g' => op' = op ∧ FRel V sg st f f' ∧ FRel V sg st g g'
  | .qu u x f, .qu u' y f' => u' = u ∧ st.ext.lookup (varName x) = some y ∧ FRel V sg st f f'
  | _, _ => False

theorem FRel.mono {sg : SigTab} {st st' : PSt} (h : PExt st st') : ∀ {f g : Form}, FRel V sg st f g → FRel V sg st' f g
  | .lit _ _ _, .lit _ _ _, hr => ⟨hr.1, hr.2.1.mono h, hr.2.2.mono h⟩
  | .not f, .not g, hr => FRel.mono (f := f) (g := g) h hr
  | .bin _ _ _, .bin _ _ _, hr => ⟨hr.1, FRel.mono h hr.2.1, FRel.mono h hr.2.2⟩
  | .qu _ _ _, .qu _ _ _, hr => ⟨hr.1, h.ext _ _ hr.2.1, FRel.mono h hr.2.2⟩

/-- The formula read stands for the formula printed. -/
def RdForm (V : Vocab) (sg : SigTab) (st : PSt) (f f' : Form) : Prop := FRel V sg st (asReadForm f) f'

/-- Unitary formulas are read back. -/
def PT (V : Vocab) (sg : SigTab) (ti : Nat) (f : Form) : Prop :=
  ∀ {st ts n}, Follow ts → POK V ti st → 4 * (toksForm sg f .top).length ≤ n →
    ∃ f' st', parseULit ti n st (toksForm sg f .top ++ ts) = some (f', st', ts) ∧ POK V ti st' ∧ PExt st st' ∧ RdForm V sg st' f f'

/-- Parts of a chain of disjunctions are read back. -/
def PO (V : Vocab) (sg : SigTab) (ti : Nat) (f : Form) : Prop :=
  ∀ {st ts n}, akt ts = .pipe → POK V ti st → 4 * (toksForm sg f .orc).length ≤ n →
    ∃ f' st' m g st1 ts1, n ≤ m + (toksForm sg f .orc).length ∧ parseULit ti n st (toksForm sg f .orc ++ ts) = some (g, st1, ts1) ∧
      akt ts1 = .pipe ∧ parseAssoc ti n .pipe g st1 ts1 = parseAssoc ti m .pipe f' st' ts ∧
      POK V ti st' ∧ PExt st st' ∧ RdForm V sg st' f f'

/-- Quantified formulas are read back. -/
def PQ (V : Vocab) (sg : SigTab) (ti : Nat) (f : Form) : Prop :=
  ∀ {u x st ts n}, Follow ts → POK V ti st → 4 * (toksForm sg f (.tail u)).length ≤ n →
    ∃ f' y st', parseQuant ti n u st (wordTok (varName x) :: (toksForm sg f (.tail u) ++ ts)) = some (.qu u y f', st', ts) ∧ POK V ti st' ∧
      PExt st st' ∧ st'.ext.lookup (varName x) = some y ∧ RdForm V sg st' f f'

theorem parse_form_close {sg : SigTab} {ti : Nat} {f : Form} (h : PT V sg ti f) {st : PSt} {ts : List Tok} {n : Nat}
    (hts : akt ts = .closeBracket ∨ akt ts = .noToken) (hok : POK V ti st) (hn : 4 * (toksForm sg f .top).length < n) :
    ∃ f' st', parseForm ti n st (toksForm sg f .top ++ ts) = some (f', st', ts) ∧ POK V ti st' ∧ PExt st st' ∧ RdForm V sg st' f f' := by
  obtain ⟨m, rfl⟩ : ∃ m, n = m + 1 := ⟨n - 1, by omega⟩
  obtain ⟨f', st1, hp, k1, k2, k3⟩ := h (ts := ts) (n := m)
    ⟨by rcases hts with e | e <;> simp [After, e], by rcases hts with e | e <;> simp [e], by rcases hts with e | e <;> simp [e]⟩ hok (by omega)
  refine ⟨f', st1, ?_, k1, k2, k3⟩
  simp only [parseForm, hp]
  rcases hts with e | e <;> simp [e, tokOp]

/-- A formula in brackets. -/
theorem parse_paren {sg : SigTab} {ti : Nat} {f : Form} (h : PT V sg ti f) {st : PSt} {ts : List Tok} {n : Nat} (hok : POK V ti st)
    (hn : 4 * (toksForm sg f .top).length + 2 ≤ n) :
    ∃ f' st', parseULit ti n st (tkOpen :: (toksForm sg f .top ++ tkClose :: ts)) = some (f', st', ts) ∧ POK V ti st' ∧ PExt st st' ∧
      RdForm V sg st' f f' := by
  obtain ⟨m, rfl⟩ : ∃ m, n = m + 1 := ⟨n - 1, by omega⟩
  obtain ⟨f', st1, hp, k1, k2, k3⟩ := parse_form_close h (ts := tkClose :: ts) (n := m) (Or.inl rfl) hok (by omega)
  refine ⟨f', st1, ?_, k1, k2, k3⟩
  have ea : akt (tkOpen :: (toksForm sg f .top ++ tkClose :: ts)) = .openBracket := rfl
  simp only [parseULit, ea, List.tail_cons, hp]
  simp [accept, tkClose]

theorem po_of_pt {sg : SigTab} {ti : Nat} {f : Form} (h : PT V sg ti f) (he : toksForm sg f .orc = toksForm sg f .top) : PO V sg ti f := by
  intro st ts n hts hok hn
  rw [he] at hn ⊢
  obtain ⟨f', st1, hp, k1, k2, k3⟩ := h (ts := ts) (n := n) ⟨by simp [After, hts], by simp [hts], by simp [hts]⟩ hok hn
  exact ⟨f', st1, n, f', st1, ts, by omega, hp, hts, rfl, k1, k2, k3⟩

theorem pq_of_pt {sg : SigTab} (hV : VocabTF V) {ti : Nat} {f : Form} (h : PT V sg ti f) {u : Bool} {x : Nat}
    (he : toksForm sg f (.tail u) = (PMode.tail u).wrapToks (toksForm sg f .top)) {st : PSt} {ts : List Tok} {n : Nat} (hf : Follow ts)
    (hok : POK V ti st) (hn : 4 * (toksForm sg f (.tail u)).length ≤ n) :
    ∃ f' y st', parseQuant ti n u st (wordTok (varName x) :: (toksForm sg f (.tail u) ++ ts)) = some (.qu u y f', st', ts) ∧ POK V ti st' ∧
      PExt st st' ∧ st'.ext.lookup (varName x) = some y ∧ RdForm V sg st' f f' := by
  rw [he] at hn ⊢
  have hlen : ((PMode.tail u).wrapToks (toksForm sg f .top)).length = (toksForm sg f .top).length + 4 := by simp [PMode.wrapToks]
  rw [hlen] at hn
  obtain ⟨m, rfl⟩ : ∃ m, n = m + 1 := ⟨n - 1, by omega⟩
  have e : (PMode.tail u).wrapToks (toksForm sg f .top) ++ ts =
      tkCloseSq :: tkColon :: tkOpen :: (toksForm sg f .top ++ tkClose :: ts) := by simp [PMode.wrapToks]
  rw [e]
  have hx : TopOK V sg (.var x) := trivial
  obtain ⟨t', st1, hp, k1, k2, k3⟩ := parse_term hV sg ti (.var x) (n := m) (ts := tkCloseSq :: tkColon :: tkOpen :: (toksForm sg f .top ++ tkClose :: ts)) hx hok
    (by simp [After, akt, tkCloseSq]) (by simp [toksTerm]; omega)
  cases t' with
  | app g us => simp [Rd, TRel] at k3
  | var y =>
    simp only [Rd, TRel] at k3
    simp only [toksTerm, List.singleton_append] at hp
    obtain ⟨f', st2, hq, j1, j2, j3⟩ := parse_paren h (ts := ts) (n := m) k1 (by omega)
    refine ⟨f', y, st2, ?_, j1, k2.trans j2, j2.ext _ _ k3, j3⟩
    have ea : akt (tkCloseSq :: tkColon :: tkOpen :: (toksForm sg f .top ++ tkClose :: ts)) ≠ .comma := by simp [akt, tkCloseSq]
    have e1 : accept .closeSquare (tkCloseSq :: tkColon :: tkOpen :: (toksForm sg f .top ++ tkClose :: ts)) =
        some (tkColon :: tkOpen :: (toksForm sg f .top ++ tkClose :: ts)) := rfl
    have e2 : accept .colon (tkColon :: tkOpen :: (toksForm sg f .top ++ tkClose :: ts)) =
        some (tkOpen :: (toksForm sg f .top ++ tkClose :: ts)) := rfl
    have e3 : ¬ (akt ts = .equalSign ∨ akt ts = .negEqualSign) := by simp [hf.eqn, hf.neq]
    simp only [parseQuant, hp, if_neg ea, e1, e2, hq, if_neg e3]

theorem func_not {k : TokT} (h : isFuncSym k = true) :
    ¬ (k = .exclamation ∨ k = .question) ∧ k ≠ .openBracket ∧ k ≠ .tilde := by
  refine ⟨?_, ?_, ?_⟩
  · rintro (rfl | rfl) <;> (revert h; decide)
  · rintro rfl; revert h; decide
  · rintro rfl; revert h; decide

theorem pt_lit {sg : SigTab} (hV : VocabTF V) (hs : SigFor V sg) (htf : SigTF sg) {ti : Nat} {pos : Bool} {l r : Term}
    (h : SidesOK V sg l r) : PT V sg ti (.lit pos l r) := by
  intro st ts n hf hok hn
  simp only [toksForm, PMode.wrapToks] at hn ⊢
  by_cases hrt : r = tTrue
  · have hA : AtomOK V sg l ∧ l ≠ tFalse := by
      rcases h with h | h
      · exact ⟨h.1, h.2.1⟩
      · exact absurd hrt (h.2.ne_tf hV htf).1
    have key : ∀ k, (toksTerm sg l).length + 1 ≤ k → ∃ l' st', parseULit ti k st (toksTerm sg l ++ ts) = some (.lit true l' tTrue, st', ts) ∧
        POK V ti st' ∧ PExt st st' ∧ Rd V sg st' l l' ∧ Rd V sg st' r tTrue := by
      intro k hk
      obtain ⟨m, rfl⟩ : ∃ m, k = m + 1 := ⟨k - 1, by omega⟩
      obtain ⟨l', st1, hp, k1, k2, k3⟩ := infix_atom hV hs htf hok hA.1 hA.2 hf (n := m) (by omega)
      obtain ⟨a1, a2, a3⟩ := func_not (toksTerm_akt sg l ts)
      refine ⟨l', st1, ?_, k1, k2, k3, by rw [hrt]; exact rd_true hV htf k1⟩
      simp only [parseULit, if_neg a1, if_neg a2, if_neg a3, parseAtom, hp, Option.map_some]
    cases pos with
    | true =>
      have e : toksSides sg true l r = toksTerm sg l := by simp [toksSides, hrt]
      have hl : 1 ≤ (toksTerm sg l).length := by
        obtain ⟨t, ts', e, _⟩ := toksTerm_head sg l
        rw [e]; simp
      rw [e] at hn ⊢
      obtain ⟨l', st1, hp, k1, k2, k3, k4⟩ := key n (by omega)
      refine ⟨_, st1, hp, k1, k2, ?_⟩
      simp only [RdForm, asReadForm]
      rw [if_neg (by simp)]
      exact ⟨rfl, k3, k4⟩
    | false =>
      have e : toksSides sg false l r = tkTilde :: toksTerm sg l := by simp [toksSides, hrt]
      rw [e] at hn ⊢
      simp only [List.length_cons] at hn
      obtain ⟨m, rfl⟩ : ∃ m, n = m + 1 := ⟨n - 1, by omega⟩
      obtain ⟨l', st1, hp, k1, k2, k3, k4⟩ := key m (by omega)
      refine ⟨.not (.lit true l' tTrue), st1, ?_, k1, k2, ?_⟩
      · have ea : akt (tkTilde :: toksTerm sg l ++ ts) = .tilde := rfl
        have et : (tkTilde :: toksTerm sg l ++ ts).tail = toksTerm sg l ++ ts := rfl
        simp only [parseULit, ea, et, hp]
        simp
      · simp only [RdForm, asReadForm]
        rw [if_pos ⟨trivial, hrt⟩]
        exact ⟨rfl, k3, k4⟩
  · obtain ⟨hl, hr⟩ : FnTerm V sg l ∧ FnTerm V sg r := by
      rcases h with h | h
      · exact absurd h.2.2 hrt
      · exact h
    have e : toksSides sg pos l r = toksTerm sg l ++ (if pos then tkEq else tkNeq) :: toksTerm sg r := by simp [toksSides, hrt]
    rw [e] at hn ⊢
    simp only [List.length_append, List.length_cons] at hn
    obtain ⟨m, rfl⟩ : ∃ m, n = m + 1 := ⟨n - 1, by omega⟩
    obtain ⟨l', r', st1, hp, k1, k2, k3, k4⟩ := infix_eqn hV hs htf hok hl hr pos hf (n := m) (by omega) (by omega)
    refine ⟨.lit pos l' r', st1, ?_, k1, k2, ?_⟩
    · have e' : (toksTerm sg l ++ (if pos then tkEq else tkNeq) :: toksTerm sg r) ++ ts =
          toksTerm sg l ++ (if pos then tkEq else tkNeq) :: (toksTerm sg r ++ ts) := by simp
      rw [e']
      obtain ⟨a1, a2, a3⟩ := func_not (toksTerm_akt sg l ((if pos then tkEq else tkNeq) :: (toksTerm sg r ++ ts)))
      simp only [parseULit, if_neg a1, if_neg a2, if_neg a3, parseAtom, hp, Option.map_some]
    · simp only [RdForm, asReadForm]
      rw [if_neg (fun hc => hrt hc.2)]
      exact ⟨rfl, k3, k4⟩

theorem pt_atom {sg : SigTab} (hV : VocabTF V) (hs : SigFor V sg) (htf : SigTF sg) {ti : Nat} {t : Term} (h : AtomOK V sg t) :
    PT V sg ti (.atom t) := by
  intro st ts n hf hok hn
  simp only [toksForm, PMode.wrapToks] at hn ⊢
  have hl : 1 ≤ (toksTerm sg t).length := by
    obtain ⟨k, ts', e, _⟩ := toksTerm_head sg t
    rw [e]; simp
  obtain ⟨m, rfl⟩ : ∃ m, n = m + 1 := ⟨n - 1, by omega⟩
  obtain ⟨a1, a2, a3⟩ := func_not (toksTerm_akt sg t ts)
  by_cases ht : t = tFalse
  · subst ht
    obtain ⟨e, he, hpn, har, _⟩ := htf.f
    have hnm : symName sg 2 = "$false".toList := by simp only [symName, he, hpn]
    have htk : toksTerm sg tFalse = [nameTok "$false".toList] := by simp only [tFalse, toksTerm, toksArgs, hnm]
    obtain ⟨st1, hp, k1, k2⟩ := infix_false hV hs htf hok hf (n := m) (by omega)
    rw [htk] at a1 a2 a3 ⊢
    refine ⟨.lit false tTrue tTrue, st1, ?_, k1, k2, ?_⟩
    · simp only [parseULit, if_neg a1, if_neg a2, if_neg a3, parseAtom]
      simp only [List.singleton_append, hp, Option.map_some]
    · simp only [RdForm, asReadForm, if_true]
      exact ⟨rfl, rd_true hV htf k1, rd_true hV htf k1⟩
  · obtain ⟨l', st1, hp, k1, k2, k3⟩ := infix_atom hV hs htf hok h ht hf (n := m) (by omega)
    refine ⟨.lit true l' tTrue, st1, ?_, k1, k2, ?_⟩
    · simp only [parseULit, if_neg a1, if_neg a2, if_neg a3, parseAtom, hp, Option.map_some]
    · simp only [RdForm, asReadForm, if_neg ht]
      exact ⟨rfl, k3, rd_true hV htf k1⟩

theorem pt_not {sg : SigTab} {ti : Nat} {f : Form} (h : PT V sg ti f) : PT V sg ti (.not f) := by
  intro st ts n hf hok hn
  simp only [toksForm, PMode.wrapToks] at hn ⊢
  simp only [List.length_cons, List.length_append, List.length_nil] at hn
  obtain ⟨m, rfl⟩ : ∃ m, n = m + 1 := ⟨n - 1, by omega⟩
  obtain ⟨f', st1, hp, k1, k2, k3⟩ := parse_paren h (ts := ts) (n := m) hok (by omega)
  refine ⟨.not f', st1, ?_, k1, k2, k3⟩
  have e : tkTilde :: tkOpen :: (toksForm sg f .top ++ [tkClose]) ++ ts = tkTilde :: (tkOpen :: (toksForm sg f .top ++ tkClose :: ts)) := by simp
  have ea : akt (tkTilde :: (tkOpen :: (toksForm sg f .top ++ tkClose :: ts))) = .tilde := rfl
  rw [e]
  simp only [parseULit, ea, List.tail_cons, hp]
  simp

theorem follow_op (op : BOp) (ts : List Tok) : Follow (tkOp op :: ts) := by
  cases op <;> exact ⟨by simp [After, akt, tkOp, tkPipe], by simp [akt, tkOp, tkPipe], by simp [akt, tkOp, tkPipe]⟩

theorem tokOp_tkOp (op : BOp) (ts : List Tok) : tokOp (akt (tkOp op :: ts)) = some op := by cases op <;> rfl

theorem pt_bin {sg : SigTab} {ti : Nat} {op : BOp} (ho : op ≠ .or) {f g : Form} (hf : PT V sg ti f) (hg : PT V sg ti g) : PT V sg ti (.bin op f g) := by
  intro st ts n _ hok hn
  simp only [toksForm, PMode.wrapToks, if_neg ho] at hn ⊢
  simp only [List.length_cons, List.length_append, List.length_nil] at hn
  obtain ⟨m, rfl⟩ : ∃ m, n = m + 3 := ⟨n - 3, by omega⟩
  obtain ⟨f', st1, hp, k1, k2, k3⟩ := hf (n := m + 1) (follow_op op (toksForm sg g .top ++ tkClose :: ts)) hok (by omega)
  have fc : Follow (tkClose :: ts) := ⟨by simp [After, akt, tkClose], by simp [akt, tkClose], by simp [akt, tkClose]⟩
  have e : tkOpen :: (toksForm sg f .top ++ tkOp op :: (toksForm sg g .top ++ [tkClose])) ++ ts =
      tkOpen :: (toksForm sg f .top ++ tkOp op :: (toksForm sg g .top ++ tkClose :: ts)) := by simp
  have ea : akt (tkOpen :: (toksForm sg f .top ++ tkOp op :: (toksForm sg g .top ++ tkClose :: ts))) = .openBracket := rfl
  by_cases hand : op = .and
  · subst hand
    obtain ⟨g', st2, hq, j1, j2, j3⟩ := hg (n := m) fc k1 (by omega)
    refine ⟨.bin .and f' g', st2, ?_, j1, k2.trans j2, ⟨rfl, FRel.mono j2 k3, j3⟩⟩
    obtain ⟨m', rfl⟩ : ∃ m', m = m' + 1 := ⟨m - 1, by omega⟩
    have eb : akt (tkOp .and :: (toksForm sg g .top ++ tkClose :: ts)) = .ampersand := rfl
    have ec : akt (tkClose :: ts) ≠ .ampersand := by simp [akt, tkClose]
    rw [e]
    unfold parseULit
    simp only [ea, List.tail_cons]
    unfold parseForm
    simp only [hp, eb]
    unfold parseAssoc
    simp only [eb, if_true, List.tail_cons, hq, tokOp]
    unfold parseAssoc
    simp only [if_neg ec]
    simp [accept, tkClose]
  · obtain ⟨g', st2, hq, j1, j2, j3⟩ := hg (n := m + 1) fc k1 (by omega)
    refine ⟨.bin op f' g', st2, ?_, j1, k2.trans j2, ⟨rfl, FRel.mono j2 k3, j3⟩⟩
    have eb : ¬ (akt (tkOp op :: (toksForm sg g .top ++ tkClose :: ts)) = .ampersand ∨
        akt (tkOp op :: (toksForm sg g .top ++ tkClose :: ts)) = .pipe) := by
      cases op <;> first | exact absurd rfl ho | exact absurd rfl hand | simp [akt, tkOp]
    have ec : ¬ (akt (tkOp op :: (toksForm sg g .top ++ tkClose :: ts)) = .equalSign ∨
        akt (tkOp op :: (toksForm sg g .top ++ tkClose :: ts)) = .negEqualSign ∨
        akt (tkOp op :: (toksForm sg g .top ++ tkClose :: ts)) = .application) := by
      cases op <;> simp [akt, tkOp, tkPipe]
    rw [e]
    unfold parseULit
    simp only [ea, List.tail_cons]
    unfold parseForm
    simp only [hp, if_neg eb, if_neg ec, tokOp_tkOp, List.tail_cons, hq, Option.map_some]
    simp [accept, tkClose]

/-- One more disjunct. -/
theorem po_step {sg : SigTab} {ti : Nat} {f g : Form} (hf : PO V sg ti f) (hg : PT V sg ti g) {st : PSt} {ts : List Tok} {n : Nat}
    (hts : Follow ts) (hok : POK V ti st) (hn : 4 * (toksForm sg f .orc ++ tkPipe :: toksForm sg g .top).length ≤ n) :
    ∃ f' st' m g' st1 ts1, n ≤ m + (toksForm sg f .orc ++ tkPipe :: toksForm sg g .top).length ∧
      parseULit ti n st ((toksForm sg f .orc ++ tkPipe :: toksForm sg g .top) ++ ts) = some (g', st1, ts1) ∧
      akt ts1 = .pipe ∧ parseAssoc ti n .pipe g' st1 ts1 = parseAssoc ti m .pipe f' st' ts ∧
      POK V ti st' ∧ PExt st st' ∧ RdForm V sg st' (.bin .or f g) f' := by
  simp only [List.length_append, List.length_cons] at hn ⊢
  obtain ⟨f', st1, m, h, st0, ts0, hm, hp, ha, he, k1, k2, k3⟩ := hf (ts := tkPipe :: (toksForm sg g .top ++ ts)) (n := n) rfl hok (by omega)
  obtain ⟨m', rfl⟩ : ∃ m', m = m' + 1 := ⟨m - 1, by omega⟩
  obtain ⟨g', st2, hq, j1, j2, j3⟩ := hg (n := m') hts k1 (by omega)
  refine ⟨.bin .or f' g', st2, m', h, st0, ts0, by omega, by simpa using hp, ha, ?_, j1, k2.trans j2, ⟨rfl, FRel.mono j2 k3, j3⟩⟩
  rw [he]
  have eb : akt (tkPipe :: (toksForm sg g .top ++ ts)) = .pipe := rfl
  rw [parseAssoc]
  simp only [eb, if_true, List.tail_cons, hq, tokOp]

theorem pt_or {sg : SigTab} {ti : Nat} {f g : Form} (hf : PO V sg ti f) (hg : PT V sg ti g) : PT V sg ti (.bin .or f g) := by
  intro st ts n _ hok hn
  have e0 : toksForm sg (.bin .or f g) .top = tkOpen :: ((toksForm sg f .orc ++ tkPipe :: toksForm sg g .top) ++ [tkClose]) := by
    simp [toksForm, PMode.wrapToks]
  rw [e0] at hn ⊢
  have hlen : (tkOpen :: ((toksForm sg f .orc ++ tkPipe :: toksForm sg g .top) ++ [tkClose])).length =
      (toksForm sg f .orc ++ tkPipe :: toksForm sg g .top).length + 2 := by simp; omega
  rw [hlen] at hn
  obtain ⟨m, rfl⟩ : ∃ m, n = m + 2 := ⟨n - 2, by omega⟩
  have fc : Follow (tkClose :: ts) := ⟨by simp [After, akt, tkClose], by simp [akt, tkClose], by simp [akt, tkClose]⟩
  obtain ⟨f', st1, k, h, st0, ts0, hk, hp, ha, he, k1, k2, k3⟩ := po_step hf hg (n := m) fc hok (by omega)
  refine ⟨f', st1, ?_, k1, k2, k3⟩
  obtain ⟨k', rfl⟩ : ∃ k', k = k' + 1 := ⟨k - 1, by omega⟩
  have e : tkOpen :: ((toksForm sg f .orc ++ tkPipe :: toksForm sg g .top) ++ [tkClose]) ++ ts =
      tkOpen :: ((toksForm sg f .orc ++ tkPipe :: toksForm sg g .top) ++ tkClose :: ts) := by simp
  have ea : akt (tkOpen :: ((toksForm sg f .orc ++ tkPipe :: toksForm sg g .top) ++ tkClose :: ts)) = .openBracket := rfl
  have ec : akt (tkClose :: ts) ≠ .pipe := by simp [akt, tkClose]
  rw [e]
  unfold parseULit
  simp only [ea, List.tail_cons]
  unfold parseForm
  simp only [hp, ha, or_true, if_true, he]
  unfold parseAssoc
  simp only [if_neg ec]
  simp [accept, tkClose]

theorem pt_qu {sg : SigTab} {ti : Nat} {u : Bool} {x : Nat} {f : Form} (h : PQ V sg ti f) : PT V sg ti (.qu u x f) := by
  intro st ts n hf hok hn
  have e0 : toksForm sg (.qu u x f) .top = tkQu u :: tkOpenSq :: wordTok (varName x) :: toksForm sg f (.tail u) := rfl
  rw [e0] at hn ⊢
  simp only [List.length_cons] at hn
  obtain ⟨m, rfl⟩ : ∃ m, n = m + 1 := ⟨n - 1, by omega⟩
  obtain ⟨f', y, st1, hp, k1, k2, k3, k4⟩ := h (u := u) (x := x) (n := m) hf hok (by omega)
  refine ⟨.qu u y f', st1, ?_, k1, k2, ⟨rfl, k3, k4⟩⟩
  have ea : akt (tkQu u :: tkOpenSq :: wordTok (varName x) :: toksForm sg f (.tail u) ++ ts) = if u then .exclamation else .question := by
    cases u <;> rfl
  have et : accept .openSquare (tkQu u :: tkOpenSq :: wordTok (varName x) :: toksForm sg f (.tail u) ++ ts).tail =
      some (wordTok (varName x) :: (toksForm sg f (.tail u) ++ ts)) := rfl
  unfold parseULit
  simp only [ea, et]
  cases u <;> simpa using hp

/-- All formulas over the vocabulary are read back. -/
theorem parse_all {sg : SigTab} (hV : VocabTF V) (hs : SigFor V sg) (htf : SigTF sg) (ti : Nat) : ∀ {f : Form}, FormOK V sg f →
    PT V sg ti f ∧ PO V sg ti f ∧ PQ V sg ti f := by
  have gen : ∀ {f : Form}, PT V sg ti f → toksForm sg f .orc = toksForm sg f .top →
      (∀ u, toksForm sg f (.tail u) = (PMode.tail u).wrapToks (toksForm sg f .top)) → PT V sg ti f ∧ PO V sg ti f ∧ PQ V sg ti f :=
    fun h1 h2 h3 => ⟨h1, po_of_pt h1 h2, fun hf hok hn => pq_of_pt hV h1 (h3 _) hf hok hn⟩
  intro f
  induction f with
  | lit pos l r => exact fun h => gen (pt_lit hV hs htf h) rfl (fun _ => rfl)
  | atom t => exact fun h => gen (pt_atom hV hs htf h) rfl (fun _ => rfl)
  | not f ih => exact fun h => gen (pt_not (ih h).1) rfl (fun _ => rfl)
  | bin op f g ihf ihg =>
    intro h
    by_cases ho : op = .or
    · subst ho
      have h1 : PT V sg ti (.bin .or f g) := pt_or (ihf h.1).2.1 (ihg h.2).1
      refine ⟨h1, ?_, fun hf hok hn => pq_of_pt hV h1 rfl hf hok hn⟩
      intro st ts n hts hok hn
      have e : toksForm sg (.bin .or f g) .orc = toksForm sg f .orc ++ tkPipe :: toksForm sg g .top := by simp [toksForm]
      rw [e] at hn ⊢
      exact po_step (ihf h.1).2.1 (ihg h.2).1 ⟨by simp [After, hts], by simp [hts], by simp [hts]⟩ hok hn
    · refine gen (pt_bin ho (ihf h.1).1 (ihg h.2).1) ?_ ?_
      · simp [toksForm, if_neg ho, PMode.wrapToks]
      · intro u; simp [toksForm, if_neg ho, PMode.wrapToks]
  | qu u x f ih =>
    intro h
    have h1 : PT V sg ti (.qu u x f) := pt_qu (ih h).2.2
    refine ⟨h1, po_of_pt h1 rfl, ?_⟩
    intro u' x' st ts n hf hok hn
    by_cases hu : u = u'
    · subst hu
      have e : toksForm sg (.qu u x f) (.tail u) = tkComma :: wordTok (varName x) :: toksForm sg f (.tail u) := by simp [toksForm]
      rw [e] at hn ⊢
      simp only [List.length_cons] at hn
      obtain ⟨m, rfl⟩ : ∃ m, n = m + 1 := ⟨n - 1, by omega⟩
      have hx : TopOK V sg (.var x') := trivial
      obtain ⟨t', st1, hp, k1, k2, k3⟩ := parse_term hV sg ti (.var x') (n := m)
        (ts := tkComma :: wordTok (varName x) :: (toksForm sg f (.tail u) ++ ts)) hx hok (by simp [After, akt, tkComma]) (by simp [toksTerm]; omega)
      cases t' with
      | app g us => simp [Rd, TRel] at k3
      | var y =>
        simp only [Rd, TRel] at k3
        simp only [toksTerm, List.singleton_append] at hp
        obtain ⟨f', y', st2, hq, j1, j2, j3, j4⟩ := (ih h).2.2 (u := u) (x := x) (n := m) hf k1 (by omega)
        refine ⟨.qu u y' f', y, st2, ?_, j1, k2.trans j2, j2.ext _ _ k3, ⟨rfl, j3, j4⟩⟩
        have ea : akt (tkComma :: wordTok (varName x) :: (toksForm sg f (.tail u) ++ ts)) = .comma := rfl
        simp only [List.cons_append, parseQuant, hp, ea, if_true, List.tail_cons, hq, Option.map_some]
    · exact pq_of_pt hV h1 (by simp [toksForm, if_neg hu]) hf hok hn

/-- Reading a formula. -/
theorem parse_form {sg : SigTab} (hV : VocabTF V) (hs : SigFor V sg) (htf : SigTF sg) (ti : Nat) {f : Form} (h : FormOK V sg f) {st : PSt}
    (hok : POK V ti st) {n : Nat} (hn : 4 * (toksForm sg f .top).length < n) :
    ∃ f' st', parseForm ti n st (toksForm sg f .top) = some (f', st', []) ∧ POK V ti st' ∧ PExt st st' ∧ RdForm V sg st' f f' := by
  have := parse_form_close (parse_all hV hs htf ti h).1 (ts := []) (n := n) (Or.inr rfl) hok hn
  simpa using this

theorem FRel.map {sg : SigTab} {st : PSt} (hs : SigFor V st.sig) : ∀ {f g : Form}, FRel V sg st f g →
    g = mapForm (symMap V sg st) (varMap st) f ∧ (∀ k ∈ formSyms f, SymRel V sg st.sig k (symMap V sg st k)) ∧
      ∀ x ∈ formVars f, st.ext.lookup (varName x) = some (varMap st x)
  | .lit p l r, .lit p' l' r', h => by
    obtain ⟨h1, h2, h3⟩ := h
    obtain ⟨a1, a2, a3⟩ := Rd.map hs _ _ h2
    obtain ⟨b1, b2, b3⟩ := Rd.map hs _ _ h3
    subst h1
    refine ⟨by rw [mapForm, ← a1, ← b1], ?_, ?_⟩
    · intro k hk
      simp only [formSyms, List.mem_append] at hk
      rcases hk with hk | hk
      · exact a2 k hk
      · exact b2 k hk
    · intro x hx
      simp only [formVars, List.mem_append] at hx
      rcases hx with hx | hx
      · exact a3 x hx
      · exact b3 x hx
  | .not f, .not g, h => by
    obtain ⟨a1, a2, a3⟩ := FRel.map hs (f := f) (g := g) h
    exact ⟨by rw [mapForm, ← a1], a2, a3⟩
  | .bin op f g, .bin op' f' g', h => by
    obtain ⟨h1, h2, h3⟩ := h
    obtain ⟨a1, a2, a3⟩ := FRel.map hs h2
    obtain ⟨b1, b2, b3⟩ := FRel.map hs h3
    subst h1
    refine ⟨by rw [mapForm, ← a1, ← b1], ?_, ?_⟩
    · intro k hk
      simp only [formSyms, List.mem_append] at hk
      rcases hk with hk | hk
      · exact a2 k hk
      · exact b2 k hk
    · intro x hx
      simp only [formVars, List.mem_append] at hx
      rcases hx with hx | hx
      · exact a3 x hx
      · exact b3 x hx
  | .qu u x f, .qu u' y g, h => by
    obtain ⟨h1, h2, h3⟩ := h
    obtain ⟨a1, a2, a3⟩ := FRel.map hs h3
    subst h1
    have hy := varMap_eq h2
    refine ⟨by rw [mapForm, ← a1, hy], a2, ?_⟩
    intro z hz
    simp only [formVars, List.mem_cons] at hz
    rcases hz with rfl | hz
    · rw [hy]; exact h2
    · exact a3 z hz

end Text

end Verif
