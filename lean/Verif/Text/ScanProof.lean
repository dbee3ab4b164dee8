import Verif.Text.SigProof
import Verif.Text.RoundSpec

/-!
# Scanning printed text
-/

namespace Verif

namespace Text

theorem scanToken_cons (c : Char) (cs : List Char) : scanToken (c :: cs) =
    if isSpaceC c then some (⟨.white, (c :: cs).takeWhile isSpaceC⟩, (c :: cs).dropWhile isSpaceC)
    else if isStartId c then some (scanIdent (c :: cs))
    else if c.isDigit then some (⟨.posInt, (c :: cs).takeWhile Char.isDigit⟩, (c :: cs).dropWhile Char.isDigit)
    else if c = '#' || c = '%' then
      some (⟨.comment, (c :: cs).takeWhile (· ≠ '\n') ++ ['\n']⟩, ((c :: cs).dropWhile (· ≠ '\n')).drop 1)
    else if c = '/' && cs.head? = some '*' then
      (scanCComment [] (c :: cs)).map fun r => (⟨.comment, r.1⟩, r.2)
    else if c = '"' || c = '\'' then
      (scanStr c false c [c] cs).map fun r => (⟨if c = '\'' then .sqString else .string, r.1⟩, r.2)
    else if c = '$' && (match cs with | d :: _ => isIdChar d | [] => false) then
      let r := scanIdent cs
      let w := '$' :: r.1.lit
      some (⟨if w = "$let".toList then .letTok else if w = "$ite".toList then .iteTok else .semIdent, w⟩, r.2)
    else scanOp c cs := rfl

/-- The tokens of the input. -/
def Scans (cs : List Char) (ts : List Tok) : Prop := ∀ n, cs.length < n → scanLoop n cs = some ts

theorem Scans.nil : Scans [] [] := by
  intro n hn
  obtain ⟨m, rfl⟩ : ∃ m, n = m + 1 := ⟨n - 1, by simp at hn; omega⟩
  simp [scanLoop, scanToken]

theorem Scans.step {cs rest : List Char} {t : Tok} {ts : List Tok} (h : scanToken cs = some (t, rest)) (hl : rest.length < cs.length)
    (h1 : t.tok ≠ .noToken) (h2 : t.tok ≠ .white) (h3 : t.tok ≠ .comment) (hr : Scans rest ts) : Scans cs (t :: ts) := by
  intro n hn
  obtain ⟨m, rfl⟩ : ∃ m, n = m + 1 := ⟨n - 1, by omega⟩
  simp [scanLoop, h, h1, h2, h3, hr m (by omega)]

theorem Scans.skip {cs rest : List Char} {t : Tok} {ts : List Tok} (h : scanToken cs = some (t, rest)) (hl : rest.length < cs.length)
    (h2 : t.tok = .white) (hr : Scans rest ts) : Scans cs ts := by
  intro n hn
  obtain ⟨m, rfl⟩ : ∃ m, n = m + 1 := ⟨n - 1, by omega⟩
  simp [scanLoop, h, h2, hr m (by omega)]

theorem Scans.scan {cs : List Char} {ts : List Tok} (h : Scans cs ts) : Text.scan cs = some ts := h _ (by omega)

/-- The text does not continue an identifier. -/
def StopId (cs : List Char) : Prop := ∀ c, cs.head? = some c → isIdChar c = false

theorem takeWhile_stop {p : Char → Bool} {w rest : List Char} (hw : ∀ c ∈ w, p c = true) (hr : ∀ c, rest.head? = some c → p c = false) :
    (w ++ rest).takeWhile p = w ∧ (w ++ rest).dropWhile p = rest := by
  rw [List.takeWhile_append_of_pos hw, List.dropWhile_append_of_pos hw]
  cases rest with
  | nil => simp
  | cons c cs => have := hr c rfl; simp [this]

theorem scanIdent_word {w rest : List Char} (hw : ∀ c ∈ w, isIdChar c = true) (hr : StopId rest) :
    scanIdent (w ++ rest) = (⟨if numStart 0 0 w = 0 then .ident else .idnum, w⟩, rest) := by
  obtain ⟨h1, h2⟩ := takeWhile_stop hw hr
  simp [scanIdent, h1, h2]

/-- The token of an identifier. -/
def wordTok (w : List Char) : Tok := ⟨if numStart 0 0 w = 0 then .ident else .idnum, w⟩

theorem wordTok_cases (w : List Char) : (wordTok w).tok = .ident ∨ (wordTok w).tok = .idnum := by
  unfold wordTok; split <;> simp

/-- The token of a name. -/
def nameTok (nm : List Char) : Tok :=
  if nm.head? = some '$' then ⟨.semIdent, nm⟩
  else if nm.head? = some '\'' then ⟨.sqString, nm⟩
  else if nm.head? = some '"' then ⟨.string, nm⟩
  else wordTok nm

theorem nameTok_lit (nm : List Char) : (nameTok nm).lit = nm := by
  unfold nameTok; split_ifs <;> rfl

theorem nameTok_func (nm : List Char) : isFuncSym (nameTok nm).tok = true := by
  unfold nameTok
  split_ifs <;> try rfl
  rcases wordTok_cases nm with h | h <;> rw [h] <;> rfl

theorem isIdChar_of_digit {c : Char} (h : c.isDigit = true) : isIdChar c = true := by
  simp [isIdChar, Char.isAlphanum, h]

theorem isStartId_of_lower {c : Char} (h : c.isLower = true) : isStartId c = true := by
  simp [isStartId, Char.isAlpha, h]

theorem isIdChar_of_start {c : Char} (h : isStartId c = true) : isIdChar c = true := by
  simp only [isStartId, isIdChar, Char.isAlphanum, Bool.or_eq_true, beq_iff_eq] at h ⊢
  tauto

theorem isSpaceC_of_start {c : Char} (h : isStartId c = true) : isSpaceC c = false := by
  by_contra hn
  have : c = ' ' ∨ c = '\t' ∨ c = '\n' ∨ c = '\r' ∨ c.toNat = 11 ∨ c.toNat = 12 := by
    by_contra hm; simp only [not_or] at hm; simp [isSpaceC, hm] at hn
  simp only [isStartId, Char.isAlpha, Char.isUpper, Char.isLower, Bool.or_eq_true, Bool.and_eq_true, decide_eq_true_eq, beq_iff_eq] at h
  have e : c.toNat = c.val.toNat := rfl
  rcases this with rfl | rfl | rfl | rfl | h' | h'
  · revert h; decide
  · revert h; decide
  · revert h; decide
  · revert h; decide
  all_goals
    rcases h with (h | h) | rfl
    · have := UInt32.le_iff_toNat_le.1 h.1; rw [e] at h'; rw [h'] at this; revert this; decide
    · have := UInt32.le_iff_toNat_le.1 h.1; rw [e] at h'; rw [h'] at this; revert this; decide
    · revert h'; decide

theorem scanToken_word {c : Char} {cs rest : List Char} (hc : isStartId c = true) (hw : ∀ d ∈ cs, isIdChar d = true) (hr : StopId rest) :
    scanToken ((c :: cs) ++ rest) = some (wordTok (c :: cs), rest) := by
  have hw' : ∀ d ∈ c :: cs, isIdChar d = true := by
    intro d hd
    rcases List.mem_cons.1 hd with rfl | hd
    · exact isIdChar_of_start hc
    · exact hw d hd
  rw [List.cons_append, scanToken_cons, if_neg (by rw [isSpaceC_of_start hc]; simp), if_pos hc, ← List.cons_append, scanIdent_word hw' hr]
  rfl

theorem scans_word {c : Char} {cs rest : List Char} {ts : List Tok} (hc : isStartId c = true) (hw : ∀ d ∈ cs, isIdChar d = true)
    (hr : StopId rest) (h : Scans rest ts) : Scans ((c :: cs) ++ rest) (wordTok (c :: cs) :: ts) := by
  refine Scans.step (scanToken_word hc hw hr) (by simp; omega) ?_ ?_ ?_ h <;>
    (rcases wordTok_cases (c :: cs) with h | h <;> rw [h] <;> simp)

/-- The loop of `scan_string` on the inside of a quoted name. -/
theorem scanStr_body {q : Char} (hq : q ≠ '\\') {b : List Char} (hb : StrBody q b) (cur : Char) (acc rest : List Char) :
    scanStr q false cur acc (b ++ q :: rest) = some (acc ++ b ++ [q], rest) := by
  induction hb generalizing cur acc with
  | nil => simp [scanStr]
  | @char c b h1 h2 h3 _ ih =>
    have h3' : (!isPrintC c && decide (c.toNat ≤ 127)) = false := by
      rcases h3 with h3 | h3
      · simp [h3]
      · simp; omega
    simp [scanStr, h1, h2, h3', ih]
  | esc _ ih =>
    have : isPrintC '\\' = true := by decide
    simp [scanStr, Ne.symm hq, this, ih]

theorem scanToken_quoted {q : Char} (hq : q = '\'' ∨ q = '"') {b : List Char} (hb : StrBody q b) (rest : List Char) :
    scanToken ((q :: (b ++ [q])) ++ rest) = some (⟨if q = '\'' then .sqString else .string, q :: (b ++ [q])⟩, rest) := by
  have hq' : q ≠ '\\' := by rcases hq with rfl | rfl <;> decide
  have e : (q :: (b ++ [q])) ++ rest = q :: (b ++ q :: rest) := by simp
  rw [e, scanToken_cons, scanStr_body hq' hb]
  rcases hq with rfl | rfl
  · rw [if_neg (by decide), if_neg (by decide), if_neg (by decide), if_neg (by decide), if_neg (by simp), if_pos (by decide)]
    simp
  · rw [if_neg (by decide), if_neg (by decide), if_neg (by decide), if_neg (by decide), if_neg (by simp), if_pos (by decide)]
    simp

theorem scans_name {nm rest : List Char} {ts : List Tok} (hn : NameOK nm) (hr : StopId rest) (h : Scans rest ts) :
    Scans (nm ++ rest) (nameTok nm :: ts) := by
  rcases hn with ⟨c, cs, rfl, hc, hw⟩ | ⟨cs, rfl, hne, hw, h1, h2, -⟩ | ⟨b, rfl, hb⟩ | ⟨b, rfl, hb⟩
  · have e : nameTok (c :: cs) = wordTok (c :: cs) := by
      have : c ≠ '$' ∧ c ≠ '\'' ∧ c ≠ '"' := by
        refine ⟨?_, ?_, ?_⟩ <;> (rintro rfl; revert hc; decide)
      simp [nameTok, this]
    rw [e]
    exact scans_word (isStartId_of_lower hc) hw hr h
  · have e : nameTok ('$' :: cs) = ⟨.semIdent, '$' :: cs⟩ := by simp [nameTok]
    rw [e]
    refine Scans.step (rest := rest) ?_ (by simp; omega) (by simp) (by simp) (by simp) h
    obtain ⟨d, ds, rfl⟩ : ∃ d ds, cs = d :: ds := by
      cases cs with
      | nil => exact absurd rfl hne
      | cons d ds => exact ⟨d, ds, rfl⟩
    have hd : isIdChar d = true := hw d (by simp)
    rw [List.cons_append, scanToken_cons, if_neg (by decide), if_neg (by decide), if_neg (by decide), if_neg (by decide), if_neg (by simp),
      if_neg (by decide), if_pos (by simp [hd]), scanIdent_word hw hr]
    simp only [h1, h2, if_false]
  · have e : nameTok ('\'' :: (b ++ ['\''])) = ⟨.sqString, '\'' :: (b ++ ['\''])⟩ := by simp [nameTok]
    rw [e]
    refine Scans.step (rest := rest) ?_ (by simp; omega) (by simp) (by simp) (by simp) h
    simpa using scanToken_quoted (Or.inl rfl) hb rest
  · have e : nameTok ('"' :: (b ++ ['"'])) = ⟨.string, '"' :: (b ++ ['"'])⟩ := by simp [nameTok]
    rw [e]
    refine Scans.step (rest := rest) ?_ (by simp; omega) (by simp) (by simp) (by simp) h
    simpa using scanToken_quoted (Or.inr rfl) hb rest

theorem scans_var {x : Nat} {rest : List Char} {ts : List Tok} (hr : StopId rest) (h : Scans rest ts) :
    Scans (varName x ++ rest) (wordTok (varName x) :: ts) := by
  unfold varName
  refine scans_word ?_ (fun d hd => isIdChar_of_digit (dec_digits _ d hd)) hr h
  split <;> decide

/-- One-character tokens. -/
theorem scans_single {c : Char} {k : TokT} {rest : List Char} {ts : List Tok}
    (hs : ∀ cs, scanToken (c :: cs) = some (⟨k, [c]⟩, cs)) (h1 : k ≠ .noToken) (h2 : k ≠ .white) (h3 : k ≠ .comment)
    (h : Scans rest ts) : Scans (c :: rest) (⟨k, [c]⟩ :: ts) :=
  Scans.step (hs rest) (by simp) h1 h2 h3 h

/-- The branch of `scan_token` for operators. -/
theorem scanToken_op {c : Char} {cs : List Char} (h1 : isSpaceC c = false) (h2 : isStartId c = false) (h3 : c.isDigit = false)
    (h4 : c ≠ '#' ∧ c ≠ '%' ∧ c ≠ '/' ∧ c ≠ '"' ∧ c ≠ '\'' ∧ c ≠ '$') : scanToken (c :: cs) = scanOp c cs := by
  obtain ⟨h4, h5, h6, h7, h8, h9⟩ := h4
  simp [scanToken, h1, h2, h3, h4, h5, h6, h7, h8, h9]

theorem scans_open {rest : List Char} {ts : List Tok} (h : Scans rest ts) : Scans ('(' :: rest) (⟨.openBracket, ['(']⟩ :: ts) :=
  scans_single (fun cs => by rw [scanToken_op] <;> first | rfl | decide) (by simp) (by simp) (by simp) h

theorem scans_close {rest : List Char} {ts : List Tok} (h : Scans rest ts) : Scans (')' :: rest) (⟨.closeBracket, [')']⟩ :: ts) :=
  scans_single (fun cs => by rw [scanToken_op] <;> first | rfl | decide) (by simp) (by simp) (by simp) h

theorem scans_comma {rest : List Char} {ts : List Tok} (h : Scans rest ts) : Scans (',' :: rest) (⟨.comma, [',']⟩ :: ts) :=
  scans_single (fun cs => by rw [scanToken_op] <;> first | rfl | decide) (by simp) (by simp) (by simp) h

theorem scans_pipe {rest : List Char} {ts : List Tok} (h : Scans rest ts) : Scans ('|' :: rest) (⟨.pipe, ['|']⟩ :: ts) :=
  scans_single (fun cs => by rw [scanToken_op] <;> first | rfl | decide) (by simp) (by simp) (by simp) h

theorem scans_amp {rest : List Char} {ts : List Tok} (h : Scans rest ts) : Scans ('&' :: rest) (⟨.ampersand, ['&']⟩ :: ts) :=
  scans_single (fun cs => by rw [scanToken_op] <;> first | rfl | decide) (by simp) (by simp) (by simp) h

theorem scans_stop {rest : List Char} {ts : List Tok} (h : Scans rest ts) : Scans ('.' :: rest) (⟨.fullstop, ['.']⟩ :: ts) :=
  scans_single (fun cs => by rw [scanToken_op] <;> first | rfl | decide) (by simp) (by simp) (by simp) h

theorem scans_colon {rest : List Char} {ts : List Tok} (h : Scans rest ts) : Scans (':' :: rest) (⟨.colon, [':']⟩ :: ts) :=
  scans_single (fun cs => by rw [scanToken_op] <;> first | rfl | decide) (by simp) (by simp) (by simp) h

theorem scans_openSq {rest : List Char} {ts : List Tok} (h : Scans rest ts) : Scans ('[' :: rest) (⟨.openSquare, ['[']⟩ :: ts) :=
  scans_single (fun cs => by rw [scanToken_op] <;> first | rfl | decide) (by simp) (by simp) (by simp) h

theorem scans_closeSq {rest : List Char} {ts : List Tok} (h : Scans rest ts) : Scans (']' :: rest) (⟨.closeSquare, [']']⟩ :: ts) :=
  scans_single (fun cs => by rw [scanToken_op] <;> first | rfl | decide) (by simp) (by simp) (by simp) h

theorem scans_quest {rest : List Char} {ts : List Tok} (h : Scans rest ts) : Scans ('?' :: rest) (⟨.question, ['?']⟩ :: ts) :=
  scans_single (fun cs => by rw [scanToken_op] <;> first | rfl | decide) (by simp) (by simp) (by simp) h

theorem scans_space {rest : List Char} {ts : List Tok} (hr : ∀ c, rest.head? = some c → isSpaceC c = false) (h : Scans rest ts) :
    Scans (' ' :: rest) ts := by
  obtain ⟨h1, h2⟩ := takeWhile_stop (p := isSpaceC) (w := [' ']) (rest := rest) (by simp [isSpaceC]) hr
  refine Scans.skip (t := ⟨.white, [' ']⟩) (rest := rest) ?_ (by simp) rfl h
  rw [scanToken_cons, if_pos (by decide)]
  simp only [List.singleton_append] at h1 h2
  rw [h1, h2]

theorem scans_bang {rest : List Char} {ts : List Tok} (hr : rest.head? ≠ some '=') (h : Scans rest ts) :
    Scans ('!' :: rest) (⟨.exclamation, ['!']⟩ :: ts) := by
  refine Scans.step (rest := rest) ?_ (by simp) (by simp) (by simp) (by simp) h
  rw [scanToken_op (by decide) (by decide) (by decide) (by decide)]
  cases rest with
  | nil => rfl
  | cons c cs => simp only [List.head?_cons, ne_eq, Option.some.injEq] at hr; simp [scanOp, hr]

theorem scans_eq {rest : List Char} {ts : List Tok} (hr : rest.head? ≠ some '>') (h : Scans rest ts) :
    Scans ('=' :: rest) (⟨.equalSign, ['=']⟩ :: ts) := by
  refine Scans.step (rest := rest) ?_ (by simp) (by simp) (by simp) (by simp) h
  rw [scanToken_op (by decide) (by decide) (by decide) (by decide)]
  cases rest with
  | nil => rfl
  | cons c cs => simp only [List.head?_cons, ne_eq, Option.some.injEq] at hr; simp [scanOp, hr]

theorem scans_tilde {rest : List Char} {ts : List Tok} (hr : rest.head? ≠ some '|') (hr' : rest.head? ≠ some '&') (h : Scans rest ts) :
    Scans ('~' :: rest) (⟨.tilde, ['~']⟩ :: ts) := by
  refine Scans.step (rest := rest) ?_ (by simp) (by simp) (by simp) (by simp) h
  rw [scanToken_op (by decide) (by decide) (by decide) (by decide)]
  cases rest with
  | nil => rfl
  | cons c cs => simp only [List.head?_cons, ne_eq, Option.some.injEq] at hr hr'; simp [scanOp, hr, hr']

theorem scans_neq {rest : List Char} {ts : List Tok} (h : Scans rest ts) :
    Scans ('!' :: '=' :: rest) (⟨.negEqualSign, "!=".toList⟩ :: ts) := by
  refine Scans.step (rest := rest) ?_ (by simp; omega) (by simp) (by simp) (by simp) h
  rw [scanToken_op (by decide) (by decide) (by decide) (by decide)]
  rfl

theorem scans_impl {rest : List Char} {ts : List Tok} (h : Scans rest ts) :
    Scans ('=' :: '>' :: rest) (⟨.lrImpl, "=>".toList⟩ :: ts) := by
  refine Scans.step (rest := rest) ?_ (by simp; omega) (by simp) (by simp) (by simp) h
  rw [scanToken_op (by decide) (by decide) (by decide) (by decide)]
  rfl

theorem scans_equiv {rest : List Char} {ts : List Tok} (h : Scans rest ts) :
    Scans ('<' :: '=' :: '>' :: rest) (⟨.equiv, "<=>".toList⟩ :: ts) := by
  refine Scans.step (rest := rest) ?_ (by simp; omega) (by simp) (by simp) (by simp) h
  rw [scanToken_op (by decide) (by decide) (by decide) (by decide)]
  rfl

theorem scans_xor {rest : List Char} {ts : List Tok} (h : Scans rest ts) :
    Scans ('<' :: '~' :: '>' :: rest) (⟨.xor, "<~>".toList⟩ :: ts) := by
  refine Scans.step (rest := rest) ?_ (by simp; omega) (by simp) (by simp) (by simp) h
  rw [scanToken_op (by decide) (by decide) (by decide) (by decide)]
  rfl

theorem scans_bimpl {rest : List Char} {ts : List Tok} (hr : rest.head? ≠ some '>') (h : Scans rest ts) :
    Scans ('<' :: '=' :: rest) (⟨.rlImpl, "<=".toList⟩ :: ts) := by
  refine Scans.step (rest := rest) ?_ (by simp; omega) (by simp) (by simp) (by simp) h
  rw [scanToken_op (by decide) (by decide) (by decide) (by decide)]
  cases rest with
  | nil => rfl
  | cons c cs => simp only [List.head?_cons, ne_eq, Option.some.injEq] at hr; simp [scanOp, hr]

theorem scans_nand {rest : List Char} {ts : List Tok} (h : Scans rest ts) :
    Scans ('~' :: '&' :: rest) (⟨.nand, "~&".toList⟩ :: ts) := by
  refine Scans.step (rest := rest) ?_ (by simp; omega) (by simp) (by simp) (by simp) h
  rw [scanToken_op (by decide) (by decide) (by decide) (by decide)]
  rfl

theorem scans_nor {rest : List Char} {ts : List Tok} (h : Scans rest ts) :
    Scans ('~' :: '|' :: rest) (⟨.nor, "~|".toList⟩ :: ts) := by
  refine Scans.step (rest := rest) ?_ (by simp; omega) (by simp) (by simp) (by simp) h
  rw [scanToken_op (by decide) (by decide) (by decide) (by decide)]
  rfl

/-! ## Terms -/

def tkOpen : Tok := ⟨.openBracket, ['(']⟩
def tkClose : Tok := ⟨.closeBracket, [')']⟩
def tkComma : Tok := ⟨.comma, [',']⟩

mutual
/-- The tokens of a term. -/
def toksTerm (sg : SigTab) : Term → List Tok
  | .var x => [wordTok (varName x)]
  | .app f ts => nameTok (symName sg f) :: toksArgs sg ts
def toksArgs (sg : SigTab) : List Term → List Tok
  | [] => []
  | t :: ts => tkOpen :: (toksTerm sg t ++ toksRest sg ts)
def toksRest (sg : SigTab) : List Term → List Tok
  | [] => [tkClose]
  | t :: ts => tkComma :: (toksTerm sg t ++ toksRest sg ts)
end

/-- Terms over the vocabulary with any symbol at the top. -/
def TopOK (V : Vocab) (sg : SigTab) : Term → Prop
  | .var _ => True
  | .app f ts => SymOK V sg f ts.length ∧ FnTerms V sg ts

theorem FnTerm.top {V : Vocab} {sg : SigTab} {t : Term} (h : FnTerm V sg t) : TopOK V sg t := by
  cases t with
  | var x => trivial
  | app f ts => simp only [FnTerm] at h; exact ⟨h.1, h.2.2⟩

theorem AtomOK.top {V : Vocab} {sg : SigTab} {t : Term} (h : AtomOK V sg t) : TopOK V sg t := by
  cases t with
  | var x => trivial
  | app f ts => exact ⟨h.1, h.2.2⟩

theorem SymOK.name {V : Vocab} {sg : SigTab} {f n : Nat} (h : SymOK V sg f n) : NameOK (symName sg f) := by
  obtain ⟨e, he, rfl, ok⟩ := h
  simp only [symName, he]
  exact V.name_ok ok

theorem StopId.cons {c : Char} {cs : List Char} (h : isIdChar c = false) : StopId (c :: cs) := by
  intro d hd
  simp only [List.head?_cons, Option.some.injEq] at hd
  exact hd ▸ h

theorem printRest_stop (sg : SigTab) (ts : List Term) (rest : List Char) : StopId (printRest sg ts ++ rest) := by
  cases ts <;> exact StopId.cons (by decide)

mutual
theorem scans_term {V : Vocab} {sg : SigTab} : ∀ (t : Term) {rest : List Char} {ts : List Tok}, TopOK V sg t → StopId rest → Scans rest ts →
    Scans (printTerm sg t ++ rest) (toksTerm sg t ++ ts)
  | .var x, rest, ts, _, hr, h => by
    simp only [printTerm, toksTerm]
    exact scans_var hr h
  | .app f us, rest, ts, ht, hr, h => by
    simp only [printTerm, toksTerm, List.append_assoc, List.cons_append]
    refine scans_name ht.1.name ?_ (scans_args us ht.2 h)
    cases us with
    | nil => exact hr
    | cons u us => exact StopId.cons (by decide)
theorem scans_args {V : Vocab} {sg : SigTab} : ∀ (us : List Term) {rest : List Char} {ts : List Tok}, FnTerms V sg us → Scans rest ts →
    Scans (printArgs sg us ++ rest) (toksArgs sg us ++ ts)
  | [], rest, ts, _, h => h
  | u :: us, rest, ts, ht, h => by
    simp only [FnTerms] at ht
    simp only [printArgs, toksArgs, List.append_assoc, List.cons_append]
    exact scans_open (scans_term u ht.1.top (printRest_stop sg us rest) (scans_rest us ht.2 h))
theorem scans_rest {V : Vocab} {sg : SigTab} : ∀ (us : List Term) {rest : List Char} {ts : List Tok}, FnTerms V sg us → Scans rest ts →
    Scans (printRest sg us ++ rest) (toksRest sg us ++ ts)
  | [], rest, ts, _, h => scans_close h
  | u :: us, rest, ts, ht, h => by
    simp only [FnTerms] at ht
    simp only [printRest, toksRest, List.append_assoc, List.cons_append]
    exact scans_comma (scans_term u ht.1.top (printRest_stop sg us rest) (scans_rest us ht.2 h))
end

/-- How terms and formulas start. -/
def Start (cs : List Char) : Prop := ∃ c cs', cs = c :: cs' ∧ c ≠ '>' ∧ c ≠ '=' ∧ c ≠ '|' ∧ c ≠ '&' ∧ isSpaceC c = false

theorem Start.append {cs : List Char} (h : Start cs) (ds : List Char) : Start (cs ++ ds) := by
  obtain ⟨c, cs', rfl, h⟩ := h
  exact ⟨c, cs' ++ ds, rfl, h⟩

theorem Start.head {cs : List Char} (h : Start cs) : cs.head? ≠ some '>' ∧ cs.head? ≠ some '=' ∧ cs.head? ≠ some '|' ∧
    cs.head? ≠ some '&' ∧ ∀ c, cs.head? = some c → isSpaceC c = false := by
  obtain ⟨c, cs', rfl, h1, h2, h3, h4, h5⟩ := h
  simp [h1, h2, h3, h4, h5]

theorem start_of_startId {c : Char} {cs : List Char} (h : isStartId c = true) : Start (c :: cs) := by
  refine ⟨c, cs, rfl, ?_, ?_, ?_, ?_, isSpaceC_of_start h⟩ <;> (rintro rfl; revert h; decide)

theorem NameOK.start {nm : List Char} (h : NameOK nm) : Start nm := by
  rcases h with ⟨c, cs, rfl, hc, _⟩ | ⟨cs, rfl, _⟩ | ⟨b, rfl, _⟩ | ⟨b, rfl, _⟩
  · exact start_of_startId (isStartId_of_lower hc)
  all_goals exact ⟨_, _, rfl, by decide, by decide, by decide, by decide, by decide⟩

theorem start_var (x : Nat) : Start (varName x) := by
  unfold varName
  refine start_of_startId ?_
  split <;> decide

theorem start_term {V : Vocab} {sg : SigTab} {t : Term} (h : TopOK V sg t) : Start (printTerm sg t) := by
  cases t with
  | var x => simp only [printTerm]; exact start_var x
  | app f ts => simp only [printTerm]; exact (h.1.name.start).append _

/-! ## Literals and clauses -/

def tkEq : Tok := ⟨.equalSign, ['=']⟩
def tkNeq : Tok := ⟨.negEqualSign, "!=".toList⟩
def tkTilde : Tok := ⟨.tilde, ['~']⟩
def tkPipe : Tok := ⟨.pipe, ['|']⟩

/-- The tokens of an equation or atom with a sign. -/
def toksSides (sg : SigTab) (pos : Bool) (l r : Term) : List Tok :=
  if r ≠ tTrue then toksTerm sg l ++ (if pos then tkEq else tkNeq) :: toksTerm sg r
  else (if pos then [] else [tkTilde]) ++ toksTerm sg l

def printSides (sg : SigTab) (pos : Bool) (l r : Term) : List Char :=
  if r ≠ tTrue then printTerm sg l ++ (if pos then "=".toList else "!=".toList) ++ printTerm sg r
  else (if pos then [] else ['~']) ++ printTerm sg l

theorem scans_sides {V : Vocab} {sg : SigTab} {pos : Bool} {l r : Term} {rest : List Char} {ts : List Tok} (h : SidesOK V sg l r)
    (hr : StopId rest) (hs : Scans rest ts) : Scans (printSides sg pos l r ++ rest) (toksSides sg pos l r ++ ts) := by
  unfold printSides toksSides
  by_cases hrt : r = tTrue
  · rw [if_neg (not_not.2 hrt), if_neg (not_not.2 hrt)]
    have hl : TopOK V sg l := by
      rcases h with h | h
      · exact h.1.top
      · exact h.1.top
    cases pos with
    | true => exact scans_term l hl hr hs
    | false =>
      simp only [Bool.false_eq_true, if_false, List.cons_append]
      have := (start_term (sg := sg) hl).append rest
      exact scans_tilde this.head.2.2.1 this.head.2.2.2.1 (scans_term l hl hr hs)
  · rw [if_pos hrt, if_pos hrt]
    obtain ⟨hl, hr'⟩ : FnTerm V sg l ∧ FnTerm V sg r := by
      rcases h with h | h
      · exact absurd h.2.2 hrt
      · exact h
    have h2 := scans_term r hr'.top hr hs
    have hst := (start_term (sg := sg) hr'.top).append rest
    cases pos with
    | true =>
      simp only [if_true, List.append_assoc, List.cons_append]
      exact scans_term l hl.top (StopId.cons (by decide)) (scans_eq hst.head.1 h2)
    | false =>
      simp only [Bool.false_eq_true, if_false, List.append_assoc, List.cons_append]
      exact scans_term l hl.top (StopId.cons (by decide)) (scans_neq h2)

/-- The tokens of a literal of a clause. -/
def toksLit (sg : SigTab) (L : Lit) : List Tok :=
  if L.pos = false ∧ L.l = L.r then [nameTok "$false".toList] else toksSides sg L.pos L.l L.r

theorem dollar_ok {nm : List Char} (h : nm = "$false".toList ∨ nm = "$true".toList) : NameOK nm := by
  rcases h with rfl | rfl
  · exact Or.inr (Or.inl ⟨"false".toList, by decide, by decide, by decide, by decide, by decide, by decide⟩)
  · exact Or.inr (Or.inl ⟨"true".toList, by decide, by decide, by decide, by decide, by decide, by decide⟩)

theorem scans_lit {V : Vocab} {sg : SigTab} {L : Lit} {rest : List Char} {ts : List Tok} (h : SidesOK V sg L.l L.r) (hr : StopId rest)
    (hs : Scans rest ts) : Scans (printLit sg L ++ rest) (toksLit sg L ++ ts) := by
  unfold printLit toksLit
  by_cases hf : L.pos = false ∧ L.l = L.r
  · rw [if_pos hf, if_pos hf]
    exact scans_name (dollar_ok (Or.inl rfl)) hr hs
  · rw [if_neg hf, if_neg hf]
    exact scans_sides h hr hs

def toksLits (sg : SigTab) : List Lit → List Tok
  | [] => []
  | [L] => toksLit sg L
  | L :: Ls => toksLit sg L ++ tkPipe :: toksLits sg Ls

theorem scans_lits {V : Vocab} {sg : SigTab} : ∀ {C : List Lit} {rest : List Char} {ts : List Tok}, ClauseOK V sg C → StopId rest → Scans rest ts →
    Scans (printLits sg C ++ rest) (toksLits sg C ++ ts)
  | [], _, _, _, _, hs => hs
  | [L], _, _, h, hr, hs => scans_lit (h L (by simp)) hr hs
  | L :: M :: Ls, rest, ts, h, hr, hs => by
    simp only [printLits, toksLits, List.append_assoc, List.cons_append]
    exact scans_lit (h L (by simp)) (StopId.cons (by decide)) (scans_pipe (scans_lits (fun K hK => h K (List.mem_cons_of_mem _ hK)) hr hs))

/-- The tokens of the literals of a clause. -/
def toksCore (sg : SigTab) (C : List Lit) : List Tok := if C = [] then [nameTok "$false".toList] else toksLits sg C

/-- The tokens of a clause. -/
def toksClause (sg : SigTab) (nm : List Char) (role : CRole) (C : List Lit) : List Tok :=
  wordTok "cnf".toList :: tkOpen :: wordTok nm :: tkComma :: wordTok role.print :: tkComma :: tkOpen ::
    (toksCore sg C ++ [tkClose, tkClose, ⟨.fullstop, ['.']⟩])

theorem scans_wordStr {w rest : List Char} {ts : List Tok} (h0 : w ≠ []) (hc : ∀ c, w.head? = some c → isStartId c = true)
    (hw : ∀ d ∈ w, isIdChar d = true) (hr : StopId rest) (h : Scans rest ts) : Scans (w ++ rest) (wordTok w :: ts) := by
  cases w with
  | nil => exact absurd rfl h0
  | cons c cs => exact scans_word (hc c rfl) (fun d hd => hw d (List.mem_cons_of_mem _ hd)) hr h

theorem scans_clause {V : Vocab} {sg : SigTab} {C : List Lit} (h : ClauseOK V sg C) (new : Bool) (src num : Nat) (role : CRole) :
    Scans (printClause sg new src num role C) (toksClause sg (clauseName new src num) role C) := by
  have h0 : Scans [')', ')', '.'] [tkClose, tkClose, ⟨.fullstop, ['.']⟩] := scans_close (scans_close (scans_stop Scans.nil))
  have hstop : StopId [')', ')', '.'] := StopId.cons (by decide)
  have hcore : Scans ((if C = [] then "$false".toList else printLits sg C) ++ [')', ')', '.'])
      (toksCore sg C ++ [tkClose, tkClose, ⟨.fullstop, ['.']⟩]) := by
    unfold toksCore
    by_cases hC : C = []
    · rw [if_pos hC, if_pos hC]
      exact scans_name (dollar_ok (Or.inl rfl)) hstop h0
    · rw [if_neg hC, if_neg hC]
      exact scans_lits h hstop h0
  have hrole : ∀ {rest : List Char} {ts : List Tok}, StopId rest → Scans rest ts →
      Scans (role.print ++ rest) (wordTok role.print :: ts) ∧ Start role.print := by
    intro rest ts hr hs
    have : role.print ≠ [] ∧ (∀ c, role.print.head? = some c → isStartId c = true) ∧ ∀ d ∈ role.print, isIdChar d = true := by
      cases role <;> decide
    refine ⟨scans_wordStr this.1 this.2.1 this.2.2 hr hs, ?_⟩
    cases hp : role.print with
    | nil => exact absurd hp this.1
    | cons c cs => exact start_of_startId (this.2.1 c (by rw [hp]; rfl))
  have h1 : Scans ('(' :: ((if C = [] then "$false".toList else printLits sg C) ++ [')', ')', '.'])) _ := scans_open hcore
  have h2 : Scans (',' :: ' ' :: '(' :: ((if C = [] then "$false".toList else printLits sg C) ++ [')', ')', '.'])) _ :=
    scans_comma (scans_space (fun c hc => by simp at hc; subst hc; decide) h1)
  obtain ⟨h3, hst⟩ := hrole (StopId.cons (by decide)) h2
  have h4 : Scans (',' :: ' ' :: (role.print ++ _)) _ := scans_comma (scans_space (hst.append _).head.2.2.2.2 h3)
  have hname : clauseName new src num ≠ [] ∧ (∀ c, (clauseName new src num).head? = some c → isStartId c = true) ∧
      ∀ d ∈ clauseName new src num, isIdChar d = true := by
    refine ⟨by simp [clauseName], ?_, ?_⟩
    · intro c hc
      simp only [clauseName, List.head?_cons, Option.some.injEq] at hc
      subst hc; cases new <;> decide
    · intro d hd
      simp only [clauseName, List.mem_cons, List.mem_append] at hd
      rcases hd with rfl | rfl | hd | rfl | hd
      · cases new <;> decide
      · decide
      · exact isIdChar_of_digit (dec_digits _ d hd)
      · decide
      · exact isIdChar_of_digit (dec_digits _ d hd)
  have h5 := scans_wordStr hname.1 hname.2.1 hname.2.2 (StopId.cons (by decide)) h4
  have h6 := scans_wordStr (w := "cnf".toList) (by decide) (by decide) (by decide) (StopId.cons (by decide)) (scans_open h5)
  refine (congrArg (fun cs => Scans cs _) ?_).mp h6
  simp [printClause, printClauseCore, clauseName]

/-! ## Formulas -/

def tkColon : Tok := ⟨.colon, [':']⟩
def tkOpenSq : Tok := ⟨.openSquare, ['[']⟩
def tkCloseSq : Tok := ⟨.closeSquare, [']']⟩

/-- The token of a connective. -/
def tkOp : BOp → Tok
  | .and => ⟨.ampersand, ['&']⟩
  | .or => tkPipe
  | .impl => ⟨.lrImpl, "=>".toList⟩
  | .equiv => ⟨.equiv, "<=>".toList⟩
  | .nand => ⟨.nand, "~&".toList⟩
  | .nor => ⟨.nor, "~|".toList⟩
  | .bimpl => ⟨.rlImpl, "<=".toList⟩
  | .xor => ⟨.xor, "<~>".toList⟩

def tkQu (u : Bool) : Tok := if u then ⟨.exclamation, ['!']⟩ else ⟨.question, ['?']⟩

theorem scans_op (op : BOp) {rest : List Char} {ts : List Tok} (hr : Start rest) (h : Scans rest ts) :
    Scans (opName op ++ rest) (tkOp op :: ts) := by
  cases op
  · exact scans_amp h
  · exact scans_pipe h
  · exact scans_impl h
  · exact scans_equiv h
  · exact scans_nand h
  · exact scans_nor h
  · exact scans_bimpl hr.head.1 h
  · exact scans_xor h

def PMode.wrapToks (m : PMode) (s : List Tok) : List Tok :=
  match m with
  | .tail _ => tkCloseSq :: tkColon :: tkOpen :: (s ++ [tkClose])
  | _ => s

/-- The tokens of a formula. -/
def toksForm (sg : SigTab) : Form → PMode → List Tok
  | .lit pos l r, m => m.wrapToks (toksSides sg pos l r)
  | .atom t, m => m.wrapToks (toksTerm sg t)
  | .not f, m => m.wrapToks (tkTilde :: tkOpen :: (toksForm sg f .top ++ [tkClose]))
  | .bin op f g, m =>
    if op = .or then
      let chain := toksForm sg f .orc ++ tkPipe :: toksForm sg g .top
      if m = .orc then chain else m.wrapToks (tkOpen :: (chain ++ [tkClose]))
    else m.wrapToks (tkOpen :: (toksForm sg f .top ++ tkOp op :: (toksForm sg g .top ++ [tkClose])))
  | .qu u x f, m =>
    let start := tkQu u :: tkOpenSq :: wordTok (varName x) :: toksForm sg f (.tail u)
    match m with
    | .tail u' => if u = u' then tkComma :: wordTok (varName x) :: toksForm sg f (.tail u) else m.wrapToks start
    | _ => start

theorem isPred_tf {V : Vocab} {sg : SigTab} (hV : VocabTF V) (hs : SigTF sg) : isPredSym V sg 1 = true ∧ isPredSym V sg 2 = true := by
  obtain ⟨e, he, hp, ha, _⟩ := hs.t
  obtain ⟨e', he', hp', ha', _⟩ := hs.f
  have r1 : rawName "$true".toList = "$true".toList := by decide
  have r2 : rawName "$false".toList = "$false".toList := by decide
  simp only [isPredSym, he, he', hp, hp', ha, ha', r1, r2]
  exact ⟨hV.t_pred, hV.f_pred⟩

theorem FnTerm.ne_tf {V : Vocab} {sg : SigTab} (hV : VocabTF V) (hs : SigTF sg) {t : Term} (h : FnTerm V sg t) : t ≠ tTrue ∧ t ≠ tFalse := by
  obtain ⟨h1, h2⟩ := isPred_tf hV hs
  constructor
  · rintro rfl; simp [tTrue, FnTerm, h1] at h
  · rintro rfl; simp [tFalse, FnTerm, h2] at h

theorem mkEqn_sides {V : Vocab} {sg : SigTab} (hV : VocabTF V) (hs : SigTF sg) {l r : Term} (h : SidesOK V sg l r) (pos : Bool) :
    mkEqn pos l r = ⟨pos, l, r⟩ := by
  have tf : tTrue ≠ tFalse := by decide
  rcases h with ⟨_, h1, rfl⟩ | ⟨h1, h2⟩
  · by_cases hl : l = tTrue
    · subst hl; simp [mkEqn, tf]
    · simp [mkEqn, tf, h1, hl]
  · have e1 := h1.ne_tf hV hs
    have e2 := h2.ne_tf hV hs
    simp [mkEqn, e1, e2]

theorem printFLit_eq {V : Vocab} {sg : SigTab} (hV : VocabTF V) (hs : SigTF sg) {l r : Term} (h : SidesOK V sg l r) (pos : Bool) :
    printFLit sg pos l r = printSides sg pos l r := by
  cases pos <;> simp [printFLit, printSides, mkEqn_sides hV hs h]

theorem start_sides {V : Vocab} {sg : SigTab} {l r : Term} (h : SidesOK V sg l r) (pos : Bool) : Start (printSides sg pos l r) := by
  have hl : TopOK V sg l := by
    rcases h with h | h
    · exact h.1.top
    · exact h.1.top
  unfold printSides
  split
  · rw [List.append_assoc]; exact (start_term hl).append _
  · cases pos with
    | true => exact start_term hl
    | false => exact ⟨_, _, rfl, by decide, by decide, by decide, by decide, by decide⟩

theorem start_form {V : Vocab} {sg : SigTab} (hV : VocabTF V) (hs : SigTF sg) {f : Form} (h : FormOK V sg f) :
    ∀ m, m = .top ∨ m = .orc → Start (printForm sg f m) := by
  induction f with
  | lit pos l r =>
    intro m hm
    have : printForm sg (.lit pos l r) m = printSides sg pos l r := by
      rw [← printFLit_eq hV hs h]; rcases hm with rfl | rfl <;> rfl
    rw [this]; exact start_sides h pos
  | atom t =>
    intro m hm
    have : printForm sg (.atom t) m = printTerm sg t := by rcases hm with rfl | rfl <;> rfl
    rw [this]; exact start_term (AtomOK.top h)
  | not f ih =>
    intro m hm
    refine ⟨'~', '(' :: (printForm sg f .top ++ [')']), ?_, by decide, by decide, by decide, by decide, by decide⟩
    rcases hm with rfl | rfl <;> rfl
  | bin op f g ihf ihg =>
    intro m hm
    have key : ∀ s, Start ('(' :: s) := fun s => ⟨_, _, rfl, by decide, by decide, by decide, by decide, by decide⟩
    unfold printForm
    by_cases ho : op = .or
    · rw [if_pos ho]
      rcases hm with rfl | rfl
      · exact key _
      · exact (ihf h.1 _ (Or.inr rfl)).append _
    · rw [if_neg ho]
      rcases hm with rfl | rfl <;> exact key _
  | qu u x f ih =>
    intro m hm
    have key : Start ((if u then "![".toList else "?[".toList) ++ (varName x ++ printForm sg f (.tail u))) := by
      refine Start.append ?_ _
      cases u
      · exact ⟨'?', ['['], by decide, by decide, by decide, by decide, by decide, by decide⟩
      · exact ⟨'!', ['['], by decide, by decide, by decide, by decide, by decide, by decide⟩
    rcases hm with rfl | rfl <;> exact key

/-- The printed text and the tokens correspond. -/
def Tokenises (s : List Char) (k : List Tok) : Prop := ∀ rest ts, StopId rest → Scans rest ts → Scans (s ++ rest) (k ++ ts)

theorem Tokenises.wrap {s : List Char} {k : List Tok} (h : Tokenises s k) (m : PMode) : Tokenises (m.wrap s) (m.wrapToks k) := by
  cases m with
  | top => exact h
  | orc => exact h
  | tail u =>
    intro rest ts _ hs
    have := scans_closeSq (scans_colon (scans_open (h _ _ (StopId.cons (by decide)) (scans_close hs))))
    refine (congrArg₂ Scans ?_ ?_).mp this
    · simp [PMode.wrap]
    · simp [PMode.wrapToks, tkCloseSq, tkColon, tkOpen, tkClose]

theorem Tokenises.paren {s : List Char} {k : List Tok} (h : Tokenises s k) : Tokenises ('(' :: (s ++ [')'])) (tkOpen :: (k ++ [tkClose])) := by
  intro rest ts _ hs
  have := scans_open (h _ _ (StopId.cons (by decide)) (scans_close hs))
  refine (congrArg₂ Scans ?_ ?_).mp this
  · simp
  · simp [tkOpen, tkClose]

theorem opName_stop (op : BOp) (cs : List Char) : StopId (opName op ++ cs) := by
  cases op <;> exact StopId.cons (by decide)

theorem tail_stop (sg : SigTab) (f : Form) (u : Bool) (rest : List Char) : StopId (printForm sg f (.tail u) ++ rest) := by
  have key : ∀ s, StopId ((PMode.tail u).wrap s ++ rest) := fun s => StopId.cons (by decide)
  cases f with
  | lit pos l r => exact key _
  | atom t => exact key _
  | not f => exact key _
  | bin op f g =>
    unfold printForm
    split <;> exact key _
  | qu u' x f =>
    unfold printForm
    simp only
    split
    · exact StopId.cons (by decide)
    · exact key _

theorem tokenises_qu {sg : SigTab} {f : Form} (u : Bool) (x : Nat) {k : List Tok} (h : Tokenises (printForm sg f (.tail u)) k) :
    Tokenises ((if u then "![".toList else "?[".toList) ++ (varName x ++ printForm sg f (.tail u)))
      (tkQu u :: tkOpenSq :: wordTok (varName x) :: k) := by
  intro rest ts hr hs
  have h1 := scans_openSq (scans_var (x := x) (tail_stop sg f u rest) (h _ _ hr hs))
  cases u with
  | true =>
    refine (congrArg₂ Scans ?_ ?_).mp (scans_bang (by simp) h1)
    · simp
    · simp [tkQu, tkOpenSq]
  | false =>
    refine (congrArg₂ Scans ?_ ?_).mp (scans_quest h1)
    · simp
    · simp [tkQu, tkOpenSq]

theorem tokenises_form {V : Vocab} {sg : SigTab} (hV : VocabTF V) (hs : SigTF sg) {f : Form} (h : FormOK V sg f) :
    ∀ m, Tokenises (printForm sg f m) (toksForm sg f m) := by
  induction f with
  | lit pos l r =>
    intro m
    simp only [printForm, toksForm, printFLit_eq hV hs h]
    exact Tokenises.wrap (fun _ _ hr h' => scans_sides h hr h') m
  | atom t =>
    intro m
    simp only [printForm, toksForm]
    exact Tokenises.wrap (fun _ _ hr h' => scans_term t (AtomOK.top h) hr h') m
  | not f ih =>
    intro m
    simp only [printForm, toksForm]
    refine Tokenises.wrap ?_ m
    intro rest ts hr h'
    have h1 := (ih h .top).paren rest ts hr h'
    have h2 : Scans ('~' :: '(' :: ((printForm sg f .top ++ [')']) ++ rest)) _ := scans_tilde (by simp) (by simp) h1
    refine (congrArg₂ Scans ?_ ?_).mp h2
    · simp
    · simp [tkTilde]
  | bin op f g ihf ihg =>
    intro m
    have key : ∀ m', m' = PMode.top ∨ m' = .orc → Tokenises (printForm sg f m' ++ (opName op ++ printForm sg g .top))
        (toksForm sg f m' ++ tkOp op :: toksForm sg g .top) := by
      intro m' _ rest ts hr h'
      have h2 := ihg h.2 .top _ _ hr h'
      have h3 := scans_op op ((start_form hV hs h.2 .top (Or.inl rfl)).append _) h2
      have h4 := ihf h.1 m' _ _ (opName_stop op _) h3
      simpa using h4
    by_cases ho : op = .or
    · subst ho
      have hk := key .orc (Or.inr rfl)
      have ho : opName .or ++ printForm sg g .top = '|' :: printForm sg g .top := rfl
      rw [ho] at hk
      simp only [printForm, toksForm, if_true]
      by_cases hm : m = .orc
      · rw [if_pos hm, if_pos hm]
        exact hk
      · rw [if_neg hm, if_neg hm]
        exact hk.paren.wrap m
    · simp only [printForm, toksForm, if_neg ho]
      have hk := (key .top (Or.inl rfl)).paren.wrap m
      simpa using hk
  | qu u x f ih =>
    intro m
    have key := tokenises_qu u x (ih h (.tail u))
    cases m with
    | top => exact key
    | orc => exact key
    | tail u' =>
      simp only [printForm, toksForm]
      by_cases hu : u = u'
      · subst hu
        rw [if_pos rfl, if_pos rfl]
        intro rest ts hr h'
        have h1 := scans_var (x := x) (tail_stop sg f u rest) (ih h (.tail u) _ _ hr h')
        have h2 := scans_comma (scans_space ((start_var x).append _).head.2.2.2.2 h1)
        refine (congrArg₂ Scans ?_ ?_).mp h2
        · simp
        · simp [tkComma]
      · rw [if_neg hu, if_neg hu]
        exact key.wrap _

theorem scans_form {V : Vocab} {sg : SigTab} (hV : VocabTF V) (hs : SigTF sg) {f : Form} (h : FormOK V sg f) :
    Scans (printForm sg f .top) (toksForm sg f .top) := by
  have := tokenises_form hV hs h .top [] [] (fun c hc => by simp at hc) Scans.nil
  simpa using this

end Text

end Verif
