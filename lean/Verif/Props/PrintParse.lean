import Verif.Text.RoundSem
import Verif.Text.NameProof

/-!
# C67, C68: what is printed is read back
-/

namespace Verif

namespace Props

open Text

universe u

/-- **C67.** A clause is printed in TPTP-3 format and read again, possibly by another process with another signature.  The text is read to its
end without an error.  The clause read has the printed name, the same type and the same literals in the same order, up to an injective
renaming of variables and the codes of symbols: every symbol is read as the symbol with the same name and arity.  `asRead` says what
becomes of literals `t != t` and of the empty clause.  If the reader knows the symbols already (same process), the codes are the same.
Missing (therefore partial): the type `conjecture` (see `clause_conjecture_rejected`), symbols not covered by a `Vocab` (see C66). -/
theorem clause_read_back_partial {V : Vocab} (hV : VocabTF V) {sg : SigTab} (hsg : SigFor V sg) (htf : SigTF sg) {st : PSt} (hst : ReadOK V st)
    (ti : Nat) {C : List Lit} (hC : ClauseOK V sg C) (new : Bool) (src num : Nat) {role : CRole} (hrole : role ≠ .conjecture) :
    ∃ C' st' h ρ, readClause ti st (printClause sg new src num role C) = some ((clauseName new src num, role, C'), st', []) ∧
      C' = (asRead C).map (mapLit h ρ) ∧
      (∀ L ∈ asRead C, ∀ f ∈ litSyms L, sg.sym f ≠ none ∧ st'.sig.sym (h f) = sg.sym f) ∧
      (∀ L ∈ asRead C, ∀ M ∈ asRead C, ∀ f ∈ litSyms L, ∀ g ∈ litSyms M, h f = h g → f = g) ∧
      (∀ x ∈ cvars (asRead C), ∀ y ∈ cvars (asRead C), ρ x = ρ y → x = y) ∧
      ReadOK V st' ∧ SigExt st.sig st'.sig ∧
      (SigExt sg st.sig → ∀ L ∈ asRead C, ∀ f ∈ litSyms L, h f = f) := by
  have hscan := (scans_clause hC new src num role).scan
  obtain ⟨C', st', hp, k1, k2, k3⟩ := parse_clause hV hsg htf ti hC hst (clauseName new src num) hrole
    (n := 4 * (toksClause sg (clauseName new src num) role C).length + 4) (by simp [toksClause]; omega)
  have hall : ∀ L L', RdLit V sg st' L L' → L' = mapLit (symMap V sg st') (varMap st') (asReadLit L) ∧
      (∀ f ∈ litSyms (asReadLit L), SymRel V sg st'.sig f (symMap V sg st' f)) ∧
      ∀ x ∈ (asReadLit L).vars, st'.ext.lookup (varName x) = some (varMap st' x) := by
    rintro L L' ⟨h1, h2, h3⟩
    obtain ⟨a1, a2, a3⟩ := Rd.map k1.sig _ _ h2
    obtain ⟨b1, b2, b3⟩ := Rd.map k1.sig _ _ h3
    refine ⟨?_, ?_, ?_⟩
    · cases L' with
      | mk p l r => simp only [mapLit] at *; rw [h1, a1, b1]
    · intro f hf
      simp only [litSyms, List.mem_append] at hf
      rcases hf with hf | hf
      · exact a2 f hf
      · exact b2 f hf
    · intro x hx
      simp only [Lit.vars, List.mem_append] at hx
      rcases hx with hx | hx
      · exact a3 x hx
      · exact b3 x hx
  have hread : asRead C = (if C = [] then [falseLit] else C).map asReadLit := by
    unfold asRead
    split
    · simp [asReadLit, falseLit]
    · rfl
  have hlist : ∀ D D' : List Lit, RdLits V sg st' D D' → D' = (D.map asReadLit).map (mapLit (symMap V sg st') (varMap st')) ∧
      ∀ L ∈ D.map asReadLit, (∀ f ∈ litSyms L, SymRel V sg st'.sig f (symMap V sg st' f)) ∧
        ∀ x ∈ L.vars, st'.ext.lookup (varName x) = some (varMap st' x) := by
    intro D D' hD
    induction hD with
    | nil => simp
    | @cons L L' D D' hL _ ih =>
      obtain ⟨h1, h2⟩ := hall L L' hL
      refine ⟨by rw [List.map_cons, List.map_cons, ← h1, ← ih.1], ?_⟩
      intro M hM
      simp only [List.map_cons, List.mem_cons] at hM
      rcases hM with rfl | hM
      · exact h2
      · exact ih.2 M hM
  obtain ⟨m1, m2⟩ := hlist _ _ k3
  rw [← hread] at m1 m2
  have hvar : ∀ x ∈ cvars (asRead C), st'.ext.lookup (varName x) = some (varMap st' x) := by
    intro x hx
    obtain ⟨L, hL, hx⟩ := List.mem_flatMap.1 hx
    exact (m2 L hL).2 x hx
  refine ⟨C', st', symMap V sg st', varMap st', ?_, m1, ?_, ?_, ?_, k1.toReadOK, k2, ?_⟩
  · simp only [readClause, hscan, hp]
  · intro L hL f hf
    have hr := (m2 L hL).1 f hf
    refine ⟨?_, hr.sym⟩
    obtain ⟨e, e', h1, _⟩ := hr
    simp [SigTab.sym, h1]
  · intro L hL M hM f hf g hg he
    have h1 := (m2 L hL).1 f hf
    have h2 := (m2 M hM).1 g hg
    rw [he] at h1
    exact h1.left hsg h2
  · intro x hx y hy he
    have h1 := hvar x hx
    have h2 := hvar y hy
    rw [he] at h1
    exact varName_inj (k1.inj _ _ _ h1 h2)
  · intro hext L hL f hf
    have h1 := (m2 L hL).1 f hf
    refine symMap_eq k1.sig ?_
    obtain ⟨e, e', a1, a2, a3, a4, a5, a6⟩ := h1
    obtain ⟨d, b1, b2, b3, b4⟩ := (hext.trans k2) f e a1
    exact ⟨e, d, a1, b1, a3, by rw [b3, b4]; exact a3, by rw [b3], by rw [b4]⟩

/-- **C67, meaning.** In an untyped problem a clause read back by the same process has the same models. -/
theorem clause_read_back_models {V : Vocab} (hV : VocabTF V) {sg : SigTab} (hsg : SigFor V sg) (htf : SigTF sg) {st : PSt} (hst : ReadOK V st)
    (hext : SigExt sg st.sig) (ti : Nat) {C : List Lit} (hC : ClauseOK V sg C) (new : Bool) (src num : Nat) {role : CRole}
    (hrole : role ≠ .conjecture) {S : Sig} (hty : ∀ x, S.vty x = ti) :
    ∃ C' st', readClause ti st (printClause sg new src num role C) = some ((clauseName new src num, role, C'), st', []) ∧
      ∀ I : Interp.{u} S, I.Models C' ↔ I.Models C := by
  obtain ⟨C', st', h, ρ, h1, rfl, -, -, h4, -, -, h7⟩ := clause_read_back_partial hV hsg htf hst ti hC new src num hrole
  refine ⟨_, st', h1, fun I => ?_⟩
  rw [models_map I hty (h7 hext) h4]
  exact forall_congr' fun v => imp_congr_right fun _ => clauseTrue_asRead I v C

/-- **C67, counterexample.** A clause of type `conjecture` is printed with a role that the reader of clauses does not accept. -/
theorem clause_conjecture_rejected {V : Vocab} {sg : SigTab} (st : PSt) (ti : Nat) {C : List Lit} (hC : ClauseOK V sg C) (new : Bool) (src num : Nat) :
    readClause ti st (printClause sg new src num .conjecture C) = none := by
  have hscan := (scans_clause hC new src num .conjecture).scan
  have hr : parseRole (wordTok CRole.conjecture.print).lit = none := by decide
  simp only [readClause, hscan, toksClause, parseClause, hr]
  split <;> rfl

/-- **C68.** A formula is printed in TPTP-3 format and read again.  The text is read to its end without an error.  The formula read has the
same connectives, quantifiers and literals in the same places, up to an injective renaming of all its variables and the codes of symbols;
`asReadForm` says what becomes of negated atoms and of Boolean constants. -/
theorem form_read_back {V : Vocab} (hV : VocabTF V) {sg : SigTab} (hsg : SigFor V sg) (htf : SigTF sg) {st : PSt} (hst : ReadOK V st)
    (hnew : st.ext = []) (ti : Nat) {f : Form} (hf : FormOK V sg f) :
    ∃ f' st' h ρ, readForm ti st (printForm sg f .top) = some (f', st', []) ∧ f' = mapForm h ρ (asReadForm f) ∧
      (∀ k ∈ formSyms (asReadForm f), sg.sym k ≠ none ∧ st'.sig.sym (h k) = sg.sym k) ∧
      (∀ k ∈ formSyms (asReadForm f), ∀ k' ∈ formSyms (asReadForm f), h k = h k' → k = k') ∧
      (∀ x ∈ formVars (asReadForm f), ∀ y ∈ formVars (asReadForm f), ρ x = ρ y → x = y) ∧
      ReadOK V st' ∧ SigExt st.sig st'.sig ∧ (SigExt sg st.sig → ∀ k ∈ formSyms (asReadForm f), h k = k) := by
  have hscan := (scans_form hV htf hf).scan
  have hok : POK V ti st :=
    { sig := hst.sig, tf := hst.tf, bank := hst.bank, inj := fun _ _ _ e => by rw [hnew] at e; simp at e,
      used := fun _ _ e => by rw [hnew] at e; simp at e }
  obtain ⟨f', st', hp, k1, k2, k3⟩ := parse_form hV hsg htf ti hf hok (n := 4 * (toksForm sg f .top).length + 4) (by omega)
  obtain ⟨m1, m2, m3⟩ := FRel.map k1.sig k3
  refine ⟨f', st', symMap V sg st', varMap st', ?_, m1, ?_, ?_, ?_, k1.toReadOK, k2.sig, ?_⟩
  · simp only [readForm, hscan, hp]
  · intro k hk
    have hr := m2 k hk
    refine ⟨?_, hr.sym⟩
    obtain ⟨e, e', h1, _⟩ := hr
    simp [SigTab.sym, h1]
  · intro k hk k' hk' he
    have h1 := m2 k hk
    rw [he] at h1
    exact h1.left hsg (m2 k' hk')
  · intro x hx y hy he
    have h1 := m3 x hx
    rw [he] at h1
    exact varName_inj (k1.inj _ _ _ h1 (m3 y hy))
  · intro hext k hk
    refine symMap_eq k1.sig ?_
    obtain ⟨e, e', a1, a2, a3, a4, a5, a6⟩ := m2 k hk
    obtain ⟨d, b1, b2, b3, b4⟩ := (hext.trans k2.sig) k e a1
    exact ⟨e, d, a1, b1, a3, by rw [b3, b4]; exact a3, by rw [b3], by rw [b4]⟩

/-- **C68, meaning.** In an untyped problem a formula read back by the same process is true in the same interpretations. -/
theorem form_read_back_valid {V : Vocab} (hV : VocabTF V) {sg : SigTab} (hsg : SigFor V sg) (htf : SigTF sg) {st : PSt} (hst : ReadOK V st)
    (hnew : st.ext = []) (hext : SigExt sg st.sig) (ti : Nat) {f : Form} (hf : FormOK V sg f) {S : Sig} (hty : ∀ x, S.vty x = ti) :
    ∃ f' st', readForm ti st (printForm sg f .top) = some (f', st', []) ∧ ∀ I : Interp.{u} S, f'.Valid I ↔ f.Valid I := by
  obtain ⟨f', st', h, ρ, h1, rfl, -, -, h4, -, -, h7⟩ := form_read_back hV hsg htf hst hnew ti hf
  refine ⟨_, st', h1, fun I => ?_⟩
  rw [valid_map I hty (h7 hext) h4]
  exact forall_congr' fun v => imp_congr_right fun _ => holds_asRead I f v

/-! ## A vocabulary, a signature, a clause and a formula -/

private theorem demoNames : GoodNames [("$true".toList, 0), ("$false".toList, 0), ("p".toList, 2), ("'A b'".toList, 1), ("a".toList, 0)] := by
  have hl : ∀ c cs, c.isLower = true → (∀ d ∈ cs, isIdChar d = true) → NameOK (c :: cs) := fun c cs h1 h2 => Or.inl ⟨c, cs, rfl, h1, h2⟩
  have hs : StrBody '\'' ['A', ' ', 'b'] := .char (by decide) (by decide) (by decide) (.char (by decide) (by decide) (by decide)
    (.char (by decide) (by decide) (by decide) .nil))
  have hfix : ∀ nm : List Char, nm.getLast? ≠ some ' ' → ∀ s k, nm ≠ fixName s k := by
    rintro nm hn s k rfl
    exact hn (List.getLast?_concat ..)
  refine ⟨?_, ?_, ?_, ?_⟩
  · intro p hp
    simp only [List.mem_cons, List.not_mem_nil, or_false] at hp
    rcases hp with rfl | rfl | rfl | rfl | rfl
    · exact dollar_ok (Or.inr rfl)
    · exact dollar_ok (Or.inl rfl)
    · exact hl 'p' [] (by decide) (by decide)
    · exact Or.inr (Or.inr (Or.inl ⟨_, by decide, hs⟩))
    · exact hl 'a' [] (by decide) (by decide)
  · intro p hp
    simp only [List.mem_cons, List.not_mem_nil, or_false] at hp
    rcases hp with rfl | rfl | rfl | rfl | rfl <;> exact hfix _ (by decide)
  · intro p hp
    simp only [List.mem_cons, List.not_mem_nil, or_false] at hp
    rcases hp with rfl | rfl | rfl | rfl | rfl <;> decide
  · intro p hp q hq hn hh
    have hr := hn.raw
    simp only [List.mem_cons, List.not_mem_nil, or_false] at hp hq
    rcases hp with rfl | rfl | rfl | rfl | rfl <;> rcases hq with rfl | rfl | rfl | rfl | rfl <;>
      first | rfl | (revert hh; decide) | (revert hr; decide)

private def demoVocab : Vocab :=
  demoNames.vocab fun nm _ => decide (nm = "$true".toList ∨ nm = "$false".toList ∨ nm = "p".toList)

private def demoSig : SigTab := (sigReadAll sigInit [("p".toList, 2), ("'A b'".toList, 1), ("a".toList, 0)]).2

private theorem demoVoc : demoVocab.ok "$true".toList 0 ∧ demoVocab.ok "$false".toList 0 ∧ demoVocab.ok "p".toList 2 ∧
    demoVocab.ok "'A b'".toList 1 ∧ demoVocab.ok "a".toList 0 :=
  ⟨.head _, .tail _ (.head _), .tail _ (.tail _ (.head _)), .tail _ (.tail _ (.tail _ (.head _))), .tail _ (.tail _ (.tail _ (.tail _ (.head _))))⟩

private theorem demoPred : demoVocab.pred "$true".toList 0 = true ∧ demoVocab.pred "$false".toList 0 = true ∧
    demoVocab.pred "p".toList 2 = true ∧ demoVocab.pred "A b".toList 1 = false ∧ demoVocab.pred "a".toList 0 = false := by
  simp only [demoVocab, GoodNames.vocab]
  decide

private theorem demoTF : VocabTF demoVocab := ⟨demoVoc.1, demoVoc.2.1, demoPred.1, demoPred.2.1⟩

private theorem demoInit : SigFor demoVocab sigInit := sigFor_init demoTF.t_ok demoTF.f_ok demoTF.t_pred demoTF.f_pred

private theorem demoFor : SigFor demoVocab demoSig :=
  (readAll_spec demoInit (by
    intro p hp
    simp only [List.mem_cons, List.not_mem_nil, or_false] at hp
    rcases hp with rfl | rfl | rfl
    · exact demoVoc.2.2.1
    · exact demoVoc.2.2.2.1
    · exact demoVoc.2.2.2.2)).1

private theorem demoEntries : demoSig.entry 1 = some ⟨"$true".toList, "$true".toList, 0, .pred⟩ ∧
    demoSig.entry 2 = some ⟨"$false".toList, "$false".toList, 0, .pred⟩ ∧ demoSig.entry 3 = some ⟨"p".toList, "p".toList, 2, .unk⟩ ∧
    demoSig.entry 4 = some ⟨"A b".toList, "'A b'".toList, 1, .unk⟩ ∧ demoSig.entry 5 = some ⟨"a".toList, "a".toList, 0, .unk⟩ := by
  decide

private theorem demoSigTF : SigTF demoSig := ⟨⟨_, demoEntries.1, rfl, rfl, rfl⟩, ⟨_, demoEntries.2.1, rfl, rfl, rfl⟩⟩

private theorem demoSym : SymOK demoVocab demoSig 3 2 ∧ isPredSym demoVocab demoSig 3 = true ∧
    SymOK demoVocab demoSig 4 1 ∧ isPredSym demoVocab demoSig 4 = false ∧
    SymOK demoVocab demoSig 5 0 ∧ isPredSym demoVocab demoSig 5 = false := by
  obtain ⟨_, _, h3, h4, h5⟩ := demoEntries
  obtain ⟨_, _, p3, p4, p5⟩ := demoPred
  refine ⟨⟨_, h3, rfl, demoVoc.2.2.1⟩, ?_, ⟨_, h4, rfl, demoVoc.2.2.2.1⟩, ?_, ⟨_, h5, rfl, demoVoc.2.2.2.2⟩, ?_⟩
  · simp only [isPredSym, h3]; exact p3
  · simp only [isPredSym, h4]; exact p4
  · simp only [isPredSym, h5]; exact p5

/-- `~p('A b'(X1),X3) | X1=a | X1!=a | X5!=X5`. -/
private def demoClause : List Lit :=
  [⟨false, .app 3 [.app 4 [.var 2], .var 6], tTrue⟩, ⟨true, .var 2, .app 5 []⟩, ⟨false, .var 2, .app 5 []⟩, ⟨false, .var 10, .var 10⟩]

private theorem demoOK : ClauseOK demoVocab demoSig demoClause := by
  obtain ⟨a1, a2, b1, b2, c1, c2⟩ := demoSym
  intro L hL
  simp only [demoClause, List.mem_cons, List.not_mem_nil, or_false] at hL
  rcases hL with rfl | rfl | rfl | rfl
  · exact Or.inl ⟨⟨a1, a2, by simp only [FnTerms, FnTerm]; exact ⟨⟨b1, b2, trivial, trivial⟩, trivial, trivial⟩⟩, by decide, rfl⟩
  · exact Or.inr ⟨by simp [FnTerm], by simp only [FnTerm, FnTerms]; exact ⟨c1, c2, trivial⟩⟩
  · exact Or.inr ⟨by simp [FnTerm], by simp only [FnTerm, FnTerms]; exact ⟨c1, c2, trivial⟩⟩
  · exact Or.inr ⟨by simp [FnTerm], by simp [FnTerm]⟩

/-- The hypotheses are met, with a reader that knows no symbols yet. -/
example : ∃ C' st' h ρ, readClause 0 ⟨sigInit, VarBank.init, []⟩ (printClause demoSig true 0 17 .negConj demoClause) =
      some ((clauseName true 0 17, .negConj, C'), st', []) ∧ C' = (asRead demoClause).map (mapLit h ρ) ∧
      (∀ x ∈ cvars (asRead demoClause), ∀ y ∈ cvars (asRead demoClause), ρ x = ρ y → x = y) := by
  have hst : ReadOK demoVocab ⟨sigInit, VarBank.init, []⟩ :=
    ⟨demoInit, ⟨⟨_, rfl, rfl, rfl, rfl⟩, ⟨_, rfl, rfl, rfl, rfl⟩⟩, VarBank.inv_init⟩
  obtain ⟨C', st', h, ρ, h1, h2, -, -, h5, -⟩ := clause_read_back_partial demoTF demoFor demoSigTF hst 0 demoOK true 0 17 (role := .negConj) (by decide)
  exact ⟨C', st', h, ρ, h1, h2, h5⟩

/-- The same process reads the clause again, in an untyped problem. -/
example : ∃ C' st', readClause 0 ⟨demoSig, VarBank.init, []⟩ (printClause demoSig true 0 17 .axiom_ demoClause) =
      some ((clauseName true 0 17, .axiom_, C'), st', []) ∧
      ∀ I : Interp.{0} ⟨fun _ => 0, fun _ => 0, fun _ => [], fun _ => false⟩, I.Models C' ↔ I.Models demoClause :=
  clause_read_back_models demoTF demoFor demoSigTF ⟨demoFor, demoSigTF, VarBank.inv_init⟩ (sigExt_refl _) 0 demoOK true 0 17 (by decide) (fun _ => rfl)

/-- `![X1,X2]:(?[X3]:((~p(X1,X3)|X1=X2)|$false) => ~(X2!=a & p(X2,X1)))`. -/
private def demoForm : Form :=
  .qu true 2 (.qu true 4 (.bin .impl (.qu false 6 (.bin .or (.bin .or (.lit false (.app 3 [.var 2, .var 6]) tTrue) (.lit true (.var 2) (.var 4)))
    (.atom tFalse))) (.not (.bin .and (.lit false (.var 4) (.app 5 [])) (.lit true (.app 3 [.var 4, .var 2]) tTrue)))))

example : ∃ f' st' h ρ, readForm 0 ⟨demoSig, VarBank.init, []⟩ (printForm demoSig demoForm .top) = some (f', st', []) ∧
      f' = mapForm h ρ (asReadForm demoForm) ∧ (∀ k ∈ formSyms (asReadForm demoForm), h k = k) := by
  obtain ⟨a1, a2, b1, b2, c1, c2⟩ := demoSym
  have hok : FormOK demoVocab demoSig demoForm := by
    refine ⟨⟨⟨Or.inl ⟨⟨a1, a2, by simp [FnTerms, FnTerm]⟩, by decide, rfl⟩, Or.inr ⟨by simp [FnTerm], by simp [FnTerm]⟩⟩, ?_⟩,
      Or.inr ⟨by simp [FnTerm], by simp only [FnTerm, FnTerms]; exact ⟨c1, c2, trivial⟩⟩,
      Or.inl ⟨⟨a1, a2, by simp [FnTerms, FnTerm]⟩, by decide, rfl⟩⟩
    exact ⟨⟨_, demoEntries.2.1, rfl, demoTF.f_ok⟩, (isPred_tf demoTF demoSigTF).2, by simp [FnTerms]⟩
  have hst : ReadOK demoVocab ⟨demoSig, VarBank.init, []⟩ := ⟨demoFor, demoSigTF, VarBank.inv_init⟩
  obtain ⟨f', st', h, ρ, h1, h2, -, -, -, -, -, h8⟩ := form_read_back demoTF demoFor demoSigTF hst rfl 0 hok
  exact ⟨f', st', h, ρ, h1, h2, h8 (sigExt_refl _)⟩

end Props

end Verif
