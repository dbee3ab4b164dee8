import Verif.Text.NameProof

/-!
# C66: symbols are identified by name and arity
-/

namespace Verif

namespace Props

open Text

/-- **C66 (partial).** Symbols are read one after the other into a new signature.  Two of them get the same code exactly if they have the
same name and the same arity, and the code stands for a symbol of that arity whose printed name is that name (with or without quotes).
Missing: names for which this is false (`GoodNames`; see the counterexamples below), numbers. -/
theorem symbol_codes_partial {rs : List (List Char × Nat)} (h : GoodNames (("$true".toList, 0) :: ("$false".toList, 0) :: rs))
    {i j : Nat} {p q : List Char × Nat} (hi : rs[i]? = some p) (hj : rs[j]? = some q) :
    ∃ a b e, (sigReadAll sigInit rs).1[i]? = some a ∧ (sigReadAll sigInit rs).1[j]? = some b ∧
      (a = b ↔ SameName p.1 q.1 ∧ p.2 = q.2) ∧
      (sigReadAll sigInit rs).2.entry a = some e ∧ (e.pname = p.1 ∨ e.pname = quote p.1 ∨ p.1 = quote e.pname) ∧ e.arity = p.2 := by
  let V := h.vocab (fun nm _ => decide (nm = "$true".toList ∨ nm = "$false".toList))
  have hV : ∀ p ∈ rs, V.ok p.1 p.2 := fun p hp => List.mem_cons_of_mem _ (List.mem_cons_of_mem _ hp)
  have h0 : SigFor V sigInit :=
    sigFor_init (V := V) (List.mem_cons_self ..) (List.mem_cons_of_mem _ (List.mem_cons_self ..)) (by simp [V, GoodNames.vocab]) (by simp [V, GoodNames.vocab])
  obtain ⟨k1, _, k3⟩ := readAll_spec h0 hV
  obtain ⟨a, e, a1, a2, a3, a4⟩ := k3 i p hi
  obtain ⟨b, e', b1, b2, b3, b4⟩ := k3 j q hj
  have hp : p ∈ ("$true".toList, 0) :: ("$false".toList, 0) :: rs :=
    List.mem_cons_of_mem _ (List.mem_cons_of_mem _ (List.mem_of_getElem? hi))
  have hq : q ∈ ("$true".toList, 0) :: ("$false".toList, 0) :: rs :=
    List.mem_cons_of_mem _ (List.mem_cons_of_mem _ (List.mem_of_getElem? hj))
  refine ⟨a, b, e, a1, b1, ⟨?_, ?_⟩, a2, ?_, a4⟩
  · rintro rfl
    rw [a2] at b2; cases b2
    exact ⟨sameName_of_raw (h.name_ok p hp) (h.name_ok q hq) (h.inner p hp) (h.inner q hq) (a3.symm.trans b3), a4.symm.trans b4⟩
  · rintro ⟨hn, ha⟩
    refine k1.sym_inj (nm := p.1) (n := p.2) (hV p (List.mem_of_getElem? hi)) ?_ ?_
    · simp only [SigTab.sym, a2, Option.map_some, a3, a4]
    · simp only [SigTab.sym, b2, Option.map_some, b3, b4, hn.raw, ha]
  · have he : (e.pname.head? ≠ some '\'' ∧ rawName e.pname = e.pname) ∨ (e.pname.head? = some '\'' ∧ e.pname = quote (rawName e.pname)) := by
      cases k1.ent e (entry_mem a2) with
      | plain h1 ok => exact nameOK_cases (V.name_ok ok)
      | fix h1 ok hq' p' hp' hn ha => exact nameOK_cases (V.name_ok ok)
      | foreign h1 => exact absurd a3 (h1 p.1 p.2 (hV p (List.mem_of_getElem? hi))).2.2
    rcases he with ⟨e1, e2⟩ | ⟨e1, e2⟩ <;> rcases nameOK_cases (h.name_ok p hp) with ⟨p1, p2⟩ | ⟨p1, p2⟩
    · exact Or.inl (by rw [← e2, a3, p2])
    · exact Or.inr (Or.inr (by rw [p2, ← a3, e2]))
    · exact Or.inr (Or.inl (by rw [e2, a3, p2]))
    · exact Or.inl (by rw [e2, p2, a3])

/-- A lower case name with two arities, in quotes and without. -/
example : GoodNames (("$true".toList, 0) :: ("$false".toList, 0) :: [("f".toList, 1), ("f".toList, 2), ("'a b'".toList, 3), ("a".toList, 0), ("'a'".toList, 0)]) := by
  have hl : ∀ c cs, c.isLower = true → (∀ d ∈ cs, isIdChar d = true) → NameOK (c :: cs) := fun c cs h1 h2 => Or.inl ⟨c, cs, rfl, h1, h2⟩
  have hs : StrBody '\'' ['a', ' ', 'b'] := .char (by decide) (by decide) (by decide) (.char (by decide) (by decide) (by decide)
    (.char (by decide) (by decide) (by decide) .nil))
  have hs' : StrBody '\'' ['a'] := .char (by decide) (by decide) (by decide) .nil
  have hfix : ∀ nm : List Char, nm.getLast? ≠ some ' ' → ∀ s k, nm ≠ fixName s k := by
    rintro nm hn s k rfl
    exact hn (List.getLast?_concat ..)
  refine ⟨?_, ?_, ?_, ?_⟩
  · intro p hp
    simp only [List.mem_cons, List.not_mem_nil, or_false] at hp
    rcases hp with rfl | rfl | rfl | rfl | rfl | rfl | rfl
    · exact Or.inr (Or.inl ⟨"true".toList, by decide, by decide, by decide, by decide, by decide, by decide⟩)
    · exact Or.inr (Or.inl ⟨"false".toList, by decide, by decide, by decide, by decide, by decide, by decide⟩)
    · exact hl 'f' [] (by decide) (by decide)
    · exact hl 'f' [] (by decide) (by decide)
    · exact Or.inr (Or.inr (Or.inl ⟨_, by decide, hs⟩))
    · exact hl 'a' [] (by decide) (by decide)
    · exact Or.inr (Or.inr (Or.inl ⟨_, by decide, hs'⟩))
  · intro p hp
    simp only [List.mem_cons, List.not_mem_nil, or_false] at hp
    rcases hp with rfl | rfl | rfl | rfl | rfl | rfl | rfl <;> exact hfix _ (by decide)
  · intro p hp
    simp only [List.mem_cons, List.not_mem_nil, or_false] at hp
    rcases hp with rfl | rfl | rfl | rfl | rfl | rfl | rfl <;> decide
  · intro p hp q hq hn hh
    have hr := hn.raw
    simp only [List.mem_cons, List.not_mem_nil, or_false] at hp hq
    rcases hp with rfl | rfl | rfl | rfl | rfl | rfl | rfl <;> rcases hq with rfl | rfl | rfl | rfl | rfl | rfl | rfl <;>
      first | rfl | (revert hh; decide) | (revert hr; decide)

/-- **C66, counterexample.** A quoted name that is not a lower case word, used with a second arity, gets a new code every time it is read:
the key of the second arity is looked up with the quotes removed but entered with them (TERMS/cte_signature.c:662-757). -/
theorem symbol_quoted_arity_new_code :
    ∃ nm, NameOK nm ∧ ∃ sg a b c, sigReadAll sigInit [(nm, 1), (nm, 2), (nm, 2)] = ([a, b, c], sg) ∧ b ≠ c :=
  ⟨"'a b'".toList, Or.inr (Or.inr (Or.inl ⟨"a b".toList, by decide, .char (by decide) (by decide) (by decide)
    (.char (by decide) (by decide) (by decide) (.char (by decide) (by decide) (by decide) .nil))⟩)),
    (sigReadAll sigInit [("'a b'".toList, 1), ("'a b'".toList, 2), ("'a b'".toList, 2)]).2, 3, 4, 5, by decide +kernel, by decide⟩

/-- **C66, counterexample.** A quoted name that looks like the key of a second arity is identified with that symbol. -/
theorem symbol_key_collision :
    ∃ nm nm', NameOK nm ∧ NameOK nm' ∧ ¬ SameName nm nm' ∧
      ∃ sg a b, sigReadAll sigInit [(nm, 1), (nm, 2), (nm', 2)] = ([a, b, b], sg) := by
  refine ⟨"f".toList, "'f_ARITYFIX2 '".toList, Or.inl ⟨'f', [], rfl, by decide, by decide⟩,
    Or.inr (Or.inr (Or.inl ⟨"f_ARITYFIX2 ".toList, by decide, ?_⟩)), ?_,
    (sigReadAll sigInit [("f".toList, 1), ("f".toList, 2), ("'f_ARITYFIX2 '".toList, 2)]).2, 3, 4, by decide +kernel⟩
  · have e : "f_ARITYFIX2 ".toList = ['f', '_', 'A', 'R', 'I', 'T', 'Y', 'F', 'I', 'X', '2', ' '] := by decide
    rw [e]
    repeat refine .char (by decide) (by decide) (by decide) ?_
    exact .nil
  · intro h
    have := h.raw
    revert this; decide

/-- **C66, counterexample.** The quoted name `'$true'` is identified with the constant `$true`. -/
theorem symbol_quoted_true : ∃ sg, sigReadAll sigInit [("'$true'".toList, 0), ("'$false'".toList, 0)] = ([1, 2], sg) ∧
    ¬ SameName "'$true'".toList "$true".toList :=
  ⟨_, rfl, by
    rintro (h | ⟨⟨c, cs, h, hc, _⟩, -⟩ | ⟨⟨c, cs, h, hc, _⟩, -⟩)
    · revert h; decide
    · have : c = '$' := by
        have := congrArg List.head? h
        simpa using this.symm
      subst this; revert hc; decide
    · have : c = '\'' := by
        have := congrArg List.head? h
        simpa using this.symm
      subst this; revert hc; decide⟩

/-- **C66, counterexample.** The escaped quote of `'it\'s'` and the escaped backslash of `'it\\s'` are read as the same token
(INOUT/cio_scanner.c:266-296: the character after a backslash is not the one appended). -/
theorem symbol_escape_lost : ∃ t, scan ['\'', 'i', 't', '\\', '\'', 's', '\''] = some [t] ∧ scan ['\'', 'i', 't', '\\', '\\', 's', '\''] = some [t] ∧
    t.tok = .sqString := ⟨⟨.sqString, ['\'', 'i', 't', '\\', '\\', 's', '\'']⟩, by decide, by decide, rfl⟩

end Props

end Verif
