import Verif.Text.SigSpec
import Mathlib.Data.List.Nodup

/-!
# Symbols: proofs
-/

namespace Verif

namespace Text

/-! ## Decimal numbers -/

theorem digit_isDigit {n : Nat} (h : n < 10) : (Char.ofNat (48 + n)).isDigit = true := by
  have : n = 0 ∨ n = 1 ∨ n = 2 ∨ n = 3 ∨ n = 4 ∨ n = 5 ∨ n = 6 ∨ n = 7 ∨ n = 8 ∨ n = 9 := by omega
  rcases this with rfl | rfl | rfl | rfl | rfl | rfl | rfl | rfl | rfl | rfl <;> decide

theorem digit_toNat {n : Nat} (h : n < 10) : (Char.ofNat (48 + n)).toNat = 48 + n := by
  have : n = 0 ∨ n = 1 ∨ n = 2 ∨ n = 3 ∨ n = 4 ∨ n = 5 ∨ n = 6 ∨ n = 7 ∨ n = 8 ∨ n = 9 := by omega
  rcases this with rfl | rfl | rfl | rfl | rfl | rfl | rfl | rfl | rfl | rfl <;> decide

theorem dec_digits (n : Nat) : ∀ c ∈ dec n, c.isDigit = true := by
  induction n using Nat.strongRecOn with
  | _ n ih =>
    rw [dec]
    split
    · next h => simpa using digit_isDigit h
    · next h =>
      intro c hc
      rcases List.mem_append.1 hc with hc | hc
      · exact ih (n / 10) (by omega) c hc
      · rw [List.mem_singleton] at hc; subst hc; exact digit_isDigit (by omega)

theorem dec_ne (n : Nat) : dec n ≠ [] := by
  rw [dec]; split <;> simp

/-- The number written. -/
def decVal (cs : List Char) : Nat := cs.foldl (fun a c => 10 * a + (c.toNat - 48)) 0

theorem decVal_dec (n : Nat) : decVal (dec n) = n := by
  induction n using Nat.strongRecOn with
  | _ n ih =>
    rw [dec]
    split
    · next h => simp [decVal, digit_toNat h]
    · next h =>
      have := ih (n / 10) (by omega)
      unfold decVal at this ⊢
      rw [List.foldl_append, this]
      simp only [List.foldl_cons, List.foldl_nil, digit_toNat (show n % 10 < 10 by omega)]
      omega

theorem dec_inj {m n : Nat} (h : dec m = dec n) : m = n := by
  have := congrArg decVal h
  rwa [decVal_dec, decVal_dec] at this

/-- A run of digits at the end of a list is determined by what precedes it. -/
theorem digits_suffix {a b d e : List Char} {x y : Char} (hx : x.isDigit = false) (hy : y.isDigit = false)
    (hd : ∀ c ∈ d, c.isDigit = true) (he : ∀ c ∈ e, c.isDigit = true) (h : a ++ x :: d = b ++ y :: e) : a = b ∧ d = e := by
  have h' := congrArg List.reverse h
  simp only [List.reverse_append, List.reverse_cons, List.append_assoc, List.singleton_append] at h'
  have t1 := congrArg (List.takeWhile Char.isDigit) h'
  rw [List.takeWhile_append_of_pos (by simpa using hd), List.takeWhile_append_of_pos (by simpa using he)] at t1
  simp only [List.takeWhile_cons, hx, hy, Bool.false_eq_true, if_false, List.append_nil] at t1
  have hde : d = e := List.reverse_injective t1
  subst hde
  have h2 := List.append_cancel_left h'
  have h3 : x :: a.reverse = y :: b.reverse := by simpa using h2
  injection h3 with _ h4
  exact ⟨List.reverse_injective h4, rfl⟩

theorem fixName_inj {s t : List Char} {m n : Nat} (h : fixName s m = fixName t n) : s = t ∧ m = n := by
  unfold fixName at h
  have h1 := List.append_cancel_right h
  have e : "_ARITYFIX".toList = ['_', 'A', 'R', 'I', 'T', 'Y', 'F', 'I'] ++ ['X'] := by decide
  rw [e] at h1
  simp only [List.append_assoc, List.singleton_append] at h1
  rw [← List.append_assoc, ← List.append_assoc] at h1
  obtain ⟨h2, h3⟩ := digits_suffix (by decide) (by decide) (dec_digits m) (dec_digits n) h1
  exact ⟨List.append_cancel_right h2, dec_inj h3⟩

/-! ## Names -/

theorem rawName_of_ne {nm : List Char} (h : nm.head? ≠ some '\'') : rawName nm = nm := by
  unfold rawName
  split
  · simp at h
  · rfl

theorem rawName_quoted (b : List Char) : rawName ('\'' :: (b ++ ['\''])) = b := by
  simp [rawName]

theorem StrBody.head {q : Char} {b : List Char} (h : StrBody q b) (hq : q ≠ '\\') : b.head? ≠ some q := by
  cases h with
  | nil => simp
  | char h1 _ _ _ => simpa using h1
  | esc _ => simpa using fun h => hq h.symm

theorem NameOK.raw_head {nm : List Char} (h : NameOK nm) : (rawName nm).head? ≠ some '\'' := by
  rcases h with ⟨c, cs, rfl, hc, _⟩ | ⟨cs, rfl, _⟩ | ⟨b, rfl, hb⟩ | ⟨b, rfl, hb⟩
  · have : c ≠ '\'' := by rintro rfl; revert hc; decide
    rw [rawName_of_ne (by simpa using this)]; simpa using this
  · rw [rawName_of_ne (by simp)]; simp
  · rw [rawName_quoted]; exact StrBody.head hb (by decide)
  · rw [rawName_of_ne (by simp)]; simp

theorem NameOK.ne_nil {nm : List Char} (h : NameOK nm) : nm ≠ [] := by
  rcases h with ⟨c, cs, rfl, _⟩ | ⟨cs, rfl, _⟩ | ⟨b, rfl, _⟩ | ⟨b, rfl, _⟩ <;> simp

/-! ## Looking up symbols -/

theorem sigFind_some {sg : SigTab} {nm : List Char} {p : Nat} (h : sigFind sg nm = some p) :
    ∃ e, sg.entry p = some e ∧ e ∈ sg ∧ e.name = rawName nm := by
  unfold sigFind at h
  obtain ⟨i, hi, rfl⟩ := Option.map_eq_some_iff.1 h
  rw [List.findIdx?_eq_some_iff_getElem] at hi
  obtain ⟨hlt, hp, -⟩ := hi
  refine ⟨sg[i], ?_, List.getElem_mem hlt, by simpa using hp⟩
  simp [SigTab.entry, hlt]

theorem sigFind_none {sg : SigTab} {nm : List Char} (h : sigFind sg nm = none) : ∀ e ∈ sg, e.name ≠ rawName nm := by
  unfold sigFind at h
  rw [Option.map_eq_none_iff, List.findIdx?_eq_none_iff] at h
  intro e he
  simpa using h e he

theorem entry_append {sg : SigTab} {e : SymEntry} : (sg ++ [e]).entry (sg.length + 1) = some e := by
  simp [SigTab.entry]

theorem sigExt_refl (sg : SigTab) : SigExt sg sg := fun _ e h => ⟨e, h, rfl, rfl, rfl⟩

theorem SigExt.trans {a b c : SigTab} (h : SigExt a b) (k : SigExt b c) : SigExt a c := by
  intro f e he
  obtain ⟨e1, h1, n1, p1, a1⟩ := h f e he
  obtain ⟨e2, h2, n2, p2, a2⟩ := k f e1 h1
  exact ⟨e2, h2, n2.trans n1, p2.trans p1, a2.trans a1⟩

theorem SigExt.append (sg l : SigTab) : SigExt sg (sg ++ l) := by
  intro f e he
  refine ⟨e, ?_, rfl, rfl, rfl⟩
  cases f with
  | zero => simp [SigTab.entry] at he
  | succ f =>
    simp only [SigTab.entry] at he ⊢
    rw [List.getElem?_append_left (List.getElem?_eq_some_iff.1 he).1]; exact he

theorem SigExt.sym {sg sg' : SigTab} (h : SigExt sg sg') {f : Nat} {s : List Char × Nat} (hs : sg.sym f = some s) :
    sg'.sym f = some s := by
  unfold SigTab.sym at *
  obtain ⟨e, he, rfl⟩ := Option.map_eq_some_iff.1 hs
  obtain ⟨e', he', _, hp, ha⟩ := h f e he
  simp [he', hp, ha]

variable {V : Vocab}

theorem EntryFor.mono {sg sg' : SigTab} {e : SymEntry} (h : EntryFor V sg e) (hs : ∀ x ∈ sg, x ∈ sg') : EntryFor V sg' e := by
  cases h with
  | plain h ok => exact .plain h ok
  | fix h ok hq p hp hn ha => exact .fix h ok hq p (hs _ hp) hn ha
  | foreign h => exact .foreign h

/-- An entry whose key is the name of a symbol is the first entry of that name. -/
theorem SigFor.plain_of_name {sg : SigTab} (h : SigFor V sg) {e : SymEntry} (he : e ∈ sg) {nm : List Char} {n : Nat}
    (ok : V.ok nm n) (hn : e.name = rawName nm) : rawName e.pname = rawName nm ∧ V.ok e.pname e.arity := by
  cases h.ent e he with
  | plain h1 ok' => exact ⟨h1.symm.trans hn, ok'⟩
  | fix h1 ok' hq p hp hn' ha => exact absurd (hn.symm.trans h1) (V.no_fix ok _ _)
  | foreign h1 => exact absurd hn (h1 nm n ok).1

/-- An entry whose key is that of a further arity is the entry of that symbol. -/
theorem SigFor.fix_of_name {sg : SigTab} (h : SigFor V sg) {e : SymEntry} (he : e ∈ sg) {nm : List Char} {n : Nat}
    (ok : V.ok nm n) (hn : e.name = fixName nm n) : e.pname = nm ∧ e.arity = n := by
  cases h.ent e he with
  | plain h1 ok' => exact absurd (h1.symm.trans hn) (V.no_fix ok' _ _)
  | fix h1 ok' hq p hp hn' ha => exact fixName_inj (h1.symm.trans hn)
  | foreign h1 => exact absurd hn (h1 nm n ok).2.1

/-- Reading a symbol of the vocabulary. -/
theorem sigInsert_spec {sg : SigTab} (h : SigFor V sg) {nm : List Char} {n : Nat} (ok : V.ok nm n) :
    SigFor V (sigInsert sg nm n).2 ∧ SigExt sg (sigInsert sg nm n).2 ∧
      ∃ e, (sigInsert sg nm n).2.entry (sigInsert sg nm n).1 = some e ∧ e ∈ (sigInsert sg nm n).2 ∧ V.ok e.pname e.arity ∧
        rawName e.pname = rawName nm ∧ e.arity = n := by
  have hraw : rawName (rawName nm) = rawName nm := rawName_of_ne (V.name_ok ok).raw_head
  have hadd : ∀ e : SymEntry, (∀ x ∈ sg, x.name ≠ e.name) → EntryFor V (sg ++ [e]) e → e.role = .unk →
      SigFor V (sg ++ [e]) := by
    intro e h1 h2 h3
    refine ⟨?_, ?_, ?_⟩
    · intro x hx
      rcases List.mem_append.1 hx with hx | hx
      · exact (h.ent x hx).mono fun y hy => List.mem_append_left _ hy
      · rw [List.mem_singleton] at hx; subst hx; exact h2
    · rw [List.map_append, List.nodup_append]
      refine ⟨h.nodup, by simp, ?_⟩
      rintro a ha b hb rfl
      obtain ⟨x, hx, rfl⟩ := List.mem_map.1 ha
      simp only [List.map_cons, List.map_nil, List.mem_singleton] at hb
      exact h1 x hx hb
    · intro x hx hok
      rcases List.mem_append.1 hx with hx | hx
      · exact h.role x hx hok
      · rw [List.mem_singleton] at hx; subst hx; exact .inl h3
  unfold sigInsert
  cases hf : sigFind sg (rawName nm) with
  | none =>
    have hno := sigFind_none hf
    rw [hraw] at hno
    refine ⟨hadd _ hno (.plain rfl ok) rfl, SigExt.append _ _, _, entry_append, by simp, ok, rfl, rfl⟩
  | some p =>
    obtain ⟨e, he, hmem, hn⟩ := sigFind_some hf
    rw [hraw] at hn
    obtain ⟨hp, oke⟩ := h.plain_of_name hmem ok hn
    by_cases ha : e.arity = n
    · simp only [he, Option.map_some, ha, ne_eq, not_true_eq_false, if_false]
      exact ⟨h, sigExt_refl _, e, rfl, hmem, oke, hp, ha⟩
    · have hq : nm.head? ≠ some '\'' := fun hq => ha (V.quoted ok oke hp.symm hq).symm
      have hnm : rawName nm = nm := rawName_of_ne hq
      have hfx : rawName (fixName nm n) = fixName nm n := by
        refine rawName_of_ne ?_
        have := (V.name_ok ok).ne_nil
        cases nm with
        | nil => exact absurd rfl this
        | cons c cs => simpa [fixName] using hq
      simp only [he, Option.map_some, ne_eq, Option.some.injEq, ha, not_false_eq_true, if_true]
      cases hf2 : sigFind sg (fixName nm n) with
      | some q =>
        obtain ⟨e2, he2, hmem2, hn2⟩ := sigFind_some hf2
        rw [hfx] at hn2
        obtain ⟨h3, h4⟩ := h.fix_of_name hmem2 ok hn2
        exact ⟨h, sigExt_refl _, e2, he2, hmem2, by rw [h3, h4]; exact ok, by rw [h3], h4⟩
      | none =>
        have hno := sigFind_none hf2
        rw [hfx] at hno
        refine ⟨hadd _ hno (.fix (by simp [hnm]) (by simpa [hnm] using ok) (by simpa [hnm] using hq) e (by simp [hmem])
          (by simpa using hn) ha) rfl, SigExt.append _ _, _, entry_append, by simp, by simpa [hnm] using ok, by simp [hnm], rfl⟩

theorem nodup_entry {sg : SigTab} (h : (sg.map (·.name)).Nodup) {f g : Nat} {e e' : SymEntry} (hf : sg.entry f = some e)
    (hg : sg.entry g = some e') (hn : e.name = e'.name) : f = g := by
  cases f with
  | zero => simp [SigTab.entry] at hf
  | succ f =>
    cases g with
    | zero => simp [SigTab.entry] at hg
    | succ g =>
      simp only [SigTab.entry] at hf hg
      obtain ⟨h1, rfl⟩ := List.getElem?_eq_some_iff.1 hf
      obtain ⟨h2, rfl⟩ := List.getElem?_eq_some_iff.1 hg
      have := (h.getElem_inj_iff (i := f) (hi := by simpa using h1) (j := g) (hj := by simpa using h2)).1 (by simpa using hn)
      rw [this]

theorem entry_mem {sg : SigTab} {f : Nat} {e : SymEntry} (h : sg.entry f = some e) : e ∈ sg := by
  cases f with
  | zero => simp [SigTab.entry] at h
  | succ f => exact List.mem_of_getElem? h

/-- Different codes are different symbols. -/
theorem SigFor.sym_inj {sg : SigTab} (h : SigFor V sg) {nm : List Char} {n f g : Nat} (ok : V.ok nm n)
    (hf : sg.sym f = some (rawName nm, n)) (hg : sg.sym g = some (rawName nm, n)) : f = g := by
  unfold SigTab.sym at hf hg
  obtain ⟨e, he, h1⟩ := Option.map_eq_some_iff.1 hf
  obtain ⟨e', he', h2⟩ := Option.map_eq_some_iff.1 hg
  simp only [Prod.mk.injEq] at h1 h2
  have main : ∀ {e e' : SymEntry}, e ∈ sg → e' ∈ sg → rawName e.pname = rawName nm → e.arity = n → rawName e'.pname = rawName nm →
      e'.arity = n → e.name = e'.name := by
    intro e e' he he' h1 h2 h3 h4
    have key : ∀ {e e' : SymEntry}, e ∈ sg → e' ∈ sg → rawName e.pname = rawName nm → e.arity = n → rawName e'.pname = rawName nm →
        e'.arity = n → e.name = rawName e.pname → e'.name = fixName e'.pname e'.arity → e'.pname.head? ≠ some '\'' →
        ∀ p ∈ sg, p.name = e'.pname → p.arity ≠ e'.arity → False := by
      intro e e' he he' h1 h2 h3 h4 hn hn' hq p hp hpn hpa
      have hpe : p.name = e.name := by rw [hpn, hn, h1, ← h3, rawName_of_ne hq]
      obtain ⟨i, hi, rfl⟩ := List.getElem_of_mem hp
      obtain ⟨j, hj, rfl⟩ := List.getElem_of_mem he
      have := (h.nodup.getElem_inj_iff (i := i) (hi := by simpa using hi) (j := j) (hj := by simpa using hj)).1 (by simpa using hpe)
      subst this
      exact hpa (h2.trans h4.symm)
    cases h.ent e he with
    | foreign hx => exact absurd h1 (hx nm n ok).2.2
    | plain hn ok1 =>
      cases h.ent e' he' with
      | foreign hx => exact absurd h3 (hx nm n ok).2.2
      | plain hn' ok2 => rw [hn, hn', h1, h3]
      | fix hn' ok2 hq p hp hpn hpa => exact (key he he' h1 h2 h3 h4 hn hn' hq p hp hpn hpa).elim
    | fix hn ok1 hq p hp hpn hpa =>
      cases h.ent e' he' with
      | foreign hx => exact absurd h3 (hx nm n ok).2.2
      | plain hn' ok2 => exact (key he' he h3 h4 h1 h2 hn' hn hq p hp hpn hpa).elim
      | fix hn' ok2 hq' p' hp' hpn' hpa' =>
        rw [hn, hn', h2, h4, ← rawName_of_ne hq, ← rawName_of_ne hq', h1, h3]
  exact nodup_entry h.nodup he he' (main (entry_mem he) (entry_mem he') h1.1 h1.2 h2.1 h2.2)

end Text

end Verif
