import Verif.Text.PclId
import Verif.Text.SigProof

/-!
# C91: identifiers of proof steps
-/

namespace Verif
namespace PclId

theorem firstDiff_spec (as : List Nat) : ∀ (bs : List Nat), (firstDiff as bs = 0 ↔ as = bs) ∧ (firstDiff as bs < 0 ↔ List.Lex (· < ·) as bs) := by
  induction as with
  | nil =>
    intro bs
    cases bs with
    | nil => exact ⟨by simp [firstDiff], by simp [firstDiff]⟩
    | cons b bs =>
      refine ⟨⟨fun h => ?_, fun h => by cases h⟩, ⟨fun _ => .nil, fun _ => ?_⟩⟩
      · simp only [firstDiff] at h; omega
      · simp only [firstDiff]; omega
  | cons a as ih =>
    intro bs
    cases bs with
    | nil =>
      refine ⟨⟨fun h => ?_, fun h => by cases h⟩, ⟨fun h => ?_, fun h => by cases h⟩⟩
      · simp only [firstDiff] at h; omega
      · simp only [firstDiff] at h; omega
    | cons b bs =>
      by_cases hab : a = b
      · subst hab
        have e : firstDiff (a :: as) (a :: bs) = firstDiff as bs := by simp [firstDiff]
        rw [e, (ih bs).1, (ih bs).2]
        refine ⟨by simp, ⟨.cons, fun h => ?_⟩⟩
        cases h with
        | cons h => exact h
        | rel h => exact absurd h (Nat.lt_irrefl _)
      · have e : firstDiff (a :: as) (b :: bs) = (a : Int) - b := by
          rw [firstDiff, if_pos (by omega)]
        rw [e]
        refine ⟨⟨fun h => by omega, fun h => absurd (List.cons.inj h).1 hab⟩, ⟨fun h => .rel (by omega), fun h => ?_⟩⟩
        cases h with
        | cons h => exact absurd rfl hab
        | rel h => omega

theorem firstDiff_bound (as : List Nat) : ∀ (bs : List Nat), (∀ a ∈ as, a < 2 ^ 31 - 1) → (∀ b ∈ bs, b < 2 ^ 31 - 1) →
    -(2 ^ 31) < firstDiff as bs ∧ firstDiff as bs < 2 ^ 31 := by
  induction as with
  | nil =>
    intro bs _ hb
    cases bs with
    | nil => simp [firstDiff]
    | cons b bs => have := hb b (by simp); simp only [firstDiff]; omega
  | cons a as ih =>
    intro bs ha hb
    have h1 := ha a (by simp)
    cases bs with
    | nil => simp only [firstDiff]; omega
    | cons b bs =>
      have h2 := hb b (by simp)
      rw [firstDiff]
      split
      · omega
      · exact ih bs (fun x hx => ha x (by simp [hx])) (fun x hx => hb x (by simp [hx]))

theorem parseMore_sound (ts : List Tok) : ∀ {ns : List Nat} {rest : List Tok}, parseMore ts = some (ns, rest) →
    ts = (ns.flatMap fun n => [.fullstop, .posInt n]) ++ rest ∧ rest.head? ≠ some .fullstop := by
  induction ts using parseMore.induct with
  | case1 n ts ih =>
    intro ns rest h
    rw [parseMore] at h
    obtain ⟨⟨ms, r⟩, h1, h2⟩ := Option.map_eq_some_iff.1 h
    cases h2
    obtain ⟨e, hr⟩ := ih h1
    exact ⟨by simp [← e], hr⟩
  | case2 ts hn =>
    intro ns rest h
    rw [parseMore] at h
    · cases h
    · exact hn
  | case3 ts h1 h2 =>
    intro ns rest h
    rw [parseMore] at h
    · cases h
      refine ⟨rfl, fun hh => ?_⟩
      cases ts with
      | nil => cases hh
      | cons t ts => cases hh; exact h2 ts rfl
    · exact h1
    · exact h2

theorem parseMore_print (ns : List Nat) {rest : List Tok} (h : rest.head? ≠ some .fullstop) :
    parseMore ((ns.flatMap fun n => [.fullstop, .posInt n]) ++ rest) = some (ns, rest) := by
  induction ns with
  | nil =>
    cases rest with
    | nil => rfl
    | cons t ts =>
      cases t with
      | fullstop => exact absurd rfl h
      | _ => rfl
  | cons n ns ih =>
    simp only [List.flatMap_cons, List.cons_append, List.nil_append]
    rw [parseMore, ih]
    rfl

theorem sep_digit {sep : Char} (hs : sep.isDigit = false) (ns : List Nat) : List.takeWhile Char.isDigit (sepText sep ns) = [] := by
  cases ns with
  | nil => rfl
  | cons n ns => simp [sepText, hs]

theorem dec_sep_inj {sep : Char} (hs : sep.isDigit = false) (as : List Nat) : ∀ {a b : Nat} {bs : List Nat},
    Text.dec a ++ sepText sep as = Text.dec b ++ sepText sep bs → a = b ∧ as = bs := by
  have step : ∀ {a b : Nat} {as bs : List Nat}, Text.dec a ++ sepText sep as = Text.dec b ++ sepText sep bs → a = b ∧ sepText sep as = sepText sep bs := by
    intro a b as bs h
    have t := congrArg (List.takeWhile Char.isDigit) h
    rw [List.takeWhile_append_of_pos (Text.dec_digits a), List.takeWhile_append_of_pos (Text.dec_digits b), sep_digit hs, sep_digit hs, List.append_nil,
      List.append_nil] at t
    have e := Text.dec_inj t
    subst e
    exact ⟨rfl, List.append_cancel_left h⟩
  induction as with
  | nil =>
    intro a b bs h
    obtain ⟨e, h2⟩ := step h
    refine ⟨e, ?_⟩
    cases bs with
    | nil => rfl
    | cons b bs => simp [sepText] at h2
  | cons x as ih =>
    intro a b bs h
    obtain ⟨e, h2⟩ := step h
    refine ⟨e, ?_⟩
    cases bs with
    | nil => simp [sepText] at h2
    | cons y bs =>
      have h3 : Text.dec x ++ sepText sep as = Text.dec y ++ sepText sep bs := by
        have : sep :: (Text.dec x ++ sepText sep as) = sep :: (Text.dec y ++ sepText sep bs) := by simpa [sepText] using h2
        exact (List.cons.inj this).2
      obtain ⟨h4, h5⟩ := ih h3
      rw [h4, h5]

end PclId

namespace Props

open PclId

/-- The claim for all identifiers: the comparison of steps is the lexicographic order.  It fails for large numbers (`compare_cut`). -/
def PclOrder (i j : Id) : Prop := (idCompare i j = 0 ↔ i = j) ∧ (idCompare i j < 0 ↔ List.Lex (· < ·) i.all j.all)

/-- Identifiers with numbers below 2³¹ - 1 are compared lexicographically. -/
theorem pcl_id_order_partial {i j : Id} (hi : ∀ a ∈ i.all, a < 2 ^ 31 - 1) (hj : ∀ a ∈ j.all, a < 2 ^ 31 - 1) : PclOrder i j := by
  obtain ⟨b1, b2⟩ := firstDiff_bound i.all j.all hi hj
  have e : idCompare i j = firstDiff i.all j.all := by
    unfold idCompare
    rw [Int.bmod_eq_of_le (by omega) (by omega)]
  obtain ⟨h1, h2⟩ := firstDiff_spec i.all j.all
  unfold PclOrder
  rw [e]
  refine ⟨h1.trans ⟨fun h => ?_, fun h => h ▸ rfl⟩, h2⟩
  obtain ⟨a, as⟩ := i
  obtain ⟨b, bs⟩ := j
  obtain ⟨rfl, rfl⟩ := List.cons.inj h
  rfl

/-- What `PCLIdParse` reads is an identifier as printed, up to a token other than a full stop; and printed identifiers are read. -/
theorem pcl_id_parse_iff {ts rest : List Tok} {i : Id} : parseId ts = some (i, rest) ↔ ts = printToks i ++ rest ∧ rest.head? ≠ some .fullstop := by
  constructor
  · intro h
    unfold parseId at h
    split at h
    · obtain ⟨⟨ns, r⟩, h1, h2⟩ := Option.map_eq_some_iff.1 h
      cases h2
      obtain ⟨e, hr⟩ := parseMore_sound _ h1
      exact ⟨by rw [e]; rfl, hr⟩
    · cases h
  · rintro ⟨rfl, hr⟩
    show Option.map _ (parseMore ((i.more.flatMap fun n => [.fullstop, .posInt n]) ++ rest)) = _
    rw [parseMore_print i.more hr]
    rfl

/-- Different identifiers are printed differently, in both formats. -/
theorem pcl_id_names_unique {i j : Id} : (printText i = printText j → i = j) ∧ (printTSTP i = printTSTP j → i = j) := by
  have mk : ∀ {i j : Id}, i.first = j.first ∧ i.more = j.more → i = j := by
    rintro ⟨a, as⟩ ⟨b, bs⟩ ⟨h1, h2⟩
    simp only at h1 h2
    rw [h1, h2]
  have head : ∀ {n : Nat} {cs : List Char}, Text.dec n ≠ 'p' :: cs := by
    intro n cs h
    have := Text.dec_digits n 'p' (by rw [h]; exact List.mem_cons_self)
    exact absurd this (by decide)
  refine ⟨fun h => mk (dec_sep_inj (by decide) _ h), fun h => ?_⟩
  unfold printTSTP at h
  split at h
  · rename_i h1
    split at h
    · rename_i h2
      refine mk ⟨Text.dec_inj h, ?_⟩
      rw [List.isEmpty_iff.1 h1, List.isEmpty_iff.1 h2]
    · exact absurd h head
  · split at h
    · exact absurd h.symm head
    · simp only [List.cons.injEq, true_and] at h
      exact mk (dec_sep_inj (by decide) _ h)

/-- The padded format only adds blanks in front, at least up to 7 characters, and is unique as well. -/
theorem pcl_id_padded {i : Id} : (printPadded i).dropWhile (· == ' ') = printText i ∧ 7 ≤ (printPadded i).length ∧
    ∀ j, printPadded i = printPadded j → i = j := by
  have strip : ∀ i : Id, (printPadded i).dropWhile (· == ' ') = printText i := by
    intro i
    unfold printPadded
    rw [List.dropWhile_append_of_pos (by intro c hc; rw [List.eq_of_mem_replicate hc]; rfl)]
    unfold printText
    cases h : Text.dec i.first with
    | nil => exact absurd h (Text.dec_ne _)
    | cons c cs =>
      have hd := Text.dec_digits i.first c (by rw [h]; exact List.mem_cons_self)
      have hc : (c == ' ') = false := by
        apply Bool.eq_false_iff.2
        intro e
        rw [beq_iff_eq.1 e] at hd
        exact absurd hd (by decide)
      simp [hc]
  refine ⟨strip i, ?_, fun j h => pcl_id_names_unique.1 ?_⟩
  · simp only [printPadded, printText, List.length_append, List.length_replicate]
    omega
  · rw [← strip i, ← strip j, h]

namespace PclIdEx

/-- Cut to 32 bits, the difference of 2³² and 0 is 0: two steps are taken as one.  And 2³¹ is smaller than 0 and larger. -/
theorem compare_cut : idCompare ⟨2 ^ 32, []⟩ ⟨0, []⟩ = 0 ∧ idCompare ⟨2 ^ 31, []⟩ ⟨0, []⟩ < 0 ∧ idCompare ⟨0, []⟩ ⟨2 ^ 31, []⟩ < 0 := by decide

theorem not_order : ¬ ∀ i j, PclOrder i j := fun h => absurd ((h ⟨2 ^ 32, []⟩ ⟨0, []⟩).1.1 compare_cut.1) (by decide)

example : (∀ a ∈ (⟨3, [1, 4]⟩ : Id).all, a < 2 ^ 31 - 1) ∧ idCompare ⟨3, [1]⟩ ⟨3, [1, 4]⟩ < 0 ∧ idCompare ⟨4, []⟩ ⟨3, [1, 4]⟩ > 0 := by decide

example : parseId [.posInt 3, .fullstop, .posInt 1, .other 0] = some (⟨3, [1]⟩, [.other 0]) ∧ parseId [.posInt 3, .fullstop, .other 0] = none := by decide

end PclIdEx
end Props
end Verif
