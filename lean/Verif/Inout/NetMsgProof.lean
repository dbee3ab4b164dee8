import Verif.Inout.NetMsg
import Mathlib.Data.List.Basic

/-!
# Proofs about messages
-/

namespace Verif
namespace NetMsg

theorem dec_enc {n : Nat} (h : n < 2 ^ 32) : dec (enc n) = n := by
  simp only [dec, enc, List.foldl_cons, List.foldl_nil]
  omega

theorem cstr_self {bs : List Nat} (h : ∀ b ∈ bs, b ≠ 0) : cstr bs = bs := by
  induction bs with
  | nil => rfl
  | cons b bs ih =>
    have hb : (b != 0) = true := by simpa using h b (by simp)
    have := ih fun x hx => h x (by simp [hx])
    unfold cstr at this ⊢
    rw [List.takeWhile_cons, if_pos hb, this]

/-- What holds while the message `p` is read from a stream that goes on with `rest`. -/
structure Inv (full : Prop) (p rest : List Nat) (m : Msg) (inp : List Nat) : Prop where
  le : m.cnt ≤ p.length
  inp : inp = p.drop m.cnt ++ rest
  head : m.cnt < 4 → m.lenBuf = p.take m.cnt ∧ m.content = []
  body : 4 ≤ m.cnt → m.len = p.length
  exact : full → 4 ≤ m.cnt → m.content = p.take m.cnt

theorem take_stream {p rest : List Nat} {c j : Nat} (h : j ≤ p.length - c) : (p.drop c ++ rest).take j = (p.drop c).take j := by
  rw [List.take_append_of_le_length (by rw [List.length_drop]; exact h)]

theorem drop_stream {p rest : List Nat} {c j : Nat} (h : j ≤ p.length - c) : (p.drop c ++ rest).drop j = p.drop (c + j) ++ rest := by
  rw [List.drop_append_of_le_length (by rw [List.length_drop]; exact h), List.drop_drop]

/-- What one call does with a message that is not yet complete. -/
def Step (full : Prop) (p rest : List Nat) (c : Nat) (r : Status × Msg × List Nat) : Prop :=
  Inv full p rest r.2.1 r.2.2 ∧ c < r.2.1.cnt ∧ ((r.1 = .incomplete ∧ r.2.1.cnt < p.length) ∨ (r.1 = .success ∧ r.2.1.cnt = p.length))

theorem readRest_step {full : Prop} {p rest : List Nat} {e : Env} {m : Msg} {inp : List Nat} (hz : ∀ b ∈ p.drop 4, b ≠ 0) (hi : Inv full p rest m inp)
    (h4 : 4 ≤ m.cnt) (hlt : m.cnt < p.length) (hf : full → bufSize - 1 ≤ e.k2 + 1) : Step full p rest m.cnt (readRest e m inp) := by
  have hlen := hi.body h4
  obtain ⟨w, hw⟩ : ∃ w, w = min (bufSize - 1) (m.len - m.cnt) := ⟨_, rfl⟩
  obtain ⟨j, hj⟩ : ∃ j, j = min (e.k2 + 1) w := ⟨_, rfl⟩
  have hb : bufSize = 1025 := rfl
  have hj0 : 0 < j := by omega
  have hjp : j ≤ p.length - m.cnt := by omega
  obtain ⟨got, hgot⟩ : ∃ got, got = inp.take j := ⟨_, rfl⟩
  have hg : got = (p.drop m.cnt).take j := by rw [hgot, hi.inp, take_stream hjp]
  have hgl : got.length = j := by rw [hg, List.length_take, List.length_drop]; omega
  have hne : got ≠ [] := by intro h; rw [h] at hgl; simp at hgl; omega
  have e1 : readRest e m inp = (if m.len = m.cnt + got.length then .success else .incomplete,
      { m with content := m.content ++ cstr ((got ++ e.junk.drop got.length).take w), cnt := m.cnt + got.length }, inp.drop got.length) := by
    unfold readRest
    rw [if_neg (by omega)]
    simp only [← hw, ← hj, ← hgot]
    rw [if_neg hne]
  rw [e1, hgl]
  refine ⟨⟨?_, ?_, fun h => ?_, fun _ => hlen, fun hfull _ => ?_⟩, ?_, ?_⟩
  · simp only; omega
  · simp only; rw [hi.inp, drop_stream hjp]
  · simp only at h; omega
  · have hjw : j = w := by have := hf hfull; omega
    simp only
    rw [List.take_append_of_le_length (by omega), List.take_of_length_le (by omega), cstr_self, hi.exact hfull h4, hg, ← List.take_add]
    intro b hb
    rw [hg] at hb
    have := List.mem_of_mem_take hb
    apply hz
    have h2 : p.drop m.cnt = (p.drop 4).drop (m.cnt - 4) := by rw [List.drop_drop]; congr 1; omega
    rw [h2] at this
    exact List.mem_of_mem_drop this
  · simp only; omega
  · by_cases h : m.len = m.cnt + j
    · right
      simp only [if_pos h]
      exact ⟨trivial, by omega⟩
    · left
      simp only [if_neg h]
      exact ⟨trivial, by omega⟩

theorem read_step {full : Prop} {p rest : List Nat} {e : Env} {m : Msg} {inp : List Nat} (hz : ∀ b ∈ p.drop 4, b ≠ 0) (hd : dec (p.take 4) = p.length)
    (hp : 4 < p.length) (hi : Inv full p rest m inp) (hlt : m.cnt < p.length) (hf : full → bufSize - 1 ≤ e.k2 + 1) :
    Step full p rest m.cnt (read e m inp) := by
  by_cases h4 : m.cnt < 4
  · obtain ⟨j, hj⟩ : ∃ j, j = min (e.k1 + 1) (4 - m.cnt) := ⟨_, rfl⟩
    have hjp : j ≤ p.length - m.cnt := by omega
    obtain ⟨got, hgot⟩ : ∃ got, got = inp.take j := ⟨_, rfl⟩
    have hg : got = (p.drop m.cnt).take j := by rw [hgot, hi.inp, take_stream hjp]
    have hgl : got.length = j := by rw [hg, List.length_take, List.length_drop]; omega
    have hne : got ≠ [] := by intro h; rw [h] at hgl; simp at hgl; omega
    obtain ⟨hl, hc⟩ := hi.head h4
    have hbuf : m.lenBuf ++ got = p.take (m.cnt + j) := by rw [hl, hg, ← List.take_add]
    have hin : inp.drop j = p.drop (m.cnt + j) ++ rest := by rw [hi.inp, drop_stream hjp]
    have e1 : read e m inp = if m.cnt + j < 4 then (.incomplete, { m with cnt := m.cnt + j, lenBuf := p.take (m.cnt + j) }, inp.drop j) else
        readRest e ⟨p.take (m.cnt + j), dec (p.take (m.cnt + j)), m.cnt + j, p.take (m.cnt + j)⟩ (inp.drop j) := by
      unfold read
      rw [if_pos h4]
      simp only [← hj, ← hgot]
      rw [if_neg hne]
      simp only [hgl, hbuf, hc, List.nil_append]
    rw [e1]
    by_cases h5 : m.cnt + j < 4
    · rw [if_pos h5]
      refine ⟨⟨?_, hin, fun _ => ⟨rfl, hc⟩, fun h => ?_, fun _ h => ?_⟩, ?_, .inl ⟨rfl, ?_⟩⟩
      all_goals simp only at *
      all_goals omega
    · rw [if_neg h5]
      have h6 : m.cnt + j = 4 := by omega
      rw [h6] at hin ⊢
      have := readRest_step (e := e) (m := ⟨p.take 4, dec (p.take 4), 4, p.take 4⟩) (inp := inp.drop j) hz
        (⟨by simp only; omega, hin, fun h => absurd h (by simp), fun _ => hd, fun _ _ => rfl⟩ : Inv full p rest _ _) (Nat.le_refl 4) hp hf
      exact ⟨this.1, Nat.lt_trans h4 this.2.1, this.2.2⟩
  · have e1 : read e m inp = readRest e m inp := by unfold read; rw [if_neg h4]
    rw [e1]
    exact readRest_step hz hi (by omega) hlt hf

theorem recvMsg_inv {full : Prop} {p rest : List Nat} (hz : ∀ b ∈ p.drop 4, b ≠ 0) (hd : dec (p.take 4) = p.length) (hp : 4 < p.length) (es : List Env) :
    ∀ {m : Msg} {inp : List Nat}, Inv full p rest m inp → m.cnt < p.length → (full → ∀ e ∈ es, bufSize - 1 ≤ e.k2 + 1) →
      ((recvMsg es m inp).1 = .incomplete ∧ es.length < p.length - m.cnt) ∨
        ((recvMsg es m inp).1 = .success ∧ (recvMsg es m inp).2.1.cnt = p.length ∧ Inv full p rest (recvMsg es m inp).2.1 (recvMsg es m inp).2.2) := by
  induction es with
  | nil =>
    intro m inp _ hlt _
    exact .inl ⟨rfl, by simp only [List.length_nil]; omega⟩
  | cons e es ih =>
    intro m inp hi hlt hf
    obtain ⟨h1, h2, h3⟩ := read_step (e := e) hz hd hp hi hlt (fun h => hf h e (by simp))
    rcases h3 with ⟨h3, h4⟩ | ⟨h3, h4⟩
    · have e1 : recvMsg (e :: es) m inp = recvMsg es (read e m inp).2.1 (read e m inp).2.2 := by
        rw [recvMsg, if_pos h3]
      rw [e1]
      rcases ih h1 h4 (fun h x hx => hf h x (by simp [hx])) with ⟨h5, h6⟩ | h5
      · exact .inl ⟨h5, by simp only [List.length_cons]; omega⟩
      · exact .inr h5
    · have e1 : recvMsg (e :: es) m inp = read e m inp := by
        rw [recvMsg, if_neg (by rw [h3]; decide)]
      rw [e1]
      exact .inr ⟨h3, h4, h1⟩

theorem send_spec (ks : List Nat) : ∀ {m : Msg}, m.content.length = m.len → m.cnt ≤ m.len →
    (send ks m).2 <+: m.content.drop m.cnt ∧ ((send ks m).1 = true → (send ks m).2 = m.content.drop m.cnt) ∧
      ((∀ k ∈ ks, 0 < k) → m.len - m.cnt ≤ ks.length → ks ≠ [] → (send ks m).1 = true) := by
  induction ks with
  | nil =>
    intro m _ _
    exact ⟨List.nil_prefix, fun h => by simp [send] at h, fun _ _ h => absurd rfl h⟩
  | cons k ks ih =>
    intro m hl hc
    obtain ⟨out, ho⟩ : ∃ out, out = ((m.content.drop m.cnt).take (m.len - m.cnt)).take k := ⟨_, rfl⟩
    have ho2 : out = (m.content.drop m.cnt).take k := by
      rw [ho, List.take_of_length_le (l := m.content.drop m.cnt) (by rw [List.length_drop]; omega)]
    have hol : out.length = min k (m.len - m.cnt) := by rw [ho2, List.length_take, List.length_drop, hl]
    have ew : write k m = (if m.len = m.cnt + out.length then .success else .incomplete, { m with cnt := m.cnt + out.length }, out) := by
      unfold write; simp only [← ho]
    by_cases h : m.len = m.cnt + out.length
    · have es : send (k :: ks) m = (true, out) := by
        rw [send, ew]; simp only [if_pos h, if_true]
      have hall : out = m.content.drop m.cnt := by
        rw [ho2, List.take_of_length_le]
        rw [List.length_drop]; omega
      rw [es]
      exact ⟨hall ▸ List.prefix_rfl, fun _ => hall, fun _ _ _ => rfl⟩
    · have es : send (k :: ks) m = ((send ks { m with cnt := m.cnt + out.length }).1, out ++ (send ks { m with cnt := m.cnt + out.length }).2) := by
        rw [send, ew]; simp only [if_neg h]; rfl
      obtain ⟨i1, i2, i3⟩ := ih (m := { m with cnt := m.cnt + out.length }) hl (by simp only; omega)
      have hsplit : m.content.drop m.cnt = out ++ m.content.drop (m.cnt + out.length) := by
        have hk : out.length = k := by omega
        rw [hk, ho2, ← List.drop_drop, List.take_append_drop]
      rw [es]
      refine ⟨?_, fun ht => ?_, fun hk hn _ => ?_⟩
      · rw [hsplit]
        exact (List.prefix_append_right_inj out).2 i1
      · rw [hsplit]
        exact congrArg (out ++ ·) (i2 ht)
      · have hk0 := hk k (by simp)
        simp only [List.length_cons] at hn
        refine i3 (fun x hx => hk x (by simp [hx])) (by simp only; omega) (fun e => ?_)
        rw [e] at hn
        simp at hn
        omega

end NetMsg
end Verif
