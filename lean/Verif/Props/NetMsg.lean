import Verif.Inout.NetMsgProof

/-!
# C92: strings sent over a connection
-/

namespace Verif
namespace Props

open NetMsg

/-- A string that can be sent: no zero bytes, and the length with the header fits into an `int`. -/
def Sendable (str : List Nat) : Prop := (∀ b ∈ str, b ≠ 0) ∧ str.length + 4 < 2 ^ 31

/-- The full claim: a string sent is received, whatever pieces the bytes are delivered in.  It fails for the code (`short_read_adds_bytes`,
`empty_string_lost`). -/
def Delivered (str rest : List Nat) (es : List Env) : Prop :=
  str.length + 4 ≤ es.length → recv es ((pack str).content ++ rest) = (.success, some str, rest)

/-- Sending: whatever numbers of bytes the socket takes at a time, what is written is a part of the message from its start, and all of it once
the function returns; it returns if each call takes at least one byte. -/
theorem send_exact (str : List Nat) (ks : List Nat) :
    (send ks (pack str)).2 <+: (pack str).content ∧ ((send ks (pack str)).1 = true → (send ks (pack str)).2 = (pack str).content) ∧
      ((∀ k ∈ ks, 0 < k) → str.length + 4 ≤ ks.length → (send ks (pack str)).1 = true) := by
  have hl : (pack str).content.length = (pack str).len := by simp [pack, enc]
  obtain ⟨h1, h2, h3⟩ := send_spec ks (m := pack str) hl (Nat.zero_le _)
  exact ⟨h1, h2, fun hk hn => h3 hk hn (fun e => by rw [e] at hn; simp at hn)⟩

private theorem start {full : Prop} {str : List Nat} (rest : List Nat) (hs : Sendable str) (hne : str ≠ []) :
    (∀ b ∈ (pack str).content.drop 4, b ≠ 0) ∧ dec ((pack str).content.take 4) = (pack str).content.length ∧ 4 < (pack str).content.length ∧
      Inv full (pack str).content rest NetMsg.empty ((pack str).content ++ rest) ∧ (pack str).content.length = str.length + 4 := by
  have hd : (pack str).content.drop 4 = str := rfl
  have ht : (pack str).content.take 4 = enc (str.length + 4) := by simp [pack, enc]
  have hl : (pack str).content.length = str.length + 4 := by simp [pack, enc]
  have h0 : 0 < str.length := List.length_pos_iff.2 hne
  refine ⟨by rw [hd]; exact hs.1, ?_, by omega, ⟨Nat.zero_le _, rfl, fun _ => ⟨rfl, rfl⟩, fun h => ?_, fun _ h => ?_⟩, hl⟩
  · rw [ht, hl, dec_enc]
    have := hs.2
    omega
  · simp [NetMsg.empty] at h
  · simp [NetMsg.empty] at h

/-- Framing: however the bytes of a non-empty string are delivered and whatever is in the buffer, exactly the bytes of the message are taken from
the stream; the function does not return before. -/
theorem recv_takes_message {str : List Nat} (rest : List Nat) (hs : Sendable str) (hne : str ≠ []) (es : List Env) :
    ((recv es ((pack str).content ++ rest)).1 = .incomplete ∧ es.length < str.length + 4) ∨
      ((recv es ((pack str).content ++ rest)).1 = .success ∧ (recv es ((pack str).content ++ rest)).2.2 = rest) := by
  obtain ⟨hz, hd, hp, hi, hl⟩ := start (full := False) rest hs hne
  rcases recvMsg_inv hz hd hp es hi (by simp only [NetMsg.empty]; omega) (fun h => h.elim) with ⟨h1, h2⟩ | ⟨h1, h2, h3⟩
  · refine .inl ⟨h1, ?_⟩
    rw [hl] at h2
    exact h2
  · refine .inr ⟨h1, ?_⟩
    have := h3.inp
    rw [h2, List.drop_length, List.nil_append] at this
    exact this

/-- A non-empty string is received if each call for the body gets all bytes asked for; the header may come in any pieces. -/
theorem recv_exact_partial {str : List Nat} (rest : List Nat) (hs : Sendable str) (hne : str ≠ []) (es : List Env)
    (hf : ∀ e ∈ es, bufSize - 1 ≤ e.k2 + 1) : Delivered str rest es := by
  intro hn
  obtain ⟨hz, hd, hp, hi, hl⟩ := start (full := True) rest hs hne
  rcases recvMsg_inv hz hd hp es hi (by simp only [NetMsg.empty]; omega) (fun _ => hf) with ⟨_, h2⟩ | ⟨h1, h2, h3⟩
  · rw [hl] at h2
    simp only [NetMsg.empty] at h2
    omega
  · have h4 := h3.inp
    rw [h2, List.drop_length, List.nil_append] at h4
    have h5 := h3.exact trivial (by omega)
    rw [h2, List.take_length] at h5
    unfold recv
    simp only [h1, h4, if_true, unpack, h5]
    have : (pack str).content.drop 4 = str := rfl
    rw [this, cstr_self hs.1]

/-- The empty string is never received: the function reports a closed connection or still waits. -/
theorem recv_empty_fails (rest : List Nat) (es : List Env) : (recv es ((pack []).content ++ rest)).1 ≠ .success := by
  have key : ∀ (es : List Env) (m : Msg) (inp : List Nat), m.cnt < 4 → m.lenBuf ++ inp = [0, 0, 0, 4] ++ rest → m.lenBuf.length = m.cnt →
      (recvMsg es m inp).1 ≠ .success := by
    intro es
    induction es with
    | nil => intro m inp _ _ _ h; cases h
    | cons e es ih =>
      intro m inp h4 hb hl
      obtain ⟨j, hj⟩ : ∃ j, j = min (e.k1 + 1) (4 - m.cnt) := ⟨_, rfl⟩
      have hil : m.cnt + inp.length = 4 + rest.length := by
        have := congrArg List.length hb
        simp only [List.length_append, hl, List.length_cons, List.length_nil] at this
        omega
      obtain ⟨got, hgot⟩ : ∃ got, got = inp.take j := ⟨_, rfl⟩
      have hgl : got.length = j := by rw [hgot, List.length_take]; omega
      have hne : got ≠ [] := by intro h; rw [h] at hgl; simp at hgl; omega
      have hb2 : (m.lenBuf ++ got) ++ inp.drop j = [0, 0, 0, 4] ++ rest := by rw [List.append_assoc, hgot, List.take_append_drop, hb]
      by_cases h5 : m.cnt + j < 4
      · have e1 : read e m inp = (.incomplete, { m with cnt := m.cnt + j, lenBuf := m.lenBuf ++ got }, inp.drop j) := by
          unfold NetMsg.read
          rw [if_pos h4]
          simp only [← hj, ← hgot]
          rw [if_neg hne]
          simp only [hgl]
          rw [if_pos h5]
        rw [recvMsg, e1]
        simp only [if_true]
        exact ih _ _ h5 hb2 (by simp [hl, hgl])
      · have h6 : m.cnt + j = 4 := by omega
        have hbuf : m.lenBuf ++ got = [0, 0, 0, 4] := (List.append_inj hb2 (by simp [hl, hgl, h6])).1
        have e1 : (read e m inp).1 = .closed := by
          unfold NetMsg.read
          rw [if_pos h4]
          simp only [← hj, ← hgot]
          rw [if_neg hne]
          simp only [hgl]
          rw [if_neg h5]
          unfold readRest
          simp [hbuf, h6, dec]
        rw [recvMsg, e1]
        simp [e1]
  exact key es NetMsg.empty _ (by decide) rfl rfl

namespace NetMsgEx

/-- One byte at a time for the body, with 120 left in the buffer: of the two bytes 97 98 the string 97 120 98 is made. -/
theorem short_read_adds_bytes : Sendable [97, 98] ∧
    recv (List.replicate 6 ⟨3, 0, [120, 120, 120]⟩) ((pack [97, 98]).content ++ [7]) = (.success, some [97, 120, 98], [7]) :=
  ⟨⟨by decide, by decide⟩, by decide⟩

theorem not_delivered : ¬ ∀ str rest es, Sendable str → str ≠ [] → Delivered str rest es := fun h => by
  have := h [97, 98] [7] (List.replicate 6 ⟨3, 0, [120, 120, 120]⟩) short_read_adds_bytes.1 (by decide) (by decide)
  rw [short_read_adds_bytes.2] at this
  exact absurd this (by decide)

theorem empty_string_lost : Sendable [] ∧ recv (List.replicate 6 ⟨3, 2000, []⟩) ((pack []).content ++ [7]) = (.closed, none, [7]) :=
  ⟨⟨by decide, by decide⟩, by decide⟩

example : (send [1, 0, 4, 9] (pack [97, 98])) = (true, [0, 0, 0, 6, 97, 98]) := by decide

example : (∀ e ∈ List.replicate 6 (⟨1, 2000, [120, 120, 120]⟩ : Env), bufSize - 1 ≤ e.k2 + 1) ∧
    recv (List.replicate 6 ⟨1, 2000, [120, 120, 120]⟩) ((pack [97, 98]).content ++ [7]) = (.success, some [97, 98], [7]) := by decide

end NetMsgEx
end Props
end Verif
