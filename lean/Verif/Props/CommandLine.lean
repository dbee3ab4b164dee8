import Verif.Inout.CmdLineProof

/-!
# C82: command lines are read as documented
-/

namespace Verif.Props

open Verif CmdLine CmdLineProof

/-- Reading the options ends for every command line, with the options or with an error message. -/
theorem command_line_total (opts : List Opt) (prog : Str) (args : List Str) :
    ∃ n r, getAll opts n (alloc (prog :: args)) = some r :=
  total args.length args rfl [] _

/-- The options, their arguments and the remaining arguments are those of the grammar, and the program accepts exactly the
command lines of the grammar.  The counter is the number of the remaining arguments. -/
theorem command_line_exact (opts : List Opt) (prog : Str) (args : List Str) (os : List (Opt × Option Str)) (qs : List Str) :
    Parses opts args os qs ↔
      ∃ n st, getAll opts n (alloc (prog :: args)) = some (.ok (os, st)) ∧ st.argv = qs ∧ st.argc = qs.length ∧ st.argi = qs.length := by
  have e : alloc (prog :: args) = stt [] args args.length 0 := by simp [alloc]
  rw [e]
  constructor
  · intro h
    obtain ⟨n, fin, h1, h2, h3, h4⟩ := complete h [] (args.length : Int)
    simp at h2 h3 h4
    exact ⟨n, fin, h1, h2, by omega, h3⟩
  · rintro ⟨n, st, h1, h2, -⟩
    obtain ⟨qs', q1, q2, -⟩ := (sound n).1 _ _ _ _ _ h1
    simp at q2
    rwa [← h2, q2]

/-- A command line is an error exactly if it is not in the grammar. -/
theorem command_line_rejects (opts : List Opt) (prog : Str) (args : List Str) :
    (∃ n e, getAll opts n (alloc (prog :: args)) = some (.error e)) ↔ ¬ ∃ os qs, Parses opts args os qs := by
  constructor
  · rintro ⟨n, e, h⟩ ⟨os, qs, hp⟩
    obtain ⟨m, st, h2, -⟩ := (command_line_exact opts prog args os qs).1 hp
    have := (mono h (Nat.le_max_left n m)).symm.trans (mono h2 (Nat.le_max_right n m))
    simp at this
  · intro h
    obtain ⟨n, r, hr⟩ := command_line_total opts prog args
    rcases r with e | ⟨os, st⟩
    · exact ⟨n, e, hr⟩
    · obtain ⟨qs, q1, -⟩ := (sound n).1 args [] (args.length : Int) os st (by
        have e : alloc (prog :: args) = stt [] args args.length 0 := by simp [alloc]
        rwa [e] at hr)
      exact absurd ⟨os, qs, q1⟩ h

/-- A command line has one reading only. -/
theorem command_line_unique (opts : List Opt) (args : List Str) {os os' : List (Opt × Option Str)} {qs qs' : List Str}
    (h : Parses opts args os qs) (h' : Parses opts args os' qs') : os = os' ∧ qs = qs' := by
  obtain ⟨n, st, h1, h2, -⟩ := (command_line_exact opts [] args os qs).1 h
  obtain ⟨n', st', h1', h2', -⟩ := (command_line_exact opts [] args os' qs').1 h'
  have := (mono h1 (Nat.le_max_left n n')).symm.trans (mono h1' (Nat.le_max_right n n'))
  simp only [Option.some.injEq, Except.ok.injEq, Prod.mk.injEq] at this
  refine ⟨this.1, ?_⟩
  rw [← h2, ← h2', this.2]

/-- The programs add the argument `-` (standard input) if there is no argument left: an argument inserted after the options have
been read comes after the remaining ones. -/
theorem command_line_insert (opts : List Opt) (prog : Str) (args : List Str) (os : List (Opt × Option Str)) (st : CL) (n : Nat)
    (h : getAll opts n (alloc (prog :: args)) = some (.ok (os, st))) (a : Str) :
    Parses opts args os st.argv ∧ (insertArg st a).argv = st.argv ++ [a] ∧ (insertArg st a).argc = st.argv.length + 1 := by
  have e : alloc (prog :: args) = stt [] args args.length 0 := by simp [alloc]
  rw [e] at h
  obtain ⟨qs, q1, q2, -, q4⟩ := (sound n).1 _ _ _ _ _ h
  simp at q2 q4
  have hc : st.argc = qs.length := by omega
  simp [insertArg, hc, q2, q1]

/-- Numerical arguments: what is accepted is an integer of 64 bits, and it is that integer.  Missing: the empty argument, which is
accepted as 0 (`CmdLineEx.empty_number`). -/
theorem int_arg_exact_partial (arg : Str) (h : arg ≠ []) (n : Int) :
    getInt arg = some n ↔ IntText arg n ∧ - 2 ^ 63 ≤ n ∧ n ≤ 2 ^ 63 - 1 := getInt_iff h n

/-- The same with a range. -/
theorem int_arg_range_partial (arg : Str) (h : arg ≠ []) (lo hi n : Int) (hlo : - 2 ^ 63 ≤ lo) (hhi : hi ≤ 2 ^ 63 - 1) :
    getIntRange arg lo hi = some n ↔ IntText arg n ∧ lo ≤ n ∧ n ≤ hi := by
  unfold getIntRange
  have key := getInt_iff h
  cases e : getInt arg with
  | none =>
    simp only [reduceCtorEq, false_iff]
    rintro ⟨h1, h2, h3⟩
    have := (key n).2 ⟨h1, by omega, by omega⟩
    rw [e] at this
    cases this
  | some m =>
    obtain ⟨h1, h2, h3⟩ := (key m).1 e
    by_cases hr : m < lo ∨ m > hi
    · simp only [Bool.or_eq_true, decide_eq_true_eq, hr, if_true, reduceCtorEq, false_iff]
      rintro ⟨q1, q2, q3⟩
      have := (key n).2 ⟨q1, by omega, by omega⟩
      rw [e] at this
      cases this
      omega
    · simp only [Bool.or_eq_true, decide_eq_true_eq, hr, if_false, Option.some.injEq]
      constructor
      · rintro rfl
        exact ⟨h1, by omega, by omega⟩
      · rintro ⟨q1, q2, q3⟩
        have := (key n).2 ⟨q1, by omega, by omega⟩
        rw [e] at this
        cases this
        rfl

/-- The text of the help for an option: printing it ends; every line has at most `len` characters and no newline. -/
theorem help_lines_total (len : Nat) (hl : 0 < len) (text : Str) : ∃ n ls, printLines len n text = some ls ∧
    ∀ l ∈ ls, l.length ≤ len ∧ '\n' ∉ l := by
  induction hm : text.length using Nat.strongRecOn generalizing text with
  | _ m ih =>
    obtain ⟨h1, h2, -⟩ := printStart_spec hl text
    cases hr : (printStart text len).2 with
    | none =>
      refine ⟨1, [(printStart text len).1], ?_, by simp [h1, h2]⟩
      rw [printLines]
      generalize printStart text len = r at hr
      obtain ⟨l, r⟩ := r
      dsimp only at hr
      subst hr
      rfl
    | some rest =>
      obtain ⟨n, ls, q1, q2⟩ := ih rest.length (by have := printStart_shorter hl text rest hr; omega) rest rfl
      refine ⟨n + 1, (printStart text len).1 :: ls, ?_, ?_⟩
      · rw [printLines]
        generalize printStart text len = r at hr
        obtain ⟨l, r⟩ := r
        dsimp only at hr
        subst hr
        simp only [q1, Option.map_some]
      · intro l hl'
        rcases List.mem_cons.1 hl' with rfl | hl'
        · exact ⟨h1, h2⟩
        · exact q2 l hl'

/-- The lines are the text broken at blanks and newlines; a word is broken only after a full line without blanks. -/
inductive Wrapped (len : Nat) : Str → List Str → Prop
  | last (l) : Wrapped len l [l]
  | drop (l c) : c = ' ' ∨ c = '\n' → Wrapped len (l ++ [c]) [l]
  | brk {rest ls} (l c) : c = ' ' ∨ c = '\n' → Wrapped len rest ls → Wrapped len (l ++ c :: rest) (l :: ls)
  | hard {rest ls} (l) : l.length = len → ' ' ∉ l → Wrapped len rest ls → Wrapped len (l ++ rest) (l :: ls)

theorem help_lines_complete (len : Nat) (hl : 0 < len) (text : Str) (n : Nat) (ls : List Str) (h : printLines len n text = some ls) :
    Wrapped len text ls := by
  induction n generalizing text ls with
  | zero => simp [printLines] at h
  | succ n ih =>
    obtain ⟨-, -, sep, h1, h2, h3⟩ := printStart_spec hl text
    rw [printLines] at h
    generalize printStart text len = r at *
    obtain ⟨l, r⟩ := r
    cases r with
    | none =>
      simp only [Option.some.injEq] at h
      subst h
      simp only [Option.getD_none, List.append_nil] at h2
      subst h2
      rcases h1 with rfl | rfl | rfl
      · simpa using Wrapped.last (len := len) l
      · exact .drop _ _ (.inl rfl)
      · exact .drop _ _ (.inr rfl)
    | some rest =>
      simp only [Option.map_eq_some_iff] at h
      obtain ⟨ls', h4, rfl⟩ := h
      simp only [Option.getD_some] at h2
      subst h2
      rcases h1 with rfl | rfl | rfl
      · rcases h3 rfl with h | h
        · cases h
        · simpa using Wrapped.hard l h.1 h.2 (ih _ _ h4)
      · simpa using Wrapped.brk l ' ' (.inl rfl) (ih _ _ h4)
      · simpa using Wrapped.brk l '\n' (.inr rfl) (ih _ _ h4)

/-! ## Examples -/

namespace CmdLineEx

def oHelp : Opt := ⟨1, some 'h', "help".toList, .noArg, []⟩
def oVerb : Opt := ⟨2, some 'v', "verbose".toList, .optArg, "1".toList⟩
def oOut : Opt := ⟨3, some 'o', "output-file".toList, .reqArg, []⟩
def tab : List Opt := [oHelp, oVerb, oOut]

/-- `-hv a.p -o out --verbose=2 -oo2 --help - -- -x` -/
def line : List Str := ["-hv", "a.p", "-o", "out", "--verbose=2", "-oo2", "--help", "-", "--", "-x"].map String.toList

def okWith (os : List (Opt × Option Str)) (st : CL) : Option (Except Err (List (Opt × Option Str) × CL)) → Bool
  | some (.ok (a, b)) => a = os && b = st
  | _ => false

theorem okWith_imp {os st r} (h : okWith os st r = true) : r = some (.ok (os, st)) := by
  unfold okWith at h
  split at h
  · simp at h
    rw [h.1, h.2]
  · cases h

def failsWith (e : Err) : Option (Except Err (List (Opt × Option Str) × CL)) → Bool
  | some (.error e') => e = e'
  | _ => false

theorem failsWith_imp {e r} (h : failsWith e r = true) : r = some (.error e) := by
  unfold failsWith at h
  split at h
  · simp at h
    rw [h]
  · cases h

example : Parses tab line
    [(oHelp, none), (oVerb, some ['1']), (oOut, some "out".toList), (oVerb, some ['2']), (oOut, some ['o', '2']), (oHelp, none)]
    (["a.p", "-", "-x"].map String.toList) := by
  have h : getAll tab 20 (alloc ("eprover".toList :: line)) =
    some (.ok ([(oHelp, none), (oVerb, some ['1']), (oOut, some "out".toList), (oVerb, some ['2']), (oOut, some ['o', '2']), (oHelp, none)],
      ⟨["a.p", "-", "-x"].map String.toList, 3, 3, 0⟩)) := okWith_imp (by decide +kernel)
  exact (command_line_exact tab "eprover".toList line _ _).2 ⟨20, _, h, rfl, rfl, rfl⟩

/-- An option with an argument in a group: no reading. -/
example : ¬ ∃ os qs, Parses tab ["-vo".toList, "out".toList] os qs :=
  (command_line_rejects tab "eprover".toList _).1 ⟨20, .aggregated, failsWith_imp (by decide +kernel)⟩

/-- **The empty argument is read as the number 0**: `--cpu-limit=` sets the limit 0. -/
theorem empty_number : getInt [] = some 0 ∧ getIntRange [] 0 100 = some 0 ∧ ¬ ∃ n, IntText [] n := by
  refine ⟨by rfl, by rfl, ?_⟩
  rintro ⟨n, ws, sign, ds, m, h, -, hd, -⟩
  simp at h
  exact hd h.2.2

example : getInt " -12".toList = some (-12) := by decide +kernel
example : getInt "9223372036854775808".toList = none := by decide +kernel
example : IntText " -12".toList (-12) := ((int_arg_exact_partial _ (by decide) _).1 (by decide +kernel : getInt " -12".toList = some (-12))).1
example : getIntRange "7".toList 0 6 = none := by decide +kernel

example : printLines 10 9 "select the strategy\nfor abcdefghijklm x".toList =
    some (["select", "the", "strategy", "for", "abcdefghij", "klm x"].map String.toList) := by decide +kernel

end CmdLineEx

end Verif.Props
