import Verif.Inout.CommandLine

/-!
# The grammar of command lines

`Parses` is the grammar of command lines: what the options, their arguments and the remaining arguments of a command line are.
-/

namespace Verif.CmdLine

/-- The option is the first one in the table with this name. -/
def LongOpt (opts : List Opt) (name : Str) (o : Opt) : Prop :=
  ∃ pre post, opts = pre ++ o :: post ∧ o.long = name ∧ ∀ x ∈ pre, x.long ≠ name

def ShortOpt (opts : List Opt) (c : Char) (o : Opt) : Prop :=
  ∃ pre post, opts = pre ++ o :: post ∧ o.short = some c ∧ ∀ x ∈ pre, x.short ≠ some c

/-- The argument of an option given without one. -/
def noVal (o : Opt) : Option Str := if o.type = .optArg then some o.dflt else none

/-- A group of short options that need no argument. -/
inductive Flags (opts : List Opt) : Str → List (Opt × Option Str) → Prop
  | nil : Flags opts [] []
  | cons {c cs o os} : ShortOpt opts c o → o.type ≠ .reqArg → Flags opts cs os → Flags opts (c :: cs) ((o, noVal o) :: os)

/-- The grammar: the command line (without the name of the program), the options with their arguments, the other
arguments. -/
inductive Parses (opts : List Opt) : List Str → List (Opt × Option Str) → List Str → Prop
  | nil : Parses opts [] [] []
  /-- An argument is everything that does not start with `-`, and `-` itself. -/
  | arg {a as os ps} : (∀ c s, a ≠ '-' :: c :: s) → Parses opts as os ps → Parses opts (a :: as) os (a :: ps)
  /-- After `--` there are only arguments. -/
  | stop (as) : Parses opts (['-', '-'] :: as) [] as
  /-- `--name` -/
  | long {n o as os ps} : n ≠ [] → '=' ∉ n → LongOpt opts n o → o.type ≠ .reqArg → Parses opts as os ps →
      Parses opts (('-' :: '-' :: n) :: as) ((o, noVal o) :: os) ps
  /-- `--name=value` -/
  | longVal {n v o as os ps} : '=' ∉ n → LongOpt opts n o → o.type ≠ .noArg → Parses opts as os ps →
      Parses opts (('-' :: '-' :: n ++ '=' :: v) :: as) ((o, some v) :: os) ps
  /-- `-abc` -/
  | flags {c cs fs as os ps} : c ≠ '-' → Flags opts (c :: cs) fs → Parses opts as os ps →
      Parses opts (('-' :: c :: cs) :: as) (fs ++ os) ps
  /-- `-ovalue` -/
  | attached {c v o as os ps} : c ≠ '-' → v ≠ [] → ShortOpt opts c o → o.type = .reqArg → Parses opts as os ps →
      Parses opts (('-' :: c :: v) :: as) ((o, some v) :: os) ps
  /-- `-o value` -/
  | separate {c v o as os ps} : c ≠ '-' → ShortOpt opts c o → o.type = .reqArg → Parses opts as os ps →
      Parses opts (['-', c] :: v :: as) ((o, some v) :: os) ps

/-- The decimal numbers. -/
inductive Dec : Str → Nat → Prop
  | nil : Dec [] 0
  | snoc {ds n} (d : Nat) : Dec ds n → d < 10 → Dec (ds ++ [Char.ofNat (48 + d)]) (10 * n + d)

/-- White space, a sign, a decimal number: the integer it stands for. -/
def IntText (s : Str) (n : Int) : Prop := ∃ ws sign ds m, s = ws ++ sign ++ ds ∧
  (∀ c ∈ ws, c ∈ [' ', '\t', '\n', '\x0b', '\x0c', '\r']) ∧ ds ≠ [] ∧ Dec ds m ∧
  ((sign = [] ∨ sign = ['+']) ∧ n = m ∨ sign = ['-'] ∧ n = - (m : Int))

end Verif.CmdLine
