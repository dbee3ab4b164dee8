/-!
# Command lines

Model of INOUT/cio_commandline.c: options and arguments, numerical arguments, and the line breaks in the help text.
A string is the list of its characters; it does not contain the terminating character.
-/

namespace Verif.CmdLine

abbrev Str := List Char

/-- `OptArgType` (INOUT/cio_commandline.h:50-55). -/
inductive ArgType where
  | noArg | optArg | reqArg
deriving DecidableEq, Repr

/-- `OptCell` (INOUT/cio_commandline.h:57-66); `shortopt == '\0'` is `none`.  The table ends before `option_code == 0`. -/
structure Opt where
  code : Nat
  short : Option Char
  long : Str
  type : ArgType
  dflt : Str
deriving DecidableEq, Repr

/-- `CLStateCell` (INOUT/cio_commandline.h:69-78): the arguments up to the terminating null pointer, the counter, the position, and the position in a group of
short options. -/
structure CL where
  argv : List Str
  argc : Int
  argi : Nat
  sc : Nat
deriving DecidableEq, Repr

/-- The calls of `Error` with `USAGE_ERROR`. -/
inductive Err where
  | unknown | noArgAllowed | argMissing | aggregated
deriving DecidableEq, Repr

/-- `CLStateAlloc` (INOUT/cio_commandline.c:423-443): the name of the program is removed. -/
def alloc (argv : List Str) : CL := ⟨argv.eraseIdx 0, argv.length - 1, 0, 0⟩

/-- `CLStateInsertArg` (INOUT/cio_commandline.c:480-493); `argv[argc] = arg`. -/
def insertArg (st : CL) (a : Str) : CL := { st with argv := st.argv.take st.argc.toNat ++ [a], argc := st.argc + 1 }

/-- `shift_array_left(&(state->argv[state->argi])); state->argc--` (INOUT/cio_commandline.c:127-142). -/
def shift (st : CL) : CL := { st with argv := st.argv.eraseIdx st.argi, argc := st.argc - 1 }

/-- `find_long_opt` (INOUT/cio_commandline.c:157-181): `name` is the part before the first `=`. -/
def findLong (opts : List Opt) (arg : Str) : Option Opt :=
  let name := (arg.drop 2).takeWhile (· ≠ '=')
  opts.find? fun o => o.long.take name.length == name && o.long.length == name.length

/-- `find_short_opt` (INOUT/cio_commandline.c:196-208). -/
def findShort (opts : List Opt) (c : Char) : Option Opt := opts.find? fun o => some c == o.short

/-- `strchr(arg, '=')` and the rest of the string after it. -/
def afterEq : Str → Option Str
  | [] => none
  | c :: cs => if c = '=' then some cs else afterEq cs

/-- What `CLStateGetOpt` returns: an option with its argument, or the null pointer. -/
inductive Res where
  | opt (o : Opt) (arg : Option Str) (st : CL)
  | done (st : CL)
  | error (e : Err)
deriving Repr

/-- `process_long_option` (INOUT/cio_commandline.c:225-282). -/
def longOption (opts : List Opt) (st : CL) (arg : Str) : Res :=
  match findLong opts arg with
  | none => .error .unknown
  | some o =>
    match o.type, afterEq arg with
    | .noArg, some _ => .error .noArgAllowed
    | .noArg, none => .opt o none (shift st)
    | .optArg, some v => .opt o (some v) (shift st)
    | .optArg, none => .opt o (some o.dflt) (shift st)
    | .reqArg, none => .error .argMissing
    | .reqArg, some v => .opt o (some v) (shift st)

/-- `process_short_option` (INOUT/cio_commandline.c:299-369).  The first case is not reachable. -/
def shortOption (opts : List Opt) (st : CL) (arg : Str) : Res :=
  match arg[st.sc]? with
  | none => .error .unknown
  | some c =>
    match findShort opts c with
    | none => .error .unknown
    | some o =>
      match o.type with
      | .reqArg =>
        if st.sc ≠ 1 then .error .aggregated
        else if arg.drop (st.sc + 1) ≠ [] then .opt o (some (arg.drop (st.sc + 1))) (shift { st with sc := 0 })
        else
          let st := shift st
          match st.argv[st.argi]? with
          | none => .error .argMissing
          | some v => .opt o (some v) (shift { st with sc := 0 })
      | t =>
        let val := if t = .optArg then some o.dflt else none
        if arg.drop (st.sc + 1) = [] then .opt o val (shift { st with sc := 0 })
        else .opt o val { st with sc := st.sc + 1 }

/-- `(arg[0]=='-') && (arg[1]!='\0')` (INOUT/cio_commandline.c:513-514). -/
def isOpt : Str → Bool
  | '-' :: _ :: _ => true
  | _ => false

/-- The loop over the arguments that are no options (INOUT/cio_commandline.c:511-519). -/
def skip (argv : List Str) (i : Nat) : Nat :=
  match h : argv[i]? with
  | none => i
  | some a => if isOpt a then i else skip argv (i + 1)
termination_by argv.length - i
decreasing_by
  have := (List.getElem?_eq_some_iff.1 h).1
  omega

/-- `CLStateGetOpt` (INOUT/cio_commandline.c:509-543). -/
def getOpt (opts : List Opt) (st : CL) : Res :=
  let st := { st with argi := skip st.argv st.argi }
  match st.argv[st.argi]? with
  | none => .done st
  | some arg =>
    if arg = ['-', '-'] then
      let st := shift st
      .done { st with argi := st.argv.length }
    else if arg.take 2 = ['-', '-'] then longOption opts st arg
    else
      let st := if st.sc = 0 then { st with sc := 1 } else st
      shortOption opts st arg

/-- The loop `while((handle = CLStateGetOpt(state, &arg, opts)))` of the programs (for example PROVER/eprover.c: `process_options`): the options with
their arguments, and the final state; `none` = out of fuel. -/
def getAll (opts : List Opt) : Nat → CL → Option (Except Err (List (Opt × Option Str) × CL))
  | 0, _ => none
  | n + 1, st =>
    match getOpt opts st with
    | .error e => some (.error e)
    | .done st => some (.ok ([], st))
    | .opt o v st =>
      match getAll opts n st with
      | none => none
      | some (.error e) => some (.error e)
      | some (.ok (os, st)) => some (.ok ((o, v) :: os, st))

/-! ## Arguments of options -/

/-- `isspace` in the C locale. -/
def isSpace (c : Char) : Bool := c = ' ' || c = '\t' || c = '\n' || c = '\x0b' || c = '\x0c' || c = '\r'

def digitVal (c : Char) : Nat := c.toNat - '0'.toNat

def isDigit (c : Char) : Bool := '0' ≤ c && c ≤ '9'

/-- The value of a sequence of digits. -/
def digitsVal (ds : Str) : Nat := ds.foldl (fun n c => 10 * n + digitVal c) 0

/-- The sign. -/
def splitSign : Str → Bool × Str
  | '-' :: r => (true, r)
  | '+' :: r => (false, r)
  | r => (false, r)

/-- `strtol(arg, &eoarg, 10)` as specified in the C standard (7.22.1.4), with a `long` of 64 bits: the value, `errno != 0`, and the rest `eoarg`. -/
def strtol (s : Str) : Int × Bool × Str :=
  let s1 := s.dropWhile isSpace
  let neg := (splitSign s1).1
  let s2 := (splitSign s1).2
  let ds := s2.takeWhile isDigit
  if ds = [] then (0, false, s)
  else
    let n : Int := if neg then - (digitsVal ds : Int) else digitsVal ds
    if n < - 2 ^ 63 then (- 2 ^ 63, true, s2.dropWhile isDigit)
    else if n > 2 ^ 63 - 1 then (2 ^ 63 - 1, true, s2.dropWhile isDigit)
    else (n, false, s2.dropWhile isDigit)

/-- `CLStateGetIntArg` (INOUT/cio_commandline.c:603-631); `none` is the error. -/
def getInt (arg : Str) : Option Int :=
  let (n, errno, rest) := strtol arg
  if errno || rest ≠ [] then none else some n

/-- `CLStateGetIntArgCheckRange` (INOUT/cio_commandline.c:646-664). -/
def getIntRange (arg : Str) (lo hi : Int) : Option Int :=
  match getInt arg with
  | none => none
  | some n => if n < lo || n > hi then none else some n

/-- `CLStateGetBoolArg` (INOUT/cio_commandline.c:680-701). -/
def getBool (arg : Str) : Option Bool :=
  if arg = "true".toList then some true else if arg = "false".toList then some false else none

/-! ## The help text -/

/-- The search in `print_start_of_str` (INOUT/cio_commandline.c:64-79): the position of the last blank, whether the loop ended before `len`, and the number of
characters passed. -/
def search (len : Nat) : Str → Nat → Option Nat → Option Nat × Bool × Nat
  | [], i, b => (b, i < len, i)
  | c :: cs, i, b =>
    if i < len then
      if c = ' ' then search len cs (i + 1) (some i)
      else if c = '\n' then (some i, false, i)
      else search len cs (i + 1) b
    else (b, false, i)

/-- `print_start_of_str` (INOUT/cio_commandline.c:58-111): the line printed and the rest of the text. -/
def printStart (str : Str) (len : Nat) : Str × Option Str :=
  match search len str 0 none with
  | (_, true, _) => (str, none)
  | (some b, false, _) =>
    let rest := str.drop (b + 1)
    (str.take b, if rest = [] then none else some rest)
  | (none, false, i) => (str.take i, some (str.drop i))

/-- The loop in `PrintOption` (INOUT/cio_commandline.c:776-780): the lines printed; `none` = out of fuel. -/
def printLines (len : Nat) : Nat → Str → Option (List Str)
  | 0, _ => none
  | n + 1, str =>
    match printStart str len with
    | (l, none) => some [l]
    | (l, some rest) => (printLines len n rest).map (l :: ·)

end Verif.CmdLine
