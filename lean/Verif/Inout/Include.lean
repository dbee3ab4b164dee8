/-!
# Reading problems with `include`

Model of `FormulaAndClauseSetParse` (CLAUSES/ccl_formulafunc.c:1716-1851), `ScannerParseInclude` (INOUT/cio_scanner.c:1288-1361),
`CreateScanner` (INOUT/cio_scanner.c:837-936) and `parse_spec` (PROVER/eprover.c:180-240).

Simplified: a file is the list of its statements, up to the content of formulas (C67, C68), and `junk` stands for any token that begins no
statement, with all that follows it being unparsed; errors inside a statement are left out.  A clause of the watch list is marked as such (C84).  Not modelled: LOP format,
standard input as a file, application encoding (in which includes are ignored), the trees in which names are stored (C32).
-/

namespace Verif.Incl

abbrev Str := List Char

inductive Stmt where
  /-- An annotated formula or clause; `watch`: of type `watchlist`. -/
  | form (name : Str) (watch : Bool) (body : Nat)
  /-- `include('file').`, `include('file', [n1, ..., nk]).` -/
  | incl (file : Str) (sel : Option (List Str))
  /-- A token other than `input_formula|input_clause|fof|cnf|tff|thf|tcf|include`. -/
  | junk
deriving DecidableEq

structure Entry where
  name : Str
  body : Nat
deriving DecidableEq

/-- The formulas, the clauses of the watch list and the number of statements read. -/
structure Out where
  forms : List Entry
  watch : List Entry
  count : Nat
deriving DecidableEq

/-- Errors with which the program ends; `fuel`: the depth `n` is not sufficient. -/
inductive Err where
  | fuel | missing | unknown | syntaxErr
deriving DecidableEq

/-! ## Names of files -/

/-- The loop of `FileNameDirName` (INOUT/cio_fileops.c:304-310). -/
def endPos : Str → Nat → Nat → Nat
  | [], _, e => e
  | c :: cs, i, e => endPos cs (i + 1) (if c = '/' then i + 1 else e)

/-- `FileNameDirName` (INOUT/cio_fileops.c:297-314). -/
def dirName (name : Str) : Str := name.take (endPos name 0 0)

/-- `FileFindBaseName` (INOUT/cio_fileops.c:330-342). -/
def findBase : Str → Str → Str
  | [], res => res
  | c :: cs, res => findBase cs (if c = '/' then cs else res)

/-- `FileNameBaseName` (INOUT/cio_fileops.c:360-368). -/
def baseName (name : Str) : Str := findBase name name

/-- The files that can be opened, and their content. -/
abbrev FS := Str → Option (List Stmt)

/-- `CreateScanner` for files (INOUT/cio_scanner.c:855-921), with `TPTP_dir` from the environment: the new default directory and the
content of the file; `none` is an error. -/
def openFile (fs : FS) (tptp : Option Str) (dir name : Str) : Option (Str × List Stmt) :=
  if name.head? = some '/' then (fs name).map fun c => (dirName name, c)
  else
    match fs (dir ++ dirName name ++ baseName name) with
    | some c => some (dir ++ dirName name, c)
    | none =>
      match tptp with
      | none => none
      | some T => (fs (T ++ dirName name ++ baseName name)).map fun c => (T ++ dirName name, c)

/-- `TPTP_dir` (INOUT/cio_initio.c:70-80). -/
def tptpDir (env : Option Str) : Option Str :=
  env.map fun s => if s ≠ [] ∧ s.getLast? ≠ some '/' then s ++ ['/'] else s

/-! ## Selection -/

/-- `StrTreeStore`. -/
def store (t : List (Str × Bool)) (x : Str) (b : Bool) : List (Str × Bool) :=
  if t.any (·.1 == x) then t else t ++ [(x, b)]

/-- The names stored by `ScannerParseInclude` (INOUT/cio_scanner.c:1317-1356). -/
def limit : List Str → List (Str × Bool)
  | [] => store [] "** Not a legal name**".toList true
  | l => l.foldl (fun t x => store t x false) []

/-- `verify_name` for each entry of a set (CLAUSES/ccl_formulafunc.c:688-703, 1828-1847): the entries kept and the names marked. -/
def keepNamed (t : List (Str × Bool)) : List Entry → List Entry × List (Str × Bool)
  | [] => ([], t)
  | e :: es =>
    if t.any (·.1 == e.name) then
      let r := keepNamed (t.map fun p => if p.1 == e.name then (p.1, true) else p) es
      (e :: r.1, r.2)
    else keepNamed t es

/-- The selection after reading (CLAUSES/ccl_formulafunc.c:1826-1849) with `check_all_found` (718-761). -/
def select (sel : Option (List Str)) (o : Out) : Except Err Out :=
  match sel with
  | none => .ok o
  | some l =>
    let r := keepNamed (limit l) o.forms
    let r' := keepNamed r.2 o.watch
    if r'.2.all (·.2) then .ok ⟨r.1, r'.1, o.count⟩ else .error .unknown

/-! ## Reading -/

/-- The loop (CLAUSES/ccl_formulafunc.c:1755-1823), with a function for `include`: what is read and what is left of the file. -/
def readWith (inc : Str → Option (List Str) → Except Err Out) : List Stmt → Except Err (Out × List Stmt)
  | [] => .ok (⟨[], [], 0⟩, [])
  | .junk :: r => .ok (⟨[], [], 0⟩, .junk :: r)
  | .form x w b :: r =>
    match readWith inc r with
    | .error e => .error e
    | .ok (o, q) =>
      if w then .ok (⟨o.forms, ⟨x, b⟩ :: o.watch, o.count + 1⟩, q) else .ok (⟨⟨x, b⟩ :: o.forms, o.watch, o.count + 1⟩, q)
  | .incl f sel :: r =>
    match inc f sel with
    | .error e => .error e
    | .ok o1 =>
      match readWith inc r with
      | .error e => .error e
      | .ok (o, q) => .ok (⟨o1.forms ++ o.forms, o1.watch ++ o.watch, o1.count + o.count⟩, q)

/-- `FormulaAndClauseSetParse` for the content `ss` of a file with default directory `dir`, up to depth `n` of includes.  What is left of an included
file is not looked at (1773-1779). -/
def readFile (fs : FS) (tptp : Option Str) (skip : List Str) : Nat → Str → List Stmt → Except Err (Out × List Stmt)
  | 0, _, ss => readWith (fun _ _ => .error .fuel) ss
  | n + 1, dir, ss =>
    readWith (fun f sel =>
      if skip.contains f then .ok ⟨[], [], 0⟩
      else
        match openFile fs tptp dir f with
        | none => .error .missing
        | some (d, c) =>
          match readFile fs tptp skip n d c with
          | .error e => .error e
          | .ok (o, _) => select sel o) ss

/-- `parse_spec` (PROVER/eprover.c:193-217): the files of the command line; the end of each is checked (215). -/
def readSpec (fs : FS) (tptp : Option Str) (n : Nat) : List Str → Except Err Out
  | [] => .ok ⟨[], [], 0⟩
  | f :: r =>
    match openFile fs tptp [] f with
    | none => .error .missing
    | some (d, c) =>
      match readFile fs tptp [] n d c with
      | .error e => .error e
      | .ok (o, q) =>
        if q ≠ [] then .error .syntaxErr
        else
          match readSpec fs tptp n r with
          | .error e => .error e
          | .ok o' => .ok ⟨o.forms ++ o'.forms, o.watch ++ o'.watch, o.count + o'.count⟩

end Verif.Incl
