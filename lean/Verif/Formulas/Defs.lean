import Verif.Formulas.CNF

/-!
# Introduction of definitions for subformulas

Model of `TFormulaSetIntroduceDefs` (CLAUSES/ccl_formulafunc.c:2486-2573) and its parts.  The property `TPCheckFlag` of a shared formula is set exactly for the formulas
entered into the tree of definitions, so it is the membership test `Defs.has`.
-/

namespace Verif

/-- An entry of the tree of definitions: the formula, the code of the new predicate and the variables it is applied to.  The other fields of the entry (the identifiers of the
definition and its copy in the archive) are determined by the code; the polarity collected by `TFormulaFindDefs` is overwritten without use (CLAUSES/ccl_formulafunc.c:2522). -/
structure DefEntry where
  form : Form
  code : Nat
  vars : List Nat
deriving DecidableEq

/-- The definitions in the order of `renamed_forms`, and the next symbol code. -/
structure Defs where
  list : List DefEntry
  next : Nat

/-- The property `TPCheckFlag`. -/
def Defs.has (s : Defs) (f : Form) : Bool := s.list.any fun e => e.form == f

/-- The atom `rename_atom` of `TFormulaDefRename` (CLAUSES/ccl_tcnf.c:1482-1484). -/
def DefEntry.atom (e : DefEntry) : Form := .lit true (.app e.code (e.vars.map .var)) tTrue

namespace Form

/-! ## Estimated number of clauses -/

/-- `RETURN_IF_LARGE` (CLAUSES/ccl_tcnf.c:1273-1274) and the last test (1431-1434): `none` is `TFORM_MANY_CLAUSES`, the limit is 1024 (CLAUSES/ccl_tcnf.h:41-42). -/
def cutLarge (n : Nat) : Option Nat := if 1024 < n then none else some n

/-- `TFormulaEstimateClauses` (CLAUSES/ccl_tcnf.c:1276-1437); `ck` is the property `TPCheckFlag`.  For `$equiv` all four estimates are needed. -/
def estimate (ck : Form → Bool) : Form → Bool → Option Nat
  | lit _ _ _, _ => some 1
  | atom t, _ => if ck (atom t) then some 1 else if t = tTrue then some 0 else some 1
  | not f, pos => if ck (not f) then some 1 else (f.estimate ck (!pos)).bind cutLarge
  | qu u x f, pos => if ck (qu u x f) then some 1 else (f.estimate ck pos).bind cutLarge
  | bin .and f g, pos =>
    if ck (bin .and f g) then some 1
    else (f.estimate ck pos).bind fun a => (g.estimate ck pos).bind fun b => cutLarge (if pos then a + b else a * b)
  | bin .or f g, pos =>
    if ck (bin .or f g) then some 1
    else (f.estimate ck pos).bind fun a => (g.estimate ck pos).bind fun b => cutLarge (if pos then a * b else a + b)
  | bin .impl f g, pos =>
    if ck (bin .impl f g) then some 1
    else (f.estimate ck (!pos)).bind fun a => (g.estimate ck pos).bind fun b => cutLarge (if pos then a * b else a + b)
  | bin .equiv f g, pos =>
    if ck (bin .equiv f g) then some 1
    else (f.estimate ck true).bind fun p1 => (g.estimate ck true).bind fun p2 => (f.estimate ck false).bind fun n1 => (g.estimate ck false).bind fun n2 =>
      cutLarge (if pos then p1 * n2 + n1 * p2 else p1 * p2 + n1 * n2)
  | bin _ _ _, _ => some 1

/-- `TFormulaEstimateClauses(…) > def_limit`; `LONG_MAX` exceeds every limit (a limit of `LONG_MAX` itself is ignored). -/
def exceeds (e : Option Nat) (limit : Int) : Bool :=
  match e with
  | none => true
  | some n => decide (limit < (n : Int))

/-- `tformula_rename_test` (CLAUSES/ccl_tcnf.c:455-523) for the subformula `sub` of a formula with connective `op` (`none`: negation or quantifier).  `subform_sign` is always
false (489): `pos` is 0 or 1. -/
def renameTest (ck : Form → Bool) (limit : Int) (op : Option BOp) (sub : Form) (pol : Int) : Bool :=
  match op with
  | none => false
  | some .equiv => exceeds (sub.estimate ck true) limit || exceeds (sub.estimate ck false) limit
  | some op =>
    if pol = 1 then
      (decide (op = .or) && exceeds (sub.estimate ck true) limit) || (decide (op = .impl) && exceeds (sub.estimate ck false) limit)
    else if pol = -1 then decide (op = .and) && exceeds (sub.estimate ck false) limit
    else decide (op = .and ∨ op = .or ∨ op = .impl) && (exceeds (sub.estimate ck true) limit || exceeds (sub.estimate ck false) limit)

/-! ## Finding the formulas to be defined -/

/-- `TFormulaDefRename` (CLAUSES/ccl_tcnf.c:1456-1498): the new predicate is applied to the free variables (their order by address is replaced by the order of occurrence). -/
def defRename (s : Defs) (f : Form) : Defs :=
  if s.has f then s else ⟨s.list ++ [⟨f, s.next, collectFree f (fun _ => false) []⟩], s.next + 1⟩

/-- The test and the renaming in `TFormulaFindDefs`. -/
def tryDef (limit : Int) (op : Option BOp) (sub : Form) (pol : Int) (s : Defs) : Defs :=
  if renameTest s.has limit op sub pol then defRename s sub else s

/-- `TFormulaFindDefs` (CLAUSES/ccl_tcnf.c:1519-1602).  Renaming a formula that has been entered before (1530-1543) changes the unused polarity only. -/
def findDefs (limit : Int) : Form → Int → Defs → Defs
  | lit _ _ _, _, s => s
  | atom _, _, s => s
  | not f, pol, s => tryDef limit none f (-pol) (f.findDefs limit (-pol) s)
  | qu _ _ f, pol, s => tryDef limit none f pol (f.findDefs limit pol s)
  | bin .and f g, pol, s =>
    let s := tryDef limit (some .and) f pol (f.findDefs limit pol s)
    tryDef limit (some .and) g pol (g.findDefs limit pol s)
  | bin .or f g, pol, s =>
    let s := tryDef limit (some .or) f pol (f.findDefs limit pol s)
    tryDef limit (some .or) g pol (g.findDefs limit pol s)
  | bin .impl f g, pol, s =>
    let s := tryDef limit (some .impl) f (-pol) (f.findDefs limit (-pol) s)
    tryDef limit (some .impl) g pol (g.findDefs limit pol s)
  | bin .equiv f g, pol, s =>
    let s := tryDef limit (some .equiv) f pol (f.findDefs limit 0 s)
    tryDef limit (some .equiv) g pol (g.findDefs limit 0 s)
  | bin _ _ _, _, s => s

/-! ## Polarities -/

/-- The properties `TPPosPolarity` (true) and `TPNegPolarity` (false) set for a formula of polarity `pol` (CLAUSES/ccl_tformulae.c:2512-2525). -/
def polMarks (pol : Int) (f : Form) : List (Form × Bool) :=
  if pol = -1 then [(f, false)] else if pol = 0 then [(f, true), (f, false)] else [(f, true)]

/-- `TFormulaMarkPolarity` (CLAUSES/ccl_tformulae.c:2504-2554): the properties set. -/
def markPolarity : Form → Int → List (Form × Bool)
  | lit _ _ _, _ => []
  | atom t, pol => polMarks pol (atom t)
  | not f, pol => polMarks pol (not f) ++ f.markPolarity (-pol)
  | qu u x f, pol => polMarks pol (qu u x f) ++ f.markPolarity pol
  | bin .and f g, pol => polMarks pol (bin .and f g) ++ f.markPolarity pol ++ g.markPolarity pol
  | bin .or f g, pol => polMarks pol (bin .or f g) ++ f.markPolarity pol ++ g.markPolarity pol
  | bin .impl f g, pol => polMarks pol (bin .impl f g) ++ f.markPolarity (-pol) ++ g.markPolarity pol
  | bin .equiv f g, pol => polMarks pol (bin .equiv f g) ++ f.markPolarity 0 ++ g.markPolarity 0
  | bin op f g, pol => polMarks pol (bin op f g)

/-- `TFormulaDecodePolarity` (CLAUSES/ccl_tformulae.c:2569-2588).  Without properties (excluded by an assertion) the result is 0. -/
def decodePolarity (marks : List (Form × Bool)) (f : Form) : Int :=
  if (f, true) ∈ marks ∧ (f, false) ∈ marks then 0
  else if (f, true) ∈ marks then 1
  else if (f, false) ∈ marks then -1
  else 0

/-! ## Definitions and their application -/

/-- `TFormulaAddQuantors` (CLAUSES/ccl_tformulae.c:2361-2376). -/
def addQuantors (univ : Bool) (xs : List Nat) (f : Form) : Form := xs.foldl (fun f x => qu univ x f) f

/-- `TFormulaCreateDef` (CLAUSES/ccl_tformulae.c:2417-2447): the variables of the atom are those it has been applied to. -/
def createDef (e : DefEntry) (pol : Int) : Form :=
  addQuantors true e.vars
    (if pol = -1 then bin .impl e.form e.atom else if pol = 0 then bin .equiv e.atom e.form else bin .impl e.atom e.form)

/-- The entry for a formula that may be used (CLAUSES/ccl_tcnf.c:1636-1645): `blocked` is the code of the predicate whose definition is being treated.  (The code compares the
identifiers of formulas; each definition has its own.) -/
def usable (list : List DefEntry) (blocked : Option Nat) (f : Form) : Option DefEntry :=
  match list.find? fun e => e.form == f with
  | some e => if some e.code = blocked then none else some e
  | none => none

/-- `TFormulaCopyDef` (CLAUSES/ccl_tcnf.c:1620-1674). -/
def copyDef (list : List DefEntry) (blocked : Option Nat) : Form → Form
  | lit p l r => lit p l r
  | atom t => atom t
  | not f =>
    match usable list blocked (not f) with
    | some e => e.atom
    | none => not (f.copyDef list blocked)
  | bin op f g =>
    match usable list blocked (bin op f g) with
    | some e => e.atom
    | none => bin op (f.copyDef list blocked) (g.copyDef list blocked)
  | qu u x f =>
    match usable list blocked (qu u x f) with
    | some e => e.atom
    | none => qu u x (f.copyDef list blocked)

end Form

/-- `TFormulaSetFindDefs` (CLAUSES/ccl_formulafunc.c:1956-1972). -/
def formulasFindDefs (limit : Int) (ws : List WForm) (n : Nat) : Defs :=
  ws.foldl (fun s w => if w.isClause = false ∧ limit ≠ 0 then w.form.findDefs limit 1 s else s) ⟨[], n⟩

/-- `FormulaSetMarkPolarity` (CLAUSES/ccl_formulasets.c:186-197). -/
def formulasMark (ws : List WForm) : List (Form × Bool) := ws.flatMap fun w => w.form.markPolarity 1

/-- The declaration of the new predicate (`TBAllocNewSkolem` with the Boolean type). -/
def DefEntry.decl (sg : Sig) (e : DefEntry) : SkDecl := ⟨e.code, e.vars, sg.fty 1⟩

/-- `TFormulaSetIntroduceDefs` (CLAUSES/ccl_formulafunc.c:2486-2573): the formulas, the next code and the new predicates.  The definitions are appended to the set. -/
def introduceDefs (sg : Sig) (limit : Int) (ws : List WForm) (n : Nat) : List WForm × Nat × List SkDecl :=
  let marks := formulasMark ws
  let s := formulasFindDefs limit ws n
  (ws.map (fun w => ⟨w.isClause, w.form.copyDef s.list none⟩) ++
    s.list.map (fun e => ⟨false, (Form.createDef e (Form.decodePolarity marks e.form)).copyDef s.list (some e.code)⟩),
   s.next, s.list.map (DefEntry.decl sg))

end Verif
