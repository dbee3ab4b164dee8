/-!
# Inference and checking of sorts while a first-order problem is read

Types of symbols are `args > ret` (first-order types are flat).  Sort 0 is `$o`; the sort of a variable is `s + 1`, so variables of type `$o` are left
out, and so are formulas as arguments, `$let`, `$ite`, lists, polymorphic and internal symbols, and higher-order problems.  Term cells are values
here: in the code a cell is shared and its type field is overwritten, see `setTop`.  Assertions are taken to be switched off.
-/

namespace Verif
namespace Sorts

/-- The type of a symbol: an arrow type if there are arguments, a simple type otherwise. -/
structure FTy where
  args : List Nat
  ret : Nat
deriving DecidableEq, Repr

/-- What `FuncCell` says about the type (TERMS/cte_signature.h:98-112): `type` and the bit `FPTypeFixed`. -/
structure SInfo where
  ty : Option FTy
  fixed : Bool
deriving DecidableEq, Repr

/-- A name used with `n` arguments. -/
abbrev Sym := Nat × Nat

/-- The signature: the number of arguments of the first use of each name (the symbol found under the plain name), and the symbols.  A name used with
another number of arguments gets a symbol of its own (`MULTI_ARITY_HACK`, TERMS/cte_signature.c:660-697). -/
structure SigS where
  raw : Nat → Option Nat
  info : Sym → Option SInfo

/-- Terms as written: variables with their sort, and applications. -/
inductive PTm where
  | var (x s : Nat)
  | fn (f : Nat) (as : List PTm)

/-- Term cells with the field `type`. -/
inductive STm where
  | var (x s : Nat)
  | fn (f : Nat) (as : List STm) (ty : Nat)
deriving Repr

/-- The field `type`. -/
def STm.ty : STm → Nat
  | .var _ s => s + 1
  | .fn _ _ ty => ty

/-- Literals as written, without the sign. -/
inductive PLit where
  | atom (t : PTm)
  | eqn (l r : PTm)

/-- Literals as read: `none` for `$true` on the right-hand side. -/
abbrev SLit := STm × Option STm

/-- What a problem consists of here. -/
inductive Item where
  | decl (f : Nat) (ty : FTy)
  | lit (l : PLit)

inductive SErr where
  | typeErr
  | syntaxErr
  | formulaArg
deriving DecidableEq, Repr

def upd (S : SigS) (k : Sym) (i : SInfo) : SigS := { S with info := fun j => if j = k then some i else S.info j }

/-- `SigInsertId` for first-order problems (TERMS/cte_signature.c:662-752). -/
def sigInsert (S : SigS) (f n : Nat) : SigS where
  raw := fun g => if g = f ∧ S.raw f = none then some n else S.raw g
  info := fun j => if j = (f, n) ∧ S.info (f, n) = none then some ⟨none, false⟩ else S.info j

/-- `SigGetType`. -/
def getType (S : SigS) (k : Sym) : Option FTy := (S.info k).bind (·.ty)

/-- `SigIsFixedType` (TERMS/cte_signature.c:456-463). -/
def isFixed (S : SigS) (k : Sym) : Bool := match S.info k with
  | some i => i.fixed
  | none => false

/-- `SigFixType` (TERMS/cte_signature.c:478-484). -/
def fixType (S : SigS) (k : Sym) : SigS := upd S k ⟨getType S k, true⟩

/-- `SigIsPredicate` (TERMS/cte_signature.c:400-414). -/
def isPredicate (S : SigS) (k : Sym) : Bool := match getType S k with
  | some ty => ty.ret == 0
  | none => false

/-- `SigIsFunction` (TERMS/cte_signature.c:428-443). -/
def isFunction (S : SigS) (k : Sym) : Bool := isFixed S k && match getType S k with
  | some ty => ty.ret != 0
  | none => false

/-- `SigDeclareType` (TERMS/cte_signature.c:1556-1603). -/
def declareType (S : SigS) (k : Sym) (ty : FTy) : Except SErr SigS :=
  match getType S k with
  | some old => if old ≠ ty then (if isFixed S k then .error .typeErr else .ok (upd S k ⟨some ty, isFixed S k⟩)) else .ok S
  | none => .ok (upd S k ⟨some ty, isFixed S k⟩)

/-- `SigDeclareFinalType` (TERMS/cte_signature.c:1616-1623). -/
def declareFinal (S : SigS) (k : Sym) (ty : FTy) : Except SErr SigS :=
  match declareType S k ty with
  | .ok S => .ok (fixType S k)
  | .error e => .error e

/-- `TypeIsBool`: the simple type `$o`. -/
def isBool (ty : FTy) : Bool := ty.args.isEmpty && ty.ret == 0

/-- `TypeChangeReturnType` (TERMS/cte_typebanks.c:880-900): a simple type becomes `$o` whatever the new type. -/
def changeRet (ty : FTy) (r : Nat) : FTy := if ty.args.isEmpty then ⟨[], 0⟩ else ⟨ty.args, r⟩

/-- `SigDeclareIsFunction` (TERMS/cte_signature.c:1639-1663); 1 is `$i`. -/
def declareFun (S : SigS) (k : Sym) : Except SErr SigS :=
  match getType S k with
  | some ty => if isBool ty then declareFinal S k (changeRet ty 1) else .ok (fixType S k)
  | none => .ok (fixType S k)

/-- `SigDeclareIsPredicate` (TERMS/cte_signature.c:1676-1698). -/
def declarePred (S : SigS) (k : Sym) : Except SErr SigS :=
  match getType S k with
  | some ty => if !isBool ty then declareFinal S k (changeRet ty 0) else .ok (fixType S k)
  | none => .ok (fixType S k)

/-- `TypeInferSort` (TERMS/cte_typecheck.c:219-407) for an application with arguments of these types; `dflt` is `infer_return_sort`
(TERMS/cte_typecheck.c:90-115), the default sort or the sort of numbers. -/
def inferSort (dflt : Nat → Nat) (S : SigS) (f : Nat) (as : List Nat) : Except SErr (SigS × Nat) :=
  match getType S (f, as.length) with
  | some ty =>
    if ty.args ≠ [] then
      if as.length ≠ ty.args.length then .error .typeErr
      else if isFixed S (f, as.length) ∧ as ≠ ty.args then .error .typeErr
      else .ok (S, ty.ret)
    else if as ≠ [] then .error .typeErr
    else .ok (S, ty.ret)
  | none =>
    match declareType S (f, as.length) ⟨as, dflt f⟩ with
    | .ok S => .ok (S, dflt f)
    | .error e => .error e

/-- The rest of `tb_subterm_parse` after the term has been read (TERMS/cte_termbanks.c:504-526). -/
def subFix (dflt : Nat → Nat) (S : SigS) : STm → Except SErr (SigS × STm)
  | .var x s => .ok (S, .var x s)
  | .fn f as ty =>
    if isPredicate S (f, as.length) then
      if isFixed S (f, as.length) then .error .typeErr
      else
        match declareFun S (f, as.length) with
        | .error e => .error e
        | .ok S =>
          match inferSort dflt S f (as.map STm.ty) with
          | .error e => .error e
          | .ok (S, ty) => .ok (S, .fn f as ty)
    else .ok (fixType S (f, as.length), .fn f as ty)

/-- The type of the symbol found under the plain name (TERMS/cte_termbanks.c:1812-1814). -/
def rawArgs (S : SigS) (f : Nat) : List Nat := match (S.raw f).bind fun n => getType S (f, n) with
  | some ty => ty.args
  | none => []

mutual
/-- `TBTermParseReal` (TERMS/cte_termbanks.c:1716-1840) with `tb_termtop_insert` (TERMS/cte_termbanks.c:152-157). -/
def readTerm (dflt : Nat → Nat) (S : SigS) : PTm → Except SErr (SigS × STm)
  | .var x s => .ok (S, .var x s)
  | .fn f as =>
    match readArgs dflt S (rawArgs S f) as with
    | .error e => .error e
    | .ok (S, cs) =>
      match inferSort dflt (sigInsert S f cs.length) f (cs.map STm.ty) with
      | .error e => .error e
      | .ok (S, ty) => .ok (S, .fn f cs ty)
/-- `tb_term_parse_arglist` (TERMS/cte_termbanks.c:678-719) with `choose_subterm_parse_fun` (TERMS/cte_termbanks.c:542-558); `tys`: the arguments in
the type of the symbol found under the plain name, from here on. -/
def readArgs (dflt : Nat → Nat) (S : SigS) (tys : List Nat) : List PTm → Except SErr (SigS × List STm)
  | [] => .ok (S, [])
  | a :: as =>
    if tys.head? = some 0 then .error .formulaArg
    else
      match readTerm dflt S a with
      | .error e => .error e
      | .ok (S, c) =>
        match subFix dflt S c with
        | .error e => .error e
        | .ok (S, c) =>
          match readArgs dflt S tys.tail as with
          | .error e => .error e
          | .ok (S, cs) => .ok (S, c :: cs)
end

/-- Overwriting the field `type`. -/
def setTop : STm → Nat → STm
  | .var x s, _ => .var x s
  | .fn f as _, ty => .fn f as ty

/-- `TypeDeclareIsNotPredicate` (TERMS/cte_typecheck.c:443-450). -/
def declareNotPred (dflt : Nat → Nat) (S : SigS) : STm → Except SErr (SigS × STm)
  | .var x s => .ok (S, .var x s)
  | .fn f as _ =>
    match inferSort dflt S f (as.map STm.ty) with
    | .error e => .error e
    | .ok (S, ty) =>
      match declareFun S (f, as.length) with
      | .error e => .error e
      | .ok S => .ok (S, .fn f as ty)

/-- `EqnAlloc` (CLAUSES/ccl_eqn.c:614-670): the checks. -/
def eqnAlloc (S : SigS) (l : STm) (r : Option STm) : Except SErr (SigS × SLit) :=
  match r with
  | none =>
    match l with
    | .var _ _ => .error .typeErr
    | .fn f as ty =>
      match declarePred S (f, as.length) with
      | .error e => .error e
      | .ok S => if ty ≠ 0 then .error .typeErr else .ok (S, l, none)
  | some r => if l.ty ≠ r.ty then .error .typeErr else .ok (S, l, some r)

/-- `EqnParseInfix` (CLAUSES/ccl_eqn.c:461-598) for first-order problems, `TypeDeclareIsPredicate` (TERMS/cte_typecheck.c:421-427), then `EqnAlloc`.
An equality sign left behind by the shortcut for predicates is a syntax error. -/
def readLit (dflt : Nat → Nat) (S : SigS) : PLit → Except SErr (SigS × SLit)
  | .atom t =>
    match readTerm dflt S t with
    | .error e => .error e
    | .ok (S, .var _ _) => .error .syntaxErr
    | .ok (S, .fn f as ty) =>
      if isPredicate S (f, as.length) && isFixed S (f, as.length) then eqnAlloc S (.fn f as ty) none
      else if isFunction S (f, as.length) then .error .syntaxErr
      else if ty = 0 ∨ isFixed S (f, as.length) = false then
        match declarePred S (f, as.length) with
        | .error e => .error e
        | .ok S => eqnAlloc S (setTop (.fn f as ty) 0) none
      else .error .syntaxErr
  | .eqn l r =>
    match readTerm dflt S l with
    | .error e => .error e
    | .ok (S, .var x s) =>
      match readTerm dflt S r with
      | .error e => .error e
      | .ok (S, cr) =>
        match declareNotPred dflt S cr with
        | .error e => .error e
        | .ok (S, cr) => eqnAlloc S (.var x s) (some cr)
    | .ok (S, .fn f as ty) =>
      if isPredicate S (f, as.length) && isFixed S (f, as.length) then .error .syntaxErr
      else if isFunction S (f, as.length) then
        match readTerm dflt S r with
        | .error e => .error e
        | .ok (S, cr) =>
          match declareNotPred dflt S cr with
          | .error e => .error e
          | .ok (S, cr) => eqnAlloc S (.fn f as ty) (some cr)
      else if ty ≠ 0 then
        match declareNotPred dflt S (.fn f as ty) with
        | .error e => .error e
        | .ok (S, cl) =>
          match readTerm dflt S r with
          | .error e => .error e
          | .ok (S, cr) =>
            match declareNotPred dflt S cl with
            | .error e => .error e
            | .ok (S, cl) =>
              match declareNotPred dflt S cr with
              | .error e => .error e
              | .ok (S, cr) => eqnAlloc S cl (some cr)
      else .error .syntaxErr

/-- `SigParseTFFTypeDeclaration` (TERMS/cte_signature.c:1818-1882) once the type has been read. -/
def readDecl (S : SigS) (f : Nat) (ty : FTy) : Except SErr SigS :=
  match declareType (sigInsert S f ty.args.length) (f, ty.args.length) ty with
  | .ok S => .ok (fixType S (f, ty.args.length))
  | .error e => .error e

/-- Reading the items of a problem one after the other. -/
def readItems (dflt : Nat → Nat) (S : SigS) : List Item → Except SErr (SigS × List SLit)
  | [] => .ok (S, [])
  | .decl f ty :: is =>
    match readDecl S f ty with
    | .error e => .error e
    | .ok S => readItems dflt S is
  | .lit l :: is =>
    match readLit dflt S l with
    | .error e => .error e
    | .ok (S, c) =>
      match readItems dflt S is with
      | .error e => .error e
      | .ok (S, cs) => .ok (S, c :: cs)

/-- `SigAlloc`: the symbols of the problem are unknown. -/
def sig0 : SigS := ⟨fun _ => none, fun _ => none⟩

end Sorts
end Verif
