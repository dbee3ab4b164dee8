import Verif.Terms.SimpleTypes

/-!
# Specification of types: curried types and the grammar of type expressions
-/

namespace Verif

/-- Mathematical types: a constructor with arguments, and function types with one argument. -/
inductive CTy where
  | atom (x : Nat) (args : List CTy)
  | arr (a b : CTy)

/-- The function type with several arguments. -/
def CTy.curry : List CTy → CTy → CTy
  | [], r => r
  | a :: as, r => .arr a (CTy.curry as r)

/- The type denoted by a cell: the last argument of an arrow is the result. -/
mutual
def STy.den (N : TNames) : STy → CTy
  | .con c ts => if c = 0 then STy.denArrow N ts else .atom (tcName N c) (STy.denL N ts)
def STy.denArrow (N : TNames) : List STy → CTy
  | [] => .atom 0 []
  | [t] => t.den N
  | t :: ts => .arr (t.den N) (STy.denArrow N ts)
def STy.denL (N : TNames) : List STy → List CTy
  | [] => []
  | t :: ts => t.den N :: STy.denL N ts
end

/- The types E works with: arrow types have at least one argument and a result that is no arrow type; constructors are declared
with the number of arguments used, and their arguments are neither arrow types nor the type of types. -/
mutual
def STy.WF (N : TNames) : STy → Prop
  | .con c ts => STy.WFL N ts ∧
    if c = 0 then 2 ≤ ts.length ∧ ∀ r, ts.getLast? = some r → r.isArrow = false
    else (N[c]?.map (·.2)) = some ts.length ∧ ∀ t ∈ ts, t.isArrow = false ∧ t.code ≠ 3
def STy.WFL (N : TNames) : List STy → Prop
  | [] => True
  | t :: ts => t.WF N ∧ STy.WFL N ts
end

/-- A table of names that agrees with the declared numbers of arguments `ar`; the first entry is the arrow, the fourth the type of types. -/
structure TNames.OK (ar : Nat → Nat) (N : TNames) : Prop where
  nodup : (N.map (·.1)).Nodup
  arity : ∀ p ∈ N, p.2 = ar p.1
  arrow : ∃ k, N[0]? = some (0, k)
  kind : ∃ k, N[3]? = some (3, k)

/-! ## Type expressions -/

/-- `x` or `x(s1, ..., sn)`. -/
inductive SglE where
  | mk (x : Nat) (args : List SglE)

mutual
def SglE.toks : SglE → List TTok
  | .mk x ss => if ss.isEmpty then [.name x] else .name x :: .lpar :: SglE.toksL ss ++ [.rpar]
def SglE.toksL : List SglE → List TTok
  | [] => []
  | [s] => s.toks
  | s :: ss => s.toks ++ .comma :: SglE.toksL ss
end

mutual
def SglE.den : SglE → CTy
  | .mk x ss => .atom x (SglE.denL ss)
def SglE.denL : List SglE → List CTy
  | [] => []
  | s :: ss => s.den :: SglE.denL ss
end

def SglE.head : SglE → Nat
  | .mk x _ => x

/- Used with the declared numbers of arguments; the arrow is no name, and the type of types no argument. -/
mutual
def SglE.OK (ar : Nat → Nat) : SglE → Prop
  | .mk x ss => x ≠ 0 ∧ ss.length = ar x ∧ SglE.OKL ar ss
def SglE.OKL (ar : Nat → Nat) : List SglE → Prop
  | [] => True
  | s :: ss => s.OK ar ∧ s.head ≠ 3 ∧ SglE.OKL ar ss
end

/- All names are in the table. -/
mutual
def SglE.In (N : TNames) : SglE → Prop
  | .mk x ss => x ∈ N.map (·.1) ∧ SglE.InL N ss
def SglE.InL (N : TNames) : List SglE → Prop
  | [] => True
  | s :: ss => s.In N ∧ SglE.InL N ss
end

/-- The grammar of higher-order type expressions: `s`, `( e )`, `s > e`, `( e ) > e`; that is, `>` associates to the right and any
expression may be put in parentheses. -/
inductive TyE where
  | sgl (s : SglE)
  | par (e : TyE)
  | fnS (s : SglE) (e : TyE)
  | fnP (a : TyE) (e : TyE)

def TyE.toks : TyE → List TTok
  | .sgl s => s.toks
  | .par e => .lpar :: e.toks ++ [.rpar]
  | .fnS s e => s.toks ++ .gt :: e.toks
  | .fnP a e => .lpar :: a.toks ++ .rpar :: .gt :: e.toks

def TyE.den : TyE → CTy
  | .sgl s => s.den
  | .par e => e.den
  | .fnS s e => .arr s.den e.den
  | .fnP a e => .arr a.den e.den

def TyE.OK (ar : Nat → Nat) : TyE → Prop
  | .sgl s => s.OK ar
  | .par e => e.OK ar
  | .fnS s e => s.OK ar ∧ e.OK ar
  | .fnP a e => a.OK ar ∧ e.OK ar

def TyE.In (N : TNames) : TyE → Prop
  | .sgl s => s.In N
  | .par e => e.In N
  | .fnS s e => s.In N ∧ e.In N
  | .fnP a e => a.In N ∧ e.In N

end Verif
