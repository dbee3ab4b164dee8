import Verif.Orderings.Spec

/-!
# Linear Knuth-Bendix comparison

Model of ORDERINGS/cto_kbolin.c, first-order part.

Simplifications: terms are compared as instantiated terms (`TermDeref` follows bindings, so a comparison with
`DEREF_ALWAYS`/`DEREF_ONCE` is the comparison of the instances); weights are naturals (C: `long`, no overflow
modelled); the array `vb` is a total function (`resize_vb`, lines 77-93, fills new entries with 0).
-/

namespace Verif

/-- The part of the OCB read by comparisons: `OCBFunWeight`, `var_weight`, `OCBFunCompare`. -/
structure KOcb where
  w : Nat → Nat
  w0 : Nat
  cmp : Nat → Nat → Cmp

/-- The ordering parameters in an OCB, for a signature with arities `ar`. -/
def KOcb.par (O : KOcb) (ar : Nat → Nat) : KboPar := ⟨ar, O.w, O.w0, fun f g => O.cmp f g = .greater⟩

/-- The work state in the OCB (ORDERINGS/cto_ocb.h:84-89). -/
structure BalSt where
  wb : Int
  pos : Int
  neg : Int
  maxVar : Nat
  vb : Nat → Int

namespace BalSt

/-- State after `OCBAlloc` (ORDERINGS/cto_ocb.c:188-200). -/
def init : BalSt := ⟨0, 0, 0, 0, fun _ => 0⟩

/-- `kbo6reset` (ORDERINGS/cto_kbolin.c:1218-1237): only the entries up to `max_var` are cleared. -/
def reset (b : BalSt) : BalSt := ⟨0, 0, 0, 0, fun i => if i ≤ b.maxVar then 0 else b.vb i⟩

/-- `inc_vb` (ORDERINGS/cto_kbolin.c:131-153). -/
def inc (w0 : Nat) (b : BalSt) (x : Nat) : BalSt :=
  if x > b.maxVar then
    { wb := b.wb + w0, pos := b.pos + 1, neg := b.neg, maxVar := x, vb := fun i => if i = x then 1 else b.vb i }
  else
    { wb := b.wb + w0
      pos := b.pos + (if b.vb x = 0 then 1 else 0)
      neg := b.neg - (if b.vb x = -1 then 1 else 0)
      maxVar := b.maxVar
      vb := fun i => if i = x then b.vb x + 1 else b.vb i }

/-- `dec_vb` (ORDERINGS/cto_kbolin.c:199-221). -/
def dec (w0 : Nat) (b : BalSt) (x : Nat) : BalSt :=
  if x > b.maxVar then
    { wb := b.wb - w0, pos := b.pos, neg := b.neg + 1, maxVar := x, vb := fun i => if i = x then -1 else b.vb i }
  else
    { wb := b.wb - w0
      pos := b.pos - (if b.vb x = 1 then 1 else 0)
      neg := b.neg + (if b.vb x = 0 then 1 else 0)
      maxVar := b.maxVar
      vb := fun i => if i = x then b.vb x - 1 else b.vb i }

end BalSt

mutual
/-- `mfyvwblhs` (ORDERINGS/cto_kbolin.c:511-546): the stack delivers the last argument first. -/
def mfyLhs (O : KOcb) : Term → BalSt → BalSt
  | .var x, b => b.inc O.w0 x
  | .app f ts, b => mfyLhsL O ts { b with wb := b.wb + O.w f }
def mfyLhsL (O : KOcb) : List Term → BalSt → BalSt
  | [], b => b
  | t :: ts, b => mfyLhs O t (mfyLhsL O ts b)
end

mutual
/-- `mfyvwbrhs` (ORDERINGS/cto_kbolin.c:561-596). -/
def mfyRhs (O : KOcb) : Term → BalSt → BalSt
  | .var x, b => b.dec O.w0 x
  | .app f ts, b => mfyRhsL O ts { b with wb := b.wb - O.w f }
def mfyRhsL (O : KOcb) : List Term → BalSt → BalSt
  | [], b => b
  | t :: ts, b => mfyRhs O t (mfyRhsL O ts b)
end

/-- The loop over the remaining arguments (ORDERINGS/cto_kbolin.c:791-795). -/
def mfyRest (O : KOcb) : List Term → List Term → BalSt → BalSt
  | s :: ss, t :: ts, b => mfyRest O ss ts (mfyRhs O t (mfyLhs O s b))
  | _, _, b => b

/-- `g_or_n` and `l_or_n` (ORDERINGS/cto_kbolin.c:797-798). -/
def BalSt.gOrN (b : BalSt) : Cmp := if b.neg ≠ 0 then .uncomparable else .greater
def BalSt.lOrN (b : BalSt) : Cmp := if b.pos ≠ 0 then .uncomparable else .lesser

/-- Decision after the first different argument (ORDERINGS/cto_kbolin.c:800-815). -/
def decideLex (b : BalSt) (res : Cmp) : Cmp :=
  if b.wb > 0 then b.gOrN
  else if b.wb < 0 then b.lOrN
  else if res = .greater then b.gOrN
  else if res = .lesser then b.lOrN
  else res

/-- Decision for different head symbols (ORDERINGS/cto_kbolin.c:845-866); `res` is still `to_equal` when the
precedence does not decide. -/
def decideHead (b : BalSt) (c : Cmp) : Cmp :=
  if b.wb > 0 then b.gOrN
  else if b.wb < 0 then b.lOrN
  else if c = .greater then b.gOrN
  else if c = .lesser then b.lOrN
  else .equal

mutual
/-- `kbolincmp` (ORDERINGS/cto_kbolin.c:772-869). -/
def kbolin (O : KOcb) : Term → Term → BalSt → Cmp × BalSt
  | .var x, .var y, b => if x = y then (.equal, b) else (.uncomparable, (b.inc O.w0 x).dec O.w0 y)
  | .var x, .app g ts, b =>
    let b' := mfyRhs O (.app g ts) (b.inc O.w0 x)
    (b'.lOrN, b')
  | .app f ss, .var y, b =>
    let b' := mfyLhs O (.app f ss) (b.dec O.w0 y)
    (b'.gOrN, b')
  | .app f ss, .app g ts, b =>
    if f = g then kbolinL O ss ts b
    else
      let b' := mfyRhs O (.app g ts) (mfyLhs O (.app f ss) b)
      (decideHead b' (O.cmp f g), b')
/-- The argument loop (ORDERINGS/cto_kbolin.c:783-818).  The C reads past the arguments of the second term if it has
fewer (excluded by fixed arities); the model then answers `unknown`. -/
def kbolinL (O : KOcb) : List Term → List Term → BalSt → Cmp × BalSt
  | [], _, b => (.equal, b)
  | _ :: _, [], b => (.unknown, b)
  | s :: ss, t :: ts, b =>
    let r := kbolin O s t b
    if r.1 = .equal then kbolinL O ss ts r.2
    else if ss = [] then r
    else
      let b' := mfyRest O ss ts r.2
      (decideLex b' r.1, b')
end

/-- `KBO6Compare` (ORDERINGS/cto_kbolin.c:1265-1295). -/
def kbo6Compare (O : KOcb) (b : BalSt) (s t : Term) : Cmp × BalSt := kbolin O s t b.reset

/-- `KBO6Greater` (ORDERINGS/cto_kbolin.c:1320-1336). -/
def kbo6Greater (O : KOcb) (b : BalSt) (s t : Term) : Bool × BalSt :=
  let r := kbolin O s t b.reset
  (decide (r.1 = .greater), r.2)

/-! ## The reference version `kbo6cmp`, used in the assertions of lines 1291 and 1332 -/

/-- `local_vb_update` (ORDERINGS/cto_kbolin.c:265-289). -/
def localUpd (O : KOcb) (lhs : Bool) (t : Term) (b : BalSt) : BalSt :=
  match t with
  | .var x => if lhs then b.inc O.w0 x else b.dec O.w0 x
  | .app f _ => { b with wb := if lhs then b.wb + O.w f else b.wb - O.w f }

mutual
/-- `mfyvwbc` (ORDERINGS/cto_kbolin.c:305-324). -/
def mfyC (O : KOcb) (x : Nat) (lhs : Bool) : Term → BalSt → Bool × BalSt
  | .var y, b => (decide (x = y), localUpd O lhs (.var y) b)
  | .app f ts, b => mfyCL O x lhs ts (localUpd O lhs (.app f ts) b)
def mfyCL (O : KOcb) (x : Nat) (lhs : Bool) : List Term → BalSt → Bool × BalSt
  | [], b => (false, b)
  | t :: ts, b =>
    let r1 := mfyC O x lhs t b
    let r2 := mfyCL O x lhs ts r1.2
    (r1.1 || r2.1, r2.2)
end

mutual
/-- `mfyvwb` (ORDERINGS/cto_kbolin.c:339-351). -/
def mfy6 (O : KOcb) (lhs : Bool) : Term → BalSt → BalSt
  | .var y, b => localUpd O lhs (.var y) b
  | .app f ts, b => mfy6L O lhs ts (localUpd O lhs (.app f ts) b)
def mfy6L (O : KOcb) (lhs : Bool) : List Term → BalSt → BalSt
  | [], b => b
  | t :: ts, b => mfy6L O lhs ts (mfy6 O lhs t b)
end

/-- Decision of `kbo6cmp` for two non-variables (ORDERINGS/cto_kbolin.c:457-494). -/
def decide6 (O : KOcb) (f g : Nat) (lex : Cmp) (b : BalSt) : Cmp :=
  if b.wb > 0 then b.gOrN
  else if b.wb < 0 then b.lOrN
  else if O.cmp f g = .greater then b.gOrN
  else if O.cmp f g = .lesser then b.lOrN
  else if f ≠ g then .uncomparable
  else if lex = .equal then .equal
  else if lex = .greater then b.gOrN
  else if lex = .lesser then b.lOrN
  else .uncomparable

mutual
/-- `kbo6cmp` (ORDERINGS/cto_kbolin.c:406-497); the loop of lines 416-422 is the recursive call for
unary symbols. -/
def kbo6cmp (O : KOcb) : Term → Term → BalSt → Cmp × BalSt
  | .var x, .var y, b =>
    (if x = y then .equal else .uncomparable, (b.inc O.w0 x).dec O.w0 y)
  | .var x, .app g ts, b =>
    let r := mfyC O x false (.app g ts) b
    (if r.1 then .lesser else .uncomparable, r.2.inc O.w0 x)
  | .app f ss, .var y, b =>
    let r := mfyC O y true (.app f ss) b
    (if r.1 then .greater else .uncomparable, r.2.dec O.w0 y)
  | .app f ss, .app g ts, b =>
    if f = g then
      if ss.length = 1 then kbo6lex O ss ts .equal b
      else
        let r := kbo6lex O ss ts .equal b
        (decide6 O f g r.1 r.2, r.2)
    else
      let b' := mfy6 O false (.app g ts) (mfy6 O true (.app f ss) b)
      (decide6 O f g .uncomparable b', b')
/-- `kbo6cmplex` (ORDERINGS/cto_kbolin.c:369-391). -/
def kbo6lex (O : KOcb) : List Term → List Term → Cmp → BalSt → Cmp × BalSt
  | s :: ss, t :: ts, res, b =>
    if res = .equal then
      let r := kbo6cmp O s t b
      kbo6lex O ss ts r.1 r.2
    else kbo6lex O ss ts res (mfy6 O false t (mfy6 O true s b))
  | _, _, res, b => (res, b)
end

end Verif
