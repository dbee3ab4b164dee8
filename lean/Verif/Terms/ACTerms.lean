import Verif.Terms.Match
import Verif.Basics.Splay

/-!
# AC normal forms

Model of TERMS/cte_acterms.c.  The arguments of an AC symbol are collected in a splay tree ordered by `ACTermCompare`, and by the
addresses of the cells for equal arguments.  Addresses are arbitrary: the address of the `k`-th argument collected in the call for
the subterm at path `p` is `ad p k`, and cells that exist at the same time have different ones.
-/

namespace Verif

/-- The properties `FPAssociative` and `FPCommutative` of symbols (TERMS/cte_signature.h:49-50). -/
structure ACSig where
  assoc : Nat → Bool
  comm : Nat → Bool

/-- `SigQueryFuncProp(sig, f, FPIsAC)` (TERMS/cte_signature.h:51, 225): both properties. -/
def ACSig.isAC (s : ACSig) (f : Nat) : Bool := s.assoc f && s.comm f

/-- `ACTermCell` (TERMS/cte_acterms.h): variables have no argument array. -/
inductive ACT where
  | var (x : Nat)
  | app (f : Nat) (args : List ACT)

mutual
/-- `ACTermCompare` (TERMS/cte_acterms.c:184-221).  Variables have the code `-x`, so they are smaller than applications.
No lambda terms. -/
def ACT.cmp : ACT → ACT → Ordering
  | .var x, .var y => compare y x
  | .var _, .app _ _ => .lt
  | .app _ _, .var _ => .gt
  | .app f as, .app g bs =>
    match compare f g with
    | .eq => ACT.cmpL as bs
    | o => o
/-- The loop over the arguments (TERMS/cte_acterms.c:199-218). -/
def ACT.cmpL : List ACT → List ACT → Ordering
  | [], [] => .eq
  | [], _ :: _ => .lt
  | _ :: _, [] => .gt
  | a :: as, b :: bs =>
    match ACT.cmp a b with
    | .eq => ACT.cmpL as bs
    | o => o
end

/-- `acterm_uniq_compare` (TERMS/cte_acterms.c:53-64), a cell being the term and its address. -/
def ACT.uniq (a b : ACT × Nat) : Ordering :=
  match ACT.cmp a.1 b.1 with
  | .eq => compare a.2 b.2
  | o => o

/-- The cells stored one after the other by `PTreeObjStore` (TERMS/cte_acterms.c:88-90) and read in the order of the tree
(252-256). -/
def acSort (ad : Nat → Nat) (l : List ACT) : List ACT :=
  ((l.zipIdx.foldl (fun t c => (STree.insert ACT.uniq id (c.1, ad c.2) t).2) .leaf).toList).map (·.1)

/-- The case of a commutative symbol (TERMS/cte_acterms.c:261-276). -/
def acPair (f : Nat) : List ACT → ACT
  | [a, b] => if ACT.cmp a b = .gt then .app f [b, a] else .app f [a, b]
  | ns => .app f ns

/-- The three cases of `ACTermNormalize` for an application (TERMS/cte_acterms.c:240-285), with the collected arguments and the
normalised arguments (the code computes the one that is needed). -/
def acBody (s : ACSig) (ad : Nat → Nat) (f : Nat) (coll ns : List ACT) : ACT :=
  if ns.length = 0 then .app f []
  else if s.isAC f then .app f (acSort ad coll)
  else if s.comm f then acPair f ns
  else .app f ns

mutual
/-- `ACTermNormalize` (TERMS/cte_acterms.c:236-287), for the subterm at path `p`. -/
def acNorm (s : ACSig) (ad : List Nat → Nat → Nat) (p : List Nat) : Term → ACT
  | .var x => .var x
  | .app f ts => acBody s (ad p) f (acCollectL s ad f p 0 ts) (acNormL s ad p 0 ts)
/-- The loop over the arguments (TERMS/cte_acterms.c:279-283, 265-266). -/
def acNormL (s : ACSig) (ad : List Nat → Nat → Nat) (p : List Nat) (i : Nat) : List Term → List ACT
  | [] => []
  | t :: ts => acNorm s ad (i :: p) t :: acNormL s ad p (i + 1) ts
/-- `ac_collect_args` (TERMS/cte_acterms.c:80-102): the terms stored, in this order.  For a term with another head this is
`ACTermNormalize` of it. -/
def acCollect (s : ACSig) (ad : List Nat → Nat → Nat) (f : Nat) (p : List Nat) : Term → List ACT
  | .var x => [.var x]
  | .app g ts =>
    if g ≠ f then [acBody s (ad p) g (acCollectL s ad g p 0 ts) (acNormL s ad p 0 ts)]
    else acCollectL s ad f p 0 ts
/-- The loop over the arguments (TERMS/cte_acterms.c:97-100). -/
def acCollectL (s : ACSig) (ad : List Nat → Nat → Nat) (f : Nat) (p : List Nat) (i : Nat) : List Term → List ACT
  | [] => []
  | t :: ts => acCollect s ad f (i :: p) t ++ acCollectL s ad f p (i + 1) ts
end

/-- `TermACEqual` (TERMS/cte_acterms.c:345-379), first-order. -/
def termACEqual (s : ACSig) (ad1 ad2 : List Nat → Nat → Nat) (t1 t2 : Term) : Bool :=
  if t1.sw ≠ t2.sw then false
  else if ACT.cmp (acNorm s ad1 [] t1) (acNorm s ad2 [] t2) ≠ .eq then false
  else true

end Verif
