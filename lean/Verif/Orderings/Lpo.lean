import Verif.Orderings.Spec

/-!
# The lexicographic path ordering

Model of ORDERINGS/cto_lpo.c, first-order terms (no lambda terms, no applied variables; `classify_head` is then
constant and the argument offsets are 0).

Simplifications: terms are compared as instantiated terms; the recursion depth limit is a parameter: `d` is the
number of nested calls still allowed, so that a call from outside has `d = LPORecursionDepthLimit + 1`; equality of
shared terms is structural equality.
-/

namespace Verif

/-- `lpo4_alpha` (ORDERINGS/cto_lpo.c:455-469) on the arguments from a position on. -/
def lpoAlpha (gr : Term → Term → Bool) (ss : List Term) (t : Term) : Bool := ss.any fun s => decide (s = t) || gr s t

/-- `lpo4_majo` (ORDERINGS/cto_lpo.c:485-498) on the arguments from a position on. -/
def lpoMajo (gr : Term → Term → Bool) (s : Term) (ts : List Term) : Bool := ts.all fun t => gr s t

/-- `lpo4_lex_ma` (ORDERINGS/cto_lpo.c:514-541). -/
def lpoLexMa (gr : Term → Term → Bool) (s t : Term) : List Term → List Term → Bool
  | [], _ => false
  | _ :: _, [] => true
  | a :: as, b :: bs =>
    if a = b then lpoLexMa gr s t as bs
    else if gr a b then lpoMajo gr s bs
    else lpoAlpha gr as t

/-- `lpo4_greater` (ORDERINGS/cto_lpo.c:556-636). -/
def lpo4 (cmp : Nat → Nat → Cmp) : Nat → Term → Term → Bool
  | 0, _, _ => false
  | _ + 1, .var _, _ => false
  | _ + 1, .app f ss, .var x => decide (x ∈ (Term.app f ss).vars)
  | d + 1, .app f ss, .app g ts =>
    if cmp f g = .greater then lpoMajo (lpo4 cmp d) (.app f ss) ts
    else if cmp f g = .equal then lpoLexMa (lpo4 cmp d) (.app f ss) (.app g ts) ss ts
    else lpoAlpha (lpo4 cmp d) ss (.app g ts)

/-- `LPO4Greater` (ORDERINGS/cto_lpo.c:881-894) with recursion limit `lim`. -/
def lpo4Greater (cmp : Nat → Nat → Cmp) (lim : Nat) (s t : Term) : Bool := lpo4 cmp (lim + 1) s t

/-- `LPO4Compare` (ORDERINGS/cto_lpo.c:909-937). -/
def lpo4Compare (cmp : Nat → Nat → Cmp) (lim : Nat) (s t : Term) : Cmp :=
  if s = t then .equal
  else if lpo4 cmp (lim + 1) s t then .greater
  else if lpo4 cmp (lim + 1) t s then .lesser
  else .uncomparable

/-- `lpo_term_dominates_args` (ORDERINGS/cto_lpo.c:217-231). -/
def lpoDomArgs (gr : Term → Term → Cmp) (s : Term) (ts : List Term) : Bool := ts.all fun t => decide (gr s t = .greater)

/-- `lpo_subterm_dominates_term` (ORDERINGS/cto_lpo.c:246-262). -/
def lpoSubDom (gr : Term → Term → Cmp) (ss : List Term) (t : Term) : Bool :=
  ss.any fun s => decide (gr s t = .greater) || decide (gr s t = .equal)

/-- `lpo_lex_greater` (ORDERINGS/cto_lpo.c:281-312). -/
def lpoLexG (gr : Term → Term → Cmp) : List Term → List Term → Cmp
  | [], [] => .equal
  | [], _ :: _ => .notgteq
  | _ :: _, [] => .greater
  | a :: as, b :: bs => if gr a b = .equal then lpoLexG gr as bs else gr a b

/-- The case of equal head symbols (ORDERINGS/cto_lpo.c:382-403): `res2` is the lexicographic comparison, `dom` and
`sub` are the results of the two dominance tests, `n` is the arity. -/
def lpoEqRes (res2 : Cmp) (dom sub : Bool) (n : Nat) : Cmp :=
  let res := match res2 with
    | .greater => if dom then .greater else .notgteq
    | .equal => .equal
    | _ => .notgteq
  if res = .notgteq ∧ 2 ≤ n ∧ sub then .greater else res

/-- `lpo_greater` (ORDERINGS/cto_lpo.c:332-420); `unknown` stands for the failed assertion of line 413. -/
def lpoG (cmp : Nat → Nat → Cmp) : Nat → Term → Term → Cmp
  | 0, _, _ => .uncomparable
  | _ + 1, .var x, .var y => if x = y then .equal else .uncomparable
  | _ + 1, .var _, .app _ _ => .notgteq
  | _ + 1, .app f ss, .var x => if x ∈ (Term.app f ss).vars then .greater else .uncomparable
  | d + 1, .app f ss, .app g ts =>
    match cmp f g with
    | .greater => if lpoDomArgs (lpoG cmp d) (.app f ss) ts then .greater else .notgteq
    | .equal =>
      lpoEqRes (lpoLexG (lpoG cmp d) ss ts) (lpoDomArgs (lpoG cmp d) (.app f ss) ts)
        (lpoSubDom (lpoG cmp d) ss (.app g ts)) ss.length
    | .lesser => if lpoSubDom (lpoG cmp d) ss (.app g ts) then .greater else .notgteq
    | .uncomparable => if lpoSubDom (lpoG cmp d) ss (.app g ts) then .greater else .notgteq
    | _ => .unknown

/-- `LPOGreater` (ORDERINGS/cto_lpo.c:798-803). -/
def lpoGreater (cmp : Nat → Nat → Cmp) (lim : Nat) (s t : Term) : Bool := decide (lpoG cmp (lim + 1) s t = .greater)

/-- `LPOCompare` (ORDERINGS/cto_lpo.c:823-860); `unknown` stands for the failed assertions of lines 839 and 856. -/
def lpoCompare (cmp : Nat → Nat → Cmp) (lim : Nat) (s t : Term) : Cmp :=
  match lpoG cmp (lim + 1) s t with
  | .greater => .greater
  | .lesser => .lesser
  | .equal => .equal
  | .uncomparable => .uncomparable
  | .notgteq =>
    match lpoG cmp (lim + 1) t s with
    | .greater => .lesser
    | .uncomparable => .uncomparable
    | .notgteq => .uncomparable
    | _ => .unknown
  | _ => .unknown

mutual
/-- Depth of a term; variables and constants have depth 1. -/
def Term.depth : Term → Nat
  | .var _ => 1
  | .app _ ts => 1 + Term.depthL ts
def Term.depthL : List Term → Nat
  | [] => 0
  | t :: ts => max (Term.depth t) (Term.depthL ts)
end

end Verif
