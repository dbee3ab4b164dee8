import Verif.Basics.Splay
import Verif.Orderings.Spec

/-!
# The comparison cache

Model of ORDERINGS/cto_cmpcache.c.  A term is represented by its address, a key half is an address with a dereference mode.
-/

namespace Verif

/-- A term address and a dereference mode. -/
abbrev HalfKey := Nat × Nat

/-- `QuadKey` (BASICS/clb_quadtrees.h). -/
abbrev QKey := HalfKey × HalfKey

/-- `DoubleKeyCmp` (BASICS/clb_quadtrees.c:148-160). -/
def doubleKeyCmp : HalfKey → HalfKey → Ordering := compareLex (compareOn Prod.fst) (compareOn Prod.snd)

/-- `QuadKeyCmp` (BASICS/clb_quadtrees.c:174-185). -/
def quadKeyCmp : QKey → QKey → Ordering :=
  compareLex (fun a b => doubleKeyCmp a.1 b.1) (fun a b => doubleKeyCmp a.2 b.2)

/-- The cache: a splay tree of keys with results. -/
abbrev CmpCache := STree (QKey × Cmp)

/-- `prepare_key` (ORDERINGS/cto_cmpcache.c:55-71). -/
def prepareKey (a b : HalfKey) : Bool × QKey :=
  if doubleKeyCmp a b = .gt then (true, a, b) else (false, b, a)

/-- `CmpCacheFind` (ORDERINGS/cto_cmpcache.c:91-121); `isVar` tells which addresses are free variables. -/
def cmpCacheFind (isVar : Nat → Bool) (c : CmpCache) (a b : HalfKey) : Cmp × CmpCache :=
  if isVar a.1 || isVar b.1 then (.unknown, c)
  else
    match prepareKey a b with
    | (nat, k) =>
      match STree.find quadKeyCmp Prod.fst k c with
      | (none, c) => (.unknown, c)
      | (some e, c) => (if nat then e.2 else e.2.inv, c)

/-- The new value of an existing entry (ORDERINGS/cto_cmpcache.c:160-198). -/
def cacheCombine (old new : Cmp) : Cmp :=
  match old with
  | .notgteq => if new = .notleeq then .uncomparable else new
  | .notleeq => if new = .notgteq then .uncomparable else new
  | old => old

/-- The condition asserted when an entry exists (ORDERINGS/cto_cmpcache.c:172-174, 186-188, 192-196). -/
def cacheAssertion (old new : Cmp) : Bool :=
  match old with
  | .notgteq => new == .notleeq || new == .notgteq || new == .lesser || new == .uncomparable
  | .notleeq => new == .notgteq || new == .notleeq || new == .greater || new == .uncomparable
  | old => old == new || (new == .notgteq && old == .lesser) || (new == .notleeq && old == .greater)

/-- `CmpCacheInsert` (ORDERINGS/cto_cmpcache.c:137-210) without assertions.  `QuadTreeFind` leaves the entry at the root,
where its value is changed. -/
def cmpCacheInsert (isVar : Nat → Bool) (c : CmpCache) (a b : HalfKey) (v : Cmp) : Bool × CmpCache :=
  if isVar a.1 || isVar b.1 then (false, c)
  else
    match prepareKey a b with
    | (nat, k) =>
      let val := if nat then v else v.inv
      match STree.find quadKeyCmp Prod.fst k c with
      | (some _, .node l e r) => (false, .node l (e.1, cacheCombine e.2 val) r)
      | (some _, .leaf) => (false, .leaf)
      | (none, c) =>
        match STree.insert quadKeyCmp Prod.fst (k, val) c with
        | (none, c) => (true, c)
        | (some _, c) => (false, c)

end Verif
