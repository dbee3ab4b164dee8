import Verif.Terms.TermBank

/-!
# What a term bank is for

Which term a pointer stands for, which cells can be reached from a set of pointers, and the histories of a term bank.
-/

namespace Verif

/-- The pointer `r` reads as the term `t`: follow the argument pointers of cells in use. -/
inductive Reads (b : TBank) : TRef → Term → Prop
  | var (n : Nat) : Reads b (.var n) (.var n)
  | cell (a : Nat) (ts : List Term) : a ∈ b.used → (b.cell a).args.length = ts.length →
      (∀ (i : Nat) (r : TRef) (t : Term), (b.cell a).args[i]? = some r → ts[i]? = some t → Reads b r t) → Reads b (.cell a) (.app (b.cell a).f ts)

/-- The cells that are reached from `roots` through arguments and rewrite links. -/
inductive Reached (b : TBank) (roots : List TRef) : Nat → Prop
  | root {a : Nat} : .cell a ∈ roots → Reached b roots a
  | arg {a c : Nat} : Reached b roots a → .cell c ∈ (b.cell a).args → Reached b roots c
  | link {a c : Nat} : Reached b roots a → (b.cell a).link = some (.cell c) → Reached b roots c

/-- What is assumed of the environment: pointers are totally ordered, the hash value is an index of the hash table, `malloc`
returns an address not in use. -/
structure TBCtx.OK (x : TBCtx) : Prop where
  trans : Std.TransCmp x.pcmp
  lawful : ∀ r s, x.pcmp r s = .eq → r = s
  hash : ∀ k, x.hash k < x.size
  fresh : ∀ b, x.alloc b ∉ b.used

/-- The histories of a term bank: `TBReach x b H` means that `b` can be reached and that the pointers in `H`, each with the term
it was obtained for, are in use.  Everything in use is marked before a garbage collection. -/
inductive TBReach (x : TBCtx) : TBank → List (TRef × Term) → Prop
  | init : TBReach x .empty []
  | insert {b H} (t : Term) : TBReach x b H → TBReach x (tbInsert x t b).2 (((tbInsert x t b).1, t) :: H)
  | top {b H} (f : Nat) (as : List (TRef × Term)) : TBReach x b H → (∀ p ∈ as, p ∈ H ∨ ∃ n, p = (.var n, .var n)) →
      TBReach x (insertTop x b f (as.map (·.1))).2 (((insertTop x b f (as.map (·.1))).1, .app f (as.map (·.2))) :: H)
  | find {b H} (f : Nat) (rs : List TRef) : TBReach x b H → TBReach x (tbFind x b f rs).2 H
  | inst {b H} {n : Nat} {bind : Nat → Option TRef} {σ : Nat → Term} {r r' : TRef} {t : Term} {b' : TBank} : TBReach x b H →
      (r, t) ∈ H → (∀ v s, bind v = some s → (s, σ v) ∈ H ∨ ∃ m, s = .var m ∧ σ v = .var m) → (∀ v, bind v = none → σ v = .var v) →
      instShared x bind n r b = some (r', b') → TBReach x b' ((r', t.subst σ) :: H)
  | repl {b H} {n : Nat} {old rep r r' : TRef} {told trep t : Term} {b' : TBank} : TBReach x b H → (r, t) ∈ H → (old, told) ∈ H →
      (rep, trep) ∈ H → replShared x old rep n r b = some (r', b') → TBReach x b' ((r', replPlain told trep t) :: H)
  | addLink {b H} {a : Nat} {r : TRef} {s t : Term} : TBReach x b H → (.cell a, s) ∈ H → (r, t) ∈ H → TBReach x (addLink b a r) H
  | delLink {b H} {a : Nat} {s : Term} : TBReach x b H → (.cell a, s) ∈ H → TBReach x (delLink b a) H
  | drop {b H H'} : TBReach x b H → (∀ p ∈ H', p ∈ H) → TBReach x b H'
  | follow {b H} {a : Nat} {s : Term} {r : TRef} : TBReach x b H → (.cell a, s) ∈ H → (b.cell a).link = some r →
      ∀ t, Reads b r t → TBReach x b ((r, t) :: H)
  | gc {b H} {n : Nat} {roots : List TRef} {b' : TBank} : TBReach x b H → (∀ p ∈ H, p.1 ∈ roots) →
      (∀ r ∈ roots, ∃ t, Reads b r t) → gc x n roots b = some b' → TBReach x b' H

end Verif
