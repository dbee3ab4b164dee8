import Verif.Clauses.Split
import Verif.Clauses.Sem

/-!
# Splitting: specification

Interpretations that differ only in the truth values of some predicates, and the history of a clause set under
splitting, deduction and removal of redundant clauses.
-/

namespace Verif

universe u

/-- The symbols `new` may be reinterpreted as predicates: their values are truth values and they are neither `$true` nor
`$false` nor distinct objects. -/
structure NewPreds (sg : Sig) (new : Nat → Prop) : Prop extends SigOK sg where
  ty : ∀ f, new f → sg.fty f = sg.fty 1
  notTrue : ¬ new 1
  notFalse : ¬ new 2
  notDistinct : ∀ f, new f → ¬ sg.distinct f

open Classical in
/-- The interpretation that agrees with `I` except that the predicates `new` are true exactly where `P` says. -/
noncomputable def Interp.withPreds {sg : Sig} (I : Interp.{u} sg) (new : Nat → Prop) (h : NewPreds sg new)
    (P : Nat → List I.D → Prop) : Interp.{u} sg where
  D := I.D
  mem := I.mem
  inhab := I.inhab
  fn f ds := if new f then (if P f ds then I.fn 1 [] else I.fn 2 []) else I.fn f ds
  fn_mem f ds hd := by
    by_cases hf : new f
    · have h1 := I.fn_mem 1 [] (by rw [h.targs]; exact .nil)
      have h2 := I.fn_mem 2 [] (by rw [h.fargs]; exact .nil)
      rw [if_pos hf, h.ty f hf]
      split
      · exact h1
      · rwa [h.tf]
    · rw [if_neg hf]; exact I.fn_mem f ds hd
  tf := by rw [if_neg h.notTrue, if_neg h.notFalse]; exact I.tf
  bool2 d hd := by rw [if_neg h.notTrue, if_neg h.notFalse]; exact I.bool2 d hd
  dist f g hf hg hne := by
    rw [if_neg fun h' => h.notDistinct f h' hf, if_neg fun h' => h.notDistinct g h' hg]
    exact I.dist f g hf hg hne

/-- The codes from `n` up to but excluding `m`. -/
def CodesIn (n m f : Nat) : Prop := n ≤ f ∧ f < m

/-- All symbols of the clause have codes below `n`. -/
def ClauseBelow (n : Nat) (C : List Lit) : Prop := ∀ L ∈ C, L.l.SymsBelow n ∧ L.r.SymsBelow n

/-- The symbols `n ≤ f < m` are declared as predicates over the variables `sv`. -/
structure DeclaredPreds (sg : Sig) (n m : Nat) (sv : List Nat) : Prop where
  ty : ∀ f, CodesIn n m f → sg.fty f = sg.fty 1
  args : ∀ f, CodesIn n m f → sg.fargs f = sv.map sg.vty
  notDistinct : ∀ f, CodesIn n m f → ¬ sg.distinct f

/-- The definition clause stored for a part. -/
def storeClause (e : List OLit × Nat) : List Lit := defLit e.2 true [] :: OLit.plain e.1

/-- Histories of a clause set, starting with `S0` over the symbols below `n0`: clauses that follow are added, clauses are
removed, clauses are split.  If `keep` is true, only redundant clauses are removed, and the definition clauses in the
store follow already from the other clauses when a clause is split. -/
inductive SplitReach (x : SplitCtx) (keep : Prop) (n0 : Nat) (S0 : List (List Lit)) : SplitSt → List (List Lit) → Prop
  | init : (∀ C ∈ S0, x.sg.WTClause C ∧ ClauseBelow n0 C) → SplitReach x keep n0 S0 ⟨n0, []⟩ S0
  | derive {st S D} : SplitReach x keep n0 S0 st S → Entails.{u} x.sg S D → x.sg.WTClause D → ClauseBelow st.next D →
      SplitReach x keep n0 S0 st (D :: S)
  | remove {st S S'} : SplitReach x keep n0 S0 st S → S' ⊆ S → (keep → ∀ C ∈ S, Entails.{u} x.sg S' C) →
      SplitReach x keep n0 S0 st S'
  | split {st S1 S2 C marked how fresh sv news rest st'} : SplitReach x keep n0 S0 st (S1 ++ OLit.plain C :: S2) →
      x.split marked how fresh sv C st = some (news, rest, st') → DeclaredPreds x.sg st.next st'.next sv →
      (keep → ∀ e ∈ st.store, Entails.{u} x.sg (S1 ++ S2) (storeClause e)) →
      SplitReach x keep n0 S0 st' (news ++ rest :: (S1 ++ S2))

end Verif
