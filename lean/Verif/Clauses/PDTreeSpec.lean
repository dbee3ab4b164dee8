import Verif.Clauses.PDTree

/-!
# Specification of the discrimination tree index

Histories of a tree together with the list of entries that should be in it.
-/

namespace Verif

/-- `Steps x q s em s'`: a search goes from `s` to `s'` by rounds of `PDTreeFindNextIndexedLeaf`, the rounds that end
that loop hand out the entries `em` of the node reached, each with the substitution at that time. -/
inductive PDSteps (x : PDCtx) (q : PDQuery) : PDSt → List (PDEntry × SubstSt) → PDSt → Prop
  | refl (s) : PDSteps x q s [] s
  | step {s fr rest s1 b em s2} : s.frames = fr :: rest → pdStep x q s fr rest = (s1, b) → PDSteps x q s1 em s2 →
      PDSteps x q s ((if b then s1.topEnts.map (fun e => (e, s1.sub)) else []) ++ em) s2

/-- All histories of a tree: insertions of new entries for well-typed terms, deletions of all entries of a clause for a
term, and searches, which may be abandoned at any time; with the entries that should be stored.  All entries of one
clause carry the date of the clause. -/
inductive PDReach (sg : Sig) : PDTree → List PDEntry → Prop
  | empty : PDReach sg .empty []
  | insert {T S} (e : PDEntry) : PDReach sg T S → sg.WT e.side → (∀ e' ∈ S, e'.id ≠ e.id) →
      (∀ e' ∈ S, e'.clause = e.clause → e'.date = e.date) → PDReach sg (pdInsert T e) (e :: S)
  | delete {T S T' res} (t : Term) (c date : Nat) : PDReach sg T S → sg.WT t →
      (∀ e ∈ S, e.clause = c → e.date = date) → pdDelete T t c date = some (T', res) →
      PDReach sg T' (S.filter fun e => !(decide (e.side = t) && e.clause == c))
  | search {T S} {x : PDCtx} {q : PDQuery} {t : Term} {sub : SubstSt} {em s} : PDReach sg T S → x.sg = sg →
      PDSteps x q (pdSearchInit q T t sub) em s → PDReach sg ⟨T.root, s.size, s.age⟩ S

/-- An entry the age constraint lets pass: ages are not used, or its clause is later than the date of the query. -/
def PDEntry.Passes (x : PDCtx) (q : PDQuery) (e : PDEntry) : Prop := x.useAge = true → q.date ≠ 0 → q.date < e.date

/-- No predicate position below the top of a term: `TPPredPos` is set for atoms, which are not arguments in first-order clauses. -/
def PDCtx.ArgsPlain (x : PDCtx) (t : Term) : Prop := ∀ f us, t = .app f us → ∀ u ∈ us, ∀ v ∈ u.subterms, x.pp v = false

/-- The bindings are those `SubstComputeMatch` finds for the indexed side and the query on the substitution `sub`. -/
def PDEntry.MatchedBy (x : PDCtx) (t : Term) (sub : SubstSt) (e : PDEntry) (σ : SubstSt) : Prop :=
  substComputeMatch x.sg e.side t (x.pp t) sub = some (true, σ)

end Verif
