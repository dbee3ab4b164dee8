import Verif.Clauses.Infer
import Verif.Clauses.Subsume
import Verif.Clauses.Taut
import Verif.Clauses.Sem

/-!
# Blocked clause elimination

Model of `EliminateBlockedClauses` (CLAUSES/ccl_bce.c:597-628), which removes a clause with a literal `L` such that all resolvents on `L` with other clauses are tautologies.  Clauses
are numbered by their position in the set; an eliminated clause is one whose number is in the list of archived clauses.
-/

namespace Verif

/-! ## Occurrences of predicates -/

/-- The predicate of a literal that is no equation (`lit->lterm->f_code`); literals with a Boolean variable do not occur in first-order clauses. -/
def Lit.predCode? (L : Lit) : Option Nat :=
  if L.equ then none
  else
    match L.l with
    | .app f _ => some f
    | .var _ => none

/-- The map from signed predicates to stacks of clauses (bottom first); an empty stack marks a predicate as blocked (`IS_BLOCKED`, CLAUSES/ccl_bce.c:25-26). -/
abbrev SymMap := Nat → Bool → Option (List Nat)

def SymMap.set (m : SymMap) (f : Nat) (pos : Bool) (l : List Nat) : SymMap := fun g q => if g = f ∧ q = pos then some l else m g q

/-- The body of the loops of `make_sym_map` for a literal of clause `i` (CLAUSES/ccl_bce.c:128-174). -/
def symAdd (limit : Nat) (i : Nat) (m : SymMap) (L : Lit) : SymMap :=
  match L.predCode? with
  | none => m
  | some f =>
    if m f L.pos = some [] then m
    else if 0 < limit ∧ limit ≤ ((m f L.pos).getD []).length + ((m f (!L.pos)).getD []).length then (m.set f L.pos []).set f (!L.pos) []
    else
      match m f L.pos with
      | none => m.set f L.pos [i]
      | some l => if l.getLast? = some i then m else m.set f L.pos (l ++ [i])

/-- `make_sym_map` (CLAUSES/ccl_bce.c:120-182). -/
def makeSymMap (limit : Nat) (Cs : List (List Lit)) : SymMap :=
  Cs.zipIdx.foldl (fun m c => c.1.foldl (symAdd limit c.2) m) fun _ _ => none

/-- The flag `eq_found` (CLAUSES/ccl_bce.c:175-178). -/
def eqFound (Cs : List (List Lit)) : Bool := Cs.any fun C => C.any Lit.equ

/-! ## Tasks -/

/-- `BCE_task` (CLAUSES/ccl_bce.c:32-39): number of the clause, position of the literal, candidates not yet processed. -/
structure BceTask where
  cl : Nat
  lit : Nat
  rem : List Nat
deriving DecidableEq

/-- `make_bce_queue` (CLAUSES/ccl_bce.c:198-222). -/
def makeTasks (m : SymMap) (Cs : List (List Lit)) : List BceTask :=
  Cs.zipIdx.flatMap fun c => (copyDisjoint c.1).zipIdx.filterMap fun l =>
    match l.1.predCode? with
    | none => none
    | some f => if m f (!l.1.pos) = some [] then none else some ⟨c.2, l.2, (m f (!l.1.pos)).getD []⟩

/-! ## The test with equality -/

/-- The condition collected in `same_head` (CLAUSES/ccl_bce.c:414-416). -/
def oppHead (L K : Lit) : Bool := (L.pos != K.pos) && !K.equ && L.l.code == K.l.code

/-- Arguments of a term. -/
def Term.argList : Term → List Term
  | .var _ => []
  | .app _ ts => ts

/-- The clause tested for a literal `N` of the partner (CLAUSES/ccl_bce.c:430-442). -/
def blockClause (C : List Lit) (j : Nat) (L N : Lit) (others : List Lit) : List Lit :=
  (List.zipWith (fun s t => mkEqn false s t) N.l.argList L.l.argList).reverse ++ (C.eraseIdx j).map (fun K => mkEqn K.pos K.l K.r) ++
    others.map fun K => mkEqn K.pos K.l K.r

/-- `check_blockedness_eq` (CLAUSES/ccl_bce.c:402-450): `C` is the copy of the clause with other variables, `j` the position of the literal, `D` the partner, `taut` the tautology test. -/
def checkEq (taut : List Lit → Bool) (C : List Lit) (j : Nat) (D : List Lit) : Bool :=
  match C[j]? with
  | none => true
  | some L => (D.filter (oppHead L)).reverse.all fun N => taut (blockClause C j L N ((D.filter fun K => !oppHead L K).reverse))

/-! ## The test without equality -/

/-- `EqnEqualDeref` with `DEREF_ALWAYS` (CLAUSES/ccl_eqn.c:2006-2020) compares the instances.  The shortcut for two oriented equations is omitted: here the right sides are `$true`. -/
def equalDeref (k : Nat) (bind : Nat → Option Term) (K M : Lit) : Option Bool :=
  match instOpt bind (fun _ => none) k K.l, instOpt bind (fun _ => none) k K.r, instOpt bind (fun _ => none) k M.l, instOpt bind (fun _ => none) k M.r with
  | some a, some b, some c, some d => some (decide (a = c ∧ b = d) || decide (a = d ∧ b = c))
  | _, _, _, _ => none

/-- `EqnListFindCompLitExcept` (CLAUSES/ccl_eqnlist.c:2077-2089), on the list without the excepted literal. -/
def findComp (k : Nat) (bind : Nat → Option Term) : List Lit → Lit → Option Bool
  | [], _ => some false
  | K :: C, M =>
    if K.pos = M.pos then findComp k bind C M
    else
      match equalDeref k bind K M with
      | none => none
      | some true => some true
      | some false => findComp k bind C M

/-- The loop in lines 289-294 of CLAUSES/ccl_bce.c. -/
def anyComp (k : Nat) (bind : Nat → Option Term) (C : List Lit) : List Lit → Option Bool
  | [] => some false
  | M :: Ms =>
    match findComp k bind C M with
    | none => none
    | some true => some true
    | some false => anyComp k bind C Ms

/-- The loop in lines 311-322 of CLAUSES/ccl_bce.c: the literals with a position from `i` on that are not processed and have a complementary literal. -/
def newComp (k : Nat) (bind : Nat → Option Term) (C : List Lit) (proc : List Nat) : Nat → List Lit → Option (List (Nat × Lit))
  | _, [] => some []
  | i, M :: Ms =>
    match newComp k bind C proc (i + 1) Ms with
    | none => none
    | some r =>
      if proc.contains i then some r
      else
        match findComp k bind C M with
        | none => none
        | some true => some ((i, M) :: r)
        | some false => some r

/-- The loop in lines 330-335 of CLAUSES/ccl_bce.c: `some none` if one of the literals does not unify. -/
def unifyNew (sg : Sig) (pp : Term → Bool) (k : Nat) (l : Term) : List (Nat × Lit) → SubstSt → Option (Option SubstSt)
  | [], st => some (some st)
  | (_, M) :: Ms, st =>
    match unify sg pp k l M.l st with
    | none => none
    | some (false, _) => some none
    | some (true, st') => unifyNew sg pp k l Ms st'

/-- The loop of `check_l_resolvents_neq` (CLAUSES/ccl_bce.c:286-342). -/
def resolventLoop (sg : Sig) (pp : Term → Bool) (k : Nat) (C : List Lit) (l : Term) (unif nonUnif : List Lit) : Nat → List Nat → SubstSt → Option Bool
  | 0, _, _ => none
  | n + 1, proc, st =>
    match anyComp k st.bind C nonUnif with
    | none => none
    | some true => some true
    | some false =>
      if proc.length = unif.length then some false
      else
        match newComp k st.bind C proc 0 unif with
        | none => none
        | some [] => some false
        | some (q :: new) =>
          match unifyNew sg pp k l (q :: new) st with
          | none => none
          | some none => some true
          | some (some st') => resolventLoop sg pp k C l unif nonUnif n (proc ++ (q :: new).map Prod.fst) st'

/-- `split_partner_literals` (CLAUSES/ccl_bce.c:237-257). -/
def splitPartner (sg : Sig) (pp : Term → Bool) (k : Nat) (L : Lit) : List Lit → Option (List Lit × List Lit)
  | [] => some ([], [])
  | M :: D =>
    match splitPartner sg pp k L D with
    | none => none
    | some (u, v) =>
      if L.pos ≠ M.pos ∧ M.equ = false then
        match unify sg pp k L.l M.l ⟨fun _ => none, []⟩ with
        | none => none
        | some (true, _) => some (M :: u, v)
        | some (false, _) => some (u, M :: v)
      else some (u, M :: v)

/-- The loop of `check_blockedness_neq` with the start of `check_l_resolvents_neq` (CLAUSES/ccl_bce.c:374-380, 276-283) for the unifiable literals from position `i` on; the success of the
first unification is only asserted. -/
def checkUnif (sg : Sig) (pp : Term → Bool) (k : Nat) (C : List Lit) (l : Term) (unif nonUnif : List Lit) : Nat → List Lit → Option Bool
  | _, [] => some true
  | i, M :: Ms =>
    match unify sg pp k l M.l ⟨fun _ => none, []⟩ with
    | none => none
    | some (_, st) =>
      match resolventLoop sg pp k C l unif nonUnif k [i] st with
      | none => none
      | some false => some false
      | some true => checkUnif sg pp k C l unif nonUnif (i + 1) Ms

/-- `check_blockedness_neq` (CLAUSES/ccl_bce.c:362-387). -/
def checkNeq (sg : Sig) (pp : Term → Bool) (k : Nat) (C : List Lit) (j : Nat) (D : List Lit) : Option Bool :=
  match C[j]? with
  | none => some true
  | some L =>
    match splitPartner sg pp k L D with
    | none => none
    | some (u, v) => checkUnif sg pp k (C.eraseIdx j) L.l u v 0 u

/-! ## Elimination -/

/-- `check_candidates` (CLAUSES/ccl_bce.c:465-481): the candidates that are left, the first of which has failed the test. -/
def skipCands (check : Nat → Option Bool) (arch : List Nat) (cl : Nat) : List Nat → Option (List Nat)
  | [] => some []
  | c :: cs =>
    if c = cl ∨ c ∈ arch then skipCands check arch cl cs
    else
      match check c with
      | none => none
      | some true => skipCands check arch cl cs
      | some false => some (c :: cs)

/-- Tasks in the queue, tasks that wait for the elimination of a clause (`blocker_map`), numbers of the eliminated clauses. -/
structure BceSt where
  queue : List BceTask
  blocked : List (Nat × BceTask)
  arch : List Nat

/-- `do_eliminate_clauses` (CLAUSES/ccl_bce.c:524-577).  `pick` chooses the task from the queue; the heap of the code chooses one with the fewest remaining candidates.  `check` tests the literal at a position of a clause against another clause. -/
def bceLoop (check : Nat → Nat → Nat → Option Bool) (pick : List BceTask → Nat) : Nat → BceSt → Option (List Nat)
  | 0, _ => none
  | n + 1, s =>
    match s.queue[pick s.queue % s.queue.length]? with
    | none => some s.arch
    | some t =>
      let q := s.queue.eraseIdx (pick s.queue % s.queue.length)
      if t.cl ∈ s.arch then bceLoop check pick n ⟨q, s.blocked, s.arch⟩
      else
        match skipCands (check t.cl t.lit) s.arch t.cl t.rem with
        | none => none
        | some [] =>
          bceLoop check pick n ⟨q ++ (s.blocked.filter fun b => b.1 = t.cl).map fun b => ⟨b.2.cl, b.2.lit, b.2.rem.tail⟩,
            s.blocked.filter fun b => b.1 ≠ t.cl, t.cl :: s.arch⟩
        | some (c :: cs) => bceLoop check pick n ⟨q, (c, ⟨t.cl, t.lit, c :: cs⟩) :: s.blocked, s.arch⟩

/-- The clauses that are not eliminated. -/
def keptClauses (Cs : List (List Lit)) (arch : List Nat) : List (List Lit) := (Cs.zipIdx.filter fun c => !arch.contains c.2).map Prod.fst

/-- The test used by `do_eliminate_clauses` (CLAUSES/ccl_bce.c:528-529). -/
def bceCheck (sg : Sig) (taut : List Lit → Bool) (pp : Term → Bool) (k : Nat) (Cs : List (List Lit)) (cl lit i : Nat) : Option Bool :=
  let C := copyDisjoint (Cs[cl]?.getD [])
  let D := Cs[i]?.getD []
  if eqFound Cs then some (checkEq taut C lit D) else checkNeq sg pp k C lit D

/-- `EliminateBlockedClauses` (CLAUSES/ccl_bce.c:597-628): the numbers of the eliminated clauses. -/
def eliminateBlocked (sg : Sig) (taut : List Lit → Bool) (pp : Term → Bool) (pick : List BceTask → Nat) (k limit : Nat) (Cs : List (List Lit)) : Option (List Nat) :=
  bceLoop (bceCheck sg taut pp k Cs) pick k ⟨makeTasks (makeSymMap limit Cs) Cs, [], []⟩

/-! ## First-order input -/

/-- First-order signatures: no Boolean arguments and variables, distinct symbols are no predicates. -/
structure FOSig (sg : Sig) : Prop where
  args : ∀ f, sg.fty 1 ∉ sg.fargs f
  vars : ∀ x, sg.vty x ≠ sg.fty 1
  dist : ∀ f, sg.distinct f → sg.fty f ≠ sg.fty 1

/-- A first-order literal other than `$true` and its negation: an atom `A = $true`, or an equation between terms that are not Boolean. -/
structure FOLit (sg : Sig) (L : Lit) : Prop where
  wt : sg.WTLit L
  nf : L.NF
  nontriv : L.l ≠ tTrue
  atom : sg.ty L.l = sg.fty 1 → L.r = tTrue

end Verif
