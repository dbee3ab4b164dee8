import Verif.Clauses.Sem
import Verif.Terms.Match

/-!
# Rewriting

Model of CLAUSES/ccl_rewrite.c and TERMS/cte_replace.c:66-137: leftmost-innermost normalisation of terms, literals and
clauses with cached results (rewrite links and normal-form dates stored in the shared term cells), the search for
terms that a new unit equation can rewrite, and the recording of the used equations
(`TermComputeRWSequence`, CLAUSES/ccl_clausepos.c:289-328).

Simplifications.  First order only (no λ-terms, no applied variables).  A term cell is the term it stands for (C04).  The
discrimination tree is an arbitrary enumeration of candidates (`DSet.enum`), see `DSet.OK` for what is assumed about it;
candidates are then matched with `SubstComputeMatch`.  Statistics counters, the output of proof steps and
the set-of-support bits are left out.
-/

namespace Verif

/-- A unit clause used as demodulator: its identity, the two sides, the bit `EPIsOriented` and `clause->date`. -/
structure Demod where
  id : Nat
  l : Term
  r : Term
  oriented : Bool
  date : Nat
deriving DecidableEq

/-- The rewriting data of a term cell (TERMS/cte_termtypes.h:104-125 and property bits 50-75): `TPIsRewritten`, `TPIsRRewritten`,
`TPIsRewritable`, `TPIsRRewritable`, `nf_date[0]`, `nf_date[1]`, and the rewrite link (`demod = none` is
REWRITE_AT_SUBTERM). -/
structure RWInfo where
  rewritten : Bool := false
  rrewritten : Bool := false
  rewritable : Bool := false
  rrewritable : Bool := false
  nf0 : Nat := 0
  nf1 : Nat := 0
  repl : Term := .var 0
  demod : Option Demod := none

/-- The rewriting data of all cells. -/
abbrev RWSt := Term → RWInfo

def RWSt.upd (st : RWSt) (t : Term) (i : RWInfo) : RWSt := fun u => if u = t then i else st u

/-- `nf_date[level-1]`. -/
def RWInfo.nf (i : RWInfo) (level : Nat) : Nat := if level = 1 then i.nf0 else i.nf1

/-- `TermNFDate(term, level-1)` (TERMS/cte_termtypes.h:321-322); `SysDateCreationTime()` is 0. -/
def RWInfo.nfDate (i : RWInfo) (level : Nat) : Nat := if i.rewritten then 0 else i.nf level

/-- `TermIsTopRewritten` (TERMS/cte_termtypes.h:310). -/
def RWInfo.topRewritten (i : RWInfo) : Bool := i.rewritten && i.demod.isSome

/-- What rewriting depends on besides the demodulators: the signature, `TPPredPos` of the terms, the option
`rewrite_strong_rhs_inst`, the designated minimal term of a type, and `TOGreater`. -/
structure RWCtx where
  sg : Sig
  pp : Term → Bool
  strong : Bool
  minT : Nat → Term
  greater : Term → Term → Bool

/-- A set of demodulators: its members, `set->date`, and what the index enumerates for a term and a date. -/
structure DSet where
  mem : List Demod
  date : Nat
  enum : Term → Nat → List (Demod × Bool)

/-- `SubstMatchComplete` (TERMS/cte_match_mgu_1-1.h) on an empty substitution; the bindings found. -/
def matchSt (x : RWCtx) (l t : Term) : Option SubstSt :=
  match substComputeMatch x.sg l t (x.pp t) .empty with
  | some (true, st) => some st
  | _ => none

/-- `SubstIsRenaming` (TERMS/cte_subst.c:271-314): every variable on the stack is bound to a variable, no two to the
same. -/
def substIsRenaming (st : SubstSt) : Bool :=
  st.stack.all (fun y => (st.toFun y).isVar) && decide (st.stack.map st.toFun).Nodup

mutual
/-- `subst_complete_min_instance` (CLAUSES/ccl_rewrite.c:68-88). -/
def completeMin (x : RWCtx) : SubstSt → Term → SubstSt
  | st, .var y => if (st.bind y).isNone then st.addBinding y (x.minT (x.sg.vty y)) else st
  | st, .app _ ts => completeMinL x st ts
def completeMinL (x : RWCtx) : SubstSt → List Term → SubstSt
  | st, [] => st
  | st, t :: ts => completeMinL x (completeMin x st t) ts
end

/-- `instance_is_rule` (CLAUSES/ccl_rewrite.c:106-124); the answer and the completed substitution. -/
def instanceIsRule (x : RWCtx) (l r : Term) (st : SubstSt) : Bool × SubstSt :=
  if !x.strong && r.vars.any (fun y => (st.bind y).isNone) then (false, st)
  else
    let st1 := if x.strong then completeMin x st r else st
    if substIsRenaming st1 then (false, st1)
    else (x.greater (instFO st1.bind l) (instFO st1.bind r), st1)

/-- The test of one candidate in `indexed_find_demodulator` (CLAUSES/ccl_rewrite.c:597-625) after the match
of one side (`right`: the right side), and the replacement (`TBInsertInstantiated` of the other side, 689). -/
def tryDemod (x : RWCtx) (rs : Bool) (d : Demod) (right : Bool) (t : Term) : Option Term :=
  let l := if right then d.r else d.l
  let r := if right then d.l else d.r
  match matchSt x l t with
  | none => none
  | some st =>
    if right then
      let (ok, st1) := instanceIsRule x l r st
      if ok then some (instFO st1.bind r) else none
    else
      let (ok, st1) := if d.oriented then (true, st) else instanceIsRule x l r st
      if ok && (!rs || !substIsRenaming st1) then some (instFO st1.bind r) else none

/-- The loop of `indexed_find_demodulator` (CLAUSES/ccl_rewrite.c:583-630): candidates in the order of the index, skipping
those with which the term is known to be in normal form. -/
def findDemod (x : RWCtx) (rs : Bool) (i : RWInfo) (t : Term) : List (Demod × Bool) → Option (Demod × Term)
  | [] => none
  | (d, right) :: cs =>
    if (d.oriented = true ∧ d.date ≤ i.nfDate 1) ∨ (d.oriented = false ∧ d.date ≤ i.nfDate 2) then
      findDemod x rs i t cs
    else
      match tryDemod x rs d right t with
      | some u => some (d, u)
      | none => findDemod x rs i t cs

/-- `TermAddRWLink` (TERMS/cte_replace.c:66-87). -/
def addRWLink (st : RWSt) (t repl : Term) (d : Option Demod) (always : Bool) : RWSt :=
  st.upd t { st t with rewritten := true, rrewritten := (st t).rrewritten || always, repl := repl, demod := d }

/-- `rewrite_with_clause_set_list` (CLAUSES/ccl_rewrite.c:733-765) with `rewrite_with_clause_set` (669-716); the list
holds the first `level` sets.  `TermIsDBClosed` always holds for first-order terms. -/
def rewriteWithSets (x : RWCtx) (level : Nat) (rs : Bool) (st : RWSt) (t : Term) : List DSet → RWSt
  | [] => st
  | s :: ss =>
    if (st t).nfDate level < s.date then
      match findDemod x rs (st t) t (s.enum t ((st t).nfDate level)) with
      | some (d, u) => if u = t then rewriteWithSets x level rs st t ss else addRWLink st t u (some d) rs
      | none => rewriteWithSets x level rs st t ss
    else rewriteWithSets x level rs st t ss

/-- `term_follow_top_RW_chain` (CLAUSES/ccl_rewrite.c:141-168). -/
def followTop (st : RWSt) : Nat → Term → Bool → Option Term
  | 0, _, _ => none
  | n + 1, t, rs =>
    if (st t).topRewritten && (!rs || (st t).rrewritten) then followTop st n (st t).repl rs else some t

/-- `RWDesc` (CLAUSES/ccl_rewrite.h): the sets in use (`demods[0..level-1]`) and the level. -/
structure RWDesc where
  sets : List DSet
  level : Nat

/-- `demod_date`: `ClauseSetListGetMaxDate` (CLAUSES/ccl_clausesets.c:1350-1361). -/
def RWDesc.date (d : RWDesc) : Nat := ((d.sets.take d.level).map DSet.date).foldl max 0

/-- The argument loop of `term_subterm_rewrite` (CLAUSES/ccl_rewrite.c:794-798). -/
def nfArgs (nf : RWSt → Term → Option (Term × RWSt)) : RWSt → List Term → Option (List Term × RWSt)
  | st, [] => some ([], st)
  | st, t :: ts =>
    match nf st t with
    | none => none
    | some (u, st1) =>
      match nfArgs nf st1 ts with
      | none => none
      | some (us, st2) => some (u :: us, st2)

/-- `term_subterm_rewrite` (CLAUSES/ccl_rewrite.c:782-812): `modified`, the new term, the new state. -/
def subRewrite (nf : RWSt → Term → Option (Term × RWSt)) (st : RWSt) (t : Term) : Option (Bool × Term × RWSt) :=
  match t with
  | .var y => some (false, .var y, st)
  | .app f ts =>
    match nfArgs nf st ts with
    | none => none
    | some (us, st1) =>
      if us = ts then some (false, .app f ts, st1)
      else some (true, .app f us, addRWLink st1 (.app f ts) (.app f us) none true)

/-- Rewriting at the top in the loop of `term_li_normalform` (CLAUSES/ccl_rewrite.c:859-871). -/
def topRewrite (x : RWCtx) (d : RWDesc) (n : Nat) (st : RWSt) (t : Term) (rs : Bool) : Option (Term × RWSt) :=
  let st1 := if (st t).topRewritten then st else rewriteWithSets x d.level rs st t (d.sets.take d.level)
  (followTop st1 n t rs).map fun u => (u, st1)

/-- The end of `term_li_normalform` (CLAUSES/ccl_rewrite.c:886-893). -/
def setNF (d : RWDesc) (st : RWSt) (t : Term) (rs : Bool) : RWSt :=
  if (st t).rewritten = false ∧ rs = false then
    st.upd t { st t with nf0 := d.date, nf1 := if d.level = 2 then d.date else (st t).nf1 }
  else st

mutual
/-- `term_li_normalform` (CLAUSES/ccl_rewrite.c:829-895); `none`: out of fuel. -/
def liNF (x : RWCtx) (d : RWDesc) : Nat → RWSt → Term → Bool → Option (Term × RWSt)
  | 0, _, _, _ => none
  | n + 1, st, t, rs =>
    if d.level = 0 then some (t, st)
    else
      match followTop st n t rs with
      | none => none
      | some t1 =>
        if (st t1).rewritten = false ∧ d.date ≤ (st t1).nf d.level then some (t1, st)
        else if t1.isVar then some (t1, st)
        else liLoop x d n st t1 rs
/-- The loop of `term_li_normalform` (CLAUSES/ccl_rewrite.c:853-893). -/
def liLoop (x : RWCtx) (d : RWDesc) : Nat → RWSt → Term → Bool → Option (Term × RWSt)
  | 0, _, _, _ => none
  | n + 1, st, t, rs =>
    match subRewrite (fun s u => liNF x d n s u false) st t with
    | none => none
    | some (m, t1, st1) =>
      if t1.isVar then some (t1, setNF d st1 t1 rs)
      else
        match topRewrite x d n st1 t1 (rs && !m) with
        | none => none
        | some (t2, st2) =>
          if m || decide (t2 ≠ t1) then liLoop x d n st2 t2 rs
          else some (t2, setNF d st2 t2 rs)
end

/-! ## Recording the used equations -/

/-- The argument loop of `TermComputeRWSequence` (CLAUSES/ccl_clausepos.c:307-313); different lengths would be an access
out of bounds. -/
def seqArgs (sq : Term → Term → Option (List Demod)) : List Term → List Term → Option (List Demod)
  | [], [] => some []
  | t :: ts, u :: us =>
    match sq t u with
    | none => none
    | some ds =>
      match seqArgs sq ts us with
      | none => none
      | some es => some (ds ++ es)
  | _, _ => none

/-- `TermComputeRWSequence` (CLAUSES/ccl_clausepos.c:289-328): the demodulators pushed on the derivation.
`none`: an assertion fails or the fuel runs out. -/
def rwSequence (st : RWSt) : Nat → Term → Term → Option (List Demod)
  | 0, _, _ => none
  | n + 1, a, b =>
    if a = b then some []
    else if (st a).rewritten = false then none
    else
      match (st a).demod with
      | some d => (rwSequence st n (st a).repl b).map fun ds => d :: ds
      | none =>
        match a, (st a).repl with
        | .app f ts, .app g us =>
          if f ≠ g ∨ ts = [] then none
          else
            match seqArgs (rwSequence st n) ts us with
            | none => none
            | some ds => (rwSequence st n (.app g us) b).map fun es => ds ++ es
        | _, _ => none

/-! ## Literals and clauses -/

/-- A literal with the property bits rewriting looks at. -/
structure RLit where
  lit : Lit
  oriented : Bool
  maximal : Bool
deriving DecidableEq

/-- Outcome of normalising one side: the new side, the state, and the recorded demodulators. -/
def sideNF (x : RWCtx) (d : RWDesc) (n : Nat) (st : RWSt) (t : Term) (rs : Bool) :
    Option (Term × RWSt × List Demod) :=
  match liNF x d n st t rs with
  | none => none
  | some (u, st1) => (rwSequence st1 n t u).map fun ds => (u, st1, ds)

/-- `eqn_li_normalform` (CLAUSES/ccl_rewrite.c:911-964): the new literal, whether the result includes `MaxSide`, the
state, the recorded demodulators. -/
def eqnNF (x : RWCtx) (d : RWDesc) (n : Nat) (st : RWSt) (L : RLit) (interred : Bool) :
    Option (RLit × Bool × RWSt × List Demod) :=
  let rs := L.maximal && L.lit.pos && L.oriented && interred
  match sideNF x d n st L.lit.l rs with
  | none => none
  | some (l, st1, ds) =>
    match sideNF x d n st1 L.lit.r false with
    | none => none
    | some (r, st2, es) =>
      some ({ L with lit := ⟨L.lit.pos, l, r⟩ },
        decide (l ≠ L.lit.l) || (decide (r ≠ L.lit.r) && !L.oriented), st2, ds ++ es)

/-- The literal loop of `ClauseComputeLINormalform` (CLAUSES/ccl_rewrite.c:1289-1304); `lim` is `CPLimitedRW`; the
returned flag `again` is `!done`. -/
def litsNF (x : RWCtx) (d : RWDesc) (n : Nat) : RWSt → Bool → List RLit →
    Option (List RLit × Bool × Bool × RWSt × List Demod)
  | st, lim, [] => some ([], false, lim, st, [])
  | st, lim, L :: C =>
    match eqnNF x d n st L lim with
    | none => none
    | some (L', mx, st1, ds) =>
      let hit := mx && L.lit.pos && L.maximal && lim
      match litsNF x d n st1 (lim && !hit) C with
      | none => none
      | some (C', again, lim', st2, es) => some (L' :: C', hit || again, lim', st2, ds ++ es)

/-- `ClauseComputeLINormalform` (CLAUSES/ccl_rewrite.c:1258-1320).  Every further round means that `CPLimitedRW` was removed, so
two rounds suffice; `k` counts them. -/
def clauseNF (x : RWCtx) (d : RWDesc) (n : Nat) : Nat → RWSt → Bool → List RLit →
    Option (List RLit × Bool × RWSt × List Demod)
  | 0, _, _, _ => none
  | k + 1, st, lim, C =>
    match litsNF x d n st lim C with
    | none => none
    | some (C', again, lim', st1, ds) =>
      if again then
        (clauseNF x d n k st1 lim' C').map fun r => (r.1, r.2.1, r.2.2.1, ds ++ r.2.2.2)
      else some (C', lim', st1, ds)

/-! ## Terms a new demodulator can rewrite -/

/-- `RWResultType` (TERMS/cte_termtypes.h). -/
inductive RWRes
  | no | limited | always
deriving DecidableEq

/-- `TermCellSetProp(term, TPIsRewritable[|TPIsRRewritable])`. -/
def setRewritable (st : RWSt) (t : Term) (always : Bool) : RWSt :=
  st.upd t { st t with rewritable := true, rrewritable := (st t).rrewritable || always }

/-- `TermCellDelProp(term, TPIsRRewritable|TPIsRewritable)`. -/
def delRewritable (st : RWSt) (t : Term) : RWSt :=
  st.upd t { st t with rewritable := false, rrewritable := false }

/-- First half of `term_is_top_rewritable` (CLAUSES/ccl_rewrite.c:206-248): matching the left side. -/
def topRewritableL (x : RWCtx) (st : RWSt) (t : Term) (d : Demod) : RWRes × RWSt :=
  match matchSt x d.l t with
  | none => (.no, st)
  | some sb =>
    let (ok, sb1) := if d.oriented then (true, sb) else instanceIsRule x d.l d.r sb
    if ok then
      let res := if !d.oriented || !substIsRenaming sb1 then RWRes.always else RWRes.limited
      let st1 := setRewritable st t (decide (res = .always))
      if (st t).rewritten = false ∨ res = .always then
        let repl := instFO sb1.bind d.r
        if repl = t then (.no, delRewritable st1 t)
        else (res, addRWLink st1 t repl (some d) (decide (res = .always)))
      else (res, st1)
    else (.no, st)

/-- `term_is_top_rewritable` (CLAUSES/ccl_rewrite.c:184-290). -/
def topRewritable (x : RWCtx) (st : RWSt) (t : Term) (d : Demod) (rs : Bool) : RWRes × RWSt :=
  let (res, st1) := topRewritableL x st t d
  if res = .always ∨ (rs = false ∧ res = .limited) ∨ d.oriented = true then (res, st1)
  else
    match matchSt x d.r t with
    | none => (res, st1)
    | some sb =>
      let (ok, sb1) := instanceIsRule x d.r d.l sb
      if ok then
        let st2 := setRewritable st1 t true
        let repl := instFO sb1.bind d.l
        if repl = t then (.no, delRewritable st2 t)
        else (.always, addRWLink st2 t repl (some d) true)
      else (res, st1)

mutual
/-- `term_is_rewritable` (CLAUSES/ccl_rewrite.c:317-384). -/
def termIsRewritable (x : RWCtx) (d : Demod) (date : Nat) : RWSt → Term → Bool → Bool × RWSt
  | st, .var _, _ => (false, st)
  | st, .app f ts, rs =>
    let i := st (.app f ts)
    if i.rrewritable || (!rs && i.rewritable) then (true, st)
    else if i.nf1 = date then (false, st)
    else
      let (res, st1) := anyArgRewritable x d date st ts
      if res then (true, setRewritable st1 (.app f ts) true)
      else
        let (top, st2) := topRewritable x st1 (.app f ts) d rs
        match top with
        | .limited => (!rs, st2)
        | .always => (true, st2)
        | .no =>
          let j := st2 (.app f ts)
          if !(j.rewritable || j.rrewritable || j.rewritten || j.rrewritten) && !rs then
            (false, st2.upd (.app f ts) { j with nf0 := date, nf1 := date })
          else (false, st2)
/-- The argument loop of `term_is_rewritable` (CLAUSES/ccl_rewrite.c:348-355): stops at the first success. -/
def anyArgRewritable (x : RWCtx) (d : Demod) (date : Nat) : RWSt → List Term → Bool × RWSt
  | st, [] => (false, st)
  | st, t :: ts =>
    let (res, st1) := termIsRewritable x d date st t false
    if res then (true, st1) else anyArgRewritable x d date st1 ts
end

/-- `clause_is_rewritable` (CLAUSES/ccl_rewrite.c:438-455) with `eqn_has_rw_side` (401-423). -/
def clauseIsRewritable (x : RWCtx) (d : Demod) (date : Nat) : RWSt → List RLit → Bool × RWSt
  | st, [] => (false, st)
  | st, L :: C =>
    let (resl, st1) := termIsRewritable x d date st L.lit.l (L.maximal && L.lit.pos && L.oriented)
    let (resr, st2) := termIsRewritable x d date st1 L.lit.r false
    let (res, st3) := clauseIsRewritable x d date st2 C
    (resl || resr || res, st3)

/-- `find_rewritable_clauses` (CLAUSES/ccl_rewrite.c:472-493): the clauses put on the result stack, in order. -/
def findRewritableClauses (x : RWCtx) (d : Demod) (date : Nat) : RWSt → List (List RLit) → List (List RLit) × RWSt
  | st, [] => ([], st)
  | st, C :: S =>
    let (res, st1) := clauseIsRewritable x d date st C
    let (out, st2) := findRewritableClauses x d date st1 S
    (if res then C :: out else out, st2)

/-! ## Rewriting inside a clause -/

/-- `replace_term` (CLAUSES/ccl_rewrite.c:509-539); `rw` is the map `PObjMapFind`.  `none`: out of fuel. -/
def replaceTerm (rw : Term → Option Term) : Nat → Term → Option Term
  | 0, _ => none
  | n + 1, t =>
    match rw t with
    | some s => if s ≠ t then replaceTerm rw n s else localArgs rw n t
    | none => localArgs rw n t
where
  /-- The arguments (CLAUSES/ccl_rewrite.c:519-536). -/
  localArgs (rw : Term → Option Term) (n : Nat) : Term → Option Term
    | .var y => some (.var y)
    | .app f ts => (mapOpt (fun u => replaceTerm rw n u) ts).map (.app f)

end Verif
