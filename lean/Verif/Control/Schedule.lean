import Mathlib.Data.Rat.Floor
import Mathlib.Algebra.Order.Floor.Ring
import Mathlib.Algebra.Order.Floor.Semiring
import Mathlib.Data.Rat.Cast.Order

/-!
# Strategy schedules

Model of CONTROL/cco_scheduling.c and of the process set of CONTROL/cco_gproc_ctrl.c.  Fractions and times are rational numbers, i.e.
`float` and `double` arithmetic is exact.  Names are numbers.
-/

namespace Verif

/-- `ScheduleCell` (CONTROL/cco_scheduling.h:38-46), without the ordering and the SinE filter.  A schedule is the list of the cells before the
one with the name `NULL`. -/
structure Strat where
  name : Nat
  frac : ℚ
  cores : Int
  time : Nat
deriving DecidableEq

namespace Sched

/-- `ScheduleTimesInit` (CONTROL/cco_scheduling.c:82-118), loop 103-108 and the last entry: `limited` is whether `ScheduleTimeLimit` is set.
The result `none` for a time is `RLIM_INFINITY`.  The subtraction is unsigned: `none` as result if it wraps around. -/
def initGo (limited : Bool) (limit : Nat) : Nat → List Strat → Option (List (Option Nat))
  | _, [] => none
  | sum, [_] => if limited then (if sum ≤ limit then some [some (limit - sum)] else none) else some [none]
  | sum, s :: t :: r => (initGo limited limit (sum + ⌊s.frac * (limit / (11 / 10))⌋₊) (t :: r)).map (some ⌊s.frac * (limit / (11 / 10))⌋₊ :: ·)

/-- `ScheduleTimesInit` (CONTROL/cco_scheduling.c:82-118); `tl` is `ScheduleTimeLimit`.  The schedule is not empty (otherwise memory behind it is
read: result `none`). -/
def timesInit (tl : Nat) (used : ℚ) (l : List Strat) : Option (List (Option Nat)) :=
  let top : Nat := if tl ≠ 0 then tl else 300
  let limit : Nat := if used < top then ⌊top - used⌋₊ else 0
  initGo (tl ≠ 0) limit 0 l

/-- Shortening and rescaling (CONTROL/cco_scheduling.c:155-172). -/
def shorten (cores : Nat) (l : List Strat) : List Strat :=
  if cores < l.length then
    let k := l.take cores
    let factor := 1 / (k.map (·.frac)).sum
    k.map fun s => { s with frac := s.frac * factor }
  else l

/-- The loop that corrects the number of cores (CONTROL/cco_scheduling.c:199-207), on the reversed list. -/
def fixCores : Int → List Strat → Int × List Strat
  | error, [] => (error, [])
  | error, s :: r =>
    if error = 0 then (0, s :: r)
    else
      let take := min (s.cores - 1) error
      let q := fixCores (error - take) r
      (q.1, { s with cores := s.cores - take } :: q.2)

/-- The number of cores of each strategy (CONTROL/cco_scheduling.c:188-209); `none` if an assertion fails. -/
def allocCores (cores : Nat) (l : List Strat) : Option (List Strat) :=
  let k := l.map fun s => { s with cores := max ⌈s.frac * cores⌉ 1 }
  let error : Int := (k.map (·.cores)).sum - cores
  if error ≤ k.length then
    let q := fixCores error k.reverse
    if q.1 = 0 then some q.2.reverse else none
  else none

/-- The loop that sets the times (CONTROL/cco_scheduling.c:212-225). -/
def setTimes (preproc serialize : Bool) (limit : Nat) : Nat → List Strat → List Strat
  | _, [] => []
  | sum, s :: r =>
    if !preproc && limit ≤ sum then []
    else
      let tmp := ⌈(if preproc && !serialize then 1 else s.frac) * s.cores * limit⌉₊
      let t := if preproc then tmp else min tmp (limit - sum)
      { s with time := t } :: setTimes preproc serialize limit (sum + t) r

/-- `ScheduleTimesInitMultiCore` (CONTROL/cco_scheduling.c:138-229): the new schedule and number of cores.  `none` if an assertion fails or
a negative number is converted to `rlim_t`. -/
def timesMulti (l : List Strat) (used limit : ℚ) (preproc : Bool) (cores : Nat) (serialize : Bool) : Option (List Strat × Nat) :=
  let l1 := if preproc then shorten cores l else l
  if ⌈limit - used⌉ < 0 then none
  else
    let total := ⌈limit - used⌉.toNat
    if preproc then
      if serialize then some (setTimes true true total 0 (l1.map fun s => { s with cores := 1 }), 1)
      else (allocCores cores l1).map fun k => (setTimes true false total 0 k, cores)
    else some (setTimes false serialize total 0 l1, cores)

/-- `SWAP(a[i], a[j])`. -/
def swap (l : List Strat) (i j : Nat) : List Strat :=
  match l[i]?, l[j]? with
  | some x, some y => (l.set i y).set j x
  | _, _ => l

/-- The loop of `GetFilteredDefaultSchedule` (CONTROL/cco_scheduling.c:394-401) from `i` on, `n` rounds; `k` is `last_filtered + 1`. -/
def filterGo (exh : Nat → Bool) : Nat → Nat → Nat → List Strat → Nat × List Strat
  | 0, _, k, l => (k, l)
  | n + 1, i, k, l =>
    match l[i]? with
    | none => (k, l)
    | some s => if exh s.name then filterGo exh n (i + 1) k l else filterGo exh n (i + 1) (k + 1) (swap l k i)

/-- `GetFilteredDefaultSchedule` (CONTROL/cco_scheduling.c:390-411); `exh` are the names in the exhausted schedule.  The fraction of the last
strategy is not set (`i<last_filtered`). -/
def filteredDefault (exh : Nat → Bool) (dflt : List Strat) : List Strat :=
  let q := filterGo exh dflt.length 0 0 dflt
  (q.2.take q.1).mapIdx fun i s => if i + 1 < q.1 then { s with frac := 1 / (q.1 : ℚ) } else s

/-- `InitializePlaceholderSearchSchedule` (CONTROL/cco_scheduling.c:341-374): `l` are the entries before the placeholder, `ph` is the
placeholder, `pre` the name of the preprocessing strategy.  If there is nothing before the placeholder, the swap moves the end of the schedule
to the front. -/
def initPlaceholder (l : List Strat) (ph : Strat) (pre : Nat) (force : Bool) : List Strat :=
  if force && !(l.any fun s => s.name == pre) then
    let k := (l.map fun s => { s with frac := s.frac * (1 - 1 / 10) }) ++ [{ ph with name := pre, frac := 1 / 10 }]
    if l.length = 0 then [] else swap k l.length 1
  else l

/-! ## Execution -/

/-- What the parent process knows while a schedule is executed: the next strategy, the running ones (by index) and `cores_reserved`. -/
structure ExecSt where
  next : Nat
  running : List Nat
  reserved : Int

/-- The number of cores of the `i`-th strategy. -/
def coresAt (l : List Strat) (i : Nat) : Int := (l[i]?.map (·.cores)).getD 0

/-- The loop that starts processes (CONTROL/cco_scheduling.c:267-293) with `EGPCtrlSetAddProc` (CONTROL/cco_gproc_ctrl.c:335-342), at most `n` rounds
(there are not more strategies). -/
def startAll (l : List Strat) (max : Int) : Nat → ExecSt → ExecSt
  | 0, s => s
  | n + 1, s =>
    match l[s.next]? with
    | none => s
    | some x =>
      if x.cores ≤ max - s.reserved then startAll l max n ⟨s.next + 1, s.next :: s.running, s.reserved + x.cores⟩ else s

/-- `EGPCtrlSetGetResult` (CONTROL/cco_gproc_ctrl.c:447-505): the processes whose output ended, in the order in which they are looked at, and
whether each has a result.  Failed ones are removed (`EGPCtrlSetDeleteProc`, 383-398). -/
def poll (l : List Strat) : List (Nat × Bool) → ExecSt → Option Nat × ExecSt
  | [], s => (none, s)
  | (i, ok) :: r, s =>
    if i ∈ s.running then
      if ok then (some i, s) else poll l r ⟨s.next, s.running.erase i, s.reserved - coresAt l i⟩
    else poll l r s

/-- How `ExecuteScheduleMultiCore` ends in the parent. -/
inductive Outcome where
  | result (i : Nat)
  | exhausted

/-- The main loop (CONTROL/cco_scheduling.c:265-312), with the results that arrive in each round; no outcome if it is still running after them. -/
def exec (l : List Strat) (max : Int) : List (List (Nat × Bool)) → ExecSt → Option Outcome × ExecSt
  | [], s => (none, s)
  | ev :: evs, s =>
    let q := poll l ev (startAll l max l.length s)
    match q.1 with
    | some i => (some (.result i), q.2)
    | none => if q.2.running = [] ∧ l.length ≤ q.2.next then (some .exhausted, q.2) else exec l max evs q.2

end Sched
end Verif
