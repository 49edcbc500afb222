/-
Model of the time arithmetic and of the timed retry loops.
Source: /repo/lib/flckutil.h 199-230, /repo/lib/flckbaselist.tcc 175-244, 328-368, 425-442,
        /repo/lib/flcklistofflock.cc 169-235, /repo/lib/flcklistnmtx.cc 66-74.
-/
namespace Fullock

/-- `struct timespec` (`time_t tv_sec; long tv_nsec`).
Simplification: unbounded integers; CLOCK_MONOTONIC readings and their differences are far from
the 64-bit limits.  /repo/lib/flckutil.h 199, /repo/lib/flcklistnmtx.cc 72. -/
structure Timespec where
  sec : Int
  nsec : Int
deriving DecidableEq, Repr

/-- `SUB_TIMESPEC`, /repo/lib/flckutil.h 199-213 (the double `- 1` of line 207 is in the code). -/
def subTimespec (start stop : Timespec) : Timespec :=
  if stop.nsec < start.nsec then
    if 1 > stop.sec then ⟨0, 0⟩
    else ⟨stop.sec - 1 - start.sec - 1, stop.nsec + 1000 * 1000 * 1000 - start.nsec⟩
  else ⟨stop.sec - start.sec, stop.nsec - start.nsec⟩

/-- `IS_OVER_TIMESPEC`, /repo/lib/flckutil.h 215-230. -/
def isOverTimespec (start stop limit : Timespec) : Bool :=
  let sub := subTimespec start stop
  if limit.sec > sub.sec then false
  else if limit.sec < sub.sec then true
  else if limit.nsec > sub.nsec then false
  else true

/-- Conversion of the `timeout_usec` argument, /repo/lib/flcklistofflock.cc 180, 189 and
/repo/lib/flcklistnmtx.cc 72, /repo/lib/flcklistwaiter.cc 90: C division and remainder truncate. -/
def usecToTimespec (usec : Int) : Timespec :=
  ⟨usec.tdiv (1000 * 1000), usec.tmod (1000 * 1000) * 1000⟩

/-- Which primitive a lock request uses.  /repo/lib/flcklistnmtx.cc 67-74,
/repo/lib/flcklistofflock.cc 169-235. -/
inductive WaitMode where
  | forever | try | timed (limit : Timespec)
deriving DecidableEq, Repr

/-- Dispatch on `timeout_usec`: `FLCK_NO_TIMEOUT` (-1), `FLCK_TRY_TIMEOUT` (0), otherwise timed.
/repo/lib/flcklocktype.h 24-25, /repo/lib/flcklistofflock.cc 175-191, /repo/lib/flcklistnmtx.cc 67-74. -/
def waitMode (usec : Int) : WaitMode :=
  if usec = -1 then .forever
  else if usec = 0 then .try
  else .timed (usecToTimespec usec)

/-- Results of a retry loop. /repo/lib/flckbaselist.tcc 331-367. -/
inductive LoopResult where
  | ok | ebusy | etimedout
deriving DecidableEq, Repr

/-- One round of a timed loop as seen from outside: did the attempt succeed, and what did
`clock_gettime` report afterwards (`none`: error).  /repo/lib/flckbaselist.tcc 335-366. -/
structure Round where
  success : Bool
  clock : Option Timespec
deriving DecidableEq, Repr

/-- The common shape of `fl_timedrdlock_rwlock` (/repo/lib/flckbaselist.tcc 182-202),
`fl_timedwrlock_rwlock` (233-242), `fl_timedlock_mutex` (335-366) and `fl_timedwait_cond` (431-440):
attempt; on success return 0; read the clock; on error EBUSY; if over ETIMEDOUT; repeat.
Result `none`: still waiting after the given rounds. The `Nat` is the number of rounds used. -/
def timedLoop (start limit : Timespec) : List Round → Option (LoopResult × Nat)
  | [] => none
  | r :: rs =>
    if r.success then some (.ok, 1)
    else match r.clock with
      | none => some (.ebusy, 1)
      | some now =>
        if isOverTimespec start now limit then some (.etimedout, 1)
        else (timedLoop start limit rs).map fun (x, n) => (x, n + 1)

/-- A complete timed call: the initial `clock_gettime` (/repo/lib/flckbaselist.tcc 177-180 etc.). -/
def timedCall (start : Option Timespec) (limit : Timespec) (rs : List Round) :
    Option (LoopResult × Nat) :=
  match start with
  | none => some (.ebusy, 0)
  | some s => timedLoop s limit rs

end Fullock
