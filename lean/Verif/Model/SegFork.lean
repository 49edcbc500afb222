import Verif.Model.FileLock
import Verif.Model.MutexCond
/-
The shared memory file used by processes that fork.
Source: as `Model/FileLock` and `Model/MutexCond`; identities /repo/lib/flckutil.cc 564-634 (`get_threadid` keeps the thread number
of the first call, fork copies it), /repo/lib/flckutil.h 170-173 (`get_flckpid`), whether a thread is there
/repo/lib/flckutil.cc 244-268 (`FindThreadProcess`).

In `Model/FileLock` and `Model/MutexCond` the question whether a thread is there is answered rightly. Here the answer is what
`FindThreadProcess` gives for the pair of numbers the thread has put into the segment.

A thread is named by its kernel thread number. It stands in the segment under the pair of its process number and the thread number
it has kept; as numbers are not used again here, no two threads stand under one pair, and the models' number of a thread is its
pair as well.

Simplified: the number can always be kept (`key`), or never. File ranges: either all locks are taken with descriptors or none
(`nofd`); a lock with a descriptor is never taken for dead as long as its thread lives (its descriptor is not closed) and may be
as soon as the thread has ended; the check in a lock call may look at the caller's own record (/repo/lib/flcklistlocker.cc 52
leaves it out), which matters only for callers that are taken for dead.
-/
namespace Fullock.SegFork

/-- Threads: which are there, which have been there, their process, the thread number that they have kept.
/repo/lib/flckutil.cc 564-634. -/
structure World where
  runs : Nat → Bool
  born : Nat → Bool
  pid : Nat → Nat
  cache : Nat → Option Nat

/-- The thread number under which thread `t` stands in the segment, /repo/lib/flckutil.cc 616-634. -/
def World.num (w : World) (t : Nat) : Nat := (w.cache t).getD t

/-- `FindThreadProcess` for the numbers of thread `t`: there is a thread `num t` in process `pid t`.
/repo/lib/flckutil.cc 244-268. Threads that are still to come do not stand in the segment; the answer for them is not used. -/
def World.seen (w : World) (t : Nat) : Bool := !w.born t || (w.runs (w.num t) && decide (w.pid (w.num t) = w.pid t))

/-- Whether thread `t` is not at its end: what the answer should be. No counterpart in the code. -/
def World.real (w : World) (t : Nat) : Bool := !w.born t || w.runs t

/-- The check of the holder of a range, /repo/lib/flcklistlocker.cc 46-75: without a descriptor it asks for process and thread
(/repo/lib/flckutil.cc 304-318), with a descriptor for the descriptor in the process (319-335). -/
def World.holder (nofd : Bool) (w : World) (t : Nat) : Bool := if nofd then w.seen t else w.real t

/-- What happens to threads besides steps: the user's `fork` and ends, and /repo/lib/flckutil.cc 564-634. -/
inductive WEv where
  /-- fork by thread `t`: the only thread of the child is `n` -/
  | fork (t n : Nat)
  /-- `pthread_create` by thread `t` -/
  | create (t n : Nat)
deriving DecidableEq, Repr

/-- The thread that does it. No counterpart in the code. -/
def WEv.who : WEv → Nat
  | .fork t _ => t
  | .create t _ => t

/-- fork and `pthread_create`: the child has the number its parent has kept (thread specific data are copied by fork), a new
thread has none. /repo/lib/flckutil.cc 564-634. -/
def World.make (w : World) : WEv → Option World
  | .fork t n =>
    if n = 0 ∨ w.born n = true ∨ w.runs t = false then none
    else some { runs := MC.upd w.runs n true, born := MC.upd w.born n true, pid := MC.upd w.pid n n,
                cache := MC.upd w.cache n (w.cache t) }
  | .create t n =>
    if n = 0 ∨ w.born n = true ∨ w.runs t = false then none
    else some { runs := MC.upd w.runs n true, born := MC.upd w.born n true, pid := MC.upd w.pid n (w.pid t),
                cache := MC.upd w.cache n none }

/-- A call of the library asks for the thread number and keeps it, /repo/lib/flckutil.cc 616-634. -/
def World.call (key : Bool) (w : World) (t : Nat) : World :=
  { w with cache := if key then MC.upd w.cache t (some (w.num t)) else w.cache }

/-- The thread ends or is killed. No counterpart in the code. -/
def World.die (w : World) (t : Nat) : World := { w with runs := MC.upd w.runs t false }

/-- One process `p` with one thread that has not called the library. No counterpart in the code. -/
def World.init (p : Nat) : World where
  runs := fun t => decide (t = p)
  born := fun t => decide (t = p)
  pid := fun t => t
  cache := fun _ => none

/-! ### Mutexes and conditions -/

/-- The checks of all dead owners are called by workers, which are new threads, /repo/lib/flckthread.cc 249. -/
def mayM (w : World) (t : Nat) (c : MC.Call) : Bool := !decide (c = .sweepM ∨ c = .sweepC) || decide (w.num t = t)

/-- As `MC.State`, the lives are in `w`. /repo/lib/flckstructure.h 88-149. -/
structure MState where
  mem : MC.Mem
  pc : Nat → MC.Pc
  last : Nat → MC.Call
  w : World

/-- Events of `MC.Ev` (/repo/lib/flckshm.cc 967-1050), and those of threads. -/
inductive MEv where
  | ev (e : MC.Ev)
  | w (e : WEv)
deriving DecidableEq, Repr

/-- As `MC.step`, threads found by `World.seen`: /repo/lib/flckshm.cc 567-623, 661-729, 873-966. Forking threads are outside the
library. -/
def MState.step (key : Bool) (x : MState) : MEv → Option MState
  | .ev (.call t c) =>
    if t = 0 ∨ x.w.runs t = false ∨ mayM x.w t c = false then none
    else match x.pc t with
      | .done _ => some { x with pc := MC.upd x.pc t c.start, last := MC.upd x.last t c, w := x.w.call key t }
      | _ => none
  | .ev (.go t c) =>
    if x.w.runs t = false then none
    else (MC.plan x.mem x.w.seen t (x.pc t) c).map fun r => { x with mem := r.1, pc := MC.upd x.pc t r.2 }
  | .ev (.die t) => if x.w.runs t = false then none else some { x with w := x.w.die t }
  | .w e =>
    match x.pc e.who with
    | .done _ => (x.w.make e).map fun w => { x with w := w }
    | _ => none

/-- As `MC.init`, /repo/lib/flckshminit.cc 231-302. -/
def MState.init (p nm nc nw : Nat) (junk : MC.Mem) : MState where
  mem := (MC.init nm nc nw junk).mem
  pc := (MC.init nm nc nw junk).pc
  last := (MC.init nm nc nw junk).last
  w := World.init p

/-- Events one after the other. No counterpart in the code. -/
def MState.run (key : Bool) (x : MState) : List MEv → Option MState
  | [] => some x
  | e :: es => (x.step key e).bind (MState.run key · es)

/-! ### File ranges -/

/-- Locks with or without descriptors (`IS_FLCK_RWLOCK_NO_FD`, /repo/lib/fullock.h 36: the sign bit); the checks of all holders
are called by workers, /repo/lib/flckthread.cc 249. -/
def mayF (nofd : Bool) (w : World) (t : Nat) : FL.Call → Bool
  | .lock op => decide (op.fd < 0) == nofd
  | .unlock op => decide (op.fd < 0) == nofd
  | .islocked op => decide (op.fd < 0) == nofd
  | .sweep => decide (w.num t = t)

/-- As `FL.State`, the lives are in `w`. /repo/lib/flckstructure.h 45-149. -/
structure FState where
  mem : FL.Mem
  lockid : Nat
  pc : Nat → FL.Pc
  w : World

/-- Events of `FL.Ev` (/repo/lib/flckshm.cc 661-966), and those of threads. -/
inductive FEv where
  | ev (e : FL.Ev)
  | w (e : WEv)
deriving DecidableEq, Repr

/-- As `FL.step`; the holder of the table is found by `World.seen`, holders of ranges by `World.holder`: /repo/lib/flckshm.cc 520-871. Forking threads are outside the
library. -/
def FState.step (key nofd : Bool) (x : FState) : FEv → Option FState
  | .ev (.call t c) =>
    if t = 0 ∨ x.w.runs t = false ∨ mayF nofd x.w t c = false then none
    else match x.pc t with
      | .done _ => some { x with pc := FL.fset x.pc t c.start, w := x.w.call key t }
      | _ => none
  | .ev (.go t c) =>
    if x.w.runs t = false then none
    else match x.pc t with
      | .acq p =>
        if x.lockid = 0 ∨ x.w.seen x.lockid = false then some { x with lockid := t, pc := FL.fset x.pc t p } else none
      | .rel p => some { x with lockid := if x.lockid = t then 0 else x.lockid, pc := FL.fset x.pc t p }
      | p => (FL.plan x.mem (x.w.holder nofd) t p c).map fun r => { x with mem := x.mem.acts r.1, pc := FL.fset x.pc t r.2 }
  | .ev (.die t c k) =>
    if x.w.runs t = false then none
    else
      let as := match FL.plan x.mem (x.w.holder nofd) t (x.pc t) c with
        | some r => r.1
        | none => []
      some { x with mem := x.mem.acts (as.take k), w := x.w.die t }
  | .w e =>
    match x.pc e.who with
    | .done _ => (x.w.make e).map fun w => { x with w := w }
    | _ => none

/-- As `FL.init`, /repo/lib/flckshminit.cc 231-302. -/
def FState.init (p nf no nl : Nat) (junk : FL.Mem) : FState where
  mem := (FL.init nf no nl junk).mem
  lockid := 0
  pc := (FL.init nf no nl junk).pc
  w := World.init p

/-- Events one after the other. No counterpart in the code. -/
def FState.run (key nofd : Bool) (x : FState) : List FEv → Option FState
  | [] => some x
  | e :: es => (x.step key nofd e).bind (FState.run key nofd · es)

end Fullock.SegFork
