import Verif.Model.LockId
import Verif.Model.FileLock
import Verif.Model.MutexCond
/-!
Reuse of thread identities.  The library tells threads apart by the number made of `getpid()` and the kernel
thread id (/repo/lib/flckutil.h 170-178, /repo/lib/flckutil.cc 533), stored in the records and lock words of
the segment (/repo/lib/flckstructure.h 51-149), and takes a thread for dead exactly when no thread of that
number exists (/repo/lib/flckutil.cc 244-266).  The kernel gives the number of a dead thread to a new one sooner
or later.
`born t`: a new thread comes to life under the number `t` of a dead one.  It starts outside the library; of
the tables nothing changes.
-/
namespace Fullock.LockId

/-- A new thread under the number of a dead one, for the table lock alone.  `gettid`,
/repo/lib/flckutil.cc 531-533; the packed identity /repo/lib/flckutil.h 170-194. -/
def born (s : State) (t : Nat) : Option State :=
  if t ≠ 0 ∧ s.alive t = false then
    some { lockid := s.lockid, alive := fun u => if u = t then true else s.alive u,
           pc := fun u => if u = t then .out else s.pc u }
  else none

/-- An event, or a thread is born with a number of the past: /repo/lib/flckutil.h 170-194. -/
inductive REv where
  | ev (e : Ev)
  | born (t : Nat)
deriving DecidableEq, Repr

/-- One event of the machine with reuse. No counterpart in the code: the births are the operating system's. -/
def rstep (s : State) : REv → Option State
  | .ev e => step s e
  | .born t => born s t

/-- No counterpart in the code: events one after the other. -/
def rrun (s : State) : List REv → Option State
  | [] => some s
  | e :: es => (rstep s e).bind (rrun · es)

end Fullock.LockId

namespace Fullock.FL

/-- A new thread under the number of a dead one, for the tables of the file locks.  `gettid`,
/repo/lib/flckutil.cc 531-533; the packed identity /repo/lib/flckutil.h 170-194. -/
def born (s : State) (t : Nat) : Option State :=
  if t ≠ 0 ∧ s.alive t = false then
    some { s with alive := fset s.alive t true, pc := fset s.pc t (.done 0) }
  else none

/-- /repo/lib/flckbaselist.tcc 64-66: the table lock already has the caller's number: go on.  (Without reuse
this does not happen, theorem C36_table_lock_returned.) -/
def reenter (s : State) (t : Nat) : Option State :=
  match s.pc t with
  | .acq p => if s.alive t = true ∧ s.lockid = t then some (s.setPc t p) else none
  | _ => none

/-- An event, or a thread is born with a number of the past: /repo/lib/flckutil.h 170-194. -/
inductive REv where
  | ev (e : Ev)
  | born (t : Nat)
  | reenter (t : Nat)
deriving DecidableEq, Repr

/-- One event of the machine with reuse. No counterpart in the code: the births are the operating system's. -/
def rstep (s : State) : REv → Option State
  | .ev e => step s e
  | .born t => born s t
  | .reenter t => reenter s t

/-- No counterpart in the code: events one after the other. -/
def rrun (s : State) : List REv → Option State
  | [] => some s
  | e :: es => (rstep s e).bind (rrun · es)

end Fullock.FL

namespace Fullock.MC

/-- A new thread under the number of a dead one, for the tables of mutexes and conditions; it has made no
calls (`dep` is ghost).  `gettid`, /repo/lib/flckutil.cc 531-533; the packed identity
/repo/lib/flckutil.h 170-194. -/
def born (s : State) (t : Nat) : Option State :=
  if t ≠ 0 ∧ s.alive t = false then
    some { s with
      mem := { s.mem with dep := fun m => upd (s.mem.dep m) t 0 }
      alive := upd s.alive t true, pc := upd s.pc t (.done 0) }
  else none

/-- An event, or a thread is born with a number of the past: /repo/lib/flckutil.h 170-194. -/
inductive REv where
  | ev (e : Ev)
  | born (t : Nat)
  /-- the table lock of the mutexes (conditions) already has the caller's number -/
  | reenterM (t : Nat)
  | reenterC (t : Nat)
deriving DecidableEq, Repr

/-- /repo/lib/flckbaselist.tcc 64-66 for `named_mutex_lockid`. -/
def reenterM (s : State) (t : Nat) : Option State :=
  match s.pc t with
  | .acqM p => if s.alive t = true ∧ s.mem.mL = t then some { s with pc := upd s.pc t p } else none
  | _ => none

/-- /repo/lib/flckbaselist.tcc 64-66 for `named_cond_lockid`. -/
def reenterC (s : State) (t : Nat) : Option State :=
  match s.pc t with
  | .acqC p => if s.alive t = true ∧ s.mem.cL = t then some { s with pc := upd s.pc t p } else none
  | _ => none

/-- One event of the machine with reuse. No counterpart in the code: the births are the operating system's. -/
def rstep (s : State) : REv → Option State
  | .ev e => step s e
  | .born t => born s t
  | .reenterM t => reenterM s t
  | .reenterC t => reenterC s t

/-- No counterpart in the code: events one after the other. -/
def rrun (s : State) : List REv → Option State
  | [] => some s
  | e :: es => (rstep s e).bind (rrun · es)

end Fullock.MC
