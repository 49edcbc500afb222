import Verif.Model.FileLock
/-
File ranges and the descriptors through which they have been locked.
Source: as `Model/FileLock`; whether a holder is there /repo/lib/flcklistlocker.cc 46-75 (`FlListLocker::check_dead_lock`),
/repo/lib/flckutil.cc 244-266 (`FindThreadProcess`), 288-343 (`GetFileDevNode` by process, thread, descriptor), the file of a
request /repo/lib/flckshm.cc 742, 850 (`GetFileDevNode` by descriptor).

In `Model/FileLock` the question whether a holder is there is answered by the life of its thread. Here the threads belong to
processes, a process has a table of descriptors, and the answer is what the check of the record gives: it looks at the descriptor
in the process and not at the thread, unless the lock has been taken without a descriptor or the descriptors of the process must
not be inspected.

A thread is named by the pair it has in the segment. Simplified: numbers of processes and threads are not used again; the numbers
kept by forked processes are right (`Model/SegFork` has the others); the answers do not come from the cache of a check
(`Props/Os` has it); a descriptor number that is neither negative nor open cannot be used in a call.
-/
namespace Fullock.FdLife

/-- Threads and descriptors: the threads that are there, those that have been, the process of each; which descriptors of a process
are open, on which file; `deny p q`: process `p` must not inspect the descriptors of `q`. /repo/lib/flckutil.cc 244-343. -/
structure World where
  thr : List Nat
  born : Nat → Bool
  pid : Nat → Nat
  tab : Nat → Int → Option DevIno
  deny : Nat → Nat → Bool

/-- `FindThreadProcess`, /repo/lib/flckutil.cc 244-266. -/
def World.runs (w : World) (t : Nat) : Bool := decide (t ∈ w.thr)

/-- Whether thread `t` is not at its end: threads that are still to come, and those that are there. No counterpart in the code. -/
def World.real (w : World) (t : Nat) : Bool := !w.born t || w.runs t

/-- `stat("/proc/<p>/fd/<fd>")`: a process that has ended has no descriptors. /repo/lib/flckutil.cc 319-322. -/
def World.fdOf (w : World) (p : Nat) (fd : Int) : Option DevIno :=
  if w.thr.any (fun t => decide (w.pid t = p)) then w.tab p fd else none

/-- The holder of record `l` is there, as far as thread `t` finds: without a descriptor or access, its thread is; otherwise the
descriptor is open on the file `key`. /repo/lib/flckutil.cc 301-335, /repo/lib/flcklistlocker.cc 57-73. -/
def World.there (w : World) (m : FL.Mem) (t : Nat) (key : DevIno) (l : Nat) : Bool :=
  if m.lfd l < 0 ∨ w.deny (w.pid t) (w.pid (m.ltid l)) = true then w.runs (m.ltid l)
  else decide (w.fdOf (w.pid (m.ltid l)) (m.lfd l) = some key)

/-- The file of a range record, as the check goes through the files: /repo/lib/flckshm.cc 536-546,
/repo/lib/flcklistfilelock.cc 160-180. -/
def keyOf (m : FL.Mem) (o : Nat) : Option DevIno := (m.files.find? fun f => decide (o ∈ m.offs f)).map m.key

/-- What the check of a record gives: a lock call leaves out its own record (/repo/lib/flcklistlocker.cc 52, called at
/repo/lib/flcklistofflock.cc 218 with the caller and its descriptor), the check of all records leaves out none
(/repo/lib/flckthread.cc 249). -/
def World.ask (w : World) (m : FL.Mem) (t : Nat) : FL.Pc → FL.Choice → Bool
  | .rChk op _ _ _, .lk _ _ l => (decide (m.ltid l = t) && decide (m.lfd l = op.fd)) || w.there m t op.key l
  | .sw, .lk o _ l =>
    match keyOf m o with
    | some k => w.there m t k l
    | none => true
  | _, _ => true

/-- Calls give a number without descriptor or an open descriptor, whose file is the file of the request:
/repo/lib/flckshm.cc 742-745, 850-853. -/
def World.may (w : World) (t : Nat) : FL.Call → Bool
  | .lock op | .unlock op | .islocked op => decide (op.fd < 0 ∨ w.fdOf (w.pid t) op.fd = some op.key)
  | .sweep => true

/-- What happens to threads and descriptors besides steps. No counterpart in the code. -/
inductive WEv where
  /-- fork by thread `t`: the only thread of the child is `n`; the child has the parent's descriptors -/
  | fork (t n : Nat)
  /-- `pthread_create` by thread `t` -/
  | create (t n : Nat)
  /-- open, close, dup2 by thread `t`: descriptor `fd` of its process is open on a file, or closed -/
  | set (t : Nat) (fd : Int) (v : Option DevIno)
deriving DecidableEq, Repr

/-- The thread that does it. No counterpart in the code. -/
def WEv.who : WEv → Nat
  | .fork t _ => t
  | .create t _ => t
  | .set t _ _ => t

/-- Its effect, outside the library. What /repo/lib/flckutil.cc 244-343 looks at. -/
def World.make (w : World) : WEv → Option World
  | .fork t n =>
    if n = 0 ∨ w.born n = true ∨ w.runs t = false then none
    else some { w with thr := n :: w.thr, born := FL.fset w.born n true, pid := FL.fset w.pid n n,
                       tab := FL.fset w.tab n (w.tab (w.pid t)) }
  | .create t n =>
    if n = 0 ∨ w.born n = true ∨ w.runs t = false then none
    else some { w with thr := n :: w.thr, born := FL.fset w.born n true, pid := FL.fset w.pid n (w.pid t) }
  | .set t fd v =>
    if fd < 0 ∨ w.runs t = false then none
    else some { w with tab := FL.fset w.tab (w.pid t) fun d => if d = fd then v else w.tab (w.pid t) d }

/-- The thread ends or is killed; a process whose threads have ended has ended. /repo/lib/flckutil.cc 244-266. -/
def World.die (w : World) (t : Nat) : World := { w with thr := w.thr.filter fun u => decide (u ≠ t) }

/-- One process `p` with one thread, no descriptors. No counterpart in the code. -/
def World.init (p : Nat) (deny : Nat → Nat → Bool) : World where
  thr := [p]
  born := fun t => decide (t = p)
  pid := fun t => t
  tab := fun _ _ => none
  deny := deny

/-- As `FL.State`, the lives are in `w`. /repo/lib/flckstructure.h 45-149. -/
structure State where
  mem : FL.Mem
  lockid : Nat
  pc : Nat → FL.Pc
  w : World

/-- Events of `FL.Ev` (/repo/lib/flckshm.cc 661-966), and those of threads and descriptors, which are the user's. -/
inductive Ev where
  | ev (e : FL.Ev)
  | w (e : WEv)
deriving DecidableEq, Repr

/-- As `FL.step`; the holder of the table is found by `World.runs`, holders of ranges by `World.ask`:
/repo/lib/flckshm.cc 520-871. Other threads open, close and fork at any time. -/
def State.step (x : State) : Ev → Option State
  | .ev (.call t c) =>
    if t = 0 ∨ x.w.runs t = false ∨ x.w.may t c = false then none
    else match x.pc t with
      | .done _ => some { x with pc := FL.fset x.pc t c.start }
      | _ => none
  | .ev (.go t c) =>
    if x.w.runs t = false then none
    else match x.pc t with
      | .acq p =>
        if x.lockid = 0 ∨ x.w.runs x.lockid = false then some { x with lockid := t, pc := FL.fset x.pc t p } else none
      | .rel p => some { x with lockid := if x.lockid = t then 0 else x.lockid, pc := FL.fset x.pc t p }
      | p => (FL.plan x.mem (fun _ => x.w.ask x.mem t p c) t p c).map fun r =>
          { x with mem := x.mem.acts r.1, pc := FL.fset x.pc t r.2 }
  | .ev (.die t c k) =>
    if x.w.runs t = false then none
    else
      let as := match FL.plan x.mem (fun _ => x.w.ask x.mem t (x.pc t) c) t (x.pc t) c with
        | some r => r.1
        | none => []
      some { x with mem := x.mem.acts (as.take k), w := x.w.die t }
  | .w e =>
    match x.pc e.who with
    | .done _ => (x.w.make e).map fun w => { x with w := w }
    | _ => none

/-- As `FL.init`, /repo/lib/flckshminit.cc 231-302. -/
def State.init (p nf no nl : Nat) (deny : Nat → Nat → Bool) (junk : FL.Mem) : State where
  mem := (FL.init nf no nl junk).mem
  lockid := 0
  pc := (FL.init nf no nl junk).pc
  w := World.init p deny

/-- Events one after the other. No counterpart in the code. -/
def State.run (x : State) : List Ev → Option State
  | [] => some x
  | e :: es => (x.step e).bind (State.run · es)

end Fullock.FdLife
