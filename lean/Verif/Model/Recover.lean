import Verif.Model.MCMem
/-
How the locks of a process that has ended are given back without anybody asking: the kernel closes the
descriptors of the process, the close of the segment file is an event for every process that watches the file,
the worker thread there reads the event and checks for dead threads.  Mutexes and conditions are those of
`Verif.Model.MCMem`; what its `alive` stands for is that the thread is seen in /proc, which it is for some
time after its last step.

Source: /repo/lib/flckthread.cc 154-314 (`WorkerProc`, `CheckEvent`), /repo/lib/flckshm.cc 497-516
(`CheckProcessDead`), 567-623, /repo/lib/flckutil.cc 244-269 (`FindThreadProcess`), /repo/lib/flckshminit.cc
48-219 (`Attach`).  Kernel (assumed): a process that ends makes no more steps, then its descriptors are
closed, then its last thread leaves /proc (for the first thread of the process not before its parent has waited
for it); inotify reports the close of a file to all watches.  Not modelled: the control flag (Verif.Model.Thread;
it is RUN here), the end of the library in a process that goes on, lost notifications (Verif.Model.IO), numbers
of threads used again.
-/
namespace Fullock.Recover
open Fullock.Layout
open Fullock.MC (upd Choice)

/-- Which thread is of which process, the first thread and the worker of a process; size of the segment, bound of
the loops and addresses as in `Verif.Model.MCMem`.  /repo/lib/flckshminit.cc 203-217 (one worker for a
process), /repo/lib/flckshm.h 85-97. -/
structure Cfg where
  cnt : Pool → Nat
  fuel : Nat
  base : Nat → Nat
  proc : Nat → Nat
  lead : Nat → Nat
  wk : Nat → Nat

/-- The place of the worker of a process, /repo/lib/flckthread.cc 154-266. -/
inductive Place where
  /-- no watch: /repo/lib/flckshminit.cc 202 (not robust), /repo/lib/flckthread.cc 154-200 (not yet) -/
  | off
  /-- /repo/lib/flckthread.cc 232: waits for an event; 262-264: nothing is done when the time is over -/
  | wait
  /-- /repo/lib/flckthread.cc 246: a close event has been read -/
  | got
  /-- /repo/lib/flckshm.cc 506: in `CheckFileLockDeadLock` -/
  | inF
  /-- /repo/lib/flckshm.cc 509: in `CheckMutexDeadLock` -/
  | inM
  /-- /repo/lib/flckshm.cc 512: in `CheckCondDeadLock` -/
  | inC
deriving DecidableEq, Repr

/-- The processes: `down`: ended (makes no steps); `stop`: the thread has ended, its process may go on;
`opened`: has the segment file open; `queue`: the watch has an event not read.
/repo/lib/flckthread.cc 190-217. -/
structure World where
  down : Nat → Bool
  stop : Nat → Bool
  opened : Nat → Bool
  queue : Nat → Bool
  work : Nat → Place

/-- `start p`: the library is started in `p`; `watch p`: its worker has set up the watch; `leave t`: the thread ends by itself;
`kill p`: the process ends; `close p`: the kernel closes the descriptors of the ended `p`; `touch`: anybody else
closes the segment file; `read q`: the worker of `q` reads its events.  /repo/lib/flckshminit.cc 48-219, /repo/lib/flckthread.cc 201, 246. -/
inductive WEv where
  | start (p : Nat)
  | watch (p : Nat)
  | leave (t : Nat)
  | kill (p : Nat)
  | close (p : Nat)
  | touch
  | read (q : Nat)
deriving DecidableEq, Repr

/-- The thread still makes steps.  /repo/lib/flckthread.cc 154 (a thread of the process). -/
def World.runs (k : Cfg) (w : World) (t : Nat) : Bool := !w.stop t && !w.down (k.proc t)

/-- The process has a worker that watches the file.  /repo/lib/flckthread.cc 201. -/
def World.watches (w : World) (q : Nat) : Bool := decide (w.work q ≠ .off) && !w.down q

/-- The close of the segment file, for all watches.  /repo/lib/flckthread.cc 201 (`IN_CLOSE`). -/
def World.notify (w : World) : World := { w with queue := fun q => w.queue q || w.watches q }

/-- Start: /repo/lib/flckshminit.cc 48-219; watch: /repo/lib/flckthread.cc 201-217; reading: 232-246, 275-314 (all events
are read at once). -/
def World.step (k : Cfg) (w : World) : WEv → Option World
  | .start p => if w.down p || w.opened p then none else some { w with opened := upd w.opened p true }
  | .watch p =>
    if w.runs k (k.wk p) && w.opened p && decide (w.work p = .off) then some { w with work := upd w.work p .wait } else none
  | .leave t => if w.stop t then none else some { w with stop := upd w.stop t true }
  | .kill p => if w.down p then none else some { w with down := upd w.down p true }
  | .close p => if w.down p && w.opened p then some { w.notify with opened := upd w.opened p false } else none
  | .touch => some w.notify
  | .read q =>
    if w.runs k (k.wk q) && decide (w.work q = .wait) && w.queue q then
      some { w with queue := upd w.queue q false, work := upd w.work q .got }
    else none

/-- `snap q` are the threads seen when the check of `q` began: an answer may come from the cache of the check.
/repo/lib/flckshm.cc 503, /repo/lib/flckutil.cc 244-269. -/
structure State where
  w : World
  seg : MCMem.State
  snap : Nat → Nat → Bool

/-- `call`, `go`: a thread calls the API, or makes one step; `vanish t c j`: the ended thread leaves /proc, having made
`j` writes of the step it was in (nobody could see them before: it holds the lock of the list);
`begin q`, `mtxs q`, `conds q`, `back q`: the worker begins its check, goes over to the mutexes, to the
conditions, and back to waiting.  /repo/lib/flckthread.cc 222-266, /repo/lib/flckshm.cc 497-516. -/
inductive Ev where
  | world (e : WEv)
  | call (t : Nat) (c : MC.Call)
  | go (t : Nat) (c : Choice)
  | vanish (t : Nat) (c : Choice) (j : Nat)
  | begin (q : Nat)
  | mtxs (q : Nat)
  | conds (q : Nat)
  | back (q : Nat)
deriving DecidableEq, Repr

/-- The thread whose life `t` asks for in its next step.  /repo/lib/flcklistnmtx.cc 112, /repo/lib/flcklistwaiter.cc 123. -/
def asked (k : Cfg) (x : MCMem.State) (t : Nat) : Option Nat :=
  match x.pc t with
  | .swChk _ v _ => some v
  | .swW _ _ cur => if cur = 0 then none else some (x.mem.wtid (FLMem.idx k.cnt (k.base t) .waiter cur))
  | _ => none

/-- The thread is in no call.  /repo/lib/fullock.cc 136-236 (the calls return). -/
def idle (x : MCMem.State) (t : Nat) : Bool :=
  match x.pc t with
  | .done _ => true
  | _ => false

/-- The answer "runs" about a thread that was not seen at the beginning of the worker's check is not possible.
/repo/lib/flckutil.cc 247-252, /repo/lib/flckpidcache.h 137-161. -/
def wrong (k : Cfg) (s : State) (t : Nat) (c : Choice) : Bool :=
  decide (k.wk (k.proc t) = t) && decide (c = .spur) &&
    (match asked k s.seg t with
     | some v => !s.snap (k.proc t) v
     | none => false)

/-- The worker `q` goes from place `a` to place `b`, `x` being the segment afterwards.  /repo/lib/flckshm.cc 497-516. -/
def State.move (s : State) (q : Nat) (b : Place) (x : MCMem.State) : State :=
  { s with w := { s.w with work := upd s.w.work q b }, seg := x }

/-- Calls: /repo/lib/fullock.cc 136-236; the worker: /repo/lib/flckthread.cc 219-266, /repo/lib/flckshm.cc 497-516.
The first thread of a process is seen until the process has ended and its descriptors are closed. -/
def step (k : Cfg) (s : State) : Ev → Option State
  | .world e => (s.w.step k e).map fun w => { s with w := w }
  | .call t c =>
    if s.w.runs k t && s.w.opened (k.proc t) && decide (k.wk (k.proc t) ≠ t) then
      (MCMem.step k.cnt k.fuel k.base s.seg (.call t c)).map fun x => { s with seg := x }
    else none
  | .go t c =>
    if s.w.runs k t && !wrong k s t c then
      (MCMem.step k.cnt k.fuel k.base s.seg (.go t c)).map fun x => { s with seg := x }
    else none
  | .vanish t c j =>
    if s.w.runs k t || (decide (k.lead (k.proc t) = t) && (s.w.opened (k.proc t) || !s.w.down (k.proc t))) then none
    else (MCMem.step k.cnt k.fuel k.base s.seg (.die t c j)).map fun x => { s with seg := x }
  | .begin q =>
    if s.w.runs k (k.wk q) && decide (s.w.work q = .got) then
      some { s.move q .inF s.seg with snap := upd s.snap q s.seg.alive }
    else none
  | .mtxs q =>
    if s.w.runs k (k.wk q) && decide (s.w.work q = .inF) then
      (MCMem.step k.cnt k.fuel k.base s.seg (.call (k.wk q) .sweepM)).map (s.move q .inM)
    else none
  | .conds q =>
    if s.w.runs k (k.wk q) && decide (s.w.work q = .inM) && idle s.seg (k.wk q) then
      (MCMem.step k.cnt k.fuel k.base s.seg (.call (k.wk q) .sweepC)).map (s.move q .inC)
    else none
  | .back q =>
    if s.w.runs k (k.wk q) && decide (s.w.work q = .inC) && idle s.seg (k.wk q) then
      some (s.move q .wait s.seg)
    else none

/-- No counterpart in the code: events one after the other. -/
def run (k : Cfg) (s : State) : List Ev → Option State
  | [] => some s
  | e :: es => (step k s e).bind (run k · es)

/-- Fresh segment, nobody has it open.  /repo/lib/flckshminit.cc 231-302. -/
def init (m : ListMem.Mem) (junk : MCMem.Mem) : State where
  w := { down := fun _ => false, stop := fun _ => false, opened := fun _ => false, queue := fun _ => false,
         work := fun _ => .off }
  seg := MCMem.init m junk
  snap := fun _ _ => true

end Fullock.Recover
