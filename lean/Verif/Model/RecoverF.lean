import Verif.Model.Recover
import Verif.Model.FileLock
/-
The same way from the end of a process to the check of another process's worker as in `Verif.Model.Recover`, for the locks on ranges of
files.  A range lock counts as long as the descriptor it was taken through is open in the process of the thread (Verif.Model.FdLife), so
what `alive` of `Verif.Model.FileLock` stands for here is that the kernel has not closed the descriptors of the thread's process.  The
worker's walk through the lists is the one of the code: it looks once at every record that is listed when it has got the table lock.

Source: /repo/lib/flckthread.cc 154-314, /repo/lib/flckshm.cc 497-562 (`CheckProcessDead`, `CheckFileLockDeadLock`),
/repo/lib/flcklistfilelock.cc 160-192, /repo/lib/flcklistofflock.cc 240-319, /repo/lib/flckutil.cc 244-328.  Kernel (assumed): the
descriptors of an ended process are closed after its last step; the event is sent when the segment file among them is closed, and the
question for a descriptor of the process is answered with "none" from the moment the kernel begins to close them.  Not modelled:
locks without a descriptor (they count while the thread is seen: Verif.Model.Recover), descriptors closed by a process that goes on
(Verif.Model.FdLife), threads that end in the middle of a call while their process goes on.  The table lock of an ended thread is taken
over from the same moment on as its range locks; the code asks /proc for the thread and may wait longer.
-/
namespace Fullock.RecoverF
open Fullock.Recover (WEv Place)
open Fullock.FL (Mode Choice)
open Fullock.MC (upd)

/-- `thr`: the threads of a process; the rest as in `Verif.Model.Recover`.  /repo/lib/flckshminit.cc 203-217, /repo/lib/flckstructure.h
54 (`flckpid` of a locker has process and thread). -/
structure Cfg where
  k : Recover.Cfg
  thr : Nat → List Nat

/-- `snap q`: whose range locks counted when the check of `q` began; `todo q`: the records the walk of `q` has still to look at.
/repo/lib/flckshm.cc 503, 536. -/
structure State where
  w : Recover.World
  fl : FL.State
  snap : Nat → Nat → Bool
  todo : Nat → List (Nat × Mode × Nat)

/-- `drop t c j`: the kernel begins to close the descriptors of the ended process of `t`, which has made `j` writes of the step it was
in (nobody could see them before: it holds the table lock, or the write is to its own record and the lock word);
`begin q`: the worker begins its check; `skip q`, `cut q`: it looks at the next record, and leaves it or takes it out; `mtxs q`: it goes over to the mutexes
and conditions; `back q`: it waits again.  /repo/lib/flckthread.cc 222-266, /repo/lib/flckshm.cc 497-562. -/
inductive Ev where
  | world (e : WEv)
  | call (t : Nat) (c : FL.Call)
  | go (t : Nat) (c : Choice)
  | drop (t : Nat) (c : Choice) (j : Nat)
  | begin (q : Nat)
  | skip (q : Nat)
  | cut (q : Nat)
  | mtxs (q : Nat)
  | back (q : Nat)
deriving DecidableEq, Repr

/-- The thread is in no call.  /repo/lib/fullock.cc 136-236. -/
def idle (x : FL.State) (t : Nat) : Bool :=
  match x.pc t with
  | .done _ => true
  | _ => false

/-- The records in the order of the walk: for every file record and every range record of it the readers, then the writers.
/repo/lib/flckshm.cc 536-541, /repo/lib/flcklistfilelock.cc 169-172, /repo/lib/flcklistofflock.cc 250, 285. -/
def walk (m : FL.Mem) : List (Nat × Mode × Nat) :=
  m.files.flatMap fun f => (m.offs f).flatMap fun o =>
    (m.lks o .rd).map (fun l => (o, Mode.rd, l)) ++ (m.lks o .wr).map (fun l => (o, Mode.wr, l))

/-- What may happen around the calls: a thread ends by itself outside of calls only, the segment file of an ended process is closed when
the question for its descriptors is answered with "none".  /repo/lib/flckutil.cc 271-328. -/
def allowed (c : Cfg) (s : State) : WEv → Bool
  | .leave t => idle s.fl t
  | .close p => (c.thr p).all fun t => !s.fl.alive t
  | _ => true

/-- The worker's steps inside its walk: it takes out a record by `cut` only, and ends the walk when it has looked at all.
/repo/lib/flckshm.cc 536-559. -/
def inWalk (c : Cfg) (s : State) (t : Nat) (ch : Choice) : Bool :=
  if c.k.wk (c.k.proc t) = t ∧ s.fl.pc t = .sw then
    match ch with
    | .go => (s.todo (c.k.proc t)).isEmpty
    | .off _ _ => true
    | .file _ => true
    | _ => false
  else true

/-- With the table lock the worker begins its walk.  /repo/lib/flckshm.cc 532-536. -/
def started (c : Cfg) (s : State) (t : Nat) (x : FL.State) : Nat → List (Nat × Mode × Nat) :=
  if c.k.wk (c.k.proc t) = t ∧ s.fl.pc t = .acq .sw then upd s.todo (c.k.proc t) (walk x.mem) else s.todo

/-- The worker goes to place `b`.  /repo/lib/flckshm.cc 497-516. -/
def State.move (s : State) (q : Nat) (b : Place) : State := { s with w := { s.w with work := upd s.w.work q b } }

/-- Calls: /repo/lib/fullock.cc 136-236; the worker: /repo/lib/flckthread.cc 219-266, /repo/lib/flckshm.cc 497-562;
one record: /repo/lib/flcklistofflock.cc 250-282, 285-317 (the answer "counts" may come from the cache of the check).  With no file
record in the list the worker does not ask for the table lock, /repo/lib/flckshm.cc 525-527. -/
def step (c : Cfg) (s : State) : Ev → Option State
  | .world e => if allowed c s e then (s.w.step c.k e).map fun w => { s with w := w } else none
  | .call t a =>
    if s.w.runs c.k t && s.w.opened (c.k.proc t) && decide (c.k.wk (c.k.proc t) ≠ t) then
      (FL.step s.fl (.call t a)).map fun x => { s with fl := x }
    else none
  | .go t ch =>
    if s.w.runs c.k t && inWalk c s t ch then
      (FL.step s.fl (.go t ch)).map fun x => { s with fl := x, todo := started c s t x }
    else none
  | .drop t ch j =>
    if s.w.down (c.k.proc t) && s.w.opened (c.k.proc t) then
      (FL.step s.fl (.die t ch j)).map fun x => { s with fl := x }
    else none
  | .begin q =>
    if s.w.runs c.k (c.k.wk q) && decide (s.w.work q = .got) then
      (if s.fl.mem.files.isEmpty then some s.fl else FL.step s.fl (.call (c.k.wk q) .sweep)).map fun x =>
        { s.move q .inF with fl := x, snap := upd s.snap q s.fl.alive }
    else none
  | .skip q =>
    if s.w.runs c.k (c.k.wk q) && decide (s.fl.pc (c.k.wk q) = .sw) then
      match s.todo q with
      | [] => none
      | (_, _, l) :: r => if s.snap q (s.fl.mem.ltid l) then some { s with todo := upd s.todo q r } else none
    else none
  | .cut q =>
    if s.w.runs c.k (c.k.wk q) && decide (s.fl.pc (c.k.wk q) = .sw) then
      match s.todo q with
      | [] => none
      | (o, md, l) :: r =>
        (FL.step s.fl (.go (c.k.wk q) (.lk o md l))).map fun x => { s with fl := x, todo := upd s.todo q r }
    else none
  | .mtxs q =>
    if s.w.runs c.k (c.k.wk q) && decide (s.w.work q = .inF) && idle s.fl (c.k.wk q) then some (s.move q .inM) else none
  | .back q => if s.w.runs c.k (c.k.wk q) && decide (s.w.work q = .inM) then some (s.move q .wait) else none

/-- No counterpart in the code: events one after the other. -/
def run (c : Cfg) (s : State) : List Ev → Option State
  | [] => some s
  | e :: es => (step c s e).bind (run c · es)

/-- Fresh tables, nobody has the segment open.  /repo/lib/flckshminit.cc 231-302. -/
def init (nf no nl : Nat) (junk : FL.Mem) : State where
  w := { down := fun _ => false, stop := fun _ => false, opened := fun _ => false, queue := fun _ => false, work := fun _ => .off }
  fl := FL.init nf no nl junk
  snap := fun _ _ => true
  todo := fun _ => []

end Fullock.RecoverF
