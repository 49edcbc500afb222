/-
Model of what the library takes from its process and gives back: file descriptors, mappings, heap
blocks, the file mode mask; for the start, the end, the worker thread and `fork`.
Source: /repo/lib/flckshminit.cc 48-229 (`Attach`, `Detach`, `InitializeShm`), 231-302
(`InitializeShmFile`), 376-395 (`Destroy`); /repo/lib/flckthread.cc 101-126 (`CleanupHandler`), 154-270
(`WorkerProc`), 275-314 (`CheckEvent`: its buffer), 319-488; /repo/lib/flckshm.cc 631-641
(`PreforkHandler`); /repo/lib/flckutil.h 63-76 (`FLCK_Free`, `FLCK_Delete`, `FLCK_CLOSE`).

One process is followed, at `fork` into the child.  Starts and ends of the library are called by one
thread at a time, and `fork` is not called during one; the worker threads run at any speed, other threads
open and close descriptors of their own.  Every system call may fail, except `munmap` and
`pthread_atfork` (ENOMEM).  `close` is a cancellation point which acts before it closes; `epoll_create1`,
`inotify_init1`, `inotify_add_watch` and `epoll_ctl` are none (POSIX, glibc).  Removing the watch (117) is
left out: it goes with its descriptor.  The rounds of the flag helpers and of the loop over several events
are in `Model/Thread`; here a helper is one step and one event is delivered at a time.
-/
import Verif.Model.Thread
namespace Fullock.Res
open Fullock.Thread (Flag)

/-- Who has opened a descriptor.  No counterpart in the code. -/
inductive Own where
  | free | user | lib
  deriving DecidableEq, Repr

/-- Where a worker is.  `start` = first part, with cancellation off; then the calls that prepare it; `loop`
before the test of the flag; `read b` = reading events into the buffer `b`; `tail` after the loop; `hdl c`
before the handler (`c`: run by a cancellation or by `pthread_exit`, so that no further cancellation
acts), `closeI`, `closeE`, `fin` in it, `last` after it.  Places in /repo/lib/flckthread.cc 154-270 and
101-126. -/
inductive WPc where
  | start | ready | epoll | inotify | watch | ctl | loop | sleep | wait
  | read (b : Nat)
  | tail
  | hdl (c : Bool)
  | closeI (c : Bool)
  | closeE (c : Bool)
  | fin | last | ended
  deriving DecidableEq, Repr

/-- A worker thread: its argument (`param`), the object its flag is in, its place, whether a cancellation
is requested.  /repo/lib/flckthread.cc 38-42, 154. -/
structure Wk where
  par : Nat
  obj : Nat
  pc : WPc
  canceled : Bool
  deriving DecidableEq, Repr

/-- Where the thread is that starts or ends the library: `create` before the thread object is made, `run k`
before the test in `Run`, `set k` before its change of the flag (`k`: `none` = in a start, `some n` = in
the handler of a fork, of which `n` more are to come), `exit a r` at the beginning of `Exit` (`a`: the
destructor will call it again; `r`: what the call returns in the end), `setExit`, `join` in it, `atfork n`
before `n` handlers.  Places in /repo/lib/flckshminit.cc 203-227, 376-395, /repo/lib/flckthread.cc
392-488, /repo/lib/flckshm.cc 631-641. -/
inductive MPc where
  | idle
  | create
  | run (k : Option Nat)
  | set (k : Option Nat)
  | exit (a r : Bool)
  | setExit (a r : Bool)
  | join (a r : Bool)
  | atfork (n : Nat)
  deriving DecidableEq, Repr

/-- The process.  `shm`, `ev`, `ino` are the descriptors in `ShmFd`, `EventFd`, `InotifyFd`; `base` is
`pShmBase` (`pFlHead` is set and cleared with it), `param` is `pThreadParam`, `obj` is `pCheckPidThread`.
Blocks, mappings, objects and threads are numbered by `next` and numbers are never used again; `live` and
`maps` say which exist.  `bad`: something was released twice or by the wrong hand, or used after its
release.  `ret` is what the last start or end returned.  /repo/lib/flckshm.h 76-104,
/repo/lib/flckthread.h 48-60. -/
structure State where
  own : Nat → Own
  umask : Nat
  maps : Nat → Bool
  live : Nat → Bool
  next : Nat
  shm : Option Nat
  ev : Option Nat
  ino : Option Nat
  base : Option Nat
  param : Option Nat
  obj : Option Nat
  handlers : Nat
  flag : Nat → Flag
  inited : Nat → Bool
  thr : Nat → Nat
  wk : Nat → Option Wk
  main : MPc
  ret : Option Bool
  bad : Bool

/-- No counterpart in the code: an assignment. -/
def upd {α : Type} (f : Nat → α) (p : Nat) (v : α) : Nat → α := fun q => if q = p then v else f q

/-- `close(f)` by the library, /repo/lib/flckutil.h 74. -/
def State.close (s : State) (f : Nat) : State :=
  if s.own f = .lib then { s with own := upd s.own f .free } else { s with bad := true }
/-- `free` or `delete`, /repo/lib/flckutil.h 64, 69. -/
def State.release (s : State) (b : Nat) : State :=
  if s.live b then { s with live := upd s.live b false } else { s with bad := true }
/-- An access to a block.  No counterpart in the code. -/
def State.use (s : State) (b : Nat) : State := if s.live b then s else { s with bad := true }
/-- `malloc`, `new`: the new block is number `next`.  No counterpart in the code. -/
def State.alloc (s : State) : State := { s with live := upd s.live s.next true, next := s.next + 1 }
/-- `RawMap` successful: the new mapping is number `next`.  /repo/lib/flckutil.cc 527-535. -/
def State.mmap (s : State) : State := { s with maps := upd s.maps s.next true, next := s.next + 1 }
/-- `RawUnmap`, /repo/lib/flckutil.cc 537-553. -/
def State.munmap (s : State) (a : Nat) : State :=
  if s.maps a then { s with maps := upd s.maps a false } else { s with bad := true }
/-- A new descriptor `f`.  No counterpart in the code. -/
def State.openFd (s : State) (f : Nat) : State := { s with own := upd s.own f .lib }

/-- What the system answers during the start: the file could be created (`made`), it exists already
(`exist`), it could be opened (`opened`), the write lock and the read lock were got within the tries,
`ftruncate` and zeroing worked (`fill`), the header could be mapped (`head`), the version is not newer
(`version`), the whole file could be mapped (`map`), the free lists are not empty (`lists`), the write
lock could be made a read lock (`down`).  /repo/lib/flckshminit.cc 60-82, 125-199, 239-298. -/
structure FOut where
  made : Bool
  exist : Bool
  opened : Bool
  wlock : Bool
  rlock : Bool
  fill : Bool
  head : Bool
  version : Bool
  map : Bool
  lists : Bool
  down : Bool

/-- `InitializeShmFile`, /repo/lib/flckshminit.cc 231-302. -/
def initFile (o : FOut) (s : State) : State × Bool :=
  if !o.fill then (s, false)
  else if !o.map then ({ s with base := none }, false)
  else
    let s1 := { s.mmap with base := some s.next }
    if !o.lists then ({ s1.munmap s.next with base := none }, false)
    else (s1, true)

/-- `Attach`, /repo/lib/flckshminit.cc 48-86, with the header mapped for a moment.  The tests of 50-57 are
left out: it is called with a descriptor and without a mapping (`C93_unmapped`). -/
def attach (o : FOut) (s : State) : State × Bool :=
  if !o.head then (s, false)
  else
    let s1 := s.mmap
    if !o.version then (s1.munmap s.next, false)
    else
      let s2 := s1.munmap s.next
      if !o.map then ({ s2 with base := none }, false)
      else ({ s2.mmap with base := some s2.next }, true)

/-- `FLCK_CLOSE(FlShm::ShmFd)`, /repo/lib/flckutil.h 73-76. -/
def State.closeShm (s : State) : State :=
  match s.shm with
  | none => s
  | some f => { s.close f with shm := none }

/-- `Detach`, /repo/lib/flckshminit.cc 88-113. -/
def State.detach (s : State) : State :=
  match s.base with
  | none => s.closeShm
  | some a => { s.munmap a with base := none }.closeShm

/-- `InitializeShm` up to the thread, /repo/lib/flckshminit.cc 121-200; `f` is the number of the new
descriptor, `mask` is `ShmFileUmask`. -/
def openFile (mask : Nat) (o : FOut) (f : Nat) (s : State) : State × Bool :=
  let old := s.umask
  let s := { s with umask := mask }
  if !o.made then
    if !o.exist then ({ s with umask := old }, false)
    else if !o.opened then ({ s with umask := old }, false)
    else
      let s := { { s.openFd f with shm := some f } with umask := old }
      if o.wlock then
        let r := initFile o s
        if !r.2 then (r.1.detach, false)
        else if !o.down then (r.1.detach, false)
        else (r.1, true)
      else if o.rlock then
        let r := attach o s
        if !r.2 then (r.1.detach, false)
        else (r.1, true)
      else (s.detach, false)
  else
    let s := { { s.openFd f with shm := some f } with umask := old }
    if !o.wlock then (s.closeShm, false)
    else
      let r := initFile o s
      if !r.2 then (r.1.detach, false)
      else if !o.down then (r.1.detach, false)
      else (r.1, true)

/-- A call returns.  No counterpart in the code. -/
def State.back (s : State) (b : Bool) : State := { s with main := .idle, ret := some b }

/-- `InitializeShm`, /repo/lib/flckshminit.cc 115-203; `robust` is `IsRobust()`. -/
def startCall (mask : Nat) (o : FOut) (f : Nat) (robust : Bool) (s : State) : State :=
  if s.shm.isSome then s.back false
  else
    let r := openFile mask o f s
    if !r.2 then r.1.back false
    else if robust then { r.1 with main := .create }
    else r.1.back true

/-- `Destroy`, /repo/lib/flckshminit.cc 376-395. -/
def destroyCall (s : State) : State :=
  if s.shm.isNone then s.back true
  else
    match s.obj with
    | none => s.detach.back true
    | some _ => { s with main := .exit true true }

/-- `InitializeThread` for the object `n`, /repo/lib/flckthread.cc 330-361; `ok`: success of
`pthread_create`. -/
def initThread (ok : Bool) (n : Nat) (s : State) : State :=
  let p := s.next
  let s := s.alloc
  if ok then
    { s with wk := upd s.wk s.next (some { par := p, obj := n, pc := .start, canceled := false }),
             thr := upd s.thr n s.next, inited := upd s.inited n true, next := s.next + 1 }
  else s.release p

/-- `new FlckThread`, /repo/lib/flckthread.cc 319-321, /repo/lib/flckshminit.cc 205. -/
def newObj (s : State) : State :=
  { s.alloc with flag := upd s.flag s.next .stop, inited := upd s.inited s.next false, obj := some s.next }

/-- End of `FLCK_Delete(FlShm::pCheckPidThread)` and `Detach`, /repo/lib/flckshminit.cc 208-216,
387-392. -/
def deleteObj (n : Nat) (r : Bool) (s : State) : State := ({ s.release n with obj := none }.detach).back r

/-- After a return of `Exit`: the destructor calls it again if the worker still counts as running,
/repo/lib/flckthread.cc 323-328. -/
def afterExit (n : Nat) (a r : Bool) (s : State) : State :=
  if a && s.inited n then { s with main := .exit false r } else deleteObj n r s

/-- Where `Run` returns to.  /repo/lib/flckshminit.cc 212-227, /repo/lib/flckshm.cc 637-639. -/
def afterRun (k : Option Nat) (s : State) : State :=
  match k with
  | none => { s with handlers := s.handlers + 1 }.back true
  | some j => { s with main := .atfork j }

/-- `pthread_cancel`, /repo/lib/flckthread.cc 445. -/
def cancelWk (t : Nat) (s : State) : State :=
  match s.wk t with
  | none => s
  | some w => { s with wk := upd s.wk t (some { w with canceled := true }) }

/-- The worker `t` has ended: `pthread_tryjoin_np` succeeds, /repo/lib/flckthread.cc 460. -/
def hasEnded (t : Nat) (s : State) : Bool :=
  match s.wk t with
  | none => true
  | some w => w.pc = .ended

/-- In the child the argument of the previous worker is released, /repo/lib/flckthread.cc 376-381. -/
def dropParam (s : State) : State :=
  match s.param with
  | none => s
  | some p => { s.release p with param := none }

/-- One step of the thread that starts or ends the library, or is in the handler of a fork:
/repo/lib/flckshminit.cc 203-227, 376-395; /repo/lib/flckthread.cc 367-488; /repo/lib/flckshm.cc 631-641.
`ok`: success of `pthread_create` or `pthread_cancel` (which fails only when the worker has ended). -/
def mstep (s : State) (ok : Bool) : Option State :=
  match s.main, s.obj with
  | .idle, _ => none
  | .create, _ =>
    let s1 := initThread ok s.next (newObj s)
    if ok then some { s1 with main := .run none } else some (deleteObj s.next false s1)
  | .run k, some n =>
    let s := s.use n
    if s.inited n = true ∧ s.flag n = .stop then some { s with main := .set k }
    else
      match k with
      | none => some { s with main := .exit false false }
      | some j => some { s with main := .atfork j }
  | .set k, some n => some (afterRun k { s.use n with flag := upd s.flag n .run })
  | .exit a r, some n =>
    let s := s.use n
    if s.inited n = false ∨ Flag.exit.val ≤ (s.flag n).val then some (afterExit n a r s)
    else if ok then some { cancelWk (s.thr n) s with main := .setExit a r }
    else if hasEnded (s.thr n) s then some (afterExit n a r s)
    else none
  | .setExit a r, some n =>
    let s := s.use n
    some { s with flag := upd s.flag n (if Flag.exit.val ≤ (s.flag n).val then s.flag n else .exit),
                  main := .join a r }
  | .join a r, some n =>
    let s := s.use n
    if hasEnded (s.thr n) s = true ∨ s.flag n = .fin then
      some (afterExit n a r { s with inited := upd s.inited n false })
    else none
  | .atfork 0, _ => some { s with main := .idle }
  | .atfork (j + 1), none => some { s with main := .atfork j }
  | .atfork (j + 1), some n =>
    let s1 := dropParam s
    let s2 := { s1.use n with flag := upd s1.flag n .stop, inited := upd s1.inited n false }
    some { initThread ok n s2 with main := .run (some j) }
  | _, none => none

/-- A new place of the worker `t`.  No counterpart in the code. -/
def State.goto (s : State) (t : Nat) (w : Wk) (p : WPc) : State :=
  { s with wk := upd s.wk t (some { w with pc := p }) }

/-- One step of the worker `t`: /repo/lib/flckthread.cc 154-270, 101-126.  `ok`: the system call succeeds;
`canc`: a cancellation point acts on a request; `f`: the new descriptor, or the number of events (0: none
in time). -/
def wstep (s : State) (t : Nat) (ok canc : Bool) (f : Nat) : Option State :=
  match s.wk t with
  | none => none
  | some w =>
    let act := w.canceled && canc
    match w.pc with
    | .start =>
      some ({ s.use w.par with ino := none, ev := none, param := some w.par }.goto t w .ready)
    | .ready => some (s.goto t w (if act then .hdl true else .epoll))
    | .epoll =>
      if ok then
        if s.own f = .free then some ({ s.openFd f with ev := some f }.goto t w .inotify) else none
      else some ({ s with ev := none }.goto t w (.hdl true))
    | .inotify =>
      if ok then
        if s.own f = .free then some ({ s.openFd f with ino := some f }.goto t w .watch) else none
      else some ({ s with ino := none }.goto t w (.hdl true))
    | .watch => some ((s.use w.par).goto t w (if ok then .ctl else .hdl true))
    | .ctl => some (s.goto t w (if ok then .loop else .hdl true))
    | .loop =>
      if act then some (s.goto t w (.hdl true))
      else
        let s := s.use w.obj
        if Flag.exit.val ≤ (s.flag w.obj).val then some (s.goto t w .tail)
        else some (s.goto t w (if s.flag w.obj = .stop then .sleep else .wait))
    | .sleep => some (s.goto t w (if act then .hdl true else .loop))
    | .wait =>
      if act then some (s.goto t w (.hdl true))
      else if !ok then some (s.goto t w .tail)
      else if f = 0 then some (s.goto t w .loop)
      else some (s.alloc.goto t w (.read s.next))
    | .read b =>
      if act then some (s.goto t w (.hdl true)) else some ((s.release b).goto t w .loop)
    | .tail => some (s.goto t w (.hdl act))
    | .hdl c => some ({ (s.use w.par).release w.par with param := none }.goto t w (.closeI c))
    | .closeI c =>
      match s.ino with
      | none => some (s.goto t w (.closeE c))
      | some d =>
        if !c && act then some (s.goto t w .ended)
        else some ({ s.close d with ino := none }.goto t w (.closeE c))
    | .closeE c =>
      match s.ev with
      | none => some (s.goto t w .fin)
      | some d =>
        if !c && act then some (s.goto t w .ended)
        else some ({ s.close d with ev := none }.goto t w .fin)
    | .fin => some ({ s.use w.obj with flag := upd s.flag w.obj .fin }.goto t w .last)
    | .last => some (s.goto t w .ended)
    | .ended => none

/-- `fork`: the child goes on, with its one thread before the handlers.  Its descriptors, mappings and
memory are copies.  /repo/lib/flckshm.cc 631-641, /repo/lib/flckshminit.cc 223. -/
def forkChild (s : State) : State := { s with wk := fun _ => none, main := .atfork s.handlers }

/-- Kinds of steps, by what may be lost: `fork` = a fork, `fork2` = one at which several handlers start
several workers, `cut` = a worker is cancelled while it reads events, `abort` = one is cancelled in its
handler.  No counterpart in the code. -/
inductive Kind where
  | fork | fork2 | cut | abort | other
  deriving DecidableEq, Repr

/-- No counterpart in the code. -/
def forkKind (s : State) : Kind := if s.obj.isSome = true ∧ 2 ≤ s.handlers then .fork2 else .fork

/-- No counterpart in the code. -/
def wkind (s : State) (t : Nat) (canc : Bool) : Kind :=
  match s.wk t with
  | none => .other
  | some w =>
    match w.pc with
    | .read _ => if w.canceled && canc then .cut else .other
    | .closeI false => if s.ino.isSome && (w.canceled && canc) then .abort else .other
    | .closeE false => if s.ev.isSome && (w.canceled && canc) then .abort else .other
    | _ => .other

/-- One step of the process.  /repo/lib/flckshminit.cc 115-395, /repo/lib/flckthread.cc 101-488; `userOpen`
and `userClose`: the program opens and closes descriptors of its own. -/
inductive Step (mask : Nat) : Kind → State → State → Prop
  | start (o : FOut) (f : Nat) (robust : Bool) (h : s.main = .idle) (hf : s.own f = .free) :
      Step mask .other s (startCall mask o f robust s)
  | destroy (h : s.main = .idle) : Step mask .other s (destroyCall s)
  | main (ok : Bool) (h : mstep s ok = some s') : Step mask .other s s'
  | worker (t : Nat) (ok canc : Bool) (f : Nat) (h : wstep s t ok canc f = some s') :
      Step mask (wkind s t canc) s s'
  | fork (h : s.main = .idle) : Step mask (forkKind s) s (forkChild s)
  | userOpen (f : Nat) (h : s.own f = .free) : Step mask .other s { s with own := upd s.own f .user }
  | userClose (f : Nat) (h : s.own f = .user) : Step mask .other s { s with own := upd s.own f .free }

/-- Before the library is used; the program has some descriptors open and a mask.
/repo/lib/flckshm.h 76-104, /repo/lib/flckthread.cc 91-95. -/
def init (user : Nat → Bool) (um : Nat) : State where
  own := fun f => if user f then .user else .free
  umask := um
  maps := fun _ => false
  live := fun _ => false
  next := 0
  shm := none
  ev := none
  ino := none
  base := none
  param := none
  obj := none
  handlers := 0
  flag := fun _ => .stop
  inited := fun _ => false
  thr := fun _ => 0
  wk := fun _ => none
  main := .idle
  ret := none
  bad := false

end Fullock.Res
