/-
The threads of one process that call the library while it is not attached, or while one of them reinitialises it.
Source: /repo/lib/flckshminit.cc 48-229 (`Attach`, `Detach`, `InitializeShm`), 231-302 (`InitializeShmFile`), 376-395 (`Destroy`),
/repo/lib/flckshm.cc 293-404 (`ReInitializeObject`), 646-660 (`CheckAttach`), 661-966 (`RawLock`).

Every access to the variables `ShmFd`, `pShmBase`, `pFlHead` of the process, and every system call of a start, is a step; the threads
run their steps in any order. The segment holds one lock (an exclusive lock of one range, or a mutex), taken and given back in one step
through the address the call has loaded before: the steps of such a call are the business of the other models. The mode is
`NOMAP_DENY_RETRY` or `NOMAP_ALLOW_RETRY` (a call tries to start the library); without retry a call stops where `open` is refused here.
Other processes initialise the file in one step (C41, C42). Left out: the worker thread, `fork`, refusal of `munmap`, versions.
-/
namespace Fullock.Attach

/-- Calls of the user: take the lock, give it back (`own`: the caller has got it, a record of the model only), `fullock_reinitialize`
(/repo/lib/fullock.cc 117-123). -/
inductive Call where
  | lock
  | unlock (own : Bool)
  | reinit
  deriving DecidableEq

/-- Answers of a call: done; not attached (0 or ENOLCK, /repo/lib/flckshm.cc 671, for `fullock_reinitialize` false); EINVAL, the caller
has no lock, /repo/lib/flckshm.cc 685. -/
inductive Res where
  | ok
  | nomap
  | einval
  deriving DecidableEq

/-- Places of a thread. Lines of /repo/lib/flckshminit.cc where no file is named. -/
inductive Pc where
  /-- outside of the library -/
  | idle
  /-- `CheckAttach` reads `ShmFd`, /repo/lib/flckshm.cc 648 -/
  | chk (c : Call)
  /-- `InitializeShm` reads `ShmFd`, 117 -/
  | tst (c : Call)
  /-- `open`, 125 and 132 -/
  | opn (c : Call)
  /-- `FileWriteLock`, 144 and 183; `created`: by the first `open` -/
  | wl (c : Call) (created : Bool)
  /-- `FileReadLock`, 160 -/
  | rl (c : Call)
  /-- `ftruncate`, 239 -/
  | trunc (c : Call)
  /-- `flck_fill_zero`, 264 -/
  | fill (c : Call)
  /-- `pShmBase = RawMap`, 270 -/
  | mapF (c : Call)
  /-- `pFlHead = pShmBase`, 276 -/
  | headF (c : Call)
  /-- the header and the lists are written, 278-291, and looked at, 294 -/
  | build (c : Call)
  /-- `FileReadLock`, 151 and 195 -/
  | down (c : Call)
  /-- `Attach`: `pShmBase` is looked at, 50 -/
  | atc (c : Call)
  /-- `Attach`: the header is looked at, `pShmBase = RawMap`, 60-82 -/
  | mapA (c : Call)
  /-- `Attach`: `pFlHead = pShmBase`, 83 -/
  | headA (c : Call)
  /-- `Destroy` reads `ShmFd`, 378 -/
  | des (c : Call)
  /-- `Detach`: `munmap`, 91-104; `again`: a start follows -/
  | det (c : Call) (again : Bool)
  /-- `FLCK_CLOSE(ShmFd)`, 107-110 and 185 -/
  | cls (c : Call) (again : Bool)
  /-- the call loads `pFlHead`, /repo/lib/flckshm.cc 676, 749 -/
  | use (c : Call)
  /-- the call works with the address `a` -/
  | op (c : Call) (a : Option Nat)
  deriving DecidableEq

/-- Record lock of the process on the file (`fcntl`), /repo/lib/flckutil.cc 380-420. -/
inductive Lk where
  | none
  | read
  | write
  deriving DecidableEq

/-- Who has the lock of the segment: `flckpid` of the record, /repo/lib/flckstructure.h 40-105. -/
inductive Who where
  | mine (t : Nat)
  | other
  deriving DecidableEq

/-- State of the process, the file and the user. Variables of /repo/lib/flckshm.cc 190-195, record locks and file of
/repo/lib/flckshminit.cc 112-302; `own`, `oown` and `bad` are records of the model only. -/
structure State where
  /-- `ShmFd` is a descriptor, /repo/lib/flckshm.cc 190 -/
  fd : Bool := false
  /-- number of open descriptors of the file -/
  nfd : Nat := 0
  /-- `pShmBase`, /repo/lib/flckshm.cc 194 -/
  base : Option Nat := none
  /-- `pFlHead`, /repo/lib/flckshm.cc 195 -/
  head : Option Nat := none
  /-- addresses at which the file is mapped -/
  maps : List Nat := []
  /-- fresh addresses -/
  next : Nat := 0
  /-- record lock of this process -/
  plock : Lk := .none
  /-- number of other processes that are attached -/
  others : Nat := 0
  /-- the file has its full length -/
  filled : Bool := false
  /-- the header and the lists are complete -/
  ready : Bool := false
  /-- the lock in the segment -/
  held : Option Who := none
  pc : Nat → Pc := fun _ => .idle
  /-- answer of the last call of a thread -/
  ret : Nat → Option Res := fun _ => none
  /-- what the user knows: the threads that were given the lock and did not give it back -/
  own : Nat → Bool := fun _ => false
  /-- the same for a thread of another process -/
  oown : Bool := false
  /-- an access to memory that is not mapped or not a complete segment took place -/
  bad : Bool := false

/-- Function update. No counterpart in the code. -/
def upd {α : Type} (f : Nat → α) (t : Nat) (v : α) : Nat → α := fun u => if u = t then v else f u

/-- Thread `t` goes to `p`. No counterpart in the code. -/
def State.goto (s : State) (t : Nat) (p : Pc) : State := { s with pc := upd s.pc t p }

/-- Thread `t` returns `r` to the user, /repo/lib/flckshm.cc 661-966. -/
def State.back (s : State) (t : Nat) (r : Res) : State := { s with pc := upd s.pc t .idle, ret := upd s.ret t (some r) }

/-- An access of thread `t` that the process does not survive, or that finds garbage. No counterpart in the code. -/
def State.crash (s : State) (t : Nat) : State := { s with bad := true, pc := upd s.pc t .idle }

/-- Where a call goes on after a start that succeeded: /repo/lib/flckshm.cc 652-655, 399-403. -/
def started (s : State) (t : Nat) : Call → State
  | .reinit => s.back t .ok
  | c => s.goto t (.use c)

/-- `munmap` of `pShmBase`, and both pointers to NULL, /repo/lib/flckshminit.cc 97-102, 296-298. -/
def State.unmap (s : State) : State :=
  { s with maps := match s.base with | some a => s.maps.erase a | none => s.maps, base := none, head := none }

/-- One step of thread `t`; `ok`: the system call of the step succeeds; `cr`: `open` creates the file. Lines as in `Pc`:
/repo/lib/flckshminit.cc 48-302, 376-395, /repo/lib/flckshm.cc 646-966. -/
def step1 (s : State) (t : Nat) (ok cr : Bool) : Option State :=
  match s.pc t with
  | .idle => none
  | .chk c => some (if s.fd then s.goto t (.use c) else s.goto t (.tst c))
  | .tst c => some (if s.fd then s.back t .nomap else s.goto t (.opn c))
  | .opn c =>
    some (if ok then { s with fd := true, nfd := s.nfd + 1 }.goto t (.wl c cr)
      else { s with fd := false }.back t .nomap)
  | .wl c cr =>
    some (if s.others = 0 then { s with plock := .write }.goto t (.trunc c)
      else if cr then s.goto t (.cls c false) else s.goto t (.rl c))
  | .rl c => some ({ s with plock := .read }.goto t (.atc c))
  | .trunc c =>
    some (if ok then { s with filled := false, ready := false, held := none }.goto t (.fill c)
      else s.goto t (.det c false))
  | .fill c =>
    some (if ok then { s with filled := true, ready := false, held := none }.goto t (.mapF c)
      else s.goto t (.det c false))
  | .mapF c =>
    some (if ok then { s with base := some s.next, maps := s.next :: s.maps, next := s.next + 1 }.goto t (.headF c)
      else { s with base := none }.goto t (.det c false))
  | .headF c => some ({ s with head := s.base }.goto t (.build c))
  | .build c =>
    some (match s.head with
      | none => s.crash t
      | some a =>
        if a ∈ s.maps ∧ s.filled = true then
          if ok then { s with ready := true, held := none }.goto t (.down c) else s.unmap.goto t (.det c false)
        else s.crash t)
  | .down c => some (if ok then started { s with plock := .read } t c else s.goto t (.det c false))
  | .atc c => some (if s.base.isSome then s.goto t (.det c false) else s.goto t (.mapA c))
  | .mapA c =>
    some (if s.filled = true ∧ s.ready = true then
        if ok then { s with base := some s.next, maps := s.next :: s.maps, next := s.next + 1 }.goto t (.headA c)
        else s.goto t (.det c false)
      else s.crash t)
  | .headA c => some (started { s with head := s.base } t c)
  | .des c => some (if s.fd then s.goto t (.det c true) else s.goto t (.tst c))
  | .det c again =>
    some (match s.base, s.head with
      | some _, some b =>
        if b ∈ s.maps ∧ s.filled = true then s.unmap.goto t (.cls c again) else s.crash t
      | _, _ => s.goto t (.cls c again))
  | .cls c again =>
    let s' := if s.fd then { s with fd := false, nfd := s.nfd - 1, plock := .none } else s
    some (if again then s'.goto t (.tst c) else s'.back t .nomap)
  | .use c => some (s.goto t (.op c s.head))
  | .op c a =>
    match a with
    | none => some (s.crash t)
    | some a =>
      if a ∈ s.maps ∧ s.filled = true ∧ s.ready = true then
        match c with
        | .lock =>
          if s.held = none then some ({ s with held := some (.mine t), own := upd s.own t true }.back t .ok) else none
        | .unlock _ =>
          some (if s.held = some (.mine t) then { s with held := none }.back t .ok else s.back t .einval)
        | .reinit => none
      else some (s.crash t)

/-- What happens (/repo/lib/flckshm.cc 293-404, 661-966, /repo/lib/flckshminit.cc 112-229). The user's calls; a step; other processes: attach (the file is made anew if nobody has a record lock), end, take the
lock, give it back. -/
inductive Ev where
  | lock (t : Nat)
  | unlock (t : Nat)
  | reinit (t : Nat)
  | run (t : Nat) (ok cr : Bool)
  | oAttach
  | oLeave
  | oLock
  | oUnlock
  deriving DecidableEq

/-- One event. Calls: /repo/lib/flckshm.cc 661-672, 733-737 (`RawLock`), 330 (`Destroy`). Other processes: /repo/lib/flckshminit.cc
144-166; the lock of the last one that ends is free (C12). -/
def step (s : State) : Ev → Option State
  | .lock t => if s.pc t = .idle then some (s.goto t (.chk .lock)) else none
  | .unlock t =>
    if s.pc t = .idle then some { s with own := upd s.own t false, pc := upd s.pc t (.chk (.unlock (s.own t))) } else none
  | .reinit t => if s.pc t = .idle then some (s.goto t (.des .reinit)) else none
  | .run t ok cr => step1 s t ok cr
  | .oAttach =>
    if s.plock = .write then none
    else if s.plock = .none ∧ s.others = 0 then some { s with others := 1, filled := true, ready := true, held := none, oown := false }
    else some { s with others := s.others + 1 }
  | .oLeave =>
    if s.others = 0 then none
    else if s.others = 1 then
      some { s with others := 0, oown := false, held := if s.held = some .other then none else s.held }
    else some { s with others := s.others - 1 }
  | .oLock =>
    if s.others ≠ 0 ∧ s.ready = true ∧ s.held = none then some { s with held := some .other, oown := true } else none
  | .oUnlock => if s.others ≠ 0 ∧ s.held = some .other then some { s with held := none, oown := false } else none

/-- Events one after the other. No counterpart in the code. -/
def run (s : State) : List Ev → Option State
  | [] => some s
  | e :: es => (step s e).bind (fun s' => run s' es)

/-- A process that has not attached, /repo/lib/flckshm.cc 190-195. -/
def init : State := {}

end Fullock.Attach
