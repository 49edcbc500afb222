/-
Model of the worker thread and its control.
Source: /repo/lib/flckthread.cc 47-86 (flag helpers), 101-126 (`CleanupHandler`), 154-270
(`WorkerProc`), 319-488 (methods), /repo/lib/flckthread.h 40-45 (`THCNTLFLAG`).

The flag is one shared word; every compare-and-swap and every read of it is one step.  Any number of
controlling threads call the methods.  Only one object is represented; it is initialised once, as the
library creates a new object for every start (/repo/lib/flckshminit.cc 205).
-/
namespace Fullock.Thread

/-- `THCNTLFLAG`, /repo/lib/flckthread.h 40-45. -/
inductive Flag where
  | run | stop | exit | fin
  deriving DecidableEq, Repr

/-- The values are compared as numbers. /repo/lib/flckthread.h 40-45. -/
def Flag.val : Flag → Nat
  | .run => 0
  | .stop => 1
  | .exit => 2
  | .fin => 3

/-- One round of `set_val_thread_cntrl_flag`, /repo/lib/flckthread.cc 51-57, that expects `old` and
finds `cur`: value of the flag afterwards; `none` = the loop ends, else what the next round expects. -/
def casVal (new old cur : Flag) : Flag × Option Flag :=
  if cur = old then (new, none)
  else if cur = new then (cur, none)
  else (cur, some cur)

/-- One round of `set_exit_thread_cntrl_flag`, /repo/lib/flckthread.cc 79-85. -/
def casExit (old cur : Flag) : Flag × Option Flag :=
  if cur = old then (.exit, none)
  else if Flag.exit.val ≤ cur.val then (cur, none)
  else (cur, some cur)

/-- The public calls. /repo/lib/flckthread.h 75-77. -/
inductive Call where
  | run | stop | exit
  deriving DecidableEq

/-- Where a controlling thread is: `checkInit c` before `IsInitWorker()`, `checkFlag c` before the test
of the flag, `cas c old` in the loop of the flag helper, `cancel` before `pthread_cancel`, `join` before
`pthread_tryjoin_np`, `busy` after it answered EBUSY, `last` before the last try, `clear` before
`is_run_worker = false`, `ret c b` = call `c` has returned `b`.  Places in /repo/lib/flckthread.cc
392-488 and 47-86. -/
inductive Pc where
  | idle
  | checkInit (c : Call)
  | checkFlag (c : Call)
  | cas (c : Call) (old : Flag)
  | cancel
  | join
  | busy
  | last
  | clear
  | ret (c : Call) (b : Bool)

/-- Where the worker is: not created, before the loop test, after having read RUN (or STOP: sleeping),
handling events (`n` left, before the test of the flag), sweeping the table, in the loop of
`set_fin_thread_cntrl_flag`, after it, ended.  Places in /repo/lib/flckthread.cc 154-270 and
101-126. -/
inductive Worker where
  | none
  | top
  | sleep
  | wait
  | event (n : Nat)
  | sweep (n : Nat)
  | fin (old : Flag)
  | cleaned
  | ended
  deriving DecidableEq

/-- /repo/lib/flckthread.h 56-60 (`thflag`, `is_run_worker`), the worker and the controlling
threads. -/
structure State where
  flag : Flag
  /-- `is_run_worker` -/
  inited : Bool
  worker : Worker
  /-- A cancel request is pending. -/
  canceled : Bool
  pc : Nat → Pc
  /-- Ghost: some call of `Exit` has passed `set_exit_thread_cntrl_flag`. -/
  told : Bool
  /-- Ghost: number of sweeps begun. -/
  sweeps : Nat

/-- Constructor and `InitializeThread`, /repo/lib/flckthread.cc 319-321, 330-361; also the state of the
child after `ReInitializeThread`, 367-390. -/
def init : State :=
  { flag := .stop, inited := true, worker := .top, canceled := false, pc := fun _ => .idle,
    told := false, sweeps := 0 }

/-- No counterpart in the code: a controlling thread goes to a place. -/
def State.setPc (s : State) (i : Nat) (p : Pc) : State :=
  { s with pc := fun j => if j = i then p else s.pc j }

/-- Result of a round of a flag helper for thread `i`, which goes on at `next` when the loop ends.
/repo/lib/flckthread.cc 51-56, 79-85. -/
def State.casStep (s : State) (i : Nat) (r : Flag × Option Flag) (c : Call) (next : Pc) : State :=
  match r.2 with
  | none => { s with flag := r.1 }.setPc i next
  | some old => { s with flag := r.1 }.setPc i (.cas c old)

/-- The value expected by the first round: /repo/lib/flckthread.cc 61, 66, 76. -/
def firstOld : Call → Flag
  | .run => .stop
  | .stop => .run
  | .exit => .run

/-- One step of controlling thread `i`, /repo/lib/flckthread.cc 392-488.  `ok`: success of
`pthread_cancel`.  `none` = nothing to do. -/
def ctrl (s : State) (i : Nat) (ok : Bool) : Option State :=
  match s.pc i with
  | .idle => none
  | .ret _ _ => some (s.setPc i .idle)
  | .checkInit c => some (if s.inited then s.setPc i (.checkFlag c) else s.setPc i (.ret c false))
  | .checkFlag .run => some (if s.flag ≠ .stop then s.setPc i (.ret .run false) else s.setPc i (.cas .run (firstOld .run)))
  | .checkFlag .stop => some (if s.flag ≠ .run then s.setPc i (.ret .stop false) else s.setPc i (.cas .stop (firstOld .stop)))
  | .checkFlag .exit => some (if Flag.exit.val ≤ s.flag.val then s.setPc i (.ret .exit true) else s.setPc i .cancel)
  | .cas .run old => some (s.casStep i (casVal .run old s.flag) .run (.ret .run true))
  | .cas .stop old => some (s.casStep i (casVal .stop old s.flag) .stop (.ret .stop true))
  | .cancel => some (if ok then { s with canceled := true }.setPc i (.cas .exit (firstOld .exit)) else s.setPc i (.ret .exit false))
  | .cas .exit old =>
    let r := casExit old s.flag
    some { s.casStep i r .exit .join with told := s.told || r.2.isNone }
  | .join => some (if s.worker = .ended then s.setPc i .clear else s.setPc i .busy)
  | .busy => some (if s.flag = .fin then s.setPc i .last else s.setPc i .join)
  | .last => some (s.setPc i .clear)
  | .clear => some ({ s with inited := false }.setPc i (.ret .exit true))

/-- One step of the worker, /repo/lib/flckthread.cc 186-270 and 101-126.  `n`: number of events that
`epoll_pwait` delivers and for which `CheckEvent` (246) answers true; `err`: it fails, or one of the preparing calls does; `canc`: a cancellation
point acts on the request. -/
def work (s : State) (n : Nat) (err canc : Bool) : Option State :=
  match s.worker with
  | .none => none
  | .ended => none
  | .fin old =>
    let r := casVal .fin old s.flag
    match r.2 with
    | .none => some { s with flag := r.1, worker := .cleaned }
    | .some old' => some { s with flag := r.1, worker := .fin old' }
  | .cleaned => some { s with worker := .ended }
  | w =>
    if s.canceled ∧ canc then some { s with worker := .fin .exit }
    else
      match w with
      | .top =>
        if err then some { s with worker := .fin .exit }
        else if Flag.exit.val ≤ s.flag.val then some { s with worker := .fin .exit }
        else if s.flag = .stop then some { s with worker := .sleep }
        else some { s with worker := .wait }
      | .sleep => some { s with worker := .top }
      | .wait => if err then some { s with worker := .fin .exit } else some { s with worker := .event n }
      | .event 0 => some { s with worker := .top }
      | .event (k + 1) =>
        if Flag.exit.val ≤ s.flag.val then some { s with worker := .top }
        else some { s with worker := .sweep k, sweeps := s.sweeps + 1 }
      | .sweep k => some { s with worker := .event k }
      | _ => none

/-- One step of a controlling thread or of the worker: /repo/lib/flckthread.cc 154-270, 392-488.
-/
inductive Step : State → State → Prop
  | call (i : Nat) (c : Call) (h : s.pc i = .idle) : Step s (s.setPc i (.checkInit c))
  | ctrl (i : Nat) (ok : Bool) (h : ctrl s i ok = some s') : Step s s'
  | work (n : Nat) (err canc : Bool) (h : work s n err canc = some s') : Step s s'

/-- No counterpart in the code: reachable states. -/
inductive Reach : State → Prop
  | init : Reach init
  | step : Reach s → Step s s' → Reach s'

/-! ### Workers of a process and its children -/

/-- What a process has: number of registered fork handlers, whether `pCheckPidThread` is set, number of
worker threads.  /repo/lib/flckshm.h 76-104, /repo/lib/flckshminit.cc 204, 223. -/
structure Proc where
  handlers : Nat
  thread : Bool
  workers : Nat
  deriving DecidableEq, Repr

/-- What changes the number of workers: /repo/lib/flckshminit.cc 203-227, 376-395, `fork`. -/
inductive POp where
  | start (robust : Bool)
  | destroy
  | fork

/-- `PreforkHandler`, /repo/lib/flckshm.cc 631-641 with `ReInitializeThread`: a further thread is
created, the previous one is not ended. -/
def forkHandler (p : Proc) : Proc := if p.thread then { p with workers := p.workers + 1 } else p

/-- The part of `InitializeShm` that starts the thread, /repo/lib/flckshminit.cc 203-227; `Destroy`,
376-395 (ends the one worker it joins); `fork` = the child goes on, in which only the calling thread
exists and the handlers of `pthread_atfork` run. -/
def pstep (p : Proc) : POp → Proc
  | .start robust =>
    if robust then { handlers := p.handlers + 1, thread := true, workers := p.workers + 1 } else p
  | .destroy => if p.thread then { p with thread := false, workers := p.workers - 1 } else p
  | .fork => (List.range p.handlers).foldl (fun p _ => forkHandler p) { p with workers := 0 }

/-- Before the library is used, /repo/lib/flckshm.h 76-104. -/
def pinit : Proc := { handlers := 0, thread := false, workers := 0 }

end Fullock.Thread
