import Verif.Model.Dbg
/-
The debug log used by several threads of a process: each access to `flckdbg_fp` and each call of the stream library is a step.
Source: /repo/lib/flckdbg.h 54-60 (`LOW_FLCKPRINT`, `FLCKPRINT`), /repo/lib/flckdbg.cc 164-195 (`SetFlckDbgCntrlFile`,
`UnsetFlckDbgCntrlFile`).

The macro names `flckdbg_fp` twice, a test and a load; the variable is not `volatile`, and a compiler may or may not make one load of
them: `once` says which (for each message). Left out: a failing `fclose` (C59), `LoadFlckDbgEnv` (a mode and a file, C59), the end of
the process; a write of the mode and its test are one step each.
-/
namespace Fullock.DbgConc

/-- Places of a thread. Lines of /repo/lib/flckdbg.h and /repo/lib/flckdbg.cc beside each. -/
inductive Pc where
  /-- not in the debug control -/
  | idle
  /-- `flckdbg_fp ?` of a message that passed the mode, /repo/lib/flckdbg.h 55 -/
  | tst
  /-- `: flckdbg_fp`, /repo/lib/flckdbg.h 55 -/
  | ld
  /-- `fprintf`; `none` is a null pointer, /repo/lib/flckdbg.h 55 -/
  | wr (h : Option Nat)
  /-- `fprintf` to `stderr`, /repo/lib/flckdbg.h 55 -/
  | wrErr
  /-- `if(*pflckdbg_fp)`, /repo/lib/flckdbg.cc 186; `k`: called by `SetFlckDbgCntrlFile` -/
  | uTst (k : Bool)
  /-- load of the argument of `fclose`, /repo/lib/flckdbg.cc 187 -/
  | uLd (k : Bool)
  /-- `fclose`, /repo/lib/flckdbg.cc 187 -/
  | uCls (k : Bool) (h : Option Nat)
  /-- `*pflckdbg_fp = NULL`, /repo/lib/flckdbg.cc 192 -/
  | uNull (k : Bool)
  /-- `fopen`, /repo/lib/flckdbg.cc 174 -/
  | opn
  /-- `*pflckdbg_fp = newfp`, /repo/lib/flckdbg.cc 179 -/
  | sto (h : Nat)
  deriving DecidableEq

/-- The process: the variables of /repo/lib/flckdbg.cc 32-33 and the streams. -/
structure State where
  /-- `flckdbg_mode`, /repo/lib/flckdbg.cc 32 -/
  mode : DbgMode := .silent
  /-- `flckdbg_fp`, /repo/lib/flckdbg.cc 33 -/
  fp : Option Nat := none
  /-- the streams that are open -/
  live : Nat → Bool := fun _ => false
  /-- fresh streams -/
  next : Nat := 0
  pc : Nat → Pc := fun _ => .idle
  /-- answer of the last call of a thread that set or unset the file -/
  ret : Nat → Option Bool := fun _ => none
  /-- where the messages went, the last one first; `none` is `stderr` (a record of the model only) -/
  out : List (Nat × Option Nat) := []
  /-- a stream that is not open, or a null pointer, was given to the stream library -/
  bad : Bool := false

/-- Function update. No counterpart in the code. -/
def upd {α : Type} (f : Nat → α) (t : Nat) (v : α) : Nat → α := fun u => if u = t then v else f u

/-- Thread `t` goes to `p`. No counterpart in the code. -/
def State.goto (s : State) (t : Nat) (p : Pc) : State := { s with pc := upd s.pc t p }

/-- Thread `t` returns `r` to the user, /repo/lib/flckdbg.cc 164-195. -/
def State.back (s : State) (t : Nat) (r : Bool) : State := { s with pc := upd s.pc t .idle, ret := upd s.ret t (some r) }

/-- A stream `h` of the stream library can be used: it is open, and not a null pointer. No counterpart in the code. -/
def State.usable (s : State) : Option Nat → Bool
  | none => false
  | some h => s.live h

/-- A message of a level of thread `t` begins, /repo/lib/flckdbg.h 57-60. -/
def State.say (s : State) (t : Nat) (level : DbgMode) : State :=
  if dbgPrints s.mode level then s.goto t .tst else s.goto t .idle

/-- After the old file is gone: /repo/lib/flckdbg.cc 174 or the end of `UnsetFlckDbgFile`. -/
def State.unset (s : State) (t : Nat) (k : Bool) : State := if k then s.goto t .opn else s.back t true

/-- One step of thread `t`; `ok`: `fopen` succeeds; `once`: the macro loads the variable once. Lines as in `Pc`:
/repo/lib/flckdbg.h 54-60, /repo/lib/flckdbg.cc 164-195. -/
def step1 (s : State) (t : Nat) (ok once : Bool) : Option State :=
  match s.pc t with
  | .idle => none
  | .tst =>
    some (match s.fp with
      | none => s.goto t .wrErr
      | some h => if once then s.goto t (.wr (some h)) else s.goto t .ld)
  | .ld => some (s.goto t (.wr s.fp))
  | .wr h => some ({ s with bad := s.bad || !s.usable h, out := (t, h) :: s.out }.goto t .idle)
  | .wrErr => some ({ s with out := (t, none) :: s.out }.goto t .idle)
  | .uTst k => some (if s.fp.isSome then s.goto t (.uLd k) else s.unset t k)
  | .uLd k => some (s.goto t (.uCls k s.fp))
  | .uCls k h =>
    some ({ s with bad := s.bad || !s.usable h, live := match h with | none => s.live | some a => upd s.live a false }.goto t (.uNull k))
  | .uNull k => some ({ s with fp := none }.unset t k)
  | .opn =>
    some (if ok then { s with live := upd s.live s.next true, next := s.next + 1 }.goto t (.sto s.next)
      else (s.back t false).say t .err)
  | .sto h => some ({ s with fp := some h }.back t true)

/-- What happens: calls of the user (/repo/lib/flckdbg.h 38-43), messages of the library (63-71), steps. -/
inductive Ev where
  | mode (m : DbgMode)
  | print (t : Nat) (level : DbgMode)
  | set (t : Nat) (path : Str)
  | unset (t : Nat)
  | run (t : Nat) (ok once : Bool)
  deriving DecidableEq

/-- One event. `SetFlckDbgMode`, /repo/lib/flckdbg.cc 200-203; `SetFlckDbgFile`, 220-223 with 164-173; `UnsetFlckDbgFile`, 225-228. -/
def step (s : State) : Ev → Option State
  | .mode m => some { s with mode := m }
  | .print t l => if s.pc t = .idle then some (s.say t l) else none
  | .set t p =>
    if s.pc t = .idle then some (if p = [] then (s.back t false).say t .err else s.goto t (.uTst true)) else none
  | .unset t => if s.pc t = .idle then some (s.goto t (.uTst false)) else none
  | .run t ok once => step1 s t ok once

/-- Events one after the other. No counterpart in the code. -/
def run (s : State) : List Ev → Option State
  | [] => some s
  | e :: es => (step s e).bind (fun s' => run s' es)

/-- A process that has set no log file, /repo/lib/flckdbg.cc 32-33. -/
def init : State := {}

end Fullock.DbgConc
