import Verif.Model.Str
/-
Model of the debug message control.
Source: /repo/lib/flckdbg.h 28-72, /repo/lib/flckdbg.cc 32-33, 92-228.
-/
namespace Fullock

/-- `FlckDbgMode`, /repo/lib/flckdbg.h 28-33. -/
inductive DbgMode where
  | silent
  | err
  | warn
  | msg
deriving DecidableEq, Repr

/-- The enumeration values, /repo/lib/flckdbg.h 28-33. -/
def DbgMode.val : DbgMode → Nat
  | .silent => 0
  | .err => 1
  | .warn => 3
  | .msg => 7

/-- Whether `FLCKPRINT(level, ...)` prints, /repo/lib/flckdbg.h 57-60. -/
def dbgPrints (mode level : DbgMode) : Bool := (mode.val &&& level.val) == level.val

/-- State of the debug control: mode, the stream `flckdbg_fp`, the streams that have been opened
and closed so far (ghost, for the specification), and whether a closed stream has been written to
(undefined behaviour).  `flckdbg_mode`, `flckdbg_fp`, /repo/lib/flckdbg.cc 32-33. -/
structure Dbg where
  mode : DbgMode := .silent
  fp : Option Nat := none
  opened : List Nat := []
  closed : List Nat := []
  ub : Bool := false
deriving DecidableEq, Repr

/-- A message of a level goes to `flckdbg_fp`, or to `stderr` if that is null,
/repo/lib/flckdbg.h 54-60. -/
def dbgPrint (s : Dbg) (level : DbgMode) : Dbg :=
  if dbgPrints s.mode level then
    match s.fp with
    | none => s
    | some h => if h ∈ s.closed then { s with ub := true } else s
  else s

/-- `SetFlckDbgCntrlMode`, /repo/lib/flckdbg.cc 136-141. -/
def dbgSetMode (s : Dbg) (m : DbgMode) : DbgMode × Dbg := (s.mode, { s with mode := m })

/-- `BumpupFlckDbgCntrlMode`, /repo/lib/flckdbg.cc 143-157. -/
def dbgBump (s : Dbg) : DbgMode × Dbg :=
  dbgSetMode s (match s.mode with
    | .silent => .err
    | .err => .warn
    | .warn => .msg
    | .msg => .silent)

/-- `UnsetFlckDbgCntrlFile`, /repo/lib/flckdbg.cc 184-195.  `closeOk`: whether `fclose` reports
success; the stream is gone in either case, but on failure the message is still printed to it. -/
def dbgUnsetFile (s : Dbg) (closeOk : Bool) : Bool × Dbg :=
  match s.fp with
  | none => (true, s)
  | some h =>
    let s1 := { s with closed := h :: s.closed }
    if closeOk then (true, { s1 with fp := none })
    else (false, { dbgPrint s1 .err with fp := none })

/-- `SetFlckDbgCntrlFile`, /repo/lib/flckdbg.cc 164-182.  `fopen` is the new stream if the file
can be opened. -/
def dbgSetFile (s : Dbg) (path : Str) (closeOk : Bool) (fopen : Option Nat) : Bool × Dbg :=
  if path = [] then (false, dbgPrint s .err)
  else
    let (ok, s1) := dbgUnsetFile s closeOk
    if ok = false then (false, s1)
    else
      match fopen with
      | none => (false, dbgPrint s1 .err)
      | some h => (true, { s1 with fp := some h, opened := h :: s1.opened })

/-- `FlckDbgCntrlLoadEnvName`, /repo/lib/flckdbg.cc 100-120. -/
def dbgLoadMode (s : Dbg) (env : Option Str) : Bool × Dbg :=
  match env with
  | none => (true, dbgPrint s .msg)
  | some v =>
    if strcaseEq v "SILENT".toList then (true, (dbgSetMode s .silent).2)
    else if strcaseEq v "ERR".toList then (true, (dbgSetMode s .err).2)
    else if strcaseEq v "WAN".toList then (true, (dbgSetMode s .warn).2)
    else if strcaseEq v "INFO".toList then (true, (dbgSetMode s .msg).2)
    else (false, dbgPrint s .msg)

/-- `FlckDbgCntrlLoadEnv`, /repo/lib/flckdbg.cc 92-98 and 122-134. -/
def dbgLoadEnv (s : Dbg) (envMode envFile : Option Str) (closeOk : Bool) (fopen : Option Nat) :
    Bool × Dbg :=
  let (ok, s1) := dbgLoadMode s envMode
  if ok = false then (false, s1)
  else
    match envFile with
    | none => (true, dbgPrint s1 .msg)
    | some p =>
      let (ok2, s2) := dbgSetFile s1 p closeOk fopen
      if ok2 then (true, s2) else (false, dbgPrint s2 .msg)

/-- The calls of the debug control, with the answers of the stream library.  /repo/lib/flckdbg.h
38-43. -/
inductive DbgCall where
  | setMode (m : DbgMode)
  | bump
  | setFile (path : Str) (closeOk : Bool) (fopen : Option Nat)
  | unsetFile (closeOk : Bool)
  | loadEnv (envMode envFile : Option Str) (closeOk : Bool) (fopen : Option Nat)
  | print (level : DbgMode)
deriving DecidableEq, Repr

/-- Effect of a call. /repo/lib/flckdbg.cc 200-228. -/
def dbgStep (s : Dbg) : DbgCall → Dbg
  | .setMode m => (dbgSetMode s m).2
  | .bump => (dbgBump s).2
  | .setFile p c f => (dbgSetFile s p c f).2
  | .unsetFile c => (dbgUnsetFile s c).2
  | .loadEnv m p c f => (dbgLoadEnv s m p c f).2
  | .print l => dbgPrint s l

/-- No counterpart in the code: calls one after the other. -/
def dbgRun (s : Dbg) (cs : List DbgCall) : Dbg := cs.foldl dbgStep s

end Fullock
