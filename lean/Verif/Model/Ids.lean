/-
Model of thread identities and descriptor-less "descriptors".
Source: /repo/lib/flckutil.h 170-194, /repo/lib/fullock.h 35-36, /repo/lib/flckutil.cc 616-634.
-/
namespace Fullock

/-- `flckpid_t` (uint64_t), /repo/lib/flckcommon.h 53. -/
abbrev FlckPid := BitVec 64

/-- `compose_flckpid`, /repo/lib/flckutil.h 175-178 (also `get_flckpid` 170-173).
`pid_t`/`tid_t` are 32-bit signed: the casts to `uint64_t` sign-extend. -/
def composeFlckpid (pid tid : BitVec 32) : FlckPid :=
  (pid.signExtend 64 <<< 32) ||| (tid.signExtend 64 &&& 0xFFFFFFFF#64)

/-- `decompose_pid`, /repo/lib/flckutil.h 186-189 (and 182). -/
def decomposePid (id : FlckPid) : BitVec 32 := ((id >>> 32) &&& 0xFFFFFFFF#64).setWidth 32

/-- `decompose_tid`, /repo/lib/flckutil.h 191-194 (and 183). -/
def decomposeTid (id : FlckPid) : BitVec 32 := (id &&& 0xFFFFFFFF#64).setWidth 32

/-- `FLCK_RWLOCK_NO_FD(intval)`, /repo/lib/fullock.h 35. -/
def noFd (n : BitVec 32) : BitVec 32 := n ||| 0x80000000#32

/-- `IS_FLCK_RWLOCK_NO_FD(val)`, /repo/lib/fullock.h 36. -/
def isNoFd (fd : BitVec 32) : Bool := (fd &&& 0x80000000#32) == 0x80000000#32

/-! ### The per-thread cache of the thread id and fork -/

/-- A kernel thread: process number, thread number, and the value stored under the
`pthread_key` `FlTidCache::TidKey` (/repo/lib/flckutil.cc 564-611; NULL = `none`). -/
structure KThread where
  pid : Nat
  tid : Nat
  cache : Option Nat
deriving DecidableEq, Repr

/-- `get_threadid` by the thread: value returned and new cache, /repo/lib/flckutil.cc 616-634; `key`:
the key could be created (`IsInit`, 571-580), `store`: `pthread_setspecific` succeeds. -/
def getThreadid (key store : Bool) (t : KThread) : Nat × KThread :=
  if key then
    match t.cache with
    | none => (t.tid, if store then { t with cache := some t.tid } else t)
    | some c => (c, t)
  else (t.tid, t)

/-- Events of the process world: library call by the thread at a position, `pthread_create`
(thread specific data start as NULL), `fork` (the child's only thread is a copy of the calling
thread, including thread specific data; its tid is the child's pid), thread exit.  Events of the
system around the library; only `call` runs its code, /repo/lib/flckutil.cc 616-634. -/
inductive WorldEv where
  | call (i : Nat) (store : Bool)
  | create (i newTid : Nat)
  | fork (i newPid : Nat)
  | exit (i : Nat)
deriving DecidableEq, Repr

/-- One step of the process world; `key` is the same for the first process and all its children, which
copy it. Events naming no existing thread change nothing.  `call` is
/repo/lib/flckutil.cc 616-634, the others are the system's. -/
def worldStep (key : Bool) (w : List KThread) : WorldEv → List KThread
  | .call i store => match w[i]? with
    | none => w
    | some t => w.set i (getThreadid key store t).2
  | .create i n => match w[i]? with
    | none => w
    | some t => if w.any (fun u => u.tid == n) then w else w ++ [⟨t.pid, n, none⟩]
  | .fork i n => match w[i]? with
    | none => w
    | some t => if w.any (fun u => u.tid == n) then w else w ++ [⟨n, n, t.cache⟩]
  | .exit i => w.eraseIdx i

/-- The (pid, tid) pair which `get_flckpid` (/repo/lib/flckutil.h 170-173) puts into the shared
segment for this thread. -/
def identityOf (key store : Bool) (t : KThread) : Nat × Nat := (t.pid, (getThreadid key store t).1)

end Fullock
