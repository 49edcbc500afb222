/-
Model of the start-up protocol: creating, initialising and attaching the segment file, detaching.
Source: /repo/lib/flckshminit.cc 48-229 (`Attach`, `Detach`, `InitializeShm`), 231-302
(`InitializeShmFile`, here in four phases; its memory is modelled in `Layout`), 376-395 (`Destroy`);
/repo/lib/flckutil.cc 371-419 (record lock on byte 0, never blocking here).

Any number of processes.  A record lock belongs to a process: it is not inherited by a child and is
dropped at the death of its owner or when the owner closes the file (POSIX `fcntl`).  A lock request is
refused only because of a conflicting lock.  Errors of `open` leave the state as it is and are not
represented.  The file is never removed by the library.
-/
namespace Fullock.Init

/-- What the file holds: nothing (size 0), zeros, version and length but not all lists,
everything.  After /repo/lib/flckshminit.cc 239, 264, 285, 291. -/
inductive Phase where
  | empty | zeros | header | complete
  deriving DecidableEq, Repr

/-- Record locks, /repo/lib/flckutil.cc 371-419. -/
inductive Lk where
  | none | read | write
  deriving DecidableEq, Repr

/-- Where a process is: `off` = not attached, `opened` = has the file open before its try number `n` for
the write lock (`created`: this process made the file), `tryRead` = write lock refused, `gotRead` = has
the read lock before `Attach`, `locked` = has the write lock before `InitializeShmFile`, `writing ph` =
in `InitializeShmFile`, the file being in phase `ph`, `inited` = after it, `attached` (`own`: through
`InitializeShm`, not by fork).  Places in /repo/lib/flckshminit.cc 115-302. -/
inductive Pc where
  | off
  | opened (created : Bool) (n : Nat)
  | tryRead (n : Nat)
  | gotRead
  | locked
  | writing (ph : Phase)
  | inited
  | attached (own : Bool)
  | dead
  deriving DecidableEq, Repr

/-- The file, its record locks, the processes; /repo/lib/flckshminit.cc 115-302. -/
structure State where
  exist : Bool
  phase : Phase
  version : Nat
  lock : Nat → Lk
  pc : Nat → Pc

/-- No counterpart in the code: an assignment. -/
def upd {α : Type} (f : Nat → α) (p : Nat) (v : α) : Nat → α := fun q => if q = p then v else f q

/-- A new place and lock of `p`. No counterpart in the code. -/
def State.put (s : State) (p : Nat) (l : Lk) (c : Pc) : State :=
  { s with lock := upd s.lock p l, pc := upd s.pc p c }

/-- Nobody else holds any lock: `fcntl`, /repo/lib/flckutil.cc 371-404. -/
def State.canWrite (s : State) (p : Nat) : Prop := ∀ q, q ≠ p → s.lock q = .none
/-- Nobody else holds a write lock: `fcntl`, /repo/lib/flckutil.cc 371-404. -/
def State.canRead (s : State) (p : Nat) : Prop := ∀ q, q ≠ p → s.lock q ≠ .write

/-- Kinds of steps: `touch` changes the contents of the file, `abort` = an initialiser fails or dies,
`refuse` = a start gives up because of locks.  No counterpart in the code. -/
inductive Kind where
  | touch | abort | refuse | other

/-- Number of tries, /repo/lib/flckshminit.cc 142. -/
def tries : Nat := 100

/-- What `Attach` does after the read lock, /repo/lib/flckshminit.cc 48-86; `ok` = success of `mmap`.  An
empty file kills the process at the first access (SIGBUS); zeros give length 0, which cannot be mapped. -/
def attachRes (ver : Nat) (s : State) (p : Nat) (ok : Bool) : State :=
  match s.phase with
  | .empty => s.put p .none .dead
  | .zeros => s.put p .none .off
  | _ =>
    if ver < s.version then s.put p .none .off
    else if ok then s.put p .read (.attached true)
    else s.put p .none .off

/-- One step of process `p`; `ver q` is the file version that the library in process `q` writes and
accepts (/repo/lib/flckstructure.h 35).  The numbers at the cases are lines of /repo/lib/flckshminit.cc. -/
inductive Step (ver : Nat → Nat) : Kind → State → State → Prop
  /-- 125, new file -/
  | create (p : Nat) (h : s.pc p = .off) (he : s.exist = false) :
      Step ver .other s { s.put p .none (.opened true 0) with exist := true, phase := .empty, version := 0 }
  /-- 132, existing file -/
  | openOld (p : Nat) (h : s.pc p = .off) (he : s.exist = true) :
      Step ver .other s (s.put p .none (.opened false 0))
  /-- 144, 183 -/
  | wlock (p : Nat) (c : Bool) (n : Nat) (h : s.pc p = .opened c n) (hl : s.canWrite p) :
      Step ver .other s (s.put p .write .locked)
  | wlockNo (p n : Nat) (h : s.pc p = .opened false n) (hl : ¬ s.canWrite p) :
      Step ver .other s (s.put p .none (.tryRead n))
  /-- 183-187 -/
  | createNo (p n : Nat) (h : s.pc p = .opened true n) (hl : ¬ s.canWrite p) :
      Step ver .refuse s (s.put p .none .off)
  /-- 160 -/
  | rlock (p n : Nat) (h : s.pc p = .tryRead n) (hl : s.canRead p) :
      Step ver .other s (s.put p .read .gotRead)
  /-- 169-171, next try -/
  | rlockNo (p n : Nat) (h : s.pc p = .tryRead n) (hl : ¬ s.canRead p) (hn : n + 1 < tries) :
      Step ver .other s (s.put p .none (.opened false (n + 1)))
  /-- 173-177, no try left -/
  | rlockEnd (p n : Nat) (h : s.pc p = .tryRead n) (hl : ¬ s.canRead p) (hn : tries ≤ n + 1) :
      Step ver .refuse s (s.put p .none .off)
  /-- 162-167 -/
  | attach (p : Nat) (ok : Bool) (h : s.pc p = .gotRead) :
      Step ver .other s (attachRes (ver p) s p ok)
  /-- 239 -/
  | truncate (p : Nat) (h : s.pc p = .locked) :
      Step ver .touch s { s.put p .write (.writing .empty) with phase := .empty, version := 0 }
  /-- 264 -/
  | zero (p : Nat) (h : s.pc p = .writing .empty) :
      Step ver .touch s { s.put p .write (.writing .zeros) with phase := .zeros }
  /-- 278-285; version and length in one step -/
  | head (p : Nat) (h : s.pc p = .writing .zeros) :
      Step ver .touch s { s.put p .write (.writing .header) with phase := .header, version := ver p }
  /-- 286-291 -/
  | build (p : Nat) (h : s.pc p = .writing .header) :
      Step ver .touch s { s.put p .write .inited with phase := .complete }
  /-- 146-148, 189-193: `InitializeShmFile` fails, `Detach` -/
  | initFail (p : Nat) (h : s.pc p = .locked ∨ ∃ ph, s.pc p = .writing ph) :
      Step ver .abort s (s.put p .none .off)
  /-- 151, 195: the write lock becomes a read lock -/
  | rdown (p : Nat) (h : s.pc p = .inited) : Step ver .other s (s.put p .read (.attached true))
  /-- `Detach`, 88-113, from `Destroy` or after a failed start of the worker -/
  | detach (p : Nat) (o : Bool) (h : s.pc p = .attached o) : Step ver .other s (s.put p .none .off)
  /-- the child inherits the mapping, not the lock; `PreforkHandler`, /repo/lib/flckshm.cc 631-641 -/
  | fork (p q : Nat) (o : Bool) (h : s.pc p = .attached o) (hq : s.pc q = .off) (hv : ver q = ver p) :
      Step ver .other s (s.put q .none (.attached false))
  | crash (p : Nat) (h : s.pc p ≠ .locked) (h' : ∀ ph, s.pc p ≠ .writing ph) :
      Step ver .other s (s.put p .none .dead)
  | crashInit (p : Nat) (h : s.pc p = .locked ∨ ∃ ph, s.pc p = .writing ph) :
      Step ver .abort s (s.put p .none .dead)

/-- Before anybody has started: no file, or a file left by earlier users.  No counterpart in the
code. -/
def start (ex : Bool) (ph : Phase) (v : Nat) : State :=
  { exist := ex, phase := ph, version := v, lock := fun _ => .none, pc := fun _ => .off }

/-- Reachable states; `ab` = aborted initialisations are allowed.  No counterpart in the code. -/
inductive Reach (ver : Nat → Nat) (ab : Bool) : State → Prop
  | start (ex : Bool) (ph : Phase) (v : Nat) : Reach ver ab (start ex ph v)
  | step (k : Kind) (hk : k = .abort → ab = true) : Reach ver ab s → Step ver k s s' → Reach ver ab s'

end Fullock.Init
