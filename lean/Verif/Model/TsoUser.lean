import Verif.Model.Tso
/-
Data of the user guarded by range locks and named mutexes, on processors with store buffers.
Source: /repo/lib/flckbaselist.tcc 145-160 (`fl_rdlock_rwlock`), 206-217 (`fl_wrlock_rwlock`), 246-263 (`fl_unlock_rwlock`),
265-301 (`fl_lock_mutex`), 370-399 (`fl_unlock_mutex`).

The threads run any program of calls and plain accesses to data. Calls are their accesses to the lock words; their accesses to the
tables are in C89. Recovery of dead threads' locks is left out: they stay locked.
-/
namespace Fullock.TsoUser
open Fullock.Tso

/-- Lock word of a range lock, word and count of a mutex, data of the user: four kinds of cells.
`lockval` (/repo/lib/flckstructure.h 65), `lockval` and `lockcnt` of a mutex (91-92). -/
def rwA (l : Nat) : Nat := 4 * l
/-- Word of a mutex, /repo/lib/flckstructure.h 91, see `rwA`. -/
def mxA (l : Nat) : Nat := 4 * l + 1
/-- Count of a mutex, /repo/lib/flckstructure.h 92, see `rwA`. -/
def cntA (l : Nat) : Nat := 4 * l + 2
/-- Data of the user, see `rwA`. No counterpart in the code. -/
def dataA (a : Nat) : Nat := 4 * a + 3

/-- What the program of a thread does next. `U`: state of the program. No counterpart in the code. -/
inductive UIns (U : Type) where
  | rlock (l : Nat) (u : U)
  | wlock (l : Nat) (u : U)
  | unlock (l : Nat) (u : U)
  | mlock (l : Nat) (u : U)
  | munlock (l : Nat) (u : U)
  | rd (a : Nat) (k : Nat → U)
  | wr (a v : Nat) (u : U)
  | any (k : Nat → U)

/-- Places of a thread, in /repo/lib/flckbaselist.tcc 145-160, 206-217, 246-263, 265-301, 370-399. -/
inductive Pc (U : Type) where
  /-- in its own program -/
  | usr (u : U)
  /-- `beforeval = *plockval`, 156 -/
  | rdA (l : Nat) (u : U)
  /-- the test and compare-and-swap, 158 -/
  | rdC (l b : Nat) (u : U)
  /-- compare-and-swap, 215 -/
  | wrC (l : Nat) (u : U)
  /-- `beforeval = *plockval`, 251 -/
  | unA (l : Nat) (u : U)
  /-- compare-and-swap, 261 -/
  | unC (l b : Nat) (u : U)
  /-- `lockid == *plockval`, 276 -/
  | mlA (l : Nat) (u : U)
  /-- count up, already locked, 278 -/
  | mlR (l : Nat) (u : U)
  /-- look again, 281 -/
  | mlV (l : Nat) (u : U)
  /-- compare-and-swap, 291 -/
  | mlC (l : Nat) (u : U)
  /-- count up, 293 -/
  | mlN (l : Nat) (u : U)
  /-- `FLCK_MUTEX_UNLOCK == *plockval`, 374 -/
  | muA (l : Nat) (u : U)
  /-- `lockid != *plockval`, 377 -/
  | muB (l : Nat) (u : U)
  /-- count down, 382 -/
  | muC (l : Nat) (u : U)
  /-- compare-and-swap, 390 -/
  | muU (l : Nat) (u : U)

/-- A range lock as the thread has it. No counterpart in the code. -/
inductive Mode where
  | no | r | w
  deriving DecidableEq

/-- A thread: place, range locks, nesting of mutexes. The last two are what its calls have returned, kept for the specification.
No counterpart in the code. -/
structure Lc (U : Type) where
  pc : Pc U
  mode : Nat → Mode
  depth : Nat → Nat

/-- The word with one more reader; words are 0, -1, 1, 2, … in the code and 0, 1, 2, 3, … here.
/repo/lib/flckbaselist.tcc 157. -/
def inc (v : Nat) : Nat := if v = 0 then 2 else v + 1

/-- The word after an unlock. /repo/lib/flckbaselist.tcc 252-260. -/
def dec (v : Nat) : Nat := if v ≤ 2 then 0 else v - 1

variable {U : Type}

/-- The call returns: the program goes on. No counterpart in the code. -/
def ret (s : Lc U) (u : U) : Lc U := { s with pc := .usr u }

/-- To another place of the call. No counterpart in the code. -/
def goto (s : Lc U) (p : Pc U) : Lc U := { s with pc := p }

/-- A range lock is had, or not any more, from here on. No counterpart in the code. -/
def setMode (s : Lc U) (l : Nat) (m : Mode) : Lc U := { s with mode := fput s.mode l m }

/-- The nesting of a mutex. No counterpart in the code. -/
def setDepth (s : Lc U) (l d : Nat) : Lc U := { s with depth := fput s.depth l d }

/-- The instruction of thread `t`. The bounds on the number of rounds (150-154, 210-214, 269-273) are left out (calls without
robustness). Left out because they are never reached (`C90_owner`): the mutex is another's in 281 and 390 (282-287, 394-395), its
count is less than one in 383-387.
/repo/lib/flckbaselist.tcc 145-399. -/
def ucode (prog : Nat → U → UIns U) (t : Nat) (s : Lc U) : Ins (Lc U) :=
  match s.pc with
  | .usr u =>
    match prog t u with
    | .rlock l u => .any fun _ => goto s (.rdA l u)
    | .wlock l u => .any fun _ => goto s (.wrC l u)
    | .unlock l u => .any fun _ => goto s (.unA l u)
    | .mlock l u => .any fun _ => goto s (.mlA l u)
    | .munlock l u => .any fun _ => goto s (.muA l u)
    | .rd a k => .rd (dataA a) fun v => ret s (k v)
    | .wr a v u => .wr (dataA a) v (ret s u)
    | .any k => .any fun n => ret s (k n)
  | .rdA l u => .rd (rwA l) fun b => if b = 1 then goto s (.rdA l u) else goto s (.rdC l b u)
  | .rdC l b u => .cas (rwA l) b (inc b) fun v => if v = b then ret (setMode s l .r) u else goto s (.rdA l u)
  | .wrC l u => .cas (rwA l) 0 1 fun v => if v = 0 then ret (setMode s l .w) u else goto s (.wrC l u)
  | .unA l u => .rd (rwA l) fun b => if b = 0 then ret s u else goto s (.unC l b u)
  | .unC l b u => .cas (rwA l) b (dec b) fun v => if v = b then ret (setMode s l .no) u else goto s (.unA l u)
  | .mlA l u => .rd (mxA l) fun x => if x = idOf t then goto s (.mlR l u) else goto s (.mlC l u)
  | .mlR l u => .rmw (cntA l) (· + 1) fun _ => goto s (.mlV l u)
  | .mlV l u => .cas (mxA l) (idOf t) (idOf t) fun _ => ret (setDepth s l (s.depth l + 1)) u
  | .mlC l u => .cas (mxA l) 0 (idOf t) fun x => if x = 0 then goto s (.mlN l u) else goto s (.mlA l u)
  | .mlN l u => .rmw (cntA l) (· + 1) fun _ => ret (setDepth s l 1) u
  | .muA l u => .rd (mxA l) fun x => if x = 0 then ret s u else goto s (.muB l u)
  | .muB l u => .rd (mxA l) fun x => if x ≠ idOf t then ret s u else goto s (.muC l u)
  | .muC l u => .rmw (cntA l) (· - 1) fun c =>
      let s := setDepth s l (s.depth l - 1)
      if c ≤ 1 then goto s (.muU l u) else goto s (.muA l u)
  | .muU l u => .cas (mxA l) (idOf t) 0 fun _ => ret s u

/-- Nothing is locked, all data are zero. /repo/lib/flckshminit.cc 231-302. -/
def uinit (u : Nat → U) : St (Lc U) :=
  { mem := fun _ => 0, buf := fun _ => [], loc := fun t => ⟨.usr (u t), fun _ => .no, fun _ => 0⟩, alive := fun _ => true }

end Fullock.TsoUser
