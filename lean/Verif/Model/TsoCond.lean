import Verif.Model.Tso
/-
The word of a condition's waiter, and data handed over by a signal, on processors with store buffers.
Source: /repo/lib/flcklistwaiter.cc 53-105 (`rawlock`), /repo/lib/flcklistwaiter.h 48-58, 64, /repo/lib/flckbaselist.tcc 417-452.

The threads run any program of waits, signals and plain accesses to data. Waits and signals are their accesses to the word of the waiter's
record, and the end of the table lock. Left out: the mutex of the wait (its word is only read and changed by atomic operations, C90), the
lists (C89), the wait whose mutex cannot be unlocked (/repo/lib/flcklistwaiter.cc 78-84); that nobody but the waiter of the record waits on
its word, and that signals are sent inside of the table lock, is not used.
-/
namespace Fullock.TsoCond
open Fullock.Tso

/-- The word of waiter record `w` (`lockstatus`, /repo/lib/flckstructure.h 104), data of the user, the table lock. -/
def wordA (w : Nat) : Nat := 2 * w + 2
/-- Data of the user, see `wordA`. No counterpart in the code. -/
def dataA (a : Nat) : Nat := 2 * a + 1

/-- `FLCK_NCOND_UP`, /repo/lib/flcklocktype.h 36. -/
def up : Nat := 0
/-- `FLCK_NCOND_WAIT`, /repo/lib/flcklocktype.h 35. -/
def waiting : Nat := 2

/-- What the program of a thread does next; `U`: state of the program. `wait w lim k`: a wait as the record `w`, with a time limit or
not, that goes on with `k true` when it is told, with `k false` when the time is over. No counterpart in the code. -/
inductive UIns (U : Type) where
  | wait (w : Nat) (lim : Bool) (k : Bool → U)
  | signal (w : Nat) (u : U)
  | rd (a : Nat) (k : Nat → U)
  | wr (a v : Nat) (u : U)
  | any (k : Nat → U)

/-- Places of a thread, /repo/lib/flckbaselist.tcc 417-452, /repo/lib/flcklistwaiter.cc 53-105. -/
inductive Pc (U : Type) where
  /-- in its own program -/
  | usr (u : U)
  /-- `lockstatus = FLCK_NCOND_WAIT` inside of the table lock, /repo/lib/flcklistncond.cc 118 -/
  | ini (w : Nat) (lim : Bool) (k : Bool → U)
  /-- the table lock is left, /repo/lib/flcklistncond.cc 131 -/
  | rel (w : Nat) (lim : Bool) (k : Bool → U)
  /-- `oldstatus1 = *plockstatus`, 448, of the waiter -/
  | armA (w : Nat) (lim : Bool) (k : Bool → U)
  /-- compare-and-swap, 448, of the waiter -/
  | armC (w b : Nat) (lim : Bool) (k : Bool → U)
  /-- the loop, 419 or 431 -/
  | wt (w : Nat) (lim : Bool) (k : Bool → U)
  /-- `IS_OVER_TIMESPEC`, 436 -/
  | tm (w : Nat) (lim : Bool) (k : Bool → U)
  /-- `is_wait`, /repo/lib/flcklistwaiter.h 64 -/
  | isW (w : Nat) (u : U)
  /-- `oldstatus1 = *plockstatus`, 448, of the signal -/
  | sgA (w : Nat) (u : U)
  /-- compare-and-swap, 448, of the signal -/
  | sgC (w b : Nat) (u : U)

variable {U : Type}

/-- The instruction of thread `t`. /repo/lib/flckbaselist.tcc 417-452, /repo/lib/flcklistwaiter.cc 53-105, /repo/lib/flcklistncond.cc
71-134. -/
def ccode (prog : Nat → U → UIns U) (t : Nat) : Pc U → Ins (Pc U)
  | .usr u =>
    match prog t u with
    | .wait w lim k => .any fun _ => .ini w lim k
    | .signal w u => .any fun _ => .isW w u
    | .rd a k => .rd (dataA a) fun v => .usr (k v)
    | .wr a v u => .wr (dataA a) v (.usr u)
    | .any k => .any fun n => .usr (k n)
  | .ini w lim k => .wr (wordA w) waiting (.rel w lim k)
  | .rel w lim k => .rmw lockA id fun _ => .armA w lim k
  | .armA w lim k => .rd (wordA w) fun b => .armC w b lim k
  | .armC w b lim k => .cas (wordA w) b waiting fun x => if x = b then .wt w lim k else .armC w x lim k
  | .wt w lim k => .cas (wordA w) up up fun x => if x = up then .usr (k true) else if lim then .tm w lim k else .wt w lim k
  | .tm w lim k => .any fun n => if n = 0 then .wt w lim k else .usr (k false)
  | .isW w u => .rd (wordA w) fun x => if x = waiting then .sgA w u else .usr u
  | .sgA w u => .rd (wordA w) fun b => .sgC w b u
  | .sgC w b u => .cas (wordA w) b up fun x => if x = b then .usr u else .sgC w x u

/-- Everything zero (`FLCK_NCOND_UP`, /repo/lib/flcklistwaiter.h 61). -/
def cinit (u : Nat → U) : St (Pc U) :=
  { mem := fun _ => 0, buf := fun _ => [], loc := fun t => .usr (u t), alive := fun _ => true }

end Fullock.TsoCond
