import Verif.Model.MutexCond
/-!
Counters as machine integers.  `int` has 32 bits (the only platforms the project is built for).

* `lockcnt` of a named mutex is changed by `__sync_fetch_and_add` / `__sync_fetch_and_sub`, which wrap
  around (/repo/lib/flckbaselist.tcc 278, 287, 293, 306, 315, 321, 339, 348, 354, 382, 395).
  `step32` is the machine of Verif.Model.MutexCond with the counts of all mutexes wrapped.
* The local `int cnt` of fl_lock_mutex (/repo/lib/flckbaselist.tcc 267-273) is incremented by `cnt++`:
  an overflow is undefined behaviour.  `attempts` is that loop, the outcome of each attempt given.
  The counters of the other loops are in Verif.Model.LockId and Verif.Model.RwWord.
-/
namespace Fullock.Count
open Fullock.MC (State Ev)

/-- INT_MAX. The type of `lockcnt`, /repo/lib/flckstructure.h 88-95. -/
def intMax : Nat := 2147483647

/-- What a 32-bit `int` holds after a wrapping operation with result `n`.
/repo/lib/flckbaselist.tcc 278-395. -/
def wrap (n : Int) : Int := (n + 2147483648) % 4294967296 - 2147483648

/-- All counts as 32-bit integers. /repo/lib/flckstructure.h 88-95. -/
def wrapMem (s : State) : State :=
  { s with mem := { s.mem with mcnt := fun m => wrap (s.mem.mcnt m) } }

/-- One step with 32-bit counts: one atomic operation changes a count at most by one, or stores 0.
/repo/lib/flckbaselist.tcc 265-415. -/
def step32 (s : State) (e : Ev) : Option State := (MC.step s e).map wrapMem

/-- No counterpart in the code: events one after the other. -/
def run32 (s : State) : List Ev → Option State
  | [] => some s
  | e :: es => (step32 s e).bind (run32 · es)

/-- How the loop of fl_lock_mutex stands: still in it with `cnt`; got the mutex; EWOULDBLOCK;
overflow of `cnt`.  /repo/lib/flckbaselist.tcc 265-299. -/
inductive Loop where
  | going (cnt : Int)
  | got
  | wouldBlock
  | overflow
deriving DecidableEq, Repr

/-- /repo/lib/flckbaselist.tcc 268-297; the list says for each attempt whether it succeeds. -/
def attempts (max : Int) (cnt : Int) : List Bool → Loop
  | [] => .going cnt
  | b :: bs =>
    if max ≠ -1 ∧ max < cnt then .wouldBlock
    else if cnt = intMax then .overflow
    else if b then .got else attempts max (cnt + 1) bs

end Fullock.Count
