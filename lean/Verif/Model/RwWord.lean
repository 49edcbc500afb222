import Verif.Model.FileLock
/-
The lock word of a range, one memory access per step.

Source: /repo/lib/flckbaselist.tcc 145-263 (`fl_rdlock_rwlock`, `fl_tryrdlock_rwlock`,
`fl_timedrdlock_rwlock`, `fl_wrlock_rwlock`, `fl_trywrlock_rwlock`, `fl_timedwrlock_rwlock`,
`fl_unlock_rwlock`); constants /repo/lib/flckstructure.h 41-43, /repo/lib/flckbaselist.tcc 34.

Any number of threads call these functions on one word.  `Verif.Model.FileLock` has each attempt and
each unlock as one step (`canTake`, `takeWord`, `unlockWord`); here the read and the compare-and-swap
are separate steps and other threads may come between.

Simplified: the word and the retry counter are unbounded integers (`int` in the code); the comparison of
clock readings is an answer of the environment (it is in `Verif.Model.Time`).  Ghost: `held`, the tokens
of the locks taken and not yet released; calls carry a token that the code does not have.
-/
namespace Fullock.RW
open Fullock.FL (Mode)

/-- Which of the three functions per mode; `block n`: `max_count` is `n`, -1 = no limit.
/repo/lib/flckbaselist.tcc 145, 162, 175, 206, 219, 227. -/
inductive Kind where
  | block (max : Int) | try_ | timed
deriving DecidableEq, Repr

/-- A call, with the token of the lock it is about (ghost).  /repo/lib/flckbaselist.tcc 145-263,
called from /repo/lib/flcklistofflock.cc 97, 174-191. -/
inductive Call where
  | lock (k : Nat) (md : Mode) (kd : Kind)
  | unlock (k : Nat)
deriving DecidableEq, Repr

/-- 0, EBUSY, ETIMEDOUT. /repo/lib/flckbaselist.tcc 152, 159, 167. -/
inductive Res where
  | ok | ebusy | etimedout
deriving DecidableEq, Repr

/-- Where a thread is. /repo/lib/flckbaselist.tcc 145-263, lines as noted. -/
inductive Pc where
  /-- outside; result of the last call -/
  | idle (r : Res)
  /-- head of the loop, /repo/lib/flckbaselist.tcc 151-156, 164-166, 186-188, 210-215, 221, 233 -/
  | top (k : Nat) (md : Mode) (kd : Kind) (cnt : Nat)
  /-- reader: the word was read as `b` ≥ 0, /repo/lib/flckbaselist.tcc 158, 169, 189 -/
  | cas (k : Nat) (kd : Kind) (cnt : Nat) (b : Int)
  /-- timed: first reading of the clock, /repo/lib/flckbaselist.tcc 178, 230 -/
  | clk0 (k : Nat) (md : Mode)
  /-- timed: reading of the clock after a failed attempt, /repo/lib/flckbaselist.tcc 194-200, 234-240 -/
  | clk (k : Nat) (md : Mode)
  /-- /repo/lib/flckbaselist.tcc 251-260 -/
  | uTop (k : Nat)
  /-- /repo/lib/flckbaselist.tcc 261: expected value `b`, new value `n` -/
  | uCas (k : Nat) (b n : Int)
deriving DecidableEq, Repr

/-- Answer of the clock: error; the limit is over; not yet.  /repo/lib/flckbaselist.tcc 178,
195-200, 230, 235-240. -/
inductive Clock where
  | err | over | within
deriving DecidableEq, Repr

/-- The word, the threads and the ghost.  The word is `FLOFFLOCK::lockval`,
/repo/lib/flckstructure.h 62-71. -/
structure State where
  word : Int
  pc : Nat → Pc
  held : List (Nat × Mode)

/-- A thread enters a function, or makes its next step.  /repo/lib/flckbaselist.tcc 145-263. -/
inductive Ev where
  | call (t : Nat) (c : Call)
  | go (t : Nat) (clock : Clock)
deriving DecidableEq, Repr

/-- Place of a fresh call: /repo/lib/flckbaselist.tcc 150, 164, 177, 209, 221, 229, 250. -/
def Call.start : Call → Pc
  | .lock k md .timed => .clk0 k md
  | .lock k md kd => .top k md kd 0
  | .unlock k => .uTop k

/-- Where a failed attempt leads: next round, EBUSY, or the clock.  /repo/lib/flckbaselist.tcc
158, 166-171, 194, 215, 221-223, 233. -/
def fail (k : Nat) (md : Mode) (kd : Kind) (cnt : Nat) : Pc :=
  match kd with
  | .block _ => .top k md kd (cnt + 1)
  | .try_ => .idle .ebusy
  | .timed => .clk k md

/-- `FLCK_ROBUST_CHKCNT_NOLIMIT != max_count && max_count < cnt`, /repo/lib/flckbaselist.tcc 151, 210. -/
def spent (kd : Kind) (cnt : Nat) : Bool :=
  match kd with
  | .block max => decide (max ≠ -1) && decide (max < cnt)
  | _ => false

/-- A thread changes its place. No counterpart in the code. -/
def State.goto (s : State) (t : Nat) (p : Pc) : State := { s with pc := FL.fset s.pc t p }

/-- No counterpart in the code: the holders that have been told so. -/
def release (held : List (Nat × Mode)) (k : Nat) (w : Int) : List (Nat × Mode) :=
  held.erase (k, if w < 0 then .wr else .rd)

/-- One step, /repo/lib/flckbaselist.tcc 145-263. -/
def step (s : State) : Ev → Option State
  | .call t c =>
    match s.pc t with
    | .idle _ => some (s.goto t c.start)
    | _ => none
  | .go t c =>
    match s.pc t with
    | .idle _ => none
    | .clk0 k md => if c = .err then some (s.goto t (.idle .ebusy)) else some (s.goto t (.top k md .timed 0))
    | .top k md kd cnt =>
      if spent kd cnt then some (s.goto t (.idle .etimedout))
      else match md with
        | .rd =>
          if 0 > s.word then some (s.goto t (fail k .rd kd cnt))
          else some (s.goto t (.cas k kd cnt s.word))
        | .wr =>
          if s.word = 0 then
            some { (s.goto t (.idle .ok)) with word := -1, held := (k, .wr) :: s.held }
          else some (s.goto t (fail k .wr kd cnt))
    | .cas k kd cnt b =>
      if s.word = b then
        some { (s.goto t (.idle .ok)) with word := b + 1, held := (k, .rd) :: s.held }
      else some (s.goto t (fail k .rd kd cnt))
    | .clk k md =>
      match c with
      | .err => some (s.goto t (.idle .ebusy))
      | .over => some (s.goto t (.idle .etimedout))
      | .within => some (s.goto t (.top k md .timed 0))
    | .uTop k =>
      if s.word = 0 then some (s.goto t (.idle .ok))
      else if s.word ≤ -1 then some (s.goto t (.uCas k (-1) 0))
      else some (s.goto t (.uCas k s.word (s.word - 1)))
    | .uCas k b n =>
      if s.word = b then
        some { (s.goto t (.idle .ok)) with word := n, held := release s.held k s.word }
      else some (s.goto t (.uTop k))

/-- `pcurrent->lockval = FLCK_RWLOCK_UNLOCK`, /repo/lib/flcklistofflock.h 64; nobody in a call. -/
def init : State where
  word := 0
  pc := fun _ => .idle .ok
  held := []

/-- A sequence of steps. No counterpart in the code. -/
def run (s : State) : List Ev → Option State
  | [] => some s
  | e :: es => (step s e).bind fun s' => run s' es

end Fullock.RW
