/-
Model of the internal table lock ("lockid"): a word in shared memory holding the identity of the
thread inside the critical section, or 0.
Source: /repo/lib/flckbaselist.tcc 32 (limit), 59-92 (fl_lock_lockid), 94-127 (fl_unlock_lockid).

Identities are natural numbers, 0 is FLCK_INVALID_ID.  `FindThreadProcess` answers by `alive`
(see Verif.Model.Os for the function itself).  Simplification: the loop counter `int cnt` is
unbounded (in C++ it overflows after 2^31 unsuccessful rounds, theorem C73_table_not_full).
-/
namespace Fullock.LockId

/-- `FLCK_FLCKPID_TRYLOCK_LIMIT`. /repo/lib/flckbaselist.tcc 32. -/
def limit : Nat := 1000

/-- Where a thread is. /repo/lib/flckbaselist.tcc 59-127. -/
inductive Pc where
  /-- outside -/
  | out
  /-- fl_lock_lockid: about to do CAS(0 → me) (line 63); `cnt`, `oldval2` -/
  | acq (cnt old2 : Nat)
  /-- about to call FindThreadProcess (line 74); `cnt`, `oldval1` -/
  | chk (cnt old1 : Nat)
  /-- found dead, about to do CAS(old1 → me) (line 79) -/
  | steal (cnt old1 : Nat)
  /-- inside the critical section -/
  | crit
  /-- fl_unlock_lockid: about to do CAS(me → 0) (line 98) -/
  | rel (cnt old2 : Nat)
  /-- about to call FindThreadProcess (line 109) -/
  | rchk (cnt old1 : Nat)
  /-- about to do CAS(old1 → 0) (line 114) -/
  | rsteal (cnt old1 : Nat)
deriving DecidableEq, Repr

/-- The shared word (`flckpid_t*`), which threads are alive, and where they are;
/repo/lib/flckbaselist.tcc 59, 94. -/
structure State where
  lockid : Nat
  alive : Nat → Bool
  pc : Nat → Pc

/-- All threads alive and outside, the lock free.  /repo/lib/flckshminit.cc 231-302 sets the lock
words to 0. -/
def init : State := ⟨0, fun _ => true, fun _ => .out⟩

/-- No counterpart in the code: the thread goes to a place. -/
def State.setPc (s : State) (t : Nat) (p : Pc) : State :=
  { s with pc := fun u => if u = t then p else s.pc u }

/-- One own step of thread `t` inside the two loops.  /repo/lib/flckbaselist.tcc 59-127, lines as
noted at the places. -/
def own (s : State) (t : Nat) : State :=
  match s.pc t with
  | .out => s
  | .crit => s
  | .acq cnt old2 =>
    let v := s.lockid
    if v = 0 then { s with lockid := t }.setPc t .crit
    else if v = t then s.setPc t .crit
    else if v ≠ old2 then s.setPc t (.acq 1 v)
    else if limit < cnt then s.setPc t (.chk cnt v)
    else s.setPc t (.acq (cnt + 1) v)
  | .chk cnt v =>
    if s.alive v then s.setPc t (.acq (cnt + 1) v) else s.setPc t (.steal cnt v)
  | .steal cnt v =>
    if s.lockid = v then { s with lockid := t }.setPc t .crit
    else s.setPc t (.acq (cnt + 1) s.lockid)
  | .rel cnt old2 =>
    let v := s.lockid
    if v = t then { s with lockid := 0 }.setPc t .out
    else if v = 0 then s.setPc t .out
    else if v ≠ old2 then s.setPc t (.rel 1 v)
    else if limit < cnt then s.setPc t (.rchk cnt v)
    else s.setPc t (.rel (cnt + 1) v)
  | .rchk cnt v =>
    if s.alive v then s.setPc t (.rel (cnt + 1) v) else s.setPc t (.rsteal cnt v)
  | .rsteal cnt v =>
    if s.lockid = v then { s with lockid := 0 }.setPc t .out
    else s.setPc t (.rel (cnt + 1) s.lockid)

/-- One event: the calls of /repo/lib/flckbaselist.tcc 59 and 94, a step inside them, the end of a
thread. -/
inductive Ev where
  /-- call fl_lock_lockid -/
  | enter (t : Nat)
  /-- call fl_unlock_lockid -/
  | leave (t : Nat)
  /-- one step inside the call -/
  | go (t : Nat)
  /-- the thread is killed -/
  | die (t : Nat)
deriving DecidableEq, Repr

/-- One event; `none` when the event is not possible.  Thread identities are not 0.
/repo/lib/flckbaselist.tcc 59-127. -/
def step (s : State) : Ev → Option State
  | .enter t => if t ≠ 0 ∧ s.alive t ∧ s.pc t = .out then some (s.setPc t (.acq 0 0)) else none
  | .leave t => if s.alive t ∧ s.pc t = .crit then some (s.setPc t (.rel 0 0)) else none
  | .go t => if s.alive t then some (own s t) else none
  | .die t => some { s with alive := fun u => if u = t then false else s.alive u }

/-- No counterpart in the code: events one after the other. -/
def run (s : State) : List Ev → Option State
  | [] => some s
  | e :: es => (step s e).bind (run · es)

/-- `n` own steps of one thread, nobody else running. No counterpart in the code. -/
def alone (s : State) (t : Nat) : Nat → State
  | 0 => s
  | n + 1 => alone (own s t) t n

end Fullock.LockId
