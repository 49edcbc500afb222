/-
Threads on processors with store buffers (x86-TSO), and the table lock on them.
Source: /repo/lib/flckbaselist.tcc 59-127 (`fl_lock_lockid`, `fl_unlock_lockid`; the atomic operations are `__sync_*`, full
barriers), /repo/lib/flckshm.cc 494-966 (`fl_lock_lockid` … `fl_unlock_lockid` around plain accesses to the tables).

The other models have sequentially consistent memory. Here a plain write goes into the buffer of its thread and reaches memory at
any later time, in order; a read looks into the own buffer first; an atomic operation needs an empty buffer.
-/
namespace Fullock.Tso

/-- Accesses to shared memory. `any`: a choice (arguments of calls, counts); `rmw`: an atomic operation (`__sync_*`) that gives
what was there; `ask u`: is thread `u` alive
(`FindThreadProcess`, /repo/lib/flckutil.cc 244-268). No counterpart in the code. -/
inductive Ins (L : Type) where
  | rd (a : Nat) (k : Nat → L)
  | wr (a v : Nat) (l : L)
  | rmw (a : Nat) (f : Nat → Nat) (k : Nat → L)
  | ask (u : Nat) (k : Bool → L)
  | any (k : Nat → L)

/-- `__sync_val_compare_and_swap` (/repo/lib/flckbaselist.tcc 63): the new value is written if the old one is there; gives what
was there. -/
def Ins.cas {L : Type} (a old new : Nat) (k : Nat → L) : Ins L := .rmw a (fun x => if x = old then new else x) k

/-- One memory cell is written. No counterpart in the code. -/
def put (m : Nat → Nat) (a v : Nat) : Nat → Nat := fun b => if b = a then v else m b

/-- Memory as a thread sees it: its own writes that are under way, oldest first, are done. The processor's, no counterpart in the code. -/
def view (m : Nat → Nat) : List (Nat × Nat) → Nat → Nat
  | [] => m
  | w :: b => view (put m w.1 w.2) b

/-- Memory, buffers, threads. No counterpart in the code. -/
structure St (L : Type) where
  mem : Nat → Nat
  buf : Nat → List (Nat × Nat)
  loc : Nat → L
  alive : Nat → Bool

/-- No counterpart in the code: a function changed at one place. -/
def fput {α : Type} (f : Nat → α) (t : Nat) (x : α) : Nat → α := fun u => if u = t then x else f u

/-- A thread makes an instruction (`n`: its choice), the oldest write of a thread reaches memory, or a thread is killed.
No counterpart in the code. -/
inductive Ev where
  | run (t n : Nat)
  | flush (t : Nat)
  | die (t : Nat)

/-- One step with store buffers. A thread whose death others can see has no writes under way: they are done at the latest when
the kernel takes the thread off its processor. The processor and the kernel, no counterpart in the code. -/
def step {L : Type} (code : Nat → L → Ins L) (s : St L) : Ev → Option (St L)
  | .run t n =>
    if s.alive t = false then none
    else match code t (s.loc t) with
    | .rd a k => some { s with loc := fput s.loc t (k (view s.mem (s.buf t) a)) }
    | .wr a v l => some { s with buf := fput s.buf t (s.buf t ++ [(a, v)]), loc := fput s.loc t l }
    | .rmw a f k =>
      if s.buf t = [] then some { s with mem := put s.mem a (f (s.mem a)), loc := fput s.loc t (k (s.mem a)) }
      else none
    | .ask u k => some { s with loc := fput s.loc t (k (s.alive u)) }
    | .any k => some { s with loc := fput s.loc t (k n) }
  | .flush t =>
    match s.buf t with
    | [] => none
    | w :: b => some { s with mem := put s.mem w.1 w.2, buf := fput s.buf t b }
  | .die t => if s.buf t = [] then some { s with alive := fput s.alive t false } else none

/-! ### The table lock around accesses to the tables -/

/-- Plain accesses inside of the lock, /repo/lib/flckshm.cc 494-966; `fin`: the section ends. -/
inductive Body (B : Type) where
  | rd (a : Nat) (k : Nat → B)
  | wr (a v : Nat) (b : B)
  | fin

/-- Places of a thread in `fl_lock_lockid`, the section and `fl_unlock_lockid`. /repo/lib/flckbaselist.tcc 59-127. -/
inductive Loc (B : Type) where
  /-- in no call -/
  | out
  /-- before the compare-and-swap of `fl_lock_lockid`, 63 -/
  | acq (b : B)
  /-- the lock has value `x`: the loop goes on (67-68, 86) or the holder is looked up (74), 64-86 -/
  | seen (b : B) (x : Nat)
  /-- `FindThreadProcess`, 74 -/
  | look (b : B) (x : Nat)
  /-- compare-and-swap of the dead holder's value, 79 -/
  | steal (b : B) (x : Nat)
  /-- inside -/
  | inn (b : B)

/-- The address of the lock (`file_lock_lockid` and so on, /repo/lib/flckstructure.h). -/
def lockA : Nat := 0

/-- The value thread `t` puts into the lock: its `flckpid`, not `FLCK_INVALID_ID`. /repo/lib/flckutil.h 175-178. -/
def idOf (t : Nat) : Nat := t + 1

/-- The instruction of thread `t` at a place. Whether the count of rounds has passed the limit with an unchanged value
(67-69) is a choice. `start n`: the section of call `n`. The loop of `fl_unlock_lockid` (99-126) is left out: its
compare-and-swap (98) finds the own value, `C89_leaves`. /repo/lib/flckbaselist.tcc 59-127. -/
def code {B : Type} (body : Nat → B → Body B) (start : Nat → Nat → B) (t : Nat) : Loc B → Ins (Loc B)
  | .out => .any fun n => .acq (start t n)
  | .acq b => .cas lockA 0 (idOf t) fun x => if x = 0 ∨ x = idOf t then .inn b else .seen b x
  | .seen b x => .any fun n => if n = 0 then .acq b else .look b x
  | .look b x => .ask (x - 1) fun al => if al then .acq b else .steal b x
  | .steal b x => .cas lockA x (idOf t) fun y => if y = x then .inn b else .acq b
  | .inn b =>
    match body t b with
    | .rd a k => .rd a fun v => .inn (k v)
    | .wr a v b' => .wr a v (.inn b')
    | .fin => .cas lockA (idOf t) 0 fun _ => .out

/-- All memory zero, nobody in a call. /repo/lib/flckshminit.cc 231-302. -/
def init (B : Type) : St (Loc B) := { mem := fun _ => 0, buf := fun _ => [], loc := fun _ => .out, alive := fun _ => true }

/-- Another machine: the death of a thread can be seen before its writes are done. For what becomes of the claims there. No
counterpart in the code. -/
def lateStep {L : Type} (code : Nat → L → Ins L) (s : St L) : Ev → Option (St L)
  | .die t => some { s with alive := fput s.alive t false }
  | e => step code s e

/-! ### The flag of a granted lock -/

/-- Places in a call that waits for one lock word and then sets the flag of its record outside of the table lock.
/repo/lib/flcklistofflock.cc 143-166. -/
inductive FLoc where
  | idle
  /-- in `dolock`, 169-235 -/
  | wait
  /-- `set_lock`, 164 -/
  | flag
  /-- returned with 0 -/
  | held
  /-- reading the flag of thread `u` (`is_locked`, /repo/lib/flcklistofflock.cc 256) -/
  | peek (u : Nat)
  | saw (u v : Nat)
  deriving DecidableEq

/-- The lock word has address 0, the flag of thread `t`'s record address `t + 1`. Write lock without time limit, holders keep the
lock. /repo/lib/flcklistofflock.cc 143-166, /repo/lib/flckbaselist.tcc 206-217. -/
def flagCode (t : Nat) : FLoc → Ins FLoc
  | .idle => .any fun n => if n = 0 then .wait else .peek (n - 1)
  | .wait => .cas 0 0 1 fun x => if x = 0 then .flag else .wait
  | .flag => .wr (t + 1) 1 .held
  | .held => .any fun _ => .held
  | .peek u => .rd (u + 1) fun v => .saw u v
  | .saw _ _ => .any fun _ => .idle

/-- Nobody has a lock. /repo/lib/flckshminit.cc 231-302. -/
def flagInit : St FLoc := { mem := fun _ => 0, buf := fun _ => [], loc := fun _ => .idle, alive := fun _ => true }

end Fullock.Tso
