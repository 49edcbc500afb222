import Verif.Model.RcsvConc
/-
The recursive lock class in processes made by fork.
Source: /repo/lib/rwlockrcsv.cc 25-552, /repo/lib/flckutil.cc 564-634 (the thread number of an object),
/repo/lib/flckutil.h 170-173 (the identity under which the segment records a lock).

The table of the class (`FLRwlStack`), its lock (`LockVal`) and the objects are ordinary memory of the
process: the child starts with a copy.  The thread that called fork goes on in the child with the thread
number it has cached (C51), the other threads do not exist there.  The segment records locks under process
and thread number, so what it has granted to the parent is not the child's; nothing of the class is run by
the fork handlers (/repo/lib/flckshm.cc 626-646).

Simplified: a descriptor stands for the same file in all processes; threads and processes do not end, and
thread numbers are not used twice; the thread that forks has used the library before, which is when its number
is cached.
-/
namespace Fullock.Rcsv.Fork
open Fullock.Rcsv.Conc

/-- The processes that exist, their memory and their threads; `held` of a process are the locks the
segment has recorded for it.  No counterpart in the code. -/
structure Sys where
  live : List Nat
  proc : Nat → CState
  alive : Nat → Nat → Bool

/-- What may happen. No counterpart in the code. -/
inductive Ev where
  /-- thread `t` of process `p` calls the class -/
  | call (p t : Nat) (os : List Bool) (op : Op)
  /-- it makes a step in the class -/
  | run (p t : Nat)
  /-- `pthread_create` in process `p` -/
  | spawn (p u : Nat)
  /-- `fork` by thread `t` of process `p`; the child is `q` -/
  | fork (p t q : Nat)

/-- The memory of the child: a copy; no thread is in a call; the segment has no lock of it.
/repo/lib/rwlockrcsv.cc 30-61, /repo/lib/flckutil.h 170-173. -/
def child (c : CState) : CState where
  sh := { c.sh with held := [] }
  owner := c.owner
  run := fun _ => none

/-- A lock of another process is in the way of a request. The segment, /repo/lib/flckshm.cc 731-838. -/
def away (s : Sys) (p : Nat) (r : Rng) (w : Bool) : Bool :=
  s.live.any fun q => q != p && busy (s.proc q).sh.held r w

/-- The next instruction is a request that waits for a lock of another process.  The segment,
/repo/lib/flckshm.cc 731-838. -/
def waits (s : Sys) (p t : Nat) : Bool :=
  match (s.proc p).run t with
  | some ⟨.grant r w _, os, _⟩ => os.headD true && away s p r w
  | _ => false

/-- No counterpart in the code: a process is changed. -/
def Sys.set (s : Sys) (p : Nat) (c : CState) : Sys :=
  { s with proc := fun q => if q = p then c else s.proc q }

/-- One step of the system.  /repo/lib/rwlockrcsv.cc 153-552; `fork` and `pthread_create` are the system's. -/
def step (s : Sys) : Ev → Option Sys
  | .call p t os op => if s.alive p t then (Conc.call (s.proc p) t os op).map (s.set p) else none
  | .run p t => if s.alive p t && !waits s p t then (Conc.step (s.proc p) t).map (s.set p) else none
  | .spawn p u =>
    if s.live.contains p && s.live.all (fun q => !s.alive q u) then
      some { s with alive := fun q v => if q = p ∧ v = u then true else s.alive q v }
    else none
  | .fork p t q =>
    if s.alive p t && !s.live.contains q && ((s.proc p).run t).isNone then
      some { live := q :: s.live,
             proc := fun o => if o = q then child (s.proc p) else s.proc o,
             alive := fun o v => if o = q then decide (v = t) else s.alive o v }
    else none

/-- One process with one thread, all objects constructed without a lock.  /repo/lib/rwlockrcsv.cc 30-61,
87-89. -/
def init (r : Nat → Rng) (m : Nat) : Sys where
  live := [0]
  proc := fun _ => Conc.init r
  alive := fun p t => decide (p = 0 ∧ t = m)

end Fullock.Rcsv.Fork
