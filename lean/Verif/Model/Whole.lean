import Verif.Model.FileLock
import Verif.Model.RcsvConc
/-
Several processes using the recursive lock class on one segment.
Source: /repo/lib/rwlockrcsv.cc 25-552 on /repo/lib/flckshm.cc 731-838, 1004-1027.

`Verif.Model.RcsvConc` has the threads of one process and a segment that grants or refuses at once;
`Verif.Model.FileLock` has the file locks of the segment, step by step.  Here any number of processes run
the programs of the class, and each of their calls of the segment (`shm.ReadLock`, `shm.WriteLock`,
`shm.Unlock`: /repo/lib/rwlockrcsv.cc 230, 313, 412, 428) is carried out step by step on the tables they
share; other threads use the segment directly.

Simplified: a descriptor of a process stands for the same file throughout.  The list of granted locks and
the outcomes in the states of the processes are not used (they are in the tables here).
-/
namespace Fullock.Whole
open Fullock.Rcsv (Op Obj)
open Fullock.Rcsv.Conc (Prog Frame CState)

/-- What does not change. No counterpart in the code. -/
structure Par where
  /-- the thread uses the class -/
  cls : Nat → Bool
  /-- its process -/
  pr : Nat → Nat
  /-- the file behind a descriptor of a process (`fstat`, /repo/lib/flckshm.cc 741-745) -/
  key : Nat → Int → DevIno
  /-- `IsFreeUnitOffset`, `IsFreeUnitFd` of the process -/
  freeOff : Nat → Bool
  freeFd : Nat → Bool

/-- Offset and length as the segment sees them. /repo/lib/rwlockrcsv.h 41-44. -/
def conv (r : Rcsv.Rng) : Rng := ⟨BitVec.ofNat 64 r.off, BitVec.ofNat 64 r.len⟩

/-- The request of thread `t` for range `r`, without limit: /repo/lib/flckshm.cc 1004-1027. -/
def req (P : Par) (t : Nat) (r : Rcsv.Rng) (md : FL.Mode) : FL.Op :=
  ⟨r.fd, P.key (P.pr t) r.fd, conv r, md, .block, P.freeOff (P.pr t), P.freeFd (P.pr t)⟩

/-- The segment call an instruction stands for: `shm.ReadLock`, `shm.WriteLock`, `shm.Unlock`,
/repo/lib/rwlockrcsv.cc 230, 313, 412, 428. -/
def segCall (P : Par) (t : Nat) : Prog → Option FL.Call
  | .grant r w _ => some (.lock (req P t r (if w then .wr else .rd)))
  | .free r _ => some (.unlock (req P t r .rd))
  | _ => none

/-- The program after a segment call that returned success (`b`) or not, /repo/lib/rwlockrcsv.cc 230-252,
313-339, 412-466. -/
def resume (b : Bool) : Prog → Prog
  | .grant _ _ k => k b
  | .free _ k => k b
  | p => p

/-- The segment, the processes, and which threads are in a segment call made by the class.
No counterpart in the code. -/
structure State where
  fl : FL.State
  proc : Nat → CState
  inSeg : Nat → Bool

/-- What may happen. No counterpart in the code. -/
inductive Ev where
  /-- thread `t` calls the class -/
  | call (t : Nat) (op : Op)
  /-- thread `t`, in the class, makes a step outside of the segment -/
  | own (t : Nat)
  /-- it enters the segment -/
  | enter (t : Nat)
  /-- it makes a step in the segment -/
  | seg (t : Nat) (c : FL.Choice)
  /-- it comes back from the segment -/
  | leave (t : Nat)
  /-- a thread that does not use the class -/
  | other (e : FL.Ev)

/-- The thread of an event of the segment. No counterpart in the code. -/
def tid : FL.Ev → Nat
  | .call t _ => t
  | .go t _ => t
  | .die t _ _ => t

/-- No counterpart in the code: a process is changed. -/
def State.setProc (s : State) (p : Nat) (c : CState) : State :=
  { s with proc := fun q => if q = p then c else s.proc q }

/-- A thread enters or leaves the segment. No counterpart in the code. -/
def State.mark (s : State) (t : Nat) (b : Bool) : State :=
  { s with inSeg := fun u => if u = t then b else s.inSeg u }

/-- One step of the system.  /repo/lib/rwlockrcsv.cc 153-552 on /repo/lib/flckshm.cc 731-838. -/
def step (P : Par) (s : State) : Ev → Option State
  | .call t op =>
    if P.cls t then (Rcsv.Conc.call (s.proc (P.pr t)) t [] op).map (s.setProc (P.pr t)) else none
  | .own t =>
    if P.cls t then
      match (s.proc (P.pr t)).run t with
      | none => none
      | some f =>
        match segCall P t f.prog with
        | some _ => none
        | none => (Rcsv.Conc.step (s.proc (P.pr t)) t).map (s.setProc (P.pr t))
    else none
  | .enter t =>
    if P.cls t && !s.inSeg t then
      match (s.proc (P.pr t)).run t with
      | none => none
      | some f =>
        match segCall P t f.prog with
        | some c => (FL.step s.fl (.call t c)).map fun x => { s with fl := x }.mark t true
        | none => none
    else none
  | .seg t c =>
    if P.cls t && s.inSeg t then (FL.step s.fl (.go t c)).map fun x => { s with fl := x } else none
  | .leave t =>
    if P.cls t && s.inSeg t then
      match s.fl.pc t, (s.proc (P.pr t)).run t with
      | .done r, some f =>
        some ((s.setProc (P.pr t) ((s.proc (P.pr t)).goto t (some { f with prog := resume (r == 0) f.prog }))).mark t false)
      | _, _ => none
    else none
  | .other e =>
    if P.cls (tid e) then none else (FL.step s.fl e).map fun x => { s with fl := x }

/-- Fresh tables; processes whose objects were constructed without a lock.
/repo/lib/flckshminit.cc 231-302, /repo/lib/rwlockrcsv.cc 30-61. -/
def init (r : Nat → Nat → Rcsv.Rng) (nf no nl : Nat) (junk : FL.Mem) : State where
  fl := FL.init nf no nl junk
  proc := fun p => Rcsv.Conc.init (r p)
  inSeg := fun _ => false

end Fullock.Whole
