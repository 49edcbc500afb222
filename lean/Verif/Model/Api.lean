import Verif.Model.Time
import Verif.Model.Ids
import Verif.Model.Name
import Verif.Model.Config
import Verif.Model.FileLock
import Verif.Model.MutexCond
/-
Model of the public C functions: what each of them asks the tables for.
Source: /repo/lib/fullock.cc 49-236, /repo/lib/flckshm.cc 661-746, 840-885, 911-929, 974-1047,
/repo/lib/flcklocktype.h 24-37, /repo/lib/flckshm.h 151-152.

A name is the bytes before the terminating NUL, `none` is a null pointer.
-/
namespace Fullock.Api

/-- `FLCKLOCKTYPE`, /repo/lib/flcklocktype.h 30-37: `FLCK_NMTX_LOCK` and `FLCK_NCOND_WAIT` are the same value
as `FLCK_WRITE_LOCK`, `FLCK_NCOND_UP` the same as `FLCK_UNLOCK`. -/
inductive LockType where
  | unlock | read | write
deriving DecidableEq, Repr

/-- `FLCK_NO_TIMEOUT`, /repo/lib/flcklocktype.h 24. -/
def noTimeout : Int := -1
/-- `FLCK_TRY_TIMEOUT`, /repo/lib/flcklocktype.h 25. -/
def tryTimeout : Int := 0

/-- A `const char*` name, none for a null pointer; /repo/lib/fullock.h 63-66, 84-88. -/
abbrev Name := Option (List Byte)

/-- The functions on locks, /repo/lib/fullock.h 63-88. -/
inductive Fn where
  | mutexLock (n : Name)
  | mutexTrylock (n : Name)
  | mutexTimedlock (n : Name) (usec : Int)
  | mutexUnlock (n : Name)
  | rdlock (fd : BitVec 32) (r : Rng)
  | tryrdlock (fd : BitVec 32) (r : Rng)
  | timedrdlock (fd : BitVec 32) (r : Rng) (usec : Int)
  | wrlock (fd : BitVec 32) (r : Rng)
  | trywrlock (fd : BitVec 32) (r : Rng)
  | timedwrlock (fd : BitVec 32) (r : Rng) (usec : Int)
  | rwUnlock (fd : BitVec 32) (r : Rng)
  | islocked (fd : BitVec 32) (r : Rng)
  | condTimedwait (c n : Name) (usec : Int)
  | condWait (c n : Name)
  | condSignal (c : Name)
  | condBroadcast (c : Name)
deriving DecidableEq

/-- Arguments of the three `RawLock` (/repo/lib/flckshm.cc 661, 731, 873) and of `IsLocked` (840). -/
inductive Raw where
  | nmtx (ty : LockType) (n : Name) (usec : Int)
  | file (ty : LockType) (fd : BitVec 32) (r : Rng) (usec : Int)
  | ncond (ty : LockType) (c n : Name) (bcast : Bool) (usec : Int)
  | islocked (fd : BitVec 32) (r : Rng)
deriving DecidableEq

/-- /repo/lib/fullock.cc 136-236 with the methods of /repo/lib/flckshm.cc 974-1047. -/
def Fn.raw : Fn → Raw
  | .mutexLock n => .nmtx .write n noTimeout
  | .mutexTrylock n => .nmtx .write n tryTimeout
  | .mutexTimedlock n u => .nmtx .write n u
  | .mutexUnlock n => .nmtx .unlock n noTimeout
  | .rdlock fd r => .file .read fd r noTimeout
  | .tryrdlock fd r => .file .read fd r tryTimeout
  | .timedrdlock fd r u => .file .read fd r u
  | .wrlock fd r => .file .write fd r noTimeout
  | .trywrlock fd r => .file .write fd r tryTimeout
  | .timedwrlock fd r u => .file .write fd r u
  | .rwUnlock fd r => .file .unlock fd r noTimeout
  | .islocked fd r => .islocked fd r
  | .condTimedwait c n u => .ncond .write c n false u
  | .condWait c n => .ncond .write c n false noTimeout
  | .condSignal c => .ncond .unlock c none false noTimeout
  | .condBroadcast c => .ncond .unlock c none true noTimeout

/-- The front part of a call (Verif.Model.Config); `devOk`: the descriptor is good.
/repo/lib/flckshm.cc 661-671, 731-745, 840-856, 873-883. -/
def Raw.front (devOk : Bool) : Raw → LockCall
  | .nmtx _ n _ => .mutex (n.map fun _ => [])
  | .file _ _ _ _ => .file devOk
  | .ncond _ c _ _ _ => .cond (c.map fun _ => [])
  | .islocked _ _ => .isLocked devOk

/-- What goes on in the segment.  Requests of Verif.Model.FileLock and Verif.Model.MutexCond;
/repo/lib/flckshm.cc 673-729, 746-838, 858-871, 885-966. -/
inductive Seg where
  | fl (c : FL.Call)
  | mc (c : MC.Call)

/-- The kind of waiting of a range lock, /repo/lib/flcklistofflock.cc 175-191. -/
def flKind (usec : Int) : FL.Kind :=
  match waitMode usec with
  | .forever => .block
  | .try => .try_
  | .timed _ => .timed

/-- The kind of waiting of a mutex, /repo/lib/flcklistnmtx.cc 67-74. -/
def mcKind (usec : Int) : MC.Kind :=
  match waitMode usec with
  | .forever => .block
  | .try => .try_
  | .timed _ => .timed

/-- The environment of a call: the mode of freeing, the file behind a descriptor, and the records that
names stand for (Verif.Props.Name: C22_names).  `find` treats a null pointer as the empty name
(/repo/lib/flcklistnmtx.h 76-88). -/
structure Ctx where
  free : FreeUnit
  key : BitVec 32 → DevIno
  mrec : List Byte → Nat
  crec : List Byte → Nat

/-- A request of the table model; `IsFreeUnitOffset`, `IsFreeUnitFd`: /repo/lib/flckshm.h 151-152. -/
def Ctx.op (x : Ctx) (fd : BitVec 32) (r : Rng) (md : FL.Mode) (kd : FL.Kind) : FL.Op :=
  { fd := fd.toInt, key := x.key fd, rng := r, mode := md, kind := kd
    freeOff := x.free == .fd || x.free == .offset, freeFd := x.free == .fd }

/-- The part of the calls behind the front part, /repo/lib/flckshm.cc 673-729, 746-838, 858-871, 885-966. -/
def Raw.seg (x : Ctx) : Raw → Seg
  | .nmtx ty n u =>
    if ty = .unlock then .mc (.unlock (x.mrec (n.getD [])))
    else .mc (.lock (x.mrec (n.getD [])) (mcKind u))
  | .file ty fd r u =>
    if ty = .unlock then .fl (.unlock (x.op fd r .wr .block))
    else .fl (.lock (x.op fd r (if ty = .read then .rd else .wr) (flKind u)))
  | .ncond ty c n b u =>
    if ty = .unlock then
      if b then .mc (.broadcast (x.crec (c.getD []))) else .mc (.signal (x.crec (c.getD [])))
    else .mc (.wait (x.crec (c.getD [])) (x.mrec (n.getD [])) (mcKind u))
  | .islocked fd r => .fl (.islocked (x.op fd r .rd .block))

/-- A whole public call up to the segment: an answer, or a request to the tables.
/repo/lib/fullock.cc 136-236. -/
inductive Outcome where
  | ret (code : Int)
  | answer (b : Bool)
  | seg (s : Seg)

/-- The front part and, when it lets the call through, the request to the tables:
/repo/lib/flckshm.cc 661-729, 731-838, 840-871, 873-966. -/
def invoke (w : World) (s : Proc) (x : Ctx) (devOk : Bool) (f : Fn) : Outcome × Proc :=
  match lockFront w s (f.raw.front devOk) with
  | (.ret c, s') => (.ret c, s')
  | (.answer b, s') => (.answer b, s')
  | (.proceed, s') => (.seg (f.raw.seg x), s')

/-! ### Settings -/

/-- The functions on settings, /repo/lib/fullock.h 45-58. -/
inductive SetFn where
  | noRobust | lowRobust | highRobust
  | noretryAllow | noretryDeny | retryAllow | retryDeny
  | noFreeunit | fdFreeunit | offsetFreeunit
  | checkCount (v : Int)
deriving DecidableEq

/-- /repo/lib/fullock.cc 49-115. -/
def SetFn.run (c : Config) : SetFn → Bool × Config
  | .noRobust => (true, (setRobustMode c .no).2)
  | .lowRobust => (true, (setRobustMode c .low).2)
  | .highRobust => (true, (setRobustMode c .high).2)
  | .noretryAllow => (true, (setNomapMode c .allowNoretry).2)
  | .noretryDeny => (true, (setNomapMode c .denyNoretry).2)
  | .retryAllow => (true, (setNomapMode c .allowRetry).2)
  | .retryDeny => (true, (setNomapMode c .denyRetry).2)
  | .noFreeunit => (true, (setFreeUnitMode c .no).2)
  | .fdFreeunit => (true, (setFreeUnitMode c .fd).2)
  | .offsetFreeunit => (true, (setFreeUnitMode c .offset).2)
  | .checkCount v =>
    let r := setRobustLoopCnt c v
    if r.1 = -1 then (false, r.2) else (true, r.2)

/-- A history of setting calls, with the answers.  No counterpart in the code: calls of
/repo/lib/fullock.cc 49-115 one after the other. -/
def runSets (c : Config) : List SetFn → Config
  | [] => c
  | f :: fs => runSets (f.run c).2 fs

end Fullock.Api
