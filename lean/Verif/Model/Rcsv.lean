/-
Model of the recursive lock class.
Source: /repo/lib/rwlockrcsv.cc 25-552, /repo/lib/rwlockrcsv.h 38-83.

Objects are numbered.  A call is one step: calls of different threads meet only in the process-wide
stack, which has its own lock (`glob`); its use outside of that lock is recorded in `race`.  The
segment is represented by the locks it has granted (`held`); the outcomes of the segment calls are
given by a list, a request that would wait for a lock of the same thread is the outcome `block`.  The
waiting for other threads is not represented.  The destructor is `Unlock` (106-114); the
constructors are in `Model/RcsvMake`.
-/
namespace Fullock.Rcsv

/-- `FLCKLOCKTYPE`. /repo/lib/flcklocktype.h 30-37. -/
inductive Ty where
  | unlock | read | write
  deriving DecidableEq, Repr

/-- Thread, descriptor, offset, length. /repo/lib/rwlockrcsv.h 41-44. -/
structure Rng where
  tid : Nat
  fd : Int
  off : Nat
  len : Nat
  deriving DecidableEq, Repr

/-- Members of `FLRwlRcsv`, /repo/lib/rwlockrcsv.h 41-50. -/
structure Obj where
  rng : Rng
  ty : Ty
  locked : Bool
  hasLocker : Bool
  pend : List Nat
  master : Option Nat
  deriving DecidableEq, Repr

/-- The objects, the stack (/repo/lib/rwlockrcsv.cc 30-61), its lock, and what the thread holds in
the segment. -/
structure State where
  obj : Nat → Obj
  /-- `FLRwlStack` -/
  stack : List Nat
  /-- `LockVal`: the lock of the stack is taken -/
  glob : Bool
  /-- Locks granted by the segment. -/
  held : List (Rng × Ty)
  /-- The stack was used without its lock. -/
  race : Bool

/-- No counterpart in the code: an object is changed. -/
def State.mod (s : State) (i : Nat) (f : Obj → Obj) : State :=
  { s with obj := fun j => if j = i then f (s.obj j) else s.obj j }

/-- The two intervals have a common point.  The segment, /repo/lib/flcklistofflock.h 107-141. -/
def Rng.meet (a b : Rng) : Bool :=
  a.tid == b.tid && a.fd == b.fd && decide (a.off < b.off + b.len) && decide (b.off < a.off + a.len)

/-- Requests that wait for a lock of the same thread: ranges with the same start or a common point are
the same range for the segment (`cmpRng`).  The segment, /repo/lib/flckshm.cc 731-838. -/
def selfBlock (held : List (Rng × Ty)) (r : Rng) (w : Bool) : Bool :=
  held.any fun h => h.1.tid == r.tid && h.1.fd == r.fd && (h.1.off == r.off || h.1.meet r) && (w || h.2 == .write)

/-- `compare`, /repo/lib/rwlockrcsv.cc 116-130 (`off_t` overflow not represented). -/
def compare (a b : Rng) : Bool :=
  if a.tid = b.tid ∧ a.fd = b.fd then
    if a.off ≤ b.off then decide (b.off < a.off + a.len)
    else decide (a.off < b.off + b.len)
  else false

/-- Result: return value, local flag `is_mutex_locked`, state, outcomes left; `hang` = the lock of the
stack is requested by its holder; `block` = see `selfBlock`.  Results of /repo/lib/rwlockrcsv.cc
153-467. -/
inductive Res where
  | done (ret : Bool) (loc : Bool) (s : State) (os : List Bool)
  | hang
  | block

/-- `StackLock()` unless the local flag says it is held; `none` = never returns.
/repo/lib/rwlockrcsv.cc 161-164, 272-275, 359-362. -/
def lockStack (s : State) (loc : Bool) : Option State :=
  if loc then some s else if s.glob then none else some { s with glob := true }

/-- `StackUnlock()` if the local flag says it is held.  /repo/lib/rwlockrcsv.cc 226-229, 307-310,
404-407, 481-483. -/
def unlockStack (s : State) (loc : Bool) : State := if loc then { s with glob := false } else s

/-- The stack is used while the local flag is `loc`. No counterpart in the code. -/
def State.touch (s : State) (loc : Bool) : State := { s with race := s.race || !loc }

/-- `shm.Unlock`: takes away one lock of the range; fails when there is none.
/repo/lib/rwlockrcsv.cc 224-237. -/
def segUnlock (s : State) (r : Rng) (os : List Bool) : Bool × State × List Bool :=
  if os.headD true && s.held.any (fun h => h.1 == r) then
    (true, { s with held := s.held.eraseP (fun h => h.1 == r) }, os.tail)
  else (false, s, os.tail)

/-- Choice of the next master, /repo/lib/rwlockrcsv.cc 191-210: the first writer, else the last. -/
def pickMaster (s : State) (pend : List Nat) : Option (Nat × List Nat) :=
  match pend.find? (fun j => (s.obj j).ty == .write) with
  | some j => some (j, pend.erase j)
  | none =>
    match pend.getLast? with
    | some j => some (j, pend.dropLast)
    | none => none

/-- `move_pending_stack`, /repo/lib/rwlockrcsv.h 57-64. -/
def movePending (s : State) (src : List Nat) (m : Nat) : State :=
  let s := src.foldl (fun s j => s.mod j fun o => { o with master := some m }) s
  s.mod m fun o => { o with pend := o.pend ++ src }

/-- `RawUnlock`, /repo/lib/rwlockrcsv.cc 151-253. -/
def rawUnlock (s : State) (i : Nat) (loc : Bool) (os : List Bool) : Res :=
  let o := s.obj i
  if o.ty = .unlock ∨ o.locked = false then .done true loc s os
  else
    match lockStack s loc with
    | none => .hang
    | some s =>
      let clear := fun (s : State) => s.mod i fun o => { o with hasLocker := false, locked := false }
      match o.master with
      | some m =>
        let s := s.mod m fun q => { q with pend := q.pend.erase i }
        let s := s.mod i fun q => { q with master := none }
        .done true true (clear s) os
      | none =>
        let s := { s with stack := s.stack.erase i }
        match pickMaster s o.pend with
        | some (n, rest) =>
          let s := movePending s rest n
          let s := s.mod i fun q => { q with pend := [] }
          let s := s.mod n fun q => { q with hasLocker := true, locked := true, ty := o.ty, master := none }
          let s := { s with stack := s.stack ++ [n] }
          .done true true (clear s) os
        | none =>
          if o.hasLocker then
            let s := unlockStack s true
            match segUnlock s o.rng os with
            | (true, s, os) => .done true false (clear s) os
            | (false, s, os) =>
              match lockStack s false with
              | none => .hang
              | some s => .done false true { s with stack := s.stack ++ [i] } os
          else .done true true (clear s) os

/-- The first object of the stack that matches, /repo/lib/rwlockrcsv.cc 286-302. -/
def findMatch (s : State) (i : Nat) : Option Nat :=
  s.stack.find? fun j => compare (s.obj i).rng (s.obj j).rng

/-- `RawReadLock` after the release of a write lock, /repo/lib/rwlockrcsv.cc 284-339. -/
def readTail (s : State) (i : Nat) (loc : Bool) (os : List Bool) : Res :=
  let s := s.mod i fun o => { o with ty := .read }
  let s := s.touch loc
  match findMatch s i with
  | some m =>
    let l := (s.obj m).locked
    let s := s.mod i fun o => { o with locked := l, hasLocker := false, master := some m }
    let s := s.mod m fun o => { o with pend := o.pend ++ [i] }
    .done true loc s os
  | none =>
    let s := { s with stack := s.stack ++ [i] }
    let s := unlockStack s loc
    let r := (s.obj i).rng
    if selfBlock s.held r false then .block
    else if os.headD true then
      let s := { s with held := s.held ++ [(r, Ty.read)] }
      .done true false (s.mod i fun o => { o with hasLocker := true, locked := true }) os.tail
    else
      match lockStack s false with
      | none => .hang
      | some s =>
        let s := { s with stack := s.stack.erase i }
        .done false true (s.mod i fun o => { o with hasLocker := false, locked := false }) os.tail

/-- `RawReadLock`, /repo/lib/rwlockrcsv.cc 255-340. -/
def rawReadLock (s : State) (i : Nat) (loc : Bool) (os : List Bool) : Res :=
  let o := s.obj i
  if o.locked = true ∧ (o.ty = .read ∨ (o.ty = .write ∧ o.pend ≠ [])) then .done true loc s os
  else
    match lockStack s loc with
    | none => .hang
    | some s =>
      if o.ty = .write ∧ o.locked = true then
        match rawUnlock s i true os with
        | .done true loc s os => readTail s i loc os
        | r => r
      else readTail s i true os

/-- The scan of `RawWriteLock`, /repo/lib/rwlockrcsv.cc 374-399: matching readers are taken out; ends at
a matching writer.  Result: writer, new stack, readers. -/
def scanW (s : State) (i : Nat) : List Nat → Option Nat × List Nat × List Nat
  | [] => (none, [], [])
  | j :: js =>
    if compare (s.obj i).rng (s.obj j).rng then
      match (s.obj j).ty with
      | .read => let r := scanW s i js; (r.1, r.2.1, j :: r.2.2)
      | .write => (some j, j :: js, [])
      | .unlock => let r := scanW s i js; (r.1, j :: r.2.1, r.2.2)
    else let r := scanW s i js; (r.1, j :: r.2.1, r.2.2)

/-- The readers are unlocked in the segment and become pending of the writer,
/repo/lib/rwlockrcsv.cc 409-425. -/
def takeReaders (i : Nat) : List Nat → State → List Bool → State × List Bool
  | [], s, os => (s, os)
  | j :: js, s, os =>
    let o := s.obj j
    let (s, os) :=
      if o.locked && o.hasLocker then
        let r := segUnlock s o.rng os
        (r.2.1, r.2.2)
      else (s, os)
    let s := s.mod j fun q => { q with hasLocker := false, locked := true, master := some i }
    let s := s.mod i fun q => { q with pend := q.pend ++ [j] }
    let s := movePending s o.pend i
    let s := s.mod j fun q => { q with pend := [] }
    takeReaders i js s os

/-- `RawWriteLock` after the release of a read lock, /repo/lib/rwlockrcsv.cc 372-465.  The recovery after
a failed request locks the pending objects again through `Lock()`, whose first action is to take the
lock of the stack, which is held here (446-455). -/
def writeTail (s : State) (i : Nat) (loc : Bool) (os : List Bool) : Res :=
  let s := s.mod i fun o => { o with ty := .write }
  let s := s.touch loc
  match scanW s i s.stack with
  | (some m, st, _) =>
    let s := { s with stack := st }
    let s := s.mod i fun o => { o with hasLocker := false, locked := true, master := some m }
    let s := s.mod m fun o => { o with pend := o.pend ++ [i] }
    .done true loc s os
  | (none, st, readers) =>
    let s := { s with stack := st ++ [i] }
    let s := unlockStack s loc
    let (s, os) := takeReaders i readers s os
    let r := (s.obj i).rng
    if selfBlock s.held r true then .block
    else if os.headD true then
      let s := { s with held := s.held ++ [(r, Ty.write)] }
      .done true false (s.mod i fun o => { o with hasLocker := true, locked := true }) os.tail
    else
      match lockStack s false with
      | none => .hang
      | some s =>
        let s := { s with stack := s.stack.erase i }
        if (s.obj i).pend ≠ [] then .hang
        else .done false true (s.mod i fun o => { o with hasLocker := false, locked := false }) os.tail

/-- The master of a pending object is a writer. /repo/lib/rwlockrcsv.cc 352. -/
def masterWrites (s : State) (o : Obj) : Bool :=
  match o.master with
  | some m => (s.obj m).ty == .write
  | none => false

/-- `RawWriteLock`, /repo/lib/rwlockrcsv.cc 342-466. -/
def rawWriteLock (s : State) (i : Nat) (loc : Bool) (os : List Bool) : Res :=
  let o := s.obj i
  if o.locked = true ∧ o.ty = .write then .done true loc s os
  else if o.locked = true ∧ o.ty = .read ∧ masterWrites s o = true then
    .done true loc (s.mod i fun o => { o with ty := .write }) os
  else
    match lockStack s loc with
    | none => .hang
    | some s =>
      if o.ty = .read ∧ o.locked = true then
        match rawUnlock s i true os with
        | .done true loc s os => writeTail s i loc os
        | r => r
      else writeTail s i true os

/-- `Set`, /repo/lib/rwlockrcsv.cc 132-143. -/
def set (s : State) (i : Nat) (r : Rng) (isRead : Bool) (os : List Bool) : Res :=
  match rawUnlock s i false os with
  | .done true loc s os =>
    .done true loc (s.mod i fun o => { o with rng := { r with tid := o.rng.tid },
                                              ty := if isRead then .read else .write }) os
  | r => r

/-- Public calls. /repo/lib/rwlockrcsv.h 77-82. -/
inductive Op where
  | readLock (i : Nat)
  | writeLock (i : Nat)
  | lock (i : Nat)
  | lockAt (i : Nat) (r : Rng) (isRead : Bool)
  | unlock (i : Nat)

/-- The end of every public call: `StackUnlock()` if the flag says it is held.  The ends of
/repo/lib/rwlockrcsv.cc 481-484, 498-501, 515-518, 526-529, 537-540, 548-551. -/
def finish : Res → Option (Bool × State)
  | .done b loc s _ => some (b, unlockStack s loc)
  | _ => none

/-- The public calls, /repo/lib/rwlockrcsv.cc 468-552 (`Lock(bool)` is `ReadLock` or `WriteLock`); `none`
= does not return. -/
def call (s : State) (os : List Bool) : Op → Option (Bool × State)
  | .readLock i => finish (rawReadLock s i false os)
  | .writeLock i => finish (rawWriteLock s i false os)
  | .lock i =>
    match (s.obj i).ty with
    | .read => finish (rawReadLock s i false os)
    | .write => finish (rawWriteLock s i false os)
    | .unlock => some (false, s)
  | .lockAt i r isRead =>
    match set s i r isRead os with
    | .done true loc s os => finish (if isRead then rawReadLock s i loc os else rawWriteLock s i loc os)
    | r => finish r
  | .unlock i => finish (rawUnlock s i false os)

/-- All objects constructed without a lock, /repo/lib/rwlockrcsv.cc 87-89. -/
def init (r : Nat → Rng) : State :=
  { obj := fun i => { rng := r i, ty := .unlock, locked := false, hasLocker := false, pend := [], master := none },
    stack := [], glob := false, held := [], race := false }

end Fullock.Rcsv
