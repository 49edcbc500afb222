import Verif.Model.Rcsv
/-
The recursive lock class used by several threads at once.
Source: /repo/lib/rwlockrcsv.cc 25-552, /repo/lib/rwlockrcsv.h 38-83, /repo/lib/flckbaselist.tcc 454-481
(`flck_trylock_noshared_mutex`, `flck_unlock_noshared_mutex`).

`Verif.Model.Rcsv` has a call as one step of one thread.  Here a call is a program whose instructions are
the accesses to objects, to the table of all objects and to its lock, and the calls of the segment; threads
run in any order, one instruction at a time, and a segment request waits while a lock is in its way.

Simplified: the table operations (search, erase, push_back of the vector) are one instruction each; that
they do not overlap is the subject of C63 and C70, an operation by a thread that does not hold the lock of
the table is recorded in `race`.  Outcomes of the segment calls are given with the call; ghost: `owner`, the
thread that took the lock of the table.
-/
namespace Fullock.Rcsv.Conc

/-- Rest of a call. Accesses of /repo/lib/rwlockrcsv.cc 153-552. -/
inductive Prog where
  /-- end of the public call -/
  | ret (b : Bool)
  /-- `StackLock`, /repo/lib/rwlockrcsv.cc 52-55, 74-77 -/
  | lock (k : Prog)
  /-- `StackUnlock`, /repo/lib/rwlockrcsv.cc 57-60, 79-82 -/
  | unlock (k : Prog)
  /-- the members of an object are read -/
  | look (i : Nat) (k : Obj → Prog)
  /-- members of an object are written -/
  | upd (i : Nat) (g : Obj → Obj) (k : Prog)
  /-- the object is looked up in the table and erased, /repo/lib/rwlockrcsv.cc 181-189, 323-330, 438-445 -/
  | erase (i : Nat) (k : Prog)
  /-- `Stack().push_back` -/
  | push (i : Nat) (k : Prog)
  /-- search of `RawReadLock`, /repo/lib/rwlockrcsv.cc 286-290 -/
  | find (i : Nat) (k : Option Nat → Prog)
  /-- search of `RawWriteLock`, /repo/lib/rwlockrcsv.cc 374-399: matching readers are erased -/
  | scan (i : Nat) (k : Option Nat → List Nat → Prog)
  /-- `shm.ReadLock`, `shm.WriteLock` -/
  | grant (r : Rng) (w : Bool) (k : Bool → Prog)
  /-- `shm.Unlock` -/
  | free (r : Rng) (k : Bool → Prog)

/-- `if(!is_mutex_locked){ StackLock(); … }`.  /repo/lib/rwlockrcsv.cc 161-164, 272-275, 359-362. -/
def lockP (loc : Bool) (k : Prog) : Prog := if loc then k else .lock k

/-- `if(is_mutex_locked){ StackUnlock(); … }`. /repo/lib/rwlockrcsv.cc 226-229. -/
def unlockP (loc : Bool) (k : Prog) : Prog := if loc then .unlock k else k

/-- The first pending writer, /repo/lib/rwlockrcsv.cc 195-204. -/
def firstWriterP : List Nat → (Option Nat → Prog) → Prog
  | [], k => k none
  | j :: js, k => .look j fun q => if q.ty == .write then k (some j) else firstWriterP js k

/-- `move_pending_stack`, /repo/lib/rwlockrcsv.h 57-64. -/
def moveP (m : Nat) : List Nat → Prog → Prog
  | [], k => k
  | j :: js, k =>
    .upd j (fun o => { o with master := some m }) <|
    .upd m (fun o => { o with pend := o.pend ++ [j] }) <|
    moveP m js k

/-- The new master takes over, /repo/lib/rwlockrcsv.cc 212-220, 249-250. -/
def swapP (i : Nat) (ty : Ty) (n : Nat) (rest : List Nat) (k : Prog) : Prog :=
  moveP n rest <|
  .upd i (fun q => { q with pend := [] }) <|
  .upd n (fun q => { q with hasLocker := true, locked := true, ty := ty, master := none }) <|
  .push n <|
  .upd i (fun q => { q with hasLocker := false, locked := false }) k

/-- `RawUnlock`, /repo/lib/rwlockrcsv.cc 151-253. The object is read before and again after
`StackLock`. -/
def rawUnlockP (i : Nat) (loc : Bool) (k : Bool → Bool → Prog) : Prog :=
  .look i fun o =>
  if o.ty = .unlock ∨ o.locked = false then k true loc
  else
    lockP loc <|
    .look i fun o =>
    let clear := Prog.upd i (fun q => { q with hasLocker := false, locked := false })
    match o.master with
    | some m =>
      .upd m (fun q => { q with pend := q.pend.erase i }) <|
      .upd i (fun q => { q with master := none }) <|
      clear (k true true)
    | none =>
      .erase i <|
      match o.pend with
      | [] =>
        if o.hasLocker then
          .unlock <|
          .free o.rng fun b =>
          if b then clear (k true false)
          else .lock <| .push i (k false true)
        else clear (k true true)
      | j :: js =>
        firstWriterP (j :: js) fun w =>
        match w with
        | some n => swapP i o.ty n ((j :: js).erase n) (k true true)
        | none => swapP i o.ty ((j :: js).getLast (by simp)) (j :: js).dropLast (k true true)

/-- `RawReadLock` after the release of a write lock, /repo/lib/rwlockrcsv.cc 284-339. -/
def readTailP (i : Nat) (loc : Bool) (k : Bool → Bool → Prog) : Prog :=
  .upd i (fun o => { o with ty := .read }) <|
  .find i fun f =>
  match f with
  | some m =>
    .look m fun q =>
    .upd i (fun o => { o with locked := q.locked, hasLocker := false, master := some m }) <|
    .upd m (fun o => { o with pend := o.pend ++ [i] }) <|
    k true loc
  | none =>
    .push i <|
    unlockP loc <|
    .look i fun o =>
    .grant o.rng false fun b =>
    if b then .upd i (fun o => { o with hasLocker := true, locked := true }) (k true false)
    else .lock <| .erase i <| .upd i (fun o => { o with hasLocker := false, locked := false }) (k false true)

/-- `RawReadLock`, /repo/lib/rwlockrcsv.cc 255-340. The object is read before and again after
`StackLock`. -/
def rawReadLockP (i : Nat) (loc : Bool) (k : Bool → Bool → Prog) : Prog :=
  .look i fun o =>
  if o.locked = true ∧ (o.ty = .read ∨ (o.ty = .write ∧ o.pend ≠ [])) then k true loc
  else
    lockP loc <|
    .look i fun o =>
    if o.ty = .write ∧ o.locked = true then
      rawUnlockP i true fun b loc => if b then readTailP i loc k else k false loc
    else readTailP i true k

/-- The readers are unlocked in the segment and become pending of the writer,
/repo/lib/rwlockrcsv.cc 409-425. -/
def takeReadersP (i : Nat) : List Nat → Prog → Prog
  | [], k => k
  | j :: js, k =>
    .look j fun o =>
    let rest :=
      Prog.upd j (fun q => { q with hasLocker := false, locked := true, master := some i }) <|
      .upd i (fun q => { q with pend := q.pend ++ [j] }) <|
      moveP i o.pend <|
      .upd j (fun q => { q with pend := [] }) <|
      takeReadersP i js k
    if o.locked && o.hasLocker then .free o.rng fun _ => rest else rest

/-- Recovery after a failed request, /repo/lib/rwlockrcsv.cc 446-455: the pending objects are locked again
through `Lock()`, whose first action is `StackLock`, while the caller holds that lock; what follows is never
reached. -/
def relockP : List Nat → Prog → Prog
  | [], k => k
  | j :: js, k =>
    .upd j (fun o => { o with hasLocker := false, locked := false, master := none }) <|
    .look j fun o => if o.ty = .unlock then relockP js k else .lock (.ret false)

/-- `RawWriteLock` after the release of a read lock, /repo/lib/rwlockrcsv.cc 372-465. -/
def writeTailP (i : Nat) (loc : Bool) (k : Bool → Bool → Prog) : Prog :=
  .upd i (fun o => { o with ty := .write }) <|
  .scan i fun f readers =>
  match f with
  | some m =>
    .upd i (fun o => { o with hasLocker := false, locked := true, master := some m }) <|
    .upd m (fun o => { o with pend := o.pend ++ [i] }) <|
    k true loc
  | none =>
    .push i <|
    unlockP loc <|
    takeReadersP i readers <|
    .look i fun o =>
    .grant o.rng true fun b =>
    if b then .upd i (fun o => { o with hasLocker := true, locked := true }) (k true false)
    else
      .lock <|
      .erase i <|
      .look i fun o =>
      relockP o.pend <|
      .upd i (fun o => { o with pend := [], hasLocker := false, locked := false }) (k false true)

/-- The member is `FLCK_WRITE_LOCK`, /repo/lib/rwlockrcsv.cc 352: the master is read. -/
def masterWritesP (o : Obj) (k : Bool → Prog) : Prog :=
  match o.master with
  | some m => .look m fun q => k (q.ty == .write)
  | none => k false

/-- `RawWriteLock`, /repo/lib/rwlockrcsv.cc 342-466. The object is read before and again after
`StackLock`. -/
def rawWriteLockP (i : Nat) (loc : Bool) (k : Bool → Bool → Prog) : Prog :=
  .look i fun o =>
  if o.locked = true ∧ o.ty = .write then k true loc
  else
    let slow :=
      lockP loc <|
      .look i fun o =>
      if o.ty = .read ∧ o.locked = true then
        rawUnlockP i true fun b loc => if b then writeTailP i loc k else k false loc
      else writeTailP i true k
    if o.locked = true ∧ o.ty = .read then
      masterWritesP o fun b => if b then .upd i (fun o => { o with ty := .write }) (k true loc) else slow
    else slow

/-- End of a public call. /repo/lib/rwlockrcsv.cc 481-484, 498-501, 515-518, 526-529, 537-540, 548-551. -/
def finishP (b loc : Bool) : Prog := unlockP loc (.ret b)

/-- The public calls, /repo/lib/rwlockrcsv.cc 468-552; `Set`, 132-143. -/
def callP : Op → Prog
  | .readLock i => rawReadLockP i false finishP
  | .writeLock i => rawWriteLockP i false finishP
  | .lock i =>
    .look i fun o =>
    match o.ty with
    | .read => rawReadLockP i false finishP
    | .write => rawWriteLockP i false finishP
    | .unlock => .ret false
  | .lockAt i r isRead =>
    rawUnlockP i false fun b loc =>
    if b then
      .upd i (fun o => { o with rng := { r with tid := o.rng.tid }, ty := if isRead then .read else .write }) <|
      if isRead then rawReadLockP i loc finishP else rawWriteLockP i loc finishP
    else finishP false loc
  | .unlock i => rawUnlockP i false finishP

/-- A call in progress. No counterpart in the code. -/
structure Frame where
  prog : Prog
  os : List Bool
  op : Op

/-- All threads of the process. No counterpart in the code. -/
structure CState where
  sh : State
  owner : Option Nat
  run : Nat → Option Frame

/-- Ranges the segment takes for the same: same start or a common point (`cmpRng`).  The segment,
/repo/lib/flcklistofflock.h 107-141. -/
def clash (a b : Rng) : Bool :=
  a.fd == b.fd && (a.off == b.off || (decide (a.off < b.off + b.len) && decide (b.off < a.off + a.len)))

/-- A lock is in the way of a request. The segment, /repo/lib/flckshm.cc 731-838. -/
def busy (held : List (Rng × Ty)) (r : Rng) (w : Bool) : Bool :=
  held.any fun h => clash h.1 r && (w || h.2 == .write)

/-- No counterpart in the code: a thread goes to a place. -/
def CState.goto (s : CState) (t : Nat) (f : Option Frame) : CState :=
  { s with run := fun u => if u = t then f else s.run u }

/-- The table is used by a thread. No counterpart in the code. -/
def CState.touch (s : CState) (t : Nat) : CState :=
  { s with sh := { s.sh with race := s.sh.race || decide (s.owner ≠ some t) } }

/-- One instruction of thread `t`; `none`: it cannot go on now.  /repo/lib/rwlockrcsv.cc 153-552,
access by access. -/
def step (s : CState) (t : Nat) : Option CState :=
  match s.run t with
  | none => none
  | some ⟨.ret _, _, _⟩ => some (s.goto t none)
  | some ⟨.lock k, os, op⟩ =>
    if s.sh.glob then none
    else some { s.goto t (some ⟨k, os, op⟩) with sh := { s.sh with glob := true }, owner := some t }
  | some ⟨.unlock k, os, op⟩ =>
    some { s.goto t (some ⟨k, os, op⟩) with sh := { s.sh with glob := false }, owner := none }
  | some ⟨.look i k, os, op⟩ => some (s.goto t (some ⟨k (s.sh.obj i), os, op⟩))
  | some ⟨.upd i g k, os, op⟩ => some { s.goto t (some ⟨k, os, op⟩) with sh := s.sh.mod i g }
  | some ⟨.erase i k, os, op⟩ =>
    let s := s.touch t
    some { s.goto t (some ⟨k, os, op⟩) with sh := { s.sh with stack := s.sh.stack.erase i } }
  | some ⟨.push i k, os, op⟩ =>
    let s := s.touch t
    some { s.goto t (some ⟨k, os, op⟩) with sh := { s.sh with stack := s.sh.stack ++ [i] } }
  | some ⟨.find i k, os, op⟩ =>
    let s := s.touch t
    some (s.goto t (some ⟨k (findMatch s.sh i), os, op⟩))
  | some ⟨.scan i k, os, op⟩ =>
    let s := s.touch t
    let r := scanW s.sh i s.sh.stack
    some { s.goto t (some ⟨k r.1 r.2.2, os, op⟩) with sh := { s.sh with stack := r.2.1 } }
  | some ⟨.grant r w k, os, op⟩ =>
    if os.headD true then
      if busy s.sh.held r w then none
      else some { s.goto t (some ⟨k true, os.tail, op⟩) with
                    sh := { s.sh with held := s.sh.held ++ [(r, if w then .write else .read)] } }
    else some (s.goto t (some ⟨k false, os.tail, op⟩))
  | some ⟨.free r k, os, op⟩ =>
    let q := segUnlock s.sh r os
    some { s.goto t (some ⟨k q.1, q.2.2, op⟩) with sh := q.2.1 }

/-- A thread that is in no call makes one. /repo/lib/rwlockrcsv.h 77-82. -/
def call (s : CState) (t : Nat) (os : List Bool) (op : Op) : Option CState :=
  match s.run t with
  | none => some (s.goto t (some ⟨callP op, os, op⟩))
  | some _ => none

/-- Nobody in a call, all objects constructed without a lock.  /repo/lib/rwlockrcsv.cc 30-61,
87-89. -/
def init (r : Nat → Rng) : CState := { sh := Rcsv.init r, owner := none, run := fun _ => none }

end Fullock.Rcsv.Conc
