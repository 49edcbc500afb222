import Verif.Model.Range
import Verif.Model.Os
/-
Interleaving model of the file (range) locks: the tables in shared memory and the code of
lock / unlock / islocked / sweep, executed by any number of threads, any of which may die.

Source: /repo/lib/flckshm.cc 520-562, 731-871; /repo/lib/flcklistfilelock.cc 61-239;
        /repo/lib/flcklistofflock.cc 67-355; /repo/lib/flckbaselist.tcc 145-263.

* Records are numbers.  The lists in shared memory are Lean lists of record numbers
  (Verif.Model.ListMem shows that the pointer lists behave like that, also under crashes).
* The table lock (`file_lock_lockid`) is acquired and released in one step; taking it over from a
  dead holder is possible (Verif.Props.LockId, theorem C34_atomic_view).
* Everything between acquiring and releasing it is cut into steps; each step is a list of actions
  (`Act`); a thread may die after any number of the actions of its current step.  Between actions of
  one step other threads do not run; such a step contains only one access that threads outside the
  critical section can see (the lock word or the `locked` flag), so this loses no behaviour.
* A thread whose holder check is needed is dead or alive: the sweep may treat a locker record as
  that of a dead holder only when the thread is not alive, and it may overlook dead ones
  (Verif.Props.Os: C13_live_holder_not_dead, C14_not_full).
* Not in the model: failing `clock_gettime`; reuse of thread identities (see Verif.Model.Reuse); closing a descriptor while
  it is locked; deaths between the writes of `free_offset_lock_list` (see Verif.Props.Drain).
-/
namespace Fullock.FL

/-- Function update. No counterpart in the code: an assignment to one record. -/
def fset {α β : Type} [DecidableEq α] (f : α → β) (a : α) (b : β) : α → β :=
  fun x => if x = a then b else f x

/-- FLCK_READ_LOCK, FLCK_WRITE_LOCK, /repo/lib/flcklocktype.h 32-33. -/
inductive Mode where
  | rd | wr
deriving DecidableEq, Repr

/-- `timeout_usec`: FLCK_TRY_TIMEOUT, any other value, FLCK_NO_TIMEOUT;
/repo/lib/flcklistofflock.cc 175-191. -/
inductive Kind where
  | try_ | timed | block
deriving DecidableEq, Repr

/-- A request: descriptor, its file (device, inode), range, and for lock calls the kind of lock.
`freeOff`, `freeFd` are `IsFreeUnitOffset()`, `IsFreeUnitFd()` as seen by this call.  The
arguments of /repo/lib/flckshm.cc 731, with the answer of `GetFileDevNode` (742). -/
structure Op where
  fd : Int
  key : DevIno
  rng : Rng
  mode : Mode
  kind : Kind
  freeOff : Bool
  freeFd : Bool
deriving DecidableEq, Repr

/-- A lock in force (ghost): who holds what.  Not in the code: what /repo/lib/flcklistofflock.cc
164 stands for. -/
structure Out where
  t : Nat
  fd : Int
  key : DevIno
  rng : Rng
  mode : Mode
deriving DecidableEq, Repr

/-- errno value (Linux), /repo/lib/flckbaselist.tcc 167. -/
def EBUSY : Nat := 16
/-- errno value (Linux), /repo/lib/flckshm.cc 758. -/
def EINVAL : Nat := 22
/-- errno value (Linux), /repo/lib/flckshm.cc 790. -/
def ENOLCK : Nat := 37
/-- errno value (Linux), /repo/lib/flckbaselist.tcc 199. -/
def ETIMEDOUT : Nat := 110

/-- Shared memory, /repo/lib/flckstructure.h 51-149.  File record f: key, offs, fprot.  Range record
o: rng, word (`lockval`), lks (`reader_list`, `writer_list`), oprot.  Locker record l: ltid, lfd,
locked.  `taken` and `outs` are ghost (not in the code): whose word update has been done, and the
locks in force. -/
structure Mem where
  files : List Nat
  key : Nat → DevIno
  offs : Nat → List Nat
  fprot : Nat → Bool
  rng : Nat → Rng
  word : Nat → Int
  lks : Nat → Mode → List Nat
  oprot : Nat → Bool
  ltid : Nat → Nat
  lfd : Nat → Int
  locked : Nat → Bool
  ffree : List Nat
  ofree : List Nat
  lfree : List Nat
  taken : Nat → Bool
  outs : List (Nat × Out)

/-- `fl_compare_list_base(PFLFILELOCK, PFLFILELOCK)`, /repo/lib/flcklistfilelock.h 90-107. -/
def cmpKey (a b : DevIno) : Int :=
  if a.1.ult b.1 then 1
  else if b.1.ult a.1 then -1
  else if a.2.ult b.2 then 1
  else if b.2.ult a.2 then -1
  else 0

/-- `fl_compare_list_base(PFLLOCKER, PFLLOCKER)`, /repo/lib/flcklistlocker.h 84-108. -/
def cmpLocker (t1 : Nat) (fd1 : Int) (l1 : Bool) (t2 : Nat) (fd2 : Int) (l2 : Bool) : Int :=
  if t1 < t2 then -1
  else if t2 < t1 then 1
  else if fd1 < fd2 then -1
  else if fd2 < fd1 then 1
  else if l1 then (if !l2 then -1 else 0)
  else (if l2 then 1 else 0)

/-- `FlListFileLock::find`, /repo/lib/flcklistfilelock.h 65-69. -/
def findFile (m : Mem) (k : DevIno) : Option Nat :=
  m.files.find? fun f => cmpKey k (m.key f) == 0

/-- `FlListOffLock::find`, /repo/lib/flcklistofflock.h 73-83. -/
def findOff (m : Mem) (f : Nat) (r : Rng) : Option Nat :=
  (m.offs f).find? fun o => hits r (m.rng o)

/-- `FlListLocker::find`, /repo/lib/flcklistlocker.h 66-70. -/
def findLk (m : Mem) (o : Nat) (md : Mode) (t : Nat) (fd : Int) (lck : Bool) : Option Nat :=
  (m.lks o md).find? fun l => cmpLocker t fd lck (m.ltid l) (m.lfd l) (m.locked l) == 0

/-- `FlListOffLock::is_locked`, /repo/lib/flcklistofflock.h 88. -/
def oLocked (m : Mem) (o : Nat) : Bool :=
  m.oprot o || !(m.lks o .rd).isEmpty || !(m.lks o .wr).isEmpty

/-- `FlListFileLock::is_locked`, /repo/lib/flcklistfilelock.cc 197-214. -/
def fLocked (m : Mem) (f : Nat) : Bool :=
  m.fprot f || (m.offs f).any (oLocked m)

/-- Whether one attempt succeeds: `fl_tryrdlock_rwlock` (lock word not negative) and
`fl_trywrlock_rwlock` (lock word 0), /repo/lib/flckbaselist.tcc 162-173, 219-225; the loops
145-160, 175-217, 227-244 repeat these attempts. -/
def canTake (w : Int) : Mode → Bool
  | .rd => decide (0 ≤ w)
  | .wr => w == 0

/-- The new lock word after a successful attempt.  /repo/lib/flckbaselist.tcc 157-158, 165-169,
187-189, 215, 221, 233. -/
def takeWord (w : Int) : Mode → Int
  | .rd => w + 1
  | .wr => -1

/-- `fl_unlock_rwlock`, /repo/lib/flckbaselist.tcc 246-263, as one step (its loop repeats until its
compare-and-swap succeeds).  The code loops for ever on a word below -1, which is not reachable
(theorem C17); the model gives it the value 0. -/
def unlockWord (w : Int) : Int :=
  if w = 0 then 0 else if w ≤ -1 then 0 else w - 1

/-- The actions on shared memory.  The writes of /repo/lib/flckshm.cc 520-562, 731-838,
/repo/lib/flcklistfilelock.cc 61-239 and /repo/lib/flcklistofflock.cc 67-355. -/
inductive Act where
  /-- `retrieve_list(file_lock_free)`, `retrieve_list(offset_lock_free)`,
  `retrieve_list(locker_free)`: /repo/lib/flckshm.cc 787, /repo/lib/flcklistfilelock.cc 105,
  /repo/lib/flcklistofflock.cc 118 -/
  | popF | popO | popL
  /-- `initialize` of a loose file record, /repo/lib/flckshm.cc 793, /repo/lib/flcklistfilelock.h 48-59.  Its
  own action because a thread that failed a lock call may still read this record afterwards
  (/repo/lib/flcklistfilelock.cc 135-149) although it is on no list. -/
  | iniF (f : Nat) (k : DevIno)
  /-- `insert_list` of a file record, /repo/lib/flckshm.cc 795-804 -/
  | insF (f : Nat)
  /-- `initialize` + `insert_list` of a range record, /repo/lib/flcklistfilelock.cc 110-122 -/
  | insO (f o : Nat) (r : Rng)
  /-- the same for a locker record, /repo/lib/flcklistofflock.cc 123-135 -/
  | insL (o : Nat) (md : Mode) (l t : Nat) (fd : Int)
  /-- write the protect flag of a file / range record -/
  | fprot (f : Nat) (b : Bool)
  | oprot (o : Nat) (b : Bool)
  /-- `cutoff_list` of a locker and its insertion into the free list -/
  | cutL (o : Nat) (md : Mode) (l : Nat)
  | pushL (l : Nat)
  /-- the same for a range record -/
  | cutO (f o : Nat)
  | pushO (o : Nat)
  /-- `free_offset_lock_list`, /repo/lib/flcklistfilelock.cc 216-239 (with `free_locker_list`,
  /repo/lib/flcklistofflock.cc 321-355) -/
  | drainO (f : Nat)
  /-- the same for a file record -/
  | cutF (f : Nat)
  | pushF (f : Nat)
  /-- successful attempt on the lock word -/
  | take (o : Nat) (md : Mode) (l : Nat)
  /-- `fl_unlock_rwlock` on the lock word, on behalf of locker l -/
  | unl (o l : Nat)
  /-- `set_lock` (the lock call returns 0 after it) -/
  | flag (l : Nat) (h : Out)
  /-- `set_unlock` -/
  | unflag (l : Nat)
deriving DecidableEq, Repr

/-- No counterpart in the code: what a holder believes (`outs`), see /repo/lib/flcklistofflock.cc
250-308 for the sweep. -/
def revoke (outs : List (Nat × Out)) (l : Nat) : List (Nat × Out) :=
  outs.filter fun x => x.1 ≠ l

/-- Effect of an action.  The lines of each action are at its constructor; the list operations are
/repo/lib/flckbaselist.tcc 576-662. -/
def Mem.act (m : Mem) : Act → Mem
  | .popF => { m with ffree := m.ffree.tail }
  | .popO => { m with ofree := m.ofree.tail }
  | .popL => { m with lfree := m.lfree.tail }
  | .iniF f k => { m with
      key := fset m.key f k, offs := fset m.offs f [], fprot := fset m.fprot f true }
  | .insF f => { m with files := f :: m.files }
  | .insO f o r => { m with
      offs := fset m.offs f (o :: m.offs f), rng := fset m.rng o r, word := fset m.word o 0,
      lks := fset m.lks o (fun _ => []), oprot := fset m.oprot o true }
  | .insL o md l t fd => { m with
      lks := fset m.lks o (fset (m.lks o) md (l :: m.lks o md)),
      ltid := fset m.ltid l t, lfd := fset m.lfd l fd, locked := fset m.locked l false,
      taken := fset m.taken l false }
  | .fprot f b => { m with fprot := fset m.fprot f b }
  | .oprot o b => { m with oprot := fset m.oprot o b }
  | .cutL o md l => { m with
      lks := fset m.lks o (fset (m.lks o) md ((m.lks o md).erase l)), outs := revoke m.outs l }
  | .pushL l => { m with lfree := l :: m.lfree }
  | .cutO f o => { m with offs := fset m.offs f ((m.offs f).erase o) }
  | .pushO o => { m with ofree := o :: m.ofree }
  | .drainO f => { m with
      ofree := (m.offs f).reverse ++ m.ofree, offs := fset m.offs f [],
      lfree := ((m.offs f).map fun o =>
        (m.lks o .wr).reverse ++ (m.lks o .rd).reverse).reverse.flatten ++ m.lfree,
      lks := fun o => if o ∈ m.offs f then fun _ => [] else m.lks o }
  | .cutF f => { m with files := m.files.erase f }
  | .pushF f => { m with ffree := f :: m.ffree }
  | .take o md l => { m with
      word := fset m.word o (takeWord (m.word o) md), taken := fset m.taken l true }
  | .unl o l => { m with
      word := fset m.word o (unlockWord (m.word o)), taken := fset m.taken l false,
      outs := revoke m.outs l }
  | .flag l h => { m with locked := fset m.locked l true, outs := (l, h) :: m.outs }
  | .unflag l => { m with locked := fset m.locked l false }

/-- No counterpart in the code: actions one after the other. -/
def Mem.acts (m : Mem) (as : List Act) : Mem := as.foldl Mem.act m

/-- Where a thread is.  `acq p`: about to acquire the table lock and go on at `p`; `rel p`: about to
release it and go on at `p`; `done r`: outside the library, last call returned `r`.
/repo/lib/flckshm.cc 520-562, 731-871 and what they call, place by place as noted. -/
inductive Pc where
  | done (r : Nat)
  | acq (p : Pc)
  | rel (p : Pc)
  /-- /repo/lib/flckshm.cc 783-807 -/
  | lFile (op : Op)
  /-- /repo/lib/flcklistfilelock.cc 100-125 -/
  | lOff (op : Op) (f : Nat)
  /-- /repo/lib/flcklistfilelock.cc 127 -/
  | lFProt (op : Op) (f o : Nat)
  /-- /repo/lib/flcklistofflock.cc 113-135 -/
  | lLk (op : Op) (f o : Nat)
  /-- /repo/lib/flcklistofflock.cc 138 -/
  | lOProt (op : Op) (f o l : Nat)
  /-- /repo/lib/flcklistofflock.cc 169-197: attempts -/
  | spin (op : Op) (f o l : Nat)
  /-- /repo/lib/flcklistofflock.cc 164 -/
  | setf (op : Op) (f o l : Nat)
  /-- /repo/lib/flcklistofflock.cc 214-216: check of dead holders by a waiter -/
  | rSet (op : Op) (f o l : Nat)
  /-- /repo/lib/flcklistofflock.cc 218-225, 240-319 -/
  | rChk (op : Op) (f o l : Nat)
  /-- /repo/lib/flcklistofflock.cc 148-157: remove own locker after a failure `r` -/
  | f1 (op : Op) (r f o l : Nat)
  /-- /repo/lib/flcklistfilelock.cc 135-149: remove the range record -/
  | f2 (op : Op) (r f : Nat)
  /-- /repo/lib/flckshm.cc 815-833: remove the file record -/
  | f3 (op : Op) (r : Nat)
  /-- /repo/lib/flckshm.cc 751-766, /repo/lib/flcklistfilelock.cc 72-85,
  /repo/lib/flcklistofflock.cc 78-92 -/
  | uFind (op : Op)
  /-- /repo/lib/flcklistofflock.cc 97 -/
  | uWord (op : Op) (f o l : Nat) (md : Mode)
  /-- /repo/lib/flcklistofflock.cc 103 -/
  | uFlag (op : Op) (f o l : Nat) (md : Mode)
  /-- /repo/lib/flcklistofflock.cc 106-111 -/
  | uCut (op : Op) (f o l : Nat) (md : Mode)
  /-- /repo/lib/flcklistfilelock.cc 87-98 -/
  | uOff (op : Op) (f o : Nat)
  /-- /repo/lib/flckshm.cc 768-779 -/
  | uFile (op : Op) (f : Nat)
  /-- /repo/lib/flckshm.cc 862-870 -/
  | qry (op : Op)
  /-- /repo/lib/flckshm.cc 536-558, /repo/lib/flcklistfilelock.cc 160-192: the sweep -/
  | sw
deriving DecidableEq, Repr

/-- What is not determined by the state: `go` = attempt / go on; `spur` = the reader's
compare-and-swap lost a race; `limit` = the attempt failed and the time (or the number of attempts)
is over; `lk`, `off`, `file` = the record the sweep treats next.  Stands for the clock and the
attempt count, /repo/lib/flckbaselist.tcc 151, 198, 210, 238, the compare-and-swap of 158, 169,
189, and the loops of the check, /repo/lib/flckshm.cc 536. -/
inductive Choice where
  | go | spur | limit
  | lk (o : Nat) (md : Mode) (l : Nat)
  | off (f o : Nat)
  | file (f : Nat)
deriving DecidableEq, Repr

/-- After the range level failed with `r` (/repo/lib/flckshm.cc 809-835). -/
def after3 (op : Op) (r : Nat) : Pc := if op.freeFd then .acq (.f3 op r) else .done r

/-- After the locker level failed with `r` (/repo/lib/flcklistfilelock.cc 130-152). -/
def after2 (op : Op) (r f : Nat) : Pc := if op.freeOff then .acq (.f2 op r f) else after3 op r

/-- Removing the locker of a dead holder, /repo/lib/flcklistofflock.cc 255-270, 290-305. -/
def sweepActs (m : Mem) (o : Nat) (md : Mode) (l : Nat) : List Act :=
  [.cutL o md l] ++ (if m.locked l then [.unl o l] else []) ++ [.pushL l]

/-- The next step of thread `t`: actions and next place.  `none`: not possible.
/repo/lib/flckshm.cc 520-562, 731-871, /repo/lib/flcklistfilelock.cc 61-239,
/repo/lib/flcklistofflock.cc 67-355, /repo/lib/flckbaselist.tcc 145-263; the lines of each case
are at the place in `Pc`. -/
def plan (m : Mem) (alive : Nat → Bool) (t : Nat) : Pc → Choice → Option (List Act × Pc)
  | .lFile op, .go =>
    match findFile m op.key with
    | some f => some ([.fprot f true], .lOff op f)
    | none =>
      match m.ffree with
      | [] => some ([], .rel (.done ENOLCK))
      | f :: _ => some ([.popF, .iniF f op.key, .insF f], .lOff op f)
  | .lOff op f, .go =>
    match findOff m f op.rng with
    | some o => some ([.oprot o true], .lFProt op f o)
    | none =>
      match m.ofree with
      | [] => some ([], .rel (after3 op ENOLCK))
      | o :: _ => some ([.popO, .insO f o op.rng], .lFProt op f o)
  | .lFProt op f o, .go => some ([.fprot f false], .lLk op f o)
  | .lLk op f o, .go =>
    match m.lfree with
    | [] => some ([], .rel (after2 op ENOLCK f))
    | l :: _ => some ([.popL, .insL o op.mode l t op.fd], .lOProt op f o l)
  | .lOProt op f o l, .go => some ([.oprot o false], .rel (.spin op f o l))
  | .spin op f o l, .go =>
    if canTake (m.word o) op.mode then some ([.take o op.mode l], .setf op f o l)
    else if op.kind = .try_ then some ([], .acq (.f1 op EBUSY f o l))
    else some ([], .spin op f o l)
  | .spin op f o l, .spur =>
    if op.mode = .rd then
      if op.kind = .try_ then some ([], .acq (.f1 op EBUSY f o l)) else some ([], .spin op f o l)
    else none
  | .spin op f o l, .limit =>
    if canTake (m.word o) op.mode = false ∨ op.mode = .rd then
      match op.kind with
      | .try_ => none
      | .timed => some ([], .acq (.f1 op ETIMEDOUT f o l))
      | .block => some ([], .acq (.rSet op f o l))
    else none
  | .setf op f o l, .go =>
    some ([.flag l ⟨t, op.fd, op.key, op.rng, op.mode⟩], .done 0)
  | .rSet op f o l, .go => some ([.oprot o true], .rChk op f o l)
  | .rChk op f o l, .lk o' md l' =>
    if o' = o ∧ l' ∈ m.lks o md ∧ alive (m.ltid l') = false then
      some (sweepActs m o md l', .rChk op f o l)
    else none
  | .rChk op f o l, .go => some ([.oprot o false], .rel (.spin op f o l))
  | .f1 op r f o _, .go =>
    match findLk m o op.mode t op.fd false with
    | some l' => some ([.cutL o op.mode l', .pushL l'], .rel (after2 op r f))
    | none => some ([], .rel (after2 op r f))
  | .f2 op r f, .go =>
    match findOff m f op.rng with
    | some o => if oLocked m o then some ([], .rel (after3 op r))
        else some ([.cutO f o, .pushO o], .rel (after3 op r))
    | none => some ([], .rel (after3 op r))
  | .f3 op r, .go =>
    match findFile m op.key with
    | some f => if fLocked m f then some ([], .rel (.done r))
        else some ([.drainO f, .cutF f, .pushF f], .rel (.done r))
    | none => some ([], .rel (.done r))
  | .uFind op, .go =>
    match findFile m op.key with
    | none => some ([], .rel (.done EINVAL))
    | some f =>
      match findOff m f op.rng with
      | none => some ([], .rel (.done EINVAL))
      | some o =>
        match findLk m o .wr t op.fd true with
        | some l => some ([], .uWord op f o l .wr)
        | none =>
          match findLk m o .rd t op.fd true with
          | some l => some ([], .uWord op f o l .rd)
          | none => some ([], .rel (.done EINVAL))
  | .uWord op f o l md, .go => some ([.unl o l], .uFlag op f o l md)
  | .uFlag op f o l md, .go => some ([.unflag l], .uCut op f o l md)
  | .uCut op f o l md, .go => some ([.cutL o md l, .pushL l], .uOff op f o)
  | .uOff op f o, .go =>
    if op.freeOff && !oLocked m o then some ([.cutO f o, .pushO o], .uFile op f)
    else some ([], .uFile op f)
  | .uFile op f, .go =>
    if op.freeFd && !fLocked m f then some ([.cutF f, .pushF f], .rel (.done 0))
    else some ([], .rel (.done 0))
  | .qry op, .go =>
    match findFile m op.key with
    | some f => some ([], .rel (.done (if fLocked m f then 1 else 0)))
    | none => some ([], .rel (.done 0))
  | .sw, .lk o md l =>
    if (∃ f ∈ m.files, o ∈ m.offs f) ∧ l ∈ m.lks o md ∧ alive (m.ltid l) = false then
      some (sweepActs m o md l, .sw)
    else none
  | .sw, .off f o =>
    if f ∈ m.files ∧ o ∈ m.offs f ∧ oLocked m o = false then
      some ([.cutO f o, .pushO o], .sw)
    else none
  | .sw, .file f =>
    if f ∈ m.files ∧ m.offs f = [] ∧ fLocked m f = false then
      some ([.cutF f, .pushF f], .sw)
    else none
  | .sw, .go => some ([], .rel (.done 0))
  | _, _ => none

/-- Memory and program counters; the threads are the callers of /repo/lib/fullock.cc 136-236. -/
structure State where
  mem : Mem
  lockid : Nat
  alive : Nat → Bool
  pc : Nat → Pc

/-- API calls. /repo/lib/flckshm.cc 731 (lock, unlock), 840, 520. -/
inductive Call where
  | lock (op : Op)
  | unlock (op : Op)
  | islocked (op : Op)
  | sweep
deriving DecidableEq, Repr

/-- All four start with `fl_lock_lockid(&file_lock_lockid)`: /repo/lib/flckshm.cc 532, 749, 860. -/
def Call.start : Call → Pc
  | .lock op => .acq (.lFile op)
  | .unlock op => .acq (.uFind op)
  | .islocked op => .acq (.qry op)
  | .sweep => .acq .sw

/-- One event: a call, one step of a thread inside /repo/lib/flckshm.cc 520-871, or the end of a
thread at any place. -/
inductive Ev where
  /-- thread `t` calls the API -/
  | call (t : Nat) (c : Call)
  /-- thread `t` makes one step -/
  | go (t : Nat) (c : Choice)
  /-- thread `t` is killed after `k` actions of its next step -/
  | die (t : Nat) (c : Choice) (k : Nat)
deriving DecidableEq, Repr

/-- No counterpart in the code: the thread goes to a place. -/
def State.setPc (s : State) (t : Nat) (p : Pc) : State := { s with pc := fset s.pc t p }

/-- Effect of an event; `none`: not possible.  Calls start at /repo/lib/flckshm.cc 520, 731 and
840. -/
def step (s : State) : Ev → Option State
  | .call t c =>
    if t = 0 ∨ s.alive t = false then none
    else match s.pc t with
      | .done _ => some (s.setPc t c.start)
      | _ => none
  | .go t c =>
    if s.alive t = false then none
    else match s.pc t with
      | .acq p =>
        if s.lockid = 0 ∨ s.alive s.lockid = false then
          some ({ s with lockid := t }.setPc t p)
        else none
      | .rel p => some ({ s with lockid := if s.lockid = t then 0 else s.lockid }.setPc t p)
      | p => (plan s.mem s.alive t p c).map fun x => { s with mem := s.mem.acts x.1 }.setPc t x.2
  | .die t c k =>
    if s.alive t = false then none
    else
      let as := match plan s.mem s.alive t (s.pc t) c with
        | some x => x.1
        | none => []
      some { s with mem := s.mem.acts (as.take k), alive := fset s.alive t false }

/-- No counterpart in the code: events one after the other. -/
def run (s : State) : List Ev → Option State
  | [] => some s
  | e :: es => (step s e).bind (run · es)

/-- Fresh tables with `nf`, `no`, `nl` records, all threads alive and outside.  The contents of free
records are whatever `junk` holds.  /repo/lib/flckshminit.cc 231-302. -/
def init (nf no nl : Nat) (junk : Mem) : State where
  mem := { junk with
    files := [], ffree := List.range nf, ofree := List.range no, lfree := List.range nl,
    offs := fun _ => [], lks := fun _ _ => [], word := fun _ => 0, taken := fun _ => false,
    outs := [] }
  lockid := 0
  alive := fun _ => true
  pc := fun _ => .done 0

end Fullock.FL
