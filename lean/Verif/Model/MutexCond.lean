/-!
Interleaving model of the named mutexes and named conditions: lock / trylock / timedlock / unlock,
wait / timedwait / signal / broadcast, and the checks of dead owners and dead waiters, executed by
any number of threads, any of which may die at any instruction.

Source: /repo/lib/flckbaselist.tcc 265-452; /repo/lib/flcklistnmtx.cc 49-121;
        /repo/lib/flcklistncond.cc 59-188; /repo/lib/flcklistwaiter.cc 52-129;
        /repo/lib/flckshm.cc 567-623, 661-729, 873-966.

* One step is one atomic operation or one read of a shared word, or one list operation under the
  table lock it belongs to (Verif.Model.ListMem treats those write by write).
* A mutex (condition) is the record a name stands for, so that names are record numbers here
  (Verif.Props.Name: C22_names); a name that was never used has no record.
* The two table locks (`named_mutex_lockid`, `named_cond_lockid`) are acquired and released in one
  step, and can be taken over from a dead holder (Verif.Props.LockId, theorem C34_atomic_view).
* Thread identities are numbers, 0 is FLCK_MUTEX_UNLOCK / FLCK_INVALID_ID.  `FindThreadProcess`
  never calls a live thread dead; it may call a dead one alive (Verif.Props.Os).
* Not in the model: wrap-around of `int lockcnt` (2^31 nested locks; see Verif.Model.Count), failing `clock_gettime`,
  reuse of thread identities (Verif.Model.Reuse), a segment that is not attached (Verif.Model.Config).
-/
namespace Fullock.MC

/-- Function update. No counterpart in the code: an assignment to one record. -/
def upd {α : Type} (f : Nat → α) (a : Nat) (b : α) : Nat → α := fun x => if x = a then b else f x

/-- `timeout_usec`: FLCK_TRY_TIMEOUT, any other value, FLCK_NO_TIMEOUT; /repo/lib/flcklistnmtx.cc 67-74,
/repo/lib/flcklistwaiter.cc 87-92 (where FLCK_TRY_TIMEOUT is a time of zero). -/
inductive Kind where
  | try_ | timed | block
deriving DecidableEq, Repr

/-- errno value (Linux), /repo/lib/flckbaselist.tcc 379. -/
def EPERM : Nat := 1
/-- errno value (Linux), /repo/lib/flckbaselist.tcc 325. -/
def EBUSY : Nat := 16
/-- errno value (Linux), /repo/lib/flckshm.cc 685. -/
def EINVAL : Nat := 22
/-- errno value (Linux), /repo/lib/flckshm.cc 703. -/
def ENOLCK : Nat := 37
/-- errno value (Linux), /repo/lib/flckbaselist.tcc 364. -/
def ETIMEDOUT : Nat := 110

/-- Shared memory, /repo/lib/flckstructure.h 88-149.
Mutex record m: `mval` (`lockval`), `mcnt` (`lockcnt`); `mlist` the records in `named_mutex_list`,
`mroom` the number of records in `named_mutex_free`; `mL` is `named_mutex_lockid`.
Condition record c: `ws c` (`waiter_list`); `clist`, `croom`, `cL` likewise.
Waiter record w: `wtid` (`flckpid`), `wup` (`lockstatus` is FLCK_NCOND_UP); `wfree` is `waiter_free`.
`dep`, `warr`, `tick` are ghost (not in the code): `dep m t` is the number of successful lock calls
(and waits) of t on m since it last released m; `warr w` is the time w was put into a waiter list. -/
structure Mem where
  mval : Nat → Nat
  mcnt : Nat → Int
  mlist : List Nat
  mroom : Nat
  mL : Nat
  clist : List Nat
  croom : Nat
  cL : Nat
  ws : Nat → List Nat
  wfree : List Nat
  wtid : Nat → Nat
  wup : Nat → Bool
  dep : Nat → Nat → Nat
  warr : Nat → Nat
  tick : Nat

/-- What follows a lock attempt: return from the API, or the rest of a condition wait which has
ended its waiting with result `r` (/repo/lib/flcklistwaiter.cc 94-105). -/
inductive LK where
  | api
  | wt (c w m r : Nat)
deriving DecidableEq, Repr

/-- What follows the release of a mutex: return from the API (/repo/lib/flckshm.cc 689-692), or the
waiting loop (/repo/lib/flcklistwaiter.cc 78-93). -/
inductive UK where
  | api
  | wt (c w m : Nat) (kd : Kind)
deriving DecidableEq, Repr

/-- Where a thread is.  `acqM p`: about to acquire the table lock of the mutexes and go on at `p`;
`relM p`: about to release it and go on at `p`; `acqC`, `relC`: the same for the table lock of the
conditions; `done r`: outside the library, the last call returned `r`.  /repo/lib/flckshm.cc
567-623, 661-729, 873-966 and what they call, place by place as noted. -/
inductive Pc where
  | done (r : Nat)
  | acqM (p : Pc)
  | relM (p : Pc)
  | acqC (p : Pc)
  | relC (p : Pc)
  /-- /repo/lib/flckshm.cc 698-703: look up the name, else take a free record -/
  | mFind (m : Nat) (kd : Kind)
  /-- /repo/lib/flckshm.cc 706-717: initialize and list the record -/
  | mIns (m : Nat) (kd : Kind)
  /-- /repo/lib/flckbaselist.tcc 276 (304, 337): read `*plockval` -/
  | lkRead (m : Nat) (kd : Kind) (k : LK)
  /-- 278 (306, 339): fetch_and_add on the own mutex -/
  | lkAdd (m : Nat) (kd : Kind) (k : LK)
  /-- 281 (309, 342): compare_and_swap(lockid, lockid) -/
  | lkChk (m : Nat) (kd : Kind) (k : LK)
  /-- 287 (315, 348): fetch_and_sub and retry -/
  | lkSub (m : Nat) (kd : Kind) (k : LK)
  /-- 291 (319, 352): compare_and_swap(0, lockid) -/
  | lkCas (m : Nat) (kd : Kind) (k : LK)
  /-- 293 (321, 354): fetch_and_add after it -/
  | lkInc (m : Nat) (kd : Kind) (k : LK)
  /-- /repo/lib/flckshm.cc 681-687: look up the name for unlock -/
  | uFind (m : Nat)
  /-- /repo/lib/flckbaselist.tcc 374: read `*plockval`, is it unlocked -/
  | ulRead (m : Nat) (k : UK)
  /-- /repo/lib/flckbaselist.tcc 377: read `*plockval` again, is it the own -/
  | ulRead2 (m : Nat) (k : UK)
  /-- 382: fetch_and_sub -/
  | ulSub (m : Nat) (k : UK)
  /-- 384-387: compare_and_swap of the count -/
  | ulFix (m : Nat) (old : Int) (k : UK)
  /-- 390: compare_and_swap(lockid, 0) -/
  | ulCas (m : Nat) (k : UK)
  /-- 395: fetch_and_add and retry -/
  | ulAdd (m : Nat) (k : UK)
  /-- /repo/lib/flckshm.cc 923-928: look up the mutex of a wait -/
  | wM (c m : Nat) (kd : Kind)
  /-- /repo/lib/flckshm.cc 937-942: look up the condition, else take a free record -/
  | wC (c m : Nat) (kd : Kind)
  /-- /repo/lib/flckshm.cc 945-956: initialize and list the record -/
  | wNew (c m : Nat) (kd : Kind)
  /-- /repo/lib/flcklistncond.cc 111-116: take a waiter record -/
  | wGet (c m : Nat) (kd : Kind)
  /-- /repo/lib/flcklistncond.cc 118: initialize it -/
  | wIni (c w m : Nat) (kd : Kind)
  /-- /repo/lib/flcklistncond.cc 121: list it -/
  | wIns (c w m : Nat) (kd : Kind)
  /-- /repo/lib/flcklistwaiter.cc 75: set the status to WAIT -/
  | wSet (c w m : Nat) (kd : Kind)
  /-- /repo/lib/flcklistwaiter.cc 82: set the status to UP after a failed unlock -/
  | wErr (c w m r : Nat)
  /-- /repo/lib/flckbaselist.tcc 417-442: waiting -/
  | wSpin (c w m : Nat) (kd : Kind)
  /-- /repo/lib/flcklistncond.cc 138-148: unlist the waiter record -/
  | wCut (c w m r : Nat)
  /-- /repo/lib/flcklistncond.cc 140: give it back -/
  | wPut (w r : Nat)
  /-- /repo/lib/flckshm.cc 893-898: look up the condition for a signal (`b`: broadcast) -/
  | sFind (c : Nat) (b : Bool)
  /-- `rfind`, /repo/lib/flckbaselist.tcc 682-702: rest of the list, last match -/
  | sWalk (rest : List Nat) (last : Option Nat)
  /-- /repo/lib/flcklistwaiter.cc 62 from /repo/lib/flcklistncond.cc 97: set the status to UP -/
  | sSet (w : Nat)
  /-- /repo/lib/flcklistncond.cc 74-76: the loop of a broadcast -/
  | bWalk (rest : List Nat)
  /-- /repo/lib/flcklistncond.cc 79 -/
  | bSet (w : Nat) (rest : List Nat)
  /-- /repo/lib/flckshm.cc 584-589: the check of dead owners; `k`: a waiter goes back to its lock loop
  (/repo/lib/flcklistnmtx.cc 82-89).  The return of line 572 without taking the table lock, when no
  mutex was ever used, is a check without records here -/
  | swM (k : Option (Nat × Kind × LK))
  /-- /repo/lib/flcklistnmtx.cc 110-114: is the owner `v`, read in 104, alive -/
  | swChk (m v : Nat) (k : Option (Nat × Kind × LK))
  /-- /repo/lib/flckbaselist.tcc 405 -/
  | swCnt (m : Nat) (k : Option (Nat × Kind × LK))
  /-- /repo/lib/flckbaselist.tcc 406 -/
  | swCntC (m : Nat) (old : Int) (k : Option (Nat × Kind × LK))
  /-- /repo/lib/flckbaselist.tcc 407 -/
  | swVal (m : Nat) (k : Option (Nat × Kind × LK))
  /-- /repo/lib/flckbaselist.tcc 408 -/
  | swValC (m v : Nat) (k : Option (Nat × Kind × LK))
  /-- /repo/lib/flckshm.cc 613-618, /repo/lib/flcklistncond.cc 161-187: the check of dead waiters -/
  | swC
  /-- /repo/lib/flcklistncond.cc 169: give the waiter record back -/
  | swPut (w : Nat)
deriving DecidableEq, Repr

/-- What is not determined by the state: `go` = go on; `limit` = the time (or number of attempts) is
over, if the attempt fails; `spur` = a dead owner is taken for alive; `mx`, `wk` = the record the
check treats next.  Stands for `IS_OVER_TIMESPEC` and the attempt count,
/repo/lib/flckbaselist.tcc 269, 363, 436, the answer of `FindThreadProcess`,
/repo/lib/flcklistnmtx.cc 112, and the loops /repo/lib/flckshm.cc 584, 614. -/
inductive Choice where
  | go | limit | spur
  | mx (m : Nat)
  | wk (c w : Nat)
deriving DecidableEq, Repr

/-- After a lock attempt with result `r`; /repo/lib/flcklistwaiter.cc 96-105. -/
def fin : LK → Nat → Pc
  | .api, r => .done r
  | .wt c w m r0, r => .acqC (.wCut c w m (if r0 = 0 then r else r0))

/-- After the release of a mutex with result `r`; /repo/lib/flcklistwaiter.cc 78-87. -/
def ufin : UK → Nat → Pc
  | .api, r => .relM (.done r)
  | .wt c w m kd, r => if r = 0 then .wSpin c w m kd else .wErr c w m r

/-- After a failed attempt: trylock returns EBUSY (/repo/lib/flckbaselist.tcc 325); timedlock
returns ETIMEDOUT when its time is over (359-365); lock returns EWOULDBLOCK when its number of
attempts is over (269-270) and the dead owners are checked (/repo/lib/flcklistnmtx.cc 82-89);
without the robust mode HIGH that never happens (68). -/
def failed (m : Nat) (kd : Kind) (k : LK) : Choice → Option Pc
  | .go => some (if kd = .try_ then fin k EBUSY else .lkRead m kd k)
  | .limit => match kd with
    | .try_ => none
    | .timed => some (fin k ETIMEDOUT)
    | .block => some (.acqM (.swM (some (m, kd, k))))
  | _ => none

/-- After the check of dead owners.  /repo/lib/flckshm.cc 590-592, /repo/lib/flcklistnmtx.cc 89. -/
def swBack : Option (Nat × Kind × LK) → Pc
  | none => .done 0
  | some (m, kd, k) => .lkRead m kd k

/-- The next step of thread `t`: new memory and next place.  `none`: not possible.
/repo/lib/flckbaselist.tcc 265-452, /repo/lib/flcklistnmtx.cc 49-121, /repo/lib/flcklistncond.cc
59-188, /repo/lib/flcklistwaiter.cc 52-129, /repo/lib/flckshm.cc 567-623, 661-729, 873-966; the
lines of each case are at the place in `Pc`. -/
def plan (M : Mem) (alive : Nat → Bool) (t : Nat) : Pc → Choice → Option (Mem × Pc)
  | .acqM p, .go =>
    if M.mL = 0 ∨ alive M.mL = false then some ({ M with mL := t }, p) else none
  | .relM p, .go => some ({ M with mL := if M.mL = t then 0 else M.mL }, p)
  | .acqC p, .go =>
    if M.cL = 0 ∨ alive M.cL = false then some ({ M with cL := t }, p) else none
  | .relC p, .go => some ({ M with cL := if M.cL = t then 0 else M.cL }, p)
  | .mFind m kd, .go =>
    if m ∈ M.mlist then some (M, .relM (.lkRead m kd .api))
    else if M.mroom = 0 then some (M, .relM (.done ENOLCK))
    else some ({ M with mroom := M.mroom - 1 }, .mIns m kd)
  | .mIns m kd, .go =>
    some ({ M with mlist := m :: M.mlist, mval := upd M.mval m 0, mcnt := upd M.mcnt m 0 },
      .relM (.lkRead m kd .api))
  | .lkRead m kd k, .go => some (M, if M.mval m = t then .lkAdd m kd k else .lkCas m kd k)
  | .lkAdd m kd k, .go =>
    some ({ M with mcnt := upd M.mcnt m (M.mcnt m + 1) },
      if 0 ≤ M.mcnt m then .lkChk m kd k else .lkSub m kd k)
  | .lkChk m kd k, .go =>
    if M.mval m = t then
      some ({ M with dep := upd M.dep m (upd (M.dep m) t (M.dep m t + 1)) }, fin k 0)
    else some (M, .lkSub m kd k)
  | .lkSub m kd k, c =>
    (failed m kd k c).map fun p => ({ M with mcnt := upd M.mcnt m (M.mcnt m - 1) }, p)
  | .lkCas m kd k, c =>
    if M.mval m = 0 then
      if c = .go then some ({ M with mval := upd M.mval m t }, .lkInc m kd k) else none
    else (failed m kd k c).map fun p => (M, p)
  | .lkInc m _ k, .go =>
    some ({ M with mcnt := upd M.mcnt m (M.mcnt m + 1),
                   dep := upd M.dep m (upd (M.dep m) t (M.dep m t + 1)) }, fin k 0)
  | .uFind m, .go =>
    if m ∈ M.mlist then some (M, .ulRead m .api) else some (M, .relM (.done EINVAL))
  | .ulRead m k, .go =>
    if M.mval m = 0 then
      some ({ M with dep := upd M.dep m (upd (M.dep m) t 0) }, ufin k 0)
    else some (M, .ulRead2 m k)
  | .ulRead2 m k, .go => if M.mval m ≠ t then some (M, ufin k EPERM) else some (M, .ulSub m k)
  | .ulSub m k, .go =>
    some ({ M with mcnt := upd M.mcnt m (M.mcnt m - 1) },
      if M.mcnt m ≤ 1 then (if M.mcnt m < 1 then .ulFix m (M.mcnt m) k else .ulCas m k)
      else .ulRead m k)
  | .ulFix m old k, .go =>
    some ({ M with mcnt := if M.mcnt m = old then upd M.mcnt m 0 else M.mcnt }, .ulCas m k)
  | .ulCas m k, .go =>
    if M.mval m = t then
      some ({ M with mval := upd M.mval m 0, dep := upd M.dep m (upd (M.dep m) t 0) }, ufin k 0)
    else if M.mval m = 0 then
      some ({ M with dep := upd M.dep m (upd (M.dep m) t 0) }, ufin k 0)
    else some (M, .ulAdd m k)
  | .ulAdd m k, .go => some ({ M with mcnt := upd M.mcnt m (M.mcnt m + 1) }, .ulRead m k)
  | .wM c m kd, .go =>
    if m ∈ M.mlist then some (M, .relM (.acqC (.wC c m kd))) else some (M, .relM (.done EINVAL))
  | .wC c m kd, .go =>
    if c ∈ M.clist then some (M, .wGet c m kd)
    else if M.croom = 0 then some (M, .relC (.done ENOLCK))
    else some ({ M with croom := M.croom - 1 }, .wNew c m kd)
  | .wNew c m kd, .go =>
    some ({ M with clist := c :: M.clist, ws := upd M.ws c [] }, .wGet c m kd)
  | .wGet c m kd, .go =>
    match M.wfree with
    | [] => some (M, .relC (.done ENOLCK))
    | w :: rest => some ({ M with wfree := rest }, .wIni c w m kd)
  | .wIni c w m kd, .go =>
    some ({ M with wtid := upd M.wtid w t, wup := upd M.wup w false }, .wIns c w m kd)
  | .wIns c w m kd, .go =>
    some ({ M with ws := upd M.ws c (w :: M.ws c), warr := upd M.warr w M.tick,
                   tick := M.tick + 1 }, .relC (.wSet c w m kd))
  | .wSet c w m kd, .go =>
    some ({ M with wup := upd M.wup w false }, .ulRead m (.wt c w m kd))
  | .wErr c w m r, .go => some ({ M with wup := upd M.wup w true }, .acqC (.wCut c w m r))
  | .wSpin c w m kd, .go =>
    some (M, if M.wup w then .lkRead m kd (.wt c w m 0) else .wSpin c w m kd)
  | .wSpin c w m kd, .limit =>
    if kd ≠ .block ∧ M.wup w = false then some (M, .lkRead m kd (.wt c w m ETIMEDOUT)) else none
  | .wCut c w _ r, .go =>
    if w ∈ M.ws c then some ({ M with ws := upd M.ws c ((M.ws c).erase w) }, .wPut w r)
    else some (M, .relC (.done (if r = 0 then ENOLCK else r)))
  | .wPut w r, .go => some ({ M with wfree := w :: M.wfree }, .relC (.done r))
  | .sFind c b, .go =>
    if c ∈ M.clist then some (M, if b then .bWalk (M.ws c) else .sWalk (M.ws c) none)
    else some (M, .relC (.done EINVAL))
  | .sWalk [] none, .go => some (M, .relC (.done 0))
  | .sWalk [] (some w), .go => some (M, .sSet w)
  | .sWalk (x :: xs) last, .go => some (M, .sWalk xs (if M.wup x then last else some x))
  | .sSet w, .go => some ({ M with wup := upd M.wup w true }, .relC (.done 0))
  | .bWalk [], .go => some (M, .relC (.done 0))
  | .bWalk (x :: xs), .go => some (M, if M.wup x then .bWalk xs else .bSet x xs)
  | .bSet w xs, .go => some ({ M with wup := upd M.wup w true }, .bWalk xs)
  | .swM k, .mx m =>
    if m ∈ M.mlist then
      some (M, if M.mval m = 0 ∨ M.mval m = t then .swM k else .swChk m (M.mval m) k)
    else none
  | .swM k, .go => some (M, .relM (swBack k))
  | .swChk m v k, .go => some (M, if alive v then .swM k else .swCnt m k)
  | .swChk _ _ k, .spur => some (M, .swM k)
  | .swCnt m k, .go => some (M, .swCntC m (M.mcnt m) k)
  | .swCntC m old k, .go =>
    if old = 0 then some (M, .swVal m k)
    else if M.mcnt m = old then some ({ M with mcnt := upd M.mcnt m 0 }, .swVal m k)
    else some (M, .swCnt m k)
  | .swVal m k, .go => some (M, .swValC m (M.mval m) k)
  | .swValC m v k, .go =>
    if v = 0 then some (M, .swM k)
    else if M.mval m = v then some ({ M with mval := upd M.mval m 0 }, .swM k)
    else some (M, .swCnt m k)
  | .swC, .wk c w =>
    if c ∈ M.clist ∧ w ∈ M.ws c ∧ alive (M.wtid w) = false then
      some ({ M with ws := upd M.ws c ((M.ws c).erase w) }, .swPut w)
    else none
  | .swC, .go => some (M, .relC (.done 0))
  | .swPut w, .go => some ({ M with wfree := w :: M.wfree }, .swC)
  | _, _ => none

/-- API calls; `sweepM` and `sweepC` are the parts of `CheckProcessDead`.  /repo/lib/flckshm.cc
661, 873 and 567, 598 (called from 497-515). -/
inductive Call where
  | lock (m : Nat) (kd : Kind)
  | unlock (m : Nat)
  | wait (c m : Nat) (kd : Kind)
  | signal (c : Nat)
  | broadcast (c : Nat)
  | sweepM
  | sweepC
deriving DecidableEq, Repr

/-- /repo/lib/flckshm.cc 676, 920, 890, 579, 610. -/
def Call.start : Call → Pc
  | .lock m kd => .acqM (.mFind m kd)
  | .unlock m => .acqM (.uFind m)
  | .wait c m kd => .acqM (.wM c m kd)
  | .signal c => .acqC (.sFind c false)
  | .broadcast c => .acqC (.sFind c true)
  | .sweepM => .acqM (.swM none)
  | .sweepC => .acqC .swC

/-- `last t` is ghost: the current or last call of `t`.  Memory and program counters; the threads
are the callers of /repo/lib/fullock.cc 136-236. -/
structure State where
  mem : Mem
  alive : Nat → Bool
  pc : Nat → Pc
  last : Nat → Call

/-- One event: a call, one step of a thread inside /repo/lib/flckshm.cc 567-966, or the end of a
thread at any place. -/
inductive Ev where
  /-- thread `t` calls the API -/
  | call (t : Nat) (c : Call)
  /-- thread `t` makes one step -/
  | go (t : Nat) (c : Choice)
  /-- thread `t` is killed -/
  | die (t : Nat)
deriving DecidableEq, Repr

/-- Effect of an event; `none`: not possible.  Calls start at /repo/lib/flckshm.cc 661 and 873. -/
def step (s : State) : Ev → Option State
  | .call t c =>
    if t = 0 ∨ s.alive t = false then none
    else match s.pc t with
      | .done _ => some { s with pc := upd s.pc t c.start, last := upd s.last t c }
      | _ => none
  | .go t c =>
    if s.alive t = false then none
    else (plan s.mem s.alive t (s.pc t) c).map fun x =>
      { s with mem := x.1, pc := upd s.pc t x.2 }
  | .die t => if s.alive t = false then none else some { s with alive := upd s.alive t false }

/-- No counterpart in the code: events one after the other. -/
def run (s : State) : List Ev → Option State
  | [] => some s
  | e :: es => (step s e).bind (run · es)

/-- A fresh segment with `nm`, `nc`, `nw` records, all threads alive and outside.  The contents of
free records are whatever `junk` holds.  /repo/lib/flckshminit.cc 231-302. -/
def init (nm nc nw : Nat) (junk : Mem) : State where
  mem := { junk with
    mlist := [], mroom := nm, mL := 0, clist := [], croom := nc, cL := 0, wfree := List.range nw,
    dep := fun _ _ => 0, tick := 0 }
  alive := fun _ => true
  pc := fun _ => .done 0
  last := fun _ => .sweepM

end Fullock.MC
