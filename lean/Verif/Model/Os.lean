import Verif.Model.Ids
/-
Model of the /proc look-ups that decide whether a holder is dead, with the per-sweep cache.
Source: /repo/lib/flckutil.cc 244-366, /repo/lib/flckpidcache.h 28-160, /repo/lib/flcklistlocker.cc 46-75,
        /repo/lib/flckcommon.h 44-46 (FLCK_INVALID_ID = 0, FLCK_EACCESS_ID = -1).
-/
namespace Fullock

/-- `dev_t`/`ino_t` values (64-bit unsigned).  `devid`, `inodeid`, /repo/lib/flckutil.cc 292. -/
abbrev DevIno := BitVec 64 × BitVec 64

/-- `FLCK_INVALID_ID` for both ids. /repo/lib/flckcommon.h 45. -/
def invalidDI : DevIno := (0#64, 0#64)
/-- `FLCK_EACCESS_ID` (-1 cast to `dev_t`/`ino_t`) for both ids.  /repo/lib/flckcommon.h 46. -/
def eaccessDI : DevIno := (0xFFFFFFFFFFFFFFFF#64, 0xFFFFFFFFFFFFFFFF#64)

/-- Errno EACCES (Linux). /repo/lib/flckutil.cc 272. -/
def EACCES : Nat := 13

/-- Result of a `stat` call. /repo/lib/flckutil.cc 256, 271, 313, 329. -/
inductive StatRes where
  | ok (di : DevIno)
  | err (errno : Nat)
deriving DecidableEq, Repr

/-- What the operating system answers during one sweep.  The two path patterns are
/repo/lib/flckutil.cc 51-52.  Simplification: the answers do not change during a sweep. -/
structure Os where
  /-- `stat("/proc/<pid>/task/<tid>")` -/
  task : BitVec 32 → BitVec 32 → StatRes
  /-- `stat("/proc/<pid>/fd/<fd>")` -/
  fd : BitVec 32 → BitVec 32 → StatRes

/-- Cache key `fl_pid_cache_key`, /repo/lib/flckpidcache.h 28-70 (std::map ordered by
pid, tid, fd, i.e. equality of all three). -/
structure CacheKey where
  pid : BitVec 32
  tid : BitVec 32
  fd : BitVec 32
deriving DecidableEq, Repr

/-- Cache value `fl_pid_cache_value`, /repo/lib/flckpidcache.h 75-90. -/
structure CacheVal where
  di : DevIno
  isRun : Bool
deriving DecidableEq, Repr

/-- `fl_pid_cache_map_t` as an association list, newest entry first.  /repo/lib/flckpidcache.h 95. -/
abbrev PidCache := List (CacheKey × CacheVal)

/-- `std::map::find`. /repo/lib/flckpidcache.h 106, 143. -/
def PidCache.get (c : PidCache) (k : CacheKey) : Option CacheVal := c.lookup k

/-- `(*pcache)[key] = val`. /repo/lib/flckpidcache.h 122, 133, 158. -/
def PidCache.put (c : PidCache) (k : CacheKey) (v : CacheVal) : PidCache := (k, v) :: c

/-- `FLCK_INVALID_HANDLE` (-1), the `fd` part of an execution key
(/repo/lib/flckpidcache.h 33, 142, 156; /repo/lib/flckcommon.h 44). -/
def invalidHandle : BitVec 32 := 0xFFFFFFFF#32

/-- `FindThreadProcess(pid, tid, pcache)`, /repo/lib/flckutil.cc 244-266 with
`get_execution_cache`/`set_execution_cache`, /repo/lib/flckpidcache.h 137-160.
`none` = no cache given. -/
def findThreadProcess (os : Os) (pid tid : BitVec 32) (cache : Option PidCache) :
    Bool × Option PidCache :=
  let key : CacheKey := ⟨pid, tid, invalidHandle⟩
  match cache.bind (·.get key) with
  | some v => (v.isRun, cache)
  | none =>
    let isRun := match os.task pid tid with
      | .ok _ => true
      | .err _ => false
    (isRun, cache.map (·.put key ⟨invalidDI, isRun⟩))

/-- The static `GetFileDevNode(file, devid, inodeid)`, /repo/lib/flckutil.cc 268-286:
(errno or 0, ids). -/
def statFile : StatRes → Nat × DevIno
  | .ok di => (0, di)
  | .err e => if e = EACCES then (e, eaccessDI) else (e, invalidDI)

/-- The uncached part of `GetFileDevNode(pid, tid, fd, ...)`, /repo/lib/flckutil.cc 304-335:
(result, ids). -/
def probeFd (os : Os) (pid tid fd : BitVec 32) : Nat × DevIno :=
  if isNoFd fd then
    match os.task pid tid with
    | .err e => (e, invalidDI)
    | .ok _ => (0, eaccessDI)
  else
    let (result, di) := statFile (os.fd pid fd)
    if result = EACCES then
      match os.task pid tid with
      | .err e => (e, invalidDI)
      | .ok _ => (result, di)
    else (result, di)

/-- `GetFileDevNode(pid, tid, fd, devid, inodeid, pcache)`, /repo/lib/flckutil.cc 292-344:
(return value, ids, cache). -/
def getFileDevNode (os : Os) (pid tid fd : BitVec 32) (cache : Option PidCache) :
    Bool × DevIno × Option PidCache :=
  let key : CacheKey := ⟨pid, tid, fd⟩
  match cache.bind (·.get key) with
  | some v => (!(v.di == invalidDI), v.di, cache)
  | none =>
    let (result, di) := probeFd os pid tid fd
    let good := result == 0 || result == EACCES
    (good, di, cache.map (·.put key (if good then ⟨di, true⟩ else ⟨invalidDI, true⟩)))

/-- `FlListLocker::check_dead_lock`, /repo/lib/flcklistlocker.cc 46-75: is the locker
`(holder, fd)` on the file `file` dead?  `except` is `(except_flckpid, except_fd)`. -/
def lockerDead (os : Os) (file : DevIno) (holder : FlckPid) (fd : BitVec 32)
    (cache : Option PidCache) (except : FlckPid × BitVec 32) : Bool × Option PidCache :=
  if holder = except.1 ∧ fd = except.2 then (false, cache)
  else
    let (found, tg, cache') := getFileDevNode os (decomposePid holder) (decomposeTid holder) fd cache
    if !found then (true, cache')
    else
      ((tg.1 != eaccessDI.1 && tg.2 != eaccessDI.2) && (tg.1 != file.1 || tg.2 != file.2), cache')

/-- `FlListNMtx::check_dead_lock`'s and `FlListWaiter::check_dead_lock`'s verdict on an identity,
/repo/lib/flcklistnmtx.cc 105-114 and /repo/lib/flcklistwaiter.cc 115-128. The mutex with value 0 (105) is not asked about here:
`Model/MutexCond` passes over it (`swM`). -/
def threadDead (os : Os) (holder : FlckPid) (cache : Option PidCache) (except : FlckPid) :
    Bool × Option PidCache :=
  if holder = except then (false, cache)
  else
    let (run, cache') := findThreadProcess os (decomposePid holder) (decomposeTid holder) cache
    (!run, cache')

/-- One question asked during a sweep.  The calls of `check_dead_lock`, /repo/lib/flckshm.cc
497-623. -/
inductive Query where
  /-- a locker record of a file -/
  | locker (file : DevIno) (holder : FlckPid) (fd : BitVec 32) (except : FlckPid × BitVec 32)
  /-- the owner of a mutex or a condition waiter -/
  | thread (holder : FlckPid) (except : FlckPid)
deriving DecidableEq, Repr

/-- The verdict "dead" on one question.  The calls of `check_dead_lock`, /repo/lib/flckshm.cc
497-623. -/
def askOne (os : Os) (cache : Option PidCache) : Query → Bool × Option PidCache
  | .locker file holder fd ex => lockerDead os file holder fd cache ex
  | .thread holder ex => threadDead os holder cache ex

/-- A sequence of questions sharing one cache, as in `FlShm::CheckProcessDead`,
/repo/lib/flckshm.cc 497-515. -/
def askAll (os : Os) (cache : Option PidCache) : List Query → List Bool
  | [] => []
  | q :: qs =>
    let (v, cache') := askOne os cache q
    v :: askAll os cache' qs

/-- `GetFileDevNode(fd, devid, inodeid)` for the caller's own descriptor,
/repo/lib/flckutil.cc 346-366; `fstat` is the oracle (`none`: it fails). -/
def ownDevNode (fstat : BitVec 32 → Option DevIno) (fd : BitVec 32) : Option DevIno :=
  if isNoFd fd then some eaccessDI else fstat fd

end Fullock
