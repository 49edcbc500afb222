import Verif.Model.Str
/-
Model of the process wide configuration: variables, setters, environment, initialisation and
reinitialisation, and the front part of the lock calls that decides what happens without a
segment.
Source: /repo/lib/flckshm.h 36-57 and 140-160, /repo/lib/flckshm.cc 48-89, 177-199, 236-492,
646-671, 731-746, 840-857, 873-883, 1052-1308, /repo/lib/flckbaselist.tcc 35-36,
/repo/lib/fullock.h 34.
-/
namespace Fullock

/-- `ROBUSTMODE`, /repo/lib/flckshm.h 36-41. -/
inductive Robust where
  | no
  | low
  | high
deriving DecidableEq, Repr

/-- `NOMAPMODE`, /repo/lib/flckshm.h 43-50 (`NOMAP_ALLOW`, `NOMAP_DENY` are the first two). -/
inductive Nomap where
  | allowNoretry
  | denyNoretry
  | allowRetry
  | denyRetry
deriving DecidableEq, Repr

/-- `FREEUNITMODE`, /repo/lib/flckshm.h 52-57 (`FREE_ALWAYS` is `FREE_FD`). -/
inductive FreeUnit where
  | no
  | fd
  | offset
deriving DecidableEq, Repr

/-- The six pools. The `*AreaCount` variables, /repo/lib/flckshm.cc 183-188. -/
inductive Pool where
  | file
  | off
  | locker
  | nmtx
  | ncond
  | waiter
deriving DecidableEq, Repr

/-- `FLCK_FLCK*CNT_DEFAULT`, /repo/lib/flckshm.cc 72-89. -/
def Pool.dflt : Pool → Nat
  | .file => 128
  | .off => 8192
  | .locker => 8192
  | .nmtx => 256
  | .ncond => 256
  | .waiter => 8192

/-- `FLCK_FLCK*CNT_MIN`, /repo/lib/flckshm.cc 72-89. -/
def Pool.min : Pool → Nat
  | .file => 1
  | .off => 4
  | .locker => 4
  | .nmtx => 1
  | .ncond => 1
  | .waiter => 4

/-- `FLCK_FLCK*CNT_MAX`, /repo/lib/flckshm.cc 72-89. -/
def Pool.max : Pool → Nat
  | .file => 2048
  | .off => 16384
  | .locker => 16384
  | .nmtx => 8192
  | .ncond => 8192
  | .waiter => 16384

/-- `FLCK_ROBUST_CHKCNT_MIN`, /repo/lib/flckbaselist.tcc 36. -/
def chkCntMin : Int := 50

/-- `FLCK_ROBUST_CHKCNT_DEFAULT`, /repo/lib/flckbaselist.tcc 35. -/
def chkCntDefault : Int := 5000

/-- The class variables of `FlShm`, /repo/lib/flckshm.cc 177-188, and the three strings of
`FlShmHelper`, 101-103.  The six counts are one function. -/
structure Config where
  auto : Bool := true
  robust : Robust := .high
  nomap : Nomap := .allowNoretry
  freeUnit : FreeUnit := .fd
  umask : Nat := 0
  loopCnt : Int := chkCntDefault
  cnt : Pool → Nat := Pool.dflt
  dir : Str := []
  file : Str := []
  path : Str := []

/-- The environment variables, /repo/lib/flckshm.cc 162-175. -/
inductive EnvVar where
  | autoInit
  | nomapMode
  | robustMode
  | robustChkCnt
  | umask
  | dirPath
  | fileName
  | cnt (p : Pool)
  | freeUnitMode
deriving DecidableEq, Repr

/-- What `getenv` answers in `LoadEnv`, /repo/lib/flckshm.cc 1052-1308. -/
abbrev Env := EnvVar → Option Str

/-! ### Setters, /repo/lib/flckshm.cc 406-492 -/

/-- `SetRobustMode`, /repo/lib/flckshm.cc 412-423. -/
def setRobustMode (c : Config) (m : Robust) : Robust × Config :=
  (c.robust, { c with
    robust := m
    loopCnt := if m = .high ∧ c.loopCnt < chkCntMin then chkCntDefault else c.loopCnt })

/-- `SetNomapMode`, /repo/lib/flckshm.cc 425-430. -/
def setNomapMode (c : Config) (m : Nomap) : Nomap × Config := (c.nomap, { c with nomap := m })

/-- `SetFreeUnitMode`, /repo/lib/flckshm.cc 432-437. -/
def setFreeUnitMode (c : Config) (m : FreeUnit) : FreeUnit × Config :=
  (c.freeUnit, { c with freeUnit := m })

/-- `SetRobustLoopCnt`, /repo/lib/flckshm.cc 439-450. -/
def setRobustLoopCnt (c : Config) (v : Int) : Int × Config :=
  if c.robust ≠ .high then (-1, c)
  else if v < chkCntMin then (-1, c)
  else (c.loopCnt, { c with loopCnt := v })

/-- `SetFileLockAreaCount` ... `SetWaiterAreaCount`, /repo/lib/flckshm.cc 452-492:
six times the same code. -/
def setAreaCount (c : Config) (p : Pool) (v : Nat) : Nat × Config :=
  (c.cnt p, { c with cnt := fun q => if q = p then v else c.cnt q })

/-! ### Environment, /repo/lib/flckshm.cc 1052-1308 -/

/-- `FLCKAUTOINIT`, /repo/lib/flckshm.cc 1056-1069. -/
def envAuto (e : Env) (old : Bool) : Bool :=
  match e .autoInit with
  | none => old
  | some v =>
    if strcaseEq v "YES".toList then true
    else if strcaseEq v "NO".toList then false
    else old

/-- `FLCKNOMAPMODE`, /repo/lib/flckshm.cc 1071-1096. -/
def envNomap (e : Env) (old : Nomap) : Nomap :=
  match e .nomapMode with
  | none => old
  | some v =>
    if strcaseEq v "ALLOW_NORETRY".toList then .allowNoretry
    else if strcaseEq v "DENY_NORETRY".toList then .denyNoretry
    else if strcaseEq v "ALLOW_RETRY".toList then .allowRetry
    else if strcaseEq v "DENY_RETRY".toList then .denyRetry
    else if strcaseEq v "ALLOW".toList then .allowNoretry
    else if strcaseEq v "DENY".toList then .denyNoretry
    else old

/-- `FLCKROBUSTMODE`, /repo/lib/flckshm.cc 1098-1114. -/
def envRobust (e : Env) (old : Robust) : Robust :=
  match e .robustMode with
  | none => old
  | some v =>
    if strcaseEq v "NO".toList then .no
    else if strcaseEq v "LOW".toList then .low
    else if strcaseEq v "HIGH".toList then .high
    else old

/-- `FLCKROBUSTCHKCNT`, /repo/lib/flckshm.cc 1116-1133; `robust` is the mode after the lines before. -/
def envLoopCnt (e : Env) (robust : Robust) (old : Int) : Int :=
  let v :=
    match e .robustChkCnt with
    | none => old
    | some s => if atoi s < chkCntMin then old else atoi s
  if robust = .high ∧ v < chkCntMin then chkCntDefault else v

/-- `FLCKUMASK`, /repo/lib/flckshm.cc 1135-1147: 0777 itself is out of range. -/
def envUmask (e : Env) (old : Nat) : Nat :=
  match e .umask with
  | none => old
  | some s =>
    match cvtNumberStringToLong (some s) with
    | none => old
    | some v => if v < 0 ∨ 0o777 ≤ v then old else v.toNat

/-- /repo/lib/flckshm.cc 1209-1285, one of the six counts. -/
def envCnt (e : Env) (p : Pool) (old : Nat) : Nat :=
  match e (.cnt p) with
  | none => old
  | some s =>
    let v := toSizeT (atoi s)
    if v < p.min ∨ p.max < v then old else v

/-- `FLCKFREEUNITMODE`, /repo/lib/flckshm.cc 1287-1306. -/
def envFreeUnit (e : Env) (old : FreeUnit) : FreeUnit :=
  match e .freeUnitMode with
  | none => old
  | some v =>
    if strcaseEq v "NO".toList then .no
    else if strcaseEq v "FD".toList then .fd
    else if strcaseEq v "OFFSET".toList then .offset
    else if strcaseEq v "ALWAYS".toList then .fd
    else old

/-- `FLCKFILENAME`, /repo/lib/flckshm.cc 1194-1207. -/
def envFile (e : Env) (old : Str) : Str :=
  match e .fileName with
  | none => "fullock.shm".toList
  | some v => if '/' ∈ trim v then old else trim v

/-- The default directory, /repo/lib/flckshm.cc 1170-1184, also 256-273 and 336-353. -/
def defaultDir (fs : Str → FStat) : Str :=
  let top :=
    match fs "/var/lib/antpickax".toList with
    | .node fmt => if fmt &&& sIfDir = 0 then "/tmp".toList else "/var/lib/antpickax".toList
    | _ => "/tmp".toList
  top ++ "/.fullock".toList

/-- The operating system as seen by the configuration: working directory, success of `mkdir` for a
path, success of `InitializeShm` for a path.  Parameters of the model; the code asks the system in
/repo/lib/flckutil.cc (`getcwd`, `stat`, `mkdir`) and /repo/lib/flckshminit.cc 115-229. -/
structure World where
  cwd : Option Str
  mkdir : Str → Bool
  shmOk : Str → Bool

/-- /repo/lib/flckshm.cc 1168-1192: the directory when `FLCKDIRPATH` does not give one. -/
def envDirDefault (w : World) (old : Str) (fs : Str → FStat) : Option (Str × (Str → FStat)) :=
  match makeWorkDirectory w.cwd w.mkdir (defaultDir fs) fs with
  | none => none
  | some (true, fs') => some (defaultDir fs, fs')
  | some (false, fs') => some (old, fs')

/-- `FLCKDIRPATH`, /repo/lib/flckshm.cc 1149-1192.  `none` is undefined behaviour (of `GetRealPath`). -/
def envDir (w : World) (e : Env) (old : Str) (fs : Str → FStat) : Option (Str × (Str → FStat)) :=
  match e .dirPath with
  | none => envDirDefault w old fs
  | some v =>
    match getRealPath w.cwd v with
    | .ub => none
    | .fail => envDirDefault w old fs
    | .ok top =>
      match makeWorkDirectory w.cwd w.mkdir top fs with
      | none => none
      | some (true, fs') => some (top, fs')
      | some (false, fs') => envDirDefault w old fs'

/-- `LoadEnv`, /repo/lib/flckshm.cc 1052-1308; it always returns true. -/
def loadEnv (w : World) (e : Env) (c : Config) (fs : Str → FStat) :
    Option (Config × (Str → FStat)) :=
  match envDir w e c.dir fs with
  | none => none
  | some (d, fs') =>
    some ({ c with
      auto := envAuto e c.auto
      nomap := envNomap e c.nomap
      robust := envRobust e c.robust
      loopCnt := envLoopCnt e (envRobust e c.robust) c.loopCnt
      umask := envUmask e c.umask
      dir := d
      file := envFile e c.file
      cnt := fun p => envCnt e p (c.cnt p)
      freeUnit := envFreeUnit e c.freeUnit }, fs')

/-! ### Initialisation -/

/-- The process: configuration, file system, and whether a segment is attached (`ShmFd` valid,
/repo/lib/flckshm.cc 190). -/
structure Proc where
  cfg : Config := {}
  fs : Str → FStat
  attached : Bool := false

/-- `InitializeShm`, /repo/lib/flckshminit.cc 115-229, seen from here: it fails when already
attached, else its outcome depends on the path. -/
def initShm (w : World) (s : Proc) : Bool × Proc :=
  if s.attached then (false, s)
  else if w.shmOk s.cfg.path then (true, { s with attached := true })
  else (false, s)

/-- The part of `InitializeObject` after the environment, /repo/lib/flckshm.cc 254-290 (the path
has been erased in line 238). -/
def initPath (w : World) (s : Proc) : Option (Bool × Proc) :=
  let d := if s.cfg.dir = [] then defaultDir s.fs else s.cfg.dir
  match makeWorkDirectory w.cwd w.mkdir d s.fs with
  | none => none
  | some (false, fs') => some (false, { s with fs := fs', cfg := { s.cfg with dir := d } })
  | some (true, fs') =>
    some (initShm w { s with fs := fs', cfg := { s.cfg with dir := d, path := d ++ ['/'] ++ s.cfg.file } })

/-- `InitializeObject(is_load_env)`, /repo/lib/flckshm.cc 236-291, without the debug settings. -/
def initObject (w : World) (e : Env) (loadenv : Bool) (s : Proc) : Option (Bool × Proc) :=
  let s0 := { s with cfg := { s.cfg with path := [] } }
  if loadenv then
    match loadEnv w e s0.cfg s0.fs with
    | none => none
    | some (c, fs') =>
      let s1 := { s0 with cfg := c, fs := fs' }
      if c.auto = false then some (true, s1) else initPath w s1
  else initPath w s0

/-- The argument check, /repo/lib/flckshm.cc 296-301; 0 is `FLCK_INITCNT_DEFAULT`.  Line 301 looks
at the locker count where the waiter count is meant. -/
def reinitCheck (n : Pool → Nat) : Bool :=
  !((n .file ≠ 0 && (n .file < Pool.file.min || Pool.file.max < n .file)) ||
    (n .off ≠ 0 && (n .off < Pool.off.min || Pool.off.max < n .off)) ||
    (n .locker ≠ 0 && (n .locker < Pool.locker.min || Pool.locker.max < n .locker)) ||
    (n .nmtx ≠ 0 && (n .nmtx < Pool.nmtx.min || Pool.nmtx.max < n .nmtx)) ||
    (n .ncond ≠ 0 && (n .ncond < Pool.ncond.min || Pool.ncond.max < n .ncond)) ||
    (n .locker ≠ 0 && (n .waiter < Pool.waiter.min || Pool.waiter.max < n .waiter)))

/-- The check of the directory argument, /repo/lib/flckshm.cc 307-318; a null pointer is the empty
string. -/
def reinitDir (w : World) (dirname : Str) (fs : Str → FStat) : Option (Bool × (Str → FStat)) :=
  if dirname = [] then some (true, fs)
  else
    match getRealPath w.cwd dirname with
    | .ub => none
    | .fail => some (false, fs)
    | .ok top => makeWorkDirectory w.cwd w.mkdir top fs

/-- The counts that are reset before the environment is read, /repo/lib/flckshm.cc 356-360: four of
the six. -/
def reinitReset (c : Config) (p : Pool) : Nat :=
  match p with
  | .file => Pool.file.dflt
  | .off => Pool.off.dflt
  | .locker => Pool.locker.dflt
  | .nmtx => Pool.nmtx.dflt
  | .ncond => c.cnt .ncond
  | .waiter => c.cnt .waiter

/-- `ReInitializeObject`, /repo/lib/flckshm.cc 293-404.  `Destroy` always succeeds. -/
def reinitObject (w : World) (e : Env) (dirname filename : Str) (n : Pool → Nat) (s : Proc) :
    Option (Bool × Proc) :=
  if reinitCheck n = false then some (false, s)
  else
    match reinitDir w dirname s.fs with
    | none => none
    | some (false, fs1) => some (false, { s with fs := fs1 })
    | some (true, fs1) =>
      if filename ≠ [] ∧ '/' ∈ trim filename then some (false, { s with fs := fs1 })
      else
        let c1 := { s.cfg with
          dir := defaultDir fs1
          file := "fullock.shm".toList
          cnt := reinitReset s.cfg }
        match loadEnv w e c1 fs1 with
        | none => none
        | some (c2, fs2) =>
          let dir := if dirname = [] then some c2.dir
            else match getRealPath w.cwd dirname with
              | .ok top => some top
              | _ => none
          match dir with
          | none => none
          | some d =>
            let c3 := { c2 with
              auto := true
              dir := d
              file := if filename = [] then c2.file else trim filename
              cnt := fun p => if n p = 0 then c2.cnt p else n p }
            initObject w e false { s with cfg := c3, fs := fs2, attached := false }

/-! ### The front part of the lock calls -/

/-- `CheckAttach`, /repo/lib/flckshm.cc 646-659. -/
def checkAttach (w : World) (s : Proc) : Bool × Proc :=
  if s.attached then (true, s)
  else if s.cfg.nomap = .allowRetry ∨ s.cfg.nomap = .denyRetry then initShm w s
  else (false, s)

/-- `ENOLCK` of Linux, returned in /repo/lib/flckshm.cc 670. -/
def eNolck : Int := 37
/-- `EINVAL` of Linux, returned in /repo/lib/flckshm.cc 665. -/
def eInval : Int := 22

/-- The calls: locks and unlocks of a file (`devOk`: the descriptor is good), of a named mutex, of
a named condition (`name`: none for a null pointer), and the question whether a file is locked.
The callers of `RawLock` and `IsLocked`, /repo/lib/flckshm.cc 661, 731, 840, 873. -/
inductive LockCall where
  | file (devOk : Bool)
  | mutex (name : Option Str)
  | cond (name : Option Str)
  | isLocked (devOk : Bool)
deriving DecidableEq, Repr

/-- What the front part decides.  The early returns, /repo/lib/flckshm.cc 663-671, 734-746,
843-857, 875-883. -/
inductive Front where
  /-- the call returns this code without touching the segment -/
  | ret (code : Int)
  /-- the question returns this answer without touching the segment -/
  | answer (b : Bool)
  /-- the call goes on in the segment -/
  | proceed
deriving DecidableEq, Repr

/-- The code returned without segment, /repo/lib/flckshm.cc 670, 736, 744, 882. -/
def nomapCode (m : Nomap) : Int :=
  if m = .allowRetry ∨ m = .allowNoretry then 0 else eNolck

/-- Front part of the three `RawLock`, /repo/lib/flckshm.cc 661-671, 731-746, 873-883, and of `IsLocked`,
840-857. -/
def lockFront (w : World) (s : Proc) (c : LockCall) : Front × Proc :=
  match c with
  | .mutex none => (.ret eInval, s)
  | .cond none => (.ret eInval, s)
  | .mutex (some _) =>
    let (ok, s') := checkAttach w s
    if ok then (.proceed, s') else (.ret (nomapCode s'.cfg.nomap), s')
  | .cond (some _) =>
    let (ok, s') := checkAttach w s
    if ok then (.proceed, s') else (.ret (nomapCode s'.cfg.nomap), s')
  | .file devOk =>
    let (ok, s') := checkAttach w s
    if ok = false then (.ret (nomapCode s'.cfg.nomap), s')
    else if devOk = false then (.ret (nomapCode s'.cfg.nomap), s')
    else (.proceed, s')
  | .isLocked devOk =>
    let (ok, s') := checkAttach w s
    if ok = false then
      (.answer (decide (s'.cfg.nomap ≠ .allowRetry ∧ s'.cfg.nomap ≠ .allowNoretry)), s')
    else if devOk = false then (.answer false, s')
    else (.proceed, s')

/-! ### Histories -/

/-- The configuration calls.  Setters /repo/lib/flckshm.cc 412-492, `InitializeObject` 236,
`ReInitializeObject` 293, lock calls 661-966. -/
inductive ConfCall where
  | robustMode (m : Robust)
  | nomapMode (m : Nomap)
  | freeUnitMode (m : FreeUnit)
  | loopCnt (v : Int)
  | areaCount (p : Pool) (v : Nat)
  | init (w : World) (e : Env)
  | reinit (w : World) (e : Env) (dirname filename : Str) (n : Pool → Nat)
  | lock (w : World) (c : LockCall)

/-- Effect of a call; `none` is undefined behaviour.  One entry per function of `ConfCall`,
/repo/lib/flckshm.cc 236-492 and 661-966. -/
def confStep (s : Proc) : ConfCall → Option Proc
  | .robustMode m => some { s with cfg := (setRobustMode s.cfg m).2 }
  | .nomapMode m => some { s with cfg := (setNomapMode s.cfg m).2 }
  | .freeUnitMode m => some { s with cfg := (setFreeUnitMode s.cfg m).2 }
  | .loopCnt v => some { s with cfg := (setRobustLoopCnt s.cfg v).2 }
  | .areaCount p v => some { s with cfg := (setAreaCount s.cfg p v).2 }
  | .init w e => (initObject w e true s).map Prod.snd
  | .reinit w e d f n => (reinitObject w e d f n s).map Prod.snd
  | .lock w c => some (lockFront w s c).2

/-- A history of calls.  No counterpart in the code: the calls of /repo/lib/flckshm.cc one after
the other. -/
def confRun (s : Proc) : List ConfCall → Option Proc
  | [] => some s
  | c :: cs =>
    match confStep s c with
    | none => none
    | some s' => confRun s' cs

end Fullock
