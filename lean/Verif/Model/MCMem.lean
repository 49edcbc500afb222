import Verif.Model.MutexCond
import Verif.Model.FLMem
/-
The named mutexes and conditions as they lie in the segment: every list of `Verif.Model.MutexCond` is
a chain of offsets in memory cells at the places given by `Verif.Model.Layout`, names are members of
records which the lookups compare, threads hold pointers to records, the loops over the lists follow the
references one record at a time, and a thread may be killed between any two writes of a list operation.

Source: as Verif.Model.MutexCond, Verif.Model.ListMem, Verif.Model.Layout; the `initialize` functions of
/repo/lib/flcklistnmtx.h 50-70, /repo/lib/flcklistncond.h 49-68, /repo/lib/flcklistwaiter.h 48-58.

Simplifications: members that are not references of lists are kept outside the cells; a name is a number
(Verif.Props.Name: C22_names says when two names are the same); the members of a record that is in no
list are written in one step; the loops of `find` and `cutoff_list` are one step (they only read, under
the table lock).
-/
namespace Fullock.MCMem
open Fullock.ListMem Fullock.Layout
open Fullock.FLMem (adr idx member)
open Fullock.MC (Kind LK UK Choice EPERM EBUSY EINVAL ENOLCK ETIMEDOUT upd)

/-- The list heads: in the header /repo/lib/flckstructure.h 135, 140, 146-148 and in the condition
records 114. -/
inductive Head where
  | mtxs | mfree | conds | cfree | wfree
  | ws (c : Nat)
deriving DecidableEq, Repr

/-- The cell of a list head. /repo/lib/flckstructure.h 135, 140, 146-148, 114. -/
def cell (cnt : Pool → Nat) : Head → Nat
  | .mtxs => headCell 6
  | .mfree => freeCell .nmtx
  | .conds => headCell 8
  | .cfree => freeCell .ncond
  | .wfree => freeCell .waiter
  | .ws c => adr cnt .ncond c + member .ncond 1

/-- The kind of the records of a list. /repo/lib/flckstructure.h 135, 140, 146-148, 114. -/
def Head.pool : Head → Pool
  | .mtxs => .nmtx
  | .mfree => .nmtx
  | .conds => .ncond
  | .cfree => .ncond
  | .wfree => .waiter
  | .ws _ => .waiter

/-- Shared memory, /repo/lib/flckstructure.h 88-149, by record number: `mname`, `mval`, `mcnt` the name,
`lockval`, `lockcnt` of mutex records; `cname` the names of condition records; `wtid`, `wup`, `wmtx` the
`flckpid`, `lockstatus` and `named_mutex` (an offset) of waiter records; `mL`, `cL` the two table locks.
`dep` is ghost, as in `MC.Mem`. -/
structure Mem where
  cells : ListMem.Mem
  mname : Nat → Nat
  mval : Nat → Nat
  mcnt : Nat → Int
  cname : Nat → Nat
  wtid : Nat → Nat
  wup : Nat → Bool
  wmtx : Nat → Nat
  mL : Nat
  cL : Nat
  dep : Nat → Nat → Nat

/-- Where a thread is, as `MC.Pc`; `n` is a name; `m`, `c`, `w` are record numbers; `p` is an absolute
pointer (0 = NULL).  /repo/lib/flckshm.cc 567-623, 661-729, 873-966, /repo/lib/flckbaselist.tcc
265-452; where no lines are given they are those of the same place of `MC.Pc`. -/
inductive Pc where
  | done (r : Nat)
  | acqM (p : Pc)
  | relM (p : Pc)
  | acqC (p : Pc)
  | relC (p : Pc)
  /-- /repo/lib/flckshm.cc 698-704 -/
  | mFind (n : Nat) (kd : Kind)
  /-- /repo/lib/flckshm.cc 705-706 -/
  | mIni (m n : Nat) (kd : Kind)
  /-- /repo/lib/flckshm.cc 709 -/
  | mIns (m : Nat) (kd : Kind)
  | lkRead (m : Nat) (kd : Kind) (k : LK)
  | lkAdd (m : Nat) (kd : Kind) (k : LK)
  | lkChk (m : Nat) (kd : Kind) (k : LK)
  | lkSub (m : Nat) (kd : Kind) (k : LK)
  | lkCas (m : Nat) (kd : Kind) (k : LK)
  | lkInc (m : Nat) (kd : Kind) (k : LK)
  | uFind (n : Nat)
  | ulRead (m : Nat) (k : UK)
  | ulRead2 (m : Nat) (k : UK)
  | ulSub (m : Nat) (k : UK)
  | ulFix (m : Nat) (old : Int) (k : UK)
  | ulCas (m : Nat) (k : UK)
  | ulAdd (m : Nat) (k : UK)
  /-- /repo/lib/flckshm.cc 923-928; both are names -/
  | wM (nc n : Nat) (kd : Kind)
  /-- /repo/lib/flckshm.cc 937-943 -/
  | wC (nc m : Nat) (kd : Kind)
  /-- /repo/lib/flckshm.cc 944-945 -/
  | wNewI (c nc m : Nat) (kd : Kind)
  /-- /repo/lib/flckshm.cc 948 -/
  | wNew (c m : Nat) (kd : Kind)
  | wGet (c m : Nat) (kd : Kind)
  | wIni (c w m : Nat) (kd : Kind)
  | wIns (c w m : Nat) (kd : Kind)
  /-- /repo/lib/flcklistwaiter.cc 68-72: the mutex is read from the waiter record -/
  | wMtx (c w : Nat) (kd : Kind)
  | wSet (c w m : Nat) (kd : Kind)
  | wErr (c w m r : Nat)
  | wSpin (c w m : Nat) (kd : Kind)
  | wCut (c w m r : Nat)
  | wPut (w r : Nat)
  | sFind (nc : Nat) (b : Bool)
  /-- `rfind`, /repo/lib/flckbaselist.tcc 691-695: current record, last match -/
  | sWalk (p : Nat) (last : Option Nat)
  | sSet (w : Nat)
  /-- /repo/lib/flcklistncond.cc 74: the loop of a broadcast -/
  | bWalk (p : Nat)
  | bSet (p : Nat)
  /-- /repo/lib/flckshm.cc 584: start of the loop -/
  | swTop (k : Option (Nat × Kind × LK))
  /-- /repo/lib/flckshm.cc 584-586: at a record of the list -/
  | swAt (p : Nat) (k : Option (Nat × Kind × LK))
  | swChk (m v : Nat) (k : Option (Nat × Kind × LK))
  | swCnt (m : Nat) (k : Option (Nat × Kind × LK))
  | swCntC (m : Nat) (old : Int) (k : Option (Nat × Kind × LK))
  | swVal (m : Nat) (k : Option (Nat × Kind × LK))
  | swValC (m v : Nat) (k : Option (Nat × Kind × LK))
  /-- /repo/lib/flckshm.cc 614: start of the loop -/
  | swC
  /-- /repo/lib/flckshm.cc 614-616: at a condition of the list -/
  | swCond (p : Nat)
  /-- /repo/lib/flcklistncond.cc 163-165: `pabsparent`, `pabscur` -/
  | swW (c parent cur : Nat)
  /-- /repo/lib/flcklistncond.cc 167 -/
  | swCut (c parent cur : Nat)
  /-- /repo/lib/flcklistncond.cc 169 -/
  | swPut (c parent cur : Nat)
  /-- /repo/lib/flcklistncond.cc 175-179 -/
  | swNx (c parent : Nat)
deriving DecidableEq, Repr

/-- /repo/lib/flcklistwaiter.cc 96-105. -/
def fin : LK → Nat → Pc
  | .api, r => .done r
  | .wt c w m r0, r => .acqC (.wCut c w m (if r0 = 0 then r else r0))

/-- /repo/lib/flcklistwaiter.cc 78-91. -/
def ufin : UK → Nat → Pc
  | .api, r => .relM (.done r)
  | .wt c w m kd, r => if r = 0 then .wSpin c w m kd else .wErr c w m r

/-- After a failed attempt, as `MC.failed`.  /repo/lib/flckbaselist.tcc 265-368,
/repo/lib/flcklistnmtx.cc 66-89. -/
def failed (m : Nat) (kd : Kind) (k : LK) : Choice → Option Pc
  | .go => some (if kd = .try_ then fin k EBUSY else .lkRead m kd k)
  | .limit => match kd with
    | .try_ => none
    | .timed => some (fin k ETIMEDOUT)
    | .block => some (.acqM (.swTop (some (m, kd, k))))
  | _ => none

/-- After the check of dead owners.  /repo/lib/flckshm.cc 592, /repo/lib/flcklistnmtx.cc 84-89. -/
def swBack : Option (Nat × Kind × LK) → Pc
  | none => .done 0
  | some (m, kd, k) => .lkRead m kd k

section
variable (cnt : Pool → Nat) (fuel b : Nat)

/-- The absolute pointer to a record. /repo/lib/flckshm.h 211. -/
def ptr (p : Pool) (i : Nat) : Nat := toAbs b (adr cnt p i)

/-- `to_abs(p->next)`. /repo/lib/flckshm.cc 584, /repo/lib/flcklistncond.cc 74. -/
def nextOf (x : Mem) (p : Nat) : Nat := toAbs b (x.cells (nextCell b p))

/-- `to_abs` of a list head.  /repo/lib/flckshm.cc 584, 614, /repo/lib/flcklistncond.cc 74, 163. -/
def top (x : Mem) (h : Head) : Nat := toAbs b (x.cells (cell cnt h))

/-- `find` by name, /repo/lib/flcklistnmtx.h 76-88: the number of the record. -/
def findM (x : Mem) (n : Nat) : Option (Option Nat) :=
  (find b x.cells (fun p => x.mname (idx cnt b .nmtx p) == n) fuel (cell cnt .mtxs)).map
    (Option.map (idx cnt b .nmtx))

/-- `find` by name, /repo/lib/flcklistncond.h 74-86: the number of the record. -/
def findC (x : Mem) (n : Nat) : Option (Option Nat) :=
  (find b x.cells (fun p => x.cname (idx cnt b .ncond p) == n) fuel (cell cnt .conds)).map
    (Option.map (idx cnt b .ncond))

/-- `retrieve_list`: the number of the record and the writes.  /repo/lib/flckbaselist.tcc 597-621. -/
def pop (x : Mem) (h : Head) : Option (Nat × List Write) :=
  (retrieveW b x.cells (cell cnt h)).map fun r => (idx cnt b h.pool r.1, r.2)

/-- `insert_list`: the writes. /repo/lib/flckbaselist.tcc 576-593. -/
def push (x : Mem) (i : Nat) (h : Head) : Option (List Write) :=
  insertW b x.cells (ptr cnt b h.pool i) (cell cnt h)

/-- Waiting for nothing but the own progress: no writes to lists.  No counterpart in the code. -/
def plain (x : Mem) (p : Pc) : Option (List Write × Mem × Pc) := some ([], x, p)

/-- The next step of thread `t` of a process that maps the segment at `b`: the writes to references, the
other members afterwards, the next place.  `none`: not possible (a table lock is taken, or a loop does
not end within `fuel` rounds).  /repo/lib/flckshm.cc 567-623, 661-729, 873-966,
/repo/lib/flcklistnmtx.cc 49-121, /repo/lib/flcklistncond.cc 59-188, /repo/lib/flcklistwaiter.cc
52-129, /repo/lib/flckbaselist.tcc 265-452. -/
def plan (x : Mem) (alive : Nat → Bool) (t : Nat) : Pc → Choice → Option (List Write × Mem × Pc)
  | .acqM p, .go => if x.mL = 0 ∨ alive x.mL = false then plain { x with mL := t } p else none
  | .relM p, .go => plain { x with mL := if x.mL = t then 0 else x.mL } p
  | .acqC p, .go => if x.cL = 0 ∨ alive x.cL = false then plain { x with cL := t } p else none
  | .relC p, .go => plain { x with cL := if x.cL = t then 0 else x.cL } p
  | .mFind n kd, .go =>
    (findM cnt fuel b x n).bind fun
      | some m => plain x (.relM (.lkRead m kd .api))
      | none => match pop cnt b x .mfree with
        | none => plain x (.relM (.done ENOLCK))
        | some (m, ws) => some (ws, x, .mIni m n kd)
  | .mIni m n kd, .go =>
    some ([(adr cnt .nmtx m, 0)],
      { x with mname := upd x.mname m n, mval := upd x.mval m 0, mcnt := upd x.mcnt m 0,
               dep := upd x.dep m fun _ => 0 }, .mIns m kd)
  | .mIns m kd, .go =>
    (push cnt b x m .mtxs).map fun ws => (ws, x, .relM (.lkRead m kd .api))
  | .lkRead m kd k, .go => plain x (if x.mval m = t then .lkAdd m kd k else .lkCas m kd k)
  | .lkAdd m kd k, .go =>
    plain { x with mcnt := upd x.mcnt m (x.mcnt m + 1) }
      (if 0 ≤ x.mcnt m then .lkChk m kd k else .lkSub m kd k)
  | .lkChk m kd k, .go =>
    if x.mval m = t then
      plain { x with dep := upd x.dep m (upd (x.dep m) t (x.dep m t + 1)) } (fin k 0)
    else plain x (.lkSub m kd k)
  | .lkSub m kd k, c =>
    (failed m kd k c).bind fun p => plain { x with mcnt := upd x.mcnt m (x.mcnt m - 1) } p
  | .lkCas m kd k, c =>
    if x.mval m = 0 then
      if c = .go then plain { x with mval := upd x.mval m t } (.lkInc m kd k) else none
    else (failed m kd k c).bind fun p => plain x p
  | .lkInc m _ k, .go =>
    plain { x with mcnt := upd x.mcnt m (x.mcnt m + 1),
                   dep := upd x.dep m (upd (x.dep m) t (x.dep m t + 1)) } (fin k 0)
  | .uFind n, .go =>
    (findM cnt fuel b x n).bind fun
      | some m => plain x (.ulRead m .api)
      | none => plain x (.relM (.done EINVAL))
  | .ulRead m k, .go =>
    if x.mval m = 0 then plain { x with dep := upd x.dep m (upd (x.dep m) t 0) } (ufin k 0)
    else plain x (.ulRead2 m k)
  | .ulRead2 m k, .go => if x.mval m ≠ t then plain x (ufin k EPERM) else plain x (.ulSub m k)
  | .ulSub m k, .go =>
    plain { x with mcnt := upd x.mcnt m (x.mcnt m - 1) }
      (if x.mcnt m ≤ 1 then (if x.mcnt m < 1 then .ulFix m (x.mcnt m) k else .ulCas m k)
       else .ulRead m k)
  | .ulFix m old k, .go =>
    plain { x with mcnt := if x.mcnt m = old then upd x.mcnt m 0 else x.mcnt } (.ulCas m k)
  | .ulCas m k, .go =>
    if x.mval m = t then
      plain { x with mval := upd x.mval m 0, dep := upd x.dep m (upd (x.dep m) t 0) } (ufin k 0)
    else if x.mval m = 0 then
      plain { x with dep := upd x.dep m (upd (x.dep m) t 0) } (ufin k 0)
    else plain x (.ulAdd m k)
  | .ulAdd m k, .go => plain { x with mcnt := upd x.mcnt m (x.mcnt m + 1) } (.ulRead m k)
  | .wM nc n kd, .go =>
    (findM cnt fuel b x n).bind fun
      | some m => plain x (.relM (.acqC (.wC nc m kd)))
      | none => plain x (.relM (.done EINVAL))
  | .wC nc m kd, .go =>
    (findC cnt fuel b x nc).bind fun
      | some c => plain x (.wGet c m kd)
      | none => match pop cnt b x .cfree with
        | none => plain x (.relC (.done ENOLCK))
        | some (c, ws) => some (ws, x, .wNewI c nc m kd)
  | .wNewI c nc m kd, .go =>
    some ([(adr cnt .ncond c, 0), (cell cnt (.ws c), 0)], { x with cname := upd x.cname c nc },
      .wNew c m kd)
  | .wNew c m kd, .go => (push cnt b x c .conds).map fun ws => (ws, x, .wGet c m kd)
  | .wGet c m kd, .go =>
    match pop cnt b x .wfree with
    | none => plain x (.relC (.done ENOLCK))
    | some (w, ws) => some (ws, x, .wIni c w m kd)
  | .wIni c w m kd, .go =>
    plain { x with wtid := upd x.wtid w t, wup := upd x.wup w false,
                   wmtx := upd x.wmtx w (toRel b (ptr cnt b .nmtx m)) } (.wIns c w m kd)
  | .wIns c w _ kd, .go => (push cnt b x w (.ws c)).map fun ws => (ws, x, .relC (.wMtx c w kd))
  | .wMtx c w kd, .go =>
    if x.wmtx w = 0 then plain x (.acqC (.wCut c w 0 EINVAL))
    else plain x (.wSet c w (idx cnt b .nmtx (toAbs b (x.wmtx w))) kd)
  | .wSet c w m kd, .go => plain { x with wup := upd x.wup w false } (.ulRead m (.wt c w m kd))
  | .wErr c w m r, .go => plain { x with wup := upd x.wup w true } (.acqC (.wCut c w m r))
  | .wSpin c w m kd, .go => plain x (if x.wup w then .lkRead m kd (.wt c w m 0) else .wSpin c w m kd)
  | .wSpin c w m kd, .limit =>
    if kd ≠ .block ∧ x.wup w = false then plain x (.lkRead m kd (.wt c w m ETIMEDOUT)) else none
  | .wCut c w _ r, .go =>
    (cutoffW b x.cells fuel (ptr cnt b .waiter w) (cell cnt (.ws c))).bind fun
      | some ws => some (ws, x, .wPut w r)
      | none => plain x (.relC (.done (if r = 0 then ENOLCK else r)))
  | .wPut w r, .go => (push cnt b x w .wfree).map fun ws => (ws, x, .relC (.done r))
  | .sFind nc bc, .go =>
    (findC cnt fuel b x nc).bind fun
      | some c => plain x (if bc then .bWalk (top cnt b x (.ws c)) else .sWalk (top cnt b x (.ws c)) none)
      | none => plain x (.relC (.done EINVAL))
  | .sWalk p last, .go =>
    if p = 0 then
      match last with
      | none => plain x (.relC (.done 0))
      | some w => plain x (.sSet w)
    else plain x (.sWalk (nextOf b x p)
      (if x.wup (idx cnt b .waiter p) then last else some (idx cnt b .waiter p)))
  | .sSet w, .go => plain { x with wup := upd x.wup w true } (.relC (.done 0))
  | .bWalk p, .go =>
    if p = 0 then plain x (.relC (.done 0))
    else plain x (if x.wup (idx cnt b .waiter p) then .bWalk (nextOf b x p) else .bSet p)
  | .bSet p, .go => plain { x with wup := upd x.wup (idx cnt b .waiter p) true } (.bWalk (nextOf b x p))
  | .swTop k, .go => plain x (.swAt (top cnt b x .mtxs) k)
  | .swAt p k, .go =>
    if p = 0 then plain x (.relM (swBack k))
    else if x.mval (idx cnt b .nmtx p) = 0 ∨ x.mval (idx cnt b .nmtx p) = t then
      plain x (.swAt (nextOf b x p) k)
    else plain x (.swChk (idx cnt b .nmtx p) (x.mval (idx cnt b .nmtx p)) k)
  | .swChk m v k, .go =>
    plain x (if alive v then .swAt (nextOf b x (ptr cnt b .nmtx m)) k else .swCnt m k)
  | .swChk m _ k, .spur => plain x (.swAt (nextOf b x (ptr cnt b .nmtx m)) k)
  | .swCnt m k, .go => plain x (.swCntC m (x.mcnt m) k)
  | .swCntC m old k, .go =>
    if old = 0 then plain x (.swVal m k)
    else if x.mcnt m = old then plain { x with mcnt := upd x.mcnt m 0 } (.swVal m k)
    else plain x (.swCnt m k)
  | .swVal m k, .go => plain x (.swValC m (x.mval m) k)
  | .swValC m v k, .go =>
    if v = 0 then plain x (.swAt (nextOf b x (ptr cnt b .nmtx m)) k)
    else if x.mval m = v then
      plain { x with mval := upd x.mval m 0 } (.swAt (nextOf b x (ptr cnt b .nmtx m)) k)
    else plain x (.swCnt m k)
  | .swC, .go => plain x (.swCond (top cnt b x .conds))
  | .swCond p, .go =>
    if p = 0 then plain x (.relC (.done 0))
    else plain x (.swW (idx cnt b .ncond p) 0 (top cnt b x (.ws (idx cnt b .ncond p))))
  | .swW c parent cur, .go =>
    if cur = 0 then plain x (.swCond (nextOf b x (ptr cnt b .ncond c)))
    else if alive (x.wtid (idx cnt b .waiter cur)) then plain x (.swW c cur (nextOf b x cur))
    else plain x (.swCut c parent cur)
  | .swW c _ cur, .spur => if cur = 0 then none else plain x (.swW c cur (nextOf b x cur))
  | .swCut c parent cur, .go =>
    (cutoffW b x.cells fuel cur (cell cnt (.ws c))).bind fun
      | some ws => some (ws, x, .swPut c parent cur)
      | none => plain x (.swNx c parent)
  | .swPut c parent cur, .go =>
    (insertW b x.cells cur (cell cnt .wfree)).map fun ws => (ws, x, .swNx c parent)
  | .swNx c parent, .go =>
    plain x (.swW c parent (if parent ≠ 0 then nextOf b x parent else top cnt b x (.ws c)))
  | _, _ => none

end

/-- As `MC.Call.start`. /repo/lib/flckshm.cc 567, 598, 661, 873. -/
def start : MC.Call → Pc
  | .lock n kd => .acqM (.mFind n kd)
  | .unlock n => .acqM (.uFind n)
  | .wait nc n kd => .acqM (.wM nc n kd)
  | .signal nc => .acqC (.sFind nc false)
  | .broadcast nc => .acqC (.sFind nc true)
  | .sweepM => .acqM (.swTop none)
  | .sweepC => .acqC .swC

/-- Shared memory and threads, /repo/lib/flckstructure.h 88-149. -/
structure State where
  mem : Mem
  alive : Nat → Bool
  pc : Nat → Pc

/-- Events, as `MC.Ev`: in /repo/lib/flckshm.cc 567-623, 661-729, 873-966. -/
inductive Ev where
  /-- thread `t` calls the API -/
  | call (t : Nat) (c : MC.Call)
  /-- thread `t` makes one step -/
  | go (t : Nat) (c : Choice)
  /-- thread `t` is killed after `j` writes to references of its next step -/
  | die (t : Nat) (c : Choice) (j : Nat)
deriving DecidableEq, Repr

/-- `base t` is the address at which the process of `t` maps the segment.  /repo/lib/flckshm.cc
567-623, 661-729, 873-966. -/
def step (cnt : Pool → Nat) (fuel : Nat) (base : Nat → Nat) (s : State) : Ev → Option State
  | .call t c =>
    if t = 0 ∨ s.alive t = false then none
    else match s.pc t with
      | .done _ => some { s with pc := upd s.pc t (start c) }
      | _ => none
  | .go t c =>
    if s.alive t = false then none
    else (plan cnt fuel (base t) s.mem s.alive t (s.pc t) c).map fun r =>
      { s with mem := { r.2.1 with cells := applyWrites s.mem.cells r.1 }, pc := upd s.pc t r.2.2 }
  | .die t c j =>
    if s.alive t = false then none
    else
      let ws := match plan cnt fuel (base t) s.mem s.alive t (s.pc t) c with
        | some r => r.1
        | none => []
      some { s with mem := { s.mem with cells := applyWrites s.mem.cells (ws.take j) },
                    alive := upd s.alive t false }

/-- No counterpart in the code: events one after the other. -/
def run (cnt : Pool → Nat) (fuel : Nat) (base : Nat → Nat) (s : State) : List Ev → Option State
  | [] => some s
  | e :: es => (step cnt fuel base s e).bind (run cnt fuel base · es)

/-- Fresh segment: the cells `m` left by `InitializeShmFile`; the other members of the records are
whatever `junk` holds; nobody is in the library.  /repo/lib/flckshminit.cc 231-302. -/
def init (m : ListMem.Mem) (junk : Mem) : State where
  mem := { junk with cells := m, mL := 0, cL := 0 }
  alive := fun _ => true
  pc := fun _ => .done 0

end Fullock.MCMem
