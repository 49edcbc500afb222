import Verif.Model.Dump
import Verif.Spec.Segment
/-! Specification: what a dump ought to show, from the tables as a process sees them. -/
namespace Fullock.Dump
open Fullock.ListMem Fullock.Layout
open Fullock.FLMem (adr)

section
variable (cnt : Pool → Nat) (b fuel : Nat) (x : Seg.State)

/-- The address of a record, and the reference to the next one. -/
def at_ (k : Pool) (i : Nat) : Nat := toAbs b (adr cnt k i)
def nx (k : Pool) (i : Nat) : Nat := x.fl.cells (adr cnt k i)

/-- A locker. -/
def showLocker (lv l : Nat) : List Item :=
  [.locker lv (at_ cnt b .locker l) (nx cnt x .locker l) (x.fl.pay.ltid l) (x.fl.pay.lfd l) (x.fl.pay.locked l), .cls]

/-- A range with its readers and its writers. -/
def showOff (lv o : Nat) : List Item :=
  [.off lv (at_ cnt b .off o) (nx cnt x .off o) (x.fl.pay.rng o) (x.fl.pay.word o) (x.fl.pay.oprot o)] ++
  [.sub (lv + 1) .readers] ++ (FLMem.listed cnt b fuel x.fl.cells (.lks o .rd)).flatMap (showLocker cnt b x (lv + 2)) ++ [.cls] ++
  [.sub (lv + 1) .writers] ++ (FLMem.listed cnt b fuel x.fl.cells (.lks o .wr)).flatMap (showLocker cnt b x (lv + 2)) ++ [.cls] ++
  [.cls]

/-- A file with its ranges. -/
def showFile (lv f : Nat) : List Item :=
  [.file lv (at_ cnt b .file f) (nx cnt x .file f) (x.fl.pay.key f) (x.fl.pay.fprot f)] ++
  [.sub (lv + 1) .offs] ++ (FLMem.listed cnt b fuel x.fl.cells (.offs f)).flatMap (showOff cnt b fuel x (lv + 2)) ++ [.cls] ++
  [.cls]

/-- A mutex. -/
def showMtx (lv m : Nat) : List Item :=
  [.mtx lv (at_ cnt b .nmtx m) (nx cnt x .nmtx m) (x.mc.mem.mname m), .cls]

/-- A waiter with its mutex, if it has one. -/
def showWaiter (lv w : Nat) : List Item :=
  [.waiter lv (at_ cnt b .waiter w) (nx cnt x .waiter w) (x.mc.mem.wtid w) (x.mc.mem.wup w)] ++
  [.sub (lv + 1) .mutex] ++
  (if x.mc.mem.wmtx w = 0 then [] else
    showMtx cnt b x (lv + 2) (FLMem.idx cnt b .nmtx (toAbs b (x.mc.mem.wmtx w)))) ++ [.cls] ++
  [.cls]

/-- A condition with its waiters. -/
def showCond (lv c : Nat) : List Item :=
  [.cond lv (at_ cnt b .ncond c) (nx cnt x .ncond c) (x.mc.mem.cname c)] ++
  [.sub (lv + 1) .waiters] ++ (MCMem.listed cnt b fuel x.mc.mem (.ws c)).flatMap (showWaiter cnt b x (lv + 2)) ++ [.cls] ++
  [.cls]

/-- The lines of the header. -/
def showHead : List Item :=
  [versionCell, lengthCell, FLMem.cell cnt .files, MCMem.cell cnt .mtxs, FLMem.cell cnt .ffree, FLMem.cell cnt .ofree,
   FLMem.cell cnt .lfree, MCMem.cell cnt .mfree].map fun c => .head c (x.fl.cells c)

/-- The records in use: of `fs` files, `ms` mutexes and `cs` conditions. -/
def showUsed (fs ms cs : List Nat) : List Item :=
  [.sect .files] ++ fs.flatMap (showFile cnt b fuel x 1) ++ [.cls] ++
  [.sect .mtxs] ++ ms.flatMap (showMtx cnt b x 1) ++ [.cls] ++
  [.sect .conds] ++ cs.flatMap (showCond cnt b fuel x 1) ++ [.cls]

end

/-- The record an item is about: level, kind, address. -/
def Item.record : Item → Option (Nat × Pool × Nat)
  | .file lv p _ _ _ => some (lv, .file, p)
  | .off lv p _ _ _ _ => some (lv, .off, p)
  | .locker lv p _ _ _ _ => some (lv, .locker, p)
  | .mtx lv p _ _ => some (lv, .nmtx, p)
  | .cond lv p _ _ => some (lv, .ncond, p)
  | .waiter lv p _ _ _ => some (lv, .waiter, p)
  | _ => none

/-- The records that a list of items shows on the first level. -/
def top (is : List Item) : List (Pool × Nat) :=
  is.filterMap fun i => i.record.bind fun r => if r.1 = 1 then some r.2 else none

/-- The cell a task reads, and the kind of the reference. -/
def Task.cell : Task → Option (Pool × Nat)
  | .test c k => some (k, c)
  | .first c k => some (k, c)
  | .all c k _ => some (k, c)
  | _ => none

/-- The record a task looks at. -/
def Task.record : Task → Option (Pool × Nat)
  | .each k _ p => some (k, p)
  | .next k _ p => some (k, p)
  | .one k _ p => some (k, p)
  | .wmtx p _ => some (.waiter, p)
  | _ => none

/-- Some steps of the dump while nobody else moves. -/
def alone (cnt : Pool → Nat) (b : Nat) (x : Seg.State) : Nat → State → Option State
  | 0, d => some d
  | n + 1, d => (step cnt b x d).bind (alone cnt b x n)

/-- A dump, started at any time, while others use the segment; in a new file all members are zero. -/
inductive Reach (cnt : Pool → Nat) (fuel : Nat) (base : Nat → Nat) (A : Seg.State → Seg.Ev → Prop) (b : Nat) :
    Seg.State → State → Prop
  | init {f f' : File} {os : List Sys} {b0 : Nat} {m : Mem} (junkF : FL.Mem) (junkM : MCMem.Mem)
      (hz : ∀ w, junkM.wmtx w = 0) (h : initializeShmFile cnt f true os (some b0) = some (.ok f' m)) :
      Reach cnt fuel base A b (Seg.init m junkF junkM) ⟨[], []⟩
  | start {x : Seg.State} {d : State} (h : Reach cnt fuel base A b x d) (free : Bool) :
      Reach cnt fuel base A b x (start cnt true free)
  | other {x x' : Seg.State} {d : State} {e : Seg.Ev} (h : Reach cnt fuel base A b x d) (ha : A x e)
      (hs : Seg.step cnt fuel base x e = some x') : Reach cnt fuel base A b x' d
  | own {x : Seg.State} {d d' : State} (h : Reach cnt fuel base A b x d) (hs : step cnt b x d = some d') :
      Reach cnt fuel base A b x d'

end Fullock.Dump
