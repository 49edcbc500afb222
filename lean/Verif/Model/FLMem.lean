import Verif.Model.FileLock
import Verif.Model.Layout
import Verif.Model.Drain
/-
The file lock tables as they lie in the segment: every list of `Verif.Model.FileLock` is a chain of
offsets in memory cells at the places given by `Verif.Model.Layout`; every action on lists is the
sequence of memory writes the code makes, and a thread may be killed between any two of them.

Source: as Verif.Model.FileLock, Verif.Model.ListMem, Verif.Model.Layout, Verif.Model.Drain; the
`initialize` functions of /repo/lib/flcklistfilelock.h 48-59, flcklistofflock.h 50-67,
flcklistlocker.h 46-56.

Simplifications: members that are not references (file, range, lock word, flags) are kept outside
the cells, in `pay`; the writes of such members to a record that is in no list are made together
with its insertion.
-/
namespace Fullock.FLMem
open Fullock.ListMem Fullock.Layout

/-- Offset of the n-th member of a record. /repo/lib/flckstructure.h 51-117. -/
def member (p : Pool) (n : Nat) : Nat := (place 0 (recFields p)).1.getD n 0

/-- Offset of a record in the segment: arrays of records, /repo/lib/flckshminit.cc 253-259, 304-374. -/
def adr (cnt : Pool → Nat) (p : Pool) (i : Nat) : Nat := areaOff cnt p + i * recSize p

/-- The number of a record, from its absolute address.  Not in the code, which keeps addresses;
the inverse of `adr`, /repo/lib/flckshm.h 210. -/
def idx (cnt : Pool → Nat) (b : Nat) (p : Pool) (a : Nat) : Nat := (toRel b a - areaOff cnt p) / recSize p

/-- The list heads: in the header /repo/lib/flckstructure.h 130, 143-145; in file records 81; in
range records 68-69. -/
inductive Head where
  | files | ffree | ofree | lfree
  | offs (f : Nat)
  | lks (o : Nat) (md : FL.Mode)
deriving DecidableEq, Repr

/-- The cell of a list head. /repo/lib/flckstructure.h 130, 143-145, 81, 68-69. -/
def cell (cnt : Pool → Nat) : Head → Nat
  | .files => headCell 4
  | .ffree => freeCell .file
  | .ofree => freeCell .off
  | .lfree => freeCell .locker
  | .offs f => adr cnt .file f + member .file 3
  | .lks o .rd => adr cnt .off o + member .off 4
  | .lks o .wr => adr cnt .off o + member .off 5

/-- The kind of the records of a list. /repo/lib/flckstructure.h 130, 143-145, 81, 68-69. -/
def Head.pool : Head → Pool
  | .files => .file
  | .ffree => .file
  | .ofree => .off
  | .lfree => .locker
  | .offs _ => .off
  | .lks _ _ => .locker

/-- The references written by `initialize` to a record before it is inserted:
/repo/lib/flcklistfilelock.h 52, 56; /repo/lib/flcklistofflock.h 54, 58-59; /repo/lib/flcklistlocker.h 50. -/
def pre (cnt : Pool → Nat) : FL.Act → List Write
  | .iniF f _ => [(adr cnt .file f, 0), (cell cnt (.offs f), 0)]
  | .insO _ o _ => [(adr cnt .off o, 0), (cell cnt (.lks o .rd), 0), (cell cnt (.lks o .wr), 0)]
  | .insL _ _ l _ _ => [(adr cnt .locker l, 0)]
  | _ => []

/-- The list operation of an action (see the comments of `FL.Act`).  /repo/lib/flckbaselist.tcc
576-662. -/
def lop (cnt : Pool → Nat) : FL.Act → Option Op
  | .popF => some (.retrieve (cell cnt .ffree))
  | .popO => some (.retrieve (cell cnt .ofree))
  | .popL => some (.retrieve (cell cnt .lfree))
  | .insF f => some (.insert (adr cnt .file f) (cell cnt .files))
  | .insO f o _ => some (.insert (adr cnt .off o) (cell cnt (.offs f)))
  | .insL o md l _ _ => some (.insert (adr cnt .locker l) (cell cnt (.lks o md)))
  | .cutL o md l => some (.cutoff (adr cnt .locker l) (cell cnt (.lks o md)))
  | .pushL l => some (.insert (adr cnt .locker l) (cell cnt .lfree))
  | .cutO f o => some (.cutoff (adr cnt .off o) (cell cnt (.offs f)))
  | .pushO o => some (.insert (adr cnt .off o) (cell cnt .ofree))
  | .cutF f => some (.cutoff (adr cnt .file f) (cell cnt .files))
  | .pushF f => some (.insert (adr cnt .file f) (cell cnt .ffree))
  | _ => none

/-- The writes of an action by a process that maps the segment at `b`; `none` = a loop does not
end within `fuel` rounds.  /repo/lib/flckbaselist.tcc 576-662, /repo/lib/flcklistfilelock.cc
216-239. -/
def actW (cnt : Pool → Nat) (b fuel : Nat) (m : Mem) (a : FL.Act) : Option (List Write) :=
  match a with
  | .drainO f => drainW b fuel m (cell cnt (.offs f)) (cell cnt .ofree)
  | a =>
    match lop cnt a with
    | none => some (pre cnt a)
    | some op => (writes b fuel (applyWrites m (pre cnt a)) op).map (pre cnt a ++ ·)

/-- No counterpart in the code: actions one after the other. -/
def actsW (cnt : Pool → Nat) (b fuel : Nat) : Mem → List FL.Act → Option Mem
  | m, [] => some m
  | m, a :: as => (actW cnt b fuel m a).bind fun ws => actsW cnt b fuel (applyWrites m ws) as

/-- Walking along a list from an absolute pointer, as the loops
`for(p = to_abs(top); p; p = to_abs(p->next))` do.  /repo/lib/flckbaselist.tcc 672,
/repo/lib/flcklistfilelock.cc 207. -/
def walk (b : Nat) (m : Mem) : Nat → Nat → List Nat
  | 0, _ => []
  | fuel + 1, p => if p = 0 then [] else p :: walk b m fuel (toAbs b (m (nextCell b p)))

/-- The numbers of the records of a list, as a process mapping the segment at `b` sees them.
/repo/lib/flckbaselist.tcc 672. -/
def listed (cnt : Pool → Nat) (b fuel : Nat) (m : Mem) (h : Head) : List Nat :=
  (walk b m fuel (toAbs b (m (cell cnt h)))).map (idx cnt b h.pool)

/-- The tables as seen by a process mapping the segment at `b`.  /repo/lib/flckstructure.h
122-149. -/
def view (cnt : Pool → Nat) (b fuel : Nat) (m : Mem) (pay : FL.Mem) : FL.Mem :=
  { pay with
    files := listed cnt b fuel m .files
    ffree := listed cnt b fuel m .ffree
    ofree := listed cnt b fuel m .ofree
    lfree := listed cnt b fuel m .lfree
    offs := fun f => listed cnt b fuel m (.offs f)
    lks := fun o md => listed cnt b fuel m (.lks o md) }

/-- State: memory cells, other members (the lists in `pay` mean nothing), table lock, threads.
/repo/lib/flckstructure.h 51-83, 122-149. -/
structure State where
  cells : Mem
  pay : FL.Mem
  lockid : Nat
  alive : Nat → Bool
  pc : Nat → FL.Pc

/-- As `FL.Ev`: events in /repo/lib/flckshm.cc 520-871. -/
inductive Ev where
  /-- thread `t` calls the API -/
  | call (t : Nat) (c : FL.Call)
  /-- thread `t`, in a process mapping the segment at `b`, makes one step -/
  | go (t b : Nat) (c : FL.Choice)
  /-- it is killed after `k` actions of its next step and `j` writes of the following one -/
  | die (t b : Nat) (c : FL.Choice) (k j : Nat)

/-- Whether an action is in effect after `j` of its writes: an insertion with the last write, a
removal with the first one, the initialization of a file record when its list is reset; an action
without references is one write.  The last write of an insertion is /repo/lib/flckbaselist.tcc
590, the first one of a removal 612 and 641. -/
def effective (cnt : Pool → Nat) (a : FL.Act) (j : Nat) : Bool :=
  match a with
  | .drainO _ => false
  | .iniF _ _ => decide (2 ≤ j)
  | a =>
    match lop cnt a with
    | some (.insert _ _) => decide ((pre cnt a).length + 2 ≤ j)
    | _ => decide (1 ≤ j)

/-- No counterpart in the code: the thread goes to a place. -/
def setPc (s : State) (t : Nat) (p : FL.Pc) : State := { s with pc := FL.fset s.pc t p }

/-- Death after `k` complete actions and `j` writes of the next one.  Between any two writes of
/repo/lib/flckbaselist.tcc 576-662. -/
def cut (cnt : Pool → Nat) (b fuel : Nat) (m : Mem) (pay : FL.Mem) (as : List FL.Act) (k j : Nat) :
    Option (Mem × FL.Mem) :=
  (actsW cnt b fuel m (as.take k)).bind fun m1 =>
    match as.drop k with
    | [] => some (m1, pay.acts (as.take k))
    | a :: _ => (actW cnt b fuel m1 a).map fun ws =>
      (applyWrites m1 (ws.take j),
        pay.acts (as.take (if effective cnt a j then k + 1 else k)))

/-- As `FL.step`, with the tables read from and written to the cells.  /repo/lib/flckshm.cc
520-871, /repo/lib/flckbaselist.tcc 576-662. -/
def step (cnt : Pool → Nat) (fuel : Nat) (s : State) : Ev → Option State
  | .call t c =>
    if t = 0 ∨ s.alive t = false then none
    else match s.pc t with
      | .done _ => some (setPc s t c.start)
      | _ => none
  | .go t b c =>
    if s.alive t = false then none
    else match s.pc t with
      | .acq p =>
        if s.lockid = 0 ∨ s.alive s.lockid = false then
          some (setPc { s with lockid := t } t p)
        else none
      | .rel p => some (setPc { s with lockid := if s.lockid = t then 0 else s.lockid } t p)
      | p =>
        (FL.plan (view cnt b fuel s.cells s.pay) s.alive t p c).bind fun x =>
          (actsW cnt b fuel s.cells x.1).map fun m' =>
            setPc { s with cells := m', pay := s.pay.acts x.1 } t x.2
  | .die t b c k j =>
    if s.alive t = false then none
    else
      let as := match FL.plan (view cnt b fuel s.cells s.pay) s.alive t (s.pc t) c with
        | some x => x.1
        | none => []
      (cut cnt b fuel s.cells s.pay as k j).map fun r =>
        { s with cells := r.1, pay := r.2, alive := FL.fset s.alive t false }

/-- Bulk returns are not cut in the middle.  Not in the code; /repo/lib/flcklistfilelock.cc
216-239. -/
def Ev.whole (cnt : Pool → Nat) (fuel : Nat) (s : State) : Ev → Prop
  | .die t b c k j => ∀ x, FL.plan (view cnt b fuel s.cells s.pay) s.alive t (s.pc t) c = some x →
      ∀ f, (x.1.drop k).head? = some (.drainO f) → j = 0
  | _ => True

/-- Fresh segment: the cells `m` left by `InitializeShmFile`, nobody in the library.
/repo/lib/flckshminit.cc 231-302. -/
def init (m : Mem) (junk : FL.Mem) : State where
  cells := m
  pay := { junk with word := fun _ => 0, taken := fun _ => false, outs := [] }
  lockid := 0
  alive := fun _ => true
  pc := fun _ => .done 0

end Fullock.FLMem
