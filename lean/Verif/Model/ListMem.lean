/-
Model of the shared singly linked lists on the level of memory cells, with one entry per memory
write so that crashes between writes can be expressed.
Source: /repo/lib/flckbaselist.tcc 547-702, /repo/lib/flckshm.h 210-211 (to_rel, to_abs).

A cell address is the offset in the segment; cells are list heads and the `next` fields of
records (`next` is the first member, so the record at offset r has its `next` in cell r).
The functions work with absolute pointers of a process that maps the segment at address `b`,
exactly as the C++ code does; 0 is NULL.
All list operations run while the caller holds the table lock (Verif.Model.LockId), hence the
compare-and-swap of the C++ code always succeeds at once; simplification: the retry branches are
left out.
-/
namespace Fullock.ListMem

/-- Cell contents. The pointers in /repo/lib/flckstructure.h 51-149. -/
abbrev Mem := Nat → Nat

/-- No counterpart in the code: one write. -/
def Mem.set (m : Mem) (c v : Nat) : Mem := fun x => if x = c then v else m x

/-- A memory write: cell and new value.  /repo/lib/flckbaselist.tcc 558, 560, 589, 590, 612, 618,
641, 642. -/
abbrev Write := Nat × Nat

/-- No counterpart in the code: writes one after the other. -/
def applyWrites (m : Mem) : List Write → Mem
  | [] => m
  | w :: ws => applyWrites (m.set w.1 w.2) ws

/-- `to_rel`, /repo/lib/flckshm.h 210. -/
def toRel (b a : Nat) : Nat := if a ≠ 0 then a - b else a

/-- `to_abs`, /repo/lib/flckshm.h 211. -/
def toAbs (b r : Nat) : Nat := if r ≠ 0 then r + b else r

/-- `p->next` for an absolute record pointer: the cell at offset `p - b`.  `next` is the first
member, /repo/lib/flckstructure.h 52, 63, 77, 89, 101, 112. -/
def nextCell (b p : Nat) : Nat := p - b

/-- `insert_list`, /repo/lib/flckbaselist.tcc 576-593: the writes done, `none` = returns false.
`h` is the cell of `preltop`, `p` is `pcurrent`. -/
def insertW (b : Nat) (m : Mem) (p h : Nat) : Option (List Write) :=
  if p = 0 then none
  else
    let newreltop := toRel b p
    let oldreltop := m h
    some [(nextCell b p, oldreltop), (h, newreltop)]

/-- `retrieve_list`, /repo/lib/flckbaselist.tcc 597-621: new `pcurrent` and the writes. -/
def retrieveW (b : Nat) (m : Mem) (h : Nat) : Option (Nat × List Write) :=
  let oldreltop := m h
  if oldreltop = 0 then none
  else
    let newreltop := m (nextCell b (toAbs b oldreltop))
    let p := toAbs b oldreltop
    some (p, [(h, newreltop), (nextCell b p, 0)])

/-- The search loop of `cutoff_list`, /repo/lib/flckbaselist.tcc 636-661: the cell holding the
reference to `p` (`ptroldnext`).  Outer `none` = the loop does not end within `fuel` rounds. -/
def cutLoop (b : Nat) (m : Mem) (p : Nat) : Nat → Nat → Nat → Option (Option Nat)
  | 0, _, _ => none
  | fuel + 1, cell, target =>
    if target = 0 then some none
    else if target = p then some (some cell)
    else cutLoop b m p fuel (nextCell b target) (toAbs b (m (nextCell b target)))

/-- `cutoff_list`, /repo/lib/flckbaselist.tcc 623-662: inner `none` = returns false. -/
def cutoffW (b : Nat) (m : Mem) (fuel p h : Nat) : Option (Option (List Write)) :=
  if p = 0 ∨ m h = 0 then some none
  else (cutLoop b m p fuel h (toAbs b (m h))).map fun r =>
    r.map fun cell => [(cell, m (nextCell b p)), (nextCell b p, 0)]

/-- The loop of `find`, /repo/lib/flckbaselist.tcc 672-678: `eq p` is `0 == fl_compare_list_base(pbase, p)`;
result: new `pcurrent`, inner `none` = returns false. -/
def findLoop (b : Nat) (m : Mem) (eq : Nat → Bool) : Nat → Nat → Option (Option Nat)
  | 0, _ => none
  | fuel + 1, target =>
    if target = 0 then some none
    else if eq target then some (some target)
    else findLoop b m eq fuel (toAbs b (m (nextCell b target)))

/-- `find` from the head of a list, /repo/lib/flckbaselist.tcc 664-680. -/
def find (b : Nat) (m : Mem) (eq : Nat → Bool) (fuel h : Nat) : Option (Option Nat) :=
  findLoop b m eq fuel (toAbs b (m h))

/-- The loop of `rfind`, /repo/lib/flckbaselist.tcc 691-695: the last match. -/
def rfindLoop (b : Nat) (m : Mem) (eq : Nat → Bool) : Nat → Nat → Option Nat → Option (Option Nat)
  | 0, _, _ => none
  | fuel + 1, target, last =>
    if target = 0 then some last
    else rfindLoop b m eq fuel (toAbs b (m (nextCell b target))) (if eq target then some target else last)

/-- `rfind` from the head of a list, /repo/lib/flckbaselist.tcc 682-702. -/
def rfind (b : Nat) (m : Mem) (eq : Nat → Bool) (fuel h : Nat) : Option (Option Nat) :=
  rfindLoop b m eq fuel (toAbs b (m h)) none

/-- The loop of `initialize(ptr, count)`, /repo/lib/flckbaselist.tcc 555-562, for records of
`size` bytes: the writes done, given `prev` (0 = none). -/
def initLoop (b size : Nat) : Nat → Nat → Nat → List Write
  | 0, _, _ => []
  | count + 1, ptr, prev =>
    (if prev ≠ 0 then [(nextCell b prev, toRel b ptr)] else []) ++
      [(nextCell b ptr, 0)] ++ initLoop b size count (ptr + size) ptr

/-- `initialize(ptr, count)`, /repo/lib/flckbaselist.tcc 547-564: `none` = returns false. -/
def initW (b size ptr count : Nat) : Option (List Write) :=
  if ptr = 0 ∨ count = 0 then none else some (initLoop b size count ptr 0)

/-- One list operation of the library: put a record in front of a list, take the first record of a
list, unlink a given record from a list.  Records and heads are named by their offset.
/repo/lib/flckbaselist.tcc 576, 597, 623. -/
inductive Op
  | insert (r h : Nat)
  | retrieve (h : Nat)
  | cutoff (r h : Nat)

/-- The writes done by a process that maps the segment at `b`; `none` = the call does not end
within `fuel` rounds of its loop; a call returning false writes nothing.
/repo/lib/flckbaselist.tcc 576-662. -/
def writes (b fuel : Nat) (m : Mem) : Op → Option (List Write)
  | .insert r h => some ((insertW b m (toAbs b r) h).getD [])
  | .retrieve h => some (((retrieveW b m h).map Prod.snd).getD [])
  | .cutoff r h => (cutoffW b m fuel (toAbs b r) h).map (Option.getD · [])

/-- A call executed by a process that maps the segment at `b` and that dies after `k` writes
(`k ≥ 2`: it completes).  No counterpart in the code. -/
structure Call where
  b : Nat
  op : Op
  k : Nat

/-- A call, complete or cut short, /repo/lib/flckbaselist.tcc 576-662. -/
def exec (fuel : Nat) (m : Mem) (c : Call) : Option Mem :=
  (writes c.b fuel m c.op).map fun ws => applyWrites m (ws.take c.k)

/-- No counterpart in the code: calls one after the other. -/
def execAll (fuel : Nat) : Mem → List Call → Option Mem
  | m, [] => some m
  | m, c :: cs => (exec fuel m c).bind fun m' => execAll fuel m' cs

end Fullock.ListMem
