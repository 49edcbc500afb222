import Verif.Model.Segment
/-
The dump of the segment, `FlShm::Dump`.
Source: /repo/lib/flckshmdump.cc 39-133; the `dump` functions of /repo/lib/flcklistfilelock.cc 33-59,
flcklistofflock.cc 31-65, flcklistlocker.cc 28-44, flcklistnmtx.cc 31-47, flcklistncond.cc 32-57,
flcklistwaiter.cc 29-50, flckbaselist.tcc 704-713.

The dump takes no table lock: every reference it follows is read on its own, and other threads may run
between any two reads.  It writes nothing to the segment.  What is printed is a list of items; the level of
an item is the depth of indentation of the source.

Simplified: the members printed of one record are read in one step; the text of the items, `szver` and
the hashes of names are left out; the member `named_mutex` is read in a step of its own.
-/
namespace Fullock.Dump
open Fullock.ListMem Fullock.Layout
open Fullock.FLMem (adr idx)

/-- The parts of the dump: /repo/lib/flckshmdump.cc 60, 68, 76, 85, 93, 101, 109, 117, 125. -/
inductive Sect where
  | files | mtxs | conds | ffree | ofree | lfree | mfree | cfree | wfree
deriving DecidableEq, Repr

/-- The lists inside records: `offset_lock_list`, `reader_list`, `writer_list`, `waiter_list`,
`named_mutex`.  /repo/lib/flckstructure.h 81, 68, 69, 114, 105. -/
inductive Sub where
  | offs | readers | writers | waiters | mutex
deriving DecidableEq, Repr

/-- What is printed.  `lv` is the level, `p` the address of the record, `nx` its `next`.
/repo/lib/flckshmdump.cc 39-133 and the `dump` functions named at the kinds. -/
inductive Item where
  /-- /repo/lib/flckshmdump.cc 44 -/
  | notInit
  /-- a line of the header: the cell and its value, /repo/lib/flckshmdump.cc 49-57 -/
  | head (c v : Nat)
  /-- the beginning of a part -/
  | sect (s : Sect)
  /-- the beginning of a list inside a record -/
  | sub (lv : Nat) (s : Sub)
  /-- a closing brace -/
  | cls
  /-- /repo/lib/flcklistfilelock.cc 41-47 -/
  | file (lv p nx : Nat) (key : DevIno) (prot : Bool)
  /-- /repo/lib/flcklistofflock.cc 39-46 -/
  | off (lv p nx : Nat) (rng : Rng) (word : Int) (prot : Bool)
  /-- /repo/lib/flcklistlocker.cc 36-42 -/
  | locker (lv p nx : Nat) (tid : Nat) (fd : Int) (locked : Bool)
  /-- /repo/lib/flcklistnmtx.cc 39-44: neither the owner nor the count -/
  | mtx (lv p nx : Nat) (name : Nat)
  /-- /repo/lib/flcklistncond.cc 40-45 -/
  | cond (lv p nx : Nat) (name : Nat)
  /-- /repo/lib/flcklistwaiter.cc 37-42 -/
  | waiter (lv p nx : Nat) (tid : Nat) (up : Bool)
deriving DecidableEq, Repr

/-- What remains to be done.  Places in /repo/lib/flckshmdump.cc 39-133 and in the `dump`
functions. -/
inductive Task where
  /-- print -/
  | put (i : Item)
  /-- print a member of the header -/
  | line (c : Nat)
  /-- `if(head)`, /repo/lib/flckshmdump.cc 61, 69, 77 -/
  | test (c : Nat) (k : Pool)
  /-- `list(to_abs(head)); list.dump(out, 1)`, /repo/lib/flckshmdump.cc 62-63, 70-71, 78-79: one record -/
  | first (c : Nat) (k : Pool)
  /-- the beginning of a loop over a list -/
  | all (c : Nat) (k : Pool) (lv : Nat)
  /-- the loop at a record -/
  | each (k : Pool) (lv p : Nat)
  /-- `ptmp = to_abs(ptmp->next)` -/
  | next (k : Pool) (lv p : Nat)
  /-- `dump` of a record -/
  | one (k : Pool) (lv p : Nat)
  /-- `FlListNMtx tmpobj(to_abs(pcurrent->named_mutex))`, /repo/lib/flcklistwaiter.cc 45-46 -/
  | wmtx (p lv : Nat)
deriving DecidableEq, Repr

section
variable (cnt : Pool → Nat) (b : Nat) (x : Seg.State)

/-- `dump` of the record at `p`: what it prints and what it does then.
/repo/lib/flcklistfilelock.cc 33-59, /repo/lib/flcklistofflock.cc 31-65,
/repo/lib/flcklistlocker.cc 28-44, /repo/lib/flcklistnmtx.cc 31-47, /repo/lib/flcklistncond.cc
32-57, /repo/lib/flcklistwaiter.cc 29-50. -/
def body (k : Pool) (lv p : Nat) : List Item × List Task :=
  let nx := x.fl.cells (nextCell b p)
  match k with
  | .file =>
    let f := idx cnt b .file p
    ([.file lv p nx (x.fl.pay.key f) (x.fl.pay.fprot f), .sub (lv + 1) .offs],
      [.all (FLMem.cell cnt (.offs f)) .off (lv + 2), .put .cls, .put .cls])
  | .off =>
    let o := idx cnt b .off p
    ([.off lv p nx (x.fl.pay.rng o) (x.fl.pay.word o) (x.fl.pay.oprot o), .sub (lv + 1) .readers],
      [.all (FLMem.cell cnt (.lks o .rd)) .locker (lv + 2), .put .cls, .put (.sub (lv + 1) .writers),
       .all (FLMem.cell cnt (.lks o .wr)) .locker (lv + 2), .put .cls, .put .cls])
  | .locker =>
    let l := idx cnt b .locker p
    ([.locker lv p nx (x.fl.pay.ltid l) (x.fl.pay.lfd l) (x.fl.pay.locked l), .cls], [])
  | .nmtx => ([.mtx lv p nx (x.mc.mem.mname (idx cnt b .nmtx p)), .cls], [])
  | .ncond =>
    let c := idx cnt b .ncond p
    ([.cond lv p nx (x.mc.mem.cname c), .sub (lv + 1) .waiters],
      [.all (MCMem.cell cnt (.ws c)) .waiter (lv + 2), .put .cls, .put .cls])
  | .waiter =>
    let w := idx cnt b .waiter p
    ([.waiter lv p nx (x.mc.mem.wtid w) (x.mc.mem.wup w), .sub (lv + 1) .mutex],
      [.wmtx p (lv + 2), .put .cls, .put .cls])

/-- One task: what it prints and what comes in its place.  The lines are at the kinds of tasks;
the loops are those of /repo/lib/flcklistfilelock.cc 52-55 and /repo/lib/flckshmdump.cc 86-128. -/
def exec : Task → List Item × List Task
  | .put i => ([i], [])
  | .line c => ([.head c (x.fl.cells c)], [])
  | .test c k => ([], if x.fl.cells c ≠ 0 then [.first c k] else [])
  | .first c k => ([], [.one k 1 (toAbs b (x.fl.cells c))])
  | .all c k lv => ([], [.each k lv (toAbs b (x.fl.cells c))])
  | .each k lv p => ([], if p = 0 then [] else [.one k lv p, .next k lv p])
  | .next k lv p => ([], [.each k lv (toAbs b (x.fl.cells (nextCell b p)))])
  | .one k lv p => if p = 0 then ([], []) else body cnt b x k lv p
  | .wmtx p lv => ([], [.one .nmtx lv (toAbs b (x.mc.mem.wmtx (idx cnt b .waiter p)))])

end

/-- A dump under way: what remains to be done, what has been printed.  No counterpart in the code:
the stack of the calls of /repo/lib/flckshmdump.cc 39-133, and the stream `out`. -/
structure State where
  todo : List Task
  out : List Item

/-- One step of the dump by a process that maps the segment at `b`.  /repo/lib/flckshmdump.cc
39-133. -/
def step (cnt : Pool → Nat) (b : Nat) (x : Seg.State) (d : State) : Option State :=
  match d.todo with
  | [] => none
  | t :: ts => some ⟨(exec cnt b x t).2 ++ ts, d.out ++ (exec cnt b x t).1⟩

/-- The lines of the header, /repo/lib/flckshmdump.cc 49-57. -/
def lines (cnt : Pool → Nat) : List Task :=
  [.line versionCell, .line lengthCell, .line (FLMem.cell cnt .files), .line (MCMem.cell cnt .mtxs),
   .line (FLMem.cell cnt .ffree), .line (FLMem.cell cnt .ofree), .line (FLMem.cell cnt .lfree),
   .line (MCMem.cell cnt .mfree)]

/-- The part on the records in use, /repo/lib/flckshmdump.cc 60-81. -/
def used (cnt : Pool → Nat) : List Task :=
  [.put (.sect .files), .test (FLMem.cell cnt .files) .file, .put .cls,
   .put (.sect .mtxs), .test (MCMem.cell cnt .mtxs) .nmtx, .put .cls,
   .put (.sect .conds), .test (MCMem.cell cnt .conds) .ncond, .put .cls]

/-- The part on the free records, /repo/lib/flckshmdump.cc 83-130. -/
def unused (cnt : Pool → Nat) : List Task :=
  [.put (.sect .ffree), .all (FLMem.cell cnt .ffree) .file 1, .put .cls,
   .put (.sect .ofree), .all (FLMem.cell cnt .ofree) .off 1, .put .cls,
   .put (.sect .lfree), .all (FLMem.cell cnt .lfree) .locker 1, .put .cls,
   .put (.sect .mfree), .all (MCMem.cell cnt .mfree) .nmtx 1, .put .cls,
   .put (.sect .cfree), .all (MCMem.cell cnt .cfree) .ncond 1, .put .cls,
   .put (.sect .wfree), .all (MCMem.cell cnt .wfree) .waiter 1, .put .cls]

/-- `FlShm::Dump(out, is_free_list)`, /repo/lib/flckshmdump.cc 39-133; `att`: the process has the segment. -/
def start (cnt : Pool → Nat) (att free : Bool) : State :=
  ⟨if att then lines cnt ++ used cnt ++ (if free then unused cnt else []) else [.put .notInit], []⟩

end Fullock.Dump
