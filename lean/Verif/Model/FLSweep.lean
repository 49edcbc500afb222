import Verif.Model.FileLock
/-
The sweep of dead holders in the order of the code, as functions on the tables (executed under the
table lock).  `Verif.Model.FileLock` lets the sweep treat records in any order and overlook dead
holders; the functions here are the order the code uses when the operating system answers the
question "is this holder alive" exactly by `alive`.

Source: /repo/lib/flckshm.cc 520-562; /repo/lib/flcklistfilelock.cc 160-192;
        /repo/lib/flcklistofflock.cc 240-319.
-/
namespace Fullock.FL

/-- One of the two loops over lockers, /repo/lib/flcklistofflock.cc 250-282, 285-317. -/
def sweepL (alive : Nat → Bool) (o : Nat) (md : Mode) (m : Mem) : List Nat → Mem
  | [] => m
  | l :: ls =>
    if alive (m.ltid l) then sweepL alive o md m ls
    else sweepL alive o md (m.acts (sweepActs m o md l)) ls

/-- `FlListOffLock::check_dead_lock` (both loops), /repo/lib/flcklistofflock.cc 240-319. -/
def sweepU (alive : Nat → Bool) (o : Nat) (m : Mem) : Mem :=
  let m1 := sweepL alive o .rd m (m.lks o .rd)
  sweepL alive o .wr m1 (m1.lks o .wr)

/-- The body of the loop in `FlListFileLock::check_dead_lock`, /repo/lib/flcklistfilelock.cc
169-190. -/
def sweepO (alive : Nat → Bool) (f : Nat) (m : Mem) (o : Nat) : Mem :=
  let m2 := sweepU alive o m
  if oLocked m2 o then m2 else m2.acts [.cutO f o, .pushO o]

/-- The body of the loop in `FlShm::CheckFileLockDeadLock`, /repo/lib/flckshm.cc 536-558. -/
def sweepF (alive : Nat → Bool) (m : Mem) (f : Nat) : Mem :=
  let m1 := (m.offs f).foldl (sweepO alive f) m
  if fLocked m1 f then m1 else m1.acts [.cutF f, .pushF f]

/-- `FlShm::CheckFileLockDeadLock` between acquiring and releasing the table lock,
/repo/lib/flckshm.cc 532-559. -/
def sweepAll (alive : Nat → Bool) (m : Mem) : Mem := m.files.foldl (sweepF alive) m

end Fullock.FL
