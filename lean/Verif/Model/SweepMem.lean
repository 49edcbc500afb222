import Verif.Model.FLMem
import Verif.Model.FLSweep
/-
The loops of the dead-holder sweep on the memory cells: lists are walked with a parent pointer, and
the record just visited may be unlinked and put into a free list before the walk goes on.

Source: /repo/lib/flckshm.cc 536-558; /repo/lib/flcklistfilelock.cc 160-192;
        /repo/lib/flcklistofflock.cc 240-319; /repo/lib/flcklistncond.cc 154-188.

As in Verif.Model.FLSweep the operating system answers exactly by `alive`, and the caller has the
table lock, so that nobody else writes.
-/
namespace Fullock.FLMem
open Fullock.ListMem Fullock.Layout

/-- The loop `for(pabsparent = NULL, pabscur = to_abs(top); pabscur; ){ ... }` common to the four
functions.  `visit` is the body up to `// set next`; it tells whether the record was removed.
`none` = the loop does not end within the given number of rounds.  /repo/lib/flckshm.cc 536-557,
/repo/lib/flcklistfilelock.cc 201-240, /repo/lib/flcklistofflock.cc 250-270, 285-305,
/repo/lib/flcklistncond.cc 162-181. -/
def parentLoop {σ : Type} (cells : σ → Mem) (b h : Nat) (visit : σ → Nat → Option (σ × Bool)) :
    Nat → σ → Nat → Nat → Option σ
  | 0, _, _, _ => none
  | n + 1, s, parent, cur =>
    if cur = 0 then some s
    else (visit s cur).bind fun x =>
      if x.2 then
        if parent ≠ 0 then
          parentLoop cells b h visit n x.1 parent (toAbs b (cells x.1 (nextCell b parent)))
        else parentLoop cells b h visit n x.1 parent (toAbs b (cells x.1 h))
      else parentLoop cells b h visit n x.1 cur (toAbs b (cells x.1 (nextCell b cur)))

/-- The loop from the head cell `h`. /repo/lib/flckshm.cc 536-557. -/
def parentWalk {σ : Type} (cells : σ → Mem) (b h : Nat) (visit : σ → Nat → Option (σ × Bool))
    (n : Nat) (s : σ) : Option σ :=
  parentLoop cells b h visit n s 0 (toAbs b (cells s h))

/-- The pointers and the values of the records, /repo/lib/flckstructure.h 51-83. -/
abbrev Tab := Mem × FL.Mem

/-- Actions on both. /repo/lib/flckbaselist.tcc 576-662. -/
def Tab.acts (cnt : Pool → Nat) (b fuel : Nat) (x : Tab) (as : List FL.Act) : Option Tab :=
  (actsW cnt b fuel x.1 as).map fun c => (c, x.2.acts as)

/-- Body of the locker loops, /repo/lib/flcklistofflock.cc 251-270, 286-305. -/
def visitL (cnt : Pool → Nat) (b fuel : Nat) (alive : Nat → Bool) (o : Nat) (md : FL.Mode) (x : Tab)
    (cur : Nat) : Option (Tab × Bool) :=
  let l := idx cnt b .locker cur
  if alive (x.2.ltid l) then some (x, false)
  else (x.acts cnt b fuel (FL.sweepActs x.2 o md l)).map fun y => (y, true)

/-- `FlListOffLock::check_dead_lock`, /repo/lib/flcklistofflock.cc 240-319: both loops. -/
def sweepUW (cnt : Pool → Nat) (b fuel : Nat) (alive : Nat → Bool) (o : Nat) (x : Tab) : Option Tab :=
  (parentWalk (·.1) b (cell cnt (.lks o .rd)) (visitL cnt b fuel alive o .rd) fuel x).bind fun x1 =>
    parentWalk (·.1) b (cell cnt (.lks o .wr)) (visitL cnt b fuel alive o .wr) fuel x1

/-- Body of the loop over ranges, /repo/lib/flcklistfilelock.cc 170-178. -/
def visitO (cnt : Pool → Nat) (b fuel : Nat) (alive : Nat → Bool) (f : Nat) (x : Tab) (cur : Nat) :
    Option (Tab × Bool) :=
  let o := idx cnt b .off cur
  (sweepUW cnt b fuel alive o x).bind fun x1 =>
    if FL.oLocked (view cnt b fuel x1.1 x1.2) o then some (x1, false)
    else (x1.acts cnt b fuel [.cutO f o, .pushO o]).map fun y => (y, true)

/-- Body of the loop over files, /repo/lib/flckshm.cc 537-545. -/
def visitF (cnt : Pool → Nat) (b fuel : Nat) (alive : Nat → Bool) (x : Tab) (cur : Nat) :
    Option (Tab × Bool) :=
  let f := idx cnt b .file cur
  (parentWalk (·.1) b (cell cnt (.offs f)) (visitO cnt b fuel alive f) fuel x).bind fun x1 =>
    if FL.fLocked (view cnt b fuel x1.1 x1.2) f then some (x1, false)
    else (x1.acts cnt b fuel [.cutF f, .pushF f]).map fun y => (y, true)

/-- `FlShm::CheckFileLockDeadLock` under the table lock, /repo/lib/flckshm.cc 536-558. -/
def sweepAllW (cnt : Pool → Nat) (b fuel : Nat) (alive : Nat → Bool) (x : Tab) : Option Tab :=
  parentWalk (·.1) b (cell cnt .files) (visitF cnt b fuel alive) fuel x

/-- Body of the loop over waiters, /repo/lib/flcklistncond.cc 164-172; `dead` is the answer of
`FlListWaiter::check_dead_lock` for the record at an offset. -/
def visitW (b fuel h fr : Nat) (dead : Nat → Bool) (m : Mem) (cur : Nat) : Option (Mem × Bool) :=
  if dead (toRel b cur) then
    (cutoffW b m fuel cur h).map fun r =>
      match r with
      | some ws =>
        let m1 := applyWrites m ws
        (applyWrites m1 ((insertW b m1 cur fr).getD []), true)
      | none => (m, true)
  else some (m, false)

/-- `FlListNCond::check_dead_lock`, /repo/lib/flcklistncond.cc 154-188. -/
def sweepWaiters (b fuel h fr : Nat) (dead : Nat → Bool) (m : Mem) : Option Mem :=
  parentWalk id b h (visitW b fuel h fr dead) fuel m

end Fullock.FLMem
