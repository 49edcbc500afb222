import Verif.Model.ListMem
/-!
Returning all records of a list to a free list in bulk, write by write.
Source: /repo/lib/flcklistfilelock.cc 216-239 (`free_offset_lock_list`),
        /repo/lib/flcklistofflock.cc 321-355 (`free_locker_list`, the same loop for readers and
        for writers).
Simplification: the nested call of `free_locker_list` in line 229 is left out; the caller
(/repo/lib/flckshm.cc 822-826) drains only files on which no range has lockers, so that it writes
NULL over NULL.
-/
namespace Fullock.ListMem

/-- The loop, /repo/lib/flcklistfilelock.cc 225-235: the writes done.  `cur` is `pabscur`, `fr` the
cell of the free list head.  `none` = the loop does not end within `fuel` rounds. -/
def drainLoop (b fr : Nat) : Nat → Mem → Nat → Option (List Write)
  | 0, _, _ => none
  | fuel + 1, m, cur =>
    if cur = 0 then some []
    else
      let pabsnext := toAbs b (m (nextCell b cur))
      let ws := (insertW b m cur fr).getD []
      (drainLoop b fr fuel (applyWrites m ws) pabsnext).map (ws ++ ·)

/-- The loop and the final `offset_lock_list = NULL` (/repo/lib/flcklistfilelock.cc 236); `h` is the cell of that head. -/
def drainW (b fuel : Nat) (m : Mem) (h fr : Nat) : Option (List Write) :=
  (drainLoop b fr fuel m (toAbs b (m h))).map (· ++ [(h, 0)])

end Fullock.ListMem
