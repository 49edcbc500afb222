import Verif.Model.Rcsv
/-
The two constructors of the recursive lock class.
Source: /repo/lib/rwlockrcsv.cc 87-104.
-/
namespace Fullock.Rcsv

/-- The member initialisers, /repo/lib/rwlockrcsv.cc 87-91; `kind`: the argument `is_read`, absent in the constructor with
three arguments. -/
def fresh (r : Rng) (kind : Option Bool) : Obj :=
  { rng := r, ty := match kind with | none => .unlock | some true => .read | some false => .write,
    locked := false, hasLocker := false, pend := [], master := none }

/-- The constructors, /repo/lib/rwlockrcsv.cc 87-104, on the storage `i`; `none` = does not return.  The result of the lock
request is not looked at. -/
def construct (s : State) (i : Nat) (r : Rng) (kind : Option Bool) (os : List Bool) : Option State :=
  let s := s.mod i fun _ => fresh r kind
  match kind with
  | none => some s
  | some isRead =>
    if r.fd ≠ -1 then
      (finish (if isRead then rawReadLock s i false os else rawWriteLock s i false os)).map Prod.snd
    else some s

end Fullock.Rcsv
