import Verif.Model.Range
import Verif.Model.Rcsv
/-
`FLRwlRcsv::compare` in machine arithmetic.
Source: /repo/lib/rwlockrcsv.cc 116-130, /repo/lib/rwlockrcsv.h 41-44.

`Verif.Model.Rcsv` has natural numbers. Here offsets are `off_t` (64-bit signed), lengths `size_t` (64-bit unsigned); a signed
sum outside of `off_t` is undefined behaviour (`none`).
-/
namespace Fullock.Rcsv

/-- What `compare` looks at. /repo/lib/rwlockrcsv.h 41-44. -/
structure Key where
  tid : Nat
  fd : Int
  rng : Fullock.Rng
  deriving DecidableEq, Repr

/-- `lock_offset + static_cast<off_t>(lock_length)`, /repo/lib/rwlockrcsv.cc 120, 124: a length of 2^63 or more becomes negative;
a sum outside of `off_t` is undefined. -/
def endM (r : Fullock.Rng) : Option Int :=
  let e := r.off.toInt + r.len.toInt
  if -2 ^ 63 ≤ e ∧ e < 2 ^ 63 then some e else none

/-- `compare`, /repo/lib/rwlockrcsv.cc 116-130. -/
def compareM (a b : Key) : Option Bool :=
  if a.tid = b.tid ∧ a.fd = b.fd then
    if a.rng.off.sle b.rng.off then (endM a.rng).map fun e => decide (b.rng.off.toInt < e)
    else (endM b.rng).map fun e => decide (a.rng.off.toInt < e)
  else some false

/-- The range of `Verif.Model.Rcsv`. No counterpart in the code. -/
def Key.toRng (a : Key) : Rng := ⟨a.tid, a.fd, a.rng.off.toNat, a.rng.len.toNat⟩

end Fullock.Rcsv
