import Verif.Spec.Range
import Verif.Model.RcsvArith
/-
Specification of C88: ranges whose end is an offset of a file.
-/
namespace Fullock.Spec.RcsvArith
open Fullock.Rcsv

/-- A range with at least one byte whose end is an `off_t`. -/
def FileRange (r : Fullock.Rng) : Prop :=
  0 ≤ r.off.toInt ∧ 0 < r.len.toNat ∧ r.off.toNat + r.len.toNat < 2 ^ 63

/-- Two objects of one thread on one file. -/
def Same (a b : Key) : Prop := a.tid = b.tid ∧ a.fd = b.fd

end Fullock.Spec.RcsvArith
