import Verif.Model.Range
/-! Specification vocabulary for byte ranges: sets of byte positions. -/
namespace Fullock.Spec

/-- A sane request: non-negative offset, at least one byte, and the end fits into 64 bits. -/
def SaneRange (r : Rng) : Prop :=
  0 ≤ r.off.toInt ∧ 0 < r.len.toNat ∧ r.off.toNat + r.len.toNat < 2 ^ 64

/-- Byte `b` belongs to the range (unbounded arithmetic). -/
def Covers (r : Rng) (b : Nat) : Prop := r.off.toNat ≤ b ∧ b < r.off.toNat + r.len.toNat

/-- Two ranges share a byte. -/
def Overlap (a c : Rng) : Prop := ∃ b, Covers a b ∧ Covers c b

end Fullock.Spec
