import Verif.Model.IO
/-
What a write to a file and a sequence of events mean.
-/
namespace Fullock.Spec

/-- `f'` is `f` with `bs` stored from position `off` on: the interval holds `bs`, a gap after the old
end holds zeros, all else is as before. -/
structure Stored (f f' : File) (off : Nat) (bs : List UInt8) : Prop where
  size : f'.size = if bs = [] then f.size else Nat.max f.size (off + bs.length)
  inside : ∀ j, (h : j < bs.length) → f'.data (off + j) = bs[j]
  outside : ∀ i < f.size, i < off ∨ off + bs.length ≤ i → f'.data i = f.data i
  gap : bs ≠ [] → ∀ i, f.size ≤ i → i < off → f'.data i = 0

/-- The bytes of a file in an interval, as far as the file goes. -/
def contents (f : File) (off count : Nat) : List UInt8 :=
  (List.range (min count (f.size - off))).map fun i => f.data (off + i)

/-- A file event: watch descriptor, mask, cookie, name. -/
structure Event where
  wd : UInt32
  mask : UInt32
  cookie : UInt32
  name : List UInt8

/-- Four bytes, least significant first. -/
def le32 (x : Nat) : List UInt8 :=
  [UInt8.ofNat x, UInt8.ofNat (x / 256), UInt8.ofNat (x / 65536), UInt8.ofNat (x / 16777216)]

/-- The kernel's encoding of an event. -/
def Event.bytes (e : Event) : List UInt8 :=
  le32 e.wd.toNat ++ le32 e.mask.toNat ++ le32 e.cookie.toNat ++ le32 e.name.length ++ e.name

/-- The event says that the watched file was closed. -/
def Event.closes (e : Event) (watch : Nat) : Prop :=
  e.wd.toNat = watch ∧ (e.mask.toNat.testBit 3 = true ∨ e.mask.toNat.testBit 4 = true)

/-- The bytes that a sequence of reads delivered. -/
def delivered : List Rd → List UInt8
  | [] => []
  | .data bs :: os => bs ++ delivered os
  | _ :: os => delivered os

end Fullock.Spec
