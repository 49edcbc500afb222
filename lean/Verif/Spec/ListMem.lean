import Verif.Model.ListMem
/-! Specification: what it means that memory holds finite sequences of records. -/
namespace Fullock.ListMem

/-- The references starting with value `v` run through the records `rs` and end with NULL. -/
def Chain (m : Mem) : Nat → List Nat → Prop
  | v, [] => v = 0
  | v, r :: rs => v = r ∧ r ≠ 0 ∧ Chain m (m r) rs

/-- The memory holds, for every list head in `H`, exactly the sequence `L h` of records; no record
occurs twice, in two lists, or at a head. -/
structure WF (m : Mem) (H : List Nat) (L : Nat → List Nat) : Prop where
  chain : ∀ h ∈ H, Chain m (m h) (L h)
  nodup : ∀ h ∈ H, (L h).Nodup
  notHead : ∀ h ∈ H, ∀ r ∈ L h, r ∉ H
  disj : ∀ h ∈ H, ∀ h' ∈ H, h ≠ h' → ∀ r ∈ L h, r ∉ L h'

/-- Record `r` is in none of the lists (it is being moved, or lost in a crash). -/
def Loose (H : List Nat) (L : Nat → List Nat) (r : Nat) : Prop :=
  r ≠ 0 ∧ r ∉ H ∧ ∀ h ∈ H, r ∉ L h

/-- The lists after replacing that of `h`. -/
def upd (L : Nat → List Nat) (h : Nat) (l : List Nat) : Nat → List Nat :=
  fun x => if x = h then l else L x

/-- Effect of a completed operation on the sequences. -/
def absOp (L : Nat → List Nat) : Op → Nat → List Nat
  | .insert r h => upd L h (r :: L h)
  | .retrieve h => upd L h (L h).tail
  | .cutoff r h => upd L h ((L h).erase r)

/-- Effect of an operation whose caller dies after `k` writes: nothing before the first write; after
the first write a removal has taken effect and an insertion has not. -/
def absCall (L : Nat → List Nat) (c : Call) : Nat → List Nat :=
  if c.k = 0 then L
  else if c.k = 1 then (match c.op with | .insert _ _ => L | o => absOp L o)
  else absOp L c.op

/-- An operation the library can make: on a known head, inserting a record that is in no list. -/
def Allowed (H : List Nat) (L : Nat → List Nat) : Op → Prop
  | .insert r h => h ∈ H ∧ Loose H L r
  | .retrieve h => h ∈ H
  | .cutoff r h => h ∈ H ∧ r ≠ 0

/-- A history of allowed calls. -/
def AllowedAll (H : List Nat) : (Nat → List Nat) → List Call → Prop
  | _, [] => True
  | L, c :: cs => Allowed H L c.op ∧ AllowedAll H (absCall L c) cs

def absAll : (Nat → List Nat) → List Call → Nat → List Nat
  | L, [] => L
  | L, c :: cs => absAll (absCall L c) cs

/-- The record an operation moves. -/
def moved (L : Nat → List Nat) : Op → Option Nat
  | .insert r _ => some r
  | .retrieve h => (L h).head?
  | .cutoff r _ => some r

end Fullock.ListMem
