import Verif.Spec.RcsvForever
/-
Specification of C86: deadlock of recursive lock objects, and their use in a fixed order.
-/
namespace Fullock.Spec.RcsvOrder
open Fullock.Rcsv Fullock.Rcsv.Conc Fullock.Props.Rcsv Fullock.Spec.RcsvForever

/-- An order of the ranges in use: ranges the segment takes for the same have the same place in it. -/
def Ranked (F : Rng → Prop) (rk : Rng → Nat) : Prop := ∀ a b, F a → F b → clash a b = true → rk a = rk b

/-- The range a call asks for. -/
def asks (s : State) : Op → Option Rng
  | .readLock i => some (s.obj i).rng
  | .writeLock i => some (s.obj i).rng
  | .lock i => some (s.obj i).rng
  | .lockAt i r _ => some { r with tid := (s.obj i).rng.tid }
  | .unlock _ => none

/-- What a call asks for comes after all its thread holds, or is a range it holds. -/
def inOrder (rk : Rng → Nat) (s : State) (op : Op) : Prop :=
  ∀ q, asks s op = some q → ∀ x ∈ s.held, x.1.tid = q.tid → rk x.1 < rk q ∨ x.1 = q

/-- The threads `D` are deadlocked: each waits for a lock that one of them has in its way. -/
def Deadlock (s : CState) (D : Nat → Prop) : Prop :=
  (∃ t, D t) ∧ ∀ t, D t → ∃ q w, waitsFor s t q w ∧ ∃ x ∈ s.sh.held, D x.1.tid ∧ inWay t q w x

/-- A thread all of whose calls return releases its locks sooner or later. -/
def Yields (σ : Nat → CState) : Prop :=
  ∀ i, ∀ x ∈ (σ i).sh.held, (∀ k, i ≤ k → ReturnsAfter σ x.1.tid k) → ∃ j, i ≤ j ∧ x ∉ (σ j).sh.held

end Fullock.Spec.RcsvOrder
