import Verif.Model.RcsvLife
/-
Specification of C84: what an instruction reads and writes of objects, and what refers to an object.
-/
namespace Fullock.Spec.RcsvLife
open Fullock.Rcsv Fullock.Rcsv.Conc

/-- The objects whose members the next instruction of a call reads or writes. A search compares its object with those in
the table. -/
def uses (s : State) : Prog → List Nat
  | .look i _ => [i]
  | .upd i _ _ => [i]
  | .find i _ => i :: s.stack
  | .scan i _ => i :: s.stack
  | _ => []

/-- Somewhere a pointer to object `x` is kept: in the table or in an object. -/
def refersTo (s : State) (x : Nat) : Prop :=
  x ∈ s.stack ∨ ∃ i, (s.obj i).master = some x ∨ x ∈ (s.obj i).pend

/-- Thread `t` returns from a destructor whose unlocking was refused. -/
def refused (s : LState) (t : Nat) : Prop :=
  (s.dying t).isSome = true ∧ ∃ os op, s.c.run t = some ⟨.ret false, os, op⟩

end Fullock.Spec.RcsvLife
