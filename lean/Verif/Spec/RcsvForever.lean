import Verif.Props.Rcsv
import Verif.Model.RcsvConc
/-
Specification of C85: executions of the threads of a process without end, and what "sooner or later" means for calls of
recursive lock objects.
-/
namespace Fullock.Spec.RcsvForever
open Fullock.Rcsv Fullock.Rcsv.Conc Fullock.Props.Rcsv

/-- A thread makes a call, or an instruction of the call it is in. -/
inductive Ev where
  | call (t : Nat) (os : List Bool) (op : Op)
  | step (t : Nat)

/-- An execution without end: `σ i` is the state at moment `i`, `ε i` what happens then (`none`: nothing). Threads make
calls on their own objects that `ok` allows. -/
structure Exec (ok : State → List Bool → Op → Prop) (r : Nat → Rng) (σ : Nat → CState) (ε : Nat → Option Ev) : Prop where
  start : σ 0 = Conc.init r
  next : ∀ i, match ε i with
    | none => σ (i + 1) = σ i
    | some (.call t os op) => (r (opObj op)).tid = t ∧ ok (σ i).sh os op ∧ Conc.call (σ i) t os op = some (σ (i + 1))
    | some (.step t) => Conc.step (σ i) t = some (σ (i + 1))

/-- The scheduler is fair: a thread able to go on again and again makes instructions again and again. -/
def Fair (σ : Nat → CState) (ε : Nat → Option Ev) : Prop :=
  ∀ t, (∀ i, ∃ j, i ≤ j ∧ (Conc.step (σ j) t).isSome = true) → ∀ i, ∃ j, i ≤ j ∧ ε j = some (.step t)

/-- From some moment on only `Unlock` is called. -/
def LocksEnd (ε : Nat → Option Ev) : Prop :=
  ∃ n, ∀ j, n ≤ j → ∀ t os op, ε j = some (.call t os op) → ∃ i, op = .unlock i

/-- Every lock held in the segment is released sooner or later. -/
def Released (σ : Nat → CState) : Prop := ∀ i, ∀ x ∈ (σ i).sh.held, ∃ j, i ≤ j ∧ x ∉ (σ j).sh.held

/-- Thread `t` returns from the call it is in at moment `i`. -/
def ReturnsAfter (σ : Nat → CState) (t i : Nat) : Prop := ∃ j, i ≤ j ∧ (σ j).run t = none

/-- Thread `t` waits in the segment for a lock of `q`, for writing if `w`. -/
def waitsFor (s : CState) (t : Nat) (q : Rng) (w : Bool) : Prop :=
  ∃ k os op, s.run t = some ⟨.grant q w k, os, op⟩ ∧ os.headD true = true

/-- A lock of another thread that keeps thread `t` from it. -/
def inWay (t : Nat) (q : Rng) (w : Bool) (x : Rng × Ty) : Prop :=
  x.1.tid ≠ t ∧ clash x.1 q = true ∧ (w = true ∨ x.2 = .write)

end Fullock.Spec.RcsvForever
