import Verif.Spec.FLForever
/-! Specification of deadlock of file ranges: threads that wait for each other. -/
namespace Fullock.FLive
open Fullock.FL Fullock.Spec

/-- An order of the ranges in use: ranges of a file with a common byte have the same place in it. -/
def Ranked (R : DevIno → Rng → Prop) (rk : DevIno → Rng → Nat) : Prop :=
  ∀ k r r', R k r → R k r' → Overlap r r' → rk k r = rk k r'

/-- The lock `h` comes before the request `op`, or both are for reading and have a byte in common. -/
def Before (rk : DevIno → Rng → Nat) (h : Out) (op : Op) : Prop :=
  rk h.key h.rng < rk op.key op.rng ∨ (h.key = op.key ∧ Overlap h.rng op.rng ∧ h.mode = .rd ∧ op.mode = .rd)

/-- Threads that wait without limit do so in the order `rk`: what they ask for comes after all they hold.
Calls that do not wait, or not without limit, are free. -/
def inOrder (rk : DevIno → Rng → Nat) : State → Ev → Prop
  | s, .call t (.lock op) => op.kind = .block → ∀ x ∈ s.mem.outs, x.2.t = t → Before rk x.2 op
  | _, _ => True

/-- The threads `D` are deadlocked: each waits without limit for a lock excluded by one that one of them holds. -/
def Deadlock (s : State) (D : Nat → Prop) : Prop :=
  (∃ t, D t) ∧ ∀ t, D t → s.alive t = true ∧
    ∃ op, waits op (s.pc t) ∧ ∃ x ∈ s.mem.outs, D x.2.t ∧ Conflict x.2 (lockOf t op)

/-- None of the threads `D` is killed. -/
def spares (D : Nat → Prop) : Ev → Prop
  | .die t _ _ => ¬ D t
  | _ => True

/-- Who holds a lock and is not in a call calls again sooner or later, or is killed. -/
def ComesBack (σ : Nat → State) (ε : Nat → Option Ev) : Prop :=
  ∀ i, ∀ x ∈ (σ i).mem.outs, (∃ r, (σ i).pc x.2.t = .done r) →
    ∃ j, i ≤ j ∧ ((∃ c, ε j = some (.call x.2.t c)) ∨ (σ j).alive x.2.t = false)

end Fullock.FLive
