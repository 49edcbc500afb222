import Verif.Spec.RwWord
/-! Specification of executions of the lock word that never end: what "sooner or later" means. -/
namespace Fullock.Spec.RW
open Fullock.FL (Mode)
open _root_.Fullock.RW

/-- An execution without end: `σ i` is the state at moment `i`, `ε i` what happens then (`none`: nothing).
It begins with a free word, nobody in a call, and every event is allowed by `A`. -/
structure Exec (A : State → Ev → Prop) (σ : Nat → State) (ε : Nat → Option Ev) : Prop where
  start : σ 0 = init
  next : ∀ i, match ε i with
    | none => σ (i + 1) = σ i
    | some e => A (σ i) e ∧ step (σ i) e = some (σ (i + 1))

/-- The thread is in a call. -/
def inCall (s : State) (t : Nat) : Prop := ∀ r, s.pc t ≠ .idle r

/-- The scheduler is fair: a thread that stays in a call makes a step again and again. -/
def Fair (σ : Nat → State) (ε : Nat → Option Ev) : Prop :=
  ∀ t i, (∀ j, i ≤ j → inCall (σ j) t) → ∃ j, i ≤ j ∧ ∃ c, ε j = some (.go t c)

/-- Every lock taken is released sooner or later. -/
def Released (σ : Nat → State) : Prop := ∀ i, ∀ x ∈ (σ i).held, ∃ j, i ≤ j ∧ x ∉ (σ j).held

/-- From some moment on no call is issued. -/
def CallsEnd (ε : Nat → Option Ev) : Prop := ∃ n, ∀ j, n ≤ j → ∀ t c, ε j ≠ some (.call t c)

/-- Thread `t`, in a call at moment `i`, returns from it. -/
def ReturnsAfter (σ : Nat → State) (t i : Nat) : Prop := ∃ j, i ≤ j ∧ ∃ r, (σ j).pc t = .idle r

/-- Thread `t` waits for a lock in mode `md` in the call without limit. -/
def waitsFor (md : Mode) : Pc → Prop
  | .top _ md' kd _ => md' = md ∧ kd = .block (-1)
  | .cas _ kd _ _ => md = .rd ∧ kd = .block (-1)
  | _ => False

end Fullock.Spec.RW
