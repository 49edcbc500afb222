import Verif.Spec.MCForever
/-! Executions of the named mutexes and conditions that never end and in which threads are killed: what is expected of the
threads that live. -/
namespace Fullock.MC

/-- Every mutex taken is released sooner or later, or its owner is killed. -/
def ReleasedOrDead (σ : Nat → State) : Prop :=
  ∀ i m t, 1 ≤ (σ i).mem.dep m t → ∃ j, i ≤ j ∧ ((σ j).mem.dep m t = 0 ∨ (σ j).alive t = false)

/-- Every check of dead owners or dead waiters comes to an end, or the thread is killed in it. -/
def ChecksEndOrDead (σ : Nat → State) : Prop :=
  ∀ t i, checking ((σ i).pc t) = true → ∃ j, i ≤ j ∧ (checking ((σ j).pc t) = false ∨ (σ j).alive t = false)

/-- A check of dead owners that is over has looked at every mutex that existed when it began. -/
def Thorough (σ : Nat → State) (ε : Nat → Option Ev) : Prop :=
  ∀ t i j x, i < j → (σ i).pc t = .acqM (.swM x) → (∀ k, i < k → k < j → checking ((σ k).pc t) = true) →
    (σ j).pc t = .relM (swBack x) → ∀ m ∈ (σ i).mem.mlist, ∃ k, i < k ∧ k < j ∧ ε k = some (.go t (.mx m))

/-- In the loop that tries to take a mutex, in a call that does not give up at once. -/
def trying : Pc → Bool
  | .lkRead _ kd _ => kd != .try_
  | .lkAdd _ kd _ => kd != .try_
  | .lkChk _ kd _ => kd != .try_
  | .lkSub _ kd _ => kd != .try_
  | .lkCas _ kd _ => kd != .try_
  | _ => false

/-- A thread that tries to take a mutex for ever finds its time, or the number of attempts after which it checks for dead
owners, over (the second in the robust mode HIGH only). -/
def Patient (σ : Nat → State) (ε : Nat → Option Ev) : Prop :=
  ∀ t i, (∀ j, i ≤ j → (σ j).alive t = true ∧ trying ((σ j).pc t) = true) → ∃ j, i ≤ j ∧ ε j = some (.go t .limit)

/-- Time passes for the threads that live. -/
def TimelyOrDead (σ : Nat → State) (ε : Nat → Option Ev) : Prop :=
  ∀ t i, (∀ j, i ≤ j → (σ j).alive t = true ∧ timing ((σ j).pc t) = true) → ∃ j, i ≤ j ∧ ε j = some (.go t .limit)

/-- From some moment on no dead owner is taken for alive. -/
def SeenDead (ε : Nat → Option Ev) : Prop := ∃ n, ∀ j, n ≤ j → ∀ t, ε j ≠ some (.go t .spur)

/-- The thread is killed, now or later. -/
def Dies (σ : Nat → State) (t : Nat) : Prop := ∃ j, (σ j).alive t = false

end Fullock.MC
