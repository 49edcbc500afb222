import Verif.Spec.RecoverF
/-! What "sooner or later" means for the way from the end of a process to the check of the workers. -/
namespace Fullock.RecoverF

/-- The thread is able to go on: with its call, or, the worker's thread, with the worker's work. -/
def able (c : Cfg) (s : State) (t : Nat) : Prop :=
  ∃ e s', e.who c = some t ∧ (∀ u a, e ≠ .call u a) ∧ step c s e = some s'

/-- The scheduler is fair: a thread that is able to go on again and again does so again and again. -/
def Fair (c : Cfg) (σ : Nat → State) (ε : Nat → Option Ev) : Prop :=
  ∀ t, (∀ i, ∃ j, i ≤ j ∧ able c (σ j) t) → ∀ i, ∃ j, i ≤ j ∧ ∃ e, ε j = some e ∧ e.who c = some t

/-- The scheduler is fair in the weaker sense: a thread that is able to go on all the time does so again and again. -/
def WeakFair (c : Cfg) (σ : Nat → State) (ε : Nat → Option Ev) : Prop :=
  ∀ t i, (∀ j, i ≤ j → able c (σ j) t) → ∀ i, ∃ j, i ≤ j ∧ ∃ e, ε j = some e ∧ e.who c = some t

/-- The kernel closes the descriptors of an ended process sooner or later. -/
def Closes (σ : Nat → State) : Prop :=
  ∀ i p, (σ i).w.down p = true → (σ i).w.opened p = true → ∃ j, i ≤ j ∧ (σ j).w.opened p = false

/-- The worker of `q` goes on for ever from moment `i` on: neither its process nor its thread ends. -/
def Stays (c : Cfg) (σ : Nat → State) (q i : Nat) : Prop :=
  ∀ j, i ≤ j → (σ j).w.down q = false ∧ (σ j).w.stop (c.k.wk q) = false

end Fullock.RecoverF
