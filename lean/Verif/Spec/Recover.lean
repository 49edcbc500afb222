import Verif.Model.Recover
import Verif.Spec.MCMemForever
/-! Executions in which processes end and are noticed. -/
namespace Fullock.Recover
open Fullock.Layout

/-- An execution: `σ i` is the state at moment `i`, `ε i` what happens then (`none`: nothing).  It begins with a segment just made
by `InitializeShmFile`, which nobody has open. -/
structure Exec (k : Cfg) (σ : Nat → State) (ε : Nat → Option Ev) : Prop where
  start : ∃ f f' os b m junk, initializeShmFile k.cnt f true os (some b) = some (.ok f' m) ∧ σ 0 = init m junk
  next : ∀ i, match ε i with
    | none => σ (i + 1) = σ i
    | some e => step k (σ i) e = some (σ (i + 1))

/-- The first thread and the worker of a process are threads of it; the number 0 is no thread's. -/
structure Fits (k : Cfg) : Prop where
  lead : ∀ p, k.proc (k.lead p) = p
  wk : ∀ p, k.proc (k.wk p) = p

/-- The worker of `q` has handled everything it was told of, and waits. -/
def Handled (s : State) (q : Nat) : Prop := s.w.work q = .wait ∧ s.w.queue q = false

/-- Every process has handled what it was told of, or does not watch. -/
def Quiet (s : State) : Prop := ∀ q, s.w.watches q = true → Handled s q

/-- The thread that makes a step in an event, the worker's thread for what the worker does. -/
def Ev.who (k : Cfg) : Ev → Option Nat
  | .world (.watch q) => some (k.wk q)
  | .world (.read q) => some (k.wk q)
  | .world _ => none
  | .call t _ => some t
  | .go t _ => some t
  | .vanish _ _ _ => none
  | .begin q => some (k.wk q)
  | .mtxs q => some (k.wk q)
  | .conds q => some (k.wk q)
  | .back q => some (k.wk q)

end Fullock.Recover
