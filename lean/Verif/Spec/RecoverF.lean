import Verif.Model.RecoverF
import Verif.Spec.Recover
/-! Executions in which processes end and their range locks are noticed. -/
namespace Fullock.RecoverF

/-- An execution: `σ i` is the state at moment `i`, `ε i` what happens then (`none`: nothing).  It begins with fresh tables. -/
structure Exec (c : Cfg) (σ : Nat → State) (ε : Nat → Option Ev) : Prop where
  start : ∃ nf no nl junk, σ 0 = init nf no nl junk
  next : ∀ i, match ε i with
    | none => σ (i + 1) = σ i
    | some e => step c (σ i) e = some (σ (i + 1))

/-- The worker of a process is a thread of it; `thr` are the threads of a process. -/
structure Fits (c : Cfg) : Prop where
  wk : ∀ p, c.k.proc (c.k.wk p) = p
  thr : ∀ p t, t ∈ c.thr p ↔ c.k.proc t = p

/-- No record of thread `v` is in the tables, as holder or as waiting request. -/
def NoneOf (m : FL.Mem) (v : Nat) : Prop :=
  ∀ f ∈ m.files, ∀ o ∈ m.offs f, ∀ md, ∀ l ∈ m.lks o md, m.ltid l ≠ v

/-- A lock of `v` is in force. -/
def Holds (m : FL.Mem) (v : Nat) : Prop := ∃ x ∈ m.outs, x.2.t = v

/-- The worker of `q` has handled everything it was told of, and waits. -/
def Handled (s : State) (q : Nat) : Prop := s.w.work q = .wait ∧ s.w.queue q = false

/-- The thread that makes a step in an event, the worker's thread for what the worker does. -/
def Ev.who (c : Cfg) : Ev → Option Nat
  | .world (.watch q) => some (c.k.wk q)
  | .world (.read q) => some (c.k.wk q)
  | .world _ => none
  | .call t _ => some t
  | .go t _ => some t
  | .drop _ _ _ => none
  | .begin q => some (c.k.wk q)
  | .skip q => some (c.k.wk q)
  | .cut q => some (c.k.wk q)
  | .mtxs q => some (c.k.wk q)
  | .back q => some (c.k.wk q)

end Fullock.RecoverF
