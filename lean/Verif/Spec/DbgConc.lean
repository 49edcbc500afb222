import Verif.Model.DbgConc
/-! What the user relies on when several threads use the debug log, and the rules under which they may. -/
namespace Fullock.Spec.DbgConc
open Fullock.DbgConc

/-- No closed stream and no null pointer was written to or closed. -/
def Safe (s : State) : Prop := s.bad = false

/-- When no thread is in the debug control, the only open stream is that of the log. -/
def Kept (s : State) : Prop := (∀ t, s.pc t = .idle) → ∀ h, s.live h = true ↔ s.fp = some h

/-- The thread sets or unsets the log file. -/
def Changing : Pc → Prop
  | .uTst _ | .uLd _ | .uCls _ _ | .uNull _ | .opn | .sto _ => True
  | _ => False

/-- The rules: one thread at a time changes the log file; while there is one, it is changed only when no other thread is in the debug
control, and nothing is printed until it is gone. -/
def Polite (s : State) : Ev → Prop
  | .set _ _ | .unset _ => (∀ u, ¬ Changing (s.pc u)) ∧ (s.fp = none ∨ ∀ u, s.pc u = .idle)
  | .print _ _ => s.fp = none ∨ ∀ u, ¬ Changing (s.pc u)
  | _ => True

/-- Executions of a user that keeps the rules. -/
inductive Good : State → Prop
  | init : Good init
  | step {s s' : State} {e : Ev} : Good s → Polite s e → step s e = some s' → Good s'

/-- No file is set or unset. -/
def NoChange (es : List Ev) : Prop := (∀ t, Ev.unset t ∉ es) ∧ ∀ t p, Ev.set t p ∉ es

end Fullock.Spec.DbgConc
