import Verif.Model.Attach
/-! What the user may do, and what they rely on, when the library is started by the calls themselves. -/
namespace Fullock.Spec.Attach
open Fullock.Attach

/-- No access outside of a complete segment took place. -/
def Safe (s : State) : Prop := s.bad = false

/-- At most one thread was given the exclusive lock, in whatever process. -/
def Exclusive (s : State) : Prop :=
  (∀ t u, s.own t = true → s.own u = true → t = u) ∧ (s.oown = true → ∀ t, s.own t = false)

/-- The call of a thread starts or ends the library at present: it got the descriptor and did not return from the start, or it is in
`Destroy`. -/
def Starting : Pc → Prop
  | .wl _ _ | .rl _ | .trunc _ | .fill _ | .mapF _ | .headF _ | .build _ | .down _ | .atc _ | .mapA _ | .headA _ | .des _ | .det _ _ | .cls _ _ => True
  | _ => False

/-- While a call starts or ends the library no other call runs. -/
def Alone (s : State) : Prop := ∀ t u, t ≠ u → Starting (s.pc t) → s.pc u = .idle

/-- The library is reinitialised only while no thread has a lock. -/
def Polite (s : State) : Ev → Prop
  | .reinit _ => ∀ t, s.own t = false
  | _ => True

/-- Executions of a user that keeps both rules. -/
inductive Good : State → Prop
  | init : Good init
  | step {s s' : State} {e : Ev} : Good s → Polite s e → step s e = some s' → Alone s' → Good s'

/-- A piece of such an execution. -/
inductive GoodRun : State → List Ev → State → Prop
  | nil (s : State) : GoodRun s [] s
  | cons {s s1 s' : State} {e : Ev} {es : List Ev} : Polite s e → step s e = some s1 → Alone s1 → GoodRun s1 es s' →
      GoodRun s (e :: es) s'

/-- Thread `t` makes no call. -/
def NoCall (t : Nat) (es : List Ev) : Prop := Ev.lock t ∉ es ∧ Ev.unlock t ∉ es ∧ Ev.reinit t ∉ es

/-- The start of the library has been completed. -/
def Started (s : State) : Prop := s.fd = true ∧ ∀ t, ¬ Starting (s.pc t)

/-- No `fullock_reinitialize`. -/
def NoReinit (es : List Ev) : Prop := ∀ t, Ev.reinit t ∉ es

/-- Every `open` of the segment file is refused. -/
def Refused : State → List Ev → Prop
  | _, [] => True
  | s, e :: es => (∀ t ok cr c, e = .run t ok cr → s.pc t = .opn c → ok = false) ∧ ∀ s', step s e = some s' → Refused s' es

end Fullock.Spec.Attach
