import Verif.Spec.FileLock
/-! Specification of waiting for oneself and for each other. -/
namespace Fullock.Spec
open Fullock.FL

/-- From `s` the events `es`, each allowed by `A`, lead to `s'`. -/
inductive Later (A : State → Ev → Prop) (s : State) : List Ev → State → Prop
  | here : Later A s [] s
  | more {es : List Ev} {s1 s2 : State} {e : Ev} : Later A s es s1 → A s1 e → step s1 e = some s2 →
      Later A s (es ++ [e]) s2

/-- Thread `u` neither dies nor calls unlock in `es`. -/
def Keeps (u : Nat) (es : List Ev) : Prop := ∀ e ∈ es, (∀ op, e ≠ .call u (.unlock op)) ∧ ∀ c k, e ≠ .die u c k

/-- Thread `t` issues no new call in `es`. -/
def Within (t : Nat) (es : List Ev) : Prop := ∀ e ∈ es, ∀ c, e ≠ .call t c

/-- Thread `t` has just asked for the lock `op`. -/
def Asks (s : State) (t : Nat) (op : Op) : Prop := s.pc t = (Call.lock op).start

/-- Thread `u` is outside the library or has just asked for a lock. -/
def OutsideOrAsks (s : State) (u : Nat) : Prop := (∃ r, s.pc u = .done r) ∨ ∃ op, Asks s u op

/-- The lock a request would give. -/
def lockOf (t : Nat) (op : Op) : Out := ⟨t, op.fd, op.key, op.rng, op.mode⟩

end Fullock.Spec
