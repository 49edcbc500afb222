import Verif.Model.MutexCond
/-!
What users observe of named mutexes and conditions: who owns a mutex, which calls have returned what,
who is waiting, who has been woken.
-/
namespace Fullock.MC

/-- The states reachable from fresh tables of any capacity (whatever the free records contain), by
events which `A` allows. -/
inductive Reach (A : State → Ev → Prop) : State → Prop
  | init (nm nc nw : Nat) (junk : Mem) : Reach A (MC.init nm nc nw junk)
  | step {s s' : State} {e : Ev} : Reach A s → A s e → MC.step s e = some s' → Reach A s'

/-- `t` owns `m`: it is alive and more of its lock calls (waits) on `m` have succeeded than it has
released. -/
def Owns (s : State) (m t : Nat) : Prop := t ≠ 0 ∧ s.alive t = true ∧ 1 ≤ s.mem.dep m t

/-- Every event is allowed. -/
def anyEv : State → Ev → Prop := fun _ _ => True

/-- Nobody dies. -/
def noDeath : State → Ev → Prop
  | _, .die _ => False
  | _, _ => True

/-- Nobody waits on a condition. -/
def noWait : State → Ev → Prop
  | _, .call _ (.wait _ _ _) => False
  | _, _ => True

/-- A thread does not die in the window between a dead-owner check reading it as the owner of a mutex
and the check asking whether it is alive, when it has released that mutex inside the window. -/
def okDie : State → Ev → Prop
  | s, .die v => ∀ u, s.alive u = true → ∀ m k, s.pc u = .swChk m v k → s.mem.mval m = v
  | _, _ => True

/-- Threads wait on a condition only with a mutex they own. -/
def waitOwner : State → Ev → Prop
  | s, .call t (.wait _ m _) => Owns s m t
  | _, _ => True

/-- The events of thread `t` running alone, following the choices `cs`. -/
def alone (t : Nat) (cs : List Choice) : List Ev := cs.map (.go t ·)

/-- `t`, calling `c` in `s` and then running alone with the choices `cs`, returns `r` in `s'`. -/
def Returns (s : State) (t : Nat) (c : Call) (cs : List Choice) (r : Nat) (s' : State) : Prop :=
  run s (.call t c :: alone t cs) = some s' ∧ s'.pc t = .done r

end Fullock.MC
