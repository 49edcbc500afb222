import Verif.Model.Reuse
import Verif.Spec.FileLock
import Verif.Spec.MutexCond
/-!
Reachable states when numbers of dead threads are given to new threads: `A` says which other events are
allowed, `B` when a new thread may come to life under the number of a dead one.
-/
namespace Fullock.LockId

inductive RReach (B : State → Nat → Prop) : State → Prop
  | init : RReach B init
  | ev {s s' : State} {e : Ev} : RReach B s → step s e = some s' → RReach B s'
  | born {s s' : State} {t : Nat} : RReach B s → B s t → born s t = some s' → RReach B s'

/-- No live thread is between finding `t` dead and taking the lock over from it. -/
def NotJudged (s : State) (t : Nat) : Prop := ∀ u c, s.alive u = true → s.pc u ≠ .steal c t

end Fullock.LockId

namespace Fullock.FL

inductive RReach (A : State → Ev → Prop) (B : State → Nat → Prop) : State → Prop
  | init (nf no nl : Nat) (junk : Mem) : RReach A B (init nf no nl junk)
  | ev {s s' : State} {e : Ev} : RReach A B s → A s e → step s e = some s' → RReach A B s'
  | born {s s' : State} {t : Nat} : RReach A B s → B s t → born s t = some s' → RReach A B s'
  | reenter {s s' : State} {t : Nat} : RReach A B s → reenter s t = some s' → RReach A B s'

/-- The dead thread `t` has left no request half way: every record under its number belongs to a lock in
force. -/
def Finished (s : State) (t : Nat) : Prop :=
  ∀ o md l, l ∈ s.mem.lks o md → s.mem.ltid l = t → ∃ h, (l, h) ∈ s.mem.outs

/-- The dead thread has left nothing at all. -/
def Traceless (s : State) (t : Nat) : Prop :=
  (∀ o md l, l ∈ s.mem.lks o md → s.mem.ltid l ≠ t) ∧ s.lockid ≠ t

end Fullock.FL

namespace Fullock.MC

inductive RReach (A : State → Ev → Prop) (B : State → Nat → Prop) : State → Prop
  | init (nm nc nw : Nat) (junk : Mem) : RReach A B (init nm nc nw junk)
  | ev {s s' : State} {e : Ev} : RReach A B s → A s e → step s e = some s' → RReach A B s'
  | born {s s' : State} {t : Nat} : RReach A B s → B s t → born s t = some s' → RReach A B s'
  | reenterM {s s' : State} {t : Nat} : RReach A B s → reenterM s t = some s' → RReach A B s'
  | reenterC {s s' : State} {t : Nat} : RReach A B s → reenterC s t = some s' → RReach A B s'

/-- The dead thread has left nothing: no mutex and no table lock bears its number. -/
def Traceless (s : State) (t : Nat) : Prop :=
  (∀ m ∈ s.mem.mlist, s.mem.mval m ≠ t) ∧ s.mem.mL ≠ t ∧ s.mem.cL ≠ t

end Fullock.MC
