import Verif.Model.SegFork
import Verif.Spec.FileLock
import Verif.Spec.MutexCond
/-!
What users of processes that fork observe: who owns a mutex, which file locks are in force.
-/
namespace Fullock.SegFork

/-- The states reachable from fresh tables of any capacity and one process, by events which `A` allows. -/
inductive MReach (key : Bool) (A : MState → MEv → Prop) : MState → Prop
  | init (p nm nc nw : Nat) (junk : MC.Mem) (h : p ≠ 0) : MReach key A (MState.init p nm nc nw junk)
  | step {x x' : MState} {e : MEv} : MReach key A x → A x e → x.step key e = some x' → MReach key A x'

/-- As `MReach`, for file ranges. -/
inductive FReach (key nofd : Bool) (A : FState → FEv → Prop) : FState → Prop
  | init (p nf no nl : Nat) (junk : FL.Mem) (h : p ≠ 0) : FReach key nofd A (FState.init p nf no nl junk)
  | step {x x' : FState} {e : FEv} : FReach key nofd A x → A x e → x.step key nofd e = some x' → FReach key nofd A x'

/-- `t` owns `m`: it has not ended and more of its lock calls (waits) on `m` have succeeded than it has released. -/
def MOwns (x : MState) (m t : Nat) : Prop := t ≠ 0 ∧ x.w.runs t = true ∧ 1 ≤ x.mem.dep m t

/-- Every event is allowed. -/
def anyM : MState → MEv → Prop := fun _ _ => True

/-- No thread ends. -/
def noEndM : MState → MEv → Prop
  | _, .ev (.die _) => False
  | _, _ => True

/-- The state with the lives as they are. -/
def MState.real (x : MState) : MC.State := ⟨x.mem, x.w.real, x.pc, x.last⟩

/-- The state with the lives as they are. -/
def FState.real (x : FState) : FL.State := ⟨x.mem, x.lockid, x.w.real, x.pc⟩

/-- As `MC.okDie`. -/
def okDieM : MState → MEv → Prop
  | x, .ev e => MC.okDie x.real e
  | _, _ => True

/-- Only threads that have not called the library (and have not been forked by one that had) fork. -/
def cleanM : MState → MEv → Prop
  | x, .w (.fork t _) => x.w.cache t = none
  | _, _ => True

/-- The step is the one that would be made if every question whether a thread is there were answered rightly. -/
def rightM : MState → MEv → Prop
  | x, .ev (.go t c) => MC.plan x.mem x.w.seen t (x.pc t) c = MC.plan x.mem x.w.real t (x.pc t) c
  | _, _ => True

/-- As `FL.okIn`. -/
def okInF (R : DevIno → Rng → Prop) : FState → FEv → Prop
  | x, .ev e => Spec.okIn R x.real e
  | _, _ => True

/-- No thread ends. -/
def noEndF : FState → FEv → Prop
  | _, .ev (.die _ _ _) => False
  | _, _ => True

/-- As `cleanM`. -/
def cleanF : FState → FEv → Prop
  | x, .w (.fork t _) => x.w.cache t = none
  | _, _ => True

/-- As `rightM`. -/
def rightF (nofd : Bool) : FState → FEv → Prop
  | x, .ev (.go t c) => FL.plan x.mem (x.w.holder nofd) t (x.pc t) c = FL.plan x.mem x.w.real t (x.pc t) c ∧
      ∀ p, x.pc t = .acq p → x.w.seen x.lockid = x.w.real x.lockid
  | x, .ev (.die t c _) => FL.plan x.mem (x.w.holder nofd) t (x.pc t) c = FL.plan x.mem x.w.real t (x.pc t) c
  | _, _ => True

/-- The thread whose event it is. -/
def FEv.who : FEv → Nat
  | .ev (.call t _) => t
  | .ev (.go t _) => t
  | .ev (.die t _ _) => t
  | .w e => e.who

end Fullock.SegFork
