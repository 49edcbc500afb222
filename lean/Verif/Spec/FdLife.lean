import Verif.Model.FdLife
import Verif.Spec.FileLock
/-!
What users of descriptors observe: which locks are in force, whose they are, through which descriptors.
-/
namespace Fullock.FdLife

/-- The states reachable from fresh tables of any capacity and one process, by events which `A` allows. -/
inductive Reach (A : State → Ev → Prop) : State → Prop
  | init (p nf no nl : Nat) (deny : Nat → Nat → Bool) (junk : FL.Mem) (h : p ≠ 0) : Reach A (State.init p nf no nl deny junk)
  | step {x x' : State} {e : Ev} : Reach A x → A x e → x.step e = some x' → Reach A x'

/-- The state with the lives as they are. -/
def State.real (x : State) : FL.State := ⟨x.mem, x.lockid, x.w.real, x.pc⟩

/-- No thread ends. -/
def noEnd : State → Ev → Prop
  | _, .ev (.die _ _ _) => False
  | _, _ => True

/-- Events one after the other, each checked. -/
def dchk (ok : State → Ev → Bool) (x : State) : List Ev → Option State
  | [] => some x
  | e :: es => if ok x e then (x.step e).bind (dchk ok · es) else none

/-- The thread whose event it is. -/
def Ev.who : Ev → Nat
  | .ev (.call t _) => t
  | .ev (.go t _) => t
  | .ev (.die t _ _) => t
  | .w e => e.who

/-- The request of the lock or unlock call in which a thread is. -/
def reqOf : FL.Pc → Option FL.Op
  | .acq p => reqOf p
  | .rel p => reqOf p
  | .lFile op | .lOff op _ | .lFProt op _ _ | .lLk op _ _ | .lOProt op _ _ _ | .spin op _ _ _
  | .setf op _ _ _ | .rSet op _ _ _ | .rChk op _ _ _ | .f1 op _ _ _ _ | .f2 op _ _ | .f3 op _
  | .uFind op | .uWord op _ _ _ _ | .uFlag op _ _ _ _ | .uCut op _ _ _ _ | .uOff op _ _ | .uFile op _ => some op
  | .done _ | .qry _ | .sw => none

/-- Nothing is done to a descriptor through which a living thread of the process has a lock in force or is locking or unlocking;
what leaves it open on the same file is nothing. -/
def keepOpen : State → Ev → Prop
  | x, .w (.set t fd v) => x.w.fdOf (x.w.pid t) fd = v ∨
      (∀ y ∈ x.mem.outs, x.w.runs y.2.t = true → x.w.pid y.2.t = x.w.pid t → y.2.fd ≠ fd) ∧
      ∀ u op, x.w.runs u = true → x.w.pid u = x.w.pid t → reqOf (x.pc u) = some op → op.fd ≠ fd
  | _, _ => True

/-- As `FL.okIn`. -/
def okIn (R : DevIno → Rng → Prop) : State → Ev → Prop
  | x, .ev e => Spec.okIn R x.real e
  | _, _ => True

/-- The holder of a lock is not there any more, for thread `t`: without a descriptor, or if the descriptors of its process must
not be inspected, its thread has ended; otherwise the descriptor is closed, open on another file, or gone with the process. -/
def Gone (x : State) (t : Nat) (h : FL.Out) : Prop :=
  if h.fd < 0 ∨ x.w.deny (x.w.pid t) (x.w.pid h.t) = true then x.w.runs h.t = false
  else x.w.fdOf (x.w.pid h.t) h.fd ≠ some h.key

end Fullock.FdLife
