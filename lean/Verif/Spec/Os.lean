import Verif.Model.Os
/-! Specification vocabulary: when is a holder gone? -/
namespace Fullock.Spec

/-- The thread can be seen in /proc. -/
def ThreadSeen (os : Os) (pid tid : BitVec 32) : Prop := ∃ di, os.task pid tid = .ok di

/-- The holder `(pid, tid)` of a lock on `file` through descriptor `fd` is gone as far as /proc
can tell: without a descriptor (negative number) or when the descriptor cannot be inspected
(permission denied, errno 13 of Linux), its
thread is not seen any more; otherwise the descriptor is closed or open on another file. -/
def HolderGone (os : Os) (file : DevIno) (pid tid fd : BitVec 32) : Prop :=
  if fd.toInt < 0 then ¬ ThreadSeen os pid tid
  else match os.fd pid fd with
    | .ok di => di.1 ≠ eaccessDI.1 ∧ di.2 ≠ eaccessDI.2 ∧ di ≠ file
    | .err e => if e = 13 then ¬ ThreadSeen os pid tid else True

/-- The true answer to a question. -/
def Truth (os : Os) : Query → Prop
  | .locker file holder fd ex =>
    ¬ (holder = ex.1 ∧ fd = ex.2) ∧
      HolderGone os file (decomposePid holder) (decomposeTid holder) fd
  | .thread holder ex =>
    holder ≠ ex ∧ ¬ ThreadSeen os (decomposePid holder) (decomposeTid holder)

/-- A query about a locker of a real file, i.e. not of the (0,0) marker. -/
def _root_.Fullock.Query.fileOk : Query → Prop
  | .locker file _ _ _ => file ≠ (0#64, 0#64)
  | .thread _ _ => True

/-- The query is about a descriptor number -1. -/
def _root_.Fullock.Query.minusOne : Query → Prop
  | .locker _ _ fd _ => fd = 0xFFFFFFFF#32
  | .thread _ _ => False

def _root_.Fullock.Query.isThread : Query → Prop
  | .locker .. => False
  | .thread .. => True

end Fullock.Spec
