import Verif.Model.RcsvConc
/-
Recursive lock objects used by threads that did not make them.
Source: /repo/lib/rwlockrcsv.cc 87-104 (`lock_tid` is the maker's), 116-130 (`compare` looks at `lock_tid`), 230, 313, 412, 428 (requests
in the segment), /repo/lib/flckshm.cc 731-838, /repo/lib/flckutil.h 170-173 (the segment's locks are those of the calling thread).

`Verif.Model.RcsvConc` has the object's thread in the requests, which is the calling thread if threads use objects they have
made. Here requests have the calling thread.
-/
namespace Fullock.Rcsv.Conc

/-- A request in the segment is one of the calling thread. /repo/lib/flckshm.cc 746 (`get_flckpid`), /repo/lib/flckutil.h 170-173. -/
def asCaller (t : Nat) : Prog → Prog
  | .grant r w k => .grant { r with tid := t } w k
  | .free r k => .free { r with tid := t } k
  | p => p

/-- One instruction of thread `t`, in a call on any object. /repo/lib/rwlockrcsv.cc 153-552. -/
def stepH (s : CState) (t : Nat) : Option CState :=
  match s.run t with
  | none => none
  | some f => step (s.goto t (some { f with prog := asCaller t f.prog })) t

end Fullock.Rcsv.Conc
