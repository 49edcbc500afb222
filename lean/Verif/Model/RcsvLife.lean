import Verif.Model.RcsvConc
/-
Construction and destruction of the objects of the recursive lock class while threads run.
Source: /repo/lib/rwlockrcsv.cc 87-114.

Simplified: every construction takes a new number; the storage of a destroyed object may be used again in the code, which
makes a difference only to a pointer left to the destroyed object (C84: there is none).  An object is constructed and
destroyed by the same thread.  The constructor with a kind of lock and a valid descriptor is `newL` followed by the call
`readLock` or `writeLock` (C94_valid).  With the descriptor -1 it leaves the object as a refused call does (C94_refused).
-/
namespace Fullock.Rcsv.Conc

/-- An object is not yet constructed, in use, or destroyed. No counterpart in the code. -/
inductive Life where
  | unborn
  | live
  | gone
  deriving DecidableEq

/-- The threads of the process, which objects exist, and the object each thread is in the destructor of. No counterpart in
the code. -/
structure LState where
  c : CState
  life : Nat → Life
  dying : Nat → Option Nat

/-- Construction by a thread that is in no call, /repo/lib/rwlockrcsv.cc 87-89. -/
def LState.newL (s : LState) (t i : Nat) : Option LState :=
  match s.c.run t with
  | some _ => none
  | none =>
    if s.life i = .unborn then some { s with life := fun j => if j = i then .live else s.life j } else none

/-- A call of a member function, /repo/lib/rwlockrcsv.h 77-82. -/
def LState.callL (s : LState) (t : Nat) (os : List Bool) (op : Op) : Option LState :=
  match Conc.call s.c t os op with
  | none => none
  | some c => some { s with c := c }

/-- Entry of the destructor, which does what `Unlock` does and ignores the result,
/repo/lib/rwlockrcsv.cc 106-114. -/
def LState.delL (s : LState) (t : Nat) (os : List Bool) (i : Nat) : Option LState :=
  match Conc.call s.c t os (.unlock i) with
  | none => none
  | some c => some { s with c := c, dying := fun u => if u = t then some i else s.dying u }

/-- The call the thread is in returns: a destructor ends the life of its object whatever `RawUnlock` returned,
/repo/lib/rwlockrcsv.cc 109-114. -/
def LState.endL (s : LState) (t : Nat) : LState :=
  match s.dying t with
  | none => s
  | some i =>
    { s with life := fun j => if j = i then .gone else s.life j, dying := fun u => if u = t then none else s.dying u }

/-- One instruction of thread `t`. /repo/lib/rwlockrcsv.cc 106-114, 153-552. -/
def LState.stepL (s : LState) (t : Nat) : Option LState :=
  match Conc.step s.c t with
  | none => none
  | some c =>
    match s.c.run t with
    | some ⟨.ret _, _, _⟩ => some { s.endL t with c := c }
    | _ => some { s with c := c }

/-- No object is constructed. No counterpart in the code. -/
def LState.initL (r : Nat → Rng) : LState := { c := Conc.init r, life := fun _ => .unborn, dying := fun _ => none }

end Fullock.Rcsv.Conc
