import Verif.Model.Segment
import Verif.Model.LockId
/-
The whole segment with one access to a lock word per step.

Source: as Verif.Model.Segment; the loops of the table locks /repo/lib/flckbaselist.tcc 59-127, the loops of
the lock word of a range /repo/lib/flckbaselist.tcc 145-263.

`Verif.Model.Segment` takes a table lock in one step (possible when the lock is free or its holder dead) and
has the reading of the lock word of a range and the compare-and-swap that follows as one step.  Here each of
them is a step of its own, so other threads, and deaths, may come between; what a thread has read so far is
its `Loc`.  Everything else is done by the steps of `Verif.Model.Segment`.

Simplified: `fl_unlock_rwlock` of the sweep of dead holders is called after the locker is cut from its list
(/repo/lib/flcklistofflock.cc 255-263); here the word is read before that.  Both happen inside the table lock
of the files, which the readers of that list take.
-/
namespace Fullock.Fine
open Fullock.FL (fset)

/-- The three table locks: `file_lock_lockid`, `named_mutex_lockid`, `named_cond_lockid`,
/repo/lib/flckstructure.h 128, 133, 138. -/
inductive Tbl where
  | file | mtx | cnd
deriving DecidableEq, Repr

/-- What a thread has done of the loop it is in.  Local variables of /repo/lib/flckbaselist.tcc
59-127, 145-263. -/
inductive Loc where
  /-- nothing -/
  | none
  /-- rounds of `fl_lock_lockid` or `fl_unlock_lockid` -/
  | lk (p : LockId.Pc)
  /-- it has read the word `w` of the range concerned by its next step with choice `c` -/
  | seen (c : FL.Choice) (w : Int)
deriving DecidableEq, Repr

/-- The segment and what the threads have read; /repo/lib/flckstructure.h 122-149. -/
structure State where
  seg : Seg.State
  loc : Nat → Loc

/-- The table lock the thread is about to take (`true`) or to release.  Calls of `fl_lock_lockid`
and `fl_unlock_lockid`, /repo/lib/flckshm.cc 532-957. -/
def gate (s : Seg.State) (t : Nat) : Option (Tbl × Bool) :=
  match s.fl.pc t with
  | .acq _ => some (.file, true)
  | .rel _ => some (.file, false)
  | _ => match s.mc.pc t with
    | .acqM _ => some (.mtx, true)
    | .relM _ => some (.mtx, false)
    | .acqC _ => some (.cnd, true)
    | .relC _ => some (.cnd, false)
    | _ => none

/-- The word of a table lock. /repo/lib/flckstructure.h 128, 133, 138. -/
def tword (s : Seg.State) : Tbl → Nat
  | .file => s.fl.lockid
  | .mtx => s.mc.mem.mL
  | .cnd => s.mc.mem.cL

/-- The word of a table lock is written, /repo/lib/flckstructure.h 128, 133, 138. -/
def setTword (s : Seg.State) (v : Nat) : Tbl → Seg.State
  | .file => { s with fl := { s.fl with lockid := v } }
  | .mtx => { s with mc := { s.mc with mem := { s.mc.mem with mL := v } } }
  | .cnd => { s with mc := { s.mc with mem := { s.mc.mem with cL := v } } }

/-- The function on the table lock returns: the thread goes on.  /repo/lib/flckbaselist.tcc 92,
127. -/
def pass (s : Seg.State) (t : Nat) : Seg.State :=
  match s.fl.pc t with
  | .acq p => { s with fl := FLMem.setPc s.fl t p }
  | .rel p => { s with fl := FLMem.setPc s.fl t p }
  | _ => match s.mc.pc t with
    | .acqM p => { s with mc := { s.mc with pc := MC.upd s.mc.pc t p } }
    | .relM p => { s with mc := { s.mc with pc := MC.upd s.mc.pc t p } }
    | .acqC p => { s with mc := { s.mc with pc := MC.upd s.mc.pc t p } }
    | .relC p => { s with mc := { s.mc with pc := MC.upd s.mc.pc t p } }
    | _ => s

/-- No counterpart in the code: what a thread has read. -/
def State.setLoc (s : State) (t : Nat) (l : Loc) : State := { s with loc := fset s.loc t l }

/-- Where the thread is in `fl_lock_lockid` (`up`) or `fl_unlock_lockid`.
/repo/lib/flckbaselist.tcc 59-127. -/
def inLoop (l : Loc) (up : Bool) : LockId.Pc :=
  match l with
  | .lk p => p
  | _ => if up then .acq 0 0 else .rel 0 0

/-- One access of the loops on a table lock, by `LockId.own`.  /repo/lib/flckbaselist.tcc 59-127. -/
def lkStep (s : State) (t : Nat) : Option State :=
  if s.seg.fl.alive t = false then none
  else match gate s.seg t with
    | none => none
    | some (k, up) =>
      let y := LockId.own ⟨tword s.seg k, s.seg.fl.alive, fun _ => inLoop (s.loc t) up⟩ t
      let s' := setTword s.seg y.lockid k
      if y.pc t = .crit ∨ y.pc t = .out then some { seg := pass s' t, loc := fset s.loc t .none }
      else some { seg := s', loc := fset s.loc t (.lk (y.pc t)) }

/-- The range whose word is read first: a reader attempts (/repo/lib/flckbaselist.tcc 151-169, 186-189), an
unlock (/repo/lib/flcklistofflock.cc 97), a locker of a dead holder that has the lock is swept
(/repo/lib/flcklistofflock.cc 262, 297).  A writer attempts by one compare-and-swap. -/
def wants (s : Seg.State) (t : Nat) (c : FL.Choice) : Option Nat :=
  match s.fl.pc t, c with
  | .spin op _ o _, _ => if op.mode = .rd then some o else none
  | .uWord _ _ o _ _, _ => some o
  | .rChk _ _ _ _, .lk o _ l => if s.fl.pay.locked l then some o else none
  | .sw, .lk o _ l => if s.fl.pay.locked l then some o else none
  | _, _ => none

/-- Whether the thread attempts to take a lock. /repo/lib/flcklistofflock.cc 169-197. -/
def attempts (s : Seg.State) (t : Nat) : Bool :=
  match s.fl.pc t with
  | .spin .. => true
  | _ => false

/-- How many actions of the step come before the compare-and-swap: cutting the locker.
/repo/lib/flcklistofflock.cc 255, 290. -/
def before (s : Seg.State) (t : Nat) : Nat :=
  match s.fl.pc t with
  | .rChk .. => 1
  | .sw => 1
  | _ => 0

/-- The compare-and-swap of a thread that has read `w` succeeds on `v`, /repo/lib/flckbaselist.tcc 158, 169, 189
(reader), 252-261 (unlock). -/
def hit (attempt : Bool) (w v : Int) : Bool :=
  if attempt then decide (0 ≤ w) && decide (v = w)
  else decide (v = if w ≤ -1 then -1 else w)

/-- A reading of the lock word of a range, for a step that the thread is about to make.  An unlock that reads 0
is over (/repo/lib/flckbaselist.tcc 252-254). -/
def loadStep (cnt : Pool → Nat) (fuel : Nat) (base : Nat → Nat) (s : State) (t : Nat) (c : FL.Choice) : Option State :=
  if s.loc t ≠ .none ∨ (attempts s.seg t = true ∧ c ≠ .go) then none
  else (Seg.step cnt fuel base s.seg (.fl (.go t (base t) c))).bind fun x =>
    (wants s.seg t c).map fun o =>
      if attempts s.seg t = false ∧ s.seg.fl.pay.word o = 0 then ⟨x, s.loc⟩
      else s.setLoc t (.seen c (s.seg.fl.pay.word o))

/-- The compare-and-swap on the word that was read.  A reader whose attempt fails gives up or tries again,
`over`: the time or the number of attempts is over; an unlock reads again.
/repo/lib/flckbaselist.tcc 158, 169, 189, 261. -/
def casStep (cnt : Pool → Nat) (fuel : Nat) (base : Nat → Nat) (s : State) (t : Nat) (over : Bool) : Option State :=
  match s.loc t with
  | .seen c w =>
    match wants s.seg t c with
    | none => none
    | some o =>
      let go (c : FL.Choice) : Option State :=
        (Seg.step cnt fuel base s.seg (.fl (.go t (base t) c))).map fun x => ⟨x, fset s.loc t .none⟩
      if hit (attempts s.seg t) w (s.seg.fl.pay.word o) then
        if attempts s.seg t then go .go else go c
      else if attempts s.seg t then go (if over then .limit else .spur)
      else if s.seg.fl.alive t then some (s.setLoc t .none) else none
  | _ => none

/-- A thread may be killed anywhere; after the compare-and-swap only if that succeeds (or is not made, the
word being 0).  Deaths inside /repo/lib/flckbaselist.tcc 145-263. -/
def dieOk (s : State) (t : Nat) (c : FL.Choice) (k j : Nat) : Bool :=
  match wants s.seg t c with
  | none => true
  | some o =>
    decide (k < before s.seg t) || (decide (k = before s.seg t) && decide (j = 0)) ||
      match s.loc t with
      | .seen c' w => decide (c' = c) && hit (attempts s.seg t) w (s.seg.fl.pay.word o)
      | _ => !attempts s.seg t && decide (s.seg.fl.pay.word o = 0)

/-- Events; the new ones are single accesses of /repo/lib/flckbaselist.tcc 59-127 and 145-263. -/
inductive Ev where
  /-- calls, deaths and the steps not listed below -/
  | seg (e : Seg.Ev)
  /-- one access of the loops on a table lock -/
  | lk (t : Nat)
  /-- the lock word of a range is read -/
  | load (t : Nat) (c : FL.Choice)
  /-- the compare-and-swap that follows -/
  | cas (t : Nat) (over : Bool)

/-- The event is not one that is split here. No counterpart in the code. -/
def free (s : State) : Seg.Ev → Bool
  | .fl (.call ..) => true
  | .mc (.call ..) => true
  | .fl (.go t _ c) => (gate s.seg t).isNone && (wants s.seg t c).isNone && decide (s.loc t = .none)
  | .mc (.go t _) => (gate s.seg t).isNone
  | .fl (.die t _ c k j) => dieOk s t c k j
  | .mc (.die ..) => true

/-- One event; /repo/lib/flckbaselist.tcc 59-127, 145-263 access by access, everything else as
`Seg.step`. -/
def step (cnt : Pool → Nat) (fuel : Nat) (base : Nat → Nat) (s : State) : Ev → Option State
  | .seg e => if free s e then (Seg.step cnt fuel base s.seg e).map fun x => ⟨x, s.loc⟩ else none
  | .lk t => lkStep s t
  | .load t c => loadStep cnt fuel base s t c
  | .cas t over => casStep cnt fuel base s t over

/-- No counterpart in the code: events one after the other. -/
def run (cnt : Pool → Nat) (fuel : Nat) (base : Nat → Nat) (s : State) : List Ev → Option State
  | [] => some s
  | e :: es => (step cnt fuel base s e).bind (run cnt fuel base · es)

/-- Nobody in the library. /repo/lib/flckshminit.cc 231-302. -/
def init (m : ListMem.Mem) (junkF : FL.Mem) (junkM : MCMem.Mem) : State where
  seg := Seg.init m junkF junkM
  loc := fun _ => .none

end Fullock.Fine
