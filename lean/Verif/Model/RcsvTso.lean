import Verif.Model.RcsvConc
/-
The recursive lock class on processors with store buffers (x86-TSO).
Source: /repo/lib/rwlockrcsv.cc 25-552; the lock of the table is taken and left by `__sync_val_compare_and_swap`
(/repo/lib/flckbaselist.tcc 463-481), members of objects and the table are plain memory.

A plain write goes into the buffer of its thread and reaches memory at any later time, in order; a thread sees memory with its own
writes done; atomic operations, and the calls of the segment, which begin with one (/repo/lib/flckbaselist.tcc 63), need an empty
buffer.

Simplified: an object is one cell, so is the table; they are in many cells, whose writes reach memory one by one.
-/
namespace Fullock.Rcsv.TsoC
open Fullock.Rcsv.Conc

/-- A write under way: to an object's members (/repo/lib/rwlockrcsv.h 41-53) or to the table (/repo/lib/rwlockrcsv.cc 28-36).
The buffer is the processor's, no counterpart in the code. -/
inductive Wr where
  | obj (i : Nat) (o : Obj)
  | stk (l : List Nat)

/-- Memory and threads, `c.sh` is what has reached memory; and the buffers.  No counterpart in the code. -/
structure TState where
  c : CState
  buf : Nat → List Wr

/-- The write reaches memory. The processor's, no counterpart in the code. -/
def apply (s : State) : Wr → State
  | .obj i o => { s with obj := fun j => if j = i then o else s.obj j }
  | .stk l => { s with stack := l }

/-- Memory with the writes done, oldest first. The processor's, no counterpart in the code. -/
def view (s : State) : List Wr → State
  | [] => s
  | w :: b => view (apply s w) b

/-- The instruction is an atomic operation or begins with one. /repo/lib/rwlockrcsv.cc 52-60, 230, 313, 412, 428. -/
def fence : Prog → Bool
  | .lock _ => true
  | .unlock _ => true
  | .grant _ _ _ => true
  | .free _ _ => true
  | _ => false

/-- Plain writes of an instruction where memory is seen as `v`. /repo/lib/rwlockrcsv.cc 153-466. -/
def writes (v : State) : Prog → List Wr
  | .upd i g _ => [.obj i (g (v.obj i))]
  | .erase i _ => [.stk (v.stack.erase i)]
  | .push i _ => [.stk (v.stack ++ [i])]
  | .scan i _ => [.stk (scanW v i v.stack).2.1]
  | _ => []

/-- Memory as thread `t` sees it. The processor's, no counterpart in the code. -/
def sees (s : TState) (t : Nat) : CState := { s.c with sh := view s.c.sh (s.buf t) }

/-- One instruction of thread `t`; its plain writes go into the buffer. /repo/lib/rwlockrcsv.cc 153-552, access by access. -/
def step (s : TState) (t : Nat) : Option TState :=
  match s.c.run t with
  | none => none
  | some f =>
    match Conc.step (sees s t) t with
    | none => none
    | some c =>
      if fence f.prog then
        match s.buf t with
        | [] => some { s with c := c }
        | _ :: _ => none
      else some { c := { c with sh := { s.c.sh with race := c.sh.race } },
                  buf := fun u => if u = t then s.buf t ++ writes (sees s t).sh f.prog else s.buf u }

/-- The oldest write of thread `t` reaches memory. The processor's, no counterpart in the code. -/
def flush (s : TState) (t : Nat) : Option TState :=
  match s.buf t with
  | [] => none
  | w :: b => some { c := { s.c with sh := apply s.c.sh w }, buf := fun u => if u = t then b else s.buf u }

/-- A thread that is in no call makes one. /repo/lib/rwlockrcsv.h 77-82. -/
def call (s : TState) (t : Nat) (os : List Bool) (op : Op) : Option TState :=
  match Conc.call s.c t os op with
  | none => none
  | some c => some { s with c := c }

/-- Nobody in a call, all objects constructed without a lock, no write under way.  /repo/lib/rwlockrcsv.cc 30-61, 87-89. -/
def init (r : Nat → Rng) : TState := { c := Conc.init r, buf := fun _ => [] }

end Fullock.Rcsv.TsoC
