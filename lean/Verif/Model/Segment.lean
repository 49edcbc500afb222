import Verif.Model.MCMem
/-
The whole segment: file locks, named mutexes and conditions used at the same time, all in the same memory
cells, by the same threads.

Source: as Verif.Model.FLMem and Verif.Model.MCMem; both kinds of tables lie in one file mapped by every
process, /repo/lib/flckshminit.cc 231-374, /repo/lib/flckstructure.h 122-149.

The state is a state of each of the two models; the memory cells and the flags telling which threads are
alive are common, a step of one model passes them on to the other.  A thread is in one call at a time.
-/
namespace Fullock.Seg

/-- `fl.cells = mc.mem.cells` and `fl.alive = mc.alive` always.  /repo/lib/flckstructure.h
122-149. -/
structure State where
  fl : FLMem.State
  mc : MCMem.State

/-- An event of one of the two parts: /repo/lib/flckshm.cc 520-966. -/
inductive Ev where
  /-- a file lock call, a step of one, or a death -/
  | fl (e : FLMem.Ev)
  /-- a mutex or condition call, a step of one, or a death -/
  | mc (e : MCMem.Ev)

/-- The thread is not in a call of the file locks. No counterpart in the code. -/
def idleFL (s : State) (t : Nat) : Bool := match s.fl.pc t with
  | .done _ => true
  | _ => false

/-- The thread is not in a call of the mutexes and conditions.  No counterpart in the code. -/
def idleMC (s : State) (t : Nat) : Bool := match s.mc.pc t with
  | .done _ => true
  | _ => false

/-- A step of the file locks changes cells and lives for the mutexes and conditions as well.
No counterpart in the code. -/
def fromFL (s : State) (x : FLMem.State) : State where
  fl := x
  mc := { s.mc with mem := { s.mc.mem with cells := x.cells }, alive := x.alive }

/-- The same after an event on the mutexes and conditions.  No counterpart in the code. -/
def fromMC (s : State) (x : MCMem.State) : State where
  fl := { s.fl with cells := x.mem.cells, alive := x.alive }
  mc := x

/-- `base t` is the address at which the process of `t` maps the segment.  A call of one kind begins only
when the thread is not in a call of the other kind; a thread that dies inside a call dies by the event of
that kind.  /repo/lib/flckshm.cc 520-966. -/
def step (cnt : Pool → Nat) (fuel : Nat) (base : Nat → Nat) (s : State) : Ev → Option State
  | .fl e =>
    let ok := match e with
      | .call t _ => idleMC s t
      | .go t b _ => b == base t
      | .die t b _ _ _ => b == base t && idleMC s t
    if ok then (FLMem.step cnt fuel s.fl e).map (fromFL s) else none
  | .mc e =>
    let ok := match e with
      | .call t _ => idleFL s t
      | .go _ _ => true
      | .die t _ _ => idleFL s t
    if ok then (MCMem.step cnt fuel base s.mc e).map (fromMC s) else none

/-- No counterpart in the code: events one after the other. -/
def run (cnt : Pool → Nat) (fuel : Nat) (base : Nat → Nat) (s : State) : List Ev → Option State
  | [] => some s
  | e :: es => (step cnt fuel base s e).bind (run cnt fuel base · es)

/-- Fresh segment: the cells `m` left by `InitializeShmFile`, nobody in the library.
/repo/lib/flckshminit.cc 231-302. -/
def init (m : ListMem.Mem) (junkF : FL.Mem) (junkM : MCMem.Mem) : State where
  fl := FLMem.init m junkF
  mc := MCMem.init m junkM

end Fullock.Seg
