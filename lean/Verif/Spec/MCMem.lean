import Verif.Model.MCMem
import Verif.Spec.ListMem
/-! Specification: what it means that the cells of the segment hold the tables of the named mutexes and
conditions, and what threads and users can see of them. -/
namespace Fullock.MCMem
open Fullock.ListMem Fullock.Layout
open Fullock.FLMem (adr idx)

/-- The records of each list. -/
abbrev Tab := Head → List Nat

/-- The list heads that exist. -/
def HB (cnt : Pool → Nat) : Head → Prop
  | .ws c => c < cnt .ncond
  | _ => True

/-- The cells hold the tables: from every list head the references run through exactly the records of
the list and end with NULL. -/
def Rep (cnt : Pool → Nat) (c : ListMem.Mem) (T : Tab) : Prop :=
  ∀ h, HB cnt h → Chain c (c (cell cnt h)) ((T h).map (adr cnt h.pool))

/-- Lists without repetition, of records that exist, no record in two lists. -/
structure Sound (cnt : Pool → Nat) (T : Tab) : Prop where
  nodup : ∀ h, (T h).Nodup
  lt : ∀ h, ∀ i ∈ T h, i < cnt h.pool
  disj : ∀ h h', h.pool = h'.pool → h ≠ h' → ∀ i ∈ T h, i ∉ T h'

/-- The references in the segment form separate finite lists of existing records. -/
def Intact (cnt : Pool → Nat) (c : ListMem.Mem) : Prop := ∃ T, Sound cnt T ∧ Rep cnt c T

/-- Walking along a list from its head, as seen by a process mapping the segment at `b`. -/
def listed (cnt : Pool → Nat) (b fuel : Nat) (x : Mem) (h : Head) : List Nat :=
  (FLMem.walk b x.cells fuel (toAbs b (x.cells (cell cnt h)))).map (idx cnt b h.pool)

/-- A process mapping the segment at `b` sees in it the tables of `M`: looking up a name finds a record
exactly if the name is listed in `M`, and this record holds what `M` has for the name; the waiters of a
condition are those of `M`, in the same order; the free records are those of `M`. -/
structure Sees (cnt : Pool → Nat) (fuel b : Nat) (x : Mem) (M : MC.Mem) : Prop where
  mtx : ∀ n, (n ∉ M.mlist ∧ findM cnt fuel b x n = some none) ∨
    (n ∈ M.mlist ∧ ∃ m, findM cnt fuel b x n = some (some m) ∧ x.mname m = n ∧ x.mval m = M.mval n ∧
      x.mcnt m = M.mcnt n ∧ x.dep m = M.dep n)
  mroom : (listed cnt b fuel x .mfree).length = M.mroom
  cond : ∀ n, (n ∉ M.clist ∧ findC cnt fuel b x n = some none) ∨
    (n ∈ M.clist ∧ ∃ c, findC cnt fuel b x n = some (some c) ∧ x.cname c = n ∧
      listed cnt b fuel x (.ws c) = M.ws n)
  croom : (listed cnt b fuel x .cfree).length = M.croom
  wfree : listed cnt b fuel x .wfree = M.wfree
  wtid : x.wtid = M.wtid
  wup : x.wup = M.wup
  mL : x.mL = M.mL
  cL : x.cL = M.cL

/-- The states reachable from a segment just made by `InitializeShmFile` (wherever it was mapped) by
events which `A` allows; `base t` is where the process of `t` maps the segment. -/
inductive Reach (cnt : Pool → Nat) (fuel : Nat) (base : Nat → Nat) (A : State → Ev → Prop) : State → Prop
  | init {f f' : File} {os : List Sys} {b : Nat} {m : ListMem.Mem} (junk : Mem)
      (h : initializeShmFile cnt f true os (some b) = some (.ok f' m)) :
      Reach cnt fuel base A (MCMem.init m junk)
  | step {s s' : State} {e : Ev} : Reach cnt fuel base A s → A s e →
      step cnt fuel base s e = some s' → Reach cnt fuel base A s'

/-- Thread `t` owns the mutex called `n`: it is alive and, in the record found under this name by a process
mapping the segment at `b`, more of its lock calls have succeeded than it has released. -/
def Owns (cnt : Pool → Nat) (fuel b : Nat) (x : State) (n t : Nat) : Prop :=
  t ≠ 0 ∧ x.alive t = true ∧ ∃ m, findM cnt fuel b x.mem n = some (some m) ∧ 1 ≤ x.mem.dep m t

/-- A thread does not die in the window between a dead-owner check reading it as the owner of a mutex and
the check asking whether it is alive, when it has released that mutex inside the window. -/
def okDie : State → Ev → Prop
  | x, .die v _ _ => ∀ u, x.alive u = true → ∀ m k, x.pc u = .swChk m v k → x.mem.mval m = v
  | _, _ => True

/-- Nobody waits on a condition. -/
def noWait : State → Ev → Prop
  | _, .call _ (.wait _ _ _) => False
  | _, _ => True

/-- What is visible from outside of an event: calls and deaths. -/
def Ev.vis : Ev → Option (Nat × Option MC.Call)
  | .call t c => some (t, some c)
  | .go _ _ => none
  | .die t _ _ => some (t, none)

/-- The same for the model on tables. -/
def visMC : MC.Ev → Option (Nat × Option MC.Call)
  | .call t c => some (t, some c)
  | .go _ _ => none
  | .die t => some (t, none)

/-- The thread is inside a call and not waiting for a table lock held by a live thread. -/
def CanGo (x : State) (t : Nat) : Prop :=
  x.alive t = true ∧ match x.pc t with
    | .done _ => False
    | .acqM _ => x.mem.mL = 0 ∨ x.alive x.mem.mL = false
    | .acqC _ => x.mem.cL = 0 ∨ x.alive x.mem.cL = false
    | _ => True

end Fullock.MCMem
