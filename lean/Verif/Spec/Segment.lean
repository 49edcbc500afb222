import Verif.Model.Segment
import Verif.Spec.FLMem
import Verif.Spec.MCMem
/-! Specification: the references of the whole segment, and what one kind of calls may see of the other. -/
namespace Fullock.Seg
open Fullock.ListMem Fullock.Layout
open Fullock.FLMem (adr)

/-- A record of kind `k` begins at `r`. -/
def IsRec (cnt : Pool → Nat) (k : Pool) (r : Nat) : Prop := ∃ i < cnt k, r = adr cnt k i

/-- A reference to records of kind `k` lies at `a`: the link of such a record, or a head of a list of them. -/
def IsCell (cnt : Pool → Nat) (k : Pool) (a : Nat) : Prop :=
  IsRec cnt k a ∨ (∃ h, FLMem.HB cnt h ∧ h.pool = k ∧ a = FLMem.cell cnt h) ∨
    ∃ h, MCMem.HB cnt h ∧ h.pool = k ∧ a = MCMem.cell cnt h

/-- NULL or the offset of a record of kind `k`. -/
def Ref (cnt : Pool → Nat) (k : Pool) (v : Nat) : Prop := v = 0 ∨ IsRec cnt k v

/-- Every reference in the segment is NULL or refers to the beginning of a record of the right kind. -/
def Typed (cnt : Pool → Nat) (m : Mem) : Prop := ∀ k a, IsCell cnt k a → Ref cnt k (m a)

/-- The states reachable from a segment just made by `InitializeShmFile` by events which `A` allows. -/
inductive Reach (cnt : Pool → Nat) (fuel : Nat) (base : Nat → Nat) (A : State → Ev → Prop) : State → Prop
  | init {f f' : File} {os : List Sys} {b : Nat} {m : Mem} (junkF : FL.Mem) (junkM : MCMem.Mem)
      (h : initializeShmFile cnt f true os (some b) = some (.ok f' m)) :
      Reach cnt fuel base A (Seg.init m junkF junkM)
  | step {s s' : State} {e : Ev} : Reach cnt fuel base A s → A s e → step cnt fuel base s e = some s' →
      Reach cnt fuel base A s'

/-- Calls of the mutexes and conditions and all deaths. -/
def visM : Ev → Option (Nat × Option MC.Call)
  | .mc e => e.vis
  | .fl (.die t _ _ _ _) => some (t, none)
  | .fl _ => none

/-- What the file locks have of an event: a thread that dies elsewhere dies for them as well. -/
def toFL : Ev → Option FLMem.Ev
  | .fl e => some e
  | .mc (.die t _ _) => some (.die t 0 .go 0 0)
  | .mc _ => none

/-- A run of the file locks alone. -/
def runFL (cnt : Pool → Nat) (fuel : Nat) (s : FLMem.State) : List FLMem.Ev → Option FLMem.State
  | [] => some s
  | e :: es => (FLMem.step cnt fuel s e).bind (runFL cnt fuel · es)

/-- Bulk returns are not cut in the middle. -/
def whole (cnt : Pool → Nat) (fuel : Nat) (s : State) : Ev → Prop
  | .fl e => e.whole cnt fuel s.fl
  | .mc _ => True

/-- Nobody dies in the middle of an unlock of a file. -/
def okDeath (s : State) : Ev → Prop
  | .fl e => FLMem.okDeath s.fl e
  | .mc _ => True

/-- Requests for file locks are for ranges in `R`. -/
def lockIn (R : DevIno → Rng → Prop) : Ev → Prop
  | .fl e => FLMem.lockIn R e
  | .mc _ => True

/-- As `MCMem.okDie`, for deaths anywhere. -/
def okDie (s : State) : Ev → Prop
  | .mc e => MCMem.okDie s.mc e
  | .fl (.die t _ _ _ _) => MCMem.okDie s.mc (.die t .go 0)
  | .fl _ => True

/-- Nobody waits on a condition. -/
def noWait (s : State) : Ev → Prop
  | .mc e => MCMem.noWait s.mc e
  | .fl _ => True

end Fullock.Seg
