import Verif.Model.Fine
import Verif.Spec.Segment
/-! Specification: runs with one access to a lock word per step. -/
namespace Fullock.Fine
open Fullock.Layout

/-- The states reachable from a segment just made by `InitializeShmFile`; `A` restricts calls and deaths. -/
inductive Reach (cnt : Pool → Nat) (fuel : Nat) (base : Nat → Nat) (A : Seg.State → Seg.Ev → Prop) : State → Prop
  | init {f f' : File} {os : List Sys} {b : Nat} {m : ListMem.Mem} (junkF : FL.Mem) (junkM : MCMem.Mem)
      (h : initializeShmFile cnt f true os (some b) = some (.ok f' m)) :
      Reach cnt fuel base A (Fine.init m junkF junkM)
  | step {s s' : State} {e : Ev} : Reach cnt fuel base A s → (∀ e', e = .seg e' → A s.seg e') →
      step cnt fuel base s e = some s' → Reach cnt fuel base A s'

/-- `A` restricts calls and deaths only. -/
def Loose (A : Seg.State → Seg.Ev → Prop) : Prop :=
  (∀ s t b c, A s (.fl (.go t b c))) ∧ ∀ s t c, A s (.mc (.go t c))

/-- Places between taking and releasing the table lock of the mutexes. -/
def inM : MCMem.Pc → Bool
  | .relM _ | .mFind .. | .mIni .. | .mIns .. | .uFind _ | .wM .. => true
  | .ulRead _ .api | .ulRead2 _ .api | .ulSub _ .api | .ulFix _ _ .api | .ulCas _ .api | .ulAdd _ .api => true
  | .swTop _ | .swAt .. | .swChk .. | .swCnt .. | .swCntC .. | .swVal .. | .swValC .. => true
  | _ => false

/-- Places between taking and releasing the table lock of the conditions. -/
def inC : MCMem.Pc → Bool
  | .relC _ | .wC .. | .wNewI .. | .wNew .. | .wGet .. | .wIni .. | .wIns .. | .wCut .. | .wPut .. => true
  | .sFind .. | .sWalk .. | .sSet _ | .bWalk _ | .bSet _ => true
  | .swC | .swCond _ | .swW .. | .swCut .. | .swPut .. | .swNx .. => true
  | _ => false

/-- Places between taking and releasing the table lock of the files. -/
def inF : FL.Pc → Bool
  | .done _ | .acq _ | .spin .. | .setf .. => false
  | _ => true

/-- The thread is in the section protected by a table lock. -/
def inside (x : Seg.State) (t : Nat) : Tbl → Bool
  | .file => inF (x.fl.pc t)
  | .mtx => inM (x.mc.pc t)
  | .cnd => inC (x.mc.pc t)

/-- The thread that makes the step, or `none` for calls and deaths. -/
def mover : Ev → Option Nat
  | .seg (.fl (.go t _ _)) => some t
  | .seg (.mc (.go t _)) => some t
  | .seg _ => none
  | .lk t => some t
  | .load t _ => some t
  | .cas t _ => some t

/-- The thread is in a call. -/
def busy (x : Seg.State) (t : Nat) : Prop := Seg.idleFL x t = false ∨ Seg.idleMC x t = false

end Fullock.Fine
