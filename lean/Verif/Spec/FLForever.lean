import Verif.Spec.FileLock
import Verif.Spec.Deadlock
/-! Specification of executions of the file lock tables that never end: what "sooner or later" means. -/
namespace Fullock.FLive
open Fullock.FL Fullock.Spec

/-- An execution without end: `σ i` is the state at moment `i`, `ε i` what happens then (`none`: nothing).
It begins with fresh tables of any capacity, and every event is allowed by `A`. -/
structure Exec (A : State → Ev → Prop) (σ : Nat → State) (ε : Nat → Option Ev) : Prop where
  start : ∃ nf no nl junk, σ 0 = FL.init nf no nl junk
  next : ∀ i, match ε i with
    | none => σ (i + 1) = σ i
    | some e => A (σ i) e ∧ step (σ i) e = some (σ (i + 1))

/-- The thread is in a call (and alive). -/
def inCall (s : State) (t : Nat) : Prop := s.alive t = true ∧ ∀ r, s.pc t ≠ .done r

/-- The thread is able to make a step. -/
def mayGo (s : State) (t : Nat) : Prop := ∃ c s', step s (.go t c) = some s'

/-- The scheduler is fair: a thread that is able to make a step again and again makes steps again and again. -/
def Fair (σ : Nat → State) (ε : Nat → Option Ev) : Prop :=
  ∀ t, (∀ i, ∃ j, i ≤ j ∧ mayGo (σ j) t) → ∀ i, ∃ j, i ≤ j ∧ ∃ c, ε j = some (.go t c)

/-- Every lock in force is released sooner or later, or its holder is killed. -/
def Released (σ : Nat → State) : Prop :=
  ∀ i, ∀ x ∈ (σ i).mem.outs, ∃ j, i ≤ j ∧ (x ∉ (σ j).mem.outs ∨ (σ j).alive x.2.t = false)

/-- From some moment on no call is issued. -/
def CallsEnd (ε : Nat → Option Ev) : Prop := ∃ n, ∀ j, n ≤ j → ∀ t c, ε j ≠ some (.call t c)

/-- A waiting thread that checks its range for dead holders overlooks none. -/
def DeadSeen (σ : Nat → State) (ε : Nat → Option Ev) : Prop :=
  ∀ i t op f o l, (σ i).pc t = .rChk op f o l → ε i = some (.go t .go) →
    ∀ md, ∀ l' ∈ (σ i).mem.lks o md, (σ i).alive ((σ i).mem.ltid l') = true

/-- Time passes and attempts are counted: a thread that goes on attempting comes to its limit (where it gives
up or, without limit of time, checks for dead holders). -/
def Timely (σ : Nat → State) (ε : Nat → Option Ev) : Prop :=
  ∀ t i, (∀ j, i ≤ j → (σ j).alive t = true ∧ ∃ op f o l, (σ j).pc t = .spin op f o l ∧ op.kind ≠ .try_) →
    ∃ j, i ≤ j ∧ ε j = some (.go t .limit)

/-- An attempt on a word that allows it fails only because the word has been changed by somebody else since the
last step of the thread. -/
def RacesReal (σ : Nat → State) (ε : Nat → Option Ev) : Prop :=
  ∀ i t c op f o l, ε i = some (.go t c) → c ≠ .go → (σ i).pc t = .spin op f o l → canTake ((σ i).mem.word o) op.mode = true →
    ∃ j, j < i ∧ (σ (j + 1)).mem.word o ≠ (σ j).mem.word o ∧ ∀ k, j ≤ k → k < i → ∀ c, ε k ≠ some (.go t c)

/-- Thread `t`, in a call at moment `i`, returns from it or is killed. -/
def ReturnsAfter (σ : Nat → State) (t i : Nat) : Prop :=
  ∃ j, i ≤ j ∧ ((∃ r, (σ j).pc t = .done r) ∨ (σ j).alive t = false)

/-- Thread at place `p` waits for the lock `op`, without limit (it may be checking for dead holders meanwhile). -/
def waits (op : Op) : Pc → Prop
  | .spin op' _ _ _ => op' = op ∧ op.kind = .block
  | .acq (.rSet op' _ _ _) => op' = op ∧ op.kind = .block
  | .rSet op' _ _ _ => op' = op ∧ op.kind = .block
  | .rChk op' _ _ _ => op' = op ∧ op.kind = .block
  | .rel (.spin op' _ _ _) => op' = op ∧ op.kind = .block
  | _ => False

end Fullock.FLive
