import Verif.Spec.MCMem
/-! Executions of the mutexes and conditions in the cells of the segment that never end, in which threads are killed: what
"sooner or later" means there. Nothing is assumed about the loops over the references. -/
namespace Fullock.MCMem
open Fullock.Layout
open Fullock.MC (Kind LK UK Choice)

/-- An execution without end: `σ i` is the state at moment `i`, `ε i` what happens then (`none`: nothing).  It begins with a
segment just made by `InitializeShmFile`; every event is allowed by `A`. -/
structure Exec (cnt : Pool → Nat) (fuel : Nat) (base : Nat → Nat) (A : State → Ev → Prop) (σ : Nat → State)
    (ε : Nat → Option Ev) : Prop where
  start : ∃ f f' os b m junk, initializeShmFile cnt f true os (some b) = some (.ok f' m) ∧ σ 0 = init m junk
  next : ∀ i, match ε i with
    | none => σ (i + 1) = σ i
    | some e => A (σ i) e ∧ step cnt fuel base (σ i) e = some (σ (i + 1))

/-- The thread is able to make a step. -/
def mayGo (cnt : Pool → Nat) (fuel : Nat) (base : Nat → Nat) (x : State) (t : Nat) : Prop :=
  ∃ c x', step cnt fuel base x (.go t c) = some x'

/-- The scheduler is fair: a thread that is able to make a step again and again makes steps again and again. -/
def Fair (cnt : Pool → Nat) (fuel : Nat) (base : Nat → Nat) (σ : Nat → State) (ε : Nat → Option Ev) : Prop :=
  ∀ t, (∀ i, ∃ j, i ≤ j ∧ mayGo cnt fuel base (σ j) t) → ∀ i, ∃ j, i ≤ j ∧ ∃ c, ε j = some (.go t c)

/-- Nobody owns a mutex for ever, unless killed. -/
def Released (cnt : Pool → Nat) (fuel : Nat) (base : Nat → Nat) (σ : Nat → State) : Prop :=
  ∀ i n t, Owns cnt fuel (base t) (σ i) n t → ∃ j, i ≤ j ∧ ¬ Owns cnt fuel (base t) (σ j) n t

/-- From some moment on no call is issued. -/
def CallsEnd (ε : Nat → Option Ev) : Prop := ∃ n, ∀ j, n ≤ j → ∀ t c, ε j ≠ some (.call t c)

/-- In the loop that tries to take a mutex, in a call that does not give up at once. -/
def trying : Pc → Bool
  | .lkRead _ kd _ => kd != .try_
  | .lkAdd _ kd _ => kd != .try_
  | .lkChk _ kd _ => kd != .try_
  | .lkSub _ kd _ => kd != .try_
  | .lkCas _ kd _ => kd != .try_
  | _ => false

/-- A thread that tries to take a mutex for ever finds its time, or the number of attempts after which it checks for dead
owners, over (the second in the robust mode HIGH only). -/
def Patient (σ : Nat → State) (ε : Nat → Option Ev) : Prop :=
  ∀ t i, (∀ j, i ≤ j → (σ j).alive t = true ∧ trying ((σ j).pc t) = true) → ∃ j, i ≤ j ∧ ε j = some (.go t .limit)

/-- In a condition wait that ends when the time is over. -/
def timing : Pc → Bool
  | .wSpin _ _ _ kd => kd != .block
  | _ => false

/-- Time passes for the threads that live. -/
def Timely (σ : Nat → State) (ε : Nat → Option Ev) : Prop :=
  ∀ t i, (∀ j, i ≤ j → (σ j).alive t = true ∧ timing ((σ j).pc t) = true) → ∃ j, i ≤ j ∧ ε j = some (.go t .limit)

/-- From some moment on no dead thread is taken for alive. -/
def SeenDead (ε : Nat → Option Ev) : Prop := ∃ n, ∀ j, n ≤ j → ∀ t, ε j ≠ some (.go t .spur)

/-- The thread is killed, now or later. -/
def Dies (σ : Nat → State) (t : Nat) : Prop := ∃ j, (σ j).alive t = false

/-- Thread `t` is outside of calls at moment `i` or later. -/
def ReturnsAfter (σ : Nat → State) (t i : Nat) : Prop := ∃ j, i ≤ j ∧ ∃ r, (σ j).pc t = .done r

/-- From moment `i` on thread `t` waits, in a condition wait without limit, and nobody has woken it. -/
def Unwoken (σ : Nat → State) (t i : Nat) : Prop :=
  ∃ c w m, ∀ j, i ≤ j → (σ j).pc t = .wSpin c w m .block ∧ (σ j).mem.wup w = false

/-- In a check of dead owners or dead waiters. -/
def checking : Pc → Bool
  | .swTop _ => true
  | .swAt _ _ => true
  | .swChk _ _ _ => true
  | .swCnt _ _ => true
  | .swCntC _ _ _ => true
  | .swVal _ _ => true
  | .swValC _ _ _ => true
  | .swC => true
  | .swCond _ => true
  | .swW _ _ _ => true
  | .swCut _ _ _ => true
  | .swPut _ _ _ => true
  | .swNx _ _ => true
  | _ => false

/-- The thread whose life `t` asks for in its next step, if `t` is at such a place of a check. -/
def asks (cnt : Pool → Nat) (base : Nat → Nat) (x : State) (t : Nat) : Option Nat :=
  match x.pc t with
  | .swChk _ v _ => some v
  | .swW _ _ cur => if cur = 0 then none else some (x.mem.wtid (FLMem.idx cnt (base t) .waiter cur))
  | _ => none

/-- Thread at place `p` tries to take the mutex called `n` in a lock call without limit. -/
def waitsLock (x : Mem) (n : Nat) : Pc → Prop
  | .lkRead m kd k => x.mname m = n ∧ kd = .block ∧ k = .api
  | .lkAdd m kd k => x.mname m = n ∧ kd = .block ∧ k = .api
  | .lkChk m kd k => x.mname m = n ∧ kd = .block ∧ k = .api
  | .lkSub m kd k => x.mname m = n ∧ kd = .block ∧ k = .api
  | .lkCas m kd k => x.mname m = n ∧ kd = .block ∧ k = .api
  | .lkInc m kd k => x.mname m = n ∧ kd = .block ∧ k = .api
  | _ => False

end Fullock.MCMem
