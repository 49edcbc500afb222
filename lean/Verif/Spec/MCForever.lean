import Verif.Spec.MutexCond
/-! Specification of executions of the named mutexes and conditions that never end: what "sooner or later" means. -/
namespace Fullock.MC

/-- An execution without end: `σ i` is the state at moment `i`, `ε i` what happens then (`none`: nothing).
It begins with fresh tables of any capacity, and every event is allowed by `A`. -/
structure Exec (A : State → Ev → Prop) (σ : Nat → State) (ε : Nat → Option Ev) : Prop where
  start : ∃ nm nc nw junk, σ 0 = init nm nc nw junk
  next : ∀ i, match ε i with
    | none => σ (i + 1) = σ i
    | some e => A (σ i) e ∧ step (σ i) e = some (σ (i + 1))

/-- The thread is in a call. -/
def inCall (s : State) (t : Nat) : Prop := ∀ r, s.pc t ≠ .done r

/-- The thread is able to make a step. -/
def mayGo (s : State) (t : Nat) : Prop := ∃ c s', step s (.go t c) = some s'

/-- The scheduler is fair: a thread that is able to make a step again and again makes steps again and again. -/
def Fair (σ : Nat → State) (ε : Nat → Option Ev) : Prop :=
  ∀ t, (∀ i, ∃ j, i ≤ j ∧ mayGo (σ j) t) → ∀ i, ∃ j, i ≤ j ∧ ∃ c, ε j = some (.go t c)

/-- Every mutex taken is released sooner or later (by an unlock or by a condition wait). -/
def Released (σ : Nat → State) : Prop :=
  ∀ i m t, 1 ≤ (σ i).mem.dep m t → ∃ j, i ≤ j ∧ (σ j).mem.dep m t = 0

/-- From some moment on no call is issued. -/
def CallsEnd (ε : Nat → Option Ev) : Prop := ∃ n, ∀ j, n ≤ j → ∀ t c, ε j ≠ some (.call t c)

/-- Inside a check of dead owners or dead waiters. -/
def checking : Pc → Bool
  | .swM _ => true
  | .swChk _ _ _ => true
  | .swCnt _ _ => true
  | .swCntC _ _ _ => true
  | .swVal _ _ => true
  | .swValC _ _ _ => true
  | .swC => true
  | .swPut _ => true
  | _ => false

/-- Every check of dead owners or dead waiters comes to an end (it treats each record once). -/
def ChecksEnd (σ : Nat → State) : Prop :=
  ∀ t i, checking ((σ i).pc t) = true → ∃ j, i ≤ j ∧ checking ((σ j).pc t) = false

/-- In a condition wait that ends when the time is over. -/
def timing : Pc → Bool
  | .wSpin _ _ _ kd => kd != .block
  | _ => false

/-- Time passes: a thread that stays in a condition wait with a limit finds its time over. -/
def Timely (σ : Nat → State) (ε : Nat → Option Ev) : Prop :=
  ∀ t i, (∀ j, i ≤ j → timing ((σ j).pc t) = true) → ∃ j, i ≤ j ∧ ε j = some (.go t .limit)

/-- Thread `t`, in a call at moment `i`, returns from it. -/
def ReturnsAfter (σ : Nat → State) (t i : Nat) : Prop := ∃ j, i ≤ j ∧ ∃ r, (σ j).pc t = .done r

/-- From moment `i` on thread `t` waits, in a condition wait without limit, and nobody has woken it. -/
def Unwoken (σ : Nat → State) (t i : Nat) : Prop :=
  ∃ c w m, ∀ j, i ≤ j → (σ j).pc t = .wSpin c w m .block ∧ (σ j).mem.wup w = false

/-- Thread at place `p` waits for the mutex `m` in a lock call without limit (it may be checking for dead
owners meanwhile). -/
def waitsLock (m : Nat) : Pc → Prop
  | .lkRead m' kd k => m' = m ∧ kd = .block ∧ k = .api
  | .lkAdd m' kd k => m' = m ∧ kd = .block ∧ k = .api
  | .lkChk m' kd k => m' = m ∧ kd = .block ∧ k = .api
  | .lkSub m' kd k => m' = m ∧ kd = .block ∧ k = .api
  | .lkCas m' kd k => m' = m ∧ kd = .block ∧ k = .api
  | .lkInc m' kd k => m' = m ∧ kd = .block ∧ k = .api
  | .acqM (.swM (some (m', kd, k))) => m' = m ∧ kd = .block ∧ k = .api
  | .relM (.lkRead m' kd k) => m' = m ∧ kd = .block ∧ k = .api
  | .swM (some (m', kd, k)) => m' = m ∧ kd = .block ∧ k = .api
  | .swChk _ _ (some (m', kd, k)) => m' = m ∧ kd = .block ∧ k = .api
  | .swCnt _ (some (m', kd, k)) => m' = m ∧ kd = .block ∧ k = .api
  | .swCntC _ _ (some (m', kd, k)) => m' = m ∧ kd = .block ∧ k = .api
  | .swVal _ (some (m', kd, k)) => m' = m ∧ kd = .block ∧ k = .api
  | .swValC _ _ (some (m', kd, k)) => m' = m ∧ kd = .block ∧ k = .api
  | _ => False

end Fullock.MC
