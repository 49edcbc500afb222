import Verif.Spec.MCForever
/-! Specification of deadlock of named mutexes: threads that wait for each other. -/
namespace Fullock.MC

/-- At place `p` the thread waits for the mutex `m` without limit, in a lock call or at the end of a condition wait (it may be
checking for dead owners meanwhile). -/
def seeks (m : Nat) : Pc → Prop
  | .lkRead m' kd _ => m' = m ∧ kd = .block
  | .lkAdd m' kd _ => m' = m ∧ kd = .block
  | .lkChk m' kd _ => m' = m ∧ kd = .block
  | .lkSub m' kd _ => m' = m ∧ kd = .block
  | .lkCas m' kd _ => m' = m ∧ kd = .block
  | .lkInc m' kd _ => m' = m ∧ kd = .block
  | .acqM (.swM (some (m', kd, _))) => m' = m ∧ kd = .block
  | .relM (.lkRead m' kd _) => m' = m ∧ kd = .block
  | .swM (some (m', kd, _)) => m' = m ∧ kd = .block
  | .swChk _ _ (some (m', kd, _)) => m' = m ∧ kd = .block
  | .swCnt _ (some (m', kd, _)) => m' = m ∧ kd = .block
  | .swCntC _ _ (some (m', kd, _)) => m' = m ∧ kd = .block
  | .swVal _ (some (m', kd, _)) => m' = m ∧ kd = .block
  | .swValC _ _ (some (m', kd, _)) => m' = m ∧ kd = .block
  | _ => False

/-- The threads `D` are deadlocked: each waits without limit for a mutex that another of them owns. -/
def Deadlock (s : State) (D : Nat → Prop) : Prop :=
  (∃ t, D t) ∧ ∀ t, D t → t ≠ 0 ∧ s.alive t = true ∧ ∃ m u, seeks m (s.pc t) ∧ D u ∧ u ≠ t ∧ Owns s m u

/-- Threads take mutexes in the order given by `rk`: each one they ask for comes after those they own, unless they own
it already.  A wait asks for its mutex again when it ends, so the mutex has to come after the others
its caller owns. -/
def inOrder (rk : Nat → Nat) : State → Ev → Prop
  | s, .call t (.lock m _) => 1 ≤ s.mem.dep m t ∨ ∀ m', 1 ≤ s.mem.dep m' t → rk m' < rk m
  | s, .call t (.wait _ m _) => ∀ m', 1 ≤ s.mem.dep m' t → m' = m ∨ rk m' < rk m
  | _, _ => True

/-- `s'` is reached from `s` by events that `A` allows. -/
inductive After (A : State → Ev → Prop) (s : State) : State → Prop
  | refl : After A s s
  | step {s1 s2 : State} {e : Ev} : After A s s1 → A s1 e → step s1 e = some s2 → After A s s2

/-- None of the threads `D` is killed. -/
def spares (D : Nat → Prop) : Ev → Prop
  | .die t => ¬ D t
  | _ => True

/-- Who owns a mutex and is not in a call calls again sooner or later. -/
def ComesBack (σ : Nat → State) (ε : Nat → Option Ev) : Prop :=
  ∀ i t m, 1 ≤ (σ i).mem.dep m t → (∃ r, (σ i).pc t = .done r) → ∃ j, i ≤ j ∧ ∃ c, ε j = some (.call t c)

end Fullock.MC
