/-
What the library may leave behind in its process, stated apart from the model's helpers.
-/
import Verif.Model.Res
namespace Fullock.Spec.Res
open Fullock.Res

/-- Descriptors that a step of a kind may lose. -/
def fdLoss : Kind → Nat
  | .fork => 2
  | .fork2 => 2
  | .abort => 2
  | _ => 0

/-- Blocks that a step of a kind may lose. -/
def blkLoss : Kind → Nat
  | .fork => 1
  | .fork2 => 1
  | .cut => 1
  | _ => 0

/-- Reachable states; `two` = forks that start several workers are allowed; `nf`, `nb` count what may
have been lost. -/
inductive Reach (mask : Nat) (user : Nat → Bool) (um : Nat) (two : Bool) : Nat → Nat → State → Prop
  | init : Reach mask user um two 0 0 (init user um)
  | step (hk : k = .fork2 → two = true) : Reach mask user um two nf nb s → Step mask k s s' →
      Reach mask user um two (nf + fdLoss k) (nb + blkLoss k) s'

/-- The library is not in use and no call of it is in progress. -/
def Off (s : State) : Prop := s.main = .idle ∧ s.shm = none

/-- No worker thread is left that still has work to do: all have ended or are about to. -/
def NoWorker (s : State) : Prop := ∀ t w, s.wk t = some w → w.pc = .last ∨ w.pc = .ended

/-- Nothing is left: no descriptor, mapping or block of the library. -/
def Nothing (s : State) : Prop :=
  (∀ f, s.own f ≠ .lib) ∧ (∀ a, s.maps a = false) ∧ (∀ b, s.live b = false)

end Fullock.Spec.Res
