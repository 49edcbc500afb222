import Verif.Spec.Rcsv
import Verif.Model.RcsvHand
import Verif.Props.Rcsv
import Verif.Proofs.RcsvProj
/-
Specification of C87: threads that use objects, made by themselves or by others; what each of them was told.
-/
namespace Fullock.Spec.RcsvHand
open Fullock.Rcsv Fullock.Rcsv.Conc Fullock.Spec.Rcsv Fullock.Props.Rcsv

/-- What each thread was told of each object by its own calls; the ranges of the call each thread is in. -/
structure Told where
  told : Nat → Nat → Know
  use : Nat → List Rng

/-- Thread `t` learns the result of its call, if it returns now. -/
def Told.learn (g : Told) (s : CState) (t : Nat) : Told :=
  match s.run t with
  | some ⟨.ret b, _, op⟩ =>
    { told := fun u j => if u = t ∧ j = opObj op then (g.told u j).next (opReq op) b else g.told u j,
      use := fun u => if u = t then [] else g.use u }
  | _ => g

/-- Thread `t` calls on an object `i` if `may t i`; threads run in any order. -/
inductive HReach (may : Nat → Nat → Prop) (ok : State → List Bool → Op → Prop) (r : Nat → Rng) : CState → Told → Prop
  | init : HReach may ok r (Conc.init r) ⟨fun _ _ => .free, fun _ => []⟩
  | call {s g} (h : HReach may ok r s g) (t : Nat) (os : List Bool) (op : Op) (ht : may t (opObj op)) (hok : ok s.sh os op)
      (s' : CState) (e : Conc.call s t os op = some s') :
      HReach may ok r s' { g with use := fun u => if u = t then ranges s.sh op else g.use u }
  | step {s g} (h : HReach may ok r s g) (t : Nat) (s' : CState) (e : stepH s t = some s') : HReach may ok r s' (g.learn s t)

/-- A thread told that it has an exclusive lock is the only one told that it has a lock on a common range, apart from threads in
a call on that range. -/
def Alone (s : CState) (g : Told) : Prop :=
  ∀ t u i j, t ≠ u → g.told t i = .excl → (g.told u j).must = true → (s.sh.obj i).rng ∉ g.use t → (s.sh.obj j).rng ∉ g.use u →
    clash (s.sh.obj i).rng (s.sh.obj j).rng = false

/-- Thread `t` waits in the segment although only its own locks are held there. -/
def WaitsForItself (s : CState) (t : Nat) : Prop :=
  s.run t ≠ none ∧ stepH s t = none ∧ s.sh.glob = false ∧ ∀ x ∈ s.sh.held, x.1.tid = t

end Fullock.Spec.RcsvHand
