import Verif.Model.RcsvTso
import Verif.Props.RcsvConc
/-
Specification for recursive locks with store buffers: the state of sequentially consistent memory that belongs to a state with
buffers, and what the users are told.
-/
namespace Fullock.Spec.RcsvTso
open Fullock.Rcsv Fullock.Rcsv.Conc Fullock.Rcsv.TsoC Fullock.Spec.Rcsv Fullock.Props.Rcsv Fullock.Props.RcsvConc

/-- All writes done: an object as its thread sees it, the table as the holder of its lock sees it. -/
def settled (r : Nat → Rng) (s : TState) : CState :=
  { s.c with sh := { s.c.sh with
      obj := fun i => (sees s (r i).tid).sh.obj i,
      stack := match s.c.owner with
        | some t => (sees s t).sh.stack
        | none => s.c.sh.stack } }

/-- Threads make calls on their own objects and run in any order; writes reach memory at any time. -/
inductive TReach (ok : State → List Bool → Op → Prop) (r : Nat → Rng) : TState → Ghost → Prop
  | init : TReach ok r (TsoC.init r) ⟨fun _ => .free, fun _ => []⟩
  | call {s g} (h : TReach ok r s g) (t : Nat) (os : List Bool) (op : Op) (ht : (r (opObj op)).tid = t)
      (hok : ok (settled r s).sh os op) (s' : TState) (e : TsoC.call s t os op = some s') :
      TReach ok r s' { g with use := fun u => if u = t then ranges (settled r s).sh op else g.use u }
  | step {s g} (h : TReach ok r s g) (t : Nat) (s' : TState) (e : TsoC.step s t = some s') : TReach ok r s' (g.learn s.c t)
  | flush {s g} (h : TReach ok r s g) (t : Nat) (s' : TState) (e : TsoC.flush s t = some s') : TReach ok r s' g

end Fullock.Spec.RcsvTso
