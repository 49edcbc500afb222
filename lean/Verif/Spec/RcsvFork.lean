import Verif.Model.RcsvFork
import Verif.Props.RcsvConc
/-
Specification for recursive locks and fork: what the users of each process know from the results of the calls
made in that process.  A child has not been told of any lock.
-/
namespace Fullock.Spec.RcsvFork
open Fullock.Rcsv Fullock.Rcsv.Conc Fullock.Rcsv.Fork Fullock.Spec.Rcsv Fullock.Props.Rcsv Fullock.Props.RcsvConc

/-- Nothing was told. -/
def nothing : Ghost := ⟨fun _ => .free, fun _ => []⟩

/-- Knowledge of one process. -/
def upd (G : Nat → Ghost) (p : Nat) (g : Ghost) : Nat → Ghost := fun q => if q = p then g else G q

/-- Runs from one process with one thread `m`; `okF` says when thread `t` of process `p` may call fork. -/
inductive FReach (okF : Sys → (Nat → Ghost) → Nat → Nat → Prop) (ok : State → List Bool → Op → Prop) (r : Nat → Rng) (m : Nat) :
    Sys → (Nat → Ghost) → Prop
  | init : FReach okF ok r m (Fork.init r m) (fun _ => nothing)
  | call {s G} (h : FReach okF ok r m s G) (p t : Nat) (os : List Bool) (op : Op) (ht : (r (opObj op)).tid = t)
      (hok : ok (s.proc p).sh os op) (s' : Sys) (e : Fork.step s (.call p t os op) = some s') :
      FReach okF ok r m s' (upd G p { G p with use := fun u => if u = t then ranges (s.proc p).sh op else (G p).use u })
  | run {s G} (h : FReach okF ok r m s G) (p t : Nat) (s' : Sys) (e : Fork.step s (.run p t) = some s') :
      FReach okF ok r m s' (upd G p ((G p).learn (s.proc p) t))
  | spawn {s G} (h : FReach okF ok r m s G) (p u : Nat) (s' : Sys) (e : Fork.step s (.spawn p u) = some s') :
      FReach okF ok r m s' G
  | fork {s G} (h : FReach okF ok r m s G) (p t q : Nat) (hf : okF s G p t) (s' : Sys)
      (e : Fork.step s (.fork p t q) = some s') : FReach okF ok r m s' (upd G q nothing)

/-- Fork at any time. -/
def anyFork (_ : Sys) (_ : Nat → Ghost) (_ _ : Nat) : Prop := True

/-- Fork by a thread that has no lock. -/
def FreeFork (r : Nat → Rng) (_ : Sys) (G : Nat → Ghost) (p t : Nat) : Prop := ∀ i, (r i).tid = t → (G p).know i = .free

/-- The same, while the table of the process is not locked, as when no thread of it is inside of a call (`C91_quiet`). -/
def QuietFork (r : Nat → Rng) (s : Sys) (G : Nat → Ghost) (p t : Nat) : Prop :=
  FreeFork r s G p t ∧ (s.proc p).sh.glob = false

end Fullock.Spec.RcsvFork
