import Verif.Model.Whole
import Verif.Spec.FileLock
import Verif.Props.RcsvConc
/-! Specification vocabulary for the recursive lock class of several processes on one segment. -/
namespace Fullock.Whole
open Fullock.Props.RcsvConc (Ghost okC)

/-- The ranges the processes use: `F p` those of process `p`, each with at least one byte and representable,
and within `R`, a family of ranges of files that are pairwise equal or disjoint; object `i` of process `p` is
constructed by a thread of `p` with the range `r p i`. -/
structure Fits (P : Par) (R : DevIno → Rng → Prop) (F : Nat → Rcsv.Rng → Prop) (r : Nat → Nat → Rcsv.Rng) : Prop where
  sep : Spec.Separate R
  fam : ∀ p a, F p a → 0 < a.len ∧ a.off + a.len < 2 ^ 63 ∧ R (P.key p a.fd) (conv a)
  obj : ∀ p i, F p (r p i) ∧ P.cls (r p i).tid = true ∧ P.pr (r p i).tid = p

/-- The executions: threads call the class on their own objects, as in C70; their lock requests do not run out of
records; the other threads ask for ranges in `R` and do not die between the release of a lock word and the
mark in the record (`okIn`).  The second component is what the users of each process know. -/
inductive Reach (P : Par) (R : DevIno → Rng → Prop) (F : Nat → Rcsv.Rng → Prop) (r : Nat → Nat → Rcsv.Rng) :
    State → (Nat → Ghost) → Prop
  | init (nf no nl : Nat) (junk : FL.Mem) : Reach P R F r (init r nf no nl junk) (fun _ => ⟨fun _ => .free, fun _ => []⟩)
  | call {s G} (h : Reach P R F r s G) (t : Nat) (op : Rcsv.Op) (ht : (r (P.pr t) (Props.Rcsv.opObj op)).tid = t)
      (hok : okC (F (P.pr t)) (s.proc (P.pr t)).sh [] op) (s' : State) (e : step P s (.call t op) = some s') :
      Reach P R F r s' (fun p => if p = P.pr t then
        { G p with use := fun u => if u = t then Rcsv.Conc.ranges (s.proc p).sh op else (G p).use u } else G p)
  | own {s G} (h : Reach P R F r s G) (t : Nat) (s' : State) (e : step P s (.own t) = some s') :
      Reach P R F r s' (fun p => if p = P.pr t then (G p).learn (s.proc p) t else G p)
  | enter {s G} (h : Reach P R F r s G) (t : Nat) (s' : State) (e : step P s (.enter t) = some s') : Reach P R F r s' G
  | seg {s G} (h : Reach P R F r s G) (t : Nat) (c : FL.Choice) (s' : State) (e : step P s (.seg t c) = some s') :
      Reach P R F r s' G
  | leave {s G} (h : Reach P R F r s G) (t : Nat)
      (hg : ∀ f q w k, (s.proc (P.pr t)).run t = some f → f.prog = .grant q w k → s.fl.pc t = .done 0)
      (s' : State) (e : step P s (.leave t) = some s') : Reach P R F r s' G
  | other {s G} (h : Reach P R F r s G) (e' : FL.Ev) (ha : Spec.okIn R s.fl e') (s' : State)
      (e : step P s (.other e') = some s') : Reach P R F r s' G

end Fullock.Whole
