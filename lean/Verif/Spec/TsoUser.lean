import Verif.Model.TsoUser
import Verif.Spec.Tso
/-
Specification of C90: which programs, and who has what.
-/
namespace Fullock.Spec.TsoUser
open Fullock.Tso Fullock.TsoUser Fullock.Spec.Tso

/-- The lock that guards data. -/
inductive Guard where
  | range (l : Nat)
  | mutex (l : Nat)

variable {U : Type}

/-- The thread may read what the lock guards. -/
def mayRead (s : Lc U) : Guard → Prop
  | .range l => s.mode l ≠ .no
  | .mutex l => 0 < s.depth l

/-- The thread may write what the lock guards. -/
def mayWrite (s : Lc U) : Guard → Prop
  | .range l => s.mode l = .w
  | .mutex l => 0 < s.depth l

/-- The next step of the program obeys the rules: data are read and written under their lock, a range is locked when the thread
does not have it and unlocked when it has it. -/
def Obeys (guard : Nat → Guard) (prog : Nat → U → UIns U) (t : Nat) (s : Lc U) : Prop :=
  match s.pc with
  | .usr u =>
    match prog t u with
    | .rlock l _ => s.mode l = .no
    | .wlock l _ => s.mode l = .no
    | .unlock l _ => s.mode l ≠ .no
    | .rd a _ => mayRead s (guard a)
    | .wr a _ _ => mayWrite s (guard a)
    | _ => True
  | _ => True

/-- The programs obey the rules, as seen on sequentially consistent memory. -/
def AllObey (guard : Nat → Guard) (prog : Nat → U → UIns U) (u0 : Nat → U) : Prop :=
  ∀ c, SReach (ucode prog) (scInit (uinit u0)) c → ∀ t, Obeys guard prog t (c.loc t)

end Fullock.Spec.TsoUser
