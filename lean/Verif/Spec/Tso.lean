import Verif.Model.Tso
/-
Specification of C89: the same threads with sequentially consistent memory.
-/
namespace Fullock.Spec.Tso
open Fullock.Tso

/-- Memory and threads; `dirty t`: what thread `t` has written since its last atomic operation. -/
structure Sc (L : Type) where
  mem : Nat → Nat
  loc : Nat → L
  alive : Nat → Bool
  dirty : Nat → List Nat

/-- One step with sequentially consistent memory: a write is done at once. -/
def scStep {L : Type} (code : Nat → L → Ins L) (c : Sc L) : Ev → Option (Sc L)
  | .run t n =>
    if c.alive t = false then none
    else match code t (c.loc t) with
    | .rd a k => some { c with loc := fput c.loc t (k (c.mem a)) }
    | .wr a v l => some { c with mem := put c.mem a v, loc := fput c.loc t l, dirty := fput c.dirty t (a :: c.dirty t) }
    | .rmw a f k =>
      some { c with mem := put c.mem a (f (c.mem a)), loc := fput c.loc t (k (c.mem a)), dirty := fput c.dirty t [] }
    | .ask u k => some { c with loc := fput c.loc t (k (c.alive u)) }
    | .any k => some { c with loc := fput c.loc t (k n) }
  | .flush _ => none
  | .die t => some { c with alive := fput c.alive t false, dirty := fput c.dirty t [] }

/-- States with store buffers. -/
inductive TReach {L : Type} (code : Nat → L → Ins L) (s0 : St L) : St L → Prop
  | init : TReach code s0 s0
  | step {s} (h : TReach code s0 s) (e : Ev) (s' : St L) (he : step code s e = some s') : TReach code s0 s'

/-- States with sequentially consistent memory. -/
inductive SReach {L : Type} (code : Nat → L → Ins L) (c0 : Sc L) : Sc L → Prop
  | init : SReach code c0 c0
  | step {c} (h : SReach code c0 c) (e : Ev) (c' : Sc L) (he : scStep code c e = some c') : SReach code c0 c'

/-- The address an instruction works on. -/
def touches {L : Type} : Ins L → Nat → Prop
  | .rd a _, x => x = a
  | .wr a _ _, x => x = a
  | .rmw a _ _, x => x = a
  | _, _ => False

/-- Nobody is about to work on what another thread has written since that one's last atomic operation. -/
def NoRace {L : Type} (code : Nat → L → Ins L) (c : Sc L) : Prop :=
  ∀ t, c.alive t = true → ∀ a, touches (code t (c.loc t)) a → ∀ u, u ≠ t → a ∉ c.dirty u

/-- The start, without buffers. -/
def scInit {L : Type} (s : St L) : Sc L := ⟨s.mem, s.loc, s.alive, fun _ => []⟩

/-- The same moment of both: the threads are at the same places; memory is the same where no write of another thread is under
way. -/
structure Same {L : Type} (s : St L) (c : Sc L) : Prop where
  loc : s.loc = c.loc
  alive : s.alive = c.alive
  mem : ∀ t a, (∀ u, u ≠ t → ∀ v, (a, v) ∉ s.buf u) → view s.mem (s.buf t) a = c.mem a

/-- Thread `t` is inside of the table lock. -/
def inside {B : Type} (s : St (Loc B)) (t : Nat) : Prop := s.alive t = true ∧ ∃ b, s.loc t = .inn b

/-- The event is one of thread `t` itself. -/
def own (t : Nat) : Ev → Prop
  | .run u _ => u = t
  | _ => False

/-- Sections leave the lock itself alone. -/
def Guarded {B : Type} (body : Nat → B → Body B) : Prop :=
  ∀ t b, match body t b with
    | .rd a _ => a ≠ lockA
    | .wr a _ _ => a ≠ lockA
    | .fin => True

/-- States of the machine where deaths can be seen early. -/
inductive LateReach {L : Type} (code : Nat → L → Ins L) (s0 : St L) : St L → Prop
  | init : LateReach code s0 s0
  | step {s} (h : LateReach code s0 s) (e : Ev) (s' : St L) (he : lateStep code s e = some s') : LateReach code s0 s'

end Fullock.Spec.Tso
