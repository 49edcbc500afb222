/-
Specification of the recursive locks: what a user knows from the calls and their results alone.
-/
namespace Fullock.Spec.Rcsv

/-- What is known of an object: not locked, locked, locked for writing, unknown (a call failed on an
object that was locked). -/
inductive Know where
  | free | shared | excl | unk
  deriving DecidableEq, Repr

/-- A request as its user sees it. -/
inductive Req where
  | lockShared | lockExcl | unlock
  deriving DecidableEq, Repr

/-- Knowledge after a request that returned `ok`. -/
def Know.next (k : Know) : Req → Bool → Know
  | .lockShared, true => .shared
  | .lockExcl, true => .excl
  | .unlock, true => .free
  | _, false => if k = .free then .free else .unk

/-- The object is locked. -/
def Know.must : Know → Bool
  | .shared => true
  | .excl => true
  | _ => false

/-- The object may be locked. -/
def Know.may : Know → Bool
  | .free => false
  | _ => true

end Fullock.Spec.Rcsv
