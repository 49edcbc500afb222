import Verif.Model.Time
/-! Specification vocabulary for time: nanoseconds as integers. -/
namespace Fullock.Spec

/-- A clock reading as the kernel delivers it. -/
def ValidClock (t : Timespec) : Prop := 0 ≤ t.sec ∧ 0 ≤ t.nsec ∧ t.nsec < 1000000000

/-- Nanoseconds since the epoch of the clock. -/
def nanos (t : Timespec) : Int := t.sec * 1000000000 + t.nsec

/-- Nanoseconds elapsed between two readings. -/
def elapsed (a b : Timespec) : Int := nanos b - nanos a

end Fullock.Spec
