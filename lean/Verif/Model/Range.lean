/-
Model of byte ranges and of the overlap test used to look up range records.
Source: /repo/lib/flcklistofflock.h 107-139.
-/
namespace Fullock

/-- A byte range as passed to the API: `off_t offset` (64-bit signed), `size_t length`
(64-bit unsigned); `FLOFFLOCK::offset/length`, /repo/lib/flckstructure.h 62-71. -/
structure Rng where
  off : BitVec 64
  len : BitVec 64
deriving DecidableEq, Repr

/-- `offset + length`: `off_t + size_t` is evaluated in unsigned 64-bit arithmetic and wraps.
/repo/lib/flcklistofflock.h 112, 115, 124, 127. -/
def Rng.stop (r : Rng) : BitVec 64 := r.off + r.len

/-- `fl_compare_list_base(PFLOFFLOCK, PFLOFFLOCK)`, /repo/lib/flcklistofflock.h 107-139.
`offset < offset` compares signed values, all others unsigned ones. -/
def cmpRng (a b : Rng) : Int :=
  if a.off.slt b.off then
    if b.stop.ule a.stop then 0
    else if b.off.ult a.stop then 0
    else 1
  else if b.off.slt a.off then
    if a.stop.ule b.stop then 0
    else if a.off.ult b.stop then 0
    else -1
  else 0

/-- The look-up test: "this record is for that range". /repo/lib/flckbaselist.tcc 673. -/
def hits (a b : Rng) : Bool := cmpRng a b == 0

end Fullock
