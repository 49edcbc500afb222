/-
Model of the file input and output helpers and of the reading of file close events.
Source: /repo/lib/flckutil.cc 424-525 (`flck_read`, `flck_pread`, `flck_pwrite`, `flck_fill_zero`),
537-553 (`GetSystemPageSize`), /repo/lib/flckthread.cc 275-314 (`CheckEvent`).

The system calls are parameters: every function takes the list of outcomes of its system calls.
A result `none` means that the list was used up while the function was still looping.
Simplification: memory allocation succeeds.
-/
namespace Fullock

/-- A regular file; bytes from `size` on are never read.  No counterpart in the code: what the
descriptor of /repo/lib/flckutil.cc 476-525 stands for. -/
structure File where
  size : Nat
  data : Nat → UInt8

/-- Contents after `bs` has been written at `off`; a gap before `off` reads as zero.  `pwrite`,
called in /repo/lib/flckutil.cc 497. -/
def File.writeAt (f : File) (off : Nat) (bs : List UInt8) : File :=
  if bs = [] then f
  else
    { size := Nat.max f.size (off + bs.length)
      data := fun i =>
        if i < off then (if i < f.size then f.data i else 0)
        else if i < off + bs.length then bs.getD (i - off) 0
        else f.data i }

/-- `ftruncate(fd, 0)`. Called in /repo/lib/flckshminit.cc 239. -/
def File.truncate0 : File := { size := 0, data := fun _ => 0 }

/-- Outcome of one transfer: failure (any errno), or success with at most `k` bytes.
/repo/lib/flckutil.cc 481, 497. -/
inductive Sys where
  | err
  | ok (k : Nat)
deriving DecidableEq, Repr

/-- `flck_pwrite`, /repo/lib/flckutil.cc 492-503; `wc` is `write_cnt`.  Result: the value returned,
the file, and the outcomes left. -/
def flckPwrite (f : File) (buf : List UInt8) (off wc : Nat) (os : List Sys) :
    Option (Int × File × List Sys) :=
  if wc < buf.length then
    match os with
    | [] => none
    | .err :: os => some (-1, f, os)
    | .ok k :: os =>
      let n := min k (buf.length - wc)
      flckPwrite (f.writeAt (off + wc) ((buf.drop wc).take n)) buf off (wc + n) os
  else some (wc, f, os)
termination_by os.length

/-- `flck_fill_zero`, /repo/lib/flckutil.cc 505-525; `wc` is `write_cnt`.  `fuel` bounds the rounds; every successful round
writes at least one byte, so `count` rounds are enough. -/
def flckFillZero (f : File) (count off : Nat) : Nat → Nat → List Sys → Option (Bool × File × List Sys)
  | fuel, wc, os =>
    if wc < count then
      match fuel with
      | 0 => none
      | fuel + 1 =>
        match flckPwrite f (List.replicate (min (count - wc) 4096) 0) (off + wc) 0 os with
        | none => none
        | some (r, f', os') =>
          if r = -1 then some (false, f', os')
          else flckFillZero f' count off fuel (wc + r.toNat) os'
    else some (true, f, os)

/-- `flck_pread`, /repo/lib/flckutil.cc 476-490; `rc` is `read_cnt`, `acc` the buffer filled so far.  A read at or after
the end of the file returns 0, another one at least one byte. -/
def flckPread (f : File) (count off : Nat) (acc : List UInt8) (rc : Nat) (os : List Sys) :
    Option (Int × List UInt8) :=
  if rc < count then
    match os with
    | [] => none
    | .err :: _ => some (-1, acc)
    | .ok k :: os =>
      let n := min (k + 1) (min (count - rc) (f.size - (off + rc)))
      if n = 0 then some (rc, acc)
      else flckPread f count off (acc ++ (List.range n).map fun i => f.data (off + rc + i)) (rc + n) os
  else some (rc, acc)
termination_by os.length

/-- `GetSystemPageSize`, /repo/lib/flckutil.cc 537-553: `s_init` is never set before the test, so the constant is returned. -/
def pageSize : Nat := 4096

/-- Outcome of one `read` of at most `pageSize` bytes. /repo/lib/flckutil.cc 440-448. -/
inductive Rd where
  | data (bs : List UInt8)
  | eagain
  | eintr
  | err
deriving DecidableEq, Repr

/-- Result of `flck_read`: the buffer (`none` = indeterminate byte), failure, or a write outside of
the buffer.  /repo/lib/flckutil.cc 452, 473. -/
inductive RdRes where
  | ok (buf : List (Option UInt8))
  | fail
  | ub
deriving DecidableEq, Repr

/-- The loop of `flck_read`, /repo/lib/flckutil.cc 439-473; `buf` is the allocated buffer of `buffsize` bytes. -/
def flckReadLoop (pos : Nat) (buf : List (Option UInt8)) : List Rd → Option RdRes
  | [] => none
  | .eagain :: _ => some (.ok buf)
  | .eintr :: os => flckReadLoop pos buf os
  | .err :: _ => some .fail
  | .data bs :: os =>
    if buf.length < pos + bs.length then some .ub
    else
      let buf' := buf.take pos ++ bs.map some ++ buf.drop (pos + bs.length)
      if bs.length < pageSize then some (.ok (buf'.take (pos + bs.length)))
      else
        let buf'' :=
          if buf.length < pos + bs.length + pageSize then
            buf' ++ List.replicate (pos + bs.length + pageSize - buf.length) none
          else buf'
        flckReadLoop (pos + bs.length) buf'' os

/-- `flck_read`, /repo/lib/flckutil.cc 424-474. -/
def flckRead (os : List Rd) : Option RdRes := flckReadLoop 0 (List.replicate pageSize none) os

/-- A little-endian word of four bytes; `none` = a byte is indeterminate or outside.  Members of
`struct inotify_event`, read in /repo/lib/flckthread.cc 300-305. -/
def word32 (buf : List (Option UInt8)) (p : Nat) : Option Nat :=
  match buf[p]?, buf[p + 1]?, buf[p + 2]?, buf[p + 3]? with
  | some (some a), some (some b), some (some c), some (some d) =>
    some (a.toNat + 256 * b.toNat + 65536 * c.toNat + 16777216 * d.toNat)
  | _, _, _, _ => none

/-- `IN_CLOSE_WRITE` of inotify, /repo/lib/flckthread.cc 305. -/
def inCloseWrite : Nat := 8
/-- `IN_CLOSE_NOWRITE` of inotify, /repo/lib/flckthread.cc 305. -/
def inCloseNowrite : Nat := 16
/-- `IN_CLOSE` of inotify, /repo/lib/flckthread.cc 305. -/
def inClose : Nat := inCloseWrite ||| inCloseNowrite

/-- The loop of `CheckEvent`, /repo/lib/flckthread.cc 293-310, on a good buffer: watch descriptor,
mask, cookie and length of the name, four bytes each.  `none` = an indeterminate byte is used.
`fuel` bounds the rounds (each advances by at least 16). -/
def checkLoop (watch : Nat) (buf : List (Option UInt8)) : Nat → Nat → Bool → Option Bool
  | 0, _, ret => some ret
  | fuel + 1, p, ret =>
    if p + 16 ≤ buf.length then
      match word32 buf p, word32 buf (p + 4), word32 buf (p + 12) with
      | some wd, some mask, some len =>
        if watch ≠ wd then checkLoop watch buf fuel (p + 16 + len) ret
        else if mask &&& inClose ≠ 0 ∨ mask &&& inCloseNowrite ≠ 0 ∨ mask &&& inCloseWrite ≠ 0 then
          checkLoop watch buf fuel (p + 16 + len) true
        else checkLoop watch buf fuel (p + 16 + len) ret
      | _, _, _ => none
    else some ret

/-- Result of `CheckEvent`: an answer, or undefined behaviour.  /repo/lib/flckthread.cc 313. -/
inductive EvRes where
  | ans (b : Bool)
  | ub
deriving DecidableEq, Repr

/-- `CheckEvent`, /repo/lib/flckthread.cc 275-314. -/
def checkEvent (watch : Nat) (os : List Rd) : Option EvRes :=
  match flckRead os with
  | none => none
  | some .fail => some (.ans false)
  | some .ub => some .ub
  | some (.ok buf) =>
    match checkLoop watch buf (buf.length / 16 + 1) 0 false with
    | none => some .ub
    | some b => some (.ans b)

end Fullock
