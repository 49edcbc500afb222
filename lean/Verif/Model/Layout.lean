import Verif.Model.ListMem
import Verif.Model.IO
import Verif.Model.Config
/-
Model of the creation of the segment.
Source: /repo/lib/flckshminit.cc 231-374 (`InitializeShmFile`, `MakeList*`),
/repo/lib/flckutil.h 45-48 (`ALIGNMENT`), /repo/lib/flckstructure.h 51-149 (records and header).
-/
namespace Fullock.Layout
open Fullock.ListMem

/-- Offsets of the members and size of a structure: every member (size, alignment) at the next
multiple of its alignment, the size a multiple of the largest alignment (System V ABI for x86-64).
For the structures of /repo/lib/flckstructure.h 51-149. -/
def place : Nat → List (Nat × Nat) → List Nat × Nat
  | o, [] => ([], o)
  | o, (s, a) :: fs =>
    let o' := (o + (a - 1)) / a * a
    let (os, e) := place (o' + s) fs
    (o' :: os, e)

/-- Size of a structure whose largest alignment is 8.  For the structures of
/repo/lib/flckstructure.h 51-149. -/
def structSize (fs : List (Nat × Nat)) : Nat := ((place 0 fs).2 + 7) / 8 * 8

/-- Members of the records, /repo/lib/flckstructure.h 51-117: pointers, identities, hashes, `off_t`,
`size_t`, `dev_t`, `ino_t` 8 bytes; `int` and enumerations 4; `bool` 1; names 64. -/
def recFields : Pool → List (Nat × Nat)
  | .file => [(8, 8), (8, 8), (8, 8), (8, 8), (1, 1)]
  | .off => [(8, 8), (4, 4), (8, 8), (8, 8), (8, 8), (8, 8), (1, 1)]
  | .locker => [(8, 8), (8, 8), (4, 4), (1, 1)]
  | .nmtx => [(8, 8), (8, 8), (4, 4), (8, 8), (64, 1)]
  | .ncond => [(8, 8), (8, 8), (8, 8), (64, 1)]
  | .waiter => [(8, 8), (8, 8), (4, 4), (8, 8)]

/-- `sizeof` of a record, /repo/lib/flckshminit.cc 246-251. -/
def recSize (p : Pool) : Nat := structSize (recFields p)

/-- Members of the header, /repo/lib/flckstructure.h 122-149: version, version string, length, three
pairs of lock identity and list, six free lists. -/
def headFields : List (Nat × Nat) := (8, 8) :: (24, 1) :: List.replicate 13 (8, 8)

/-- `sizeof(FLHEAD)`, /repo/lib/flckshminit.cc 245. -/
def headSize : Nat := structSize headFields

/-- Offset of the n-th member of the header. /repo/lib/flckstructure.h 122-149. -/
def headCell (n : Nat) : Nat := (place 0 headFields).1.getD n 0

/-- `version`, /repo/lib/flckstructure.h 123. -/
def versionCell : Nat := headCell 0
/-- `flength`, /repo/lib/flckstructure.h 126. -/
def lengthCell : Nat := headCell 2
/-- The table locks, /repo/lib/flckstructure.h 128, 133, 138. -/
def lockidCells : List Nat := [headCell 3, headCell 5, headCell 7]
/-- The lists, /repo/lib/flckstructure.h 130, 135, 140. -/
def listCells : List Nat := [headCell 4, headCell 6, headCell 8]

/-- Free list of a pool. /repo/lib/flckstructure.h 143-148. -/
def freeCell : Pool → Nat
  | .file => headCell 9
  | .off => headCell 10
  | .locker => headCell 11
  | .nmtx => headCell 12
  | .ncond => headCell 13
  | .waiter => headCell 14

/-- Arithmetic of `size_t` and `off_t` (64 bits). /repo/lib/flckshminit.cc 245-261. -/
def wrap (x : Nat) : Nat := x % 2 ^ 64

/-- `ALIGNMENT`, /repo/lib/flckutil.h 45-48. -/
def align (v s : Nat) : Nat := wrap ((v / s + if v % s = 0 then 0 else 1) * s)

/-- `sz_*`, /repo/lib/flckshminit.cc 246-251. -/
def areaSize (cnt : Pool → Nat) (p : Pool) : Nat := wrap (recSize p * cnt p)

/-- `off_filelock`, /repo/lib/flckshminit.cc 254. -/
def offFile : Nat := wrap (0 + align headSize 8)
/-- `off_offlock`, /repo/lib/flckshminit.cc 255. -/
def offOff (cnt : Pool → Nat) : Nat := wrap (offFile + align (areaSize cnt .file) 8)
/-- `off_locker`, /repo/lib/flckshminit.cc 256. -/
def offLocker (cnt : Pool → Nat) : Nat := wrap (offOff cnt + align (areaSize cnt .off) 8)
/-- `off_nmtxlock`, /repo/lib/flckshminit.cc 257. -/
def offNmtx (cnt : Pool → Nat) : Nat := wrap (offLocker cnt + align (areaSize cnt .locker) 8)
/-- `off_ncondlock`, /repo/lib/flckshminit.cc 258. -/
def offNcond (cnt : Pool → Nat) : Nat := wrap (offNmtx cnt + align (areaSize cnt .nmtx) 8)
/-- `off_waiter`, /repo/lib/flckshminit.cc 259. -/
def offWaiter (cnt : Pool → Nat) : Nat := wrap (offNcond cnt + align (areaSize cnt .ncond) 8)
/-- `off_end`, /repo/lib/flckshminit.cc 260. -/
def offEnd (cnt : Pool → Nat) : Nat := wrap (offWaiter cnt + align (areaSize cnt .waiter) 8)

/-- The offset that each pool is built at, /repo/lib/flckshminit.cc 286-291. -/
def areaOff (cnt : Pool → Nat) : Pool → Nat
  | .file => offFile
  | .off => offOff cnt
  | .locker => offLocker cnt
  | .nmtx => offNmtx cnt
  | .ncond => offNcond cnt
  | .waiter => offWaiter cnt

/-- `sz_total`, /repo/lib/flckshminit.cc 261. -/
def total (cnt : Pool → Nat) : Nat :=
  align (offEnd cnt) pageSize

/-- `MakeList*`, /repo/lib/flckshminit.cc 304-374: six times the same code.  New memory and the value
of `rel_get` (null when `initialize` did nothing). -/
def makeList (b : Nat) (cnt : Pool → Nat) (p : Pool) (m : Mem) : Mem × Nat :=
  match initW b (recSize p) (areaOff cnt p + b) (cnt p) with
  | none => (m, 0)
  | some ws => (applyWrites m ws, toRel b (areaOff cnt p + b))

/-- The statements of /repo/lib/flckshminit.cc 286-291. -/
def buildPools (b : Nat) (cnt : Pool → Nat) : List Pool → Mem → Mem
  | [], m => m
  | p :: ps, m =>
    let r := makeList b cnt p m
    buildPools b cnt ps (r.1.set (freeCell p) r.2)

/-- The six pools, /repo/lib/flckshminit.cc 286-291. -/
def allPools : List Pool := [.file, .off, .locker, .nmtx, .ncond, .waiter]

/-- The eight bytes of a file at an offset, as a number.  Memory mapped from the file,
/repo/lib/flckshminit.cc 270-276. -/
def word64 (f : File) (c : Nat) : Nat :=
  (List.range 8).foldr (fun i acc => (f.data (c + i)).toNat + 256 * acc) 0

/-- The statements of /repo/lib/flckshminit.cc 280-285; the version string is not represented. -/
def writeHead (tot : Nat) (m : Mem) : Mem :=
  ((((((m.set versionCell 1).set lengthCell tot).set (headCell 3) 0).set (headCell 4) 0).set
    (headCell 5) 0).set (headCell 6) 0)

/-- Result of `InitializeShmFile`: the file; on success the mapped memory.
/repo/lib/flckshminit.cc 231-302. -/
inductive InitRes where
  | fail (f : File)
  | ok (f : File) (m : Mem)

/-- `InitializeShmFile`, /repo/lib/flckshminit.cc 231-302: `trunc` success of `ftruncate`, `os` the
outcomes of the writes, `base` the address of the mapping (or failure). -/
def initializeShmFile (cnt : Pool → Nat) (f : File) (trunc : Bool) (os : List Sys) (base : Option Nat) :
    Option InitRes :=
  if trunc = false then some (.fail f)
  else
    match flckFillZero File.truncate0 (total cnt) 0 (total cnt) 0 os with
    | none => none
    | some (false, f', _) => some (.fail f')
    | some (true, f', _) =>
      match base with
      | none => some (.fail f')
      | some b =>
        let m := buildPools b cnt allPools (writeHead (total cnt) (word64 f'))
        if allPools.any (fun p => m (freeCell p) == 0) then some (.fail f') else some (.ok f' m)

end Fullock.Layout
