/-
Model of mutex and condition names: the C string functions used, the stored record, the hash,
the comparison, and the registry of names.
Source: /repo/lib/flcklistnmtx.h 50-113, /repo/lib/flcklistncond.h 49-112 (same code),
        /repo/lib/flckutil.h 146-156, /repo/lib/flckshm.cc 661-729 (find / retrieve / insert).
-/
namespace Fullock

/-- `char` of the name buffers, /repo/lib/flckstructure.h 88-95, 111-117. -/
abbrev Byte := BitVec 8

/-- `FLCK_NAMED_MUTEX_MAXLENGTH` = `FLCK_NAMED_COND_MAXLENGTH` = 63, /repo/lib/fullock.h 32-33. -/
def nameMax : Nat := 63

/-- libc `strncpy(buf, src, n)`: `src` is the bytes before the terminating NUL.  Called in
/repo/lib/flcklistnmtx.h 58, 81 and /repo/lib/flcklistncond.h 57, 79. -/
def strncpy (buf src : List Byte) (n : Nat) : List Byte :=
  (src ++ List.replicate n 0#8).take n ++ buf.drop n

/-- libc `strlen`.  Called in /repo/lib/flcklistnmtx.h 59, 82 and /repo/lib/flcklistncond.h 58,
80. -/
def strlen (buf : List Byte) : Nat := (buf.takeWhile (· != 0#8)).length

/-- libc `strncmp`: difference of the first differing bytes as unsigned chars; stops after a NUL
or after `n` bytes.  Reading beyond the buffer (a shorter list) counts as reading NUL.  Called in
/repo/lib/flcklistnmtx.h 112 and /repo/lib/flcklistncond.h 111. -/
def strncmp : List Byte → List Byte → Nat → Int
  | _, _, 0 => 0
  | a, b, n + 1 =>
    let x := a.headD 0#8
    let y := b.headD 0#8
    if x ≠ y then (x.toNat : Int) - y.toNat
    else if x = 0#8 then 0
    else strncmp a.tail b.tail n

/-- `flck_fnv_hash`, /repo/lib/flckutil.h 146-156; `char` is signed, hence the sign extension. -/
def fnvHash (bs : List Byte) : BitVec 64 :=
  bs.foldl (fun h b => (h ^^^ b.signExtend 64) * 1099511628211#64) 14695981039346656037#64

/-- The name part of `FLNAMEDMUTEX`/`FLNAMEDCOND`: hash and 64-byte buffer.
/repo/lib/flckstructure.h 88-95, 111-117. -/
structure NameRec where
  hash : BitVec 64
  name : List Byte
deriving DecidableEq, Repr

/-- The name part of `FlListNMtx::initialize(pname)` and of the query record built by
`FlListNMtx::find(pname)`, /repo/lib/flcklistnmtx.h 56-63, 79-86; `old` is what the 64-byte buffer
contained before (for a query: uninitialised stack memory).  `FLCKEMPTYSTR`: NULL or "". -/
def storeName (old : NameRec) (pname : List Byte) : NameRec :=
  if pname = [] then ⟨0#64, old.name.set 0 0#8⟩
  else
    let buf := strncpy (old.name.set nameMax 0#8) pname nameMax
    ⟨fnvHash (buf.take (strlen buf)), buf⟩

/-- `fl_compare_list_base(PFLNAMEDMUTEX, PFLNAMEDMUTEX)`, /repo/lib/flcklistnmtx.h 105-113. -/
def cmpName (a b : NameRec) : Int :=
  if a.hash < b.hash then -1
  else if b.hash < a.hash then 1
  else strncmp a.name b.name nameMax

/-- The registry of one kind of name: records in use (newest first) and free records, each with
its position in the segment.  `named_mutex_list` and `named_mutex_free` (`named_cond_*`),
/repo/lib/flckstructure.h 122-149. -/
structure Registry where
  used : List (Nat × NameRec)
  free : List (Nat × NameRec)
deriving DecidableEq, Repr

/-- `tglistobj.find(pname, named_mutex_list)`: first record equal to the query.
`junk` is the content of the query's stack buffer before it is filled.  /repo/lib/flcklistnmtx.h
76-88, /repo/lib/flckbaselist.tcc 664-680. -/
def Registry.find (r : Registry) (junk : NameRec) (pname : List Byte) : Option Nat :=
  (r.used.find? (fun e => cmpName (storeName junk pname) e.2 == 0)).map (·.1)

/-- The look-up of a lock call, /repo/lib/flckshm.cc 698-718: find, else retrieve a free record,
fill it in and insert it; `none` = ENOLCK. -/
def Registry.lookup (r : Registry) (junk : NameRec) (pname : List Byte) : Registry × Option Nat :=
  match r.find junk pname with
  | some i => (r, some i)
  | none => match r.free with
    | [] => (r, none)
    | (i, old) :: rest => (⟨(i, storeName old pname) :: r.used, rest⟩, some i)

/-- A history of lock calls on names.  No counterpart in the code: the look-ups of
/repo/lib/flckshm.cc 698-718 one after the other. -/
def Registry.run (r : Registry) : List (NameRec × List Byte) → Registry
  | [] => r
  | (junk, n) :: h => ((r.lookup junk n).1).run h

/-- A new segment with `k` records of arbitrary content.  /repo/lib/flckshminit.cc 231-302; the
contents left free are a generalisation, the code writes zeros. -/
def Registry.new (content : Nat → NameRec) (k : Nat) : Registry :=
  ⟨[], (List.range k).map fun i => (i, content i)⟩

end Fullock
