/-
Model of the string helpers and of the libc string functions they use: trimming, case blind
comparison, number conversion, path normalisation, creation of the work directory.
Source: /repo/lib/flckutil.h 81-103, /repo/lib/flckutil.cc 92-237.
A C string is a list of characters without the terminating NUL; all strings of the code that
matter here are 7-bit, `Char` stands for `char`.
-/
namespace Fullock

/-- `const char*` and `std::string` arguments, e.g. /repo/lib/flckutil.cc 92, 120, 183. -/
abbrev Str := List Char

/-! ### Trimming -/

/-- `SPACECHARS`, /repo/lib/flckutil.h 81. -/
def spaceChars : Str := [' ', '\t', '\r', '\n']

/-- `std::string::find_first_not_of`; `none` is `npos`. Used in /repo/lib/flckutil.h 87. -/
def findFirstNotOf (s trims : Str) : Option Nat := s.findIdx? (fun c => !trims.contains c)

/-- `std::string::find_last_not_of`; `none` is `npos`. Used in /repo/lib/flckutil.h 92. -/
def findLastNotOf (s trims : Str) : Option Nat :=
  (s.reverse.findIdx? (fun c => !trims.contains c)).map (fun i => s.length - 1 - i)

/-- `std::string::erase(0, n)`; `n = none` is `npos`, i.e. up to the end.  Used in
/repo/lib/flckutil.h 87. -/
def eraseHead (s : Str) (n : Option Nat) : Str :=
  match n with
  | none => []
  | some k => s.drop k

/-- `std::string::erase(pos)`: from `pos` up to the end.  Used in /repo/lib/flckutil.h 97. -/
def eraseFrom (s : Str) (pos : Nat) : Str := s.take pos

/-- `ltrim`, /repo/lib/flckutil.h 84-88. -/
def ltrim (base trims : Str) : Str := eraseHead base (findFirstNotOf base trims)

/-- `rtrim`, /repo/lib/flckutil.h 90-98. -/
def rtrim (base trims : Str) : Str :=
  match findLastNotOf base trims with
  | none => []
  | some pos => eraseFrom base (pos + 1)

/-- `trim`, /repo/lib/flckutil.h 100-103. -/
def trim (base : Str) (trims : Str := spaceChars) : Str := ltrim (rtrim base trims) trims

/-! ### Comparison and numbers -/

/-- `0 == strcasecmp(a, b)` in the "C" locale: equal after lowering `A`-`Z`.  Used in
/repo/lib/flckshm.cc 1060-1110 and 1291-1300. -/
def strcaseEq : Str → Str → Bool
  | [], [] => true
  | a :: as, b :: bs => a.toLower == b.toLower && strcaseEq as bs
  | _, _ => false

/-- `isspace` in the "C" locale. Part of `strtol`, called in /repo/lib/flckutil.cc 105. -/
def isSpaceC (c : Char) : Bool :=
  c == ' ' || c == '\t' || c == '\n' || c == '\x0b' || c == '\x0c' || c == '\r'

/-- Value of a digit character in a base up to 36.  Part of `strtol`, called in
/repo/lib/flckutil.cc 105. -/
def digitVal (c : Char) : Nat :=
  if '0' ≤ c ∧ c ≤ '9' then c.toNat - '0'.toNat
  else if 'a' ≤ c ∧ c ≤ 'z' then c.toNat - 'a'.toNat + 10
  else if 'A' ≤ c ∧ c ≤ 'Z' then c.toNat - 'A'.toNat + 10
  else 36

/-- `LONG_MAX` (64 bit), /repo/lib/flckutil.cc 107. -/
def longMax : Int := 2 ^ 63 - 1
/-- `LONG_MIN` (64 bit), /repo/lib/flckutil.cc 107. -/
def longMin : Int := -2 ^ 63

/-- Value of the longest prefix of digits of the base.  Part of `strtol`, called in
/repo/lib/flckutil.cc 105. -/
def digitsVal (base : Nat) (s : Str) : Nat :=
  (s.takeWhile (fun c => digitVal c < base)).foldl (fun a c => a * base + digitVal c) 0

/-- The optional sign of a number: whether it is `-`, and the rest.  Part of `strtol`, called in
/repo/lib/flckutil.cc 105. -/
def signPart : Str → Bool × Str
  | '-' :: r => (true, r)
  | '+' :: r => (false, r)
  | r => (false, r)

/-- The base prefix of `strtol`: base 0 looks at `0x`, `0`; base 10 takes the text as it is.
The binary prefix of the newest C standard is not recognised.  Part of `strtol`, called in
/repo/lib/flckutil.cc 105. -/
def basePart (base : Nat) (s : Str) : Nat × Str :=
  if base = 0 then
    match s with
    | '0' :: 'x' :: r => (16, r)
    | '0' :: 'X' :: r => (16, r)
    | '0' :: _ => (8, s)
    | _ => (10, s)
  else (base, s)

/-- libc `strtol(s, &end, base)` for base 0 and 10: the value, and whether `errno` is `ERANGE`.
(The end pointer is never null, which is all the code asks about it.).  Called in
/repo/lib/flckutil.cc 105. -/
def strtol (s : Str) (base : Nat) : Int × Bool :=
  let (neg, r) := signPart (s.dropWhile isSpaceC)
  let (b, ds) := basePart base r
  let v : Int := digitsVal b ds
  let w := if neg then -v else v
  if longMax < w then (longMax, true)
  else if w < longMin then (longMin, true)
  else (w, false)

/-- Conversion of a `long` to `int`: the low 32 bits as a signed number.  The conversion inside
`atoi`, called in /repo/lib/flckshm.cc 1120. -/
def toInt32 (v : Int) : Int := (v + 2 ^ 31) % 2 ^ 32 - 2 ^ 31

/-- libc `atoi`: glibc computes `(int)strtol(s, NULL, 10)`.  The C standard leaves overflow
undefined; the model takes glibc's answer.  Called in /repo/lib/flckshm.cc 1120 and 1213-1278. -/
def atoi (s : Str) : Int := toInt32 (strtol s 10).1

/-- `static_cast<size_t>` of an `int`. /repo/lib/flckshm.cc 1213-1278. -/
def toSizeT (v : Int) : Nat := (v % 2 ^ 64).toNat

/-- `CvtNumberStringToLong`, /repo/lib/flckutil.cc 92-115; `none` is a null pointer argument. The
test of the end pointer (line 110) never holds. -/
def cvtNumberStringToLong (s : Option Str) : Option Int :=
  match s with
  | none => none
  | some [] => none
  | some s =>
    let (v, erange) := strtol s 0
    if erange && (v == longMax || v == longMin) then none
    else some v

/-! ### Paths -/

/-- Result of a routine that may run into undefined behaviour.  The result of `GetRealPath`,
/repo/lib/flckutil.cc 120-181. -/
inductive PathRes where
  | ok (path : Str)
  /-- returns `false` -/
  | fail
  /-- undefined behaviour -/
  | ub
deriving DecidableEq, Repr

/-- The loop over `find('/')`, /repo/lib/flckutil.cc 142-148 and 197-203: the non-empty parts
before each slash, and what is left after the last slash.  `cur` is the part read so far, in
reverse; the code cuts the string at each slash, the model reads it character by character. -/
def cutSlash (cur : Str) : Str → List Str × Str
  | [] => ([], cur.reverse)
  | c :: s =>
    if c = '/' then
      let (ls, r) := cutSlash [] s
      (if cur = [] then ls else cur.reverse :: ls, r)
    else cutSlash (c :: cur) s

/-- The raw leaves of a path and whether it ends with a slash, /repo/lib/flckutil.cc 139-153. -/
def pathLeaves (p : Str) : List Str × Bool :=
  let (ls, r) := cutSlash [] p
  if r = [] then (ls, true) else (ls ++ [r], false)

/-- The normalisation loop, /repo/lib/flckutil.cc 156-169.  The guard of line 161 asks whether the
list being iterated is empty, which it is not; `pop_back` on an empty vector is undefined.  `acc`
is `pathleaf`, last element first. -/
def normLeaves (acc : List Str) : List Str → Option (List Str)
  | [] => some acc.reverse
  | l :: ls =>
    if l = ['.'] then normLeaves acc ls
    else if l = ['.', '.'] then
      match acc with
      | [] => none
      | _ :: acc' => normLeaves acc' ls
    else normLeaves (l :: acc) ls

/-- The construction loop, /repo/lib/flckutil.cc 172-179. -/
def joinLeaves (ls : List Str) (lastSlash : Bool) : Str :=
  ls.foldr (fun l r => '/' :: l ++ r) (if lastSlash then ['/'] else [])

/-- `GetRealPath`, /repo/lib/flckutil.cc 120-181.  `cwd` is what `get_current_dir_name` returns
(`none`: null pointer, from which a `std::string` must not be built). -/
def getRealPath (cwd : Option Str) (p : Str) : PathRes :=
  match p with
  | [] => .fail
  | c :: _ =>
    let full := if c = '/' then some p else cwd.map (fun d => d ++ ['/'] ++ p)
    match full with
    | none => .ub
    | some t =>
      let (ls, slash) := pathLeaves t
      match normLeaves [] ls with
      | none => .ub
      | some ls' => .ok (joinLeaves ls' slash)

/-- What `stat` says about a path. /repo/lib/flckutil.cc 214-216, 230. -/
inductive FStat where
  /-- it exists; `fmt` is `st_mode & S_IFMT` -/
  | node (fmt : Nat)
  /-- `ENOENT` -/
  | enoent
  /-- any other error -/
  | err
deriving DecidableEq, Repr

/-- `S_IFDIR` of Linux. /repo/lib/flckutil.cc 230. -/
def sIfDir : Nat := 0x4000

/-- The loop of `MakeWorkDirectory`, /repo/lib/flckutil.cc 209-235.  `fs` is the file system as
seen by `stat`, `mk` tells whether `mkdir` of a missing path succeeds.  Line 230 tests the single
bit `S_IFDIR` of the type, not the type. -/
def makeDirs (mk : Str → Bool) (pre : Str) : List Str → (Str → FStat) → Bool × (Str → FStat)
  | [], fs => (true, fs)
  | l :: ls, fs =>
    let path := pre ++ ['/'] ++ l
    match fs path with
    | .err => (false, fs)
    | .node fmt => if fmt &&& sIfDir = 0 then (false, fs) else makeDirs mk path ls fs
    | .enoent =>
      if mk path then makeDirs mk path ls (fun q => if q = path then .node sIfDir else fs q)
      else (false, fs)

/-- `MakeWorkDirectory`, /repo/lib/flckutil.cc 183-237; `none` is undefined behaviour. -/
def makeWorkDirectory (cwd : Option Str) (mk : Str → Bool) (p : Str) (fs : Str → FStat) :
    Option (Bool × (Str → FStat)) :=
  match p with
  | [] => some (false, fs)
  | _ =>
    match getRealPath cwd p with
    | .fail => some (false, fs)
    | .ub => none
    | .ok full => some (makeDirs mk [] (pathLeaves full).1 fs)

end Fullock
