import Verif.Model.Str
/-
The text of the dump of the segment.
Source: /repo/lib/flckshmdump.cc 39-133; the `dump` functions of /repo/lib/flcklistfilelock.cc 33-59,
flcklistofflock.cc 31-65, flcklistlocker.cc 28-44, flcklistnmtx.cc 31-47, flcklistncond.cc 32-57,
flcklistwaiter.cc 29-50, flckbaselist.tcc 704-713; /repo/lib/flckutil.h 125-137.

Which records are printed, and in which order, is in `Model/Dump`; here are the characters.  Simplified:
the header is one item; a value is a natural number or an integer, whatever its width in the code; the
stream is taken to have its default format and not to fail.
-/
namespace Fullock.DumpText

/-! ### Numbers and spaces -/

/-- A digit as printed by the stream library.  No counterpart in the code. -/
def digit (d : Nat) : Char := if d < 10 then Char.ofNat (48 + d) else Char.ofNat (87 + d)

/-- The digits of `n` to the base `b`, at most `f` of them.  No counterpart in the code. -/
def digsF (b : Nat) : Nat → Nat → Str
  | 0, _ => []
  | f + 1, n => if n < b then [digit n] else digsF b f (n / b) ++ [digit (n % b)]

/-- The digits of `n`.  No counterpart in the code: the stream library. -/
def digs (b n : Nat) : Str := digsF b (n.log2 + 1) n

/-- `to_hexstring` of an unsigned number, /repo/lib/flckutil.h 125-130. -/
def toHex (n : Nat) : Str := digs 16 n

/-- `to_hexstring` of a pointer, /repo/lib/flckutil.h 125-130: the stream library prints `0x` except
for NULL. -/
def toHexPtr (n : Nat) : Str := if n = 0 then ['0'] else '0' :: 'x' :: digs 16 n

/-- `out << number`, e.g. /repo/lib/flcklistofflock.cc 43-45. -/
def dec (i : Int) : Str := if i < 0 then '-' :: digs 10 i.natAbs else digs 10 i.natAbs

/-- `spaces_string`, /repo/lib/flckutil.h 132-137; the levels of the dump are not negative. -/
def spaces (n : Nat) : Str := List.replicate n ' '

/-! ### The words -/

/-- `[SHM]============================================`, /repo/lib/flckshmdump.cc 41. -/
def lTop : Str :=
  ['[', 'S', 'H', 'M', ']', '=', '=', '=', '=', '=', '=', '=', '=', '=', '=', '=', '=', '=', '=', '=', '=', '=', '=', '=', '=', '=', '=', '=', '=', '=', '=', '=', '=', '=', '=', '=', '=', '=', '=', '=', '=', '=', '=', '=', '=', '=', '=', '=', '=']

/-- `[SHM] pFlHead                   = Not initialized`, /repo/lib/flckshmdump.cc 44. -/
def lNot : Str :=
  ['[', 'S', 'H', 'M', ']', ' ', 'p', 'F', 'l', 'H', 'e', 'a', 'd', ' ', ' ', ' ', ' ', ' ', ' ', ' ', ' ', ' ', ' ', ' ', ' ', ' ', ' ', ' ', ' ', ' ', ' ', ' ', '=', ' ', 'N', 'o', 't', ' ', 'i', 'n', 'i', 't', 'i', 'a', 'l', 'i', 'z', 'e', 'd']

/-- `[SHM] version                   =`, /repo/lib/flckshmdump.cc 49. -/
def lVer : Str :=
  ['[', 'S', 'H', 'M', ']', ' ', 'v', 'e', 'r', 's', 'i', 'o', 'n', ' ', ' ', ' ', ' ', ' ', ' ', ' ', ' ', ' ', ' ', ' ', ' ', ' ', ' ', ' ', ' ', ' ', ' ', ' ', '=', ' ']

/-- `[SHM] szver                     =`, /repo/lib/flckshmdump.cc 50. -/
def lSz : Str :=
  ['[', 'S', 'H', 'M', ']', ' ', 's', 'z', 'v', 'e', 'r', ' ', ' ', ' ', ' ', ' ', ' ', ' ', ' ', ' ', ' ', ' ', ' ', ' ', ' ', ' ', ' ', ' ', ' ', ' ', ' ', ' ', '=', ' ']

/-- `[SHM] flength                   =`, /repo/lib/flckshmdump.cc 51. -/
def lLen : Str :=
  ['[', 'S', 'H', 'M', ']', ' ', 'f', 'l', 'e', 'n', 'g', 't', 'h', ' ', ' ', ' ', ' ', ' ', ' ', ' ', ' ', ' ', ' ', ' ', ' ', ' ', ' ', ' ', ' ', ' ', ' ', ' ', '=', ' ']

/-- `[SHM] file_lock_list            =`, /repo/lib/flckshmdump.cc 52. -/
def lHFile : Str :=
  ['[', 'S', 'H', 'M', ']', ' ', 'f', 'i', 'l', 'e', '_', 'l', 'o', 'c', 'k', '_', 'l', 'i', 's', 't', ' ', ' ', ' ', ' ', ' ', ' ', ' ', ' ', ' ', ' ', ' ', ' ', '=', ' ']

/-- `[SHM] named_mutex_list          =`, /repo/lib/flckshmdump.cc 53. -/
def lHMtx : Str :=
  ['[', 'S', 'H', 'M', ']', ' ', 'n', 'a', 'm', 'e', 'd', '_', 'm', 'u', 't', 'e', 'x', '_', 'l', 'i', 's', 't', ' ', ' ', ' ', ' ', ' ', ' ', ' ', ' ', ' ', ' ', '=', ' ']

/-- `[SHM] file_lock_free            =`, /repo/lib/flckshmdump.cc 54. -/
def lHFfree : Str :=
  ['[', 'S', 'H', 'M', ']', ' ', 'f', 'i', 'l', 'e', '_', 'l', 'o', 'c', 'k', '_', 'f', 'r', 'e', 'e', ' ', ' ', ' ', ' ', ' ', ' ', ' ', ' ', ' ', ' ', ' ', ' ', '=', ' ']

/-- `[SHM] offset_lock_free          =`, /repo/lib/flckshmdump.cc 55. -/
def lHOfree : Str :=
  ['[', 'S', 'H', 'M', ']', ' ', 'o', 'f', 'f', 's', 'e', 't', '_', 'l', 'o', 'c', 'k', '_', 'f', 'r', 'e', 'e', ' ', ' ', ' ', ' ', ' ', ' ', ' ', ' ', ' ', ' ', '=', ' ']

/-- `[SHM] locker_free               =`, /repo/lib/flckshmdump.cc 56. -/
def lHLfree : Str :=
  ['[', 'S', 'H', 'M', ']', ' ', 'l', 'o', 'c', 'k', 'e', 'r', '_', 'f', 'r', 'e', 'e', ' ', ' ', ' ', ' ', ' ', ' ', ' ', ' ', ' ', ' ', ' ', ' ', ' ', ' ', ' ', '=', ' ']

/-- `[SHM] named_mutex_free          =`, /repo/lib/flckshmdump.cc 57. -/
def lHMfree : Str :=
  ['[', 'S', 'H', 'M', ']', ' ', 'n', 'a', 'm', 'e', 'd', '_', 'm', 'u', 't', 'e', 'x', '_', 'f', 'r', 'e', 'e', ' ', ' ', ' ', ' ', ' ', ' ', ' ', ' ', ' ', ' ', '=', ' ']

/-- `FLFILELOCK(`, /repo/lib/flcklistfilelock.cc 41. -/
def lFile : Str :=
  ['F', 'L', 'F', 'I', 'L', 'E', 'L', 'O', 'C', 'K', '(']

/-- `FLOFFLOCK(`, /repo/lib/flcklistofflock.cc 39. -/
def lOff : Str :=
  ['F', 'L', 'O', 'F', 'F', 'L', 'O', 'C', 'K', '(']

/-- `FLLOCKER(`, /repo/lib/flcklistlocker.cc 36. -/
def lLocker : Str :=
  ['F', 'L', 'L', 'O', 'C', 'K', 'E', 'R', '(']

/-- `FLNAMEDMUTEX(`, /repo/lib/flcklistnmtx.cc 39. -/
def lMtx : Str :=
  ['F', 'L', 'N', 'A', 'M', 'E', 'D', 'M', 'U', 'T', 'E', 'X', '(']

/-- `FLNAMEDCOND(`, /repo/lib/flcklistncond.cc 40. -/
def lCond : Str :=
  ['F', 'L', 'N', 'A', 'M', 'E', 'D', 'C', 'O', 'N', 'D', '(']

/-- `FLWAITER(`, /repo/lib/flcklistwaiter.cc 37. -/
def lWaiter : Str :=
  ['F', 'L', 'W', 'A', 'I', 'T', 'E', 'R', '(']

/-- `)={`, the end of the first line of a record, e.g. /repo/lib/flcklistnmtx.cc 39. -/
def lOpen : Str :=
  [')', '=', '{']

/-- `next              =`, /repo/lib/flckbaselist.tcc 711. -/
def lNext : Str :=
  ['n', 'e', 'x', 't', ' ', ' ', ' ', ' ', ' ', ' ', ' ', ' ', ' ', ' ', ' ', ' ', ' ', ' ', '=', ' ']

/-- `dev_id            =`, /repo/lib/flcklistfilelock.cc 45. -/
def lDev : Str :=
  ['d', 'e', 'v', '_', 'i', 'd', ' ', ' ', ' ', ' ', ' ', ' ', ' ', ' ', ' ', ' ', ' ', ' ', '=', ' ']

/-- `ino_id            =`, /repo/lib/flcklistfilelock.cc 46. -/
def lIno : Str :=
  ['i', 'n', 'o', '_', 'i', 'd', ' ', ' ', ' ', ' ', ' ', ' ', ' ', ' ', ' ', ' ', ' ', ' ', '=', ' ']

/-- `protect           =`, /repo/lib/flcklistfilelock.cc 47, /repo/lib/flcklistofflock.cc 46. -/
def lProt : Str :=
  ['p', 'r', 'o', 't', 'e', 'c', 't', ' ', ' ', ' ', ' ', ' ', ' ', ' ', ' ', ' ', ' ', ' ', '=', ' ']

/-- `offset            =`, /repo/lib/flcklistofflock.cc 43. -/
def lOffset : Str :=
  ['o', 'f', 'f', 's', 'e', 't', ' ', ' ', ' ', ' ', ' ', ' ', ' ', ' ', ' ', ' ', ' ', ' ', '=', ' ']

/-- `length            =`, /repo/lib/flcklistofflock.cc 44. -/
def lLength : Str :=
  ['l', 'e', 'n', 'g', 't', 'h', ' ', ' ', ' ', ' ', ' ', ' ', ' ', ' ', ' ', ' ', ' ', ' ', '=', ' ']

/-- `lockval           =`, /repo/lib/flcklistofflock.cc 45. -/
def lVal : Str :=
  ['l', 'o', 'c', 'k', 'v', 'a', 'l', ' ', ' ', ' ', ' ', ' ', ' ', ' ', ' ', ' ', ' ', ' ', '=', ' ']

/-- `flckpid           =`, /repo/lib/flcklistlocker.cc 40, /repo/lib/flcklistwaiter.cc 41. -/
def lPid : Str :=
  ['f', 'l', 'c', 'k', 'p', 'i', 'd', ' ', ' ', ' ', ' ', ' ', ' ', ' ', ' ', ' ', ' ', ' ', '=', ' ']

/-- `fd                =`, /repo/lib/flcklistlocker.cc 41. -/
def lFd : Str :=
  ['f', 'd', ' ', ' ', ' ', ' ', ' ', ' ', ' ', ' ', ' ', ' ', ' ', ' ', ' ', ' ', ' ', ' ', '=', ' ']

/-- `locked            =`, /repo/lib/flcklistlocker.cc 42. -/
def lLocked : Str :=
  ['l', 'o', 'c', 'k', 'e', 'd', ' ', ' ', ' ', ' ', ' ', ' ', ' ', ' ', ' ', ' ', ' ', ' ', '=', ' ']

/-- `hash              =`, /repo/lib/flcklistnmtx.cc 43, /repo/lib/flcklistncond.cc 44. -/
def lHash : Str :=
  ['h', 'a', 's', 'h', ' ', ' ', ' ', ' ', ' ', ' ', ' ', ' ', ' ', ' ', ' ', ' ', ' ', ' ', '=', ' ']

/-- `name              = "`, /repo/lib/flcklistnmtx.cc 44, /repo/lib/flcklistncond.cc 45. -/
def lName : Str :=
  ['n', 'a', 'm', 'e', ' ', ' ', ' ', ' ', ' ', ' ', ' ', ' ', ' ', ' ', ' ', ' ', ' ', ' ', '=', ' ', '"']

/-- `lockstatus        =`, /repo/lib/flcklistwaiter.cc 42. -/
def lStat : Str :=
  ['l', 'o', 'c', 'k', 's', 't', 'a', 't', 'u', 's', ' ', ' ', ' ', ' ', ' ', ' ', ' ', ' ', '=', ' ']

/-- The value of `protect`, /repo/lib/flcklistfilelock.cc 47. -/
def tf (b : Bool) : Str := if b then ['t', 'r', 'u', 'e'] else ['f', 'a', 'l', 's', 'e']

/-- The value of `locked`, /repo/lib/flcklistlocker.cc 42. -/
def lk (b : Bool) : Str :=
  if b then ['l', 'o', 'c', 'k', 'e', 'd'] else ['n', 'o', 't', ' ', 'l', 'o', 'c', 'k', 'e', 'd']

/-- What `STR_FLCKCONDTYPE` tells apart, /repo/lib/flcklocktype.h 45. -/
inductive Status where
  | waiting | signaled | unknown
deriving DecidableEq, Repr

/-- `STR_FLCKCONDTYPE`, /repo/lib/flcklocktype.h 45. -/
def Status.str : Status → Str
  | .waiting => ['w', 'a', 'i', 't', 'i', 'n', 'g', ' ', 'c', 'o', 'n', 'd']
  | .signaled => ['s', 'i', 'g', 'n', 'a', 'l', 'e', 'd', ' ', 'c', 'o', 'n', 'd']
  | .unknown => ['u', 'n', 'k', 'n', 'o', 'w', 'n', ' ', 't', 'y', 'p', 'e']

/-- The parts of the dump: /repo/lib/flckshmdump.cc 60, 68, 76, 85, 93, 101, 109, 117, 125. -/
inductive Sect where
  | files | mtxs | conds | ffree | ofree | lfree | mfree | cfree | wfree
deriving DecidableEq, Repr

/-- /repo/lib/flckshmdump.cc 60, 68, 76, 85, 93, 101, 109, 117, 125. -/
def Sect.str : Sect → Str
  | .files => ['[', 'f', 'i', 'l', 'e', '_', 'l', 'o', 'c', 'k', '_', 'l', 'i', 's', 't', ']', '=', '{']
  | .mtxs => ['[', 'n', 'a', 'm', 'e', 'd', '_', 'm', 'u', 't', 'e', 'x', '_', 'l', 'i', 's', 't', ']', '=', '{']
  | .conds => ['[', 'n', 'a', 'm', 'e', 'd', '_', 'c', 'o', 'n', 'd', '_', 'l', 'i', 's', 't', ']', '=', '{']
  | .ffree => ['[', 'f', 'i', 'l', 'e', '_', 'l', 'o', 'c', 'k', '_', 'f', 'r', 'e', 'e', ']', '=', '{']
  | .ofree => ['[', 'o', 'f', 'f', 's', 'e', 't', '_', 'l', 'o', 'c', 'k', '_', 'f', 'r', 'e', 'e', ']', '=', '{']
  | .lfree => ['[', 'l', 'o', 'c', 'k', 'e', 'r', '_', 'f', 'r', 'e', 'e', ']', '=', '{']
  | .mfree => ['[', 'n', 'a', 'm', 'e', 'd', '_', 'm', 'u', 't', 'e', 'x', '_', 'f', 'r', 'e', 'e', ']', '=', '{']
  | .cfree => ['[', 'n', 'a', 'm', 'e', 'd', '_', 'c', 'o', 'n', 'd', '_', 'f', 'r', 'e', 'e', ']', '=', '{']
  | .wfree => ['[', 'w', 'a', 'i', 't', 'e', 'r', '_', 'f', 'r', 'e', 'e', ']', '=', '{']

/-- The lists inside records: /repo/lib/flcklistfilelock.cc 51, /repo/lib/flcklistofflock.cc 50, 57,
/repo/lib/flcklistncond.cc 49, /repo/lib/flcklistwaiter.cc 44. -/
inductive Sub where
  | offs | readers | writers | waiters | mutex
deriving DecidableEq, Repr

/-- /repo/lib/flcklistfilelock.cc 51, /repo/lib/flcklistofflock.cc 50, 57,
/repo/lib/flcklistncond.cc 49, /repo/lib/flcklistwaiter.cc 44. -/
def Sub.str : Sub → Str
  | .offs => ['o', 'f', 'f', 's', 'e', 't', '_', 'l', 'o', 'c', 'k', '_', 'l', 'i', 's', 't', '=', '{']
  | .readers => ['r', 'e', 'a', 'd', 'e', 'r', '_', 'l', 'i', 's', 't', '=', '{']
  | .writers => ['w', 'r', 'i', 't', 'e', 'r', '_', 'l', 'i', 's', 't', '=', '{']
  | .waiters => ['w', 'a', 'i', 't', 'e', 'r', '_', 'l', 'i', 's', 't', '=', '{']
  | .mutex => ['n', 'a', 'm', 'e', 'd', '_', 'm', 'u', 't', 'e', 'x', '=', '{']

/-! ### What is printed -/

/-- What is printed; `lv` is the level, `p` the address of the record, `nx` its `next`.
/repo/lib/flckshmdump.cc 39-133 and the `dump` functions named at the kinds. -/
inductive Item where
  /-- /repo/lib/flckshmdump.cc 41 -/
  | top
  /-- /repo/lib/flckshmdump.cc 44 -/
  | notInit
  /-- the header, /repo/lib/flckshmdump.cc 49-57 -/
  | head (ver : Nat) (sz : Str) (len files mtxs ffree ofree lfree mfree : Nat)
  /-- the beginning of a part -/
  | sect (s : Sect)
  /-- the beginning of a list inside a record -/
  | sub (lv : Nat) (s : Sub)
  /-- a closing brace, e.g. /repo/lib/flcklistnmtx.cc 46; level 0: /repo/lib/flckshmdump.cc 65 -/
  | cls (lv : Nat)
  /-- /repo/lib/flcklistfilelock.cc 41-47 -/
  | file (lv p nx dev ino : Nat) (prot : Bool)
  /-- /repo/lib/flcklistofflock.cc 39-46 -/
  | off (lv p nx : Nat) (offset : Int) (length : Nat) (word : Int) (prot : Bool)
  /-- /repo/lib/flcklistlocker.cc 36-42 -/
  | locker (lv p nx pid : Nat) (fd : Int) (locked : Bool)
  /-- /repo/lib/flcklistnmtx.cc 39-44 -/
  | mtx (lv p nx hash : Nat) (name : Str)
  /-- /repo/lib/flcklistncond.cc 40-45 -/
  | cond (lv p nx hash : Nat) (name : Str)
  /-- /repo/lib/flcklistwaiter.cc 37-42 -/
  | waiter (lv p nx pid : Nat) (st : Status)
deriving DecidableEq, Repr

/-- The first two lines of a record and the name in the first.  E.g. /repo/lib/flcklistnmtx.cc 39-41,
/repo/lib/flckbaselist.tcc 704-712. -/
def opening (w : Str) (lv p nx : Nat) : List Str :=
  [spaces lv ++ (w ++ (toHexPtr p ++ lOpen)), spaces (lv + 1) ++ (lNext ++ toHexPtr nx)]

/-- The line of a member.  E.g. /repo/lib/flcklistofflock.cc 43. -/
def member (lv : Nat) (w v : Str) : Str := spaces (lv + 1) ++ (w ++ v)

/-- The lines printed, without the line ends.  /repo/lib/flckshmdump.cc 39-133 and the `dump` functions named at
the kinds. -/
def lines : Item → List Str
  | .top => [lTop]
  | .notInit => [lNot]
  | .head v sz n a b c d e f =>
    [lVer ++ toHex v, lSz ++ sz, lLen ++ dec n, lHFile ++ toHexPtr a, lHMtx ++ toHexPtr b, lHFfree ++ toHexPtr c,
     lHOfree ++ toHexPtr d, lHLfree ++ toHexPtr e, lHMfree ++ toHexPtr f]
  | .sect s => [s.str]
  | .sub lv s => [spaces lv ++ s.str]
  | .cls lv => [spaces lv ++ ['}']]
  | .file lv p nx dev ino pr =>
    opening lFile lv p nx ++ [member lv lDev (dec dev), member lv lIno (dec ino), member lv lProt (tf pr)]
  | .off lv p nx o n w pr =>
    opening lOff lv p nx ++ [member lv lOffset (dec o), member lv lLength (dec n), member lv lVal (dec w),
      member lv lProt (tf pr)]
  | .locker lv p nx pid fd l =>
    opening lLocker lv p nx ++ [member lv lPid (dec pid), member lv lFd (dec fd), member lv lLocked (lk l)]
  | .mtx lv p nx h name =>
    opening lMtx lv p nx ++ [member lv lHash (toHex h), member lv lName (name ++ ['"'])]
  | .cond lv p nx h name =>
    opening lCond lv p nx ++ [member lv lHash (toHex h), member lv lName (name ++ ['"'])]
  | .waiter lv p nx pid st =>
    opening lWaiter lv p nx ++ [member lv lPid (dec pid), member lv lStat st.str]

/-- The whole text: `std::endl` after every line, /repo/lib/flckshmdump.cc 39-133. -/
def text (is : List Item) : Str := (is.flatMap lines).flatMap (fun l => l ++ ['\n'])

end Fullock.DumpText
