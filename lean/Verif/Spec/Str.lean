import Verif.Model.Str
/-
Specification of the string helpers, without reference to how the code computes them.
-/
namespace Fullock.Spec
open _root_.Fullock (Str)

/-- `t` is `base` without its leading and trailing blanks. -/
def Trimmed (blank : Char → Prop) (base t : Str) : Prop :=
  (∃ l r, base = l ++ t ++ r ∧ (∀ c ∈ l, blank c) ∧ (∀ c ∈ r, blank c)) ∧
  (∀ c ∈ t.head?, ¬ blank c) ∧ (∀ c ∈ t.getLast?, ¬ blank c)

/-- The components of a path: the slash free pieces between its slashes. -/
def Components (t : Str) (cs : List Str) : Prop :=
  cs ≠ [] ∧ (∀ c ∈ cs, '/' ∉ c) ∧ List.intercalate ['/'] cs = t

/-- Following components from a directory given by its chain of names below the root. `none`: a
`..` at the root. -/
def walk : List Str → List Str → Option (List Str)
  | pos, [] => some pos
  | pos, c :: cs =>
    if c = [] ∨ c = ['.'] then walk pos cs
    else if c = ['.', '.'] then (if pos = [] then none else walk pos.dropLast cs)
    else walk (pos ++ [c]) cs

/-- A chain of names is in normal form. -/
def NormalChain (pos : List Str) : Prop :=
  ∀ c ∈ pos, c ≠ [] ∧ c ≠ ['.'] ∧ c ≠ ['.', '.'] ∧ '/' ∉ c

/-- The absolute path of a chain of names. -/
def absPath (pos : List Str) : Str := ['/'] ++ List.intercalate ['/'] pos

/-- The path a relative or absolute name stands for in a working directory. -/
def fullPath (cwd p : Str) : Str := if p.head? = some '/' then p else cwd ++ ['/'] ++ p

/-- The number written by the digits `ds` in a base, most significant first. -/
def numeral (base : Nat) (ds : List Nat) : Nat := ds.foldl (fun a d => a * base + d) 0

/-- The character of a digit: `0`-`9`, then `a`-`z`. -/
def digChar (d : Nat) : Char := if d < 10 then Char.ofNat (48 + d) else Char.ofNat (87 + d)

/-- How a number of a base is written for `strtol` with base 0: `0x` before a hexadecimal one, `0`
before an octal one; a decimal one has no leading zero. -/
def basePrefix : Nat → Str
  | 16 => ['0', 'x']
  | 8 => ['0']
  | _ => []

/-- `q` is the path of a chain or of one of the directories above it. -/
def DirPrefix (pos : List Str) (q : Str) : Prop := ∃ i < pos.length, q = absPath (pos.take (i + 1))

end Fullock.Spec
