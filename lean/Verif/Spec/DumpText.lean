import Verif.Model.DumpText
/-
What a reader of the dump does: cut the text at the line ends, read numbers.
No helper of the model is used but the kinds of items.
-/
namespace Fullock.Spec.DumpText
open Fullock.DumpText

/-- The value of a digit. -/
def val (c : Char) : Nat := if c.toNat < 58 then c.toNat - 48 else c.toNat - 87

/-- The number written to the base `b`. -/
def number (b : Nat) (s : Str) : Nat := s.foldl (fun a c => b * a + val c) 0

/-- The lines of a text; `acc` is what has been read of the line. -/
def cut : Str → Str → List Str
  | _, [] => []
  | acc, c :: r => if c = '\n' then acc :: cut [] r else cut (acc ++ [c]) r

/-- The names an item shows. -/
def names : Item → List Str
  | .mtx _ _ _ _ s => [s]
  | .cond _ _ _ _ s => [s]
  | .head _ s _ _ _ _ _ _ _ => [s]
  | _ => []

/-- A name the library may hold: at most 63 characters, no NUL. -/
def Held (i : Item) : Prop := ∀ s ∈ names i, s.length ≤ 63 ∧ Char.ofNat 0 ∉ s

/-- No line end in the names. -/
def OneLine (i : Item) : Prop := ∀ s ∈ names i, '\n' ∉ s

/-- The address a line gives as that of a named mutex: what stands between `FLNAMEDMUTEX(0x` and `)={`. -/
def mutexAt (l : Str) : Option Nat :=
  let l := l.dropWhile (· == ' ')
  if l.take 15 = "FLNAMEDMUTEX(0x".toList ∧ l.drop (l.length - 3) = ")={".toList then
    some (number 16 ((l.drop 15).take (l.length - 18)))
  else none

/-- The number of spaces a line begins with. -/
def indent (l : Str) : Nat := (l.takeWhile (· == ' ')).length

/-- The indentation of the lines of an item: the first line of a record at its level, its members one deeper. -/
def levels : Item → List Nat
  | .top => [0]
  | .notInit => [0]
  | .head .. => [0, 0, 0, 0, 0, 0, 0, 0, 0]
  | .sect _ => [0]
  | .sub lv _ => [lv]
  | .cls lv => [lv]
  | .file lv .. => [lv, lv + 1, lv + 1, lv + 1, lv + 1]
  | .off lv .. => [lv, lv + 1, lv + 1, lv + 1, lv + 1, lv + 1]
  | .locker lv .. => [lv, lv + 1, lv + 1, lv + 1, lv + 1]
  | .mtx lv .. => [lv, lv + 1, lv + 1, lv + 1]
  | .cond lv .. => [lv, lv + 1, lv + 1, lv + 1]
  | .waiter lv .. => [lv, lv + 1, lv + 1, lv + 1]

end Fullock.Spec.DumpText
