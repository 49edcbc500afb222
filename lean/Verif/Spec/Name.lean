import Verif.Model.Name
/-! Specification vocabulary for names. -/
namespace Fullock.Spec

/-- A C string: bytes without NUL. -/
def CString (n : List Byte) : Prop := ∀ b ∈ n, b ≠ 0#8

/-- Two names mean the same object: their first 63 bytes agree. -/
def SameName (a b : List Byte) : Prop := a.take 63 = b.take 63

/-- A record with a 64-byte name buffer. -/
def Buf64 (r : NameRec) : Prop := r.name.length = 64

/-- The different names of a history, in order of first use. -/
def firstUses : List (List Byte) → List (List Byte)
  | [] => []
  | n :: h => n.take 63 :: (firstUses h).filter (· ≠ n.take 63)

end Fullock.Spec
