import Verif.Spec.Range
namespace Fullock
open Spec

theorem hits_refl (a : Rng) : hits a a = true := by
  simp [hits, cmpRng, BitVec.slt]

theorem hits_symm (a b : Rng) : hits a b = hits b a := by
  unfold hits cmpRng
  by_cases h1 : a.off.slt b.off = true
  · have h2 : ¬ (b.off.slt a.off = true) := by
      simp only [BitVec.slt, decide_eq_true_eq] at *; omega
    rw [if_pos h1, if_neg h2, if_pos h1]
    by_cases h3 : b.stop.ule a.stop = true <;> by_cases h4 : b.off.ult a.stop = true <;>
      simp [h3, h4]
  · by_cases h2 : b.off.slt a.off = true
    · rw [if_neg h1, if_pos h2, if_pos h2]
      by_cases h3 : a.stop.ule b.stop = true <;> by_cases h4 : a.off.ult b.stop = true <;>
        simp [h3, h4]
    · rw [if_neg h1, if_neg h2, if_neg h2, if_neg h1]

theorem toInt_of_nonneg (x : BitVec 64) (h : 0 ≤ x.toInt) : x.toInt = (x.toNat : Int) := by
  rw [BitVec.toInt_eq_toNat_cond] at *
  split
  · rfl
  · rename_i hh
    rw [if_neg hh] at h
    have := x.isLt
    omega

theorem stop_toNat {r : Rng} (h : SaneRange r) : r.stop.toNat = r.off.toNat + r.len.toNat := by
  obtain ⟨_, _, h3⟩ := h
  simp only [Rng.stop, BitVec.toNat_add]
  exact Nat.mod_eq_of_lt h3

theorem overlap_iff (a b : Rng) (ha : 0 < a.len.toNat) (hb : 0 < b.len.toNat) :
    Overlap a b ↔ a.off.toNat < b.off.toNat + b.len.toNat ∧
      b.off.toNat < a.off.toNat + a.len.toNat := by
  constructor
  · rintro ⟨x, ⟨_, _⟩, ⟨_, _⟩⟩; omega
  · intro ⟨h1, h2⟩
    by_cases h : a.off.toNat ≤ b.off.toNat
    · exact ⟨b.off.toNat, ⟨h, h2⟩, ⟨Nat.le_refl _, by omega⟩⟩
    · exact ⟨a.off.toNat, ⟨Nat.le_refl _, by omega⟩, ⟨by omega, h1⟩⟩

theorem cmpRng_sane {a b : Rng} (ha : SaneRange a) (hb : SaneRange b) :
    cmpRng a b =
      if a.off.toNat + a.len.toNat ≤ b.off.toNat then 1
      else if b.off.toNat + b.len.toNat ≤ a.off.toNat then -1
      else 0 := by
  have sa := stop_toNat ha
  have sb := stop_toNat hb
  obtain ⟨a1, a2, a3⟩ := ha
  obtain ⟨b1, b2, b3⟩ := hb
  have ea := toInt_of_nonneg _ a1
  have eb := toInt_of_nonneg _ b1
  simp only [cmpRng, BitVec.slt, BitVec.ule, BitVec.ult, sa, sb, ea, eb, decide_eq_true_eq]
  repeat' split
  all_goals omega

end Fullock
