import Verif.Proofs.Range
/-! Overlap test of the range look-up (used by C01, C04, C09, C10). -/
namespace Fullock.Props
open Spec

/-- C01 (ingredient): for all sane ranges the look-up treats two ranges as the same lock object
exactly when they share a byte; otherwise its sign tells which one lies in front. -/
theorem C01_lookup_is_overlap (a b : Rng) (ha : SaneRange a) (hb : SaneRange b) :
    (cmpRng a b = 0 ↔ Overlap a b) ∧
    (cmpRng a b = 1 ↔ ∀ x y, Covers a x → Covers b y → x < y) ∧
    (cmpRng a b = -1 ↔ ∀ x y, Covers a x → Covers b y → y < x) := by
  have ha' := ha; have hb' := hb
  rw [cmpRng_sane ha hb, overlap_iff a b ha.2.1 hb.2.1]
  obtain ⟨a1, a2, a3⟩ := ha
  obtain ⟨b1, b2, b3⟩ := hb
  refine ⟨?_, ?_, ?_⟩
  · split
    · simp; omega
    · split
      · simp; omega
      · simp; omega
  · constructor
    · intro h x y ⟨_, _⟩ ⟨_, _⟩
      split at h
      · omega
      · split at h <;> simp at h
    · intro h
      have := h (a.off.toNat + a.len.toNat - 1) b.off.toNat ⟨by omega, by omega⟩ ⟨by omega, by omega⟩
      rw [if_pos (by omega)]
  · constructor
    · intro h x y ⟨_, _⟩ ⟨_, _⟩
      split at h
      · simp at h
      · split at h
        · omega
        · simp at h
    · intro h
      have := h a.off.toNat (b.off.toNat + b.len.toNat - 1) ⟨by omega, by omega⟩ ⟨by omega, by omega⟩
      rw [if_neg (by omega), if_pos (by omega)]

example : SaneRange ⟨100#64, 50#64⟩ ∧ SaneRange ⟨149#64, 1#64⟩ ∧
    cmpRng ⟨100#64, 50#64⟩ ⟨149#64, 1#64⟩ = 0 ∧ cmpRng ⟨100#64, 50#64⟩ ⟨150#64, 1#64⟩ = 1 := by
  simp only [SaneRange]; decide

/-- The look-up is reflexive and symmetric for all ranges, sane or not. -/
theorem C01_lookup_symmetric (a b : Rng) :
    hits a a = true ∧ hits a b = hits b a := ⟨hits_refl a, hits_symm a b⟩

/-- Outside the sane ranges the overlap claim is false of the code: "from byte 10 to the end of
the address space" (length 2^64-1) does not hit the range [20, 25) although it contains it. -/
theorem C01_lookup_not_overlap_on_wrap :
    ∃ a b : Rng, Overlap a b ∧ cmpRng a b ≠ 0 := by
  refine ⟨⟨10#64, 0xFFFFFFFFFFFFFFFF#64⟩, ⟨20#64, 5#64⟩, ⟨20, ?_, ?_⟩, ?_⟩
  · simp only [Covers]; decide
  · simp only [Covers]; decide
  · decide

/-- Also a zero-length request hits the records touching it, which no byte set would. -/
theorem C01_lookup_zero_length :
    ∃ a b : Rng, ¬ Overlap a b ∧ cmpRng a b = 0 := by
  refine ⟨⟨10#64, 5#64⟩, ⟨15#64, 0#64⟩, ?_, by decide⟩
  rintro ⟨x, ⟨_, _⟩, ⟨h1, h2⟩⟩
  have e1 : (15#64).toNat = 15 := by decide
  have e2 : (0#64).toNat = 0 := by decide
  simp only [e1, e2] at h1 h2
  omega

end Fullock.Props
