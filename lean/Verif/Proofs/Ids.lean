import Verif.Model.Ids
namespace Fullock

theorem decomposePid_compose (p t : BitVec 32) : decomposePid (composeFlckpid p t) = p := by
  apply BitVec.eq_of_getLsbD_eq
  intro i hi
  have h1 : i < 64 := by omega
  have h2 : 32 + i < 64 := by omega
  have h3 : ¬ (32 + i < 32) := by omega
  have hm : (0xFFFFFFFF#64).getLsbD i = true := by
    have : ∀ j : Fin 32, (0xFFFFFFFF#64).getLsbD j.1 = true := by decide
    exact this ⟨i, hi⟩
  have hm2 : (0xFFFFFFFF#64).getLsbD (32 + i) = false := by
    have : ∀ j : Fin 32, (0xFFFFFFFF#64).getLsbD (32 + j.1) = false := by decide
    exact this ⟨i, hi⟩
  simp only [decomposePid, composeFlckpid, BitVec.getLsbD_setWidth, BitVec.getLsbD_and,
    BitVec.getLsbD_ushiftRight, BitVec.getLsbD_or, BitVec.getLsbD_shiftLeft,
    BitVec.getLsbD_signExtend, hm, hm2, hi, h2, h3]
  simp [show 32 + i - 32 = i by omega, h1, hi]

theorem decomposeTid_compose (p t : BitVec 32) : decomposeTid (composeFlckpid p t) = t := by
  apply BitVec.eq_of_getLsbD_eq
  intro i hi
  have h1 : i < 64 := by omega
  have hm : (0xFFFFFFFF#64).getLsbD i = true := by
    have : ∀ j : Fin 32, (0xFFFFFFFF#64).getLsbD j.1 = true := by decide
    exact this ⟨i, hi⟩
  simp only [decomposeTid, composeFlckpid, BitVec.getLsbD_setWidth, BitVec.getLsbD_and,
    BitVec.getLsbD_or, BitVec.getLsbD_shiftLeft, BitVec.getLsbD_signExtend, hm, hi, h1]
  simp

theorem allOnes32 : ∀ j : Fin 32, (0xFFFFFFFF#32)[j.1]'j.2 = true := by decide

theorem compose_decompose (id : FlckPid) :
    composeFlckpid (decomposePid id) (decomposeTid id) = id := by
  apply BitVec.eq_of_getLsbD_eq
  intro i hi
  have hlo : ∀ j : Fin 32, (0xFFFFFFFF#64).getLsbD j.1 = true := by decide
  have hhi : ∀ j : Fin 32, (0xFFFFFFFF#64).getLsbD (32 + j.1) = false := by decide
  have hall : ∀ j : Fin 32, (0xFFFFFFFF#32)[j.1] = true := allOnes32
  simp only [decomposePid, decomposeTid, composeFlckpid, BitVec.getLsbD_or,
    BitVec.getLsbD_shiftLeft, BitVec.getLsbD_and, BitVec.getLsbD_signExtend, hi]
  by_cases h : i < 32
  · have := hlo ⟨i, h⟩
    simp only at this
    simp [h, this]
    exact fun _ => hall ⟨i, h⟩
  · obtain ⟨k, rfl⟩ : ∃ k, i = 32 + k := ⟨i - 32, by omega⟩
    have hk : k < 32 := by omega
    have a := hhi ⟨k, hk⟩
    have b := hlo ⟨k, hk⟩
    simp only at a b
    have c := hall ⟨k, hk⟩
    simp only at c
    simp [a, hk, c, h, show k < 64 by omega]

theorem isNoFd_iff (fd : BitVec 32) : isNoFd fd = true ↔ fd.toInt < 0 := by
  have : isNoFd fd = fd.msb := by
    rw [BitVec.msb_eq_getLsbD_last]
    simp only [isNoFd]
    rw [Bool.eq_iff_iff, beq_iff_eq]
    constructor
    · intro h
      have := congrArg (fun v => BitVec.getLsbD v 31) h
      simpa [BitVec.getLsbD_and] using this
    · intro h
      apply BitVec.eq_of_getLsbD_eq
      intro i hi
      have hz : ∀ j : Fin 32, (0x80000000#32).getLsbD j.1 = decide (j.1 = 31) := by decide
      have := hz ⟨i, hi⟩
      simp only at this
      rw [BitVec.getLsbD_and, this]
      by_cases h31 : i = 31
      · subst h31; simpa using h
      · simp [h31]
  rw [this, BitVec.msb_eq_toInt]; simp

theorem isNoFd_noFd (n : BitVec 32) : isNoFd (noFd n) = true := by
  have h : (n ||| 0x80000000#32) &&& 0x80000000#32 = 0x80000000#32 := by
    apply BitVec.eq_of_getLsbD_eq
    intro i hi
    simp only [BitVec.getLsbD_and, BitVec.getLsbD_or]
    cases n.getLsbD i <;> cases (0x80000000#32).getLsbD i <;> rfl
  simp [isNoFd, noFd, h]

end Fullock
