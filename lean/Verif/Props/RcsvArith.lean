import Verif.Proofs.Range
import Verif.Props.Range
import Verif.Model.RcsvConc
import Verif.Spec.RcsvArith
/-
C88: the class and the segment agree on which ranges meet.
-/
namespace Fullock.Props
open Fullock.Rcsv Fullock.Spec Fullock.Spec.RcsvArith

theorem fileRange_sane {r : Fullock.Rng} (h : FileRange r) : SaneRange r := ⟨h.1, h.2.1, by have := h.2.2; omega⟩

theorem fileRange_end {r : Fullock.Rng} (h : FileRange r) : endM r = some ((r.off.toNat : Int) + (r.len.toNat : Int)) ∧ r.off.toInt = r.off.toNat := by
  obtain ⟨h1, h2, h3⟩ := h
  have e1 := toInt_of_nonneg r.off h1
  have e2 : r.len.toInt = r.len.toNat := by
    rw [BitVec.toInt_eq_toNat_cond]; split <;> omega
  refine ⟨?_, e1⟩
  simp only [endM, e1, e2]
  rw [if_pos (by omega)]

/-! ### C88 -/

/-- The class takes two objects of a thread on one file for nested exactly if the segment takes their ranges for the same, and
finds out without undefined behaviour. -/
def C88_full : Prop := ∀ a b : Key, Same a b → compareM a b = some (hits a.rng b.rng)

/-- Ranges with at least one byte whose ends are offsets: class and segment agree, and both tell whether the ranges have a byte
in common. -/
theorem C88_partial {a b : Key} (h : Same a b) (ha : FileRange a.rng) (hb : FileRange b.rng) :
    compareM a b = some (hits a.rng b.rng) ∧ (compareM a b = some true ↔ Overlap a.rng b.rng) := by
  have key : compareM a b = some (hits a.rng b.rng) := by
    obtain ⟨a1, a2⟩ := fileRange_end ha
    obtain ⟨b1, b2⟩ := fileRange_end hb
    have hc := cmpRng_sane (fileRange_sane ha) (fileRange_sane hb)
    simp only [compareM, if_pos (show a.tid = b.tid ∧ a.fd = b.fd from h), a1, b1, Option.map_some, BitVec.sle, a2, b2,
      decide_eq_true_eq, hits, hc]
    obtain ⟨_, a4, _⟩ := ha
    obtain ⟨_, b4, _⟩ := hb
    by_cases hle : (a.rng.off.toNat : Int) ≤ b.rng.off.toNat
    · rw [if_pos hle]
      congr 1
      rw [Bool.eq_iff_iff]
      simp only [decide_eq_true_eq, beq_iff_eq]
      split <;> try split
      all_goals simp <;> omega
    · rw [if_neg hle]
      congr 1
      rw [Bool.eq_iff_iff]
      simp only [decide_eq_true_eq, beq_iff_eq]
      split <;> try split
      all_goals simp <;> omega
  refine ⟨key, ?_⟩
  rw [key]
  simp only [Option.some.injEq, hits, beq_iff_eq]
  exact (C01_lookup_is_overlap a.rng b.rng (fileRange_sane ha) (fileRange_sane hb)).1

/-- For such ranges the natural numbers of the other models are the machine's. -/
theorem C88_model {a b : Key} (ha : FileRange a.rng) (hb : FileRange b.rng) :
    compareM a b = some (Rcsv.compare a.toRng b.toRng) ∧
    (a.fd = b.fd → hits a.rng b.rng = Conc.clash a.toRng b.toRng) := by
  obtain ⟨a1, a2⟩ := fileRange_end ha
  obtain ⟨b1, b2⟩ := fileRange_end hb
  refine ⟨?_, fun hfd => ?_⟩
  · by_cases h1 : a.tid = b.tid ∧ a.fd = b.fd
    · have h1' : a.toRng.tid = b.toRng.tid ∧ a.toRng.fd = b.toRng.fd := h1
      unfold compareM Rcsv.compare
      rw [if_pos h1, if_pos h1', a1, b1]
      simp only [Option.map_some, BitVec.sle, decide_eq_true_eq, a2, b2]
      by_cases h2 : a.rng.off.toNat ≤ b.rng.off.toNat
      · rw [if_pos (by omega), if_pos (show a.toRng.off ≤ b.toRng.off from h2)]
        refine congrArg some (decide_eq_decide.2 (?_ : _ ↔ b.rng.off.toNat < a.rng.off.toNat + a.rng.len.toNat)); omega
      · rw [if_neg (by omega), if_neg (show ¬ a.toRng.off ≤ b.toRng.off from h2)]
        refine congrArg some (decide_eq_decide.2 (?_ : _ ↔ a.rng.off.toNat < b.rng.off.toNat + b.rng.len.toNat)); omega
    · have h1' : ¬ (a.toRng.tid = b.toRng.tid ∧ a.toRng.fd = b.toRng.fd) := h1
      unfold compareM Rcsv.compare
      rw [if_neg h1, if_neg h1']
  · have hc := C01_lookup_is_overlap a.rng b.rng (fileRange_sane ha) (fileRange_sane hb)
    rw [Bool.eq_iff_iff]
    simp only [hits, beq_iff_eq, Conc.clash, Key.toRng, hfd, beq_self_eq_true, Bool.true_and, Bool.or_eq_true, Bool.and_eq_true, decide_eq_true_eq]
    rw [hc.1, overlap_iff _ _ ha.2.1 hb.2.1]
    have := ha.2.1
    have := hb.2.1
    omega

/-- When `compare` is undefined: the object that starts first ends outside of `off_t`. -/
theorem C88_undefined {a b : Key} (h : Same a b) : compareM a b = none ↔
    ∃ f, f = (if a.rng.off.toInt ≤ b.rng.off.toInt then a.rng else b.rng) ∧
      (f.off.toInt + f.len.toInt < -2 ^ 63 ∨ 2 ^ 63 ≤ f.off.toInt + f.len.toInt) := by
  simp only [exists_eq_left]
  simp only [compareM, if_pos (show a.tid = b.tid ∧ a.fd = b.fd from h), BitVec.sle, decide_eq_true_eq]
  split <;> simp only [Option.map_eq_none_iff, endM] <;> split <;> simp <;> omega

/-- Objects of different threads or files are never nested. -/
theorem C88_apart {a b : Key} (h : ¬ Same a b) : compareM a b = some false := if_neg h

/-- Without bytes: an object is not nested in one of the same range. -/
theorem C88_zero (t : Nat) (fd : Int) (o : BitVec 64) :
    compareM ⟨t, fd, ⟨o, 0⟩⟩ ⟨t, fd, ⟨o, 0⟩⟩ = some false ∧ hits ⟨o, 0⟩ ⟨o, 0⟩ = true := by
  refine ⟨?_, hits_refl _⟩
  have h1 := BitVec.le_toInt o
  have h2 := BitVec.toInt_lt (x := o)
  have he : endM ⟨o, 0#64⟩ = some o.toInt := by
    have h0 : (0#64).toInt = 0 := by decide
    simp only [endM, h0]
    rw [if_pos (by omega), Int.add_zero]
  simp [compareM, he, BitVec.sle]

/-- Lengths of 2^63 and more, say the longest one: not nested in one of the same range. -/
theorem C88_long (t : Nat) (fd : Int) (o l : BitVec 64) (ho : 0 ≤ o.toInt) (hl : 2 ^ 63 ≤ l.toNat) :
    compareM ⟨t, fd, ⟨o, l⟩⟩ ⟨t, fd, ⟨o, l⟩⟩ = some false ∧ hits ⟨o, l⟩ ⟨o, l⟩ = true := by
  refine ⟨?_, hits_refl _⟩
  have h2 := BitVec.toInt_lt (x := o)
  have h3 : l.toInt = l.toNat - 2 ^ 64 := by
    rw [BitVec.toInt_eq_toNat_cond]; split <;> omega
  have h4 := l.isLt
  have he : endM ⟨o, l⟩ = some (o.toInt + (l.toNat - 2 ^ 64)) := by
    simp only [endM, h3]
    rw [if_pos (by omega)]
  simp [compareM, he, BitVec.sle]
  omega

/-- A lock from some byte on of the longest length that is an offset: undefined. -/
theorem C88_overflow (t : Nat) (fd : Int) (o l : BitVec 64) (ho : 0 ≤ o.toInt) (hl : 0 ≤ l.toInt)
    (h : 2 ^ 63 ≤ o.toInt + l.toInt) : compareM ⟨t, fd, ⟨o, l⟩⟩ ⟨t, fd, ⟨o, l⟩⟩ = none ∧ SaneRange ⟨o, l⟩ := by
  have e1 := toInt_of_nonneg o ho
  have e2 := toInt_of_nonneg l hl
  have h1 := BitVec.toInt_lt (x := o)
  have h2 := BitVec.toInt_lt (x := l)
  refine ⟨?_, ho, ?_, ?_⟩
  · rw [C88_undefined ⟨rfl, rfl⟩]
    exact ⟨⟨o, l⟩, by simp, Or.inr h⟩
  · simp only; omega
  · simp only; omega

theorem C88_not_full : ¬ C88_full := by
  intro hf
  have h := hf ⟨1, 3, ⟨0, 0⟩⟩ ⟨1, 3, ⟨0, 0⟩⟩ ⟨rfl, rfl⟩
  rw [(C88_zero 1 3 0).1, (C88_zero 1 3 0).2] at h
  cases h

/-- The hypotheses of `C88_partial` and `C88_model` are met by ranges that meet and by ranges that do not, up to the last byte. -/
example : FileRange ⟨0, 10#64⟩ ∧ FileRange ⟨5#64, BitVec.ofNat 64 (2 ^ 63 - 6)⟩ ∧ FileRange ⟨10#64, 1#64⟩ ∧
    compareM ⟨1, 3, ⟨0, 10#64⟩⟩ ⟨1, 3, ⟨5#64, BitVec.ofNat 64 (2 ^ 63 - 6)⟩⟩ = some true ∧
    compareM ⟨1, 3, ⟨0, 10#64⟩⟩ ⟨1, 3, ⟨10#64, 1#64⟩⟩ = some false := by
  unfold FileRange; decide

/-- The hypotheses of `C88_overflow` and `C88_long`: "from byte 1 on", with the longest offset and with the longest length. -/
example : (0 ≤ (1#64).toInt ∧ 0 ≤ (BitVec.ofNat 64 (2 ^ 63 - 1)).toInt ∧ (2 : Int) ^ 63 ≤ (1#64).toInt + (BitVec.ofNat 64 (2 ^ 63 - 1)).toInt) ∧
    2 ^ 63 ≤ (BitVec.ofNat 64 (2 ^ 64 - 1)).toNat := by
  decide

end Fullock.Props
