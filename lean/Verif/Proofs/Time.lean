import Verif.Model.Time
import Verif.Spec.Time
/-! Helper lemmas on the time arithmetic. -/
namespace Fullock
open Spec

theorem isOver_noBorrow {s e l : Timespec} (hb : s.nsec ≤ e.nsec)
    (hs : ValidClock s) (he : ValidClock e) (hl0 : 0 ≤ l.nsec) (hl1 : l.nsec < 1000000000) :
    isOverTimespec s e l = true ↔ nanos l ≤ elapsed s e := by
  obtain ⟨_, _, _⟩ := hs; obtain ⟨_, _, _⟩ := he
  have h : ¬ e.nsec < s.nsec := by omega
  simp only [isOverTimespec, subTimespec, h, if_false, elapsed, nanos]
  split
  · simp; omega
  · split
    · simp; omega
    · split <;> simp <;> omega

theorem isOver_borrow {s e l : Timespec} (hb : e.nsec < s.nsec) (hse : nanos s ≤ nanos e)
    (hs : ValidClock s) (he : ValidClock e) (hl0 : 0 ≤ l.nsec) (hl1 : l.nsec < 1000000000) :
    isOverTimespec s e l = true ↔ nanos l + 1000000000 ≤ elapsed s e := by
  obtain ⟨_, _, _⟩ := hs; obtain ⟨_, _, _⟩ := he
  simp only [nanos] at hse
  have h2 : ¬ (1 > e.sec) := by omega
  simp only [isOverTimespec, subTimespec, hb, if_true, h2, if_false, elapsed, nanos]
  split
  · simp; omega
  · split
    · simp; omega
    · split <;> simp <;> omega

theorem usecToTimespec_pos {t : Int} (h : 0 < t) :
    0 ≤ (usecToTimespec t).sec ∧ 0 ≤ (usecToTimespec t).nsec ∧
    (usecToTimespec t).nsec < 1000000000 ∧ nanos (usecToTimespec t) = t * 1000 := by
  simp only [usecToTimespec, nanos]
  rw [Int.tdiv_eq_ediv_of_nonneg (by omega), Int.tmod_eq_emod_of_nonneg (by omega)]
  omega

/-- Structure of a timed loop: it stops at the first round that succeeds, fails the clock, or is
over; `n` is that round. -/
theorem timedLoop_spec (s l : Timespec) (rs : List Round) (x : LoopResult) (n : Nat)
    (h : timedLoop s l rs = some (x, n)) :
    ∃ pre r post, rs = pre ++ r :: post ∧ n = pre.length + 1 ∧
      (∀ q ∈ pre, q.success = false ∧ ∃ now, q.clock = some now ∧ isOverTimespec s now l = false) ∧
      ((x = .ok ∧ r.success = true) ∨
       (x = .ebusy ∧ r.success = false ∧ r.clock = none) ∨
       (x = .etimedout ∧ r.success = false ∧
          ∃ now, r.clock = some now ∧ isOverTimespec s now l = true)) := by
  induction rs generalizing x n with
  | nil => simp [timedLoop] at h
  | cons r rs ih =>
    unfold timedLoop at h
    split at h
    · rename_i hs
      simp only [Option.some.injEq, Prod.mk.injEq] at h
      exact ⟨[], r, rs, rfl, by simp [← h.2], by simp, Or.inl ⟨h.1.symm, hs⟩⟩
    · rename_i hs
      simp only [Bool.not_eq_true] at hs
      split at h
      · rename_i hc
        simp only [Option.some.injEq, Prod.mk.injEq] at h
        exact ⟨[], r, rs, rfl, by simp [← h.2], by simp, Or.inr (Or.inl ⟨h.1.symm, hs, hc⟩)⟩
      · rename_i now hc
        split at h
        · rename_i ho
          simp only [Option.some.injEq, Prod.mk.injEq] at h
          exact ⟨[], r, rs, rfl, by simp [← h.2], by simp,
            Or.inr (Or.inr ⟨h.1.symm, hs, now, hc, ho⟩)⟩
        · rename_i ho
          simp only [Bool.not_eq_true] at ho
          simp only [Option.map_eq_some_iff, Prod.mk.injEq, Prod.exists] at h
          obtain ⟨y, m, hy, rfl, rfl⟩ := h
          obtain ⟨pre, r', post, rfl, rfl, hpre, hlast⟩ := ih y m hy
          refine ⟨r :: pre, r', post, rfl, by simp, ?_, hlast⟩
          intro q hq
          rcases List.mem_cons.1 hq with rfl | hq
          · exact ⟨hs, now, hc, ho⟩
          · exact hpre q hq

theorem timedLoop_none (s l : Timespec) (rs : List Round) :
    timedLoop s l rs = none ↔
      ∀ q ∈ rs, q.success = false ∧ ∃ now, q.clock = some now ∧ isOverTimespec s now l = false := by
  induction rs with
  | nil => simp [timedLoop]
  | cons r rs ih =>
    unfold timedLoop
    cases hs : r.success <;> cases hc : r.clock <;> simp [hs, hc]
    rename_i now
    cases ho : isOverTimespec s now l <;> simp [ih]

end Fullock
