import Verif.Proofs.Time
/-!
C31, C32, C33: the meaning of timeouts.

`timedCall start limit rounds` is a timed lock (or wait) call; `rounds` lists, for every
attempt made, whether it succeeded and what the clock said afterwards.
-/
namespace Fullock.Props
open Spec

/-- C31.  A timed call with a positive timeout of `t` microseconds that reports ETIMEDOUT has
made at least one attempt, every attempt failed, and the clock reading taken after the last
attempt lies at least `t` microseconds after the start. -/
theorem C31_timeout_never_early (t : Int) (ht : 0 < t) (start : Timespec) (hs : ValidClock start)
    (rounds : List Round)
    (hclock : ∀ r ∈ rounds, ∀ now, r.clock = some now → ValidClock now ∧ nanos start ≤ nanos now)
    (n : Nat) (h : timedCall (some start) (usecToTimespec t) rounds = some (.etimedout, n)) :
    0 < n ∧ n ≤ rounds.length ∧ (∀ r ∈ rounds.take n, r.success = false) ∧
      ∃ now, (rounds[n - 1]?).bind Round.clock = some now ∧ t * 1000 ≤ elapsed start now := by
  obtain ⟨h0, h1, h2, h3⟩ := usecToTimespec_pos ht
  obtain ⟨pre, r, post, rfl, rfl, hpre, hl⟩ := timedLoop_spec _ _ _ _ _ h
  rcases hl with ⟨hx, _⟩ | ⟨hx, _⟩ | ⟨_, hrs, now, hc, ho⟩
  · cases hx
  · cases hx
  obtain ⟨hv, hle⟩ := hclock r (by simp) now hc
  refine ⟨by omega, by simp, ?_, now, by simp [hc], ?_⟩
  · intro q hq
    have : (pre ++ r :: post).take (pre.length + 1) = pre ++ [r] := by
      rw [List.take_append, List.take_of_length_le (by omega)]; simp
    rw [this] at hq
    rcases List.mem_append.1 hq with hq | hq
    · exact (hpre q hq).1
    · simp at hq; subst hq; exact hrs
  · rw [← h3]
    by_cases hb : now.nsec < start.nsec
    · have := (isOver_borrow hb hle hs hv h1 h2).1 ho; omega
    · exact (isOver_noBorrow (by omega) hs hv h1 h2).1 ho

/-- C31, the other results: a timed call reports success only if its last attempt took the lock (and all
earlier ones failed); it reports EBUSY only if the clock could not be read, at the start or after the last
attempt, and then no attempt has taken the lock. -/
theorem C31_result_meaning (start : Option Timespec) (limit : Timespec) (rounds : List Round) (n : Nat) :
    (timedCall start limit rounds = some (.ok, n) →
      0 < n ∧ (∀ r ∈ rounds.take (n - 1), r.success = false) ∧
        ∃ r, rounds[n - 1]? = some r ∧ r.success = true) ∧
    (timedCall start limit rounds = some (.ebusy, n) →
      (∀ r ∈ rounds.take n, r.success = false) ∧
        ((start = none ∧ n = 0) ∨ 0 < n ∧ ∃ r, rounds[n - 1]? = some r ∧ r.clock = none)) := by
  cases start with
  | none => constructor <;> intro h <;> simp [timedCall] at h; subst h; simp
  | some s =>
    constructor
    · intro h
      obtain ⟨pre, r, post, rfl, rfl, hpre, hl⟩ := timedLoop_spec _ _ _ _ _ h
      rcases hl with ⟨_, hr⟩ | ⟨hx, _⟩ | ⟨hx, _⟩
      · refine ⟨by omega, ?_, r, by simp, hr⟩
        intro q hq
        simp at hq
        exact (hpre q hq).1
      · cases hx
      · cases hx
    · intro h
      obtain ⟨pre, r, post, rfl, rfl, hpre, hl⟩ := timedLoop_spec _ _ _ _ _ h
      rcases hl with ⟨hx, _⟩ | ⟨_, hr, hc⟩ | ⟨hx, _⟩
      · cases hx
      · refine ⟨?_, Or.inr ⟨by omega, r, by simp, hc⟩⟩
        intro q hq
        rw [List.take_append, List.take_of_length_le (by omega)] at hq
        simp at hq
        rcases hq with hq | rfl
        · exact (hpre q hq).1
        · exact hr
      · cases hx

example : timedCall (some ⟨5, 100⟩) (usecToTimespec 1500000) [⟨false, some ⟨5, 200⟩⟩, ⟨true, none⟩] = some (.ok, 2) := by
  decide
example : timedCall (some ⟨5, 100⟩) (usecToTimespec 1500000) [⟨false, some ⟨5, 200⟩⟩, ⟨false, none⟩] =
    some (.ebusy, 2) := by decide

/-- Non-vacuity for C31: a call that times out after two rounds. -/
example : timedCall (some ⟨5, 100⟩) (usecToTimespec 1500000)
    [⟨false, some ⟨6, 200⟩⟩, ⟨false, some ⟨7, 300⟩⟩] = some (.etimedout, 2) := by decide

/-- C32, full claim: at the first failed attempt whose clock reading is at or after the requested
time, ETIMEDOUT is reported. -/
def C32_full : Prop :=
  ∀ (t : Int), 0 < t → ∀ start now : Timespec, ValidClock start → ValidClock now →
    nanos start ≤ nanos now → t * 1000 ≤ elapsed start now →
    timedCall (some start) (usecToTimespec t) [⟨false, some now⟩] = some (.etimedout, 1)

/-- C32 is false of the code: a 50 ms timeout started at 0.9 s is not over at 1.8 s, because
`SUB_TIMESPEC` takes one second off twice when it borrows. -/
theorem C32_not_full : ¬ C32_full := by
  intro h
  have := h 50000 (by decide) ⟨0, 900000000⟩ ⟨1, 800000000⟩ (by simp [ValidClock])
    (by simp [ValidClock]) (by decide) (by decide)
  revert this; decide

/-- C32 (partial): what does hold.  For every start, reading and timeout the call gives up at a
reading exactly when the elapsed time reaches the timeout, plus one whole second if the reading's
sub-second part is smaller than that of the start.  Hence it is never more than one second late,
and exact when the sub-second part has not wrapped.
Missing for the full claim: the extra second. -/
theorem C32_timeout_exact_partial (t : Int) (ht : 0 < t) (start now : Timespec)
    (hs : ValidClock start) (hn : ValidClock now) (hle : nanos start ≤ nanos now) :
    (timedCall (some start) (usecToTimespec t) [⟨false, some now⟩] = some (.etimedout, 1) ↔
      t * 1000 + (if now.nsec < start.nsec then 1000000000 else 0) ≤ elapsed start now) ∧
    (t * 1000 + 1000000000 ≤ elapsed start now →
      timedCall (some start) (usecToTimespec t) [⟨false, some now⟩] = some (.etimedout, 1)) := by
  obtain ⟨h0, h1, h2, h3⟩ := usecToTimespec_pos ht
  have key : timedCall (some start) (usecToTimespec t) [⟨false, some now⟩] = some (.etimedout, 1) ↔
      isOverTimespec start now (usecToTimespec t) = true := by
    simp [timedCall, timedLoop]
  rw [key]
  by_cases hb : now.nsec < start.nsec
  · rw [isOver_borrow hb hle hs hn h1 h2, h3]
    simp only [hb, if_true]
    exact ⟨trivial, fun h => h⟩
  · rw [isOver_noBorrow (by omega) hs hn h1 h2, h3]
    simp only [hb, if_false]
    constructor
    · omega
    · omega

/-- C32 (partial), the whole loop: as long as every reading is less than the timeout (plus the
extra second when borrowing) and no attempt succeeds, the call goes on waiting; the first reading
that reaches it ends the call with ETIMEDOUT. -/
theorem C32_timeout_first_partial (t : Int) (ht : 0 < t) (start : Timespec)
    (hs : ValidClock start) (pre post : List Round) (now : Timespec)
    (hv : ∀ r ∈ pre, r.success = false ∧ ∃ c, r.clock = some c ∧ ValidClock c ∧
      nanos start ≤ nanos c ∧ elapsed start c < t * 1000)
    (hn : ValidClock now) (hle : nanos start ≤ nanos now)
    (hover : t * 1000 + 1000000000 ≤ elapsed start now) :
    timedCall (some start) (usecToTimespec t) (pre ++ ⟨false, some now⟩ :: post)
      = some (.etimedout, pre.length + 1) := by
  obtain ⟨h0, h1, h2, h3⟩ := usecToTimespec_pos ht
  simp only [timedCall]
  induction pre with
  | nil =>
    have := (C32_timeout_exact_partial t ht start now hs hn hle).2 hover
    simp only [timedCall, timedLoop] at this
    simp only [List.nil_append, timedLoop, List.length_nil]
    split at this <;> simp_all
  | cons r pre ih =>
    obtain ⟨hr, c, hc, hvc, hlc, hec⟩ := hv r (by simp)
    have hno : isOverTimespec start c (usecToTimespec t) = false := by
      rw [Bool.eq_false_iff]
      intro ho
      by_cases hb : c.nsec < start.nsec
      · have := (isOver_borrow hb hlc hs hvc h1 h2).1 ho; omega
      · have := (isOver_noBorrow (by omega) hs hvc h1 h2).1 ho; omega
    have := ih (fun q hq => hv q (by simp [hq]))
    simp [timedLoop, hr, hc, hno, this]

example : timedCall (some ⟨5, 100⟩) (usecToTimespec 1500000)
    ([⟨false, some ⟨5, 200⟩⟩] ++ ⟨false, some ⟨8, 300⟩⟩ :: []) = some (.etimedout, 2) := by decide

/-- C33.  -1 waits for ever, 0 is a single try, every positive timeout is converted without loss
into a normalised number of seconds and nanoseconds. -/
theorem C33_timeout_meaning (t : Int) :
    (waitMode t = .forever ↔ t = -1) ∧ (waitMode t = .try ↔ t = 0) ∧
    (0 < t → ∃ l, waitMode t = .timed l ∧ nanos l = t * 1000 ∧ 0 ≤ l.sec ∧ 0 ≤ l.nsec ∧
      l.nsec < 1000000000) := by
  refine ⟨?_, ?_, ?_⟩
  · unfold waitMode; split
    · simp [*]
    · split <;> simp [*]
  · unfold waitMode; split
    · simp; omega
    · split <;> simp [*]
  · intro ht
    obtain ⟨h0, h1, h2, h3⟩ := usecToTimespec_pos ht
    refine ⟨usecToTimespec t, ?_, h3, h0, h1, h2⟩
    have a : ¬ t = -1 := by omega
    have b : ¬ t = 0 := by omega
    simp [waitMode, a, b]

/-- C33, the remaining values: a negative timeout other than -1 gives up at the first reading. -/
theorem C33_negative_timeout_immediate (t : Int) (ht : t < -1) (start now : Timespec)
    (hs : ValidClock start) (hn : ValidClock now) (hle : nanos start ≤ nanos now)
    (hnb : start.nsec ≤ now.nsec) (rs : List Round) :
    waitMode t = .timed (usecToTimespec t) ∧
    timedCall (some start) (usecToTimespec t) (⟨false, some now⟩ :: rs) = some (.etimedout, 1) := by
  obtain ⟨_, _, _⟩ := hs; obtain ⟨_, _, _⟩ := hn
  constructor
  · have a : ¬ t = -1 := by omega
    have b : ¬ t = 0 := by omega
    simp [waitMode, a, b]
  · have hneg : t = -(-t) := by omega
    have ho : isOverTimespec start now (usecToTimespec t) = true := by
      have e1 : (usecToTimespec t).sec = -((-t) / 1000000) := by
        simp only [usecToTimespec]
        rw [hneg, Int.neg_tdiv, Int.tdiv_eq_ediv_of_nonneg (by omega)]; omega
      have e2 : (usecToTimespec t).nsec = -((-t) % 1000000) * 1000 := by
        simp only [usecToTimespec]
        rw [hneg, Int.neg_tmod, Int.tmod_eq_emod_of_nonneg (by omega)]; omega
      have hb : ¬ now.nsec < start.nsec := by omega
      simp only [nanos] at hle
      simp only [isOverTimespec, subTimespec, hb, if_false, e1, e2]
      split
      · omega
      · split
        · rfl
        · split
          · omega
          · rfl
    simp [timedCall, timedLoop, ho]

end Fullock.Props
