import Verif.Proofs.LockId
/-! C34, C35: the internal table lock. -/
namespace Fullock.Props
open LockId

/-- States reachable by any schedule of any threads with crashes anywhere. -/
def LockIdReachable (s : State) : Prop := ∃ es, run init es = some s

/-- A run in which thread 1 dies inside the section, thread 2 spins over the limit, finds it dead
and takes the lock over. -/
def takeOverRun : List Ev :=
  [.enter 1, .go 1, .die 1, .enter 2] ++ List.replicate 1004 (.go 2)

/-- C34: at most one live thread is inside a critical section, for every schedule and all crashes. -/
theorem C34_exclusive (s : State) (hs : LockIdReachable s) (t u : Nat)
    (ht : s.alive t = true) (hu : s.alive u = true) (hct : s.pc t = .crit) (hcu : s.pc u = .crit) :
    t = u := by
  obtain ⟨es, hr⟩ := hs
  have h := inv_run inv_init hr
  have h1 := h.own t ht (by rw [hct]; trivial)
  have h2 := h.own u hu (by rw [hcu]; trivial)
  omega

/-- The hypotheses are met after a crash and a take-over: thread 2 is in, the dead thread 1 too. -/
example : ((run init takeOverRun).map fun s => (s.alive 1, s.pc 1, s.alive 2, s.pc 2)) =
    some (false, .crit, true, .crit) := by decide +kernel

/-- C34: as long as a live thread is inside (until its release), nobody can take the lock away
from it: every event, by whomever, leaves the lock word naming it, except its own release and
its own death. -/
theorem C34_not_stolen_from_live (s s' : State) (hs : LockIdReachable s) (t : Nat) (e : Ev)
    (ha : s.alive t = true) (hc : s.pc t = .crit) (he : step s e = some s')
    (ha' : s'.alive t = true) :
    s'.lockid = t ∧ (s'.pc t = .crit ∨ e = .leave t) := by
  obtain ⟨es, hr⟩ := hs
  have h := inv_run inv_init hr
  have h' := inv_step h he
  have key : s'.pc t = .crit ∨ (e = .leave t ∧ s'.pc t = .rel 0 0) := by
    cases e with
    | enter u =>
      simp only [step] at he
      split at he
      · rename_i hcc
        cases he
        by_cases hut : t = u
        · subst hut; rw [hc] at hcc; simp at hcc
        · simp [hut, hc]
      · simp at he
    | leave u =>
      simp only [step] at he
      split at he
      · cases he
        by_cases hut : t = u
        · subst hut; right; simp
        · left; simp [hut, hc]
      · simp at he
    | die u => simp only [step, Option.some.injEq] at he; subst he; left; exact hc
    | go u =>
      left
      simp only [step] at he
      split at he
      · cases he
        by_cases hut : t = u
        · subst hut; unfold own; rw [hc]; simp [hc]
        · unfold own
          cases hpu : s.pc u <;> simp only
          all_goals repeat' split
          all_goals simp [hut, hc]
      · simp at he
  rcases key with hk | ⟨rfl, hk⟩
  · exact ⟨h'.own t ha' (by rw [hk]; trivial), Or.inl hk⟩
  · exact ⟨h'.own t ha' (by rw [hk]; trivial), Or.inr rfl⟩

/-- C34 (link to the models which use the table lock): whenever an event changes the lock word,
then either the word was 0 or named a dead thread and now names the live thread that enters, or
a live thread that was inside sets it back to 0. -/
theorem C34_atomic_view (s s' : State) (hs : LockIdReachable s) (e : Ev)
    (he : step s e = some s') (hne : s'.lockid ≠ s.lockid) :
    (∃ t, e = .go t ∧ s.alive t = true ∧ (s.lockid = 0 ∨ s.alive s.lockid = false) ∧
      s'.lockid = t ∧ s'.pc t = .crit) ∨
    (∃ t, e = .go t ∧ s.alive t = true ∧ s.lockid = t ∧ s'.lockid = 0 ∧ s'.pc t = .out) := by
  obtain ⟨es, hr⟩ := hs
  have h := inv_run inv_init hr
  cases e with
  | enter u =>
    simp only [step] at he
    split at he
    · cases he; simp at hne
    · simp at he
  | leave u =>
    simp only [step] at he
    split at he
    · cases he; simp at hne
    · simp at he
  | die u => simp only [step, Option.some.injEq] at he; subst he; simp at hne
  | go u =>
    simp only [step] at he
    split at he
    · rename_i ha
      cases he
      unfold own at hne ⊢
      cases hpu : s.pc u with
      | out => rw [hpu] at hne; simp at hne
      | crit => rw [hpu] at hne; simp at hne
      | acq cnt old2 =>
        rw [hpu] at hne
        simp only at hne ⊢
        left
        refine ⟨u, rfl, ha, ?_⟩
        split at hne
        · rename_i h0; rw [if_pos h0]; exact ⟨Or.inl h0, rfl, by simp⟩
        · split at hne
          · simp at hne
          · split at hne
            · simp at hne
            · split at hne <;> simp at hne
      | chk cnt v => rw [hpu] at hne; simp only at hne; split at hne <;> simp at hne
      | steal cnt v =>
        rw [hpu] at hne
        simp only at hne ⊢
        left
        refine ⟨u, rfl, ha, ?_⟩
        split at hne
        · rename_i h0; rw [if_pos h0]; exact ⟨Or.inr (h0 ▸ h.steal u cnt v hpu), rfl, by simp⟩
        · simp at hne
      | rel cnt old2 =>
        have hl := h.own u ha (by rw [hpu]; trivial)
        simp only
        rw [if_pos hl]
        right
        exact ⟨u, rfl, ha, hl, rfl, by simp⟩
      | rchk cnt v => exact absurd hpu (h.norel u ha cnt v).1
      | rsteal cnt v => exact absurd hpu (h.norel u ha cnt v).2
    · simp at he

/-- C35: if the lock word names a dead thread, a thread in its acquisition loop that runs
undisturbed is inside after at most 1004 own steps, whatever its loop counters are. -/
theorem C35_recovered (s : State) (t d cnt old2 : Nat) (hd0 : d ≠ 0) (hdt : d ≠ t)
    (hl : s.lockid = d) (hd : s.alive d = false) (hp : s.pc t = .acq cnt old2) :
    ∃ n, n ≤ 1004 ∧ (alone s t n).pc t = .crit ∧ (alone s t n).lockid = t := by
  by_cases ho : old2 = d
  · subst ho
    obtain ⟨n, hn, hc⟩ := steal_from old2 t hd0 hdt (limit + 1) cnt s hl hd hp (by omega)
    exact ⟨n, by simp [limit] at hn; omega, hc⟩
  · have h1 : own s t = s.setPc t (.acq 1 d) := by
      simp [own, hp, hl, hd0, hdt, Ne.symm ho]
    obtain ⟨n, hn, hc⟩ := steal_from d t hd0 hdt limit 1 (s.setPc t (.acq 1 d)) hl hd (by simp)
      (by omega)
    exact ⟨n + 1, by simp [limit] at hn; omega, by simp only [alone, h1]; exact hc⟩

/-- C35: a free lock is taken with the first step. -/
theorem C35_free (s : State) (t cnt old2 : Nat) (hl : s.lockid = 0) (hp : s.pc t = .acq cnt old2) :
    (alone s t 1).pc t = .crit ∧ (alone s t 1).lockid = t := by
  simp [alone, own, hp, hl]

/-- The crash situation of C35 is reachable. -/
example : ((run init [.enter 1, .go 1, .die 1, .enter 2]).map fun s =>
    (s.lockid, s.alive 1, s.pc 2)) = some (1, false, .acq 0 0) := by decide

/-- C35: a thread waiting for a live holder never takes the lock over: after any number of own
steps it is still waiting and the lock word unchanged. -/
theorem C35_waits_for_live (s : State) (t h cnt old2 : Nat) (h0 : h ≠ 0) (hht : h ≠ t)
    (hl : s.lockid = h) (ha : s.alive h = true) (hp : s.pc t = .acq cnt old2) (n : Nat) :
    (alone s t n).lockid = h ∧ (alone s t n).pc t ≠ .crit := by
  have key : ∀ n (s : State), s.lockid = h → s.alive h = true →
      (∃ c, (∃ o, s.pc t = .acq c o) ∨ s.pc t = .chk c h) →
      (alone s t n).lockid = h ∧ (alone s t n).pc t ≠ .crit := by
    intro n
    induction n with
    | zero =>
      rintro s hl _ ⟨c, ⟨o, hp⟩ | hp⟩ <;> exact ⟨hl, by simp [alone, hp]⟩
    | succ n ih =>
      rintro s hl ha ⟨c, ⟨o, hp⟩ | hp⟩
      · simp only [alone]
        have : own s t = s.setPc t (.acq 1 h) ∨ own s t = s.setPc t (.chk c h) ∨
            own s t = s.setPc t (.acq (c + 1) h) := by
          simp only [own, hp, hl, h0, hht, if_false]
          split
          · left; rfl
          · split
            · right; left; rfl
            · right; right; rfl
        rcases this with h1 | h1 | h1 <;> rw [h1]
        · exact ih _ hl ha ⟨1, Or.inl ⟨h, by simp⟩⟩
        · exact ih _ hl ha ⟨c, Or.inr (by simp)⟩
        · exact ih _ hl ha ⟨c + 1, Or.inl ⟨h, by simp⟩⟩
      · simp only [alone]
        have : own s t = s.setPc t (.acq (c + 1) h) := by
          simp only [own, hp, ha, if_true]
        rw [this]
        exact ih _ hl ha ⟨c + 1, Or.inl ⟨h, by simp⟩⟩
  exact key n s hl ha ⟨cnt, Or.inl ⟨old2, hp⟩⟩

example : ((run init [.enter 1, .go 1, .enter 2]).map fun s =>
    (s.lockid, s.alive 1, s.pc 2)) = some (1, true, .acq 0 0) := by decide

/-- C35: a holder is suspected only after 1000 unsuccessful rounds on the same value: up to then a thread that
meets another's lock goes on trying. -/
theorem C35_patience (s : State) (t h : Nat) (h0 : h ≠ 0) (hht : h ≠ t) (hl : s.lockid = h) (hp : s.pc t = .acq 0 0)
    (n : Nat) (hn : n ≤ 1000) : (alone s t (n + 1)).pc t = .acq (n + 1) h ∧ (alone s t (n + 1)).lockid = h := by
  have hlast : ∀ (n : Nat) (s : State), alone s t (n + 1) = own (alone s t n) t := by
    intro n
    induction n with
    | zero => intro s; rfl
    | succ n ih => intro s; rw [alone, ih]; rfl
  induction n with
  | zero => simp [alone, own, hp, hl, h0, hht]
  | succ n ih =>
    obtain ⟨i1, i2⟩ := ih (by omega)
    rw [hlast]
    have : ¬ limit < n + 1 := by simp [limit]; omega
    simp [own, i1, i2, h0, hht, this]

example : ((run init [.enter 1, .go 1, .enter 2]).map fun s => (s.lockid, s.pc 2)) = some (1, .acq 0 0) := by decide

/-- With a dead owner remembered by the unlock loop and the counter at `cnt`. -/
theorem release_from (d t : Nat) (hd0 : d ≠ 0) (hdt : d ≠ t) : ∀ (k cnt : Nat) (s : State),
    s.lockid = d → s.alive d = false → s.pc t = .rel cnt d → limit + 1 ≤ cnt + k →
    ∃ n, n ≤ k + 3 ∧ (alone s t n).pc t = .out ∧ (alone s t n).lockid = 0 := by
  intro k
  induction k with
  | zero =>
    intro cnt s hl hd hp hk
    refine ⟨3, by omega, ?_⟩
    have hlim : limit < cnt := by omega
    have h1 : own s t = s.setPc t (.rchk cnt d) := by
      simp [own, hp, hl, hd0, hdt, hlim]
    have h2 : own (s.setPc t (.rchk cnt d)) t = (s.setPc t (.rchk cnt d)).setPc t (.rsteal cnt d) := by
      simp [own, hd]
    simp only [alone, h1, h2]
    simp [own, hl]
  | succ k ih =>
    intro cnt s hl hd hp hk
    by_cases hlim : limit < cnt
    · refine ⟨3, by omega, ?_⟩
      have h1 : own s t = s.setPc t (.rchk cnt d) := by
        simp [own, hp, hl, hd0, hdt, hlim]
      have h2 : own (s.setPc t (.rchk cnt d)) t = (s.setPc t (.rchk cnt d)).setPc t (.rsteal cnt d) := by
        simp [own, hd]
      simp only [alone, h1, h2]
      simp [own, hl]
    · have h1 : own s t = s.setPc t (.rel (cnt + 1) d) := by
        simp [own, hp, hl, hd0, hdt, hlim]
      obtain ⟨n, hn, hc⟩ := ih (cnt + 1) (s.setPc t (.rel (cnt + 1) d)) hl hd (by simp) (by omega)
      exact ⟨n + 1, by omega, by simp only [alone, h1]; exact hc⟩

/-- C35: the unlock loop in any state of the lock word, run undisturbed: it ends with a free lock within 1004 steps
if the word names the caller, nobody or a dead thread. -/
theorem C35_unlock_any (s : State) (t : Nat) (hp : s.pc t = .rel 0 0)
    (hd : s.lockid = t ∨ s.lockid = 0 ∨ s.alive s.lockid = false) :
    ∃ n, n ≤ 1004 ∧ (alone s t n).pc t = .out ∧ (alone s t n).lockid = 0 := by
  by_cases h1 : s.lockid = t
  · exact ⟨1, by omega, by simp [alone, own, hp, h1]⟩
  · by_cases h2 : s.lockid = 0
    · have h3 : (0 : Nat) ≠ t := fun e => h1 (h2.trans e)
      exact ⟨1, by omega, by simp [alone, own, hp, h2, h3]⟩
    · have h3 : s.alive s.lockid = false := (hd.resolve_left h1).resolve_left h2
      have e1 : own s t = s.setPc t (.rel 1 s.lockid) := by simp [own, hp, h1, h2]
      obtain ⟨n, hn, hc⟩ := release_from s.lockid t h2 h1 limit 1 (s.setPc t (.rel 1 s.lockid)) rfl h3 (by simp) (by omega)
      exact ⟨n + 1, by simp [limit] at hn; omega, by simp only [alone, e1]; exact hc⟩

/-- C34: the unlock loop never takes the lock away from a live thread other than the caller, in any state of the
lock word and however long it runs. -/
theorem C34_unlock_not_from_live (s : State) (t h : Nat) (h0 : h ≠ 0) (hht : h ≠ t) (hl : s.lockid = h)
    (ha : s.alive h = true) (hp : s.pc t = .rel 0 0) (n : Nat) :
    (alone s t n).lockid = h ∧ (alone s t n).pc t ≠ .out := by
  have key : ∀ n (s : State), s.lockid = h → s.alive h = true →
      (∃ c, (∃ o, s.pc t = .rel c o) ∨ s.pc t = .rchk c h) →
      (alone s t n).lockid = h ∧ (alone s t n).pc t ≠ .out := by
    intro n
    induction n with
    | zero =>
      rintro s hl _ ⟨c, ⟨o, hp⟩ | hp⟩ <;> exact ⟨hl, by simp [alone, hp]⟩
    | succ n ih =>
      rintro s hl ha ⟨c, ⟨o, hp⟩ | hp⟩
      · simp only [alone]
        have : own s t = s.setPc t (.rel 1 h) ∨ own s t = s.setPc t (.rchk c h) ∨
            own s t = s.setPc t (.rel (c + 1) h) := by
          simp only [own, hp, hl, h0, hht, if_false]
          split
          · left; rfl
          · split
            · right; left; rfl
            · right; right; rfl
        rcases this with h1 | h1 | h1 <;> rw [h1]
        · exact ih _ hl ha ⟨1, Or.inl ⟨h, by simp⟩⟩
        · exact ih _ hl ha ⟨c, Or.inr (by simp)⟩
        · exact ih _ hl ha ⟨c + 1, Or.inl ⟨h, by simp⟩⟩
      · simp only [alone]
        have : own s t = s.setPc t (.rel (c + 1) h) := by
          simp only [own, hp, ha, if_true]
        rw [this]
        exact ih _ hl ha ⟨c + 1, Or.inl ⟨h, by simp⟩⟩
  exact key n s hl ha ⟨0, Or.inl ⟨0, hp⟩⟩

/-- A word that names a dead thread, met by the unlock of another. -/
example : ∃ s : State, s.pc 2 = .rel 0 0 ∧ s.lockid = 1 ∧ s.alive 1 = false :=
  ⟨⟨1, fun u => u != 1, fun u => if u = 2 then .rel 0 0 else .out⟩, rfl, rfl, rfl⟩

end Fullock.Props
