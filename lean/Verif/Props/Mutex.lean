import Verif.Props.MCCases
import Verif.Proofs.MCNet
/-!
Named mutexes: C18 (exclusion), C19 (unlock by others), C20 (nesting), C21 (dead owners), C24 (failed
requests), C55 (progress of mutex requests).
-/
namespace Fullock.Props
open MC

/-! ## C18: mutual exclusion -/

/-- C18 as stated: every interleaving, every death. -/
def C18_full : Prop := ∀ s, Reach anyEv s → ∀ m t u, Owns s m t → Owns s m u → t = u

/-- Proved part: every interleaving of any number of threads, mutexes, conditions and dead-owner
checks, when no thread dies in the window `okDie` describes.  (Missing: that window.) -/
theorem C18_exclusion_partial {s : State} (r : Reach okDie s) {m t u : Nat} (ht : Owns s m t)
    (hu : Owns s m u) : t = u := by
  have i := inv_reach (fun _ _ h => h) r
  have h1 := ((i.th t ht.1 ht.2.1).own m ht.2.2).2.1
  have h2 := ((i.th u hu.1 hu.2.1).own m hu.2.2).2.1
  exact h1.symm.trans h2

/-- When nobody waits on conditions, exclusion holds whoever dies at whatever instruction. -/
theorem C18_no_wait {s : State} (r : Reach noWait s) {m t u : Nat} (ht : Owns s m t)
    (hu : Owns s m u) : t = u := by
  have i := (nowait_reach (fun _ _ h => h) r).inv
  have h1 := ((i.th t ht.1 ht.2.1).own m ht.2.2).2.1
  have h2 := ((i.th u hu.1 hu.2.1).own m hu.2.2).2.1
  exact h1.symm.trans h2

/-- When nobody dies, exclusion holds. -/
theorem C18_no_death {s : State} (r : Reach noDeath s) {m t u : Nat} (ht : Owns s m t)
    (hu : Owns s m u) : t = u := by
  have i := inv_reach (fun _ _ h => okDie_of_noDeath h) r
  have h1 := ((i.th t ht.1 ht.2.1).own m ht.2.2).2.1
  have h2 := ((i.th u hu.1 hu.2.1).own m hu.2.2).2.1
  exact h1.symm.trans h2

/-- Thread 1 locks mutex 0 and waits on condition 5; 2 and 4 are in their lock loops; checker 3 reads
1 as the owner; 1 releases the mutex (inside its wait) and dies; 2 gets the mutex; 3 finds 1 dead and
forces the mutex of 2 open. -/
def robbed : List Ev :=
  .call 1 (.lock 0 .block) :: gos 1 7 ++ .call 2 (.lock 0 .block) :: gos 2 3 ++
  .call 4 (.lock 0 .block) :: gos 4 3 ++ .call 1 (.wait 5 0 .block) :: gos 1 3 ++
  .call 3 .sweepM :: gos 3 1 ++ [.go 3 (.mx 0)] ++ gos 1 12 ++ [.die 1] ++ gos 2 3 ++ gos 3 5

/-- 2 and 4 own the mutex at the same time. -/
theorem C18_not_full : ¬ C18_full := by
  intro h
  obtain ⟨s, hr, h1⟩ := run_case (s0 := init 2 2 3 junk0) (es := robbed ++ gos 4 3)
    (fun s => (s.alive 2, s.alive 4, s.mem.dep 0 2, s.mem.dep 0 4)) (true, true, 1, 1)
    (by decide +kernel)
  simp only [Prod.mk.injEq] at h1
  have := h s (run_reach hr) 0 2 4 ⟨by decide, h1.1, by omega⟩ ⟨by decide, h1.2.1, by omega⟩
  simp at this

/-- Who owns a mutex is recorded in it, and a free mutex has count 0. -/
theorem C18_word {s : State} (r : Reach okDie s) :
    (∀ m t, Owns s m t → m ∈ s.mem.mlist ∧ s.mem.mval m = t) ∧
    (∀ m ∈ s.mem.mlist, s.mem.mval m = 0 → s.mem.mcnt m = 0 ∧ ∀ t, ¬ Owns s m t) ∧
    (∀ m t x, Owns s m t → s.pc t = .done x → s.mem.mcnt m = s.mem.dep m t) := by
  have i := inv_reach (fun _ _ h => h) r
  refine ⟨fun m t h => ?_, fun m hm h => ⟨i.free m hm h, fun t ho => ?_⟩, fun m t x h hx => ?_⟩
  · have := (i.th t h.1 h.2.1).own m h.2.2
    exact ⟨this.1, this.2.1⟩
  · have := ((i.th t ho.1 ho.2.1).own m ho.2.2).2.1
    have := ho.1
    omega
  · have := (i.th t h.1 h.2.1).own m h.2.2
    rw [hx] at this
    exact this.2.2 rfl

/-- Non-vacuity: 1 owns mutex 0 (locked twice) and 2 owns mutex 3, while 4 is blocked and a check is
under way. -/
def busy : List Ev :=
  .call 1 (.lock 0 .block) :: gos 1 7 ++ .call 1 (.lock 0 .try_) :: gos 1 6 ++
  .call 2 (.lock 3 .timed) :: gos 2 7 ++ .call 4 (.lock 0 .block) :: gos 4 4 ++ [.go 4 .limit] ++
  gos 4 1 ++ [.go 4 (.mx 3), .go 4 .go]

example : ∃ s, Reach okDie s ∧ Reach noWait s ∧ Reach noDeath s ∧ Owns s 0 1 ∧ Owns s 3 2 ∧
    s.mem.dep 0 1 = 2 := by
  obtain ⟨s, hr, h1⟩ := run_case (s0 := init 2 2 3 junk0) (es := busy)
    (fun s => (s.alive 1, s.alive 2, s.mem.dep 0 1, s.mem.dep 3 2)) (true, true, 2, 1)
    (by decide +kernel)
  simp only [Prod.mk.injEq] at h1
  exact ⟨s, run_reach_okDie hr (by decide), run_reach_noWait hr (by decide),
    run_reach_noDeath hr (by decide), ⟨by decide, h1.1, by omega⟩, ⟨by decide, h1.2.1, by omega⟩,
    h1.2.2.1⟩

/-! ## C19: only the owner unlocks -/

/-- In every interleaving, a step of one thread leaves the mutexes of all other live threads as they
are: owner and count. -/
theorem C19_others {s s' : State} (r : Reach okDie s) {t u m : Nat} {c : Choice} (hut : u ≠ t)
    (ho : Owns s m u) (h : step s (.go t c) = some s') :
    s'.mem.mval m = u ∧ s'.mem.mcnt m = s.mem.mcnt m ∧ Owns s' m u := by
  have i := inv_reach (fun _ _ h => h) r
  rcases step_cases h with ⟨x, c', r, hh, -, -, -, rfl⟩ | ⟨x, c', M', p', hh, ta, hp, rfl⟩ |
    ⟨x, hh, -, rfl⟩
  · cases hh
  · cases hh
    have t0 := i.base.go0 hp
    have e := eff_stp (stp_of_plan hp) (i.base.used t) (i.th t t0 ta)
    have hw := (i.th u ho.1 ho.2.1).own m ho.2.2
    have h1 : M'.dep m u = s.mem.dep m u := e.dep m u hut
    have h2 := e.old m hw.1
    have := ho.1
    have ua := ho.2.1
    refine ⟨?_, ?_, ho.1, ho.2.1, ?_⟩
    · show M'.mval m = u
      grind
    · show M'.mcnt m = s.mem.mcnt m
      grind
    · show 1 ≤ M'.dep m u
      rw [h1]; exact ho.2.2
  · cases hh

/-- unlock of a mutex which another thread (live or dead) has: EPERM, nothing changes. -/
theorem C19_perm {s : State} {t m x : Nat} (t0 : t ≠ 0) (ta : s.alive t = true)
    (out : s.pc t = .done x) (ho : open_ s.alive s.mem.mL) (hm : m ∈ s.mem.mlist)
    (h0 : s.mem.mval m ≠ 0) (h : s.mem.mval m ≠ t) :
    ∃ s', Returns s t (.unlock m) (List.replicate 5 .go) EPERM s' ∧
      s'.mem = { s.mem with mL := 0 } :=
  ⟨_, returns_of t0 ta out (exec_unlock_other ho hm h h0), rfl⟩

/-- unlock of a name that was never locked: EINVAL, nothing changes. -/
theorem C19_never {s : State} {t m x : Nat} (t0 : t ≠ 0) (ta : s.alive t = true)
    (out : s.pc t = .done x) (ho : open_ s.alive s.mem.mL) (hm : m ∉ s.mem.mlist) :
    ∃ s', Returns s t (.unlock m) (List.replicate 3 .go) EINVAL s' ∧
      s'.mem = { s.mem with mL := 0 } :=
  ⟨_, returns_of t0 ta out (exec_unlock_none ho hm), rfl⟩

/-- unlock of a mutex nobody has: 0, nothing changes. -/
theorem C19_unlocked {s : State} (r : Reach okDie s) {t m x : Nat} (t0 : t ≠ 0)
    (ta : s.alive t = true) (out : s.pc t = .done x) (ho : open_ s.alive s.mem.mL)
    (hm : m ∈ s.mem.mlist) (h : s.mem.mval m = 0) :
    ∃ s', Returns s t (.unlock m) (List.replicate 4 .go) 0 s' ∧ s'.mem = { s.mem with mL := 0 } := by
  have i := inv_reach (fun _ _ h => h) r
  refine ⟨_, returns_of t0 ta out (exec_unlock_free ho hm h), ?_⟩
  have h0 : s.mem.dep m t = 0 := by
    have := (i.th t t0 ta).own m
    grind
  have : upd s.mem.dep m (upd (s.mem.dep m) t 0) = s.mem.dep := by rw [← h0, upd_self, upd_self]
  show ({ s.mem with mL := 0, dep := upd s.mem.dep m (upd (s.mem.dep m) t 0) } : Mem) = _
  rw [this]

/-- unlock by the owner: 0, and the mutex is free, other mutexes are as before. -/
theorem C19_owner {s : State} (r : Reach okDie s) {t m x : Nat} (own : Owns s m t)
    (out : s.pc t = .done x) (ho : open_ s.alive s.mem.mL) :
    ∃ s', Returns s t (.unlock m) (List.replicate (3 * s.mem.dep m t + 4) .go) 0 s' ∧
      s'.mem.mval = upd s.mem.mval m 0 ∧ s'.mem.mcnt = upd s.mem.mcnt m 0 ∧ ¬ Owns s' m t := by
  have i := inv_reach (fun _ _ h => h) r
  have hw := (i.th t own.1 own.2.1).own m own.2.2
  rw [out] at hw
  have hc := hw.2.2 rfl
  obtain ⟨n, hn⟩ : ∃ n, s.mem.dep m t = n + 1 := ⟨s.mem.dep m t - 1, by have := own.2.2; omega⟩
  have := returns_of own.1 own.2.1 out (c := .unlock m)
    (exec_unlock (n := n) own.1 ho hw.1 hw.2.1 (by rw [hc, hn]; rfl))
  rw [show 3 * n + 7 = 3 * s.mem.dep m t + 4 by omega] at this
  exact ⟨_, this, rfl, rfl, fun h => by simpa using h.2.2⟩

/-- Non-vacuity of C19: mutex 0 is owned by 1 (twice), mutex 3 is free, mutex 7 was never locked; 2
is outside. -/
def mixed : List Ev :=
  .call 1 (.lock 0 .block) :: gos 1 7 ++ .call 1 (.lock 0 .block) :: gos 1 6 ++
  .call 2 (.lock 3 .block) :: gos 2 7 ++ .call 2 (.unlock 3) :: gos 2 7

theorem mixed_case : ∃ s, Reach okDie s ∧ s.alive = (fun _ => true) ∧ s.pc 1 = .done 0 ∧
    s.pc 2 = .done 0 ∧ s.mem.mL = 0 ∧ s.mem.mlist = [3, 0] ∧ s.mem.mval 0 = 1 ∧ s.mem.mval 3 = 0 ∧
    s.mem.dep 0 1 = 2 := by
  obtain ⟨s, hr, h1⟩ := run_case (s0 := init 2 2 3 junk0) (es := mixed)
    (fun s => (s.pc 1, s.pc 2, s.mem.mL, s.mem.mlist, s.mem.mval 0, s.mem.mval 3, s.mem.dep 0 1))
    (.done 0, .done 0, 0, [3, 0], 1, 0, 2)
    (by set_option synthInstance.maxSize 100000 in set_option synthInstance.maxHeartbeats 400000 in decide +kernel)
  simp only [Prod.mk.injEq] at h1
  have ha : s.alive = fun _ => true := by
    have : ∀ (es : List Ev) (s s' : State), es.all (fun e => !e.isDie) = true → run s es = some s' →
        s'.alive = s.alive := by
      intro es
      induction es with
      | nil => intro s s' _ h; cases h; rfl
      | cons e es ih =>
        intro s s' hd h
        simp only [run, Option.bind_eq_some_iff] at h
        obtain ⟨s1, h1, h⟩ := h
        simp only [List.all_cons, Bool.and_eq_true] at hd
        rw [ih s1 s' hd.2 h]
        rcases step_cases h1 with ⟨u, c, r, rfl, -, -, -, rfl⟩ | ⟨u, c, M', p', rfl, -, -, rfl⟩ |
          ⟨u, rfl, -, rfl⟩
        · rfl
        · rfl
        · simp [Ev.isDie] at hd
    exact this _ _ _ (by decide) hr
  exact ⟨s, run_reach_okDie hr (by decide), ha, h1⟩

example : ∃ s, Reach okDie s ∧ s.alive 2 = true ∧ s.pc 2 = .done 0 ∧ open_ s.alive s.mem.mL ∧
    (0 ∈ s.mem.mlist ∧ s.mem.mval 0 ≠ 0 ∧ s.mem.mval 0 ≠ 2) ∧ 7 ∉ s.mem.mlist ∧
    (3 ∈ s.mem.mlist ∧ s.mem.mval 3 = 0) ∧ Owns s 0 1 ∧ s.pc 1 = .done 0 := by
  obtain ⟨s, h, ha, h1, h2, h3, h4, h5, h6, h7⟩ := mixed_case
  exact ⟨s, h, by simp [ha], h2, .inl h3, by simp [h4, h5], by simp [h4], by simp [h4, h6],
    ⟨by decide, by simp [ha], by omega⟩, h1⟩

/-! ## C20: nesting -/

/-- C20 as stated: after one unlock of a mutex locked at least twice, it is still owned. -/
def C20_full : Prop := ∀ s, Reach noDeath s → ∀ t m x cs s', Owns s m t → 2 ≤ s.mem.dep m t →
  s.pc t = .done x → Returns s t (.unlock m) cs 0 s' → s'.mem.mval m = t

/-- The first unlock releases the mutex completely. -/
theorem C20_not_full : ¬ C20_full := by
  intro h
  obtain ⟨s, hr, h1⟩ := run_case (s0 := init 2 2 3 junk0) (es := mixed)
    (fun s => (s.alive 1, s.pc 1, s.mem.dep 0 1, s.mem.mL, s.mem.mval 0)) (true, .done 0, 2, 0, 1)
    (by decide +kernel)
  simp only [Prod.mk.injEq] at h1
  have own : Owns s 0 1 := ⟨by decide, h1.1, by omega⟩
  obtain ⟨s', h2, h3, -, -⟩ := C19_owner (run_reach_okDie hr (by decide)) own h1.2.1 (.inl h1.2.2.2.1)
  have := h s (run_reach_noDeath hr (by decide)) 1 0 0 _ s' own (by omega) h1.2.1 h2
  rw [h3] at this
  simp at this

/-- ... so that another thread's trylock then succeeds although the first thread has unlocked only
once what it locked twice. -/
theorem C20_stolen : ∃ s, Reach noDeath s ∧ Owns s 0 2 ∧ s.last 1 = .unlock 0 ∧ s.pc 1 = .done 0 := by
  obtain ⟨s, hr, h1⟩ := run_case (s0 := init 2 2 3 junk0)
    (es := mixed ++ .call 1 (.unlock 0) :: gos 1 10 ++ .call 2 (.lock 0 .try_) :: gos 2 6)
    (fun s => (s.alive 2, s.mem.dep 0 2, s.last 1, s.pc 1, s.pc 2))
    (true, 1, .unlock 0, .done 0, .done 0) (by decide +kernel)
  simp only [Prod.mk.injEq] at h1
  exact ⟨s, run_reach_noDeath hr (by decide), ⟨by decide, h1.1, by omega⟩, h1.2.2.1, h1.2.2.2.1⟩

/-- Proved part: the owner may lock again without blocking, whatever the depth and the kind of
request: 6 steps, result 0, one more count.  (Missing, because false: that as many unlocks are needed;
see C20_not_full, C19_owner.) -/
theorem C20_relock_partial {s : State} (r : Reach okDie s) {t m x : Nat} (kd : Kind)
    (own : Owns s m t) (out : s.pc t = .done x) (ho : open_ s.alive s.mem.mL) :
    ∃ s', Returns s t (.lock m kd) (List.replicate 6 .go) 0 s' ∧ Owns s' m t ∧
      s'.mem.dep m t = s.mem.dep m t + 1 ∧ s'.mem.mval = s.mem.mval ∧
      s'.mem.mcnt = upd s.mem.mcnt m (s.mem.mcnt m + 1) := by
  have i := inv_reach (fun _ _ h => h) r
  have hw := (i.th t own.1 own.2.1).own m own.2.2
  rw [out] at hw
  have hc := hw.2.2 rfl
  have h1 := exec_append (exec_find (t := t) (kd := kd) ho hw.1) [.go, .go, .go]
  rw [exec_lock_own (M := { s.mem with mL := 0 }) hw.2.1 (by show 0 ≤ s.mem.mcnt m; omega)] at h1
  refine ⟨_, returns_of own.1 own.2.1 out (c := .lock m kd) h1, ⟨own.1, own.2.1, ?_⟩, ?_, rfl, rfl⟩
  · show 1 ≤ upd s.mem.dep m (upd (s.mem.dep m) t (s.mem.dep m t + 1)) m t
    simp
  · show upd s.mem.dep m (upd (s.mem.dep m) t (s.mem.dep m t + 1)) m t = _
    simp

/-- In every interleaving, an owner inside a lock call on its own mutex never loses it and never waits:
the next step exists and leads towards success. -/
theorem C20_never_blocks {s : State} (r : Reach okDie s) {t m : Nat} {kd : Kind} {k : LK}
    (own : Owns s m t) (at_ : s.pc t = .lkRead m kd k) :
    ∀ s', step s (.go t .go) = some s' → s'.pc t = .lkAdd m kd k ∧
      ∀ s'', step s' (.go t .go) = some s'' → s''.pc t = .lkChk m kd k := by
  have i := inv_reach (fun _ _ h => h) r
  have hw := (i.th t own.1 own.2.1).own m own.2.2
  rw [at_] at hw
  have hc := hw.2.2 rfl
  intro s' h
  simp only [step, own.2.1, at_, plan, hw.2.1, Bool.true_eq_false, if_false, if_true, Option.map_some,
    Option.some.injEq] at h
  subst h
  refine ⟨by simp, ?_⟩
  intro s'' h
  have : 0 ≤ s.mem.mcnt m := by omega
  simp only [step, own.2.1, plan, upd_same, this, Bool.true_eq_false, if_false, if_true,
    Option.map_some, Option.some.injEq] at h
  subst h
  simp

example : ∃ s, Reach okDie s ∧ Owns s 0 1 ∧ s.mem.dep 0 1 = 2 ∧ s.pc 1 = .done 0 ∧
    open_ s.alive s.mem.mL := by
  obtain ⟨s, h, ha, h1, h2, h3, h4, h5, h6, h7⟩ := mixed_case
  exact ⟨s, h, ⟨by decide, by simp [ha], by omega⟩, h7, h1, .inl h3⟩

/-! ## C21: dead owners -/

/-- C21 as stated includes that mutexes of live owners are never touched by a check. -/
def C21_full : Prop := ∀ s, Reach anyEv s → ∀ t c s' m u, step s (.go t c) = some s' → u ≠ t →
  s.alive u = true → u ≠ 0 → m ∈ s.mem.mlist → s.mem.mval m = u → s'.mem.mval m = u

/-- The check (the code's own order of records, exact answers of the operating system) frees every
mutex whose owner is dead, at whatever instruction it died, and leaves the others alone. -/
theorem C21_sweep_partial {s : State} (r : Reach anyEv s) {t x : Nat} (t0 : t ≠ 0)
    (ta : s.alive t = true) (out : s.pc t = .done x) (ho : open_ s.alive s.mem.mL) :
    ∃ s', Returns s t .sweepM
        (.go :: (sweepChoices s.alive t s.mem.mval s.mem.mlist ++ [.go, .go])) 0 s' ∧
      ∀ m ∈ s.mem.mlist,
        (s.mem.mval m ≠ 0 → s.alive (s.mem.mval m) = false →
          s'.mem.mval m = 0 ∧ s'.mem.mcnt m = 0) ∧
        ((s.mem.mval m = 0 ∨ s.alive (s.mem.mval m) = true) →
          s'.mem.mval m = s.mem.mval m ∧ s'.mem.mcnt m = s.mem.mcnt m) := by
  refine ⟨_, returns_of t0 ta out (exec_sweep_call ta ho (names_reach r).mnd), ?_⟩
  intro m hm
  constructor
  · intro h0 hd
    simp [opened, hm, h0, hd]
  · rintro (h | h) <;> simp [opened, h]

/-- A thread blocked on the mutex of a dead owner, when its number of attempts is over, makes the
check itself and gets the mutex. -/
theorem C21_waiter {s : State} (r : Reach anyEv s) {t m : Nat} (t0 : t ≠ 0)
    (ta : s.alive t = true) (at_ : s.pc t = .lkRead m .block .api) (ho : open_ s.alive s.mem.mL)
    (h0 : s.mem.mval m ≠ 0) (hd : s.alive (s.mem.mval m) = false) :
    ∃ s', run s (alone t ([.go, .limit, .go] ++ (sweepChoices s.alive t s.mem.mval s.mem.mlist ++
        [.go, .go, .go, .go, .go]))) = some s' ∧
      s'.pc t = .done 0 ∧ s'.mem.mval m = t ∧ Owns s' m t := by
  have hm : m ∈ s.mem.mlist := (base_reach r).used t m (by rw [at_]; simp [uses])
  have hne : s.mem.mval m ≠ t := by rintro h; rw [h, ta] at hd; cases hd
  have h1 : exec s.alive t s.mem (.lkRead m .block .api) [.go, .limit, .go] =
      some ({ s.mem with mL := t }, .swM (some (m, .block, .api))) := by
    rcases ho with ho | ho <;> simp [exec, plan, hne, h0, failed, ho]
  have h2 := exec_sweepM (alive := s.alive) (t := t) (k := some (m, .block, .api)) ta s.mem.mlist
    { s.mem with mL := t } (names_reach r).mnd (fun _ h => h)
  have h3 : exec s.alive t (opened s.alive s.mem.mlist { s.mem with mL := t })
      (.swM (some (m, .block, .api))) [.go, .go] =
      some ({ opened s.alive s.mem.mlist s.mem with mL := 0 }, .lkRead m .block .api) := by
    simp [exec, plan, swBack, opened]
  have h4 := exec_lock_free (alive := s.alive) (t := t) (m := m) (kd := .block) (k := .api)
    (M := { opened s.alive s.mem.mlist s.mem with mL := 0 }) t0 (by simp [opened, hm, h0, hd])
  have h5 := run_alone (s := s) (t := t) (cs := [.go, .limit, .go] ++
      (sweepChoices s.alive t s.mem.mval s.mem.mlist ++ [.go, .go, .go, .go, .go])) ta (by
    rw [at_, exec_append h1, exec_append h2,
      show [Choice.go, .go, .go, .go, .go] = [.go, .go] ++ [.go, .go, .go] from rfl,
      exec_append h3, h4])
  refine ⟨_, h5, by simp [fin], by simp, t0, ta, ?_⟩
  simp

/-- The proved part of "live owners are not touched": every step of every check in every interleaving
(missing: the window of `okDie`). -/
theorem C21_live_partial {s s' : State} (r : Reach okDie s) {t u m : Nat} {c : Choice} (hut : u ≠ t)
    (u0 : u ≠ 0) (ua : s.alive u = true) (hm : m ∈ s.mem.mlist) (hv : s.mem.mval m = u)
    (h : step s (.go t c) = some s') :
    s'.mem.mval m = u ∧ s'.mem.mcnt m = s.mem.mcnt m := by
  have i := inv_reach (fun _ _ h => h) r
  rcases step_cases h with ⟨x, c', r, hh, -, -, -, rfl⟩ | ⟨x, c', M', p', hh, ta, hp, rfl⟩ |
    ⟨x, hh, -, rfl⟩
  · cases hh
  · cases hh
    have t0 := i.base.go0 hp
    have e := eff_stp (stp_of_plan hp) (i.base.used t) (i.th t t0 ta)
    have h2 := e.old m hm
    constructor
    · show M'.mval m = u
      grind
    · show M'.mcnt m = s.mem.mcnt m
      grind
  · cases hh

/-- A check can force open the mutex of a live owner. -/
theorem C21_not_full : ¬ C21_full := by
  intro h
  obtain ⟨s, hr, h1⟩ := run_case (s0 := init 2 2 3 junk0) (es := robbed.dropLast)
    (fun s => (s.alive 2, s.mem.mval 0, s.mem.mlist, s.alive 3, s.pc 3)) (true, 2, [0], true,
      .swValC 0 2 none) (by decide +kernel)
  simp only [Prod.mk.injEq] at h1
  obtain ⟨h1, h2, h3, h4, h5⟩ := h1
  have := h s (run_reach hr) 3 .go _ 0 2 (by simp [step, h4, h5, plan, h2]; rfl) (by decide) h1
    (by decide) (by simp [h3]) h2
  simp at this

/-- Non-vacuity of C21: 1 died holding mutex 0 twice, 2 died between the two atomic operations that
take mutex 3, 4 is alive and owns mutex 6, 5 is blocked on mutex 0 and 6 is outside. -/
example : ∃ s, Reach anyEv s ∧ s.alive 6 = true ∧ s.pc 6 = .done 0 ∧ open_ s.alive s.mem.mL ∧
    s.mem.mlist = [6, 3, 0] ∧ s.mem.mval 0 = 1 ∧ s.alive 1 = false ∧ s.mem.mval 3 = 2 ∧
    s.alive 2 = false ∧ s.mem.mcnt 3 = 0 ∧ s.mem.mval 6 = 4 ∧ s.alive 4 = true ∧
    s.alive 5 = true ∧ s.pc 5 = .lkRead 0 .block .api := by
  obtain ⟨s, hr, h1⟩ := run_case (s0 := init 4 2 3 junk0)
    (es := .call 1 (.lock 0 .block) :: gos 1 7 ++ .call 1 (.lock 0 .block) :: gos 1 6 ++
      .call 2 (.lock 3 .block) :: gos 2 6 ++ .call 4 (.lock 6 .block) :: gos 4 7 ++
      .call 5 (.lock 0 .block) :: gos 5 5 ++ [.die 1, .die 2])
    (fun s => (s.alive 6, s.pc 6, s.mem.mL, s.mem.mlist, s.mem.mval 0, s.alive 1, s.mem.mval 3,
      s.alive 2, s.mem.mcnt 3, s.mem.mval 6, s.alive 4, s.alive 5, s.pc 5))
    (true, .done 0, 0, [6, 3, 0], 1, false, 2, false, 0, 4, true, true, .lkRead 0 .block .api)
    (by set_option synthInstance.maxSize 100000 in set_option synthInstance.maxHeartbeats 400000 in decide +kernel)
  simp only [Prod.mk.injEq] at h1
  obtain ⟨h1, h2, h3, h4⟩ := h1
  exact ⟨s, run_reach hr, h1, h2, .inl h3, h4⟩

example : ∃ s, Reach okDie s ∧ s.alive 1 = true ∧ 0 ∈ s.mem.mlist ∧ s.mem.mval 0 = 1 := by
  obtain ⟨s, h, ha, h1, h2, h3, h4, h5, h6, h7⟩ := mixed_case
  exact ⟨s, h, by simp [ha], by simp [h4], h5⟩

/-! ## C24: failed requests -/

/-- In every interleaving: if a trylock or timedlock call fails (EBUSY, ETIMEDOUT, ENOLCK), none of
the steps of the caller has changed the owner or the count of any mutex.  (Missing: the window of
`okDie`.) -/
theorem C24_failed_request_partial {s s' : State} (r : Reach okDie s) {t m : Nat} {kd : Kind} {res : Nat}
    {es : List Ev} (t0 : t ≠ 0) (nb : kd ≠ .block) (start : s.pc t = (Call.lock m kd).start)
    (ok : allowed okDie s es) (nc : noCall t es) (h : run s es = some s') (ha : s'.alive t = true)
    (ret : s'.pc t = .done res) (fail : res ≠ 0) : keepsWords t s es :=
  fail_keeps (inv_reach (fun _ _ h => h) r) t0 ok nc h ha (by rw [start]; exact reqNB_start m nb) ret
    fail

/-- C24: in every interleaving, whoever dies at whatever instruction: if a trylock or timedlock call fails
(EBUSY, ETIMEDOUT, ENOLCK), none of the steps of the caller changes the owner of any mutex, and what they
add to the count of any mutex is 0 in sum. -/
theorem C24_failed_request {s s' : State} (r : Reach anyEv s) {t m m' : Nat} {kd : Kind} {res : Nat}
    {es : List Ev} (nb : kd ≠ .block) (start : s.pc t = (Call.lock m kd).start)
    (nc : noCall t es) (h : run s es = some s') (ha : s'.alive t = true)
    (ret : s'.pc t = .done res) (fail : res ≠ 0) (hm : m' ∈ s.mem.mlist) :
    keepsOwner t m' s es ∧ net t m' s es = 0 := by
  have := fail_net (names_reach r) nc h ha (by rw [start]; simp [Call.start, reqNet, nb]) hm ret fail
  rw [start] at this
  simpa [Call.start, pend] using this

/-- A trylock of a mutex that another thread has returns EBUSY after one attempt and changes
nothing. -/
theorem C24_trylock {s : State} {t m x : Nat} (t0 : t ≠ 0) (ta : s.alive t = true)
    (out : s.pc t = .done x) (ho : open_ s.alive s.mem.mL) (hm : m ∈ s.mem.mlist)
    (h0 : s.mem.mval m ≠ 0) (h : s.mem.mval m ≠ t) :
    ∃ s', Returns s t (.lock m .try_) (List.replicate 5 .go) EBUSY s' ∧
      s'.mem = { s.mem with mL := 0 } := by
  have h1 := exec_append (exec_find (t := t) (kd := .try_) ho hm) [.go, .go]
  rw [exec_lock_held (M := { s.mem with mL := 0 }) (p := .done EBUSY) h h0 (by simp [failed, fin])] at h1
  exact ⟨_, returns_of t0 ta out (c := .lock m .try_) h1, rfl⟩

/-- A timedlock of a mutex that another thread has returns ETIMEDOUT as soon as its time is over, and
changes nothing. -/
theorem C24_timedlock {s : State} {t m x : Nat} (t0 : t ≠ 0) (ta : s.alive t = true)
    (out : s.pc t = .done x) (ho : open_ s.alive s.mem.mL) (hm : m ∈ s.mem.mlist)
    (h0 : s.mem.mval m ≠ 0) (h : s.mem.mval m ≠ t) (n : Nat) :
    ∃ s', Returns s t (.lock m .timed)
        ([.go, .go, .go] ++ (List.replicate (2 * n) .go ++ [.go, .limit])) ETIMEDOUT s' ∧
      s'.mem = { s.mem with mL := 0 } := by
  have hspin : ∀ n, exec s.alive t { s.mem with mL := 0 } (.lkRead m .timed .api)
      (List.replicate (2 * n) .go) = some ({ s.mem with mL := 0 }, .lkRead m .timed .api) := by
    intro n
    induction n with
    | zero => simp [exec]
    | succ n ih =>
      have h1 := exec_append (exec_lock_held (alive := s.alive) (M := { s.mem with mL := 0 })
        (p := .lkRead m .timed .api) (kd := .timed) (k := .api) (c := .go) h h0 (by simp [failed]))
        (List.replicate (2 * n) .go)
      rw [ih] at h1
      exact h1
  have h1 := exec_append (exec_find (t := t) (kd := .timed) ho hm)
    (List.replicate (2 * n) .go ++ [.go, .limit])
  rw [exec_append (hspin n), exec_lock_held (M := { s.mem with mL := 0 }) (p := .done ETIMEDOUT) h h0
    (by simp [failed, fin])] at h1
  exact ⟨_, returns_of t0 ta out (c := .lock m .timed) h1, rfl⟩

/-- A blocking request never returns EBUSY or ETIMEDOUT: it goes on or checks the dead owners. -/
theorem C24_block {m : Nat} {k : LK} {c : Choice} {p : Pc} (h : failed m .block k c = some p) :
    p = .lkRead m .block k ∨ p = .acqM (.swM (some (m, .block, k))) := by
  cases c <;> simp [failed] at h <;> simp [← h]

example : ∃ s s' es, Reach okDie s ∧ s.pc 2 = (Call.lock 0 .timed).start ∧ allowed okDie s es ∧
    noCall 2 es ∧ run s es = some s' ∧ s'.alive 2 = true ∧ s'.pc 2 = .done ETIMEDOUT := by
  obtain ⟨s, hr, h1⟩ := run_case (s0 := init 2 2 3 junk0)
    (es := mixed ++ [.call 2 (.lock 0 .timed)]) (fun s => s.pc 2) ((Call.lock 0 .timed).start)
    (by decide +kernel)
  have hes : run (init 2 2 3 junk0) (mixed ++ [.call 2 (.lock 0 .timed)] ++
      (gos 2 3 ++ .call 1 (.unlock 0) :: gos 1 1 ++ gos 2 1 ++ [.go 2 .limit])) =
      run s (gos 2 3 ++ .call 1 (.unlock 0) :: gos 1 1 ++ gos 2 1 ++ [.go 2 .limit]) :=
    run_append hr _
  obtain ⟨s', hr', h2⟩ := run_case (s0 := init 2 2 3 junk0) (es := mixed ++ [.call 2 (.lock 0 .timed)] ++
      (gos 2 3 ++ .call 1 (.unlock 0) :: gos 1 1 ++ gos 2 1 ++ [.go 2 .limit]))
    (fun s => (s.alive 2, s.pc 2)) (true, .done ETIMEDOUT) (by decide +kernel)
  simp only [Prod.mk.injEq] at h2
  exact ⟨s, s', _, run_reach_okDie hr (by decide), h1, allowed_okDie (by decide) s,
    by intro e he c hc; subst hc; simp [gos, List.replicate] at he, hes ▸ hr', h2.1, h2.2⟩

/-- The hypotheses of `C24_failed_request` are met with a dead-owner check in between: 3 tries mutex 0 of
thread 1, which dies; the mutex is freed by thread 4 only after 3 has failed. -/
example : ∃ s s' es, Reach anyEv s ∧ s.pc 3 = (Call.lock 0 .try_).start ∧ noCall 3 es ∧ run s es = some s' ∧
    s'.alive 3 = true ∧ s'.pc 3 = .done EBUSY ∧ 0 ∈ s.mem.mlist ∧ s.mem.mval 0 = 1 ∧ s'.mem.mval 0 = 0 := by
  obtain ⟨s, hr, h1⟩ := run_case (s0 := init 2 2 3 junk0)
    (es := .call 1 (.lock 0 .block) :: gos 1 7 ++ [.call 3 (.lock 0 .try_)])
    (fun s => (s.pc 3, decide (0 ∈ s.mem.mlist), s.mem.mval 0)) ((Call.lock 0 .try_).start, true, 1)
    (by decide +kernel)
  have hes : run (init 2 2 3 junk0) (.call 1 (.lock 0 .block) :: gos 1 7 ++ [.call 3 (.lock 0 .try_)] ++
      (gos 3 4 ++ .die 1 :: gos 3 1 ++ .call 4 .sweepM :: gos 4 1 ++ .go 4 (.mx 0) :: gos 4 7)) =
      run s (gos 3 4 ++ .die 1 :: gos 3 1 ++ .call 4 .sweepM :: gos 4 1 ++ .go 4 (.mx 0) :: gos 4 7) :=
    run_append hr _
  obtain ⟨s', hr', h2⟩ := run_case (s0 := init 2 2 3 junk0)
    (es := .call 1 (.lock 0 .block) :: gos 1 7 ++ [.call 3 (.lock 0 .try_)] ++
      (gos 3 4 ++ .die 1 :: gos 3 1 ++ .call 4 .sweepM :: gos 4 1 ++ .go 4 (.mx 0) :: gos 4 7))
    (fun s => (s.alive 3, s.pc 3, s.mem.mval 0)) (true, .done EBUSY, 0) (by decide +kernel)
  simp only [Prod.mk.injEq, decide_eq_true_eq] at h1 h2
  refine ⟨s, s', _, run_reach hr, h1.1, ?_, hes ▸ hr', h2.1, h2.2.1, h1.2.1, h1.2.2, h2.2.2⟩
  intro e he c hc
  subst hc
  simp [gos, List.replicate] at he

/-! ## C55: progress of mutex requests -/

/-- A request for a free mutex is granted in 6 own steps, for every kind of request. -/
theorem C55_mutex {s : State} {t m x : Nat} (kd : Kind) (t0 : t ≠ 0) (ta : s.alive t = true)
    (out : s.pc t = .done x) (ho : open_ s.alive s.mem.mL) (hm : m ∈ s.mem.mlist)
    (h : s.mem.mval m = 0) :
    ∃ s', Returns s t (.lock m kd) (List.replicate 6 .go) 0 s' ∧ s'.mem.mval m = t ∧ Owns s' m t := by
  have h1 := exec_append (exec_find (t := t) (kd := kd) ho hm) [.go, .go, .go]
  rw [exec_lock_free (M := { s.mem with mL := 0 }) t0 h] at h1
  refine ⟨_, returns_of t0 ta out (c := .lock m kd) h1, by simp, t0, ta, by simp⟩

/-- The first request for a name is granted in 7 own steps while there is a record left. -/
theorem C55_mutex_new {s : State} {t m x : Nat} (kd : Kind) (t0 : t ≠ 0) (ta : s.alive t = true)
    (out : s.pc t = .done x) (ho : open_ s.alive s.mem.mL) (hm : m ∉ s.mem.mlist)
    (h : s.mem.mroom ≠ 0) :
    ∃ s', Returns s t (.lock m kd) (List.replicate 7 .go) 0 s' ∧ s'.mem.mval m = t ∧
      s'.mem.mcnt m = 1 ∧ Owns s' m t := by
  have h1 := exec_append (exec_create (t := t) (kd := kd) ho hm h) [.go, .go, .go]
  rw [exec_lock_free t0 (by simp)] at h1
  refine ⟨_, returns_of t0 ta out (c := .lock m kd) h1, by simp, by simp, t0, ta, by simp⟩

/-- ... and refused with ENOLCK when there is none, without effect. -/
theorem C55_mutex_full {s : State} {t m x : Nat} (kd : Kind) (t0 : t ≠ 0) (ta : s.alive t = true)
    (out : s.pc t = .done x) (ho : open_ s.alive s.mem.mL) (hm : m ∉ s.mem.mlist)
    (h : s.mem.mroom = 0) :
    ∃ s', Returns s t (.lock m kd) (List.replicate 3 .go) ENOLCK s' ∧
      s'.mem = { s.mem with mL := 0 } :=
  ⟨_, returns_of t0 ta out (c := .lock m kd) (exec_full ho hm h), rfl⟩

example : ∃ s : State, s.alive 2 = true ∧ s.pc 2 = .done 0 ∧ open_ s.alive s.mem.mL ∧
    (3 ∈ s.mem.mlist ∧ s.mem.mval 3 = 0) ∧ 7 ∉ s.mem.mlist := by
  obtain ⟨s, h, ha, h1, h2, h3, h4, h5, h6, h7⟩ := mixed_case
  exact ⟨s, by simp [ha], h2, .inl h3, by simp [h4, h6], by simp [h4]⟩

end Fullock.Props
