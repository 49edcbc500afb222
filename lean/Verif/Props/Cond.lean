import Verif.Props.MCCases
import Verif.Proofs.MCSignal
/-!
Named conditions: C25 (mutex on return), C26 (no lost wakeup), C27 (who is woken), C28 (signals are
not stored), C29 (a signal reaches a waiting thread), C30 (waiter records).

`lst (s.pc t) = some (c, w)` says that `t` is in a wait on `c` and its waiter record `w` is in the
list of `c`; `s.mem.wup w` that it has been woken; `s.pc t = .wSpin c w m kd` that it has released `m`
and is blocked; `pre (s.pc t) = some m` that it is in a wait and has not released `m` yet.
-/
namespace Fullock.Props
open MC

/-! ## C25: a wait returns with the mutex held -/

/-- C25 as stated. -/
def C25_full : Prop := ∀ s, Reach noDeath s → ∀ t c m kd r, t ≠ 0 → s.last t = .wait c m kd →
  s.pc t = .done r → (r = 0 ∨ r = ETIMEDOUT) → Owns s m t

/-- 1 waits with a time limit, 2 takes the mutex, the wait times out, and so does taking the mutex
again, the time of which is limited as well. -/
def timedOut : List Ev :=
  .call 1 (.lock 0 .block) :: gos 1 7 ++ .call 1 (.wait 5 0 .timed) :: gos 1 15 ++
  .call 2 (.lock 0 .block) :: gos 2 6 ++ [.go 1 .limit, .go 1 .go, .go 1 .limit] ++ gos 1 4

/-- `timedwait` returns ETIMEDOUT although 2 owns the mutex. -/
theorem C25_not_full : ¬ C25_full := by
  intro h
  obtain ⟨s, hr, h1⟩ := run_case (s0 := init 2 2 3 junk0) (es := timedOut)
    (fun s => (s.last 1, s.pc 1, s.mem.dep 0 1, s.mem.dep 0 2))
    (.wait 5 0 .timed, .done ETIMEDOUT, 0, 1)
    (by set_option synthInstance.maxSize 100000 in set_option synthInstance.maxHeartbeats 400000 in decide +kernel)
  simp only [Prod.mk.injEq] at h1
  have := (h s (run_reach_noDeath hr (by decide)) 1 5 0 .timed ETIMEDOUT (by decide) h1.1 h1.2.1
    (.inr rfl)).2.2
  omega

/-- Proved part: a wait, timed or not, that returns 0 returns with the mutex owned, whoever dies.
(Missing: ETIMEDOUT.) -/
theorem C25_zero_partial {s : State} (r : Reach anyEv s) {t c m : Nat} {kd : Kind} (t0 : t ≠ 0)
    (ta : s.alive t = true) (hc : s.last t = .wait c m kd) (hd : s.pc t = .done 0) : Owns s m t := by
  have := inW_reach r hc
  rw [hd] at this
  exact ⟨t0, ta, this.1 rfl⟩

/-- The untimed wait never returns ETIMEDOUT (nor EBUSY), so that C25 holds for it. -/
theorem C25_untimed {s : State} (r : Reach anyEv s) {t c m x : Nat} (t0 : t ≠ 0)
    (ta : s.alive t = true) (hc : s.last t = .wait c m .block) (hd : s.pc t = .done x) :
    x ≠ ETIMEDOUT ∧ x ≠ EBUSY ∧ (x = 0 → Owns s m t) := by
  have := inW_reach r hc
  rw [hd] at this
  exact ⟨(this.2 rfl).1, (this.2 rfl).2, fun h => ⟨t0, ta, this.1 h⟩⟩

/-- ... and then it is in fact the only owner, and recorded as such. -/
theorem C25_exclusive {s : State} (r : Reach okDie s) {t c m : Nat} {kd : Kind} (t0 : t ≠ 0)
    (ta : s.alive t = true) (hc : s.last t = .wait c m kd) (hd : s.pc t = .done 0) :
    s.mem.mval m = t ∧ ∀ u, Owns s m u → u = t := by
  have own : 1 ≤ s.mem.dep m t := by
    have := inW_reach r hc
    rw [hd] at this
    exact this.1 rfl
  have i := inv_reach (fun _ _ h => h) r
  have h1 := ((i.th t t0 ta).own m own).2.1
  exact ⟨h1, fun u hu => (((i.th u hu.1 hu.2.1).own m hu.2.2).2.1).symm.trans h1⟩

/-- 1 and then 2 wait on condition 5 with mutex 0; 3 locks the mutex. -/
def twoWait : List Ev :=
  .call 1 (.lock 0 .block) :: gos 1 7 ++ .call 1 (.wait 5 0 .block) :: gos 1 15 ++
  .call 2 (.lock 0 .block) :: gos 2 6 ++ .call 2 (.wait 5 0 .timed) :: gos 2 14 ++
  .call 3 (.lock 0 .block) :: gos 3 6

/-- Non-vacuity of C25: 3 signals and unlocks, 1 comes back with the mutex. -/
def oneBack : List Ev :=
  twoWait ++ .call 3 (.signal 5) :: gos 3 7 ++ .call 3 (.unlock 0) :: gos 3 7 ++ gos 1 8

example : ∃ s, Reach okDie s ∧ Reach anyEv s ∧ s.alive 1 = true ∧ s.last 1 = .wait 5 0 .block ∧
    s.pc 1 = .done 0 ∧ s.pc 2 = .wSpin 5 1 0 .timed := by
  obtain ⟨s, hr, h1⟩ := run_case (s0 := init 2 2 3 junk0) (es := oneBack)
    (fun s => (s.alive 1, s.last 1, s.pc 1, s.pc 2))
    (true, .wait 5 0 .block, .done 0, .wSpin 5 1 0 .timed)
    (by set_option synthInstance.maxSize 100000 in set_option synthInstance.maxHeartbeats 400000 in decide +kernel)
  simp only [Prod.mk.injEq] at h1
  exact ⟨s, run_reach_okDie hr (by decide), run_reach hr, h1⟩

/-! ## C26: no lost wakeup -/

/-- The discipline under which C26 is stated: threads wait with a mutex they own (and do not die in
the window of `okDie`, in which exclusion itself fails). -/
def disciplined (s : State) (e : Ev) : Prop := okDie s e ∧ waitOwner s e

/-- When a signaller or broadcaster, owning the mutex, is about to wake a thread that waits with this
mutex, that thread has released the mutex (so that it will not reset its own wakeup). -/
theorem C26_chosen {s : State} (r : Reach disciplined s) {t u c m : Nat} {kd : Kind} (hut : u ≠ t)
    (own : Owns s m u) (t0 : t ≠ 0) (ta : s.alive t = true) (hc : s.last t = .wait c m kd) :
    pre (s.pc t) = none := by
  cases hx : pre (s.pc t) with
  | none => rfl
  | some m' =>
    exfalso
    have h1 := pre_reach (fun _ _ h => h.2) r t m' hx
    have hm : m' = m := by
      have h2 := inW_reach r hc
      generalize s.pc t = p at h2 hx
      clear hc h1
      induction p <;> simp_all [InW, pre] <;>
        (rename_i k; cases k <;> simp_all [pre])
    subst hm
    have i := inv_reach (fun _ _ h => h.1) r
    have e1 := ((i.th u own.1 own.2.1).own m' own.2.2).2.1
    have e2 := ((i.th t t0 ta).own m' h1).2.1
    exact hut (e1.symm.trans e2)

/-- C26: the wakeup of a thread by a signal or broadcast of the owner of the mutex is not lost: from
the step that wakes it, whatever all other threads (and it) do, it is woken as long as its record is
listed. -/
theorem C26_no_lost_wakeup {s s1 s2 : State} (r : Reach disciplined s) {t u c m w : Nat} {kd : Kind}
    {ch : Choice} {es : List Ev} (hut : u ≠ t) (own : Owns s m u) (t0 : t ≠ 0)
    (hc : s.last t = .wait c m kd) (hl : lst (s.pc t) = some (c, w))
    (hu : s.pc u = .sSet w ∨ ∃ xs, s.pc u = .bSet w xs) (h1 : step s (.go u ch) = some s1)
    (nc : noCall t es) (h2 : run s1 es = some s2) (ta : s2.alive t = true) :
    (lst (s2.pc t) = some (c, w) ∨ lst (s2.pc t) = none) ∧
      (lst (s2.pc t) = some (c, w) → s2.mem.wup w = true) := by
  have i := recs_reach r
  have i1 := recs_step i h1
  have ta1 := run_alive h2 ta
  have ta0 : s.alive t = true := run_alive (es := [.go u ch]) (by simp [run, h1]) ta1
  have hn := C26_chosen r hut own t0 ta0 hc
  have key : s1.pc t = s.pc t ∧ s1.mem.wup w = true := by
    rcases step_cases h1 with ⟨v, c', x, h, -⟩ | ⟨v, c', M', p', h, va, hp, rfl⟩ | ⟨v, h, -⟩
    · cases h
    · cases h
      refine ⟨by simp [Ne.symm hut], ?_⟩
      have hst := stp_of_plan hp
      rcases hu with hu | ⟨xs, hu⟩
      · rw [hu] at hst; cases hst; simp
      · rw [hu] at hst; cases hst; simp
    · cases h
  exact woken_until_end i1 (by rw [key.1]; exact .inl hl) (by rw [key.1]; exact hn)
    (fun _ => key.2) nc h2 ta

/-- A woken thread that is blocked leaves the wait with its next step, and not by its time limit. -/
theorem C26_leaves {s : State} {t c w m : Nat} {kd : Kind} (ta : s.alive t = true)
    (hp : s.pc t = .wSpin c w m kd) (hw : s.mem.wup w = true) :
    step s (.go t .go) = some { s with pc := upd s.pc t (.lkRead m kd (.wt c w m 0)) } ∧
    ∀ ch, ch ≠ .go → step s (.go t ch) = none := by
  refine ⟨by simp [step, ta, hp, plan, hw], ?_⟩
  intro ch hch
  cases ch <;> simp_all [step, plan]

/-- Threads that nobody waits for need no discipline: a wakeup is kept while the thread does not
move, wherever in its wait it is. -/
theorem C26_kept {s s' : State} (r : Reach anyEv s) {t c w : Nat} {es : List Ev}
    (ta : s.alive t = true) (hl : lst (s.pc t) = some (c, w)) (hw : s.mem.wup w = true)
    (hs : still t es) (h : run s es = some s') :
    s'.pc t = s.pc t ∧ s'.alive t = true ∧ s'.mem.wup w = true :=
  (woken_stays (recs_reach r) ta hl hw hs h).2

/-- Does the event obey the discipline, for certain? -/
def okEv (s : State) : Ev → Bool
  | .die _ => false
  | .call t (.wait _ m _) => decide (t ≠ 0) && s.alive t && decide (1 ≤ s.mem.dep m t)
  | _ => true

theorem okEv_disciplined {s : State} {e : Ev} (h : okEv s e = true) : disciplined s e := by
  cases e with
  | die t => cases h
  | go t c => exact ⟨trivial, trivial⟩
  | call t c =>
    refine ⟨trivial, ?_⟩
    cases c <;> first | trivial | skip
    simp only [okEv, Bool.and_eq_true, decide_eq_true_eq] at h
    exact ⟨h.1.1, h.1.2, h.2⟩

/-- A run of the model that checks the discipline on the way. -/
def runD (s : State) : List Ev → Option State
  | [] => some s
  | e :: es => if okEv s e then (step s e).bind (runD · es) else none

theorem runD_reach {s s' : State} {es : List Ev} (r : Reach disciplined s) (h : runD s es = some s') :
    Reach disciplined s' ∧ run s es = some s' := by
  induction es generalizing s with
  | nil => cases h; exact ⟨r, rfl⟩
  | cons e es ih =>
    simp only [runD] at h
    split at h
    · rename_i hc
      simp only [Option.bind_eq_some_iff] at h
      obtain ⟨s1, h1, h⟩ := h
      obtain ⟨a, b⟩ := ih (.step r (okEv_disciplined hc) h1) h
      exact ⟨a, by simp [run, h1, b]⟩
    · cases h

theorem runD_case {α : Type} {nm nc nw : Nat} {junk : Mem} {es : List Ev} (f : State → α) (v : α)
    (h : (runD (init nm nc nw junk) es).map f = some v) :
    ∃ s, Reach disciplined s ∧ run (init nm nc nw junk) es = some s ∧ f s = v := by
  cases hr : runD (init nm nc nw junk) es with
  | none => rw [hr] at h; simp at h
  | some s =>
    rw [hr] at h
    obtain ⟨a, b⟩ := runD_reach (.init ..) hr
    exact ⟨s, a, b, by simpa using h⟩

/-- Non-vacuity of C26: 3 owns the mutex and is about to wake 1. -/
example : ∃ s, Reach disciplined s ∧ Owns s 0 3 ∧ s.last 1 = .wait 5 0 .block ∧
    lst (s.pc 1) = some (5, 0) ∧ s.pc 3 = .sSet 0 ∧ s.pc 1 = .wSpin 5 0 0 .block ∧
    ∃ s1, step s (.go 3 .go) = some s1 := by
  obtain ⟨s, r, -, h1⟩ := runD_case (nm := 2) (nc := 2) (nw := 3) (junk := junk0)
    (es := twoWait ++ .call 3 (.signal 5) :: gos 3 5)
    (fun s => (s.alive 3, s.mem.dep 0 3, s.last 1, s.pc 3, s.pc 1))
    (true, 1, .wait 5 0 .block, .sSet 0, .wSpin 5 0 0 .block)
    (by set_option synthInstance.maxSize 100000 in set_option synthInstance.maxHeartbeats 400000 in decide +kernel)
  simp only [Prod.mk.injEq] at h1
  obtain ⟨a1, a2, a3, a4, a5⟩ := h1
  exact ⟨s, r, ⟨by decide, a1, by omega⟩, a3, by rw [a5]; rfl, a4, a5, by simp [step, a1, a4, plan]⟩

/-- The mutex is needed: a signal sent without it, between the listing of the waiter and the waiter
setting its status (which it has set before), is lost. -/
theorem C26_undisciplined : ∃ s s' : State, Reach noDeath s ∧ s.pc 1 = .wSet 5 0 0 .block ∧
    s.pc 3 = .done 0 ∧ s.last 3 = .signal 5 ∧ s.mem.wup 0 = true ∧ run s (gos 1 5) = some s' ∧
    s'.pc 1 = .wSpin 5 0 0 .block ∧ s'.mem.wup 0 = false := by
  obtain ⟨s', hr, h1⟩ := run_case (s0 := init 2 2 3 junk0)
    (es := (.call 1 (.lock 0 .block) :: gos 1 7 ++ .call 1 (.wait 5 0 .block) :: gos 1 10 ++
      .call 3 (.signal 5) :: gos 3 6))
    (fun s => (s.pc 1, s.pc 3, s.last 3, s.mem.wup 0,
      (run s (gos 1 5)).map fun s' => (s'.pc 1, s'.mem.wup 0)))
    (.wSet 5 0 0 .block, .done 0, .signal 5, true, some (.wSpin 5 0 0 .block, false))
    (by set_option synthInstance.maxSize 100000 in set_option synthInstance.maxHeartbeats 400000 in decide +kernel)
  simp only [Prod.mk.injEq, Option.map_eq_some_iff] at h1
  obtain ⟨b1, b2, b3, b4, s2, b5, b6⟩ := h1
  exact ⟨s', s2, run_reach_noDeath hr (by decide), b1, b2, b3, b4, b5, b6⟩

/-! ## C27: who is woken -/

/-- A signal sent while nobody else moves wakes exactly the thread that has waited longest among those
not woken yet. -/
theorem C27_signal {s : State} (r : Reach anyEv s) {t c x : Nat} (t0 : t ≠ 0)
    (ta : s.alive t = true) (out : s.pc t = .done x) (ho : open_ s.alive s.mem.cL)
    (hc : c ∈ s.mem.clist) (hw : ∃ w ∈ s.mem.ws c, s.mem.wup w = false) :
    ∃ w s', Returns s t (.signal c) (List.replicate ((s.mem.ws c).length + 5) .go) 0 s' ∧
      w ∈ s.mem.ws c ∧ s.mem.wup w = false ∧
      (∀ v ∈ s.mem.ws c, s.mem.wup v = false → s.mem.warr w ≤ s.mem.warr v) ∧
      s'.mem = { s.mem with cL := 0, wup := upd s.mem.wup w true } := by
  obtain ⟨w, h1, h2, h3, h4⟩ := pick_oldest (arr := s.mem.warr) ((recs_reach r).recs.sorted c hc) none hw
  exact ⟨w, _, returns_of t0 ta out (c := .signal c) (exec_signal_wake ho hc h1), h2, h3, h4, rfl⟩

/-- A broadcast sent while nobody else moves wakes all waiting threads and nobody else. -/
theorem C27_broadcast {s : State} (r : Reach anyEv s) {t c x : Nat} (t0 : t ≠ 0)
    (ta : s.alive t = true) (out : s.pc t = .done x) (ho : open_ s.alive s.mem.cL)
    (hc : c ∈ s.mem.clist) :
    ∃ s', Returns s t (.broadcast c) (List.replicate (bSteps s.mem.wup (s.mem.ws c) + 4) .go) 0 s' ∧
      (∀ w ∈ s.mem.ws c, s'.mem.wup w = true) ∧
      (∀ w, w ∉ s.mem.ws c → s'.mem.wup w = s.mem.wup w) ∧
      s'.mem = { s.mem with cL := 0, wup := s'.mem.wup } := by
  refine ⟨_, returns_of t0 ta out (c := .broadcast c)
    (exec_broadcast ho hc ((recs_reach r).recs.nd c hc)), ?_, ?_, rfl⟩
  · intro w hw; simp [hw]
  · intro w hw; simp [hw]

/-- The list of a condition is the list of the threads waiting on it, each once, youngest first;
`warr` is the time at which they started to wait. -/
theorem C27_queue {s : State} (r : Reach anyEv s) :
    (∀ t c w, s.alive t = true → lst (s.pc t) = some (c, w) →
      c ∈ s.mem.clist ∧ w ∈ s.mem.ws c ∧ s.mem.wtid w = t) ∧
    (∀ c ∈ s.mem.clist, ∀ w ∈ s.mem.ws c, s.alive (s.mem.wtid w) = true →
      lst (s.pc (s.mem.wtid w)) = some (c, w)) ∧
    (∀ c ∈ s.mem.clist, (s.mem.ws c).Nodup ∧
      (s.mem.ws c).Pairwise fun a b => s.mem.warr b < s.mem.warr a) := by
  have i := (recs_reach r).recs
  exact ⟨fun t c w ta hl => i.listed t ta c w hl, i.back, fun c hc => ⟨i.nd c hc, i.sorted c hc⟩⟩

/-- Starting to wait stamps the record with a time later than that of all records listed. -/
theorem C27_stamp {s s' : State} (r : Reach anyEv s) {t c w m : Nat} {kd : Kind}
    (hp : s.pc t = .wIns c w m kd) (h : step s (.go t .go) = some s') :
    s'.mem.ws c = w :: s.mem.ws c ∧ (∀ d ∈ s.mem.clist, ∀ v ∈ s.mem.ws d, s'.mem.warr v < s'.mem.warr w) ∧
      ∀ v, v ≠ w → s'.mem.warr v = s.mem.warr v := by
  have i := (recs_reach r).recs
  rcases step_cases h with ⟨v, c', x, h2, -⟩ | ⟨v, c', M', p', h2, va, hpl, rfl⟩ | ⟨v, h2, -⟩
  · cases h2
  · cases h2
    have hst := stp_of_plan hpl
    rw [hp] at hst
    cases hst
    refine ⟨by simp, ?_, ?_⟩
    · intro d hd v hv
      have := i.ticks d hd v hv
      have hvw : v ≠ w := by
        rintro rfl
        exact (i.handOut t v (by simp [hp, hand])).2 d hd hv
      simpa [hvw] using this
    · intro v hv; simp [hv]
  · cases h2

/-- Under concurrency: between the call of a signal on `c` and its return, whatever the other threads
do, a thread `t` blocked in a wait on `c` throughout is woken, or else the signal has set the record of
a thread that started to wait before `t`. -/
theorem C27_signal_concurrent {s s' : State} (r : Reach anyEv s) {t u c w x : Nat} {es : List Ev}
    (u0 : u ≠ 0) (hut : u ≠ t) (ta : s.alive t = true) (hl : lst (s.pc t) = some (c, w))
    (hs : still t es) (nc : noCall u es) (hu : s.pc u = (Call.signal c).start)
    (h : run s es = some s') (ua : s'.alive u = true) (hd : s'.pc u = .done x) :
    x = 0 ∧ (s'.mem.wup w = true ∨ ∃ es1 es2 s1 w', es = es1 ++ es2 ∧ run s es1 = some s1 ∧
      s1.pc u = .sSet w' ∧ s1.mem.warr w' ≤ s1.mem.warr w) :=
  signal_done (recs_reach r) u0 ta hl hs nc h hut ua (by rw [hu]; rfl) (by rw [hu]; rfl) hd

/-- Under concurrency: between the call of a broadcast on `c` and its return every thread blocked in a
wait on `c` throughout is woken. -/
theorem C27_broadcast_concurrent {s s' : State} (r : Reach anyEv s) {t u c w x : Nat} {es : List Ev}
    (u0 : u ≠ 0) (hut : u ≠ t) (ta : s.alive t = true) (hl : lst (s.pc t) = some (c, w))
    (hs : still t es) (nc : noCall u es) (hu : s.pc u = (Call.broadcast c).start)
    (h : run s es = some s') (ua : s'.alive u = true) (hd : s'.pc u = .done x) :
    x = 0 ∧ s'.mem.wup w = true := by
  have := (signal_run (recs_reach r) u0 ta hl hs nc h hut).2 (fun _ => by rw [hu]; rfl) ua
  rw [hd] at this
  exact ⟨this.2, this.1⟩

/-- Under concurrency: a blocked thread is woken only by a signal or broadcast on the condition it
waits on. -/
theorem C27_only_signals {s s' : State} (r : Reach anyEv s) {t c w : Nat} {e : Ev}
    (ta : s.alive t = true) (hl : lst (s.pc t) = some (c, w)) (he : early (s.pc t))
    (h0 : s.mem.wup w = false) (h : step s e = some s') (h1 : s'.mem.wup w = true) :
    ∃ u, u ≠ t ∧ e = .go u .go ∧ (s.last u = .signal c ∨ s.last u = .broadcast c) := by
  have i := recs_reach r
  rcases step_cases h with ⟨v, c', x, rfl, -, -, -, rfl⟩ | ⟨v, c', M', p', rfl, va, hp, rfl⟩ |
    ⟨v, rfl, -, rfl⟩
  · rw [h0] at h1; cases h1
  · have hst := stp_of_plan hp
    by_cases hvt : v = t
    · subst hvt
      rw [early_wup hst he h0] at h1
      cases h1
    · rcases wup_other i ta va hvt hl hst with hh | ⟨-, hh | ⟨xs, hh⟩⟩
      · rw [hh, h0] at h1; cases h1
      all_goals
        refine ⟨v, hvt, ?_, ?_⟩
        · rw [hh] at hp
          cases c' <;> simp [plan] at hp ⊢
        · have hw := atW_reach r v va
          rw [hh] at hw
          obtain ⟨a1, a2, a3⟩ := i.recs.listed t ta c w hl
          first
          | obtain ⟨d, e1, e2, e3⟩ := hw
            rw [i.recs.disj c a1 d e2 w a2 e3]; exact .inl e1
          | obtain ⟨d, q, e1, e2, e3⟩ := hw
            rw [i.recs.disj c a1 d e2 w a2 (by rw [e3]; simp)]; exact .inr e1
  · rw [h0] at h1; cases h1

/-- Non-vacuity of C27: two threads wait, the older one first in line for the signal. -/
theorem twoWait_case : ∃ s, Reach noDeath s ∧ Reach anyEv s ∧ s.alive = (fun _ => true) ∧
    s.pc 3 = .done 0 ∧ s.mem.cL = 0 ∧ s.mem.clist = [5] ∧ s.mem.ws 5 = [1, 0] ∧
    s.mem.wup 0 = false ∧ s.mem.wup 1 = false ∧ s.mem.warr 0 = 0 ∧ s.mem.warr 1 = 1 ∧
    s.pc 1 = .wSpin 5 0 0 .block ∧ s.pc 2 = .wSpin 5 1 0 .timed ∧ s.mem.wfree = [2] ∧
    s.mem.wtid 0 = 1 ∧ s.mem.wtid 1 = 2 := by
  obtain ⟨s, hr, h1⟩ := run_case (s0 := init 2 2 3 junk0) (es := twoWait)
    (fun s => (s.pc 3, s.mem.cL, s.mem.clist, s.mem.ws 5, s.mem.wup 0, s.mem.wup 1, s.mem.warr 0,
      s.mem.warr 1, s.pc 1, s.pc 2, s.mem.wfree, s.mem.wtid 0, s.mem.wtid 1))
    (.done 0, 0, [5], [1, 0], false, false, 0, 1, .wSpin 5 0 0 .block, .wSpin 5 1 0 .timed, [2], 1, 2)
    (by set_option synthInstance.maxSize 100000 in set_option synthInstance.maxHeartbeats 400000 in decide +kernel)
  simp only [Prod.mk.injEq] at h1
  have ha : s.alive = fun _ => true := by
    have : ∀ (es : List Ev) (s s' : State), es.all (fun e => !e.isDie) = true → run s es = some s' →
        s'.alive = s.alive := by
      intro es
      induction es with
      | nil => intro s s' _ h; cases h; rfl
      | cons e es ih =>
        intro s s' hd h
        simp only [run, Option.bind_eq_some_iff] at h
        obtain ⟨s1, h1, h⟩ := h
        simp only [List.all_cons, Bool.and_eq_true] at hd
        rw [ih s1 s' hd.2 h]
        rcases step_cases h1 with ⟨u, c, r, rfl, -, -, -, rfl⟩ | ⟨u, c, M', p', rfl, -, -, rfl⟩ |
          ⟨u, rfl, -, rfl⟩
        · rfl
        · rfl
        · simp [Ev.isDie] at hd
    exact this _ _ _ (by decide) hr
  exact ⟨s, run_reach_noDeath hr (by decide), run_reach hr, ha, h1⟩

example : ∃ s, Reach anyEv s ∧ s.alive 3 = true ∧ s.pc 3 = .done 0 ∧ open_ s.alive s.mem.cL ∧
    5 ∈ s.mem.clist ∧ (∃ w ∈ s.mem.ws 5, s.mem.wup w = false) ∧ lst (s.pc 1) = some (5, 0) ∧
    lst (s.pc 2) = some (5, 1) ∧ early (s.pc 1) := by
  obtain ⟨s, -, r, ha, h3, hL, hc, hws, h0, h1, -, -, p1, p2, -⟩ := twoWait_case
  exact ⟨s, r, by simp [ha], h3, .inl hL, by simp [hc], ⟨0, by simp [hws], h0⟩, by rw [p1]; rfl,
    by rw [p2]; rfl, .inr ⟨_, _, _, _, p1⟩⟩

/-- Non-vacuity of the concurrent statements: 3 signals while 4 broadcasts and 6 starts to wait. -/
example : ∃ s es s', Reach anyEv s ∧ s.alive 1 = true ∧ lst (s.pc 1) = some (5, 0) ∧ still 1 es ∧
    noCall 3 es ∧ noCall 4 es ∧ s.pc 3 = (Call.signal 5).start ∧ s.pc 4 = (Call.broadcast 5).start ∧
    run s es = some s' ∧ s'.alive 3 = true ∧ s'.alive 4 = true ∧ s'.pc 3 = .done 0 ∧
    s'.pc 4 = .done 0 := by
  obtain ⟨s, hr, h1⟩ := run_case (s0 := init 2 2 3 junk0)
    (es := twoWait ++ [.call 3 (.signal 5), .call 4 (.broadcast 5)])
    (fun s => (s.alive 1, s.pc 1, s.pc 3, s.pc 4,
      (run s (gos 3 2 ++ .call 6 (.lock 1 .block) :: gos 6 7 ++ gos 3 5 ++ gos 4 4 ++
        .call 6 (.wait 5 1 .block) :: gos 6 3 ++ gos 4 3)).map
        fun s' => (s'.alive 3, s'.alive 4, s'.pc 3, s'.pc 4)))
    (true, .wSpin 5 0 0 .block, (Call.signal 5).start, (Call.broadcast 5).start,
      some (true, true, .done 0, .done 0))
    (by set_option synthInstance.maxSize 100000 in set_option synthInstance.maxHeartbeats 400000 in decide +kernel)
  simp only [Prod.mk.injEq, Option.map_eq_some_iff] at h1
  obtain ⟨b1, b2, b3, b4, s2, b5, b6, b7, b8, b9⟩ := h1
  exact ⟨s, _, s2, run_reach hr, b1, by rw [b2]; rfl, by unfold still gos; simp +decide [List.replicate],
    by unfold noCall gos; simp +decide [List.replicate], by unfold noCall gos; simp +decide [List.replicate],
    b3, b4, b5, b6, b7, b8, b9⟩

/-! ## C28: signals are not stored -/

/-- A signal or broadcast on a condition without threads to wake returns 0 and changes nothing. -/
theorem C28_no_waiter {s : State} (r : Reach anyEv s) {t c x : Nat} (t0 : t ≠ 0)
    (ta : s.alive t = true) (out : s.pc t = .done x) (ho : open_ s.alive s.mem.cL)
    (hc : c ∈ s.mem.clist) (hw : ∀ w ∈ s.mem.ws c, s.mem.wup w = true) :
    (∃ s', Returns s t (.signal c) (List.replicate ((s.mem.ws c).length + 4) .go) 0 s' ∧
      s'.mem = { s.mem with cL := 0 }) ∧
    (∃ s', Returns s t (.broadcast c) (List.replicate (bSteps s.mem.wup (s.mem.ws c) + 4) .go) 0 s' ∧
      s'.mem = { s.mem with cL := 0 }) := by
  refine ⟨⟨_, returns_of t0 ta out (c := .signal c) (exec_signal_none ho hc (pick_none hw _)), rfl⟩,
    ⟨_, returns_of t0 ta out (c := .broadcast c)
      (exec_broadcast ho hc ((recs_reach r).recs.nd c hc)), ?_⟩⟩
  have : (fun w => decide (w ∈ s.mem.ws c) || s.mem.wup w) = s.mem.wup := by
    funext w
    by_cases h : w ∈ s.mem.ws c
    · simp [h, hw w h]
    · simp [h]
  simp only [this]

/-- On a name nobody ever waited on, EINVAL, without effect. -/
theorem C28_unknown {s : State} {t c x : Nat} (t0 : t ≠ 0)
    (ta : s.alive t = true) (out : s.pc t = .done x) (ho : open_ s.alive s.mem.cL)
    (hc : c ∉ s.mem.clist) :
    (∃ s', Returns s t (.signal c) (List.replicate 3 .go) EINVAL s' ∧
      s'.mem = { s.mem with cL := 0 }) ∧
    (∃ s', Returns s t (.broadcast c) (List.replicate 3 .go) EINVAL s' ∧
      s'.mem = { s.mem with cL := 0 }) :=
  ⟨⟨_, returns_of t0 ta out (c := .signal c) (exec_signal_unknown ho hc), rfl⟩,
    ⟨_, returns_of t0 ta out (c := .broadcast c) (exec_signal_unknown ho hc), rfl⟩⟩

/-- A later waiter is not woken by an earlier signal: a thread found woken in its wait has been woken by
a step of a signal or broadcast made after it had entered the list (and set its status). -/
theorem C28_not_stored {s s1 s' : State} (r : Reach anyEv s) {t c w m : Nat} {kd : Kind}
    {es : List Ev} (ta : s'.alive t = true) (hp : s.pc t = .wSet c w m kd)
    (h1 : step s (.go t .go) = some s1) (nc : noCall t es) (h : run s1 es = some s')
    (he : early (s'.pc t)) (hw : s'.mem.wup w = true) :
    ∃ es1 u ch es2 s2, es = es1 ++ .go u ch :: es2 ∧ run s1 es1 = some s2 ∧ u ≠ t ∧
      (s2.pc u = .sSet w ∨ ∃ xs, s2.pc u = .bSet w xs) := by
  have i1 := recs_step (recs_reach r) h1
  rcases step_cases h1 with ⟨v, c', x, h2, -⟩ | ⟨v, c', M', p', h2, va, hpl, rfl⟩ | ⟨v, h2, -⟩
  · cases h2
  · cases h2
    have hst := stp_of_plan hpl
    rw [hp] at hst
    cases hst
    exact woken_in_wait (c := c) i1 (by simp [lst, uRec]) (by simp) nc h ta he hw
  · cases h2

/-- Non-vacuity of C28: after all waits are over condition 5 exists and has no waiters, 6 does not
exist; signals have been sent before; 4 starts to wait and is not woken. -/
example : ∃ s, Reach anyEv s ∧ s.alive 3 = true ∧ s.pc 3 = .done 0 ∧ open_ s.alive s.mem.cL ∧
    5 ∈ s.mem.clist ∧ 6 ∉ s.mem.clist ∧ (∀ w ∈ s.mem.ws 5, s.mem.wup w = true) := by
  obtain ⟨s, hr, h1⟩ := run_case (s0 := init 2 2 3 junk0)
    (es := twoWait ++ .call 3 (.broadcast 5) :: gos 3 8 ++ .call 3 (.unlock 0) :: gos 3 7 ++ gos 1 8)
    (fun s => (s.alive 3, s.pc 3, s.mem.cL, s.mem.clist, s.mem.ws 5, s.mem.wup 1))
    (true, .done 0, 0, [5], [1], true)
    (by set_option synthInstance.maxSize 100000 in set_option synthInstance.maxHeartbeats 400000 in decide +kernel)
  simp only [Prod.mk.injEq] at h1
  obtain ⟨b1, b2, b3, b4, b5, b6⟩ := h1
  exact ⟨s, run_reach hr, b1, b2, .inl b3, by simp [b4], by simp [b4], by simp [b5, b6]⟩

example : ∃ s s1 s' es, Reach anyEv s ∧ s'.alive 2 = true ∧ s.pc 2 = .wSet 5 1 0 .timed ∧
    step s (.go 2 .go) = some s1 ∧ noCall 2 es ∧ run s1 es = some s' ∧
    early (s'.pc 2) ∧ s'.mem.wup 1 = true := by
  obtain ⟨s, hr, h1⟩ := run_case (s0 := init 2 2 3 junk0)
    (es := .call 1 (.lock 0 .block) :: gos 1 7 ++ .call 1 (.wait 5 0 .block) :: gos 1 15 ++
      .call 2 (.lock 0 .block) :: gos 2 6 ++ .call 2 (.wait 5 0 .timed) :: gos 2 9)
    (fun s => (s.pc 2, ((step s (.go 2 .go)).bind fun s1 =>
      (run s1 (gos 2 4 ++ .call 3 (.broadcast 5) :: gos 3 8)).map fun s' =>
        (s'.alive 2, s'.pc 2, s'.mem.wup 1))))
    (.wSet 5 1 0 .timed, some (true, .wSpin 5 1 0 .timed, true))
    (by set_option synthInstance.maxSize 100000 in set_option synthInstance.maxHeartbeats 400000 in decide +kernel)
  simp only [Prod.mk.injEq, Option.bind_eq_some_iff, Option.map_eq_some_iff] at h1
  obtain ⟨b1, s1, b2, s2, b3, b4, b5, b6⟩ := h1
  exact ⟨s, s1, s2, _, run_reach hr, b4, b1, b2,
    by unfold noCall gos; simp +decide [List.replicate], b3, .inr ⟨_, _, _, _, b5⟩, b6⟩

/-! ## C29: a signal reaches a waiting thread -/

/-- `t` is alive, blocked in a wait on `c`, and not woken. -/
def Blocked (s : State) (c t : Nat) : Prop :=
  s.alive t = true ∧ ∃ w m kd, s.pc t = .wSpin c w m kd ∧ s.mem.wup w = false

/-- C29 as stated: a signal (even one sent while nobody else moves) wakes a blocked live thread if there
is one. -/
def C29_full : Prop := ∀ s, Reach anyEv s → ∀ u c cs s', Returns s u (.signal c) cs 0 s' →
  (∃ t, Blocked s c t) → ∃ t, Blocked s c t ∧ ¬ Blocked s' c t

/-- 1 waits and dies, 2 waits: the signal of 3 goes to the record of 1. -/
theorem C29_not_full : ¬ C29_full := by
  intro h
  obtain ⟨s, hr, h1⟩ := run_case (s0 := init 2 2 3 junk0) (es := twoWait ++ [.die 1])
    (fun s => (s.alive 1, s.alive 2, s.pc 2, s.mem.wup 1,
      (run s (.call 3 (.signal 5) :: alone 3 (List.replicate 7 .go))).map fun s' =>
        (s'.pc 3, s'.alive 2, s'.pc 2, s'.mem.wup 1)))
    (false, true, .wSpin 5 1 0 .timed, false, some (.done 0, true, .wSpin 5 1 0 .timed, false))
    (by set_option synthInstance.maxSize 100000 in set_option synthInstance.maxHeartbeats 400000 in decide +kernel)
  simp only [Prod.mk.injEq, Option.map_eq_some_iff] at h1
  obtain ⟨b0, b1, b2, b3, s', b4, b5, b6, b7, b8⟩ := h1
  have r := run_reach hr
  obtain ⟨t, ⟨ta, w, m, kd, hp, hw⟩, h2⟩ := h s r 3 5 _ s' ⟨b4, b5⟩ ⟨2, b1, _, _, _, b2, b3⟩
  -- the only live blocked thread is 2
  have i := (recs_reach r).recs
  obtain ⟨a1, a2, a3⟩ := i.listed t ta 5 w (by rw [hp]; rfl)
  have ht : t = 2 := by
    obtain ⟨s2, hr2, e⟩ := run_case (s0 := init 2 2 3 junk0) (es := twoWait ++ [.die 1])
      (fun s => (s.mem.ws 5, s.mem.wtid 0, s.mem.wtid 1)) ([1, 0], 1, 2)
      (by set_option synthInstance.maxSize 100000 in set_option synthInstance.maxHeartbeats 400000 in decide +kernel)
    rw [hr] at hr2
    cases hr2
    simp only [Prod.mk.injEq] at e
    obtain ⟨e1, e2, e3⟩ := e
    rw [e1] at a2
    simp only [List.mem_cons, List.not_mem_nil, or_false] at a2
    rcases a2 with rfl | rfl
    · rw [← a3, e3]
    · rw [e2] at a3; subst a3; rw [b0] at ta; cases ta
  subst ht
  exact h2 ⟨b6, _, _, _, b7, b8⟩

/-- The same without any death: the oldest waiter has reached its time limit and is taking the mutex
again; it swallows the signal. -/
theorem C29_timed_out : ∃ s s' : State, Reach noDeath s ∧ Blocked s 5 2 ∧
    Returns s 3 (.signal 5) (List.replicate 7 .go) 0 s' ∧ Blocked s' 5 2 ∧
    s.mem.wup 0 = false ∧ s.pc 1 = .lkRead 0 .timed (.wt 5 0 0 ETIMEDOUT) ∧
    s'.pc 1 = s.pc 1 ∧ s'.mem.wup 0 = true := by
  obtain ⟨s, hr, h1⟩ := run_case (s0 := init 2 2 3 junk0)
    (es := .call 1 (.lock 0 .block) :: gos 1 7 ++ .call 1 (.wait 5 0 .timed) :: gos 1 15 ++
      .call 2 (.lock 0 .block) :: gos 2 6 ++ .call 2 (.wait 5 0 .block) :: gos 2 14 ++
      .call 3 (.lock 0 .block) :: gos 3 6 ++ [.go 1 .limit])
    (fun s => (s.alive 2, s.pc 2, s.mem.wup 1, s.mem.wup 0, s.pc 1,
      (run s (.call 3 (.signal 5) :: alone 3 (List.replicate 7 .go))).map fun s' =>
        (s'.pc 3, s'.alive 2, s'.pc 2, s'.mem.wup 1, s'.pc 1, s'.mem.wup 0)))
    (true, .wSpin 5 1 0 .block, false, false, .lkRead 0 .timed (.wt 5 0 0 ETIMEDOUT),
      some (.done 0, true, .wSpin 5 1 0 .block, false, .lkRead 0 .timed (.wt 5 0 0 ETIMEDOUT), true))
    (by set_option synthInstance.maxSize 100000 in set_option synthInstance.maxHeartbeats 400000 in decide +kernel)
  simp only [Prod.mk.injEq, Option.map_eq_some_iff] at h1
  obtain ⟨b1, b2, b3, b4, b5, s', b6, b7, b8, b9, b10, b11, b12⟩ := h1
  exact ⟨s, s', run_reach_noDeath hr (by decide), ⟨b1, _, _, _, b2, b3⟩, ⟨b6, b7⟩,
    ⟨b8, _, _, _, b9, b10⟩, b4, b5, b11.trans b5.symm, b12⟩

/-- Proved part: when the threads of all listed and not woken records are alive and blocked (none has
died unswept, none is leaving by its time limit, none is still entering) the signal wakes a blocked live
thread.  (Missing: lists with other records.) -/
theorem C29_partial {s : State} (r : Reach anyEv s) {u c x t : Nat} (u0 : u ≠ 0)
    (ua : s.alive u = true) (out : s.pc u = .done x) (ho : open_ s.alive s.mem.cL)
    (hb : Blocked s c t)
    (hall : ∀ w ∈ s.mem.ws c, s.mem.wup w = false → Blocked s c (s.mem.wtid w)) :
    ∃ v s', Returns s u (.signal c) (List.replicate ((s.mem.ws c).length + 5) .go) 0 s' ∧
      Blocked s c v ∧ ¬ Blocked s' c v := by
  have i := (recs_reach r).recs
  obtain ⟨ta, w, m, kd, hp, hw⟩ := hb
  obtain ⟨a1, a2, a3⟩ := i.listed t ta c w (by rw [hp]; rfl)
  obtain ⟨w', h1, h2, h3, h4⟩ := pick_oldest (arr := s.mem.warr) (i.sorted c a1) none ⟨w, a2, hw⟩
  have hb' := hall w' h2 h3
  refine ⟨s.mem.wtid w', _, returns_of u0 ua out (c := .signal c) (exec_signal_wake ho a1 h1), hb', ?_⟩
  obtain ⟨va, w2, m2, kd2, hp2, hw2⟩ := hb'
  have hb := i.back c a1 w' h2 va
  rintro ⟨-, w3, m3, kd3, hp3, hw3⟩
  by_cases hvu : s.mem.wtid w' = u
  · rw [hvu] at hp3; simp at hp3
  · simp only [upd_apply, hvu, if_false] at hp3
    rw [hp3] at hb
    simp only [lst, Option.some.injEq, Prod.mk.injEq, true_and] at hb
    subst hb
    simp at hw3

example : ∃ s, Reach anyEv s ∧ s.alive 3 = true ∧ s.pc 3 = .done 0 ∧ open_ s.alive s.mem.cL ∧
    Blocked s 5 2 ∧ ∀ w ∈ s.mem.ws 5, s.mem.wup w = false → Blocked s 5 (s.mem.wtid w) := by
  obtain ⟨s, -, r, ha, h3, hL, hc, hws, h0, h1, -, -, p1, p2, -, t0, t1⟩ := twoWait_case
  refine ⟨s, r, by simp [ha], h3, .inl hL, ⟨by simp [ha], _, _, _, p2, h1⟩, ?_⟩
  intro w hw _
  rw [hws] at hw
  simp only [List.mem_cons, List.not_mem_nil, or_false] at hw
  rcases hw with rfl | rfl
  · rw [t1]; exact ⟨by simp [ha], _, _, _, p2, h1⟩
  · rw [t0]; exact ⟨by simp [ha], _, _, _, p1, h0⟩

/-! ## C30: waiter records -/

/-- No record is ever in two places: not twice free, not twice listed, not free and listed, not in the
hands of two threads, not in a hand and elsewhere; every history, every death. -/
theorem C30_never_twice {s : State} (r : Reach anyEv s) :
    s.mem.wfree.Nodup ∧ (∀ c ∈ s.mem.clist, (s.mem.ws c).Nodup) ∧
    (∀ c ∈ s.mem.clist, ∀ d ∈ s.mem.clist, ∀ w, w ∈ s.mem.ws c → w ∈ s.mem.ws d → c = d) ∧
    (∀ w ∈ s.mem.wfree, ∀ c ∈ s.mem.clist, w ∉ s.mem.ws c) ∧
    (∀ t w, hand (s.pc t) = some w → w ∉ s.mem.wfree ∧ ∀ c ∈ s.mem.clist, w ∉ s.mem.ws c) ∧
    (∀ t u w, hand (s.pc t) = some w → hand (s.pc u) = some w → t = u) := by
  have i := (recs_reach r).recs
  exact ⟨i.freeNd, i.nd, i.disj, i.freeOut, i.handOut, i.handOne⟩

/-- Every record of the segment is accounted for, and there are no others: it is free, or listed, or a
thread (dead or alive) is moving it. -/
theorem C30_accounted {nm nc nw : Nat} {junk : Mem} {es : List Ev} {s : State}
    (h : run (init nm nc nw junk) es = some s) (w : Nat) :
    (w ∈ s.mem.wfree ∨ (∃ c ∈ s.mem.clist, w ∈ s.mem.ws c) ∨ ∃ t, hand (s.pc t) = some w) ↔ w < nw := by
  have := (placed_run (recs_init nm nc nw junk) h w).2
  unfold placed at this
  rw [this]
  simp [init, hand]

/-- C30 as stated: when every live thread has left its calls and no dead thread's record is listed any
more, all records are free. -/
def C30_full : Prop := ∀ nm nc nw junk es s, run (init nm nc nw junk) es = some s →
  (∀ t, s.alive t = true → ∃ r, s.pc t = .done r) → (∀ c ∈ s.mem.clist, s.mem.ws c = []) →
  ∀ w < nw, w ∈ s.mem.wfree

/-- A thread that dies between taking a record and listing it takes the record with it. -/
theorem C30_not_full : ¬ C30_full := by
  intro h
  obtain ⟨s, hr, h1⟩ := run_case (s0 := init 2 2 3 junk0)
    (es := .call 1 (.lock 0 .block) :: gos 1 7 ++ .call 1 (.wait 5 0 .block) :: gos 1 7 ++ [.die 1])
    (fun s => (s.alive 1, s.mem.clist, s.mem.ws 5, s.mem.wfree))
    (false, [5], [], [1, 2])
    (by set_option synthInstance.maxSize 100000 in set_option synthInstance.maxHeartbeats 400000 in decide +kernel)
  simp only [Prod.mk.injEq] at h1
  obtain ⟨b1, b2, b3, b4⟩ := h1
  have hpc : ∀ t, t ≠ 1 → s.pc t = .done 0 := by
    have : ∀ (es : List Ev) (s s' : State) (t : Nat), (∀ e ∈ es, (∀ c, e ≠ .go t c) ∧ ∀ c, e ≠ .call t c) →
        run s es = some s' → s'.pc t = s.pc t := by
      intro es
      induction es with
      | nil => intro s s' t _ h; cases h; rfl
      | cons e es ih =>
        intro s s' t hd h
        simp only [run, Option.bind_eq_some_iff] at h
        obtain ⟨s1, h1, h⟩ := h
        rw [ih s1 s' t (fun e he => hd e (by simp [he])) h]
        have := hd e (by simp)
        rcases step_cases h1 with ⟨u, c, r, rfl, -, -, -, rfl⟩ | ⟨u, c, M', p', rfl, -, -, rfl⟩ |
          ⟨u, rfl, -, rfl⟩
        · have : t ≠ u := by rintro rfl; exact this.2 c rfl
          simp [this]
        · have : t ≠ u := by rintro rfl; exact this.1 c rfl
          simp [this]
        · rfl
    intro t ht
    have := this _ _ _ t (by unfold gos; simp +decide [List.replicate]; omega) hr
    rw [this]; rfl
  have := h 2 2 3 junk0 _ s hr (fun t ta => ⟨0, hpc t (by rintro rfl; rw [b1] at ta; cases ta)⟩)
    (by rw [b2]; simpa using b3) 0 (by decide)
  rw [b4] at this
  simp at this

/-- Proved part: all records are free when every live thread has left its calls and no dead thread's
record is listed any more, if no thread died while moving a record (between the two list operations
made under the table lock).  (Missing: those deaths.) -/
theorem C30_returned_partial {nm nc nw : Nat} {junk : Mem} {es : List Ev} {s : State}
    (h : run (init nm nc nw junk) es = some s)
    (hout : ∀ t, s.alive t = true → ∃ r, s.pc t = .done r)
    (hl : ∀ c ∈ s.mem.clist, s.mem.ws c = [])
    (hd : ∀ t, s.alive t = false → hand (s.pc t) = none) :
    s.mem.wfree.Perm (List.range nw) := by
  have i := (placed_run (recs_init nm nc nw junk) h 0).1
  refine (List.perm_ext_iff_of_nodup i.recs.freeNd List.nodup_range).mpr ?_
  intro w
  rw [List.mem_range, ← C30_accounted h w]
  constructor
  · exact .inl
  · rintro (h1 | ⟨c, hc, h1⟩ | ⟨t, h1⟩)
    · exact h1
    · rw [hl c hc] at h1; cases h1
    · cases hta : s.alive t
      · rw [hd t hta] at h1; cases h1
      · obtain ⟨r, hr⟩ := hout t hta
        rw [hr] at h1; cases h1

/-- When all live threads have left their calls, the only listed records are those of dead threads ... -/
theorem C30_only_dead {s : State} (r : Reach anyEv s)
    (hout : ∀ t, s.alive t = true → ∃ x, s.pc t = .done x) :
    ∀ c ∈ s.mem.clist, ∀ w ∈ s.mem.ws c, s.alive (s.mem.wtid w) = false := by
  intro c hc w hw
  cases ha : s.alive (s.mem.wtid w)
  · rfl
  · obtain ⟨x, hx⟩ := hout _ ha
    have := (recs_reach r).recs.back c hc w hw ha
    rw [hx] at this
    cases this

/-- ... and the check of dead waiters gives back exactly the records of dead threads. -/
theorem C30_sweep {s : State} (r : Reach anyEv s) {t x : Nat} (t0 : t ≠ 0)
    (ta : s.alive t = true) (out : s.pc t = .done x) (ho : open_ s.alive s.mem.cL) :
    ∃ cs s', Returns s t .sweepC cs 0 s' ∧
      (∀ c ∈ s.mem.clist, s'.mem.ws c = (s.mem.ws c).filter fun w => s.alive (s.mem.wtid w)) ∧
      (∀ w, w ∈ s'.mem.wfree ↔ w ∈ s.mem.wfree ∨
        ∃ c ∈ s.mem.clist, w ∈ s.mem.ws c ∧ s.alive (s.mem.wtid w) = false) ∧
      s'.mem.clist = s.mem.clist ∧ s'.mem.wup = s.mem.wup ∧ s'.mem.wtid = s.mem.wtid := by
  have i := recs_reach r
  obtain ⟨W, h1, h2⟩ := exec_sweepC (t := t) ho i.names.cnd i.recs.nd
  refine ⟨_, _, returns_of t0 ta out (c := .sweepC) h1, h2, ?_, rfl, rfl, rfl⟩
  intro w
  simp only [List.mem_append, List.mem_reverse, List.mem_map, Prod.exists, exists_eq_right,
    mem_deadRecs]
  exact or_comm

/-- A live thread gets ENOLCK for want of waiter records only when every record is used by another
thread: by a live one in its wait, or by a dead one. -/
theorem C30_enolck {nm nc nw : Nat} {junk : Mem} {es : List Ev} {s : State}
    (h : run (init nm nc nw junk) es = some s) {t c m : Nat} {kd : Kind} (ta : s.alive t = true)
    (hp : s.pc t = .wGet c m kd) (hf : s.mem.wfree = []) (w : Nat) (hw : w < nw) :
    (∃ u d, u ≠ t ∧ s.alive u = true ∧ lst (s.pc u) = some (d, w)) ∨
    (∃ d ∈ s.mem.clist, w ∈ s.mem.ws d ∧ s.alive (s.mem.wtid w) = false) ∨
    (∃ u, s.alive u = false ∧ hand (s.pc u) = some w) := by
  have i := (placed_run (recs_init nm nc nw junk) h 0).1
  rcases (C30_accounted h w).mpr hw with h1 | ⟨d, hd, h1⟩ | ⟨u, h1⟩
  · rw [hf] at h1; cases h1
  · by_cases ha : s.alive (s.mem.wtid w) = false
    · exact .inr (.inl ⟨d, hd, h1, ha⟩)
    · rw [Bool.not_eq_false] at ha
      have := i.recs.back d hd w h1 ha
      refine .inl ⟨_, d, ?_, ha, this⟩
      rintro rfl
      simp [hp, lst] at this
  · cases ha : s.alive u
    · exact .inr (.inr ⟨u, ha, h1⟩)
    · exfalso
      have b := i.names.base
      have hut : t ≠ u := by rintro rfl; simp [hp, hand] at h1
      have c1 : inC (s.pc t) = true := by simp [hp, inC]
      have c2 : inC (s.pc u) = true := by
        revert h1
        cases s.pc u <;> simp [hand, inC]
      have n1 : t ≠ 0 := by rintro rfl; rw [b.zero] at hp; cases hp
      have n2 : u ≠ 0 := by rintro rfl; rw [b.zero] at h1; cases h1
      exact hut (((b.lockC t n1 ta).mpr c1).symm.trans ((b.lockC u n2 ha).mpr c2))

/-- Non-vacuity of C30: 1 died in its wait and is swept, 2 has come back, 3 is outside. -/
def spent : List Ev :=
  twoWait ++ [.die 1] ++ .call 3 (.broadcast 5) :: gos 3 8 ++ .call 3 (.unlock 0) :: gos 3 7 ++ gos 2 8

theorem run_others : ∀ (es : List Ev) (s s' : State) (t : Nat),
    (∀ e ∈ es, (∀ c, e ≠ .go t c) ∧ ∀ c, e ≠ .call t c) → run s es = some s' → s'.pc t = s.pc t := by
  intro es
  induction es with
  | nil => intro s s' t _ h; cases h; rfl
  | cons e es ih =>
    intro s s' t hd h
    simp only [run, Option.bind_eq_some_iff] at h
    obtain ⟨s1, h1, h⟩ := h
    rw [ih s1 s' t (fun e he => hd e (by simp [he])) h]
    have := hd e (by simp)
    rcases step_cases h1 with ⟨u, c, r, rfl, -, -, -, rfl⟩ | ⟨u, c, M', p', rfl, -, -, rfl⟩ |
      ⟨u, rfl, -, rfl⟩
    · have : t ≠ u := by rintro rfl; exact this.2 c rfl
      simp [this]
    · have : t ≠ u := by rintro rfl; exact this.1 c rfl
      simp [this]
    · rfl

example : ∃ s s', run (init 2 2 3 junk0) spent = some s ∧ s.alive 3 = true ∧ s.pc 3 = .done 0 ∧
    open_ s.alive s.mem.cL ∧ s.mem.ws 5 = [0] ∧ s.alive (s.mem.wtid 0) = false ∧
    (∀ t, s.alive t = true → ∃ x, s.pc t = .done x) ∧
    run (init 2 2 3 junk0) (spent ++ .call 3 .sweepC :: [.go 3 .go, .go 3 (.wk 5 0), .go 3 .go, .go 3 .go,
      .go 3 .go]) = some s' ∧ s'.mem.wfree = [0, 1, 2] ∧ s'.mem.clist = [5] ∧ s'.mem.ws 5 = [] ∧
    (∀ t, s'.alive t = true → ∃ x, s'.pc t = .done x) ∧
    (∀ t, s'.alive t = false → hand (s'.pc t) = none) := by
  obtain ⟨s, hr, h1⟩ := run_case (s0 := init 2 2 3 junk0) (es := spent)
    (fun s => (s.alive 1, s.alive 3, s.pc 2, s.pc 3, s.mem.cL, s.mem.ws 5, s.alive (s.mem.wtid 0)))
    (false, true, .done 0, .done 0, 0, [0], false)
    (by set_option synthInstance.maxSize 100000 in set_option synthInstance.maxHeartbeats 400000 in decide +kernel)
  obtain ⟨s', hr', h2⟩ := run_case (s0 := init 2 2 3 junk0)
    (es := spent ++ .call 3 .sweepC :: [.go 3 .go, .go 3 (.wk 5 0), .go 3 .go, .go 3 .go, .go 3 .go])
    (fun s => (s.alive 1, s.pc 1, s.pc 2, s.pc 3, s.mem.wfree, s.mem.clist, s.mem.ws 5))
    (false, .wSpin 5 0 0 .block, .done 0, .done 0, [0, 1, 2], [5], [])
    (by set_option synthInstance.maxSize 100000 in set_option synthInstance.maxHeartbeats 400000 in decide +kernel)
  simp only [Prod.mk.injEq] at h1 h2
  obtain ⟨a1, a2, a3, a4, a5, a6, a7⟩ := h1
  obtain ⟨b1, b2, b3, b4, b5, b6, b7⟩ := h2
  have o1 : ∀ t, t ≠ 1 → t ≠ 2 → t ≠ 3 → s.pc t = .done 0 := by
    intro t n1 n2 n3
    exact run_others _ _ _ t (by unfold spent twoWait gos; simp +decide [List.replicate]; omega) hr
  have o2 : ∀ t, t ≠ 1 → t ≠ 2 → t ≠ 3 → s'.pc t = .done 0 := by
    intro t n1 n2 n3
    exact run_others _ _ _ t (by unfold spent twoWait gos; simp +decide [List.replicate]; omega) hr'
  refine ⟨s, s', hr, a2, a4, .inl a5, a6, a7, ?_, hr', b5, b6, b7, ?_, ?_⟩
  · intro t ta
    by_cases n1 : t = 1
    · subst n1; rw [a1] at ta; cases ta
    by_cases n2 : t = 2
    · subst n2; exact ⟨_, a3⟩
    by_cases n3 : t = 3
    · subst n3; exact ⟨_, a4⟩
    exact ⟨0, o1 t n1 n2 n3⟩
  · intro t ta
    by_cases n1 : t = 1
    · subst n1; rw [b1] at ta; cases ta
    by_cases n2 : t = 2
    · subst n2; exact ⟨_, b3⟩
    by_cases n3 : t = 3
    · subst n3; exact ⟨_, b4⟩
    exact ⟨0, o2 t n1 n2 n3⟩
  · intro t ta
    by_cases n1 : t = 1
    · subst n1; rw [b2]; rfl
    by_cases n2 : t = 2
    · subst n2; rw [b3]; rfl
    by_cases n3 : t = 3
    · subst n3; rw [b4]; rfl
    rw [o2 t n1 n2 n3]; rfl

/-- Non-vacuity of `C30_enolck`: one record, used by 1, wanted by 2. -/
example : ∃ es s, run (init 2 2 1 junk0) es = some s ∧ s.alive 2 = true ∧
    s.pc 2 = .wGet 5 0 .block ∧ s.mem.wfree = [] := by
  obtain ⟨s, hr, h1⟩ := run_case (s0 := init 2 2 1 junk0)
    (es := .call 1 (.lock 0 .block) :: gos 1 7 ++ .call 1 (.wait 5 0 .block) :: gos 1 15 ++
      .call 2 (.lock 0 .block) :: gos 2 6 ++ .call 2 (.wait 5 0 .block) :: gos 2 5)
    (fun s => (s.alive 2, s.pc 2, s.mem.wfree)) (true, .wGet 5 0 .block, [])
    (by set_option synthInstance.maxSize 100000 in set_option synthInstance.maxHeartbeats 400000 in decide +kernel)
  simp only [Prod.mk.injEq] at h1
  exact ⟨_, s, hr, h1⟩

end Fullock.Props
