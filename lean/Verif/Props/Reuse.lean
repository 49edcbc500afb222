import Verif.Proofs.ReuseMutex
import Verif.Props.LockId
import Verif.Props.FLCalls
import Verif.Props.Mutex
/-! C74: new threads under the numbers of dead ones. -/
namespace Fullock.Props

/-! ### The table lock -/

section TableLock
open LockId

/-- C74 as stated, for the internal lock of a table: at most one live thread is inside, although numbers of
dead threads are given to new ones. -/
def C74_table_full : Prop := ∀ s, RReach (fun _ _ => True) s →
  ∀ t u, s.alive t = true → s.alive u = true → s.pc t = .crit → s.pc u = .crit → t = u

/-- Thread 1 dies inside; thread 2 finds it dead; a new thread under number 1 finds its own number in the lock
and enters; thread 2 takes the lock over from number 1. -/
def bornInside : List REv :=
  [.ev (.enter 1), .ev (.go 1), .ev (.die 1), .ev (.enter 2)] ++ List.replicate 1003 (.ev (.go 2)) ++
  [.born 1, .ev (.enter 1), .ev (.go 1), .ev (.go 2)]

theorem rrun_lockId {B : State → Nat → Prop} (hB : ∀ s t, B s t) {es : List REv} :
    ∀ {s s' : State}, RReach B s → rrun s es = some s' → RReach B s' := by
  induction es with
  | nil => intro s s' h hr; cases hr; exact h
  | cons e es ih =>
    intro s s' h hr
    simp only [rrun, Option.bind_eq_some_iff] at hr
    obtain ⟨s1, h1, hr⟩ := hr
    cases e with
    | ev e => exact ih (.ev h h1) hr
    | born t => exact ih (.born h (hB _ _) h1) hr

theorem C74_table_not_full : ¬ C74_table_full := by
  intro h
  have hr : ((rrun init bornInside).map fun s => (s.alive 1, s.alive 2, s.pc 1, s.pc 2)) =
      some (true, true, .crit, .crit) := by decide +kernel
  rw [Option.map_eq_some_iff] at hr
  obtain ⟨s, hs, e⟩ := hr
  simp only [Prod.mk.injEq] at e
  have := h s (rrun_lockId (fun _ _ => trivial) .init hs) 1 2 e.1 e.2.1 e.2.2.1 e.2.2.2
  simp at this

/-- C74 (partial, table lock): when a number is given away only while no live thread stands between finding its
old bearer dead and taking the lock over, at most one live thread is inside; and while it is inside the lock
bears its number.  Missing: births in that window (`C74_table_not_full`). -/
theorem C74_table_partial (s : State) (hr : RReach NotJudged s) (t : Nat) (ht : s.alive t = true)
    (hc : s.pc t = .crit) : s.lockid = t ∧ ∀ u, s.alive u = true → s.pc u = .crit → u = t := by
  have h := rinv_reach hr
  have h1 := h.own t ht (by rw [hc]; trivial)
  refine ⟨h1, fun u hu hcu => ?_⟩
  have h2 := h.own u hu (by rw [hcu]; trivial)
  omega

/-- A new thread 1 is inside after the old one died inside. -/
example : ∃ s, RReach NotJudged s ∧ s.alive 1 = true ∧ s.pc 1 = .crit ∧ s.lockid = 1 := by
  have r1 : RReach NotJudged init := .init
  have r2 := RReach.ev (e := .enter 1) r1 rfl
  have r3 := RReach.ev (e := .go 1) r2 rfl
  have r4 := RReach.ev (e := .die 1) r3 rfl
  have r5 := RReach.born (t := 1) r4 (by intro u c _; by_cases e : u = 1 <;> simp [own, init, State.setPc, e]) rfl
  have r6 := RReach.ev (e := .enter 1) r5 rfl
  have r7 := RReach.ev (e := .go 1) r6 rfl
  exact ⟨_, r7, rfl, rfl, rfl⟩

/-- C74 as stated, recovery of the table lock: when no live thread is inside, a thread in its acquisition loop
that runs undisturbed gets in. -/
def C74_recover_full : Prop := ∀ s, RReach NotJudged s →
  (∀ u, s.alive u = true → s.pc u = .out ∨ ∃ c o, s.pc u = .acq c o) →
  ∀ t c o, s.alive t = true → s.pc t = .acq c o → ∃ n, (alone s t n).pc t = .crit

/-- Thread 1 dies inside, a new thread gets its number and stays outside: nobody gets in any more, however long
they try. -/
theorem C74_recover_not_full : ¬ C74_recover_full := by
  intro h
  have r1 : RReach NotJudged init := .init
  have r2 := RReach.ev (e := .enter 1) r1 rfl
  have r3 := RReach.ev (e := .go 1) r2 rfl
  have r4 := RReach.ev (e := .die 1) r3 rfl
  have r5 := RReach.born (t := 1) r4 (by intro u c _; by_cases e : u = 1 <;> simp [own, init, State.setPc, e]) rfl
  have r6 := RReach.ev (e := .enter 2) r5 rfl
  obtain ⟨n, hn⟩ := h _ r6 (by
    intro u _
    by_cases e : u = 1
    · subst e; left; rfl
    · by_cases e2 : u = 2
      · subst e2; right; exact ⟨0, 0, rfl⟩
      · left; simp [own, init, State.setPc, e, e2]) 2 0 0 rfl rfl
  exact (C35_waits_for_live _ 2 1 0 0 (by decide) (by decide) rfl rfl rfl n).2 hn

/-- C74: the way out: as soon as the new thread itself uses the table it is inside with its first step, and its
release frees the lock for everybody. -/
theorem C74_table_inherits (s : State) (t : Nat) (hl : s.lockid = t) (hp : s.pc t = .out) (ht : t ≠ 0)
    (ha : s.alive t = true) :
    ∃ s1 s2, run s [.enter t, .go t] = some s1 ∧ s1.pc t = .crit ∧ s1.lockid = t ∧
      run s1 [.leave t, .go t] = some s2 ∧ s2.pc t = .out ∧ s2.lockid = 0 := by
  subst hl
  refine ⟨(s.setPc s.lockid (.acq 0 0)).setPc s.lockid .crit,
    { ((s.setPc s.lockid (.acq 0 0)).setPc s.lockid .crit).setPc s.lockid (.rel 0 0) with
      lockid := 0 }.setPc s.lockid .out, ?_, by simp, rfl, ?_, by simp, rfl⟩
  · simp [run, step, ha, hp, ht, own]
  · simp [run, step, ha, own]

end TableLock

/-! ### File locks -/

section FileLocks
open FL Spec

/-- C74 (partial, exclusion): for clustered ranges and any deaths outside the unlock window, when numbers are
given to new threads only if the dead bearer left no request half way (it may have left locks in force, or have
died inside the table lock), no two locks in force exclude each other.  Missing: dead threads with a request half
way. -/
theorem C74_exclusion_partial (R : DevIno → Rng → Prop) (hR : Clustered R) (s : FL.State)
    (hr : FL.RReach (okIn R) FL.Finished s) : Exclusive s :=
  exclusive_of_inv hR (rreach_sinv (fun _ _ h => h) hr) (rreach_winv (fun _ _ h => h.1) (fun _ _ h => h) hr)
    (rreach_rinv (fun _ _ h => h.2) (fun _ _ h => h) hr)

/-- C74: a lock in force whose holder's number is alive — the holder or a new thread under its number — is ended by
nobody but a thread of that number, in an unlock call for that descriptor and file; so the lock of a dead holder
stays when its number is given to a new thread first. -/
theorem C74_stays (A : FL.State → FL.Ev → Prop) (s s' : FL.State) (e : FL.REv)
    (hr : FL.RReach A FL.Finished s) (hs : FL.rstep s e = some s') (x : Nat × Out) (hx : x ∈ s.mem.outs)
    (hal : s.alive x.2.t = true) (hn : ∀ op f o md, s.pc x.2.t ≠ .uWord op f o x.1 md) :
    x ∈ s'.mem.outs := by
  cases e with
  | ev e =>
    by_contra hc
    rcases outs_loss (rreach_sinv (fun _ _ h => h) hr) hs hx hc with h | ⟨op, f, o, md, h, _⟩
    · rw [hal] at h; cases h
    · exact hn _ _ _ _ h
  | born t => obtain ⟨_, _, rfl⟩ := FL.born_eq hs; exact hx
  | reenter t => obtain ⟨_, _, _, _, rfl⟩ := FL.reenter_eq hs; exact hx

/-- The events that are not steps of thread `d`. -/
def notBy (d : Nat) : FL.REv → Prop
  | .ev (.call t _) | .ev (.go t _) | .ev (.die t _ _) | .reenter t => t ≠ d
  | .born _ => True

/-- A thread that makes no step stays where it is, alive. -/
theorem still_there {s s' : FL.State} {e : FL.REv} {d : Nat} (hs : FL.rstep s e = some s') (he : notBy d e)
    (ha : s.alive d = true) : s'.alive d = true ∧ s'.pc d = s.pc d := by
  cases e with
  | ev e =>
    rcases step_cases hs with ⟨t, c, r, rfl, _, _, _, rfl⟩ | ⟨t, c, p, rfl, _, _, _, rfl⟩ |
      ⟨t, c, p, rfl, _, _, rfl⟩ | ⟨t, c, as, p', rfl, _, _, rfl⟩ | ⟨t, c, k, as, rfl, _, _, rfl⟩
    all_goals
      simp only [notBy] at he
      simp [State.setPc, fset_other _ _ (Ne.symm he), ha]
  | born t =>
    obtain ⟨_, hd, rfl⟩ := FL.born_eq hs
    have : d ≠ t := by rintro rfl; rw [ha] at hd; cases hd
    simp [fset_other _ _ this, ha]
  | reenter t =>
    obtain ⟨_, _, _, _, rfl⟩ := FL.reenter_eq hs
    simp only [notBy] at he
    simp [State.setPc, fset_other _ _ (Ne.symm he), ha]

/-- The events of a run that `A` and `B` allow. -/
def rallowed (A : FL.State → FL.Ev → Prop) (B : FL.State → Nat → Prop) : FL.State → List FL.REv → Prop
  | _, [] => True
  | s, e :: es => (match e with | .ev e => A s e | .born t => B s t | .reenter _ => True) ∧
      ∀ s', FL.rstep s e = some s' → rallowed A B s' es

theorem rstep_reach {A : FL.State → FL.Ev → Prop} {B : FL.State → Nat → Prop} {s s' : FL.State} {e : FL.REv}
    {es : List FL.REv} (hr : FL.RReach A B s) (h : rallowed A B s (e :: es)) (hs : FL.rstep s e = some s') :
    FL.RReach A B s' := by
  cases e with
  | ev e => exact .ev hr h.1 hs
  | born t => exact .born hr h.1 hs
  | reenter t => exact .reenter hr hs

/-- C74: the lock of a dead holder whose number has been given to a new thread stays in force as long as the new
thread makes no step, whatever requests, checks of dead holders, deaths and births of others follow. -/
theorem C74_never_released (A : FL.State → FL.Ev → Prop) (x : Nat × Out) (r : Nat) (es : List FL.REv) :
    ∀ s s', FL.RReach A FL.Finished s → x ∈ s.mem.outs → s.alive x.2.t = true → s.pc x.2.t = .done r →
      rallowed A FL.Finished s es → (∀ e ∈ es, notBy x.2.t e) → FL.rrun s es = some s' → x ∈ s'.mem.outs := by
  induction es with
  | nil => intro s s' _ hx _ _ _ _ hr; cases hr; exact hx
  | cons e es ih =>
    intro s s' h hx ha hp hal hn hr
    simp only [FL.rrun, Option.bind_eq_some_iff] at hr
    obtain ⟨s1, h1, hr⟩ := hr
    obtain ⟨q1, q2⟩ := still_there h1 (hn e (by simp)) ha
    exact ih s1 s' (rstep_reach h hal h1)
      (C74_stays A s s1 e h h1 x hx ha (by rw [hp]; simp)) q1 (q2.trans hp) (hal.2 s1 h1)
      (fun e he => hn e (by simp [he])) hr

/-- C74 as stated, release: the locks of a dead holder are ended by some check of dead holders of any thread
running alone, also when its number has been given to a new thread. -/
def C74_release_full : Prop :=
  ∀ R : DevIno → Rng → Prop, Separate R → ∀ s s1 : FL.State, ∀ d, FL.RReach (softIn R) FL.Finished s →
    FL.Finished s d → FL.born s d = some s1 → ∀ t r, t ≠ 0 → t ≠ d → s1.alive t = true → s1.pc t = .done r →
      OthersIdle s1 t →
      ∃ (cs : List Choice) (s2 : FL.State), FL.run s1 (.call t .sweep :: cs.map (.go t ·)) = some s2 ∧
        s2.pc t = .done 0 ∧ ∀ x ∈ s.mem.outs, x.2.t = d → x ∉ s2.mem.outs

/-- Numbers given away only if the dead bearer left no request half way and does not own the table lock. -/
def Settled (s : FL.State) (t : Nat) : Prop := FL.Finished s t ∧ s.lockid ≠ t

theorem rrun_ev (s : FL.State) (es : List FL.Ev) : FL.rrun s (es.map .ev) = FL.run s es := by
  induction es generalizing s with
  | nil => rfl
  | cons e es ih => simp [FL.rrun, FL.run, FL.rstep, ih]

theorem rallowed_all {A : FL.State → FL.Ev → Prop} {B : FL.State → Nat → Prop} (es : List FL.Ev)
    (h : ∀ e ∈ es, ∀ s, A s e) : ∀ s, rallowed A B s (es.map .ev) := by
  induction es with
  | nil => intro s; trivial
  | cons e es ih =>
    intro s
    exact ⟨h e (by simp) s, fun s' _ => ih (fun e he => h e (by simp [he])) s'⟩

theorem reach_rreach {A : FL.State → FL.Ev → Prop} {B : FL.State → Nat → Prop} {s : FL.State}
    (h : Reach A s) : FL.RReach A B s := by
  induction h with
  | init => exact .init ..
  | step _ ha hs ih => exact .ev ih ha hs

/-- A thread that dies outside the library leaves no request half way. -/
theorem finished_of_idle {s : FL.State} {d r : Nat} (hi : SInv s) (ha : s.alive d = true)
    (hp : s.pc d = .done r) : FL.Finished s d := by
  intro o md l hl hlt
  obtain ⟨h1, h2, h3⟩ := (hi.thr d ha).1 o md l hl hlt
  rw [hp] at h1 h2
  cases hk : s.mem.locked l with
  | false => exact absurd (h1 hk) (by simp [slot])
  | true =>
    cases ht : s.mem.taken l with
    | false => exact absurd (h2 hk ht) (by simp [uslot])
    | true => exact h3 hk ht

/-- C74: so exclusion holds when only threads outside calls are killed. -/
theorem C74_idle_deaths {s s' : FL.State} {A : FL.State → FL.Ev → Prop} {d r : Nat} {c : Choice} {k : Nat}
    (hr : FL.RReach A FL.Finished s) (ha : s.alive d = true) (hp : s.pc d = .done r)
    (hs : FL.step s (.die d c k) = some s') : FL.Finished s' d ∧ s'.mem = s.mem ∧ s'.lockid = s.lockid := by
  have hf := finished_of_idle (rreach_sinv (fun _ _ h => h) hr) ha hp
  simp [FL.step, ha, hp, plan, Mem.acts] at hs
  subst hs
  exact ⟨fun o md l => hf o md l, rfl, rfl⟩

/-- Thread 3 holds the write lock on [20,30) and dies outside the library. -/
theorem widow : ∃ s, FL.RReach (softIn RX) FL.Finished s ∧ FL.RReach (okIn RX) FL.Finished s ∧
    FL.RReach (fun _ e => lockIn RX e) Settled s ∧
    s.alive 3 = false ∧ Settled s 3 ∧ (2, out1 3 3 rB .wr) ∈ s.mem.outs ∧ s.lockid = 0 ∧
    (∀ u, s.pc u = .done 0) ∧ ∀ u, u ≠ 3 → s.alive u = true := by
  obtain ⟨s, hs, hi, ho, _, _, _, hl⟩ := sc1
  have hr := (sc1_reach hs).1
  have hst : FL.step s (.die 3 .go 0) = some { s with alive := fset s.alive 3 false } := by
    simp [FL.step, (hi 3).2, (hi 3).1, plan, Mem.acts]
  have hd : ∀ s' : FL.State, s'.pc 3 = .done 0 → softIn RX s' (.die 3 .go 0) := by
    intro s' h
    exact ⟨by simp [softDeath, h], trivial⟩
  have hf0 := finished_of_idle (reach_sinv hr) (hi 3).2 (hi 3).1
  have hf : FL.Finished { s with alive := fset s.alive 3 false } 3 := fun o md l => hf0 o md l
  refine ⟨_, .ev (reach_rreach hr) (hd _ (hi 3).1) hst,
    .ev (reach_rreach (reach_mono (fun _ _ h => ⟨softDeath_ok h.1, h.2⟩) hr))
      ⟨softDeath_ok (hd _ (hi 3).1).1, trivial⟩ hst,
    .ev (e := .die 3 .go 0) (reach_rreach (reach_mono (fun _ _ h => h.2) hr)) trivial hst, by simp, ⟨hf, by simp [hl]⟩, by simp [ho],
    hl, fun u => (hi u).1, fun u e => by simp [fset_other _ _ e, (hi u).2]⟩

theorem C74_release_not_full : ¬ C74_release_full := by
  intro h
  obtain ⟨s, hr, _, _, hd, hf, ho, hl, hp, ha⟩ := widow
  have hb : FL.born s 3 = some { s with alive := fset s.alive 3 true, pc := fset s.pc 3 (.done 0) } := by
    simp [FL.born, hd]
  have hpc : ∀ u, (fset s.pc 3 (.done 0)) u = .done 0 := by
    intro u
    by_cases e : u = 3
    · subst e; simp
    · simp [fset_other _ _ e, hp u]
  obtain ⟨cs, s2, h1, h2, h3⟩ := h RX sepRX s _ 3 hr hf.1 hb 4 0 (by decide) (by decide)
    (by simp [fset_other _ _ (show (4 : Nat) ≠ 3 by decide), ha 4 (by decide)]) (hpc 4)
    (fun u _ _ => Or.inl ⟨0, hpc u⟩)
  refine h3 _ ho rfl ?_
  rw [← rrun_ev] at h1
  refine C74_never_released (softIn RX) _ 0 _ _ s2 (.born hr hf.1 hb) ho (by simp [out1]) (by simp [out1])
    (rallowed_all _ ?_ _) ?_ h1
  · intro e he s
    simp only [List.mem_cons, List.mem_map] at he
    rcases he with rfl | ⟨c, _, rfl⟩ <;> exact ⟨trivial, trivial⟩
  · intro e he
    simp only [List.mem_map, List.mem_cons] at he
    rcases he with ⟨e, rfl | ⟨c, _, rfl⟩, rfl⟩ <;> simp [notBy, out1]

/-- Non-vacuity of the theorems above: the dead thread 3 with a lock in force, its number given to a new thread. -/
example : ∃ s s1, FL.RReach (okIn RX) FL.Finished s ∧ FL.born s 3 = some s1 ∧
    FL.RReach (okIn RX) FL.Finished s1 ∧ (2, out1 3 3 rB .wr) ∈ s1.mem.outs ∧ s1.alive 3 = true := by
  obtain ⟨s, _, hr, _, hd, hf, ho, _⟩ := widow
  have hb : FL.born s 3 = some { s with alive := fset s.alive 3 true, pc := fset s.pc 3 (.done 0) } := by
    simp [FL.born, hd]
  exact ⟨s, _, hr, hb, .born hr hf.1 hb, ho, by simp⟩

/-- C74: whatever happens at birth, nothing of the tables changes. -/
theorem C74_born_tables (s s' : FL.State) (t : Nat) (h : FL.born s t = some s') :
    s'.mem = s.mem ∧ s'.lockid = s.lockid ∧ s'.alive t = true ∧ s'.pc t = .done 0 ∧
      ∀ u, u ≠ t → s'.alive u = s.alive u ∧ s'.pc u = s.pc u := by
  obtain ⟨_, _, rfl⟩ := FL.born_eq h
  exact ⟨rfl, rfl, by simp, by simp, fun u e => by simp [fset_other _ _ e]⟩

/-- C74: a new thread can end the locks of the old bearer of its number: its unlock of a range locked by that
through the same descriptor number returns 0 within eight steps and ends exactly one lock. -/
theorem C74_unlock_inherited (R : DevIno → Rng → Prop) (hR : Separate R) (s : FL.State)
    (hr : FL.RReach (fun _ e => lockIn R e) Settled s) (d : Nat) (s1 : FL.State)
    (hset : Settled s d) (hb : FL.born s d = some s1) (hid : OthersIdle s d) (op : Op) (x : Nat × Out)
    (hx : x ∈ s.mem.outs) (hxt : x.2.t = d) (hxf : x.2.fd = op.fd) (hxk : x.2.key = op.key)
    (hxr : x.2.rng = op.rng) :
    ∃ s' y, Returns s1 d (.unlock op) 8 0 s' ∧ y ∈ s.mem.outs ∧ y.2.t = d ∧ y.2.fd = op.fd ∧
      y.2.key = op.key ∧ y.2.rng = op.rng ∧ s.mem.outs.Perm (y :: s'.mem.outs) := by
  have hB : ∀ s t, Settled s t → FL.Finished s t := fun _ _ h => h.1
  have hr1 := FL.RReach.born hr hset hb
  obtain ⟨t0, hd, rfl⟩ := FL.born_eq hb
  have hR' := separate_clustered hR
  have hrv := rreach_rinv (R := R) (fun _ _ h => h) hB hr1
  obtain ⟨s', y, h1, h2, h3, h4, h5, h6, h7⟩ := unlock_run hR' (rreach_sinv hB hr1) (rreach_csIff (fun _ _ h => h) hr1)
    hrv t0 (by simp) (r := 0) (by simp)
    (by
      intro u hu ha
      simp only [fset_other _ _ hu] at ha ⊢
      exact hid u hu ha) (op := op) (x := x) hx hxt hxf hxk hxr
  refine ⟨s', y, h1, h2, h3, h4, h5, ?_, h7⟩
  rcases hR.apart op.key y.2.rng op.rng (h5 ▸ hrv.held _ h2) (hxr ▸ hxk ▸ hrv.held _ hx) with e | e
  · exact e
  · exact absurd h6 e

/-- Non-vacuity: the dead thread 3 held [20,30) through descriptor 3; everybody else is outside. -/
example : ∃ s s1, FL.RReach (fun _ e => lockIn RX e) Settled s ∧ Settled s 3 ∧ FL.born s 3 = some s1 ∧
    OthersIdle s 3 ∧ (2, out1 3 3 rB .wr) ∈ s.mem.outs := by
  obtain ⟨s, _, _, hr, hd, hf, ho, _, hp, _⟩ := widow
  exact ⟨s, _, hr, hf, by simp [FL.born, hd]; rfl, fun u _ _ => Or.inl ⟨0, hp u⟩, ho⟩

/-- C74 as stated, unlock: a new thread that has locked nothing is told so by unlock. -/
def C74_unlock_full : Prop :=
  ∀ R : DevIno → Rng → Prop, Separate R → ∀ s s1 : FL.State, ∀ d,
    FL.RReach (fun _ e => lockIn R e) Settled s → Settled s d → FL.born s d = some s1 → OthersIdle s d →
    ∀ op n r s', Returns s1 d (.unlock op) n r s' → r ≠ 0

/-- It ends a lock of the dead bearer of its number instead. -/
theorem C74_unlock_not_full : ¬ C74_unlock_full := by
  intro h
  obtain ⟨s, _, _, hr, hd, hf, ho, _, hp, _⟩ := widow
  have hb : FL.born s 3 = some { s with alive := fset s.alive 3 true, pc := fset s.pc 3 (.done 0) } := by
    simp [FL.born, hd]
  have hid : OthersIdle s 3 := fun u _ _ => Or.inl ⟨0, hp u⟩
  obtain ⟨s', y, h1, _⟩ := C74_unlock_inherited RX sepRX s hr 3 _ hf hb hid (mkOp 3 kX rB .wr .block)
    (2, out1 3 3 rB .wr) ho rfl rfl rfl rfl
  exact h RX sepRX s _ 3 hr hf hb hid _ _ _ _ h1 rfl

/-- C74: a new thread whose number the table lock bears, because the dead bearer died inside, enters the tables
without taking the lock; only such a thread does. -/
theorem C74_enters (s : FL.State) (t : Nat) (p : FL.Pc) (hp : s.pc t = .acq p) :
    FL.reenter s t = (if s.alive t = true ∧ s.lockid = t then some (s.setPc t p) else none) ∧
    ((s.alive t = true ∧ s.lockid = t) → ∃ s', FL.rstep s (.reenter t) = some s' ∧ s'.pc t = p ∧
      s'.mem = s.mem ∧ s'.lockid = t) := by
  have h : FL.reenter s t = (if s.alive t = true ∧ s.lockid = t then some (s.setPc t p) else none) := by
    simp [FL.reenter, hp]
  refine ⟨h, fun hc => ⟨s.setPc t p, ?_, by simp [State.setPc], rfl, hc.2⟩⟩
  simp only [FL.rstep, h, if_pos hc]

/-- Non-vacuity: thread 1 dies right after taking the table lock, a new thread gets its number and calls. -/
example : ((FL.rrun (FL.init 2 2 2 FL.junk0) [.ev (.call 1 .sweep), .ev (.go 1 .go), .ev (.die 1 .go 0), .born 1,
    .ev (.call 1 .sweep)]).map fun s => (s.alive 1, s.lockid, s.pc 1)) = some (true, 1, .acq .sw) := by
  decide +kernel

end FileLocks

/-! ### Mutexes -/

section Mutexes
open MC

/-- C74, mutexes: at most one live owner, whenever the numbers of dead threads are given to new threads (also
while a check of dead owners is under way).  The table lock is taken over in one step here; `C74_table_full` is
about the steps of that. -/
theorem C74_mutex_exclusion {A : MC.State → MC.Ev → Prop} {B : MC.State → Nat → Prop}
    (hA : ∀ s e, A s e → okDie s e) (s : MC.State) (hr : MC.RReach A B s) (m t u : Nat) (ht : Owns s m t)
    (hu : Owns s m u) : t = u := by
  have x := x_reach hA hr
  exact (x.own t ht.1 ht.2.1 m ht.2.2).2.symm.trans (x.own u hu.1 hu.2.1 m hu.2.2).2

/-- Calls and steps of thread 1. -/
def byOne : MC.Ev → Bool
  | .call t _ => t == 1
  | .go t _ => t == 1
  | .die _ => false

/-- Thread 1 makes calls alone, returns and dies outside the library. -/
theorem alone_dies {B : MC.State → Nat → Prop} (es : List MC.Ev) (hes : ∀ e ∈ es, byOne e = true) :
    ∀ s0 s, MC.RReach okDie B s0 → (∀ u, u ≠ 1 → s0.pc u = .done 0 ∧ s0.alive u = true) → MC.run s0 es = some s →
      s.alive 1 = true → s.pc 1 = .done 0 →
      MC.RReach okDie B { s with alive := upd s.alive 1 false } ∧ (∀ u, s.pc u = .done 0) ∧
        ∀ u, u ≠ 1 → s.alive u = true := by
  induction es with
  | nil =>
    intro s0 s hr ho h ha hp
    cases h
    have hpc : ∀ u, s0.pc u = .done 0 := by
      intro u
      by_cases e : u = 1
      · subst e; exact hp
      · exact (ho u e).1
    refine ⟨.ev (e := .die 1) hr ?_ (by simp [MC.step, ha]), hpc, fun u e => (ho u e).2⟩
    intro u _ m k hk
    rw [hpc u] at hk
    cases hk
  | cons e es ih =>
    intro s0 s hr ho h ha hp
    simp only [MC.run, Option.bind_eq_some_iff] at h
    obtain ⟨s1, h1, h⟩ := h
    have he := hes e (by simp)
    refine ih (fun e he => hes e (by simp [he])) s1 s (.ev hr ?_ h1) ?_ h ha hp
    · cases e with
      | die t => cases he
      | _ => trivial
    · intro u hu
      obtain ⟨q1, q2⟩ := ho u hu
      rcases MC.step_cases h1 with ⟨t, c, r, rfl, _, _, _, rfl⟩ | ⟨t, c, M', p', rfl, _, _, rfl⟩ | ⟨t, rfl, _, rfl⟩
      · simp only [byOne, beq_iff_eq] at he; subst he; simp [upd, hu, q1, q2]
      · simp only [byOne, beq_iff_eq] at he; subst he; simp [upd, hu, q1, q2]
      · cases he

/-- Thread 1 locks mutex 7 twice and dies. -/
theorem mwidow : ∃ s, MC.RReach okDie (fun _ _ => True) s ∧ 7 ∈ s.mem.mlist ∧
    s.mem.mval 7 = 1 ∧ s.mem.mcnt 7 = 2 ∧ s.mem.mL = 0 ∧ s.alive 1 = false ∧ (∀ u, s.pc u = .done 0) ∧
    ∀ u, u ≠ 1 → s.alive u = true := by
  have hd : ((MC.run (MC.init 1 0 0 junk0) (.call 1 (.lock 7 .block) :: gos 1 7 ++
      .call 1 (.lock 7 .block) :: gos 1 6)).map fun s =>
      (s.mem.mlist, s.mem.mval 7, s.mem.mcnt 7, s.mem.mL, s.alive 1, s.pc 1)) =
      some ([7], 1, 2, 0, true, .done 0) := by decide +kernel
  simp only [Option.map_eq_some_iff] at hd
  obtain ⟨s, h1, h2⟩ := hd
  simp only [Prod.mk.injEq] at h2
  obtain ⟨e1, e2, e3, e4, e5, e6⟩ := h2
  obtain ⟨r1, r2, r3⟩ := alone_dies (B := fun _ _ => True) _ (by decide) _ s (.init 1 0 0 junk0)
    (fun u _ => ⟨rfl, rfl⟩) h1 e5 e6
  exact ⟨_, r1, by simp [e1], e2, e3, e4, by simp, r2, fun u hu => by simp [upd, hu, r3 u hu]⟩

/-- C74: a new thread that asks for a mutex which the dead bearer of its number held gets it at once, in seven
steps, with whichever of the three calls, as if it had locked it before; the counts of the two add up. -/
theorem C74_mutex_inherited (s s1 : MC.State) (d m : Nat) (kd : Kind) (hb : MC.born s d = some s1)
    (ho : open_ s1.alive s1.mem.mL) (hm : m ∈ s.mem.mlist) (hv : s.mem.mval m = d) (hc : 0 ≤ s.mem.mcnt m) :
    ∃ s', Returns s1 d (.lock m kd) (List.replicate 6 .go) 0 s' ∧ s'.mem.mval m = d ∧
      s'.mem.mcnt m = s.mem.mcnt m + 1 ∧ s'.mem.dep m d = 1 ∧ ∀ x, x ≠ m → s'.mem.mval x = s.mem.mval x := by
  obtain ⟨t0, hd, rfl⟩ := MC.born_eq hb
  have h1 := exec_find (t := d) (kd := kd) (m := m) ho hm
  have h2 := exec_append h1 [.go, .go, .go]
  rw [exec_lock_own (by exact hv) (by exact hc)] at h2
  refine ⟨_, returns_of (c := .lock m kd) t0 (by simp) (r0 := 0) (by simp) h2, ?_, ?_, ?_, ?_⟩
  · simp [hv]
  · simp
  · simp
  · intro x hx; simp

/-- Non-vacuity of `C74_mutex_exclusion`: a new thread under number 1 owns the mutex of its dead predecessor. -/
example : ∃ s, MC.RReach okDie (fun _ _ => True) s ∧ Owns s 7 1 ∧ s.mem.mcnt 7 = 3 := by
  obtain ⟨s, hr, hm, hv, hc, hl, hd, -, -⟩ := mwidow
  have hb : MC.born s 1 = some { s with
      mem := { s.mem with dep := fun m => upd (s.mem.dep m) 1 0 }
      alive := upd s.alive 1 true, pc := upd s.pc 1 (.done 0) } := by simp [MC.born, hd]
  obtain ⟨s', ⟨h1, -⟩, -, h3, h4, -⟩ := C74_mutex_inherited s _ 1 7 .try_ hb (.inl hl) hm hv (by rw [hc]; decide)
  have key : ∀ (es : List MC.Ev), (∀ e ∈ es, byOne e = true) → ∀ s s' : MC.State,
      MC.RReach okDie (fun _ _ => True) s → s.alive 1 = true → MC.run s es = some s' →
      MC.RReach okDie (fun _ _ => True) s' ∧ s'.alive 1 = true := by
    intro es
    induction es with
    | nil => intro _ s s' hr ha h; cases h; exact ⟨hr, ha⟩
    | cons e es ih =>
      intro he s s' hr ha h
      simp only [MC.run, Option.bind_eq_some_iff] at h
      obtain ⟨s1, h1, h⟩ := h
      have h0 := he e (by simp)
      refine ih (fun e h => he e (by simp [h])) s1 s' (.ev hr ?_ h1) ?_ h
      · cases e with
        | die t => cases h0
        | _ => trivial
      · rcases MC.step_cases h1 with ⟨t, c, r, rfl, _, _, _, rfl⟩ | ⟨t, c, M', p', rfl, _, _, rfl⟩ | ⟨t, rfl, _, rfl⟩
        · exact ha
        · exact ha
        · cases h0
  obtain ⟨r1, r2⟩ := key _ (by decide) _ s' (.born hr trivial hb) (by simp) h1
  exact ⟨s', r1, ⟨by decide, r2, by omega⟩, by rw [h3, hc]; rfl⟩

/-- C74: and its unlock of that mutex, which it never locked, frees it and reports success. -/
theorem C74_mutex_freed (s s1 : MC.State) (d m n : Nat) (hb : MC.born s d = some s1)
    (ho : open_ s1.alive s1.mem.mL) (hm : m ∈ s.mem.mlist) (hv : s.mem.mval m = d) (hc : s.mem.mcnt m = n + 1) :
    ∃ s', Returns s1 d (.unlock m) (List.replicate (3 * n + 7) .go) 0 s' ∧ s'.mem.mval m = 0 ∧
      s'.mem.mcnt m = 0 ∧ ∀ x, x ≠ m → s'.mem.mval x = s.mem.mval x := by
  obtain ⟨t0, hd, rfl⟩ := MC.born_eq hb
  have h1 := exec_unlock (t := d) (m := m) (n := n) t0 ho hm hv hc
  refine ⟨_, returns_of (c := .unlock m) t0 (by simp) (r0 := 0) (by simp) h1, ?_, ?_, ?_⟩
  · simp
  · simp
  · intro x hx; simp [upd, hx]

/-- C74 as stated, mutexes: a new thread that has locked nothing cannot unlock the mutex of another. -/
def C74_mutex_full : Prop := ∀ s s1 : MC.State, ∀ d m, MC.RReach okDie (fun _ _ => True) s →
  MC.born s d = some s1 → s1.mem.mL = 0 → m ∈ s.mem.mlist → s.mem.mval m ≠ 0 → ∀ cs r s', Returns s1 d (.unlock m) cs r s' → r ≠ 0

theorem C74_mutex_not_full : ¬ C74_mutex_full := by
  intro h
  obtain ⟨s, hr, hm, hv, hc, hl, hd, -, -⟩ := mwidow
  have hb : MC.born s 1 = some { s with
      mem := { s.mem with dep := fun m => upd (s.mem.dep m) 1 0 }
      alive := upd s.alive 1 true, pc := upd s.pc 1 (.done 0) } := by simp [MC.born, hd]
  obtain ⟨s', h1, -⟩ := C74_mutex_freed s _ 1 7 1 hb (.inl hl) hm hv hc
  exact h s _ 1 7 hr hb hl hm (by rw [hv]; decide) _ _ _ h1 rfl

/-- Non-vacuity of the two theorems above. -/
example : ∃ s s1, MC.RReach okDie (fun _ _ => True) s ∧ MC.born s 1 = some s1 ∧ open_ s1.alive s1.mem.mL ∧
    7 ∈ s.mem.mlist ∧ s.mem.mval 7 = 1 ∧ s.mem.mcnt 7 = 1 + 1 := by
  obtain ⟨s, hr, hm, hv, hc, hl, hd, -, -⟩ := mwidow
  exact ⟨s, _, hr, if_pos ⟨by decide, hd⟩, .inl hl, hm, hv, hc⟩

/-- The check of dead owners has decided that the owner of `m` is dead. -/
def judged (m : Nat) : Pc → Bool
  | .swCnt x _ => x == m
  | .swCntC x _ _ => x == m
  | .swVal x _ => x == m
  | .swValC x _ _ => x == m
  | _ => false

/-- The events that are not steps of thread `d`. -/
def mnotBy (d : Nat) : MC.REv → Prop
  | .ev (.call t _) | .ev (.go t _) | .ev (.die t) | .reenterM t | .reenterC t => t ≠ d
  | .born _ => True

theorem judged_fin (m : Nat) (k : LK) (r : Nat) : judged m (fin k r) = false := by cases k <;> rfl
theorem judged_ufin (m : Nat) (k : UK) (r : Nat) : judged m (ufin k r) = false := by
  cases k
  · rfl
  · by_cases h : r = 0 <;> simp [ufin, judged, h]
theorem judged_failed {m x : Nat} {kd : Kind} {k : LK} {p : Pc} (h : Failed x kd k p) : judged m p = false := by
  cases h
  · exact judged_fin ..
  · exact judged_fin ..
  · rfl
  · rfl

theorem judged_stp {M M' : MC.Mem} {alive : Nat → Bool} {t m : Nat} {p p' : Pc} (h : Stp M alive t p M' p')
    (w : wf p = true) (hm : m ∈ M.mlist) (hi : ∀ k, p ≠ .mIns m k) :
    (judged m p' = true → judged m p = true ∨ ∃ v k, p = .swChk m v k ∧ alive v = false) ∧
    (judged m p = false → M.mval m ≠ t → M.mval m ≠ 0 → M'.mval m = M.mval m) ∧ m ∈ M'.mlist := by
  cases h
  case acqM h => exact ⟨by cases p' <;> simp_all [wf, judged], fun _ _ _ => rfl, hm⟩
  case relM => exact ⟨by cases p' <;> simp_all [wf, judged], fun _ _ _ => rfl, hm⟩
  case acqC h => exact ⟨by cases p' <;> simp_all [wf, judged], fun _ _ _ => rfl, hm⟩
  case relC => exact ⟨by cases p' <;> simp_all [wf, judged], fun _ _ _ => rfl, hm⟩
  case lkSub h => exact ⟨by simp [judged_failed h], fun _ _ _ => rfl, hm⟩
  case lkCasNo h => exact ⟨by simp [judged_failed h], fun _ _ _ => rfl, hm⟩
  case lkChk => exact ⟨by simp [judged_fin], fun _ _ _ => rfl, hm⟩
  case lkInc => exact ⟨by simp [judged_fin], fun _ _ _ => rfl, hm⟩
  case ulFree => exact ⟨by simp [judged_ufin], fun _ _ _ => rfl, hm⟩
  case ulPerm => exact ⟨by simp [judged_ufin], fun _ _ _ => rfl, hm⟩
  case ulCas x k h =>
    refine ⟨by simp [judged_ufin], fun _ h1 _ => ?_, hm⟩
    by_cases e : m = x
    · subst e; exact absurd h h1
    · simp [upd, e]
  case ulCasFree => exact ⟨by simp [judged_ufin], fun _ _ _ => rfl, hm⟩
  case swEnd k => exact ⟨by simp [judged], fun _ _ _ => rfl, hm⟩
  all_goals simp only [judged]
  all_goals grind

/-- Nobody alive has decided that the owner of `m` is dead. -/
def NotJudged (s : MC.State) (m : Nat) : Prop :=
  ∀ u, u ≠ 0 → s.alive u = true → judged m (s.pc u) = false

/-- C74: while the number `d` of the owner of `m` is alive — the owner or a new thread under its number — and no
check has decided that it is dead, no other thread, check, death or birth ends its ownership, and no check decides
so. -/
theorem C74_mutex_stays {A : MC.State → MC.Ev → Prop} {B : MC.State → Nat → Prop}
    (hA : ∀ s e, A s e → okDie s e) (s s' : MC.State) (e : MC.REv) (hr : MC.RReach A B s)
    (hs : MC.rstep s e = some s') (d m : Nat) (d0 : d ≠ 0) (hn : mnotBy d e) (hd : s.alive d = true)
    (hm : m ∈ s.mem.mlist) (hv : s.mem.mval m = d) (hj : NotJudged s m) :
    m ∈ s'.mem.mlist ∧ s'.mem.mval m = d ∧ NotJudged s' m ∧ s'.alive d = true ∧ s'.pc d = s.pc d := by
  have x := x_reach hA hr
  cases e with
  | ev e =>
    rcases MC.step_cases hs with ⟨t, c, r, rfl, t0, ta, hp, rfl⟩ | ⟨t, c, M', p', rfl, ta, hp, rfl⟩ |
      ⟨t, rfl, ta, rfl⟩
    · simp only [mnotBy] at hn
      refine ⟨hm, hv, ?_, hd, by simp [upd, Ne.symm hn]⟩
      intro u u0 ua
      simp only [upd]
      split
      · cases c <;> rfl
      · exact hj u u0 ua
    · simp only [mnotBy] at hn
      have t0 := x.go0 hp
      have hat := x.at_ t t0 ta
      obtain ⟨j1, j2, j3⟩ := judged_stp (m := m) (stp_of_plan hp) (x.shape t) hm (by
        intro k hk
        rw [hk] at hat
        exact hat hm)
      refine ⟨j3, ?_, ?_, hd, by simp [upd, Ne.symm hn]⟩
      · have := j2 (hj t t0 ta) (by rw [hv]; exact Ne.symm hn) (by rw [hv]; exact d0)
        exact this.trans hv
      · intro u u0 ua
        simp only [upd]
        split
        · rename_i e
          cases hjp : judged m p' with
          | false => rfl
          | true =>
            rcases j1 hjp with h | ⟨v, k, h1, h2⟩
            · rw [hj t t0 ta] at h; cases h
            · rw [h1] at hat
              rcases hat.2.2 with h3 | h3
              · rw [h2] at h3; cases h3
              · rw [hv] at h3; subst h3; rw [hd] at h2; cases h2
        · exact hj u u0 ua
    · simp only [mnotBy] at hn
      refine ⟨hm, hv, ?_, by simp [upd, Ne.symm hn, hd], rfl⟩
      intro u u0 ua
      simp only [upd] at ua
      split at ua
      · cases ua
      · exact hj u u0 ua
  | born t =>
    obtain ⟨t0, hdd, rfl⟩ := MC.born_eq hs
    have e : d ≠ t := by rintro rfl; rw [hd] at hdd; cases hdd
    refine ⟨hm, hv, ?_, by simp [upd, e, hd], by simp [upd, e]⟩
    intro u u0 ua
    simp only [upd] at ua ⊢
    split
    · rfl
    · rename_i h; simp only [h, if_false] at ua; exact hj u u0 ua
  | reenterM t =>
    simp only [MC.rstep, reenterM] at hs
    split at hs
    · rename_i p hp
      split at hs
      · cases hs
        simp only [mnotBy] at hn
        refine ⟨hm, hv, ?_, hd, by simp [upd, Ne.symm hn]⟩
        intro u u0 ua
        simp only [upd]
        split
        · have := x.shape t
          rw [hp] at this
          cases p <;> simp_all [wf, judged]
        · exact hj u u0 ua
      · cases hs
    · cases hs
  | reenterC t =>
    simp only [MC.rstep, reenterC] at hs
    split at hs
    · rename_i p hp
      split at hs
      · cases hs
        simp only [mnotBy] at hn
        refine ⟨hm, hv, ?_, hd, by simp [upd, Ne.symm hn]⟩
        intro u u0 ua
        simp only [upd]
        split
        · have := x.shape t
          rw [hp] at this
          cases p <;> simp_all [wf, judged]
        · exact hj u u0 ua
      · cases hs
    · cases hs

/-- C74: so a mutex of a dead owner is never released once its number has been given to a new thread that makes no
step: no run of the others frees it. -/
theorem C74_mutex_never_released (d m : Nat) (d0 : d ≠ 0) (es : List MC.Ev)
    (hA : ∀ e ∈ es, ∀ s, okDie s e) (hn : ∀ e ∈ es, mnotBy d (.ev e)) :
    ∀ s s', MC.RReach okDie (fun _ _ => True) s → s.alive d = true → m ∈ s.mem.mlist → s.mem.mval m = d →
      NotJudged s m → MC.run s es = some s' → s'.mem.mval m = d := by
  induction es with
  | nil => intro s s' _ _ _ hv _ h; cases h; exact hv
  | cons e es ih =>
    intro s s' hr hd hm hv hj h
    simp only [MC.run, Option.bind_eq_some_iff] at h
    obtain ⟨s1, h1, h⟩ := h
    obtain ⟨q1, q2, q3, q4, -⟩ := C74_mutex_stays (fun _ _ h => h) s s1 (.ev e) hr h1 d m d0 (hn e (by simp)) hd hm hv hj
    exact ih (fun e he => hA e (by simp [he])) (fun e he => hn e (by simp [he])) s1 s'
      (.ev hr (hA e (by simp) s) h1) q4 q1 q2 q3 h

/-- C74 as stated, release: the mutex of a dead owner is freed by some check of dead owners of any thread running
alone, also when its number has been given to a new thread. -/
def C74_mutex_release_full : Prop :=
  ∀ s s1 : MC.State, ∀ d m, MC.RReach okDie (fun _ _ => True) s → MC.born s d = some s1 → m ∈ s.mem.mlist →
    s.mem.mval m = d → s1.mem.mL = 0 → (∀ u, s1.pc u = .done 0) → ∀ t, t ≠ 0 → t ≠ d → s1.alive t = true →
      ∃ cs s2, Returns s1 t .sweepM cs 0 s2 ∧ s2.mem.mval m = 0

theorem C74_mutex_release_not_full : ¬ C74_mutex_release_full := by
  intro h
  obtain ⟨s, hr, hm, hv, hc, hl, hd, hp, ha⟩ := mwidow
  have hb : MC.born s 1 = some { s with
      mem := { s.mem with dep := fun m => upd (s.mem.dep m) 1 0 }
      alive := upd s.alive 1 true, pc := upd s.pc 1 (.done 0) } := by simp [MC.born, hd]
  have hpc : ∀ u, upd s.pc 1 (.done 0) u = .done 0 := by
    intro u; simp only [upd]; split
    · rfl
    · exact hp u
  obtain ⟨cs, s2, ⟨h1, -⟩, h2⟩ := h s _ 1 7 hr hb hm hv hl hpc 2 (by decide) (by decide)
    (by simp [upd, ha 2 (by decide)])
  have h3 := C74_mutex_never_released 1 7 (by decide) _ (by
      intro e he s
      simp only [alone, List.mem_cons, List.mem_map] at he
      rcases he with rfl | ⟨c, _, rfl⟩ <;> trivial) (by
      intro e he
      simp only [alone, List.mem_cons, List.mem_map] at he
      rcases he with rfl | ⟨c, _, rfl⟩ <;> simp [mnotBy]) _ s2 (.born hr trivial hb) (by simp) hm hv
      (fun u _ _ => by rw [show _ = _ from congrArg (judged 7) (hpc u)]; rfl) h1
  rw [h2] at h3
  cases h3

/-- C74 (partial, mutexes): when numbers are given away only after all traces of the dead bearer are gone, the new
threads start without mutexes and everything that C18 and C19 say of the owners and counts holds. -/
theorem C74_mutex_partial {A : MC.State → MC.Ev → Prop} (hA : ∀ s e, A s e → okDie s e) (s : MC.State)
    (hr : MC.RReach A MC.Traceless s) (m t : Nat) (t0 : t ≠ 0) (ta : s.alive t = true) (r : Nat)
    (hp : s.pc t = .done r) (hm : m ∈ s.mem.mlist) :
    (s.mem.mval m = t ↔ Owns s m t) ∧ (Owns s m t → s.mem.mcnt m = s.mem.dep m t) := by
  have i := rreach_inv hA (fun _ _ h => h) hr
  obtain ⟨own, held, -⟩ := i.th t t0 ta
  rw [hp] at own held
  refine ⟨⟨fun h => ?_, fun h => (own m h.2.2).2.1⟩, fun h => (own m h.2.2).2.2 rfl⟩
  rcases held m hm h with h | h
  · exact ⟨t0, ta, h⟩
  · cases h

/-- Non-vacuity: a thread that died outside without mutexes leaves no trace. -/
example : ∃ s s1, MC.RReach okDie MC.Traceless s ∧ MC.Traceless s 1 ∧ MC.born s 1 = some s1 ∧
    MC.RReach okDie MC.Traceless s1 ∧ 7 ∈ s1.mem.mlist := by
  have hd : ((MC.run (MC.init 1 0 0 junk0) (.call 1 (.lock 7 .block) :: gos 1 7 ++ .call 1 (.unlock 7) :: gos 1 7)).map
      fun s => (s.mem.mlist, s.mem.mval 7, s.mem.mL, s.mem.cL, s.alive 1, s.pc 1)) =
      some ([7], 0, 0, 0, true, .done 0) := by
    decide +kernel
  simp only [Option.map_eq_some_iff] at hd
  obtain ⟨s, h1, h2⟩ := hd
  simp only [Prod.mk.injEq] at h2
  obtain ⟨e1, e2, e3, e4, e5, e6⟩ := h2
  obtain ⟨hr, -, -⟩ := alone_dies (B := MC.Traceless) _ (by decide) _ s (.init 1 0 0 junk0)
    (fun u _ => ⟨rfl, rfl⟩) h1 e5 e6
  have hT : MC.Traceless { s with alive := upd s.alive 1 false } 1 :=
    ⟨by simp [e1, e2], by simp [e3], by simp [e4]⟩
  have hb : MC.born { s with alive := upd s.alive 1 false } 1 = some { s with
      mem := { s.mem with dep := fun m => upd (s.mem.dep m) 1 0 }
      alive := upd (upd s.alive 1 false) 1 true, pc := upd s.pc 1 (.done 0) } := by simp [MC.born]
  exact ⟨_, _, hr, hT, hb, .born hr hT hb, by simp [e1]⟩

/-- C74: a new thread whose number a table lock bears enters the table without taking the lock; only such a
thread does. -/
theorem C74_mutex_enters (s : MC.State) (t : Nat) (p : MC.Pc) :
    (s.pc t = .acqM p → MC.rstep s (.reenterM t) =
      (if s.alive t = true ∧ s.mem.mL = t then some { s with pc := upd s.pc t p } else none)) ∧
    (s.pc t = .acqC p → MC.rstep s (.reenterC t) =
      (if s.alive t = true ∧ s.mem.cL = t then some { s with pc := upd s.pc t p } else none)) := by
  constructor <;> intro h <;> simp [MC.rstep, reenterM, reenterC, h]

/-- Non-vacuity: thread 1 dies right after taking the table lock, a new thread gets its number and calls. -/
example : ((MC.rrun (MC.init 1 1 1 junk0) [.ev (.call 1 .sweepM), .ev (.go 1 .go), .ev (.die 1), .born 1,
    .ev (.call 1 .sweepM), .reenterM 1]).map fun s => (s.alive 1, s.mem.mL, s.pc 1)) = some (true, 1, .swM none) ∧
  ((MC.rrun (MC.init 1 1 1 junk0) [.ev (.call 1 .sweepC), .ev (.go 1 .go), .ev (.die 1), .born 1,
    .ev (.call 1 .sweepC), .reenterC 1]).map fun s => (s.alive 1, s.mem.cL, s.pc 1)) = some (true, 1, .swC) := by
  decide +kernel

end Mutexes
/-- C74: the number of a live thread, and 0, are given to no new thread. -/
theorem C74_births :
    (∀ (s : LockId.State) t, (LockId.born s t).isSome = true ↔ t ≠ 0 ∧ s.alive t = false) ∧
    (∀ (s : FL.State) t, (FL.born s t).isSome = true ↔ t ≠ 0 ∧ s.alive t = false) ∧
    (∀ (s : MC.State) t, (MC.born s t).isSome = true ↔ t ≠ 0 ∧ s.alive t = false) := by
  refine ⟨fun s t => ?_, fun s t => ?_, fun s t => ?_⟩
  · simp only [LockId.born]; split <;> simp_all
  · simp only [FL.born]; split <;> simp_all
  · simp only [MC.born]; split <;> simp_all

end Fullock.Props
