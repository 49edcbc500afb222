import Verif.Proofs.Attach
/-! C104: calls of several threads that start the library, or that run while it is reinitialised. -/
namespace Fullock.Props.Attach
open Fullock.Attach Fullock.Spec.Attach Fullock.Proofs.Attach

/-- C104, full statement: whatever threads call at the same time, no call leaves the segment and the lock is exclusive, also when the
calls themselves start the library. False. -/
def C104_full : Prop := ∀ es s, NoReinit es → run init es = some s → Safe s ∧ Exclusive s

/-- `n` steps of thread `t` in which the system refuses nothing. -/
def go (t n : Nat) : List Ev := List.replicate n (.run t true true)

/-- Two threads make their first call at the same time: the second finds the descriptor of the first and uses the null pointer. -/
theorem C104_not_safe : ∃ es s, NoReinit es ∧ run init es = some s ∧ ¬ Safe s ∧ s.nfd = 1 := by
  refine ⟨[.lock 1, .lock 2] ++ go 1 3 ++ go 2 3, _, ?_, rfl, ?_, ?_⟩
  · intro t h; simp [go] at h
  · unfold Safe; decide +kernel
  · decide +kernel

/-- Two threads make their first call at the same time, and both are given the exclusive lock: the second start erases the file. -/
theorem C104_not_exclusive :
    ∃ es s, NoReinit es ∧ run init es = some s ∧ Safe s ∧ s.own 1 = true ∧ s.own 2 = true ∧ s.ret 1 = some .ok ∧ s.ret 2 = some .ok := by
  refine ⟨[.lock 1, .lock 2] ++ go 2 2 ++ go 1 12 ++ go 2 10, _, ?_, rfl, ?_, ?_, ?_, ?_, ?_⟩
  · intro t h; simp [go] at h
  · unfold Safe; decide +kernel
  all_goals decide +kernel

/-- Another process is attached: the second start of two takes the mapping away from the first. -/
theorem C104_not_kept :
    ∃ es s, NoReinit es ∧ run init es = some s ∧ ¬ Safe s ∧ s.ret 2 = some .nomap ∧ s.maps = [] := by
  refine ⟨[.oAttach, .lock 1, .lock 2] ++ go 2 2 ++ List.replicate 9 (.run 1 true false) ++ List.replicate 6 (.run 2 true false) ++
    [.run 1 true true], _, ?_, rfl, ?_, ?_, ?_⟩
  · intro t h; simp [go] at h
  · unfold Safe; decide +kernel
  all_goals decide +kernel

/-- A call while another one starts the library is refused although nothing fails and the library is started. -/
theorem C104_refused_while_starting :
    ∃ es s, NoReinit es ∧ run init es = some s ∧ (∀ t cr, Ev.run t false cr ∉ es) ∧ s.ret 2 = some .nomap ∧ s.ret 1 = some .ok ∧
      s.fd = true := by
  refine ⟨[.lock 1, .lock 2] ++ go 2 1 ++ go 1 12 ++ go 2 1, _, ?_, rfl, ?_, ?_, ?_, ?_⟩
  · intro t h; simp [go] at h
  · intro t cr h; simp [go] at h
  all_goals decide +kernel

/-- C104 is false. -/
theorem C104_not_full : ¬ C104_full := by
  intro h
  obtain ⟨es, s, h1, h2, h3, -⟩ := C104_not_safe
  exact h3 (h es s h1 h2).1

/-- C104, the part that holds: if no other call runs while a call starts or ends the library, and no lock is kept over a
reinitialisation, no call leaves the segment and the lock is exclusive, in all processes. -/
theorem C104_partial {s : State} (h : Good s) : Safe s ∧ Exclusive s := by
  have hi := good_inv h
  refine ⟨hi.b.bad, ?_, ?_⟩
  · intro t u ht hu
    have h1 := hi.b.own t ht; have h2 := hi.b.own u hu
    rw [h1] at h2; cases h2; rfl
  · intro ho t
    cases ht : s.own t with
    | false => rfl
    | true => have h1 := hi.b.own t ht; rw [hi.b.oo.1 ho] at h1; cases h1

theorem onPc_not {a : Nat} {p : Pc} (h : onPc a p) : ¬ Starting p := by cases p <;> simp_all [onPc, Starting]

theorem on_user {s s' : State} {a : Nat} {e : Ev} (hv : VOn s a) (hp : ∀ t, onPc a (s.pc t)) (he : ∀ t ok cr, e ≠ .run t ok cr)
    (hr : ∀ t, e ≠ .reinit t) (h : step s e = some s') : VOn s' a ∧ ∀ t, onPc a (s'.pc t) := by
  cases e with
  | run t ok cr => exact absurd rfl (he t ok cr)
  | reinit t => exact absurd rfl (hr t)
  | lock t =>
    simp only [step] at h; split at h <;> simp only [Option.some.injEq, reduceCtorEq] at h; subst h
    exact ⟨hv, by intro u; show onPc a (upd s.pc t _ u); grind⟩
  | unlock t =>
    simp only [step] at h; split at h <;> simp only [Option.some.injEq, reduceCtorEq] at h; subst h
    exact ⟨hv, by intro u; show onPc a (upd s.pc t _ u); grind⟩
  | oAttach =>
    simp only [step] at h
    split at h
    · cases h
    · split at h
      · rename_i hc; rw [hv.2.2.2.2.2.1] at hc; cases hc.1
      · simp only [Option.some.injEq] at h; subst h; exact ⟨hv, hp⟩
  | oLeave =>
    simp only [step] at h
    split at h
    · cases h
    · split at h <;> simp only [Option.some.injEq] at h <;> subst h <;> exact ⟨hv, hp⟩
  | oLock => simp only [step] at h; split at h <;> simp only [Option.some.injEq, reduceCtorEq] at h; subst h; exact ⟨hv, hp⟩
  | oUnlock => simp only [step] at h; split at h <;> simp only [Option.some.injEq, reduceCtorEq] at h; subst h; exact ⟨hv, hp⟩

/-- C104: once a start has been completed, any number of threads may call at the same time, until the library is reinitialised. -/
theorem C104_started_partial {s s' : State} {es : List Ev} (h : Good s) (hs : Started s) (hn : NoReinit es) (hr : run s es = some s') :
    Good s' ∧ Started s' ∧ Safe s' ∧ Exclusive s' := by
  suffices hg : Good s' ∧ Started s' from ⟨hg.1, hg.2, C104_partial hg.1⟩
  have hi := good_inv h
  have hon : ∃ a, VOn s a ∧ ∀ t, onPc a (s.pc t) := by
    cases hi.ph with
    | off hv _ _ => have := hs.1; rw [hv.1] at this; cases this
    | on a hv hp => exact ⟨a, hv, hp⟩
    | mid t _ _ hm =>
      have := hs.2 t
      cases hq : s.pc t <;> rw [hq] at hm this <;> first | exact hm.elim | exact absurd trivial this
  clear hi hs
  induction es generalizing s with
  | nil =>
    simp only [run, Option.some.injEq] at hr; subst hr
    obtain ⟨a, hv, hp⟩ := hon
    exact ⟨h, hv.1, fun t => onPc_not (hp t)⟩
  | cons e es ih =>
    simp only [run] at hr
    cases h1 : step s e with
    | none => rw [h1] at hr; cases hr
    | some s1 =>
      rw [h1] at hr
      obtain ⟨a, hv, hp⟩ := hon
      have hon1 : VOn s1 a ∧ ∀ t, onPc a (s1.pc t) := by
        by_cases he : ∃ t ok cr, e = .run t ok cr
        · obtain ⟨t, ok, cr, rfl⟩ := he
          exact (on_step (good_inv h).b hv hp h1).2
        · exact on_user hv hp (fun t ok cr hx => he ⟨t, ok, cr, hx⟩) (fun t hx => hn t (by rw [hx]; exact List.mem_cons_self ..)) h1
      have hal : Alone s1 := fun t u _ hst => absurd hst (onPc_not (hon1.2 t))
      have hpol : Polite s e := by
        cases e with
        | reinit t => exact absurd (List.mem_cons_self ..) (hn t)
        | _ => trivial
      exact ih (.step h hpol h1 hal) (fun t hx => hn t (List.mem_cons_of_mem _ hx)) hr ⟨a, hon1⟩

/-- The rest of a start made by thread `t` while all others are outside of the library. -/
theorem alone_of {s : State} (t : Nat) (h : ∀ u, u ≠ t → s.pc u = .idle) : Alone s := by
  intro v u hvu hv
  by_cases hu : u = t
  · subst hu; rw [h v hvu] at hv; exact hv.elim
  · exact h u hu

theorem started_pc {s : State} {t u : Nat} {c : Call} (hu : u ≠ t) : (started s t c).pc u = s.pc u := by
  cases c <;> simp [started, State.goto, State.back, upd_app, hu]

theorem only_of {s s' : State} {t : Nat} {ok cr : Bool} (h : ∀ u, u ≠ t → s.pc u = .idle) (hs : step1 s t ok cr = some s') :
    ∀ u, u ≠ t → s'.pc u = .idle := by
  have key : ∀ u, u ≠ t → s'.pc u = s.pc u := by
    intro u hu
    unfold step1 at hs
    repeat' split at hs
    all_goals first
      | (cases hs; done)
      | (simp only [Option.some.injEq] at hs; subst hs; (repeat' split)
         all_goals first
           | (simp [State.goto, State.back, State.crash, State.unmap, upd_app, hu]; done)
           | (rw [started_pc hu]))
  intro u hu; rw [key u hu]; exact h u hu

theorem good_solo {t : Nat} {bs : List (Bool × Bool)} : ∀ {s s' : State}, Good s → (∀ u, u ≠ t → s.pc u = .idle) →
    run s (bs.map fun b => .run t b.1 b.2) = some s' → Good s' ∧ ∀ u, u ≠ t → s'.pc u = .idle := by
  induction bs with
  | nil => intro s s' h hi hr; simp only [List.map_nil, run, Option.some.injEq] at hr; subst hr; exact ⟨h, hi⟩
  | cons b bs ih =>
    intro s s' h hi hr
    simp only [List.map_cons, run] at hr
    cases h1 : step s (.run t b.1 b.2) with
    | none => rw [h1] at hr; cases hr
    | some s1 =>
      rw [h1] at hr
      have hi1 := only_of hi h1
      exact ih (.step h (e := .run t b.1 b.2) trivial h1 (alone_of t hi1)) hi1 hr

/-- All answers of the system in a start by thread `t` that makes the file, from `CheckAttach` to the return of the call. -/
def goCr (t n : Nat) (cr : Bool) : List Ev := (List.replicate n (true, cr)).map fun b => .run t b.1 b.2

theorem at_rest {s : State} (h : Good s) (hi : ∀ u, s.pc u = .idle) :
    VOff s ∧ NoMine s ∨ ∃ a, VOn s a := by
  cases (good_inv h).ph with
  | off hv hn _ => exact .inl ⟨hv, hn⟩
  | on a hv _ => exact .inr ⟨a, hv⟩
  | mid t _ _ hm => rw [hi t] at hm; exact hm.elim

/-- C104: while no call runs the process has either everything of one start (one descriptor, one mapping, complete) or nothing. -/
theorem C104_all_or_nothing_partial {s : State} (h : Good s) (hi : ∀ u, s.pc u = .idle) :
    (s.fd = false ∧ s.nfd = 0 ∧ s.maps = [] ∧ s.base = none ∧ s.head = none ∧ s.plock = .none ∧ ∀ t, s.own t = false) ∨
    (s.fd = true ∧ s.nfd = 1 ∧ s.plock = .read ∧ s.ready = true ∧ ∃ a, s.maps = [a] ∧ s.base = some a ∧ s.head = some a) := by
  rcases at_rest h hi with ⟨⟨h1, h2, h3, h4, h5, h6⟩, hn⟩ | ⟨a, h1, h2, h3, h4, h5, h6, h7, h8⟩
  · refine .inl ⟨h1, h2, h5, h3, h4, h6, ?_⟩
    intro t; cases ht : s.own t with
    | false => rfl
    | true => exact absurd ((good_inv h).b.own t ht) (hn t)
  · exact .inr ⟨h1, h2, h6, h8, a, h5, h3, h4⟩

/-- C104: a first call made alone starts the library and is given the lock, by making the file if no other process is attached. -/
theorem C104_first_creates {s : State} (h : Good s) (hi : ∀ u, s.pc u = .idle) (hf : s.fd = false) (ho : s.others = 0) (t : Nat)
    (cr : Bool) : ∃ s', run s (.lock t :: goCr t 12 cr) = some s' ∧ Good s' ∧ Started s' ∧ s'.own t = true ∧ s'.ret t = some .ok ∧
      ∀ u, s'.pc u = .idle := by
  have hrest := at_rest h hi
  obtain ⟨⟨-, -, h3, h4, h5, h6⟩, hn⟩ | ⟨a, h1, -⟩ := hrest
  rotate_left
  · rw [hf] at h1; cases h1
  obtain ⟨s1, hs1⟩ : ∃ s1, step s (.lock t) = some s1 := by simp [step, hi t]
  have hi1 : ∀ u, u ≠ t → s1.pc u = .idle := by
    intro u hu; simp only [step, hi t, if_true, Option.some.injEq] at hs1; subst hs1
    simp [State.goto, upd_app, hu, hi u]
  have hg1 : Good s1 := .step h (e := .lock t) trivial hs1 (alone_of t hi1)
  have hrun : ∃ s', run s (.lock t :: goCr t 12 cr) = some s' ∧ s'.own t = true ∧ s'.ret t = some .ok ∧ s'.pc t = .idle ∧ s'.fd = true := by
    simp [goCr, List.replicate, run, step, hi t, step1, hf, ho, h3, h5, State.goto, started, State.back, upd_app]
  obtain ⟨s', hr, hx⟩ := hrun
  have hr' := hr
  simp only [run, hs1, Option.bind_some] at hr'
  obtain ⟨hg, hid⟩ := good_solo hg1 hi1 hr'
  have hid' : ∀ u, s'.pc u = .idle := by
    intro u; by_cases hu : u = t
    · subst hu; exact hx.2.2.1
    · exact hid u hu
  exact ⟨s', hr, hg, ⟨hx.2.2.2, fun u hst => by rw [hid' u] at hst; exact hst⟩, hx.1, hx.2.1, hid'⟩

/-- C104: with other processes attached it attaches to their segment and leaves it as it is. -/
theorem C104_first_attaches {s : State} (h : Good s) (hi : ∀ u, s.pc u = .idle) (hf : s.fd = false) (ho : s.others ≠ 0)
    (hh : s.held = none) (t : Nat) : ∃ s', run s (.lock t :: goCr t 10 false) = some s' ∧ Good s' ∧ Started s' ∧ s'.own t = true ∧
      s'.ret t = some .ok ∧ ∀ u, s'.pc u = .idle := by
  have hrest := at_rest h hi
  have hoth := (good_inv h).b.oth ho
  obtain ⟨⟨-, -, h3, h4, h5, h6⟩, hn⟩ | ⟨a, h1, -⟩ := hrest
  rotate_left
  · rw [hf] at h1; cases h1
  obtain ⟨s1, hs1⟩ : ∃ s1, step s (.lock t) = some s1 := by simp [step, hi t]
  have hi1 : ∀ u, u ≠ t → s1.pc u = .idle := by
    intro u hu; simp only [step, hi t, if_true, Option.some.injEq] at hs1; subst hs1
    simp [State.goto, upd_app, hu, hi u]
  have hg1 : Good s1 := .step h (e := .lock t) trivial hs1 (alone_of t hi1)
  have hrun : ∃ s', run s (.lock t :: goCr t 10 false) = some s' ∧ s'.own t = true ∧ s'.ret t = some .ok ∧ s'.pc t = .idle ∧
      s'.fd = true := by
    simp [goCr, List.replicate, run, step, hi t, step1, hf, ho, h3, h5, hoth, hh, State.goto, started, State.back, upd_app]
  obtain ⟨s', hr, hx⟩ := hrun
  have hr' := hr
  simp only [run, hs1, Option.bind_some] at hr'
  obtain ⟨hg, hid⟩ := good_solo hg1 hi1 hr'
  have hid' : ∀ u, s'.pc u = .idle := by
    intro u; by_cases hu : u = t
    · subst hu; exact hx.2.2.1
    · exact hid u hu
  exact ⟨s', hr, hg, ⟨hx.2.2.2, fun u hst => by rw [hid' u] at hst; exact hst⟩, hx.1, hx.2.1, hid'⟩

theorem step1_frame {s s' : State} {t u : Nat} {ok cr : Bool} (hu : u ≠ t) (hs : step1 s t ok cr = some s') :
    s'.pc u = s.pc u ∧ s'.ret u = s.ret u := by
  unfold step1 at hs
  repeat' split at hs
  all_goals first
    | (cases hs; done)
    | (simp only [Option.some.injEq] at hs; subst hs; (repeat' split)
       all_goals first
         | (simp [State.goto, State.back, State.crash, State.unmap, upd_app, hu]; done)
         | (rename Call => c; cases c <;> simp [started, State.goto, State.back, upd_app, hu]))

theorem step_ret {s s' : State} {t : Nat} {e : Ev} (he : (∀ ok cr, e ≠ .run t ok cr) ∧ e ≠ .lock t ∧ e ≠ .unlock t ∧ e ≠ .reinit t)
    (h : step s e = some s') : s'.pc t = s.pc t ∧ s'.ret t = s.ret t := by
  obtain ⟨h1, h2, h3, h4⟩ := he
  cases e with
  | run u ok cr => exact step1_frame (fun hx => h1 ok cr (by rw [hx])) h
  | lock u =>
    have hu : t ≠ u := fun hx => h2 (by rw [hx])
    simp only [step] at h; split at h <;> simp only [Option.some.injEq, reduceCtorEq] at h; subst h
    simp [State.goto, upd_app, hu]
  | unlock u =>
    have hu : t ≠ u := fun hx => h3 (by rw [hx])
    simp only [step] at h; split at h <;> simp only [Option.some.injEq, reduceCtorEq] at h; subst h
    simp [upd_app, hu]
  | reinit u =>
    have hu : t ≠ u := fun hx => h4 (by rw [hx])
    simp only [step] at h; split at h <;> simp only [Option.some.injEq, reduceCtorEq] at h; subst h
    simp [State.goto, upd_app, hu]
  | _ =>
    simp only [step] at h
    repeat' split at h
    all_goals first
      | (cases h; done)
      | (simp only [Option.some.injEq] at h; subst h; exact ⟨rfl, rfl⟩)

/-- Giving back the lock: in the call, or returned with success. -/
def Giving (s : State) (t : Nat) : Prop :=
  pcCall (s.pc t) = some (.unlock true) ∨ s.pc t = .idle ∧ s.ret t = some .ok

theorem giving_step {s s' : State} {t : Nat} {e : Ev} (h : Good s) (hp : Giving s t)
    (he : e ≠ .lock t ∧ e ≠ .unlock t ∧ e ≠ .reinit t) (hs : step s e = some s') : Giving s' t := by
  by_cases hr : ∃ ok cr, e = .run t ok cr
  · obtain ⟨ok, cr, rfl⟩ := hr
    rcases hp with hp | hp
    · have hi := good_inv h
      have hm := hi.b.unl t hp
      cases hi.ph with
      | off _ hn _ => exact absurd hm (hn t)
      | mid v hn _ _ => exact absurd hm (hn t)
      | on a hv hpc =>
        have hpt := hpc t
        have hma : s.maps = [a] := hv.2.2.2.2.1
        cases hq : s.pc t with
        | chk c =>
          rw [hq] at hp
          simp only [step, step1, hq, hv.1, if_true, Option.some.injEq] at hs; subst hs
          left; simp only [State.goto, upd_same]; exact hp
        | use c =>
          rw [hq] at hp
          simp only [step, step1, hq, Option.some.injEq] at hs; subst hs
          left; simp only [State.goto, upd_same]; exact hp
        | op c b =>
          rw [hq] at hp hpt
          obtain ⟨-, rfl⟩ := hpt
          simp only [pcCall, Option.some.injEq] at hp; subst hp
          simp only [step, step1, hq] at hs
          rw [if_pos ⟨by rw [hma]; simp, hv.2.2.2.2.2.2⟩] at hs
          simp only [hm, if_true, Option.some.injEq] at hs
          subst hs
          right; simp [State.back, upd_app]
        | idle => rw [hq] at hp; cases hp
        | _ => rw [hq] at hpt; exact hpt.elim
    · simp [step, step1, hp.1] at hs
  · have := step_ret ⟨fun ok cr hx => hr ⟨ok, cr, hx⟩, he⟩ hs
    unfold Giving; rw [this.1, this.2]; exact hp

theorem giving_run {s s' : State} {t : Nat} {es : List Ev} (hr : GoodRun s es s') :
    Good s → Giving s t → NoCall t es → Good s' ∧ Giving s' t := by
  induction hr with
  | nil s => exact fun h hp _ => ⟨h, hp⟩
  | cons hp hs ha _ ih =>
    intro h hg hn
    obtain ⟨h1, h2, h3⟩ := hn
    have hne := giving_step h hg ⟨fun hx => h1 (by rw [hx]; exact List.mem_cons_self ..),
      fun hx => h2 (by rw [hx]; exact List.mem_cons_self ..), fun hx => h3 (by rw [hx]; exact List.mem_cons_self ..)⟩ hs
    exact ih (.step h hp hs ha) hne ⟨fun hx => h1 (List.mem_cons_of_mem _ hx), fun hx => h2 (List.mem_cons_of_mem _ hx),
      fun hx => h3 (List.mem_cons_of_mem _ hx)⟩

/-- C104: a lock that was given is not lost: giving it back is answered with success, never with EINVAL or "not attached". -/
theorem C104_kept_partial {s s1 s' : State} {t : Nat} {es : List Ev} (h : Good s) (ho : s.own t = true)
    (hs : step s (.unlock t) = some s1) (ha : Alone s1) (hr : GoodRun s1 es s') (hn : NoCall t es) (hd : s'.pc t = .idle) :
    s'.ret t = some .ok := by
  have hg1 : Good s1 := .step h (e := .unlock t) trivial hs ha
  have hp1 : Giving s1 t := by
    simp only [step] at hs; split at hs <;> simp only [Option.some.injEq, reduceCtorEq] at hs; subst hs
    left; simp [upd_same, pcCall, ho]
  rcases (giving_run hr hg1 hp1 hn).2 with hp | hp
  · rw [hd] at hp; cases hp
  · exact hp.2

/-- States of a process whose every `open` is refused. -/
structure Out (s : State) : Prop where
  v : VOff s
  pc : ∀ t, s.pc t = .idle ∨ ∃ c, s.pc t = .chk c ∨ s.pc t = .tst c ∨ s.pc t = .opn c ∨ s.pc t = .des c
  bad : s.bad = false
  own : ∀ t, s.own t = false
  ret : ∀ t r, s.ret t = some r → r = .nomap

theorem out_step {s s' : State} {e : Ev} (h : Out s) (hr : ∀ t ok cr c, e = .run t ok cr → s.pc t = .opn c → ok = false)
    (hs : step s e = some s') : Out s' := by
  obtain ⟨hv, hpc, hbad, hown, hret⟩ := h
  have put : ∀ t p, (p = .idle ∨ ∃ c, p = .chk c ∨ p = .tst c ∨ p = .opn c ∨ p = .des c) → ∀ u, upd s.pc t p u = .idle ∨
      ∃ c, upd s.pc t p u = .chk c ∨ upd s.pc t p u = .tst c ∨ upd s.pc t p u = .opn c ∨ upd s.pc t p u = .des c := by
    intro t p hp u; rw [upd_app]; split
    · exact hp
    · exact hpc u
  cases e with
  | run t ok cr =>
    rcases hpc t with hp | ⟨c, hp | hp | hp | hp⟩
    · simp [step, step1, hp] at hs
    · simp only [step, step1, hp, hv.1, Bool.false_eq_true, if_false, Option.some.injEq] at hs; subst hs
      exact ⟨hv, put t _ (.inr ⟨c, .inr (.inl rfl)⟩), hbad, hown, hret⟩
    · simp only [step, step1, hp, hv.1, Bool.false_eq_true, if_false, Option.some.injEq] at hs; subst hs
      exact ⟨hv, put t _ (.inr ⟨c, .inr (.inr (.inl rfl))⟩), hbad, hown, hret⟩
    · have hok := hr t ok cr c rfl hp; subst hok
      simp only [step, step1, hp, Bool.false_eq_true, if_false, Option.some.injEq] at hs; subst hs
      refine ⟨⟨rfl, hv.2⟩, put t _ (.inl rfl), hbad, hown, ?_⟩
      intro u r hu; simp only [State.back, upd_app] at hu; split at hu
      · cases hu; rfl
      · exact hret u r hu
    · simp only [step, step1, hp, hv.1, Bool.false_eq_true, if_false, Option.some.injEq] at hs; subst hs
      exact ⟨hv, put t _ (.inr ⟨c, .inr (.inl rfl)⟩), hbad, hown, hret⟩
  | lock t =>
    simp only [step] at hs; split at hs <;> simp only [Option.some.injEq, reduceCtorEq] at hs; subst hs
    exact ⟨hv, put t _ (.inr ⟨_, .inl rfl⟩), hbad, hown, hret⟩
  | unlock t =>
    simp only [step] at hs; split at hs <;> simp only [Option.some.injEq, reduceCtorEq] at hs; subst hs
    refine ⟨hv, put t _ (.inr ⟨_, .inl rfl⟩), hbad, ?_, hret⟩
    intro u; simp only [upd_app]; split
    · rfl
    · exact hown u
  | reinit t =>
    simp only [step] at hs; split at hs <;> simp only [Option.some.injEq, reduceCtorEq] at hs; subst hs
    exact ⟨hv, put t _ (.inr ⟨_, .inr (.inr (.inr rfl))⟩), hbad, hown, hret⟩
  | _ =>
    simp only [step] at hs
    repeat' split at hs
    all_goals first
      | (cases hs; done)
      | (simp only [Option.some.injEq] at hs; subst hs; exact ⟨hv, hpc, hbad, hown, hret⟩)

/-- C104: as long as the segment file cannot be opened, any number of threads may call at any time: every call is answered as one
without a segment, nothing is mapped and no descriptor is left. -/
theorem C104_refused {es : List Ev} {s' : State} (hf : Refused init es) (hr : run init es = some s') :
    Safe s' ∧ (∀ t, s'.own t = false) ∧ s'.maps = [] ∧ s'.nfd = 0 ∧ ∀ t r, s'.ret t = some r → r = .nomap := by
  have key : ∀ (es : List Ev) (s : State), Out s → Refused s es → run s es = some s' → Out s' := by
    intro es
    induction es with
    | nil => intro s h _ hr; simp only [run, Option.some.injEq] at hr; subst hr; exact h
    | cons e es ih =>
      intro s h hf hr
      simp only [run] at hr
      cases h1 : step s e with
      | none => rw [h1] at hr; cases hr
      | some s1 => rw [h1] at hr; exact ih s1 (out_step h hf.1 h1) (hf.2 s1 h1) hr
  have := key es init ⟨⟨rfl, rfl, rfl, rfl, rfl, rfl⟩, fun _ => .inl rfl, rfl, fun _ => rfl, by simp [init]⟩ hf hr
  exact ⟨this.bad, this.own, this.v.2.2.2.2.1, this.v.2.1, this.ret⟩

/-- C104: `fullock_reinitialize` alone, without locks of the process, ends the library and starts it again. -/
theorem C104_reinit {s : State} (h : Good s) (hi : ∀ u, s.pc u = .idle) (hf : s.fd = true) (ho : s.others = 0)
    (hown : ∀ t, s.own t = false) (t : Nat) (cr : Bool) :
    ∃ s', run s (.reinit t :: goCr t 12 cr) = some s' ∧ Good s' ∧ Started s' ∧ s'.ret t = some .ok ∧ s'.held = none ∧
      ∀ u, s'.pc u = .idle := by
  obtain ⟨⟨h1, -⟩, -⟩ | ⟨a, h1, h2, h3, h4, h5, h6, h7, h8⟩ := at_rest h hi
  · rw [hf] at h1; cases h1
  obtain ⟨s1, hs1⟩ : ∃ s1, step s (.reinit t) = some s1 := by simp [step, hi t]
  have hi1 : ∀ u, u ≠ t → s1.pc u = .idle := by
    intro u hu; simp only [step, hi t, if_true, Option.some.injEq] at hs1; subst hs1
    simp [State.goto, upd_app, hu, hi u]
  have hg1 : Good s1 := .step h (e := .reinit t) hown hs1 (alone_of t hi1)
  have hrun : ∃ s', run s (.reinit t :: goCr t 12 cr) = some s' ∧ s'.ret t = some .ok ∧ s'.pc t = .idle ∧ s'.fd = true ∧
      s'.held = none := by
    simp [goCr, List.replicate, run, step, hi t, step1, ho, h1, h3, h4, h5, h7, State.goto, State.unmap, started, State.back, upd_app]
  obtain ⟨s', hr, hx⟩ := hrun
  have hr' := hr
  simp only [run, hs1, Option.bind_some] at hr'
  obtain ⟨hg, hid⟩ := good_solo hg1 hi1 hr'
  have hid' : ∀ u, s'.pc u = .idle := by
    intro u; by_cases hu : u = t
    · subst hu; exact hx.2.1
    · exact hid u hu
  exact ⟨s', hr, hg, ⟨hx.2.2.1, fun u hst => by rw [hid' u] at hst; exact hst⟩, hx.1, hx.2.2.2, hid'⟩

/-! A case: thread 1 starts the library, then threads 1 and 2 use it at the same time. -/
theorem case104 : ∃ s, run init (.lock 1 :: goCr 1 12 true) = some s ∧ Good s ∧ Started s ∧ s.own 1 = true ∧ s.ret 1 = some .ok ∧
    ∀ u, s.pc u = .idle :=
  C104_first_creates .init (fun _ => rfl) rfl rfl 1 true

/-- Non-vacuity of `C104_partial`, `C104_all_or_nothing_partial` and `C104_started_partial`: a library in use by two threads. -/
example : ∃ s s' es, Good s ∧ Started s ∧ NoReinit es ∧ run s es = some s' ∧ s'.own 2 = true ∧ s'.pc 1 ≠ .idle := by
  obtain ⟨s, hr, hg, hs, -⟩ := case104
  refine ⟨s, ?_⟩
  have hx : ((run init (.lock 1 :: goCr 1 12 true)).bind
      (fun s => run s ([.lock 2, .unlock 1] ++ go 2 1 ++ go 1 3 ++ go 2 2 ++ [.lock 1] ++ go 1 1))).any
      (fun s' => s'.own 2 && decide (s'.pc 1 ≠ .idle)) = true := by decide +kernel
  rw [hr] at hx
  simp only [Option.bind_some] at hx
  cases h : run s ([.lock 2, .unlock 1] ++ go 2 1 ++ go 1 3 ++ go 2 2 ++ [.lock 1] ++ go 1 1) with
  | none => rw [h] at hx; cases hx
  | some s' =>
    rw [h] at hx
    simp only [Option.any_some, Bool.and_eq_true, decide_eq_true_eq] at hx
    exact ⟨s', _, hg, hs, by intro t ht; simp [go] at ht, h, hx.1, hx.2⟩

/-- A library that was started properly, and is reinitialised while another thread is in a call: that call leaves the segment. -/
theorem C104_reinit_not_safe : ∃ s s' es, Good s ∧ Started s ∧ run s es = some s' ∧ ¬ Safe s' := by
  obtain ⟨s, hr, hg, hs, -⟩ := case104
  have hx : ((run init (.lock 1 :: goCr 1 12 true)).bind
      (fun s => run s ([.unlock 1] ++ go 1 2 ++ [.reinit 2] ++ go 2 2 ++ go 1 1))).any (fun s' => s'.bad) = true := by decide +kernel
  rw [hr] at hx
  simp only [Option.bind_some] at hx
  cases h : run s ([.unlock 1] ++ go 1 2 ++ [.reinit 2] ++ go 2 2 ++ go 1 1) with
  | none => rw [h] at hx; cases hx
  | some s' =>
    rw [h] at hx
    exact ⟨s, s', _, hg, hs, h, by simpa [Safe] using hx⟩

/-- The same for the lock: a lock kept over a reinitialisation is lost although no two calls overlap. -/
theorem C104_reinit_loses : ∃ s s' es, Good s ∧ Started s ∧ run s es = some s' ∧ Safe s' ∧ ¬ Exclusive s' := by
  obtain ⟨s, hr, hg, hs, -⟩ := case104
  have hx : ((run init (.lock 1 :: goCr 1 12 true)).bind
      (fun s => run s ([.reinit 2] ++ go 2 12 ++ [.lock 2] ++ go 2 3))).any
        (fun s' => !s'.bad && s'.own 1 && s'.own 2) = true := by decide +kernel
  rw [hr] at hx
  simp only [Option.bind_some] at hx
  cases h : run s ([.reinit 2] ++ go 2 12 ++ [.lock 2] ++ go 2 3) with
  | none => rw [h] at hx; cases hx
  | some s' =>
    rw [h] at hx
    simp only [Option.any_some, Bool.and_eq_true, Bool.not_eq_true'] at hx
    exact ⟨s, s', _, hg, hs, h, hx.1.1, fun he => absurd (he.1 1 2 hx.1.2 hx.2) (by decide)⟩

/-- Non-vacuity of `C104_kept_partial`. -/
example : ∃ s s1 s' es, Good s ∧ s.own 1 = true ∧ step s (.unlock 1) = some s1 ∧ Alone s1 ∧ GoodRun s1 es s' ∧ NoCall 1 es ∧
    s'.pc 1 = .idle := by
  obtain ⟨s, hr, hg, hs, ho, -, hid⟩ := case104
  have hx : ((run init (.lock 1 :: goCr 1 12 true)).bind (fun s => run s (.unlock 1 :: go 1 3))).any
      (fun s' => decide (s'.pc 1 = .idle)) = true := by decide +kernel
  rw [hr] at hx
  simp only [Option.bind_some, run] at hx
  obtain ⟨s1, h1⟩ : ∃ s1, step s (.unlock 1) = some s1 := by simp [step, hid 1]
  have hi1 : ∀ u, u ≠ 1 → s1.pc u = .idle := by
    intro u hu; simp only [step, hid 1, if_true, Option.some.injEq] at h1; subst h1; simp [upd_app, hu, hid u]
  rw [h1] at hx
  simp only [Option.bind_some] at hx
  have gr : ∀ (n : Nat) (s1 s' : State), (∀ u, u ≠ 1 → s1.pc u = .idle) → run s1 (go 1 n) = some s' → GoodRun s1 (go 1 n) s' := by
    intro n
    induction n with
    | zero => intro s1 s' _ hr; simp only [go, List.replicate, run, Option.some.injEq] at hr; subst hr; exact .nil _
    | succ n ih =>
      intro s1 s' hi hr
      simp only [go, List.replicate_succ, run] at hr ⊢
      cases h2 : step s1 (.run 1 true true) with
      | none => rw [h2] at hr; cases hr
      | some s2 =>
        rw [h2] at hr
        have hi2 := only_of hi h2
        exact .cons (e := .run 1 true true) trivial h2 (alone_of 1 hi2) (ih s2 s' hi2 hr)
  cases h : run s1 (go 1 3) with
  | none => rw [h] at hx; cases hx
  | some s' =>
    rw [h] at hx
    simp only [Option.any_some, decide_eq_true_eq] at hx
    exact ⟨s, s1, s', _, hg, ho, h1, alone_of 1 hi1, gr 3 s1 s' hi1 h, by simp [NoCall, go], hx⟩

/-- Non-vacuity of `C104_refused`: three calls of two threads at the same time, one of them `fullock_reinitialize`. -/
example : ∃ es s', Refused init es ∧ run init es = some s' ∧ s'.ret 1 = some .nomap ∧ s'.ret 2 = some .nomap := by
  refine ⟨[.lock 1, .reinit 2] ++ go 1 2 ++ go 2 2 ++ [.run 1 false true, .run 2 false true], _, ?_, rfl, ?_, ?_⟩
  · simp only [go, List.replicate, List.cons_append, List.nil_append, Refused]
    simp [step, step1, init, State.goto, upd_app, State.back]
    refine ⟨?_, ?_, ?_, ?_⟩ <;> (intro t c h; subst h; simp)
  · decide +kernel
  · decide +kernel

/-- Non-vacuity of `C104_reinit`: a library that another call of `fullock_reinitialize` has started. -/
example : ∃ s, Good s ∧ (∀ u, s.pc u = .idle) ∧ s.fd = true ∧ s.others = 0 ∧ ∀ t, s.own t = false := by
  obtain ⟨s1, h1⟩ : ∃ s1, step init (.reinit 1) = some s1 := ⟨_, rfl⟩
  have hi1 : ∀ u, u ≠ 1 → s1.pc u = .idle := by
    intro u hu; simp only [step, init, if_true, Option.some.injEq] at h1; subst h1; simp [State.goto, upd_app, hu]
  have hg1 : Good s1 := .step .init (e := .reinit 1) (fun _ => rfl) h1 (alone_of 1 hi1)
  obtain ⟨s, h, h2, h3, h4, h5⟩ : ∃ s, run s1 (goCr 1 10 true) = some s ∧ s.pc 1 = .idle ∧ s.fd = true ∧ s.others = 0 ∧
      ∀ t, s.own t = false := by
    simp only [step, init, if_true, Option.some.injEq] at h1; subst h1
    simp [goCr, List.replicate, run, step, step1, State.goto, started, State.back, upd_app]
  obtain ⟨hg, hid⟩ := good_solo hg1 hi1 h
  refine ⟨s, hg, fun u => ?_, h3, h4, h5⟩
  by_cases hu : u = 1
  · subst hu; exact h2
  · exact hid u hu

/-- Non-vacuity of `C104_first_attaches`. -/
example : ∃ s, Good s ∧ (∀ u, s.pc u = .idle) ∧ s.fd = false ∧ s.others ≠ 0 ∧ s.held = none := by
  refine ⟨_, .step .init (e := .oAttach) trivial rfl (fun _ _ _ h => h.elim), fun _ => rfl, rfl, by decide, rfl⟩

end Fullock.Props.Attach
