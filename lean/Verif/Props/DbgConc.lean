import Verif.Proofs.DbgConc
/-! C105: the debug log used, set and unset by several threads. -/
namespace Fullock.Props.DbgConc
open Fullock.DbgConc Fullock.Spec.DbgConc Fullock.Proofs.DbgConc

/-- C105, full statement: whatever threads print, set and unset the log file at the same time, the stream library is given open streams
only, and no stream is left open but that of the log. False. -/
def C105_full : Prop := ∀ es s, run init es = some s → Safe s ∧ Kept s

/-- `n` steps of thread `t`, in which the variable is loaded once by the macro (`once`) or twice. -/
def go (t n : Nat) (once : Bool) : List Ev := List.replicate n (.run t true once)

/-- The log file is set by thread 1, which also turns on all messages. -/
def started : List Ev := [.mode .msg, .set 1 ['f']] ++ go 1 3 true

/-- A thread prints while another one unsets the file: the stream is closed when it is written to. -/
theorem C105_closed :
    ∃ s, run init (started ++ [.print 2 .err] ++ go 2 1 true ++ [.unset 1] ++ go 1 4 true ++ go 2 1 true) = some s ∧ ¬ Safe s ∧
      s.out = [(2, some 0)] ∧ s.live 0 = false := by
  refine ⟨_, rfl, ?_, ?_, ?_⟩
  · unfold Safe; decide +kernel
  all_goals decide +kernel

/-- The same with two loads in the macro: the message is written to a null pointer. -/
theorem C105_null :
    ∃ s, run init (started ++ [.print 2 .err] ++ go 2 1 false ++ [.unset 1] ++ go 1 4 true ++ go 2 2 false) = some s ∧ ¬ Safe s ∧
      s.out = [(2, none)] := by
  refine ⟨_, rfl, ?_, ?_⟩
  · unfold Safe; decide +kernel
  all_goals decide +kernel

/-- Two threads unset the file: the stream is closed twice, and both calls succeed. -/
theorem C105_twice :
    ∃ s, run init (started ++ [.unset 1, .unset 2] ++ go 1 2 true ++ go 2 2 true ++ go 1 2 true ++ go 2 2 true) = some s ∧ ¬ Safe s ∧
      s.ret 1 = some true ∧ s.ret 2 = some true := by
  refine ⟨_, rfl, ?_, ?_, ?_⟩
  · unfold Safe; decide +kernel
  all_goals decide +kernel

/-- Two threads unset the file, the second one between the test and the close of which the first one is done: a null pointer is closed. -/
theorem C105_close_null :
    ∃ s, run init (started ++ [.unset 1, .unset 2] ++ go 2 1 true ++ go 1 4 true ++ go 2 2 true) = some s ∧ ¬ Safe s ∧
      s.ret 1 = some true ∧ s.pc 2 = .uNull false := by
  refine ⟨_, rfl, ?_, ?_, ?_⟩
  · unfold Safe; decide +kernel
  all_goals decide +kernel

/-- Two threads set a file, both calls succeed, and nobody can close the stream of the first any more. -/
theorem C105_lost :
    ∃ s, run init ([.set 1 ['f'], .set 2 ['g']] ++ go 1 2 true ++ go 2 3 true ++ go 1 1 true) = some s ∧ Safe s ∧
      s.live 1 = true ∧ s.fp = some 0 ∧ s.ret 1 = some true ∧ s.ret 2 = some true ∧ s.pc 1 = .idle ∧ s.pc 2 = .idle := by
  refine ⟨_, rfl, ?_, ?_, ?_, ?_, ?_, ?_, ?_⟩
  · unfold Safe; decide +kernel
  all_goals decide +kernel

/-- C105 is false. -/
theorem C105_not_full : ¬ C105_full := by
  intro h
  obtain ⟨s, h1, h2, -⟩ := C105_closed
  exact h2 (h _ s h1).1

/-- C105 for users that keep the rules: one thread at a time changes the log file; an existing log is changed only while no other thread
is in the debug control, and nothing is printed until it is gone. Any number of threads print at the same time, also while the first
file is set. Missing: calls that overlap. -/
theorem C105_partial {s : State} (h : Good s) : Safe s ∧ Kept s := by
  have hi := inv_good h
  refine ⟨hi.ok, fun hall a => hi.log ?_ ?_ a⟩
  · intro t k; rw [hall t]; simp
  · intro t k; rw [hall t]; simp

/-- C105: under the same rules a message that goes to a file goes to the log file of that moment, which is open. -/
theorem C105_to_log_partial {s s' : State} (h : Good s) {e : Ev} (hs : step s e = some s') {t : Nat} {x : Option Nat}
    (ho : s'.out = (t, x) :: s.out) : s'.bad = false ∧ (∀ a, x = some a → s.fp = some a ∧ s.live a = true) ∧ ∃ ok once, e = .run t ok once := by
  have hi := inv_good h
  have hne : s.out ≠ (t, x) :: s.out := fun h => by simpa using congrArg List.length h
  cases e with
  | mode m => cases hs; exact absurd ho hne
  | print u l =>
    simp only [step] at hs; split at hs
    · cases hs; unfold State.say at ho; split at ho <;> exact absurd ho hne
    · cases hs
  | set u p =>
    simp only [step] at hs; split at hs
    · simp only [Option.some.injEq] at hs; subst hs
      unfold State.say at ho; split at ho
      · split at ho <;> exact absurd ho hne
      · exact absurd ho hne
    · cases hs
  | unset u =>
    simp only [step] at hs; split at hs
    · cases hs; exact absurd ho hne
    · cases hs
  | run u ok once =>
    have hok := (inv_step1 hi hs).ok
    refine ⟨hok, ?_⟩
    have hu := hi.at_ u
    simp only [step, step1] at hs
    cases hp : s.pc u with
    | wr y =>
      rw [hp] at hs hu
      simp only [Option.some.injEq] at hs; subst hs
      simp only [State.goto, List.cons.injEq, Prod.mk.injEq, and_true] at ho
      obtain ⟨rfl, rfl⟩ := ho
      refine ⟨?_, ok, once, rfl⟩
      intro a ha
      subst ha
      refine ⟨hu.2, ?_⟩
      have : (s.bad || !s.live a) = false := hok
      cases hl : s.live a
      · rw [hl] at this; simp at this
      · rfl
    | wrErr =>
      rw [hp] at hs
      simp only [Option.some.injEq] at hs; subst hs
      simp only [State.goto, List.cons.injEq, Prod.mk.injEq, and_true] at ho
      obtain ⟨rfl, rfl⟩ := ho
      exact ⟨by simp, ok, once, rfl⟩
    | idle => rw [hp] at hs; cases hs
    | tst => rw [hp] at hs; simp only [Option.some.injEq] at hs; subst hs; split at ho <;> (try split at ho) <;> exact absurd ho hne
    | ld => rw [hp] at hs; simp only [Option.some.injEq] at hs; subst hs; exact absurd ho hne
    | uTst k =>
      rw [hp] at hs; simp only [Option.some.injEq] at hs; subst hs
      unfold State.unset at ho
      split at ho
      · exact absurd ho hne
      · split at ho <;> exact absurd ho hne
    | uLd k => rw [hp] at hs; simp only [Option.some.injEq] at hs; subst hs; exact absurd ho hne
    | uCls k y => rw [hp] at hs; simp only [Option.some.injEq] at hs; subst hs; exact absurd ho hne
    | uNull k =>
      rw [hp] at hs; simp only [Option.some.injEq] at hs; subst hs
      unfold State.unset at ho; split at ho <;> exact absurd ho hne
    | opn =>
      rw [hp] at hs; simp only [Option.some.injEq] at hs; subst hs
      unfold State.say at ho
      split at ho
      · exact absurd ho hne
      · split at ho <;> exact absurd ho hne
    | sto y => rw [hp] at hs; simp only [Option.some.injEq] at hs; subst hs; exact absurd ho hne

private theorem say_fp (s : State) (t : Nat) (l : DbgMode) : (s.say t l).fp = s.fp := by
  unfold State.say; split <;> rfl

private theorem say_pc (s : State) (t : Nat) (l : DbgMode) (u : Nat) : (u ≠ t → (s.say t l).pc u = s.pc u) ∧
    ((s.say t l).pc t = .tst ∨ (s.say t l).pc t = .idle) := by
  unfold State.say; split <;> simp [State.goto, upd_app] <;> grind

private theorem quiet_step {s s' : State} {e : Ev} (h : Inv s) (hq : s.fp = none ∨ ∀ u, ¬ Changing (s.pc u))
    (he : (∀ t, e ≠ .unset t) ∧ ∀ t p, e ≠ .set t p) (hs : step s e = some s') :
    Polite s e ∧ (s'.fp = none ∨ ∀ u, ¬ Changing (s'.pc u)) ∧
      ((s.fp = none ∧ ∀ u, ¬ Changing (s.pc u)) → s'.fp = none ∧ ∀ u, ¬ Changing (s'.pc u)) := by
  cases e with
  | mode m => cases hs; exact ⟨trivial, hq, id⟩
  | print u l =>
    refine ⟨hq, ?_⟩
    simp only [step] at hs; split at hs
    · cases hs
      have key : ∀ p, ¬ Changing p → ((s.goto u p).fp = none ∨ ∀ v, ¬ Changing ((s.goto u p).pc v)) ∧
          ((s.fp = none ∧ ∀ v, ¬ Changing (s.pc v)) → (s.goto u p).fp = none ∧ ∀ v, ¬ Changing ((s.goto u p).pc v)) := by
        intro p hp; simp only [State.goto, upd_app]; grind
      unfold State.say; split
      · exact key _ id
      · exact key _ id
    · cases hs
  | set u p => exact absurd rfl (he.2 u p)
  | unset u => exact absurd rfl (he.1 u)
  | run u ok once =>
    refine ⟨trivial, ?_⟩
    have hu := h.at_ u
    have h1 := h.one
    simp only [step, step1] at hs
    cases hp : s.pc u <;> rw [hp] at hs hu <;> simp only [Option.some.injEq, reduceCtorEq] at hs <;> subst hs <;>
      (repeat' split) <;> (try simp only [State.unset, State.goto, say_fp]) <;> (try split) <;> (try simp only [State.back, upd_app]) <;>
      grind [say_pc]

private theorem good_quiet {es : List Ev} : ∀ {s s' : State}, Good s → (s.fp = none ∨ ∀ u, ¬ Changing (s.pc u)) → NoChange es →
    run s es = some s' → Good s' ∧ ((s.fp = none ∧ ∀ u, ¬ Changing (s.pc u)) → s'.fp = none ∧ ∀ u, ¬ Changing (s'.pc u)) := by
  induction es with
  | nil => intro s s' h _ _ hr; cases hr; exact ⟨h, id⟩
  | cons e es ih =>
    intro s s' h hq hn hr
    simp only [run] at hr
    cases h1 : step s e with
    | none => rw [h1] at hr; cases hr
    | some s1 =>
      rw [h1] at hr
      have he : (∀ t, e ≠ .unset t) ∧ ∀ t p, e ≠ .set t p :=
        ⟨fun t ht => hn.1 t (by simp [ht]), fun t p ht => hn.2 t p (by simp [ht])⟩
      obtain ⟨q1, q2, q3⟩ := quiet_step (inv_good h) hq he h1
      obtain ⟨g, k⟩ := ih (.step h q1 h1) q2 ⟨fun t ht => hn.1 t (by simp [ht]), fun t p ht => hn.2 t p (by simp [ht])⟩ hr
      exact ⟨g, fun hh => k (q3 hh)⟩

/-- C105 when a log file is set once and for all: any number of threads print before, during and after the call. Missing: a second call
that sets or unsets a file. -/
theorem C105_first_partial {es1 es2 : List Ev} {t : Nat} {p : Str} {s : State} (h1 : NoChange es1) (h2 : NoChange es2)
    (hr : run init (es1 ++ .set t p :: es2) = some s) : Safe s ∧ Kept s := by
  have hsplit : ∀ (es es' : List Ev) (a : State), run a (es ++ es') = (run a es).bind (fun b => run b es') := by
    intro es
    induction es with
    | nil => intro es' a; rfl
    | cons e es ih =>
      intro es' a
      simp only [List.cons_append, run]
      cases step a e with
      | none => rfl
      | some b => simp [ih]
  rw [hsplit] at hr
  cases ha : run init es1 with
  | none => rw [ha] at hr; cases hr
  | some a =>
    rw [ha] at hr
    obtain ⟨ga, qa⟩ := good_quiet .init (.inl rfl) h1 ha
    obtain ⟨q1, q2⟩ := qa ⟨rfl, fun u => by simp [init, Changing]⟩
    simp only [Option.bind_some, run] at hr
    cases hb : step a (.set t p) with
    | none => rw [hb] at hr; cases hr
    | some b =>
      rw [hb] at hr
      have gb : Good b := .step ga (e := .set t p) ⟨q2, .inl q1⟩ hb
      have qb : b.fp = none := by
        simp only [step] at hb; split at hb
        · simp only [Option.some.injEq] at hb; subst hb
          split
          · rw [say_fp]; exact q1
          · exact q1
        · cases hb
      exact C105_partial (good_quiet gb (.inl qb) h2 hr).1

/-- The debug control of C59 in the same situation. -/
def toDbg (s : State) : Dbg := { mode := s.mode, fp := s.fp }

/-- C105: a message that is printed while no other thread takes a step goes to the log, or to `stderr` if there is none, once. -/
theorem C105_print (s : State) (t : Nat) (hi : s.pc t = .idle) (l : DbgMode) (ok once : Bool) :
    ∃ n s', run s (.print t l :: List.replicate n (.run t ok once)) = some s' ∧ (∀ u, s'.pc u = s.pc u) ∧ s'.fp = s.fp ∧
      s'.live = s.live ∧ s'.ret = s.ret ∧ s'.out = (if dbgPrints s.mode l then (t, s.fp) :: s.out else s.out) ∧
      s'.bad = (s.bad || (dbgPrints s.mode l && match s.fp with | none => false | some a => !s.live a)) := by
  cases hm : dbgPrints s.mode l with
  | false =>
    refine ⟨0, _, by simp [run, step, hi, State.say, hm]; rfl, ?_⟩
    simp only [State.goto, upd_app]
    simp [hi]
  | true =>
    cases hf : s.fp with
    | none =>
      refine ⟨2, _, by simp [run, step, hi, State.say, hm, List.replicate, step1, State.goto, upd_app, hf]; rfl, ?_⟩
      simp [upd_app, hf]; intro u; split <;> simp_all
    | some a =>
      cases once with
      | true =>
        refine ⟨2, _, by simp [run, step, hi, State.say, hm, List.replicate, step1, State.goto, upd_app, hf]; rfl, ?_⟩
        simp [upd_app, hf, State.usable]; intro u; split <;> simp_all
      | false =>
        refine ⟨3, _, by simp [run, step, hi, State.say, hm, List.replicate, step1, State.goto, upd_app, hf]; rfl, ?_⟩
        simp [upd_app, hf, State.usable]; intro u; split <;> simp_all

/-- C105: a call that unsets the file while no other thread takes a step does what C59 says of it, and closes the stream of the log. -/
theorem C105_unset (s : State) (t : Nat) (hi : s.pc t = .idle) (ok once : Bool) :
    ∃ n s', run s (.unset t :: List.replicate n (.run t ok once)) = some s' ∧ (∀ u, s'.pc u = s.pc u) ∧
      s'.ret t = some (dbgUnsetFile (toDbg s) true).1 ∧ s'.fp = (dbgUnsetFile (toDbg s) true).2.fp ∧ s'.fp = none ∧ s'.out = s.out ∧
      s'.mode = s.mode ∧ (∀ h, s'.live h = (s.live h && decide (s.fp ≠ some h))) ∧
      s'.bad = (s.bad || match s.fp with | none => false | some a => !s.live a) := by
  cases hf : s.fp with
  | none =>
    refine ⟨1, _, by simp [run, step, hi, List.replicate, step1, State.goto, State.unset, State.back, upd_app, hf]; rfl, ?_⟩
    simp [upd_app, hf, dbgUnsetFile, toDbg]; intro u; split <;> simp_all
  | some a =>
    refine ⟨4, _, by simp [run, step, hi, List.replicate, step1, State.goto, State.unset, State.back, upd_app, hf]; rfl, ?_⟩
    simp [upd_app, dbgUnsetFile, toDbg, State.usable, hf]
    constructor
    · intro u; split <;> simp_all
    · intro h; by_cases hh : h = a
      · simp [hh]
      · simp [hh, Ne.symm hh]

/-- C105: a call that names a file while no other thread takes a step does what C59 says of it: the old log is closed, the new one is
open, and if it cannot be opened there is no log and a message is printed. -/
theorem C105_set (s : State) (t : Nat) (hi : s.pc t = .idle) (p : Str) (hp : p ≠ []) (ok once : Bool) (hn : s.fp ≠ some s.next) :
    ∃ n s', run s (.set t p :: List.replicate n (.run t ok once)) = some s' ∧ (∀ u, s'.pc u = s.pc u) ∧
      s'.ret t = some (dbgSetFile (toDbg s) p true (if ok then some s.next else none)).1 ∧
      s'.fp = (dbgSetFile (toDbg s) p true (if ok then some s.next else none)).2.fp ∧
      s'.out = (if !ok && dbgPrints s.mode .err then (t, none) :: s.out else s.out) ∧ s'.mode = s.mode ∧
      (∀ h, s'.live h = if ok && decide (h = s.next) then true else s.live h && decide (s.fp ≠ some h)) ∧
      s'.bad = (s.bad || match s.fp with | none => false | some a => !s.live a) := by
  cases hf : s.fp with
  | none =>
    cases ok with
    | true =>
      refine ⟨3, _, by simp [run, step, hi, hp, List.replicate, step1, State.goto, State.unset, State.back, upd_app, hf]; rfl, ?_⟩
      simp [upd_app, hf, dbgSetFile, dbgUnsetFile, toDbg, hp]; intro u; split <;> simp_all
    | false =>
      cases hm : dbgPrints s.mode .err with
      | true =>
        refine ⟨4, _, by simp [run, step, hi, hp, List.replicate, step1, State.goto, State.unset, State.back, State.say, upd_app, hf, hm]; rfl, ?_⟩
        simp [upd_app, hf, dbgSetFile, dbgUnsetFile, toDbg, hp, dbgPrint, hm]; intro u; split <;> simp_all
      | false =>
        refine ⟨2, _, by simp [run, step, hi, hp, List.replicate, step1, State.goto, State.unset, State.back, State.say, upd_app, hf, hm]; rfl, ?_⟩
        simp [upd_app, hf, dbgSetFile, dbgUnsetFile, toDbg, hp, dbgPrint, hm]; intro u; split <;> simp_all
  | some a =>
    have hna : a ≠ s.next := fun h => hn (by rw [hf, h])
    cases ok with
    | true =>
      refine ⟨6, _, by simp [run, step, hi, hp, List.replicate, step1, State.goto, State.unset, State.back, upd_app, hf]; rfl, ?_⟩
      simp [upd_app, dbgSetFile, dbgUnsetFile, toDbg, hp, State.usable, hf]
      constructor
      · intro u; split <;> simp_all
      · intro h; by_cases h1 : h = s.next
        · simp [h1]
        · by_cases h2 : h = a
          · simp [h2, hna]
          · simp [h1, h2, Ne.symm h2]
    | false =>
      cases hm : dbgPrints s.mode .err with
      | true =>
        refine ⟨7, _, by simp [run, step, hi, hp, List.replicate, step1, State.goto, State.unset, State.back, State.say, upd_app, hf, hm]; rfl, ?_⟩
        simp [upd_app, dbgSetFile, dbgUnsetFile, toDbg, hp, State.usable, hf, dbgPrint, hm]
        constructor
        · intro u; split <;> simp_all
        · intro h; by_cases h2 : h = a
          · simp [h2]
          · simp [h2, Ne.symm h2]
      | false =>
        refine ⟨5, _, by simp [run, step, hi, hp, List.replicate, step1, State.goto, State.unset, State.back, State.say, upd_app, hf, hm]; rfl, ?_⟩
        simp [upd_app, dbgSetFile, dbgUnsetFile, toDbg, hp, State.usable, hf, dbgPrint, hm]
        constructor
        · intro u; split <;> simp_all
        · intro h; by_cases h2 : h = a
          · simp [h2]
          · simp [h2, Ne.symm h2]

/-- C105: no file name is an error: the log stays as it is, and a message goes to it. -/
theorem C105_set_empty (s : State) (t : Nat) (hi : s.pc t = .idle) (ok once : Bool) :
    ∃ n s', run s (.set t [] :: List.replicate n (.run t ok once)) = some s' ∧ (∀ u, s'.pc u = s.pc u) ∧ s'.ret t = some false ∧
      s'.fp = s.fp ∧ s'.live = s.live ∧ s'.out = (if dbgPrints s.mode .err then (t, s.fp) :: s.out else s.out) := by
  have hi' : (s.back t false).pc t = .idle := by simp [State.back, upd_app]
  obtain ⟨n, s', h1, h2, h3, h4, h5, h6, -⟩ := C105_print (s.back t false) t hi' .err ok once
  refine ⟨n, s', ?_, ?_, ?_, h3, h4, h6⟩
  · rw [← h1]; simp [run, step, hi, hi']
  · intro u; rw [h2 u]; simp only [State.back, upd_app]; split
    · rename_i h; rw [h, hi]
    · rfl
  · rw [h5]; simp [State.back, upd_app]

/-! Cases. -/

/-- An execution that keeps the rules, checked step by step. -/
def checkGood (s : State) : List Ev → Bool
  | [] => true
  | e :: es =>
    (match e with
      | .run _ _ _ | .mode _ => true
      | .print _ _ => s.fp.isNone
      | _ => false) && match step s e with
        | none => false
        | some s' => checkGood s' es

private theorem good_of_check {es : List Ev} : ∀ {s s' : State}, Good s → checkGood s es = true → run s es = some s' → Good s' := by
  induction es with
  | nil => intro s s' h _ hr; cases hr; exact h
  | cons e es ih =>
    intro s s' h hc hr
    simp only [run] at hr
    simp only [checkGood, Bool.and_eq_true] at hc
    cases h1 : step s e with
    | none => rw [h1] at hr; cases hr
    | some s1 =>
      rw [h1] at hr
      simp only [h1] at hc
      refine ih (.step h ?_ h1) hc.2 hr
      cases e <;> simp_all [Polite]

/-- Non-vacuity of `C105_partial`, `C105_to_log_partial` and `C105_first_partial`: thread 2 prints while thread 1 sets the file; its
message goes to `stderr`, the next one of thread 3 to the file. -/
theorem case105 : ∃ s s', Good s ∧ run init ([.mode .msg, .print 2 .err, .set 1 ['f'], .print 3 .warn] ++ go 1 2 true ++ go 2 1 true ++ go 1 1 true ++
      go 2 1 true ++ go 3 1 false ++ go 3 1 false) = some s ∧ step s (.run 3 true false) = some s' ∧ s'.out = (3, some 0) :: s.out ∧
      s.out = [(2, none)] := by
  have e1 : ∃ a, run init [.mode .msg, .print 2 .err] = some a := ⟨_, rfl⟩
  obtain ⟨a, ha⟩ := e1
  have ga : Good a := good_of_check .init rfl ha
  have e2 : ∃ b, step a (.set 1 ['f']) = some b := by
    have : (run init [.mode .msg, .print 2 .err]).any (fun a => (step a (.set 1 ['f'])).isSome) = true := rfl
    rw [ha] at this
    exact Option.isSome_iff_exists.mp this
  obtain ⟨b, hb⟩ := e2
  have hq : ∃ a', run init [.mode .msg, .print 2 .err] = some a' ∧ a'.fp = none ∧ ∀ u, ¬ Changing (a'.pc u) := by
    refine ⟨_, rfl, rfl, fun u => ?_⟩
    have : ∀ p, p = Pc.tst ∨ p = Pc.idle → ¬ Changing p := by rintro p (rfl | rfl) h <;> exact h
    apply this
    simp only [step, init, State.say, if_true]
    have hm : dbgPrints DbgMode.msg DbgMode.err = true := rfl
    simp only [hm, if_true, State.goto, upd_app]
    split
    · exact .inl rfl
    · exact .inr rfl
  obtain ⟨a', ha', hq1, hq2⟩ := hq
  rw [ha] at ha'; cases ha'
  have gb : Good b := .step ga (e := .set 1 ['f']) ⟨hq2, .inl hq1⟩ hb
  have hrest : (run init [.mode .msg, .print 2 .err]).any (fun a => (step a (.set 1 ['f'])).any (fun b =>
      checkGood b ([.print 3 .warn] ++ go 1 2 true ++ go 2 1 true ++ go 1 1 true ++ go 2 1 true ++ go 3 1 false ++ go 3 1 false) &&
      (run b ([.print 3 .warn] ++ go 1 2 true ++ go 2 1 true ++ go 1 1 true ++ go 2 1 true ++ go 3 1 false ++ go 3 1 false)).any
        (fun s => decide (s.out = [(2, none)]) && (step s (.run 3 true false)).any (fun s' => decide (s'.out = (3, some 0) :: s.out))))) = true := by
    decide +kernel
  rw [ha] at hrest
  simp only [Option.any_some, hb, Bool.and_eq_true] at hrest
  obtain ⟨hc, hx⟩ := hrest
  cases hs : run b ([.print 3 .warn] ++ go 1 2 true ++ go 2 1 true ++ go 1 1 true ++ go 2 1 true ++ go 3 1 false ++ go 3 1 false) with
  | none => rw [hs] at hx; cases hx
  | some s =>
    rw [hs] at hx
    simp only [Option.any_some, Bool.and_eq_true, decide_eq_true_eq] at hx
    cases hs' : step s (.run 3 true false) with
    | none => rw [hs'] at hx; simp at hx
    | some s' =>
      rw [hs'] at hx
      simp only [Option.any_some, decide_eq_true_eq] at hx
      refine ⟨s, s', good_of_check gb hc hs, ?_, hs', hx.2, hx.1⟩
      rw [← hs]
      have h0 := ha
      simp only [run, List.cons_append, List.nil_append] at h0 ⊢
      cases hm : step init (.mode .msg) with
      | none => rw [hm] at h0; cases h0
      | some m =>
        rw [hm] at h0
        simp only [Option.bind_some] at h0 ⊢
        cases hp : step m (.print 2 .err) with
        | none => rw [hp] at h0; cases h0
        | some q =>
          rw [hp] at h0
          simp only [Option.bind_some, Option.some.injEq] at h0 ⊢
          subst h0
          rw [hb]; rfl

example : NoChange [.mode .msg, .print 2 .err] := ⟨fun t h => by simp at h, fun t p h => by simp at h⟩

/-- Non-vacuity of `C105_print`, `C105_set`, `C105_unset` and `C105_set_empty`. -/
example : init.pc 1 = .idle ∧ init.fp ≠ some init.next := ⟨rfl, by simp [init]⟩

end Fullock.Props.DbgConc
