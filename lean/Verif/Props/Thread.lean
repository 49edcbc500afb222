import Verif.Model.Thread
import Mathlib.Tactic.Common
import Mathlib.Data.List.Induction
/-
C54: control of the worker thread.  C61: one worker per process.
-/
namespace Fullock.Props
open Fullock.Thread

/-- C54, full: once an exit request has set the flag, the flag never says run or stop again. -/
def C54_full : Prop := ∀ s, Reach s → s.told = true → s.flag = .exit ∨ s.flag = .fin

/-- Runs of steps for concrete histories. -/
inductive Act where
  | call (i : Nat) (c : Call)
  | ctrl (i : Nat) (ok : Bool)
  | work (n : Nat) (err canc : Bool)

def act (s : State) : Act → Option State
  | .call i c => match s.pc i with | .idle => some (s.setPc i (.checkInit c)) | _ => none
  | .ctrl i ok => ctrl s i ok
  | .work n e c => work s n e c

def acts (s : State) : List Act → Option State
  | [] => some s
  | a :: as => match act s a with | none => none | some s' => acts s' as

theorem act_step {s s' : State} {a : Act} (h : act s a = some s') : Step s s' := by
  cases a with
  | call i c =>
    simp only [act] at h
    split at h
    · rename_i hp; cases h; exact Step.call i c hp
    · cases h
  | ctrl i ok => exact Step.ctrl i ok h
  | work n e c => exact Step.work n e c h

theorem acts_reach {as : List Act} : ∀ {s s' : State}, Reach s → acts s as = some s' → Reach s' := by
  induction as with
  | nil => intro s s' h h'; cases h'; exact h
  | cons a as ih =>
    intro s s' h h'
    simp only [acts] at h'
    split at h'
    · cases h'
    · rename_i s1 h1; exact ih (h.step (act_step h1)) h'

/-- Thread 1 has seen "stopped" in `Run` when thread 2 requests the exit; the loop of `Run` then
overwrites the request. -/
theorem C54_not_full : ¬ C54_full := by
  intro h
  have hr : ∃ s', acts init [.call 1 .run, .ctrl 1 true, .ctrl 1 true, .call 2 .exit, .ctrl 2 true,
      .ctrl 2 true, .ctrl 2 true, .ctrl 2 true, .ctrl 2 true, .ctrl 1 true, .ctrl 1 true] = some s' ∧
      s'.told = true ∧ s'.flag = .run := ⟨_, rfl, rfl, rfl⟩
  obtain ⟨s', h1, h2, h3⟩ := hr
  have := h s' (acts_reach .init h1) h2
  rw [h3] at this
  simp at this

/-- Calls are made one at a time. -/
inductive SReach : State → Prop
  | init : SReach init
  | call (i : Nat) (c : Call) : SReach s → (∀ j, s.pc j = .idle) → SReach (s.setPc i (.checkInit c))
  | ctrl (i : Nat) (ok : Bool) : SReach s → ctrl s i ok = some s' → SReach s'
  | work (n : Nat) (err canc : Bool) : SReach s → work s n err canc = some s' → SReach s'

theorem SReach.reach {s : State} (h : SReach s) : Reach s := by
  induction h with
  | init => exact .init
  | call i c _ hi ih => exact ih.step (.call i c (hi i))
  | ctrl i ok _ hs ih => exact ih.step (.ctrl i ok hs)
  | work n e c _ hs ih => exact ih.step (.work n e c hs)

/-- Phases of a call that precede the end of its flag helper. -/
def _root_.Fullock.Thread.Pc.early : Pc → Bool
  | .checkFlag _ => true
  | .cas _ _ => true
  | .cancel => true
  | _ => false

/-- Phases of `Exit` after its flag helper. -/
def _root_.Fullock.Thread.Pc.late : Pc → Bool
  | .join => true
  | .busy => true
  | .last => true
  | .clear => true
  | _ => false

/-- Phases in which the worker is known to be over. -/
def _root_.Fullock.Thread.Pc.over : Pc → Bool
  | .last => true
  | .clear => true
  | .ret .exit true => true
  | _ => false

def _root_.Fullock.Thread.Pc.isIdle : Pc → Bool
  | .idle => true
  | _ => false

def Over (w : Worker) : Prop := w = .cleaned ∨ w = .ended

/-- Invariant of the partial theorems. -/
structure Inv (s : State) : Prop where
  one : ∀ i j, (s.pc i).isIdle = false → (s.pc j).isIdle = false → i = j
  told : s.told = true → s.flag = .exit ∨ s.flag = .fin
  exit : s.flag = .exit → s.told = true
  early : s.told = true → ∀ i, (s.pc i).early = false
  late : s.told = true → s.inited = true → ∃ i, (s.pc i).late = true
  lateTold : ∀ i, (s.pc i).late = true → s.told = true
  fin : s.flag = .fin → Over s.worker
  over : ∀ i, (s.pc i).over = true → Over s.worker

theorem inv_init : Inv init := by
  constructor <;> simp [init, Pc.isIdle, Pc.early, Pc.late, Pc.over]

/-- A step of a controlling thread: `i` goes to `p`. -/
theorem inv_upd {s : State} (h : Inv s) (i : Nat) (p : Pc) (f : Flag) (ini can tol : Bool) (sw : Nat)
    (hi : (s.pc i).isIdle = false)
    (ht : tol = true → f = .exit ∨ f = .fin) (hx : f = .exit → tol = true)
    (he : p.early = true → tol = false) (hl : p.late = true → tol = true)
    (hs : s.told = true → tol = true)
    (hl2 : tol = true → ini = true → p.late = true)
    (hf : f = .fin → Over s.worker)
    (ho : p.over = true → Over s.worker) :
    Inv { flag := f, inited := ini, worker := s.worker, canceled := can,
          pc := fun j => if j = i then p else s.pc j, told := tol, sweeps := sw } := by
  have hi2 : ∀ j, j ≠ i → s.pc j = .idle := fun j hj => by
    by_contra hc
    refine hj (h.one j i ?_ hi)
    cases hp : s.pc j <;> simp_all [Pc.isIdle]
  constructor <;> simp only
  · intro a b ha hb
    by_cases h' : a = i <;> by_cases h'' : b = i
    · rw [h', h'']
    · rw [if_neg h'', hi2 b h''] at hb; simp [Pc.isIdle] at hb
    · rw [if_neg h', hi2 a h'] at ha; simp [Pc.isIdle] at ha
    · rw [if_neg h', hi2 a h'] at ha; simp [Pc.isIdle] at ha
  · exact ht
  · exact hx
  · intro ht a
    by_cases h' : a = i
    · rw [if_pos h']; by_contra hc; rw [he (by simpa using hc)] at ht; simp at ht
    · rw [if_neg h', hi2 a h']; rfl
  · intro ht hin
    exact ⟨i, by rw [if_pos rfl]; exact hl2 ht hin⟩
  · intro a
    by_cases h' : a = i
    · rw [if_pos h']; exact hl
    · rw [if_neg h', hi2 a h']; simp [Pc.late]
  · exact hf
  · intro a
    by_cases h' : a = i
    · rw [if_pos h']; exact ho
    · rw [if_neg h', hi2 a h']; simp [Pc.over]

theorem casVal_cases (new old cur : Flag) :
    (casVal new old cur = (new, none)) ∨ (casVal new old cur = (cur, some cur) ∧ cur ≠ old ∧ cur ≠ new) := by
  unfold casVal
  split_ifs with h1 h2
  · exact Or.inl rfl
  · rw [h2]; exact Or.inl rfl
  · exact Or.inr ⟨rfl, h1, h2⟩

theorem casExit_cases (old cur : Flag) :
    (casExit old cur = (.exit, none) ∧ cur = old) ∨ (casExit old cur = (cur, none) ∧ (cur = .exit ∨ cur = .fin)) ∨
      (casExit old cur = (cur, some cur) ∧ (cur = .run ∨ cur = .stop)) := by
  unfold casExit
  split_ifs with h1 h2
  · exact Or.inl ⟨rfl, h1⟩
  · right; left; cases cur <;> simp [Flag.val] at h2 ⊢
  · right; right; cases cur <;> simp [Flag.val] at h2 ⊢

theorem inv_ctrl {s s' : State} (h : Inv s) (i : Nat) (ok : Bool) (hs : ctrl s i ok = some s') : Inv s' := by
  have hone := h.one i
  have hearly := fun ht => h.early ht i
  have hlate := h.late
  have hlt := h.lateTold i
  have hov := h.over i
  have hlone : (s.pc i).isIdle = false → s.told = true → s.inited = true → (s.pc i).late = true := by
    intro hi ht hin
    obtain ⟨j, hj⟩ := h.late ht hin
    have : j = i := h.one j i (by cases hp : s.pc j <;> simp_all [Pc.late, Pc.isIdle]) hi
    rw [← this]; exact hj
  unfold ctrl at hs
  split at hs
  · simp at hs
  all_goals
    rename_i hp
    simp only [Option.some.injEq] at hs
    rw [hp] at hearly hlt hov hlone
    simp only [Pc.early, Pc.late, Pc.over, Pc.isIdle] at hearly hlt hov hlone
    have hi : (s.pc i).isIdle = false := by rw [hp]; rfl
  all_goals
    (try unfold State.casStep at hs)
    simp only [State.setPc] at hs
  all_goals
    have hft := h.told
    have hfx := h.exit
    have hff := h.fin
  · subst hs; apply inv_upd h i <;> grind [Pc.early, Pc.late, Pc.over]
  · split at hs <;> subst hs <;> apply inv_upd h i <;> grind [Pc.early, Pc.late, Pc.over]
  · split at hs <;> subst hs <;> apply inv_upd h i <;> grind [Pc.early, Pc.late, Pc.over]
  · split at hs <;> subst hs <;> apply inv_upd h i <;> grind [Pc.early, Pc.late, Pc.over]
  · have hv : Flag.exit.val ≤ s.flag.val → s.flag = .exit ∨ s.flag = .fin := by
      cases s.flag <;> simp [Flag.val]
    split at hs <;> subst hs <;> apply inv_upd h i <;> grind [Pc.early, Pc.late, Pc.over]
  · rcases casVal_cases .run ‹_› s.flag with hc | ⟨hc, -⟩ <;> rw [hc] at hs <;> simp only at hs <;> subst hs <;>
      apply inv_upd h i <;> grind [Pc.early, Pc.late, Pc.over]
  · rcases casVal_cases .stop ‹_› s.flag with hc | ⟨hc, -⟩ <;> rw [hc] at hs <;> simp only at hs <;> subst hs <;>
      apply inv_upd h i <;> grind [Pc.early, Pc.late, Pc.over]
  · split at hs <;> subst hs <;> apply inv_upd h i <;> grind [Pc.early, Pc.late, Pc.over]
  · rcases casExit_cases ‹_› s.flag with ⟨hc, hq⟩ | ⟨hc, hq⟩ | ⟨hc, hq⟩ <;> rw [hc] at hs <;>
      simp only [Option.isNone_none, Option.isNone_some] at hs <;> subst hs <;>
      apply inv_upd h i <;> grind [Pc.early, Pc.late, Pc.over]
  · split at hs <;> subst hs <;> apply inv_upd h i <;> grind [Pc.early, Pc.late, Pc.over, Over]
  · split at hs <;> subst hs <;> apply inv_upd h i <;> grind [Pc.early, Pc.late, Pc.over]
  · subst hs; apply inv_upd h i <;> grind [Pc.early, Pc.late, Pc.over]
  · subst hs; apply inv_upd h i <;> grind [Pc.early, Pc.late, Pc.over]

theorem inv_call {s : State} (h : Inv s) (i : Nat) (c : Call) (hi : ∀ j, s.pc j = .idle) :
    Inv (s.setPc i (.checkInit c)) := by
  obtain ⟨h1, h2, h3, h4, h5, h6, h7, h8⟩ := h
  constructor <;> simp only [State.setPc]
  · intro a b ha hb
    by_cases h' : a = i <;> by_cases h'' : b = i
    · rw [h', h'']
    · rw [if_neg h'', hi b] at hb; simp [Pc.isIdle] at hb
    · rw [if_neg h', hi a] at ha; simp [Pc.isIdle] at ha
    · rw [if_neg h', hi a] at ha; simp [Pc.isIdle] at ha
  · exact h2
  · exact h3
  · intro _ a; by_cases h' : a = i <;> simp [h', hi, Pc.early]
  · intro ht hin
    obtain ⟨j, hj⟩ := h5 ht hin
    rw [hi j] at hj; simp [Pc.late] at hj
  · intro a; by_cases h' : a = i <;> simp [h', hi, Pc.late]
  · exact h7
  · intro a; by_cases h' : a = i <;> simp [h', hi, Pc.over]

/-- What a step of the worker may change. -/
theorem work_effect {s s' : State} {n : Nat} {e c : Bool} (hs : work s n e c = some s') :
    s'.inited = s.inited ∧ s'.pc = s.pc ∧ s'.told = s.told ∧ s'.canceled = s.canceled ∧
    (Over s.worker → Over s'.worker) ∧
    (s'.flag = s.flag ∨ (s'.flag = .fin ∧ s'.worker = .cleaned)) := by
  unfold work at hs
  split at hs
  · simp at hs
  · simp at hs
  · rename_i old hw
    simp only at hs
    rcases casVal_cases .fin old s.flag with hc | ⟨hc, -⟩ <;> rw [hc] at hs <;>
      simp only [Option.some.injEq] at hs <;> subst hs <;> simp [Over, hw]
  · rename_i hw
    simp only [Option.some.injEq] at hs; subst hs; simp [Over, hw]
  · repeat' split at hs
    all_goals first
      | (simp at hs; done)
      | (simp only [Option.some.injEq] at hs; subst hs; simp_all [Over])

theorem inv_work {s s' : State} (h : Inv s) {n : Nat} {e c : Bool} (hs : work s n e c = some s') : Inv s' := by
  obtain ⟨e1, e2, e3, e4, e5, e6⟩ := work_effect hs
  obtain ⟨h1, h2, h3, h4, h5, h6, h7, h8⟩ := h
  constructor
  · rw [e2]; exact h1
  · rw [e3]; grind
  · rw [e3]; grind
  · rw [e2, e3]; exact h4
  · rw [e1, e2, e3]; exact h5
  · rw [e2, e3]; exact h6
  · intro hf; unfold Over at *; grind
  · rw [e2]; exact fun i hi => e5 (h8 i hi)

theorem inv_of {s : State} (h : SReach s) : Inv s := by
  induction h with
  | init => exact inv_init
  | call i c _ hi ih => exact inv_call ih i c hi
  | ctrl i ok _ hs ih => exact inv_ctrl ih i ok hs
  | work n e c _ hs ih => exact inv_work ih hs

/-- C54 (missing: calls of several threads at the same time, refuted by `C54_not_full`): when the calls
are made one at a time, an exit request is never taken back, whatever the worker does meanwhile. -/
theorem C54_partial {s : State} (h : SReach s) (ht : s.told = true) : s.flag = .exit ∨ s.flag = .fin :=
  (inv_of h).told ht

/-- C54, joined: when `Exit` returns true, the worker is over: it has cleaned up or has ended, and so
does not touch the tables any more. -/
theorem C54_exit_partial {s : State} (h : SReach s) (i : Nat) (hr : s.pc i = .ret .exit true) :
    s.worker = .cleaned ∨ s.worker = .ended :=
  (inv_of h).over i (by rw [hr]; rfl)

example : ∃ s, SReach s ∧ s.told = true ∧ s.pc 1 = .ret .exit true ∧ s.worker = .ended := by
  have h0 := SReach.call 1 .exit .init (fun _ => rfl)
  have h1 := SReach.ctrl 1 true h0 rfl
  have h2 := SReach.ctrl 1 true h1 rfl
  have h3 := SReach.ctrl 1 true h2 rfl
  have h4 := SReach.ctrl 1 true h3 rfl
  have h5 := SReach.ctrl 1 true h4 rfl
  have h6 := SReach.work 0 false true h5 rfl
  have h7 := SReach.work 0 false true h6 rfl
  have h8 := SReach.work 0 false true h7 rfl
  have h9 := SReach.ctrl 1 true h8 rfl
  have h10 := SReach.ctrl 1 true h9 rfl
  exact ⟨_, h10, rfl, rfl, rfl⟩

/-- Steps of the serial system. -/
inductive SStep : State → State → Prop
  | call (i : Nat) (c : Call) (h : ∀ j, s.pc j = .idle) : SStep s (s.setPc i (.checkInit c))
  | ctrl (i : Nat) (ok : Bool) (h : ctrl s i ok = some s') : SStep s s'
  | work (n : Nat) (err canc : Bool) (h : work s n err canc = some s') : SStep s s'

inductive SSteps : State → State → Prop
  | refl : SSteps s s
  | tail : SSteps s t → SStep t u → SSteps s u

theorem SReach.step {s t : State} (h : SReach s) (hs : SStep s t) : SReach t := by
  cases hs with
  | call i c hi => exact .call i c h hi
  | ctrl i ok hs => exact .ctrl i ok h hs
  | work n e c hs => exact .work n e c h hs

theorem ctrl_effect {s s' : State} {i : Nat} {ok : Bool} (hs : ctrl s i ok = some s') :
    s'.sweeps = s.sweeps ∧ s'.worker = s.worker ∧ (s.told = true → s'.told = true) ∧ ∀ j, j ≠ i → s'.pc j = s.pc j := by
  unfold ctrl at hs
  split at hs
  all_goals
    (try unfold State.casStep at hs)
    (try simp only [State.setPc] at hs)
  all_goals (try (split at hs))
  all_goals (try (split at hs))
  all_goals first
    | (simp at hs; done)
    | (simp only [Option.some.injEq] at hs; subst hs; refine ⟨rfl, rfl, ?_, ?_⟩ <;> grind)

/-- C54, effect: from an exit request on, no sweep of the table is begun any more. -/
theorem C54_no_sweep_partial {s t : State} (h : SReach s) (ht : s.told = true) (hst : SSteps s t) :
    t.sweeps = s.sweeps := by
  suffices SReach t ∧ t.told = true ∧ t.sweeps = s.sweeps from this.2.2
  induction hst with
  | refl => exact ⟨h, ht, rfl⟩
  | tail _ hs ih =>
    rename_i t u _
    obtain ⟨hr, htt, he⟩ := ih
    refine ⟨hr.step hs, ?_⟩
    cases hs with
    | call i c hi => exact ⟨htt, he⟩
    | ctrl i ok hs =>
      have := ctrl_effect hs
      exact ⟨this.2.2.1 htt, this.1.trans he⟩
    | work n e c hs =>
      have hflag := C54_partial hr htt
      refine ⟨(work_effect hs).2.2.1.trans htt, ?_⟩
      rw [← he]
      unfold work at hs
      have hv : Flag.exit.val ≤ t.flag.val := by rcases hflag with h' | h' <;> rw [h'] <;> decide
      split at hs
      · simp at hs
      · simp at hs
      · rename_i old hw
        simp only at hs
        rcases casVal_cases .fin old t.flag with hc | ⟨hc, -⟩ <;> rw [hc] at hs <;>
          simp only [Option.some.injEq] at hs <;> subst hs <;> rfl
      · simp only [Option.some.injEq] at hs; subst hs; rfl
      · repeat' split at hs
        all_goals first
          | (simp at hs; done)
          | (simp only [Option.some.injEq] at hs; subst hs; first | rfl | (exfalso; contradiction))

/-- C54, results: with calls made one at a time, `Run` returning true leaves the flag on "run", `Stop` on
"stop", unless the worker has ended by itself. -/
theorem C54_results_partial {s : State} (h : SReach s) (i : Nat) :
    (s.pc i = .ret .run true → s.flag = .run ∨ s.flag = .fin) ∧
    (s.pc i = .ret .stop true → s.flag = .stop ∨ s.flag = .fin) := by
  induction h generalizing i with
  | init => simp [init]
  | call j c _ hi ih =>
    simp only [State.setPc]
    by_cases h' : i = j
    · simp [h']
    · simp only [if_neg h']; exact ih i
  | ctrl j ok hr hs ih =>
    rename_i s s'
    have hone := (inv_of hr).one
    have hothers : i ≠ j → s'.pc i = .idle := by
      intro hij
      rw [(ctrl_effect hs).2.2.2 i hij]
      by_contra hc
      refine hij (hone i j ?_ ?_)
      · cases hp : s.pc i <;> simp_all [Pc.isIdle]
      · cases hp : s.pc j <;> simp_all [Pc.isIdle, Thread.ctrl]
    by_cases hij : i = j
    · subst hij
      unfold Thread.ctrl at hs
      split at hs
      all_goals
        (try unfold State.casStep at hs)
        simp only [State.setPc, Option.some.injEq, reduceCtorEq] at hs
      · subst hs; simp
      · split at hs <;> subst hs <;> simp
      · split at hs <;> subst hs <;> simp
      · split at hs <;> subst hs <;> simp
      · split at hs <;> subst hs <;> simp
      · rcases casVal_cases .run ‹_› s.flag with hc | ⟨hc, -⟩ <;> rw [hc] at hs <;> simp only at hs <;> subst hs <;> simp
      · rcases casVal_cases .stop ‹_› s.flag with hc | ⟨hc, -⟩ <;> rw [hc] at hs <;> simp only at hs <;> subst hs <;> simp
      · split at hs <;> subst hs <;> simp
      · rcases casExit_cases ‹_› s.flag with ⟨hc, -⟩ | ⟨hc, -⟩ | ⟨hc, -⟩ <;> rw [hc] at hs <;> simp only at hs <;> subst hs <;> simp
      · split at hs <;> subst hs <;> simp
      · split at hs <;> subst hs <;> simp
      · subst hs; simp
      · subst hs; simp
    · rw [hothers hij]; simp
  | work n e c _ hs ih =>
    rename_i s s' _
    have := work_effect hs
    rw [this.2.1]
    have h1 := ih i
    rcases this.2.2.2.2.2 with hf | hf
    · rw [hf]; exact h1
    · exact ⟨fun _ => Or.inr hf.1, fun _ => Or.inr hf.1⟩

/-- C54: a running worker that was told nothing does not end by itself as long as its calls succeed: it
ends only after a cancel request, an exit flag or a failed call. -/
theorem C54_ends_only_when_told {s s' : State} {n : Nat} {c : Bool} (hs : work s n false c = some s')
    (hw : ¬ ∃ old, s.worker = .fin old) (hf : s.flag = .run ∨ s.flag = .stop) (hc : s.canceled = false) :
    ¬ ∃ old, s'.worker = .fin old := by
  have hv : ¬ Flag.exit.val ≤ s.flag.val := by rcases hf with h' | h' <;> rw [h'] <;> decide
  unfold work at hs
  split at hs
  · simp at hs
  · simp at hs
  · rename_i old hw'
    exact absurd ⟨old, hw'⟩ hw
  · simp only [Option.some.injEq] at hs; subst hs; simp
  · rw [if_neg (by simp [hc])] at hs
    repeat' split at hs
    all_goals first
      | (simp at hs; done)
      | (exfalso; contradiction)
      | (simp only [Option.some.injEq] at hs; subst hs; simp; done)
      | (exfalso; simp_all)

/-- What happens while thread `i` is in its call: its own steps and those of the worker. -/
inductive During (i : Nat) (s : State) : State → Prop
  | refl : During i s s
  | ctrl {t u : State} (ok : Bool) (h : During i s t) (hb : ∀ c b, t.pc i ≠ .ret c b) (hs : ctrl t i ok = some u) : During i s u
  | work {t u : State} (n : Nat) (err canc : Bool) (h : During i s t) (hs : work t n err canc = some u) : During i s u

/-- The flag that `Run` and `Stop` ask for and the one they leave. -/
def goal : Call → Flag × Flag
  | .run => (.stop, .run)
  | .stop => (.run, .stop)
  | .exit => (.fin, .fin)

/-- C54, one call at a time: `Run` succeeds on a stopped worker and leaves it running, `Stop` the other way
round, unless the worker ends meanwhile; on a worker in any other condition (running already, told to exit,
finished) the call returns false and changes nothing. -/
theorem C54_calls {s t : State} (i : Nat) (c : Call) (hc : c ≠ .exit)
    (h : During i (s.setPc i (.checkInit c)) t) :
    (s.flag = (goal c).1 → s.inited = true → ∀ b, t.pc i = .ret c b → t.flag = .fin ∨ b = true ∧ t.flag = (goal c).2) ∧
    (s.flag ≠ (goal c).1 ∨ s.inited = false → t.pc i ≠ .ret c true ∧ (t.flag = s.flag ∨ t.flag = .fin)) := by
  suffices t.inited = s.inited ∧
      ((t.flag = s.flag ∨ t.flag = .fin) ∧ (t.pc i = .checkInit c ∨ t.pc i = .ret c false ∧
          (s.inited = false ∨ t.flag = .fin ∨ s.flag ≠ (goal c).1) ∨ t.pc i = .checkFlag c ∧ s.inited = true) ∨
        s.flag = (goal c).1 ∧ s.inited = true ∧ (t.flag = s.flag ∧ t.pc i = .cas c (goal c).1 ∨ t.flag = .fin ∧ (∃ o, t.pc i = .cas c o) ∨
          (t.flag = (goal c).2 ∨ t.flag = .fin) ∧ t.pc i = .ret c true)) by
    grind
  induction h with
  | refl => simp [State.setPc]
  | work n e k _ hs ih =>
    obtain ⟨e1, e2, e3, e4, e5, e6⟩ := work_effect hs
    rw [e1, e2]
    refine ⟨ih.1, ?_⟩
    rcases e6 with e6 | ⟨e6, _⟩
    · rw [e6]; exact ih.2
    · rw [e6]
      rcases ih.2 with ⟨_, h⟩ | ⟨h1, h2, h⟩
      · left; grind
      · right; grind
  | @ctrl t u ok _ hb hs ih =>
    obtain ⟨e, ih⟩ := ih
    unfold ctrl at hs
    have hp : ∀ (x : State) (p : Pc), (x.setPc i p).pc i = p ∧ (x.setPc i p).flag = x.flag ∧ (x.setPc i p).inited = x.inited := by
      intro x p; simp [State.setPc]
    rcases ih with ⟨hf, h | h | h⟩ | ⟨h1, h2, h | h | h⟩
    · rw [h] at hs
      simp only [Option.some.injEq] at hs
      subst hs
      split_ifs with hi
      · simp only [hp]; exact ⟨e, .inl ⟨hf, by simp [← e, hi]⟩⟩
      · simp only [hp]; refine ⟨e, .inl ⟨hf, ?_⟩⟩
        rw [e] at hi; simp [hi]
    · exact absurd h.1 (hb _ _)
    · rw [h.1] at hs
      cases c with
      | exit => exact absurd rfl hc
      | run =>
        simp only [Option.some.injEq] at hs
        subst hs
        split_ifs with hi <;> simp only [hp, goal, firstOld] at * <;> grind
      | stop =>
        simp only [Option.some.injEq] at hs
        subst hs
        split_ifs with hi <;> simp only [hp, goal, firstOld] at * <;> grind
    · rw [h.2] at hs
      cases c with
      | exit => exact absurd rfl hc
      | run =>
        simp only [Option.some.injEq] at hs
        subst hs
        simp [State.casStep, casVal, h.1, h1, goal, hp, e, h2, State.setPc]
      | stop =>
        simp only [Option.some.injEq] at hs
        subst hs
        simp [State.casStep, casVal, h.1, h1, goal, hp, e, h2, State.setPc]
    · obtain ⟨hf, o, ho⟩ := h
      rw [ho] at hs
      cases c with
      | exit => exact absurd rfl hc
      | run =>
        simp only [Option.some.injEq] at hs
        subst hs
        simp only [State.casStep, casVal, hf]
        by_cases hfo : Flag.fin = o <;> simp [hfo, h1, goal, e, h2, State.setPc]
      | stop =>
        simp only [Option.some.injEq] at hs
        subst hs
        simp only [State.casStep, casVal, hf]
        by_cases hfo : Flag.fin = o <;> simp [hfo, h1, goal, e, h2, State.setPc]
    · exact absurd h.2 (hb _ _)

/-- Starting the stopped worker of a fresh object succeeds; asking for it again is refused. -/
example : ∃ t, During 1 (init.setPc 1 (.checkInit .run)) t ∧ t.pc 1 = .ret .run true ∧ t.flag = .run := by
  have h0 := During.refl (i := 1) (s := init.setPc 1 (.checkInit .run))
  have h1 := During.ctrl true h0 (by simp [State.setPc]) rfl
  have h2 := During.ctrl true h1 (by simp [State.setPc, init]) rfl
  have h3 := During.ctrl true h2 (by simp [State.setPc, init]) rfl
  exact ⟨_, h3, rfl, rfl⟩

/-! ### C54: what the worker does under each request -/

/-- The worker makes `k` steps while nobody else acts, with `n` events at each wait and no error. -/
def alone (n : Nat) : Nat → State → Option State
  | 0, s => some s
  | k + 1, s => (work s n false false).bind (alone n k)

theorem alone_succ {n k : Nat} {s s' : State} (h : work s n false false = some s') : alone n (k + 1) s = alone n k s' := by
  rw [alone, h]; rfl

theorem alone_events (n : Nat) : ∀ (k : Nat) (s : State), s.worker = .event k → s.canceled = false → s.flag = .run →
    alone n (2 * k + 1) s = some { s with worker := .top, sweeps := s.sweeps + k }
  | 0, s, h, hc, hf => by simp [alone, work, h, hc]
  | k + 1, s, h, hc, hf => by
    have h1 : work s n false false = some { s with worker := .sweep k, sweeps := s.sweeps + 1 } := by
      simp [work, h, hc, hf, Flag.val]
    have h2 : work { s with worker := .sweep k, sweeps := s.sweeps + 1 } n false false =
        some { s with worker := .event k, sweeps := s.sweeps + 1 } := by simp [work, hc]
    have h3 := alone_events n k { s with worker := .event k, sweeps := s.sweeps + 1 } rfl hc hf
    rw [show 2 * (k + 1) + 1 = (2 * k + 1) + 1 + 1 from by omega]
    rw [alone_succ h1, alone_succ h2, h3]
    simp only [Nat.add_assoc, Nat.add_comm 1 k]

/-- C54, the worker: while the request is "run" it makes one dead-owner check for every event it is given
and then looks at the request again; while it is "stop" it makes none, however long it goes on, and does not
end; after "exit" it makes none, ends and marks itself finished. -/
theorem C54_worker (s : State) (n : Nat) (hw : s.worker = .top) (hc : s.canceled = false) :
    (s.flag = .run → ∃ s', alone n (2 * n + 3) s = some s' ∧ s'.sweeps = s.sweeps + n ∧ s'.worker = .top) ∧
    (s.flag = .stop → ∀ k, ∃ s', alone n k s = some s' ∧ s'.sweeps = s.sweeps ∧ s'.flag = .stop ∧
      (s'.worker = .top ∨ s'.worker = .sleep)) ∧
    (s.flag = .exit → ∃ s', alone n 3 s = some s' ∧ s'.sweeps = s.sweeps ∧ s'.flag = .fin ∧ s'.worker = .ended) := by
  refine ⟨fun hf => ?_, fun hf k => ?_, fun hf => ?_⟩
  · have h1 : work s n false false = some { s with worker := .wait } := by simp [work, hw, hc, hf, Flag.val]
    have h2 : work { s with worker := .wait } n false false = some { s with worker := .event n } := by
      simp [work, hc]
    have h3 := alone_events n n { s with worker := .event n } rfl hc hf
    refine ⟨{ s with worker := .top, sweeps := s.sweeps + n }, ?_, rfl, rfl⟩
    rw [show 2 * n + 3 = (2 * n + 1) + 1 + 1 from by omega]
    rw [alone_succ h1, alone_succ h2, h3]
  · have key : ∀ k (s : State), s.worker = .top ∨ s.worker = .sleep → s.canceled = false → s.flag = .stop →
        ∃ s', alone n k s = some s' ∧ s'.sweeps = s.sweeps ∧ s'.flag = .stop ∧
          (s'.worker = .top ∨ s'.worker = .sleep) := by
      intro k
      induction k with
      | zero => intro s h _ hf; exact ⟨s, rfl, rfl, hf, h⟩
      | succ k ih =>
        intro s h hc hf
        rcases h with h | h
        · have h1 : work s n false false = some { s with worker := .sleep } := by simp [work, h, hc, hf, Flag.val]
          simpa [alone, h1] using ih { s with worker := .sleep } (.inr rfl) hc hf
        · have h1 : work s n false false = some { s with worker := .top } := by simp [work, h, hc]
          simpa [alone, h1] using ih { s with worker := .top } (.inl rfl) hc hf
    exact key k s (.inl hw) hc hf
  · refine ⟨{ s with worker := .ended, flag := .fin }, ?_, rfl, rfl, rfl⟩
    simp [alone, work, hw, hc, hf, Flag.val, casVal]

/-- The worker of a fresh object told to run gets three events. -/
example : ∃ s s', Reach s ∧ s.worker = .top ∧ s.canceled = false ∧ s.flag = .run ∧
    alone 3 9 s = some s' ∧ s'.sweeps = 3 := by
  have hr : ∃ s, acts init [.call 1 .run, .ctrl 1 true, .ctrl 1 true, .ctrl 1 true] = some s ∧
      s.worker = .top ∧ s.canceled = false ∧ s.flag = .run ∧ s.sweeps = 0 := ⟨_, rfl, rfl, rfl, rfl, rfl⟩
  obtain ⟨s, h1, h2, h3, h4, h5⟩ := hr
  obtain ⟨s', g1, g2, -⟩ := (C54_worker s 3 h2 h3).1 h4
  exact ⟨s, s', acts_reach .init h1, h2, h3, h4, g1, by rw [g2, h5]⟩

/-! ### C61: workers of a process -/

def pacts (p : Proc) (ops : List POp) : Proc := ops.foldl pstep p

/-- C61, full: after any history of initialisations, reinitialisations and forks a process has at most
one worker thread. -/
def C61_full : Prop := ∀ ops, (pacts pinit ops).workers ≤ 1

/-- A child of a process that was initialised twice has two workers, as the fork handler is registered
again by every initialisation. -/
theorem C61_not_full : ¬ C61_full := by
  intro h
  have := h [.start true, .destroy, .start true, .fork]
  revert this
  decide

theorem fold_handler (n : Nat) (p : Proc) :
    (List.range n).foldl (fun p _ => forkHandler p) p =
      { p with workers := p.workers + if p.thread then n else 0 } := by
  induction n with
  | zero => cases p; simp
  | succ n ih =>
    rw [List.range_succ, List.foldl_append, ih]
    unfold forkHandler
    cases hp : p.thread <;> simp [hp]
    omega

/-- The number of workers of a child is the number of initialisations of its ancestors. -/
theorem C61_child (p : Proc) : (pstep p .fork).workers = if p.thread then p.handlers else 0 := by
  simp only [pstep, fold_handler]
  cases p.thread <;> simp

def POp.isStart : POp → Bool
  | .start true => true
  | _ => false

theorem pacts_snoc (p : Proc) (ops : List POp) (o : POp) : pacts p (ops ++ [o]) = pstep (pacts p ops) o := by
  unfold pacts; rw [List.foldl_append]; rfl

/-- C61 (missing: histories with several initialisations, refuted by `C61_not_full`): with at most one
robust initialisation, every process has exactly one worker while it is attached and none otherwise,
after any number of forks. -/
theorem C61_partial (ops : List POp) (h : ops.countP POp.isStart ≤ 1) :
    (pacts pinit ops).workers = if (pacts pinit ops).thread then 1 else 0 := by
  suffices ∀ ops : List POp, (pacts pinit ops).handlers = ops.countP POp.isStart ∧
      (ops.countP POp.isStart ≤ 1 →
        ((pacts pinit ops).thread = true → ops.countP POp.isStart = 1) ∧
        (pacts pinit ops).workers = if (pacts pinit ops).thread then 1 else 0) from ((this ops).2 h).2
  intro ops
  induction ops using List.reverseRecOn with
  | nil => simp [pacts, pinit]
  | append_singleton ops o ih =>
    rw [pacts_snoc, List.countP_append]
    obtain ⟨ih1, ih2⟩ := ih
    cases o with
    | start r =>
      cases r
      · simpa [pstep, POp.isStart] using ⟨ih1, ih2⟩
      · simp only [pstep, POp.isStart, List.countP_cons, List.countP_nil]
        refine ⟨by simp [ih1], fun hc => ?_⟩
        have h0 : ops.countP POp.isStart = 0 := by simp at hc; simpa using hc
        have := ih2 (by omega)
        have ht : (pacts pinit ops).thread = false := by
          by_contra hcc
          have := this.1 (by simpa using hcc)
          omega
        rw [ht] at this
        simp at this
        simp [this]
        simpa using h0
    | destroy =>
      simp only [POp.isStart, List.countP_cons, List.countP_nil, pstep]
      refine ⟨by split <;> simpa using ih1, fun hc => ?_⟩
      have := ih2 (by simpa using hc)
      split <;> simp_all
    | fork =>
      simp only [POp.isStart, List.countP_cons, List.countP_nil, pstep, fold_handler]
      refine ⟨by simpa using ih1, fun hc => ?_⟩
      have := ih2 (by simpa using hc)
      refine ⟨by simpa using this.1, ?_⟩
      cases ht : (pacts pinit ops).thread
      · simp
      · simp [ih1, this.1 ht]

example : (pacts pinit [.start true, .fork, .fork]).workers = 1 := by decide

end Fullock.Props
