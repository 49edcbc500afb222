/-
C93: what the library leaves behind in its process.
-/
import Verif.Proofs.ResStep
namespace Fullock.Props.Res
open Fullock.Res Fullock.Spec.Res Fullock.Proofs.Res
open Fullock.Thread (Flag)

/-! ### Runs -/

/-- What happens next in a run. -/
inductive Op where
  | start (o : FOut) (f : Nat) (robust : Bool)
  | destroy
  | main (ok : Bool)
  | work (t : Nat) (ok canc : Bool) (f : Nat)
  | fork

/-- One step of a run, with its kind. -/
def op (mask : Nat) (s : State) : Op → Option (Kind × State)
  | .start o f r => if s.main = .idle ∧ s.own f = .free then some (.other, startCall mask o f r s) else none
  | .destroy => if s.main = .idle then some (.other, destroyCall s) else none
  | .main ok => (mstep s ok).map fun s' => (.other, s')
  | .work t ok canc f => (wstep s t ok canc f).map fun s' => (wkind s t canc, s')
  | .fork => if s.main = .idle then some (forkKind s, forkChild s) else none

/-- A run, with what may have been lost. -/
def go (mask : Nat) (two : Bool) : List Op → Nat × Nat × State → Option (Nat × Nat × State)
  | [], x => some x
  | o :: os, (nf, nb, s) =>
    match op mask s o with
    | none => none
    | some (k, s') =>
      if k = .fork2 ∧ two = false then none else go mask two os (nf + fdLoss k, nb + blkLoss k, s')

theorem go_reach {mask : Nat} {user : Nat → Bool} {um : Nat} {two : Bool} (os : List Op) :
    ∀ {nf nb : Nat} {s : State} {x : Nat × Nat × State}, Reach mask user um two nf nb s →
      go mask two os (nf, nb, s) = some x → Reach mask user um two x.1 x.2.1 x.2.2 := by
  induction os with
  | nil => intro nf nb s x h hx; simp only [go, Option.some.injEq] at hx; subst hx; exact h
  | cons o os ih =>
    intro nf nb s x h hx
    simp only [go] at hx
    cases ho : op mask s o with
    | none => simp [ho] at hx
    | some p =>
      obtain ⟨k, s'⟩ := p
      simp only [ho] at hx
      split at hx
      · cases hx
      · rename_i hk
        refine ih (Reach.step (fun e => ?_) h ?_) hx
        · cases two
          · exact absurd ⟨e, rfl⟩ hk
          · rfl
        · cases o with
          | start o f r =>
            simp only [op] at ho
            split at ho
            · rename_i hc; cases ho; exact Step.start o f r hc.1 hc.2
            · cases ho
          | destroy =>
            simp only [op] at ho
            split at ho
            · rename_i hc; cases ho; exact Step.destroy hc
            · cases ho
          | main ok =>
            simp only [op, Option.map_eq_some_iff] at ho
            obtain ⟨a, ha, e⟩ := ho; cases e; exact Step.main ok ha
          | work t ok canc f =>
            simp only [op, Option.map_eq_some_iff] at ho
            obtain ⟨a, ha, e⟩ := ho; cases e; exact Step.worker t ok canc f ha
          | fork =>
            simp only [op] at ho
            split at ho
            · rename_i hc; cases ho; exact Step.fork hc
            · cases ho

/-- All goes well with a new file. -/
def okNew : FOut := ⟨true, true, true, true, true, true, true, true, true, true, true⟩
/-- All goes well with a file in use. -/
def okOld : FOut := ⟨false, true, true, false, true, true, true, true, true, true, true⟩

/-- A start with a worker, up to its return. -/
def up (o : FOut) (f : Nat) : List Op := [.start o f true, .main true, .main true, .main true]
/-- The worker `t` up to its loop, with the descriptors `e` and `i`. -/
def prep (t e i : Nat) : List Op :=
  [.work t true false 0, .work t true false 0, .work t true false e, .work t true false i,
   .work t true false 0, .work t true false 0]
/-- The end, with the worker `t` cancelled in its loop. -/
def down (t : Nat) : List Op :=
  [.destroy, .main true, .main true, .work t true true 0, .work t true true 0, .work t true true 0,
   .work t true true 0, .work t true true 0, .main true]

/-! ### The theorems -/

/-- What stays the same in a step of a worker. -/
theorem wstep_keep {s s' : State} {t : Nat} {ok canc : Bool} {f : Nat} (h : wstep s t ok canc f = some s') :
    s'.umask = s.umask ∧ s'.shm = s.shm ∧ s'.base = s.base ∧ s'.maps = s.maps ∧ s.next ≤ s'.next ∧
      s'.main = s.main := by
  simp only [wstep] at h
  repeat' split at h
  all_goals first
    | (cases h; done)
    | (simp only [Option.some.injEq] at h
       subst h
       simp only [State.goto, State.use, State.release, State.close, State.openFd, State.alloc]
       repeat' split
       all_goals simp)

theorem detach_keep (s : State) :
    s.detach.umask = s.umask ∧ s.detach.shm = none ∧ s.detach.base = none ∧
      (∀ a, s.detach.maps a = true → s.maps a = true) ∧ s.next ≤ s.detach.next := by
  have hcl : ∀ s : State, s.closeShm.umask = s.umask ∧ s.closeShm.shm = none ∧ s.closeShm.base = s.base ∧
      s.closeShm.maps = s.maps ∧ s.closeShm.next = s.next := by
    intro s
    simp only [State.closeShm]
    split
    · rename_i h; exact ⟨rfl, h, rfl, rfl, rfl⟩
    · simp only [State.close]; split <;> simp
  simp only [State.detach]
  split
  · rename_i h
    obtain ⟨a, b, c, d, e⟩ := hcl s
    rw [a, b, c, d, e]
    exact ⟨rfl, rfl, h, fun _ h => h, Nat.le_refl _⟩
  · rename_i x h
    obtain ⟨a, b, c, d, e⟩ := hcl { s.munmap x with base := none }
    rw [a, b, c, d, e]
    simp only [State.munmap]
    split
    · refine ⟨by simp, by simp, by simp, ?_, by simp⟩
      intro a ha; simp only [upd] at ha; split at ha
      · cases ha
      · exact ha
    · exact ⟨by simp, by simp, by simp, fun _ h => h, by simp⟩

/-- The mask, the descriptor of the segment and its mapping. -/
structure Seg (um : Nat) (s : State) : Prop where
  mask : s.umask = um
  both : s.shm.isSome = s.base.isSome
  lt : ∀ a, s.maps a = true → a < s.next

theorem Seg.of_keep {um : Nat} {s s' : State} (h : Seg um s) (h1 : s'.umask = s.umask) (h2 : s'.shm = s.shm)
    (h3 : s'.base = s.base) (h4 : s'.maps = s.maps) (h5 : s.next ≤ s'.next) : Seg um s' :=
  ⟨by rw [h1, h.mask], by rw [h2, h3, h.both], fun a ha => by rw [h4] at ha; have := h.lt a ha; omega⟩

theorem Seg.detach {um : Nat} {s : State} (h : Seg um s) : Seg um s.detach := by
  obtain ⟨a, b, c, d, e⟩ := detach_keep s
  exact ⟨by rw [a, h.mask], by rw [b, c], fun x hx => by have := h.lt x (d x hx); omega⟩

theorem Seg.delete {um : Nat} {s : State} (n : Nat) (r : Bool) (h : Seg um s) : Seg um (deleteObj n r s) := by
  have h1 : Seg um { s.release n with obj := none } := by
    refine h.of_keep ?_ ?_ ?_ ?_ ?_ <;> simp only [State.release] <;> split <;> simp
  exact h1.detach.of_keep rfl rfl rfl rfl (Nat.le_refl _)

theorem Seg.afterExit {um : Nat} {s : State} (n : Nat) (a r : Bool) (h : Seg um s) :
    Seg um (afterExit n a r s) := by
  simp only [Fullock.Res.afterExit]
  split
  · exact h.of_keep rfl rfl rfl rfl (Nat.le_refl _)
  · exact h.delete n r

theorem initThread_keep (ok : Bool) (n : Nat) (s : State) :
    (initThread ok n s).umask = s.umask ∧ (initThread ok n s).shm = s.shm ∧
      (initThread ok n s).base = s.base ∧ (initThread ok n s).maps = s.maps ∧
      s.next ≤ (initThread ok n s).next := by
  cases ok
  · have e : upd s.live s.next true s.next = true := by simp [upd]
    simp [initThread, State.alloc, State.release, e]
  · simp only [initThread, State.alloc, if_true]
    refine ⟨by simp, by simp, by simp, by simp, by omega⟩

theorem Seg.thread {um : Nat} {s : State} {ok : Bool} {n : Nat} {m : MPc} (h : Seg um s) :
    Seg um { initThread ok n s with main := m } := by
  obtain ⟨a, b, c, d, e⟩ := initThread_keep ok n s
  exact h.of_keep a b c d e

theorem Seg.main {um : Nat} {s s' : State} {ok : Bool} (hg : Seg um s) (h : mstep s ok = some s') :
    Seg um s' := by
  simp only [mstep] at h
  split at h
  · cases h
  · have k : Seg um (initThread ok s.next (newObj s)) := by
      obtain ⟨a, b, c, d, e⟩ := initThread_keep ok s.next (newObj s)
      refine hg.of_keep a b c d ?_
      have : (newObj s).next = s.next + 1 := rfl
      omega
    split at h
    · simp only [Option.some.injEq] at h; subst h; exact k.of_keep rfl rfl rfl rfl (Nat.le_refl _)
    · simp only [Option.some.injEq] at h; subst h; exact k.delete _ _
  all_goals try (
    have hu : ∀ n, Seg um (s.use n) := fun n => by
      refine hg.of_keep ?_ ?_ ?_ ?_ ?_ <;> simp only [State.use] <;> split <;> simp)
  · rename_i n _ _
    repeat' split at h
    all_goals
      simp only [Option.some.injEq] at h
      subst h
      exact (hu _).of_keep rfl rfl rfl rfl (Nat.le_refl _)
  · simp only [Option.some.injEq, afterRun] at h
    subst h
    split <;> exact (hu _).of_keep rfl rfl rfl rfl (Nat.le_refl _)
  · repeat' split at h
    all_goals first
      | (cases h; done)
      | (simp only [Option.some.injEq] at h; subst h)
    · exact (hu _).afterExit _ _ _
    · refine Seg.of_keep (hu ‹Nat›) ?_ ?_ ?_ ?_ ?_ <;> simp only [cancelWk] <;> split <;> simp
    · exact (hu _).afterExit _ _ _
  · simp only [Option.some.injEq] at h
    subst h
    exact (hu _).of_keep rfl rfl rfl rfl (Nat.le_refl _)
  · split at h
    · simp only [Option.some.injEq] at h
      subst h
      exact Seg.afterExit _ _ _ ((hu _).of_keep rfl rfl rfl rfl (Nat.le_refl _))
    · cases h
  · simp only [Option.some.injEq] at h; subst h; exact hg.of_keep rfl rfl rfl rfl (Nat.le_refl _)
  · simp only [Option.some.injEq] at h; subst h; exact hg.of_keep rfl rfl rfl rfl (Nat.le_refl _)
  · rename_i j n _ _
    simp only [Option.some.injEq] at h
    subst h
    have k1 : Seg um (dropParam s) := by
      simp only [dropParam]
      split
      · exact hg
      · refine hg.of_keep ?_ ?_ ?_ ?_ ?_ <;> simp only [State.release] <;> split <;> simp
    generalize dropParam s = s1 at k1
    have k2 : Seg um { s1.use n with flag := upd s1.flag n .stop, inited := upd s1.inited n false } := by
      refine k1.of_keep ?_ ?_ ?_ ?_ ?_ <;> simp only [State.use] <;> split <;> simp
    exact k2.thread
  · cases h

theorem reach_seg {mask : Nat} {user : Nat → Bool} {um : Nat} {two : Bool} {nf nb : Nat} {s : State}
    (h : Reach mask user um two nf nb s) : Seg um s := by
  induction h with
  | init => exact ⟨rfl, rfl, fun a h => by simp [init] at h⟩
  | @step k nf nb s s' hk _ hs ih =>
    cases hs with
    | start o f robust hm hf =>
      simp only [startCall]
      split
      · exact ih.of_keep rfl rfl rfl rfl (Nat.le_refl _)
      · rename_i hsh
        have hsh : s.shm = none := by cases h' : s.shm <;> simp_all
        have hb : s.base = none := by have := ih.both; rw [hsh] at this; cases h' : s.base <;> simp_all
        have hsp := openFile_spec mask o f s hf ih.lt hb hsh
        split
        · rename_i hr
          obtain ⟨k, hk, e⟩ := hsp.1 (by simpa using hr)
          rw [e]
          exact ih.of_keep rfl rfl rfl rfl hk
        · rename_i hr
          obtain ⟨a, k, hk, hak, e⟩ := hsp.2 (by simpa using hr)
          have hm' : Seg um (mapped s f a k) := by
            refine ⟨ih.mask, rfl, ?_⟩
            intro x hx
            simp only [mapped, opened, upd] at hx ⊢
            split at hx
            · omega
            · have := ih.lt x hx; omega
          rw [e]
          split <;> exact hm'.of_keep rfl rfl rfl rfl (Nat.le_refl _)
    | destroy hm =>
      simp only [destroyCall]
      split
      · exact ih.of_keep rfl rfl rfl rfl (Nat.le_refl _)
      · split
        · exact ih.detach.of_keep rfl rfl rfl rfl (Nat.le_refl _)
        · exact ih.of_keep rfl rfl rfl rfl (Nat.le_refl _)
    | main ok h => exact ih.main h
    | worker t ok canc f h =>
      obtain ⟨a, b, c, d, e, _⟩ := wstep_keep h
      exact ih.of_keep a b c d e
    | fork hm => exact ih.of_keep rfl rfl rfl rfl (Nat.le_refl _)
    | userOpen f h => exact ih.of_keep rfl rfl rfl rfl (Nat.le_refl _)
    | userClose f h => exact ih.of_keep rfl rfl rfl rfl (Nat.le_refl _)

/-- C93: the mask of the process is, whenever anybody can look, what the program has set. -/
theorem C93_umask {mask : Nat} {user : Nat → Bool} {um : Nat} {two : Bool} {nf nb : Nat} {s : State}
    (h : Reach mask user um two nf nb s) : s.umask = um := (reach_seg h).mask

/-- C93: the segment is mapped exactly while its file is open. -/
theorem C93_unmapped {mask : Nat} {user : Nat → Bool} {um : Nat} {two : Bool} {nf nb : Nat} {s : State}
    (h : Reach mask user um two nf nb s) : s.shm.isSome = s.base.isSome := (reach_seg h).both

/-- C93 (partial): nothing is released twice or used after its release, and no descriptor of the program
is closed, as long as no process forks after it has started the library twice. -/
theorem C93_safe_partial {mask : Nat} {user : Nat → Bool} {um nf nb : Nat} {s : State}
    (h : Reach mask user um false nf nb s) : s.bad = false := by
  obtain ⟨L, B, hi, _⟩ := reach_inv h
  exact hi.1.ok

/-- C93 (partial): when the library is not in use, no worker is left, no mapping, at most two descriptors
for each fork and each worker cancelled in its handler, and at most one block for each fork and each
worker cancelled while it read. -/
theorem C93_left_partial {mask : Nat} {user : Nat → Bool} {um nf nb : Nat} {s : State}
    (h : Reach mask user um false nf nb s) (ho : Off s) :
    NoWorker s ∧ (∀ a, s.maps a = false) ∧
      (∃ L : List Nat, L.length ≤ nf ∧ ∀ f, s.own f = .lib → f ∈ L) ∧
      (∃ B : List Nat, B.length ≤ nb ∧ ∀ b, s.live b = true → b ∈ B) := by
  obtain ⟨L, B, hi, h1, h2⟩ := reach_inv h
  obtain ⟨hm, hs⟩ := ho
  have hob : s.obj = none := by
    cases h' : s.obj with
    | none => rfl
    | some n => have := hi.1.objs (by simp [h']); simp [hs] at this
  have hn := no_worker hi hob
  have hpr : s.param = none := by
    cases hp : s.param with
    | none => rfl
    | some p => have := (hn.prm p hp).1; simp [hob] at this
  refine ⟨?_, ?_, ⟨L, h1, ?_⟩, ⟨B, h2, ?_⟩⟩
  · intro t w hw
    have := hn.cur t w hw
    cases hp : w.pc <;> simp_all [act]
  · intro a
    cases ha : s.maps a
    · rfl
    · have := (hi.1.base a).2 ha; rw [hi.1.bshm hs] at this; cases this
  · intro f hf
    rcases hi.1.fds f hf with h' | h' | h' | h'
    · rw [hs] at h'; cases h'
    · exact hn.evL f h'
    · exact hn.inoL f h'
    · exact h'
  · intro b hb
    rcases hn.live b hb with h' | h' | h'
    · rw [hob] at h'; cases h'
    · rw [hpr] at h'; cases h'
    · exact h'

/-- C93 (partial): without forks and without cancellations at those two places nothing is left. -/
theorem C93_clean_partial {mask : Nat} {user : Nat → Bool} {um : Nat} {s : State}
    (h : Reach mask user um false 0 0 s) (ho : Off s) : Nothing s := by
  obtain ⟨_, hm, ⟨L, hl, hL⟩, ⟨B, hb, hB⟩⟩ := C93_left_partial h ho
  have hl : L = [] := by cases L <;> simp_all
  have hb : B = [] := by cases B <;> simp_all
  subst hl hb
  refine ⟨fun f hf => by simpa using hL f hf, hm, fun b => ?_⟩
  cases h' : s.live b
  · rfl
  · simpa using hB b h'

/-- C93 (partial): while it is in use, the library has at most three descriptors besides those lost. -/
theorem C93_held_partial {mask : Nat} {user : Nat → Bool} {um nf nb : Nat} {s : State}
    (h : Reach mask user um false nf nb s) :
    ∃ L : List Nat, L.length ≤ nf ∧
      ∀ f, s.own f = .lib → s.shm = some f ∨ s.ev = some f ∨ s.ino = some f ∨ f ∈ L := by
  obtain ⟨L, B, hi, h1, _⟩ := reach_inv h
  exact ⟨L, h1, hi.1.fds⟩

/-! ### The descriptors of a worker -/

/-- The worker needs its event descriptor here. -/
def needE : WPc → Bool
  | .inotify => true
  | .watch => true
  | .ctl => true
  | .loop => true
  | .sleep => true
  | .wait => true
  | .read _ => true
  | .tail => true
  | _ => false
/-- The worker needs its watch descriptor here. -/
def needI : WPc → Bool
  | .inotify => false
  | p => needE p

/-- What a step outside of the workers leaves as it is. -/
def Same (s s' : State) : Prop :=
  s'.ev = s.ev ∧ s'.ino = s.ino ∧
    ∀ t w', s'.wk t = some w' → w'.pc = .start ∨ ∃ w, s.wk t = some w ∧ w.pc = w'.pc

theorem Same.of_eq {s s' : State} (h1 : s'.ev = s.ev) (h2 : s'.ino = s.ino) (h3 : s'.wk = s.wk) : Same s s' :=
  ⟨h1, h2, fun t w' h => .inr ⟨w', by rw [h3] at h; exact h, rfl⟩⟩

theorem Same.trans {a b c : State} (h : Same a b) (h' : Same b c) : Same a c := by
  refine ⟨by rw [h'.1, h.1], by rw [h'.2.1, h.2.1], fun t w hw => ?_⟩
  rcases h'.2.2 t w hw with e | ⟨w1, e1, e2⟩
  · exact .inl e
  · rcases h.2.2 t w1 e1 with e | ⟨w2, e3, e4⟩
    · exact .inl (by rw [← e2, e])
    · exact .inr ⟨w2, e3, by rw [e4, e2]⟩

theorem same_detach (s : State) : Same s s.detach := by
  have hcl : ∀ s : State, Same s s.closeShm := by
    intro s
    simp only [State.closeShm]
    split
    · exact Same.of_eq rfl rfl rfl
    · simp only [State.close]; split <;> exact Same.of_eq rfl rfl rfl
  simp only [State.detach]
  split
  · exact hcl s
  · rename_i a _
    refine Same.trans (b := { s.munmap a with base := none }) ?_ (hcl _)
    simp only [State.munmap]; split <;> exact Same.of_eq rfl rfl rfl

theorem same_use (s : State) (n : Nat) : Same s (s.use n) := by
  simp only [State.use]; split <;> exact Same.of_eq rfl rfl rfl

theorem same_release (s : State) (n : Nat) : Same s (s.release n) := by
  simp only [State.release]; split <;> exact Same.of_eq rfl rfl rfl

theorem same_delete (s : State) (n : Nat) (r : Bool) : Same s (deleteObj n r s) :=
  (((same_release s n).trans (b := s.release n) (c := { s.release n with obj := none })
    (Same.of_eq rfl rfl rfl)).trans (same_detach _)).trans (Same.of_eq rfl rfl rfl)

theorem same_afterExit (s : State) (n : Nat) (a r : Bool) : Same s (afterExit n a r s) := by
  simp only [Fullock.Res.afterExit]
  split
  · exact Same.of_eq rfl rfl rfl
  · exact same_delete s n r

theorem same_thread (ok : Bool) (n : Nat) (s : State) : Same s (initThread ok n s) := by
  simp only [initThread]
  split
  · refine ⟨rfl, rfl, fun t w hw => ?_⟩
    simp only [upd] at hw
    split at hw
    · simp only [Option.some.injEq] at hw; subst hw; exact .inl rfl
    · exact .inr ⟨w, hw, rfl⟩
  · exact Same.trans (b := s.alloc) (Same.of_eq rfl rfl rfl) (same_release _ _)

theorem same_main {s s' : State} {ok : Bool} (h : mstep s ok = some s') : Same s s' := by
  simp only [mstep] at h
  split at h
  · cases h
  · have k : Same s (initThread ok s.next (newObj s)) :=
      Same.trans (b := newObj s) (Same.of_eq rfl rfl rfl) (same_thread _ _ _)
    split at h
    · simp only [Option.some.injEq] at h; subst h; exact k.trans (Same.of_eq rfl rfl rfl)
    · simp only [Option.some.injEq] at h; subst h; exact k.trans (same_delete _ _ _)
  · repeat' split at h
    all_goals
      simp only [Option.some.injEq] at h
      subst h
      exact (same_use _ _).trans (Same.of_eq rfl rfl rfl)
  · simp only [Option.some.injEq, afterRun] at h
    subst h
    split <;> exact (same_use _ _).trans (Same.of_eq rfl rfl rfl)
  · repeat' split at h
    all_goals first
      | (cases h; done)
      | (simp only [Option.some.injEq] at h; subst h)
    · exact (same_use _ _).trans (same_afterExit _ _ _ _)
    · refine (same_use s ‹Nat›).trans ?_
      generalize s.use _ = s1
      refine Same.trans (b := cancelWk (s1.thr ‹Nat›) s1) ?_ (Same.of_eq rfl rfl rfl)
      simp only [cancelWk]
      split
      · exact Same.of_eq rfl rfl rfl
      · rename_i w hw
        refine ⟨rfl, rfl, fun t w' hw' => ?_⟩
        simp only [upd] at hw'
        split at hw'
        · rename_i e
          simp only [Option.some.injEq] at hw'
          subst hw' e
          exact .inr ⟨w, hw, rfl⟩
        · exact .inr ⟨w', hw', rfl⟩
    · exact (same_use _ _).trans (same_afterExit _ _ _ _)
  · simp only [Option.some.injEq] at h
    subst h
    exact (same_use _ _).trans (Same.of_eq rfl rfl rfl)
  · split at h
    · simp only [Option.some.injEq] at h
      subst h
      exact ((same_use _ _).trans (Same.of_eq rfl rfl rfl)).trans (same_afterExit _ _ _ _)
    · cases h
  · simp only [Option.some.injEq] at h; subst h; exact Same.of_eq rfl rfl rfl
  · simp only [Option.some.injEq] at h; subst h; exact Same.of_eq rfl rfl rfl
  · rename_i j n _ _
    simp only [Option.some.injEq] at h
    subst h
    have k1 : Same s (dropParam s) := by
      simp only [dropParam]
      split
      · exact Same.of_eq rfl rfl rfl
      · exact (same_release _ _).trans (Same.of_eq rfl rfl rfl)
    refine k1.trans ?_
    generalize dropParam s = s1
    refine (same_use s1 n).trans ?_
    refine Same.trans (b := { s1.use n with flag := upd s1.flag n .stop, inited := upd s1.inited n false })
      (Same.of_eq rfl rfl rfl) ?_
    exact (same_thread _ _ _).trans (Same.of_eq rfl rfl rfl)
  · cases h

/-- The descriptors that a worker needs. -/
def Both (s : State) : Prop :=
  ∀ t w, s.wk t = some w → (needE w.pc = true → s.ev.isSome = true) ∧
    (needI w.pc = true → s.ino.isSome = true)

theorem Both.same {s s' : State} (hb : Both s) (h : Same s s') : Both s' := by
  intro t w hw
  rw [h.1, h.2.1]
  rcases h.2.2 t w hw with e | ⟨w0, h0, e⟩
  · rw [e]; simp [needE, needI]
  · rw [← e]; exact hb t w0 h0

theorem need_act {p : WPc} (h : needE p = true) : Proofs.Res.act p = true := by
  cases p <;> first | rfl | cases h

theorem same_start (mask : Nat) (o : FOut) (f : Nat) (robust : Bool) (s : State) :
    Same s (startCall mask o f robust s) := by
  have hi : ∀ s : State, Same s (initFile o s).1 := by
    intro s
    simp only [initFile]
    repeat' split
    all_goals first
      | exact Same.of_eq rfl rfl rfl
      | (simp only [State.munmap]; split <;> exact Same.of_eq rfl rfl rfl)
  have ha : ∀ s : State, Same s (attach o s).1 := by
    intro s
    simp only [attach, State.munmap]
    repeat' split
    all_goals exact Same.of_eq rfl rfl rfl
  have hc : ∀ s : State, Same s s.closeShm := by
    intro s
    simp only [State.closeShm]
    split
    · exact Same.of_eq rfl rfl rfl
    · simp only [State.close]; split <;> exact Same.of_eq rfl rfl rfl
  have k : Same s (openFile mask o f s).1 := by
    simp only [openFile]
    repeat' split
    all_goals first
      | exact Same.of_eq rfl rfl rfl
      | (refine Same.trans ?_ (same_detach _)
         refine Same.trans ?_ (hi _)
         exact Same.of_eq rfl rfl rfl)
      | (refine Same.trans ?_ (same_detach _)
         refine Same.trans ?_ (ha _)
         exact Same.of_eq rfl rfl rfl)
      | (refine Same.trans ?_ (hi _)
         exact Same.of_eq rfl rfl rfl)
      | (refine Same.trans ?_ (ha _)
         exact Same.of_eq rfl rfl rfl)
      | (refine Same.trans ?_ (same_detach _)
         exact Same.of_eq rfl rfl rfl)
      | (refine Same.trans ?_ (hc _)
         exact Same.of_eq rfl rfl rfl)
  simp only [startCall]
  repeat' split
  all_goals first
    | exact k.trans (Same.of_eq rfl rfl rfl)
    | exact Same.of_eq rfl rfl rfl

theorem wstep_both {L B : List Nat} {s s' : State} {t : Nat} {ok canc : Bool} {f : Nat} (hi : Inv L B s)
    (hb : Both s) (h : wstep s t ok canc f = some s') : Both s' := by
  cases hw : s.wk t with
  | none => simp [wstep, hw] at h
  | some w =>
    by_cases ha : Proofs.Res.act w.pc = true
    · have uni : ∀ t' w', s.wk t' = some w' → Proofs.Res.act w'.pc = true → t' = t := by
        intro t' w' hw' ha'
        rcases hi.2 with hn | ⟨t0, w0, hW⟩
        · rw [hn.cur t w hw] at ha; cases ha
        · rw [hW.oth t' w' hw' ha', hW.oth t w hw ha]
      have oth : ∀ t' w', t' ≠ t → s.wk t' = some w' → needE w'.pc = false ∧ needI w'.pc = false := by
        intro t' w' hne hw'
        have : needE w'.pc = false := by
          cases hE : needE w'.pc
          · rfl
          · exact absurd (uni t' w' hw' (need_act hE)) hne
        refine ⟨this, ?_⟩
        cases hp : w'.pc <;> simp_all [needI, needE]
      have hbt := hb t w hw
      simp only [wstep, hw] at h
      cases hp : w.pc <;> simp only [hp] at h hbt
      all_goals (try dsimp only at h)
      all_goals (repeat' split at h)
      all_goals first
        | (cases h; done)
        | (simp only [Option.some.injEq] at h
           subst h
           intro t' w' hw'
           by_cases e : t' = t
           · subst e
             simp only [State.goto, upd, if_true, Option.some.injEq] at hw'
             subst hw'
             simp only [State.goto, State.use, State.release, State.close, State.openFd, State.alloc]
             repeat' split
             all_goals (simp_all [needE, needI] <;> done)
           · have h0 : s.wk t' = some w' := by
               simp only [State.goto, State.use, State.release, State.close, State.openFd, State.alloc,
                 upd, if_neg e] at hw'
               repeat' split at hw'
               all_goals exact hw'
             obtain ⟨a, b⟩ := oth t' w' e h0
             simp [a, b])
    · have hE : ∀ p : WPc, Proofs.Res.act p = false → p = .last ∨ p = .ended := by
        intro p; cases p <;> simp [Proofs.Res.act]
      simp only [wstep, hw] at h
      rcases hE w.pc (by simpa using ha) with e | e <;> simp only [e] at h
      · simp only [Option.some.injEq] at h
        subst h
        intro t' w' hw'
        simp only [State.goto, upd] at hw'
        split at hw'
        · simp only [Option.some.injEq] at hw'
          subst hw'
          simp [needE, needI]
        · exact hb t' w' hw'
      · cases h

theorem reach_both {mask : Nat} {user : Nat → Bool} {um nf nb : Nat} {s : State}
    (h : Reach mask user um false nf nb s) : Both s := by
  induction h with
  | init => intro t w hw; simp [init] at hw
  | @step k nf nb s s' hk hr hs ih =>
    cases hs with
    | start o f robust hm hf => exact ih.same (same_start mask o f robust s)
    | destroy hm =>
      refine ih.same ?_
      simp only [destroyCall]
      split
      · exact Same.of_eq rfl rfl rfl
      · split
        · exact (same_detach s).trans (Same.of_eq rfl rfl rfl)
        · exact Same.of_eq rfl rfl rfl
    | main ok h => exact ih.same (same_main h)
    | worker t ok canc f h =>
      obtain ⟨L, B, hi, _⟩ := reach_inv hr
      exact wstep_both hi ih h
    | fork hm => intro t w hw; simp [forkChild] at hw
    | userOpen f h => exact ih.same (Same.of_eq rfl rfl rfl)
    | userClose f h => exact ih.same (Same.of_eq rfl rfl rfl)

/-- C93 (partial): whenever a worker is in its loop, it has its two descriptors, both open, different from
each other and from that of the segment. -/
theorem C93_watch_partial {mask : Nat} {user : Nat → Bool} {um nf nb : Nat} {s : State} {t : Nat} {w : Wk}
    (h : Reach mask user um false nf nb s) (hw : s.wk t = some w)
    (hp : w.pc = .loop ∨ w.pc = .sleep ∨ w.pc = .wait ∨ w.pc = .tail ∨ ∃ b, w.pc = .read b) :
    ∃ g e i, s.shm = some g ∧ s.ev = some e ∧ s.ino = some i ∧ s.own g = .lib ∧ s.own e = .lib ∧
      s.own i = .lib ∧ g ≠ e ∧ g ≠ i ∧ e ≠ i := by
  obtain ⟨L, B, hi, _⟩ := reach_inv h
  have hb := reach_both h t w hw
  have hE : needE w.pc = true := by
    rcases hp with e | e | e | e | ⟨b, e⟩ <;> rw [e] <;> rfl
  have hI : needI w.pc = true := by
    rcases hp with e | e | e | e | ⟨b, e⟩ <;> rw [e] <;> rfl
  have he := hb.1 hE
  have hn := hb.2 hI
  rw [Option.isSome_iff_exists] at he hn
  obtain ⟨e, he⟩ := he
  obtain ⟨i, hn⟩ := hn
  have hg : s.shm.isSome = true := by
    refine hi.1.objs ?_
    rcases hi.2 with hN | ⟨t0, w0, hW⟩
    · have := hN.cur t w hw; rw [need_act hE] at this; cases this
    · rw [hW.obj]; rfl
  rw [Option.isSome_iff_exists] at hg
  obtain ⟨g, hg⟩ := hg
  have hd := hi.1.dis g hg
  refine ⟨g, e, i, hg, he, hn, hi.1.shm g hg, hi.1.ev e he, hi.1.ino i hn, ?_, ?_, ?_⟩
  · intro x; subst x; exact hd.1 he
  · intro x; subst x; exact hd.2 hn
  · intro x; subst x; exact hi.1.dis' e he hn

/-! ### The start -/

/-- The system answers so that the library can be used: the file can be created or opened, and either it
can be locked for writing, filled, mapped and its lock made a read lock, or it can be locked for reading,
has a known version and can be mapped. -/
def Good (o : FOut) : Prop :=
  (o.made = true ∨ o.exist = true ∧ o.opened = true) ∧
    (o.wlock = true ∧ o.fill = true ∧ o.map = true ∧ o.lists = true ∧ o.down = true ∨
      o.made = false ∧ o.wlock = false ∧ o.rlock = true ∧ o.head = true ∧ o.version = true ∧ o.map = true)

theorem openFile_good (mask : Nat) (o : FOut) (f : Nat) (s : State) :
    (openFile mask o f s).2 = true ↔ Good o := by
  obtain ⟨a1, a2, a3, a4, a5, a6, a7, a8, a9, a10, a11⟩ := o
  simp only [openFile, Good, initFile, attach]
  cases a1 <;> cases a2 <;> cases a3 <;> cases a4 <;> cases a5 <;> cases a6 <;> cases a7 <;> cases a8 <;>
    cases a9 <;> cases a10 <;> cases a11 <;> simp

/-- C93: a worker that is refused one of the four things it needs (the event descriptor, the notification descriptor, the watch on
the file, the registration) does not run: it goes to its cleanup handler, with what it has got so far. -/
theorem C93_refused {s : State} {t : Nat} {w : Wk} (hw : s.wk t = some w)
    (hp : w.pc = .epoll ∨ w.pc = .inotify ∨ w.pc = .watch ∨ w.pc = .ctl) (canc : Bool) (f : Nat) :
    ∃ s', wstep s t false canc f = some s' ∧ s'.wk t = some { w with pc := .hdl true } ∧ s'.own = s.own ∧ s'.live = s.live ∧
      (w.pc ≠ .epoll → s'.ev = s.ev) ∧ (w.pc = .epoll → s'.ev = none) ∧ (w.pc = .watch ∨ w.pc = .ctl → s'.ino = s.ino) := by
  rcases hp with e | e | e | e <;>
    exact ⟨_, by simp only [wstep, hw, e, Bool.false_eq_true, if_false]; rfl, by simp [State.goto, upd], by
      simp [State.goto, State.use] <;> try (split <;> rfl), by simp [State.goto, State.use] <;> try (split <;> rfl), by
      simp [State.goto, State.use, e] <;> try (split <;> rfl), by simp [State.goto, e], by
      simp [State.goto, State.use, e] <;> try (split <;> rfl)⟩

/-- C93: a start that is refused, or that finds the library in use, leaves everything as it was; one that
succeeds has opened the file and mapped it once, and nothing else has changed.  (Numbers that were used
for a moment are not used again: `next`.) -/
theorem C93_start {mask : Nat} {user : Nat → Bool} {um : Nat} {two : Bool} {nf nb : Nat} {s : State}
    (h : Reach mask user um two nf nb s) (o : FOut) (f : Nat) (robust : Bool) (hf : s.own f = .free) :
    (s.shm.isSome = true → startCall mask o f robust s = { s with main := .idle, ret := some false }) ∧
    (s.shm = none → ¬ Good o →
      ∃ k, startCall mask o f robust s = { s with main := .idle, ret := some false, next := k }) ∧
    (s.shm = none → Good o → ∃ a k, s.maps a = false ∧
      startCall mask o f robust s =
        { s with main := if robust then .create else .idle, ret := if robust then s.ret else some true,
                 next := k, shm := some f, base := some a, own := fun g => if g = f then .lib else s.own g,
                 maps := fun b => if b = a then true else s.maps b }) := by
  have hg := reach_seg h
  refine ⟨fun hs => ?_, fun hs hn => ?_, fun hs hn => ?_⟩
  · simp [startCall, hs, State.back]
  all_goals
    have hb : s.base = none := by have := hg.both; rw [hs] at this; cases h' : s.base <;> simp_all
    have hsp := openFile_spec mask o f s hf hg.lt hb hs
  · have hr : (openFile mask o f s).2 = false := by
      cases h' : (openFile mask o f s).2
      · rfl
      · exact absurd ((openFile_good mask o f s).1 h') hn
    obtain ⟨k, _, e⟩ := hsp.1 hr
    exact ⟨k, by simp [startCall, hs, hr, e, State.back]⟩
  · have hr := (openFile_good mask o f s).2 hn
    obtain ⟨a, k, hk, hak, e⟩ := hsp.2 hr
    refine ⟨a, k, ?_, ?_⟩
    · cases h' : s.maps a
      · rfl
      · have := hg.lt a h'; omega
    · cases robust <;> simp only [startCall, hs, hr, e, State.back] <;> rfl

/-- C93: after the file is mapped, a worker that cannot be created makes the start fail, and the file is
closed; otherwise the start succeeds, with the worker told to run and one handler of forks more. -/
theorem C93_create {s : State} (hm : s.main = .create) :
    (∃ s', mstep s false = some s' ∧ Off s' ∧ s'.ret = some false ∧ s'.handlers = s.handlers ∧
      s'.base = none ∧ s'.obj = none) ∧
    (∀ ok ok', ∃ s1 s2 s3, mstep s true = some s1 ∧ mstep s1 ok = some s2 ∧ mstep s2 ok' = some s3 ∧
      s3.main = .idle ∧ s3.ret = some true ∧ s3.handlers = s.handlers + 1 ∧ s3.shm = s.shm ∧
      ∃ n p t, s3.obj = some n ∧ s3.flag n = .run ∧ s3.inited n = true ∧ s3.thr n = t ∧
        s3.wk t = some ⟨p, n, .start, false⟩ ∧ s3.live p = true ∧ s3.live n = true ∧ n ≠ p) := by
  refine ⟨?_, fun ok ok' => ?_⟩
  · refine ⟨_, by simp only [mstep, hm]; rfl, ?_, ?_, ?_, ?_, ?_⟩
    · exact ⟨rfl, (detach_keep _).2.1⟩
    · rfl
    · have hd : ∀ s : State, s.detach.handlers = s.handlers := by
        intro s
        simp only [State.detach, State.closeShm, State.munmap, State.close]
        repeat' split
        all_goals rfl
      simp only [deleteObj, State.back, hd]
      simp [State.release, initThread, newObj, State.alloc, upd]
    · exact (detach_keep _).2.2.1
    · have hd : ∀ s : State, s.detach.obj = s.obj := by
        intro s
        simp only [State.detach, State.closeShm, State.munmap, State.close]
        repeat' split
        all_goals rfl
      simp only [deleteObj, State.back, hd]
  · refine ⟨{ initThread true s.next (newObj s) with main := .run none },
      { initThread true s.next (newObj s) with main := .set none },
      { initThread true s.next (newObj s) with
          flag := upd (initThread true s.next (newObj s)).flag s.next .run, handlers := s.handlers + 1,
          main := .idle, ret := some true },
      by simp only [mstep, hm]; rfl, ?_, ?_, rfl, rfl, rfl, rfl, s.next, s.next + 1, s.next + 2, rfl, ?_, ?_,
      ?_, ?_, ?_, ?_, ?_⟩
    · simp [mstep, newObj, initThread, State.alloc, State.use, upd]
    · simp [mstep, newObj, initThread, State.alloc, State.use, upd, afterRun, State.back]
    all_goals simp [newObj, initThread, State.alloc, upd]
-- such a state is reached
example : ∃ s, Reach 0 (fun _ => false) 18 false 0 0 s ∧ s.main = .create ∧ s.shm = some 3 :=
  ⟨_, Reach.step (fun e => by cases e) Reach.init (Step.start okNew 3 true rfl rfl), rfl, rfl⟩

/-! ### What is not so -/

/-- C93 as one would wish it: nothing is released twice or used after its release, and when the library is
not in use nothing is left. -/
def C93_full : Prop :=
  ∀ (mask : Nat) (user : Nat → Bool) (um : Nat) (two : Bool) (nf nb : Nat) (s : State),
    Reach mask user um two nf nb s → s.bad = false ∧ (Off s → Nothing s)

/-- The program has three descriptors open. -/
def user3 : Nat → Bool := fun f => decide (f < 3)

/-- A fork, after which the child starts a worker and ends the library. -/
def leakRun : List Op :=
  up okNew 3 ++ prep 3 4 5 ++ [.fork, .main true, .main true, .main true, .main true] ++ prep 5 6 7 ++ down 5

/-- The library is started, ended and started again; then the process forks; the worker of the first
handler starts before the second handler. -/
def twiceRun : List Op :=
  up okNew 3 ++ prep 3 4 5 ++ down 3 ++ up okOld 3 ++ prep 8 4 5 ++
    [.fork, .main true, .main true, .main true, .work 10 true false 0, .work 10 true false 0,
     .work 10 true false 6, .work 10 true false 7, .main true, .work 10 true false 0]

/-- The worker is cancelled while it reads events. -/
def cutRun : List Op :=
  up okNew 3 ++ prep 3 4 5 ++ [.work 3 true false 0, .work 3 true false 1] ++ down 3

/-- `epoll_wait` fails; the worker is cancelled in its handler. -/
def abortRun : List Op :=
  up okNew 3 ++ prep 3 4 5 ++
    [.work 3 true false 0, .work 3 false false 0, .work 3 true false 0, .work 3 true false 0, .destroy,
     .main true, .main true, .work 3 true true 0, .main true]

/-- The end of a run. -/
def at' (two : Bool) (os : List Op) : Option (Nat × Nat × State) := go 0 two os (0, 0, init user3 18)

theorem at_reach {two : Bool} {os : List Op} {x : Nat × Nat × State} (h : at' two os = some x) :
    Reach 0 user3 18 two x.1 x.2.1 x.2.2 := go_reach os Reach.init h

/-- C93: after a fork the child cannot close the two descriptors of its parent's worker. -/
theorem C93_leak : ∃ s, Reach 0 user3 18 false 2 1 s ∧ Off s ∧ s.ret = some true ∧
    s.own 4 = .lib ∧ s.own 5 = .lib ∧ s.bad = false := by
  have h : ∃ x, at' false leakRun = some x ∧ x.1 = 2 ∧ x.2.1 = 1 ∧ x.2.2.main = .idle ∧ x.2.2.shm = none ∧
      x.2.2.ret = some true ∧ x.2.2.own 4 = .lib ∧ x.2.2.own 5 = .lib ∧ x.2.2.bad = false :=
    ⟨_, rfl, rfl, rfl, rfl, rfl, rfl, rfl, rfl, rfl⟩
  obtain ⟨⟨a, b, s⟩, hx, e1, e2, h3, h4, h5, h6, h7, h8⟩ := h
  have := at_reach hx
  dsimp only at *
  subst e1 e2
  exact ⟨s, this, ⟨h3, h4⟩, h5, h6, h7, h8⟩

/-- Non-vacuity of `C93_refused`: the worker asks for the watch. -/
example : ∃ s w, Reach 0 user3 18 false 0 0 s ∧ s.wk 3 = some w ∧ w.pc = .watch ∧ s.ev = some 4 ∧ s.ino = some 5 ∧
    ∃ s', wstep s 3 false false 0 = some s' ∧ s'.wk 3 = some { w with pc := .hdl true } := by
  have h : ∃ x, at' false (up okNew 3 ++ (prep 3 4 5).take 4) = some x ∧ x.1 = 0 ∧ x.2.1 = 0 ∧
      (x.2.2.wk 3).map (·.pc) = some .watch ∧ x.2.2.ev = some 4 ∧ x.2.2.ino = some 5 := ⟨_, rfl, rfl, rfl, rfl, rfl, rfl⟩
  obtain ⟨⟨a, b, s⟩, hx, e1, e2, h3, h4, h5⟩ := h
  have := at_reach hx
  dsimp only at *
  subst e1 e2
  obtain ⟨w, hw, hp⟩ := Option.map_eq_some_iff.1 h3
  obtain ⟨s', g, g', -⟩ := C93_refused hw (.inr (.inr (.inl hp))) false 0
  exact ⟨s, w, this, hw, hp, h4, h5, s', g, g'⟩

/-- C93: a process that has started the library twice has two handlers; the child of a fork then starts two
workers, and one of them uses what was released. -/
theorem C93_twice : ∃ s, Reach 0 user3 18 true 2 1 s ∧ s.bad = true := by
  have h : ∃ x, at' true twiceRun = some x ∧ x.1 = 2 ∧ x.2.1 = 1 ∧ x.2.2.bad = true :=
    ⟨_, rfl, rfl, rfl, rfl⟩
  obtain ⟨⟨a, b, s⟩, hx, e1, e2, h3⟩ := h
  have := at_reach hx
  dsimp only at *
  subst e1 e2
  exact ⟨s, this, h3⟩

/-- C93: a worker that is cancelled while it reads events leaves its buffer. -/
theorem C93_cut : ∃ s, Reach 0 user3 18 false 0 1 s ∧ Off s ∧ s.ret = some true ∧ s.live 4 = true := by
  have h : ∃ x, at' false cutRun = some x ∧ x.1 = 0 ∧ x.2.1 = 1 ∧ x.2.2.main = .idle ∧ x.2.2.shm = none ∧
      x.2.2.ret = some true ∧ x.2.2.live 4 = true := ⟨_, rfl, rfl, rfl, rfl, rfl, rfl, rfl⟩
  obtain ⟨⟨a, b, s⟩, hx, e1, e2, h3, h4, h5, h6⟩ := h
  have := at_reach hx
  dsimp only at *
  subst e1 e2
  exact ⟨s, this, ⟨h3, h4⟩, h5, h6⟩

/-- C93: a worker that is cancelled in its own handler leaves its descriptors. -/
theorem C93_abort : ∃ s, Reach 0 user3 18 false 2 0 s ∧ Off s ∧ s.ret = some true ∧ s.own 4 = .lib ∧
    s.own 5 = .lib := by
  have h : ∃ x, at' false abortRun = some x ∧ x.1 = 2 ∧ x.2.1 = 0 ∧ x.2.2.main = .idle ∧ x.2.2.shm = none ∧
      x.2.2.ret = some true ∧ x.2.2.own 4 = .lib ∧ x.2.2.own 5 = .lib :=
    ⟨_, rfl, rfl, rfl, rfl, rfl, rfl, rfl, rfl⟩
  obtain ⟨⟨a, b, s⟩, hx, e1, e2, h3, h4, h5, h6, h7⟩ := h
  have := at_reach hx
  dsimp only at *
  subst e1 e2
  exact ⟨s, this, ⟨h3, h4⟩, h5, h6, h7⟩

/-- C93 does not hold: see `C93_leak`, `C93_twice`, `C93_cut` and `C93_abort`. -/
theorem C93_not_full : ¬ C93_full := by
  intro hf
  obtain ⟨s, hr, hb⟩ := C93_twice
  have := (hf _ _ _ _ _ _ _ hr).1
  rw [hb] at this
  cases this

/-! ### Cases -/

-- a run that ends the library meets the hypotheses of `C93_clean_partial` and `C93_left_partial`
example : ∃ s, Reach 0 user3 18 false 0 0 s ∧ Off s ∧ s.ret = some true ∧ 4 ≤ s.next := by
  have h : ∃ x, at' false (up okNew 3 ++ prep 3 4 5 ++ down 3) = some x ∧ x.1 = 0 ∧ x.2.1 = 0 ∧
      x.2.2.main = .idle ∧ x.2.2.shm = none ∧ x.2.2.ret = some true ∧ x.2.2.next = 4 :=
    ⟨_, rfl, rfl, rfl, rfl, rfl, rfl, rfl⟩
  obtain ⟨⟨a, b, s⟩, hx, e1, e2, h3, h4, h5, h6⟩ := h
  have := at_reach hx
  dsimp only at *
  subst e1 e2
  exact ⟨s, this, ⟨h3, h4⟩, h5, by omega⟩
-- a worker in its loop (`C93_watch_partial`, `C93_held_partial`, `C93_safe_partial`)
example : ∃ s w, Reach 0 user3 18 false 0 0 s ∧ s.wk 3 = some w ∧ w.pc = .wait ∧ s.ev = some 4 ∧
    s.ino = some 5 ∧ s.own 2 = .user := by
  have h : ∃ x, at' false (up okNew 3 ++ prep 3 4 5 ++ [.work 3 true false 0]) = some x ∧ x.1 = 0 ∧
      x.2.1 = 0 ∧ x.2.2.wk 3 = some ⟨2, 1, .wait, false⟩ ∧ x.2.2.ev = some 4 ∧ x.2.2.ino = some 5 ∧
      x.2.2.own 2 = .user :=
    ⟨_, rfl, rfl, rfl, rfl, rfl, rfl, rfl⟩
  obtain ⟨⟨a, b, s⟩, hx, e1, e2, h3, h4, h5, h6⟩ := h
  have := at_reach hx
  dsimp only at *
  subst e1 e2
  exact ⟨s, _, this, h3, rfl, h4, h5, h6⟩
-- both ways of a start, a refused one, and one while the library is in use (`C93_start`)
example : Good okNew ∧ Good okOld ∧ ¬ Good { okOld with version := false } ∧
    (init user3 18).own 3 = .free ∧ (startCall 0 okOld 3 false (init user3 18)).shm = some 3 ∧
    (startCall 0 okOld 3 false (init user3 18)).ret = some true := by
  refine ⟨by simp [Good, okNew], by simp [Good, okOld], by simp [Good, okOld], rfl, rfl, rfl⟩
example : (startCall 0 okOld 3 true (startCall 0 okNew 3 false (init user3 18))).ret = some false := rfl
-- the mask during a start is the library's: it would be seen if it were not put back (`C93_umask`)
example : (openFile 0 okNew 3 (init user3 18)).1.umask = 18 := rfl

/-- The record of misuse is complete: closing what the library does not have open, releasing or using a block that is not allocated,
and unmapping what is not mapped all set it, and nothing ever clears it. -/
theorem C93_noticed (s : State) (x : Nat) :
    ((s.close x).bad = true ↔ s.bad = true ∨ s.own x ≠ .lib) ∧ ((s.release x).bad = true ↔ s.bad = true ∨ s.live x = false) ∧
    ((s.use x).bad = true ↔ s.bad = true ∨ s.live x = false) ∧ ((s.munmap x).bad = true ↔ s.bad = true ∨ s.maps x = false) := by
  refine ⟨?_, ?_, ?_, ?_⟩
  · unfold State.close; split <;> simp_all
  · unfold State.release; split <;> simp_all
  · unfold State.use; split <;> simp_all
  · unfold State.munmap; split <;> simp_all
-- misuse exists: a descriptor of the program, a block nobody allocated
example : ((init user3 18).close 2).bad = true ∧ ((init user3 18).use 0).bad = true ∧ (init user3 18).bad = false := ⟨rfl, rfl, rfl⟩

end Fullock.Props.Res
