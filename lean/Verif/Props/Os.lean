import Verif.Proofs.Os
/-! C50 (cache), and the liveness test behind C12, C13, C14. -/
namespace Fullock.Props
open Spec

/-- A failing `stat` never reports errno 0. -/
def ErrnoSane (os : Os) : Prop := (∀ p t, os.task p t ≠ .err 0) ∧ (∀ p f, os.fd p f ≠ .err 0)

/-- C12/C13 (ingredient): without a cache the library's verdict on a holder is exactly
"gone as far as /proc can tell". -/
theorem C12_verdict_exact (os : Os) (hos : ErrnoSane os) (q : Query)
    (hq : q.fileOk) : (askOne os none q).1 = true ↔ Truth os q := by
  cases q with
  | locker file holder fd ex =>
    simp only [askOne, Truth]
    rw [lockerDead_verdict os file holder fd none ex hq (by simp), Bool.and_eq_true,
      probe_gone os file _ _ fd hq (hos.1 _ _) (hos.2 _ _), Bool.not_eq_true', decide_eq_false_iff_not]
  | thread holder ex =>
    simp only [askOne, Truth]
    rw [threadDead_verdict os holder none ex (by simp), Bool.and_eq_true, ← runs_iff]
    simp

/-- C50, full claim: with a cache every verdict of a sweep equals the verdict without. -/
def C50_full : Prop :=
  ∀ (os : Os), ErrnoSane os → ∀ qs : List Query, (∀ q ∈ qs, q.fileOk) →
    askAll os (some []) qs = askAll os none qs

/-- The full claim is false of the code: the entry of a dead descriptor-less locker whose
descriptor number is -1 (= FLCK_RWLOCK_NO_FD(0x7FFFFFFF)) is mistaken for the entry "this thread
runs", so that a mutex of the same dead thread is taken for alive in this sweep. -/
theorem C50_not_full : ¬ C50_full := by
  intro h
  let os : Os := ⟨fun _ _ => .err 2, fun _ _ => .err 2⟩
  have hos : ErrnoSane os := by constructor <;> intro _ _ <;> simp [os]
  have := h os hos
    [.locker eaccessDI (composeFlckpid 7#32 8#32) (noFd 0x7FFFFFFF#32) (0#64, 0#32),
     .thread (composeFlckpid 7#32 8#32) 0#64] (by simp [Query.fileOk]; decide)
  revert this
  decide

/-- C50, partial: it holds whenever no question is about descriptor number -1.
Missing for the full claim: the two kinds of cache entries share the key (pid, tid, -1). -/
theorem C50_cache_transparent_partial (os : Os)
    (qs : List Query) (hf : ∀ q ∈ qs, q.fileOk) (h1 : ∀ q ∈ qs, ¬ q.minusOne) :
    askAll os (some []) qs = askAll os none qs := by
  have key : ∀ (qs : List Query) (c : Option PidCache), CacheOk os c →
      (∀ q ∈ qs, q.fileOk) → (∀ q ∈ qs, ¬ q.minusOne) → askAll os c qs = askAll os none qs := by
    intro qs
    induction qs with
    | nil => intros; rfl
    | cons q qs ih =>
      intro c hc hf h1
      have hq := hf q (by simp)
      have hq1 := h1 q (by simp)
      have hnone : (askOne os none q).2 = none := by
        cases q with
        | locker file holder fd ex =>
          rcases lockerDead_cache os file holder fd none ex with hh | hh <;> simpa [askOne] using hh
        | thread holder ex =>
          rcases threadDead_cache os holder none ex with hh | hh <;> simpa [askOne] using hh
      have hv : (askOne os c q).1 = (askOne os none q).1 := by
        cases q with
        | locker file holder fd ex =>
          simp only [askOne]
          rw [lockerDead_verdict os file holder fd none ex hq (by simp),
            lockerDead_verdict os file holder fd c ex hq ?_]
          intro m v hm hv
          have := hc m hm _ v hv
          have hfd : fd ≠ invalidHandle := hq1
          simpa [hfd] using this
        | thread holder ex =>
          simp only [askOne]
          rw [threadDead_verdict os holder none ex (by simp), threadDead_verdict os holder c ex ?_]
          intro m v hm hv
          simpa using hc m hm _ v hv
      simp only [askAll]
      rw [hv, hnone, ih (askOne os c q).2 (cacheOk_ask os c q hc hq1)
        (fun q hq => hf q (by simp [hq])) (fun q hq => h1 q (by simp [hq]))]
  exact key qs (some []) (by intro m hm k v hk; cases hm; simp [PidCache.get] at hk) hf h1

/-- C50/C13: in the order in which a sweep asks (all lockers of files, then owners of mutexes and
waiters) no cached answer ever reports a holder dead that is not, for any descriptor numbers. -/
theorem C50_sweep_never_wrongly_dead (os : Os) (hos : ErrnoSane os)
    (files threads : List Query) (hf : ∀ q ∈ files, q.fileOk) (hl : ∀ q ∈ files, ¬ q.isThread)
    (ht : ∀ q ∈ threads, q.isThread) (i : Nat) (q : Query)
    (hq : (files ++ threads)[i]? = some q)
    (hdead : (askAll os (some []) (files ++ threads))[i]? = some true) : Truth os q := by
  have keyT : ∀ (ts : List Query) (c : Option PidCache) (i : Nat) (q : Query), RunSafe os c →
      (∀ q ∈ ts, q.isThread) → ts[i]? = some q →
      (askAll os c ts)[i]? = some true → Truth os q := by
    intro ts
    induction ts with
    | nil => intro c i q _ _ h; simp at h
    | cons a ts ih =>
      intro c i q hc ht hq hd
      have ha := ht a (by simp)
      cases a with
      | locker file holder fd ex => exact absurd ha (by simp [Query.isThread])
      | thread holder ex =>
        cases i with
        | zero =>
          simp only [List.getElem?_cons_zero, Option.some.injEq] at hq
          subst hq
          simp only [askAll, List.getElem?_cons_zero, Option.some.injEq] at hd
          exact runSafe_verdict os c holder ex hc hd
        | succ i =>
          simp only [List.getElem?_cons_succ] at hq
          simp only [askAll, List.getElem?_cons_succ] at hd
          exact ih _ i q (runSafe_ask os c holder ex hc) (fun q h => ht q (by simp [h])) hq hd
  have key : ∀ (fs : List Query) (c : Option PidCache) (i : Nat) (q : Query), DevOnly os c →
      (∀ q ∈ fs, q.fileOk) → (∀ q ∈ fs, ¬ q.isThread) → (fs ++ threads)[i]? = some q →
      (askAll os c (fs ++ threads))[i]? = some true → Truth os q := by
    intro fs
    induction fs with
    | nil =>
      intro c i q hc _ _ hq hd
      refine keyT threads c i q ?_ ht (by simpa using hq) (by simpa using hd)
      intro m hm k v hk _ hr
      rw [(hc m hm k v hk).1] at hr
      simp at hr
    | cons a fs ih =>
      intro c i q hc hf hl hq hd
      have ha := hl a (by simp)
      have haf := hf a (by simp)
      cases a with
      | thread holder ex => exact absurd trivial ha
      | locker file holder fd ex =>
        cases i with
        | zero =>
          simp only [List.cons_append, List.getElem?_cons_zero, Option.some.injEq] at hq
          subst hq
          simp only [List.cons_append, askAll, List.getElem?_cons_zero, Option.some.injEq] at hd
          simp only [askOne] at hd
          rw [lockerDead_verdict os file holder fd c ex haf
            (fun m v hm hv => (hc m hm _ v hv).2), Bool.and_eq_true,
            probe_gone os file _ _ fd haf (hos.1 _ _) (hos.2 _ _)] at hd
          exact ⟨by simpa only [Bool.not_eq_true', decide_eq_false_iff_not] using hd.1, hd.2⟩
        | succ i =>
          simp only [List.cons_append, List.getElem?_cons_succ] at hq
          simp only [List.cons_append, askAll, List.getElem?_cons_succ] at hd
          exact ih _ i q (devOnly_ask os c file holder fd ex hc) (fun q h => hf q (by simp [h]))
            (fun q h => hl q (by simp [h])) hq hd
  exact key files (some []) i q (by intro m hm k v hk; cases hm; simp [PidCache.get] at hk) hf hl
    hq hdead

/-- The operating system used in the examples: process 7 runs threads 7 and 8 and has descriptor 3
open on the file (1,100); process 9 is gone. -/
def exampleOs : Os :=
  ⟨fun p t => if p = 7#32 ∧ (t = 7#32 ∨ t = 8#32) then .ok (5#64, 6#64) else .err 2,
   fun p f => if p = 7#32 ∧ f = 3#32 then .ok (1#64, 100#64) else .err 2⟩

example : ErrnoSane exampleOs := by
  refine ⟨?_, ?_⟩ <;> intro a b <;> simp only [exampleOs] <;> split <;> simp

/-- Three lockers, of which the middle one is gone, and the dead process's mutex. -/
example : askAll exampleOs (some [])
    [.locker (1#64, 100#64) (composeFlckpid 7#32 8#32) 3#32 (0#64, 0xFFFFFFFF#32),
     .locker (1#64, 100#64) (composeFlckpid 9#32 9#32) 3#32 (0#64, 0xFFFFFFFF#32),
     .locker (1#64, 100#64) (composeFlckpid 7#32 7#32) 3#32 (0#64, 0xFFFFFFFF#32),
     .thread (composeFlckpid 9#32 9#32) 0#64] = [false, true, false, true] := by decide

/-- C13 (ingredient): a thread seen in /proc whose descriptor is open on the locked file (or which
uses no descriptor) is never judged dead, with no cache or with a sweep's cache. -/
theorem C13_live_holder_not_dead (os : Os) (hos : ErrnoSane os)
    (file : DevIno) (hf : file ≠ (0#64, 0#64)) (pid tid fd : BitVec 32)
    (hseen : ThreadSeen os pid tid)
    (hopen : fd.toInt < 0 ∨ os.fd pid fd = .ok file ∨ os.fd pid fd = .err 13) (ex) :
    (askOne os none (.locker file (composeFlckpid pid tid) fd ex)).1 = false ∧
    (askOne os none (.thread (composeFlckpid pid tid) ex.1)).1 = false := by
  have ht : ∀ q : Query, q.fileOk → ¬ Truth os q → (askOne os none q).1 = false := by
    intro q hq hn
    have := C12_verdict_exact os hos q hq
    cases h : (askOne os none q).1
    · rfl
    · exact absurd (this.mp h) hn
  constructor
  · apply ht (.locker file (composeFlckpid pid tid) fd ex) hf
    rintro ⟨_, hg⟩
    rw [decomposePid_compose, decomposeTid_compose] at hg
    unfold HolderGone at hg
    split at hg
    · exact hg hseen
    · rename_i hneg
      rcases hopen with h | h | h
      · exact hneg h
      · simp [h] at hg
      · simp [h] at hg; exact hg hseen
  · apply ht (.thread (composeFlckpid pid tid) ex.1) trivial
    rintro ⟨_, hg⟩
    rw [decomposePid_compose, decomposeTid_compose] at hg
    exact hg hseen

example : (askOne exampleOs none (.locker (1#64, 100#64) (composeFlckpid 7#32 8#32) 3#32
    (0#64, 0#32))).1 = false := by decide

/-- C12 (ingredient): a process of which nothing is left in /proc is judged dead, whatever
descriptor its lock was taken with; so is a process that closed the descriptor or reopened it on
another file. -/
theorem C12_gone_holder_dead (os : Os) (hos : ErrnoSane os)
    (file : DevIno) (hf : file ≠ (0#64, 0#64)) (pid tid fd : BitVec 32) (ex : FlckPid × BitVec 32)
    (hex : ¬ (composeFlckpid pid tid = ex.1 ∧ fd = ex.2))
    (hgone : ((∀ t, ¬ ThreadSeen os pid t) ∧ (∀ f, ∃ e, os.fd pid f = .err e)) ∨
      (0 ≤ fd.toInt ∧ ((∃ e, e ≠ 13 ∧ os.fd pid fd = .err e) ∨
        ∃ di, os.fd pid fd = .ok di ∧ di ≠ file ∧ di.1 ≠ eaccessDI.1 ∧ di.2 ≠ eaccessDI.2))) :
    (askOne os none (.locker file (composeFlckpid pid tid) fd ex)).1 = true := by
  rw [C12_verdict_exact os hos (.locker file (composeFlckpid pid tid) fd ex) hf]
  refine ⟨hex, ?_⟩
  rw [decomposePid_compose, decomposeTid_compose]
  unfold HolderGone
  rcases hgone with ⟨h1, h2⟩ | ⟨h1, h2⟩
  · split
    · exact h1 tid
    · obtain ⟨e, he⟩ := h2 fd
      simp only [he]
      split
      · exact h1 tid
      · trivial
  · rw [if_neg (by omega)]
    rcases h2 with ⟨e, he, h⟩ | ⟨di, h, h3, h4, h5⟩
    · simp [h, he]
    · simp [h, h3, h4, h5]

example : (askOne exampleOs none (.locker (1#64, 100#64) (composeFlckpid 9#32 9#32) 3#32
    (0#64, 0#32))).1 = true := by decide

/-- C14, full claim: a lock of a thread that is not there any more is judged dead. -/
def C14_full : Prop :=
  ∀ os, ErrnoSane os → ∀ (file : DevIno), file ≠ (0#64, 0#64) →
    ∀ pid tid fd : BitVec 32, ¬ ThreadSeen os pid tid →
    (askOne os none (.locker file (composeFlckpid pid tid) fd (0#64, 0xFFFFFFFF#32))).1 = true

/-- C14 is false of the code: when another thread of the process still has the descriptor open,
the lock of an ended thread is never judged dead (only /proc/<pid>/fd/<fd> is looked at). -/
theorem C14_not_full : ¬ C14_full := by
  intro h
  have := h exampleOs
    (by constructor <;> intro a b <;> simp only [exampleOs] <;> split <;> simp)
    (1#64, 100#64) (by decide) 7#32 55#32 3#32
    (by rintro ⟨di, hdi⟩; revert hdi; simp [exampleOs])
  revert this
  decide

/-- C14, partial: it is judged dead when the lock was taken without a descriptor, when the
descriptor cannot be inspected (EACCES), or when no thread has the descriptor open on the file any
more; and always for mutex owners and condition waiters.  Missing: the ended thread of a process
that keeps the descriptor open. -/
theorem C14_thread_end_partial (os : Os) (hos : ErrnoSane os)
    (file : DevIno) (hf : file ≠ (0#64, 0#64)) (pid tid fd : BitVec 32)
    (hid : composeFlckpid pid tid ≠ 0#64) (hdead : ¬ ThreadSeen os pid tid)
    (hfd : fd.toInt < 0 ∨ ∃ e, os.fd pid fd = .err e) :
    (askOne os none (.locker file (composeFlckpid pid tid) fd (0#64, 0xFFFFFFFF#32))).1 = true ∧
    (askOne os none (.thread (composeFlckpid pid tid) 0#64)).1 = true := by
  constructor
  · rw [C12_verdict_exact os hos (.locker file (composeFlckpid pid tid) fd (0#64, 0xFFFFFFFF#32)) hf]
    refine ⟨by simp [hid], ?_⟩
    rw [decomposePid_compose, decomposeTid_compose]
    unfold HolderGone
    split
    · exact hdead
    · rename_i hneg
      rcases hfd with h | ⟨e, h⟩
      · exact absurd h hneg
      · simp only [h]
        split
        · exact hdead
        · trivial
  · rw [C12_verdict_exact os hos (.thread (composeFlckpid pid tid) 0#64) trivial]
    refine ⟨hid, ?_⟩
    rw [decomposePid_compose, decomposeTid_compose]
    exact hdead

example : (askOne exampleOs none (.locker eaccessDI (composeFlckpid 7#32 55#32) (noFd 0#32)
    (0#64, 0xFFFFFFFF#32))).1 = true := by decide

/-- C10/C11 (name spaces): the lock object addressed through the caller's descriptor is the pair
(device, inode) of the open file, whatever the descriptor number; a descriptor-less number always
addresses the one pair (-1, -1), whatever the number. -/
theorem C11_name_space (fstat : BitVec 32 → Option DevIno) (n : BitVec 32) :
    ownDevNode fstat (noFd n) = some eaccessDI ∧
    (∀ fd : BitVec 32, 0 ≤ fd.toInt → ownDevNode fstat fd = fstat fd) ∧
    (∀ fd : BitVec 32, 0 ≤ fd.toInt → fstat fd ≠ some eaccessDI →
      ownDevNode fstat fd ≠ ownDevNode fstat (noFd n)) := by
  have h1 : ownDevNode fstat (noFd n) = some eaccessDI := by
    simp [ownDevNode, isNoFd_noFd]
  have h2 : ∀ fd : BitVec 32, 0 ≤ fd.toInt → ownDevNode fstat fd = fstat fd := by
    intro fd h
    have : isNoFd fd = false := by
      cases h' : isNoFd fd
      · rfl
      · have := (isNoFd_iff fd).mp h'; omega
    simp [ownDevNode, this]
  refine ⟨h1, h2, ?_⟩
  intro fd h hne
  rw [h1, h2 fd h]
  exact hne

example : ownDevNode (fun _ => some (1#64, 2#64)) (noFd 5#32) = some eaccessDI ∧
    ownDevNode (fun _ => some (1#64, 2#64)) 5#32 = some (1#64, 2#64) := by decide

end Fullock.Props
