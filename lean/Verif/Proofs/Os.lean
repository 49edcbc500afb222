import Verif.Spec.Os
import Verif.Proofs.Ids
namespace Fullock
open Spec

theorem get_put (c : PidCache) (k k' : CacheKey) (v : CacheVal) :
    (c.put k v).get k' = if k' = k then some v else c.get k' := by
  unfold PidCache.put PidCache.get
  rw [List.lookup_cons]
  by_cases h : k' = k
  · simp [h]
  · rw [if_neg h]
    have : (k' == k) = false := by simp [h]
    rw [this]

/-- The ids that a device entry for this key must hold. -/
def devEntry (os : Os) (k : CacheKey) : DevIno :=
  let r := probeFd os k.pid k.tid k.fd
  if r.1 == 0 || r.1 == EACCES then r.2 else invalidDI

/-- Does the thread run? -/
def runs (os : Os) (pid tid : BitVec 32) : Bool :=
  match os.task pid tid with
  | .ok _ => true
  | .err _ => false

theorem runs_iff (os : Os) (pid tid : BitVec 32) : runs os pid tid = true ↔ ThreadSeen os pid tid := by
  unfold runs ThreadSeen
  split <;> rename_i h <;> simp [h]

/-- Invariant of a cache that never saw a device query for descriptor -1. -/
def CacheOk (os : Os) (c : Option PidCache) : Prop :=
  ∀ m, c = some m → ∀ k v, m.get k = some v →
    if k.fd = invalidHandle then v.isRun = runs os k.pid k.tid else v.di = devEntry os k

/-- Invariant of a cache with device queries only. -/
def DevOnly (os : Os) (c : Option PidCache) : Prop :=
  ∀ m, c = some m → ∀ k v, m.get k = some v → v.isRun = true ∧ v.di = devEntry os k

/-- Invariant while only threads are asked, after the device queries. -/
def RunSafe (os : Os) (c : Option PidCache) : Prop :=
  ∀ m, c = some m → ∀ k v, m.get k = some v → k.fd = invalidHandle →
    (v.isRun = false → runs os k.pid k.tid = false)

/-- Verdict computed from the ids only. -/
def verdictOf (file : DevIno) (found : Bool) (tg : DevIno) : Bool :=
  if !found then true
  else (tg.1 != eaccessDI.1 && tg.2 != eaccessDI.2) && (tg.1 != file.1 || tg.2 != file.2)

theorem ids_ne {a b : DevIno} : (a.1 != b.1 || a.2 != b.2) = true ↔ a ≠ b := by
  obtain ⟨a1, a2⟩ := a; obtain ⟨b1, b2⟩ := b
  simp only [ne_eq, Prod.mk.injEq, Bool.or_eq_true, bne_iff_ne]
  constructor
  · rintro (h | h) ⟨h1, h2⟩ <;> contradiction
  · intro h
    by_cases h1 : a1 = b1
    · right; exact fun h2 => h ⟨h1, h2⟩
    · left; exact h1

theorem invalid_ne_eaccess : invalidDI.1 ≠ eaccessDI.1 ∧ invalidDI.2 ≠ eaccessDI.2 := by decide

/-- The verdict from a fresh probe is exactly "gone", provided `os` never answers errno 0. -/
theorem probe_gone (os : Os) (file : DevIno) (pid tid fd : BitVec 32) (hf : file ≠ invalidDI)
    (h0 : os.task pid tid ≠ .err 0) (h0' : os.fd pid fd ≠ .err 0) :
    verdictOf file ((probeFd os pid tid fd).1 == 0 || (probeFd os pid tid fd).1 == EACCES)
      (probeFd os pid tid fd).2 = true ↔ HolderGone os file pid tid fd := by
  unfold probeFd HolderGone
  rw [show (13 : Nat) = EACCES from rfl]
  have hE : EACCES ≠ 0 := by decide
  have hi := invalid_ne_eaccess
  have hfi : invalidDI ≠ file := fun h => hf h.symm
  by_cases hn : isNoFd fd = true
  · rw [if_pos hn, if_pos ((isNoFd_iff fd).mp hn)]
    unfold ThreadSeen
    cases ht : os.task pid tid with
    | ok di => simp [verdictOf]
    | err e =>
      have he : e ≠ 0 := by rintro rfl; exact h0 ht
      simp only [verdictOf]
      by_cases hE : e = EACCES
      · have := (@ids_ne invalidDI file).mpr hfi
        subst hE
        simp [this, hi]
      · simp [he, hE]
  · have hn' : ¬ fd.toInt < 0 := fun h => hn ((isNoFd_iff fd).mpr h)
    rw [if_neg hn, if_neg hn']
    cases hfd : os.fd pid fd with
    | ok di =>
      have := @ids_ne di file
      have h13 : ¬ ((statFile (.ok di)).1 = EACCES) := by simp [statFile, EACCES]
      simp only [if_neg h13]
      simp only [statFile, verdictOf, beq_self_eq_true, Bool.true_or, Bool.not_true,
        Bool.false_eq_true, if_false, Bool.and_eq_true, this, and_assoc, bne_iff_ne, ne_eq]
    | err e =>
      have he : e ≠ 0 := by rintro rfl; exact h0' hfd
      by_cases hE : e = EACCES
      · subst hE
        simp only [statFile, if_true]
        unfold ThreadSeen
        cases ht : os.task pid tid with
        | ok di => simp [verdictOf]
        | err e2 =>
          have he2 : e2 ≠ 0 := by rintro rfl; exact h0 ht
          simp only [verdictOf]
          by_cases hE2 : e2 = EACCES
          · have := (@ids_ne invalidDI file).mpr hfi
            subst hE2
            simp [this, hi]
          · simp [he2, hE2]
      · simp only [statFile, if_neg hE, verdictOf]
        simp [he, hE]

/-- A cached entry gives the same verdict as a fresh probe. -/
theorem cached_verdict (os : Os) (file : DevIno) (k : CacheKey) (hf : file ≠ invalidDI) :
    verdictOf file (!(devEntry os k == invalidDI)) (devEntry os k) =
    verdictOf file ((probeFd os k.pid k.tid k.fd).1 == 0 || (probeFd os k.pid k.tid k.fd).1 == EACCES)
      (probeFd os k.pid k.tid k.fd).2 := by
  have hi := invalid_ne_eaccess
  have hfi : invalidDI ≠ file := fun h => hf h.symm
  have hv : ∀ b, verdictOf file b invalidDI = true := by
    intro b
    have := (@ids_ne invalidDI file).mpr hfi
    cases b <;> simp [verdictOf, this, hi]
  unfold devEntry
  generalize hr : probeFd os k.pid k.tid k.fd = r
  obtain ⟨e, tg⟩ := r
  by_cases hg : (e == 0 || e == EACCES) = true
  · simp only [hg, if_true]
    by_cases ht : tg = invalidDI
    · subst ht; rw [hv, hv]
    · have : (tg == invalidDI) = false := by simp [ht]
      rw [this]; rfl
  · simp only [hg]
    simp [verdictOf]

theorem lockerDead_verdict (os : Os) (file : DevIno) (holder : FlckPid) (fd : BitVec 32)
    (c : Option PidCache) (ex : FlckPid × BitVec 32)
    (hf : file ≠ invalidDI)
    (hc : ∀ m v, c = some m →
      m.get ⟨decomposePid holder, decomposeTid holder, fd⟩ = some v →
      v.di = devEntry os ⟨decomposePid holder, decomposeTid holder, fd⟩) :
    (lockerDead os file holder fd c ex).1 =
      (!decide (holder = ex.1 ∧ fd = ex.2) &&
        verdictOf file ((probeFd os (decomposePid holder) (decomposeTid holder) fd).1 == 0 ||
          (probeFd os (decomposePid holder) (decomposeTid holder) fd).1 == EACCES)
          (probeFd os (decomposePid holder) (decomposeTid holder) fd).2) := by
  unfold lockerDead
  by_cases hx : holder = ex.1 ∧ fd = ex.2
  · rw [if_pos hx]; simp [hx]
  · rw [if_neg hx]
    simp only [hx, decide_false, Bool.not_false, Bool.true_and]
    unfold getFileDevNode
    cases hm : c.bind (·.get ⟨decomposePid holder, decomposeTid holder, fd⟩) with
    | none =>
      simp only [hm, verdictOf]
      split <;> rfl
    | some v =>
      obtain ⟨m, rfl, hget⟩ : ∃ m, c = some m ∧ m.get _ = some v := by
        cases c with
        | none => simp at hm
        | some m => exact ⟨m, rfl, by simpa using hm⟩
      have hv := hc m v rfl hget
      have hcv := cached_verdict os file ⟨decomposePid holder, decomposeTid holder, fd⟩ hf
      simp only at hcv
      rw [← hcv]
      simp only [hm, verdictOf, hv]
      split <;> rfl

theorem threadDead_verdict (os : Os) (holder : FlckPid) (c : Option PidCache) (ex : FlckPid)
    (hc : ∀ m v, c = some m →
      m.get ⟨decomposePid holder, decomposeTid holder, invalidHandle⟩ = some v →
      v.isRun = runs os (decomposePid holder) (decomposeTid holder)) :
    (threadDead os holder c ex).1 =
      (!decide (holder = ex) && !runs os (decomposePid holder) (decomposeTid holder)) := by
  unfold threadDead
  by_cases hx : holder = ex
  · rw [if_pos hx]; simp [hx]
  · rw [if_neg hx]
    simp only [hx, decide_false, Bool.not_false, Bool.true_and]
    unfold findThreadProcess
    cases hm : c.bind (·.get ⟨decomposePid holder, decomposeTid holder, invalidHandle⟩) with
    | none => simp only [hm]; rfl
    | some v =>
      obtain ⟨m, rfl, hget⟩ : ∃ m, c = some m ∧ m.get _ = some v := by
        cases c with
        | none => simp at hm
        | some m => exact ⟨m, rfl, by simpa using hm⟩
      simp only [hm, hc m v rfl hget]

/-- The cache after a device query: unchanged, or with the right device entry added. -/
theorem lockerDead_cache (os : Os) (file : DevIno) (holder : FlckPid) (fd : BitVec 32)
    (c : Option PidCache) (ex : FlckPid × BitVec 32) :
    (lockerDead os file holder fd c ex).2 = c ∨
    (lockerDead os file holder fd c ex).2 =
      c.map (·.put ⟨decomposePid holder, decomposeTid holder, fd⟩
        ⟨devEntry os ⟨decomposePid holder, decomposeTid holder, fd⟩, true⟩) := by
  unfold lockerDead
  by_cases hx : holder = ex.1 ∧ fd = ex.2
  · rw [if_pos hx]; left; rfl
  · rw [if_neg hx]
    unfold getFileDevNode
    cases hm : c.bind (·.get ⟨decomposePid holder, decomposeTid holder, fd⟩) with
    | some v => left; simp only [hm]; split <;> rfl
    | none =>
      right
      simp only [hm, devEntry]
      split <;> split <;> rfl

theorem threadDead_cache (os : Os) (holder : FlckPid) (c : Option PidCache) (ex : FlckPid) :
    (threadDead os holder c ex).2 = c ∨
    (threadDead os holder c ex).2 =
      c.map (·.put ⟨decomposePid holder, decomposeTid holder, invalidHandle⟩
        ⟨invalidDI, runs os (decomposePid holder) (decomposeTid holder)⟩) := by
  unfold threadDead
  by_cases hx : holder = ex
  · rw [if_pos hx]; left; rfl
  · rw [if_neg hx]
    unfold findThreadProcess
    cases hm : c.bind (·.get ⟨decomposePid holder, decomposeTid holder, invalidHandle⟩) with
    | some v => left; simp only [hm]
    | none => right; simp only [hm]; rfl

theorem cacheOk_ask (os : Os) (c : Option PidCache) (q : Query) (h : CacheOk os c)
    (hq : ¬ q.minusOne) : CacheOk os (askOne os c q).2 := by
  cases q with
  | locker file holder fd ex =>
    have hfd : fd ≠ invalidHandle := hq
    rcases lockerDead_cache os file holder fd c ex with hh | hh
    · simp only [askOne, hh]; exact h
    · simp only [askOne, hh]
      intro m hm k v hk
      cases c with
      | none => simp at hm
      | some m0 =>
        simp only [Option.map_some, Option.some.injEq] at hm
        subst hm
        rw [get_put] at hk
        split at hk
        · rename_i hkk
          cases hk; subst hkk
          simp [hfd]
        · exact h m0 rfl k v hk
  | thread holder ex =>
    rcases threadDead_cache os holder c ex with hh | hh
    · simp only [askOne, hh]; exact h
    · simp only [askOne, hh]
      intro m hm k v hk
      cases c with
      | none => simp at hm
      | some m0 =>
        simp only [Option.map_some, Option.some.injEq] at hm
        subst hm
        rw [get_put] at hk
        split at hk
        · rename_i hkk
          cases hk; subst hkk
          simp
        · exact h m0 rfl k v hk

theorem devOnly_ask (os : Os) (c : Option PidCache) (file : DevIno) (holder : FlckPid)
    (fd : BitVec 32) (ex : FlckPid × BitVec 32) (h : DevOnly os c) :
    DevOnly os (askOne os c (.locker file holder fd ex)).2 := by
  rcases lockerDead_cache os file holder fd c ex with hh | hh
  · simp only [askOne, hh]; exact h
  · simp only [askOne, hh]
    intro m hm k v hk
    cases c with
    | none => simp at hm
    | some m0 =>
      simp only [Option.map_some, Option.some.injEq] at hm
      subst hm
      rw [get_put] at hk
      split at hk
      · rename_i hkk
        cases hk; subst hkk
        simp
      · exact h m0 rfl k v hk

theorem runSafe_ask (os : Os) (c : Option PidCache) (holder ex : FlckPid) (h : RunSafe os c) :
    RunSafe os (askOne os c (.thread holder ex)).2 := by
  rcases threadDead_cache os holder c ex with hh | hh
  · simp only [askOne, hh]; exact h
  · simp only [askOne, hh]
    intro m hm k v hk
    cases c with
    | none => simp at hm
    | some m0 =>
      simp only [Option.map_some, Option.some.injEq] at hm
      subst hm
      rw [get_put] at hk
      split at hk
      · rename_i hkk
        cases hk; subst hkk
        simp
      · exact h m0 rfl k v hk

theorem runSafe_verdict (os : Os) (c : Option PidCache) (holder ex : FlckPid) (h : RunSafe os c)
    (hv : (askOne os c (.thread holder ex)).1 = true) :
    Truth os (.thread holder ex) := by
  simp only [askOne, threadDead] at hv
  by_cases hx : holder = ex
  · rw [if_pos hx] at hv; simp at hv
  · rw [if_neg hx] at hv
    refine ⟨hx, ?_⟩
    rw [← runs_iff]
    simp only [findThreadProcess] at hv
    cases hm : c.bind (·.get ⟨decomposePid holder, decomposeTid holder, invalidHandle⟩) with
    | some v =>
      obtain ⟨m, rfl, hget⟩ : ∃ m, c = some m ∧ m.get _ = some v := by
        cases c with
        | none => simp at hm
        | some m => exact ⟨m, rfl, by simpa using hm⟩
      simp only [hm] at hv
      have := h m rfl _ v hget rfl (by simpa using hv)
      simp only at this
      simp [this]
    | none =>
      simp only [hm] at hv
      unfold runs
      split <;> rename_i ht <;> simp [ht] at hv ⊢

end Fullock
