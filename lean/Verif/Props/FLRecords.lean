import Verif.Props.FLCalls
import Mathlib.Data.List.Perm.Basic
import Mathlib.Data.List.Nodup
/-! Records of the segment (C08), sweeps of dead holders (C12) and recovery after crashes (C15). -/
namespace Fullock.Props
open Spec FL
set_option synthInstance.maxSize 10000

/-! C08 -/

/-- Range records attached to listed files. -/
def attachedOffs (m : Mem) : List Nat := m.files.flatMap m.offs

/-- Locker records attached to range records of listed files. -/
def attachedLks (m : Mem) : List Nat :=
  m.files.flatMap fun f => (m.offs f).flatMap fun o => m.lks o .rd ++ m.lks o .wr

/-- C08 (never twice): in every reachable state, whatever deaths occurred, no record occurs twice in
the free lists and the lists below the listed files. -/
theorem C08_never_twice (A : State → Ev → Prop) (s : State) (hr : Reach A s) :
    (s.mem.ffree ++ s.mem.files).Nodup ∧ (s.mem.ofree ++ attachedOffs s.mem).Nodup ∧
      (s.mem.lfree ++ attachedLks s.mem).Nodup := by
  have h := (reach_sinv hr).sok
  refine ⟨?_, ?_, ?_⟩
  · exact List.nodup_append.mpr ⟨h.ffreeNd, h.filesNd,
      fun a ha b hb e => h.fdisj a ha (e ▸ hb)⟩
  · refine List.nodup_append.mpr ⟨h.ofreeNd, ?_, ?_⟩
    · refine List.nodup_flatMap.mpr ⟨fun f _ => h.offsNd f, ?_⟩
      refine h.filesNd.imp_of_mem ?_
      intro f f' _ _ hne o ho ho'
      exact hne (h.offsDisj f f' o ho ho')
    · intro a ha b hb e
      obtain ⟨f, _, ho⟩ := List.mem_flatMap.mp hb
      exact h.odisj a ha f (e ▸ ho)
  · refine List.nodup_append.mpr ⟨h.lfreeNd, ?_, ?_⟩
    · refine List.nodup_flatMap.mpr ⟨fun f _ => ?_, ?_⟩
      · refine List.nodup_flatMap.mpr ⟨fun o _ => ?_, ?_⟩
        · exact List.nodup_append.mpr ⟨h.lksNd o .rd, h.lksNd o .wr, fun a ha b hb e => by
            have := (h.lksDisj o .rd o .wr a ha (e ▸ hb)).2
            exact absurd this (by decide)⟩
        · refine (h.offsNd f).imp_of_mem ?_
          intro o o' _ _ hne l hl hl'
          rcases List.mem_append.mp hl with a | a <;> rcases List.mem_append.mp hl' with b | b <;>
            exact hne (h.lksDisj _ _ _ _ l a b).1
      · refine h.filesNd.imp_of_mem ?_
        intro f f' _ _ hne l hl hl'
        obtain ⟨o, ho, hl⟩ := List.mem_flatMap.mp hl
        obtain ⟨o', ho', hl'⟩ := List.mem_flatMap.mp hl'
        have : o = o' := by
          rcases List.mem_append.mp hl with a | a <;> rcases List.mem_append.mp hl' with b | b <;>
            exact (h.lksDisj _ _ _ _ l a b).1
        subst this
        exact hne (h.offsDisj f f' o ho ho')
    · intro a ha b hb e
      subst e
      obtain ⟨f, _, hl⟩ := List.mem_flatMap.mp hb
      obtain ⟨o, _, hl⟩ := List.mem_flatMap.mp hl
      rcases List.mem_append.mp hl with c | c <;> exact h.ldisj a ha _ _ c

theorem from_kept {nf no nl : Nat} {s : State} (h : From noDeath nf no nl s) : Kept nf no nl s := by
  induction h with
  | init junk =>
    refine ⟨⟨?_, ?_, ?_, ?_, ?_, ?_⟩, ?_, ?_⟩ <;> simp [FL.init, FileIn, LockerIn]
    intro l hl
    exact Or.inl hl
  | step h ha hs ih => exact kept_step (reach_sinv (from_reach h)) ih ha hs

/-- C08 as stated, for quiet states without deaths. -/
def C08_full : Prop :=
  ∀ nf no nl s, From noDeath nf no nl s → (∀ u, ∃ r, s.pc u = .done r) →
    (s.mem.ffree ++ s.mem.files).Perm (List.range nf) ∧
    (s.mem.ofree ++ attachedOffs s.mem).Perm (List.range no) ∧
    (s.mem.lfree ++ attachedLks s.mem).Perm (List.range nl)

/-- Thread 2 holds [0,10), thread 3 holds [20,30) of file X; thread 1's timed request for [0,10)
expires; before it has cleaned up, thread 2 unlocks (the range record stays because thread 1 is
listed); thread 1 removes its locker; thread 3 unlocks and releases the file record with the range
record of [0,10) still below it; thread 4 locks file Y and gets that file record.  When all calls
have returned, the range record 0 is nowhere any more. -/
def esLeak : List Ev :=
  lockBy 2 (mkOp 3 kX rA .wr .block) ++ lockBy 3 (mkOp 3 kX rB .wr .block) ++
  [.call 1 (.lock (mkOp 3 kX rA .wr .timed))] ++ alone 1 7 ++ [.go 1 .limit] ++
  unlockBy 2 (mkOp 3 kX rA .wr .block) ++ alone 1 3 ++
  unlockBy 3 (mkOp 3 kX rB .wr .block) ++
  lockBy 4 (mkOp 3 kY rB .wr .block) ++ alone 1 6

theorem from_all {A : State → Ev → Prop} {ok : Ev → Bool} (hok : ∀ e, ok e = true → ∀ s, A s e)
    {nf no nl : Nat} {junk : Mem} {es : List Ev} {s : State} (h : run (init nf no nl junk) es = some s)
    (hall : es.all ok = true) : From A nf no nl s := by
  have key : ∀ (es : List Ev) (s0 : State), From A nf no nl s0 → es.all ok = true →
      run s0 es = some s → From A nf no nl s := by
    intro es
    induction es with
    | nil => intro s0 h0 _ h; simp [run] at h; exact h ▸ h0
    | cons e es ih =>
      intro s0 h0 ha h
      simp only [List.all_cons, Bool.and_eq_true] at ha
      simp only [run] at h
      cases hst : step s0 e with
      | none => rw [hst] at h; simp at h
      | some s1 =>
        rw [hst] at h
        exact ih s1 (.step h0 (hok e ha.1 s0) hst) ha.2 h
  exact key es _ (.init junk) hall h

theorem C08_not_full : ¬ C08_full := by
  intro h
  obtain ⟨s, hs, ho⟩ := run_case (s0 := init 2 4 8 junk0) (es := esLeak)
    (fun s => ((thr 5 s).map (fun x => match x.1 with | .done _ => true | _ => false), s.mem.ofree,
      attachedOffs s.mem))
    (List.replicate 5 true, [2, 3], [1]) (by decide +kernel)
  simp only [Prod.mk.injEq] at ho
  obtain ⟨h1, h2, h3⟩ := ho
  have hq : ∀ u, ∃ r, s.pc u = .done r := by
    refine rest_case hs 5 (by decide +kernel) (Q := fun p _ => ∃ r, p = .done r) ⟨0, rfl⟩ ?_
    intro u hu
    have : (match s.pc u with | .done _ => true | _ => false) = true := by
      have hm : (match s.pc u with | .done _ => true | _ => false) ∈ List.replicate 5 true := by
        rw [← h1]
        exact List.mem_map.mpr ⟨_, thr_get rfl hu, rfl⟩
      exact List.eq_of_mem_replicate hm
    cases hp : s.pc u <;> rw [hp] at this <;> first | exact ⟨_, rfl⟩ | cases this
  have := (h 2 4 8 s (from_all (fun _ h s => (evRX_ok h s).2.1) hs (by decide +kernel)) hq).2.1
  rw [h2, h3] at this
  exact absurd this.length_eq (by decide)

/-- C08 (partial): without deaths, in every state of every interleaving, each file record and each
locker record is in exactly one place: free, listed, or attached to exactly one range record of a
listed file.  Missing: range records (`C08_not_full`). -/
theorem C08_conserved_partial (nf no nl : Nat) (s : State) (hr : From noDeath nf no nl s) :
    (s.mem.ffree ++ s.mem.files).Perm (List.range nf) ∧
    (s.mem.lfree ++ attachedLks s.mem).Perm (List.range nl) := by
  have hk := from_kept hr
  have hn := C08_never_twice _ s (from_reach hr)
  refine ⟨(List.perm_ext_iff_of_nodup hn.1 List.nodup_range).mpr ?_,
    (List.perm_ext_iff_of_nodup hn.2.2 List.nodup_range).mpr ?_⟩
  · intro f
    rw [List.mem_append, List.mem_range]
    exact ⟨fun h => h.elim (hk.bnd.ff f) (hk.bnd.fs f), fun h => hk.files f h⟩
  · intro l
    rw [List.mem_append, List.mem_range]
    constructor
    · rintro (h | h)
      · exact hk.bnd.lf l h
      · obtain ⟨f, _, hl⟩ := List.mem_flatMap.mp h
        obtain ⟨o, _, hl⟩ := List.mem_flatMap.mp hl
        rcases List.mem_append.mp hl with c | c <;> exact hk.bnd.ls _ _ l c
    · intro h
      rcases hk.lockers l h with a | ⟨f, o, md, a⟩
      · exact Or.inl a
      · refine Or.inr (List.mem_flatMap.mpr ⟨f, a.1, List.mem_flatMap.mpr ⟨o, a.2.1, ?_⟩⟩)
        cases md
        · exact List.mem_append_left _ a.2.2
        · exact List.mem_append_right _ a.2.2

/-- Nobody dies and unlock calls do not release file records. -/
def keepFiles (s : State) (e : Ev) : Prop := noDeath s e ∧ KeepFd e

/-- C08 (partial): if unlock calls keep the file records (free unit mode FREE_NO or FREE_OFFSET), the
range records are conserved too, in every state of every interleaving without deaths. -/
theorem C08_ranges_conserved_partial (nf no nl : Nat) (s : State) (hr : From keepFiles nf no nl s) :
    (s.mem.ofree ++ attachedOffs s.mem).Perm (List.range no) := by
  have hu : KeptU no s := by
    induction hr with
    | init junk => exact ⟨fun o ho => Or.inl (by simpa [FL.init] using ho), by simp [FL.init, uop]⟩
    | step h ha hs ih => exact keptU_step (reach_sinv (from_reach h)) ih ha.1 ha.2 hs
  have hb := from_bnd hr
  refine (List.perm_ext_iff_of_nodup (C08_never_twice _ s (from_reach hr)).2.1 List.nodup_range).mpr ?_
  intro o
  rw [List.mem_append, List.mem_range]
  constructor
  · rintro (h | h)
    · exact hb.of o h
    · obtain ⟨f, _, ho⟩ := List.mem_flatMap.mp h
      exact hb.os f o ho
  · intro h
    rcases hu.units o h with a | ⟨f, a, b⟩
    · exact Or.inl a
    · exact Or.inr (List.mem_flatMap.mpr ⟨f, a, b⟩)

/-- C08: a lock call comes to return ENOLCK only at a moment when a pool it needs is really empty:
its file is not listed and no file record is free, or its range is not listed and no range record is
free, or no locker record is free.  In every interleaving. -/
theorem C08_enolck_only_when_empty (m : Mem) (alive : Nat → Bool) (t : Nat) (p : Pc) (c : Choice)
    (as : List Act) (p' : Pc) (h : plan m alive t p c = some (as, p')) (he : code p' = some ENOLCK) :
    code p = some ENOLCK ∨ (∃ op, p = .lFile op ∧ (∀ f ∈ m.files, m.key f ≠ op.key) ∧ m.ffree = []) ∨
      (∃ op f, p = .lOff op f ∧ (∀ o ∈ m.offs f, hits op.rng (m.rng o) ≠ true) ∧ m.ofree = []) ∨
      (∃ op f o, p = .lLk op f o ∧ m.lfree = []) := plan_enolck h he

/-- Scenario 1 has all kinds of records free and attached. -/
example : ∃ s, From noDeath 2 4 8 s ∧ s.mem.files.length = 1 ∧ (attachedOffs s.mem).length = 2 ∧
    (attachedLks s.mem).length = 3 := by
  obtain ⟨s, hs, ho⟩ := run_case (s0 := init 2 4 8 junk0) (es := es1)
    (fun s => (s.mem.files.length, (attachedOffs s.mem).length, (attachedLks s.mem).length))
    (1, 2, 3) (by decide +kernel)
  simp only [Prod.mk.injEq] at ho
  exact ⟨s, from_all (fun _ h s => (evRX_ok h s).2.1) hs (by decide +kernel), ho⟩

/-- A history with unlocks that keep the file record. -/
example : ∃ s, From keepFiles 2 4 8 s ∧ s.mem.files = [0] ∧ attachedOffs s.mem = [] := by
  let op : Op := ⟨3, kX, rA, .wr, .block, true, false⟩
  obtain ⟨s, hs, ho⟩ := run_case (s0 := init 2 4 8 junk0) (es := lockBy 1 op ++ unlockBy 1 op)
    (fun s => (s.mem.files, attachedOffs s.mem)) ([0], []) (by decide +kernel)
  simp only [Prod.mk.injEq] at ho
  refine ⟨s, from_all (ok := fun e => match e with
    | .call _ (.unlock op) => !op.freeFd
    | .die .. => false
    | _ => true) ?_ hs (by decide +kernel), ho⟩
  intro e h s
  cases e with
  | call t c =>
    cases c with
    | unlock op => exact ⟨trivial, by simpa [KeepFd] using h⟩
    | _ => exact ⟨trivial, trivial⟩
  | go t c => exact ⟨trivial, trivial⟩
  | die t c k => cases h

/-! C12 -/

/-- C12: a sweep call made while the other threads are outside or waiting returns; afterwards no
record of a dead holder is attached to any listed file, exactly the locks of dead threads have been
released, all locks of live threads are still in force.  From every reachable state (any deaths at
any place, any number of dead and live holders in any order). -/
theorem C12_sweep_releases_dead (A : State → Ev → Prop) (s : State) (hr : Reach A s) (t : Nat)
    (ht : t ≠ 0) (hal : s.alive t = true) (r : Nat) (hpc : s.pc t = .done r) (hid : OthersIdle s t) :
    ∃ (cs : List Choice) (s' : State), run s (.call t .sweep :: cs.map (.go t ·)) = some s' ∧ s'.pc t = .done 0 ∧
      s'.lockid = 0 ∧ s'.alive = s.alive ∧ (∀ u, u ≠ t → s'.pc u = s.pc u) ∧
      (∀ f ∈ s'.mem.files, ∀ o ∈ s'.mem.offs f, ∀ md, ∀ l ∈ s'.mem.lks o md,
        s.alive (s'.mem.ltid l) = true) ∧
      (∀ x, x ∈ s'.mem.outs ↔ x ∈ s.mem.outs ∧ s.alive x.2.t = true) := by
  obtain ⟨cs, s', h1, h2, h3, h4⟩ := sweep_call (reach_sinv hr) (reach_csIff hr) ht hal hpc hid
  refine ⟨cs, s', h1, ?_, ?_, ?_, ?_, h3, h4⟩
  · rw [h2]; simp
  · rw [h2]
  · rw [h2]
  · intro u hu; rw [h2]; exact fset_pc_other hu

/-- C12: the check made by a waiter (high robust mode) on the range record it waits at: it reaches a
state where no dead thread is attached to that record, and no lock of a live thread is lost. -/
theorem C12_waiter_releases_dead (A : State → Ev → Prop) (s : State) (hr : Reach A s) (t : Nat)
    (hal : s.alive t = true) (op : Op) (f o l : Nat) (hpc : s.pc t = .rChk op f o l) :
    ∃ (cs : List Choice) (s' : State), run s (cs.map (.go t ·)) = some s' ∧ s'.pc t = .rChk op f o l ∧ s'.alive = s.alive ∧
      (∀ md, ∀ l ∈ s'.mem.lks o md, s.alive (s'.mem.ltid l) = true) ∧
      (∀ x ∈ s'.mem.outs, x ∈ s.mem.outs) ∧
      (∀ x ∈ s.mem.outs, s.alive x.2.t = true → x ∈ s'.mem.outs) := by
  obtain ⟨a, b, c, d⟩ := waiterCheck_spec hal hpc (reach_sinv hr)
  obtain ⟨cs, h⟩ := stay_run a
  exact ⟨cs, _, h, hpc, rfl, b, c, d⟩

/-! C15 -/

theorem reach_go_run {R : DevIno → Rng → Prop} {t : Nat} : ∀ {cs : List Choice} {s s' : State},
    Reach (softIn R) s → run s (cs.map (.go t ·)) = some s' → Reach (softIn R) s'
  | [], s, s', hr, h => by simp [run] at h; exact h ▸ hr
  | c :: cs, s, s', hr, h => by
    simp only [List.map_cons, run] at h
    cases hs : step s (.go t c) with
    | none => rw [hs] at h; simp at h
    | some s1 =>
      rw [hs] at h
      exact reach_go_run (.step (e := .go t c) hr ⟨trivial, trivial⟩ hs) h

/-- C15 (partial): after any deaths outside the three windows, a sweep followed by a fresh request
grants it if only no *live* holder excludes it, whatever dead threads left behind (provided the
sweep leaves the records it needs available).  Missing: deaths inside the windows
(`C15_not_full`). -/
theorem C15_recovered_partial (R : DevIno → Rng → Prop) (hR : Clustered R) (s : State)
    (hr : Reach (softIn R) s) (t : Nat) (ht : t ≠ 0) (hal : s.alive t = true) (r : Nat)
    (hpc : s.pc t = .done r) (hid : OthersIdle s t) (op : Op) (hop : R op.key op.rng)
    (hok : ∀ x ∈ s.mem.outs, s.alive x.2.t = true → x.2.key = op.key → Overlap x.2.rng op.rng →
      x.2.mode = .rd ∧ op.mode = .rd) :
    ∃ (cs : List Choice) (s' : State), run s (.call t .sweep :: cs.map (.go t ·)) = some s' ∧ s'.pc t = .done 0 ∧
      (∀ x, x ∈ s'.mem.outs ↔ x ∈ s.mem.outs ∧ s.alive x.2.t = true) ∧
      (Room s'.mem op → ∃ s'' l, Returns s' t (.lock op) 9 0 s'' ∧
        s''.mem.outs = (l, ⟨t, op.fd, op.key, op.rng, op.mode⟩) :: s'.mem.outs) := by
  obtain ⟨cs, s', h1, h2, h3, h4, h5, h6, h7⟩ :=
    C12_sweep_releases_dead _ s hr t ht hal r hpc hid
  refine ⟨cs, s', h1, h2, h7, ?_⟩
  intro hroom
  have hr' : Reach (softIn R) s' := by
    simp only [run] at h1
    cases hs : step s (.call t .sweep) with
    | none => rw [hs] at h1; simp at h1
    | some s1 =>
      rw [hs] at h1
      exact reach_go_run (.step (e := .call t .sweep) hr ⟨trivial, trivial⟩ hs) h1
  obtain ⟨s'', l, a, b, _⟩ := C55_granted_in_nine_steps R hR s' hr' t ht (h4 ▸ hal) 0 h2 (by
      intro u hu ha
      rw [h5 u hu]
      exact hid u hu (h4 ▸ ha)) op hop hroom (by
      intro x hx hk ho
      have := (h7 x).mp hx
      exact hok x this.1 this.2 hk ho)
  exact ⟨s'', l, a, b⟩

/-- C15 (partial), for a request that is already waiting: after a sweep by another thread the next
attempt succeeds if no live holder excludes it. -/
theorem C15_waiter_recovered_partial (R : DevIno → Rng → Prop) (hR : Clustered R) (s : State)
    (hr : Reach (softIn R) s) (t u : Nat) (ht : t ≠ 0) (hal : s.alive t = true) (r : Nat)
    (hpc : s.pc t = .done r) (hid : OthersIdle s t) (hu : u ≠ t) (hua : s.alive u = true) (op : Op)
    (f o l : Nat) (hup : s.pc u = .spin op f o l)
    (hok : ∀ x ∈ s.mem.outs, s.alive x.2.t = true → x.2.key = op.key → Overlap x.2.rng op.rng →
      x.2.mode = .rd ∧ op.mode = .rd) :
    ∃ (cs : List Choice) (s' : State), run s (.call t .sweep :: cs.map (.go t ·) ++ alone u 2) = some s' ∧ s'.pc u = .done 0 ∧
      (l, ⟨u, op.fd, op.key, op.rng, op.mode⟩) ∈ s'.mem.outs := by
  obtain ⟨cs, s', h1, h2, h3, h4, h5, h6, h7⟩ :=
    C12_sweep_releases_dead _ s hr t ht hal r hpc hid
  have hr' : Reach (softIn R) s' := by
    have h1' := h1
    simp only [run] at h1'
    cases hs : step s (.call t .sweep) with
    | none => rw [hs] at h1'; simp at h1'
    | some s1 =>
      rw [hs] at h1'
      exact reach_go_run (.step (e := .call t .sweep) hr ⟨trivial, trivial⟩ hs) h1'
  obtain ⟨s'', a, b, c⟩ := C03_waiter_granted R hR s' hr' u (h4 ▸ hua) op f o l (by rw [h5 u hu]; exact hup)
    (by
      intro v hv ha
      by_cases e : v = t
      · subst e; exact Or.inl ⟨0, h2⟩
      · rw [h5 v e]
        rw [h4] at ha
        exact hid v e ha) (by
      intro x hx hk ho
      have := (h7 x).mp hx
      exact hok x this.1 this.2 hk ho)
  refine ⟨cs, s'', ?_, b, by rw [c]; exact List.mem_cons_self⟩
  rw [run_append, h1]
  exact a

/-- C15 as stated, for a waiting thread with everybody else outside, all dead holders swept, and no
lock in force: some sequence of own steps grants its request. -/
def C15_full : Prop :=
  ∀ R : DevIno → Rng → Prop, Separate R → ∀ s, Reach (fun _ e => lockIn R e) s →
    ∀ t op f o l, s.alive t = true → s.pc t = .spin op f o l →
      (∀ u, u ≠ t → s.alive u = true → ∃ r, s.pc u = .done r) →
      (∀ f ∈ s.mem.files, ∀ o ∈ s.mem.offs f, ∀ md, ∀ l ∈ s.mem.lks o md,
        s.alive (s.mem.ltid l) = true) → s.mem.outs = [] →
      ∃ (cs : List Choice) (s' : State), run s (cs.map (.go t ·)) = some s' ∧ s'.pc t = .done 0

/-- The state after `esStuck` as seen by thread 2: nothing it can do alone changes it. -/
structure Stuck (s : State) : Prop where
  alive : s.alive 2 = true
  word : s.mem.word 0 = -1
  rd : s.mem.lks 0 .rd = []
  wr : s.mem.lks 0 .wr = [1]
  tid : s.mem.ltid 1 = 2
  pc : s.pc 2 ∈ [Pc.spin (mkOp 3 kX rA .wr .block) 0 0 1, .acq (.rSet (mkOp 3 kX rA .wr .block) 0 0 1),
    .rSet (mkOp 3 kX rA .wr .block) 0 0 1, .rChk (mkOp 3 kX rA .wr .block) 0 0 1,
    .rel (.spin (mkOp 3 kX rA .wr .block) 0 0 1)]

theorem stuck_step {s s' : State} {c : Choice} (h : Stuck s) (hs : step s (.go 2 c) = some s') :
    Stuck s' := by
  obtain ⟨h1, h2, h3, h4, h5, h6⟩ := h
  simp only [List.mem_cons, List.not_mem_nil, or_false] at h6
  simp only [step, h1] at hs
  rcases h6 with e | e | e | e | e
  · rw [e] at hs
    cases c <;> simp [plan, mkOp, canTake, h2] at hs
    · subst hs
      exact ⟨h1, h2, h3, h4, h5, by simp [State.setPc, mkOp]⟩
    · subst hs
      exact ⟨h1, h2, h3, h4, h5, by simp [State.setPc, mkOp]⟩
  · rw [e] at hs
    simp only [Bool.true_eq_false, if_false] at hs
    split at hs
    · cases hs
      exact ⟨h1, h2, h3, h4, h5, by simp [State.setPc]⟩
    · cases hs
  · rw [e] at hs
    cases c <;> simp [plan] at hs
    subst hs
    exact ⟨h1, h2, h3, h4, h5, by simp [State.setPc, mkOp]⟩
  · rw [e] at hs
    cases c <;> simp [plan] at hs
    · subst hs
      exact ⟨h1, h2, h3, h4, h5, by simp [State.setPc, mkOp]⟩
    · rename_i o md l
      obtain ⟨⟨_, hm, hd⟩, _⟩ := hs
      cases md
      · rw [h3] at hm; cases hm
      · rw [h4] at hm
        simp only [List.mem_cons, List.not_mem_nil, or_false] at hm
        subst hm
        rw [h5, h1] at hd
        cases hd
  · rw [e] at hs
    simp only [Bool.true_eq_false, if_false] at hs
    cases hs
    exact ⟨h1, h2, h3, h4, h5, by simp [State.setPc]⟩

theorem stuck_run : ∀ {cs : List Choice} {s s' : State}, Stuck s →
    run s (cs.map (.go 2 ·)) = some s' → Stuck s'
  | [], s, s', h, hr => by simp [run] at hr; exact hr ▸ h
  | c :: cs, s, s', h, hr => by
    simp only [List.map_cons, run] at hr
    cases hs : step s (.go 2 c) with
    | none => rw [hs] at hr; simp at hr
    | some s1 =>
      rw [hs] at hr
      exact stuck_run (stuck_step h hs) hr

/-- Thread 1 is killed between its successful attempt on the lock word and setting its flag.  The
sweep removes its record without restoring the word; thread 2 waits for ever, although it is the
only one left. -/
theorem C15_not_full : ¬ C15_full := by
  intro h
  obtain ⟨s, hs, ho⟩ := run_case (s0 := init 2 4 8 junk0) (es := esStuck)
    (fun s => (thr 4 s, s.mem.outs, s.mem.files, s.mem.offs 0, s.mem.word 0, s.mem.lks 0 .rd,
      s.mem.lks 0 .wr, s.mem.ltid 1))
    ([(.done 0, true), (.spin (mkOp 3 kX rA .wr .block) 0 0 0, false),
      (.spin (mkOp 3 kX rA .wr .block) 0 0 1, true), (.done 0, true)], [], [0], [0], -1, [], [1], 2)
    (by decide +kernel)
  simp only [Prod.mk.injEq] at ho
  obtain ⟨h1, h2, h3, h4, h5, h6, h7, h8⟩ := ho
  have hr : Reach (fun _ e => lockIn RX e) s := by
    refine reach_all (ok := fun e => match e with
      | .call _ (.lock op) => op.rng = rA
      | _ => true) ?_ hs (by decide +kernel)
    intro e he s
    cases e with
    | call t c =>
      cases c with
      | lock op => exact Or.inl (by simpa using he)
      | _ => trivial
    | go t c => trivial
    | die t c k => trivial
  have e0 : s.pc 0 = .done 0 ∧ s.alive 0 = true ∧ s.pc 1 = .spin (mkOp 3 kX rA .wr .block) 0 0 0 ∧
      s.alive 1 = false ∧ s.pc 2 = .spin (mkOp 3 kX rA .wr .block) 0 0 1 ∧ s.alive 2 = true ∧
      s.pc 3 = .done 0 ∧ s.alive 3 = true := by
    simpa [thr, List.range_succ, and_assoc] using h1
  obtain ⟨a0, b0, a1, b1, a2, b2, a3, b3⟩ := e0
  have hq : ∀ u, u ≠ 2 → s.alive u = true → ∃ r, s.pc u = .done r := by
    intro u hu ha
    by_cases hlt : u < 4
    · have : u = 0 ∨ u = 1 ∨ u = 3 := by omega
      rcases this with rfl | rfl | rfl
      · exact ⟨0, a0⟩
      · rw [b1] at ha; cases ha
      · exact ⟨0, a3⟩
    · have ht : esStuck.all (fun e => decide (e.tid < 4)) = true := by decide +kernel
      have := idle_rest hs (u := u) (by
        intro e he
        have := List.all_eq_true.mp ht e he
        simp only [decide_eq_true_eq] at this
        omega)
      exact ⟨0, this.1⟩
  obtain ⟨cs, s', hrun, hd⟩ := h RX sepRX s hr 2 (mkOp 3 kX rA .wr .block) 0 0 1 b2 a2 hq (by
    intro f hf o ho md l hl
    rw [h3] at hf
    simp only [List.mem_cons, List.not_mem_nil, or_false] at hf
    subst hf
    rw [h4] at ho
    simp only [List.mem_cons, List.not_mem_nil, or_false] at ho
    subst ho
    cases md
    · rw [h6] at hl; cases hl
    · rw [h7] at hl
      simp only [List.mem_cons, List.not_mem_nil, or_false] at hl
      subst hl
      rw [h8]; exact b2) h2
  have := (stuck_run ⟨b2, h5, h6, h7, h8, by rw [a2]; simp⟩ hrun).pc
  rw [hd] at this
  simp at this

/-- A holder dies outside the windows, another thread holds another range and a third one waits:
the hypotheses of the recovery theorems are met. -/
def esDead : List Ev :=
  lockBy 1 (mkOp 3 kX rA .wr .block) ++ lockBy 3 (mkOp 3 kX rB .wr .block) ++
  [.call 2 (.lock (mkOp 3 kX rA .wr .block))] ++ alone 2 7 ++ [.die 1 .go 0]

example : ∃ s op f o l, Reach (softIn RX) s ∧ s.alive 4 = true ∧ s.pc 4 = .done 0 ∧ OthersIdle s 4 ∧
    s.alive 2 = true ∧ s.pc 2 = .spin op f o l ∧ s.alive 1 = false ∧ s.mem.outs.length = 2 ∧
    (∀ x ∈ s.mem.outs, s.alive x.2.t = true → x.2.key = op.key → Overlap x.2.rng op.rng →
      x.2.mode = .rd ∧ op.mode = .rd) ∧ ¬ Compatible s.mem op := by
  obtain ⟨s, hs, ho⟩ := run_case (s0 := init 2 4 8 junk0) (es := esDead)
    (fun s => (thr 5 s, s.mem.outs))
    ([(.done 0, true), (.done 0, false), (.spin (mkOp 3 kX rA .wr .block) 0 0 2, true), (.done 0, true),
      (.done 0, true)], [(1, out1 3 3 rB .wr), (0, out1 1 3 rA .wr)])
    (by decide +kernel)
  simp only [Prod.mk.injEq] at ho
  obtain ⟨h1, h2⟩ := ho
  have e0 : s.pc 0 = .done 0 ∧ s.alive 0 = true ∧ s.pc 1 = .done 0 ∧
      s.alive 1 = false ∧ s.pc 2 = .spin (mkOp 3 kX rA .wr .block) 0 0 2 ∧ s.alive 2 = true ∧
      s.pc 3 = .done 0 ∧ s.alive 3 = true ∧ s.pc 4 = .done 0 ∧ s.alive 4 = true := by
    simpa [thr, List.range_succ, and_assoc] using h1
  obtain ⟨a0, b0, a1, b1, a2, b2, a3, b3, a4, b4⟩ := e0
  have hpre : run (init 2 4 8 junk0) (lockBy 1 (mkOp 3 kX rA .wr .block) ++
      lockBy 3 (mkOp 3 kX rB .wr .block) ++ [.call 2 (.lock (mkOp 3 kX rA .wr .block))] ++ alone 2 7 ++
      [.die 1 .go 0]) = some s := hs
  rw [run_append] at hpre
  obtain ⟨s1, hs1, hp1⟩ := run_case (s0 := init 2 4 8 junk0)
    (es := lockBy 1 (mkOp 3 kX rA .wr .block) ++ lockBy 3 (mkOp 3 kX rB .wr .block) ++
      [.call 2 (.lock (mkOp 3 kX rA .wr .block))] ++ alone 2 7) (fun s => s.pc 1) (.done 0)
    (by decide +kernel)
  rw [hs1] at hpre
  have hst : step s1 (.die 1 .go 0) = some s := by
    simp only [Option.bind_some, run] at hpre
    cases hx : step s1 (.die 1 .go 0) with
    | none => rw [hx] at hpre; simp at hpre
    | some s2 => rw [hx] at hpre; simpa using hpre
  have hr : Reach (softIn RX) s := by
    refine .step (e := .die 1 .go 0) (reach_all (fun _ h s => (evRX_ok h s).1) hs1 (by decide +kernel))
      ⟨?_, trivial⟩ hst
    simp only [softDeath, hp1]
  have hq : OthersIdle s 4 := by
    intro u hu ha
    by_cases hlt : u < 4
    · have : u = 0 ∨ u = 1 ∨ u = 2 ∨ u = 3 := by omega
      rcases this with rfl | rfl | rfl | rfl
      · exact Or.inl ⟨0, a0⟩
      · rw [b1] at ha; cases ha
      · exact Or.inr ⟨_, _, _, _, a2⟩
      · exact Or.inl ⟨0, a3⟩
    · have ht : esDead.all (fun e => decide (e.tid < 4)) = true := by decide +kernel
      have := idle_rest hs (u := u) (by
        intro e he
        have := List.all_eq_true.mp ht e he
        simp only [decide_eq_true_eq] at this
        omega)
      exact Or.inl ⟨0, this.1⟩
  refine ⟨s, _, _, _, _, hr, b4, a4, hq, b2, a2, b1, by rw [h2]; rfl, ?_, ?_⟩
  · intro x hx ha _ hov
    rw [h2] at hx
    simp only [List.mem_cons, List.not_mem_nil, or_false] at hx
    rcases hx with rfl | rfl
    · exact absurd (overlap_symm hov) apartAB
    · rw [show (out1 1 3 rA .wr).t = 1 from rfl, b1] at ha; cases ha
  · intro hc
    have := hc (0, out1 1 3 rA .wr) (by simp [h2]) rfl (overlap_self saneA)
    exact absurd this.1 (by decide)

end Fullock.Props
