import Verif.Props.FileLock
/-! Complete calls of one thread while the others are outside or waiting: what lock, unlock and
islocked return and change (C03, C04, C05, C06, C07, C09, C10, C33, C55). -/
namespace Fullock.Props
open Spec FL
set_option synthInstance.maxSize 10000

theorem soft_go (R : DevIno → Rng → Prop) (s : State) (t : Nat) : softIn R s (.go t .go) :=
  ⟨trivial, trivial⟩

/-! C03, C55: granted requests -/

/-- C55 (file locks), C06: a request (try, timed or blocking) that no lock in force excludes, and
for which records are available, is granted within nine steps of its own; exactly this lock comes
into force, all others stay.  For clustered ranges, any number of threads, other threads outside or
waiting, and any earlier deaths outside the three windows. -/
theorem C55_granted_in_nine_steps (R : DevIno → Rng → Prop) (hR : Clustered R) (s : State)
    (hr : Reach (softIn R) s) (t : Nat) (ht : t ≠ 0) (hal : s.alive t = true) (r : Nat)
    (hpc : s.pc t = .done r) (hid : OthersIdle s t) (op : Op) (hop : R op.key op.rng)
    (hroom : Room s.mem op) (hok : Compatible s.mem op) :
    ∃ s' l, Returns s t (.lock op) 9 0 s' ∧
      s'.mem.outs = (l, ⟨t, op.fd, op.key, op.rng, op.mode⟩) :: s.mem.outs ∧ s'.lockid = 0 :=
  lock_granted hR (fun _ _ h => h) (soft_go R) hr ht hal hpc hid ⟨trivial, hop⟩ hroom hok

/-- C03: as long as no write lock is in force on an overlapping range of the file, a read request is
granted at once, whatever number of readers hold the range, and all of them keep their locks. -/
theorem C03_readers_share (R : DevIno → Rng → Prop) (hR : Clustered R) (s : State)
    (hr : Reach (softIn R) s) (t : Nat) (ht : t ≠ 0) (hal : s.alive t = true) (r : Nat)
    (hpc : s.pc t = .done r) (hid : OthersIdle s t) (op : Op) (hop : R op.key op.rng)
    (hmode : op.mode = .rd) (hroom : Room s.mem op)
    (hnw : ∀ x ∈ s.mem.outs, x.2.key = op.key → Overlap x.2.rng op.rng → x.2.mode ≠ .wr) :
    ∃ s' l, Returns s t (.lock op) 9 0 s' ∧
      s'.mem.outs = (l, ⟨t, op.fd, op.key, op.rng, .rd⟩) :: s.mem.outs ∧ s'.lockid = 0 := by
  have := C55_granted_in_nine_steps R hR s hr t ht hal r hpc hid op hop hroom (by
    intro x hx hk ho
    refine ⟨?_, hmode⟩
    cases hm : x.2.mode with
    | rd => rfl
    | wr => exact absurd hm (hnw x hx hk ho))
  rwa [hmode] at this

/-- A third reader of [0,10) beside two others, while somebody writes in [20,30). -/
example : ∃ s op, Clustered RX ∧ Reach (softIn RX) s ∧ s.alive 4 = true ∧ s.pc 4 = .done 0 ∧
    OthersIdle s 4 ∧ RX op.key op.rng ∧ op.mode = .rd ∧ Room s.mem op ∧
    (∀ x ∈ s.mem.outs, x.2.key = op.key → Overlap x.2.rng op.rng → x.2.mode ≠ .wr) ∧
    ∃ x ∈ s.mem.outs, x.2.key = op.key ∧ Overlap x.2.rng op.rng := by
  obtain ⟨s, hs, hi, ho, h1, h2, h3, _⟩ := sc1
  refine ⟨s, mkOp 9 kX rA .rd .try_, separate_clustered sepRX, (sc1_reach hs).1, (hi 4).2, (hi 4).1,
    fun u _ _ => Or.inl ⟨0, (hi u).1⟩, Or.inl rfl, rfl,
    ⟨Or.inr (by rw [h1]; simp), Or.inr (by rw [h2]; simp), by rw [h3]; simp⟩, ?_, ?_⟩
  · intro x hx _ hov
    rw [ho] at hx
    simp only [List.mem_cons, List.not_mem_nil, or_false] at hx
    rcases hx with rfl | rfl | rfl
    · exact absurd (overlap_symm hov) apartAB
    · decide
    · decide
  · exact ⟨(0, out1 1 3 rA .rd), by simp [ho], rfl, overlap_self saneA⟩

/-- C03: a waiting read request whose writers are gone is granted by its next attempt. -/
theorem C03_waiter_granted (R : DevIno → Rng → Prop) (hR : Clustered R) (s : State)
    (hr : Reach (softIn R) s) (t : Nat) (hal : s.alive t = true) (op : Op) (f o l : Nat)
    (hpc : s.pc t = .spin op f o l) (hid : OthersIdle s t) (hok : Compatible s.mem op) :
    ∃ s', run s (alone t 2) = some s' ∧ s'.pc t = .done 0 ∧
      s'.mem.outs = (l, ⟨t, op.fd, op.key, op.rng, op.mode⟩) :: s.mem.outs := by
  have hc := (canTake_iff hR (reach_sinv hr) (reach_einv (fun _ _ h => h.1) hr) (reach_lo hr)
    (reach_rinv (fun _ _ h => h.2) hr) hal hpc hid).mpr hok
  have s1 : step s (.go t .go) = some (State.setPc { s with mem := s.mem.acts [.take o op.mode l] } t
      (.setf op f o l)) := by
    simp only [step, hal, hpc, plan, hc]; rfl
  refine ⟨State.setPc { s with
      mem := (Mem.acts (s.mem.acts [.take o op.mode l])
        [.flag l ⟨t, op.fd, op.key, op.rng, op.mode⟩]) } t (.done 0), ?_, by simp [State.setPc], rfl⟩
  simp only [alone, List.replicate, run, s1, Option.bind_some]
  simp only [step, State.setPc, hal, fset_same, plan, fset_fset]; rfl

/-! C04, C05: unlock -/

/-- C04 as stated, for all sane ranges, without deaths and interference: whoever holds a lock gets
it released by unlock with the same descriptor, file and range. -/
def C04_full : Prop :=
  ∀ s, Reach (fun s e => noDeath s e ∧ lockIn (fun _ r => SaneRange r) e) s →
    ∀ t r op x, t ≠ 0 → s.pc t = .done r → OthersIdle s t → x ∈ s.mem.outs → x.2.t = t →
      x.2.fd = op.fd → x.2.key = op.key → x.2.rng = op.rng →
      ∃ n s', Returns s t (.unlock op) n 0 s'

/-- Thread 1 holds [0,10), thread 3 locks [5,25) (granted at the record of [0,10)), then thread 2
locks [20,30) (a new record, listed in front); thread 3's unlock of [5,25) now finds the record of
[20,30), where it is not listed, and returns EINVAL: the lock cannot be released any more. -/
def esLost : List Ev :=
  lockBy 1 (mkOp 3 kX rA .rd .block) ++ lockBy 3 (mkOp 3 kX rC .rd .block) ++
  lockBy 2 (mkOp 3 kX rB .rd .block)

theorem run_det_return {s : State} {t : Nat} {es : List Ev} {s1 s' : State} {n r : Nat}
    (h1 : run s es = some s1) (hr : s1.pc t = .done r) (h : run s (es ++ alone t n) = some s')
    (hn : n ≠ 0) : False := by
  rw [run_append, h1] at h
  cases n with
  | zero => exact hn rfl
  | succ n =>
    simp only [alone, List.replicate_succ, run, Option.bind_some] at h
    have : step s1 (.go t .go) = none := by
      simp only [step, hr]
      split
      · rfl
      · simp [plan]
    rw [this] at h
    cases h

/-- A call that has returned `r` alone does not return anything else. -/
theorem returns_unique {s : State} {t : Nat} {c : Call} {n n' r r' : Nat} {s1 s2 : State}
    (h1 : Returns s t c n r s1) (h2 : Returns s t c n' r' s2) : n = n' ∧ r = r' ∧ s1 = s2 := by
  obtain ⟨a, b⟩ := h1
  obtain ⟨a', b'⟩ := h2
  have hlt : ∀ {n n' : Nat} {r : Nat} {s1 s2 : State}, run s (.call t c :: alone t n) = some s1 →
      s1.pc t = .done r → run s (.call t c :: alone t n') = some s2 → n' ≤ n := by
    intro n n' r s1 s2 h1 h2 h3
    by_contra hc
    have : Ev.call t c :: alone t n' = (Ev.call t c :: alone t n) ++ alone t (n' - n) := by
      simp only [alone, List.cons_append]
      rw [show n' = n + (n' - n) by omega, ← List.replicate_append_replicate]
      simp
    rw [this] at h3
    exact run_det_return h1 h2 h3 (by omega)
  have hn : n = n' := by
    have := hlt a b a'
    have := hlt a' b' a
    omega
  subst hn
  rw [a] at a'
  cases a'
  rw [b] at b'
  exact ⟨rfl, by simpa using b', rfl⟩

theorem C04_not_full : ¬ C04_full := by
  intro h
  obtain ⟨s, hs, ho⟩ := run_case (s0 := init 2 4 8 junk0) (es := esLost)
    (fun s => (thr 4 s, s.mem.outs,
      (run s (.call 3 (.unlock (mkOp 3 kX rC .rd .block)) :: alone 3 3)).map (fun s' => s'.pc 3)))
    (List.replicate 4 (.done 0, true),
      [(2, out1 2 3 rB .rd), (1, out1 3 3 rC .rd), (0, out1 1 3 rA .rd)], some (.done EINVAL))
    (by decide +kernel)
  simp only [Prod.mk.injEq] at ho
  obtain ⟨h1, h2, h3⟩ := ho
  have hr := reach_all (A := fun s e => noDeath s e ∧ lockIn (fun _ r => SaneRange r) e)
    (fun _ h s => evSane_ok h s) hs (by decide +kernel)
  have hq := rest_case hs 4 (by decide +kernel) (Q := fun p a => p = .done 0 ∧ a = true)
    ⟨rfl, rfl⟩ (fun u hu => by simpa using List.eq_of_mem_replicate (thr_get h1 hu))
  obtain ⟨n, s', hret⟩ := h s hr 3 0 (mkOp 3 kX rC .rd .block) (1, out1 3 3 rC .rd) (by decide)
    (hq 3).1 (fun u _ _ => Or.inl ⟨0, (hq u).1⟩) (by simp [h2]) rfl rfl rfl rfl
  cases he : run s (.call 3 (.unlock (mkOp 3 kX rC .rd .block)) :: alone 3 3) with
  | none => rw [he] at h3; simp at h3
  | some s2 =>
    rw [he] at h3
    have := returns_unique hret ⟨he, by simpa using h3⟩
    exact absurd this.2.1 (by decide)

/-- C04 (partial): for clustered ranges (any two of a cluster overlapping, different clusters
disjoint) and any deaths: whoever holds a lock on that range through that descriptor gets 0 from
unlock, within eight steps; exactly one lock ends, it is one of the caller's on that file through
that descriptor and on an overlapping range; all other locks stay.  Missing: ranges overlapping
without being clustered (`C04_not_full`). -/
theorem C04_unlock_partial (R : DevIno → Rng → Prop) (hR : Clustered R) (s : State)
    (hr : Reach (fun _ e => lockIn R e) s) (t : Nat) (ht : t ≠ 0) (hal : s.alive t = true) (r : Nat)
    (hpc : s.pc t = .done r) (hid : OthersIdle s t) (op : Op) (x : Nat × Out) (hx : x ∈ s.mem.outs)
    (hxt : x.2.t = t) (hxf : x.2.fd = op.fd) (hxk : x.2.key = op.key) (hxr : x.2.rng = op.rng) :
    ∃ s' y, Returns s t (.unlock op) 8 0 s' ∧ y ∈ s.mem.outs ∧ y.2.t = t ∧ y.2.fd = op.fd ∧
      y.2.key = op.key ∧ Overlap y.2.rng op.rng ∧ s.mem.outs.Perm (y :: s'.mem.outs) :=
  unlock_run hR (reach_sinv hr) (reach_csIff hr) (reach_rinv (fun _ _ h => h) hr) ht hal hpc hid hx
    hxt hxf hxk hxr

/-- C04 (partial): for ranges pairwise equal or disjoint the lock that ends is one on exactly the
given range. -/
theorem C04_unlock_exact_partial (R : DevIno → Rng → Prop) (hR : Separate R) (s : State)
    (hr : Reach (fun _ e => lockIn R e) s) (t : Nat) (ht : t ≠ 0) (hal : s.alive t = true) (r : Nat)
    (hpc : s.pc t = .done r) (hid : OthersIdle s t) (op : Op) (x : Nat × Out) (hx : x ∈ s.mem.outs)
    (hxt : x.2.t = t) (hxf : x.2.fd = op.fd) (hxk : x.2.key = op.key) (hxr : x.2.rng = op.rng) :
    ∃ s' y, Returns s t (.unlock op) 8 0 s' ∧ y ∈ s.mem.outs ∧ y.2.t = t ∧ y.2.fd = op.fd ∧
      y.2.key = op.key ∧ y.2.rng = op.rng ∧ s.mem.outs.Perm (y :: s'.mem.outs) := by
  obtain ⟨s', y, h1, h2, h3, h4, h5, h6, h7⟩ := C04_unlock_partial R (separate_clustered hR) s hr t ht
    hal r hpc hid op x hx hxt hxf hxk hxr
  refine ⟨s', y, h1, h2, h3, h4, h5, ?_, h7⟩
  have hrv := reach_rinv (R := R) (fun _ _ h => h) hr
  rcases hR.apart op.key y.2.rng op.rng (h5 ▸ hrv.held _ h2) (hxr ▸ hxk ▸ hrv.held _ hx) with e | e
  · exact e
  · exact absurd h6 e

/-- C05 as stated, read exactly: no lock of the caller on that range through that descriptor means
EINVAL. -/
def C05_full : Prop :=
  ∀ R : DevIno → Rng → Prop, Separate R →
    ∀ s, Reach (fun s e => noDeath s e ∧ lockIn R e) s →
    ∀ t r op, t ≠ 0 → s.pc t = .done r → OthersIdle s t → SaneRange op.rng →
      (∀ x ∈ s.mem.outs, x.2.t = t → x.2.fd = op.fd → x.2.key = op.key → x.2.rng ≠ op.rng) →
      ∃ n s', Returns s t (.unlock op) n EINVAL s' ∧ s'.mem.outs = s.mem.outs

/-- The owner of a lock on [0,10) unlocks [0,5): the call returns 0 and releases all of [0,10). -/
theorem C05_not_full : ¬ C05_full := by
  intro h
  obtain ⟨s, hs, ho⟩ := run_case (s0 := init 2 4 8 junk0) (es := lockBy 1 (mkOp 3 kX rA .wr .block))
    (fun s => (thr 2 s, s.mem.outs,
      (run s (.call 1 (.unlock (mkOp 3 kX rD .wr .block)) :: alone 1 8)).map
        (fun s' => (s'.pc 1, s'.mem.outs))))
    (List.replicate 2 (.done 0, true), [(0, out1 1 3 rA .wr)], some (.done 0, []))
    (by decide +kernel)
  simp only [Prod.mk.injEq] at ho
  obtain ⟨h1, h2, h3⟩ := ho
  have hr := reach_all (A := fun s e => noDeath s e ∧ lockIn RX e)
    (fun _ h s => ⟨(evRX_ok h s).2.1, (evRX_ok h s).1.2⟩) hs (by decide +kernel)
  have hq := rest_case hs 2 (by decide +kernel) (Q := fun p a => p = .done 0 ∧ a = true)
    ⟨rfl, rfl⟩ (fun u hu => by simpa using List.eq_of_mem_replicate (thr_get h1 hu))
  obtain ⟨n, s', hret, _⟩ := h RX sepRX s hr 1 0 (mkOp 3 kX rD .wr .block) (by decide)
    (hq 1).1 (fun u _ _ => Or.inl ⟨0, (hq u).1⟩) saneD (by
      intro x hx _ _ _
      rw [h2] at hx
      simp only [List.mem_cons, List.not_mem_nil, or_false] at hx
      subst hx; decide)
  cases he : run s (.call 1 (.unlock (mkOp 3 kX rD .wr .block)) :: alone 1 8) with
  | none => rw [he] at h3; simp at h3
  | some s2 =>
    rw [he] at h3
    simp only [Option.map_some, Option.some.injEq, Prod.mk.injEq] at h3
    have := returns_unique hret ⟨he, h3.1⟩
    exact absurd this.2.1 (by decide)

/-- C05 (partial): if the caller has no lock through that descriptor on any range of that file
overlapping the given one — the file may be unknown, the range unknown, or held by others or through
other descriptors — unlock returns EINVAL within three steps and changes nothing at all.  For ranges
in use pairwise equal or disjoint, any sane range given to unlock, any deaths.  Missing: the caller
holds an overlapping but different range (`C05_not_full`). -/
theorem C05_unlock_refused_partial (R : DevIno → Rng → Prop) (hR : Separate R) (s : State)
    (hr : Reach (fun _ e => lockIn R e) s) (t : Nat) (ht : t ≠ 0) (hal : s.alive t = true) (r : Nat)
    (hpc : s.pc t = .done r) (hid : OthersIdle s t) (op : Op) (hsane : SaneRange op.rng)
    (hno : ∀ x ∈ s.mem.outs, x.2.t = t → x.2.fd = op.fd → x.2.key = op.key →
      ¬ Overlap x.2.rng op.rng) :
    ∃ s', Returns s t (.unlock op) 3 EINVAL s' ∧ s'.mem = s.mem ∧ s'.lockid = 0 := by
  refine unlock_einval (separate_clustered hR) (reach_sinv hr) (reach_csIff hr)
    (reach_rinv (fun _ _ h => h) hr) ht hal hpc hid hsane ?_ hno
  intro r' u h1 h2 h3 h4
  rcases hR.apart _ r' u h1 h2 with e | e
  · rw [e]; exact h4
  · exact absurd h3 e

/-- The same for clustered ranges when the range given to unlock is one of those in use. -/
theorem C05_unlock_refused_clustered_partial (R : DevIno → Rng → Prop) (hR : Clustered R) (s : State)
    (hr : Reach (fun _ e => lockIn R e) s) (t : Nat) (ht : t ≠ 0) (hal : s.alive t = true) (r : Nat)
    (hpc : s.pc t = .done r) (hid : OthersIdle s t) (op : Op) (hop : R op.key op.rng)
    (hno : ∀ x ∈ s.mem.outs, x.2.t = t → x.2.fd = op.fd → x.2.key = op.key →
      ¬ Overlap x.2.rng op.rng) :
    ∃ s', Returns s t (.unlock op) 3 EINVAL s' ∧ s'.mem = s.mem ∧ s'.lockid = 0 :=
  unlock_einval hR (reach_sinv hr) (reach_csIff hr)
    (reach_rinv (fun _ _ h => h) hr) ht hal hpc hid (hR.sane _ _ hop)
    (fun r' u h1 h2 h3 h4 => hR.trans _ r' u _ h1 h2 hop h3 h4) hno

/-- In scenario 1 thread 2 may unlock its own lock; it has none through descriptor 3, none on
[20,30), and thread 4 has none. -/
example : ∃ s, Reach (fun _ e => lockIn RX e) s ∧ s.pc 2 = .done 0 ∧ s.alive 2 = true ∧ OthersIdle s 2 ∧
    (1, out1 2 4 rA .rd) ∈ s.mem.outs ∧ s.mem.outs.length = 3 ∧
    (∀ x ∈ s.mem.outs, x.2.t = 2 → x.2.fd = 3 → x.2.key = kX → ¬ Overlap x.2.rng rA) ∧
    (∀ x ∈ s.mem.outs, x.2.t = 2 → x.2.fd = 4 → x.2.key = kX → ¬ Overlap x.2.rng rB) := by
  obtain ⟨s, hs, hi, ho, _⟩ := sc1
  refine ⟨s, reach_mono (fun _ _ h => h.2) (sc1_reach hs).1, (hi 2).1, (hi 2).2,
    fun u _ _ => Or.inl ⟨0, (hi u).1⟩, by simp [ho], by rw [ho]; rfl, ?_, ?_⟩
  all_goals
    intro x hx h1 h2 _
    rw [ho] at hx
    simp only [List.mem_cons, List.not_mem_nil, or_false] at hx
    rcases hx with rfl | rfl | rfl
    all_goals first
      | exact absurd h1 (by decide)
      | exact absurd h2 (by decide)
      | exact apartAB

/-! C06, C07: refused requests -/

/-- C06 (file locks): a try call running alone returns 0 exactly when the request is compatible with
the locks in force, EBUSY exactly when it is not, provided the needed records are available, and
ENOLCK exactly when they are not (except that a request excluded by a lock in force is refused with
EBUSY whenever a locker record is free).  It never waits: it returns after finitely many own steps.
For clustered ranges and deaths outside the windows. -/
theorem C06_try_truthful (R : DevIno → Rng → Prop) (hR : Clustered R) (s : State)
    (hr : Reach (softIn R) s) (t : Nat) (ht : t ≠ 0) (hal : s.alive t = true) (r : Nat)
    (hpc : s.pc t = .done r) (hid : OthersIdle s t) (op : Op) (hop : R op.key op.rng)
    (hk : op.kind = .try_) :
    ∃ n r' s', Returns s t (.lock op) n r' s' ∧ s'.lockid = 0 ∧
      (r' = 0 ↔ Room s.mem op ∧ Compatible s.mem op) ∧
      (r' = EBUSY ↔ s.mem.lfree ≠ [] ∧ ¬ Compatible s.mem op) ∧
      (r' = ENOLCK ↔ ¬ Room s.mem op) ∧
      (r' = 0 → ∃ l, s'.mem.outs = (l, ⟨t, op.fd, op.key, op.rng, op.mode⟩) :: s.mem.outs) ∧
      (r' ≠ 0 → s'.mem.outs = s.mem.outs) := by
  have hi := reach_sinv hr
  have he : EInv s := reach_einv (fun _ _ h => h.1) hr
  have hv : RInv R s := reach_rinv (fun _ _ h => h.2) hr
  by_cases hroom : Room s.mem op
  · by_cases hc : Compatible s.mem op
    · obtain ⟨s', l, h1, h2, h3⟩ := C55_granted_in_nine_steps R hR s hr t ht hal r hpc hid op hop hroom hc
      exact ⟨9, 0, s', h1, h3, by simp [hroom, hc], by simp [hc, EBUSY], by simp [hroom, ENOLCK],
        fun _ => ⟨l, h2⟩, fun h => absurd rfl h⟩
    · obtain ⟨n, s', h1, h2, h3⟩ := try_refused hR hi (reach_csIff hr) he hv ht hal hpc hid hop hk
        hroom.locker hc
      exact ⟨n, EBUSY, s', h1, h3, by simp [hc, EBUSY], by simp [hc, hroom.locker],
        by simp [hroom, ENOLCK, EBUSY], fun h => absurd h (by decide), fun _ => h2.outs⟩
  · obtain ⟨n, s', h1, h2, h3⟩ := lock_full hi (reach_csIff hr) ht hal hpc hid hroom
    refine ⟨n, ENOLCK, s', h1, h3, by simp [hroom, ENOLCK], ?_, by simp [hroom],
      fun h => absurd h (by decide), fun _ => h2⟩
    constructor
    · intro h; exact absurd h (by decide)
    · rintro ⟨hl, hc⟩
      obtain ⟨f, o, hf, ho, _⟩ := conflict_unit hR hi he hv hop hc
      have a := findFile_some hf
      have b := findOff_some ho
      exact absurd ⟨Or.inl ⟨f, a.1, a.2⟩, Or.inl ⟨f, a.1, a.2, o, b.1, b.2⟩, hl⟩ hroom

/-- C07 as stated: no trace of any refused request. -/
def C07_full : Prop :=
  ∀ R : DevIno → Rng → Prop, Separate R →
    ∀ s, Reach (fun s e => noDeath s e ∧ lockIn R e) s →
    ∀ t r op n r' s', t ≠ 0 → s.pc t = .done r → OthersIdle s t → R op.key op.rng →
      Returns s t (.lock op) n r' s' → r' ≠ 0 → SameTables s.mem s'.mem

/-- All locker records are in use; a request for a new range returns ENOLCK, but a range record has
been taken from its pool and stays in the file's list, protected. -/
def esFull : List Ev :=
  lockBy 1 (mkOp 3 kX rA .rd .block) ++ lockBy 1 (mkOp 3 kX rA .rd .block) ++
  lockBy 1 (mkOp 3 kX rA .rd .block) ++ lockBy 1 (mkOp 3 kX rA .rd .block)

theorem C07_not_full : ¬ C07_full := by
  intro h
  obtain ⟨s, hs, ho⟩ := run_case (s0 := init 2 4 4 junk0) (es := esFull)
    (fun s => (thr 3 s, s.mem.ofree,
      (run s (.call 2 (.lock (mkOp 3 kX rB .rd .try_)) :: alone 2 12)).map
        (fun s' => (s'.pc 2, s'.mem.ofree))))
    (List.replicate 3 (.done 0, true), [1, 2, 3], some (.done ENOLCK, [2, 3]))
    (by decide +kernel)
  simp only [Prod.mk.injEq] at ho
  obtain ⟨h1, h2, h3⟩ := ho
  have hr := reach_all (A := fun s e => noDeath s e ∧ lockIn RX e)
    (fun _ h s => ⟨(evRX_ok h s).2.1, (evRX_ok h s).1.2⟩) hs (by decide +kernel)
  have hq := rest_case hs 3 (by decide +kernel) (Q := fun p a => p = .done 0 ∧ a = true)
    ⟨rfl, rfl⟩ (fun u hu => by simpa using List.eq_of_mem_replicate (thr_get h1 hu))
  cases he : run s (.call 2 (.lock (mkOp 3 kX rB .rd .try_)) :: alone 2 12) with
  | none => rw [he] at h3; simp at h3
  | some s2 =>
    rw [he] at h3
    simp only [Option.map_some, Option.some.injEq, Prod.mk.injEq] at h3
    have := (h RX sepRX s hr 2 0 (mkOp 3 kX rB .rd .try_) 12 ENOLCK s2 (by decide) (hq 2).1
      (fun u _ _ => Or.inl ⟨0, (hq u).1⟩) (Or.inr rfl) ⟨he, h3.1⟩ (by decide)).ofree
    rw [h2, h3.2] at this
    exact absurd this (by decide)

/-- C07 (partial): a try call refused with EBUSY (alone) leaves lists, pools, lock words, holders
and the answers of islocked exactly as they were.  Missing: refusals with ENOLCK
(`C07_not_full`). -/
theorem C07_try_no_trace_partial (R : DevIno → Rng → Prop) (hR : Clustered R) (s : State)
    (hr : Reach (softIn R) s) (t : Nat) (ht : t ≠ 0) (hal : s.alive t = true) (r : Nat)
    (hpc : s.pc t = .done r) (hid : OthersIdle s t) (op : Op) (hop : R op.key op.rng)
    (hk : op.kind = .try_) (hfree : s.mem.lfree ≠ []) (hnc : ¬ Compatible s.mem op) :
    ∃ n s', Returns s t (.lock op) n EBUSY s' ∧ SameTables s.mem s'.mem ∧ s'.lockid = 0 :=
  try_refused hR (reach_sinv hr) (reach_csIff hr) (reach_einv (fun _ _ h => h.1) hr)
    (reach_rinv (fun _ _ h => h.2) hr) ht hal hpc hid hop hk hfree hnc

/-- C07 (partial): the same for a timed call that gives up after any number `k` of failed attempts:
it returns ETIMEDOUT. -/
theorem C07_timed_no_trace_partial (R : DevIno → Rng → Prop) (hR : Clustered R) (s : State)
    (hr : Reach (softIn R) s) (t : Nat) (ht : t ≠ 0) (hal : s.alive t = true) (r : Nat)
    (hpc : s.pc t = .done r) (hid : OthersIdle s t) (op : Op) (hop : R op.key op.rng)
    (hk : op.kind = .timed) (hfree : s.mem.lfree ≠ []) (hnc : ¬ Compatible s.mem op) (k : Nat) :
    ∃ n s', run s (.call t (.lock op) :: (alone t (7 + k) ++ .go t .limit :: alone t n)) = some s' ∧
      s'.pc t = .done ETIMEDOUT ∧ SameTables s.mem s'.mem ∧ s'.lockid = 0 :=
  timed_refused hR (reach_sinv hr) (reach_csIff hr) (reach_einv (fun _ _ h => h.1) hr)
    (reach_rinv (fun _ _ h => h.2) hr) ht hal hpc hid hop hk hfree hnc k

/-- C33, C06: a blocking request that is excluded by a lock in force keeps waiting, whatever number
of attempts it makes alone: it returns nothing, and takes nothing. -/
theorem C33_blocking_waits (R : DevIno → Rng → Prop) (hR : Clustered R) (s : State)
    (hr : Reach (softIn R) s) (t : Nat) (ht : t ≠ 0) (hal : s.alive t = true) (r : Nat)
    (hpc : s.pc t = .done r) (hid : OthersIdle s t) (op : Op) (hop : R op.key op.rng)
    (hk : op.kind ≠ .try_) (hfree : s.mem.lfree ≠ []) (hnc : ¬ Compatible s.mem op) (k : Nat) :
    ∃ s' f o l, run s (.call t (.lock op) :: alone t (7 + k)) = some s' ∧
      s'.pc t = .spin op f o l ∧ s'.mem.outs = s.mem.outs :=
  block_waits hR (reach_sinv hr) (reach_csIff hr) (reach_einv (fun _ _ h => h.1) hr)
    (reach_rinv (fun _ _ h => h.2) hr) ht hal hpc hid hop hk hfree hnc k

/-- C33: no blocking call ever returns EBUSY or ETIMEDOUT, in any interleaving: a step after which a
blocking lock request is about to return one of them does not exist. -/
theorem C33_blocking_never_gives_up (m : Mem) (alive : Nat → Bool) (t : Nat) (op : Op) (f o l : Nat)
    (hk : op.kind = .block) (c : Choice) (as : List Act) (p' : Pc)
    (h : plan m alive t (.spin op f o l) c = some (as, p')) :
    p' = .setf op f o l ∨ p' = .spin op f o l ∨ p' = .acq (.rSet op f o l) := by
  unfold plan at h
  cases c <;> simp only [hk] at h
  · split at h
    · obtain ⟨rfl, rfl⟩ := Option.some.inj h |> Prod.mk.inj; exact Or.inl rfl
    · rw [if_neg (by simp)] at h
      obtain ⟨rfl, rfl⟩ := Option.some.inj h |> Prod.mk.inj; exact Or.inr (Or.inl rfl)
  · split at h
    · rw [if_neg (by simp)] at h
      obtain ⟨rfl, rfl⟩ := Option.some.inj h |> Prod.mk.inj; exact Or.inr (Or.inl rfl)
    · cases h
  · split at h
    · obtain ⟨rfl, rfl⟩ := Option.some.inj h |> Prod.mk.inj; exact Or.inr (Or.inr rfl)
    · cases h
  all_goals cases h

/-- In scenario 1 a write request on [0,10) is not compatible, and records are available. -/
example : ∃ s op, Clustered RX ∧ Reach (softIn RX) s ∧ s.alive 4 = true ∧ s.pc 4 = .done 0 ∧
    OthersIdle s 4 ∧ RX op.key op.rng ∧ op.kind = .try_ ∧ s.mem.lfree ≠ [] ∧ ¬ Compatible s.mem op := by
  obtain ⟨s, hs, hi, ho, h1, h2, h3, _⟩ := sc1
  refine ⟨s, mkOp 9 kX rA .wr .try_, separate_clustered sepRX, (sc1_reach hs).1, (hi 4).2, (hi 4).1,
    fun u _ _ => Or.inl ⟨0, (hi u).1⟩, Or.inl rfl, rfl, by rw [h3]; simp, ?_⟩
  intro h
  have := h (0, out1 1 3 rA .rd) (by simp [ho]) rfl (overlap_self saneA)
  exact absurd this.2 (by decide)

/-! C10: grants depend on the same file only -/

/-- C10: a request on a file on which no lock is in force is granted, whatever locks are in force on
other files. -/
theorem C10_other_files_do_not_block (R : DevIno → Rng → Prop) (hR : Clustered R) (s : State)
    (hr : Reach (softIn R) s) (t : Nat) (ht : t ≠ 0) (hal : s.alive t = true) (r : Nat)
    (hpc : s.pc t = .done r) (hid : OthersIdle s t) (op : Op) (hop : R op.key op.rng)
    (hroom : Room s.mem op) (hother : ∀ x ∈ s.mem.outs, x.2.key ≠ op.key) :
    ∃ s' l, Returns s t (.lock op) 9 0 s' ∧
      s'.mem.outs = (l, ⟨t, op.fd, op.key, op.rng, op.mode⟩) :: s.mem.outs ∧ s'.lockid = 0 :=
  C55_granted_in_nine_steps R hR s hr t ht hal r hpc hid op hop hroom
    (fun x hx hk => absurd hk (hother x hx))

/-- C10: a lock taken through one descriptor excludes requests through every other descriptor of the
same file. -/
theorem C10_same_file_same_lock (R : DevIno → Rng → Prop) (hR : Clustered R) (s : State)
    (hr : Reach (softIn R) s) (t : Nat) (ht : t ≠ 0) (hal : s.alive t = true) (r : Nat)
    (hpc : s.pc t = .done r) (hid : OthersIdle s t) (op : Op) (hop : R op.key op.rng)
    (hk : op.kind = .try_) (hfree : s.mem.lfree ≠ []) (x : Nat × Out) (hx : x ∈ s.mem.outs)
    (hxk : x.2.key = op.key) (hxo : Overlap x.2.rng op.rng) (hw : x.2.mode = .wr ∨ op.mode = .wr) :
    ∃ n s', Returns s t (.lock op) n EBUSY s' ∧ s'.mem.outs = s.mem.outs := by
  obtain ⟨n, s', h1, h2, _⟩ := C07_try_no_trace_partial R hR s hr t ht hal r hpc hid op hop hk hfree (by
    intro h
    have := h x hx hxk hxo
    rcases hw with e | e
    · rw [e] at this; exact absurd this.1 (by decide)
    · rw [e] at this; exact absurd this.2 (by decide))
  exact ⟨n, s', h1, h2.outs⟩

example : ∃ s op, Reach (softIn RX) s ∧ s.alive 4 = true ∧ s.pc 4 = .done 0 ∧ OthersIdle s 4 ∧
    RX op.key op.rng ∧ Room s.mem op ∧ (∀ x ∈ s.mem.outs, x.2.key ≠ op.key) ∧ s.mem.outs ≠ [] := by
  obtain ⟨s, hs, hi, ho, h1, h2, h3, _⟩ := sc1
  refine ⟨s, mkOp 9 kY rA .wr .try_, (sc1_reach hs).1, (hi 4).2, (hi 4).1,
    fun u _ _ => Or.inl ⟨0, (hi u).1⟩, Or.inl rfl,
    ⟨Or.inr (by rw [h1]; simp), Or.inr (by rw [h2]; simp), by rw [h3]; simp⟩, ?_, by simp [ho]⟩
  intro x hx
  rw [ho] at hx
  simp only [List.mem_cons, List.not_mem_nil, or_false] at hx
  rcases hx with rfl | rfl | rfl <;> decide

/-! C09: islocked -/

/-- C09 as stated. -/
def C09_full : Prop :=
  ∀ R : DevIno → Rng → Prop, Separate R →
    ∀ s, Reach (fun s e => noDeath s e ∧ lockIn R e) s →
    ∀ t r op, t ≠ 0 → s.pc t = .done r → (∀ u, ∃ r, s.pc u = .done r) → R op.key op.rng →
      ∃ n r' s', Returns s t (.islocked op) n r' s' ∧
        (r' = 1 ↔ ∃ x ∈ s.mem.outs, x.2.key = op.key ∧ Overlap x.2.rng op.rng)

/-- [0,10) is locked, [20,30) is not; islocked for [20,30) says yes. -/
theorem C09_not_full : ¬ C09_full := by
  intro h
  obtain ⟨s, hs, ho⟩ := run_case (s0 := init 2 4 8 junk0) (es := lockBy 1 (mkOp 3 kX rA .wr .block))
    (fun s => (thr 2 s, s.mem.outs,
      (run s (.call 1 (.islocked (mkOp 3 kX rB .wr .block)) :: alone 1 3)).map (fun s' => s'.pc 1)))
    (List.replicate 2 (.done 0, true), [(0, out1 1 3 rA .wr)], some (.done 1))
    (by decide +kernel)
  simp only [Prod.mk.injEq] at ho
  obtain ⟨h1, h2, h3⟩ := ho
  have hr := reach_all (A := fun s e => noDeath s e ∧ lockIn RX e)
    (fun _ h s => ⟨(evRX_ok h s).2.1, (evRX_ok h s).1.2⟩) hs (by decide +kernel)
  have hq := rest_case hs 2 (by decide +kernel) (Q := fun p a => p = .done 0 ∧ a = true)
    ⟨rfl, rfl⟩ (fun u hu => by simpa using List.eq_of_mem_replicate (thr_get h1 hu))
  obtain ⟨n, r', s', hret, hiff⟩ := h RX sepRX s hr 1 0 (mkOp 3 kX rB .wr .block) (by decide)
    (hq 1).1 (fun u => ⟨0, (hq u).1⟩) (Or.inr rfl)
  cases he : run s (.call 1 (.islocked (mkOp 3 kX rB .wr .block)) :: alone 1 3) with
  | none => rw [he] at h3; simp at h3
  | some s2 =>
    rw [he] at h3
    have := (returns_unique hret ⟨he, by simpa using h3⟩).2.1
    obtain ⟨x, hx, _, hov⟩ := hiff.mp this
    rw [h2] at hx
    simp only [List.mem_cons, List.not_mem_nil, or_false] at hx
    subst hx
    exact apartAB hov

/-- C09 (partial): when all threads are outside, nobody has died and the pools never ran empty,
islocked answers 1 exactly when a lock is in force on some range of the file, and 0 otherwise,
whatever the given range; it changes nothing.  Missing: the range is ignored (`C09_not_full`);
protect flags left by failures or deaths make it answer 1 without a lock. -/
theorem C09_islocked_partial (s : State) (hr : Reach roomy s) (t : Nat) (ht : t ≠ 0)
    (hal : ∀ u, s.alive u = true) (hq : ∀ u, ∃ r, s.pc u = .done r) (op : Op) :
    ∃ s' r', Returns s t (.islocked op) 3 r' s' ∧ s'.mem = s.mem ∧ s'.lockid = 0 ∧
      (r' = 1 ↔ ∃ x ∈ s.mem.outs, x.2.key = op.key) ∧ (r' = 0 ↔ ∀ x ∈ s.mem.outs, x.2.key ≠ op.key) := by
  have hi := reach_sinv hr
  obtain ⟨r, hpc⟩ := hq t
  obtain ⟨s', b, h1, h2, h3, h4⟩ := islocked_run hi (reach_csIff hr) ht (hal t) hpc
    (fun u _ _ => Or.inl (hq u)) op
  have key : b = true ↔ ∃ x ∈ s.mem.outs, x.2.key = op.key := by
    rw [h4]
    constructor
    · rintro ⟨f, hf, hk, hl⟩
      obtain ⟨x, hx, e⟩ := (quiet_fLocked hi (reach_pinv (fun _ _ h => h) hr) hal hq hf).mp hl
      exact ⟨x, hx, e.trans hk⟩
    · rintro ⟨x, hx, e⟩
      obtain ⟨f, o, a, b1, _⟩ := hi.outs.1 x hx
      exact ⟨f, a.1, b1.trans e,
        (quiet_fLocked hi (reach_pinv (fun _ _ h => h) hr) hal hq a.1).mpr ⟨x, hx, b1.symm⟩⟩
  refine ⟨s', _, h1, h2, h3, ?_, ?_⟩
  · rw [← key]; cases b <;> simp
  · have : (∀ x ∈ s.mem.outs, x.2.key ≠ op.key) ↔ ¬ ∃ x ∈ s.mem.outs, x.2.key = op.key := by
      push Not; rfl
    rw [this, ← key]; cases b <;> simp

/-- C09: in every reachable state (any deaths, any ranges, other threads outside or waiting)
islocked answers 1 if a lock is in force on the file; so the answer 0 is always true. -/
theorem C09_locked_is_seen (A : State → Ev → Prop) (s : State) (hr : Reach A s) (t : Nat) (ht : t ≠ 0)
    (hal : s.alive t = true) (r : Nat) (hpc : s.pc t = .done r) (hid : OthersIdle s t) (op : Op)
    (x : Nat × Out) (hx : x ∈ s.mem.outs) (hk : x.2.key = op.key) :
    ∃ s', Returns s t (.islocked op) 3 1 s' ∧ s'.mem = s.mem := by
  have hi := reach_sinv hr
  obtain ⟨s', b, h1, h2, h3, h4⟩ := islocked_run hi (reach_csIff hr) ht hal hpc hid op
  have : b = true := by
    rw [h4]
    obtain ⟨f, o, a, b1, _⟩ := hi.outs.1 x hx
    refine ⟨f, a.1, b1.trans hk, ?_⟩
    unfold fLocked
    rw [Bool.or_eq_true]; right
    refine List.any_eq_true.mpr ⟨o, a.2.1, ?_⟩
    unfold oLocked
    have := List.ne_nil_of_mem a.2.2
    cases hmd : x.2.mode <;> rw [hmd] at this <;> simp [this]
  rw [this] at h1
  exact ⟨s', h1, h2⟩

/-- Scenario 1 is a quiet state with room. -/
example : ∃ s, Reach roomy s ∧ (∀ u, s.alive u = true) ∧ (∀ u, ∃ r, s.pc u = .done r) ∧
    s.mem.outs.length = 1 := by
  have key : ∀ (s0 : State), Reach roomy s0 → ∀ (es : List Ev) (s : State),
      run s0 es = some s → es.all evRX = true →
      (∀ n, (run s0 (es.take n)).all (fun s => !s.mem.ofree.isEmpty && !s.mem.lfree.isEmpty) = true) →
      Reach roomy s := by
    intro s0 h0 es
    induction es generalizing s0 with
    | nil => intro s h _ _; simp [run] at h; exact h ▸ h0
    | cons e es ih =>
      intro s h ha hn
      simp only [run] at h
      simp only [List.all_cons, Bool.and_eq_true] at ha
      cases hst : step s0 e with
      | none => rw [hst] at h; simp at h
      | some s1 =>
        rw [hst] at h
        have hz := hn 0
        simp [run] at hz
        refine ih s1 (.step h0 ⟨(evRX_ok ha.1 s0).2.1, ?_, ?_⟩ hst) s h ha.2 ?_
        · exact hz.1
        · exact hz.2
        · intro n
          have := hn (n + 1)
          simpa only [List.take_succ_cons, run, hst, Option.bind_some] using this
  obtain ⟨s, hs, ho⟩ := run_case (s0 := init 2 4 8 junk0) (es := lockBy 1 (mkOp 3 kX rA .wr .block))
    (fun s => (thr 2 s, s.mem.outs.length)) (List.replicate 2 (.done 0, true), 1) (by decide +kernel)
  simp only [Prod.mk.injEq] at ho
  obtain ⟨h1, h2⟩ := ho
  have hq := rest_case hs 2 (by decide +kernel) (Q := fun p a => p = .done 0 ∧ a = true)
    ⟨rfl, rfl⟩ (fun u hu => by simpa using List.eq_of_mem_replicate (thr_get h1 hu))
  refine ⟨s, key _ (.init 2 4 8 junk0) _ s hs (by decide +kernel) ?_, fun u => (hq u).2,
    fun u => ⟨0, (hq u).1⟩, h2⟩
  intro n
  by_cases hn : n < 11
  · have : ∀ n < 11, (run (init 2 4 8 junk0) ((lockBy 1 (mkOp 3 kX rA .wr .block)).take n)).all
        (fun s => !s.mem.ofree.isEmpty && !s.mem.lfree.isEmpty) = true := by decide +kernel
    exact this n hn
  · have e : (lockBy 1 (mkOp 3 kX rA .wr .block)).take n = (lockBy 1 (mkOp 3 kX rA .wr .block)).take 10 := by
      rw [List.take_of_length_le (by simp [lockBy, alone]; omega),
        List.take_of_length_le (by simp [lockBy, alone])]
    rw [e]
    decide +kernel

end Fullock.Props
