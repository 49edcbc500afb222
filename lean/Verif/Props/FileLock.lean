import Verif.Props.FLCases
import Mathlib.Data.List.Perm.Subperm
/-! File locks under every interleaving: exclusion, who may release what, lock words, records in
use, the table lock (C01, C02, C10, C13, C16, C17, C36). -/
namespace Fullock.Props
open Spec FL
set_option synthInstance.maxSize 10000

/-! C01, C02: exclusion -/

/-- C01 as stated: for all sane ranges, whatever they are. -/
def C01_full : Prop :=
  ∀ s, Reach (fun s e => noDeath s e ∧ lockIn (fun _ r => SaneRange r) e) s →
    ∀ x ∈ s.mem.outs, ∀ y ∈ s.mem.outs, x.2.t ≠ y.2.t → ¬ Conflict x.2 y.2

/-- The code does not do that: thread 1 holds a write lock on [0,10), thread 2 a read lock on
[20,30); thread 3 asks for a read lock on [5,25): the look-up finds the record of [20,30), the
request is granted there, and the threads 1 and 3 hold conflicting locks on [5,10). -/
theorem C01_not_full : ¬ C01_full := by
  intro h
  obtain ⟨s, hs, ho⟩ := run_case (s0 := init 2 4 8 junk0)
    (es := lockBy 1 (mkOp 3 kX rA .wr .block) ++ lockBy 2 (mkOp 3 kX rB .rd .block) ++
      lockBy 3 (mkOp 3 kX rC .rd .try_)) (fun s => s.mem.outs)
    [(2, out1 3 3 rC .rd), (1, out1 2 3 rB .rd), (0, out1 1 3 rA .wr)] (by decide +kernel)
  have hr := reach_all (A := fun s e => noDeath s e ∧ lockIn (fun _ r => SaneRange r) e)
    (fun _ h s => evSane_ok h s) hs (by decide +kernel)
  refine h s hr _ (ho ▸ List.mem_cons_self) (0, out1 1 3 rA .wr) (by simp [ho]) (by decide) ?_
  exact ⟨rfl, ⟨5, by simp only [Covers]; decide, by simp only [Covers]; decide⟩, Or.inr rfl⟩

/-- C01, C02 (partial): if the ranges in use fall into clusters (any two overlapping or disjoint,
overlap being transitive; in particular when any two of a file are equal or disjoint), then in every
reachable state no two locks in force exclude each other — for any number of threads, files, ranges,
every interleaving and every death except between the release of the lock word in an unlock call and
the reset of the `locked` flag that follows it.  Missing for C01: ranges overlapping without being
clustered (`C01_not_full`); for C02: deaths in that window (`C02_not_full`). -/
theorem C02_exclusion_partial (R : DevIno → Rng → Prop) (hR : Clustered R) (s : State)
    (hr : Reach (okIn R) s) : Exclusive s :=
  exclusive_of_inv hR (reach_sinv hr) (reach_winv (fun _ _ h => h.1) hr) (reach_rinv (fun _ _ h => h.2) hr)

/-- The same for ranges that are pairwise equal or disjoint. -/
theorem C01_exclusion_partial (R : DevIno → Rng → Prop) (hR : Separate R) (s : State)
    (hr : Reach (okIn R) s) :
    ∀ x ∈ s.mem.outs, ∀ y ∈ s.mem.outs, x.1 ≠ y.1 → ¬ Conflict x.2 y.2 :=
  C02_exclusion_partial R (separate_clustered hR) s hr

/-- A state with three locks in force on two ranges meets the hypotheses; so do separate and
clustered sets of ranges. -/
example : Separate RX ∧ Clustered RK ∧ ∃ s, Reach (okIn RX) s ∧ s.mem.outs.length = 3 := by
  obtain ⟨s, hs, _, ho, _⟩ := sc1
  exact ⟨sepRX, cluRK, s, reach_all (fun _ h s => (evRX_ok h s).2.2) hs (by decide +kernel),
    by rw [ho]; rfl⟩

/-- C02 as stated: with deaths at any instruction. -/
def C02_full : Prop :=
  ∀ R : DevIno → Rng → Prop, Separate R → ∀ s, Reach (fun _ e => lockIn R e) s →
    ∀ x ∈ s.mem.outs, ∀ y ∈ s.mem.outs, s.alive x.2.t = true → s.alive y.2.t = true →
      x.2.t ≠ y.2.t → ¬ Conflict x.2 y.2

/-- Thread 1 dies in its unlock between the release of the lock word and the reset of its flag;
thread 2 acquires the write lock; a sweep then releases the word a second time on behalf of the dead
thread, and thread 4 acquires a write lock on the same range. -/
def esDeath : List Ev :=
  lockBy 1 (mkOp 3 kX rA .wr .block) ++
  [.call 1 (.unlock (mkOp 3 kX rA .wr .block)), .go 1 .go, .go 1 .go, .die 1 .go 1] ++
  lockBy 2 (mkOp 3 kX rA .wr .block) ++
  [.call 3 .sweep, .go 3 .go, .go 3 (.lk 0 .wr 0), .go 3 .go, .go 3 .go] ++
  lockBy 4 (mkOp 3 kX rA .wr .try_)

theorem C02_not_full : ¬ C02_full := by
  intro h
  obtain ⟨s, hs, ho⟩ := run_case (s0 := init 2 4 8 junk0) (es := esDeath)
    (fun s => (s.mem.outs, s.alive 2, s.alive 4))
    ([(0, out1 4 3 rA .wr), (1, out1 2 3 rA .wr)], true, true) (by decide +kernel)
  simp only [Prod.mk.injEq] at ho
  obtain ⟨ho, h2, h4⟩ := ho
  have hr : Reach (fun _ e => lockIn RX e) s :=
    reach_all (ok := fun e => match e with | .call _ (.lock op) => op.rng = rA | _ => true) (by
      intro e he _
      cases e with
      | call t c =>
        cases c with
        | lock op => exact Or.inl (by simpa using he)
        | _ => trivial
      | _ => trivial) hs (by decide +kernel)
  refine h RX sepRX s hr _ (ho ▸ List.mem_cons_self) (1, out1 2 3 rA .wr) (by simp [ho]) h4 h2
    (by decide) ?_
  exact ⟨rfl, ⟨5, by simp only [Covers]; decide, by simp only [Covers]; decide⟩, Or.inr rfl⟩

/-! C13: who may release a lock -/

/-- C13: in every reachable state (any ranges, any deaths), a step that ends a lock in force is
either for a holder that is dead, or is made by the holder itself, in the unlock call it has issued
for that descriptor and that file.  So sweeps and unlocks of others never take a lock from a live
holder. -/
theorem C13_live_never_robbed (A : State → Ev → Prop) (s s' : State) (e : Ev) (hr : Reach A s)
    (hs : step s e = some s') (x : Nat × Out) (hx : x ∈ s.mem.outs) (hn : x ∉ s'.mem.outs) :
    s.alive x.2.t = false ∨
      ∃ op f o md, s.pc x.2.t = .uWord op f o x.1 md ∧ op.fd = x.2.fd ∧ op.key = x.2.key ∧
        (e = .go x.2.t .go ∨ ∃ k, e = .die x.2.t .go k) :=
  outs_loss (reach_sinv hr) hs hx hn

/-- C13 (converse side): a lock comes into force only when its own thread's lock call for exactly
that descriptor, file, range and mode returns 0 (or the thread is killed at that very moment). -/
theorem C13_lock_only_by_request (s s' : State) (e : Ev) (hs : step s e = some s')
    (x : Nat × Out) (hx : x ∉ s.mem.outs) (hn : x ∈ s'.mem.outs) :
    ∃ op f o, s.pc x.2.t = .setf op f o x.1 ∧ x.2 = ⟨x.2.t, op.fd, op.key, op.rng, op.mode⟩ ∧
      ((e = .go x.2.t .go ∧ s'.pc x.2.t = .done 0) ∨ ∃ c k, e = .die x.2.t c k) :=
  outs_gain hs hx hn

/-- A thread that is executing no unlock call keeps all its locks through any step of anybody
(itself included), for as long as it lives. -/
theorem C13_idle_holder_keeps (A : State → Ev → Prop) (s s' : State) (e : Ev) (hr : Reach A s)
    (hs : step s e = some s') (x : Nat × Out) (hx : x ∈ s.mem.outs) (hal : s.alive x.2.t = true)
    (r : Nat) (hpc : s.pc x.2.t = .done r) : x ∈ s'.mem.outs := by
  by_contra hn
  rcases C13_live_never_robbed A s s' e hr hs x hx hn with h | ⟨_, _, _, _, h, _⟩
  · rw [hal] at h; cases h
  · rw [hpc] at h; cases h

example : ∃ s, Reach (softIn RX) s ∧ s.mem.outs.length = 3 ∧
    ∀ x ∈ s.mem.outs, s.alive x.2.t = true ∧ s.pc x.2.t = .done 0 := by
  obtain ⟨s, hs, hi, ho, _⟩ := sc1
  exact ⟨s, (sc1_reach hs).1, by rw [ho]; rfl, fun x _ => ⟨(hi _).2, (hi _).1⟩⟩

/-! C10: files are independent -/

/-- C10: a step by a thread that works on one file leaves the locks in force of live holders on
every other file as they are, whatever the descriptors. -/
theorem C10_other_files_untouched (A : State → Ev → Prop) (s s' : State) (e : Ev) (hr : Reach A s)
    (hs : step s e = some s') (x : Nat × Out) (hx : x ∈ s.mem.outs) (hal : s.alive x.2.t = true)
    (hk : ∀ op f o l md, s.pc x.2.t = .uWord op f o l md → op.key ≠ x.2.key) :
    x ∈ s'.mem.outs := by
  by_contra hn
  rcases C13_live_never_robbed A s s' e hr hs x hx hn with h | ⟨op, f, o, md, h, _, h2, _⟩
  · rw [hal] at h; cases h
  · exact hk op f o x.1 md h h2

/-- C10: the records of a lock in force belong to its file: different files never share a range
record or a locker record. -/
theorem C10_records_apart (A : State → Ev → Prop) (s : State) (hr : Reach A s) (x y : Nat × Out)
    (hx : x ∈ s.mem.outs) (hy : y ∈ s.mem.outs) (hk : x.2.key ≠ y.2.key) :
    ∃ f o f' o', f ∈ s.mem.files ∧ o ∈ s.mem.offs f ∧ x.1 ∈ s.mem.lks o x.2.mode ∧
      s.mem.key f = x.2.key ∧ f' ∈ s.mem.files ∧ o' ∈ s.mem.offs f' ∧ y.1 ∈ s.mem.lks o' y.2.mode ∧
      s.mem.key f' = y.2.key ∧ f ≠ f' ∧ o ≠ o' ∧ x.1 ≠ y.1 := by
  have hi := reach_sinv hr
  obtain ⟨f, o, a, b, _⟩ := hi.outs.1 x hx
  obtain ⟨f', o', a', b', _⟩ := hi.outs.1 y hy
  have hff : f ≠ f' := fun e => hk (by rw [← b, ← b', e])
  have hoo : o ≠ o' := fun e => hff (hi.sok.offsDisj f f' o a.2.1 (e ▸ a'.2.1))
  exact ⟨f, o, f', o', a.1, a.2.1, a.2.2, b, a'.1, a'.2.1, a'.2.2, b', hff, hoo,
    fun e => hoo (hi.sok.lksDisj _ _ _ _ _ a.2.2 (e ▸ a'.2.2)).1⟩

/-- Locks on two files at the same time. -/
example : ∃ s, Reach (softIn RX) s ∧ ∃ x ∈ s.mem.outs, ∃ y ∈ s.mem.outs, x.2.key ≠ y.2.key := by
  obtain ⟨s, hs, ho⟩ := run_case (s0 := init 2 4 8 junk0)
    (es := lockBy 1 (mkOp 3 kX rA .wr .block) ++ lockBy 2 (mkOp 3 kY rA .wr .try_))
    (fun s => s.mem.outs) [(1, ⟨2, 3, kY, rA, .wr⟩), (0, out1 1 3 rA .wr)] (by decide +kernel)
  refine ⟨s, reach_all (fun _ h s => (evRX_ok h s).1) hs (by decide +kernel), _,
    ho ▸ List.mem_cons_self, (0, out1 1 3 rA .wr), by simp [ho], by decide⟩

/-! C16: records in use are not recycled -/

/-- C16: in every reachable state (any ranges, any deaths) the file, range and locker records on
which a live thread waits are listed, of the file and of a range found for its request, carry its
identity, and none of them is in a free pool. -/
theorem C16_waiter_records (A : State → Ev → Prop) (s : State) (hr : Reach A s) (t : Nat)
    (hal : s.alive t = true) (op : Op) (f o l : Nat)
    (hpc : s.pc t = .spin op f o l ∨ s.pc t = .setf op f o l) :
    f ∈ s.mem.files ∧ o ∈ s.mem.offs f ∧ l ∈ s.mem.lks o op.mode ∧ s.mem.key f = op.key ∧
      hits op.rng (s.mem.rng o) = true ∧ s.mem.ltid l = t ∧ s.mem.lfd l = op.fd ∧
      f ∉ s.mem.ffree ∧ o ∉ s.mem.ofree ∧ l ∉ s.mem.lfree := by
  have hi := reach_sinv hr
  obtain ⟨tk, a, b, c, d, e, _⟩ : ∃ tk, Wait s.mem t op f o l tk := by
    have := (hi.thr t hal).2
    rcases hpc with h | h <;> rw [h] at this
    · exact ⟨_, this⟩
    · exact ⟨_, this⟩
  exact ⟨a.1, a.2.1, a.2.2, b, c, d, e, fun h => hi.sok.fdisj f h a.1,
    fun h => hi.sok.odisj o h f a.2.1, fun h => hi.sok.ldisj l h _ _ a.2.2⟩

/-- C16: the same for the records of a lock in force, for holders dead or alive. -/
theorem C16_holder_records (A : State → Ev → Prop) (s : State) (hr : Reach A s) (x : Nat × Out)
    (hx : x ∈ s.mem.outs) :
    ∃ f o, f ∈ s.mem.files ∧ o ∈ s.mem.offs f ∧ x.1 ∈ s.mem.lks o x.2.mode ∧
      s.mem.key f = x.2.key ∧ hits x.2.rng (s.mem.rng o) = true ∧ s.mem.ltid x.1 = x.2.t ∧
      s.mem.lfd x.1 = x.2.fd ∧ f ∉ s.mem.ffree ∧ o ∉ s.mem.ofree ∧ x.1 ∉ s.mem.lfree := by
  have hi := reach_sinv hr
  obtain ⟨f, o, a, b, c, d, e, _⟩ := hi.outs.1 x hx
  exact ⟨f, o, a.1, a.2.1, a.2.2, b, c, d, e, fun h => hi.sok.fdisj f h a.1,
    fun h => hi.sok.odisj o h f a.2.1, fun h => hi.sok.ldisj _ h _ _ a.2.2⟩

/-- C16: as long as a lock stays in force, it stays with the same file and range records, and these
stay those of the same file and range. -/
theorem C16_holder_records_stay (A : State → Ev → Prop) (s s' : State) (e : Ev) (hr : Reach A s)
    (hs : step s e = some s') (x : Nat × Out) (hx' : x ∈ s'.mem.outs)
    (f o : Nat) (hf : f ∈ s.mem.files) (ho : o ∈ s.mem.offs f) (hl : x.1 ∈ s.mem.lks o x.2.mode) :
    f ∈ s'.mem.files ∧ o ∈ s'.mem.offs f ∧ x.1 ∈ s'.mem.lks o x.2.mode ∧
      s'.mem.key f = s.mem.key f ∧ s'.mem.rng o = s.mem.rng o := by
  obtain ⟨a, b, c⟩ := held_stays (reach_sinv hr) hs hx' ⟨hf, ho, hl⟩
  exact ⟨a.1, a.2.1, a.2.2, b, c⟩

/-- A waiting thread: thread 1 holds the write lock, thread 2 waits for it. -/
example : ∃ s, Reach (softIn RX) s ∧ s.alive 2 = true ∧
    s.pc 2 = .spin (mkOp 4 kX rA .rd .block) 0 0 1 ∧ s.mem.outs = [(0, out1 1 3 rA .wr)] := by
  obtain ⟨s, hs, ho⟩ := run_case (s0 := init 2 4 8 junk0)
    (es := lockBy 1 (mkOp 3 kX rA .wr .block) ++ lockBy 2 (mkOp 4 kX rA .rd .block))
    (fun s => (s.alive 2, s.pc 2, s.mem.outs))
    (true, .spin (mkOp 4 kX rA .rd .block) 0 0 1, [(0, out1 1 3 rA .wr)]) (by decide +kernel)
  simp only [Prod.mk.injEq] at ho
  exact ⟨s, reach_all (fun _ h s => (evRX_ok h s).1) hs (by decide +kernel), ho⟩

/-! C17: the lock word -/

/-- The lockers of a range that count in its lock word: those whose attempt has succeeded and whose
release has not happened yet. -/
def counted (m : Mem) (o : Nat) (md : Mode) : Nat := ((m.lks o md).filter m.taken).length

theorem counted_eq (m : Mem) (o : Nat) (md : Mode) : counted m o md = cnt m o md := by
  simp [counted, cnt, List.countP_eq_length_filter]

/-- C17 (partial): as long as threads die only outside the three critical windows (in particular if
nobody dies) the lock word of every range is -1 when a writer counts, else the number of readers
that count; there is never more than one writer, and never a reader beside it.  Missing: the deaths
in the windows (`C17_not_full`). -/
theorem C17_word_partial (s : State) (hr : Reach softDeath s) (o : Nat) :
    (counted s.mem o .wr = 0 ∧ s.mem.word o = counted s.mem o .rd) ∨
    (counted s.mem o .wr = 1 ∧ counted s.mem o .rd = 0 ∧ s.mem.word o = -1) := by
  simpa only [counted_eq, WordEq] using (reach_einv (fun _ _ h => h) hr).words o

/-- C17: whatever threads die, except between releasing the word and resetting the flag in an unlock
call, the word is never below -1, and covers the holders: if it is -1 no reader and at most one
writer counts, otherwise no writer and not more readers than its value. -/
theorem C17_word_covers (s : State) (hr : Reach okDeath s) (o : Nat) :
    -1 ≤ s.mem.word o ∧
    (s.mem.word o = -1 → counted s.mem o .rd = 0 ∧ counted s.mem o .wr ≤ 1) ∧
    (0 ≤ s.mem.word o → counted s.mem o .wr = 0 ∧ (counted s.mem o .rd : Int) ≤ s.mem.word o) := by
  simpa only [counted_eq, WordOK] using (reach_winv (fun _ _ h => h) hr).words o

/-- Execution from fresh tables of the given capacities. -/
inductive From (A : State → Ev → Prop) (nf no nl : Nat) : State → Prop
  | init (junk : Mem) : From A nf no nl (FL.init nf no nl junk)
  | step {s s' : State} {e : Ev} : From A nf no nl s → A s e → FL.step s e = some s' → From A nf no nl s'

theorem from_reach {A : State → Ev → Prop} {nf no nl : Nat} {s : State} (h : From A nf no nl s) :
    Reach A s := by
  induction h with
  | init junk => exact .init nf no nl junk
  | step _ ha hs ih => exact .step ih ha hs

theorem from_bnd {A : State → Ev → Prop} {nf no nl : Nat} {s : State} (h : From A nf no nl s) :
    Bnd nf no nl s.mem := by
  induction h with
  | init junk =>
    exact ⟨by simp [init], by simp [init], by simp [init], by simp [init], by simp [init], by simp [init]⟩
  | step hf ha hs ih => exact bnd_step (reach_sinv (from_reach hf)) ih hs

/-- C17: the word never exceeds the number of locker records, so it cannot overflow. -/
theorem C17_word_bounded (nf no nl : Nat) (s : State) (hr : From softDeath nf no nl s) (o : Nat) :
    -1 ≤ s.mem.word o ∧ s.mem.word o ≤ nl := by
  have h := C17_word_partial s (from_reach hr) o
  have hb := from_bnd hr
  have hle : counted s.mem o .rd ≤ nl := by
    unfold counted
    have nd : ((s.mem.lks o .rd).filter s.mem.taken).Nodup :=
      ((reach_sinv (from_reach hr)).sok.lksNd o .rd).filter _
    have : ((s.mem.lks o .rd).filter s.mem.taken) ⊆ List.range nl := by
      intro l hl
      exact List.mem_range.mpr (hb.ls o .rd l (List.mem_of_mem_filter hl))
    simpa using (List.subperm_of_subset nd this).length_le
  omega

/-- C17: when every live thread is outside the library or waiting, the lockers that count are
exactly the locks in force on that range record. -/
theorem C17_counted_are_holders (s : State) (hr : Reach softDeath s)
    (hq : ∀ u, s.alive u = true → (∃ r, s.pc u = .done r) ∨ ∃ op f o l, s.pc u = .spin op f o l)
    (o : Nat) (md : Mode) (l : Nat) (hl : l ∈ s.mem.lks o md) :
    s.mem.taken l = true ↔ ∃ h, (l, h) ∈ s.mem.outs ∧ h.mode = md := by
  have hi := reach_sinv hr
  constructor
  · intro ht
    refine taken_out hi (reach_einv (fun _ _ h => h) hr) (reach_lo hr) hl ht ?_
    intro op f o' ha hp
    rcases hq _ ha with ⟨r, h⟩ | ⟨_, _, _, _, h⟩ <;> rw [h] at hp <;> cases hp
  · rintro ⟨h, hm, _⟩
    obtain ⟨_, _, _, _, _, _, _, _, b⟩ := hi.outs.1 _ hm
    exact b

/-- Two readers on one range: word 2; a writer on the other: word -1. -/
example : ∃ s, From softDeath 2 4 8 s ∧ s.mem.word 0 = 2 ∧ s.mem.word 1 = -1 ∧
    counted s.mem 0 .rd = 2 ∧ counted s.mem 1 .wr = 1 := by
  obtain ⟨s, hs, ho⟩ := run_case (s0 := init 2 4 8 junk0) (es := es1)
    (fun s => (s.mem.word 0, s.mem.word 1, counted s.mem 0 .rd, counted s.mem 1 .wr))
    (2, -1, 2, 1) (by decide +kernel)
  simp only [Prod.mk.injEq] at ho
  refine ⟨s, ?_, ho⟩
  have gen : ∀ (es : List Ev) (s0 : State), From softDeath 2 4 8 s0 → run s0 es = some s →
      es.all evRX = true → From softDeath 2 4 8 s := by
    intro es
    induction es with
    | nil => intro s0 h0 h _; simp [run] at h; exact h ▸ h0
    | cons e es ih =>
      intro s0 h0 h ha
      simp only [run] at h
      simp only [List.all_cons, Bool.and_eq_true] at ha
      cases hst : step s0 e with
      | none => rw [hst] at h; simp at h
      | some s1 => rw [hst] at h; exact ih s1 (.step h0 (evRX_ok ha.1 s0).1.1 hst) h ha.2
  exact gen es1 _ (.init junk0) hs (by decide +kernel)

/-- C17 as stated: in every reachable state, deaths anywhere. -/
def C17_full : Prop := ∀ s, Reach (fun _ _ => True) s → ∀ f ∈ s.mem.files, ∀ o ∈ s.mem.offs f,
  (∀ u, s.alive u = true → (∃ r, s.pc u = .done r) ∨ ∃ op f o l, s.pc u = .spin op f o l) →
  (s.mem.word o = -1 ↔ ∃ l h, (l, h) ∈ s.mem.outs ∧ l ∈ s.mem.lks o .wr)

/-- A thread killed between its successful attempt and setting its flag, then swept while another
thread waits: the word stays -1 although nobody holds the lock. -/
def esStuck : List Ev :=
  [.call 1 (.lock (mkOp 3 kX rA .wr .block))] ++ alone 1 7 ++ [.die 1 .go 1] ++
  [.call 2 (.lock (mkOp 3 kX rA .wr .block))] ++ alone 2 7 ++
  [.call 3 .sweep, .go 3 .go, .go 3 (.lk 0 .wr 0), .go 3 .go, .go 3 .go]

theorem C17_not_full : ¬ C17_full := by
  intro h
  obtain ⟨s, hs, ho⟩ := run_case (s0 := init 2 4 8 junk0) (es := esStuck)
    (fun s => (thr 4 s, s.mem.outs, s.mem.files, s.mem.offs 0, s.mem.word 0))
    ([(.done 0, true), (.spin (mkOp 3 kX rA .wr .block) 0 0 0, false),
      (.spin (mkOp 3 kX rA .wr .block) 0 0 1, true), (.done 0, true)], [], [0], [0], -1)
    (by decide +kernel)
  simp only [Prod.mk.injEq] at ho
  obtain ⟨h1, h2, h3, h4, h5⟩ := ho
  have hr : Reach (fun _ _ => True) s :=
    reach_all (ok := fun _ => true) (fun _ _ _ => trivial) hs (by decide +kernel)
  have hq := rest_case hs 4 (by decide +kernel)
    (Q := fun p a => a = true → (∃ r, p = .done r) ∨ ∃ op f o l, p = .spin op f o l)
    (fun _ => Or.inl ⟨0, rfl⟩) (by
      intro u hu ha
      have := thr_get h1 hu
      simp only [List.mem_cons, Prod.mk.injEq, List.not_mem_nil, or_false] at this
      rcases this with ⟨e, _⟩ | ⟨_, e⟩ | ⟨e, _⟩ | ⟨e, _⟩
      · exact Or.inl ⟨0, e⟩
      · rw [ha] at e; cases e
      · exact Or.inr ⟨_, _, _, _, e⟩
      · exact Or.inl ⟨0, e⟩)
  obtain ⟨l, hh, hm, _⟩ := (h s hr 0 (by simp [h3]) 0 (by simp [h4]) hq).mp h5
  rw [h2] at hm; cases hm

/-! C36: the table lock -/

/-- C36 (for file lock calls): whoever is outside the library or waiting for a lock word does not
hold the table lock; two live threads are never both between acquiring and releasing it; a thread
acquires it only when it does not hold it.  This includes all error returns and waits, with any
deaths. -/
theorem C36_table_lock_returned (A : State → Ev → Prop) (s : State) (hr : Reach A s) (t : Nat)
    (ht : t ≠ 0) (hal : s.alive t = true)
    (hpc : (∃ r, s.pc t = .done r) ∨ (∃ op f o l, s.pc t = .spin op f o l) ∨
      (∃ op f o l, s.pc t = .setf op f o l) ∨ ∃ p, s.pc t = .acq p) :
    s.lockid ≠ t := by
  intro h
  have := reach_csIff hr t ht h hal
  rcases hpc with ⟨r, e⟩ | ⟨_, _, _, _, e⟩ | ⟨_, _, _, _, e⟩ | ⟨p, e⟩ <;> rw [e] at this <;>
    simp [inCS] at this

/-- The places between acquiring and releasing the table lock. -/
def Inside (p : Pc) : Prop :=
  (∀ r, p ≠ .done r) ∧ (∀ q, p ≠ .acq q) ∧ (∀ op f o l, p ≠ .spin op f o l) ∧
    ∀ op f o l, p ≠ .setf op f o l

theorem inside_inCS {p : Pc} (h : Inside p) : inCS p = true := by
  obtain ⟨h1, h2, h3, h4⟩ := h
  cases p with
  | done r => exact absurd rfl (h1 r)
  | acq q => exact absurd rfl (h2 q)
  | spin op f o l => exact absurd rfl (h3 op f o l)
  | setf op f o l => exact absurd rfl (h4 op f o l)
  | _ => rfl

/-- C36: everything between acquiring and releasing is done holding the lock; so at most one live
thread is there. -/
theorem C36_one_inside (A : State → Ev → Prop) (s : State) (hr : Reach A s) (t u : Nat)
    (hat : s.alive t = true) (hau : s.alive u = true) (hit : Inside (s.pc t)) (hiu : Inside (s.pc u)) :
    t = u ∧ s.lockid = t := by
  have hi := reach_sinv hr
  have h1 := hi.cs t hat (inside_inCS hit)
  have h2 := hi.cs u hau (inside_inCS hiu)
  exact ⟨h1.symm.trans h2, h1⟩

/-- C36: the lock words and holder flags apart (which waiting and just granted threads write), the
tables are changed only by the thread holding the table lock. -/
theorem C36_tables_changed_inside (s s' : State) (t : Nat) (c : Choice)
    (hs : step s (.go t c) = some s') (hpc : ¬ Inside (s.pc t)) :
    s'.mem.files = s.mem.files ∧ s'.mem.key = s.mem.key ∧ s'.mem.offs = s.mem.offs ∧
      s'.mem.rng = s.mem.rng ∧ s'.mem.lks = s.mem.lks ∧ s'.mem.ffree = s.mem.ffree ∧
      s'.mem.ofree = s.mem.ofree ∧ s'.mem.lfree = s.mem.lfree := by
  rcases step_cases hs with ⟨t, c, r, e, _⟩ | ⟨t', c', p, e, hal, hp, hl, rfl⟩ |
    ⟨t', c', p, e, hal, hp, rfl⟩ | ⟨t', c', as, p', e, hal, hpl, rfl⟩ | ⟨t, c, k, as, e, _⟩
  · cases e
  · cases e; exact ⟨rfl, rfl, rfl, rfl, rfl, rfl, rfl, rfl⟩
  · cases e; exact ⟨rfl, rfl, rfl, rfl, rfl, rfl, rfl, rfl⟩
  · cases e
    have : (∃ op f o l, s.pc t = .spin op f o l) ∨ ∃ op f o l, s.pc t = .setf op f o l := by
      by_contra hc
      push Not at hc
      apply hpc
      refine ⟨?_, ?_, hc.1, hc.2⟩
      · intro r hr; rw [hr] at hpl; cases c <;> simp [plan] at hpl
      · intro r hr; rw [hr] at hpl; cases c <;> simp [plan] at hpl
    rcases this with ⟨op, f, o, l, h⟩ | ⟨op, f, o, l, h⟩
    · rw [h] at hpl
      unfold plan at hpl
      cases c <;> simp only at hpl <;> repeat' split at hpl
      all_goals first
        | (cases hpl; done)
        | (obtain ⟨rfl, rfl⟩ := Option.some.inj hpl |> Prod.mk.inj
           exact ⟨rfl, rfl, rfl, rfl, rfl, rfl, rfl, rfl⟩)
    · rw [h] at hpl
      cases c <;> simp [plan] at hpl
      obtain ⟨rfl, rfl⟩ := hpl
      exact ⟨rfl, rfl, rfl, rfl, rfl, rfl, rfl, rfl⟩
  · cases e

/-- A thread in the middle of its critical section while another waits for the table lock. -/
example : ∃ s, Reach (softIn RX) s ∧ s.lockid = 1 ∧ Inside (s.pc 1) ∧ s.pc 2 = .acq (.lFile (mkOp 3 kX rA .wr .block)) := by
  obtain ⟨s, hs, ho⟩ := run_case (s0 := init 2 4 8 junk0)
    (es := [.call 1 (.lock (mkOp 3 kX rA .wr .block)), .go 1 .go, .go 1 .go,
      .call 2 (.lock (mkOp 3 kX rA .wr .block))])
    (fun s => (s.lockid, s.pc 1, s.pc 2))
    (1, .lOff (mkOp 3 kX rA .wr .block) 0, .acq (.lFile (mkOp 3 kX rA .wr .block))) (by decide +kernel)
  simp only [Prod.mk.injEq] at ho
  refine ⟨s, reach_all (fun _ h s => (evRX_ok h s).1) hs (by decide +kernel), ho.1, ?_, ho.2.2⟩
  rw [ho.2.1]; simp [Inside]

end Fullock.Props
