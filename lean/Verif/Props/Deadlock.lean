import Verif.Props.FileLock
import Verif.Proofs.Deadlock
/-! C77: a request excluded by a lock that its holder keeps is never granted: waiting for oneself, for each other -/
namespace Fullock.Props
open Spec FL
set_option synthInstance.maxSize 10000

/-- C77 as stated: for all sane ranges, nobody dying. -/
def C77_full : Prop :=
  ∀ s s' es t op x, Reach (fun s e => noDeath s e ∧ lockIn (fun _ r => SaneRange r) e) s →
    Later (fun s e => noDeath s e ∧ lockIn (fun _ r => SaneRange r) e) s es s' →
    x ∈ s.mem.outs → OutsideOrAsks s x.2.t → Asks s t op → Conflict x.2 (lockOf t op) →
    Keeps x.2.t es → Within t es → s'.pc t ≠ .done 0

/-- C77 (partial): ranges in clusters (in particular: pairwise equal or disjoint). Thread `t` asks for a lock
excluded by the lock `x`. As long as the holder of `x` lives and calls no unlock, the request does not return
0, and `x` stays in force — whatever all others do, die and sweep included. Missing: ranges that overlap
without being clustered (`C77_not_full`). -/
theorem C77_blocked_partial (R : DevIno → Rng → Prop) (hR : Clustered R) (s s' : State) (es : List Ev) (t : Nat)
    (op : Op) (x : Nat × Out) (hr : Reach (okIn R) s) (hl : Later (okIn R) s es s') (hx : x ∈ s.mem.outs)
    (hal : s.alive x.2.t = true) (hu : OutsideOrAsks s x.2.t) (ht : Asks s t op)
    (hc : Conflict x.2 (lockOf t op)) (h1 : Keeps x.2.t es) (h2 : Within t es) :
    s'.pc t ≠ .done 0 ∧ x ∈ s'.mem.outs ∧ s'.alive x.2.t = true := by
  have := blocked (fun s => C02_exclusion_partial R hR s) hr hl hx rfl hal
    (by rcases hu with ⟨r, h⟩ | ⟨op', h⟩ <;> rw [h] <;> rfl)
    (op := op) (t := t) (by rw [show s.pc t = _ from ht]; simp [Under, Call.start, code, opOf]) hc h1 h2
  refine ⟨fun h => this.2.2.2.1 (by rw [h]; rfl), this.1, this.2.1⟩

/-- Waiting for oneself: a thread that holds a lock and asks for one that excludes it (through whatever
descriptor of the file) waits for ever, unless it dies. -/
theorem C77_self_partial (R : DevIno → Rng → Prop) (hR : Clustered R) (s s' : State) (es : List Ev) (t : Nat)
    (op : Op) (x : Nat × Out) (hr : Reach (okIn R) s) (hl : Later (okIn R) s es s') (hx : x ∈ s.mem.outs)
    (hxt : x.2.t = t) (hal : s.alive t = true) (ht : Asks s t op) (hc : Conflict x.2 (lockOf t op))
    (hd : ∀ e ∈ es, ∀ c k, e ≠ .die t c k) (h2 : Within t es) :
    s'.pc t ≠ .done 0 ∧ x ∈ s'.mem.outs := by
  have := C77_blocked_partial R hR s s' es t op x hr hl hx (by rw [hxt]; exact hal) (.inr ⟨op, by rw [hxt]; exact ht⟩)
    ht hc (by rw [hxt]; exact fun e he => ⟨fun o => h2 e he _, hd e he⟩) h2
  exact ⟨this.1, this.2.1⟩

/-- Waiting for each other: `t` holds what `u` asks for and `u` holds what `t` asks for. Neither request is
granted while both live, and both locks stay in force. -/
theorem C77_crossing_partial (R : DevIno → Rng → Prop) (hR : Clustered R) (s s' : State) (es : List Ev) (t u : Nat)
    (a b : Op) (x y : Nat × Out) (hr : Reach (okIn R) s) (hl : Later (okIn R) s es s')
    (hx : x ∈ s.mem.outs) (hxt : x.2.t = t) (hy : y ∈ s.mem.outs) (hyu : y.2.t = u)
    (hat : s.alive t = true) (hau : s.alive u = true) (ht : Asks s t a) (hu : Asks s u b)
    (hc1 : Conflict y.2 (lockOf t a)) (hc2 : Conflict x.2 (lockOf u b))
    (hd : ∀ e ∈ es, ∀ c k, e ≠ .die t c k ∧ e ≠ .die u c k) (h1 : Within t es) (h2 : Within u es) :
    s'.pc t ≠ .done 0 ∧ s'.pc u ≠ .done 0 ∧ x ∈ s'.mem.outs ∧ y ∈ s'.mem.outs := by
  subst hxt hyu
  have k1 := C77_blocked_partial R hR s s' es x.2.t a y hr hl hy hau (.inr ⟨b, hu⟩) ht hc1
    (fun e he => ⟨fun o => h2 e he _, fun c k => (hd e he c k).2⟩) h1
  have k2 := C77_blocked_partial R hR s s' es y.2.t b x hr hl hx hat (.inr ⟨a, ht⟩) hu hc2
    (fun e he => ⟨fun o => h1 e he _, fun c k => (hd e he c k).1⟩) h2
  exact ⟨k1.1, k2.1, k2.2.1, k1.2.1⟩

theorem later_all {A : State → Ev → Prop} {ok : Ev → Bool} (hok : ∀ e, ok e = true → ∀ s, A s e) {s : State} :
    ∀ (es : List Ev) {s' : State}, run s es = some s' → es.all ok = true → Later A s es s' := by
  have key : ∀ (es pre : List Ev) (s1 s' : State), Later A s pre s1 → run s1 es = some s' → es.all ok = true →
      Later A s (pre ++ es) s' := by
    intro es
    induction es with
    | nil => intro pre s1 s' hl h _; simp only [run, Option.some.injEq] at h; subst h; simpa using hl
    | cons e es ih =>
      intro pre s1 s' hl h hall
      simp only [run] at h
      cases hs : step s1 e with
      | none => rw [hs] at h; cases h
      | some s2 =>
        rw [hs] at h
        simp only [List.all_cons, Bool.and_eq_true] at hall
        have := ih (pre ++ [e]) s2 s' (.more hl (hok e hall.1 s1) hs) h hall.2
        simpa using this
  intro es s' h hall
  have := key es [] s s' .here h hall
  simpa using this

/-- The code does not do that in general: thread 1 holds a write lock on [0,10), thread 2 a read lock on
[20,30); the read request of thread 3 for [5,25) is granted. -/
theorem C77_not_full : ¬ C77_full := by
  intro h
  obtain ⟨s, hs, ho⟩ := run_case (s0 := init 2 4 8 junk0)
    (es := lockBy 1 (mkOp 3 kX rA .wr .block) ++ lockBy 2 (mkOp 3 kX rB .rd .block) ++
      [.call 3 (.lock (mkOp 3 kX rC .rd .try_))])
    (fun s => (s.mem.outs, s.pc 1, s.pc 3, (run s (alone 3 9)).map fun s' => s'.pc 3))
    ([(1, out1 2 3 rB .rd), (0, out1 1 3 rA .wr)], .done 0, .acq (.lFile (mkOp 3 kX rC .rd .try_)), some (.done 0))
    (by decide +kernel)
  simp only [Prod.mk.injEq, Option.map_eq_some_iff] at ho
  obtain ⟨ho, h1, h3, s', hs', h3'⟩ := ho
  have hr := reach_all (A := fun s e => noDeath s e ∧ lockIn (fun _ r => SaneRange r) e)
    (fun _ h s => evSane_ok h s) hs (by decide +kernel)
  have hl := later_all (A := fun s e => noDeath s e ∧ lockIn (fun _ r => SaneRange r) e)
    (fun _ h s => evSane_ok h s) _ hs' (by decide +kernel)
  refine h s s' _ 3 (mkOp 3 kX rC .rd .try_) (0, out1 1 3 rA .wr) hr hl (by simp [ho]) (.inl ⟨_, h1⟩) h3 ?_ ?_ ?_ h3'
  · exact ⟨rfl, ⟨5, by simp only [Covers]; decide, by simp only [Covers]; decide⟩, Or.inl rfl⟩
  · intro e he
    simp only [alone, List.mem_replicate] at he
    rw [he.2]; simp
  · intro e he
    simp only [alone, List.mem_replicate] at he
    rw [he.2]; simp

/-- Thread 1 holds [0,10) and asks for it again; thread 1 holds [0,10), thread 2 [20,30), each asks for what
the other holds: the hypotheses are met, and long runs of both attempting are possible. -/
example : ∃ s s' es, Reach (okIn RX) s ∧ Later (okIn RX) s es s' ∧ es.length = 24 ∧
    (0, out1 1 3 rA .wr) ∈ s.mem.outs ∧ (1, out1 2 3 rB .wr) ∈ s.mem.outs ∧
    Asks s 1 (mkOp 4 kX rB .rd .block) ∧ Asks s 2 (mkOp 4 kX rA .wr .block) ∧
    Conflict (out1 2 3 rB .wr) (lockOf 1 (mkOp 4 kX rB .rd .block)) ∧
    Conflict (out1 1 3 rA .wr) (lockOf 2 (mkOp 4 kX rA .wr .block)) ∧
    Within 1 es ∧ Within 2 es ∧ (∃ op f o l, s'.pc 1 = .spin op f o l) ∧ ∃ op f o l, s'.pc 2 = .spin op f o l := by
  obtain ⟨s, hs, ho⟩ := run_case (s0 := init 2 4 8 junk0)
    (es := lockBy 1 (mkOp 3 kX rA .wr .block) ++ lockBy 2 (mkOp 3 kX rB .wr .block) ++
      [.call 1 (.lock (mkOp 4 kX rB .rd .block)), .call 2 (.lock (mkOp 4 kX rA .wr .block))])
    (fun s => (s.mem.outs, s.pc 1, s.pc 2, (run s (alone 1 12 ++ alone 2 12)).map fun s' => (s'.pc 1, s'.pc 2)))
    ([(1, out1 2 3 rB .wr), (0, out1 1 3 rA .wr)], .acq (.lFile (mkOp 4 kX rB .rd .block)),
      .acq (.lFile (mkOp 4 kX rA .wr .block)),
      some (.spin (mkOp 4 kX rB .rd .block) 0 1 2, .spin (mkOp 4 kX rA .wr .block) 0 0 3))
    (by decide +kernel)
  simp only [Prod.mk.injEq, Option.map_eq_some_iff] at ho
  obtain ⟨ho, h1, h2, s', hs', h3, h4⟩ := ho
  have hw : ∀ u, Within u (alone 1 12 ++ alone 2 12) := by
    intro u e he c
    simp only [alone, List.mem_append, List.mem_replicate] at he
    rcases he with ⟨_, rfl⟩ | ⟨_, rfl⟩ <;> simp
  refine ⟨s, s', _, reach_all (fun _ h s => (evRX_ok h s).2.2) hs (by decide +kernel),
    later_all (fun _ h s => (evRX_ok h s).2.2) _ hs' (by decide +kernel), by decide, by simp [ho], by simp [ho], h1, h2,
    ⟨rfl, overlap_self saneB, Or.inl rfl⟩, ⟨rfl, overlap_self saneA, Or.inl rfl⟩, hw 1, hw 2,
    ⟨_, _, _, _, h3⟩, ⟨_, _, _, _, h4⟩⟩

/-- Waiting for oneself through another descriptor. -/
example : ∃ s, Reach (okIn RX) s ∧ (0, out1 1 3 rA .rd) ∈ s.mem.outs ∧ s.alive 1 = true ∧
    Asks s 1 (mkOp 4 kX rA .wr .block) ∧ Conflict (out1 1 3 rA .rd) (lockOf 1 (mkOp 4 kX rA .wr .block)) := by
  obtain ⟨s, hs, ho⟩ := run_case (s0 := init 2 4 8 junk0)
    (es := lockBy 1 (mkOp 3 kX rA .rd .block) ++ [.call 1 (.lock (mkOp 4 kX rA .wr .block))])
    (fun s => (s.mem.outs, s.pc 1, s.alive 1))
    ([(0, out1 1 3 rA .rd)], .acq (.lFile (mkOp 4 kX rA .wr .block)), true) (by decide +kernel)
  simp only [Prod.mk.injEq] at ho
  exact ⟨s, reach_all (fun _ h s => (evRX_ok h s).2.2) hs (by decide +kernel), by simp [ho.1], ho.2.2, ho.2.1,
    ⟨rfl, overlap_self saneA, Or.inr rfl⟩⟩

end Fullock.Props
