import Verif.Proofs.FLMemStep
import Verif.Props.FileLock
import Verif.Props.FLCases
/-!
C67: the tables in the segment, as cells and references.
-/
namespace Fullock.Props
open Fullock Fullock.Spec Fullock.Layout Fullock.ListMem Fullock.FLMem
open _root_.Fullock.FL (mkOp kX rA RX junk0 lockBy unlockBy)

/-! ### The fresh segment -/

theorem sim_init {cnt : Pool → Nat} (hl : Limits cnt) {f f' : File} {os : List Sys} {b : Nat} {m : ListMem.Mem}
    (junk : FL.Mem) (h : initializeShmFile cnt f true os (some b) = some (.ok f' m)) :
    Sim cnt (FLMem.init m junk) (FL.init (cnt .file) (cnt .off) (cnt .locker) junk) := by
  obtain ⟨hw, hpos⟩ := noWrap_of_limits cnt hl
  obtain ⟨-, -, -, -, ⟨L, hwf, hL1, hL2⟩, hz⟩ := C40_memory_partial cnt f f' os b m hl h
  have hfree : ∀ p, Chain m (m (freeCell p)) ((List.range (cnt p)).map (adr cnt p)) := by
    intro p
    have := hwf.chain (freeCell p) (by cases p <;> decide)
    rw [hL2 p] at this
    exact this
  refine ⟨?_, ⟨rfl, rfl, rfl, rfl, rfl, rfl, rfl, rfl, rfl, rfl⟩, rfl, rfl, rfl, FL.sinv_init _ _ _ _, ?_, ?_⟩
  · intro hd hlv
    cases hd with
    | files =>
      have := hwf.chain (headCell 4) (by decide)
      rw [hL1 (headCell 4) (by decide)] at this
      exact this
    | ffree => exact hfree .file
    | ofree => exact hfree .off
    | lfree => exact hfree .locker
    | offs i =>
      have hi : i < cnt .file := hlv
      obtain ⟨o1, o2, o3, o4, o5, o6, o7, o8, o9⟩ := offs cnt hw
      obtain ⟨r1, r2, r3, r4, r5, r6, r7⟩ := recSize_values
      have ht := C40_areas_partial cnt hw
      have hc := (cell_eq cnt hw).2.2.2.2.1 i
      show m (cell cnt (.offs i)) = 0
      refine hz _ ?_ ?_ ?_
      · rw [hc, r7]; omega
      · rw [hc]
        simp only [r1, r2, r3, r4, r5, r6, r7] at ht
        omega
      · intro p j hj
        rw [hc]
        have := hpos p
        cases p <;> simp only [r1, r2, r3, r4, r5, r6] <;> omega
    | lks o md =>
      obtain ⟨g, -, ho⟩ := hlv
      cases ho
  · constructor <;> simp [FL.init]
  · intro t; trivial

/-! ### C67 -/

/-- C67, transfer: if the events allowed on the cells correspond to events allowed on the lists, then
every reachable state of the segment corresponds to a reachable state of the lists. -/
theorem cells_reach {cnt : Pool → Nat} (hl : Limits cnt) {fuel : Nat} (hf : Fuel cnt fuel)
    {A : FLMem.State → FLMem.Ev → Prop} {A' : FL.State → FL.Ev → Prop}
    (hA : ∀ x s e e', Sim cnt x s → A x e → Match e e' → A' s e')
    (hwh : ∀ x e, A x e → e.whole cnt fuel x) {x : FLMem.State} (hr : FLMem.Reach cnt fuel A x) :
    ∃ s, Spec.Reach A' s ∧ Sim cnt x s := by
  obtain ⟨hw, -⟩ := noWrap_of_limits cnt hl
  induction hr with
  | init junk h => exact ⟨_, Reach.init _ _ _ junk, sim_init hl junk h⟩
  | step _ ha hs ih =>
    obtain ⟨s, h1, h2⟩ := ih
    obtain ⟨e', s', m1, m2, m3⟩ := sim_step hw hf h2 (hwh _ _ ha) hs
    exact ⟨s', Reach.step h1 (hA _ _ _ _ h2 ha m1) m2, m3⟩

/-- C67 as stated: whoever dies wherever, the references in the segment form separate finite lists of
existing records. -/
def C67_full : Prop := ∀ cnt, Limits cnt → ∀ fuel, Fuel cnt fuel → ∀ x,
  FLMem.Reach cnt fuel (fun _ _ => True) x → Intact cnt x.cells

/-- C67 (partial: nobody dies in the middle of the bulk return of the ranges of a file): in every
reachable state of the segment, with deaths between any two memory writes, the references form separate
finite lists of existing records; every process, wherever it maps the segment, sees the same tables; and
these are the tables of a reachable state of the model on lists, with the same threads at the same
places, so that the theorems about that model hold for the segment. -/
theorem C67_partial (cnt : Pool → Nat) (hl : Limits cnt) (fuel : Nat) (hf : Fuel cnt fuel) (x : FLMem.State)
    (hr : FLMem.Reach cnt fuel (fun x e => e.whole cnt fuel x) x) :
    Intact cnt x.cells ∧ ∃ s, Spec.Reach (fun _ _ => True) s ∧ x.lockid = s.lockid ∧ x.alive = s.alive ∧
      x.pc = s.pc ∧ x.pay.outs = s.mem.outs ∧ ∀ b, SameLive cnt s.mem (view cnt b fuel x.cells x.pay) := by
  obtain ⟨s, h1, h2⟩ := cells_reach hl hf (A' := fun _ _ => True) (fun _ _ _ _ _ _ _ => trivial)
    (fun _ _ h => h) hr
  exact ⟨⟨s.mem, sound_of h2.bnd h2.inv.sok, h2.rep⟩, s, h1, h2.lockid, h2.alive, h2.pc, h2.pay.outs.symm,
    fun b => view_sameLive h2.bnd h2.inv.sok h2.rep h2.pay hf b⟩

/-- C67, progress (partial as above): whatever step is possible for a thread on the tables is possible
on the segment, wherever its process maps it: no loop over the references runs for ever, with as many
rounds as there are records plus one.  A call, a step and a death before any action are possible on the
segment exactly when they are possible on the tables. -/
theorem C67_progress_partial (cnt : Pool → Nat) (hl : Limits cnt) (fuel : Nat) (hf : Fuel cnt fuel)
    (x : FLMem.State) (hr : FLMem.Reach cnt fuel (fun x e => e.whole cnt fuel x) x) :
    ∃ s, Spec.Reach (fun _ _ => True) s ∧ x.lockid = s.lockid ∧ x.alive = s.alive ∧ x.pc = s.pc ∧
      (∀ b, SameLive cnt s.mem (view cnt b fuel x.cells x.pay)) ∧
      ∀ e b, (FL.step s e).isSome = (FLMem.step cnt fuel x (lift b e)).isSome := by
  obtain ⟨hw, -⟩ := noWrap_of_limits cnt hl
  obtain ⟨s, h1, h2⟩ := cells_reach hl hf (A' := fun _ _ => True) (fun _ _ _ _ _ _ _ => trivial)
    (fun _ _ h => h) hr
  refine ⟨s, h1, h2.lockid, h2.alive, h2.pc, fun b => view_sameLive h2.bnd h2.inv.sok h2.rep h2.pay hf b,
    fun e b => ?_⟩
  cases hs : FL.step s e with
  | some s' =>
    obtain ⟨x', hx', -⟩ := sim_back hw hf h2 b hs
    rw [hx']; rfl
  | none =>
    cases hx : FLMem.step cnt fuel x (lift b e) with
    | none => rfl
    | some x' =>
      obtain ⟨e', s', m1, m2, -⟩ := sim_step hw hf h2 (lift_whole hw hf b e x) hx
      rw [match_lift m1, hs] at m2
      cases m2

/-- C01 for the segment: no two conflicting locks are in force (ranges pairwise equal or disjoint,
nobody dies in the middle of an unlock or of a bulk return). -/
theorem C67_exclusion_partial (cnt : Pool → Nat) (hl : Limits cnt) (fuel : Nat) (hf : Fuel cnt fuel)
    (R : DevIno → Rng → Prop) (hR : Separate R) (x : FLMem.State)
    (hr : FLMem.Reach cnt fuel (fun x e => e.whole cnt fuel x ∧ FLMem.okDeath x e ∧ FLMem.lockIn R e) x) :
    ∀ p ∈ x.pay.outs, ∀ q ∈ x.pay.outs, p.1 ≠ q.1 → ¬ Conflict p.2 q.2 := by
  obtain ⟨s, h1, h2⟩ := cells_reach hl hf (A' := okIn R) (by
    rintro x s e e' hx ⟨-, ha, hb⟩ hm
    cases hm with
    | call t c => cases c <;> exact ⟨trivial, hb⟩
    | go t b c => exact ⟨trivial, trivial⟩
    | die t b c k j k' hk h0 =>
      refine ⟨?_, trivial⟩
      simp only [FLMem.okDeath, hx.pc] at ha
      simp only [FL.okDeath]
      cases hp : s.pc t <;> simp only [hp] at ha ⊢
      · rcases ha with ha | ⟨ha, hj⟩
        · exact Or.inl ha
        · exact Or.inr ((h0 hj).trans ha)
      · exact ⟨ha.1, by have := ha.2; omega⟩) (fun _ _ h => h.1) hr
  rw [← h2.pay.outs]
  exact C01_exclusion_partial R hR s h1

/-! ### The full statement is false -/

theorem wf_sub {m : ListMem.Mem} {H H' : List Nat} {L : Nat → List Nat} (hw : WF m H L) (hs : ∀ x ∈ H', x ∈ H) :
    WF m H' L :=
  ⟨fun x hx => hw.chain x (hs x hx), fun x hx => hw.nodup x (hs x hx),
    fun x hx r hr hr' => hw.notHead x (hs x hx) r hr (hs r hr'),
    fun x hx y hy => hw.disj x (hs x hx) y (hs y hy)⟩

/-- A run of the lists followed on the segment. -/
theorem sim_run {cnt : Pool → Nat} (hw : NoWrap cnt) {fuel : Nat} (hf : Fuel cnt fuel) (b : Nat)
    {A : FLMem.State → FLMem.Ev → Prop} : ∀ {es : List FL.Ev} {x : FLMem.State} {s s' : FL.State},
    (∀ e ∈ es, ∀ x, A x (lift b e)) → FLMem.Reach cnt fuel A x → Sim cnt x s → FL.run s es = some s' →
    ∃ x', FLMem.Reach cnt fuel A x' ∧ Sim cnt x' s'
  | [], x, s, s', _, hr, hx, h => by
    simp only [FL.run, Option.some.injEq] at h
    subst h
    exact ⟨x, hr, hx⟩
  | e :: es, x, s, s', hA, hr, hx, h => by
    simp only [FL.run] at h
    cases hs : FL.step s e with
    | none => rw [hs] at h; cases h
    | some s1 =>
      rw [hs] at h
      obtain ⟨x1, h1, h2⟩ := sim_back hw hf hx b hs
      exact sim_run hw hf b (fun e he => hA e (List.mem_cons_of_mem _ he))
        (.step hr (hA e List.mem_cons_self x) h1) h2 h

/-- The first run of the counterexample: with file records kept, thread 1 locks [0,10); thread 2 tries
the same and is refused; thread 1 unlocks, keeping its range record; thread 2 frees the file. -/
def op67a : FL.Op := { mkOp 3 kX rA .wr .block with freeOff := false, freeFd := false }
def op67b : FL.Op := { mkOp 3 kX rA .wr .try_ with freeOff := false, freeFd := true }
def es67 : List FL.Ev := lockBy 1 op67a ++ (.call 2 (.lock op67b) :: Spec.alone 2 8) ++ unlockBy 1 op67a ++ Spec.alone 2 4

theorem run67 : ∃ s, FL.run (FL.init 1 4 4 junk0) es67 = some s ∧ s.alive 2 = true ∧ s.mem.offs 0 = [0] ∧
    FL.plan s.mem s.alive 2 (s.pc 2) .go = some ([.drainO 0, .cutF 0, .pushF 0], .rel (.done 16)) := by
  have h : ∃ s, FL.run (FL.init 1 4 4 junk0) es67 = some s := ⟨_, rfl⟩
  obtain ⟨s, hs⟩ := h
  refine ⟨s, hs, ?_⟩
  have e : (FL.run (FL.init 1 4 4 junk0) es67).map (fun s => (s.alive 2, s.mem.offs 0,
      FL.plan s.mem s.alive 2 (s.pc 2) .go)) =
      some (true, [0], some ([.drainO 0, .cutF 0, .pushF 0], .rel (.done 16))) := by decide +kernel
  rw [hs] at e
  simp only [Option.map_some, Option.some.injEq, Prod.mk.injEq] at e
  exact e

theorem C67_not_full : ¬ C67_full := by
  intro hfull
  have hl : Limits Pool.min := by intro p; cases p <;> decide
  obtain ⟨hw, -⟩ := noWrap_of_limits _ hl
  have hf : Fuel Pool.min 5 := by simp only [Fuel]; decide
  obtain ⟨f', m, hm⟩ := C40_succeeds Pool.min File.truncate0 4096 hl
  obtain ⟨s, hrun, hal, hoffs, hplan⟩ := run67
  obtain ⟨x, hr, hx⟩ := sim_run hw hf 4096 (A := fun _ _ => True) (fun _ _ _ => trivial)
    (FLMem.Reach.init junk0 hm) (sim_init hl junk0 hm) hrun
  have hwf := rep_wf hw hx.bnd hx.inv.sok hx.rep
  have hl1 : Live Pool.min s.mem (.offs 0) := by show 0 < _; decide
  have hl2 : Live Pool.min s.mem .ofree := trivial
  have hH1 := mem_hs (cnt := Pool.min).2 ⟨_, hl1, rfl⟩
  have hH2 := mem_hs (cnt := Pool.min).2 ⟨_, hl2, rfl⟩
  have hne : cell Pool.min (.offs 0) ≠ cell Pool.min .ofree :=
    fun e => by have := cell_inj hw (live_hb hx.bnd hl1) (live_hb hx.bnd hl2) e; cases this
  have hlen := ls_len hw hx.bnd hx.inv.sok hf _ hH1
  obtain ⟨ws, hws, -⟩ := C57_bulk_return_complete hwf 4096 hH1 hH2 hne hlen
  obtain ⟨ws0, h1, h2, -⟩ := drain_ok hwf 4096 hH1 hH2 hne hlen
  have hwlen : ws.length = 3 := by
    rw [ls_cell hw hx.bnd hl1] at h2
    simp only [drainW, h1, Option.map_some, Option.some.injEq] at hws
    subst hws
    simp [h2, recs, hoffs]
  have hstep : FLMem.step Pool.min 5 x (.die 2 4096 .go 0 2) =
      some { x with cells := applyWrites x.cells (ws.take 2), pay := x.pay.acts [], alive := FL.fset x.alive 2 false } := by
    simp only [FLMem.step]
    rw [if_neg (by rw [hx.alive, hal]; simp), sim_plan hw hf hx hal 4096 .go, hplan]
    simp only [cut, List.take_zero, actsW, Option.bind_some, List.drop_zero, actW, hws, Option.map_some,
      effective, Bool.false_eq_true, if_false]
  obtain ⟨m', hsd, hrep⟩ := hfull _ hl _ hf _ (.step hr trivial hstep)
  have hwf' := sound_wf hw hsd hrep
  have hl1' : Live Pool.min m' (.offs 0) := by show 0 < _; decide
  have hH1' := mem_hs (cnt := Pool.min).2 ⟨_, hl1', rfl⟩
  have hH2' := mem_hs (cnt := Pool.min) (m := m').2 ⟨.ofree, trivial, rfl⟩
  have hsub : ∀ H : List Nat, cell Pool.min (.offs 0) ∈ H → cell Pool.min .ofree ∈ H →
      ∀ y ∈ [cell Pool.min (.offs 0), cell Pool.min .ofree], y ∈ H := by
    intro H a b y hy
    simp only [List.mem_cons, List.not_mem_nil, or_false] at hy
    rcases hy with rfl | rfl
    · exact a
    · exact b
  exact C57_crash_corrupts (wf_sub hwf (hsub _ hH1 hH2)) 4096 (h := cell Pool.min (.offs 0))
    (fr := cell Pool.min .ofree) (fuel := 5) (by simp) (by simp) hne hlen hws (k := 2) (by decide)
    (by omega) ⟨_, wf_sub hwf' (hsub _ hH1' hH2')⟩

/-- The hypotheses of `C67_partial` and `C67_exclusion_partial` are met: a lock on [0,10) is in force. -/
example : ∃ x, FLMem.Reach Pool.min 5 (fun x e => e.whole Pool.min 5 x ∧ FLMem.okDeath x e ∧ FLMem.lockIn RX e) x ∧
    x.pay.outs.length = 1 := by
  have hl : Limits Pool.min := by intro p; cases p <;> decide
  obtain ⟨hw, -⟩ := noWrap_of_limits _ hl
  have hf : Fuel Pool.min 5 := by simp only [Fuel]; decide
  obtain ⟨f', m, hm⟩ := C40_succeeds Pool.min File.truncate0 4096 hl
  have e : (FL.run (FL.init 1 4 4 junk0) (lockBy 1 (mkOp 3 kX rA .wr .block))).map (fun s => s.mem.outs.length) =
      some 1 := by decide +kernel
  cases hrun : FL.run (FL.init 1 4 4 junk0) (lockBy 1 (mkOp 3 kX rA .wr .block)) with
  | none => rw [hrun] at e; cases e
  | some s =>
    rw [hrun] at e
    obtain ⟨x, hr, hx⟩ := sim_run hw hf 8192
      (A := fun x e => e.whole Pool.min 5 x ∧ FLMem.okDeath x e ∧ FLMem.lockIn RX e) (by
        intro e he x
        refine ⟨lift_whole hw hf _ _ _, ?_⟩
        simp only [lockBy, Spec.alone, List.mem_cons, List.mem_replicate] at he
        rcases he with rfl | ⟨-, rfl⟩
        · exact ⟨trivial, Or.inl rfl⟩
        · exact ⟨trivial, trivial⟩)
      (FLMem.Reach.init junk0 hm) (sim_init hl junk0 hm) hrun
    refine ⟨x, hr, ?_⟩
    rw [← hx.pay.outs]
    simpa using e

end Fullock.Props
