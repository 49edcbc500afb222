import Verif.Proofs.SweepMem
import Verif.Props.FLMem
/-!
C68: looking for dead holders, on the segment.
-/
namespace Fullock.Props
open Fullock Fullock.Spec Fullock.Layout Fullock.ListMem Fullock.FLMem
open _root_.Fullock.FL (mkOp kX rA RX junk0 lockBy unlockBy)

/-- C68: in every reachable state of the segment (nobody died in the middle of a bulk return), a thread
that looks for dead holders, wherever its process maps the segment, walks the lists while it unlinks
records from them, and comes to an end, with as many rounds per list as there are records plus one.
Afterwards the lists are intact; the locks in force are exactly those of living holders; no record of a
dead holder or of a dead waiting request is left in any list, whoever looks; and the walk is one of the
runs of the model, so that the other theorems about reachable states hold after it. -/
theorem C68_sweep (cnt : Pool → Nat) (hl : Limits cnt) (fuel : Nat) (hf : Fuel cnt fuel) (x : FLMem.State)
    (hr : FLMem.Reach cnt fuel (fun x e => e.whole cnt fuel x) x) (t : Nat) (hal : x.alive t = true)
    (hpc : x.pc t = .sw) (b : Nat) :
    ∃ c p, sweepAllW cnt b fuel x.alive (x.cells, x.pay) = some (c, p) ∧ Intact cnt c ∧
      (∀ z, z ∈ p.outs ↔ z ∈ x.pay.outs ∧ x.alive z.2.t = true) ∧
      (∀ b', ∀ f ∈ (view cnt b' fuel c p).files, ∀ o ∈ (view cnt b' fuel c p).offs f,
        ∀ md, ∀ l ∈ (view cnt b' fuel c p).lks o md, x.alive (p.ltid l) = true) ∧
      FLMem.Reach cnt fuel (fun x e => e.whole cnt fuel x) { x with cells := c, pay := p } := by
  obtain ⟨hw, -⟩ := noWrap_of_limits cnt hl
  obtain ⟨s, h1, h2⟩ := cells_reach hl hf (A' := fun _ _ => True) (fun _ _ _ _ _ _ _ => trivial)
    (fun _ _ h => h) hr
  have hal' : s.alive t = true := by rw [← h2.alive]; exact hal
  have hpc' : s.pc t = .sw := by rw [← h2.pc]; exact hpc
  obtain ⟨⟨c, p⟩, e1, e2⟩ := sweepAll_cells hw hf b hal' hpc' (m0 := s.mem) h2.inv h2.alive h2.pc (x0 := x)
    (x := (x.cells, x.pay)) ⟨h2.rep, h2.pay, h2.bnd, FL.stay_refl _ _ _, hr⟩
  obtain ⟨_, g2, g3⟩ := FL.sweepAll_spec hal' hpc' h2.inv
  rw [h2.alive]
  have hsok := e2.sok h2.inv
  refine ⟨c, p, e1, ⟨_, sound_of e2.bnd hsok, e2.rep⟩, ?_, ?_, by rw [← h2.alive]; exact e2.reach⟩
  · intro z
    have := g3 z
    rw [e2.pay.outs, h2.pay.outs] at this
    exact this
  · intro b' f hff o ho md l hl
    have hv := view_sameLive e2.bnd hsok e2.rep e2.pay hf b'
    rw [hv.files.symm] at hff
    have hfb := e2.bnd.fs f hff
    rw [← hv.offs f hfb] at ho
    rw [← hv.lks f hfb o ho] at hl
    have := g2 f hff o ho md l hl
    rwa [e2.pay.ltid] at this

/-- The hypotheses of `C68_sweep` are met with a dead holder: thread 1 has locked [0,10) and died, thread
2 holds nothing and is looking for dead holders; afterwards no lock is in force. -/
example : ∃ x, FLMem.Reach Pool.min 5 (fun x e => e.whole Pool.min 5 x) x ∧ x.alive 2 = true ∧ x.pc 2 = .sw ∧
    x.pay.outs.length = 1 ∧ ∃ c p, sweepAllW Pool.min 8192 5 x.alive (x.cells, x.pay) = some (c, p) ∧ p.outs = [] := by
  have hl : Limits Pool.min := by intro p; cases p <;> decide
  obtain ⟨hw, -⟩ := noWrap_of_limits _ hl
  have hf : Fuel Pool.min 5 := by simp only [Fuel]; decide
  obtain ⟨f', m, hm⟩ := C40_succeeds Pool.min File.truncate0 4096 hl
  have e : (FL.run (FL.init 1 4 4 junk0) (lockBy 1 (mkOp 3 kX rA .wr .block) ++
      [.die 1 .go 0, .call 2 .sweep, .go 2 .go])).map (fun s => (s.alive 1, s.alive 2, s.pc 2, s.mem.outs.map (·.2.t))) =
      some (false, true, .sw, [1]) := by decide +kernel
  cases hrun : FL.run (FL.init 1 4 4 junk0) (lockBy 1 (mkOp 3 kX rA .wr .block) ++
      [.die 1 .go 0, .call 2 .sweep, .go 2 .go]) with
  | none => rw [hrun] at e; cases e
  | some s =>
    rw [hrun] at e
    simp only [Option.map_some, Option.some.injEq, Prod.mk.injEq] at e
    obtain ⟨e1, e2, e3, e4⟩ := e
    obtain ⟨x, hr, hx⟩ := sim_run hw hf 8192
      (A := fun x e => e.whole Pool.min 5 x) (by
        intro e he x
        exact lift_whole hw hf _ _ _)
      (FLMem.Reach.init junk0 hm) (sim_init hl junk0 hm) hrun
    have hal : x.alive 2 = true := by rw [hx.alive]; exact e2
    have hpc : x.pc 2 = .sw := by rw [hx.pc]; exact e3
    obtain ⟨c, p, h1, -, h2, -⟩ := C68_sweep Pool.min hl 5 hf x hr 2 hal hpc 8192
    rw [hx.pay.outs] at e4
    refine ⟨x, hr, hal, hpc, by simpa using congrArg List.length e4, c, p, h1, ?_⟩
    refine List.eq_nil_iff_forall_not_mem.2 fun z hz => ?_
    obtain ⟨q1, q2⟩ := (h2 z).1 hz
    have : z.2.t ∈ x.pay.outs.map (·.2.t) := List.mem_map_of_mem q1
    rw [e4] at this
    simp only [List.mem_singleton] at this
    rw [this, hx.alive, e1] at q2
    cases q2

/-- C68, waiting threads: the walk over the waiters of a condition, unlinking the dead ones, ends, keeps
the living ones in their order, and returns exactly the dead ones to the free list; no other list is
touched. -/
theorem C68_waiters {m : ListMem.Mem} {H : List Nat} {L : Nat → List Nat} (hw : WF m H L) (b : Nat) {h fr : Nat}
    (hh : h ∈ H) (hfr : fr ∈ H) (hne : h ≠ fr) (dead : Nat → Bool) {fuel : Nat} (hf : (L h).length < fuel) :
    ∃ m' L', sweepWaiters b fuel h fr dead m = some m' ∧ WF m' H L' ∧
      L' h = (L h).filter (fun r => !dead r) ∧
      L' fr = ((L h).filter dead).reverse ++ L fr ∧ ∀ z, z ≠ h → z ≠ fr → L' z = L z := by
  obtain ⟨m', h1, h2⟩ := sweepWaiters_ok hw b hh hfr hne dead hf
  refine ⟨m', _, h1, h2, by simp [upd, hne], by simp [upd], fun z a b => by simp [upd, a, b]⟩

example : (sweepWaiters 1000 5 8 16 (fun r => r == 32) exMem).map (fun m => (m 8, m 16, m 32, m 48, m 64)) =
    some (48, 32, 64, 0, 0) := by decide
example : WF exMem [8, 16] exL ∧ exL 8 = [32, 48] := ⟨exWF, rfl⟩

/-- C68: the lists after the walk do not depend on where the segment is mapped. -/
theorem C68_anywhere {m : ListMem.Mem} {H : List Nat} {L : Nat → List Nat} (hw : WF m H L) (b b' : Nat) {h fr : Nat}
    (hh : h ∈ H) (hfr : fr ∈ H) (hne : h ≠ fr) (dead : Nat → Bool) {fuel : Nat} (hf : (L h).length < fuel) :
    ∃ m1 m2, sweepWaiters b fuel h fr dead m = some m1 ∧ sweepWaiters b' fuel h fr dead m = some m2 ∧
      ∃ L', WF m1 H L' ∧ WF m2 H L' := by
  obtain ⟨m1, h1, h2⟩ := sweepWaiters_ok hw b hh hfr hne dead hf
  obtain ⟨m2, h3, h4⟩ := sweepWaiters_ok hw b' hh hfr hne dead hf
  exact ⟨m1, m2, h1, h3, _, h2, h4⟩

end Fullock.Props
