import Verif.Proofs.FLOrder
import Verif.Props.FLForever
/-! C83: taking file ranges in a fixed order. -/
namespace Fullock.Props
open Fullock.FL Fullock.FLive Fullock.Spec

/-- C83: threads that wait for ranges in a fixed order are never deadlocked, whatever order, whoever is killed (`okDeath`), in
the cases in which locks exclude each other (ranges in clusters, C02). Calls that do not wait for ever need not be in order. -/
theorem C83_no_deadlock (R : DevIno → Rng → Prop) (hR : Clustered R) (rk : DevIno → Rng → Nat) (hrk : Ranked R rk) (s : State)
    (r : Reach (fun s e => okIn R s e ∧ inOrder rk s e) s) (D : Nat → Prop) : ¬ Deadlock s D := by
  have ri := reach_rinv (fun _ _ h => h.1.2) r
  exact no_deadlock hR hrk (reach_sinv r) ri (exclusive_of_inv hR (reach_sinv r) (reach_winv (fun _ _ h => h.1.1) r) ri)
    (ordered_reach (fun _ _ h => h.2) r) D

/-- C83: and if the calls come to an end, and who holds a lock outside calls calls again (say to release it) or is
killed, every call returns. -/
theorem C83_returns (R : DevIno → Rng → Prop) (hR : Clustered R) (rk : DevIno → Rng → Nat) (hrk : Ranked R rk)
    (σ : Nat → State) (ε : Nat → Option Ev) (ex : Exec (fun s e => softIn R s e ∧ inOrder rk s e) σ ε) (hf : Fair σ ε)
    (hcb : ComesBack σ ε) (hce : CallsEnd ε) (hd : DeadSeen σ ε) (hti : Timely σ ε) (hra : RacesReal σ ε) (t i : Nat) :
    ReturnsAfter σ t i := order_returns hR hrk ex hf hcb hce hd hti hra t i

/-- C83: threads once deadlocked stay so and none of them returns, whatever the others do and whoever else is killed. -/
theorem C83_stays (R : DevIno → Rng → Prop) (hR : Clustered R) (s s' : State) (r : Reach (okIn R) s) (D : Nat → Prop)
    (h : Deadlock s D) (es : List Ev) (ha : Later (fun s e => okIn R s e ∧ spares D e) s es s') :
    Deadlock s' D ∧ ∀ t, D t → inCall s' t := by
  have key : Deadlock s' D ∧ Reach (okIn R) s' := by
    induction ha with
    | here => exact ⟨h, r⟩
    | more _ he hs ih => exact ⟨deadlock_step hR ih.2 ih.1 he.1 he.2 hs, .step ih.2 he.1 hs⟩
  refine ⟨key.1, fun t ht => ?_⟩
  obtain ⟨h1, op, h2, _⟩ := key.1.2 t ht
  exact ⟨h1, (waits_uop h2).2.2⟩

/-! ### Cases -/

/-- 1 takes [0,10), 2 takes [20,30), then each asks for the other one. -/
def cross83 : List Ev :=
  lockBy 1 (mkOp 3 kX rA .wr .block) ++ lockBy 2 (mkOp 4 kX rB .rd .block) ++
  .call 1 (.lock (mkOp 3 kX rB .wr .block)) :: alone 1 8 ++ .call 2 (.lock (mkOp 4 kX rA .rd .block)) :: alone 2 8

theorem evRX_ok83 {s : State} {e : Ev} (h : evRX e = true) : okIn RX s e := by
  cases e with
  | call t c =>
    refine ⟨trivial, ?_⟩
    cases c with
    | lock op => simpa [evRX, lockIn, RX] using h
    | _ => trivial
  | go t c => exact ⟨trivial, trivial⟩
  | die t c k => cases h

theorem run_reach83 {A : State → Ev → Prop} {s s' : State} {es : List Ev} (hA : ∀ e ∈ es, ∀ s, A s e) (r : Reach A s)
    (h : run s es = some s') : Reach A s' := by
  induction es generalizing s with
  | nil => cases h; exact r
  | cons e es ih =>
    obtain ⟨y, h1, h2⟩ := Option.bind_eq_some_iff.mp h
    exact ih (fun e he => hA e (List.mem_cons_of_mem _ he)) (.step r (hA e (List.mem_cons_self ..) s) h1) h2

theorem crossing83 : ∃ s, run (FL.init 2 4 8 junk0) cross83 = some s ∧ Reach (okIn RX) s ∧ Deadlock s (fun t => t = 1 ∨ t = 2) := by
  obtain ⟨s, hr, h1⟩ := run_case (s0 := FL.init 2 4 8 junk0) (es := cross83)
    (fun s => decide (s.alive 1 = true ∧ s.alive 2 = true ∧ s.pc 1 = .spin (mkOp 3 kX rB .wr .block) 0 1 2 ∧
      s.pc 2 = .spin (mkOp 4 kX rA .rd .block) 0 0 3 ∧ (0, ⟨1, 3, kX, rA, .wr⟩) ∈ s.mem.outs ∧ (1, ⟨2, 4, kX, rB, .rd⟩) ∈ s.mem.outs))
    true (by decide +kernel)
  simp only [decide_eq_true_eq] at h1
  obtain ⟨a1, a2, a3, a4, a5, a6⟩ := h1
  have hl : ∀ e ∈ cross83, evRX e = true := by decide +kernel
  refine ⟨s, hr, run_reach83 (fun e he s => evRX_ok83 (hl e he)) (.init ..) hr, ⟨1, .inl rfl⟩, ?_⟩
  rintro t (rfl | rfl)
  · exact ⟨a1, _, by rw [a3]; exact ⟨rfl, rfl⟩, _, a6, .inr rfl, rfl, ⟨20, by simp [Covers]; decide⟩, .inr rfl⟩
  · exact ⟨a2, _, by rw [a4]; exact ⟨rfl, rfl⟩, _, a5, .inl rfl, rfl, ⟨0, by simp [Covers]; decide⟩, .inl rfl⟩

/-- C83: without order two threads can be deadlocked, though nobody dies and one of them only reads. -/
theorem C83_crossing : ∃ s, Reach (okIn RX) s ∧ Deadlock s (fun t => t = 1 ∨ t = 2) :=
  let ⟨s, _, h⟩ := crossing83
  ⟨s, h⟩

/-- [0,10) before [20,30). -/
def rk83 : DevIno → Rng → Nat := fun _ r => if r = rB then 1 else 0

theorem ranked83 : Ranked RX rk83 := by
  intro k r r' h h' ho
  rcases sepRX.apart k r r' h h' with e | e
  · rw [e]
  · exact absurd ho e

/-- 1 takes [0,10) for writing, 2 asks for it and waits; 1 takes [20,30); releases both; 2 obtains its lock, takes [20,30)
and releases both. -/
def es83 : List Ev :=
  lockBy 1 (mkOp 3 kX rA .wr .block) ++ .call 2 (.lock (mkOp 4 kX rA .wr .block)) :: alone 2 8 ++
  lockBy 1 (mkOp 3 kX rB .wr .block) ++ unlockBy 1 (mkOp 3 kX rB .wr .block) ++ unlockBy 1 (mkOp 3 kX rA .wr .block) ++
  alone 2 2 ++ lockBy 2 (mkOp 4 kX rB .rd .block) ++ unlockBy 2 (mkOp 4 kX rB .rd .block) ++ unlockBy 2 (mkOp 4 kX rA .wr .block)

def ordEv83 (s : State) : Ev → Bool
  | .call t (.lock op) => s.mem.outs.all fun x => x.2.t != t || decide (rk83 x.2.key x.2.rng < rk83 op.key op.rng)
  | _ => true

def isCall83 (t : Nat) : Option Ev → Bool
  | some (.call u _) => u == t
  | _ => false

def busy83 : Pc → Bool
  | .done _ => false
  | _ => true

/-- Non-vacuity of C83. -/
theorem case83 : ∃ σ ε, Exec (fun s e => softIn RX s e ∧ inOrder rk83 s e) σ ε ∧ Fair σ ε ∧ ComesBack σ ε ∧ CallsEnd ε ∧ DeadSeen σ ε ∧
    Timely σ ε ∧ RacesReal σ ε ∧ waits (mkOp 4 kX rA .wr .block) ((σ 19).pc 2) ∧ (σ 19).alive 2 = true ∧ (0, ⟨1, 3, kX, rA, .wr⟩) ∈ (σ 19).mem.outs ∧
    (σ 29).pc 1 = .done 0 ∧ (2, ⟨1, 3, kX, rB, .wr⟩) ∈ (σ 29).mem.outs := by
  obtain ⟨s, hr, h1⟩ := run_case (s0 := FL.init 2 4 8 junk0) (es := es83)
    (fun s => (decide (s.pc 1 = .done 0 ∧ s.pc 2 = .done 0 ∧ s.mem.outs = []))) true (by decide +kernel)
  simp only [decide_eq_true_eq] at h1
  obtain ⟨a1, a2, a3⟩ := h1
  have hl : ∀ t ∈ es83.map Ev.tid, t = 1 ∨ t = 2 := by decide +kernel
  obtain ⟨g1, g2, _, g4, g5, g6, g7⟩ := Ends82.good (es := es83) (s := s) ⟨(fun t ht => by
    rcases hl t ht with rfl | rfl
    · exact .inl ⟨0, a1⟩
    · exact .inl ⟨0, a2⟩), a3⟩ hr (by decide +kernel)
  have e : (fun s : State => decide (s.pc 2 = .spin (mkOp 4 kX rA .wr .block) 0 0 1 ∧ s.alive 2 = true ∧ (0, ⟨1, 3, kX, rA, .wr⟩) ∈ s.mem.outs))
      (fin82 (FL.init 2 4 8 junk0) es83 19) = true := by decide +kernel
  have e' : (fun s : State => decide (s.pc 1 = .done 0 ∧ (2, ⟨1, 3, kX, rB, .wr⟩) ∈ s.mem.outs))
      (fin82 (FL.init 2 4 8 junk0) es83 29) = true := by decide +kernel
  simp only [decide_eq_true_eq] at e e'
  have ho : ((List.range es83.length).all fun i => match es83[i]? with
      | some e => ordEv83 (fin82 (FL.init 2 4 8 junk0) es83 i) e
      | none => true) = true := by decide +kernel
  have hb : ((List.range es83.length).all fun i => (fin82 (FL.init 2 4 8 junk0) es83 i).mem.outs.all fun x =>
      busy83 ((fin82 (FL.init 2 4 8 junk0) es83 i).pc x.2.t) ||
      (List.range es83.length).any fun j => decide (i ≤ j) && isCall83 x.2.t es83[j]?) = true := by decide +kernel
  simp only [List.all_eq_true, List.mem_range, List.any_eq_true, Bool.or_eq_true, Bool.and_eq_true, decide_eq_true_eq] at ho hb
  refine ⟨_, _, ⟨g1.start, fun i => ?_⟩, g2, ?_, g4, g5, g6, g7, by rw [e.1]; exact ⟨rfl, rfl⟩, e.2.1, e.2.2, e'.1, e'.2⟩
  · have h1 := g1.next i
    have h2 := ho i
    cases he : es83[i]? with
    | none => rw [he] at h1; exact h1
    | some e =>
      rw [he] at h1 h2
      have hi : i < es83.length := by
        refine Nat.lt_of_not_le fun h => ?_
        rw [List.getElem?_eq_none h] at he; cases he
      refine ⟨⟨h1.1, ?_⟩, h1.2⟩
      have h2 := h2 hi
      simp only at h2
      unfold inOrder
      split
      · rename_i t op
        intro _ x hx hxt
        simp only [ordEv83, List.all_eq_true, Bool.or_eq_true, bne_iff_ne, ne_eq, decide_eq_true_eq] at h2
        rcases h2 x hx with h | h
        · exact absurd hxt h
        · exact .inl h
      · trivial
  · rintro i x hx ⟨r, hd⟩
    by_cases hi : i < es83.length
    · obtain ⟨j, _, hj, hc⟩ := (hb i hi x hx).resolve_left (by rw [hd]; nofun)
      refine ⟨j, hj, .inl ?_⟩
      simp only
      unfold isCall83 at hc
      split at hc
      · rename_i u c hu
        rw [beq_iff_eq] at hc; subst hc
        exact ⟨c, hu⟩
      · cases hc
    · rw [fin82_late hr (by omega), a3] at hx; cases hx

example : ∃ σ ε, Exec (softIn RX) σ ε ∧ inCall (σ 19) 2 ∧ ReturnsAfter σ 2 19 := by
  obtain ⟨σ, ε, g1, g2, g3, g4, g5, g6, g7, h1, h2, _⟩ := case83
  exact ⟨σ, ε, exec_mono (fun _ _ h => h.1) g1, ⟨h2, (waits_uop h1).2.2⟩,
    C83_returns RX (separate_clustered sepRX) rk83 ranked83 σ ε g1 g2 g3 g4 g5 g6 g7 2 19⟩

/-- A state in order in which a thread waits for another one. -/
example : ∃ s, Reach (fun s e => okIn RX s e ∧ inOrder rk83 s e) s ∧ (∃ op, waits op (s.pc 2)) ∧ ∀ D, ¬ Deadlock s D := by
  obtain ⟨σ, ε, g1, _, _, _, _, _, _, h1, _⟩ := case83
  have r := exec_reach (exec_mono (B := fun s e => okIn RX s e ∧ inOrder rk83 s e) (fun _ _ h => ⟨⟨softDeath_ok h.1.1, h.1.2⟩, h.2⟩) g1) 19
  exact ⟨_, r, ⟨_, h1⟩, C83_no_deadlock RX (separate_clustered sepRX) rk83 ranked83 _ r⟩

/-- A deadlock goes on while 1 checks for dead holders and 3 is killed. -/
example : ∃ s s', Reach (okIn RX) s ∧ Deadlock s (fun t => t = 1 ∨ t = 2) ∧
    Later (fun s e => okIn RX s e ∧ spares (fun t => t = 1 ∨ t = 2) e) s ([.go 1 .limit] ++ [.go 1 .go] ++ [.die 3 .go 0]) s' ∧
    Deadlock s' (fun t => t = 1 ∨ t = 2) := by
  have h : ((run (FL.init 2 4 8 junk0) cross83).bind fun s => (step s (.go 1 .limit)).bind fun s1 => (step s1 (.go 1 .go)).bind fun s2 =>
    (step s2 (.die 3 .go 0)).map fun _ => true) = some true := by decide +kernel
  obtain ⟨s, hr, h⟩ := Option.bind_eq_some_iff.mp h
  obtain ⟨s1, h1, h⟩ := Option.bind_eq_some_iff.mp h
  obtain ⟨s2, h2, h⟩ := Option.bind_eq_some_iff.mp h
  obtain ⟨s3, h3, _⟩ := Option.map_eq_some_iff.mp h
  obtain ⟨s', hr', r, hD⟩ := crossing83
  obtain rfl : s' = s := Option.some.inj (hr'.symm.trans hr)
  have hp : s2.pc 3 = .done 0 := by
    have e1 := step_pc_other (u := 3) h1 ⟨nofun, nofun⟩
    have e2 := step_pc_other (u := 3) h2 ⟨nofun, nofun⟩
    rw [e2, e1]
    exact (idle_rest hr (u := 3) (by decide +kernel)).1
  have hl : Later (fun s e => okIn RX s e ∧ spares (fun t => t = 1 ∨ t = 2) e) s'
      ([] ++ [.go 1 .limit] ++ [.go 1 .go] ++ [.die 3 .go 0]) s3 :=
    .more (.more (.more .here ⟨⟨trivial, trivial⟩, trivial⟩ h1) ⟨⟨trivial, trivial⟩, trivial⟩ h2)
      ⟨⟨by simp only [okDeath, hp], trivial⟩, by simp [spares]⟩ h3
  exact ⟨s', s3, r, hD, hl, (C83_stays RX (separate_clustered sepRX) s' s3 r _ hD _ hl).1⟩

end Fullock.Props
