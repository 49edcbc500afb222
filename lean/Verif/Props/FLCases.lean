import Verif.Proofs.FLProt
/-! Concrete executions used as examples and counterexamples for the file lock theorems. -/
namespace Fullock.FL
set_option synthInstance.maxSize 10000
open Fullock.Spec

/-- Free records start with arbitrary contents; here some. -/
def junk0 : Mem :=
  { files := [], key := fun _ => (0, 0), offs := fun _ => [], fprot := fun _ => true,
    rng := fun _ => ⟨3, 4⟩, word := fun _ => 7, lks := fun _ _ => [], oprot := fun _ => true,
    ltid := fun _ => 5, lfd := fun _ => 6, locked := fun _ => true, ffree := [], ofree := [],
    lfree := [], taken := fun _ => false, outs := [] }

def rA : Rng := ⟨0, 10⟩
def rB : Rng := ⟨20, 10⟩
def rC : Rng := ⟨5, 20⟩
def rD : Rng := ⟨0, 5⟩
def kX : DevIno := (1, 7)
def kY : DevIno := (1, 8)

def mkOp (fd : Int) (k : DevIno) (r : Rng) (md : Mode) (kd : Kind) : Op :=
  ⟨fd, k, r, md, kd, true, true⟩

/-- The ranges of the examples: [0,10) and [20,30). -/
def RX : DevIno → Rng → Prop := fun _ r => r = rA ∨ r = rB

theorem saneA : SaneRange rA := by simp only [SaneRange]; decide
theorem saneB : SaneRange rB := by simp only [SaneRange]; decide
theorem saneC : SaneRange rC := by simp only [SaneRange]; decide
theorem saneD : SaneRange rD := by simp only [SaneRange]; decide

theorem apartAB : ¬ Overlap rA rB := by
  rintro ⟨b, ⟨_, h1⟩, ⟨h2, _⟩⟩
  have e1 : rA.off.toNat + rA.len.toNat = 10 := by decide
  have e2 : rB.off.toNat = 20 := by decide
  omega

theorem sepRX : Separate RX where
  sane := by
    rintro k r (rfl | rfl)
    · exact saneA
    · exact saneB
  apart := by
    rintro k r r' (rfl | rfl) (rfl | rfl)
    · exact Or.inl rfl
    · exact Or.inr apartAB
    · exact Or.inr (fun h => apartAB (overlap_symm h))
    · exact Or.inl rfl

/-- A cluster of different overlapping ranges: [0,10) and [0,5), apart from [20,30). -/
def RK : DevIno → Rng → Prop := fun _ r => r = rA ∨ r = rD ∨ r = rB

theorem cluRK : Clustered RK where
  sane := by
    rintro k r (rfl | rfl | rfl)
    · exact saneA
    · exact saneD
    · exact saneB
  trans := by
    have od : ¬ Overlap rD rB := by
      rintro ⟨b, ⟨_, h1⟩, ⟨h2, _⟩⟩
      have e1 : rD.off.toNat + rD.len.toNat = 5 := by decide
      have e2 : rB.off.toNat = 20 := by decide
      omega
    have ad : Overlap rA rD := ⟨0, by simp only [Covers]; decide, by simp only [Covers]; decide⟩
    rintro k r r' r'' (rfl | rfl | rfl) (rfl | rfl | rfl) (rfl | rfl | rfl) h1 h2
    all_goals first
      | exact h1
      | exact h2
      | exact overlap_self saneA
      | exact overlap_self saneB
      | exact overlap_self saneD
      | exact absurd h1 apartAB
      | exact absurd h2 apartAB
      | exact absurd h1 od
      | exact absurd h2 od
      | exact absurd (overlap_symm h1) apartAB
      | exact absurd (overlap_symm h2) apartAB
      | exact absurd (overlap_symm h1) od
      | exact absurd (overlap_symm h2) od

/-- A complete lock call of a thread alone. -/
def lockBy (t : Nat) (op : Op) : List Ev := .call t (.lock op) :: alone t 9
def unlockBy (t : Nat) (op : Op) : List Ev := .call t (.unlock op) :: alone t 8

/-- An event without death, requesting only [0,10) or [20,30). -/
def evRX : Ev → Bool
  | .call _ (.lock op) => op.rng = rA || op.rng = rB
  | .die .. => false
  | _ => true

theorem evRX_ok {e : Ev} (h : evRX e = true) (s : State) :
    softIn RX s e ∧ noDeath s e ∧ okIn RX s e := by
  cases e with
  | call t c =>
    cases c with
    | lock op =>
      have : RX op.key op.rng := by simpa [evRX, RX] using h
      exact ⟨⟨trivial, this⟩, trivial, trivial, this⟩
    | _ => exact ⟨⟨trivial, trivial⟩, trivial, trivial, trivial⟩
  | go t c => exact ⟨⟨trivial, trivial⟩, trivial, trivial, trivial⟩
  | die t c k => simp [evRX] at h

/-- An event without death, requesting only sane ranges out of A, B, C, D. -/
def evSane : Ev → Bool
  | .call _ (.lock op) => op.rng = rA || op.rng = rB || op.rng = rC || op.rng = rD
  | .die .. => false
  | _ => true

theorem evSane_ok {e : Ev} (h : evSane e = true) (s : State) :
    noDeath s e ∧ lockIn (fun _ r => SaneRange r) e := by
  cases e with
  | call t c =>
    cases c with
    | lock op =>
      refine ⟨trivial, ?_⟩
      have : ((op.rng = rA ∨ op.rng = rB) ∨ op.rng = rC) ∨ op.rng = rD := by simpa [evSane] using h
      show SaneRange op.rng
      rcases this with ((e | e) | e) | e <;> rw [e]
      · exact saneA
      · exact saneB
      · exact saneC
      · exact saneD
    | _ => exact ⟨trivial, trivial⟩
  | go t c => exact ⟨trivial, trivial⟩
  | die t c k => simp [evSane] at h

theorem reach_all {A : State → Ev → Prop} {ok : Ev → Bool} (hok : ∀ e, ok e = true → ∀ s, A s e)
    {nf no nl : Nat} {junk : Mem} {es : List Ev} {s : State} (h : run (init nf no nl junk) es = some s)
    (hall : es.all ok = true) : Reach A s :=
  reach_run (Reach.init nf no nl junk) (fun e he s => hok e (List.all_eq_true.mp hall e he) s) h

/-- Threads not named in a run from the start are idle afterwards. -/
theorem idle_rest {nf no nl : Nat} {junk : Mem} {es : List Ev} {s : State}
    (h : run (init nf no nl junk) es = some s) {u : Nat} (hu : ∀ e ∈ es, e.tid ≠ u) :
    s.pc u = .done 0 ∧ s.alive u = true := run_frame h hu

/-- Scenario 1: threads 1 and 2 hold read locks on [0,10) of file X through different descriptors,
thread 3 holds a write lock on [20,30). -/
def es1 : List Ev :=
  lockBy 1 (mkOp 3 kX rA .rd .block) ++ lockBy 2 (mkOp 4 kX rA .rd .block) ++
  lockBy 3 (mkOp 3 kX rB .wr .try_)

def out1 (t : Nat) (fd : Int) (r : Rng) (md : Mode) : Out := ⟨t, fd, kX, r, md⟩

theorem run_case {α : Type} {s0 : State} {es : List Ev} (f : State → α) (v : α)
    (h : (run s0 es).map f = some v) : ∃ s, run s0 es = some s ∧ f s = v := by
  cases hr : run s0 es with
  | none => rw [hr] at h; simp at h
  | some s => rw [hr] at h; exact ⟨s, rfl, by simpa using h⟩

/-- Places and lives of the threads below `n`. -/
def thr (n : Nat) (s : State) : List (Pc × Bool) := (List.range n).map fun u => (s.pc u, s.alive u)

theorem thr_get {n : Nat} {s : State} {v : List (Pc × Bool)} (h : thr n s = v) {u : Nat} (hu : u < n) :
    (s.pc u, s.alive u) ∈ v := by
  rw [← h]; exact List.mem_map.mpr ⟨u, List.mem_range.mpr hu, rfl⟩

theorem rest_case {nf no nl : Nat} {junk : Mem} {es : List Ev} {s : State}
    (h : run (init nf no nl junk) es = some s) (n : Nat) (ht : es.all (fun e => decide (e.tid < n)) = true)
    {Q : Pc → Bool → Prop} (h0 : Q (.done 0) true) (hn : ∀ u < n, Q (s.pc u) (s.alive u)) (u : Nat) :
    Q (s.pc u) (s.alive u) := by
  by_cases hu : u < n
  · exact hn u hu
  · have := idle_rest h (u := u) (by
      intro e he
      have := List.all_eq_true.mp ht e he
      simp only [decide_eq_true_eq] at this
      omega)
    rw [this.1, this.2]; exact h0

theorem sc1 : ∃ s, run (init 2 4 8 junk0) es1 = some s ∧
    (∀ u, s.pc u = .done 0 ∧ s.alive u = true) ∧
    s.mem.outs = [(2, out1 3 3 rB .wr), (1, out1 2 4 rA .rd), (0, out1 1 3 rA .rd)] ∧
    s.mem.ffree = [1] ∧ s.mem.ofree = [2, 3] ∧ s.mem.lfree = [3, 4, 5, 6, 7] ∧ s.lockid = 0 := by
  obtain ⟨s, h, h1⟩ := run_case (s0 := init 2 4 8 junk0) (es := es1) (fun s =>
    (thr 4 s, s.mem.outs, s.mem.ffree, s.mem.ofree, s.mem.lfree, s.lockid))
    (List.replicate 4 (.done 0, true),
      [(2, out1 3 3 rB .wr), (1, out1 2 4 rA .rd), (0, out1 1 3 rA .rd)], [1], [2, 3],
      [3, 4, 5, 6, 7], 0) (by decide +kernel)
  simp only [Prod.mk.injEq] at h1
  obtain ⟨h1, h2⟩ := h1
  refine ⟨s, h, rest_case h 4 (by decide +kernel) (Q := fun p a => p = .done 0 ∧ a = true)
    ⟨rfl, rfl⟩ ?_, h2⟩
  intro u hu
  have := List.eq_of_mem_replicate (thr_get h1 hu)
  simpa using this

theorem sc1_reach {s : State} (h : run (init 2 4 8 junk0) es1 = some s) :
    Reach (softIn RX) s ∧ Reach noDeath s :=
  ⟨reach_all (fun _ h s => (evRX_ok h s).1) h (by decide +kernel),
   reach_all (fun _ h s => (evRX_ok h s).2.1) h (by decide +kernel)⟩

end Fullock.FL
