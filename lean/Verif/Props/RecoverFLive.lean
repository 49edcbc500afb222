import Verif.Proofs.RecoverFLive
import Verif.Props.RecoverF
/-! C102: the range locks of a process that has ended are given back sooner or later. -/
namespace Fullock.Props
open Fullock Fullock.RecoverF
open Fullock.MC (upd)
open Fullock.FL (mkOp kX rA rB junk0 inCS)

variable {c : Cfg} {σ : Nat → State} {ε : Nat → Option Ev}

/-- C102: the lock of the file lock tables is free again and again, whatever is called and whoever is killed at whatever place; so
every thread that asks for it, and is not ended meanwhile, gets it. -/
theorem C102_lock (hk : Fits c) (ex : Exec c σ ε) (hf : Fair c σ ε) (hcl : Closes σ) :
    (∀ i, ∃ j, i ≤ j ∧ ((σ j).fl.lockid = 0 ∨ (σ j).fl.alive (σ j).fl.lockid = false)) ∧
    (∀ t i p, (σ i).fl.pc t = .acq p → (∀ j, i ≤ j → (σ j).w.runs c.k t = true) →
      ∃ j, i ≤ j ∧ (σ j).fl.pc t = p ∧ (σ j).fl.lockid = t) := by
  refine ⟨ex.free hk hf hcl, fun t i p hp hr => ?_⟩
  obtain ⟨k, h1, -, h2, h3⟩ := ex.gets hk hf hcl hp hr
  exact ⟨k + 1, by omega, h2, h3⟩

/-- C102: what the worker of a process is told of it reads, it begins a check after that, and comes to the end of it. -/
theorem C102_handled (hk : Fits c) (ex : Exec c σ ε) (hf : Fair c σ ε) (hcl : Closes σ) {q i : Nat} (hs : Stays c σ q i)
    (h0 : c.k.wk q ≠ 0) (hw : (σ i).w.watches q = true) (hq : (σ i).w.queue q = true) :
    ∃ r b m n, i ≤ r ∧ r < b ∧ b < m ∧ m < n ∧ ε r = some (.world (.read q)) ∧ ε b = some (.begin q) ∧ ε m = some (.mtxs q) ∧
      ε n = some (.back q) ∧ (σ (n + 1)).w.work q = .wait := by
  have hw' : (σ i).w.work q ≠ .off := by
    simp only [Recover.World.watches, Bool.and_eq_true, decide_eq_true_eq] at hw; exact hw.1
  obtain ⟨r, r1, r2, r3⟩ := ex.reads_it hk hf hcl hs h0 hw' hq
  obtain ⟨b, b1, b2, b3⟩ := ex.from_got hk hf (hs.mono (show i ≤ r + 1 by omega)) h0 r3
  obtain ⟨m, m1, m2, m3⟩ := ex.from_inF hk hf hcl (hs.mono (show i ≤ b + 1 by omega)) b3
  obtain ⟨n, n1, n2, n3⟩ := ex.from_inM hk hf (hs.mono (show i ≤ m + 1 by omega)) m3
  exact ⟨r, b, m, n, r1, by omega, by omega, by omega, r2, b2, m2, n2, n3⟩

/-- C102: when a process is killed, at whatever place its threads are, and another process with a worker goes on, then sooner or later
no lock and no waiting request of any thread of the killed process is left, for ever.  Nobody has to call anything for it. -/
theorem C102_freed (hk : Fits c) (ex : Exec c σ ε) (hf : Fair c σ ε) (hcl : Closes σ) {p q i : Nat}
    (hd : (σ i).w.down p = true) (ho : (σ i).w.opened p = true) (hs : Stays c σ q i) (h0 : c.k.wk q ≠ 0)
    (hw : (σ i).w.watches q = true) :
    ∃ j, i ≤ j ∧ ∀ t, c.k.proc t = p → ∀ j', j ≤ j' → NoneOf (σ j').fl.mem t ∧ ¬ Holds (σ j').fl.mem t := by
  -- the segment file is closed
  have hclose : ∃ k, i ≤ k ∧ ε k = some (.world (.close p)) := by
    obtain ⟨j, hij, hj⟩ := hcl i p hd ho
    obtain ⟨d, rfl⟩ := Nat.le.dest hij
    clear hij
    induction d with
    | zero => rw [Nat.add_zero, ho] at hj; cases hj
    | succ d ih =>
      by_cases h : (σ (i + d)).w.opened p = false
      · exact ih h
      · rcases ex.moment (i + d) with g | ⟨e, he, g⟩
        · rw [show i + (d + 1) = i + d + 1 from rfl, g] at hj; exact absurd hj h
        · rcases step_world g with ⟨e', rfl, -, hw', -⟩ | ⟨-, -, -, g', -⟩
          · rcases opened_closes hw' hj with g' | ⟨rfl, -⟩
            · exact absurd g' h
            · exact ⟨i + d, by omega, he⟩
          · rw [show i + (d + 1) = i + d + 1 from rfl, g'] at hj; exact absurd hj h
  obtain ⟨k, hik, hc⟩ := hclose
  have hw' : (σ i).w.work q ≠ .off := by
    simp only [Recover.World.watches, Bool.and_eq_true, decide_eq_true_eq] at hw; exact hw.1
  have hoff : ∀ d, (σ (i + d)).w.work q ≠ .off := by
    intro d
    induction d with
    | zero => exact hw'
    | succ d ih =>
      show (σ (i + d + 1)).w.work q ≠ .off
      rcases ex.moment (i + d) with g | ⟨e, he, g⟩
      · rw [g]; exact ih
      · rcases step_work g q with g' | ⟨-, g'⟩ <;> rw [g']
        · exact ih
        · cases hx : (σ (i + d)).w.work q <;> simp [leaves]
  have hk1 : (σ k).w.watches q = true := by
    have := hoff (k - i)
    rw [show i + (k - i) = k by omega] at this
    simp [Recover.World.watches, this, (hs k hik).1]
  obtain ⟨g1, g2, -⟩ := C101_told ex (.inl ⟨p, hc⟩) q
  obtain ⟨r, r1, -, r3⟩ := ex.reads_it hk hf hcl (hs.mono (show i ≤ k + 1 by omega)) h0
    (by have := hoff (k + 1 - i); rwa [show i + (k + 1 - i) = k + 1 by omega] at this) (g1.2 (.inr hk1))
  obtain ⟨b, b1, -, b3⟩ := ex.from_got hk hf (hs.mono (show i ≤ r + 1 by omega)) h0 r3
  obtain ⟨m, m1, -, m3⟩ := ex.from_inF hk hf hcl (hs.mono (show i ≤ b + 1 by omega)) b3
  refine ⟨m + 1, by omega, fun t ht j' hj' => ?_⟩
  have hv : (σ k).fl.alive t = false := by
    have hn := ex.next k
    rw [hc] at hn
    simp only [step] at hn
    split at hn <;> [skip; cases hn]
    rename_i ha
    simp only [allowed, List.all_eq_true] at ha
    simpa using ha t ((hk.thr p t).2 ht)
  have := ex.swept hk (ex.dead_on (show k ≤ r + 1 by omega) hv) r3 (show r + 1 ≤ m + 1 by omega)
    ⟨by rw [m3]; simp, by rw [m3]; simp⟩ j' hj'
  exact ⟨this, none_holds (ex.sinv j') this⟩

/-! ### Cases -/

theorem opened_start (ex : Exec c σ ε) {i p : Nat} (h : (σ i).w.opened p = true) : ∃ j < i, ε j = some (.world (.start p)) := by
  induction i with
  | zero => obtain ⟨nf, no, nl, junk, h0⟩ := ex.start; rw [h0] at h; cases h
  | succ i ih =>
    have up : (∃ j < i, ε j = some (.world (.start p))) → ∃ j < i + 1, ε j = some (.world (.start p)) :=
      fun ⟨j, hj, g⟩ => ⟨j, by omega, g⟩
    rcases ex.moment i with g | ⟨e, he, g⟩
    · rw [g] at h; exact up (ih h)
    · rcases step_world g with ⟨e', rfl, -, hw, -⟩ | ⟨-, -, -, g', -⟩
      · rcases (world_new hw).1 p h with g | rfl
        · exact up (ih g)
        · exact ⟨i, by omega, he⟩
      · rw [g'] at h; exact up (ih h)

theorem down_kill (ex : Exec c σ ε) {i p : Nat} (h : (σ i).w.down p = true) : ∃ j < i, ε j = some (.world (.kill p)) := by
  induction i with
  | zero => obtain ⟨nf, no, nl, junk, h0⟩ := ex.start; rw [h0] at h; cases h
  | succ i ih =>
    have up : (∃ j < i, ε j = some (.world (.kill p))) → ∃ j < i + 1, ε j = some (.world (.kill p)) :=
      fun ⟨j, hj, g⟩ => ⟨j, by omega, g⟩
    rcases ex.moment i with g | ⟨e, he, g⟩
    · rw [g] at h; exact up (ih h)
    · rcases step_world g with ⟨e', rfl, -, hw, -⟩ | ⟨-, g', -⟩
      · rcases (world_new hw).2 p h with g | rfl
        · exact up (ih g)
        · exact ⟨i, by omega, he⟩
      · rw [g'] at h; exact up (ih h)

/-- Thread 2 of process 1 has a range that thread 4 of process 2 waits for; process 2 watches. -/
def own102 : List RecoverF.Ev :=
  [.world (.start 1), .world (.start 2), .world (.watch 2), .call 2 (.lock (mkOp 3 kX rA .wr .block))] ++ alone101 2 9 ++
  [.call 4 (.lock (mkOp 4 kX rA .wr .block))] ++ alone101 4 9

/-- Process 1 is killed; the worker of process 2 checks, thread 4 gets the lock. -/
def case102 : List RecoverF.Ev :=
  own102 ++ die101 ++ [.world (.read 2), .begin 2, .go 5 .go, .skip 2, .cut 2, .go 5 .go, .go 5 .go, .mtxs 2, .back 2] ++ alone101 4 2

theorem late101 {es : List RecoverF.Ev} {i : Nat} (h : es.length ≤ i) : st101 es i = st101 es es.length := by
  simp only [st101, List.take_of_length_le h, List.take_length]

/-- Nobody is able to go on when nobody is in a call and every worker waits with nothing to read. -/
theorem unable {s : State} (hp : ∀ t, ∃ r, s.fl.pc t = .done r) (hw : ∀ q, s.w.work q = .off ∨ s.w.work q = .wait)
    (ho : ∀ q, s.w.work q = .off → s.w.opened q = false ∨ s.w.down q = true) (hq : ∀ q, s.w.queue q = false) (hk : Fits c) (t : Nat) :
    ¬ able c s t := by
  rintro ⟨e, s', h1, h2, h3⟩
  cases e <;> simp only [Ev.who, Option.some.injEq] at h1
  case world e =>
    cases e <;> simp only [reduceCtorEq, Option.some.injEq] at h1
    case watch p =>
      simp only [step, allowed, if_true, Recover.World.step] at h3
      split at h3 <;> [skip; cases h3]
      rename_i hc
      simp only [Bool.and_eq_true, decide_eq_true_eq, Recover.World.runs, hk.wk, Bool.not_eq_true'] at hc
      rcases ho p hc.2 with g | g
      · rw [hc.1.2] at g; cases g
      · rw [hc.1.1.2] at g; cases g
    case read p => simp [step, allowed, Recover.World.step, hq] at h3
  case call u a => exact h2 u a rfl
  case go u ch =>
    obtain ⟨r, hr⟩ := hp u
    have := step_fl h3
    exact go_pc this r hr
  case drop => cases h1
  case begin q => rcases hw q with g | g <;> simp [step, g] at h3
  case skip q => obtain ⟨r, hr⟩ := hp (c.k.wk q); simp [step, hr] at h3
  case cut q => obtain ⟨r, hr⟩ := hp (c.k.wk q); simp [step, hr] at h3
  case mtxs q => rcases hw q with g | g <;> simp [step, g] at h3
  case back q => rcases hw q with g | g <;> simp [step, g] at h3

/-- The threads of the case. -/
def in102 : RecoverF.Ev → Bool
  | .world (.start p) => decide (p = 1 ∨ p = 2)
  | .world (.kill p) => decide (p = 1)
  | .world (.leave _) => false
  | .world .touch => false
  | e => match e.who k101 with
    | some t => decide (t = 2 ∨ t = 4 ∨ t = 5)
    | none => true

theorem in102_of {es : List RecoverF.Ev} (h : es.all in102 = true) {j : Nat} {e : RecoverF.Ev} (he : es[j]? = some e) : in102 e = true :=
  List.all_eq_true.1 h e (List.mem_of_getElem? he)

theorem pc102 {es : List RecoverF.Ev} (h : es.all in102 = true) {t : Nat} (ht : ¬ (t = 2 ∨ t = 4 ∨ t = 5)) {e : RecoverF.Ev} {j : Nat}
    (he : es[j]? = some e) : e.who k101 ≠ some t := by
  intro hw
  have := in102_of h he
  cases e with
  | world e => cases e <;> simp_all [in102, Ev.who]
  | _ => simp_all [in102, Ev.who]

/-- Queues are filled for those who watch only. -/
theorem queue_watch (ex : Exec c σ ε) {i q : Nat} (h : (σ i).w.queue q = true) : (σ i).w.work q ≠ .off := by
  induction i with
  | zero => obtain ⟨nf, no, nl, junk, h0⟩ := ex.start; rw [h0] at h; cases h
  | succ i ih =>
    rcases ex.moment i with g | ⟨e, he, g⟩
    · rw [g] at h ⊢; exact ih h
    · have hkeep : (σ i).w.work q ≠ .off → (σ (i + 1)).w.work q ≠ .off := by
        intro hn
        rcases step_work g q with g' | ⟨-, g'⟩ <;> rw [g']
        · exact hn
        · cases hx : (σ i).w.work q <;> simp [leaves]
      by_cases hq : (σ i).w.queue q = true
      · exact hkeep (ih hq)
      · by_cases hx : (σ i).w.watches q = true
        · simp only [Recover.World.watches, Bool.and_eq_true, decide_eq_true_eq] at hx; exact hkeep hx.1
        · exfalso
          rcases step_world g with ⟨e', rfl, -, hw, -⟩ | ⟨-, -, -, -, g'⟩
          · generalize (σ (i + 1)).w = w' at hw h
            cases e' <;> simp only [Recover.World.step] at hw <;> (try split at hw) <;>
              simp only [Option.some.injEq, reduceCtorEq] at hw <;> subst hw <;>
              simp only [Recover.World.notify, upd, Bool.or_eq_true] at h
            all_goals first
              | exact hq h
              | (rcases h with h | h
                 · exact hq h
                 · exact hx h)
              | (split at h
                 · cases h
                 · exact hq h)
          · rw [g'] at h; exact hq h

/-- The hypotheses of `C102_freed`, `C102_handled` and `C102_lock` are met: process 1 is killed at moment 23, its thread 2 has a range lock
then, for which thread 4 waits. -/
theorem case102_ok : ∃ σ ε, Exec k101 σ ε ∧ Fair k101 σ ε ∧ Closes σ ∧ (σ 24).w.down 1 = true ∧ (σ 24).w.opened 1 = true ∧
    Stays k101 σ 2 24 ∧ k101.k.wk 2 ≠ 0 ∧ (σ 24).w.watches 2 = true ∧ Holds (σ 24).fl.mem 2 ∧ ¬ NoneOf (σ 24).fl.mem 4 ∧
    (σ 27).w.queue 2 = true ∧ (σ 29).fl.pc 5 = .acq .sw ∧ Holds (σ 38).fl.mem 4 := by
  have e : (RecoverF.run k101 s101 case102).isSome = true := by decide +kernel
  have ex := exec101 e
  have hall : case102.all in102 = true := by decide +kernel
  have hlen : case102.length = 38 := by decide +kernel
  have hd : (decide ((st101 case102 38).w.opened 1 = false) && (decide ((st101 case102 38).w.opened 2 = true) &&
      (decide ((st101 case102 38).w.work 1 = .off) && (decide ((st101 case102 38).w.work 2 = .wait) &&
      (decide ((st101 case102 38).w.queue 2 = false) && (decide ((st101 case102 38).w.queue 1 = false) &&
      (decide ((st101 case102 38).fl.pc 2 = .done 0) && (decide ((st101 case102 38).fl.pc 4 = .done 0) &&
      (decide ((st101 case102 38).fl.pc 5 = .done 0) && (decide ((st101 case102 24).w.down 1 = true) &&
      (decide ((st101 case102 24).w.opened 1 = true) && (decide ((st101 case102 24).w.watches 2 = true) &&
      (decide (∃ x ∈ (st101 case102 24).fl.mem.outs, x.2.t = 2) && (decide ((st101 case102 27).w.queue 2 = true) &&
      (decide ((st101 case102 29).fl.pc 5 = .acq .sw) && (decide (∃ x ∈ (st101 case102 38).fl.mem.outs, x.2.t = 4) &&
      (decide (0 ∈ (st101 case102 24).fl.mem.files) && (decide (0 ∈ (st101 case102 24).fl.mem.offs 0) &&
      (decide (1 ∈ (st101 case102 24).fl.mem.lks 0 .wr) && decide ((st101 case102 24).fl.mem.ltid 1 = 4)))))))))))))))))))) = true := by
    decide +kernel
  simp only [Bool.and_eq_true, decide_eq_true_eq] at hd
  obtain ⟨d1, d2, d3, d4, d5, d6, d7, d8, d9, d10, d11, d12, d13, d14, d15, d16, d17, d18, d19, d20⟩ := hd
  have hopen : ∀ i p, (st101 case102 i).w.opened p = true → p = 1 ∨ p = 2 := by
    intro i p h
    obtain ⟨j, -, hj⟩ := opened_start ex h
    simpa [in102] using in102_of hall hj
  have hdown : ∀ i p, (st101 case102 i).w.down p = true → p = 1 := by
    intro i p h
    obtain ⟨j, -, hj⟩ := down_kill ex h
    simpa [in102] using in102_of hall hj
  have hlate : ∀ i, 38 ≤ i → st101 case102 i = st101 case102 38 := fun i h => by
    rw [late101 (by rw [hlen]; exact h), hlen]
  have hwork : ∀ q, (st101 case102 38).w.work q = .off ∨ (st101 case102 38).w.work q = .wait := by
    intro q
    by_cases h : (st101 case102 38).w.work q = .off
    · exact .inl h
    · right
      have h12 : q = 1 ∨ q = 2 := by
        cases ho : (st101 case102 38).w.opened q with
        | true => exact hopen _ _ ho
        | false => exact .inl (hdown _ _ ((ex.pinv fits101 38).wk q h ho))
      rcases h12 with rfl | rfl
      · exact absurd d3 h
      · exact d4
  have hend : ∀ t, ¬ able k101 (st101 case102 38) t := by
    intro t
    refine unable (c := k101) (fun t => ?_) hwork (fun q h => ?_) (fun q => ?_) fits101 t
    · by_cases ht : t = 2 ∨ t = 4 ∨ t = 5
      · rcases ht with rfl | rfl | rfl
        exacts [⟨0, d7⟩, ⟨0, d8⟩, ⟨0, d9⟩]
      · have := ex.pc_still (t := t) (a := 0) (k := 38) (by omega) fun r _ _ e he => pc102 hall ht he
        rw [this]; exact ⟨0, rfl⟩
    · left
      cases ho : (st101 case102 38).w.opened q with
      | false => rfl
      | true =>
        rcases hopen _ _ ho with rfl | rfl
        · rw [d1] at ho; cases ho
        · rw [d4] at h; cases h
    · cases hq : (st101 case102 38).w.queue q with
      | false => rfl
      | true =>
        have h := queue_watch ex hq
        have h12 : q = 1 ∨ q = 2 := by
          cases ho : (st101 case102 38).w.opened q with
          | true => exact hopen _ _ ho
          | false => exact .inl (hdown _ _ ((ex.pinv fits101 38).wk q h ho))
        rcases h12 with rfl | rfl
        · rw [d6] at hq; cases hq
        · rw [d5] at hq; cases hq
  refine ⟨st101 case102, fun i => case102[i]?, ex, ?_, ?_, d10, d11, ?_, by decide, d12, d13, ?_, d14, d15, d16⟩
  · intro t h
    obtain ⟨j, hj, ha⟩ := h 38
    rw [hlate j hj] at ha
    exact absurd ha (hend t)
  · intro i p h _
    have := hdown i p h
    subst this
    exact ⟨max i 38, by omega, by rw [hlate _ (by omega)]; exact d1⟩
  · intro j _
    refine ⟨?_, ?_⟩
    · cases h : (st101 case102 j).w.down 2 with
      | false => rfl
      | true => have := hdown j 2 h; omega
    · cases h : (st101 case102 j).w.stop 5 with
      | false => exact h
      | true =>
        exfalso
        have : ∀ i, (st101 case102 i).w.stop 5 = false := by
          intro i
          induction i with
          | zero => rfl
          | succ i ih =>
            rcases ex.moment i with g | ⟨e, he, g⟩
            · rw [g]; exact ih
            · rcases step_world g with ⟨e', rfl, -, hw, -⟩ | ⟨-, -, g', -⟩
              · cases hs : (st101 case102 (i + 1)).w.stop 5 with
                | false => rfl
                | true =>
                  rcases stop_new hw hs with g | rfl
                  · rw [ih] at g; cases g
                  · have := in102_of hall he; simp [in102] at this
              · rw [g']; exact ih
        rw [this j] at h; cases h
  · intro hn
    exact hn 0 d17 0 d18 .wr 1 d19 d20

example : ∃ σ ε, Exec k101 σ ε ∧ Holds (σ 24).fl.mem 2 ∧ ∃ j, ∀ j', j ≤ j' → ¬ Holds (σ j').fl.mem 2 := by
  obtain ⟨σ, ε, ex, hf, hcl, h1, h2, h3, h4, h5, h6, -⟩ := case102_ok
  obtain ⟨j, -, hj⟩ := C102_freed fits101 ex hf hcl h1 h2 h3 h4 h5
  exact ⟨σ, ε, ex, h6, j, fun j' h => (hj 2 rfl j' h).2⟩

/-! ### The weaker fairness is not enough -/

/-- What thread 4 asks for again and again. -/
def op102 : FL.Op := mkOp 4 kX rA .wr .block

/-- Process 1 is killed and has a lock; the worker of process 2 begins its check and asks for the table lock. -/
def pre102 : List RecoverF.Ev :=
  [.world (.start 1), .world (.start 2), .world (.watch 2), .call 2 (.lock (mkOp 3 kX rA .wr .block))] ++ alone101 2 9 ++
  [.call 4 (.islocked op102)] ++ alone101 4 3 ++ die101 ++ [.world (.read 2), .begin 2]

/-- The states in which thread 4 asks again and again. -/
def per102 (s : State) : Nat → State
  | 0 => s
  | 1 => { s with fl := s.fl.setPc 4 (.acq (.qry op102)) }
  | 2 => { s with fl := { s.fl with lockid := 4 }.setPc 4 (.qry op102) }
  | _ => { s with fl := { s.fl with lockid := 4 }.setPc 4 (.rel (.done 1)) }

def pev102 : Nat → RecoverF.Ev
  | 0 => .call 4 (.islocked op102)
  | _ => .go 4 .go

def end102 : State := st101 pre102 23

def σ102 (j : Nat) : State := if j < 23 then st101 pre102 j else per102 end102 ((j - 23) % 4)

def ε102 (j : Nat) : Option RecoverF.Ev := if j < 23 then pre102[j]? else some (pev102 ((j - 23) % 4))

/-- What is to be checked of the state at the beginning of the loop. -/
structure Ends102 (s : State) : Prop where
  al : s.fl.alive 4 = true
  pc : s.fl.pc 4 = .done 1
  pc5 : s.fl.pc 5 = .acq .sw
  pc2 : s.fl.pc 2 = .done 0
  lk : s.fl.lockid = 0
  qry : FL.findFile s.fl.mem op102.key = some 0
  lked : FL.fLocked s.fl.mem 0 = true
  up : s.w.down 2 = false
  go : s.w.stop 4 = false
  op : s.w.opened 2 = true
  cl : s.w.opened 1 = false
  wk : s.w.work 2 = .inF
  wk1 : s.w.work 1 = .off
  qu : s.w.queue 2 = false
  out : ∃ x ∈ s.fl.mem.outs, x.2.t = 2

theorem ends102 : Ends102 end102 := by
  have hd : (decide (end102.fl.alive 4 = true) && (decide (end102.fl.pc 4 = .done 1) && (decide (end102.fl.pc 5 = .acq .sw) &&
      (decide (end102.fl.pc 2 = .done 0) && (decide (end102.fl.lockid = 0) && (decide (FL.findFile end102.fl.mem op102.key = some 0) &&
      (decide (FL.fLocked end102.fl.mem 0 = true) && (decide (end102.w.down 2 = false) && (decide (end102.w.stop 4 = false) &&
      (decide (end102.w.opened 2 = true) && (decide (end102.w.opened 1 = false) && (decide (end102.w.work 2 = .inF) &&
      (decide (end102.w.work 1 = .off) && (decide (end102.w.queue 2 = false) &&
      decide (∃ x ∈ end102.fl.mem.outs, x.2.t = 2))))))))))))))) = true := by decide +kernel
  simp only [Bool.and_eq_true, decide_eq_true_eq] at hd
  obtain ⟨h1, h2, h3, h4, h5, h6, h7, h8, h9, h10, h11, h12, h13, h14, h15⟩ := hd
  exact ⟨h1, h2, h3, h4, h5, h6, h7, h8, h9, h10, h11, h12, h13, h14, h15⟩

theorem Ends102.step {s : State} (h : Ends102 s) {r : Nat} (hr : r < 4) :
    RecoverF.step k101 (per102 s r) (pev102 r) = some (per102 s ((r + 1) % 4)) := by
  have hrun : s.w.runs k101.k 4 = true := by
    simp [Recover.World.runs, k101, h.up, h.go]
  have hp : k101.k.proc 4 = 2 := rfl
  have hw : k101.k.wk 2 = 5 := rfl
  match r, hr with
  | 0, _ => simp [per102, pev102, RecoverF.step, hrun, hp, hw, h.op, FL.step, h.al, h.pc, FL.Call.start]
  | 1, _ =>
    simp [per102, pev102, RecoverF.step, hrun, hp, hw, inWalk, started, FL.step, FL.State.setPc, FL.fset, h.al, h.lk]
    funext u; simp only [FL.fset]; split <;> rfl
  | 2, _ =>
    simp [per102, pev102, RecoverF.step, hrun, hp, hw, inWalk, started, FL.step, FL.State.setPc, FL.fset, h.al, FL.plan, h.qry, h.lked,
      FL.Mem.acts]
    funext u; simp only [FL.fset]; split <;> rfl
  | 3, _ =>
    simp [per102, pev102, RecoverF.step, hrun, hp, hw, inWalk, started, FL.step, FL.State.setPc, FL.fset, h.al]
    cases s with
    | mk w fl snap todo =>
      cases fl with
      | mk mem lockid alive pc =>
        simp only [RecoverF.State.mk.injEq, FL.State.mk.injEq, true_and, and_true]
        refine ⟨h.lk.symm, ?_⟩
        funext u
        by_cases hu : u = 4
        · subst hu; simp [FL.fset, show pc 4 = .done 1 from h.pc]
        · simp [FL.fset, hu]

/-- The worker and the others cannot go on while thread 4 is inside. -/
theorem Ends102.unable {s : State} (h : Ends102 s) (hopen : ∀ p, s.w.opened p = true → p = 1 ∨ p = 2)
    (hpc : ∀ t, ¬ (t = 2 ∨ t = 4 ∨ t = 5) → s.fl.pc t = .done 0) (hw : ∀ q, q ≠ 2 → s.w.work q = .off)
    (hq : ∀ q, s.w.queue q = false) {t : Nat} (ht : t ≠ 4) : ¬ able k101 (per102 s 2) t := by
  rintro ⟨e, s', h1, h2, h3⟩
  have hP : ∀ u, u ≠ 4 → (∃ r, s.fl.pc u = .done r) ∨ s.fl.pc u = .acq .sw := by
    intro u hu
    by_cases h2 : u = 2
    · subst h2; exact .inl ⟨_, h.pc2⟩
    · by_cases h5 : u = 5
      · subst h5; exact .inr h.pc5
      · exact .inl ⟨_, hpc u (by omega)⟩
  have hP' : ∀ u, u ≠ 4 → (per102 s 2).fl.pc u = s.fl.pc u := by
    intro u hu; simp [per102, FL.State.setPc, FL.fset, hu]
  have hwk : ∀ q, k101.k.wk q = 2 * q + 1 := fun _ => rfl
  have hW : (per102 s 2).w = s.w := rfl
  cases e <;> simp only [Ev.who, Option.some.injEq] at h1
  case world e =>
    cases e <;> simp only [reduceCtorEq, Option.some.injEq] at h1
    case watch p =>
      simp only [RecoverF.step, allowed, if_true, Recover.World.step, hW] at h3
      split at h3 <;> [skip; cases h3]
      rename_i hc
      simp only [Bool.and_eq_true, decide_eq_true_eq, Recover.World.runs, fits101.wk, Bool.not_eq_true'] at hc
      rcases hopen p hc.1.2 with rfl | rfl
      · rw [h.cl] at hc; exact absurd hc.1.2 (by simp)
      · rw [h.wk] at hc; exact absurd hc.2 (by simp)
    case read p => simp [RecoverF.step, allowed, Recover.World.step, hW, hq] at h3
  case call u a => exact h2 u a rfl
  case go u ch =>
    subst h1
    have hst : FL.step (per102 s 2).fl (.go u ch) = some s'.fl := step_fl h3
    rcases hP u ht with ⟨r, hr⟩ | hr
    · exact go_pc hst r (by rw [hP' u ht]; exact hr)
    · rw [← hP' u ht] at hr
      have hl : ¬ ((per102 s 2).fl.lockid = 0 ∨ (per102 s 2).fl.alive (per102 s 2).fl.lockid = false) := by
        simp [per102, FL.State.setPc, h.al]
      simp only [FL.step, hr, if_neg hl] at hst
      split at hst <;> cases hst
  case drop => cases h1
  case begin q =>
    by_cases h2 : q = 2
    · subst h2; simp [RecoverF.step, hW, h.wk] at h3
    · simp [RecoverF.step, hW, hw q h2] at h3
  case skip q =>
    have hq4 : k101.k.wk q ≠ 4 := by rw [hwk]; omega
    rcases hP _ hq4 with ⟨r, hr⟩ | hr <;> simp [RecoverF.step, hP' _ hq4, hr] at h3
  case cut q =>
    have hq4 : k101.k.wk q ≠ 4 := by rw [hwk]; omega
    rcases hP _ hq4 with ⟨r, hr⟩ | hr <;> simp [RecoverF.step, hP' _ hq4, hr] at h3
  case mtxs q =>
    by_cases h2 : q = 2
    · subst h2
      have : (per102 s 2).fl.pc 5 = .acq .sw := by rw [hP' 5 (by decide)]; exact h.pc5
      simp [RecoverF.step, idle, show k101.k.wk 2 = 5 from rfl, this] at h3
    · simp [RecoverF.step, hW, hw q h2] at h3
  case back q =>
    by_cases h2 : q = 2
    · subst h2; simp [RecoverF.step, hW, h.wk] at h3
    · simp [RecoverF.step, hW, hw q h2] at h3

theorem per102_w (s : State) (r : Nat) : (per102 s r).w = s.w ∧ (per102 s r).fl.mem = s.fl.mem := by
  unfold per102; split <;> exact ⟨rfl, rfl⟩

/-- C102: the fairness of `C102_freed` is needed: with a scheduler that is fair in the weaker sense only, the worker may ask for the table
lock for ever, in vain, while one thread asks again and again whether a range is locked, and the locks of the ended process stay in
force for ever. -/
theorem C102_weak : ∃ c σ ε p q t i, Fits c ∧ Exec c σ ε ∧ WeakFair c σ ε ∧ Closes σ ∧ (σ i).w.down p = true ∧ (σ i).w.opened p = true ∧
    Stays c σ q i ∧ c.k.wk q ≠ 0 ∧ (σ i).w.watches q = true ∧ c.k.proc t = p ∧ ∀ j, i ≤ j → Holds (σ j).fl.mem t := by
  have e : (RecoverF.run k101 s101 pre102).isSome = true := by decide +kernel
  have ex0 := exec101 e
  have hall : pre102.all in102 = true := by decide +kernel
  have hlen : pre102.length = 23 := by decide +kernel
  have he := ends102
  have early : ∀ j, j < 23 → σ102 j = st101 pre102 j ∧ ε102 j = pre102[j]? := by
    intro j hj; simp [σ102, ε102, hj]
  have late : ∀ j, 23 ≤ j → σ102 j = per102 end102 ((j - 23) % 4) ∧ ε102 j = some (pev102 ((j - 23) % 4)) := by
    intro j hj; simp [σ102, ε102, Nat.not_lt.mpr hj]
  have early' : ∀ j, j ≤ 23 → σ102 j = st101 pre102 j := by
    intro j hj
    rcases Nat.eq_or_lt_of_le hj with rfl | hj
    · rw [(late 23 (Nat.le_refl _)).1]; rfl
    · exact (early j hj).1
  have ex : Exec k101 σ102 ε102 := by
    refine ⟨⟨2, 4, 8, junk0, by rw [early' 0 (by omega)]; rfl⟩, fun i => ?_⟩
    by_cases hi : i < 23
    · rw [(early i hi).1, (early i hi).2, early' (i + 1) (by omega)]
      exact ex0.next i
    · rw [(late i (by omega)).1, (late i (by omega)).2, (late (i + 1) (by omega)).1]
      have := he.step (r := (i - 23) % 4) (Nat.mod_lt _ (by decide))
      rw [show ((i - 23) % 4 + 1) % 4 = (i + 1 - 23) % 4 by omega] at this
      exact this
  have hw : ∀ j, 23 ≤ j → (σ102 j).w = end102.w ∧ (σ102 j).fl.mem = end102.fl.mem := fun j hj => by
    rw [(late j hj).1]; exact per102_w _ _
  have hopen : ∀ i p, (st101 pre102 i).w.opened p = true → p = 1 ∨ p = 2 := by
    intro i p h
    obtain ⟨j, -, hj⟩ := opened_start ex0 h
    simpa [in102] using in102_of hall hj
  have hdown : ∀ i p, (st101 pre102 i).w.down p = true → p = 1 := by
    intro i p h
    obtain ⟨j, -, hj⟩ := down_kill ex0 h
    simpa [in102] using in102_of hall hj
  have hoff : ∀ q, q ≠ 2 → end102.w.work q = .off := by
    intro q h2
    by_cases h1 : q = 1
    · subst h1; exact he.wk1
    · by_cases h : end102.w.work q = .off
      · exact h
      · exfalso
        cases ho : end102.w.opened q with
        | true => rcases hopen 23 _ ho with h | h <;> omega
        | false => exact h1 (hdown 23 _ ((ex0.pinv fits101 23).wk q h ho))
  have hque : ∀ q, end102.w.queue q = false := by
    intro q
    cases hq : end102.w.queue q with
    | false => rfl
    | true =>
      by_cases h2 : q = 2
      · subst h2; rw [he.qu] at hq; cases hq
      · exact absurd (hoff q h2) (queue_watch ex0 (i := 23) hq)
  have hpc : ∀ t, ¬ (t = 2 ∨ t = 4 ∨ t = 5) → end102.fl.pc t = .done 0 := by
    intro t ht
    have := ex0.pc_still (t := t) (a := 0) (k := 23) (by omega) fun r _ _ e he => pc102 hall ht he
    exact this
  have hd : (decide ((st101 pre102 18).w.down 1 = true) && (decide ((st101 pre102 18).w.opened 1 = true) &&
      (decide ((st101 pre102 18).w.watches 2 = true) && (decide (∃ x ∈ (st101 pre102 18).fl.mem.outs, x.2.t = 2) &&
      (decide (∃ x ∈ (st101 pre102 19).fl.mem.outs, x.2.t = 2) && (decide (∃ x ∈ (st101 pre102 20).fl.mem.outs, x.2.t = 2) &&
      (decide (∃ x ∈ (st101 pre102 21).fl.mem.outs, x.2.t = 2) && decide (∃ x ∈ (st101 pre102 22).fl.mem.outs, x.2.t = 2)))))))) = true := by
    decide +kernel
  simp only [Bool.and_eq_true, decide_eq_true_eq] at hd
  obtain ⟨d1, d2, d3, d4, d5, d6, d7, d8⟩ := hd
  have hstop : ∀ i, (st101 pre102 i).w.stop 5 = false := by
    intro i
    induction i with
    | zero => rfl
    | succ i ih =>
      rcases ex0.moment i with g | ⟨e, he, g⟩
      · rw [g]; exact ih
      · rcases step_world g with ⟨e', rfl, -, hw, -⟩ | ⟨-, -, g', -⟩
        · cases hs : (st101 pre102 (i + 1)).w.stop 5 with
          | false => rfl
          | true =>
            rcases stop_new hw hs with g | rfl
            · rw [ih] at g; cases g
            · have := in102_of hall he; simp [in102] at this
        · rw [g']; exact ih
  refine ⟨k101, σ102, ε102, 1, 2, 2, 18, fits101, ex, ?_, ?_, ?_, ?_, ?_, by decide, ?_, rfl, ?_⟩
  · intro t i hi
    by_cases ht : t = 4
    · subst ht
      intro i'
      refine ⟨23 + 4 * i' + 1, by omega, .go 4 .go, ?_, rfl⟩
      rw [(late _ (by omega)).2, show (23 + 4 * i' + 1 - 23) % 4 = 1 by omega]; rfl
    · have := hi (23 + 4 * i + 2) (by omega)
      rw [(late _ (by omega)).1, show (23 + 4 * i + 2 - 23) % 4 = 2 by omega] at this
      exact absurd this (he.unable (hopen 23) hpc hoff hque ht)
  · intro i p h _
    have h1 : p = 1 := by
      by_cases hi : i < 23
      · rw [(early i hi).1] at h; exact hdown i p h
      · rw [(hw i (by omega)).1] at h; exact hdown 23 p h
    subst h1
    exact ⟨max i 23, by omega, by rw [(hw _ (by omega)).1]; exact he.cl⟩
  · rw [early' 18 (by omega)]; exact d1
  · rw [early' 18 (by omega)]; exact d2
  · intro j _
    have : ∃ i, (σ102 j).w = (st101 pre102 i).w := by
      by_cases hj : j < 23
      · exact ⟨j, by rw [(early j hj).1]⟩
      · exact ⟨23, (hw j (by omega)).1⟩
    obtain ⟨i, hi⟩ := this
    rw [hi]
    refine ⟨?_, hstop i⟩
    cases h : (st101 pre102 i).w.down 2 with
    | false => rfl
    | true => have := hdown i 2 h; omega
  · rw [early' 18 (by omega)]; exact d3
  · intro j hj
    by_cases h23 : 23 ≤ j
    · have := he.out
      rw [← (hw j h23).2] at this
      exact this
    · rw [early' j (by omega)]
      have : j = 18 ∨ j = 19 ∨ j = 20 ∨ j = 21 ∨ j = 22 := by omega
      rcases this with rfl | rfl | rfl | rfl | rfl
      exacts [d4, d5, d6, d7, d8]

end Fullock.Props
