import Verif.Proofs.MCForever
import Verif.Props.Cond
/-! C80: calls of the named mutexes and conditions return sooner or later -/
namespace Fullock.Props
open Fullock.MC

/-- C80 as stated: nobody dies, the scheduler is fair, every mutex is released, checks of dead owners come to an end and time
passes, yet nothing else assumed: a thread waiting for a mutex in a lock call without limit returns. -/
def C80_full : Prop :=
  ∀ σ ε, Exec noDeath σ ε → Fair σ ε → Released σ → ChecksEnd σ → Timely σ ε →
    ∀ t i m, waitsLock m ((σ i).pc t) → ReturnsAfter σ t i

/-- C80 (partial): if the calls come to an end, every call returns, whatever function, number of threads and
interleaving, except a wait without limit that nobody wakes. Missing: executions in which others keep calling
(`C80_not_full`). -/
theorem C80_returns_partial (σ : Nat → State) (ε : Nat → Option Ev) (ex : Exec noDeath σ ε) (hf : Fair σ ε) (hre : Released σ)
    (hce : CallsEnd ε) (hck : ChecksEnd σ) (hti : Timely σ ε) (t i : Nat) :
    ReturnsAfter σ t i ∨ ∃ n, i ≤ n ∧ Unwoken σ t n :=
  returns_or_waits ex hf hre hce hck hti t i

/-- C80 (partial as above): a call other than a wait without limit returns. -/
theorem C80_calls_partial (σ : Nat → State) (ε : Nat → Option Ev) (ex : Exec noDeath σ ε) (hf : Fair σ ε) (hre : Released σ)
    (hce : CallsEnd ε) (hck : ChecksEnd σ) (hti : Timely σ ε) (t i : Nat)
    (hl : ∀ c m, (σ i).last t ≠ .wait c m .block) : ReturnsAfter σ t i := by
  refine Classical.byContradiction fun hno => ?_
  rcases returns_or_waits ex hf hre hce hck hti t i with h | ⟨n, hn, c, w, m, h⟩
  · exact hno h
  · have hlast : ∀ d, (σ (i + d)).last t = (σ i).last t := by
      intro d
      induction d with
      | zero => rfl
      | succ d ih =>
        rw [← ih, ← Nat.add_assoc]
        have := ex.next (i + d)
        cases he : ε (i + d) with
        | none => rw [he] at this; simp only at this; rw [this]
        | some e =>
          rw [he] at this
          rcases step_cases this.2 with ⟨u, cl, r, rfl, _, _, hr, e⟩ | ⟨u, ch, M', p', rfl, _, _, e⟩ | ⟨u, rfl, _, e⟩
          · rw [e]
            by_cases hu : t = u
            · subst hu; exact absurd ⟨i + d, by omega, r, hr⟩ hno
            · simp [hu]
          · rw [e]
          · rw [e]
    obtain ⟨d, rfl⟩ := Nat.le.dest hn
    have := waitOf_last (exec_reach ex (i + d)) t (c := c) (m := m) (kd := .block) (by rw [(h _ (Nat.le_refl _)).1]; rfl)
    rw [hlast] at this
    exact hl c m this

/-- C80 (partial as above): a thread waiting for a mutex in a lock call without limit obtains it: the call returns 0 and the
thread owns the mutex. -/
theorem C80_granted_partial (σ : Nat → State) (ε : Nat → Option Ev) (ex : Exec noDeath σ ε) (hf : Fair σ ε) (hre : Released σ)
    (hce : CallsEnd ε) (hck : ChecksEnd σ) (hti : Timely σ ε) (t i m : Nat) (hw : waitsLock m ((σ i).pc t)) :
    ∃ j, i ≤ j ∧ (σ j).pc t = .done 0 ∧ 1 ≤ (σ j).mem.dep m t := by
  refine waitsLock_returns ex hw (Classical.byContradiction fun hno => ?_)
  rcases returns_or_waits ex hf hre hce hck hti t i with h | ⟨n, hn, c, w, m', h⟩
  · exact hno h
  · obtain ⟨d, rfl⟩ := Nat.le.dest hn
    rcases waitsLock_on ex hw d with h' | ⟨j, h1, _, h3, _⟩
    · rw [(h _ (Nat.le_refl _)).1] at h'; exact h'.elim
    · exact hno ⟨j, h1, 0, h3⟩

/-- C80: whatever the others do with other mutexes: a thread whose lock call is in the loop that tries to take a mutex, which
nobody else takes as long as that call lasts, obtains it. -/
theorem C80_quiet (σ : Nat → State) (ε : Nat → Option Ev) (ex : Exec noDeath σ ε) (hf : Fair σ ε) (t i m : Nat) (t0 : t ≠ 0)
    (hp : (σ i).pc t = .lkRead m .block .api ∨ (σ i).pc t = .lkCas m .block .api)
    (hfree : ∀ j, i ≤ j → (∀ k, i ≤ k → k ≤ j → inCall (σ k) t) → (σ j).mem.mval m = 0 ∨ (σ j).mem.mval m = t) :
    ∃ j, i ≤ j ∧ (σ j).pc t = .done 0 ∧ 1 ≤ (σ j).mem.dep m t := by
  refine waitsLock_returns ex ?_ (takes_free ex hf t0 hp hfree)
  rcases hp with hp | hp <;> rw [hp] <;> exact ⟨rfl, rfl, rfl⟩

/-- C80 (partial as above): a thread that has released its mutex and waits for a condition when a broadcast of the condition is
called returns from its wait, whatever else happens. -/
theorem C80_broadcast_partial (σ : Nat → State) (ε : Nat → Option Ev) (ex : Exec noDeath σ ε) (hf : Fair σ ε) (hre : Released σ)
    (hce : CallsEnd ε) (hck : ChecksEnd σ) (hti : Timely σ ε) (t u i c w m : Nat) (kd : Kind)
    (hw : (σ i).pc t = .wSpin c w m kd) (hu : ε i = some (.call u (.broadcast c))) : ReturnsAfter σ t i :=
  broadcast_wakes ex hf hre hce hck hti hw hu

/-- C80 (partial as above): a thread that has released its mutex and has waited for a condition longest of all when a signal of
the condition is called returns from its wait, whatever else happens. -/
theorem C80_signal_partial (σ : Nat → State) (ε : Nat → Option Ev) (ex : Exec noDeath σ ε) (hf : Fair σ ε) (hre : Released σ)
    (hce : CallsEnd ε) (hck : ChecksEnd σ) (hti : Timely σ ε) (t u i c w m : Nat) (kd : Kind)
    (hw : (σ i).pc t = .wSpin c w m kd) (hold : ∀ x ∈ (σ i).mem.ws c, (σ i).mem.warr w ≤ (σ i).mem.warr x)
    (hu : ε i = some (.call u (.signal c))) : ReturnsAfter σ t i :=
  signal_wakes ex hf hre hce hck hti hw hold hu

/-- C80: while a thread waits for ever for a mutex that is always released, endlessly many calls are made. -/
theorem C80_starved_calls (σ : Nat → State) (ε : Nat → Option Ev) (ex : Exec noDeath σ ε) (hf : Fair σ ε) (hre : Released σ)
    (hck : ChecksEnd σ) (hti : Timely σ ε) (t i : Nat) (hl : ∀ c m, (σ i).last t ≠ .wait c m .block)
    (hno : ¬ ReturnsAfter σ t i) (n : Nat) : ∃ j, n ≤ j ∧ ∃ u c, ε j = some (.call u c) := by
  refine Classical.byContradiction fun hc => ?_
  refine hno (C80_calls_partial σ ε ex hf hre ⟨n, fun j hj u c he => hc ⟨j, hj, u, c, he⟩⟩ hck hti t i hl)

/-! ### Starvation -/

/-- Places of two threads, all others outside. -/
def pl80 (a b : Pc) : Nat → Pc := fun u => if u = 1 then a else if u = 2 then b else .done 0
/-- Last calls. -/
def la80 (a b : Call) : Nat → Call := fun u => if u = 1 then a else if u = 2 then b else .sweepM
/-- A value of mutex 7. -/
def at80 {α : Type} (z v : α) : Nat → α := fun m => if m = 7 then v else z

theorem pl80_1 (a b x : Pc) : upd (pl80 a b) 1 x = pl80 x b := by funext u; simp only [upd, pl80]; repeat' split <;> simp_all
theorem pl80_2 (a b x : Pc) : upd (pl80 a b) 2 x = pl80 a x := by
  funext u; simp only [upd, pl80]; repeat' split <;> simp_all
theorem la80_1 (a b x : Call) : upd (la80 a b) 1 x = la80 x b := by funext u; simp only [upd, la80]; repeat' split <;> simp_all
theorem la80_2 (a b x : Call) : upd (la80 a b) 2 x = la80 a x := by
  funext u; simp only [upd, la80]; repeat' split <;> simp_all
theorem at80_7 {α : Type} (z v x : α) : upd (at80 z v) 7 x = at80 z x := by funext u; simp only [upd, at80]; split <;> simp_all
theorem at80_get {α : Type} (z v : α) : at80 z v 7 = v := rfl
theorem pl80_at1 (a b : Pc) : pl80 a b 1 = a := rfl
theorem pl80_at2 (a b : Pc) : pl80 a b 2 = b := rfl

/-- Depths of mutex 7. -/
def de80 (d : Nat) : Nat → Nat := fun u => if u = 1 then d else 0
theorem de80_1 (d x : Nat) : upd (de80 d) 1 x = de80 x := by funext u; simp only [upd, de80]; split <;> simp_all

/-- Memory in which mutex 7 has owner `v`, count `n`; table lock `l`; depth `d` of thread 1. -/
def mem80 (ml : List Nat) (room v : Nat) (n : Int) (l d : Nat) : Mem where
  mval := at80 0 v
  mcnt := at80 0 n
  mlist := ml
  mroom := room
  mL := l
  clist := []
  croom := 1
  cL := 0
  ws := fun _ => []
  wfree := [0]
  wtid := fun _ => 0
  wup := fun _ => false
  dep := at80 (fun _ => 0) (de80 d)
  warr := fun _ => 0
  tick := 0

/-- A state of the two threads. -/
def st80 (ml : List Nat) (room v : Nat) (n : Int) (l d : Nat) (a b : Pc) (c e : Call) : State :=
  ⟨mem80 ml room v n l d, fun _ => true, pl80 a b, la80 c e⟩

abbrev lk7 : Call := .lock 7 .block
abbrev out80 : Pc := .done 0

/-- Beginning: thread 1 locks mutex 7, thread 2 asks for it. -/
def pre80 : Nat → State
  | 0 => st80 [] 1 0 0 0 0 out80 out80 .sweepM .sweepM
  | 1 => st80 [] 1 0 0 0 0 (.acqM (.mFind 7 .block)) out80 lk7 .sweepM
  | 2 => st80 [] 1 0 0 1 0 (.mFind 7 .block) out80 lk7 .sweepM
  | 3 => st80 [] 0 0 0 1 0 (.mIns 7 .block) out80 lk7 .sweepM
  | 4 => st80 [7] 0 0 0 1 0 (.relM (.lkRead 7 .block .api)) out80 lk7 .sweepM
  | 5 => st80 [7] 0 0 0 0 0 (.lkRead 7 .block .api) out80 lk7 .sweepM
  | 6 => st80 [7] 0 0 0 0 0 (.lkCas 7 .block .api) out80 lk7 .sweepM
  | 7 => st80 [7] 0 1 0 0 0 (.lkInc 7 .block .api) out80 lk7 .sweepM
  | 8 => st80 [7] 0 1 1 0 1 out80 out80 lk7 .sweepM
  | 9 => st80 [7] 0 1 1 0 1 out80 (.acqM (.mFind 7 .block)) lk7 lk7
  | 10 => st80 [7] 0 1 1 2 1 out80 (.mFind 7 .block) lk7 lk7
  | 11 => st80 [7] 0 1 1 2 1 out80 (.relM (.lkRead 7 .block .api)) lk7 lk7
  | _ => st80 [7] 0 1 1 0 1 out80 (.lkRead 7 .block .api) lk7 lk7

/-- Its events. -/
def epre80 : Nat → Ev
  | 0 => .call 1 lk7
  | 8 => .call 2 lk7
  | 9 => .go 2 .go
  | 10 => .go 2 .go
  | 11 => .go 2 .go
  | _ => .go 1 .go

/-- The round: 2 tries in vain; 1 unlocks and locks again. -/
def per80 : Nat → State
  | 0 => st80 [7] 0 1 1 0 1 out80 (.lkRead 7 .block .api) lk7 lk7
  | 1 => st80 [7] 0 1 1 0 1 out80 (.lkCas 7 .block .api) lk7 lk7
  | 2 => st80 [7] 0 1 1 0 1 out80 (.lkRead 7 .block .api) lk7 lk7
  | 3 => st80 [7] 0 1 1 0 1 (.acqM (.uFind 7)) (.lkRead 7 .block .api) (.unlock 7) lk7
  | 4 => st80 [7] 0 1 1 1 1 (.uFind 7) (.lkRead 7 .block .api) (.unlock 7) lk7
  | 5 => st80 [7] 0 1 1 1 1 (.ulRead 7 .api) (.lkRead 7 .block .api) (.unlock 7) lk7
  | 6 => st80 [7] 0 1 1 1 1 (.ulRead2 7 .api) (.lkRead 7 .block .api) (.unlock 7) lk7
  | 7 => st80 [7] 0 1 1 1 1 (.ulSub 7 .api) (.lkRead 7 .block .api) (.unlock 7) lk7
  | 8 => st80 [7] 0 1 0 1 1 (.ulCas 7 .api) (.lkRead 7 .block .api) (.unlock 7) lk7
  | 9 => st80 [7] 0 0 0 1 0 (.relM (.done 0)) (.lkRead 7 .block .api) (.unlock 7) lk7
  | 10 => st80 [7] 0 0 0 0 0 out80 (.lkRead 7 .block .api) (.unlock 7) lk7
  | 11 => st80 [7] 0 0 0 0 0 (.acqM (.mFind 7 .block)) (.lkRead 7 .block .api) lk7 lk7
  | 12 => st80 [7] 0 0 0 1 0 (.mFind 7 .block) (.lkRead 7 .block .api) lk7 lk7
  | 13 => st80 [7] 0 0 0 1 0 (.relM (.lkRead 7 .block .api)) (.lkRead 7 .block .api) lk7 lk7
  | 14 => st80 [7] 0 0 0 0 0 (.lkRead 7 .block .api) (.lkRead 7 .block .api) lk7 lk7
  | 15 => st80 [7] 0 0 0 0 0 (.lkCas 7 .block .api) (.lkRead 7 .block .api) lk7 lk7
  | 16 => st80 [7] 0 1 0 0 0 (.lkInc 7 .block .api) (.lkRead 7 .block .api) lk7 lk7
  | _ => st80 [7] 0 1 1 0 1 out80 (.lkRead 7 .block .api) lk7 lk7

/-- Its events. -/
def ev80 : Nat → Ev
  | 0 => .go 2 .go
  | 1 => .go 2 .go
  | 2 => .call 1 (.unlock 7)
  | 10 => .call 1 lk7
  | _ => .go 1 .go

/-- The execution. -/
def σ80 (i : Nat) : State := if i < 12 then pre80 i else per80 ((i - 12) % 17)
/-- Its events. -/
def ε80 (i : Nat) : Option Ev := some (if i < 12 then epre80 i else ev80 ((i - 12) % 17))

theorem exec80 : Exec noDeath σ80 ε80 where
  start := ⟨1, 1, 1, mem80 [] 0 0 0 0 0, by
    simp only [σ80, pre80, st80, init, mem80]
    have e1 : (at80 (fun _ => 0) (de80 0) : Nat → Nat → Nat) = fun _ _ => 0 := by
      funext m u; simp only [at80]; split <;> simp [de80]
    have e2 : pl80 out80 out80 = fun _ => .done 0 := by funext u; simp [pl80]
    have e3 : la80 .sweepM .sweepM = fun _ => .sweepM := by funext u; simp [la80]
    rw [e1, e2, e3]; rfl⟩
  next := by
    intro i
    simp only [σ80, ε80]
    by_cases hi : i < 12
    · rw [if_pos hi, if_pos hi]
      match i, hi with
      | 0, _ | 1, _ | 2, _ | 3, _ | 4, _ | 5, _ | 6, _ | 7, _ | 8, _ | 9, _ | 10, _ | 11, _ =>
        exact ⟨trivial, by simp [pre80, per80, epre80, st80, step, plan, mem80, pl80_at1, pl80_at2, pl80_1, pl80_2, la80_1, la80_2,
          Call.start, at80_7, at80_get, de80_1, failed, fin, de80]⟩
    · rw [if_neg hi, if_neg hi, if_neg (by omega)]
      have hr : (i - 12) % 17 < 17 := Nat.mod_lt _ (by decide)
      have hn : (i + 1 - 12) % 17 = ((i - 12) % 17 + 1) % 17 := by omega
      rw [hn]
      generalize (i - 12) % 17 = r at hr
      match r, hr with
      | 0, _ | 1, _ | 2, _ | 3, _ | 4, _ | 5, _ | 6, _ | 7, _ | 8, _ | 9, _ | 10, _ | 11, _ | 12, _ | 13, _ | 14, _ | 15, _ | 16, _ =>
        exact ⟨trivial, by simp [per80, ev80, st80, step, plan, mem80, pl80_at1, pl80_at2, pl80_1, pl80_2, la80_1, la80_2,
          Call.start, at80_7, at80_get, de80_1, failed, fin, ufin, de80]⟩
      | n + 17, h => exact absurd h (by omega)

theorem σ80_at (P : State → Prop) (h1 : ∀ i, i < 12 → P (pre80 i)) (h2 : ∀ r, r < 17 → P (per80 r)) (i : Nat) : P (σ80 i) := by
  unfold σ80
  split
  · exact h1 i ‹_›
  · exact h2 _ (Nat.mod_lt _ (by decide))

theorem shape80 (i : Nat) : ∃ ml room v n l d a b c e, σ80 i = st80 ml room v n l d a b c e ∧
    checking a = false ∧ checking b = false ∧ timing a = false ∧ timing b = false ∧ (12 ≤ i → ∀ r, b ≠ .done r) := by
  by_cases hi : i < 12
  · rw [show σ80 i = pre80 i by simp [σ80, hi]]
    match i, hi with
    | 0, _ | 1, _ | 2, _ | 3, _ | 4, _ | 5, _ | 6, _ | 7, _ | 8, _ | 9, _ | 10, _ | 11, _ =>
      exact ⟨_, _, _, _, _, _, _, _, _, _, rfl, rfl, rfl, rfl, rfl, by omega⟩
  · rw [show σ80 i = per80 ((i - 12) % 17) by simp [σ80, hi]]
    have hr : (i - 12) % 17 < 17 := Nat.mod_lt _ (by decide)
    generalize (i - 12) % 17 = r at hr
    match r, hr with
    | 0, _ | 1, _ | 2, _ | 3, _ | 4, _ | 5, _ | 6, _ | 7, _ | 8, _ | 9, _ | 10, _ | 11, _ | 12, _ | 13, _ | 14, _ | 15, _ | 16, _ =>
      exact ⟨_, _, _, _, _, _, _, _, _, _, rfl, rfl, rfl, rfl, rfl, by simp⟩
    | n + 17, h => exact absurd h (by omega)

theorem σ80_late (r : Nat) (hr : r < 17) (i : Nat) : σ80 (12 + 17 * i + r) = per80 r := by
  unfold σ80
  rw [if_neg (by omega), show 12 + 17 * i + r - 12 = r + 17 * i by omega, Nat.add_mul_mod_self_left, Nat.mod_eq_of_lt hr]

theorem ε80_late (r : Nat) (hr : r < 17) (i : Nat) : ε80 (12 + 17 * i + r) = some (ev80 r) := by
  unfold ε80
  rw [if_neg (by omega), show 12 + 17 * i + r - 12 = r + 17 * i by omega, Nat.add_mul_mod_self_left, Nat.mod_eq_of_lt hr]

theorem fair80 : Fair σ80 ε80 := by
  intro t ht i
  by_cases h1 : t = 1
  · exact ⟨12 + 17 * i + 3, by omega, .go, by rw [ε80_late 3 (by decide), h1]; rfl⟩
  by_cases h2 : t = 2
  · exact ⟨12 + 17 * i + 0, by omega, .go, by rw [ε80_late 0 (by decide), h2]; rfl⟩
  obtain ⟨j, _, ch, s', hs⟩ := ht i
  obtain ⟨ml, room, v, n, l, d, a, b, c, e, hj, _⟩ := shape80 j
  rw [hj] at hs
  simp [step, st80, pl80, h1, h2, plan] at hs

theorem released80 : Released σ80 := by
  intro i m t _
  refine ⟨12 + 17 * i + 10, by omega, ?_⟩
  rw [σ80_late 10 (by decide)]
  simp only [per80, st80, mem80, at80]
  split <;> simp [de80]

theorem checks80 : ChecksEnd σ80 := by
  intro t i hc
  obtain ⟨ml, room, v, n, l, d, a, b, c, e, hj, ha, hb, _⟩ := shape80 i
  rw [hj] at hc
  simp only [st80, pl80] at hc
  split at hc
  · simp_all
  · split at hc
    · simp_all
    · cases hc

theorem timely80 : Timely σ80 ε80 := by
  intro t i hc
  have hc := hc i (Nat.le_refl _)
  obtain ⟨ml, room, v, n, l, d, a, b, c, e, hj, _, _, ha, hb, _⟩ := shape80 i
  rw [hj] at hc
  simp only [st80, pl80] at hc
  split at hc
  · simp_all
  · split at hc
    · simp_all
    · cases hc

/-- C80: a thread may wait for a mutex for ever although the scheduler is fair, every owner releases the mutex and the mutex is
free again and again: another thread takes it again each time. -/
theorem C80_starved : ∃ σ ε, Exec noDeath σ ε ∧ Fair σ ε ∧ Released σ ∧ ChecksEnd σ ∧ Timely σ ε ∧
    waitsLock 7 ((σ 12).pc 2) ∧ ¬ ReturnsAfter σ 2 12 ∧ ∀ i, ∃ j, i ≤ j ∧ (σ j).mem.mval 7 = 0 := by
  refine ⟨σ80, ε80, exec80, fair80, released80, checks80, timely80, ⟨rfl, rfl, rfl⟩, ?_, fun i => ⟨12 + 17 * i + 10, by omega, ?_⟩⟩
  · rintro ⟨j, hj, r, hr⟩
    obtain ⟨ml, room, v, n, l, d, a, b, c, e, hs, _, _, _, _, hb⟩ := shape80 j
    rw [hs] at hr
    exact hb hj r hr
  · rw [σ80_late 10 (by decide)]; rfl

/-- C80 as stated is false. -/
theorem C80_not_full : ¬ C80_full := by
  intro h
  obtain ⟨σ, ε, h1, h2, h3, h4, h5, h6, h7, _⟩ := C80_starved
  exact h7 (h σ ε h1 h2 h3 h4 h5 2 12 7 h6)

/-! ### Executions in which only finitely much happens -/

/-- The state after the first `i` events. -/
def fin80 (s : State) (es : List Ev) (i : Nat) : State := (run s (es.take i)).getD s

/-- The events `es`, thereafter `lp` for ever. -/
def evs80 (es : List Ev) (lp : Option Ev) (i : Nat) : Option Ev := if i < es.length then es[i]? else lp

theorem fin80_some {s0 s : State} {es : List Ev} (h : run s0 es = some s) (i : Nat) :
    run s0 (es.take i) = some (fin80 s0 es i) := by
  unfold fin80
  cases hr : run s0 (es.take i) with
  | some x => rfl
  | none =>
    exfalso
    have : ∀ (l fs : List Ev) (s0 : State), run s0 l = none → run s0 (l ++ fs) = none := by
      intro l fs
      induction l with
      | nil => intro s0 h; cases h
      | cons e l ih =>
        intro s0 h
        simp only [run, List.cons_append, Option.bind_eq_none_iff] at h ⊢
        exact fun x hx => ih x (h x hx)
    have := this _ (es.drop i) _ hr
    rw [List.take_append_drop, h] at this
    cases this

theorem fin80_late {s0 s : State} {es : List Ev} (h : run s0 es = some s) {i : Nat} (hi : es.length ≤ i) : fin80 s0 es i = s := by
  unfold fin80
  rw [List.take_of_length_le hi, h]; rfl

theorem fin80_step {s0 s : State} {es : List Ev} (h : run s0 es = some s) {i : Nat} {e : Ev} (he : es[i]? = some e) :
    step (fin80 s0 es i) e = some (fin80 s0 es (i + 1)) := by
  have h1 := fin80_some h (i + 1)
  rw [List.take_add_one, he, Option.toList_some, run_append (fin80_some h i)] at h1
  simpa [run] using h1

/-- Threads that nobody has called a function with. -/
def who80 : Ev → Nat
  | .call t _ => t
  | .go t _ => t
  | .die t => t

/-- What is to be checked of a concrete case. -/
structure Ends80 (es : List Ev) (lp : Option Ev) (s : State) : Prop where
  alive : ∀ e ∈ es, ∀ t, e ≠ .die t
  out : ∀ t ∈ es.map who80, (∃ r, s.pc t = .done r) ∨ lp = some (.go t .go) ∧ (∃ c w m, s.pc t = .wSpin c w m .block)
  loop : ∀ e, lp = some e → (∃ t, e = .go t .go) ∧ step s e = some s
  free : ∀ m ∈ s.mem.mlist, s.mem.mval m = 0

theorem Ends80.all {es : List Ev} {lp : Option Ev} {s : State} {nm nc nw : Nat} {junk : Mem}
    (h : Ends80 es lp s) (hr : run (init nm nc nw junk) es = some s) (t : Nat) :
    (∃ r, s.pc t = .done r) ∨ lp = some (.go t .go) ∧ (∃ c w m, s.pc t = .wSpin c w m .block) := by
  by_cases ht : t ∈ es.map who80
  · exact h.out t ht
  · refine .inl ⟨0, ?_⟩
    rw [run_others es _ s t ?_ hr]
    · rfl
    · intro e he
      exact ⟨fun c hc => ht (List.mem_map.mpr ⟨e, he, by rw [hc]; rfl⟩), fun c hc => ht (List.mem_map.mpr ⟨e, he, by rw [hc]; rfl⟩)⟩

theorem Ends80.good {es : List Ev} {lp : Option Ev} {s : State} {nm nc nw : Nat} {junk : Mem}
    (h : Ends80 es lp s) (hr : run (init nm nc nw junk) es = some s) :
    Exec noDeath (fin80 (init nm nc nw junk) es) (evs80 es lp) ∧ Fair (fin80 (init nm nc nw junk) es) (evs80 es lp) ∧
    Released (fin80 (init nm nc nw junk) es) ∧ CallsEnd (evs80 es lp) ∧ ChecksEnd (fin80 (init nm nc nw junk) es) ∧
    Timely (fin80 (init nm nc nw junk) es) (evs80 es lp) := by
  have ex : Exec noDeath (fin80 (init nm nc nw junk) es) (evs80 es lp) := by
    refine ⟨⟨nm, nc, nw, junk, rfl⟩, fun i => ?_⟩
    by_cases hi : i < es.length
    · have he : evs80 es lp i = some es[i] := by simp [evs80, hi]
      rw [he]
      refine ⟨?_, fin80_step hr (by simp [hi])⟩
      have := h.alive es[i] (List.getElem_mem hi)
      cases h' : es[i] with
      | die t => exact absurd h' (this t)
      | call t c => trivial
      | go t c => trivial
    · have he : evs80 es lp i = lp := by simp [evs80, hi]
      rw [he, fin80_late hr (by omega), fin80_late hr (by omega)]
      cases lp with
      | none => rfl
      | some e =>
        obtain ⟨⟨t, rfl⟩, h2⟩ := h.loop e rfl
        exact ⟨trivial, h2⟩
  refine ⟨ex, ?_, ?_, ?_, ?_, ?_⟩
  · intro t ht i
    rcases h.all hr t with ⟨r, hr'⟩ | ⟨hl, _⟩
    · obtain ⟨j, hj, c, s', hs⟩ := ht (i + es.length)
      rw [fin80_late hr (by omega)] at hs
      simp [step, hr', plan_done] at hs
    · exact ⟨i + es.length, by omega, .go, by simp [evs80, hl]⟩
  · intro i m t hd
    refine ⟨i + es.length, by omega, ?_⟩
    rw [fin80_late hr (by omega)]
    have hinv := exec_inv ex (i + es.length)
    have hal := exec_alive ex (i + es.length) t
    rw [fin80_late hr (by omega)] at hinv hal
    by_cases t0 : t = 0
    · subst t0; exact hinv.zero m
    · refine Classical.byContradiction fun hne => t0 ?_
      have := (hinv.th t t0 hal).own m (by omega)
      rw [← this.2.1, h.free m this.1]
  · refine ⟨es.length, fun j hj t c he => ?_⟩
    rw [show evs80 es lp j = lp by simp [evs80, Nat.not_lt.mpr hj]] at he
    obtain ⟨⟨u, hu⟩, _⟩ := h.loop _ he
    cases hu
  · intro t i _
    refine ⟨i + es.length, by omega, ?_⟩
    rw [fin80_late hr (by omega)]
    rcases h.all hr t with ⟨r, hr'⟩ | ⟨_, c, w, m, hr'⟩ <;> rw [hr'] <;> rfl
  · intro t i hi
    have := hi (i + es.length) (by omega)
    rw [fin80_late hr (by omega)] at this
    rcases h.all hr t with ⟨r, hr'⟩ | ⟨_, c, w, m, hr'⟩ <;> rw [hr'] at this <;> cases this

/-- 1 and 2 wait for the condition 5, the second with a limit; 3 owns the mutex 0 and 4 waits for it. -/
def four80 : List Ev := twoWait ++ .call 4 (.lock 0 .block) :: gos 4 4
/-- 3 signals, then broadcasts, then unlocks; all others obtain the mutex one after the other. -/
def four80' : List Ev := .call 3 (.signal 5) :: gos 3 7 ++ .call 3 (.broadcast 5) :: gos 3 7 ++ .call 3 (.unlock 0) :: gos 3 7 ++
  gos 4 2 ++ .call 4 (.unlock 0) :: gos 4 7 ++ gos 1 8 ++ .call 1 (.unlock 0) :: gos 1 7 ++ gos 2 8 ++ .call 2 (.unlock 0) :: gos 2 7

/-- Non-vacuity of C80: an execution of four threads that meets the hypotheses of the theorems: 4 waits for the
mutex; 1 is in `wSpin` and waits longest when the signal is called, 2 is in `wSpin` when the broadcast is called. -/
theorem four80_case : ∃ σ ε, Exec noDeath σ ε ∧ Fair σ ε ∧ Released σ ∧ CallsEnd ε ∧ ChecksEnd σ ∧ Timely σ ε ∧
    waitsLock 0 ((σ 58).pc 4) ∧ (σ 58).last 4 = .lock 0 .block ∧ inCall (σ 58) 4 ∧
    (σ 58).pc 1 = .wSpin 5 0 0 .block ∧ (σ 58).mem.ws 5 = [1, 0] ∧ (σ 58).mem.warr 0 ≤ (σ 58).mem.warr 1 ∧
    ε 58 = some (.call 3 (.signal 5)) ∧ (σ 66).pc 2 = .wSpin 5 1 0 .timed ∧ ε 66 = some (.call 3 (.broadcast 5)) := by
  obtain ⟨s, hr, h1⟩ := run_case (s0 := init 2 2 3 junk0) (es := four80 ++ four80')
    (fun s => (decide (s.pc 1 = .done 0 ∧ s.pc 2 = .done 0 ∧ s.pc 3 = .done 0 ∧ s.pc 4 = .done 0 ∧ s.mem.mlist = [0] ∧
      s.mem.mval 0 = 0))) true (by decide +kernel)
  simp only [decide_eq_true_eq] at h1
  obtain ⟨a1, a2, a3, a4, a5, a6⟩ := h1
  have hl : ∀ t ∈ (four80 ++ four80').map who80, t = 1 ∨ t = 2 ∨ t = 3 ∨ t = 4 := by decide +kernel
  obtain ⟨g1, g2, g3, g4, g5, g6⟩ := Ends80.good (lp := none) ⟨(fun e he t => by
      have : ∀ e ∈ four80 ++ four80', (match e with | .die _ => false | _ => true) = true := by decide +kernel
      have := this e he
      rintro rfl
      cases this),
    (fun t ht => by rcases hl t ht with rfl | rfl | rfl | rfl <;> exact .inl ⟨0, ‹_›⟩),
    (fun e he => by cases he), by rw [a5]; simp [a6]⟩ hr
  have e : (fun s : State => decide (s.pc 4 = .lkCas 0 .block .api ∧ s.last 4 = .lock 0 .block ∧
      s.pc 1 = .wSpin 5 0 0 .block ∧ s.mem.ws 5 = [1, 0] ∧ s.mem.warr 0 ≤ s.mem.warr 1))
      (fin80 (init 2 2 3 junk0) (four80 ++ four80') 58) = true := by decide +kernel
  have e' : (fun s : State => decide (s.pc 2 = .wSpin 5 1 0 .timed)) (fin80 (init 2 2 3 junk0) (four80 ++ four80') 66) = true := by
    decide +kernel
  simp only [decide_eq_true_eq] at e e'
  obtain ⟨e1, e2, e3, e4, e5⟩ := e
  exact ⟨_, _, g1, g2, g3, g4, g5, g6, by rw [e1]; exact ⟨rfl, rfl, rfl⟩, e2, by intro r; rw [e1]; nofun, e3, e4, e5,
    by decide +kernel, e', by decide +kernel⟩

example : ∃ σ ε, Exec noDeath σ ε ∧ (∀ c m, (σ 58).last 4 ≠ .wait c m .block) ∧ inCall (σ 58) 4 ∧
    (∃ j, 58 ≤ j ∧ (σ j).pc 4 = .done 0 ∧ 1 ≤ (σ j).mem.dep 0 4) ∧ ReturnsAfter σ 4 58 ∧ ReturnsAfter σ 1 58 ∧ ReturnsAfter σ 2 66 := by
  obtain ⟨σ, ε, g1, g2, g3, g4, g5, g6, e1, e2, e3, e4, e5, e6, e7, e8, e9⟩ := four80_case
  have hl : ∀ c m, (σ 58).last 4 ≠ .wait c m .block := by rw [e2]; nofun
  exact ⟨σ, ε, g1, hl, e3, C80_granted_partial σ ε g1 g2 g3 g4 g5 g6 4 58 0 e1, C80_calls_partial σ ε g1 g2 g3 g4 g5 g6 4 58 hl,
    C80_signal_partial σ ε g1 g2 g3 g4 g5 g6 1 3 58 5 0 0 .block e4 (by
      rw [e5]; simp only [List.mem_cons, List.not_mem_nil, or_false]; rintro x (rfl | rfl)
      · exact e6
      · exact Nat.le_refl _) e7,
    C80_broadcast_partial σ ε g1 g2 g3 g4 g5 g6 2 3 66 5 1 0 .timed e8 e9⟩

/-- Non-vacuity of `C80_starved_calls`: the starved thread. -/
example : ∃ σ ε, Exec noDeath σ ε ∧ Fair σ ε ∧ Released σ ∧ ChecksEnd σ ∧ Timely σ ε ∧
    (∀ c m, (σ 12).last 2 ≠ .wait c m .block) ∧ ¬ ReturnsAfter σ 2 12 := by
  refine ⟨σ80, ε80, exec80, fair80, released80, checks80, timely80, ?_, ?_⟩
  · intro c m; simp [σ80, per80, st80, la80]
  · rintro ⟨j, hj, r, hr⟩
    obtain ⟨ml, room, v, n, l, d, a, b, c, e, hs, _, _, _, _, hb⟩ := shape80 j
    rw [hs] at hr
    exact hb hj r hr

/-- One thread locks the mutex 0 and waits for the condition 5. -/
def alone80 : List Ev := .call 1 (.lock 0 .block) :: gos 1 7 ++ .call 1 (.wait 5 0 .block) :: gos 1 15

/-- C80: a wait without limit that nobody wakes does not return, although the scheduler is fair, every mutex is released and the
calls end: the alternative in `C80_returns_partial` is needed. -/
theorem C80_unwoken : ∃ σ ε, Exec noDeath σ ε ∧ Fair σ ε ∧ Released σ ∧ CallsEnd ε ∧ ChecksEnd σ ∧ Timely σ ε ∧
    (∃ n c m, (σ n).last 1 = .wait c m .block ∧ inCall (σ n) 1 ∧ Unwoken σ 1 n ∧ ¬ ReturnsAfter σ 1 n) := by
  obtain ⟨s, hr, h1⟩ := run_case (s0 := init 2 2 3 junk0) (es := alone80)
    (fun s => (decide (s.pc 1 = .wSpin 5 0 0 .block ∧ s.mem.wup 0 = false ∧ s.mem.mlist = [0] ∧
      s.mem.mval 0 = 0 ∧ s.last 1 = .wait 5 0 .block))) true (by decide +kernel)
  simp only [decide_eq_true_eq] at h1
  obtain ⟨a1, a2, a3, a4, a5⟩ := h1
  have hl : ∀ t ∈ alone80.map who80, t = 1 := by decide +kernel
  have ha : s.alive 1 = true := by
    obtain ⟨s', hr', h⟩ := run_case (s0 := init 2 2 3 junk0) (es := alone80) (fun s => s.alive 1) true (by decide +kernel)
    rw [hr] at hr'; cases hr'; exact h
  obtain ⟨g1, g2, g3, g4, g5, g6⟩ := Ends80.good (lp := some (.go 1 .go)) ⟨(fun e he t => by
      have : ∀ e ∈ alone80, (match e with | .die _ => false | _ => true) = true := by decide +kernel
      have := this e he
      rintro rfl
      cases this),
    (fun t ht => by rw [hl t ht]; exact .inr ⟨rfl, _, _, _, a1⟩),
    (fun e he => by
      cases he
      refine ⟨⟨_, rfl⟩, ?_⟩
      simp only [step, ha, a1, plan, a2]
      simp [← a1, upd_self]), by rw [a3]; simp [a4]⟩ hr
  have hlate : ∀ j, alone80.length ≤ j → fin80 (init 2 2 3 junk0) alone80 j = s := fun j hj => fin80_late hr hj
  refine ⟨_, _, g1, g2, g3, g4, g5, g6, alone80.length, 5, 0, ?_, ?_, ⟨5, 0, 0, fun j hj => ?_⟩, ?_⟩
  · rw [hlate _ (Nat.le_refl _)]; exact a5
  · intro r; rw [hlate _ (Nat.le_refl _), a1]; nofun
  · rw [hlate j hj]; exact ⟨a1, a2⟩
  · rintro ⟨j, hj, r, hr'⟩
    rw [hlate j hj, a1] at hr'; cases hr'

/-- Non-vacuity of `C80_quiet`: 1 is about to try the mutex 7, which nobody else takes before it has it. -/
example : ∃ σ ε, Exec noDeath σ ε ∧ Fair σ ε ∧ (σ 5).pc 1 = .lkRead 7 .block .api ∧
    ∀ j, 5 ≤ j → (∀ k, 5 ≤ k → k ≤ j → inCall (σ k) 1) → (σ j).mem.mval 7 = 0 ∨ (σ j).mem.mval 7 = 1 := by
  refine ⟨σ80, ε80, exec80, fair80, rfl, fun j _ _ => ?_⟩
  exact σ80_at (fun s => s.mem.mval 7 = 0 ∨ s.mem.mval 7 = 1)
    (fun i hi => by match i, hi with
      | 0, _ | 1, _ | 2, _ | 3, _ | 4, _ | 5, _ | 6, _ => exact .inl rfl
      | 7, _ | 8, _ | 9, _ | 10, _ | 11, _ => exact .inr rfl)
    (fun i hi => by match i, hi with
      | 0, _ | 1, _ | 2, _ | 3, _ | 4, _ | 5, _ | 6, _ | 7, _ | 8, _ | 16, _ => exact .inr rfl
      | 9, _ | 10, _ | 11, _ | 12, _ | 13, _ | 14, _ | 15, _ => exact .inl rfl
      | n + 17, h => exact absurd h (by omega)) j

end Fullock.Props
