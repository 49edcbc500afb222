import Verif.Proofs.MCForeverDead
import Verif.Props.MCForever
/-! C95: calls of the named mutexes and conditions return although threads are killed -/
namespace Fullock.Props
open Fullock.MC

/-- C95 as stated: threads may be killed anywhere; the scheduler is fair, the mutexes of the threads that live are released, the
calls end, checks of dead owners look at every mutex and end, time passes, dead threads are known to be dead. Then a thread that is
not killed returns from its call, or waits for a condition, without limit, and is never woken. -/
def C95_full : Prop :=
  ∀ σ ε, Exec okDie σ ε → Fair σ ε → ReleasedOrDead σ → CallsEnd ε → ChecksEndOrDead σ → Thorough σ ε → TimelyOrDead σ ε →
    SeenDead ε → ∀ t i, ReturnsAfter σ t i ∨ Dies σ t ∨ ∃ n, i ≤ n ∧ Unwoken σ t n

/-- C95 (partial): so it is in the robust mode HIGH, in which a thread that tries for ever checks for dead owners
(`Patient`). Missing: the other robust modes (`C95_not_full`). -/
theorem C95_returns_partial (σ : Nat → State) (ε : Nat → Option Ev) (ex : Exec okDie σ ε) (hf : Fair σ ε) (hre : ReleasedOrDead σ)
    (hce : CallsEnd ε) (hck : ChecksEndOrDead σ) (hth : Thorough σ ε) (hpa : Patient σ ε) (hti : TimelyOrDead σ ε)
    (hsd : SeenDead ε) (t i : Nat) : ReturnsAfter σ t i ∨ Dies σ t ∨ ∃ n, i ≤ n ∧ Unwoken σ t n :=
  Dead.returns_or_waits ex hf hre hce hck hth hpa hti hsd t i

/-- C95 (partial as above): a call other than a wait without limit returns if its thread is not killed. -/
theorem C95_calls_partial (σ : Nat → State) (ε : Nat → Option Ev) (ex : Exec okDie σ ε) (hf : Fair σ ε) (hre : ReleasedOrDead σ)
    (hce : CallsEnd ε) (hck : ChecksEndOrDead σ) (hth : Thorough σ ε) (hpa : Patient σ ε) (hti : TimelyOrDead σ ε)
    (hsd : SeenDead ε) (t i : Nat) (hl : ∀ c m, (σ i).last t ≠ .wait c m .block) (ha : ∀ j, (σ j).alive t = true) :
    ReturnsAfter σ t i := by
  refine Classical.byContradiction fun hno => ?_
  rcases Dead.returns_or_waits ex hf hre hce hck hth hpa hti hsd t i with h | ⟨j, h⟩ | ⟨n, hn, c, w, m, h⟩
  · exact hno h
  · rw [ha] at h; cases h
  · have hlast : ∀ d, (σ (i + d)).last t = (σ i).last t := by
      intro d
      induction d with
      | zero => rfl
      | succ d ih =>
        rw [← ih, ← Nat.add_assoc]
        rcases Dead.any ex (i + d) with ⟨_, _, _, _, _, e⟩ | ⟨u, cl, r, _, hr, _, _, _, _, e⟩ | ⟨u, ch, p', _, _, _, _, _, _, _, e⟩
        · rw [e]
        · rw [e]
          by_cases hu : t = u
          · subst hu; exact absurd ⟨i + d, by omega, r, hr⟩ hno
          · simp [hu]
        · rw [e]
    obtain ⟨d, rfl⟩ := Nat.le.dest hn
    have := waitOf_last (exec_reach ex (i + d)) t (c := c) (m := m) (kd := .block) (by rw [(h _ (Nat.le_refl _)).1]; rfl)
    rw [hlast] at this
    exact hl c m this

/-- C95 (partial as above): a thread waiting for a mutex in a lock call without limit obtains it if it is not killed, even if
the owner of the mutex is: the call returns 0 and the thread owns the mutex. -/
theorem C95_granted_partial (σ : Nat → State) (ε : Nat → Option Ev) (ex : Exec okDie σ ε) (hf : Fair σ ε) (hre : ReleasedOrDead σ)
    (hce : CallsEnd ε) (hck : ChecksEndOrDead σ) (hth : Thorough σ ε) (hpa : Patient σ ε) (hti : TimelyOrDead σ ε)
    (hsd : SeenDead ε) (t i m : Nat) (hw : waitsLock m ((σ i).pc t)) (ha : ∀ j, (σ j).alive t = true) :
    ∃ j, i ≤ j ∧ (σ j).pc t = .done 0 ∧ 1 ≤ (σ j).mem.dep m t := by
  refine Dead.waitsLock_returns ex hw (Classical.byContradiction fun hno => ?_)
  rcases Dead.returns_or_waits ex hf hre hce hck hth hpa hti hsd t i with h | ⟨j, h⟩ | ⟨n, hn, c, w, m', h⟩
  · exact hno h
  · rw [ha] at h; cases h
  · obtain ⟨d, rfl⟩ := Nat.le.dest hn
    rcases Dead.waitsLock_on ex hw d with h' | ⟨j, h1, _, h3, _⟩
    · rw [(h _ (Nat.le_refl _)).1] at h'; exact h'.elim
    · exact hno ⟨j, h1, 0, h3⟩

/-- C95: a thread that waits for ever for a mutex of a dead thread never checks for dead owners: the robust mode is not HIGH. -/
theorem C95_mode (σ : Nat → State) (ε : Nat → Option Ev) (ex : Exec okDie σ ε) (hf : Fair σ ε) (hre : ReleasedOrDead σ)
    (hce : CallsEnd ε) (hck : ChecksEndOrDead σ) (hth : Thorough σ ε) (hti : TimelyOrDead σ ε)
    (hsd : SeenDead ε) (t i : Nat) (hl : ∀ c m, (σ i).last t ≠ .wait c m .block) (ha : ∀ j, (σ j).alive t = true)
    (hno : ¬ ReturnsAfter σ t i) :
    ∃ u n, ∀ j, n ≤ j → (σ j).alive u = true ∧ trying ((σ j).pc u) = true ∧ ε j ≠ some (.go u .limit) := by
  have hnp : ¬ Patient σ ε := fun hpa => hno (C95_calls_partial σ ε ex hf hre hce hck hth hpa hti hsd t i hl ha)
  simp only [Patient, Classical.not_forall, not_exists, not_and] at hnp
  obtain ⟨u, n, h1, h2⟩ := hnp
  exact ⟨u, n, fun j hj => ⟨(h1 j hj).1, (h1 j hj).2, h2 j hj⟩⟩

/-! ### A finite case with deaths -/

/-- The check of dead owners of `t` that begins at moment `i` looks at every mutex, if it ends before `n`. -/
def looks95 (σ : Nat → State) (ε : Nat → Option Ev) (t i n : Nat) : Bool :=
  match (σ i).pc t with
  | .acqM (.swM x) => (List.range n).all fun j =>
    !(decide (i < j)) || !((List.range j).all fun k => !(decide (i < k)) || checking ((σ k).pc t)) ||
    !(decide ((σ j).pc t = .relM (swBack x))) ||
    (σ i).mem.mlist.all fun m => (List.range j).any fun k => decide (i < k) && decide (ε k = some (.go t (.mx m)))
  | _ => true

theorem looks95_sound {σ : Nat → State} {ε : Nat → Option Ev} {t i n j : Nat} {x : Option (Nat × Kind × LK)}
    (h : looks95 σ ε t i n = true) (hj : j < n) (hij : i < j) (hp : (σ i).pc t = .acqM (.swM x))
    (hc : ∀ k, i < k → k < j → checking ((σ k).pc t) = true) (he : (σ j).pc t = .relM (swBack x)) :
    ∀ m ∈ (σ i).mem.mlist, ∃ k, i < k ∧ k < j ∧ ε k = some (.go t (.mx m)) := by
  intro m hm
  unfold looks95 at h
  rw [hp] at h
  simp only [List.all_eq_true, List.mem_range, Bool.or_eq_true, Bool.not_eq_true', decide_eq_false_iff_not, List.any_eq_true,
    Bool.and_eq_true, decide_eq_true_eq] at h
  rcases h j hj with ((h | h) | h) | h
  · exact absurd hij h
  · have : ((List.range j).all fun k => !(decide (i < k)) || checking ((σ k).pc t)) = true := by
      simp only [List.all_eq_true, List.mem_range, Bool.or_eq_true, Bool.not_eq_true', decide_eq_false_iff_not]
      intro k hk
      by_cases hik : i < k
      · exact .inr (hc k hik hk)
      · exact .inl hik
    rw [this] at h; cases h
  · exact absurd he h
  · obtain ⟨k, h1, h2, h3⟩ := h m hm
    exact ⟨k, h2, h1, h3⟩

/-- What is to be checked of a concrete case. -/
structure Ends95 (s0 : State) (es : List Ev) (s : State) : Prop where
  ok : ∀ i, i < es.length → ∀ v, es[i]? = some (.die v) → ∀ u ∈ es.map who80, checking ((fin80 s0 es i).pc u) = false
  out : ∀ t ∈ es.map who80, (∃ r, s.pc t = .done r) ∨ s.alive t = false
  free : ∀ m ∈ s.mem.mlist, s.mem.mval m = 0 ∨ s.alive (s.mem.mval m) = false
  looks : ∀ t ∈ es.map who80, ∀ i, i < es.length → looks95 (fin80 s0 es) (evs80 es none) t i (es.length + 1) = true

theorem idle95 {es : List Ev} {s : State} {nm nc nw : Nat} {junk : Mem} (hr : run (init nm nc nw junk) es = some s) {t : Nat}
    (ht : t ∉ es.map who80) (i : Nat) : (fin80 (init nm nc nw junk) es i).pc t = .done 0 := by
  rw [run_others (es.take i) _ _ t ?_ (fin80_some hr i)]
  · rfl
  · intro e he
    have he := List.mem_of_mem_take he
    exact ⟨fun c hc => ht (List.mem_map.mpr ⟨e, he, by rw [hc]; rfl⟩), fun c hc => ht (List.mem_map.mpr ⟨e, he, by rw [hc]; rfl⟩)⟩

theorem ok95 {es : List Ev} {s : State} {nm nc nw : Nat} {junk : Mem} (hr : run (init nm nc nw junk) es = some s)
    (h : ∀ i, i < es.length → ∀ v, es[i]? = some (.die v) → ∀ u ∈ es.map who80, checking ((fin80 (init nm nc nw junk) es i).pc u) = false)
    {i : Nat} (hi : i < es.length) : okDie (fin80 (init nm nc nw junk) es i) es[i] := by
  cases he : es[i] with
  | call t c => trivial
  | go t c => trivial
  | die v =>
    intro u _ m k hp
    by_cases hu : u ∈ es.map who80
    · have := h i hi v (by simp [hi, he]) u hu
      rw [hp] at this; cases this
    · rw [idle95 hr hu] at hp; cases hp

theorem Ends95.good {es : List Ev} {s : State} {nm nc nw : Nat} {junk : Mem}
    (h : Ends95 (init nm nc nw junk) es s) (hr : run (init nm nc nw junk) es = some s) :
    Exec okDie (fin80 (init nm nc nw junk) es) (evs80 es none) ∧ Fair (fin80 (init nm nc nw junk) es) (evs80 es none) ∧
    ReleasedOrDead (fin80 (init nm nc nw junk) es) ∧ CallsEnd (evs80 es none) ∧ ChecksEndOrDead (fin80 (init nm nc nw junk) es) ∧
    Thorough (fin80 (init nm nc nw junk) es) (evs80 es none) ∧ Patient (fin80 (init nm nc nw junk) es) (evs80 es none) ∧
    TimelyOrDead (fin80 (init nm nc nw junk) es) (evs80 es none) ∧ SeenDead (evs80 es none) := by
  have ex : Exec okDie (fin80 (init nm nc nw junk) es) (evs80 es none) := by
    refine ⟨⟨nm, nc, nw, junk, rfl⟩, fun i => ?_⟩
    by_cases hi : i < es.length
    · have he : evs80 es none i = some es[i] := by simp [evs80, hi]
      rw [he]
      exact ⟨ok95 hr h.ok hi, fin80_step hr (by simp [hi])⟩
    · have he : evs80 es none i = none := by simp [evs80, hi]
      rw [he, fin80_late hr (by omega), fin80_late hr (by omega)]
  have hall : ∀ t, (∃ r, s.pc t = .done r) ∨ s.alive t = false := by
    intro t
    by_cases ht : t ∈ es.map who80
    · exact h.out t ht
    · have := idle95 hr ht es.length
      rw [fin80_late hr (Nat.le_refl _)] at this
      exact .inl ⟨0, this⟩
  have hnone : ∀ j, es.length ≤ j → evs80 es none j = none := fun j hj => by simp [evs80, Nat.not_lt.mpr hj]
  refine ⟨ex, ?_, ?_, ?_, ?_, ?_, ?_, ?_, ?_⟩
  · intro t ht i
    exfalso
    obtain ⟨j, hj, c, s', hs⟩ := ht (i + es.length)
    rw [fin80_late hr (by omega)] at hs
    rcases hall t with ⟨r, hr'⟩ | hr'
    · simp [step, hr', plan_done] at hs
    · simp [step, hr'] at hs
  · intro i m t hd
    refine ⟨i + es.length, by omega, ?_⟩
    rw [fin80_late hr (by omega)]
    have hinv := Dead.inv ex (i + es.length)
    rw [fin80_late hr (by omega)] at hinv
    by_cases t0 : t = 0
    · subst t0; exact .inl (hinv.zero m)
    · cases hal : s.alive t with
      | false => exact .inr rfl
      | true =>
        left
        refine Classical.byContradiction fun hne => ?_
        have := (hinv.th t t0 hal).own m (by omega)
        rcases h.free m this.1 with e | e
        · rw [this.2.1] at e; exact t0 e
        · rw [this.2.1, hal] at e; cases e
  · exact ⟨es.length, fun j hj t c he => by rw [hnone j hj] at he; cases he⟩
  · intro t i _
    refine ⟨i + es.length, by omega, ?_⟩
    rw [fin80_late hr (by omega)]
    rcases hall t with ⟨r, hr'⟩ | hr'
    · left; rw [hr']; rfl
    · exact .inr hr'
  · intro t i j x hij hp hc he
    by_cases ht : t ∈ es.map who80
    · by_cases hi : i < es.length
      · refine looks95_sound (h.looks t ht i hi) (Classical.byContradiction fun hj => ?_) hij hp hc he
        rw [fin80_late hr (by omega)] at he
        have := hc es.length hi (by omega)
        rw [fin80_late hr (by omega), he] at this
        cases this
      · rw [fin80_late hr (by omega)] at hp he
        rw [hp] at he; cases he
    · rw [idle95 hr ht] at hp; cases hp
  · intro t i hi
    have := hi (i + es.length) (by omega)
    rw [fin80_late hr (by omega)] at this
    rcases hall t with ⟨r, hr'⟩ | hr'
    · rw [hr'] at this; cases this.2
    · rw [hr'] at this; cases this.1
  · intro t i hi
    have := hi (i + es.length) (by omega)
    rw [fin80_late hr (by omega)] at this
    rcases hall t with ⟨r, hr'⟩ | hr'
    · rw [hr'] at this; cases this.2
    · rw [hr'] at this; cases this.1
  · exact ⟨es.length, fun j hj t he => by rw [hnone j hj] at he; cases he⟩

/-- 1 locks the mutexes 0 and 3 and is killed; 2 asks for 0, which 1 owned, finds its number of attempts over, checks for dead
owners, obtains the mutex, and unlocks it; 4 is killed while it waits for 3. -/
def killed95 : List Ev := .call 1 (.lock 0 .block) :: gos 1 7 ++ .call 1 (.lock 3 .block) :: gos 1 7 ++ .die 1 ::
  .call 4 (.lock 3 .block) :: gos 4 4 ++ .die 4 ::
  .call 2 (.lock 0 .block) :: gos 2 4 ++ [.go 2 .limit, .go 2 .go, .go 2 (.mx 3)] ++ gos 2 5 ++ .go 2 (.mx 0) :: gos 2 5 ++ gos 2 5 ++
  .call 2 (.unlock 0) :: gos 2 7

/-- Non-vacuity of C95: an execution that meets the hypotheses of the theorems; 2 waits for the mutex of the dead thread 1. -/
theorem killed95_case : ∃ σ ε, Exec okDie σ ε ∧ Fair σ ε ∧ ReleasedOrDead σ ∧ CallsEnd ε ∧ ChecksEndOrDead σ ∧ Thorough σ ε ∧
    Patient σ ε ∧ TimelyOrDead σ ε ∧ SeenDead ε ∧ waitsLock 0 ((σ 27).pc 2) ∧ (σ 27).last 2 = .lock 0 .block ∧
    (σ 27).mem.mval 0 = 1 ∧ (σ 27).alive 1 = false ∧ (σ 27).alive 4 = false ∧ inCall (σ 27) 4 ∧ (∀ j, (σ j).alive 2 = true) := by
  obtain ⟨s, hr, h1⟩ := run_case (s0 := init 2 2 3 junk0) (es := killed95)
    (fun s => (decide (s.pc 1 = .done 0 ∧ s.pc 2 = .done 0 ∧ s.alive 1 = false ∧ s.alive 2 = true ∧ s.alive 4 = false ∧ s.mem.mlist = [3, 0] ∧
      s.mem.mval 0 = 0 ∧ s.mem.mval 3 = 0))) true (by decide +kernel)
  simp only [decide_eq_true_eq] at h1
  obtain ⟨a1, a2, a3, a4, a5, a6, a7, a8⟩ := h1
  have hl : ∀ t ∈ killed95.map who80, t = 1 ∨ t = 2 ∨ t = 4 := by decide +kernel
  obtain ⟨g1, g2, g3, g4, g5, g6, g7, g8, g9⟩ := Ends95.good ⟨(by
      intro i hi v hv u hu
      have : ∀ i < killed95.length, (match killed95[i]? with
          | some (.die _) => (killed95.map who80).all fun u => !checking ((fin80 (init 2 2 3 junk0) killed95 i).pc u)
          | _ => true) = true := by decide +kernel
      have := this i hi
      rw [hv] at this
      simpa using List.all_eq_true.mp this u hu),
    (fun t ht => by rcases hl t ht with rfl | rfl | rfl <;> first | exact .inl ⟨0, ‹_›⟩ | exact .inr ‹_›),
    (by rw [a6]; simp [a7, a8]),
    (by
      have : ∀ i < killed95.length, (looks95 (fin80 (init 2 2 3 junk0) killed95) (evs80 killed95 none) 1 i (killed95.length + 1) &&
        looks95 (fin80 (init 2 2 3 junk0) killed95) (evs80 killed95 none) 2 i (killed95.length + 1) &&
        looks95 (fin80 (init 2 2 3 junk0) killed95) (evs80 killed95 none) 4 i (killed95.length + 1)) = true := by decide +kernel
      intro t ht i hi
      have := this i hi
      simp only [Bool.and_eq_true] at this
      rcases hl t ht with rfl | rfl | rfl
      · exact this.1.1
      · exact this.1.2
      · exact this.2)⟩ hr
  have e : (fun s : State => decide (s.pc 2 = .lkRead 0 .block .api ∧ s.last 2 = .lock 0 .block ∧
      s.mem.mval 0 = 1 ∧ s.alive 1 = false ∧ s.alive 4 = false ∧ s.pc 4 = .lkCas 3 .block .api))
      (fin80 (init 2 2 3 junk0) killed95 27) = true := by decide +kernel
  simp only [decide_eq_true_eq] at e
  obtain ⟨e1, e2, e3, e4, e5, e6⟩ := e
  refine ⟨_, _, g1, g2, g3, g4, g5, g6, g7, g8, g9, by rw [e1]; exact ⟨rfl, rfl, rfl⟩, e2, e3, e4, e5, by intro r; rw [e6]; nofun, ?_⟩
  intro j
  refine Dead.alive_back g1 (Nat.le_add_right j killed95.length) ?_
  rw [fin80_late hr (by omega)]; exact a4

example : ∃ σ ε, Exec okDie σ ε ∧ (σ 27).mem.mval 0 = 1 ∧ (σ 27).alive 1 = false ∧
    (∃ j, 27 ≤ j ∧ (σ j).pc 2 = .done 0 ∧ 1 ≤ (σ j).mem.dep 0 2) ∧ ReturnsAfter σ 2 27 := by
  obtain ⟨σ, ε, g1, g2, g3, g4, g5, g6, g7, g8, g9, e1, e2, e3, e4, e5, e6, e7⟩ := killed95_case
  exact ⟨σ, ε, g1, e3, e4, C95_granted_partial σ ε g1 g2 g3 g4 g5 g6 g7 g8 g9 2 27 0 e1 e7,
    C95_calls_partial σ ε g1 g2 g3 g4 g5 g6 g7 g8 g9 2 27 (by rw [e2]; nofun) e7⟩

/-! ### Without the robust mode HIGH -/

/-- 1 locks the mutex 0 and is killed; 2 asks for the mutex. -/
def stuck95 : List Ev := .call 1 (.lock 0 .block) :: gos 1 7 ++ .die 1 :: .call 2 (.lock 0 .block) :: gos 2 3

/-- The state after it and the state in which 2 has read the owner. -/
def σ95 (s s' : State) (i : Nat) : State :=
  if i < stuck95.length then fin80 (init 2 2 3 junk0) stuck95 i else if (i - stuck95.length) % 2 = 0 then s else s'
/-- Events: 2 tries for ever. -/
def ε95 (i : Nat) : Option Ev := if i < stuck95.length then stuck95[i]? else some (.go 2 .go)

/-- C95: without the check of dead owners a thread waits for the mutex of a dead thread for ever, although the scheduler is fair
and no call is made any more. -/
theorem C95_stuck : ∃ σ ε, Exec okDie σ ε ∧ Fair σ ε ∧ ReleasedOrDead σ ∧ CallsEnd ε ∧ ChecksEndOrDead σ ∧ Thorough σ ε ∧
    TimelyOrDead σ ε ∧ SeenDead ε ∧ ∃ i, waitsLock 0 ((σ i).pc 2) ∧ (σ i).last 2 = .lock 0 .block ∧ (σ i).mem.mval 0 = 1 ∧
      (∀ j, (σ j).alive 2 = true) ∧ ∀ j, i ≤ j → (σ j).alive 1 = false ∧ inCall (σ j) 2 ∧ ¬ Unwoken σ 2 j := by
  obtain ⟨s, hr, h1⟩ := run_case (s0 := init 2 2 3 junk0) (es := stuck95)
    (fun s => (decide (s.pc 1 = .done 0 ∧ s.pc 2 = .lkRead 0 .block .api ∧ s.alive 1 = false ∧ s.alive 2 = true ∧ s.mem.mlist = [0] ∧
      s.mem.mval 0 = 1 ∧ s.last 2 = .lock 0 .block))) true (by decide +kernel)
  simp only [decide_eq_true_eq] at h1
  obtain ⟨a1, a2, a3, a4, a5, a6, a7⟩ := h1
  have hl : ∀ t ∈ stuck95.map who80, t = 1 ∨ t = 2 := by decide +kernel
  have hlen : stuck95.length = 13 := by decide +kernel
  let s' : State := { s with pc := upd s.pc 2 (.lkCas 0 .block .api) }
  have hs1 : step s (.go 2 .go) = some s' := by simp [step, a4, a2, plan, a6, s']
  have hs2 : step s' (.go 2 .go) = some s := by
    simp only [step, s', a4, plan, upd_same, a6, failed]
    have e : upd (upd s.pc 2 (.lkCas 0 .block .api)) 2 (.lkRead 0 .block .api) = s.pc := by
      funext u
      by_cases hu : u = 2
      · rw [hu, upd_same, a2]
      · rw [upd_ne _ _ hu, upd_ne _ _ hu]
    simp [e]
  have hdie : ∀ i, i < stuck95.length → ∀ v, stuck95[i]? = some (.die v) → ∀ u ∈ stuck95.map who80,
      checking ((fin80 (init 2 2 3 junk0) stuck95 i).pc u) = false := by
    intro i hi v hv u hu
    have : ∀ i < stuck95.length, (match stuck95[i]? with
        | some (.die _) => (stuck95.map who80).all fun u => !checking ((fin80 (init 2 2 3 junk0) stuck95 i).pc u)
        | _ => true) = true := by decide +kernel
    have := this i hi
    rw [hv] at this
    simpa using List.all_eq_true.mp this u hu
  have ex : Exec okDie (σ95 s s') ε95 := by
    refine ⟨⟨2, 2, 3, junk0, by rw [σ95, if_pos (by omega)]; rfl⟩, fun i => ?_⟩
    by_cases hi : i < stuck95.length
    · have he : ε95 i = some stuck95[i] := by simp [ε95, hi]
      rw [he]
      refine ⟨by rw [σ95, if_pos hi]; exact ok95 hr hdie hi, ?_⟩
      have := fin80_step hr (i := i) (e := stuck95[i]) (by simp [hi])
      rw [σ95, if_pos hi, this]
      by_cases hi' : i + 1 < stuck95.length
      · rw [σ95, if_pos hi']
      · rw [σ95, if_neg hi', if_pos (by omega), fin80_late hr (by omega)]
    · have he : ε95 i = some (.go 2 .go) := by simp [ε95, hi]
      rw [he]
      refine ⟨trivial, ?_⟩
      have hi1 : ¬ i + 1 < stuck95.length := by omega
      unfold σ95
      rw [if_neg hi, if_neg hi1]
      by_cases hp : (i - stuck95.length) % 2 = 0
      · have hp1 : ¬ (i + 1 - stuck95.length) % 2 = 0 := by omega
        rw [if_pos hp, if_neg hp1]; exact hs1
      · have hp1 : (i + 1 - stuck95.length) % 2 = 0 := by omega
        rw [if_neg hp, if_pos hp1]; exact hs2
  have late : ∀ j, stuck95.length ≤ j → (σ95 s s' j).mem = s.mem ∧ (σ95 s s' j).alive = s.alive ∧
      (∀ u, u ≠ 2 → (σ95 s s' j).pc u = s.pc u) ∧ ((σ95 s s' j).pc 2 = .lkRead 0 .block .api ∨ (σ95 s s' j).pc 2 = .lkCas 0 .block .api) := by
    intro j hj
    rw [σ95, if_neg (by omega)]
    split
    · exact ⟨rfl, rfl, fun _ _ => rfl, .inl a2⟩
    · exact ⟨rfl, rfl, fun u hu => by simp [s', hu], .inr (by simp [s'])⟩
  have idle : ∀ t, t ≠ 2 → ∀ j, stuck95.length ≤ j → (σ95 s s' j).pc t = .done 0 := by
    intro t ht j hj
    rw [(late j hj).2.2.1 t ht]
    by_cases h1 : t = 1
    · rw [h1]; exact a1
    · have := idle95 hr (t := t) (fun hm => by rcases hl t hm with e | e <;> omega) stuck95.length
      rwa [fin80_late hr (Nat.le_refl _)] at this
  have noc : ∀ t i, checking ((σ95 s s' i).pc t) = false ∧ (∀ x, (σ95 s s' i).pc t ≠ .acqM (.swM x)) ∧ timing ((σ95 s s' i).pc t) = false := by
    intro t i
    by_cases hi : i < stuck95.length
    · rw [σ95, if_pos hi]
      by_cases ht : t = 1 ∨ t = 2
      · have : ∀ i < stuck95.length, ∀ t ∈ [1, 2], (!checking ((fin80 (init 2 2 3 junk0) stuck95 i).pc t) &&
            !timing ((fin80 (init 2 2 3 junk0) stuck95 i).pc t) &&
            match (fin80 (init 2 2 3 junk0) stuck95 i).pc t with
            | .acqM (.swM _) => false
            | _ => true) = true := by decide +kernel
        have := this i hi t (by simpa using ht)
        simp only [Bool.and_eq_true, Bool.not_eq_true'] at this
        refine ⟨this.1.1, fun x hx => ?_, this.1.2⟩
        have := this.2
        rw [hx] at this; cases this
      · rw [idle95 hr (t := t) (fun hm => ht (hl t hm))]
        exact ⟨rfl, nofun, rfl⟩
    · by_cases ht : t = 2
      · subst ht
        rcases (late i (by omega)).2.2.2 with e | e <;> rw [e] <;> exact ⟨rfl, nofun, rfl⟩
      · rw [idle t ht i (by omega)]; exact ⟨rfl, nofun, rfl⟩
  have alive1 : ∀ j, stuck95.length ≤ j → (σ95 s s' j).alive 1 = false := fun j hj => by rw [(late j hj).2.1]; exact a3
  refine ⟨σ95 s s', ε95, ex, ?_, ?_, ?_, ?_, ?_, ?_, ?_, stuck95.length, ?_, ?_, ?_, ?_, ?_⟩
  · intro t ht i
    by_cases h2 : t = 2
    · subst h2; exact ⟨i + stuck95.length, by omega, .go, by simp [ε95]⟩
    · obtain ⟨j, hj, c, x, hx⟩ := ht (i + stuck95.length)
      simp [step, idle t h2 j (by omega), plan_done] at hx
  · intro i m t _
    refine ⟨i + stuck95.length, by omega, ?_⟩
    by_cases h1 : t = 1
    · right; rw [h1]; exact alive1 _ (by omega)
    · left
      have hinv := Dead.inv ex (i + stuck95.length)
      by_cases t0 : t = 0
      · subst t0; exact hinv.zero m
      · cases hal : (σ95 s s' (i + stuck95.length)).alive t with
        | false =>
          have hd : ∀ t, t ≠ 1 → s.alive t = true := by
            obtain ⟨s2, hr2, h2⟩ := run_case (s0 := init 2 2 3 junk0) (es := stuck95) (fun s => s.alive) (upd (fun _ => true) 1 false) rfl
            rw [hr] at hr2; cases hr2
            intro t ht; rw [h2]; simp [ht]
          rw [(late _ (by omega)).2.1, hd t h1] at hal; cases hal
        | true =>
          refine Classical.byContradiction fun hne => ?_
          have := (hinv.th t t0 hal).own m (by omega)
          rw [(late _ (by omega)).1, a5] at this
          obtain ⟨hm, hv, _⟩ := this
          simp only [List.mem_singleton] at hm
          rw [hm, a6] at hv; exact h1 hv.symm
  · exact ⟨stuck95.length, fun j hj t c he => by simp [ε95, Nat.not_lt.mpr hj] at he⟩
  · intro t i hc; rw [(noc t i).1] at hc; cases hc
  · intro t i j x _ hp; exact absurd hp ((noc t i).2.1 x)
  · intro t i hc; have := (hc i (Nat.le_refl _)).2; rw [(noc t i).2.2] at this; cases this
  · exact ⟨stuck95.length, fun j hj t he => by simp [ε95, Nat.not_lt.mpr hj] at he⟩
  · rcases (late _ (Nat.le_refl _)).2.2.2 with e | e <;> rw [e] <;> exact ⟨rfl, rfl, rfl⟩
  · rw [σ95, if_neg (by omega), if_pos (by omega)]; exact a7
  · rw [(late _ (Nat.le_refl _)).1]; exact a6
  · intro j
    refine Dead.alive_back ex (Nat.le_add_right j stuck95.length) ?_
    rw [(late _ (by omega)).2.1]; exact a4
  · intro j hj
    refine ⟨alive1 j hj, ?_, ?_⟩
    · intro r; rcases (late j hj).2.2.2 with e | e <;> rw [e] <;> nofun
    · rintro ⟨c, w, m, h⟩
      have := (h j (Nat.le_refl _)).1
      rcases (late j hj).2.2.2 with e | e <;> rw [e] at this <;> cases this

/-- C95 as stated is false. -/
theorem C95_not_full : ¬ C95_full := by
  intro h
  obtain ⟨σ, ε, g1, g2, g3, g4, g5, g6, g7, g8, i, _, _, _, ha, hj⟩ := C95_stuck
  rcases h σ ε g1 g2 g3 g4 g5 g6 g7 g8 2 i with ⟨j, h1, r, h2⟩ | ⟨j, h1⟩ | ⟨n, h1, h2⟩
  · exact (hj j h1).2.1 r h2
  · rw [ha] at h1; cases h1
  · exact (hj n h1).2.2 h2

/-- Non-vacuity of `C95_mode`. -/
example : ∃ σ ε, Exec okDie σ ε ∧ Fair σ ε ∧ ReleasedOrDead σ ∧ CallsEnd ε ∧ ChecksEndOrDead σ ∧ Thorough σ ε ∧
    TimelyOrDead σ ε ∧ SeenDead ε ∧ ∃ i, (∀ c m, (σ i).last 2 ≠ .wait c m .block) ∧ (∀ j, (σ j).alive 2 = true) ∧ ¬ ReturnsAfter σ 2 i := by
  obtain ⟨σ, ε, g1, g2, g3, g4, g5, g6, g7, g8, i, _, hl, _, ha, hj⟩ := C95_stuck
  exact ⟨σ, ε, g1, g2, g3, g4, g5, g6, g7, g8, i, by rw [hl]; nofun, ha, fun ⟨j, h1, r, h2⟩ => (hj j h1).2.1 r h2⟩

end Fullock.Props
