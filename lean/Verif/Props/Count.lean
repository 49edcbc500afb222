import Verif.Model.Count
import Verif.Props.LockId
import Verif.Props.RwWord
import Verif.Props.FileLock
import Verif.Props.MCCases
import Verif.Model.Config
import Verif.Proofs.MCInv
/-!
C73: how long calls may wait, and how often a mutex may be locked, before a counter leaves the range
of the machine integer that holds it.
-/
namespace Fullock.Props
open Fullock.Count

/-! ### Waiting for a table -/
section Table
open LockId

/-- The loop counter a thread has in the loops for a table lock. -/
def tableCnt : LockId.Pc → Option Nat
  | .acq c _ | .chk c _ | .steal c _ | .rel c _ | .rchk c _ | .rsteal c _ => some c
  | .out | .crit => none

/-- C73 for the wait for a table, as stated: it may last for any time. -/
def C73_table_full : Prop := ∀ s, LockIdReachable s → ∀ t c, tableCnt (s.pc t) = some c → c ≤ intMax

theorem table_run_append {s : LockId.State} {es es' : List LockId.Ev} :
    LockId.run s (es ++ es') = (LockId.run s es).bind (LockId.run · es') := by
  induction es generalizing s with
  | nil => rfl
  | cons e es ih =>
    simp only [List.cons_append, LockId.run]
    cases LockId.step s e <;> simp [ih]

/-- While a live thread keeps the table, the waiting one counts on without end. -/
theorem table_counts (s : LockId.State) (t h : Nat) (h0 : h ≠ 0) (hht : h ≠ t) (hl : s.lockid = h)
    (ha : s.alive h = true) (hta : s.alive t = true) (hp : s.pc t = .acq 0 0) (n : Nat) :
    ∃ es s', LockId.run s es = some s' ∧ s'.lockid = h ∧ s'.alive = s.alive ∧ s'.pc t = .acq (n + 1) h := by
  induction n with
  | zero =>
    refine ⟨[.go t], s.setPc t (.acq 1 h), ?_, by simpa using hl, rfl, by simp⟩
    simp [LockId.run, hta, LockId.step, own, hp, hl, h0, hht]
  | succ n ih =>
    obtain ⟨es, s', hr, hl', ha', hp'⟩ := ih
    by_cases hn : limit < n + 1
    · refine ⟨es ++ [.go t, .go t], (s'.setPc t (.chk (n + 1) h)).setPc t (.acq (n + 2) h), ?_, ?_, ?_, ?_⟩
      · rw [table_run_append, hr]
        simp [LockId.run, LockId.step, ha', hta, own, hp', hl', h0, hht, hn, ha]
      · simpa using hl'
      · simpa using ha'
      · simp
    · refine ⟨es ++ [.go t], s'.setPc t (.acq (n + 2) h), ?_, by simpa using hl', by simpa using ha', by simp⟩
      rw [table_run_append, hr]
      simp [LockId.run, LockId.step, ha', hta, own, hp', hl', h0, hht, hn]

/-- C73: a thread that waits for a table while the holder, alive, does not go on (stopped, say) makes
its counter overflow. -/
theorem C73_table_not_full : ¬ C73_table_full := by
  intro h
  obtain ⟨es, s', hr, -, -, hp⟩ := table_counts
    ((LockId.run init [.enter 1, .go 1, .enter 2]).getD init) 2 1 (by decide) (by decide) (by decide)
    (by decide) (by decide) (by decide) intMax
  have := h s' ⟨[.enter 1, .go 1, .enter 2] ++ es, by rw [table_run_append]; exact hr⟩ 2 (intMax + 1) (by rw [hp]; rfl)
  omega

/-- Number of steps of `t` in an execution. -/
def tableSteps (t : Nat) (es : List LockId.Ev) : Nat := es.countP (· = .go t)

theorem table_own (s : LockId.State) (t u c : Nat) (h : tableCnt ((own s t).pc u) = some c) :
    ∃ c', (tableCnt (s.pc u) = some c' ∧ (c ≤ c' + if u = t then 1 else 0)) := by
  by_cases hut : u = t
  · subst hut
    simp only [if_true]
    cases hp : s.pc u <;> simp only [own, hp] at h <;> (repeat' split at h) <;>
      simp [tableCnt, hp] at h <;> exact ⟨_, rfl, by omega⟩
  · simp only [if_neg hut, Nat.add_zero]
    refine ⟨c, ?_, Nat.le_refl _⟩
    rw [← h]
    cases hp : s.pc t <;> simp only [own, hp] <;> (repeat' split) <;> simp [hut]

theorem table_bound (t : Nat) : ∀ (es : List LockId.Ev) (s s' : LockId.State) (n : Nat), LockId.run s es = some s' →
    (∀ c, tableCnt (s.pc t) = some c → c ≤ n) → ∀ c, tableCnt (s'.pc t) = some c → c ≤ n + tableSteps t es := by
  intro es
  induction es with
  | nil => intro s s' n h hb; cases h; simpa [tableSteps] using hb
  | cons e es ih =>
    intro s s' n h hb
    simp only [LockId.run, Option.bind_eq_some_iff] at h
    obtain ⟨s1, h1, h2⟩ := h
    have : ∀ c, tableCnt (s1.pc t) = some c → c ≤ n + if e = .go t then 1 else 0 := by
      intro c hc
      cases e with
      | enter u =>
        simp only [LockId.step] at h1
        split at h1 <;> cases h1
        simp only [setPc_pc] at hc
        split at hc
        · simp [tableCnt] at hc; omega
        · have := hb c hc; omega
      | leave u =>
        simp only [LockId.step] at h1
        split at h1 <;> cases h1
        simp only [setPc_pc] at hc
        split at hc
        · simp [tableCnt] at hc; omega
        · have := hb c hc; omega
      | go u =>
        simp only [LockId.step] at h1
        split at h1 <;> cases h1
        obtain ⟨c', e1, e2⟩ := table_own _ _ _ _ hc
        have := hb c' e1
        by_cases hu : t = u
        · subst hu; simp at e2 ⊢; omega
        · rw [if_neg hu] at e2; omega
      | die u =>
        simp only [LockId.step] at h1
        cases h1
        have := hb c hc; omega
    have := ih s1 s' _ h2 this
    simp only [tableSteps, List.countP_cons] at this ⊢
    intro c hc
    have := this c hc
    split at this <;> simp_all <;> omega

/-- C73, proved part for tables: the counter of a thread never exceeds the number of steps it has made
in the loops of the table lock, so a wait of less than 2^31 rounds has no overflow, whatever the others do.
(Missing, because false: longer waits.) -/
theorem C73_table_partial (s s' : LockId.State) (t : Nat) (es : List LockId.Ev) (hs : tableCnt (s.pc t) = none)
    (hr : LockId.run s es = some s') (hn : tableSteps t es ≤ intMax) (c : Nat)
    (hc : tableCnt (s'.pc t) = some c) : c ≤ intMax := by
  have := table_bound t es s s' 0 hr (by simp [hs]) c hc
  omega

example : ∃ s', LockId.run init [.enter 1, .go 1, .enter 2, .go 2, .go 2] = some s' ∧ tableCnt (s'.pc 2) = some 2 :=
  ⟨_, rfl, by decide⟩

end Table

/-! ### Waiting for a range -/
section Range
open RW Spec.RW
open Fullock.FL (Mode)

/-- `cnt++` of a blocking request is defined wherever it is executed. -/
def rangeFits (s : RW.State) : Prop := ∀ t k md max cnt, s.pc t = .top k md (.block max) cnt →
  spent (.block max) cnt = false → cnt + 1 ≤ intMax

/-- C73 for the wait for a range, as stated: any limit that can be configured, or none. -/
def C73_range_full : Prop := ∀ s, Spec.RW.Reach (fun _ _ => True) s → rangeFits s

theorem range_counts (max : Int) (n : Nat) (hm : max = -1 ∨ (n : Int) ≤ max + 1) :
    ∃ s, Spec.RW.Reach (fun _ _ => True) s ∧ s.word = -1 ∧ s.pc 2 = .top 20 .rd (.block max) n := by
  induction n with
  | zero =>
    have h : Spec.RW.Reach (fun _ _ => True) ((RW.run init [.call 1 (.lock 10 .wr .try_), .go 1 .within]).getD init) :=
      reach_run .init (fun _ _ _ _ _ _ => trivial)
        (es := [.call 1 (.lock 10 .wr .try_), .go 1 .within]) rfl
    refine ⟨_, .step h (e := .call 2 (.lock 20 .rd (.block max))) trivial rfl, rfl, rfl⟩
  | succ n ih =>
    obtain ⟨s, h, hw, hp⟩ := ih (by omega)
    refine ⟨s.goto 2 (.top 20 .rd (.block max) (n + 1)), .step h (e := .go 2 .within) trivial ?_, hw, ?_⟩
    · have : spent (.block max) n = false := by simp [spent]; omega
      simp [RW.step, hp, this, hw, fail]
    · simp [State.goto, FL.fset]

/-- C73: without a limit, a request that waits long enough for a range makes its counter overflow. -/
theorem C73_range_not_full : ¬ C73_range_full := by
  intro h
  obtain ⟨s, hr, -, hp⟩ := range_counts (-1) intMax (.inl rfl)
  have := h s hr 2 20 .rd (-1) intMax hp (by decide)
  omega

/-- C73: with the largest limit that the setting call accepts the counter overflows as well. -/
theorem C73_range_limit_not_full :
    (setRobustLoopCnt {} intMax).2.loopCnt = intMax ∧
    ∃ s, Spec.RW.Reach (fun _ _ => True) s ∧ s.pc 2 = .top 20 .rd (.block intMax) intMax ∧ ¬ rangeFits s := by
  refine ⟨by decide, ?_⟩
  obtain ⟨s, hr, -, hp⟩ := range_counts intMax intMax (by omega)
  refine ⟨s, hr, hp, fun h => ?_⟩
  have := h 2 20 .rd _ _ hp (by decide)
  omega

/-- C73, proved part for ranges: with every other limit no overflow, however long the call waits; and
without a limit the counter is at most the number of steps the call has made.  (Missing, because false:
no limit, or a limit of INT_MAX, and a wait of more than 2^31 rounds.) -/
theorem C73_range_partial {A : RW.State → RW.Ev → Prop} (s s' : RW.State) (h : Spec.RW.Reach A s) (t k : Nat)
    (md : Mode) (max : Int) (hm : -1 ≤ max)
    (hp : s.pc t = (RW.Call.lock k md (.block max)).start)
    (es : List RW.Ev) (hst : staying t es) (hr : RW.run s es = some s') (cnt : Nat)
    (hc : s'.pc t = .top k md (.block max) cnt) :
    cnt ≤ steps t es ∧ (max ≠ -1 → cnt ≤ max + 1) ∧
    (max ≠ -1 → max < intMax → spent (.block max) cnt = false → cnt + 1 ≤ intMax) := by
  have := track (t := t) (fun p _ n _ => (∀ c, p = .top k md (.block max) c → c ≤ n ∧ (max ≠ -1 → c ≤ max + 1)) ∧
      (∀ c b, p = .cas k (.block max) c b → md = .rd ∧ c + 1 ≤ n ∧ (max ≠ -1 → c ≤ max)) ∧
      ((∃ r, p = .idle r) ∨ (∃ c, p = .top k md (.block max) c) ∨ ∃ c b, p = .cas k (.block max) c b))
      False False ?_ ?_ es s s' 0 0 (reach_any h) hst (fun e => e.elim) (fun e => e.elim) hr ?_
  · simp only [Nat.zero_add] at this
    obtain ⟨h1, h2⟩ := this.1 cnt hc
    refine ⟨h1, h2, fun h3 h4 h5 => ?_⟩
    simp [spent] at h5
    omega
  · intro x x' c n m hP hm hfl _ _
    have hself : ∀ p, (x.goto t p).pc t = p := fun p => by simp [goto_pc]
    obtain ⟨h1, h2, ⟨r, e⟩ | ⟨cnt, e⟩ | ⟨cnt, b, e⟩⟩ := hP
    · cases hm <;> simp_all
    · have h1 := h1 cnt e
      clear h2
      cases md <;> cases hm <;> simp_all [goto_word, spent, fail]
      all_goals omega
    · have h2 := h2 cnt b e
      clear h1
      cases hm <;> simp_all [goto_word, fail]
      all_goals omega
  · intro p w w' n m hP
    exact hP
  · refine ⟨?_, ?_, .inr (.inl ⟨0, hp⟩)⟩
    · intro c e
      rw [hp] at e
      cases e
      exact ⟨by omega, fun _ => by omega⟩
    · intro c b e
      rw [hp] at e
      cases e

/-- A writer holds the range, a reader has failed three times. -/
example : ∃ s s', Spec.RW.Reach (fun _ _ => True) s ∧ s.pc 2 = (RW.Call.lock 20 .rd (.block 50)).start ∧
    RW.run s (List.replicate 3 (.go 2 .within)) = some s' ∧ s'.pc 2 = .top 20 .rd (.block 50) 3 := by
  obtain ⟨s, h, hw, hp⟩ := range_counts 50 0 (by decide)
  refine ⟨s, ((s.goto 2 (.top 20 .rd (.block 50) 1)).goto 2 (.top 20 .rd (.block 50) 2)).goto 2
    (.top 20 .rd (.block 50) 3), h, hp, ?_⟩
  simp [List.replicate, RW.run, RW.step, hp, hw, spent, fail, State.goto, FL.fset]

/-- C73: readers never make the word of a range overflow, when there are fewer than 2^31 - 1 locker records
and no thread dies where the word and the records differ (C17). -/
theorem C73_word_partial (nf no nl : Nat) (s : FL.State) (hr : From FL.softDeath nf no nl s) (o : Nat)
    (hn : nl < intMax) : -1 ≤ s.mem.word o ∧ s.mem.word o + 1 ≤ intMax := by
  have := C17_word_bounded nf no nl s hr o
  omega

end Range

/-! ### Waiting for a mutex -/

theorem attempts_fail (max : Int) (n : Nat) : ∀ (c : Int) (bs : List Bool),
    (max = -1 ∨ c + n ≤ max + 1) → c + n ≤ intMax →
    attempts max c (List.replicate n false ++ bs) = attempts max (c + n) bs := by
  induction n with
  | zero => intro c bs _ _; simp
  | succ n ih =>
    intro c bs h1 h2
    have e1 : ¬ (max ≠ -1 ∧ max < c) := by omega
    have e2 : ¬ c = intMax := by omega
    rw [List.replicate_succ, List.cons_append, attempts, if_neg e1, if_neg e2]
    simp only [Bool.false_eq_true, if_false]
    rw [ih (c + 1) bs (by omega) (by omega)]
    congr 1
    omega

/-- C73 for the wait for a mutex, as stated. -/
def C73_mutex_full : Prop := ∀ (max : Int) (bs : List Bool), -1 ≤ max → max ≤ intMax → attempts max 0 bs ≠ .overflow

/-- C73: without a limit, and with a limit of INT_MAX, the counter overflows after 2^31 - 1 failed attempts. -/
theorem C73_mutex_not_full : ¬ C73_mutex_full := by
  intro h
  refine h (-1) (List.replicate intMax false ++ [true]) (by decide) (by decide) ?_
  rw [attempts_fail _ _ _ _ (.inl rfl) (by omega)]
  simp [attempts]

theorem C73_mutex_limit_not_full (b : Bool) (bs : List Bool) :
    attempts intMax 0 (List.replicate intMax false ++ b :: bs) = .overflow := by
  rw [attempts_fail _ _ _ _ (.inr (by omega)) (by omega)]
  simp [attempts]

/-- C73, proved part for mutexes: with a limit below INT_MAX the call makes exactly `max + 1` attempts
before it gives up, and succeeds if one of them does; without a limit it succeeds at any of the first
2^31 - 1 attempts. -/
theorem C73_mutex_partial (n : Nat) (bs : List Bool) :
    (∀ max : Nat, max < intMax →
      (n ≤ max → attempts max 0 (List.replicate n false ++ true :: bs) = .got) ∧
      (n ≤ max + 1 → attempts max 0 (List.replicate n false) = .going n) ∧
      ∀ b, attempts max 0 (List.replicate (max + 1) false ++ b :: bs) = .wouldBlock) ∧
    (n < intMax → attempts (-1) 0 (List.replicate n false ++ true :: bs) = .got) := by
  refine ⟨fun max hm => ⟨fun hn => ?_, fun hn => ?_, fun b => ?_⟩, fun hn => ?_⟩
  · rw [attempts_fail _ _ _ _ (.inr (by omega)) (by omega)]
    simp only [attempts]
    rw [if_neg (by omega), if_neg (by omega)]
    rfl
  · have := attempts_fail max n 0 [] (.inr (by omega)) (by omega)
    rw [List.append_nil] at this
    rw [this]
    simp [attempts]
  · rw [attempts_fail _ _ _ _ (.inr (by omega)) (by omega)]
    simp only [attempts]
    rw [if_pos (by omega)]
  · rw [attempts_fail _ _ _ _ (.inl rfl) (by omega)]
    simp only [attempts]
    rw [if_neg (by omega), if_neg (by omega)]
    rfl

example : attempts 50 0 (List.replicate 51 false ++ [true]) = .wouldBlock ∧
    attempts 50 0 (List.replicate 50 false ++ [true]) = .got := by decide

/-! ### How often a mutex may be locked -/
section Nest
open MC

/-- Values of a 32-bit `int`. -/
def inRange32 (n : Int) : Prop := -2147483648 ≤ n ∧ n ≤ 2147483647

theorem wrap32_id {n : Int} (h : inRange32 n) : wrap n = n := by
  unfold inRange32 at h
  unfold wrap
  omega

theorem wrap32_range (n : Int) : inRange32 (wrap n) := by
  unfold inRange32 wrap
  omega

theorem wrapMem_id {s : State} (h : ∀ m, inRange32 (s.mem.mcnt m)) : wrapMem s = s := by
  have : (fun m => wrap (s.mem.mcnt m)) = s.mem.mcnt := funext fun m => wrap32_id (h m)
  simp [wrapMem, this]

/-- What one step does to a count. -/
theorem mcnt_stp {M M' : Mem} {alive : Nat → Bool} {t : Nat} {p p' : Pc} (h : Stp M alive t p M' p') (m : Nat) :
    M'.mcnt m = M.mcnt m ∧ (m ∈ M'.mlist → m ∈ M.mlist) ∨ M'.mcnt m = 0 ∨
    m ∈ uses p ∧ (M'.mcnt m = M.mcnt m + 1 ∨ M'.mcnt m = M.mcnt m - 1) := by
  cases h <;> (try exact .inl ⟨rfl, fun h => h⟩)
  all_goals (simp only [upd, uses, List.mem_singleton, List.mem_cons]; grind)

/-- Counts of listed mutexes are at most `n`, all are machine integers. -/
def BdCnt (n : Nat) (s : State) : Prop :=
  (∀ m ∈ s.mem.mlist, -(n : Int) ≤ s.mem.mcnt m ∧ s.mem.mcnt m ≤ n) ∧ ∀ m, inRange32 (s.mem.mcnt m)

theorem bdCnt_step {s s' : State} {e : Ev} {n : Nat} (b : Base s) (h : BdCnt n s) (hn : n < intMax)
    (hs : MC.step s e = some s') : BdCnt (n + 1) s' := by
  have up : BdCnt (n + 1) s := ⟨fun m hm => by have := h.1 m hm; omega, h.2⟩
  rcases step_cases hs with ⟨t, c, r, -, t0, ta, hr, rfl⟩ | ⟨t, c, M', p', -, ta, hp, rfl⟩ | ⟨t, -, ta, rfl⟩
  · exact up
  · have hs := stp_of_plan hp
    have key : ∀ m, inRange32 (M'.mcnt m) ∧
        (m ∈ M'.mlist → -((n + 1 : Nat) : Int) ≤ M'.mcnt m ∧ M'.mcnt m ≤ (n + 1 : Nat)) := by
      intro m
      have h2 := h.2 m
      rcases mcnt_stp hs m with ⟨e, h'⟩ | e | ⟨hu, e⟩
      · rw [e]
        exact ⟨h2, fun hm => by have := h.1 m (h' hm); omega⟩
      · rw [e]
        exact ⟨by unfold inRange32; omega, fun _ => by omega⟩
      · have := h.1 m (b.used t m hu)
        unfold inRange32
        unfold intMax at hn
        refine ⟨by omega, fun _ => by omega⟩
    exact ⟨fun m hm => (key m).2 hm, fun m => (key m).1⟩
  · exact up

theorem run32_eq : ∀ (es : List Ev) (s : State) (n : Nat), Base s → BdCnt n s → n + es.length ≤ intMax →
    run32 s es = run s es ∧ ∀ s', run s es = some s' → BdCnt (n + es.length) s' := by
  intro es
  induction es with
  | nil => intro s n b h _; exact ⟨rfl, fun s' e => by cases e; exact h⟩
  | cons e es ih =>
    intro s n b h hn
    simp only [List.length_cons] at hn
    simp only [run32, run, step32]
    cases hs : MC.step s e with
    | none => exact ⟨rfl, fun s' e => by cases e⟩
    | some s1 =>
      have h1 := bdCnt_step b h (by omega) hs
      obtain ⟨i1, i2⟩ := ih s1 (n + 1) (base_step b hs) h1 (by omega)
      simp only [Option.map_some, Option.bind_some, wrapMem_id h1.2]
      refine ⟨i1, fun s' e => ?_⟩
      have := i2 s' e
      simpa [Nat.add_assoc, Nat.add_comm 1] using this

/-- C73, proved part for nesting: in an execution of fewer than 2^31 steps, of any number of threads, the
32-bit counts do what the unbounded counts of Verif.Model.MutexCond do, so that all theorems about that
machine hold; no count exceeds the number of steps.  (Missing, because false: longer executions.) -/
theorem C73_nest_partial (nm nc nw : Nat) (junk : Mem) (hj : ∀ m, inRange32 (junk.mcnt m)) (es : List Ev)
    (hn : es.length ≤ intMax) :
    run32 (init nm nc nw junk) es = run (init nm nc nw junk) es ∧
    ∀ s', run (init nm nc nw junk) es = some s' → ∀ m ∈ s'.mem.mlist,
      -(es.length : Int) ≤ s'.mem.mcnt m ∧ s'.mem.mcnt m ≤ es.length := by
  obtain ⟨h1, h2⟩ := run32_eq es (init nm nc nw junk) 0 (base_init ..) ⟨by simp [init], hj⟩ (by omega)
  refine ⟨h1, fun s' e m hm => ?_⟩
  have := (h2 s' e).1 m hm
  simpa using this

theorem upd_twice {α : Type} (f : Nat → α) (a : Nat) (b c : α) : upd (upd f a b) a c = upd f a c := by
  funext x
  simp only [upd]
  split <;> rfl

example : (run32 (init 2 2 3 junk0) (.call 1 (.lock 0 .block) :: alone 1 (List.replicate 7 .go))).map
    (fun s => (s.mem.mlist, s.mem.mcnt 0)) = some ([0], 1) := by decide +kernel

/-- Thread `t` is outside and owns listed mutex `m` with count `c`, nobody is in the table. -/
structure NestedAt (s : State) (t m : Nat) (c : Int) : Prop where
  out : ∃ r, s.pc t = .done r
  al : s.alive t = true
  own : s.mem.mval m = t
  cnt : s.mem.mcnt m = c
  listed : m ∈ s.mem.mlist
  free : s.mem.mL = 0

/-- A nested trylock: 6 steps; with a negative count it is refused. -/
theorem nest_try {s : State} {t m : Nat} {c : Int} (t0 : t ≠ 0) (h : NestedAt s t m c) (hc : inRange32 c) :
    ∃ s', run32 s (.call t (.lock m .try_) :: alone t (List.replicate 6 .go)) = some s' ∧
      NestedAt s' t m (if 0 ≤ c then wrap (c + 1) else c) ∧ s'.pc t = .done (if 0 ≤ c then 0 else EBUSY) ∧
      s'.alive = s.alive ∧ (∀ u, u ≠ t → s'.pc u = s.pc u) ∧
      (∀ x, s'.mem.dep m x = s.mem.dep m x + if 0 ≤ c ∧ x = t then 1 else 0) ∧ s'.last = upd s.last t (.lock m .try_) := by
  obtain ⟨⟨r, h1⟩, h2, h3, h4, h5, h6⟩ := h
  have hw : wrap (wrap (c + 1) - 1) = c := by unfold inRange32 at hc; unfold wrap; omega
  have hwc := wrap32_id hc
  by_cases h0 : 0 ≤ c
  · rw [if_pos h0, if_pos h0]
    have key : ∃ s', run32 s (.call t (.lock m .try_) :: alone t (List.replicate 6 .go)) = some s' ∧
        s'.pc = upd s.pc t (.done 0) ∧ s'.alive = s.alive ∧ s'.mem.mval = s.mem.mval ∧
        s'.mem.mcnt m = wrap (c + 1) ∧ s'.mem.mlist = s.mem.mlist ∧ s'.mem.mL = 0 ∧
        s'.mem.dep m = upd (s.mem.dep m) t (s.mem.dep m t + 1) ∧ s'.last = upd s.last t (.lock m .try_) := by
      simp [run32, alone, List.replicate, step32, MC.step, wrapMem, Call.start, plan, upd, h1, h2, h3, h4, h5, h6, t0,
        h0, hwc, fin, wrap32_id (wrap32_range _)]
      funext u
      simp [upd]
      grind
    obtain ⟨s', k0, k1, k2, k3, k4, k5, k6, k7, k8⟩ := key
    exact ⟨s', k0, ⟨⟨0, by simp [k1, upd]⟩, by rw [k2]; exact h2, by rw [k3]; exact h3, k4, by rw [k5]; exact h5, k6⟩,
      by simp [k1, upd], k2, fun u hu => by simp [k1, upd, hu], fun x => by rw [k7]; simp only [upd, h0, true_and]; split <;> simp_all, k8⟩
  · rw [if_neg h0, if_neg h0]
    have key : ∃ s', run32 s (.call t (.lock m .try_) :: alone t (List.replicate 6 .go)) = some s' ∧
        s'.pc = upd s.pc t (.done EBUSY) ∧ s'.alive = s.alive ∧ s'.mem.mval = s.mem.mval ∧
        s'.mem.mcnt m = c ∧ s'.mem.mlist = s.mem.mlist ∧ s'.mem.mL = 0 ∧
        s'.mem.dep m = s.mem.dep m ∧ s'.last = upd s.last t (.lock m .try_) := by
      simp [run32, alone, List.replicate, step32, MC.step, wrapMem, Call.start, plan, upd, h1, h2, h3, h4, h5, h6, t0,
        h0, hwc, hw, failed, fin, wrap32_id (wrap32_range _)]
      funext u
      simp [upd]
      grind
    obtain ⟨s', k0, k1, k2, k3, k4, k5, k6, k7, k8⟩ := key
    exact ⟨s', k0, ⟨⟨EBUSY, by simp [k1, upd]⟩, by rw [k2]; exact h2, by rw [k3]; exact h3, k4, by rw [k5]; exact h5, k6⟩,
      by simp [k1, upd], k2, fun u hu => by simp [k1, upd, hu], fun x => by simp [k7, h0], k8⟩

theorem run32_append {s : State} {es es' : List Ev} :
    run32 s (es ++ es') = (run32 s es).bind (run32 · es') := by
  induction es generalizing s with
  | nil => rfl
  | cons e es ih =>
    simp only [List.cons_append, run32]
    cases step32 s e <;> simp [ih]

/-- Thread 1 locks mutex 0 once. -/
def first73 : List Ev := .call 1 (.lock 0 .try_) :: alone 1 (List.replicate 7 .go)

/-- C73: a thread may lock its mutex 2^31 times, each time successfully. -/
theorem C73_nest_depth (n : Nat) (hn : n < 2147483648) :
    ∃ es s, run32 (init 2 2 3 junk0) es = some s ∧ NestedAt s 1 0 (wrap (n + 1)) ∧ s.pc 1 = .done 0 ∧
      s.alive = (fun _ => true) ∧ (∀ u, u ≠ 1 → s.pc u = .done 0) ∧ s.mem.dep 0 1 = n + 1 ∧ s.mem.dep 0 2 = 0 := by
  induction n with
  | zero =>
    obtain ⟨s, h1, h2⟩ : ∃ s, run32 (init 2 2 3 junk0) first73 = some s ∧
        ((s.pc 1, s.mem.mval 0, s.mem.mcnt 0, s.mem.mL, s.mem.mlist, s.mem.dep 0 1, s.mem.dep 0 2) =
          (Pc.done 0, 1, 1, 0, [0], 1, 0) ∧ s.alive = (fun _ => true) ∧ ∀ u, u ≠ 1 → s.pc u = .done 0) := by
      refine ⟨_, rfl, by decide +kernel, rfl, ?_⟩
      intro u hu
      simp [wrapMem, upd, hu, init]
    obtain ⟨e, h3, h4⟩ := h2
    simp only [Prod.mk.injEq] at e
    obtain ⟨e1, e2, e3, e4, e5, e6, e7⟩ := e
    exact ⟨_, s, h1, ⟨⟨0, e1⟩, by rw [h3], e2, by rw [e3]; decide, by rw [e5]; simp, e4⟩, e1, h3, h4, e6, e7⟩
  | succ n ih =>
    obtain ⟨es, s, k0, k1, k2, k3, k4, k5, k6⟩ := ih (by omega)
    have hr : wrap (n + 1) = n + 1 := wrap32_id (by unfold inRange32; omega)
    have h0 : 0 ≤ wrap (n + 1) := by omega
    obtain ⟨s', j0, j1, j2, j3, j4, j5, -⟩ := nest_try (by decide) k1 (wrap32_range _)
    rw [if_pos h0] at j1 j2
    rw [hr] at j1
    refine ⟨es ++ (.call 1 (.lock 0 .try_) :: alone 1 (List.replicate 6 .go)), s',
      by rw [run32_append, k0]; exact j0, by push_cast; exact j1, j2, by rw [j3, k3],
      fun u hu => by rw [j4 u hu, k4 u hu], by rw [j5, k5]; simp [h0], by rw [j5, k6]; simp⟩

/-- C73 for nesting, as stated: the owner of a mutex can lock it again. -/
def C73_nest_full : Prop := ∀ es s, run32 (init 2 2 3 junk0) es = some s → ∀ t m r, Owns s m t → s.pc t = .done r →
  s.mem.mL = 0 → ∀ s', run32 s (.call t (.lock m .try_) :: alone t (List.replicate 6 .go)) = some s' → s'.pc t = .done 0

/-- C73: the lock number 2^31 + 1 of the owner is refused with EBUSY, and again and again. -/
theorem C73_nest_not_full : ¬ C73_nest_full := by
  intro h
  obtain ⟨es, s, k0, k1, k2, k3, k4, k5, k6⟩ := C73_nest_depth 2147483647 (by decide)
  obtain ⟨s', j0, j1, j2, -⟩ := nest_try (by decide) k1 (wrap32_range _)
  have := h es s k0 1 0 0 ⟨by decide, by rw [k3], by omega⟩ k2 k1.free s' j0
  rw [j2] at this
  revert this
  decide

/-- C73: and when it then unlocks, the mutex is free but its count is left at 2^31 - 1; the next thread gets the
mutex, but is refused when it locks it a second time. -/
theorem C73_nest_poison : ∃ es s, run32 (init 2 2 3 junk0) es = some s ∧ s.last 1 = .unlock 0 ∧ s.pc 1 = .done 0 ∧
    s.mem.mval 0 = 2 ∧ s.mem.dep 0 2 = 1 ∧ s.pc 2 = .done EBUSY ∧ s.last 2 = .lock 0 .try_ := by
  obtain ⟨es, s, k0, k1, k2, k3, k4, k5, k6⟩ := C73_nest_depth 2147483647 (by decide)
  have hc : wrap ((2147483647 : Nat) + 1) = -2147483648 := by decide
  rw [hc] at k1
  obtain ⟨⟨r, h1⟩, h2, h3, h4, h5, h6⟩ := k1
  have hk := k4 2 (by decide)
  have w1 : wrap (-2147483649) = 2147483647 := by decide
  have w2 : wrap 2147483647 = 2147483647 := by decide
  have w3 : wrap 2147483648 = -2147483648 := by decide
  have w4 : wrap (-2147483648) = -2147483648 := by decide
  have key : ∃ s', run32 s (.call 1 (.unlock 0) :: alone 1 (List.replicate 8 .go)) = some s' ∧
      s'.last 1 = .unlock 0 ∧ s'.pc = upd s.pc 1 (.done 0) ∧ s'.alive = s.alive ∧ s'.mem.mval 0 = 0 ∧
      s'.mem.mcnt 0 = 2147483647 ∧ s'.mem.mlist = s.mem.mlist ∧ s'.mem.mL = 0 ∧ s'.mem.dep 0 2 = s.mem.dep 0 2 := by
    simp [run32, alone, List.replicate, step32, MC.step, wrapMem, Call.start, plan, upd, h1, h2, h3, h4, h5, h6, ufin,
      w1, w2, w4]
    simp only [upd_twice]
  obtain ⟨s1, a0, a1, a2, a3, a4, a5, a6, a7, a8⟩ := key
  have b1 : s1.pc 2 = .done 0 := by rw [a2]; simpa [upd] using hk
  have b2 : s1.alive 2 = true := by rw [a3, k3]
  have b5 : 0 ∈ s1.mem.mlist := by rw [a6]; exact h5
  have key : ∃ s', run32 s1 (.call 2 (.lock 0 .try_) :: alone 2 (List.replicate 6 .go)) = some s' ∧
      s'.last 1 = .unlock 0 ∧ s'.pc = upd s1.pc 2 (.done 0) ∧ s'.alive = s1.alive ∧ s'.mem.mval 0 = 2 ∧
      s'.mem.mcnt 0 = -2147483648 ∧ s'.mem.mlist = s1.mem.mlist ∧ s'.mem.mL = 0 ∧
      s'.mem.dep 0 2 = s1.mem.dep 0 2 + 1 := by
    simp [run32, alone, List.replicate, step32, MC.step, wrapMem, Call.start, plan, upd, b1, b2, a1, a4, a5, b5, a7, fin,
      w2, w3, w4]
    simp only [upd_twice]
  obtain ⟨s2, c0, c1, c2, c3, c4, c5, c6, c7, c8⟩ := key
  obtain ⟨s3, d0, d1, d2, d3, d4, d5, d6⟩ := nest_try (t := 2) (m := 0) (c := -2147483648) (s := s2) (by decide)
    ⟨⟨0, by rw [c2]; simp [upd]⟩, by rw [c3]; exact b2, c4, c5, by rw [c6]; exact b5, c7⟩ (by unfold inRange32; decide)
  refine ⟨es ++ ((.call 1 (.unlock 0) :: alone 1 (List.replicate 8 .go)) ++
    ((.call 2 (.lock 0 .try_) :: alone 2 (List.replicate 6 .go)) ++
      (.call 2 (.lock 0 .try_) :: alone 2 (List.replicate 6 .go)))), s3, by
      rw [run32_append, k0, Option.bind_some, run32_append, a0, Option.bind_some, run32_append, c0, Option.bind_some]
      exact d0, ?_, ?_, d1.own, ?_, d2, ?_⟩
  · rw [d6]; simpa [upd] using c1
  · rw [d4 1 (by decide), c2, a2]; simp [upd]
  · rw [d5, c8, a8, k6]; rfl
  · rw [d6]; simp [upd]

end Nest
end Fullock.Props
