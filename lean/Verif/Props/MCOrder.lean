import Verif.Proofs.MCOrder
import Verif.Props.MCForever
/-! C81: taking mutexes in a fixed order -/
namespace Fullock.Props
open Fullock.MC

/-- C81: threads that take mutexes in a fixed order, whatever order, are never deadlocked, whoever is killed (outside the window
of C18). -/
theorem C81_no_deadlock (rk : Nat → Nat) (s : State) (r : Reach (fun s e => okDie s e ∧ inOrder rk s e) s) (D : Nat → Prop) :
    ¬ Deadlock s D :=
  no_deadlock (inv_reach (fun _ _ h => h.1) r) (ordered_reach (fun _ _ h => h.1) (fun _ _ h => h.2) r) D

/-- C81: and if the calls come to an end, and who owns a mutex outside calls calls again (say to release it), every call
returns, unless somebody waits for a condition without limit and nobody wakes them. -/
theorem C81_returns (rk : Nat → Nat) (σ : Nat → State) (ε : Nat → Option Ev)
    (ex : Exec (fun s e => noDeath s e ∧ inOrder rk s e) σ ε) (hf : Fair σ ε) (hcb : ComesBack σ ε) (hce : CallsEnd ε)
    (hck : ChecksEnd σ) (hti : Timely σ ε) (hw : ∀ u n, ¬ Unwoken σ u n) (t i : Nat) : ReturnsAfter σ t i := by
  rcases order_returns ex hf hcb hce hck hti t i with h | ⟨u, n, _, h⟩
  · exact h
  · exact absurd h (hw u n)

/-- C81: threads once deadlocked stay so and none of them returns, whatever the others do and whoever else is killed. -/
theorem C81_stays (s s' : State) (r : Reach okDie s) (D : Nat → Prop) (h : Deadlock s D)
    (ha : After (fun s e => okDie s e ∧ spares D e) s s') : Deadlock s' D ∧ ∀ t, D t → inCall s' t := by
  have key : Deadlock s' D ∧ Reach okDie s' := by
    induction ha with
    | refl => exact ⟨h, r⟩
    | step _ he hs ih => exact ⟨deadlock_step (inv_reach (fun _ _ h => h) ih.2) ih.1 he.2 hs, .step ih.2 he.1 hs⟩
  refine ⟨key.1, fun t ht x hx => ?_⟩
  obtain ⟨_, _, m, u, h1, _⟩ := key.1.2 t ht
  rw [hx] at h1; exact h1

/-- 1 takes mutex 0, 2 takes mutex 1, then each asks for the other one. -/
def cross81 : List Ev :=
  .call 1 (.lock 0 .block) :: gos 1 7 ++ .call 2 (.lock 1 .block) :: gos 2 7 ++
  .call 1 (.lock 1 .block) :: gos 1 4 ++ .call 2 (.lock 0 .block) :: gos 2 4

/-- C81: without order two threads can be deadlocked, though nobody dies. -/
theorem C81_crossing : ∃ s, Reach noDeath s ∧ Deadlock s (fun t => t = 1 ∨ t = 2) := by
  obtain ⟨s, hr, h1⟩ := run_case (s0 := init 2 2 3 junk0) (es := cross81)
    (fun s => decide (s.alive 1 = true ∧ s.alive 2 = true ∧ s.pc 1 = .lkCas 1 .block .api ∧ s.pc 2 = .lkCas 0 .block .api ∧
      s.mem.dep 0 1 = 1 ∧ s.mem.dep 1 2 = 1)) true (by decide +kernel)
  simp only [decide_eq_true_eq] at h1
  obtain ⟨a1, a2, a3, a4, a5, a6⟩ := h1
  refine ⟨s, run_reach_noDeath hr (by decide), ⟨1, .inl rfl⟩, ?_⟩
  rintro t (rfl | rfl)
  · exact ⟨by decide, a1, 1, 2, by rw [a3]; exact ⟨rfl, rfl⟩, .inr rfl, by decide, by decide, a2, by omega⟩
  · exact ⟨by decide, a2, 0, 1, by rw [a4]; exact ⟨rfl, rfl⟩, .inl rfl, by decide, by decide, a1, by omega⟩

/-- 1 takes the mutexes 0 and 1 and waits with mutex 0; 2 takes mutex 0 and asks for mutex 1; 3 signals. -/
def nested81 : List Ev :=
  .call 1 (.lock 0 .block) :: gos 1 7 ++ .call 1 (.lock 1 .block) :: gos 1 7 ++ .call 1 (.wait 5 0 .block) :: gos 1 15 ++
  .call 2 (.lock 0 .block) :: gos 2 6 ++ .call 2 (.lock 1 .block) :: gos 2 4 ++ .call 3 (.signal 5) :: gos 3 6 ++ gos 1 2

/-- Only the locks are in order. -/
def locksInOrder (rk : Nat → Nat) : State → Ev → Prop
  | s, .call t (.lock m _) => 1 ≤ s.mem.dep m t ∨ ∀ m', 1 ≤ s.mem.dep m' t → rk m' < rk m
  | _, _ => True

/-- A check over the mutexes that exist. -/
def ordB (rk : Nat → Nat) (waits : Bool) (s : State) : Ev → Bool
  | .call t (.lock m _) => decide (1 ≤ s.mem.dep m t) || s.mem.mlist.all fun m' => decide (s.mem.dep m' t = 0) || decide (rk m' < rk m)
  | .call t (.wait _ m _) => !waits || s.mem.mlist.all fun m' => decide (s.mem.dep m' t = 0) || decide (m' = m) || decide (rk m' < rk m)
  | .die _ => false
  | _ => true

def runOrd (rk : Nat → Nat) (waits : Bool) (s : State) : List Ev → Option State
  | [] => some s
  | e :: es => if ordB rk waits s e then (step s e).bind (runOrd rk waits · es) else none

theorem ordB_ok {rk : Nat → Nat} {waits : Bool} {s s' : State} {e : Ev} (iv : MC.Inv s) (h : ordB rk waits s e = true)
    (hs : step s e = some s') : noDeath s e ∧ locksInOrder rk s e ∧ (waits = true → inOrder rk s e) := by
  cases e with
  | die t => cases h
  | go t c => exact ⟨trivial, trivial, fun _ => trivial⟩
  | call t c =>
    have hin : ∀ m, 1 ≤ s.mem.dep m t → m ∈ s.mem.mlist := by
      intro m hm
      rcases step_cases hs with ⟨t, c, r, he, h0, ha, -⟩ | ⟨_, _, _, _, he, -⟩ | ⟨_, he, -⟩ <;> cases he
      exact ((iv.th t h0 ha).own m hm).1
    cases c with
    | lock m kd =>
      have h1 : 1 ≤ s.mem.dep m t ∨ ∀ m', 1 ≤ s.mem.dep m' t → rk m' < rk m := by
        simp only [ordB, Bool.or_eq_true, decide_eq_true_eq, List.all_eq_true] at h
        refine h.imp id fun h m' hm' => ?_
        rcases h m' (hin m' hm') with h | h
        · omega
        · exact h
      exact ⟨trivial, h1, fun _ => h1⟩
    | wait c m kd =>
      refine ⟨trivial, trivial, fun hw m' hm' => ?_⟩
      simp only [ordB, hw, Bool.not_true, Bool.false_or, Bool.or_eq_true, decide_eq_true_eq, List.all_eq_true] at h
      rcases h m' (hin m' hm') with (h | h) | h
      · omega
      · exact .inl h
      · exact .inr h
    | _ => exact ⟨trivial, trivial, fun _ => trivial⟩

theorem runOrd_run {rk : Nat → Nat} {waits : Bool} {s s' : State} {es : List Ev} (h : runOrd rk waits s es = some s') :
    run s es = some s' := by
  induction es generalizing s with
  | nil => exact h
  | cons e es ih =>
    simp only [runOrd] at h
    split at h
    · obtain ⟨x, h1, h2⟩ := Option.bind_eq_some_iff.mp h
      simp only [run, h1, Option.bind_some]; exact ih h2
    · cases h

theorem runOrd_at {rk : Nat → Nat} {waits : Bool} {s s' : State} {es : List Ev} (h : runOrd rk waits s es = some s') {i : Nat}
    {e : Ev} (he : es[i]? = some e) : ∃ s1, run s (es.take i) = some s1 ∧ ordB rk waits s1 e = true := by
  induction es generalizing s i with
  | nil => simp at he
  | cons x es ih =>
    simp only [runOrd] at h
    split at h
    · rename_i hx
      obtain ⟨y, h1, h2⟩ := Option.bind_eq_some_iff.mp h
      cases i with
      | zero => simp only [List.getElem?_cons_zero, Option.some.injEq] at he; exact ⟨s, rfl, he ▸ hx⟩
      | succ i => simpa [run, h1] using ih h2 (by simpa using he)
    · cases h

theorem runOrd_reach {rk : Nat → Nat} {waits : Bool} {A : State → Ev → Prop} {s s' : State} {es : List Ev}
    (hA : ∀ s s' e, MC.Inv s → ordB rk waits s e = true → step s e = some s' → A s e) (hd : ∀ s e, A s e → okDie s e) (r : Reach A s)
    (h : runOrd rk waits s es = some s') : Reach A s' := by
  induction es generalizing s with
  | nil => cases h; exact r
  | cons e es ih =>
    simp only [runOrd] at h
    split at h
    · rename_i hx
      obtain ⟨y, h1, h2⟩ := Option.bind_eq_some_iff.mp h
      exact ih (.step r (hA _ _ _ (inv_reach hd r) hx h1) h1) h2
    · cases h

/-- C81: a wait has to keep the order as well: here all locks are in order, yet 1, which waited with mutex 0 while it owned the
later mutex 1, and 2, which took mutex 0 meanwhile, are deadlocked. -/
theorem C81_wait_order : ∃ s, Reach (fun s e => noDeath s e ∧ locksInOrder id s e) s ∧ Deadlock s (fun t => t = 1 ∨ t = 2) := by
  have h : (runOrd id false (init 2 2 3 junk0) nested81).map (fun s => decide (s.alive 1 = true ∧ s.alive 2 = true ∧
      s.pc 1 = .lkCas 0 .block (.wt 5 0 0 0) ∧ s.pc 2 = .lkCas 1 .block .api ∧ s.mem.dep 1 1 = 1 ∧ s.mem.dep 0 2 = 1)) = some true := by
    decide +kernel
  obtain ⟨s, hr, h1⟩ := Option.map_eq_some_iff.mp h
  simp only [decide_eq_true_eq] at h1
  obtain ⟨a1, a2, a3, a4, a5, a6⟩ := h1
  refine ⟨s, runOrd_reach (fun s s' e iv h hs => ⟨(ordB_ok iv h hs).1, (ordB_ok iv h hs).2.1⟩) (fun _ _ h => okDie_of h.1) (.init ..) hr,
    ⟨1, .inl rfl⟩, ?_⟩
  rintro t (rfl | rfl)
  · exact ⟨by decide, a1, 0, 2, by rw [a3]; exact ⟨rfl, rfl⟩, .inr rfl, by decide, by decide, a2, by omega⟩
  · exact ⟨by decide, a2, 1, 1, by rw [a4]; exact ⟨rfl, rfl⟩, .inl rfl, by decide, by decide, a1, by omega⟩

/-- Who releases its mutexes comes back: the hypothesis of `C81_returns` is weaker than that of C80. -/
theorem comesBack_of_released {σ : Nat → State} {ε : Nat → Option Ev} (ex : Exec noDeath σ ε) (hr : Released σ) : ComesBack σ ε := by
  intro i t m hd ⟨r, hp⟩
  refine Classical.byContradiction fun hno => ?_
  have key : ∀ d, (σ (i + d)).pc t = .done r ∧ (σ (i + d)).mem.dep m t = (σ i).mem.dep m t := by
    intro d
    induction d with
    | zero => exact ⟨hp, rfl⟩
    | succ d ih =>
      have := ex.next (i + d)
      cases he : ε (i + d) with
      | none => rw [he] at this; simp only at this; rw [← Nat.add_assoc, this]; exact ih
      | some e =>
        rw [he] at this
        obtain ⟨_, hs⟩ := this
        rw [← Nat.add_assoc]
        have iv := exec_inv ex (i + d)
        rcases step_cases hs with ⟨v, c, r', rfl, v0, -, hr, h'⟩ | ⟨v, c, M', p', rfl, va, hp', h'⟩ | ⟨v, rfl, -, h'⟩ <;> rw [h']
        · have : t ≠ v := by rintro rfl; exact hno ⟨i + d, by omega, c, he⟩
          simpa [upd_ne _ _ this] using ih
        · have : t ≠ v := by rintro rfl; rw [ih.1, plan_done] at hp'; cases hp'
          have v0 : v ≠ 0 := by rintro rfl; rw [iv.base.zero, plan_done] at hp'; cases hp'
          have ef := eff_stp (stp_of_plan hp') (iv.base.used v) (iv.th v v0 va)
          exact ⟨by simpa [upd_ne _ _ this] using ih.1, by simpa using (ef.dep m t this).trans ih.2⟩
        · exact ih
  obtain ⟨j, hj, h0⟩ := hr i m t hd
  have := (key (j - i)).2
  rw [show i + (j - i) = j by omega] at this
  omega

/-- 1 takes mutexes 0 and 1, 2 waits for mutex 0, 1 waits for the condition with mutex 1 until 3 signals; both release all. -/
def ord81 : List Ev :=
  .call 1 (.lock 0 .block) :: gos 1 7 ++ .call 1 (.lock 1 .block) :: gos 1 7 ++ .call 2 (.lock 0 .block) :: gos 2 4 ++
  .call 1 (.wait 5 1 .block) :: gos 1 15 ++ .call 3 (.lock 1 .block) :: gos 3 6 ++ .call 3 (.signal 5) :: gos 3 6 ++ gos 1 4
def ord81' : List Ev :=
  .call 3 (.unlock 1) :: gos 3 7 ++ gos 1 6 ++ .call 1 (.unlock 1) :: gos 1 7 ++ .call 1 (.unlock 0) :: gos 1 7 ++ gos 2 2 ++
  .call 2 (.unlock 0) :: gos 2 7

/-- Non-vacuity of `C81_no_deadlock`: a state reached in order in which 2 waits for 1 and 1 waits for 3. -/
example : ∃ s, Reach (fun s e => okDie s e ∧ inOrder id s e) s ∧ seeks 0 (s.pc 2) ∧ Owns s 0 1 ∧ seeks 1 (s.pc 1) ∧ Owns s 1 3 := by
  have h : (runOrd id true (init 2 2 3 junk0) ord81).map (fun s => decide (s.alive 1 = true ∧ s.alive 3 = true ∧
      s.pc 1 = .lkCas 1 .block (.wt 5 0 1 0) ∧ s.pc 2 = .lkCas 0 .block .api ∧ s.mem.dep 0 1 = 1 ∧ s.mem.dep 1 3 = 1)) = some true := by
    decide +kernel
  obtain ⟨s, hr, h1⟩ := Option.map_eq_some_iff.mp h
  simp only [decide_eq_true_eq] at h1
  obtain ⟨a1, a2, a3, a4, a5, a6⟩ := h1
  exact ⟨s, runOrd_reach (waits := true) (fun s s' e iv h hs => ⟨okDie_of (ordB_ok iv h hs).1, (ordB_ok iv h hs).2.2 rfl⟩)
    (fun _ _ h => h.1) (.init ..) hr, by rw [a4]; exact ⟨rfl, rfl⟩, ⟨by decide, a1, by omega⟩, by rw [a3]; exact ⟨rfl, rfl⟩,
    ⟨by decide, a2, by omega⟩⟩

/-- Non-vacuity of `C81_returns`: an execution in order that meets its hypotheses, in which 2 waits for 1 and 1 for 3. -/
example : ∃ σ ε, Exec (fun s e => noDeath s e ∧ inOrder id s e) σ ε ∧ Fair σ ε ∧ ComesBack σ ε ∧ CallsEnd ε ∧ ChecksEnd σ ∧
    Timely σ ε ∧ (∀ u n, ¬ Unwoken σ u n) ∧ seeks 0 ((σ 55).pc 2) ∧ seeks 1 ((σ 55).pc 1) ∧ ReturnsAfter σ 2 55 := by
  have h : (runOrd id true (init 2 2 3 junk0) (ord81 ++ ord81')).map (fun s => decide (s.pc 1 = .done 0 ∧ s.pc 2 = .done 0 ∧
      s.pc 3 = .done 0 ∧ s.mem.mlist = [1, 0] ∧ s.mem.mval 0 = 0 ∧ s.mem.mval 1 = 0)) = some true := by
    decide +kernel
  obtain ⟨s, hr, h1⟩ := Option.map_eq_some_iff.mp h
  simp only [decide_eq_true_eq] at h1
  obtain ⟨a1, a2, a3, a4, a5, a6⟩ := h1
  have hl : ∀ t ∈ (ord81 ++ ord81').map who80, t = 1 ∨ t = 2 ∨ t = 3 := by decide +kernel
  have hrun := runOrd_run hr
  have he : Ends80 (ord81 ++ ord81') none s := ⟨(fun e he t => by
      have : ∀ e ∈ ord81 ++ ord81', (match e with | .die _ => false | _ => true) = true := by decide +kernel
      have := this e he
      rintro rfl
      cases this),
    (fun t ht => by rcases hl t ht with rfl | rfl | rfl <;> exact .inl ⟨0, ‹_›⟩),
    (fun e he => by cases he), by rw [a4]; simp [a5, a6]⟩
  obtain ⟨g1, g2, g3, g4, g5, g6⟩ := he.good hrun
  have ex : Exec (fun s e => noDeath s e ∧ inOrder id s e) (fin80 (init 2 2 3 junk0) (ord81 ++ ord81')) (evs80 (ord81 ++ ord81') none) := by
    refine ⟨g1.start, fun i => ?_⟩
    have := g1.next i
    cases hi : evs80 (ord81 ++ ord81') none i with
    | none => rw [hi] at this; exact this
    | some e =>
      rw [hi] at this
      refine ⟨⟨this.1, ?_⟩, this.2⟩
      have hi' : (ord81 ++ ord81')[i]? = some e := by
        unfold evs80 at hi; split at hi
        · exact hi
        · cases hi
      obtain ⟨s1, h1, h2⟩ := runOrd_at hr hi'
      have h3 := fin80_some hrun i
      rw [h1] at h3; cases h3
      exact (ordB_ok (exec_inv g1 i) h2 this.2).2.2 rfl
  have hw : ∀ u n, ¬ Unwoken (fin80 (init 2 2 3 junk0) (ord81 ++ ord81')) u n := by
    rintro u n ⟨c, w, m, hu⟩
    have := (hu (n + (ord81 ++ ord81').length) (by omega)).1
    rw [fin80_late hrun (by omega)] at this
    rcases he.all hrun u with ⟨r, hr'⟩ | ⟨hl, _⟩
    · rw [hr'] at this; cases this
    · cases hl
  have e : (fun s : State => decide (s.pc 1 = .lkCas 1 .block (.wt 5 0 1 0) ∧ s.pc 2 = .lkCas 0 .block .api))
      (fin80 (init 2 2 3 junk0) (ord81 ++ ord81') 55) = true := by decide +kernel
  simp only [decide_eq_true_eq] at e
  exact ⟨_, _, ex, g2, comesBack_of_released g1 g3, g4, g5, g6, hw, by rw [e.2]; exact ⟨rfl, rfl⟩, by rw [e.1]; exact ⟨rfl, rfl⟩,
    C81_returns id _ _ ex g2 (comesBack_of_released g1 g3) g4 g5 g6 hw 2 55⟩

theorem after_run {D : Nat → Prop} {s s' : State} {es : List Ev} (h : run s es = some s') (hd : ∀ e ∈ es, e.isDie = false) :
    After (fun s e => okDie s e ∧ spares D e) s s' := by
  suffices ∀ s0, After (fun s e => okDie s e ∧ spares D e) s0 s → After (fun s e => okDie s e ∧ spares D e) s0 s' from this s .refl
  intro s0 ha
  induction es generalizing s with
  | nil => cases h; exact ha
  | cons e es ih =>
    obtain ⟨x, h1, h2⟩ := Option.bind_eq_some_iff.mp h
    refine ih h2 (fun e he => hd e (List.mem_cons_of_mem _ he)) (.step ha ?_ h1)
    have := hd e List.mem_cons_self
    cases e with
    | die t => cases this
    | _ => exact ⟨trivial, trivial⟩

/-- Non-vacuity of `C81_stays`: 1 and 2 go on in their loops, 3 locks another mutex. -/
example : ∃ s s', Reach okDie s ∧ Deadlock s (fun t => t = 1 ∨ t = 2) ∧
    After (fun s e => okDie s e ∧ spares (fun t => t = 1 ∨ t = 2) e) s s' ∧ Owns s' 7 3 := by
  have hdl : ∀ s, run (init 3 2 3 junk0) cross81 = some s → Deadlock s (fun t => t = 1 ∨ t = 2) := by
    intro s hs
    obtain ⟨s', hr, h1⟩ := run_case (s0 := init 3 2 3 junk0) (es := cross81)
      (fun s => decide (s.alive 1 = true ∧ s.alive 2 = true ∧ s.pc 1 = .lkCas 1 .block .api ∧ s.pc 2 = .lkCas 0 .block .api ∧
        s.mem.dep 0 1 = 1 ∧ s.mem.dep 1 2 = 1)) true (by decide +kernel)
    rw [hs] at hr; cases hr
    simp only [decide_eq_true_eq] at h1
    obtain ⟨a1, a2, a3, a4, a5, a6⟩ := h1
    refine ⟨⟨1, .inl rfl⟩, ?_⟩
    rintro t (rfl | rfl)
    · exact ⟨by decide, a1, 1, 2, by rw [a3]; exact ⟨rfl, rfl⟩, .inr rfl, by decide, by decide, a2, by omega⟩
    · exact ⟨by decide, a2, 0, 1, by rw [a4]; exact ⟨rfl, rfl⟩, .inl rfl, by decide, by decide, a1, by omega⟩
  obtain ⟨s', hr, h1⟩ := run_case (s0 := init 3 2 3 junk0) (es := cross81 ++ (gos 1 8 ++ .call 3 (.lock 7 .block) :: gos 3 7 ++ gos 2 5))
      (fun s => decide (s.alive 3 = true ∧ s.mem.dep 7 3 = 1)) true (by decide +kernel)
  simp only [decide_eq_true_eq] at h1
  cases hs : run (init 3 2 3 junk0) cross81 with
  | none => exact absurd hs (by decide +kernel)
  | some s =>
    rw [run_append hs] at hr
    exact ⟨s, s', run_reach_okDie hs (by decide), hdl s hs, after_run hr (by decide), by decide, h1.1, by omega⟩

end Fullock.Props
