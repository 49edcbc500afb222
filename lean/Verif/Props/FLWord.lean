import Verif.Props.FLCases
/-! C17: how the lock word moves, whoever dies wherever. -/
namespace Fullock.Props
open Spec FL
set_option synthInstance.maxSize 10000

/-- What one step may do to a lock word: a waiting thread takes it (a writer an idle word, a reader a word
that no writer has), somebody releases one holder, or the record is taken out of the free list. -/
def WordMove (s : State) (o : Nat) (w w' : Int) : Prop :=
  (∃ t op f l, s.alive t = true ∧ s.pc t = .spin op f o l ∧
    ((op.mode = .wr ∧ w = 0 ∧ w' = -1) ∨ (op.mode = .rd ∧ 0 ≤ w ∧ w' = w + 1))) ∨
  w' = max 0 (w - 1) ∨ (w' = 0 ∧ o ∈ s.mem.ofree)

theorem word_acts_unl (m : Mem) (o z l : Nat) : (m.act (.unl o l)).word z =
    if z = o then max 0 (m.word z - 1) else m.word z := by
  simp only [Mem.act, fset]
  split
  · subst z; unfold unlockWord; split_ifs <;> omega
  · rfl

theorem word_acts_plain (m : Mem) (a : Act) (h1 : ∀ o md l, a ≠ .take o md l) (h2 : ∀ o l, a ≠ .unl o l)
    (h3 : ∀ f o r, a ≠ .insO f o r) : (m.act a).word = m.word := by
  cases a <;> simp_all [Mem.act]

theorem word_plan {s : State} {t : Nat} {c : Choice} {as : List Act} {p' : Pc} (hal : s.alive t = true)
    (h : plan s.mem s.alive t (s.pc t) c = some (as, p')) (k z : Nat) :
    (s.mem.acts (as.take k)).word z = s.mem.word z ∨ WordMove s z (s.mem.word z) ((s.mem.acts (as.take k)).word z) := by
  have unl : ∀ (m : Mem) o l, m.word = s.mem.word → (m.act (.unl o l)).word z = s.mem.word z ∨
      WordMove s z (s.mem.word z) ((m.act (.unl o l)).word z) := by
    intro m o l e
    rw [word_acts_unl, e]
    split
    · exact Or.inr (Or.inr (Or.inl rfl))
    · exact Or.inl rfl
  have plain : ∀ as : List Act, (∀ a ∈ as, (∀ o md l, a ≠ .take o md l) ∧ (∀ o l, a ≠ .unl o l) ∧
      (∀ f o r, a ≠ .insO f o r)) → ∀ m : Mem, ∀ k, (m.acts (as.take k)).word = m.word := by
    intro as
    induction as with
    | nil => intro _ m k; simp [Mem.acts]
    | cons a as ih =>
      intro h m k
      cases k with
      | zero => simp [Mem.acts]
      | succ k =>
        have := ih (fun a ha => h a (List.mem_cons_of_mem _ ha)) (m.act a) k
        simp only [Mem.acts, List.take_succ_cons, List.foldl_cons] at this ⊢
        obtain ⟨h1, h2, h3⟩ := h a List.mem_cons_self
        rw [this, word_acts_plain m a h1 h2 h3]
  have sweep : ∀ o md l, (s.mem.acts ((sweepActs s.mem o md l).take k)).word z = s.mem.word z ∨
      WordMove s z (s.mem.word z) ((s.mem.acts ((sweepActs s.mem o md l).take k)).word z) := by
    intro o md l
    unfold sweepActs
    cases s.mem.locked l
    · left; rw [plain _ (by simp)]
    · match k with
      | 0 => exact Or.inl rfl
      | 1 => exact Or.inl rfl
      | 2 => exact unl _ o l rfl
      | k + 3 =>
        simp only [if_true, List.cons_append, List.nil_append, List.take_succ_cons, List.take_nil]
        exact unl (s.mem.act (.cutL o md l)) o l rfl
  have take : ∀ op f o l, s.pc t = .spin op f o l → canTake (s.mem.word o) op.mode = true →
      (s.mem.acts (([Act.take o op.mode l]).take k)).word z = s.mem.word z ∨
      WordMove s z (s.mem.word z) ((s.mem.acts (([Act.take o op.mode l]).take k)).word z) := by
    intro op f o l hp hc
    cases k with
    | zero => exact Or.inl rfl
    | succ k =>
      simp only [List.take_succ_cons, List.take_nil, Mem.acts, List.foldl_cons, List.foldl_nil, Mem.act, fset]
      split
      · subst z
        right; left
        refine ⟨t, op, f, l, hal, hp, ?_⟩
        revert hc
        cases op.mode <;> simp [canTake, takeWord]
      · exact Or.inl rfl
  have ins : ∀ f o r, o ∈ s.mem.ofree → (s.mem.acts (([Act.popO, .insO f o r]).take k)).word z = s.mem.word z ∨
      WordMove s z (s.mem.word z) ((s.mem.acts (([Act.popO, .insO f o r]).take k)).word z) := by
    intro f o r ho
    match k with
    | 0 => exact Or.inl rfl
    | 1 => exact Or.inl rfl
    | k + 2 =>
      simp only [List.take_succ_cons, List.take_nil, Mem.acts, List.foldl_cons, List.foldl_nil, Mem.act, fset]
      split
      · subst z
        exact Or.inr (Or.inr (Or.inr ⟨rfl, ho⟩))
      · exact Or.inl rfl
  have one : ∀ o l, (s.mem.acts (([Act.unl o l]).take k)).word z = s.mem.word z ∨
      WordMove s z (s.mem.word z) ((s.mem.acts (([Act.unl o l]).take k)).word z) := by
    intro o l
    cases k with
    | zero => exact Or.inl rfl
    | succ k => simp only [List.take_succ_cons, List.take_nil]; exact unl _ o l rfl
  unfold plan at h
  split at h
  all_goals
    repeat' split at h
    all_goals first
      | cases h; done
      | (obtain ⟨rfl, rfl⟩ := Option.some.inj h |> Prod.mk.inj
         first
          | exact sweep _ _ _
          | (apply take <;> assumption)
          | (apply ins; rename_i e; rw [e]; exact List.mem_cons_self)
          | exact one _ _
          | (left; exact congrFun (plain _ (by simp) _ _) _))

/-- C17: whoever dies wherever, a lock word changes only in these ways. -/
theorem C17_word_moves (s s' : State) (e : Ev) (h : FL.step s e = some s') (o : Nat) :
    s'.mem.word o = s.mem.word o ∨ WordMove s o (s.mem.word o) (s'.mem.word o) := by
  rcases step_cases h with ⟨t, c, r, rfl, ht0, hal, hpc, rfl⟩ | ⟨t, c, p, rfl, hal, hpc, hl, rfl⟩ |
      ⟨t, c, p, rfl, hal, hpc, rfl⟩ | ⟨t, c, as, p', rfl, hal, hpl, rfl⟩ |
      ⟨t, c, k, as, rfl, hal, hpl, rfl⟩
  · exact Or.inl rfl
  · exact Or.inl rfl
  · exact Or.inl rfl
  · have := word_plan hal hpl as.length o
    rw [List.take_length] at this
    exact this
  · rcases hpl with ⟨p', hpl⟩ | ⟨-, rfl⟩
    · exact word_plan hal hpl k o
    · left; simp [State.setPc, Mem.acts]

/-- C17: whoever dies wherever, no lock word is ever below -1. -/
theorem C17_word_floor (s : State) (hr : Reach (fun _ _ => True) s) (o : Nat) : -1 ≤ s.mem.word o := by
  induction hr with
  | init nf no nl junk => simp [FL.init]
  | step _ _ h ih =>
    rcases C17_word_moves _ _ _ h o with e | ⟨_, _, _, _, _, _, ⟨_, _, e⟩ | ⟨_, _, e⟩⟩ | e | ⟨e, _⟩ <;> omega

/-- C17: whoever dies wherever, an unlock call takes one holder off the word of its range (and leaves a
word that nobody holds alone), and touches no other word. -/
theorem C17_unlock_word (s s' : State) (t : Nat) (op : Op) (f o l : Nat) (md : Mode)
    (hp : s.pc t = .uWord op f o l md) (h : FL.step s (.go t .go) = some s') :
    s'.mem.word o = max 0 (s.mem.word o - 1) ∧ ∀ z, z ≠ o → s'.mem.word z = s.mem.word z := by
  rcases step_cases h with ⟨_, _, _, e, -⟩ | ⟨_, _, p, e, hal, hpc, -⟩ |
      ⟨_, _, p, e, hal, hpc, -⟩ | ⟨_, c, as, p', e, hal, hpl, rfl⟩ | ⟨_, _, _, _, e, -⟩
  · cases e
  · cases e; rw [hp] at hpc; cases hpc
  · cases e; rw [hp] at hpc; cases hpc
  · cases e
    rw [hp] at hpl
    simp only [plan] at hpl
    obtain ⟨rfl, rfl⟩ := Option.some.inj hpl |> Prod.mk.inj
    have hw := fun z => word_acts_unl s.mem o z l
    refine ⟨(hw o).trans (if_pos rfl), fun z hz => (hw z).trans (if_neg hz)⟩
  · cases e

/-- The hypotheses are met: thread 1 unlocks what it has write locked; the word goes from -1 to 0. -/
example : ∃ s s', Reach (fun _ _ => True) s ∧ FL.step s (.go 1 .go) = some s' ∧ s.mem.word 0 = -1 ∧ s'.mem.word 0 = 0 ∧
    s.pc 1 = .uWord (mkOp 3 kX rA .wr .block) 0 0 0 .wr := by
  obtain ⟨s, hs, ho⟩ := run_case (s0 := init 2 4 8 junk0)
    (es := lockBy 1 (mkOp 3 kX rA .wr .block) ++ (.call 1 (.unlock (mkOp 3 kX rA .wr .block)) :: alone 1 2))
    (fun s => (s.mem.word 0, s.pc 1, (FL.step s (.go 1 .go)).map fun s => s.mem.word 0))
    (-1, .uWord (mkOp 3 kX rA .wr .block) 0 0 0 .wr, some 0) (by decide +kernel)
  simp only [Prod.mk.injEq] at ho
  obtain ⟨h1, h2, h3⟩ := ho
  cases hst : FL.step s (.go 1 .go) with
  | none => rw [hst] at h3; cases h3
  | some s' =>
    rw [hst] at h3
    exact ⟨s, s', reach_run (Reach.init 2 4 8 junk0) (fun _ _ _ => trivial) hs, hst, h1, by simpa using h3, h2⟩

end Fullock.Props
