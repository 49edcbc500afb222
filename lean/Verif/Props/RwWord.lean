import Verif.Proofs.RwWord
import Mathlib.Data.List.Nodup
import Mathlib.Tactic.SplitIfs
/-!
C69: the lock word of a range, with other threads between any two memory accesses.
-/
namespace Fullock.Props
open Fullock.FL (Mode canTake takeWord unlockWord)
open Fullock.RW Fullock.Spec.RW

/-- C69: with callers in order, at most one writer or any number of readers hold the lock, and the word
says which: -1 for a writer, otherwise the number of readers. -/
theorem C69_exclusion (s : State) (h : Reach orderly s) :
    (∀ x ∈ s.held, ∀ y ∈ s.held, x ≠ y → x.2 = .rd ∧ y.2 = .rd) ∧
    (s.word = -1 ↔ ∃ k, (k, Mode.wr) ∈ s.held) ∧ (s.word ≠ -1 → s.word = s.held.length) := by
  have ho := reach_ord h
  rcases ho.shape with ⟨k, e, hw⟩ | ⟨e, hw⟩
  · rw [e]
    refine ⟨?_, ⟨fun _ => ⟨k, by simp⟩, fun _ => hw⟩, fun h => absurd hw h⟩
    intro x hx y hy hne
    simp only [List.mem_singleton] at hx hy
    exact absurd (hx.trans hy.symm) hne
  · refine ⟨fun x hx y hy _ => ⟨e x hx, e y hy⟩, ⟨fun h => by omega, ?_⟩, fun _ => hw⟩
    rintro ⟨k, hk⟩
    exact absurd (e _ hk) (by simp)

/-- C69: with callers in order, what a call reports is what happened: when a lock call returns, the lock is
held if and only if it reports success; when an unlock call returns it reports success and the lock is no
longer held; no step touches a lock other than the one its own call is about. -/
theorem C69_results (s s' : State) (h : Reach orderly s) (t : Nat) (c : Clock) (hs : step s (.go t c) = some s')
    (k : Nat) (hk : tok (s.pc t) = some k) :
    (∀ md r, asking (s.pc t) = some md → s'.pc t = .idle r → ((k, md) ∈ s'.held ↔ r = .ok)) ∧
    (∀ r, unlocking (s.pc t) = true → s'.pc t = .idle r → r = .ok ∧ ∀ md, (k, md) ∉ s'.held) ∧
    (∀ k' md, k' ≠ k → ((k', md) ∈ s'.held ↔ (k', md) ∈ s.held)) := by
  have ho := reach_ord h
  have ho' := reach_ord (Reach.step h (e := .go t c) trivial hs)
  have hi := reach_inv h
  have hself : ∀ p, (s.goto t p).pc t = p := fun p => by simp [goto_pc]
  -- a lock call goes on, or ends without success
  have hq : ∀ p, wants (s.pc t) = some k → unlocking (s.pc t) = false → (∀ r, p = .idle r → r ≠ .ok) →
      (∀ md r, asking (s.pc t) = some md → (s.goto t p).pc t = .idle r → ((k, md) ∈ (s.goto t p).held ↔ r = .ok)) ∧
      (∀ r, unlocking (s.pc t) = true → (s.goto t p).pc t = .idle r → r = .ok ∧ ∀ md, (k, md) ∉ (s.goto t p).held) ∧
      (∀ k' md, k' ≠ k → ((k', md) ∈ (s.goto t p).held ↔ (k', md) ∈ s.held)) := by
    intro p hw hu hr
    refine ⟨fun md r _ e => ?_, fun r e => (by rw [hu] at e; cases e), fun _ _ _ => Iff.rfl⟩
    rw [hself] at e
    exact ⟨fun hh => absurd hh (ho.want t k hw md), fun hh => absurd hh (hr r e)⟩
  have hfail : ∀ kd cnt md r, fail k md kd cnt = .idle r → r ≠ .ok := by
    intro kd cnt md r; cases kd <;> simp [fail]; rintro rfl; simp
  -- a lock call succeeds
  have htake : ∀ md w, asking (s.pc t) = some md → unlocking (s.pc t) = false →
      (∀ md' r, asking (s.pc t) = some md' → (s.goto t (.idle .ok)).pc t = .idle r →
        ((k, md') ∈ ({ (s.goto t (.idle .ok)) with word := w, held := (k, md) :: s.held } : State).held ↔ r = .ok)) ∧
      (∀ r, unlocking (s.pc t) = true → (s.goto t (.idle .ok)).pc t = .idle r → r = .ok ∧
        ∀ md', (k, md') ∉ ({ (s.goto t (.idle .ok)) with word := w, held := (k, md) :: s.held } : State).held) ∧
      (∀ k' md', k' ≠ k →
        ((k', md') ∈ ({ (s.goto t (.idle .ok)) with word := w, held := (k, md) :: s.held } : State).held ↔
          (k', md') ∈ s.held)) := by
    intro md w ha hu
    refine ⟨fun md' r e1 e2 => ?_, fun r e => (by rw [hu] at e; cases e), fun k' md' hk' => ?_⟩
    · rw [hself] at e2; cases e2
      rw [ha] at e1; cases e1
      simp
    · simp [hk']
  have hm := mv_of hs
  cases hm with
  | clk0Err hp => simp only [hp, tok, Option.some.injEq] at hk; subst hk; exact hq _ (by simp [hp, wants]) (by simp [hp, unlocking]) (by simp)
  | clk0 hp _ => simp only [hp, tok, Option.some.injEq] at hk; subst hk; exact hq _ (by simp [hp, wants]) (by simp [hp, unlocking]) (by simp)
  | clkErr hp => simp only [hp, tok, Option.some.injEq] at hk; subst hk; exact hq _ (by simp [hp, wants]) (by simp [hp, unlocking]) (by simp)
  | clkOver hp => simp only [hp, tok, Option.some.injEq] at hk; subst hk; exact hq _ (by simp [hp, wants]) (by simp [hp, unlocking]) (by simp)
  | clkIn hp => simp only [hp, tok, Option.some.injEq] at hk; subst hk; exact hq _ (by simp [hp, wants]) (by simp [hp, unlocking]) (by simp)
  | spent hp _ => simp only [hp, tok, Option.some.injEq] at hk; subst hk; exact hq _ (by simp [hp, wants]) (by simp [hp, unlocking]) (by simp)
  | rdFail hp _ _ => simp only [hp, tok, Option.some.injEq] at hk; subst hk; exact hq _ (by simp [hp, wants]) (by simp [hp, unlocking]) (hfail _ _ _)
  | wrFail hp _ _ => simp only [hp, tok, Option.some.injEq] at hk; subst hk; exact hq _ (by simp [hp, wants]) (by simp [hp, unlocking]) (hfail _ _ _)
  | casFail hp _ => simp only [hp, tok, Option.some.injEq] at hk; subst hk; exact hq _ (by simp [hp, wants]) (by simp [hp, unlocking]) (hfail _ _ _)
  | rdRead hp _ _ => simp only [hp, tok, Option.some.injEq] at hk; subst hk; exact hq _ (by simp [hp, wants]) (by simp [hp, unlocking]) (by simp)
  | wrOk hp _ _ => simp only [hp, tok, Option.some.injEq] at hk; subst hk; exact htake _ _ (by simp [hp, asking]) (by simp [hp, unlocking])
  | casOk hp _ => simp only [hp, tok, Option.some.injEq] at hk; subst hk; exact htake _ _ (by simp [hp, asking]) (by simp [hp, unlocking])
  | uZero hp hw =>
    simp only [hp, tok, Option.some.injEq] at hk; subst hk
    obtain ⟨md, hmd⟩ := ho.drop t _ (by rw [hp]; rfl)
    exfalso
    rcases ho.shape with ⟨_, e, e'⟩ | ⟨_, e'⟩
    · omega
    · have := List.length_pos_of_mem hmd; omega
  | uNeg hp _ =>
    refine ⟨by simp [hp, asking], ?_, fun _ _ _ => Iff.rfl⟩
    intro r _ e; rw [hself] at e; cases e
  | uPos hp _ =>
    refine ⟨by simp [hp, asking], ?_, fun _ _ _ => Iff.rfl⟩
    intro r _ e; rw [hself] at e; cases e
  | uFail hp _ =>
    refine ⟨by simp [hp, asking], ?_, fun _ _ _ => Iff.rfl⟩
    intro r _ e; rw [hself] at e; cases e
  | uOk hp hw =>
    simp only [hp, tok, Option.some.injEq] at hk; subst hk
    refine ⟨by simp [hp, asking], ?_, ?_⟩
    · intro r _ e
      have e : (s.goto t (.idle .ok)).pc t = .idle r := e
      rw [hself] at e; cases e
      refine ⟨rfl, fun md hmd => ?_⟩
      simp only [release] at hmd
      obtain ⟨md0, h0⟩ := ho.drop t _ (by rw [hp]; rfl)
      have hmd0 : md0 = if s.word < 0 then .wr else .rd := by
        rcases ho.shape with ⟨k', e, e'⟩ | ⟨e, e'⟩
        · rw [e] at h0; simp only [List.mem_singleton, Prod.mk.injEq] at h0
          rw [h0.2, if_pos (by omega)]
        · rw [if_neg (by omega)]; exact e _ h0
      have hmd1 : md = md0 := by
        have h1 := List.mem_of_mem_erase hmd
        have hnd := ho.nodup
        have := List.inj_on_of_nodup_map hnd h1 h0 rfl
        exact congrArg Prod.snd this
      rw [hmd1, hmd0] at hmd
      have hnd : s.held.Nodup := List.Nodup.of_map _ ho.nodup
      exact hnd.not_mem_erase hmd
    · intro k' md hk'
      show (k', md) ∈ release s.held _ _ ↔ _
      refine List.mem_erase_of_ne ?_
      intro e; exact hk' (congrArg Prod.fst e)

/-- A writer and a reader are refused while a writer holds, two readers hold together: the hypotheses of
C69 are met in a state with two holders. -/
def es69 : List Ev := [.call 1 (.lock 10 .rd (.block (-1))), .call 2 (.lock 11 .rd .try_), .go 1 .within, .go 2 .within,
  .go 1 .within, .go 2 .within, .call 2 (.lock 12 .rd (.block 3)), .go 2 .within, .go 2 .within]

theorem reach_run {A : State → Ev → Prop} : ∀ {es : List Ev} {s s' : State}, Reach A s →
    (∀ pre e post, es = pre ++ e :: post → ∀ s1, run s pre = some s1 → A s1 e) → run s es = some s' → Reach A s'
  | [], s, s', h, _, hr => by simp only [run, Option.some.injEq] at hr; exact hr ▸ h
  | e :: es, s, s', h, ha, hr => by
    simp only [run] at hr
    cases hs : step s e with
    | none => rw [hs] at hr; cases hr
    | some s1 =>
      rw [hs] at hr
      refine reach_run (.step h (ha [] e es rfl s rfl) hs) (fun pre e' post he s2 h2 => ?_) hr
      exact ha (e :: pre) e' post (by simp [he]) s2 (by simp [run, hs, h2])

/-- The second reader lost the race for the word (EBUSY although only readers hold), a third request got
it. -/
example : ∃ s, run init es69 = some s ∧ s.pc 1 = .idle .ok ∧ s.word = 2 ∧ s.held = [(12, .rd), (10, .rd)] :=
  ⟨_, rfl, by decide, by decide, by decide⟩

/-! ### Any callers -/

/-- C69: whoever calls in whatever order, each call takes effect in one step, or not at all: calls that go on
or fail leave the word as it is; a successful lock call has found, in its last step, a word that could be
taken, and has taken it; an unlock call reports success and has applied one release in its last step; the
word is never below -1, so that an unlock call cannot go round for ever on it. -/
theorem C69_atomic {A : State → Ev → Prop} (s s' : State) (h : Reach A s) (t : Nat) (c : Clock)
    (hs : step s (.go t c) = some s') :
    -1 ≤ s.word ∧
    ((∀ r, s'.pc t ≠ .idle r) → s'.word = s.word) ∧
    (∀ r, s'.pc t = .idle r → r ≠ .ok → s'.word = s.word) ∧
    (∀ md, asking (s.pc t) = some md → s'.pc t = .idle .ok →
      canTake s.word md = true ∧ s'.word = takeWord s.word md) ∧
    (∀ r, unlocking (s.pc t) = true → s'.pc t = .idle r → r = .ok ∧ s'.word = unlockWord s.word) ∧
    (∀ u, u ≠ t → s'.pc u = s.pc u) := by
  have hi := reach_inv h
  refine ⟨hi.floor, ?_⟩
  have hself : ∀ p, (s.goto t p).pc t = p := fun p => by simp [goto_pc]
  have hoth : ∀ p u, u ≠ t → (s.goto t p).pc u = s.pc u := fun p u hu => by simp [goto_pc, hu]
  have hq : ∀ p, unlocking (s.pc t) = false → p ≠ .idle .ok →
      ((∀ r, (s.goto t p).pc t ≠ .idle r) → (s.goto t p).word = s.word) ∧
      (∀ r, (s.goto t p).pc t = .idle r → r ≠ .ok → (s.goto t p).word = s.word) ∧
      (∀ md, asking (s.pc t) = some md → (s.goto t p).pc t = .idle .ok →
        canTake s.word md = true ∧ (s.goto t p).word = takeWord s.word md) ∧
      (∀ r, unlocking (s.pc t) = true → (s.goto t p).pc t = .idle r → r = .ok ∧ (s.goto t p).word = unlockWord s.word) ∧
      (∀ u, u ≠ t → (s.goto t p).pc u = s.pc u) := by
    intro p hu hp
    refine ⟨fun _ => rfl, fun _ _ _ => rfl, fun md _ e => ?_, fun r e => ?_, hoth p⟩
    · rw [hself] at e; exact absurd e hp
    · rw [hu] at e; cases e
  have hfail : ∀ k kd cnt md, fail k md kd cnt ≠ .idle .ok := by
    intro k kd cnt md; cases kd <;> simp [fail]
  have hpc := hi.pcs t
  have hm := mv_of hs
  cases hm with
  | clk0Err hp => exact hq _ (by rw [hp]; rfl) (by simp)
  | clk0 hp _ => exact hq _ (by rw [hp]; rfl) (by simp)
  | clkErr hp => exact hq _ (by rw [hp]; rfl) (by simp)
  | clkOver hp => exact hq _ (by rw [hp]; rfl) (by simp)
  | clkIn hp => exact hq _ (by rw [hp]; rfl) (by simp)
  | spent hp _ => exact hq _ (by rw [hp]; rfl) (by simp)
  | rdFail hp _ _ => exact hq _ (by rw [hp]; rfl) (hfail _ _ _ _)
  | wrFail hp _ _ => exact hq _ (by rw [hp]; rfl) (hfail _ _ _ _)
  | casFail hp _ => exact hq _ (by rw [hp]; rfl) (hfail _ _ _ _)
  | rdRead hp _ _ => exact hq _ (by rw [hp]; rfl) (by simp)
  | wrOk hp _ hw =>
    refine ⟨fun e => absurd (hself _) (e .ok), fun r e hr => absurd ((hself _).symm.trans e) ?_, ?_, ?_, hoth _⟩
    · intro e; cases e; exact hr rfl
    · intro md e _; rw [hp] at e; cases e; exact ⟨by simp [canTake, hw], rfl⟩
    · intro r e; rw [hp] at e; cases e
  | casOk hp hw =>
    rw [hp] at hpc
    refine ⟨fun e => absurd (hself _) (e .ok), fun r e hr => absurd ((hself _).symm.trans e) ?_, ?_, ?_, hoth _⟩
    · intro e; cases e; exact hr rfl
    · intro md e _; rw [hp] at e; cases e
      exact ⟨by simp only [canTake, decide_eq_true_eq]; rw [hw]; exact hpc.1, by rw [hw]; rfl⟩
    · intro r e; rw [hp] at e; cases e
  | uZero hp hw =>
    refine ⟨fun _ => rfl, fun _ _ _ => rfl, ?_, ?_, hoth _⟩
    · intro md e; rw [hp] at e; cases e
    · intro r _ e; rw [hself] at e; cases e; exact ⟨rfl, by rw [hw]; exact hw⟩
  | uNeg hp _ =>
    refine ⟨fun _ => rfl, fun _ _ _ => rfl, ?_, ?_, hoth _⟩
    · intro md e; rw [hp] at e; cases e
    · intro r _ e; rw [hself] at e; cases e
  | uPos hp _ =>
    refine ⟨fun _ => rfl, fun _ _ _ => rfl, ?_, ?_, hoth _⟩
    · intro md e; rw [hp] at e; cases e
    · intro r _ e; rw [hself] at e; cases e
  | uFail hp _ =>
    refine ⟨fun _ => rfl, fun _ _ _ => rfl, ?_, ?_, hoth _⟩
    · intro md e; rw [hp] at e; cases e
    · intro r _ e; rw [hself] at e; cases e
  | @uOk k b n c hp hw =>
    rw [hp] at hpc
    refine ⟨fun e => absurd (hself _) (e .ok), fun r e hr => absurd ((hself _).symm.trans e) ?_, ?_, ?_, hoth _⟩
    · intro e; cases e; exact hr rfl
    · intro md e; rw [hp] at e; cases e
    · intro r _ e
      have := (hself _).symm.trans e
      cases this
      refine ⟨rfl, ?_⟩
      show n = unlockWord s.word
      rw [hw]
      simp only [PcOK] at hpc
      simp only [unlockWord]
      split_ifs <;> omega

/-- C69: why a lock call fails.  EBUSY: the function does not wait and its attempt failed, or the clock
failed; ETIMEDOUT: a limited number of attempts, all made and failed, or the time is over.  An unlimited
waiting call does not fail.  And an attempt fails only if the word could not be taken, or (reader) changed
since the call read it. -/
theorem C69_failure {A : State → Ev → Prop} (s s' : State) (_h : Reach A s) (t : Nat) (c : Clock)
    (hs : step s (.go t c) = some s') (md : Mode) (ha : asking (s.pc t) = some md) :
    (∀ kd, kindOf (s.pc t) = some kd → s'.pc t = .idle .ok ∨ kindOf (s'.pc t) = some kd ∧ asking (s'.pc t) = some md ∨
      (s'.pc t = .idle .ebusy ∧ (kd = .try_ ∨ kd = .timed ∧ c = .err)) ∨
      (s'.pc t = .idle .etimedout ∧ (kd = .timed ∧ c = .over ∨
        ∃ max cnt, kd = .block max ∧ s.pc t = .top (tok (s.pc t) |>.getD 0) md kd cnt ∧ max ≠ -1 ∧ max < cnt))) ∧
    (∀ k kd cnt, s.pc t = .top k .wr kd cnt → s'.pc t = fail k .wr kd cnt → canTake s.word .wr = false) ∧
    (∀ k kd cnt, s.pc t = .top k .rd kd cnt → s'.pc t = fail k .rd kd cnt → canTake s.word .rd = false) ∧
    (∀ k kd cnt b, s.pc t = .cas k kd cnt b → s'.pc t = fail k .rd kd cnt → s.word ≠ b) := by
  have hself : ∀ p, (s.goto t p).pc t = p := fun p => by simp [goto_pc]
  have hm := mv_of hs
  refine ⟨fun kd hk => ?_, ?_, ?_, ?_⟩
  · cases hm <;> simp_all [kindOf, asking, tok]
    all_goals cases kd <;> simp_all [fail, spent]
  · intro k kd cnt e e'
    cases hm <;> simp_all [canTake]
    all_goals cases kd <;> simp_all [fail]
  · intro k kd cnt e e'
    cases hm <;> simp_all [canTake]
    all_goals cases kd <;> simp_all [fail]
  · intro k kd cnt b e e'
    cases hm <;> simp_all
    all_goals cases kd <;> simp_all [fail]

/-! ### Progress -/

/-- C69: a lock call on a word that can be taken, while nobody else changes the word, succeeds within three
steps of its own (the clock working, if the call needs it). -/
theorem C69_no_interference {A : State → Ev → Prop} (s s' : State) (h : Reach A s) (t k : Nat) (md : Mode) (kd : Kind)
    (hp : s.pc t = (Call.lock k md kd).start) (hkd : ∀ max, kd = .block max → -1 ≤ max) (hc : canTake s.word md = true)
    (es : List Ev) (hst : staying t es) (hcl : clockWorks t es) (hr : run s es = some s') (hch : changes t s es = 0) :
    s'.pc t = .idle .ok ∨ (asking (s'.pc t) = some md ∧ steps t es < 3) := by
  have hsp : spent kd 0 = false := by
    cases kd with
    | block max =>
      have := hkd max rfl
      simp only [spent, Bool.and_eq_false_iff, decide_eq_false_iff_not]
      omega
    | try_ => rfl
    | timed => rfl
  have := track (t := t) (fun p w n m => m = 0 → p = .idle .ok ∨ (w = s.word ∧
      ((p = .top k md kd 0 ∧ n ≤ 1) ∨ (p = .clk0 k md ∧ kd = .timed ∧ n = 0) ∨
        (p = .cas k kd 0 s.word ∧ md = .rd ∧ n ≤ 2)))) False True ?_ ?_ es s s' 0 0 (reach_any h) hst
      (fun e => e.elim) (fun _ => hcl) hr ?_ (by omega)
  · rcases this with e | ⟨_, ⟨e, hn⟩ | ⟨e, _, hn⟩ | ⟨e, e1, hn⟩⟩
    · exact .inl e
    · exact .inr ⟨by rw [e]; rfl, by omega⟩
    · exact .inr ⟨by rw [e]; rfl, by omega⟩
    · exact .inr ⟨by rw [e, e1]; rfl, by omega⟩
  · intro x x' c n m hP hm hfl _ hce hm0
    have hself : ∀ p, (x.goto t p).pc t = p := fun p => by simp [goto_pc]
    rcases hP hm0 with e | ⟨hw, ⟨e, hn⟩ | ⟨e, e1, hn⟩ | ⟨e, e1, hn⟩⟩
    · cases hm <;> simp_all
    · rw [← hw] at hc ⊢
      cases hm <;> simp_all [canTake, goto_word]
      all_goals cases md <;> simp_all
      all_goals omega
    · cases hm <;> simp_all [goto_word]
    · cases hm <;> simp_all [goto_word]
  · intro p w w' n m hP hm0
    have : m = 0 := by omega
    rcases hP this with e | ⟨hw, e⟩
    · exact .inl e
    · refine .inr ⟨?_, e⟩
      by_contra hne
      rw [if_pos (by rw [hw]; exact hne)] at hm0
      omega
  · intro _
    refine .inr ⟨rfl, ?_⟩
    rw [hp]
    cases kd <;> simp [Call.start]

/-- C69: an unlock call ends with success unless other threads keep changing the word: it makes at most
two steps per change, and one more. -/
theorem C69_unlock_progress {A : State → Ev → Prop} (s s' : State) (h : Reach A s) (t k : Nat) (hp : s.pc t = .uTop k)
    (es : List Ev) (hst : staying t es) (hr : run s es = some s') :
    s'.pc t = .idle .ok ∨ (unlocking (s'.pc t) = true ∧ steps t es ≤ 2 * changes t s es + 1) := by
  have := track (t := t) (fun p w n m => p = .idle .ok ∨ (p = .uTop k ∧ n ≤ 2 * m) ∨
      ∃ b v, p = .uCas k b v ∧ ((w = b ∧ n ≤ 2 * m + 1) ∨ n + 1 ≤ 2 * m)) False False ?_ ?_ es s s' 0 0 (reach_any h)
      hst (fun e => e.elim) (fun e => e.elim) hr ?_
  · simp only [Nat.zero_add] at this
    rcases this with e | ⟨e, hn⟩ | ⟨b, v, e, hn⟩
    · exact .inl e
    · exact .inr ⟨by rw [e]; rfl, by omega⟩
    · exact .inr ⟨by rw [e]; rfl, by omega⟩
  · intro x x' c n m hP hm hfl _ _
    have hself : ∀ p, (x.goto t p).pc t = p := fun p => by simp [goto_pc]
    rcases hP with e | ⟨e, hn⟩ | ⟨b, v, e, hn⟩
    · cases hm <;> simp_all
    · cases hm <;> simp_all [goto_word]
      all_goals omega
    · cases hm <;> simp_all [goto_word]
      all_goals omega
  · intro p w w' n m hP
    rcases hP with e | ⟨e, hn⟩ | ⟨b, v, e, hn⟩
    · exact .inl e
    · exact .inr (.inl ⟨e, by omega⟩)
    · refine .inr (.inr ⟨b, v, e, ?_⟩)
      by_cases hw : w' = w
      · rw [hw]; simpa using hn
      · rw [if_pos hw]; right; omega
  · exact .inr (.inl ⟨hp, by omega⟩)

/-- C69: while no writer holds, a reader waiting without limit gets the lock unless other threads keep
changing the word: at most two steps per change, and one more. -/
theorem C69_reader_progress {A : State → Ev → Prop} (s s' : State) (h : Reach A s) (t k : Nat)
    (hp : s.pc t = (Call.lock k .rd (.block (-1))).start)
    (es : List Ev) (hst : staying t es) (hnw : noWriter s es) (hr : run s es = some s') :
    s'.pc t = .idle .ok ∨ (asking (s'.pc t) = some .rd ∧ steps t es ≤ 2 * changes t s es + 1) := by
  have := track (t := t) (fun p w n m => p = .idle .ok ∨ (∃ cnt, p = .top k .rd (.block (-1)) cnt ∧ n ≤ 2 * m) ∨
      ∃ cnt b, p = .cas k (.block (-1)) cnt b ∧ ((w = b ∧ n ≤ 2 * m + 1) ∨ n + 1 ≤ 2 * m)) True False ?_ ?_ es s s' 0 0
      (reach_any h) hst (fun _ => hnw) (fun e => e.elim) hr ?_
  · simp only [Nat.zero_add] at this
    rcases this with e | ⟨_, e, hn⟩ | ⟨_, _, e, hn⟩
    · exact .inl e
    · exact .inr ⟨by rw [e]; rfl, by omega⟩
    · exact .inr ⟨by rw [e]; rfl, by omega⟩
  · intro x x' c n m hP hm hfl hB _
    have hB := hB trivial
    have hself : ∀ p, (x.goto t p).pc t = p := fun p => by simp [goto_pc]
    rcases hP with e | ⟨cnt, e, hn⟩ | ⟨cnt, b, e, hn⟩
    · cases hm <;> simp_all
    · cases hm <;> simp_all [goto_word, spent]
      all_goals omega
    · cases hm <;> simp_all [goto_word, fail]
      all_goals omega
  · intro p w w' n m hP
    rcases hP with e | ⟨cnt, e, hn⟩ | ⟨cnt, b, e, hn⟩
    · exact .inl e
    · exact .inr (.inl ⟨cnt, e, by omega⟩)
    · refine .inr (.inr ⟨cnt, b, e, ?_⟩)
      by_cases hw : w' = w
      · rw [hw]; simpa using hn
      · rw [if_pos hw]; right; omega
  · exact .inr (.inl ⟨0, hp, by omega⟩)

/-- C69: a call with a limit of `max` retries ends whatever the others do: a writer after at most `max + 2`
steps, a reader after at most `2 * max + 3`; and it does not report ETIMEDOUT before `max + 1` attempts
have failed. -/
theorem C69_limited {A : State → Ev → Prop} (s s' : State) (h : Reach A s) (t k : Nat) (md : Mode) (max : Nat)
    (hp : s.pc t = (Call.lock k md (.block max)).start)
    (es : List Ev) (hst : staying t es) (hr : run s es = some s') :
    s'.pc t = .idle .ok ∨ (s'.pc t = .idle .etimedout ∧ max + 2 ≤ steps t es) ∨
    (asking (s'.pc t) = some md ∧ steps t es ≤ if md = .wr then max + 1 else 2 * (max + 1)) := by
  have := track (t := t) (fun p _ n _ => p = .idle .ok ∨ (p = .idle .etimedout ∧ max + 2 ≤ n) ∨
      (∃ cnt, p = .top k md (.block max) cnt ∧ cnt ≤ n ∧ cnt ≤ max + 1 ∧ n ≤ if md = .wr then cnt else 2 * cnt) ∨
      ∃ cnt b, p = .cas k (.block max) cnt b ∧ md = .rd ∧ cnt ≤ n ∧ cnt ≤ max ∧ n ≤ 2 * cnt + 1)
      False False ?_ ?_ es s s' 0 0 (reach_any h) hst (fun e => e.elim) (fun e => e.elim) hr ?_
  · simp only [Nat.zero_add] at this
    rcases this with e | e | ⟨cnt, e, _, _, hn⟩ | ⟨_, _, e, hmd, hn⟩
    · exact .inl e
    · exact .inr (.inl e)
    · refine .inr (.inr ⟨by rw [e]; rfl, ?_⟩)
      split at hn <;> rename_i hq
      · rw [if_pos hq]; omega
      · rw [if_neg hq]; omega
    · subst hmd
      exact .inr (.inr ⟨by rw [e]; rfl, by rw [if_neg (by simp)]; omega⟩)
  · intro x x' c n m hP hm hfl _ _
    have hself : ∀ p, (x.goto t p).pc t = p := fun p => by simp [goto_pc]
    rcases hP with e | ⟨e, _⟩ | ⟨cnt, e, h1, h2, h3⟩ | ⟨cnt, b, e, h1, h2, h3, h4⟩
    · cases hm <;> simp_all
    · cases hm <;> simp_all
    · cases md <;> cases hm <;> simp_all [goto_word, spent, fail]
      all_goals omega
    · cases hm <;> simp_all [goto_word, fail]
      all_goals omega
  · intro p w w' n m hP
    exact hP
  · exact .inr (.inr (.inl ⟨0, hp, by simp⟩))

/-! ### The hypotheses are met -/

/-- State after a number of events of `es69`. -/
def st69 (n : Nat) : State := (run init (es69.take n)).getD init

/-- Callers in order reach a state with two holders. -/
theorem reach69 : Reach orderly (st69 9) := by
  have h0 : Reach orderly (st69 0) := .init
  have h1 : Reach orderly (st69 1) := .step h0 (e := es69[0]) ⟨fun u => by simp [st69, es69, run, init, tok], fun md => by simp [st69, es69, run, init]⟩ rfl
  have h2 : Reach orderly (st69 2) := .step h1 (e := es69[1])
    ⟨fun u => by simp only [st69, es69, run, List.take, Option.bind, step, init, Option.getD, State.goto, FL.fset]; split_ifs <;> simp [tok, Call.start],
      fun md => by simp [st69, es69, run, init, step, State.goto]⟩ rfl
  have h3 : Reach orderly (st69 3) := .step h2 (e := es69[2]) trivial rfl
  have h4 : Reach orderly (st69 4) := .step h3 (e := es69[3]) trivial rfl
  have h5 : Reach orderly (st69 5) := .step h4 (e := es69[4]) trivial rfl
  have h6 : Reach orderly (st69 6) := .step h5 (e := es69[5]) trivial rfl
  have hpc : ∀ u, tok ((st69 6).pc u) = none := by
    intro u
    by_cases h1 : u = 1
    · subst h1; rfl
    · by_cases h2 : u = 2
      · subst h2; rfl
      · have e1 : (u == 1) = false := by simpa using h1
        have e2 : (u == 2) = false := by simpa using h2
        have : (st69 6).pc u = .idle .ok := by
          simp [st69, es69, run, step, init, State.goto, FL.fset, Call.start, spent, fail, h1, h2]
        rw [this]; rfl
  have h7 : Reach orderly (st69 7) := .step h6 (e := es69[6])
    ⟨fun u => by rw [hpc]; simp, fun md => by rw [show (st69 6).held = [(10, .rd)] from rfl]; simp⟩ rfl
  have h8 : Reach orderly (st69 8) := .step h7 (e := es69[7]) trivial rfl
  exact .step h8 (e := es69[8]) trivial rfl

example : (st69 9).word = 2 ∧ (st69 9).held = [(12, .rd), (10, .rd)] := ⟨rfl, rfl⟩

/-- C69_results, C69_atomic, C69_failure: the state before the last step of `es69`. -/
example : tok ((st69 8).pc 2) = some 12 ∧ asking ((st69 8).pc 2) = some .rd ∧
    step (st69 8) (.go 2 .within) = some (st69 9) := ⟨rfl, rfl, rfl⟩

/-- C69_no_interference: thread 2 of `st69 7` has just entered. -/
example : (st69 7).pc 2 = (Call.lock 12 .rd (.block 3)).start ∧ canTake (st69 7).word .rd = true ∧
    run (st69 7) [.go 2 .within, .go 2 .within] = some (st69 9) ∧
    changes 2 (st69 7) [.go 2 .within, .go 2 .within] = 0 := ⟨rfl, rfl, rfl, rfl⟩

/-- C69_unlock_progress: the unlock call meets another release between its two accesses and goes round. -/
example : ∃ s s', run (st69 9) [.call 1 (.unlock 10), .call 2 (.unlock 12)] = some s ∧ s.pc 1 = .uTop 10 ∧
    run s [.go 1 .within, .go 2 .within, .go 2 .within, .go 1 .within] = some s' ∧ unlocking (s'.pc 1) = true ∧
    changes 1 s [.go 1 .within, .go 2 .within, .go 2 .within, .go 1 .within] = 1 :=
  ⟨_, _, rfl, rfl, rfl, rfl, rfl⟩

/-- C69_reader_progress and C69_limited: a reader that loses the word to another reader. -/
example : ∃ s s', run init [.call 1 (.lock 10 .rd (.block (-1))), .call 2 (.lock 11 .rd (.block 0))] = some s ∧
    s.pc 1 = (Call.lock 10 .rd (.block (-1))).start ∧ s.pc 2 = (Call.lock 11 .rd (.block 0)).start ∧
    run s [.go 2 .within, .go 1 .within, .go 1 .within, .go 2 .within, .go 2 .within] = some s' ∧
    s'.pc 1 = .idle .ok ∧ s'.pc 2 = .idle .etimedout :=
  ⟨_, _, rfl, rfl, rfl, rfl, rfl, rfl⟩

/-- The order of the callers is needed: a release by a caller that does not hold takes the lock from the
writer that does, and a second writer gets in. -/
theorem C69_order_needed : ∃ s, Reach (fun _ _ => True) s ∧ s.held.length = 1 ∧ s.word = 0 ∧
    ∃ s' k k', Reach (fun _ _ => True) s' ∧ k ≠ k' ∧ (k, Mode.wr) ∈ s'.held ∧ (k', Mode.wr) ∈ s'.held := by
  have hr : ∀ es s, run init es = some s → Reach (fun _ _ => True) s := fun es s h =>
    reach_run .init (fun _ _ _ _ _ _ => trivial) h
  refine ⟨_, hr [.call 1 (.lock 10 .wr .try_), .go 1 .within, .call 2 (.unlock 11), .go 2 .within, .go 2 .within] _ rfl,
    rfl, rfl, _, 10, 12, hr [.call 1 (.lock 10 .wr .try_), .go 1 .within, .call 2 (.unlock 11), .go 2 .within, .go 2 .within,
      .call 2 (.lock 12 .wr .try_), .go 2 .within] _ rfl, by decide, by decide, by decide⟩

end Fullock.Props
