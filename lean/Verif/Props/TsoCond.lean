import Verif.Props.Tso
import Verif.Spec.TsoCond
/-
C103: what was written before a signal is seen after the wait.
-/
namespace Fullock.Props.TsoCond
open Fullock.Tso Fullock.TsoCond Fullock.Spec.TsoCond Fullock.Props.Tso

variable {U : Type} {prog : Nat → U → UIns U} {u0 : Nat → U} {σ : Nat → St (Pc U)} {ε : Nat → Option Ev}

theorem word_data (w a : Nat) : wordA w ≠ dataA a := by simp only [wordA, dataA]; omega
theorem word_lock (w : Nat) : wordA w ≠ lockA := by simp only [wordA, lockA]; omega
theorem data_lock (a : Nat) : dataA a ≠ lockA := by simp only [dataA, lockA]; omega
theorem word_inj {w w' : Nat} (h : wordA w = wordA w') : w = w' := by simp only [wordA] at h; omega
theorem data_inj {a a' : Nat} (h : dataA a = dataA a') : a = a' := by simp only [dataA] at h; omega

theorem _root_.Fullock.Spec.TsoCond.Exec.moment (ex : Exec prog u0 σ ε) (i : Nat) :
    σ (i + 1) = σ i ∨ ∃ e, ε i = some e ∧ step (ccode prog) (σ i) e = some (σ (i + 1)) := by
  have := ex.next i
  cases h : ε i with
  | none => rw [h] at this; exact .inl this
  | some e => rw [h] at this; exact .inr ⟨e, rfl, this⟩

/-- What a step of thread `t` does to the rest. -/
theorem run_cases {s s' : St (Pc U)} {t n : Nat} (h : step (ccode prog) s (.run t n) = some s') :
    (∀ u, u ≠ t → s'.loc u = s.loc u) ∧ s'.alive = s.alive ∧ (∀ u, u ≠ t → s'.buf u = s.buf u) ∧
    ((s'.mem = s.mem ∧ s'.buf t = s.buf t ∧ (∀ w b lim k, s.loc t ≠ .armC w b lim k) ∧ (∀ w lim k, s.loc t ≠ .wt w lim k)) ∨
     (∃ a x u u', s.loc t = .usr u ∧ prog t u = .wr a x u' ∧ s'.mem = s.mem ∧ s'.buf t = s.buf t ++ [(dataA a, x)]) ∨
     (∃ w lim k, s.loc t = .ini w lim k ∧ s'.mem = s.mem ∧ s'.buf t = s.buf t ++ [(wordA w, waiting)]) ∨
     (s.buf t = [] ∧ s'.buf t = [] ∧
       ((∃ w lim k, s.loc t = .rel w lim k ∧ s'.mem = s.mem) ∨
        (∃ w b lim k, s.loc t = .armC w b lim k ∧ s.mem (wordA w) = b ∧ s'.mem = put s.mem (wordA w) waiting ∧ s'.loc t = .wt w lim k) ∨
        (∃ w b lim k, s.loc t = .armC w b lim k ∧ s.mem (wordA w) ≠ b ∧ s'.mem = s.mem ∧ s'.loc t = .armC w (s.mem (wordA w)) lim k) ∨
        (∃ w lim k, s.loc t = .wt w lim k ∧ s'.mem = s.mem ∧ s.mem (wordA w) = up ∧ s'.loc t = .usr (k true)) ∨
        (∃ w lim k, s.loc t = .wt w lim k ∧ s'.mem = s.mem ∧ s.mem (wordA w) ≠ up ∧ (s'.loc t = .tm w lim k ∨ s'.loc t = .wt w lim k)) ∨
        (∃ w b u, s.loc t = .sgC w b u ∧ s.mem (wordA w) = b ∧ s'.mem = put s.mem (wordA w) up) ∨
        (∃ w b u, s.loc t = .sgC w b u ∧ s.mem (wordA w) ≠ b ∧ s'.mem = s.mem)))) := by
  have put_id : ∀ a v, v = s.mem a → put s.mem a v = s.mem := by
    intro a v h; funext x; simp only [put]; split
    · rename_i e; rw [e, h]
    · rfl
  simp only [step] at h
  split at h
  · cases h
  · cases hl : s.loc t with
    | usr u =>
      simp only [hl, ccode] at h
      cases hp : prog t u <;> simp only [hp, Option.some.injEq] at h <;> subst h
      case wr a x u' =>
        refine ⟨fun v hv => fput_other _ _ hv, rfl, fun v hv => fput_other _ _ hv, .inr (.inl ⟨a, x, u, u', rfl, hp, rfl, fput_same _ _ _⟩)⟩
      all_goals exact ⟨fun v hv => fput_other _ _ hv, rfl, fun v hv => rfl, .inl ⟨rfl, rfl, by simp, by simp⟩⟩
    | ini w lim k =>
      simp only [hl, ccode, Option.some.injEq] at h; subst h
      exact ⟨fun v hv => fput_other _ _ hv, rfl, fun v hv => fput_other _ _ hv, .inr (.inr (.inl ⟨w, lim, k, rfl, rfl, fput_same _ _ _⟩))⟩
    | rel w lim k =>
      simp only [hl, ccode] at h; split at h; rotate_left; cases h
      rename_i hb
      simp only [Option.some.injEq] at h; subst h
      exact ⟨fun v hv => fput_other _ _ hv, rfl, fun v hv => rfl, .inr (.inr (.inr ⟨hb, hb, .inl ⟨w, lim, k, rfl, put_id _ _ rfl⟩⟩))⟩
    | armA w lim k =>
      simp only [hl, ccode, Option.some.injEq] at h; subst h
      exact ⟨fun v hv => fput_other _ _ hv, rfl, fun v hv => rfl, .inl ⟨rfl, rfl, by simp, by simp⟩⟩
    | armC w b lim k =>
      simp only [hl, ccode, Ins.cas] at h; split at h; rotate_left; cases h
      rename_i hb
      simp only [Option.some.injEq] at h; subst h
      refine ⟨fun v hv => fput_other _ _ hv, rfl, fun v hv => rfl, .inr (.inr (.inr ⟨hb, hb, ?_⟩))⟩
      by_cases hm : s.mem (wordA w) = b
      · right; left
        exact ⟨w, b, lim, k, rfl, hm, by simp [hm], by simp [fput_same, hm]⟩
      · right; right; left
        exact ⟨w, b, lim, k, rfl, hm, by simp only [if_neg hm]; exact put_id _ _ rfl, by simp [fput_same, hm]⟩
    | wt w lim k =>
      simp only [hl, ccode, Ins.cas] at h; split at h; rotate_left; cases h
      rename_i hb
      simp only [Option.some.injEq] at h; subst h
      refine ⟨fun v hv => fput_other _ _ hv, rfl, fun v hv => rfl, .inr (.inr (.inr ⟨hb, hb, ?_⟩))⟩
      have hput : put s.mem (wordA w) (if s.mem (wordA w) = up then up else s.mem (wordA w)) = s.mem :=
        put_id _ _ (by split <;> simp_all)
      by_cases hm : s.mem (wordA w) = up
      · right; right; right; left
        exact ⟨w, lim, k, rfl, hput, hm, by simp [fput_same, hm]⟩
      · right; right; right; right; left
        refine ⟨w, lim, k, rfl, hput, hm, ?_⟩
        cases lim <;> simp [fput_same, hm]
    | tm w lim k =>
      simp only [hl, ccode, Option.some.injEq] at h; subst h
      exact ⟨fun v hv => fput_other _ _ hv, rfl, fun v hv => rfl, .inl ⟨rfl, rfl, by simp, by simp⟩⟩
    | isW w u =>
      simp only [hl, ccode, Option.some.injEq] at h; subst h
      exact ⟨fun v hv => fput_other _ _ hv, rfl, fun v hv => rfl, .inl ⟨rfl, rfl, by simp, by simp⟩⟩
    | sgA w u =>
      simp only [hl, ccode, Option.some.injEq] at h; subst h
      exact ⟨fun v hv => fput_other _ _ hv, rfl, fun v hv => rfl, .inl ⟨rfl, rfl, by simp, by simp⟩⟩
    | sgC w b u =>
      simp only [hl, ccode, Ins.cas] at h; split at h; rotate_left; cases h
      rename_i hb
      simp only [Option.some.injEq] at h; subst h
      refine ⟨fun v hv => fput_other _ _ hv, rfl, fun v hv => rfl, .inr (.inr (.inr ⟨hb, hb, ?_⟩))⟩
      by_cases hm : s.mem (wordA w) = b
      · right; right; right; right; right; left
        exact ⟨w, b, u, rfl, hm, by simp [hm]⟩
      · right; right; right; right; right; right
        exact ⟨w, b, u, rfl, hm, by simp only [if_neg hm]; exact put_id _ _ rfl⟩

theorem flush_cases {s s' : St (Pc U)} {t : Nat} (h : step (ccode prog) s (.flush t) = some s') :
    s'.loc = s.loc ∧ ∃ w b, s.buf t = w :: b ∧ s'.mem = put s.mem w.1 w.2 ∧ s'.buf t = b ∧ ∀ u, u ≠ t → s'.buf u = s.buf u := by
  simp only [step] at h
  split at h
  · cases h
  · rename_i w b hb
    simp only [Option.some.injEq] at h; subst h
    exact ⟨rfl, w, b, hb, rfl, fput_same _ _ _, fun u hu => fput_other _ _ hu⟩

theorem die_cases {s s' : St (Pc U)} {t : Nat} (h : step (ccode prog) s (.die t) = some s') :
    s'.loc = s.loc ∧ s'.mem = s.mem ∧ s'.buf = s.buf := by
  simp only [step] at h
  split at h
  · simp only [Option.some.injEq] at h; subst h; exact ⟨rfl, rfl, rfl⟩
  · cases h

/-- What is under way: words get "waits" only, data what the thread has written. -/
theorem bufs (ex : Exec prog u0 σ ε) (i : Nat) : ∀ t, ∀ x ∈ (σ i).buf t,
    (∃ w, x = (wordA w, waiting)) ∨ ∃ a r, r < i ∧ x.1 = dataA a ∧ Writes prog σ ε r t a x.2 := by
  induction i with
  | zero => rw [ex.start]; intro t x hx; cases hx
  | succ i ih =>
    have keep : ∀ t, ∀ x ∈ (σ i).buf t, (∃ w, x = (wordA w, waiting)) ∨ ∃ a r, r < i + 1 ∧ x.1 = dataA a ∧ Writes prog σ ε r t a x.2 := by
      intro t x hx
      rcases ih t x hx with h | ⟨a, r, h1, h2⟩
      · exact .inl h
      · exact .inr ⟨a, r, by omega, h2⟩
    rcases ex.moment i with g | ⟨e, he, g⟩
    · rw [g]; exact keep
    · intro t x hx
      cases e with
      | flush u =>
        obtain ⟨-, w, b, h1, -, h2, h3⟩ := flush_cases g
        by_cases hu : t = u
        · subst hu; exact keep t x (by rw [h1]; rw [h2] at hx; exact List.mem_cons_of_mem _ hx)
        · rw [h3 t hu] at hx; exact keep t x hx
      | die u => rw [(die_cases g).2.2] at hx; exact keep t x hx
      | run u n =>
        obtain ⟨-, -, h3, h4⟩ := run_cases g
        by_cases hu : t = u
        · subst hu
          rcases h4 with ⟨-, h, -⟩ | ⟨a, y, v, v', h5, h6, -, h7⟩ | ⟨w, lim, k, -, -, h7⟩ | ⟨h, h', -⟩
          · rw [h] at hx; exact keep t x hx
          · rw [h7, List.mem_append, List.mem_singleton] at hx
            rcases hx with hx | rfl
            · exact keep t x hx
            · exact .inr ⟨a, i, by omega, rfl, n, v, v', he, h5, h6⟩
          · rw [h7, List.mem_append, List.mem_singleton] at hx
            rcases hx with hx | rfl
            · exact keep t x hx
            · exact .inl ⟨w, rfl⟩
          · rw [h'] at hx; cases hx
        · rw [h3 t hu] at hx; exact keep t x hx

theorem put_same (m : Nat → Nat) (a v : Nat) : put m a v a = v := by simp [put]
theorem put_other (m : Nat → Nat) {a x : Nat} (v : Nat) (h : x ≠ a) : put m a v x = m x := by simp [put, h]

/-- Only a signal makes a record told. -/
theorem tells (ex : Exec prog u0 σ ε) {i w : Nat} (h1 : (σ i).mem (wordA w) ≠ up) (h2 : (σ (i + 1)).mem (wordA w) = up) :
    ∃ t, Tells σ ε i t w := by
  rcases ex.moment i with g | ⟨e, he, g⟩
  · rw [g] at h2; exact absurd h2 h1
  · cases e with
    | flush u =>
      exfalso
      obtain ⟨-, x, b, h3, h4, -⟩ := flush_cases g
      rw [h4] at h2
      by_cases hx : wordA w = x.1
      · rcases bufs ex i u x (by rw [h3]; exact List.mem_cons_self) with ⟨w', rfl⟩ | ⟨a, r, -, h5, -⟩
        · rw [← hx, put_same] at h2; simp [waiting, up] at h2
        · exact word_data w a (hx.trans h5)
      · rw [put_other _ _ hx] at h2; exact h1 h2
    | die u => rw [(die_cases g).2.1] at h2; exact absurd h2 h1
    | run u n =>
      obtain ⟨-, -, -, h4⟩ := run_cases g
      rcases h4 with ⟨h, -⟩ | ⟨_, _, _, _, -, -, h, -⟩ | ⟨_, _, _, -, h, -⟩ | ⟨-, -, h⟩
      · rw [h] at h2; exact absurd h2 h1
      · rw [h] at h2; exact absurd h2 h1
      · rw [h] at h2; exact absurd h2 h1
      · rcases h with ⟨_, _, _, -, h⟩ | ⟨w', _, _, _, -, -, h, -⟩ | ⟨_, _, _, _, -, -, h, -⟩ | ⟨_, _, _, -, h, -⟩ | ⟨_, _, _, -, h, -⟩ |
          ⟨w', b, v, h3, -, h⟩ | ⟨_, _, _, -, -, h⟩
        · rw [h] at h2; exact absurd h2 h1
        · exfalso
          rw [h] at h2
          by_cases hx : wordA w = wordA w'
          · rw [hx, put_same] at h2; simp [waiting, up] at h2
          · rw [put_other _ _ hx] at h2; exact h1 h2
        · rw [h] at h2; exact absurd h2 h1
        · rw [h] at h2; exact absurd h2 h1
        · rw [h] at h2; exact absurd h2 h1
        · by_cases hx : wordA w = wordA w'
          · have := word_inj hx; subst this
            exact ⟨u, ⟨b, v, h3⟩, ⟨n, he⟩, h1, by rw [h, put_same]⟩
          · rw [h, put_other _ _ hx] at h2; exact absurd h2 h1
        · rw [h] at h2; exact absurd h2 h1

/-- Thread `u` waits as record `w`. -/
def InW (s : St (Pc U)) (u w : Nat) : Prop := ∃ lim k, s.loc u = .wt w lim k ∨ s.loc u = .tm w lim k

theorem enters (ex : Exec prog u0 σ ε) {i u w : Nat} (h : InW (σ (i + 1)) u w) : InW (σ i) u w ∨ Arms σ ε i u w := by
  rcases ex.moment i with g | ⟨e, he, g⟩
  · rw [g] at h; exact .inl h
  · cases e with
    | flush v => left; unfold InW at h ⊢; rw [(flush_cases g).1] at h; exact h
    | die v => left; unfold InW at h ⊢; rw [(die_cases g).1] at h; exact h
    | run v n =>
      by_cases hv : u = v
      · subst hv
        obtain ⟨lim, k, h⟩ := h
        have g0 := g
        simp only [step] at g
        split at g
        · cases g
        · cases hl : (σ i).loc u with
          | usr x =>
            exfalso
            simp only [hl, ccode] at g
            cases hp : prog u x <;> simp only [hp, Option.some.injEq] at g <;> rw [← g] at h <;> simp [fput_same] at h
          | ini w' lim' k' =>
            simp only [hl, ccode, Option.some.injEq] at g; rw [← g] at h; simp [fput_same] at h
          | rel w' lim' k' =>
            simp only [hl, ccode] at g; split at g; rotate_left; cases g
            simp only [Option.some.injEq] at g; rw [← g] at h; simp [fput_same] at h
          | armA w' lim' k' =>
            simp only [hl, ccode, Option.some.injEq] at g; rw [← g] at h; simp [fput_same] at h
          | armC w' b lim' k' =>
            right
            obtain ⟨-, -, -, h4⟩ := run_cases g0
            rw [hl] at h4
            simp only [reduceCtorEq, false_and, exists_false, or_false, false_or, Pc.armC.injEq, ne_eq, not_true_eq_false, and_false,
              not_exists] at h4
            rcases h4 with ⟨-, -, h4, -⟩ | ⟨-, -, ⟨w1, b1, lim1, k1, ⟨rfl, rfl, rfl, rfl⟩, h5, h6, h7⟩ | ⟨w1, b1, lim1, k1, ⟨rfl, rfl, rfl, rfl⟩, h5, h6, h7⟩⟩
            · exact absurd ⟨rfl, rfl, rfl, rfl⟩ (h4 w' b lim' k')
            · rw [h7] at h
              simp only [Pc.wt.injEq, reduceCtorEq, or_false] at h
              obtain ⟨rfl, rfl, rfl⟩ := h
              exact ⟨_, _, _, n, hl, he, h7, by rw [h6, put_same]⟩
            · rw [h7] at h; simp at h
          | wt w' lim' k' =>
            left
            obtain ⟨-, -, -, h4⟩ := run_cases g0
            rw [hl] at h4
            simp only [reduceCtorEq, false_and, exists_false, or_false, false_or, Pc.wt.injEq, ne_eq, and_false, not_exists] at h4
            rcases h4 with ⟨-, -, -, h4⟩ | ⟨-, -, ⟨w1, lim1, k1, ⟨rfl, rfl, rfl⟩, h5, h6, h7⟩ | ⟨w1, lim1, k1, ⟨rfl, rfl, rfl⟩, h5, h6, h7⟩⟩
            · exact absurd ⟨rfl, rfl, rfl⟩ (h4 w' lim' k')
            · rw [h7] at h; simp at h
            · rcases h7 with h7 | h7 <;> rw [h7] at h <;> simp at h
              · obtain ⟨rfl, rfl, rfl⟩ := h; exact ⟨_, _, .inl hl⟩
              · obtain ⟨rfl, rfl, rfl⟩ := h; exact ⟨_, _, .inl hl⟩
          | tm w' lim' k' =>
            left
            simp only [hl, ccode, Option.some.injEq] at g
            rw [← g] at h
            simp only [fput_same] at h
            split at h <;> simp at h
            obtain ⟨rfl, rfl, rfl⟩ := h
            exact ⟨_, _, .inr hl⟩
          | isW w' v =>
            simp only [hl, ccode, Option.some.injEq] at g; rw [← g] at h; simp only [fput_same] at h
            split at h <;> simp at h
          | sgA w' v =>
            simp only [hl, ccode, Option.some.injEq] at g; rw [← g] at h; simp [fput_same] at h
          | sgC w' b v =>
            simp only [hl, ccode, Ins.cas] at g; split at g; rotate_left; cases g
            simp only [Option.some.injEq] at g; rw [← g] at h; simp only [fput_same] at h
            split at h <;> simp at h
      · left; unfold InW at h ⊢; rw [(run_cases g).1 u hv] at h; exact h

theorem armed (ex : Exec prog u0 σ ε) {u w : Nat} : ∀ {j : Nat}, InW (σ j) u w →
    ∃ k, k < j ∧ Arms σ ε k u w ∧ ∀ m, k < m → m ≤ j → InW (σ m) u w := by
  intro j
  induction j with
  | zero => intro h; rw [ex.start] at h; obtain ⟨lim, k, h⟩ := h; simp [cinit] at h
  | succ j ih =>
    intro h
    rcases enters ex h with g | g
    · obtain ⟨k, h1, h2, h3⟩ := ih g
      refine ⟨k, by omega, h2, fun m hm hm' => ?_⟩
      rcases Nat.eq_or_lt_of_le hm' with rfl | hm'
      · exact h
      · exact h3 m hm (by omega)
    · refine ⟨j, by omega, g, fun m hm hm' => ?_⟩
      have : m = j + 1 := by omega
      subst this; exact h

theorem turns {f : Nat → Bool} {a b : Nat} (hab : a ≤ b) (ha : f a = false) (hb : f b = true) :
    ∃ i, a ≤ i ∧ i < b ∧ f i = false ∧ f (i + 1) = true := by
  obtain ⟨d, rfl⟩ := Nat.exists_eq_add_of_le hab
  clear hab
  induction d with
  | zero => rw [Nat.add_zero, ha] at hb; cases hb
  | succ d ih =>
    cases h : f (a + d) with
    | true => obtain ⟨i, h1, h2, h3⟩ := ih h; exact ⟨i, h1, by omega, h3⟩
    | false => exact ⟨a + d, by omega, by omega, h, hb⟩

/-- C103: a wait returns with success only after a signal of another thread that took effect after the wait had said that it waits. -/
theorem C103_woken (ex : Exec prog u0 σ ε) {j u w : Nat} (h : Returns σ ε j u w) :
    ∃ k i t, k < i ∧ i < j ∧ t ≠ u ∧ Arms σ ε k u w ∧ Tells σ ε i t w := by
  obtain ⟨lim, f, n, h1, h2, h3⟩ := h
  obtain ⟨k, hk, harm, hin⟩ := armed ex (j := j) (u := u) (w := w) ⟨lim, f, .inl h1⟩
  have hj : (σ j).mem (wordA w) = up := by
    have hs := ex.next j
    rw [h2] at hs
    obtain ⟨-, -, -, h4⟩ := run_cases hs
    rw [h1] at h4
    simp only [reduceCtorEq, false_and, exists_false, or_false, false_or, Pc.wt.injEq, ne_eq, and_false, not_exists] at h4
    rcases h4 with ⟨-, -, -, h4⟩ | ⟨-, -, ⟨w1, lim1, k1, ⟨rfl, rfl, rfl⟩, h5, h6, h7⟩ | ⟨w1, lim1, k1, ⟨rfl, rfl, rfl⟩, h5, h6, h7⟩⟩
    · exact absurd ⟨rfl, rfl, rfl⟩ (h4 w lim f)
    · exact h6
    · rcases h7 with h7 | h7 <;> rw [h7] at h3 <;> simp at h3
  have hk1 : (σ (k + 1)).mem (wordA w) = waiting := by obtain ⟨_, _, _, _, -, -, -, h⟩ := harm; exact h
  obtain ⟨i, h4, h5, h6, h7⟩ := turns (f := fun m => decide ((σ m).mem (wordA w) = up)) (a := k + 1) (b := j) hk
    (by simp [hk1, waiting, up]) (by simpa using hj)
  simp only [decide_eq_true_eq, decide_eq_false_iff_not] at h6 h7
  obtain ⟨t, ht⟩ := tells ex h6 h7
  refine ⟨k, i, t, by omega, h5, ?_, harm, ht⟩
  rintro rfl
  obtain ⟨⟨b, v, h8⟩, -⟩ := ht
  obtain ⟨lim', f', h9⟩ := hin i (by omega) (by omega)
  rw [h8] at h9; simp at h9

/-- What no thread writes and nobody has under way stays as it is in memory. -/
theorem stays_mem (ex : Exec prog u0 σ ε) {i a : Nat} (hb : ∀ v x, (dataA a, x) ∉ (σ i).buf v) : ∀ m, i ≤ m →
    (∀ r, i ≤ r → r < m → ∀ v x, ¬ Writes prog σ ε r v a x) →
    (∀ v x, (dataA a, x) ∉ (σ m).buf v) ∧ (σ m).mem (dataA a) = (σ i).mem (dataA a) := by
  intro m hm
  obtain ⟨d, rfl⟩ := Nat.exists_eq_add_of_le hm
  clear hm
  induction d with
  | zero => intro _; exact ⟨hb, rfl⟩
  | succ d ih =>
    intro hw
    obtain ⟨h1, h2⟩ := ih fun r hr hr' => hw r hr (by omega)
    have hw' := hw (i + d) (by omega) (by omega)
    show (∀ v x, (dataA a, x) ∉ (σ (i + d + 1)).buf v) ∧ (σ (i + d + 1)).mem (dataA a) = _
    rcases ex.moment (i + d) with g | ⟨e, he, g⟩
    · rw [g]; exact ⟨h1, h2⟩
    · cases e with
      | flush u =>
        obtain ⟨-, x, b, h3, h4, h5, h6⟩ := flush_cases g
        refine ⟨fun v y hy => ?_, ?_⟩
        · by_cases hv : v = u
          · subst hv; rw [h5] at hy; exact h1 v y (by rw [h3]; exact List.mem_cons_of_mem _ hy)
          · rw [h6 v hv] at hy; exact h1 v y hy
        · rw [h4, put_other, h2]
          rintro he
          exact h1 u x.2 (by rw [h3, he]; exact List.mem_cons_self)
      | die u => rw [(die_cases g).2.1, (die_cases g).2.2]; exact ⟨h1, h2⟩
      | run u n =>
        obtain ⟨-, -, h3, h4⟩ := run_cases g
        have key : (∀ x, (dataA a, x) ∉ (σ (i + d + 1)).buf u) ∧ (σ (i + d + 1)).mem (dataA a) = (σ (i + d)).mem (dataA a) := by
          rcases h4 with ⟨h, h', -⟩ | ⟨a', x, v, v', h5, h6, h, h'⟩ | ⟨w, _, _, -, h, h'⟩ | ⟨-, h', h⟩
          · rw [h, h']; exact ⟨h1 u, rfl⟩
          · rw [h, h']
            refine ⟨fun y hy => ?_, rfl⟩
            rw [List.mem_append, List.mem_singleton] at hy
            rcases hy with hy | hy
            · exact h1 u y hy
            · have := data_inj (congrArg Prod.fst hy)
              subst this
              exact hw' u x ⟨n, v, v', he, h5, h6⟩
          · rw [h, h']
            refine ⟨fun y hy => ?_, rfl⟩
            rw [List.mem_append, List.mem_singleton] at hy
            rcases hy with hy | hy
            · exact h1 u y hy
            · exact word_data w a (congrArg Prod.fst hy).symm
          · rw [h']
            refine ⟨fun y hy => (by cases hy), ?_⟩
            rcases h with ⟨_, _, _, -, h⟩ | ⟨w', _, _, _, -, -, h, -⟩ | ⟨_, _, _, _, -, -, h, -⟩ | ⟨_, _, _, -, h, -⟩ | ⟨_, _, _, -, h, -⟩ |
              ⟨w', b, v, -, -, h⟩ | ⟨_, _, _, -, -, h⟩ <;> rw [h]
            · exact put_other _ _ fun e => word_data w' a e.symm
            · exact put_other _ _ fun e => word_data w' a e.symm
        refine ⟨fun v x hx => ?_, key.2.trans h2⟩
        by_cases hv : v = u
        · subst hv; exact key.1 x hx
        · rw [h3 v hv] at hx; exact h1 v x hx

/-- A signal is sent with nothing of the thread under way. -/
theorem tells_buf (ex : Exec prog u0 σ ε) {i t w : Nat} (h : Tells σ ε i t w) : (σ i).buf t = [] := by
  obtain ⟨⟨b, v, h1⟩, ⟨n, h2⟩, h3, h4⟩ := h
  have hs := ex.next i
  rw [h2] at hs
  obtain ⟨-, -, -, h5⟩ := run_cases hs
  rcases h5 with ⟨h, -⟩ | ⟨_, _, _, _, -, -, h, -⟩ | ⟨_, _, _, -, h, -⟩ | ⟨h, -⟩
  · rw [h] at h4; exact absurd h4 h3
  · rw [h] at h4; exact absurd h4 h3
  · rw [h] at h4; exact absurd h4 h3
  · exact h

/-- C103: what the thread that signals sees at that moment, everybody sees afterwards, as long as nobody writes it again and no write of
another thread to it was under way. -/
theorem C103_handed (ex : Exec prog u0 σ ε) {i t w : Nat} (h : Tells σ ε i t w) {a m : Nat} (hm : i ≤ m)
    (hw : ∀ r, i ≤ r → r < m → ∀ v x, ¬ Writes prog σ ε r v a x) (hb : ∀ v, v ≠ t → ∀ x, (dataA a, x) ∉ (σ i).buf v) (v : Nat) :
    sees (σ m) v a = sees (σ i) t a := by
  have h0 := tells_buf ex h
  obtain ⟨h1, h2⟩ := stays_mem ex (a := a) (i := i) (fun v x hx => by
    by_cases hv : v = t
    · subst hv; rw [h0] at hx; cases hx
    · exact hb v hv x hx) m hm hw
  unfold sees
  rw [view_other _ _ _ (h1 v), h0, h2]
  rfl

/-- A thread sees its own last write, as long as nobody else writes there. -/
theorem sees_own (ex : Exec prog u0 σ ε) {r t a x : Nat} (h : Writes prog σ ε r t a x) : ∀ m, r < m →
    (∀ q, r < q → q < m → ∀ v y, ¬ Writes prog σ ε q v a y) → (∀ q, q < m → ∀ v y, Writes prog σ ε q v a y → v = t) →
    sees (σ m) t a = x := by
  have hother : ∀ m, (∀ q, q < m → ∀ v y, Writes prog σ ε q v a y → v = t) → ∀ v, v ≠ t → ∀ y, (dataA a, y) ∉ (σ m).buf v := by
    intro m ho v hv y hy
    rcases bufs ex m v _ hy with ⟨w, hx⟩ | ⟨a', q, hq, ha, hwr⟩
    · exact word_data w a (congrArg Prod.fst hx).symm
    · have := data_inj ha; subst this
      exact hv (ho q hq v y hwr)
  intro m hm
  obtain ⟨d, rfl⟩ := Nat.exists_eq_add_of_le (Nat.succ_le_of_lt hm)
  clear hm
  induction d with
  | zero =>
    intro _ _
    obtain ⟨n, u, u', h1, h2, h3⟩ := h
    have hs := ex.next r
    rw [h1] at hs
    obtain ⟨-, -, -, h4⟩ := run_cases hs
    rw [h2] at h4
    simp only [reduceCtorEq, false_and, exists_false, or_false, false_or, and_false, Pc.usr.injEq] at h4
    rcases h4 with ⟨-, h4, -⟩ | ⟨a', x', u1, u2, rfl, h5, h6, h7⟩
    · exfalso
      simp only [step, h2, ccode, h3] at hs
      split at hs
      · cases hs
      · simp only [Option.some.injEq] at hs
        simp only [← hs, fput_same] at h4
        have := congrArg List.length h4
        simp at this
    · rw [h3] at h5
      obtain ⟨rfl, rfl, rfl⟩ := h5
      show sees (σ (r + 1)) t a = x
      unfold sees
      rw [h6, h7, view_append, put_same]
  | succ d ih =>
    intro hq ho
    have h0 := ih (fun q h1 h2 => hq q h1 (by omega)) fun q h1 => ho q (by omega)
    have hno := hq (r + 1 + d) (by omega) (by omega)
    have hoth := hother (r + 1 + d) fun q h1 => ho q (by omega)
    show sees (σ (r + 1 + d + 1)) t a = x
    rcases ex.moment (r + 1 + d) with g | ⟨e, he, g⟩
    · rw [g]; exact h0
    · rw [← h0]
      unfold sees
      cases e with
      | flush u =>
        obtain ⟨-, y, b, h3, h4, h5, h6⟩ := flush_cases g
        by_cases hu : u = t
        · subst hu; rw [h4, h5, h3]; rfl
        · rw [h4, h6 t (Ne.symm hu)]
          refine view_put _ _ _ _ _ fun e => hoth u hu y.2 ?_
          rw [h3, e]; exact List.mem_cons_self
      | die u => rw [(die_cases g).2.1, (die_cases g).2.2]
      | run u n =>
        obtain ⟨-, -, h3, h4⟩ := run_cases g
        have hmem : ∀ w v, put (σ (r + 1 + d)).mem (wordA w) v (dataA a) = (σ (r + 1 + d)).mem (dataA a) :=
          fun w v => put_other _ _ fun e => word_data w a e.symm
        by_cases hu : u = t
        · subst hu
          rcases h4 with ⟨h, h', -⟩ | ⟨a', y, v, v', h5, h6, h, h'⟩ | ⟨w, _, _, -, h, h'⟩ | ⟨h7, h', h⟩
          · rw [h, h']
          · rw [h, h', view_append, put_other]
            intro e
            have := data_inj e; subst this
            exact hno u y ⟨n, v, v', he, h5, h6⟩
          · rw [h, h', view_append, put_other]
            exact fun e => word_data w a e.symm
          · rw [h', h7]
            show (σ (r + 1 + d + 1)).mem (dataA a) = (σ (r + 1 + d)).mem (dataA a)
            rcases h with ⟨_, _, _, -, h⟩ | ⟨w', _, _, _, -, -, h, -⟩ | ⟨_, _, _, _, -, -, h, -⟩ | ⟨_, _, _, -, h, -⟩ | ⟨_, _, _, -, h, -⟩ |
              ⟨w', b, v, -, -, h⟩ | ⟨_, _, _, -, -, h⟩ <;> rw [h]
            · exact hmem _ _
            · exact hmem _ _
        · rw [h3 t (Ne.symm hu)]
          rcases h4 with ⟨h, -⟩ | ⟨_, _, _, _, -, -, h, -⟩ | ⟨_, _, _, -, h, -⟩ | ⟨-, -, h⟩
          · rw [h]
          · rw [h]
          · rw [h]
          · rcases h with ⟨_, _, _, -, h⟩ | ⟨w', _, _, _, -, -, h, -⟩ | ⟨_, _, _, _, -, -, h, -⟩ | ⟨_, _, _, -, h, -⟩ | ⟨_, _, _, -, h, -⟩ |
              ⟨w', b, v, -, -, h⟩ | ⟨_, _, _, -, -, h⟩ <;> rw [h]
            · exact view_put _ _ _ _ _ fun e => word_data w' a e.symm
            · exact view_put _ _ _ _ _ fun e => word_data w' a e.symm

/-- C103: messages. A thread writes `x` into `a`, then signals; nobody else ever writes `a`, and it is not written again. A wait that the
signal ends finds `x` in `a` afterwards. -/
theorem C103_message (ex : Exec prog u0 σ ε) {j u w : Nat} (h : Returns σ ε j u w) :
    ∃ k i t, k < i ∧ i < j ∧ t ≠ u ∧ Arms σ ε k u w ∧ Tells σ ε i t w ∧
      ∀ a x r m, r < i → j < m → Writes prog σ ε r t a x → (∀ q, r < q → q < m → ∀ v y, ¬ Writes prog σ ε q v a y) →
        (∀ q, q < r → ∀ v y, Writes prog σ ε q v a y → v = t) → sees (σ m) u a = x := by
  obtain ⟨k, i, t, h1, h2, h3, h4, h5⟩ := C103_woken ex h
  refine ⟨k, i, t, h1, h2, h3, h4, h5, fun a x r m hr hm hwr hno ho => ?_⟩
  have ho' : ∀ q, q < m → ∀ v y, Writes prog σ ε q v a y → v = t := by
    intro q hq v y hv
    rcases Nat.lt_trichotomy q r with h | rfl | h
    · exact ho q h v y hv
    · obtain ⟨n, _, _, e, -⟩ := hv
      obtain ⟨n', _, _, e', -⟩ := hwr
      rw [e] at e'
      simp only [Option.some.injEq, Ev.run.injEq] at e'
      exact e'.1
    · exact absurd hv (hno q h hq v y)
  rw [C103_handed ex h5 (a := a) (m := m) (by omega) (fun q h1 h2 => hno q (by omega) h2) (fun v hv y hy => ?_) u]
  · exact sees_own ex hwr i hr (fun q h1 h2 => hno q h1 (by omega)) fun q h1 => ho' q (by omega)
  · rcases bufs ex i v _ hy with ⟨w, hx⟩ | ⟨a', q, hq, ha, hwr'⟩
    · exact word_data w a (congrArg Prod.fst hx).symm
    · have := data_inj ha; subst this
      exact hv (ho' q (by omega) v y hwr')

/-- C103: a signal that found the record waiting does not return before the record is told. -/
theorem C103_told (ex : Exec prog u0 σ ε) {i t w n : Nat} {u : U} (h : (∃ b, (σ i).loc t = .sgC w b u) ∨ (σ i).loc t = .sgA w u)
    (he : ε i = some (.run t n)) :
    (∃ b, (σ (i + 1)).loc t = .sgC w b u) ∨ ((σ (i + 1)).loc t = .usr u ∧ (σ (i + 1)).mem (wordA w) = up) := by
  have hs := ex.next i
  rw [he] at hs
  simp only [step] at hs
  split at hs
  · cases hs
  · rcases h with ⟨b, h⟩ | h <;> simp only [h, ccode, Ins.cas] at hs
    · split at hs; rotate_left; cases hs
      simp only [Option.some.injEq] at hs
      rw [← hs]
      by_cases hb : (σ i).mem (wordA w) = b
      · right; simp [fput_same, put_same, hb]
      · left; exact ⟨(σ i).mem (wordA w), by simp [fput_same, hb]⟩
    · simp only [Option.some.injEq] at hs
      rw [← hs]; left; exact ⟨_, fput_same _ _ _⟩

/-- C103: a signal looks whether the record waits, and lets it be if it does not. -/
theorem C103_looks (ex : Exec prog u0 σ ε) {i t w n : Nat} {u : U} (h : (σ i).loc t = .isW w u) (he : ε i = some (.run t n)) :
    (σ (i + 1)).loc t = (if view (σ i).mem ((σ i).buf t) (wordA w) = waiting then .sgA w u else .usr u) ∧ (σ (i + 1)).mem = (σ i).mem := by
  have hs := ex.next i
  rw [he] at hs
  simp only [step] at hs
  split at hs
  · cases hs
  · simp only [h, ccode, Option.some.injEq] at hs
    rw [← hs]; exact ⟨fput_same _ _ _, rfl⟩

/-- C103: how a wait ends: with success when the record is told, and then at its next look; without success only if it has a time limit. -/
theorem C103_ends (ex : Exec prog u0 σ ε) {i u w n : Nat} {lim : Bool} {k : Bool → U} (he : ε i = some (.run u n)) :
    ((σ i).loc u = .wt w lim k → if (σ i).mem (wordA w) = up then (σ (i + 1)).loc u = .usr (k true)
      else (σ (i + 1)).loc u = if lim then .tm w lim k else .wt w lim k) ∧
    ((σ i).loc u = .tm w lim k → (σ (i + 1)).loc u = .wt w lim k ∨ (σ (i + 1)).loc u = .usr (k false)) ∧
    ((σ i).loc u = .tm w lim k → lim = true) := by
  have hs := ex.next i
  rw [he] at hs
  simp only [step] at hs
  split at hs
  · cases hs
  · refine ⟨fun h => ?_, fun h => ?_, fun h => ?_⟩
    · simp only [h, ccode, Ins.cas] at hs
      split at hs; rotate_left; cases hs
      simp only [Option.some.injEq] at hs
      rw [← hs]
      by_cases hb : (σ i).mem (wordA w) = up <;> simp [fput_same, hb]
    · simp only [h, ccode, Option.some.injEq] at hs
      rw [← hs]
      by_cases hn : n = 0 <;> simp [fput_same, hn]
    · have key : ∀ i, (σ i).loc u = .tm w lim k → lim = true := by
        intro i
        induction i with
        | zero => intro h; rw [ex.start] at h; cases h
        | succ i ih =>
          intro h
          rcases ex.moment i with g | ⟨e, -, g⟩
          · rw [g] at h; exact ih h
          · cases e with
            | flush v => rw [(flush_cases g).1] at h; exact ih h
            | die v => rw [(die_cases g).1] at h; exact ih h
            | run v m =>
              by_cases hv : u = v
              · subst hv
                simp only [step] at g
                split at g
                · cases g
                · cases hl : (σ i).loc u with
                  | usr x =>
                    simp only [hl, ccode] at g
                    cases hp : prog u x <;> simp only [hp, Option.some.injEq] at g <;> rw [← g] at h <;> simp [fput_same] at h
                  | wt w' lim' k' =>
                    simp only [hl, ccode, Ins.cas] at g
                    split at g; rotate_left; cases g
                    simp only [Option.some.injEq] at g
                    rw [← g] at h
                    simp only [fput_same] at h
                    split at h
                    · cases h
                    · split at h
                      · rename_i hx
                        simp only [Pc.tm.injEq] at h
                        rw [← h.2.1]; exact hx
                      · cases h
                  | rel w' lim' k' =>
                    simp only [hl, ccode] at g
                    split at g; rotate_left; cases g
                    simp only [Option.some.injEq] at g; rw [← g] at h; simp [fput_same] at h
                  | armC w' b lim' k' =>
                    simp only [hl, ccode, Ins.cas] at g
                    split at g; rotate_left; cases g
                    simp only [Option.some.injEq] at g; rw [← g] at h; simp only [fput_same] at h
                    split at h <;> cases h
                  | sgC w' b v =>
                    simp only [hl, ccode, Ins.cas] at g
                    split at g; rotate_left; cases g
                    simp only [Option.some.injEq] at g; rw [← g] at h; simp only [fput_same] at h
                    split at h <;> cases h
                  | isW w' v =>
                    simp only [hl, ccode, Option.some.injEq] at g; rw [← g] at h; simp only [fput_same] at h
                    split at h <;> cases h
                  | tm w' lim' k' =>
                    simp only [hl, ccode, Option.some.injEq] at g; rw [← g] at h; simp only [fput_same] at h
                    split at h <;> cases h
                  | ini w' lim' k' =>
                    simp only [hl, ccode, Option.some.injEq] at g; rw [← g] at h; simp [fput_same] at h
                  | armA w' lim' k' =>
                    simp only [hl, ccode, Option.some.injEq] at g; rw [← g] at h; simp [fput_same] at h
                  | sgA w' v =>
                    simp only [hl, ccode, Option.some.injEq] at g; rw [← g] at h; simp [fput_same] at h
              · rw [(run_cases g).1 u hv] at h; exact ih h
      exact key i h

/-! ### A case -/

/-- Thread 0 writes 7 and signals; thread 1 waits, with a time limit, and reads. -/
def prog103 (t u : Nat) : UIns Nat :=
  match t, u with
  | 0, 0 => .wr 0 7 1
  | 0, 1 => .signal 1 2
  | 1, 0 => .wait 1 true fun b => if b then 1 else 2
  | 1, 1 => .rd 0 fun v => 10 + v
  | _, u => .any fun _ => u

def evs103 : List Ev :=
  [.run 1 0, .run 1 0, .flush 1, .run 1 0, .run 1 0, .run 1 0, .run 1 0, .run 1 0, .run 0 0, .run 0 0, .run 0 0, .run 0 0, .flush 0, .run 0 0,
   .run 1 0, .run 1 0]

def st103 : Nat → St (Pc Nat)
  | 0 => cinit fun _ => 0
  | i + 1 =>
    match evs103[i]? with
    | none => st103 i
    | some e => (step (ccode prog103) (st103 i) e).getD (st103 i)

def ok103 (i : Nat) : Bool :=
  match evs103[i]? with
  | none => true
  | some e => (step (ccode prog103) (st103 i) e).isSome

def isWr103 (i : Nat) : Bool :=
  match evs103[i]? with
  | some (.run v _) =>
    match (st103 i).loc v with
    | .usr u =>
      match prog103 v u with
      | .wr _ _ _ => true
      | _ => false
    | _ => false
  | _ => false

theorem exec103 : Exec prog103 (fun _ => 0) st103 fun i => evs103[i]? := by
  have hok : (List.range 16).all ok103 = true := by decide +kernel
  refine ⟨rfl, fun i => ?_⟩
  cases he : evs103[i]? with
  | none => simp only [st103, he]
  | some e =>
    have hi : i < 16 := by
      have := List.getElem?_eq_some_iff.1 he
      exact this.1
    have := List.all_eq_true.1 hok i (List.mem_range.2 hi)
    simp only [ok103, he] at this
    obtain ⟨x, hx⟩ := Option.isSome_iff_exists.1 this
    simp only [st103, he, hx, Option.getD_some]

/-- The hypotheses of `C103_message` are met: the wait returns at moment 14, the message was written at moment 8, the signal was sent at
moment 13, when the message reached memory at moment 12. -/
theorem case103 : Returns st103 (fun i => evs103[i]?) 14 1 1 ∧ Arms st103 (fun i => evs103[i]?) 5 1 1 ∧
    Tells st103 (fun i => evs103[i]?) 13 0 1 ∧ Writes prog103 st103 (fun i => evs103[i]?) 8 0 0 7 ∧
    (∀ q, q ≠ 8 → ∀ v a y, ¬ Writes prog103 st103 (fun i => evs103[i]?) q v a y) ∧ (st103 9).mem (dataA 0) = 0 ∧
    (st103 16).loc 1 = .usr 17 := by
  refine ⟨⟨true, fun b => if b then 1 else 2, 0, rfl, rfl, rfl⟩, ⟨2, true, fun b => if b then 1 else 2, 0, rfl, rfl, rfl, rfl⟩,
    ⟨⟨2, 2, rfl⟩, ⟨0, rfl⟩, by decide +kernel, by decide +kernel⟩, ⟨0, 0, 1, rfl, rfl, rfl⟩, ?_, by decide +kernel, rfl⟩
  intro q hq v a y ⟨n, u, u', h1, h2, h3⟩
  have hall : (List.range 16).all (fun i => decide (i = 8) || !isWr103 i) = true := by decide +kernel
  have hi : q < 16 := (List.getElem?_eq_some_iff.1 h1).1
  have := List.all_eq_true.1 hall q (List.mem_range.2 hi)
  simp only [Bool.or_eq_true, decide_eq_true_eq, Bool.not_eq_true'] at this
  rcases this with h | h
  · exact hq h
  · simp only [isWr103, h1, h2, h3] at h; cases h

example : sees (st103 15) 1 0 = 7 := by
  obtain ⟨h1, h2, h3, h4, h5, -⟩ := case103
  obtain ⟨k, i, t, hk, hi, ht, hA, hT, hm⟩ := C103_message exec103 h1
  have hT' := hT
  obtain ⟨⟨b, v, g1⟩, ⟨n, g2⟩, -⟩ := hT'
  have hex : (List.range 14).all (fun i => match evs103[i]? with
      | some (.run t _) => (match (st103 i).loc t with | .sgC _ _ _ => decide (t = 0 ∧ i = 13) | _ => true)
      | _ => true) = true := by decide +kernel
  have := List.all_eq_true.1 hex i (List.mem_range.2 hi)
  simp only [g2, g1, decide_eq_true_eq] at this
  obtain ⟨rfl, rfl⟩ := this
  exact hm 0 7 8 15 (by omega) (by omega) h4 (fun q h6 _ v y => h5 q (by omega) v 0 y) fun q h6 v y hw => absurd hw (h5 q (by omega) v 0 y)

/-- The hypotheses of `C103_told`, `C103_looks` and `C103_ends` are met. -/
example : (st103 10).loc 0 = .isW 1 2 ∧ (st103 11).loc 0 = .sgA 1 2 ∧ (st103 13).loc 0 = .sgC 1 2 2 ∧
    (∃ k, (st103 6).loc 1 = .wt 1 true k) ∧ (∃ k, (st103 7).loc 1 = .tm 1 true k) :=
  ⟨rfl, rfl, rfl, ⟨_, rfl⟩, ⟨_, rfl⟩⟩

end Fullock.Props.TsoCond
