import Verif.Spec.DbgConc
/-! Invariant of the debug log under the rules of the user (C105). -/
namespace Fullock.Proofs.DbgConc
open Fullock.DbgConc Fullock.Spec.DbgConc

@[grind =] theorem upd_app {α : Type} (f : Nat → α) (t u : Nat) (v : α) : upd f t v u = if u = t then v else f u := rfl

attribute [grind] Changing

/-- What is known at a place. -/
@[grind] def At (s : State) (t : Nat) : Pc → Prop
  | .idle | .tst | .wrErr => True
  | .ld => s.fp ≠ none
  | .wr h => h ≠ none ∧ s.fp = h
  | .uTst _ => s.fp = none ∨ ∀ u, u ≠ t → s.pc u = .idle
  | .uLd _ => s.fp ≠ none ∧ ∀ u, u ≠ t → s.pc u = .idle
  | .uCls _ h => h ≠ none ∧ s.fp = h ∧ ∀ u, u ≠ t → s.pc u = .idle
  | .uNull _ => s.fp ≠ none ∧ (∀ a, s.live a = false) ∧ ∀ u, u ≠ t → s.pc u = .idle
  | .opn => s.fp = none ∧ ∀ a, s.live a = false
  | .sto h => s.fp = none ∧ ∀ a, s.live a = true ↔ a = h

structure Inv (s : State) : Prop where
  ok : s.bad = false
  at_ : ∀ t, At s t (s.pc t)
  one : ∀ t u, Changing (s.pc t) → Changing (s.pc u) → t = u
  /-- the log is the only open stream, except between closing and forgetting it, and between opening and storing it -/
  log : (∀ t k, s.pc t ≠ .uNull k) → (∀ t h, s.pc t ≠ .sto h) → ∀ a, s.live a = true ↔ s.fp = some a
  fresh : ∀ a, s.live a = true → a < s.next

theorem inv_init : Inv init := by
  constructor <;> simp [init, At, Changing]

theorem at_goto {s : State} (h : Inv s) {t : Nat} {p : Pc} (hp : At s t p) (hc : Changing p → Changing (s.pc t) ∨ ((∀ u, ¬ Changing (s.pc u))))
    (hi : p ≠ .idle → s.pc t ≠ .idle ∨ s.fp = none ∨ ∀ u, ¬ Changing (s.pc u))
    (hn : ∀ k, p ≠ .uNull k) (hs : ∀ h, p ≠ .sto h) (hn' : ∀ k, s.pc t ≠ .uNull k) (hs' : ∀ h, s.pc t ≠ .sto h) : Inv (s.goto t p) := by
  obtain ⟨h1, h2, h3, h4, h5⟩ := h
  refine ⟨h1, ?_, ?_, ?_, h5⟩
  · intro u
    have := h2 u
    have := h2 t
    simp only [State.goto, upd_app]
    by_cases hu : u = t
    · subst hu; simp only [if_true]; cases p <;> grind
    · simp only [hu, if_false]; cases hpu : s.pc u <;> grind
  · intro u v; simp only [State.goto, upd_app]; grind
  · intro ha hb a; simp only [State.goto, upd_app] at *; apply h4 <;> grind

/-- Mode, answers and the record of the messages do not matter. -/
theorem inv_congr {s s' : State} (h : Inv s) (h1 : s'.fp = s.fp) (h2 : s'.live = s.live) (h3 : s'.next = s.next) (h4 : s'.pc = s.pc)
    (h5 : s'.bad = s.bad) : Inv s' := by
  obtain ⟨fp, live, next, pc, bad⟩ := h
  refine ⟨by rw [h5]; exact fp, ?_, by rw [h4]; exact next, by rw [h4, h2, h1]; exact pc, by rw [h2, h3]; exact bad⟩
  intro t; have := live t; rw [h4]
  cases hp : s.pc t <;> simp only [hp, At, h1, h2, h4] at this ⊢ <;> exact this

theorem inv_say {s : State} (h : Inv s) (t : Nat) (l : DbgMode) (hc : s.pc t = .idle ∨ s.pc t = .opn)
    (hi : s.fp = none ∨ ∀ u, ¬ Changing (s.pc u)) : Inv (s.say t l) := by
  unfold State.say
  split <;> apply at_goto h <;> grind

theorem inv_back {s : State} (h : Inv s) {t : Nat} (hn' : ∀ k, s.pc t ≠ .uNull k) (hs' : ∀ h, s.pc t ≠ .sto h) (r : Bool) :
    Inv (s.back t r) :=
  inv_congr (at_goto h (p := .idle) (t := t) trivial (fun h => h.elim) (fun h => absurd rfl h) (by simp) (by simp) hn' hs')
    rfl rfl rfl rfl rfl

theorem inv_step1 {s s' : State} (h : Inv s) {t : Nat} {ok once : Bool} (hs : step1 s t ok once = some s') : Inv s' := by
  have ht := h.at_ t
  unfold step1 at hs
  cases hp : s.pc t with
  | idle => rw [hp] at hs; cases hs
  | tst =>
    rw [hp] at hs
    simp only [Option.some.injEq] at hs
    subst hs
    split
    · apply at_goto h <;> grind
    · split <;> apply at_goto h <;> grind
  | ld =>
    rw [hp] at hs ht
    simp only [Option.some.injEq] at hs
    subst hs
    apply at_goto h <;> grind
  | wr x =>
    rw [hp] at hs ht
    simp only [Option.some.injEq] at hs
    subst hs
    have hu : s.usable x = true := by
      obtain ⟨h1, h2⟩ := ht
      cases x with
      | none => exact absurd rfl h1
      | some a =>
        refine (h.log ?_ ?_ a).mpr h2
        · intro u k hk
          have := h.at_ u
          have := h.at_ t
          grind
        · intro u k hk
          have := h.at_ u
          have := h.at_ t
          grind
    refine inv_congr (at_goto h (t := t) (p := .idle) trivial ?_ ?_ ?_ ?_ ?_ ?_) rfl rfl rfl rfl (by simp [State.goto, hu]) <;> grind
  | wrErr =>
    rw [hp] at hs
    simp only [Option.some.injEq] at hs
    subst hs
    refine inv_congr (at_goto h (t := t) (p := .idle) trivial ?_ ?_ ?_ ?_ ?_ ?_) rfl rfl rfl rfl rfl <;> grind
  | uTst k =>
    rw [hp] at hs ht
    simp only [Option.some.injEq] at hs
    subst hs
    cases hf : s.fp with
    | some a =>
      simp only [Option.isSome_some, if_true]
      apply at_goto h <;> grind
    | none =>
      simp only [Option.isSome_none, Bool.false_eq_true, if_false, State.unset]
      split
      · have hl : ∀ a, s.live a = false := by
          intro a
          have := h.log (fun u k' hk => by have := h.one u t; grind) (fun u k' hk => by have := h.one u t; grind) a
          rw [hf] at this
          cases hla : s.live a
          · rfl
          · rw [hla] at this; simp at this
        apply at_goto h <;> grind
      · apply inv_back h <;> grind
  | uLd k =>
    rw [hp] at hs ht
    simp only [Option.some.injEq] at hs
    subst hs
    apply at_goto h <;> grind
  | uCls k x =>
    rw [hp] at hs ht
    simp only [Option.some.injEq] at hs
    subst hs
    obtain ⟨h1, h2, h3⟩ := ht
    cases x with
    | none => exact absurd rfl h1
    | some a =>
      have hlog := h.log (fun u k' hk => by have := h3 u; grind) (fun u k' hk => by have := h3 u; grind)
      have hla : s.live a = true := (hlog a).mpr h2
      have h4 : ∀ b, upd s.live a false b = false := by
        intro b; simp only [upd_app]; split
        · rfl
        · rename_i hb
          have := hlog b
          rw [h2] at this
          cases hl : s.live b
          · rfl
          · rw [hl] at this; simp at this; exact absurd this.symm hb
      refine ⟨by simp [State.goto, State.usable, hla, h.ok], ?_, ?_, ?_, ?_⟩
      · intro u
        simp only [State.goto, upd_app]
        by_cases hu : u = t
        · subst hu
          simp only [if_true]
          refine ⟨by simp [h2], h4, fun v hv => by simp [upd_app, hv, h3 v hv]⟩
        · simp only [hu, if_false, h3 u hu]; trivial
      · intro u v; simp only [State.goto, upd_app]; have := h3 u; have := h3 v; grind
      · intro hn; exact absurd (by simp [State.goto, upd_app]) (hn t k)
      · intro b hb; simp only [State.goto] at hb; rw [h4 b] at hb; cases hb
  | uNull k =>
    rw [hp] at hs ht
    simp only [Option.some.injEq] at hs
    subst hs
    obtain ⟨h1, h2, h3⟩ := ht
    have h0 : ∀ p r, p = .idle ∨ p = .opn → Inv { s with fp := none, pc := upd s.pc t p, ret := r } := by
      intro p r hpp
      refine ⟨h.ok, ?_, ?_, ?_, fun a ha => by rw [h2 a] at ha; cases ha⟩
      · intro u
        simp only [upd_app]
        by_cases hu : u = t
        · subst hu; simp only [if_true]; rcases hpp with rfl | rfl
          · trivial
          · exact ⟨rfl, h2⟩
        · simp only [hu, if_false, h3 u hu]; trivial
      · intro u v; simp only [upd_app]; have := h3 u; have := h3 v; grind
      · intro _ _ a; simp [h2 a]
    cases k
    · exact h0 .idle _ (.inl rfl)
    · exact h0 .opn _ (.inr rfl)
  | opn =>
    rw [hp] at hs ht
    simp only [Option.some.injEq] at hs
    subst hs
    obtain ⟨h1, h2⟩ := ht
    cases ok
    · simp only [Bool.false_eq_true, if_false]
      have hb : Inv (s.back t false) := by apply inv_back h <;> grind
      exact inv_say hb t _ (.inl (by simp [State.back, upd_app])) (.inl h1)
    · simp only [if_true]
      have h4 : ∀ b, upd s.live s.next true b = true ↔ b = s.next := by
        intro b; simp only [upd_app]; split
        · simp_all
        · simp_all
      have hone : ∀ u, u ≠ t → ¬ Changing (s.pc u) := by
        intro u hu hc; exact hu (h.one u t hc (by rw [hp]; trivial))
      refine ⟨h.ok, ?_, ?_, ?_, ?_⟩
      · intro u
        have := h.at_ u
        simp only [State.goto, upd_app]
        by_cases hu : u = t
        · subst hu; simp only [if_true]; exact ⟨h1, h4⟩
        · simp only [hu, if_false]
          have := hone u hu
          cases hpu : s.pc u <;> grind
      · intro u v; simp only [State.goto, upd_app]; have := hone u; have := hone v; grind
      · intro _ hn; exact absurd (by simp [State.goto, upd_app]) (hn t s.next)
      · intro b hb; have := (h4 b).mp hb; simp only [State.goto]; omega
  | sto x =>
    rw [hp] at hs ht
    simp only [Option.some.injEq] at hs
    subst hs
    obtain ⟨h1, h2⟩ := ht
    have hone : ∀ u, u ≠ t → ¬ Changing (s.pc u) := by
      intro u hu hc; exact hu (h.one u t hc (by rw [hp]; trivial))
    refine ⟨h.ok, ?_, ?_, ?_, h.fresh⟩
    · intro u
      have := h.at_ u
      simp only [State.back, upd_app]
      by_cases hu : u = t
      · subst hu; simp only [if_true]; trivial
      · simp only [hu, if_false]
        have := hone u hu
        cases hpu : s.pc u <;> grind
    · intro u v; simp only [State.back, upd_app]; have := hone u; have := hone v; grind
    · intro _ _ a; simp only [State.back]; rw [h2 a]; simp [eq_comm]

theorem inv_step {s s' : State} (h : Inv s) {e : Ev} (hp : Polite s e) (hs : step s e = some s') : Inv s' := by
  cases e with
  | mode m => cases hs; exact inv_congr h rfl rfl rfl rfl rfl
  | print t l =>
    simp only [step] at hs
    split at hs
    · cases hs; rename_i hi; exact inv_say h t l (.inl hi) hp
    · cases hs
  | set t p =>
    simp only [step] at hs
    split at hs
    · rename_i hi
      simp only [Option.some.injEq] at hs
      subst hs
      split
      · have hb : Inv (s.back t false) := by apply inv_back h <;> grind
        refine inv_say hb t _ (.inl (by simp [State.back, upd_app])) (.inr fun u => ?_)
        simp only [State.back, upd_app]; have := hp.1 u; grind
      · obtain ⟨p1, p2⟩ := hp
        apply at_goto h <;> grind
    · cases hs
  | unset t =>
    simp only [step] at hs
    split at hs
    · rename_i hi
      simp only [Option.some.injEq] at hs
      subst hs
      obtain ⟨p1, p2⟩ := hp
      apply at_goto h <;> grind
    · cases hs
  | run t ok once => exact inv_step1 h hs

theorem inv_good {s : State} (h : Good s) : Inv s := by
  induction h with
  | init => exact inv_init
  | step _ hp hs ih => exact inv_step ih hp hs

end Fullock.Proofs.DbgConc
