import Verif.Spec.Attach
/-! Invariant of the threads of a process that start the library one at a time. -/
namespace Fullock.Proofs.Attach
open Fullock.Attach Fullock.Spec.Attach

@[grind] def pcCall : Pc → Option Call
  | .idle => none
  | .chk c | .tst c | .opn c | .wl c _ | .rl c | .trunc c | .fill c | .mapF c | .headF c | .build c | .down c | .atc c | .mapA c
  | .headA c | .des c | .det c _ | .cls c _ | .use c | .op c _ => some c

structure Base (s : State) : Prop where
  bad : s.bad = false
  oth : s.others ≠ 0 → s.filled = true ∧ s.ready = true
  oo : s.oown = true ↔ s.held = some .other
  ho : s.held = some .other → s.others ≠ 0
  own : ∀ t, s.own t = true → s.held = some (.mine t)
  unl : ∀ t, pcCall (s.pc t) = some (.unlock true) → s.held = some (.mine t)
  mine : ∀ t, s.held = some (.mine t) → s.own t = true ∨ pcCall (s.pc t) = some (.unlock true)
  one : ∀ t o, pcCall (s.pc t) = some (.unlock o) → s.own t = false

def VOff (s : State) : Prop :=
  s.fd = false ∧ s.nfd = 0 ∧ s.base = none ∧ s.head = none ∧ s.maps = [] ∧ s.plock = .none

def VOn (s : State) (a : Nat) : Prop :=
  s.fd = true ∧ s.nfd = 1 ∧ s.base = some a ∧ s.head = some a ∧ s.maps = [a] ∧ s.plock = .read ∧ s.filled = true ∧ s.ready = true

@[grind] def offPc : Pc → Prop
  | .idle | .chk _ | .tst _ | .opn _ => True
  | _ => False

@[grind] def onPc (a : Nat) : Pc → Prop
  | .idle => True
  | .chk c => c ≠ .reinit
  | .use c => c ≠ .reinit
  | .op c b => c ≠ .reinit ∧ b = some a
  | _ => False

def Open (s : State) : Prop := s.fd = true ∧ s.nfd = 1
def Bare (s : State) : Prop := s.base = none ∧ s.head = none ∧ s.maps = []
def Full (s : State) (a : Nat) : Prop := s.base = some a ∧ s.head = some a ∧ s.maps = [a]

def midPc (s : State) : Pc → Prop
  | .des _ => VOff s ∨ ∃ a, VOn s a
  | .wl _ _ => Open s ∧ Bare s ∧ s.plock = .none
  | .rl _ => Open s ∧ Bare s ∧ s.plock = .none ∧ s.filled = true ∧ s.ready = true
  | .trunc _ | .fill _ => Open s ∧ Bare s ∧ s.plock = .write ∧ s.others = 0
  | .mapF _ => Open s ∧ Bare s ∧ s.plock = .write ∧ s.filled = true ∧ s.others = 0
  | .headF _ => Open s ∧ s.plock = .write ∧ s.filled = true ∧ s.others = 0 ∧ s.head = none ∧ ∃ a, s.base = some a ∧ s.maps = [a]
  | .build _ => Open s ∧ s.plock = .write ∧ s.filled = true ∧ s.others = 0 ∧ ∃ a, Full s a
  | .down _ => Open s ∧ s.plock = .write ∧ s.filled = true ∧ s.ready = true ∧ s.others = 0 ∧ ∃ a, Full s a
  | .atc _ | .mapA _ => Open s ∧ Bare s ∧ s.plock = .read ∧ s.filled = true ∧ s.ready = true
  | .headA _ => Open s ∧ s.plock = .read ∧ s.filled = true ∧ s.ready = true ∧ s.head = none ∧ ∃ a, s.base = some a ∧ s.maps = [a]
  | .det _ _ => (s.plock = .read → s.filled = true ∧ s.ready = true) ∧ Open s ∧ (Bare s ∨ s.filled = true ∧ ∃ a, Full s a)
  | .cls _ _ => (s.plock = .read → s.filled = true ∧ s.ready = true) ∧ Open s ∧ Bare s
  | _ => False

def NoMine (s : State) : Prop := ∀ t, s.held ≠ some (.mine t)

inductive Phase (s : State) : Prop
  | off : VOff s → NoMine s → (∀ t, offPc (s.pc t)) → Phase s
  | on (a : Nat) : VOn s a → (∀ t, onPc a (s.pc t)) → Phase s
  | mid (t : Nat) : NoMine s → (∀ u, u ≠ t → s.pc u = .idle) → midPc s (s.pc t) → Phase s

structure Inv (s : State) : Prop where
  b : Base s
  ph : Phase s

@[grind =] theorem upd_same {α : Type} (f : Nat → α) (t : Nat) (v : α) : upd f t v t = v := by simp [upd]
@[grind =] theorem upd_app {α : Type} (f : Nat → α) (t u : Nat) (v : α) : upd f t v u = if u = t then v else f u := rfl

theorem inv_init : Inv init :=
  ⟨⟨rfl, by simp [init], by simp [init], by simp [init], by simp [init], by simp [init, pcCall], by simp [init],
    by simp [init, pcCall]⟩, .off ⟨rfl, rfl, rfl, rfl, rfl, rfl⟩ (by simp [NoMine, init]) (by simp [init, offPc])⟩

/-- Pieces of the state that a step of a call in the middle of a start does not touch. -/
theorem Base.move {s : State} (hb : Base s) (hn : NoMine s) {s' : State} (t : Nat) {p : Pc}
    (hpc : s'.pc = upd s.pc t p) (hc : p = .idle ∨ pcCall p = pcCall (s.pc t)) (hbad : s'.bad = false)
    (hoth : s'.others = s.others) (hf : s'.others ≠ 0 → s'.filled = true ∧ s'.ready = true)
    (hh : s'.held = s.held ∨ s.others = 0 ∧ s'.held = none) (how : s'.own = s.own) (hoo : s'.oown = s.oown) :
    Base s' ∧ NoMine s' := by
  have hnm : NoMine s' := by
    intro u; rcases hh with h | ⟨-, h⟩ <;> rw [h]
    · exact hn u
    · simp
  have hown : ∀ u, s.own u = false := by
    intro u; cases h : s.own u with
    | false => rfl
    | true => exact absurd (hb.own u h) (hn u)
  have hcall : ∀ u, pcCall (s'.pc u) ≠ some (.unlock true) := by
    intro u hu
    rw [hpc, upd_app] at hu
    split at hu
    · rcases hc with rfl | hc
      · cases hu
      · rw [hc] at hu; exact hn _ (hb.unl _ hu)
    · exact hn _ (hb.unl _ hu)
  refine ⟨⟨hbad, hf, ?_, ?_, ?_, fun u hu => absurd hu (hcall u), fun u hu => absurd hu (hnm u),
    fun u _ _ => by rw [how]; exact hown u⟩, hnm⟩
  · have h1 := hb.oo; have h2 := hb.ho; rw [hoo]; rcases hh with h | ⟨h0, h⟩ <;> rw [h]
    · exact h1
    · constructor
      · intro h; exact absurd h0 (h2 (h1.1 h))
      · intro h; cases h
  · intro h; rw [hoth]; rcases hh with h' | ⟨h0, h'⟩ <;> rw [h'] at h
    · exact hb.ho h
    · cases h
  · intro u hu; rw [how, hown u] at hu; cases hu

theorem inv_mid {s : State} (t : Nat) (h : Base s ∧ NoMine s) (hi : ∀ u, u ≠ t → s.pc u = .idle) (hm : midPc s (s.pc t)) : Inv s :=
  ⟨h.1, .mid t h.2 hi hm⟩

theorem others_idle {s : State} {t : Nat} {p : Pc} (hi : ∀ u, u ≠ t → s.pc u = .idle) : ∀ u, u ≠ t → upd s.pc t p u = .idle := by
  intro u hu; rw [upd_app, if_neg hu]; exact hi u hu

theorem on_idle {s : State} {t a : Nat} {p : Pc} (hi : ∀ u, u ≠ t → s.pc u = .idle) (hp : onPc a p) : ∀ u, onPc a (upd s.pc t p u) := by
  intro u; rw [upd_app]; split
  · exact hp
  · rename_i hu; rw [hi u hu]; trivial

theorem off_idle {s : State} {t : Nat} {p : Pc} (hi : ∀ u, u ≠ t → s.pc u = .idle) (hp : offPc p) : ∀ u, offPc (upd s.pc t p u) := by
  intro u; rw [upd_app]; split
  · exact hp
  · rename_i hu; rw [hi u hu]; trivial

/-- A start that succeeds. -/
theorem inv_started {s s1 : State} {t a : Nat} {c : Call} (hb : Base s) (hn : NoMine s) (hi : ∀ u, u ≠ t → s.pc u = .idle)
    (hpc : pcCall (s.pc t) = some c) (h1 : s1.pc = s.pc) (h2 : s1.bad = s.bad) (h3 : s1.others = s.others) (h4 : s1.held = s.held)
    (h5 : s1.own = s.own) (h6 : s1.oown = s.oown) (hv : VOn s1 a) : Inv (started s1 t c) := by
  have hb' := hb.bad
  have hf : s1.filled = true ∧ s1.ready = true := by obtain ⟨-, -, -, -, -, -, h, h'⟩ := hv; exact ⟨h, h'⟩
  cases c with
  | lock =>
    have := hb.move hn (s' := s1.goto t (.use .lock)) t (p := .use .lock) (by simp [State.goto, h1]) (.inr (by rw [hpc]; rfl))
      (by simp [State.goto, h2, hb']) h3 (fun _ => hf) (.inl h4) h5 h6
    exact ⟨this.1, .on a hv (by intro u; show onPc a (upd s1.pc t _ u); rw [h1]; exact on_idle hi (by simp [onPc]) u)⟩
  | unlock o =>
    have := hb.move hn (s' := s1.goto t (.use (.unlock o))) t (p := .use (.unlock o)) (by simp [State.goto, h1]) (.inr (by rw [hpc]; rfl))
      (by simp [State.goto, h2, hb']) h3 (fun _ => hf) (.inl h4) h5 h6
    exact ⟨this.1, .on a hv (by intro u; show onPc a (upd s1.pc t _ u); rw [h1]; exact on_idle hi (by simp [onPc]) u)⟩
  | reinit =>
    have := hb.move hn (s' := s1.back t .ok) t (p := .idle) (by simp [State.back, h1]) (.inl rfl)
      (by simp [State.back, h2, hb']) h3 (fun _ => hf) (.inl h4) h5 h6
    exact ⟨this.1, .on a hv (by intro u; show onPc a (upd s1.pc t _ u); rw [h1]; exact on_idle hi (by simp [onPc]) u)⟩

theorem mid_step {s s' : State} {t : Nat} {ok cr : Bool} (hb : Base s) (hn : NoMine s) (hi : ∀ u, u ≠ t → s.pc u = .idle)
    (hm : midPc s (s.pc t)) (h : step1 s t ok cr = some s') : Inv s' := by
  have hbad := hb.bad
  have hoth := hb.oth
  cases hp : s.pc t with
  | idle => simp [hp, midPc] at hm
  | chk c => simp [hp, midPc] at hm
  | tst c => simp [hp, midPc] at hm
  | opn c => simp [hp, midPc] at hm
  | use c => simp [hp, midPc] at hm
  | op c a => simp [hp, midPc] at hm
  | des c =>
    simp only [hp, midPc] at hm
    simp only [step1, hp, Option.some.injEq] at h
    rcases hm with hv | ⟨a, hv⟩
    · obtain ⟨hfd, hr⟩ := hv
      simp only [hfd, Bool.false_eq_true, if_false] at h
      subst h
      have := hb.move hn (s' := s.goto t (.tst c)) t rfl (.inr (by rw [hp]; rfl)) hbad rfl hoth (.inl rfl) rfl rfl
      exact ⟨this.1, .off ⟨hfd, hr⟩ this.2 (off_idle hi trivial)⟩
    · obtain ⟨hfd, hnf, h1, h2, h3, h4, h5, h6⟩ := hv
      simp only [hfd, if_true] at h
      subst h
      refine inv_mid t (hb.move hn t rfl (.inr (by rw [hp]; rfl)) hbad rfl hoth (.inl rfl) rfl rfl) (others_idle hi) ?_
      simp only [State.goto, upd_same, midPc]
      exact ⟨fun _ => ⟨h5, h6⟩, ⟨hfd, hnf⟩, .inr ⟨h5, a, h1, h2, h3⟩⟩
  | wl c cr' =>
    simp only [hp, midPc] at hm
    obtain ⟨ho, hba, hl⟩ := hm
    simp only [step1, hp, Option.some.injEq] at h
    split at h
    · subst h
      refine inv_mid t (hb.move hn t rfl (.inr (by rw [hp]; rfl)) hbad rfl hoth (.inl rfl) rfl rfl) (others_idle hi) ?_
      simp only [State.goto, upd_same, midPc]
      exact ⟨ho, hba, by trivial, by assumption⟩
    · rename_i h0
      split at h
      · subst h
        refine inv_mid t (hb.move hn t rfl (.inr (by rw [hp]; rfl)) hbad rfl hoth (.inl rfl) rfl rfl) (others_idle hi) ?_
        simp only [State.goto, upd_same, midPc]
        exact ⟨(fun h => by rw [hl] at h; cases h), ho, hba⟩
      · subst h
        refine inv_mid t (hb.move hn t rfl (.inr (by rw [hp]; rfl)) hbad rfl hoth (.inl rfl) rfl rfl) (others_idle hi) ?_
        simp only [State.goto, upd_same, midPc]
        exact ⟨ho, hba, hl, (hoth h0).1, (hoth h0).2⟩
  | rl c =>
    simp only [hp, midPc] at hm
    obtain ⟨ho, hba, hl, hf, hr⟩ := hm
    simp only [step1, hp, Option.some.injEq] at h
    subst h
    refine inv_mid t (hb.move hn t rfl (.inr (by rw [hp]; rfl)) hbad rfl hoth (.inl rfl) rfl rfl) (others_idle hi) ?_
    simp only [State.goto, upd_same, midPc]
    exact ⟨ho, hba, by trivial, hf, hr⟩
  | trunc c =>
    simp only [hp, midPc] at hm
    obtain ⟨ho, hba, hl, h0⟩ := hm
    simp only [step1, hp, Option.some.injEq] at h
    split at h <;> subst h
    · refine inv_mid t (hb.move hn t rfl (.inr (by rw [hp]; rfl)) hbad rfl (fun h => absurd h0 h) (.inr ⟨h0, rfl⟩) rfl rfl) (others_idle hi) ?_
      simp only [State.goto, upd_same, midPc]
      exact ⟨ho, hba, hl, h0⟩
    · refine inv_mid t (hb.move hn t rfl (.inr (by rw [hp]; rfl)) hbad rfl hoth (.inl rfl) rfl rfl) (others_idle hi) ?_
      simp only [State.goto, upd_same, midPc]
      exact ⟨(fun h => by rw [hl] at h; cases h), ho, .inl hba⟩
  | fill c =>
    simp only [hp, midPc] at hm
    obtain ⟨ho, hba, hl, h0⟩ := hm
    simp only [step1, hp, Option.some.injEq] at h
    split at h <;> subst h
    · refine inv_mid t (hb.move hn t rfl (.inr (by rw [hp]; rfl)) hbad rfl (fun h => absurd h0 h) (.inr ⟨h0, rfl⟩) rfl rfl) (others_idle hi) ?_
      simp only [State.goto, upd_same, midPc]
      exact ⟨ho, hba, hl, by trivial, h0⟩
    · refine inv_mid t (hb.move hn t rfl (.inr (by rw [hp]; rfl)) hbad rfl hoth (.inl rfl) rfl rfl) (others_idle hi) ?_
      simp only [State.goto, upd_same, midPc]
      exact ⟨(fun h => by rw [hl] at h; cases h), ho, .inl hba⟩
  | mapF c =>
    simp only [hp, midPc] at hm
    obtain ⟨ho, ⟨hb1, hb2, hb3⟩, hl, hf, h0⟩ := hm
    simp only [step1, hp, Option.some.injEq] at h
    split at h <;> subst h
    · refine inv_mid t (hb.move hn t rfl (.inr (by rw [hp]; rfl)) hbad rfl hoth (.inl rfl) rfl rfl) (others_idle hi) ?_
      simp only [State.goto, upd_same, midPc]
      exact ⟨ho, hl, hf, h0, hb2, s.next, rfl, by rw [hb3]⟩
    · refine inv_mid t (hb.move hn t rfl (.inr (by rw [hp]; rfl)) hbad rfl hoth (.inl rfl) rfl rfl) (others_idle hi) ?_
      simp only [State.goto, upd_same, midPc]
      exact ⟨(fun h => by rw [hl] at h; cases h), ho, .inl ⟨rfl, hb2, hb3⟩⟩
  | headF c =>
    simp only [hp, midPc] at hm
    obtain ⟨ho, hl, hf, h0, hh, a, ha, hma⟩ := hm
    simp only [step1, hp, Option.some.injEq] at h
    subst h
    refine inv_mid t (hb.move hn t rfl (.inr (by rw [hp]; rfl)) hbad rfl hoth (.inl rfl) rfl rfl) (others_idle hi) ?_
    simp only [State.goto, upd_same, midPc]
    exact ⟨ho, hl, hf, h0, a, ha, ha, hma⟩
  | build c =>
    simp only [hp, midPc] at hm
    obtain ⟨ho, hl, hf, h0, a, ha, hh, hma⟩ := hm
    simp only [step1, hp, Option.some.injEq] at h
    split at h
    · rename_i hx; rw [hh] at hx; cases hx
    rename_i b hx
    obtain rfl : a = b := by rw [hh] at hx; exact Option.some.inj hx
    rw [if_pos ⟨by rw [hma]; simp, hf⟩] at h
    split at h <;> subst h
    · refine inv_mid t (hb.move hn t rfl (.inr (by rw [hp]; rfl)) hbad rfl (fun h => absurd h0 h) (.inr ⟨h0, rfl⟩) rfl rfl) (others_idle hi) ?_
      simp only [State.goto, upd_same, midPc]
      exact ⟨ho, hl, hf, by trivial, h0, a, ha, hh, hma⟩
    · refine inv_mid t (hb.move hn t rfl (.inr (by rw [hp]; rfl)) hbad rfl hoth (.inl rfl) rfl rfl) (others_idle hi) ?_
      simp only [State.goto, State.unmap, upd_same, midPc]
      exact ⟨(fun h => by rw [hl] at h; cases h), ho, .inl ⟨rfl, rfl, by simp [ha, hma]⟩⟩
  | down c =>
    simp only [hp, midPc] at hm
    obtain ⟨ho, hl, hf, hr, h0, a, ha, hh, hma⟩ := hm
    simp only [step1, hp, Option.some.injEq] at h
    split at h <;> subst h
    · exact inv_started hb hn hi (by rw [hp]; rfl) rfl rfl rfl rfl rfl rfl ⟨ho.1, ho.2, ha, hh, hma, rfl, hf, hr⟩
    · refine inv_mid t (hb.move hn t rfl (.inr (by rw [hp]; rfl)) hbad rfl hoth (.inl rfl) rfl rfl) (others_idle hi) ?_
      simp only [State.goto, upd_same, midPc]
      exact ⟨(fun h => by rw [hl] at h; cases h), ho, .inr ⟨hf, a, ha, hh, hma⟩⟩
  | atc c =>
    simp only [hp, midPc] at hm
    obtain ⟨ho, hba, hl, hf, hr⟩ := hm
    simp only [step1, hp, Option.some.injEq, hba.1, Option.isSome_none, Bool.false_eq_true, if_false] at h
    subst h
    refine inv_mid t (hb.move hn t rfl (.inr (by rw [hp]; rfl)) hbad rfl hoth (.inl rfl) rfl rfl) (others_idle hi) ?_
    simp only [State.goto, upd_same, midPc]
    exact ⟨ho, hba, hl, hf, hr⟩
  | mapA c =>
    simp only [hp, midPc] at hm
    obtain ⟨ho, hba, hl, hf, hr⟩ := hm
    simp only [step1, hp, Option.some.injEq] at h
    rw [if_pos ⟨hf, hr⟩] at h
    split at h <;> subst h
    · refine inv_mid t (hb.move hn t rfl (.inr (by rw [hp]; rfl)) hbad rfl hoth (.inl rfl) rfl rfl) (others_idle hi) ?_
      simp only [State.goto, upd_same, midPc]
      exact ⟨ho, hl, hf, hr, hba.2.1, s.next, rfl, by rw [hba.2.2]⟩
    · refine inv_mid t (hb.move hn t rfl (.inr (by rw [hp]; rfl)) hbad rfl hoth (.inl rfl) rfl rfl) (others_idle hi) ?_
      simp only [State.goto, upd_same, midPc]
      exact ⟨fun _ => ⟨hf, hr⟩, ho, .inl hba⟩
  | headA c =>
    simp only [hp, midPc] at hm
    obtain ⟨ho, hl, hf, hr, hh, a, ha, hma⟩ := hm
    simp only [step1, hp, Option.some.injEq] at h
    subst h
    exact inv_started hb hn hi (by rw [hp]; rfl) rfl rfl rfl rfl rfl rfl ⟨ho.1, ho.2, ha, ha, hma, hl, hf, hr⟩
  | det c again =>
    simp only [hp, midPc] at hm
    obtain ⟨hpr, ho, hba | ⟨hf, a, ha, hh, hma⟩⟩ := hm
    · simp only [step1, hp, Option.some.injEq, hba.1] at h
      subst h
      refine inv_mid t (hb.move hn t rfl (.inr (by rw [hp]; rfl)) hbad rfl hoth (.inl rfl) rfl rfl) (others_idle hi) ?_
      simp only [State.goto, upd_same, midPc]
      exact ⟨hpr, ho, hba⟩
    · simp only [step1, hp, Option.some.injEq] at h
      split at h
      · rename_i b hx1 hx2
        obtain rfl : a = b := by rw [hh] at hx2; exact Option.some.inj hx2
        rw [if_pos ⟨by rw [hma]; simp, hf⟩] at h
        subst h
        refine inv_mid t (hb.move hn t rfl (.inr (by rw [hp]; rfl)) hbad rfl hoth (.inl rfl) rfl rfl) (others_idle hi) ?_
        simp only [State.goto, State.unmap, upd_same, midPc]
        exact ⟨hpr, ho, rfl, rfl, by simp [ha, hma]⟩
      · rename_i hx; exact absurd hh (hx a a ha)
  | cls c again =>
    simp only [hp, midPc] at hm
    obtain ⟨-, ho, hba⟩ := hm
    simp only [step1, hp, Option.some.injEq, ho.1, if_true] at h
    have hv : s.nfd - 1 = 0 := by rw [ho.2]
    split at h <;> subst h
    · have := hb.move hn (s' := { s with fd := false, nfd := s.nfd - 1, plock := .none }.goto t (.tst c)) t rfl
        (.inr (by rw [hp]; rfl)) hbad rfl hoth (.inl rfl) rfl rfl
      exact ⟨this.1, .off ⟨rfl, hv, hba.1, hba.2.1, hba.2.2, rfl⟩ this.2 (off_idle hi trivial)⟩
    · have := hb.move hn (s' := { s with fd := false, nfd := s.nfd - 1, plock := .none }.back t .nomap) t rfl
        (.inl rfl) hbad rfl hoth (.inl rfl) rfl rfl
      exact ⟨this.1, .off ⟨rfl, hv, hba.1, hba.2.1, hba.2.2, rfl⟩ this.2 (off_idle hi trivial)⟩

theorem off_step {s s' : State} {t : Nat} {ok cr : Bool} (hb : Base s) (hn : NoMine s) (hv : VOff s) (hpc : ∀ u, offPc (s.pc u))
    (h : step1 s t ok cr = some s') (hal : Alone s') : Inv s' := by
  have hbad := hb.bad
  have hoth := hb.oth
  have hpt := hpc t
  have hrest : ∀ p, offPc p → ∀ u, offPc (upd s.pc t p u) := by
    intro p hp u; rw [upd_app]; split
    · exact hp
    · exact hpc u
  have hfd := hv.1
  cases hp : s.pc t with
  | idle => simp [step1, hp] at h
  | chk c =>
    simp only [step1, hp, Option.some.injEq, hfd, Bool.false_eq_true, if_false] at h
    subst h
    have := hb.move hn (s' := s.goto t (.tst c)) t rfl (.inr (by rw [hp]; rfl)) hbad rfl hoth (.inl rfl) rfl rfl
    exact ⟨this.1, .off hv this.2 (hrest _ trivial)⟩
  | tst c =>
    simp only [step1, hp, Option.some.injEq, hfd, Bool.false_eq_true, if_false] at h
    subst h
    have := hb.move hn (s' := s.goto t (.opn c)) t rfl (.inr (by rw [hp]; rfl)) hbad rfl hoth (.inl rfl) rfl rfl
    exact ⟨this.1, .off hv this.2 (hrest _ trivial)⟩
  | opn c =>
    simp only [step1, hp, Option.some.injEq] at h
    split at h <;> subst h
    · refine inv_mid t (hb.move hn t rfl (.inr (by rw [hp]; rfl)) hbad rfl hoth (.inl rfl) rfl rfl) ?_ ?_
      · intro u hu
        exact hal t u (Ne.symm hu) (by simp [State.goto, upd_same, Starting])
      · simp only [State.goto, upd_same, midPc]
        exact ⟨⟨rfl, by simp [hv.2.1]⟩, ⟨hv.2.2.1, hv.2.2.2.1, hv.2.2.2.2.1⟩, hv.2.2.2.2.2⟩
    · have := hb.move hn (s' := { s with fd := false }.back t .nomap) t rfl (.inl rfl) hbad rfl hoth (.inl rfl) rfl rfl
      exact ⟨this.1, .off ⟨rfl, hv.2⟩ this.2 (hrest _ trivial)⟩
  | _ => simp [hp, offPc] at hpt

theorem on_step {s s' : State} {t a : Nat} {ok cr : Bool} (hb : Base s) (hv : VOn s a) (hpc : ∀ u, onPc a (s.pc u))
    (h : step1 s t ok cr = some s') : Inv s' ∧ VOn s' a ∧ ∀ u, onPc a (s'.pc u) := by
  have hpt := hpc t
  have hrest : ∀ p, onPc a p → ∀ u, onPc a (upd s.pc t p u) := by
    intro p hp u; rw [upd_app]; split
    · exact hp
    · exact hpc u
  suffices hs : Base s' ∧ VOn s' a ∧ ∀ u, onPc a (s'.pc u) from ⟨⟨hs.1, .on a hs.2.1 hs.2.2⟩, hs.2⟩
  have hfd := hv.1
  have hhd : s.head = some a := hv.2.2.2.1
  have hma : s.maps = [a] := hv.2.2.2.2.1
  have hf : s.filled = true := hv.2.2.2.2.2.2.1
  have hr : s.ready = true := hv.2.2.2.2.2.2.2
  cases hp : s.pc t with
  | idle => simp [step1, hp] at h
  | chk c =>
    simp only [step1, hp, Option.some.injEq, hfd, if_true] at h
    subst h
    obtain ⟨h1, h2, h3, h4, h5, h6, h7, h8⟩ := hb
    refine ⟨⟨h1, h2, h3, h4, h5, ?_, ?_, ?_⟩, hv, hrest _ (by simpa [hp, onPc] using hpt)⟩ <;>
      (simp only [State.goto]; grind)
  | use c =>
    simp only [step1, hp, Option.some.injEq] at h
    subst h
    obtain ⟨h1, h2, h3, h4, h5, h6, h7, h8⟩ := hb
    refine ⟨⟨h1, h2, h3, h4, h5, ?_, ?_, ?_⟩, hv, hrest _ ⟨by simpa [hp, onPc] using hpt, hhd⟩⟩ <;>
      (simp only [State.goto]; grind)
  | op c b =>
    simp only [hp, onPc] at hpt
    obtain ⟨hc, rfl⟩ := hpt
    simp only [step1, hp] at h
    rw [if_pos ⟨by rw [hma]; simp, hf, hr⟩] at h
    obtain ⟨h1, h2, h3, h4, h5, h6, h7, h8⟩ := hb
    cases c with
    | reinit => exact absurd rfl hc
    | lock =>
      simp only at h
      split at h
      · simp only [Option.some.injEq] at h
        subst h
        refine ⟨⟨h1, h2, ?_, ?_, ?_, ?_, ?_, ?_⟩, hv, hrest _ trivial⟩ <;> (simp only [State.back]; grind)
      · cases h
    | unlock o =>
      simp only [Option.some.injEq] at h
      split at h <;> subst h
      · refine ⟨⟨h1, h2, ?_, ?_, ?_, ?_, ?_, ?_⟩, hv, hrest _ trivial⟩ <;> (simp only [State.back]; grind)
      · refine ⟨⟨h1, h2, ?_, ?_, ?_, ?_, ?_, ?_⟩, hv, hrest _ trivial⟩ <;> (simp only [State.back]; grind)
  | _ => simp [hp, onPc] at hpt

/-- The calls and the other processes. -/
theorem inv_user {s s' : State} {e : Ev} (hi : Inv s) (he : ∀ t ok cr, e ≠ .run t ok cr) (hpol : Polite s e) (h : step s e = some s')
    (hal : Alone s') : Inv s' := by
  obtain ⟨hb, hph⟩ := hi
  obtain ⟨h1, h2, h3, h4, h5, h6, h7, h8⟩ := hb
  have call : ∀ t p, s.pc t = .idle → pcCall p ≠ some (.unlock true) → (∀ o, pcCall p = some (.unlock o) → s.own t = false) →
      s' = s.goto t p → Base s' := by
    intro t p hp hc ho hs; subst hs
    refine ⟨h1, h2, h3, h4, h5, ?_, ?_, ?_⟩ <;> (simp only [State.goto]; grind)
  cases e with
  | run t ok cr => exact absurd rfl (he t ok cr)
  | lock t =>
    simp only [step] at h
    split at h
    · rename_i hp
      simp only [Option.some.injEq] at h
      have hB := call t (.chk .lock) hp (by simp [pcCall]) (by simp [pcCall]) h.symm
      subst h
      refine ⟨hB, ?_⟩
      cases hph with
      | off hv hn hpc => exact .off hv hn (by intro u; show offPc (upd s.pc t _ u); grind)
      | on a hv hpc => exact .on a hv (by intro u; show onPc a (upd s.pc t _ u); grind)
      | mid v hn hid hm =>
        exfalso
        by_cases hvt : t = v
        · subst hvt; rw [hp] at hm; exact hm
        · have := hal v t (Ne.symm hvt) (by
            simp only [State.goto, upd_app, if_neg (Ne.symm hvt)]
            cases hq : s.pc v <;> rw [hq] at hm <;> first | trivial | exact hm.elim)
          simp [State.goto, upd_same] at this
    · cases h
  | unlock t =>
    simp only [step] at h
    split at h
    · rename_i hp
      simp only [Option.some.injEq] at h
      have hB : Base s' := by
        subst h
        refine ⟨h1, h2, h3, h4, ?_, ?_, ?_, ?_⟩ <;> (simp only; grind)
      subst h
      refine ⟨hB, ?_⟩
      cases hph with
      | off hv hn hpc => exact .off hv hn (by intro u; show offPc (upd s.pc t _ u); grind)
      | on a hv hpc => exact .on a hv (by intro u; show onPc a (upd s.pc t _ u); grind)
      | mid v hn hid hm =>
        exfalso
        by_cases hvt : t = v
        · subst hvt; rw [hp] at hm; exact hm
        · have := hal v t (Ne.symm hvt) (by
            simp only [upd_app, if_neg (Ne.symm hvt)]
            cases hq : s.pc v <;> rw [hq] at hm <;> first | trivial | exact hm.elim)
          simp [upd_same] at this
    · cases h
  | reinit t =>
    simp only [step] at h
    split at h
    · rename_i hp
      simp only [Option.some.injEq] at h
      have hB := call t (.des .reinit) hp (by simp [pcCall]) (by simp [pcCall]) h.symm
      have hown : ∀ u, s.own u = false := hpol
      have hid' : ∀ u, u ≠ t → s'.pc u = .idle := by
        intro u hu; exact hal t u (Ne.symm hu) (by rw [← h]; simp [State.goto, upd_same, Starting])
      have hn' : NoMine s' := by
        intro u hu
        rcases hB.mine u hu with h' | h'
        · rw [← h] at h'; exact absurd h' (by simp [State.goto, hown u])
        · by_cases hut : u = t
          · subst hut; rw [← h] at h'; simp [State.goto, upd_same, pcCall] at h'
          · rw [hid' u hut] at h'; cases h'
      refine inv_mid t ⟨hB, hn'⟩ hid' ?_
      subst h
      simp only [State.goto, upd_same, midPc]
      cases hph with
      | off hv hn hpc => exact .inl hv
      | on a hv hpc => exact .inr ⟨a, hv⟩
      | mid v hn hid hm =>
        exfalso
        by_cases hvt : t = v
        · subst hvt; rw [hp] at hm; exact hm
        · have := hid' v (Ne.symm hvt)
          simp only [State.goto, upd_app, if_neg (Ne.symm hvt)] at this
          rw [this] at hm; exact hm
    · cases h
  | oAttach =>
    simp only [step] at h
    split at h
    · cases h
    rename_i hl
    split at h
    · rename_i hc
      simp only [Option.some.injEq] at h
      have h0 : s.held ≠ some .other := fun hx => h4 hx hc.2
      cases hph with
      | off hv hn hpc =>
        have hn' : NoMine s' := by subst h; intro u; simp
        have hB : Base s' := by
          subst h
          refine ⟨h1, by simp, by simp, by simp, ?_, ?_, by simp, h8⟩
          · intro u hu; exact absurd (h5 u hu) (hn u)
          · intro u hu; exact absurd (h6 u hu) (hn u)
        subst h
        exact ⟨hB, .off hv hn' hpc⟩
      | on a hv hpc => rw [hv.2.2.2.2.2.1] at hc; exact absurd hc.1 (by simp)
      | mid v hn hid hm =>
        have hn' : NoMine s' := by subst h; intro u; simp
        have hB : Base s' := by
          subst h
          refine ⟨h1, by simp, by simp, by simp, ?_, ?_, by simp, h8⟩
          · intro u hu; exact absurd (h5 u hu) (hn u)
          · intro u hu; exact absurd (h6 u hu) (hn u)
        subst h
        refine ⟨hB, .mid v hn' hid ?_⟩
        cases hq : s.pc v <;> simp only [hq] at hm ⊢ <;> simp only [midPc, VOff, VOn, Open, Bare, Full] at hm ⊢ <;> grind
    · rename_i hc
      simp only [Option.some.injEq] at h
      have hfr : s.others = 0 → s.plock = .read := by
        intro h0; cases hq : s.plock with
        | none => exact absurd ⟨hq, h0⟩ hc
        | read => rfl
        | write => exact absurd hq hl
      have hready : s.filled = true ∧ s.ready = true := by
        by_cases h0 : s.others = 0
        · have hr := hfr h0
          cases hph with
          | off hv hn hpc => rw [hv.2.2.2.2.2] at hr; cases hr
          | on a hv hpc => exact hv.2.2.2.2.2.2
          | mid v hn hid hm =>
            cases hq : s.pc v <;> simp only [hq] at hm <;> simp only [midPc, VOff, VOn, Open, Bare, Full] at hm <;> grind
        · exact h2 h0
      have hB : Base s' := by
        subst h
        exact ⟨h1, fun _ => hready, h3, fun _ => by simp, h5, h6, h7, h8⟩
      subst h
      refine ⟨hB, ?_⟩
      cases hph with
      | off hv hn hpc => exact .off hv hn hpc
      | on a hv hpc => exact .on a hv hpc
      | mid v hn hid hm =>
        refine .mid v hn hid ?_
        cases hq : s.pc v <;> simp only [hq] at hm ⊢ <;> simp only [midPc, VOff, VOn, Open, Bare, Full] at hm ⊢ <;> grind
  | oLeave =>
    simp only [step] at h
    split at h
    · cases h
    rename_i h0
    split at h
    · simp only [Option.some.injEq] at h
      have hB : Base s' := by
        subst h
        refine ⟨h1, ?_, ?_, ?_, ?_, ?_, ?_, ?_⟩ <;> (simp only; grind)
      subst h
      refine ⟨hB, ?_⟩
      cases hph with
      | off hv hn hpc => exact .off hv (by intro u; have := hn u; simp only; grind) hpc
      | on a hv hpc => exact .on a hv hpc
      | mid v hn hid hm =>
        refine .mid v (by intro u; have := hn u; simp only; grind) hid ?_
        cases hq : s.pc v <;> simp only [hq] at hm ⊢ <;> simp only [midPc, VOff, VOn, Open, Bare, Full] at hm ⊢ <;> grind
    · simp only [Option.some.injEq] at h
      have hB : Base s' := by
        subst h
        refine ⟨h1, fun _ => h2 h0, h3, ?_, h5, h6, h7, h8⟩
        simp only; grind
      subst h
      refine ⟨hB, ?_⟩
      cases hph with
      | off hv hn hpc => exact .off hv hn hpc
      | on a hv hpc => exact .on a hv hpc
      | mid v hn hid hm =>
        refine .mid v hn hid ?_
        cases hq : s.pc v <;> simp only [hq] at hm ⊢ <;> simp only [midPc, VOff, VOn, Open, Bare, Full] at hm ⊢ <;> grind
  | oLock =>
    simp only [step] at h
    split at h
    · rename_i hc
      simp only [Option.some.injEq] at h
      have hB : Base s' := by
        subst h
        refine ⟨h1, h2, by simp, fun _ => hc.1, ?_, ?_, by simp, h8⟩ <;> (simp only; grind)
      subst h
      refine ⟨hB, ?_⟩
      cases hph with
      | off hv hn hpc => exact .off hv (by intro u; simp) hpc
      | on a hv hpc => exact .on a hv hpc
      | mid v hn hid hm =>
        refine .mid v (by intro u; simp) hid ?_
        cases hq : s.pc v <;> simp only [hq] at hm ⊢ <;> simp only [midPc, VOff, VOn, Open, Bare, Full] at hm ⊢ <;> grind
    · cases h
  | oUnlock =>
    simp only [step] at h
    split at h
    · rename_i hc
      simp only [Option.some.injEq] at h
      have hB : Base s' := by
        subst h
        refine ⟨h1, h2, by simp, by simp, ?_, ?_, by simp, h8⟩ <;> (simp only; grind)
      subst h
      refine ⟨hB, ?_⟩
      cases hph with
      | off hv hn hpc => exact .off hv (by intro u; simp) hpc
      | on a hv hpc => exact .on a hv hpc
      | mid v hn hid hm =>
        refine .mid v (by intro u; simp) hid ?_
        cases hq : s.pc v <;> simp only [hq] at hm ⊢ <;> simp only [midPc, VOff, VOn, Open, Bare, Full] at hm ⊢ <;> grind
    · cases h

theorem inv_step {s s' : State} {e : Ev} (hi : Inv s) (hpol : Polite s e) (h : step s e = some s') (hal : Alone s') : Inv s' := by
  by_cases he : ∃ t ok cr, e = .run t ok cr
  · obtain ⟨t, ok, cr, rfl⟩ := he
    obtain ⟨hb, hph⟩ := hi
    cases hph with
    | off hv hn hpc => exact off_step hb hn hv hpc h hal
    | on a hv hpc => exact (on_step hb hv hpc h).1
    | mid v hn hid hm =>
      by_cases hvt : t = v
      · subst hvt; exact mid_step hb hn hid hm h
      · simp [step, step1, hid t hvt] at h
  · exact inv_user hi (fun t ok cr hx => he ⟨t, ok, cr, hx⟩) hpol h hal

theorem good_inv {s : State} (h : Good s) : Inv s := by
  induction h with
  | init => exact inv_init
  | step _ hp hs ha ih => exact inv_step ih hp hs ha

end Fullock.Proofs.Attach
