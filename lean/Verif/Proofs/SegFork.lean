import Verif.Spec.SegFork
import Verif.Proofs.MCInv
import Verif.Proofs.FLMore
/-!
Lives and numbers of threads that fork.
-/
namespace Fullock.SegFork

/-- One event, for the threads. -/
inductive WStep (key : Bool) (w : World) : World → Prop
  | stay : WStep key w w
  | make {e : WEv} {w' : World} : w.make e = some w' → WStep key w w'
  | call {t : Nat} : w.runs t = true → WStep key w (w.call key t)
  | die {t : Nat} : WStep key w (w.die t)

/-- Reachable lives. -/
inductive WReach (key : Bool) : World → Prop
  | init (p : Nat) (h : p ≠ 0) : WReach key (World.init p)
  | step {w w' : World} : WReach key w → WStep key w w' → WReach key w'

theorem mstep_w {key : Bool} {x x' : MState} {e : MEv} (h : x.step key e = some x') : WStep key x.w x'.w := by
  cases e with
  | ev e =>
    cases e with
    | call t c =>
      simp only [MState.step] at h
      split at h
      · cases h
      · rename_i hg
        split at h
        · cases h
          exact .call (by simpa using fun h => hg (.inr (.inl h)))
        · cases h
    | go t c =>
      simp only [MState.step] at h
      split at h
      · cases h
      · simp only [Option.map_eq_some_iff] at h
        obtain ⟨r, -, rfl⟩ := h
        exact .stay
    | die t =>
      simp only [MState.step] at h
      split at h
      · cases h
      · cases h; exact .die
  | w e =>
    simp only [MState.step] at h
    split at h
    · simp only [Option.map_eq_some_iff] at h
      obtain ⟨r, h1, rfl⟩ := h
      exact .make h1
    · cases h

theorem fstep_w {key nofd : Bool} {x x' : FState} {e : FEv} (h : x.step key nofd e = some x') : WStep key x.w x'.w := by
  cases e with
  | ev e =>
    cases e with
    | call t c =>
      simp only [FState.step] at h
      split at h
      · cases h
      · rename_i hg
        split at h
        · cases h
          exact .call (by simpa using fun h => hg (.inr (.inl h)))
        · cases h
    | go t c =>
      simp only [FState.step] at h
      split at h
      · cases h
      · split at h
        · split at h
          · cases h; exact .stay
          · cases h
        · cases h; exact .stay
        · simp only [Option.map_eq_some_iff] at h
          obtain ⟨r, -, rfl⟩ := h
          exact .stay
    | die t c k =>
      simp only [FState.step] at h
      split at h
      · cases h
      · cases h; exact .die
  | w e =>
    simp only [FState.step] at h
    split at h
    · simp only [Option.map_eq_some_iff] at h
      obtain ⟨r, h1, rfl⟩ := h
      exact .make h1
    · cases h

theorem mreach_w {key : Bool} {A : MState → MEv → Prop} {x : MState} (h : MReach key A x) : WReach key x.w := by
  induction h with
  | init p _ _ _ _ h => exact .init p h
  | step _ _ h ih => exact .step ih (mstep_w h)

theorem freach_w {key nofd : Bool} {A : FState → FEv → Prop} {x : FState} (h : FReach key nofd A x) : WReach key x.w := by
  induction h with
  | init p _ _ _ _ h => exact .init p h
  | step _ _ h ih => exact .step ih (fstep_w h)

/-- The two ways threads are made. -/
theorem make_cases {w w' : World} {e : WEv} (h : w.make e = some w') :
    (∃ t n, e = .fork t n ∧ n ≠ 0 ∧ w.born n = false ∧ w.runs t = true ∧
      w' = { runs := MC.upd w.runs n true, born := MC.upd w.born n true, pid := MC.upd w.pid n n,
             cache := MC.upd w.cache n (w.cache t) }) ∨
    (∃ t n, e = .create t n ∧ n ≠ 0 ∧ w.born n = false ∧ w.runs t = true ∧
      w' = { runs := MC.upd w.runs n true, born := MC.upd w.born n true, pid := MC.upd w.pid n (w.pid t),
             cache := MC.upd w.cache n none }) := by
  cases e with
  | fork t n =>
    simp only [World.make] at h
    split at h
    · cases h
    · rename_i hg
      simp only [not_or] at hg
      exact .inl ⟨t, n, rfl, hg.1, by simpa using hg.2.1, by simpa using hg.2.2, (Option.some.inj h).symm⟩
  | create t n =>
    simp only [World.make] at h
    split at h
    · cases h
    · rename_i hg
      simp only [not_or] at hg
      exact .inr ⟨t, n, rfl, hg.1, by simpa using hg.2.1, by simpa using hg.2.2, (Option.some.inj h).symm⟩

/-- What holds of the lives. -/
structure WInv (w : World) : Prop where
  here : ∀ t, w.runs t = true → w.born t = true
  zero : w.born 0 = false
  proc : ∀ t, w.born t = true → w.born (w.pid t) = true
  kept : ∀ t u, w.cache t = some u → w.born t = true ∧ w.born u = true ∧ (u = t ∨ w.pid t = t ∧ w.pid u ≠ t)

theorem winv_step {key : Bool} {w w' : World} (h : WStep key w w') (i : WInv w) : WInv w' := by
  cases h with
  | stay => exact i
  | die =>
    rename_i t
    refine ⟨fun u hu => i.here u ?_, i.zero, i.proc, i.kept⟩
    simp only [World.die, MC.upd] at hu
    split at hu
    · cases hu
    · exact hu
  | call ht =>
    rename_i t
    refine ⟨i.here, i.zero, i.proc, fun v u hv => ?_⟩
    simp only [World.call] at hv
    split at hv
    · simp only [MC.upd] at hv
      split at hv
      · rename_i e
        subst e
        simp only [World.num, Option.some.injEq] at hv
        cases hc : w.cache v with
        | none => rw [hc] at hv; simp at hv; subst hv; exact ⟨i.here _ ht, i.here _ ht, .inl rfl⟩
        | some u' => rw [hc] at hv; simp at hv; subst hv; exact i.kept v u' hc
      · exact i.kept v u hv
    · exact i.kept v u hv
  | make hm =>
    obtain ⟨h1, h2, h3, h4⟩ := i
    rcases make_cases hm with ⟨t, n, -, hn, hb, ht, rfl⟩ | ⟨t, n, -, hn, hb, ht, rfl⟩
    · constructor
      · intro u; simp only [MC.upd]; grind
      · simp only [MC.upd]; grind
      · intro u; simp only [MC.upd]; grind
      · intro v u hc
        have nb : ∀ z, w.born z = true → z ≠ n := by rintro z hz rfl; rw [hb] at hz; cases hz
        by_cases e : v = n
        · subst e
          simp only [MC.upd, if_true] at hc
          have h5 := h4 t u hc
          have h6 := nb _ h5.2.1
          have h7 := nb _ (h3 u h5.2.1)
          simp [MC.upd, h6, h7, h5.2.1]
        · simp only [MC.upd, e, if_false] at hc
          have h5 := h4 v u hc
          have h6 := nb _ h5.2.1
          simpa [MC.upd, h6, e] using h5
    · constructor
      · intro u; simp only [MC.upd]; grind
      · simp only [MC.upd]; grind
      · intro u; simp only [MC.upd]; grind
      · intro v u hc
        have nb : ∀ z, w.born z = true → z ≠ n := by rintro z hz rfl; rw [hb] at hz; cases hz
        by_cases e : v = n
        · subst e
          simp [MC.upd] at hc
        · simp only [MC.upd, e, if_false] at hc
          have h5 := h4 v u hc
          have h6 := nb _ h5.2.1
          simpa [MC.upd, h6, e] using h5

theorem winv_reach {key : Bool} {w : World} (h : WReach key w) : WInv w := by
  induction h with
  | init p hp =>
    refine ⟨fun t h => h, by simp [World.init]; omega, fun t h => h, ?_⟩
    intro t u h; simp [World.init] at h
  | step _ h ih => exact winv_step h ih

/-- What the question gives. -/
theorem seen_iff {w : World} (i : WInv w) (t : Nat) (hb : w.born t = true) :
    w.seen t = true ↔ w.runs t = true ∧ w.num t = t := by
  unfold World.seen World.num
  rw [hb]
  rcases hc : w.cache t with _ | u
  · simp
  · have := (i.kept t u hc).2.2
    simp only [Option.getD_some]
    by_cases e : u = t
    · subst e; simp
    · have h2 := this.resolve_left e
      rw [h2.1]
      simp [h2.2, e]

theorem seen_real {w : World} (i : WInv w) (h : ∀ t, w.num t = t) : w.seen = w.real := by
  funext t
  by_cases hb : w.born t = true
  · have := seen_iff i t hb
    simp only [World.real, hb]
    cases hs : w.runs t <;> simp_all
  · simp at hb
    simp [World.seen, World.real, hb]

theorem num_call {key : Bool} {w : World} (t u : Nat) : (w.call key t).num u = w.num u := by
  simp only [World.call, World.num]
  split
  · simp only [MC.upd]; split
    · rename_i e; subst e; rfl
    · rfl
  · rfl

/-- New threads have no influence on the lives as they are. -/
theorem real_make {w w' : World} {e : WEv} (h : w.make e = some w') : w'.real = w.real := by
  funext u
  rcases make_cases h with ⟨t, n, -, hn, hb, ht, rfl⟩ | ⟨t, n, -, hn, hb, ht, rfl⟩ <;>
    (simp only [World.real, MC.upd]; split
     · rename_i e; subst e; simp [hb]
     · rfl)

theorem real_call {key : Bool} {w : World} (t : Nat) : (w.call key t).real = w.real := rfl

theorem real_die {w : World} (i : WInv w) {t : Nat} (h : w.runs t = true) : (w.die t).real = MC.upd w.real t false := by
  funext u
  simp only [World.real, World.die, MC.upd]
  split
  · rename_i e; subst e; simp [i.here _ h]
  · rfl

theorem real_runs {w : World} {t : Nat} (h : w.runs t = true) : w.real t = true := by simp [World.real, h]

/-- A step with right answers is a step of the model without forks, or leaves its state. -/
theorem mstep_real {key : Bool} {x x' : MState} {e : MEv} (i : WInv x.w) (ha : rightM x e) (h : x.step key e = some x') :
    (∃ e', e = .ev e' ∧ MC.step x.real e' = some x'.real) ∨ x'.real = x.real := by
  cases e with
  | ev e =>
    refine .inl ⟨e, rfl, ?_⟩
    cases e with
    | call t c =>
      simp only [MState.step] at h
      split at h
      · cases h
      · rename_i hg
        simp only [not_or] at hg
        have hr := real_runs (by simpa using hg.2.1 : x.w.runs t = true)
        split at h
        · rename_i r hp
          cases h
          simp [MC.step, MState.real, hg.1, hr, hp, real_call]
        · cases h
    | go t c =>
      simp only [MState.step] at h
      split at h
      · cases h
      · rename_i hg
        have hr := real_runs (by simpa using hg : x.w.runs t = true)
        rw [show MC.plan x.mem x.w.seen t (x.pc t) c = _ from ha] at h
        simp only [Option.map_eq_some_iff] at h
        obtain ⟨r, h1, rfl⟩ := h
        simp [MC.step, MState.real, hr, h1]
    | die t =>
      simp only [MState.step] at h
      split at h
      · cases h
      · rename_i hg
        have hg : x.w.runs t = true := by simpa using hg
        cases h
        simp [MC.step, MState.real, real_runs hg, real_die i hg]
  | w e =>
    simp only [MState.step] at h
    split at h
    · simp only [Option.map_eq_some_iff] at h
      obtain ⟨r, h1, rfl⟩ := h
      exact .inr (by simp [MState.real, real_make h1])
    · cases h

theorem upd_fset {α : Type} (f : Nat → α) (t : Nat) (v : α) : MC.upd f t v = FL.fset f t v := by
  funext u; simp [MC.upd, FL.fset]

theorem fstep_real {key nofd : Bool} {x x' : FState} {e : FEv} (i : WInv x.w) (ha : rightF nofd x e) (h : x.step key nofd e = some x') :
    (∃ e', e = .ev e' ∧ FL.step x.real e' = some x'.real) ∨ x'.real = x.real := by
  cases e with
  | ev e =>
    refine .inl ⟨e, rfl, ?_⟩
    cases e with
    | call t c =>
      simp only [FState.step] at h
      split at h
      · cases h
      · rename_i hg
        simp only [not_or] at hg
        have hr := real_runs (by simpa using hg.2.1 : x.w.runs t = true)
        split at h
        · rename_i r hp
          cases h
          simp [FL.step, FState.real, FL.State.setPc, hg.1, hr, hp, real_call]
        · cases h
    | go t c =>
      simp only [FState.step] at h
      split at h
      · cases h
      · rename_i hg
        have hr := real_runs (by simpa using hg : x.w.runs t = true)
        split at h
        · rename_i p hp
          rw [ha.2 p hp] at h
          split at h
          · rename_i hl
            cases h
            simp [FL.step, FState.real, FL.State.setPc, hr, hp, hl]
          · cases h
        · rename_i p hp
          cases h
          simp [FL.step, FState.real, FL.State.setPc, hr, hp]
          rfl
        · rename_i p' n1 n2
          rw [ha.1] at h
          simp only [Option.map_eq_some_iff] at h
          obtain ⟨r, h1, rfl⟩ := h
          simp only [FL.step, FState.real, hr]
          split
          · contradiction
          · simp [h1, FL.State.setPc]
    | die t c k =>
      simp only [FState.step] at h
      split at h
      · cases h
      · rename_i hg
        have hg : x.w.runs t = true := by simpa using hg
        rw [show FL.plan x.mem (x.w.holder nofd) t (x.pc t) c = _ from ha] at h
        cases h
        simp [FL.step, FState.real, real_runs hg, real_die i hg, upd_fset]
        rfl
  | w e =>
    simp only [FState.step] at h
    split at h
    · simp only [Option.map_eq_some_iff] at h
      obtain ⟨r, h1, rfl⟩ := h
      exact .inr (by simp [FState.real, real_make h1])
    · cases h

/-- With right answers, the lives as they are: states reachable without forks. -/
theorem mreach_real {key : Bool} {A : MState → MEv → Prop} (h1 : ∀ x e, A x e → rightM x e)
    (B : MC.State → MC.Ev → Prop) (h2 : ∀ x e, A x (.ev e) → B x.real e) {x : MState} (h : MReach key A x) :
    MC.Reach B x.real := by
  induction h with
  | init p nm nc nw junk h =>
    have : (MState.init p nm nc nw junk).real = MC.init nm nc nw junk := by
      simp only [MState.init, MState.real, MC.init, World.init]
      congr 1
      funext t
      simp [World.real]
    rw [this]; exact .init nm nc nw junk
  | step hr ha h ih =>
    rcases mstep_real (winv_reach (mreach_w hr)) (h1 _ _ ha) h with ⟨e', rfl, h'⟩ | h'
    · exact .step ih (h2 _ _ ha) h'
    · rw [h']; exact ih

theorem freach_real {key nofd : Bool} {A : FState → FEv → Prop} (h1 : ∀ x e, A x e → rightF nofd x e)
    (B : FL.State → FL.Ev → Prop) (h2 : ∀ x e, A x (.ev e) → B x.real e) {x : FState} (h : FReach key nofd A x) :
    Spec.Reach B x.real := by
  induction h with
  | init p nf no nl junk h =>
    have : (FState.init p nf no nl junk).real = FL.init nf no nl junk := by
      simp only [FState.init, FState.real, FL.init, World.init]
      congr 1
      funext t
      simp [World.real]
    rw [this]; exact .init nf no nl junk
  | step hr ha h ih =>
    rcases fstep_real (winv_reach (freach_w hr)) (h1 _ _ ha) h with ⟨e', rfl, h'⟩ | h'
    · exact .step ih (h2 _ _ ha) h'
    · rw [h']; exact ih

/-- Lives when only threads without a kept number fork, or numbers are never kept. -/
theorem num_make {w w' : World} {e : WEv} (h : w.make e = some w') (i : ∀ t, w.num t = t)
    (hc : ∀ t n, e = .fork t n → w.cache t = none) : ∀ t, w'.num t = t := by
  intro u
  have iu := i u
  simp only [World.num] at iu ⊢
  rcases make_cases h with ⟨t, n, rfl, hn, hb, ht, rfl⟩ | ⟨t, n, rfl, hn, hb, ht, rfl⟩
  · simp only [MC.upd, hc t n rfl]; split <;> simp_all
  · simp only [MC.upd]; split <;> simp_all

theorem mclean_num {key : Bool} {A : MState → MEv → Prop} (h1 : ∀ x e, A x e → cleanM x e) {x : MState}
    (h : MReach key A x) : ∀ t, x.w.num t = t := by
  induction h with
  | init => intro t; rfl
  | @step x x' e hr ha h ih =>
    intro t
    have hw := mstep_w h
    have hcl := h1 _ _ ha
    cases e with
    | w e =>
      simp only [MState.step] at h
      split at h
      · simp only [Option.map_eq_some_iff] at h
        obtain ⟨r, h1, rfl⟩ := h
        exact num_make h1 ih (by rintro t n rfl; exact hcl) t
      · cases h
    | ev e =>
      cases e with
      | call t c =>
        simp only [MState.step] at h
        split at h
        · cases h
        · split at h
          · cases h; rw [num_call]; exact ih _
          · cases h
      | go t c =>
        simp only [MState.step] at h
        split at h
        · cases h
        · simp only [Option.map_eq_some_iff] at h
          obtain ⟨r, -, rfl⟩ := h
          exact ih _
      | die t =>
        simp only [MState.step] at h
        split at h
        · cases h
        · cases h; exact ih _

theorem fclean_num {key nofd : Bool} {A : FState → FEv → Prop} (h1 : ∀ x e, A x e → cleanF x e) {x : FState}
    (h : FReach key nofd A x) : ∀ t, x.w.num t = t := by
  induction h with
  | init => intro t; rfl
  | @step x x' e hr ha h ih =>
    intro t
    have hcl := h1 _ _ ha
    cases e with
    | w e =>
      simp only [FState.step] at h
      split at h
      · simp only [Option.map_eq_some_iff] at h
        obtain ⟨r, h1, rfl⟩ := h
        exact num_make h1 ih (by rintro t n rfl; exact hcl) t
      · cases h
    | ev e =>
      cases e with
      | call t c =>
        simp only [FState.step] at h
        split at h
        · cases h
        · split at h
          · cases h; rw [num_call]; exact ih _
          · cases h
      | go t c =>
        simp only [FState.step] at h
        split at h
        · cases h
        · split at h
          · split at h
            · cases h; exact ih _
            · cases h
          · cases h; exact ih _
          · simp only [Option.map_eq_some_iff] at h
            obtain ⟨r, -, rfl⟩ := h
            exact ih _
      | die t c k =>
        simp only [FState.step] at h
        split at h
        · cases h
        · cases h; exact ih _

theorem wnokey {w : World} (h : WReach false w) : ∀ t, w.cache t = none := by
  induction h with
  | init => intro t; rfl
  | step _ h ih =>
    intro t
    cases h with
    | stay => exact ih t
    | die => exact ih t
    | call => simp [World.call, ih]
    | make hm =>
      rcases make_cases hm with ⟨u, n, rfl, hn, hb, ht, rfl⟩ | ⟨u, n, rfl, hn, hb, ht, rfl⟩ <;>
        (simp only [MC.upd]; split <;> simp [ih])

/-- A kept number of another stays. -/
theorem stale_step {key : Bool} {w w' : World} (i : WInv w) (h : WStep key w w') {n : Nat} (hb : w.born n = true) :
    w'.born n = true ∧ w'.num n = w.num n := by
  cases h with
  | stay => exact ⟨hb, rfl⟩
  | die => exact ⟨hb, rfl⟩
  | call => exact ⟨hb, num_call _ _⟩
  | make hm =>
    rcases make_cases hm with ⟨u, m, rfl, hn, hq, ht, rfl⟩ | ⟨u, m, rfl, hn, hq, ht, rfl⟩ <;>
      (have : n ≠ m := by rintro rfl; rw [hq] at hb; cases hb
       simp [World.num, MC.upd, this, hb])

/-- Threads to come are outside and own nothing. -/
theorem dep_stp {M M' : MC.Mem} {alive : Nat → Bool} {t : Nat} {p p' : MC.Pc} (h : MC.Stp M alive t p M' p') :
    ∀ m u, u ≠ t → M'.dep m u = M.dep m u := by
  intro m u hu
  cases h <;> first | rfl | (simp only [MC.upd]; grind)

theorem m_new {key : Bool} {A : MState → MEv → Prop} {x : MState} (h : MReach key A x) :
    ∀ n, x.w.born n = false → (∃ r, x.pc n = .done r) ∧ ∀ m, x.mem.dep m n = 0 := by
  induction h with
  | init => intro n _; exact ⟨⟨0, rfl⟩, fun _ => rfl⟩
  | @step x x' e hr ha h ih =>
    intro n hn
    have i := winv_reach (mreach_w hr)
    have hb : x.w.born n = false := by
      cases hb : x.w.born n with
      | false => rfl
      | true => rw [(stale_step i (mstep_w h) hb).1] at hn; cases hn
    have old := ih n hb
    have nt : ∀ t, ¬ x.w.runs t = false → n ≠ t := by
      rintro t h rfl
      have := i.here n (by simpa using h)
      rw [hb] at this; cases this
    cases e with
    | w e =>
      simp only [MState.step] at h
      split at h
      · simp only [Option.map_eq_some_iff] at h
        obtain ⟨r, h1, rfl⟩ := h
        exact old
      · cases h
    | ev e =>
      cases e with
      | call t c =>
        simp only [MState.step] at h
        split at h
        · cases h
        · rename_i hg
          have := nt t (fun h => hg (.inr (.inl h)))
          split at h
          · cases h; simpa [MC.upd, this] using old
          · cases h
      | go t c =>
        simp only [MState.step] at h
        split at h
        · cases h
        · rename_i hg
          have := nt t hg
          simp only [Option.map_eq_some_iff] at h
          obtain ⟨r, h1, rfl⟩ := h
          refine ⟨by simpa [MC.upd, this] using old.1, fun m => ?_⟩
          rw [show r = (r.1, r.2) from rfl] at h1
          rw [dep_stp (MC.stp_of_plan h1) m n this]; exact old.2 m
      | die t =>
        simp only [MState.step] at h
        split at h
        · cases h
        · cases h; exact old

theorem f_new {key nofd : Bool} {A : FState → FEv → Prop} {x : FState} (h : FReach key nofd A x) :
    ∀ y ∈ x.mem.outs, x.w.born y.2.t = true := by
  induction h with
  | init => intro y hy; cases hy
  | @step x x' e hr ha h ih =>
    intro y hy
    have i := winv_reach (freach_w hr)
    suffices x.w.born y.2.t = true from (stale_step i (fstep_w h) this).1
    cases e with
    | w e =>
      simp only [FState.step] at h
      split at h
      · simp only [Option.map_eq_some_iff] at h
        obtain ⟨r, h1, rfl⟩ := h
        exact ih y hy
      · cases h
    | ev e =>
      cases e with
      | call t c =>
        simp only [FState.step] at h
        split at h
        · cases h
        · split at h
          · cases h; exact ih y hy
          · cases h
      | go t c =>
        simp only [FState.step] at h
        split at h
        · cases h
        · rename_i hg
          split at h
          · split at h
            · cases h; exact ih y hy
            · cases h
          · cases h; exact ih y hy
          · simp only [Option.map_eq_some_iff] at h
            obtain ⟨r, h1, rfl⟩ := h
            rcases FL.acts_outs_new hy with hy | hy
            · exact ih y hy
            · rw [show r = (r.1, r.2) from rfl] at h1
              obtain ⟨op, f, o, -, hh, -⟩ := FL.plan_flag h1 hy
              rw [hh]; exact i.here t (by simpa using hg)
      | die t c k =>
        simp only [FState.step] at h
        split at h
        · cases h
        · rename_i hg
          cases h
          rcases FL.acts_outs_new hy with hy | hy
          · exact ih y hy
          · have hy := List.mem_of_mem_take hy
            split at hy
            · rename_i r h1
              rw [show r = (r.1, r.2) from rfl] at h1
              obtain ⟨op, f, o, -, hh, -⟩ := FL.plan_flag h1 hy
              rw [hh]; exact i.here t (by simpa using hg)
            · cases hy

end Fullock.SegFork
