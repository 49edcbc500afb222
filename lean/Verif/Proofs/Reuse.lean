import Verif.Spec.Reuse
import Verif.Proofs.LockId
import Verif.Proofs.FLMore
import Verif.Proofs.MCOwn
/-! Invariants of the machines with reuse of thread numbers. -/
namespace Fullock.LockId

structure RInv (s : State) : Prop where
  own : ∀ t, s.alive t = true → (s.pc t).inside → s.lockid = t
  nz : ∀ t, s.pc t ≠ .out → t ≠ 0
  steal : ∀ t, s.alive t = true → ∀ cnt v, s.pc t = .steal cnt v → s.alive v = false
  norel : ∀ t, s.alive t = true → (∀ c o, s.pc t ≠ .rchk c o ∧ s.pc t ≠ .rsteal c o)

theorem rinv_init : RInv init := by
  constructor <;> simp [init, Pc.inside]

theorem rinv_own {s : State} (h : RInv s) {t : Nat} (ha : s.alive t = true) : RInv (own s t) := by
  have h1 := h.own; have h2 := h.nz; have h3 := h.steal; have h4 := h.norel
  have n0 : ∀ u, s.alive u = true → (s.pc u).inside → s.lockid ≠ 0 := by
    intro u hu hi h0
    exact h.nz u (by intro hh; rw [hh] at hi; exact hi) ((h.own u hu hi).symm.trans h0)
  have ht : s.pc t ≠ .out → t ≠ 0 := h.nz t
  unfold own
  cases hp : s.pc t with
  | out => exact h
  | crit => exact h
  | rchk cnt v => exact absurd hp (h.norel t ha cnt v).1
  | rsteal cnt v => exact absurd hp (h.norel t ha cnt v).2
  | acq cnt old2 =>
    simp only
    repeat' split
    all_goals
      constructor
      all_goals
        simp only [setPc_pc, setPc_lockid, setPc_alive]
        grind [Pc.inside]
  | chk cnt v =>
    simp only
    repeat' split
    all_goals
      constructor
      all_goals
        simp only [setPc_pc, setPc_lockid, setPc_alive]
        grind [Pc.inside]
  | steal cnt v =>
    simp only
    repeat' split
    all_goals
      constructor
      all_goals
        simp only [setPc_pc, setPc_lockid, setPc_alive]
        grind [Pc.inside]
  | rel cnt old2 =>
    have hl := h.own t ha (by rw [hp]; trivial)
    simp only
    rw [if_pos hl]
    constructor
    all_goals
      simp only [setPc_pc, setPc_lockid, setPc_alive]
      grind [Pc.inside]

theorem rinv_step {s s' : State} {e : Ev} (h : RInv s) (hs : step s e = some s') : RInv s' := by
  have h1 := h.own; have h2 := h.nz; have h3 := h.steal; have h4 := h.norel
  cases e with
  | enter t =>
    simp only [step] at hs
    split at hs
    · cases hs
      constructor
      all_goals
        simp only [setPc_pc, setPc_lockid, setPc_alive]
        grind [Pc.inside]
    · cases hs
  | leave t =>
    simp only [step] at hs
    split at hs
    · cases hs
      constructor
      all_goals
        simp only [setPc_pc, setPc_lockid, setPc_alive]
        grind [Pc.inside]
    · cases hs
  | go t =>
    simp only [step] at hs
    split at hs
    · rename_i ha
      cases hs
      exact rinv_own h ha
    · cases hs
  | die t =>
    simp only [step, Option.some.injEq] at hs
    subst hs
    constructor
    all_goals
      simp only
      grind [Pc.inside]

theorem rinv_born {s s' : State} {t : Nat} (h : RInv s) (hj : NotJudged s t) (hs : born s t = some s') :
    RInv s' := by
  have h1 := h.own; have h2 := h.nz; have h3 := h.steal; have h4 := h.norel
  simp only [born] at hs
  split at hs
  · cases hs
    constructor
    all_goals
      simp only
      grind [Pc.inside, NotJudged]
  · cases hs

theorem rinv_reach {s : State} (h : RReach NotJudged s) : RInv s := by
  induction h with
  | init => exact rinv_init
  | ev _ hs ih => exact rinv_step ih hs
  | born _ hb hs ih => exact rinv_born ih hb hs

end Fullock.LockId

namespace Fullock.FL

theorem born_eq {s s' : State} {t : Nat} (h : born s t = some s') :
    t ≠ 0 ∧ s.alive t = false ∧ s' = { s with alive := fset s.alive t true, pc := fset s.pc t (.done 0) } := by
  simp only [born] at h
  split at h
  · rename_i hc
    exact ⟨hc.1, hc.2, (Option.some.inj h).symm⟩
  · cases h

theorem reenter_eq {s s' : State} {t : Nat} (h : reenter s t = some s') :
    ∃ p, s.pc t = .acq p ∧ s.alive t = true ∧ s.lockid = t ∧ s' = s.setPc t p := by
  simp only [reenter] at h
  split at h
  · rename_i p hp
    split at h
    · rename_i hc
      exact ⟨p, hp, hc.1, hc.2, (Option.some.inj h).symm⟩
    · cases h
  · cases h

theorem sinv_born {s s' : State} {t : Nat} (hi : SInv s) (hf : Finished s t) (h : born s t = some s') :
    SInv s' := by
  obtain ⟨t0, hd, rfl⟩ := born_eq h
  refine ⟨hi.sok, hi.outs, ?_, ?_, ?_⟩
  · intro u hu
    by_cases e : u = t
    · subst e
      simp only [fset_same]
      refine ⟨?_, trivial⟩
      intro o md l hl hlt
      obtain ⟨x, hx⟩ := hf o md l hl hlt
      obtain ⟨_, _, _, _, _, _, _, h1, h2⟩ := hi.outs.1 _ hx
      simp only at h1 h2
      exact ⟨fun h => absurd (h1.symm.trans h) (by decide), fun _ h => absurd (h2.symm.trans h) (by decide),
        fun _ _ => ⟨x, hx⟩⟩
    · simp only [fset_other _ _ e] at hu ⊢
      exact hi.thr u hu
  · intro u hu hc
    by_cases e : u = t
    · subst e; simp [inCS] at hc
    · simp only [fset_other _ _ e] at hu hc
      exact hi.cs u hu hc
  · intro u hu
    by_cases e : u = t
    · subst e; exact t0
    · simp only [fset_other _ _ e] at hu
      exact hi.nz u hu

theorem sinv_reenter {s s' : State} {t : Nat} (hi : SInv s) (h : reenter s t = some s') : SInv s' := by
  obtain ⟨p, hpc, hal, hl, rfl⟩ := reenter_eq h
  have hpk : entry p = true ∧ PcOK s.mem t p := by
    have := (hi.thr t hal).2; rw [hpc] at this; exact this
  refine ⟨hi.sok, hi.outs, ?_, ?_, ?_⟩
  · intro u hu
    by_cases e : u = t
    · subst e
      simp only [State.setPc, fset_same]
      refine ⟨own_congr (hi.thr u hu).1 ?_ ?_, hpk.2⟩
      · rw [hpc]; rfl
      · rw [hpc]
        have := hpk.1
        cases p <;> first | rfl | (simp [entry] at this)
    · simp only [State.setPc, fset_pc_other e]
      exact hi.thr u hu
  · intro u hu hc
    by_cases e : u = t
    · subst e; exact hl
    · simp only [State.setPc, fset_pc_other e] at hc hu
      exact hi.cs u hu hc
  · intro u hu
    by_cases e : u = t
    · subst e; exact hi.nz u (by rw [hpc]; simp)
    · simp only [State.setPc, fset_pc_other e] at hu
      exact hi.nz u hu

theorem winv_born {s s' : State} {t : Nat} (hw : WInv s) (h : born s t = some s') : WInv s' := by
  obtain ⟨_, _, rfl⟩ := born_eq h
  refine ⟨hw.words, ?_⟩
  intro o md l hl hS
  refine hw.lt o md l hl ?_
  by_cases e : s.mem.ltid l = t
  · simp [e] at hS
  · simpa [fset_other _ _ e] using hS

theorem winv_reenter {s s' : State} {t : Nat} (hw : WInv s) (h : reenter s t = some s') : WInv s' := by
  obtain ⟨_, _, _, _, rfl⟩ := reenter_eq h
  exact ⟨hw.words, hw.lt⟩

theorem einv_born {s s' : State} {t : Nat} (hw : EInv s) (h : born s t = some s') : EInv s' := by
  obtain ⟨_, _, rfl⟩ := born_eq h
  refine ⟨hw.words, ?_⟩
  intro o md l hl hS
  refine hw.lt o md l hl ?_
  by_cases e : s.mem.ltid l = t
  · simp [e] at hS
  · simpa [fset_other _ _ e] using hS

theorem einv_reenter {s s' : State} {t : Nat} (hw : EInv s) (h : reenter s t = some s') : EInv s' := by
  obtain ⟨_, _, _, _, rfl⟩ := reenter_eq h
  exact ⟨hw.words, hw.lt⟩

theorem rinv_born {R : DevIno → Rng → Prop} {s s' : State} {t : Nat} (hw : RInv R s)
    (h : born s t = some s') : RInv R s' := by
  obtain ⟨_, _, rfl⟩ := born_eq h
  refine ⟨hw.units, ?_, hw.held⟩
  intro u op ho
  by_cases e : u = t
  · subst e; simp [opOf] at ho
  · simp only [fset_other _ _ e] at ho
    exact hw.ops u op ho

theorem rinv_reenter {R : DevIno → Rng → Prop} {s s' : State} {t : Nat} (hw : RInv R s)
    (h : reenter s t = some s') : RInv R s' := by
  obtain ⟨p, hpc, _, _, rfl⟩ := reenter_eq h
  refine ⟨hw.units, ?_, hw.held⟩
  intro u op ho
  by_cases e : u = t
  · subst e
    simp only [State.setPc, fset_same] at ho
    exact hw.ops u op (by rw [hpc]; exact ho)
  · simp only [State.setPc, fset_pc_other e] at ho
    exact hw.ops u op ho

theorem traceless_finished {s : State} {t : Nat} (h : Traceless s t) : Finished s t :=
  fun o md l hl e => absurd e (h.1 o md l hl)

theorem rreach_sinv {A : State → Ev → Prop} {B : State → Nat → Prop} (hB : ∀ s t, B s t → Finished s t)
    {s : State} (hr : RReach A B s) : SInv s := by
  induction hr with
  | init => exact sinv_init ..
  | ev _ _ hs ih => exact sinv_step ih hs
  | born _ hb hs ih => exact sinv_born ih (hB _ _ hb) hs
  | reenter _ hs ih => exact sinv_reenter ih hs

theorem rreach_winv {A : State → Ev → Prop} {B : State → Nat → Prop} (hA : ∀ s e, A s e → okDeath s e)
    (hB : ∀ s t, B s t → Finished s t) {s : State} (hr : RReach A B s) : WInv s := by
  induction hr with
  | init => exact winv_init ..
  | ev h ha hs ih => exact winv_step (rreach_sinv hB h) ih (hA _ _ ha) hs
  | born _ _ hs ih => exact winv_born ih hs
  | reenter _ hs ih => exact winv_reenter ih hs

theorem rreach_einv {A : State → Ev → Prop} {B : State → Nat → Prop} (hA : ∀ s e, A s e → softDeath s e)
    (hB : ∀ s t, B s t → Finished s t) {s : State} (hr : RReach A B s) : EInv s := by
  induction hr with
  | init => exact einv_init ..
  | ev h ha hs ih => exact einv_step (rreach_sinv hB h) ih (hA _ _ ha) hs
  | born _ _ hs ih => exact einv_born ih hs
  | reenter _ hs ih => exact einv_reenter ih hs

theorem rreach_rinv {R : DevIno → Rng → Prop} {A : State → Ev → Prop} {B : State → Nat → Prop}
    (hA : ∀ s e, A s e → Spec.lockIn R e) (hB : ∀ s t, B s t → Finished s t) {s : State}
    (hr : RReach A B s) : RInv R s := by
  induction hr with
  | init => exact ⟨by simp [init], by simp [init, opOf], by simp [init]⟩
  | ev h ha hs ih => exact rinv_step (rreach_sinv hB h) ih (hA _ _ ha) hs
  | born _ _ hs ih => exact rinv_born ih hs
  | reenter _ hs ih => exact rinv_reenter ih hs

/-- When no dead thread whose number is given away is named by the table lock. -/
theorem rreach_csIff {A : State → Ev → Prop} {B : State → Nat → Prop}
    (hB : ∀ s t, B s t → Finished s t ∧ s.lockid ≠ t) {s : State} (hr : RReach A B s) : CsIff s := by
  induction hr with
  | init => intro u hu hl; exact absurd hl.symm hu
  | ev h ha hs ih => exact csIff_step (rreach_sinv (fun s t h => (hB s t h).1) h) ih hs
  | born _ hb hs ih =>
    obtain ⟨_, _, rfl⟩ := born_eq hs
    intro u hu hl ha
    have e : u ≠ _ := fun e => (hB _ _ hb).2 (hl.trans e)
    simp only [fset_other _ _ e] at ha ⊢
    exact ih u hu hl ha
  | reenter h hs ih =>
    obtain ⟨p, hpc, hal, hl, rfl⟩ := reenter_eq hs
    have hi := rreach_sinv (fun s t h => (hB s t h).1) h
    have := ih _ (hi.nz _ (by rw [hpc]; simp)) hl hal
    rw [hpc] at this
    simp [inCS] at this

end Fullock.FL

namespace Fullock.MC

theorem born_eq {s s' : State} {t : Nat} (h : born s t = some s') :
    t ≠ 0 ∧ s.alive t = false ∧ s' = { s with
      mem := { s.mem with dep := fun m => upd (s.mem.dep m) t 0 }
      alive := upd s.alive t true, pc := upd s.pc t (.done 0) } := by
  simp only [born] at h
  split at h
  · rename_i hc
    exact ⟨hc.1, hc.2, (Option.some.inj h).symm⟩
  · cases h

theorem base_born {s s' : State} {t : Nat} (b : Base s) (hc : Traceless s t) (h : born s t = some s') :
    Base s' := by
  obtain ⟨t0, hd, rfl⟩ := born_eq h
  obtain ⟨c1, c2, c3⟩ := hc
  refine ⟨?_, ?_, ?_, ?_, ?_⟩
  · simpa [upd, Ne.symm t0] using b.zero
  · intro u
    simp only [upd]
    split
    · rfl
    · exact b.shape u
  · intro u u0 ua
    by_cases e : u = t
    · subst e; simp [upd, inM, c2]
    · simp only [upd, e, if_false] at ua ⊢
      exact b.lockM u u0 ua
  · intro u u0 ua
    by_cases e : u = t
    · subst e; simp [upd, inC, c3]
    · simp only [upd, e, if_false] at ua ⊢
      exact b.lockC u u0 ua
  · intro u m hm
    by_cases e : u = t
    · subst e; simp [upd, uses] at hm
    · simp only [upd, e, if_false] at hm
      exact b.used u m hm

theorem inv_born {s s' : State} {t : Nat} (i : Inv s) (hc : Traceless s t) (h : born s t = some s') :
    Inv s' := by
  have hb := base_born i.base hc h
  obtain ⟨t0, hd, rfl⟩ := born_eq h
  refine ⟨hb, i.free, ?_, ?_⟩
  · intro m
    simpa [upd, Ne.symm t0] using i.zero m
  · intro u u0 ua
    by_cases e : u = t
    · subst e
      refine ⟨?_, ?_, ?_⟩
      · intro m hm; simp [upd] at hm
      · intro m hm hv; exact absurd hv (hc.1 m hm)
      · simp [upd, At]
    · simp only [upd, e, if_false] at ua ⊢
      obtain ⟨own, held, hat⟩ := i.th u u0 ua
      refine ⟨?_, ?_, ?_⟩
      · intro m; simpa [upd, e] using own m
      · intro m; simpa [upd, e] using held m
      · have hu := i.base.used u
        have c1 := hc.1
        generalize s.pc u = p at *
        cases p <;> simp only [At, uses] at hat hu ⊢ <;> grind

theorem rreach_inv {A : State → Ev → Prop} {B : State → Nat → Prop} (hA : ∀ s e, A s e → okDie s e)
    (hB : ∀ s t, B s t → Traceless s t) {s : State} (h : RReach A B s) : Inv s := by
  induction h with
  | init => exact inv_init ..
  | ev _ ha hs ih => exact inv_step ih (hA _ _ ha) hs
  | born _ hb hs ih => exact inv_born ih (hB _ _ hb) hs
  | reenterM _ hs ih =>
    simp only [reenterM] at hs
    split at hs
    · rename_i p hp
      split at hs
      · rename_i hc
        have := (ih.base.lockM _ (by rintro rfl; rw [ih.base.zero] at hp; cases hp) hc.1).mp hc.2
        rw [hp] at this
        simp [inM] at this
      · cases hs
    · cases hs
  | reenterC _ hs ih =>
    simp only [reenterC] at hs
    split at hs
    · rename_i p hp
      split at hs
      · rename_i hc
        have := (ih.base.lockC _ (by rintro rfl; rw [ih.base.zero] at hp; cases hp) hc.1).mp hc.2
        rw [hp] at this
        simp [inC] at this
      · cases hs
    · cases hs

end Fullock.MC
