import Verif.Proofs.FLPlan
import Verif.Spec.FileLock
/-! The invariants of reachable states. -/
namespace Fullock.FL

/-- Holds in every reachable state, whatever threads die wherever. -/
structure SInv (s : State) : Prop where
  sok : SOK s.mem
  outs : Outs s.mem
  thr : ∀ u, s.alive u = true → Own s.mem u (s.pc u) ∧ PcOK s.mem u (s.pc u)
  cs : ∀ u, s.alive u = true → inCS (s.pc u) = true → s.lockid = u
  nz : ∀ u, (∀ r, s.pc u ≠ .done r) → u ≠ 0

theorem sinv_init (nf no nl : Nat) (junk : Mem) : SInv (init nf no nl junk) where
  sok := by
    constructor <;> simp [init, List.nodup_range]
  outs := by simp [Outs, init]
  thr := fun u _ => ⟨by intro o md l hl; simp [init] at hl, trivial⟩
  cs := fun u _ h => by simp [init, inCS] at h
  nz := fun u h => absurd rfl (h 0)

theorem fset_pc_other {pc : Nat → Pc} {t u : Nat} {p : Pc} (h : u ≠ t) : fset pc t p u = pc u :=
  fset_other _ _ h

theorem acts_take_append (m : Mem) (as : List Act) (k : Nat) :
    m.acts as = (m.acts (as.take k)).acts (as.drop k) := by
  unfold Mem.acts
  rw [← List.foldl_append, List.take_append_drop]

theorem sinv_ginv {s : State} (h : SInv s) (t : Nat) : GInv s.mem s.alive s.pc t :=
  ⟨h.sok, h.outs, fun u _ hu => ⟨(h.thr u hu).1, pcOK_waitPart (h.thr u hu).2⟩⟩

/-- Other threads survive a step of `t`. -/
theorem others {s : State} (h : SInv s) {t : Nat} (hal : s.alive t = true) {as : List Act}
    (hk : OkAll s.alive t s.mem as) (hout : inCS (s.pc t) = false → OutActs s.mem t as)
    {u : Nat} (hut : u ≠ t) (hu : s.alive u = true) :
    Own (s.mem.acts as) u (s.pc u) ∧ PcOK (s.mem.acts as) u (s.pc u) := by
  have g := ginv_acts (sinv_ginv h t) hk
  refine ⟨(g.oth u hut hu).1, ?_⟩
  cases hc : inCS (s.pc u) with
  | false => exact waitPart_pcOK (h.thr u hu).2 hc (g.oth u hut hu).2
  | true =>
    have h1 := h.cs u hu hc
    have h2 : inCS (s.pc t) = false := by
      by_contra hn
      have := h.cs t hal (by simpa using hn)
      exact hut (h1.symm.trans this)
    exact outActs_pcOK (hout h2) hut (h.thr u hu).2

theorem outActs_take {m : Mem} {t : Nat} {as : List Act} (h : OutActs m t as) (k : Nat) :
    OutActs m t (as.take k) := by
  cases k with
  | zero => exact Or.inl rfl
  | succ k =>
    rcases h with rfl | ⟨o, md, l, rfl, e⟩ | ⟨l, hh, rfl, e⟩
    · exact Or.inl rfl
    · exact Or.inr (Or.inl ⟨o, md, l, by simp, e⟩)
    · exact Or.inr (Or.inr ⟨l, hh, by simp, e⟩)

/-- What `step` does, in three cases. -/
theorem step_cases {s s' : State} {e : Ev} (h : step s e = some s') :
    (∃ t c r, e = .call t c ∧ t ≠ 0 ∧ s.alive t = true ∧ s.pc t = .done r ∧ s' = s.setPc t c.start) ∨
    (∃ t c p, e = .go t c ∧ s.alive t = true ∧ s.pc t = .acq p ∧
      (s.lockid = 0 ∨ s.alive s.lockid = false) ∧ s' = { s with lockid := t }.setPc t p) ∨
    (∃ t c p, e = .go t c ∧ s.alive t = true ∧ s.pc t = .rel p ∧
      s' = { s with lockid := if s.lockid = t then 0 else s.lockid }.setPc t p) ∨
    (∃ t c as p', e = .go t c ∧ s.alive t = true ∧
      plan s.mem s.alive t (s.pc t) c = some (as, p') ∧
      s' = { s with mem := s.mem.acts as }.setPc t p') ∨
    (∃ t c k as, e = .die t c k ∧ s.alive t = true ∧
      ((∃ p', plan s.mem s.alive t (s.pc t) c = some (as, p')) ∨
        (plan s.mem s.alive t (s.pc t) c = none ∧ as = [])) ∧
      s' = { s with mem := s.mem.acts (as.take k), alive := fset s.alive t false }) := by
  cases e with
  | call t c =>
    left
    simp only [step] at h
    split at h
    · cases h
    · rename_i hc
      rw [not_or] at hc
      split at h
      · rename_i r hr
        exact ⟨t, c, r, rfl, hc.1, by simpa using hc.2, hr, (Option.some.inj h).symm⟩
      · cases h
  | go t c =>
    simp only [step] at h
    split at h
    · cases h
    · rename_i hc
      have hc' : s.alive t = true := by simpa using hc
      split at h
      · rename_i p hp
        split at h
        · rename_i hl
          exact Or.inr (Or.inl ⟨t, c, p, rfl, hc', hp, hl, (Option.some.inj h).symm⟩)
        · cases h
      · rename_i p hp
        exact Or.inr (Or.inr (Or.inl ⟨t, c, p, rfl, hc', hp, (Option.some.inj h).symm⟩))
      · rw [Option.map_eq_some_iff] at h
        obtain ⟨⟨as, p'⟩, h1, h2⟩ := h
        exact Or.inr (Or.inr (Or.inr (Or.inl ⟨t, c, as, p', rfl, hc', h1, h2.symm⟩)))
  | die t c k =>
    simp only [step] at h
    split at h
    · cases h
    · rename_i hc
      have hc' : s.alive t = true := by simpa using hc
      refine Or.inr (Or.inr (Or.inr (Or.inr ⟨t, c, k, _, rfl, hc', ?_, (Option.some.inj h).symm⟩)))
      cases hp : plan s.mem s.alive t (s.pc t) c with
      | none => right; simp
      | some x => left; exact ⟨x.2, rfl⟩

theorem sinv_step {s s' : State} {e : Ev} (hi : SInv s) (h : step s e = some s') : SInv s' := by
  rcases step_cases h with ⟨t, c, r, rfl, ht0, hal, hpc, rfl⟩ | ⟨t, c, p, rfl, hal, hpc, hl, rfl⟩ |
    ⟨t, c, p, rfl, hal, hpc, rfl⟩ | ⟨t, c, as, p', rfl, hal, hpl, rfl⟩ |
    ⟨t, c, k, as, rfl, hal, hpl, rfl⟩
  · -- call
    have hstart : slot c.start = none ∧ uslot c.start = none ∧ inCS c.start = false ∧
        PcOK s.mem t c.start := by
      cases c <;> simp [Call.start, slot, uslot, inCS, PcOK, entry]
    refine ⟨hi.sok, hi.outs, ?_, ?_, ?_⟩
    · intro u hu
      by_cases e : u = t
      · subst e
        simp only [State.setPc, fset_same]
        refine ⟨own_congr (hi.thr u hu).1 ?_ ?_, hstart.2.2.2⟩
        · rw [hpc, hstart.1]; rfl
        · rw [hpc, hstart.2.1]; rfl
      · simp only [State.setPc, fset_pc_other e]
        exact hi.thr u hu
    · intro u hu hc
      by_cases e : u = t
      · subst e; simp only [State.setPc, fset_same, hstart.2.2.1] at hc; cases hc
      · simp only [State.setPc, fset_pc_other e] at hc ⊢
        exact hi.cs u hu hc
    · intro u hu
      by_cases e : u = t
      · subst e; exact ht0
      · simp only [State.setPc, fset_pc_other e] at hu
        exact hi.nz u hu
  · -- acquire
    have hpk : entry p = true ∧ PcOK s.mem t p := by
      have := (hi.thr t hal).2; rw [hpc] at this; exact this
    refine ⟨hi.sok, hi.outs, ?_, ?_, ?_⟩
    · intro u hu
      by_cases e : u = t
      · subst e
        simp only [State.setPc, fset_same]
        refine ⟨own_congr (hi.thr u hu).1 ?_ ?_, hpk.2⟩
        · rw [hpc]; rfl
        · rw [hpc]
          have := hpk.1
          cases p <;> first | rfl | (simp [entry] at this)
      · simp only [State.setPc, fset_pc_other e]
        exact hi.thr u hu
    · intro u hu hc
      by_cases e : u = t
      · subst e; rfl
      · simp only [State.setPc, fset_pc_other e] at hc hu
        have h1 := hi.cs u hu hc
        exfalso
        rcases hl with h0 | h0
        · refine hi.nz u ?_ (h1.symm.trans h0)
          intro r hr; rw [hr] at hc; simp [inCS] at hc
        · rw [h1, hu] at h0; cases h0
    · intro u hu
      by_cases e : u = t
      · subst e; exact hi.nz u (by rw [hpc]; simp)
      · simp only [State.setPc, fset_pc_other e] at hu
        exact hi.nz u hu
  · -- release
    have hpk : inCS p = false ∧ PcOK s.mem t p := by
      have := (hi.thr t hal).2; rw [hpc] at this; exact ⟨leave_inCS this.1, this.2⟩
    have hlt : s.lockid = t := hi.cs t hal (by rw [hpc]; rfl)
    refine ⟨hi.sok, hi.outs, ?_, ?_, ?_⟩
    · intro u hu
      by_cases e : u = t
      · subst e
        simp only [State.setPc, fset_same]
        refine ⟨own_congr (hi.thr u hu).1 ?_ ?_, hpk.2⟩
        · rw [hpc]; rfl
        · rw [hpc]
          have := hpk.1
          cases p <;> first | rfl | (simp [inCS] at this)
      · simp only [State.setPc, fset_pc_other e]
        exact hi.thr u hu
    · intro u hu hc
      by_cases e : u = t
      · subst e
        simp only [State.setPc, fset_same, hpk.1] at hc; cases hc
      · simp only [State.setPc, fset_pc_other e] at hc hu
        have h1 := hi.cs u hu hc
        exact absurd (h1.symm.trans hlt) e
    · intro u hu
      by_cases e : u = t
      · subst e; exact hi.nz u (by rw [hpc]; simp)
      · simp only [State.setPc, fset_pc_other e] at hu
        exact hi.nz u hu
  · -- a step
    have ok := plan_ok hi.sok hal (hi.thr t hal).2 (hi.thr t hal).1 hpl
    have g := ginv_acts (sinv_ginv hi t) ok.ok
    refine ⟨g.sok, g.outs, ?_, ?_, ?_⟩
    · intro u hu
      by_cases e : u = t
      · subst e
        simp only [State.setPc, fset_same]
        exact ⟨ok.own, ok.pcok⟩
      · simp only [State.setPc, fset_pc_other e]
        exact others hi hal ok.ok ok.out e hu
    · intro u hu hc
      by_cases e : u = t
      · subst e
        simp only [State.setPc, fset_same] at hc
        exact hi.cs u hal (ok.cs hc)
      · simp only [State.setPc, fset_pc_other e] at hc
        exact hi.cs u hu hc
    · intro u hu
      by_cases e : u = t
      · subst e
        refine hi.nz u ?_
        intro r hr
        rw [hr] at hpl
        simp [plan] at hpl
      · simp only [State.setPc, fset_pc_other e] at hu
        exact hi.nz u hu
  · -- death
    have hok : OkAll s.alive t s.mem as ∧ (inCS (s.pc t) = false → OutActs s.mem t as) := by
      rcases hpl with ⟨p', hpl⟩ | ⟨_, rfl⟩
      · have ok := plan_ok hi.sok hal (hi.thr t hal).2 (hi.thr t hal).1 hpl
        exact ⟨ok.ok, ok.out⟩
      · exact ⟨trivial, fun _ => Or.inl rfl⟩
    have hk := okAll_take k hok.1
    have g := ginv_acts (sinv_ginv hi t) hk
    refine ⟨g.sok, g.outs, ?_, ?_, ?_⟩
    · intro u hu
      have e : u ≠ t := by
        intro e; subst e; simp at hu
      have hu' : s.alive u = true := by simpa [fset_other _ _ e] using hu
      exact others hi hal hk (fun h => outActs_take (hok.2 h) k) e hu'
    · intro u hu hc
      have e : u ≠ t := by
        intro e; subst e; simp at hu
      have hu' : s.alive u = true := by simpa [fset_other _ _ e] using hu
      exact hi.cs u hu' hc
    · exact hi.nz

/-! Lock words. -/

def PreWAll : Mem → List Act → Prop
  | _, [] => True
  | m, a :: as => PreW m a ∧ PreWAll (m.act a) as

theorem preWAll_take : ∀ {as : List Act} {m : Mem} (k : Nat), PreWAll m as → PreWAll m (as.take k) := by
  intro as
  induction as with
  | nil => intro m k _; simp [PreWAll]
  | cons a as ih =>
    intro m k h
    cases k with
    | zero => simp [PreWAll]
    | succ k => exact ⟨h.1, ih k h.2⟩

theorem words_acts {alive : Nat → Bool} {t : Nat} : ∀ {as : List Act} {m : Mem}, SOK m →
    (∀ o, WordOK m o) → OkAll alive t m as → PreWAll m as → ∀ o, WordOK (m.acts as) o := by
  intro as
  induction as with
  | nil => intro m _ h _ _; exact h
  | cons a as ih =>
    intro m hs h hk hw
    exact ih (act_sok hs hk.1) (act_word hs h hk.1 hw.1) hk.2.2 hw.2

/-- Lockers of threads in `S` that are flagged locked are counted in the lock word. -/
def LT (m : Mem) (S : Nat → Prop) : Prop :=
  ∀ o md l, l ∈ m.lks o md → S (m.ltid l) → m.locked l = true → m.taken l = true

theorem act_lt {m : Mem} {alive : Nat → Bool} {t : Nat} {S : Nat → Prop} {a : Act} (hp : Pre m a)
    (hb : By m alive t a)
    (hu : ∀ o l, a = .unl o l → (∀ z md, l ∉ m.lks z md) ∨ ¬ S (m.ltid l)) (h : LT m S) :
    LT (m.act a) S := by
  intro o md l hl hS hk
  rcases act_lks hp hl with hl' | ⟨t', fd, rfl⟩
  · by_cases hlid : a.lid = some l
    · cases a <;> simp only [Act.lid, Option.some.injEq, reduceCtorEq] at hlid <;> subst hlid
      · exact h o md _ hl' hS hk
      · simp [Mem.act]
      · rcases hu _ _ rfl with h1 | h1
        · exact absurd hl' (h1 _ _)
        · exact absurd hS h1
      · obtain ⟨_, _, f, o', _, _, _, _, _, htk⟩ := hb
        exact htk
      · simp [Mem.act] at hk
    · obtain ⟨b1, b2, b3, _⟩ := act_locked hp hl' hlid
      rw [b3] at hS; rw [b1] at hk; rw [b2]
      exact h o md l hl' hS hk
  · simp [Mem.act] at hk

theorem lt_acts {alive : Nat → Bool} {t : Nat} {S : Nat → Prop} : ∀ {as : List Act} {m : Mem},
    OkAll alive t m as → (∀ o l, Act.unl o l ∉ as) → LT m S → LT (m.acts as) S := by
  intro as
  induction as with
  | nil => intro m _ _ h; exact h
  | cons a as ih =>
    intro m hk hu h
    refine ih hk.2.2 (fun o l hm => hu o l (List.mem_cons_of_mem _ hm)) (act_lt hk.1 hk.2.1 ?_ h)
    intro o l e
    exact absurd (e ▸ List.mem_cons_self) (hu o l)

theorem sweep_lt {m : Mem} (hs : SOK m) {alive : Nat → Bool} {t : Nat} {S : Nat → Prop} {o : Nat}
    {md : Mode} {l : Nat} (hl : l ∈ m.lks o md) (hd : alive (m.ltid l) = false) (k : Nat)
    (h : LT m S) : LT (m.acts ((sweepActs m o md l).take k)) S := by
  have hk := sweep_ok (t := t) hs hl hd
  unfold sweepActs at hk ⊢
  have h1 : LT (m.act (.cutL o md l)) S :=
    act_lt (alive := alive) (t := t) trivial (Or.inr hd) (by simp) h
  split at hk
  · rename_i hlk
    simp only [hlk, if_true, List.cons_append, List.nil_append] at *
    have h2 : LT ((m.act (.cutL o md l)).act (.unl o l)) S := by
      refine act_lt (alive := alive) (t := t) trivial (Or.inr hd) ?_ h1
      intro o' l' e
      cases e
      exact Or.inl (cutL_gone hs hl)
    match k with
    | 0 => exact h
    | 1 => exact h1
    | 2 => exact h2
    | k + 3 =>
      simp only [List.take_succ_cons, List.take_nil]
      exact h2
  · rename_i hlk
    simp only [hlk, Bool.false_eq_true, if_false, List.cons_append, List.nil_append] at *
    match k with
    | 0 => exact h
    | 1 => exact h1
    | k + 2 => simp only [List.take_succ_cons, List.take_nil]; exact h1

theorem unl_word {m : Mem} {o : Nat} {md : Mode} {l : Nat} (hs : SOK m) (hw : WordOK m o)
    (hl : l ∈ m.lks o md) (ht : m.taken l = true) :
    (m.word o = -1 → cntWithout m o .wr l = 0) ∧
      (0 < m.word o → (cntWithout m o .rd l : Int) ≤ m.word o - 1) := by
  obtain ⟨h1, h2, h3⟩ := hw
  have hc : cntWithout m o md l + 1 = cnt m o md :=
    countP_fset_false _ _ _ (hs.lksNd o md) hl ht
  have hle : ∀ md, cntWithout m o md l ≤ cnt m o md := fun md => countP_fset_le _ _ _
  constructor
  · intro e
    have := h2 e
    have := hle .wr
    cases md <;> omega
  · intro e
    have := h3 (by omega)
    have := hle .rd
    cases md <;> omega

theorem sweep_word {m : Mem} {o : Nat} {md : Mode} {l : Nat} (hs : SOK m) (hw : WordOK m o)
    (hl : l ∈ m.lks o md) (ht : m.locked l = true → m.taken l = true) :
    PreWAll m (sweepActs m o md l) := by
  unfold sweepActs
  split
  · rename_i hlk
    refine ⟨trivial, ?_, trivial, trivial⟩
    have hu := unl_word hs hw hl (ht hlk)
    have he : ∀ md', cntWithout (m.act (.cutL o md l)) o md' l ≤ cntWithout m o md' l := by
      intro md'
      unfold cntWithout
      simp only [Mem.act, lkset]
      split
      · rename_i e; obtain ⟨_, rfl⟩ := e
        exact List.Sublist.countP_le List.erase_sublist
      · exact Nat.le_refl _
    have hw : (m.act (.cutL o md l)).word o = m.word o := rfl
    constructor
    · intro e; have := hu.1 e; have := he .wr; omega
    · intro e
      have := hu.2 e
      have := he .rd
      rw [hw]
      omega
  · exact ⟨trivial, trivial, trivial⟩

theorem plan_word {m : Mem} {alive : Nat → Bool} {t : Nat} (hs : SOK m)
    {p : Pc} {c : Choice} {as : List Act} {p' : Pc} (hp : PcOK m t p)
    (h : plan m alive t p c = some (as, p')) (hw : ∀ o, WordOK m o)
    (hlt : LT m (fun u => alive u = false)) : PreWAll m as := by
  unfold plan at h
  split at h
  -- lFile
  · split at h
    · obtain ⟨rfl, rfl⟩ := Option.some.inj h |> Prod.mk.inj; exact ⟨trivial, trivial⟩
    · split at h <;> obtain ⟨rfl, rfl⟩ := Option.some.inj h |> Prod.mk.inj <;> simp [PreWAll, PreW]
  · split at h
    · obtain ⟨rfl, rfl⟩ := Option.some.inj h |> Prod.mk.inj; exact ⟨trivial, trivial⟩
    · split at h <;> obtain ⟨rfl, rfl⟩ := Option.some.inj h |> Prod.mk.inj <;> simp [PreWAll, PreW]
  · obtain ⟨rfl, rfl⟩ := Option.some.inj h |> Prod.mk.inj; simp [PreWAll, PreW]
  · split at h <;> obtain ⟨rfl, rfl⟩ := Option.some.inj h |> Prod.mk.inj <;> simp [PreWAll, PreW]
  · obtain ⟨rfl, rfl⟩ := Option.some.inj h |> Prod.mk.inj; simp [PreWAll, PreW]
  · split at h
    · rename_i hc
      obtain ⟨rfl, rfl⟩ := Option.some.inj h |> Prod.mk.inj
      obtain ⟨h1, h2, h3, h4, h5, h6, h7⟩ := hp
      exact ⟨⟨hc, h7, h1.2.2⟩, trivial⟩
    · split at h <;> obtain ⟨rfl, rfl⟩ := Option.some.inj h |> Prod.mk.inj <;> simp [PreWAll]
  · split at h
    · split at h <;> obtain ⟨rfl, rfl⟩ := Option.some.inj h |> Prod.mk.inj <;> simp [PreWAll]
    · cases h
  · split at h
    · split at h
      · cases h
      · obtain ⟨rfl, rfl⟩ := Option.some.inj h |> Prod.mk.inj; simp [PreWAll]
      · obtain ⟨rfl, rfl⟩ := Option.some.inj h |> Prod.mk.inj; simp [PreWAll]
    · cases h
  · obtain ⟨rfl, rfl⟩ := Option.some.inj h |> Prod.mk.inj; simp [PreWAll, PreW]
  · obtain ⟨rfl, rfl⟩ := Option.some.inj h |> Prod.mk.inj; simp [PreWAll, PreW]
  · split at h
    · rename_i hc
      obtain ⟨rfl, hc2, hc3⟩ := hc
      obtain ⟨rfl, rfl⟩ := Option.some.inj h |> Prod.mk.inj
      exact sweep_word hs (hw _) hc2 (hlt _ _ _ hc2 hc3)
    · cases h
  · obtain ⟨rfl, rfl⟩ := Option.some.inj h |> Prod.mk.inj; simp [PreWAll, PreW]
  · split at h <;> obtain ⟨rfl, rfl⟩ := Option.some.inj h |> Prod.mk.inj <;> simp [PreWAll, PreW]
  · split at h
    · split at h <;> obtain ⟨rfl, rfl⟩ := Option.some.inj h |> Prod.mk.inj <;> simp [PreWAll, PreW]
    · obtain ⟨rfl, rfl⟩ := Option.some.inj h |> Prod.mk.inj; simp [PreWAll, PreW]
  · split at h
    · split at h <;> obtain ⟨rfl, rfl⟩ := Option.some.inj h |> Prod.mk.inj <;> simp [PreWAll, PreW]
    · obtain ⟨rfl, rfl⟩ := Option.some.inj h |> Prod.mk.inj; simp [PreWAll, PreW]
  · split at h
    · obtain ⟨rfl, rfl⟩ := Option.some.inj h |> Prod.mk.inj; simp [PreWAll, PreW]
    · split at h
      · obtain ⟨rfl, rfl⟩ := Option.some.inj h |> Prod.mk.inj; simp [PreWAll, PreW]
      · split at h
        · obtain ⟨rfl, rfl⟩ := Option.some.inj h |> Prod.mk.inj; simp [PreWAll, PreW]
        · split at h <;> obtain ⟨rfl, rfl⟩ := Option.some.inj h |> Prod.mk.inj <;> simp [PreWAll, PreW]
  · obtain ⟨rfl, rfl⟩ := Option.some.inj h |> Prod.mk.inj
    obtain ⟨h1, h2, h3, h4, h5, h6, h7⟩ := hp
    exact ⟨unl_word hs (hw _) h1.2.2 h7, trivial⟩
  · obtain ⟨rfl, rfl⟩ := Option.some.inj h |> Prod.mk.inj; simp [PreWAll, PreW]
  · obtain ⟨rfl, rfl⟩ := Option.some.inj h |> Prod.mk.inj; simp [PreWAll, PreW]
  · split at h <;> obtain ⟨rfl, rfl⟩ := Option.some.inj h |> Prod.mk.inj <;> simp [PreWAll, PreW]
  · split at h <;> obtain ⟨rfl, rfl⟩ := Option.some.inj h |> Prod.mk.inj <;> simp [PreWAll, PreW]
  · split at h <;> obtain ⟨rfl, rfl⟩ := Option.some.inj h |> Prod.mk.inj <;> simp [PreWAll, PreW]
  · split at h
    · rename_i hc
      obtain ⟨hc1, hc2, hc3⟩ := hc
      obtain ⟨rfl, rfl⟩ := Option.some.inj h |> Prod.mk.inj
      exact sweep_word hs (hw _) hc2 (hlt _ _ _ hc2 hc3)
    · cases h
  · split at h
    · obtain ⟨rfl, rfl⟩ := Option.some.inj h |> Prod.mk.inj; simp [PreWAll, PreW]
    · cases h
  · split at h
    · obtain ⟨rfl, rfl⟩ := Option.some.inj h |> Prod.mk.inj; simp [PreWAll, PreW]
    · cases h
  · obtain ⟨rfl, rfl⟩ := Option.some.inj h |> Prod.mk.inj; simp [PreWAll, PreW]
  · cases h

/-- Shape of the actions of a step with respect to lock words. -/
theorem plan_unl {m : Mem} {alive : Nat → Bool} {t : Nat}
    {p : Pc} {c : Choice} {as : List Act} {p' : Pc} (h : plan m alive t p c = some (as, p')) :
    (∀ o l, Act.unl o l ∉ as) ∨
    (∃ op f o l md, p = .uWord op f o l md ∧ c = .go ∧ as = [.unl o l]) ∨
    (∃ o md l, l ∈ m.lks o md ∧ alive (m.ltid l) = false ∧ as = sweepActs m o md l) := by
  unfold plan at h
  split at h
  case h_17 => 
    obtain ⟨rfl, rfl⟩ := Option.some.inj h |> Prod.mk.inj
    exact Or.inr (Or.inl ⟨_, _, _, _, _, rfl, rfl, rfl⟩)
  case h_11 =>
    split at h
    · rename_i hc
      obtain ⟨rfl, hc2, hc3⟩ := hc
      obtain ⟨rfl, rfl⟩ := Option.some.inj h |> Prod.mk.inj
      exact Or.inr (Or.inr ⟨_, _, _, hc2, hc3, rfl⟩)
    · cases h
  case h_23 =>
    split at h
    · rename_i hc
      obtain ⟨hc1, hc2, hc3⟩ := hc
      obtain ⟨rfl, rfl⟩ := Option.some.inj h |> Prod.mk.inj
      exact Or.inr (Or.inr ⟨_, _, _, hc2, hc3, rfl⟩)
    · cases h
  all_goals
    left
    repeat' split at h
    all_goals first | (cases h; done) | (obtain ⟨rfl, rfl⟩ := Option.some.inj h |> Prod.mk.inj; simp)

structure WInv (s : State) : Prop where
  words : ∀ o, WordOK s.mem o
  lt : LT s.mem (fun u => s.alive u = false)

theorem winv_init (nf no nl : Nat) (junk : Mem) : WInv (init nf no nl junk) where
  words := by intro o; simp [WordOK, init, cnt]
  lt := by intro o md l hl; simp [init] at hl

theorem winv_step {s s' : State} {e : Ev} (hi : SInv s) (hw : WInv s) (hok : okDeath s e)
    (h : step s e = some s') : WInv s' := by
  rcases step_cases h with ⟨t, c, r, rfl, ht0, hal, hpc, rfl⟩ | ⟨t, c, p, rfl, hal, hpc, hl, rfl⟩ |
    ⟨t, c, p, rfl, hal, hpc, rfl⟩ | ⟨t, c, as, p', rfl, hal, hpl, rfl⟩ |
    ⟨t, c, k, as, rfl, hal, hpl, rfl⟩
  · exact ⟨hw.words, hw.lt⟩
  · exact ⟨hw.words, hw.lt⟩
  · exact ⟨hw.words, hw.lt⟩
  · have ok := plan_ok hi.sok hal (hi.thr t hal).2 (hi.thr t hal).1 hpl
    refine ⟨words_acts hi.sok hw.words ok.ok
      (plan_word hi.sok (hi.thr t hal).2 hpl hw.words hw.lt), ?_⟩
    show LT (s.mem.acts as) (fun u => s.alive u = false)
    rcases plan_unl hpl with h1 | ⟨op, f, o, l, md, hpc, _, rfl⟩ | ⟨o, md, l, hl, hd, rfl⟩
    · exact lt_acts ok.ok h1 hw.lt
    · refine act_lt ok.ok.1 ok.ok.2.1 ?_ hw.lt
      intro o' l' e
      cases e
      right
      have := (hi.thr t hal).2
      rw [hpc] at this
      rw [this.2.2.2.1, hal]; simp
    · have := sweep_lt (t := t) hi.sok hl hd (sweepActs s.mem o md l).length hw.lt
      rwa [List.take_length] at this
  · have hok' : OkAll s.alive t s.mem as ∧ PreWAll s.mem as := by
      rcases hpl with ⟨p', hpl⟩ | ⟨_, rfl⟩
      · have ok := plan_ok hi.sok hal (hi.thr t hal).2 (hi.thr t hal).1 hpl
        exact ⟨ok.ok, plan_word hi.sok (hi.thr t hal).2 hpl hw.words hw.lt⟩
      · exact ⟨trivial, trivial⟩
    have hk := okAll_take k hok'.1
    refine ⟨words_acts hi.sok hw.words hk (preWAll_take k hok'.2), ?_⟩
    show LT (s.mem.acts (as.take k)) (fun u => fset s.alive t false u = false)
    -- if the dying thread is not in the middle of an unlock, its locked lockers are counted
    have hstart : (∀ op f o l md, s.pc t ≠ .uFlag op f o l md) →
        LT s.mem (fun u => fset s.alive t false u = false) := by
      intro hn o md l hl hS hlk
      by_cases e : s.mem.ltid l = t
      · by_contra hc
        have := ((hi.thr t hal).1 o md l hl e).2.1 hlk (by simpa using hc)
        cases hp : s.pc t <;> simp [uslot, hp] at this
        exact hn _ _ _ _ _ hp
      · rw [fset_other _ _ e] at hS
        exact hw.lt o md l hl hS hlk
    by_cases huf : ∃ op f o l md, s.pc t = .uFlag op f o l md
    · obtain ⟨op, f, o, l, md, hpc⟩ := huf
      simp only [okDeath, hpc] at hok
      obtain ⟨rfl, hk0⟩ := hok
      rcases hpl with ⟨p', hpl⟩ | ⟨hn, _⟩
      · rw [hpc] at hpl
        simp only [plan] at hpl
        obtain ⟨rfl, rfl⟩ := Option.some.inj hpl |> Prod.mk.inj
        cases k with
        | zero => exact absurd rfl hk0
        | succ k =>
          simp only [List.take_succ_cons, List.take_nil]
          intro z md' x hx hS hlk
          by_cases e : x = l
          · subst e; simp [Mem.acts, Mem.act] at hlk
          · simp only [Mem.acts, List.foldl, Mem.act, fset_other _ _ e] at hx hS hlk ⊢
            by_cases et : s.mem.ltid x = t
            · by_contra hc
              have := ((hi.thr t hal).1 z md' x hx et).2.1 hlk (by simpa using hc)
              rw [hpc] at this
              simp [uslot] at this
              exact e this.symm
            · rw [fset_other _ _ et] at hS
              exact hw.lt z md' x hx hS hlk
      · rw [hpc] at hn; simp [plan] at hn
    · have hn : ∀ op f o l md, s.pc t ≠ .uFlag op f o l md := fun op f o l md e =>
        huf ⟨op, f, o, l, md, e⟩
      have h0 := hstart hn
      rcases hpl with ⟨p', hpl⟩ | ⟨_, rfl⟩
      · rcases plan_unl hpl with h1 | ⟨op, f, o, l, md, hpc, rfl, rfl⟩ | ⟨o, md, l, hl, hd, rfl⟩
        · refine lt_acts hk ?_ h0
          intro o l hm
          exact h1 o l (List.mem_of_mem_take hm)
        · simp only [okDeath, hpc] at hok
          have : k = 0 := by simpa using hok
          subst this
          exact h0
        · exact sweep_lt (t := t) hi.sok hl hd k h0
      · simpa [Mem.acts] using h0

end Fullock.FL
