import Verif.Proofs.FLConserve
/-! Protect flags; records of locks in force stay where they are. -/
namespace Fullock.FL
open Fullock.Spec

/-- The file record protected by a thread at this place. -/
def fAt : Pc → Option Nat
  | .lOff _ f | .lFProt _ f _ => some f
  | _ => none

/-- The range record protected by a thread at this place. -/
def oAt : Pc → Option Nat
  | .lFProt _ _ o | .lLk _ _ o | .lOProt _ _ o _ | .rChk _ _ o _ => some o
  | _ => none

def Listed (m : Mem) (o : Nat) : Prop := ∃ f ∈ m.files, o ∈ m.offs f

theorem plan_fprot {m : Mem} {alive : Nat → Bool} {t : Nat} {p : Pc} {c : Choice} {as : List Act}
    {p' : Pc} (h : plan m alive t p c = some (as, p')) (hne : m.ofree ≠ []) {f : Nat}
    (hp : (m.acts as).fprot f = true) (hf : f ∈ (m.acts as).files) :
    fAt p' = some f ∨ (m.fprot f = true ∧ f ∈ m.files ∧ fAt p ≠ some f) := by
  unfold plan at h
  split at h
  all_goals
    repeat' split at h
    all_goals first
      | (cases h; done)
      | (obtain ⟨rfl, rfl⟩ := Option.some.inj h |> Prod.mk.inj
         first
         | (refine Or.inr ⟨hp, hf, ?_⟩; simp [fAt]; done)
         | (simp only [sweepActs] at hp hf; split at hp <;> split at hf <;>
              (refine Or.inr ⟨hp, hf, ?_⟩; simp [fAt]; done))
         | skip)
  · rename_i g _
    by_cases e : f = g
    · subst e; exact Or.inl rfl
    · simp only [Mem.acts, List.foldl_cons, List.foldl_nil, Mem.act, fset_other _ _ e] at hp
      exact Or.inr ⟨hp, hf, by simp [fAt]⟩
  · rename_i g _ _
    by_cases e : f = g
    · subst e; exact Or.inl rfl
    · simp only [Mem.acts, List.foldl_cons, List.foldl_nil, Mem.act, fset_other _ _ e] at hp
      simp only [Mem.acts, List.foldl_cons, List.foldl_nil, Mem.act, List.mem_cons] at hf
      exact Or.inr ⟨hp, by rcases hf with hf | hf; exact absurd hf e; exact hf, by simp [fAt]⟩
  · rename_i op g _ o _
    by_cases e : f = g
    · subst e; exact Or.inl rfl
    · exact Or.inr ⟨hp, hf, by simp [fAt]; exact fun h => e h.symm⟩
  · exact absurd ‹_› hne
  · rename_i op g _ _ _ o _ _
    by_cases e : f = g
    · subst e; exact Or.inl rfl
    · exact Or.inr ⟨hp, hf, by simp [fAt]; exact fun h => e h.symm⟩
  · rename_i op g o
    by_cases e : f = g
    · subst e; simp [Mem.acts, Mem.act] at hp
    · simp only [Mem.acts, List.foldl_cons, List.foldl_nil, Mem.act, fset_other _ _ e] at hp
      exact Or.inr ⟨hp, hf, by simp [fAt]; exact fun h => e h.symm⟩
  all_goals exact Or.inr ⟨hp, List.mem_of_mem_erase hf, by simp [fAt]⟩

theorem plan_oprot {m : Mem} {alive : Nat → Bool} {t : Nat} {p : Pc} {c : Choice} {as : List Act}
    {p' : Pc} (h : plan m alive t p c = some (as, p')) (hne : m.lfree ≠ []) {o : Nat}
    (hp : (m.acts as).oprot o = true) (hf : Listed (m.acts as) o) :
    oAt p' = some o ∨ (m.oprot o = true ∧ Listed m o ∧ oAt p ≠ some o) := by
  have cutc : ∀ f x : Nat, (∃ g ∈ m.files, o ∈ fset m.offs f ((m.offs f).erase x) g) → Listed m o := by
    rintro f x ⟨g, hg, ho⟩
    refine ⟨g, hg, ?_⟩
    by_cases e : g = f
    · subst e; simp at ho; exact List.mem_of_mem_erase ho
    · rwa [fset_other _ _ e] at ho
  unfold plan at h
  split at h
  all_goals
    repeat' split at h
    all_goals first
      | (cases h; done)
      | (obtain ⟨rfl, rfl⟩ := Option.some.inj h |> Prod.mk.inj
         first
         | (refine Or.inr ⟨hp, hf, ?_⟩; simp [oAt]; done)
         | skip)
  · rename_i g _ _
    refine Or.inr ⟨hp, ?_, by simp [oAt]⟩
    obtain ⟨x, hx, ho⟩ := hf
    by_cases e : x = g
    · subst e; simp [Mem.acts, Mem.act] at ho
    · simp only [Mem.acts, List.foldl_cons, List.foldl_nil, Mem.act, fset_other _ _ e] at ho
      simp only [Mem.acts, List.foldl_cons, List.foldl_nil, Mem.act, List.mem_cons] at hx
      exact ⟨x, by rcases hx with hx | hx; exact absurd hx e; exact hx, ho⟩
  · rename_i u _
    by_cases e : o = u
    · subst e; exact Or.inl rfl
    · simp only [Mem.acts, List.foldl_cons, List.foldl_nil, Mem.act, fset_other _ _ e] at hp
      exact Or.inr ⟨hp, hf, by simp [oAt]⟩
  · rename_i op g _ _ _ u _ _
    by_cases e : o = u
    · subst e; exact Or.inl rfl
    · simp only [Mem.acts, List.foldl_cons, List.foldl_nil, Mem.act, fset_other _ _ e] at hp
      refine Or.inr ⟨hp, ?_, by simp [oAt]⟩
      obtain ⟨x, hx, ho⟩ := hf
      refine ⟨x, hx, ?_⟩
      simp only [Mem.acts, List.foldl_cons, List.foldl_nil, Mem.act, fset] at ho
      split at ho
      · rename_i e2; subst e2
        rcases List.mem_cons.mp ho with h' | h'
        · exact absurd h' e
        · exact h'
      · exact ho
  · rename_i op g u
    by_cases e : o = u
    · subst e; exact Or.inl rfl
    · exact Or.inr ⟨hp, hf, by simp [oAt]; exact fun h => e h.symm⟩
  · exact absurd ‹_› hne
  · rename_i op g u _ l _ _
    by_cases e : o = u
    · subst e; exact Or.inl rfl
    · exact Or.inr ⟨hp, hf, by simp [oAt]; exact fun h => e h.symm⟩
  · rename_i op g u l
    by_cases e : o = u
    · subst e; simp [Mem.acts, Mem.act] at hp
    · simp only [Mem.acts, List.foldl_cons, List.foldl_nil, Mem.act, fset_other _ _ e] at hp
      exact Or.inr ⟨hp, hf, by simp [oAt]; exact fun h => e h.symm⟩
  · rename_i op g u l
    by_cases e : o = u
    · subst e; exact Or.inl rfl
    · simp only [Mem.acts, List.foldl_cons, List.foldl_nil, Mem.act, fset_other _ _ e] at hp
      exact Or.inr ⟨hp, hf, by simp [oAt]⟩
  · rename_i op g u l md l' _ hc
    by_cases e : o = u
    · subst e; exact Or.inl rfl
    · simp only [sweepActs] at hp hf
      split at hp <;> split at hf <;>
        exact Or.inr ⟨hp, hf, by simp [oAt]; exact fun h => e h.symm⟩
  · rename_i op g u l
    by_cases e : o = u
    · subst e; simp [Mem.acts, Mem.act] at hp
    · simp only [Mem.acts, List.foldl_cons, List.foldl_nil, Mem.act, fset_other _ _ e] at hp
      exact Or.inr ⟨hp, hf, by simp [oAt]; exact fun h => e h.symm⟩
  · exact Or.inr ⟨hp, cutc _ _ hf, by simp [oAt]⟩
  · rename_i g _ _
    refine Or.inr ⟨hp, ?_, by simp [oAt]⟩
    obtain ⟨x, hx, ho⟩ := hf
    refine ⟨x, List.mem_of_mem_erase hx, ?_⟩
    simp only [Mem.acts, List.foldl_cons, List.foldl_nil, Mem.act, fset] at ho
    split at ho
    · simp at ho
    · exact ho
  · exact Or.inr ⟨hp, cutc _ _ hf, by simp [oAt]⟩
  · obtain ⟨x, hx, ho⟩ := hf
    exact Or.inr ⟨hp, ⟨x, List.mem_of_mem_erase hx, ho⟩, by simp [oAt]⟩
  · simp only [sweepActs] at hp hf
    split at hp <;> split at hf <;> exact Or.inr ⟨hp, hf, by simp [oAt]⟩
  · exact Or.inr ⟨hp, cutc _ _ hf, by simp [oAt]⟩
  · obtain ⟨x, hx, ho⟩ := hf
    exact Or.inr ⟨hp, ⟨x, List.mem_of_mem_erase hx, ho⟩, by simp [oAt]⟩

/-- Protect flags are set only while a thread needs them. -/
structure PInv (s : State) : Prop where
  fp : ∀ f, s.mem.fprot f = true → f ∈ s.mem.files → ∃ u, s.alive u = true ∧ fAt (s.pc u) = some f
  op : ∀ o, s.mem.oprot o = true → Listed s.mem o → ∃ u, s.alive u = true ∧ oAt (s.pc u) = some o

/-- Nobody dies and the pools of range and locker records never run empty. -/
def roomy (s : State) (e : Ev) : Prop := noDeath s e ∧ s.mem.ofree ≠ [] ∧ s.mem.lfree ≠ []

theorem pinv_step {s s' : State} {e : Ev} (_hi : SInv s) (hp : PInv s) (ha : roomy s e)
    (h : step s e = some s') : PInv s' := by
  obtain ⟨hnd, ho, hl⟩ := ha
  have same : ∀ t q, s.alive t = true → fAt (s.pc t) = none → oAt (s.pc t) = none →
      PInv (s.setPc t q) := by
    intro t q hal h1 h2
    refine ⟨?_, ?_⟩
    · intro f hf hm
      obtain ⟨u, hu, hu'⟩ := hp.fp f hf hm
      have : u ≠ t := by intro e; subst e; rw [h1] at hu'; cases hu'
      exact ⟨u, hu, by simpa only [State.setPc, fset_pc_other this] using hu'⟩
    · intro o hf hm
      obtain ⟨u, hu, hu'⟩ := hp.op o hf hm
      have : u ≠ t := by intro e; subst e; rw [h2] at hu'; cases hu'
      exact ⟨u, hu, by simpa only [State.setPc, fset_pc_other this] using hu'⟩
  rcases step_cases h with ⟨t, c, r, rfl, ht0, hal, hpc, rfl⟩ | ⟨t, c, p, rfl, hal, hpc, hl, rfl⟩ |
    ⟨t, c, p, rfl, hal, hpc, rfl⟩ | ⟨t, c, as, p', rfl, hal, hpl, rfl⟩ |
    ⟨t, c, k, as, rfl, hal, hpl, rfl⟩
  · exact same t _ hal (by rw [hpc]; rfl) (by rw [hpc]; rfl)
  · have := same t p hal (by rw [hpc]; rfl) (by rw [hpc]; rfl)
    exact ⟨this.fp, this.op⟩
  · have := same t p hal (by rw [hpc]; rfl) (by rw [hpc]; rfl)
    exact ⟨this.fp, this.op⟩
  · refine ⟨?_, ?_⟩
    · intro f hf hm
      rcases plan_fprot hpl ho hf hm with h1 | ⟨h1, h2, h3⟩
      · exact ⟨t, hal, by simpa [State.setPc] using h1⟩
      · obtain ⟨u, hu, hu'⟩ := hp.fp f h1 h2
        have : u ≠ t := by intro e; subst e; exact h3 hu'
        exact ⟨u, hu, by simpa only [State.setPc, fset_pc_other this] using hu'⟩
    · intro o hf hm
      rcases plan_oprot hpl hl hf hm with h1 | ⟨h1, h2, h3⟩
      · exact ⟨t, hal, by simpa [State.setPc] using h1⟩
      · obtain ⟨u, hu, hu'⟩ := hp.op o h1 h2
        have : u ≠ t := by intro e; subst e; exact h3 hu'
        exact ⟨u, hu, by simpa only [State.setPc, fset_pc_other this] using hu'⟩
  · exact absurd hnd (by simp [noDeath])

theorem reach_pinv {A : State → Ev → Prop} (hA : ∀ s e, A s e → roomy s e) {s : State}
    (hr : Reach A s) : PInv s :=
  (reach_inv (I := PInv) (fun nf no nl junk =>
      ⟨fun f _ hm => by simp [init] at hm, fun o _ hm => by obtain ⟨x, hx, _⟩ := hm; simp [init] at hx⟩)
    (fun _ _ _ hi hw ha hs => pinv_step hi hw (hA _ _ ha) hs) hr).2

/-- When all threads are outside, exactly the files with a lock in force are "locked". -/
theorem quiet_fLocked {s : State} (hi : SInv s) (hp : PInv s)
    (hal : ∀ u, s.alive u = true) (hq : ∀ u, ∃ r, s.pc u = .done r) {f : Nat}
    (hf : f ∈ s.mem.files) :
    fLocked s.mem f = true ↔ ∃ x ∈ s.mem.outs, x.2.key = s.mem.key f := by
  constructor
  · intro h
    unfold fLocked at h
    rw [Bool.or_eq_true] at h
    rcases h with h | h
    · obtain ⟨u, _, hu⟩ := hp.fp f h hf
      obtain ⟨r, hr⟩ := hq u
      rw [hr] at hu; cases hu
    · obtain ⟨o, ho, hk⟩ := List.any_eq_true.mp h
      have hex : ∃ md l, l ∈ s.mem.lks o md := by
        unfold oLocked at hk
        simp only [Bool.or_eq_true, Bool.not_eq_true', List.isEmpty_eq_false_iff_exists_mem] at hk
        rcases hk with (hk | ⟨l, hl⟩) | ⟨l, hl⟩
        · obtain ⟨u, _, hu⟩ := hp.op o hk ⟨f, hf, ho⟩
          obtain ⟨r, hr⟩ := hq u
          rw [hr] at hu; cases hu
        · exact ⟨_, l, hl⟩
        · exact ⟨_, l, hl⟩
      obtain ⟨md, l, hl⟩ := hex
      obtain ⟨r, hr⟩ := hq (s.mem.ltid l)
      obtain ⟨h, hm, _, _, q3, _⟩ := idle_out hi (hal _) hr (f := f) (o := o) (md := md) (l := l)
        ⟨hf, ho, hl⟩ rfl
      exact ⟨_, hm, q3⟩
  · rintro ⟨x, hx, hk⟩
    obtain ⟨f', o, a, b1, _⟩ := hi.outs.1 x hx
    have : f' = f := hi.sok.keys f' a.1 f hf (b1.trans hk)
    subst this
    unfold fLocked
    rw [Bool.or_eq_true]; right
    refine List.any_eq_true.mpr ⟨o, a.2.1, ?_⟩
    unfold oLocked
    have := List.ne_nil_of_mem a.2.2
    cases hmd : x.2.mode <;> rw [hmd] at this <;> simp [this]

/-! The records of a lock in force stay the same. -/

theorem acts_att {alive : Nat → Bool} {t : Nat} {pc : Nat → Pc} : ∀ {as : List Act} {m : Mem},
    GInv m alive pc t → OkAll alive t m as → ∀ {f o : Nat} {md : Mode} {l : Nat},
    (∀ o' md', Act.cutL o' md' l ∉ as) → Att m f o md l →
    Att (m.acts as) f o md l ∧ (m.acts as).key f = m.key f ∧ (m.acts as).rng o = m.rng o := by
  intro as
  induction as with
  | nil => intro m _ _ f o md l _ h; exact ⟨h, rfl, rfl⟩
  | cons a as ih =>
    intro m g hk f o md l hc h
    obtain ⟨a1, a2, a3, _⟩ := act_att g.sok hk.1 h (fun o' md' e => hc o' md' (e ▸ List.mem_cons_self))
    obtain ⟨b1, b2, b3⟩ := ih (ginv_act g hk.1 hk.2.1) hk.2.2
      (fun o' md' hm => hc o' md' (List.mem_cons_of_mem _ hm)) a1
    exact ⟨b1, b2.trans a2, b3.trans a3⟩

theorem acts_outs_gone : ∀ {as : List Act} {m : Mem} {x : Nat × Out}, x ∉ m.outs →
    (∀ l h, Act.flag l h ∉ as) → x ∉ (m.acts as).outs := by
  intro as m x hx hf hm
  rcases acts_outs_new hm with h | h
  · exact hx h
  · exact hf _ _ h

theorem cut_gone : ∀ {as : List Act} {m : Mem} {x : Nat × Out} {o : Nat} {md : Mode},
    Act.cutL o md x.1 ∈ as → (∀ l h, Act.flag l h ∉ as) → x ∉ (m.acts as).outs := by
  intro as
  induction as with
  | nil => intro m x o md h _; simp at h
  | cons a as ih =>
    intro m x o md h hf
    have hf' : ∀ l h, Act.flag l h ∉ as := fun l h hm => hf l h (List.mem_cons_of_mem _ hm)
    rcases List.mem_cons.mp h with e | h
    · subst e
      refine acts_outs_gone (m := m.act (.cutL o md x.1)) ?_ hf'
      intro hm
      exact (mem_revoke.mp hm).2 rfl
    · exact ih (m := m.act a) h hf'

/-- The records of a lock in force do not change as long as the lock is in force. -/
theorem held_stays {s s' : State} {e : Ev} (hi : SInv s) (h : step s e = some s') {x : Nat × Out}
    (hx' : x ∈ s'.mem.outs) {f o : Nat} (ha : Att s.mem f o x.2.mode x.1) :
    Att s'.mem f o x.2.mode x.1 ∧ s'.mem.key f = s.mem.key f ∧ s'.mem.rng o = s.mem.rng o := by
  have key : ∀ (t : Nat) (c : Choice) (as : List Act) (p' : Pc) (k : Nat), s.alive t = true →
      plan s.mem s.alive t (s.pc t) c = some (as, p') → x ∈ (s.mem.acts (as.take k)).outs →
      Att (s.mem.acts (as.take k)) f o x.2.mode x.1 ∧ (s.mem.acts (as.take k)).key f = s.mem.key f ∧
        (s.mem.acts (as.take k)).rng o = s.mem.rng o := by
    intro t c as p' k hal hpl hm
    have ok := plan_ok hi.sok hal (hi.thr t hal).2 (hi.thr t hal).1 hpl
    refine acts_att (sinv_ginv hi t) (okAll_take k ok.ok) ?_ ha
    intro o' md' hc
    refine cut_gone hc ?_ hm
    intro l hh hfl
    obtain ⟨_, _, _, _, _, _, e⟩ := plan_flag hpl (List.mem_of_mem_take hfl)
    rw [e] at hc
    have := List.mem_of_mem_take hc
    simp at this
  rcases step_cases h with ⟨t, c, r, rfl, ht0, hal, hpc, rfl⟩ | ⟨t, c, p, rfl, hal, hpc, hl, rfl⟩ |
    ⟨t, c, p, rfl, hal, hpc, rfl⟩ | ⟨t, c, as, p', rfl, hal, hpl, rfl⟩ |
    ⟨t, c, k, as, rfl, hal, hpl, rfl⟩
  · exact ⟨ha, rfl, rfl⟩
  · exact ⟨ha, rfl, rfl⟩
  · exact ⟨ha, rfl, rfl⟩
  · have := key t c as p' as.length hal hpl (by rw [List.take_length]; exact hx')
    rwa [List.take_length] at this
  · rcases hpl with ⟨p', hpl⟩ | ⟨hnone, rfl⟩
    · exact key t c as p' k hal hpl hx'
    · simp only [List.take_nil]; exact ⟨ha, rfl, rfl⟩

/-! Frames of runs. -/

def Ev.tid : Ev → Nat
  | .call t _ | .go t _ | .die t _ _ => t

theorem step_frame {s s' : State} {e : Ev} (h : step s e = some s') {u : Nat} (hu : e.tid ≠ u) :
    s'.pc u = s.pc u ∧ s'.alive u = s.alive u := by
  rcases step_cases h with ⟨t, c, r, rfl, ht0, hal, hpc, rfl⟩ | ⟨t, c, p, rfl, hal, hpc, hl, rfl⟩ |
    ⟨t, c, p, rfl, hal, hpc, rfl⟩ | ⟨t, c, as, p', rfl, hal, hpl, rfl⟩ |
    ⟨t, c, k, as, rfl, hal, hpl, rfl⟩ <;>
  simp only [Ev.tid] at hu <;> simp [State.setPc, fset_other _ _ (Ne.symm hu)]

theorem run_frame {s s' : State} {es : List Ev} (h : run s es = some s') {u : Nat}
    (hu : ∀ e ∈ es, e.tid ≠ u) : s'.pc u = s.pc u ∧ s'.alive u = s.alive u := by
  induction es generalizing s with
  | nil => simp [run] at h; subst h; exact ⟨rfl, rfl⟩
  | cons e es ih =>
    simp only [run] at h
    cases hs : step s e with
    | none => rw [hs] at h; simp at h
    | some s1 =>
      rw [hs] at h
      have a := step_frame hs (hu e List.mem_cons_self)
      have b := ih h (fun e' he => hu e' (List.mem_cons_of_mem _ he))
      exact ⟨b.1.trans a.1, b.2.trans a.2⟩

/-- A complete sweep call by one thread alone. -/
theorem sweep_call {s : State} {t : Nat} (hi : SInv s) (hcs : CsIff s) (ht0 : t ≠ 0)
    (hal : s.alive t = true) {r : Nat} (hpc : s.pc t = .done r) (hid : OthersIdle s t) :
    ∃ cs : List Choice, ∃ s', run s (.call t .sweep :: cs.map (.go t ·)) = some s' ∧
      s' = ⟨sweepAll s.alive s.mem, 0, s.alive, fset s.pc t (.done 0)⟩ ∧
      (∀ f ∈ s'.mem.files, ∀ o ∈ s'.mem.offs f, ∀ md, ∀ l ∈ s'.mem.lks o md,
        s.alive (s'.mem.ltid l) = true) ∧
      (∀ x, x ∈ s'.mem.outs ↔ x ∈ s.mem.outs ∧ s.alive x.2.t = true) := by
  have hst : step s (.call t .sweep) = some (s.setPc t (.acq .sw)) := by
    simp [step, ht0, hal, hpc, Call.start]
  have s1 := solo_acq hal (m := s.mem) (lock_free hcs hpc hid) .sw
  have h1 := s1 (fset s.pc t (.acq .sw)) (by simp)
  rw [fset_fset] at h1
  have hs1 : run s [.call t .sweep, .go t .go] = some ⟨s.mem, t, s.alive, fset s.pc t .sw⟩ := by
    simp only [run, hst, Option.bind_some]
    exact h1
  have hi1 := run_sinv hi hs1
  obtain ⟨a, b, c⟩ := sweepAll_spec (s := ⟨s.mem, t, s.alive, fset s.pc t .sw⟩) (t := t) hal (by simp) hi1
  simp only at a b c
  obtain ⟨cs, hr⟩ := stay_run a
  simp only at hr
  have p2 : Solo s.alive t 1 (sweepAll s.alive s.mem) t .sw (sweepAll s.alive s.mem) t (.rel (.done 0)) :=
    solo_plan hal (as := []) rfl
  have p3 := solo_trans p2 (solo_rel hal (m := sweepAll s.alive s.mem) (.done 0))
  have h3 := p3 (fset s.pc t .sw) (by simp)
  rw [fset_fset] at h3
  refine ⟨.go :: cs ++ [.go, .go], _, ?_, rfl, b, c⟩
  have : Ev.call t .sweep :: List.map (fun x => Ev.go t x) (.go :: cs ++ [.go, .go]) =
      [.call t .sweep, .go t .go] ++ (List.map (fun x => Ev.go t x) cs ++ alone t 2) := by
    simp [alone, List.replicate]
  rw [this, run_append, hs1]
  simp only [Option.bind_some]
  rw [run_append, hr]
  exact h3

end Fullock.FL
