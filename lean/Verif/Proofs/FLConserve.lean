import Verif.Proofs.FLSweep
/-! Conservation of records. -/
namespace Fullock.FL
open Fullock.Spec

/-- All record numbers in use are below the capacities. -/
structure Bnd (nf no nl : Nat) (m : Mem) : Prop where
  ff : ∀ f ∈ m.ffree, f < nf
  fs : ∀ f ∈ m.files, f < nf
  of : ∀ o ∈ m.ofree, o < no
  os : ∀ f, ∀ o ∈ m.offs f, o < no
  lf : ∀ l ∈ m.lfree, l < nl
  ls : ∀ o md, ∀ l ∈ m.lks o md, l < nl

def ActB (nf no nl : Nat) : Act → Prop
  | .insF f => f < nf
  | .insO _ o _ => o < no
  | .insL _ _ l _ _ => l < nl
  | .pushF f => f < nf
  | .pushO o => o < no
  | .pushL l => l < nl
  | _ => True

theorem act_bnd {nf no nl : Nat} {m : Mem} {a : Act} (h : Bnd nf no nl m) (ha : ActB nf no nl a) :
    Bnd nf no nl (m.act a) := by
  obtain ⟨h1, h2, h3, h4, h5, h6⟩ := h
  cases a with
  | popF => exact ⟨fun f hf => h1 f (mem_tail hf), h2, h3, h4, h5, h6⟩
  | popO => exact ⟨h1, h2, fun f hf => h3 f (mem_tail hf), h4, h5, h6⟩
  | popL => exact ⟨h1, h2, h3, h4, fun f hf => h5 f (mem_tail hf), h6⟩
  | insF f =>
    refine ⟨h1, ?_, h3, h4, h5, h6⟩
    intro g hg
    rcases List.mem_cons.mp hg with rfl | hg
    · exact ha
    · exact h2 g hg
  | iniF f k =>
    refine ⟨h1, h2, h3, ?_, h5, h6⟩
    · intro g o ho
      simp only [Mem.act, fset] at ho
      split at ho
      · simp at ho
      · exact h4 g o ho
  | insO f o r =>
    refine ⟨h1, h2, h3, ?_, h5, ?_⟩
    · intro g x hx
      simp only [Mem.act, fset] at hx
      split at hx
      · rcases List.mem_cons.mp hx with rfl | hx
        · exact ha
        · exact h4 _ x hx
      · exact h4 g x hx
    · intro z md l hl
      simp only [Mem.act, fset] at hl
      split at hl
      · simp at hl
      · exact h6 z md l hl
  | insL o md l t fd =>
    refine ⟨h1, h2, h3, h4, h5, ?_⟩
    intro z md' x hx
    simp only [Mem.act, lkset] at hx
    split at hx
    · rcases List.mem_cons.mp hx with rfl | hx
      · exact ha
      · exact h6 _ _ x hx
    · exact h6 z md' x hx
  | cutL o md l =>
    refine ⟨h1, h2, h3, h4, h5, ?_⟩
    intro z md' x hx
    simp only [Mem.act, lkset] at hx
    split at hx
    · exact h6 _ _ x (List.mem_of_mem_erase hx)
    · exact h6 z md' x hx
  | pushL l =>
    refine ⟨h1, h2, h3, h4, ?_, h6⟩
    intro x hx
    rcases List.mem_cons.mp hx with rfl | hx
    · exact ha
    · exact h5 x hx
  | cutO f o =>
    refine ⟨h1, h2, h3, ?_, h5, h6⟩
    intro g x hx
    simp only [Mem.act, fset] at hx
    split at hx
    · exact h4 _ x (List.mem_of_mem_erase hx)
    · exact h4 g x hx
  | pushO o =>
    refine ⟨h1, h2, ?_, h4, h5, h6⟩
    intro x hx
    rcases List.mem_cons.mp hx with rfl | hx
    · exact ha
    · exact h3 x hx
  | drainO f =>
    refine ⟨h1, h2, ?_, ?_, ?_, ?_⟩
    · intro x hx
      simp only [Mem.act, List.mem_append, List.mem_reverse] at hx
      rcases hx with hx | hx
      · exact h4 f x hx
      · exact h3 x hx
    · intro g x hx
      simp only [Mem.act, fset] at hx
      split at hx
      · simp at hx
      · exact h4 g x hx
    · intro x hx
      simp only [Mem.act, List.mem_append, List.mem_flatten, List.mem_reverse, List.mem_map] at hx
      rcases hx with ⟨_, ⟨o, ho, rfl⟩, hx⟩ | hx
      · simp only [List.mem_append, List.mem_reverse] at hx
        rcases hx with hx | hx <;> exact h6 _ _ x hx
      · exact h5 x hx
    · intro z md x hx
      simp only [Mem.act] at hx
      split at hx
      · simp at hx
      · exact h6 z md x hx
  | cutF f => exact ⟨h1, fun g hg => h2 g (List.mem_of_mem_erase hg), h3, h4, h5, h6⟩
  | pushF f =>
    refine ⟨?_, h2, h3, h4, h5, h6⟩
    intro x hx
    rcases List.mem_cons.mp hx with rfl | hx
    · exact ha
    · exact h1 x hx
  | _ => exact ⟨h1, h2, h3, h4, h5, h6⟩

theorem acts_bnd {nf no nl : Nat} : ∀ {as : List Act} {m : Mem}, Bnd nf no nl m →
    (∀ a ∈ as, ActB nf no nl a) → Bnd nf no nl (m.acts as) := by
  intro as
  induction as with
  | nil => intro m h _; exact h
  | cons a as ih =>
    intro m h ha
    exact ih (act_bnd h (ha a List.mem_cons_self)) (fun b hb => ha b (List.mem_cons_of_mem _ hb))

theorem plan_bnd {nf no nl : Nat} {m : Mem} {alive : Nat → Bool} {t : Nat} {p : Pc} {c : Choice}
    {as : List Act} {p' : Pc} (hb : Bnd nf no nl m) (hp : PcOK m t p)
    (h : plan m alive t p c = some (as, p')) : ∀ a ∈ as, ActB nf no nl a := by
  have hsw : ∀ o md l, l ∈ m.lks o md → ∀ a ∈ sweepActs m o md l, ActB nf no nl a := by
    intro o md l hl a ha
    unfold sweepActs at ha
    split at ha <;> simp at ha <;> rcases ha with rfl | rfl | rfl <;>
      first | trivial | exact hb.ls _ _ _ hl
  unfold plan at h
  split at h
  all_goals
    repeat' split at h
    all_goals first
      | (cases h; done)
      | (obtain ⟨rfl, rfl⟩ := Option.some.inj h |> Prod.mk.inj
         first
         | (simp; done)
         | (simp [ActB]; done)
         | skip)
  · rename_i hq; simp [ActB, hb.ff _ (by rw [hq]; exact List.mem_cons_self)]
  · rename_i hq; simp [ActB, hb.of _ (by rw [hq]; exact List.mem_cons_self)]
  · rename_i hq; simp [ActB, hb.lf _ (by rw [hq]; exact List.mem_cons_self)]
  · rename_i hc; exact hsw _ _ _ hc.2.1
  · rename_i hq; simp [ActB, hb.ls _ _ _ (findLk_some hq).1]
  · rename_i hq _; simp [ActB, hb.os _ _ (findOff_some hq).1]
  · rename_i hq _; simp [ActB, hb.fs _ (findFile_some hq).1]
  · simp [ActB, hb.ls _ _ _ hp.1.2.2]
  · simp [ActB, hb.os _ _ hp.2]
  · simp [ActB, hb.fs _ hp]
  · rename_i hc; exact hsw _ _ _ hc.2.1
  · rename_i hc; simp [ActB, hb.os _ _ hc.2.1]
  · rename_i hc; simp [ActB, hb.fs _ hc.1]

theorem bnd_step {nf no nl : Nat} {s s' : State} {e : Ev} (hi : SInv s) (hb : Bnd nf no nl s.mem)
    (h : step s e = some s') : Bnd nf no nl s'.mem := by
  rcases step_cases h with ⟨t, c, r, rfl, ht0, hal, hpc, rfl⟩ | ⟨t, c, p, rfl, hal, hpc, hl, rfl⟩ |
    ⟨t, c, p, rfl, hal, hpc, rfl⟩ | ⟨t, c, as, p', rfl, hal, hpl, rfl⟩ |
    ⟨t, c, k, as, rfl, hal, hpl, rfl⟩
  · exact hb
  · exact hb
  · exact hb
  · exact acts_bnd hb (plan_bnd hb (hi.thr t hal).2 hpl)
  · rcases hpl with ⟨p', hpl⟩ | ⟨hnone, rfl⟩
    · exact acts_bnd hb (fun a ha => plan_bnd hb (hi.thr t hal).2 hpl a (List.mem_of_mem_take ha))
    · simp only [List.take_nil]; exact hb

/-! Nothing gets lost when nobody dies. -/

def FileIn (m : Mem) (f : Nat) : Prop := f ∈ m.ffree ∨ f ∈ m.files

def LockerIn (m : Mem) (l : Nat) : Prop := l ∈ m.lfree ∨ ∃ f o md, Att m f o md l

def UnitIn (m : Mem) (o : Nat) : Prop := o ∈ m.ofree ∨ ∃ f, f ∈ m.files ∧ o ∈ m.offs f

theorem cutpush_file {m : Mem} {f x : Nat} (h : FileIn m x) :
    x ∈ f :: m.ffree ∨ x ∈ m.files.erase f := by
  rcases h with h | h
  · exact Or.inl (List.mem_cons_of_mem _ h)
  · by_cases e : x = f
    · exact Or.inl (e ▸ List.mem_cons_self)
    · exact Or.inr ((List.mem_erase_of_ne e).mpr h)

theorem plan_fileIn {m : Mem} {alive : Nat → Bool} {t : Nat} {p : Pc} {c : Choice}
    {as : List Act} {p' : Pc} (h : plan m alive t p c = some (as, p')) {x : Nat} (hx : FileIn m x) :
    FileIn (m.acts as) x := by
  unfold plan at h
  split at h
  all_goals
    repeat' split at h
    all_goals first
      | (cases h; done)
      | (obtain ⟨rfl, rfl⟩ := Option.some.inj h |> Prod.mk.inj
         first
         | exact hx
         | (simp only [sweepActs]; split <;> exact hx)
         | skip)
  · rename_i hq;
    rcases hx with h1 | h1
    · rw [hq] at h1
      rcases List.mem_cons.mp h1 with rfl | h1
      · exact Or.inr List.mem_cons_self
      · left; simp [Mem.acts, Mem.act, hq, h1]
    · exact Or.inr (List.mem_cons_of_mem _ h1)
  · exact cutpush_file hx
  · exact cutpush_file hx
  · exact cutpush_file hx

/-- Actions that neither remove a locker nor take one from the pool. -/
def Act.keepsL : Act → Bool
  | .popL | .cutL .. => false
  | _ => true

theorem acts_lockerIn {alive : Nat → Bool} {t : Nat} {pc : Nat → Pc} : ∀ {as : List Act} {m : Mem},
    GInv m alive pc t → OkAll alive t m as → (∀ a ∈ as, a.keepsL = true) → ∀ {x}, LockerIn m x →
    LockerIn (m.acts as) x := by
  intro as
  induction as with
  | nil => intro m _ _ _ x h; exact h
  | cons a as ih =>
    intro m g hk ha x h
    refine ih (ginv_act g hk.1 hk.2.1) hk.2.2 (fun b hb => ha b (List.mem_cons_of_mem _ hb)) ?_
    have hka := ha a List.mem_cons_self
    rcases h with h | ⟨f, o, md, h⟩
    · left
      cases a <;> simp only [Act.keepsL, Bool.false_eq_true] at hka <;>
        first
        | exact h
        | exact List.mem_cons_of_mem _ h
        | exact List.mem_append_right _ h
    · right
      refine ⟨f, o, md, (act_att g.sok hk.1 h ?_).1⟩
      intro o' md' e
      rw [e] at hka; simp [Act.keepsL] at hka

theorem cutpush_locker {m : Mem} (hs : SOK m) {o : Nat} {md : Mode} {l x : Nat} (h : LockerIn m x)
    {m' : Mem} (h1 : m'.lks = (m.act (.cutL o md l)).lks) (h2 : m'.lfree = l :: m.lfree)
    (h3 : m'.files = m.files) (h4 : m'.offs = m.offs) : LockerIn m' x := by
  rcases h with h | ⟨f, z, md', a⟩
  · exact Or.inl (by rw [h2]; exact List.mem_cons_of_mem _ h)
  · by_cases e : x = l
    · exact Or.inl (by rw [h2, e]; exact List.mem_cons_self)
    · right
      have := (act_att hs (a := .cutL o md l) trivial a (by intro _ _ hh; exact e (by cases hh; rfl))).1
      exact ⟨f, z, md', by rw [h3]; exact a.1, by rw [h4]; exact a.2.1, by rw [h1]; exact this.2.2⟩

theorem sweep_locker {m : Mem} (hs : SOK m) {o : Nat} {md : Mode} {l x : Nat} (h : LockerIn m x) :
    LockerIn (m.acts (sweepActs m o md l)) x := by
  unfold sweepActs
  split
  · exact cutpush_locker hs (o := o) (md := md) (l := l) h rfl rfl rfl rfl
  · exact cutpush_locker hs (o := o) (md := md) (l := l) h rfl rfl rfl rfl

theorem plan_lockerIn {s : State} (hi : SInv s) {t : Nat} (hal : s.alive t = true) {c : Choice}
    {as : List Act} {p' : Pc} (h : plan s.mem s.alive t (s.pc t) c = some (as, p')) {x : Nat}
    (hx : LockerIn s.mem x) : LockerIn (s.mem.acts as) x := by
  have ok := plan_ok hi.sok hal (hi.thr t hal).2 (hi.thr t hal).1 h
  by_cases hkeep : ∀ a ∈ as, a.keepsL = true
  · exact acts_lockerIn (sinv_ginv hi t) ok.ok hkeep hx
  · have hpk := (hi.thr t hal).2
    generalize s.pc t = p at *
    unfold plan at h
    split at h
    all_goals
      repeat' split at h
      all_goals first
        | (cases h; done)
        | (obtain ⟨rfl, rfl⟩ := Option.some.inj h |> Prod.mk.inj
           first
           | (exfalso; apply hkeep; simp [Act.keepsL]; done)
           | skip)
    · rename_i op f o _ l _ hq;
      rcases hx with h1 | ⟨f', o', md', a⟩
      · rw [hq] at h1
        rcases List.mem_cons.mp h1 with rfl | h1
        · refine Or.inr ⟨f, o, op.mode, hpk.1, hpk.2.2.1, ?_⟩
          simp [Mem.acts, Mem.act]
        · left; simp [Mem.acts, Mem.act, hq, h1]
      · have hp2 := ok.ok.2.2
        have := act_att (act_sok hi.sok (a := .popL) trivial) hp2.1 (f := f') (o := o') (md := md')
          (l := x) a (by simp)
        exact Or.inr ⟨f', o', md', this.1⟩
    · rename_i hc; exact sweep_locker hi.sok hx
    · rename_i hq; exact cutpush_locker hi.sok hx rfl rfl rfl rfl
    · exact cutpush_locker hi.sok hx rfl rfl rfl rfl
    · rename_i hc; exact sweep_locker hi.sok hx

/-- The unlock request a thread is executing. -/
def uop : Pc → Option Op
  | .acq p => uop p
  | .rel p => uop p
  | .uFind op | .uWord op .. | .uFlag op .. | .uCut op .. | .uOff op .. | .uFile op .. => some op
  | _ => none

theorem plan_uop {m : Mem} {alive : Nat → Bool} {t : Nat} {p : Pc} {c : Choice} {as : List Act}
    {p' : Pc} (h : plan m alive t p c = some (as, p')) {op : Op} (ho : uop p' = some op) :
    uop p = some op := by
  unfold plan at h
  split at h
  all_goals
    repeat' split at h
    all_goals first
      | (cases h; done)
      | (obtain ⟨rfl, rfl⟩ := Option.some.inj h |> Prod.mk.inj
         first
         | exact ho
         | (simp [uop] at ho; done)
         | (simp only [uop, after2, after3] at ho; repeat' split at ho
            all_goals (simp [uop] at ho)))

theorem cutpush_unit {m : Mem} (hs : SOK m) {f o x : Nat} (hx : UnitIn m x) :
    x ∈ o :: m.ofree ∨ ∃ g, g ∈ m.files ∧ x ∈ fset m.offs f ((m.offs f).erase o) g := by
  rcases hx with h | ⟨g, hg, hx⟩
  · exact Or.inl (List.mem_cons_of_mem _ h)
  · by_cases e : x = o
    · exact Or.inl (e ▸ List.mem_cons_self)
    · refine Or.inr ⟨g, hg, ?_⟩
      by_cases e2 : g = f
      · subst e2; simp; exact (List.mem_erase_of_ne e).mpr hx
      · rw [fset_other _ _ e2]; exact hx

theorem plan_unitIn {m : Mem} (hs : SOK m) {alive : Nat → Bool} {t : Nat} {p : Pc} {c : Choice}
    {as : List Act} {p' : Pc} (hp : PcOK m t p) (hu : ∀ op, uop p = some op → op.freeFd = false)
    (h : plan m alive t p c = some (as, p')) {x : Nat} (hx : UnitIn m x) :
    UnitIn (m.acts as) x := by
  unfold plan at h
  split at h
  all_goals
    repeat' split at h
    all_goals first
      | (cases h; done)
      | (obtain ⟨rfl, rfl⟩ := Option.some.inj h |> Prod.mk.inj
         first
         | exact hx
         | (simp only [sweepActs]; split <;> exact hx)
         | skip)
  · rename_i op _ hnf _ f rest hq;
    rcases hx with h1 | ⟨g, hg, hx⟩
    · exact Or.inl h1
    · refine Or.inr ⟨g, List.mem_cons_of_mem _ hg, ?_⟩
      have : g ≠ f := by
        intro e; subst e
        exact hs.fdisj g (by rw [hq]; exact List.mem_cons_self) hg
      simpa [Mem.acts, Mem.act, fset_other _ _ this] using hx
  · rename_i op f _ hno _ o rest hq;
    rcases hx with h1 | ⟨g, hg, hx⟩
    · rw [hq] at h1
      rcases List.mem_cons.mp h1 with rfl | h1
      · exact Or.inr ⟨f, hp.1, by simp [Mem.acts, Mem.act]⟩
      · left; simp [Mem.acts, Mem.act, hq, h1]
    · refine Or.inr ⟨g, hg, ?_⟩
      simp only [Mem.acts, List.foldl_cons, List.foldl_nil, Mem.act, fset]
      split
      · rename_i e; subst e; exact List.mem_cons_of_mem _ hx
      · exact hx
  · exact cutpush_unit hs hx
  · rename_i f _ _;
    rcases hx with h1 | ⟨g, hg, hx⟩
    · exact Or.inl (List.mem_append_right _ h1)
    · by_cases e : g = f
      · subst e
        exact Or.inl (List.mem_append_left _ (List.mem_reverse.mpr hx))
      · refine Or.inr ⟨g, (List.mem_erase_of_ne e).mpr hg, ?_⟩
        simpa [Mem.acts, Mem.act, fset_other _ _ e] using hx
  · exact cutpush_unit hs hx
  · rename_i hc;
    exfalso
    have := hu _ rfl
    simp [this] at hc
  · exact cutpush_unit hs hx
  · rename_i f hc;
    rcases hx with h1 | ⟨g, hg, hx⟩
    · exact Or.inl h1
    · refine Or.inr ⟨g, (List.mem_erase_of_ne ?_).mpr hg, hx⟩
      intro e; subst e; rw [hc.2.1] at hx; simp at hx

/-- All together, for runs without deaths. -/
structure Kept (nf no nl : Nat) (s : State) : Prop where
  bnd : Bnd nf no nl s.mem
  files : ∀ f < nf, FileIn s.mem f
  lockers : ∀ l < nl, LockerIn s.mem l

/-- Unlock calls do not release file records. -/
def KeepFd : Ev → Prop
  | .call _ (.unlock op) => op.freeFd = false
  | _ => True

structure KeptU (no : Nat) (s : State) : Prop where
  units : ∀ o < no, UnitIn s.mem o
  uops : ∀ t op, uop (s.pc t) = some op → op.freeFd = false

theorem kept_step {nf no nl : Nat} {s s' : State} {e : Ev} (hi : SInv s) (hk : Kept nf no nl s)
    (hnd : noDeath s e) (h : step s e = some s') : Kept nf no nl s' := by
  have hb := bnd_step hi hk.bnd h
  rcases step_cases h with ⟨t, c, r, rfl, ht0, hal, hpc, rfl⟩ | ⟨t, c, p, rfl, hal, hpc, hl, rfl⟩ |
    ⟨t, c, p, rfl, hal, hpc, rfl⟩ | ⟨t, c, as, p', rfl, hal, hpl, rfl⟩ |
    ⟨t, c, k, as, rfl, hal, hpl, rfl⟩
  · exact ⟨hk.bnd, hk.files, hk.lockers⟩
  · exact ⟨hk.bnd, hk.files, hk.lockers⟩
  · exact ⟨hk.bnd, hk.files, hk.lockers⟩
  · exact ⟨hb, fun f hf => plan_fileIn hpl (hk.files f hf),
      fun l hl => plan_lockerIn hi hal hpl (hk.lockers l hl)⟩
  · exact absurd hnd (by simp [noDeath])

theorem keptU_step {no : Nat} {s s' : State} {e : Ev} (hi : SInv s) (hk : KeptU no s)
    (hnd : noDeath s e) (hfd : KeepFd e) (h : step s e = some s') : KeptU no s' := by
  rcases step_cases h with ⟨t, c, r, rfl, ht0, hal, hpc, rfl⟩ | ⟨t, c, p, rfl, hal, hpc, hl, rfl⟩ |
    ⟨t, c, p, rfl, hal, hpc, rfl⟩ | ⟨t, c, as, p', rfl, hal, hpl, rfl⟩ |
    ⟨t, c, k, as, rfl, hal, hpl, rfl⟩
  · refine ⟨hk.units, ?_⟩
    intro u op ho
    by_cases e : u = t
    · subst e
      simp only [State.setPc, fset_same] at ho
      cases c <;> simp [Call.start, uop] at ho
      subst ho; exact hfd
    · simp only [State.setPc, fset_pc_other e] at ho
      exact hk.uops u op ho
  · refine ⟨hk.units, ?_⟩
    intro u op ho
    by_cases e : u = t
    · subst e
      simp only [State.setPc, fset_same] at ho
      exact hk.uops u op (by rw [hpc]; exact ho)
    · simp only [State.setPc, fset_pc_other e] at ho
      exact hk.uops u op ho
  · refine ⟨hk.units, ?_⟩
    intro u op ho
    by_cases e : u = t
    · subst e
      simp only [State.setPc, fset_same] at ho
      exact hk.uops u op (by rw [hpc]; exact ho)
    · simp only [State.setPc, fset_pc_other e] at ho
      exact hk.uops u op ho
  · refine ⟨fun o ho => plan_unitIn hi.sok (hi.thr t hal).2 (hk.uops t) hpl (hk.units o ho), ?_⟩
    intro u op ho
    by_cases e : u = t
    · subst e
      simp only [State.setPc, fset_same] at ho
      exact hk.uops u op (plan_uop hpl ho)
    · simp only [State.setPc, fset_pc_other e] at ho
      exact hk.uops u op ho
  · exact absurd hnd (by simp [noDeath])

end Fullock.FL
