import Verif.Proofs.FLPaths
/-! Lock requests that are refused. -/
namespace Fullock.FL
open Fullock.Spec

/-- The tables while the request waits at an existing record. -/
def prepMem (m : Mem) (op : Op) (t f o l : Nat) : Mem :=
  m.acts [.fprot f true, .oprot o true, .fprot f false, .popL, .insL o op.mode l t op.fd,
    .oprot o false]

theorem prep_run {alive : Nat → Bool} {t : Nat} (hal : alive t = true) {m : Mem} {L : Nat}
    (hL : L = 0 ∨ alive L = false) {op : Op} {f o l : Nat} {rest : List Nat}
    (hf : findFile m op.key = some f) (ho : findOff m f op.rng = some o) (hl : m.lfree = l :: rest) :
    Solo alive t 7 m L (.acq (.lFile op)) (prepMem m op t f o l) 0 (.spin op f o l) := by
  have s1 := solo_acq hal (m := m) hL (.lFile op)
  have p1 : Solo alive t 1 m t (.lFile op) (m.acts [.fprot f true]) t (.lOff op f) :=
    solo_plan hal (by simp [plan, hf])
  have p2 : Solo alive t 1 (m.acts [.fprot f true]) t (.lOff op f)
      ((m.acts [.fprot f true]).acts [.oprot o true]) t (.lFProt op f o) :=
    solo_plan hal (by
      have : findOff (m.acts [.fprot f true]) f op.rng = some o := ho
      simp [plan, this])
  have p3 : Solo alive t 1 ((m.acts [.fprot f true]).acts [.oprot o true]) t (.lFProt op f o) _ t
    (.lLk op f o) := solo_plan hal rfl
  have p4 : Solo alive t 1 _ t (.lLk op f o) _ t (.lOProt op f o l) :=
    solo_plan hal (m := (((m.acts [.fprot f true]).acts [.oprot o true]).acts [.fprot f false]))
      (as := [.popL, .insL o op.mode l t op.fd]) (by
      have : (((m.acts [.fprot f true]).acts [.oprot o true]).acts [.fprot f false]).lfree = l :: rest := hl
      simp [plan, this])
  have p5 : Solo alive t 1 _ t (.lOProt op f o l) _ t (.rel (.spin op f o l)) :=
    solo_plan hal (m := ((((m.acts [.fprot f true]).acts [.oprot o true]).acts [.fprot f false]).acts
      [.popL, .insL o op.mode l t op.fd])) rfl
  have p6 := solo_rel hal (m := prepMem m op t f o l) (.spin op f o l)
  exact solo_trans (solo_trans (solo_trans (solo_trans (solo_trans (solo_trans s1 p1) p2) p3) p4) p5) p6

/-- The tables after the refused request has removed its locker. -/
def undoMem (m : Mem) (op : Op) (t f o l : Nat) : Mem :=
  (prepMem m op t f o l).acts [.cutL o op.mode l, .pushL l]

theorem findLk_front {m : Mem} {op : Op} {t f o l : Nat} :
    findLk (prepMem m op t f o l) o op.mode t op.fd false = some l := by
  have h1 : (prepMem m op t f o l).lks o op.mode = l :: m.lks o op.mode := by
    simp [prepMem, Mem.acts, Mem.act]
  unfold findLk
  rw [h1, List.find?_cons_of_pos]
  rw [cmpLocker_eq]
  simp [prepMem, Mem.acts, Mem.act]

theorem prep_word {m : Mem} {op : Op} {t f o l : Nat} : (prepMem m op t f o l).word = m.word := rfl

theorem prep_outs {m : Mem} {op : Op} {t f o l : Nat} : (prepMem m op t f o l).outs = m.outs := rfl

theorem undo_lks {m : Mem} {op : Op} {t f o l : Nat} : (undoMem m op t f o l).lks = m.lks := by
  funext z md
  have : (undoMem m op t f o l).lks z md =
      fset (fset m.lks o (fset (m.lks o) op.mode (l :: m.lks o op.mode))) o
        (fset ((fset m.lks o (fset (m.lks o) op.mode (l :: m.lks o op.mode))) o) op.mode
          (((fset m.lks o (fset (m.lks o) op.mode (l :: m.lks o op.mode))) o op.mode).erase l)) z md := rfl
  rw [this, lkset, lkset, lkset]
  split
  · rename_i e; obtain ⟨rfl, rfl⟩ := e; simp
  · rfl

theorem undo_lfree {m : Mem} {op : Op} {t f o l : Nat} {rest : List Nat} (hl : m.lfree = l :: rest) :
    (undoMem m op t f o l).lfree = m.lfree := by
  show l :: m.lfree.tail = m.lfree
  rw [hl]; rfl

theorem undo_rest {m : Mem} {op : Op} {t f o l : Nat} :
    (undoMem m op t f o l).files = m.files ∧ (undoMem m op t f o l).key = m.key ∧
    (undoMem m op t f o l).offs = m.offs ∧ (undoMem m op t f o l).rng = m.rng ∧
    (undoMem m op t f o l).word = m.word ∧ (undoMem m op t f o l).ffree = m.ffree ∧
    (undoMem m op t f o l).ofree = m.ofree ∧ (undoMem m op t f o l).outs = revoke m.outs l ∧
    (undoMem m op t f o l).fprot = fset (fset m.fprot f true) f false ∧
    (undoMem m op t f o l).oprot = fset (fset m.oprot o true) o false := by
  simp only [undoMem, prepMem, Mem.acts, List.foldl_cons, List.foldl_nil, Mem.act, and_self]

theorem undo_lockers {m : Mem} {op : Op} {t f o l : Nat} {x : Nat} (h : x ≠ l) :
    (undoMem m op t f o l).ltid x = m.ltid x ∧ (undoMem m op t f o l).lfd x = m.lfd x ∧
    (undoMem m op t f o l).locked x = m.locked x := by
  have e1 : (undoMem m op t f o l).ltid = fset m.ltid l t := rfl
  have e2 : (undoMem m op t f o l).lfd = fset m.lfd l op.fd := rfl
  have e3 : (undoMem m op t f o l).locked = fset m.locked l false := rfl
  rw [e1, e2, e3]
  simp [fset_other _ _ h]

theorem undo_def {m : Mem} {op : Op} {t f o l : Nat} :
    (prepMem m op t f o l).acts [.cutL o op.mode l, .pushL l] = undoMem m op t f o l := rfl

attribute [irreducible] prepMem undoMem

theorem undo_same {m : Mem} (hs : SOK m) (hout : Outs m) {op : Op} {t f o l : Nat} {rest : List Nat}
    (hl : m.lfree = l :: rest) (hfo : o ∈ m.offs f) (hne : ∃ md, m.lks o md ≠ []) :
    SameTables m (undoMem m op t f o l) := by
  obtain ⟨r1, r2, r3, r4, r5, r6, r7, r8, hprot, hoprot⟩ :=
    undo_rest (m := m) (op := op) (t := t) (f := f) (o := o) (l := l)
  have e1 := undo_lks (m := m) (op := op) (t := t) (f := f) (o := o) (l := l)
  have e2 := undo_lfree (op := op) (t := t) (f := f) (o := o) hl
  have hlk : ∀ x, x ≠ l → (undoMem m op t f o l).ltid x = m.ltid x ∧
    (undoMem m op t f o l).lfd x = m.lfd x ∧ (undoMem m op t f o l).locked x = m.locked x :=
    fun x hx => undo_lockers hx
  generalize undoMem m op t f o l = m' at *
  have hlf : l ∈ m.lfree := by rw [hl]; exact List.mem_cons_self
  have hnl := hs.ldisj l hlf
  have holocked : ∀ z, z ≠ o → oLocked m' z = oLocked m z := by
    intro z hz
    unfold oLocked
    rw [e1, hoprot, fset_other _ _ hz, fset_other _ _ hz]
  have ho1 : ∀ m'' : Mem, m''.lks = m.lks → oLocked m'' o = true := by
    intro m'' he
    obtain ⟨md, h⟩ := hne
    unfold oLocked
    rw [he]
    cases md <;> simp [h]
  refine ⟨r1, r2, r3, r4, r5, e1, r6, r7, e2, ?_, ?_, ?_⟩
  · rw [r8]
    unfold revoke
    rw [List.filter_eq_self]
    intro x hx
    obtain ⟨f', o', a, _⟩ := hout.1 x hx
    simp only [ne_eq, decide_not, Bool.not_eq_eq_eq_not, Bool.not_true, decide_eq_false_iff_not]
    intro e
    exact hnl _ _ (e ▸ a.2.2)
  · intro z md x hx
    exact hlk x (ne_of_mem_of_not_mem hx (hnl z md))
  · intro g hg
    by_cases e : g = f
    · subst e
      have a1 : fLocked m g = true := by
        unfold fLocked
        rw [Bool.or_eq_true]; right
        exact List.any_eq_true.mpr ⟨o, hfo, ho1 m rfl⟩
      have a2 : fLocked m' g = true := by
        unfold fLocked
        rw [Bool.or_eq_true]; right
        rw [r3]
        exact List.any_eq_true.mpr ⟨o, hfo, ho1 _ e1⟩
      rw [a1, a2]
    · unfold fLocked
      rw [hprot, fset_other _ _ e, fset_other _ _ e, r3]
      congr 1
      have : ∀ L : List Nat, o ∉ L → L.any (oLocked m') = L.any (oLocked m) := by
        intro L
        induction L with
        | nil => intro _; rfl
        | cons z zs ih =>
          intro hz
          simp only [List.mem_cons, not_or] at hz
          simp only [List.any_cons, ih hz.2, holocked z (fun e => hz.1 e.symm)]
      exact this _ (fun hm => e (hs.offsDisj _ _ _ hm hfo))

theorem find_congr {m m' : Mem} (h1 : m'.files = m.files) (h2 : m'.key = m.key)
    (h3 : m'.offs = m.offs) (h4 : m'.rng = m.rng) (k : DevIno) (f : Nat) (r : Rng) :
    findFile m' k = findFile m k ∧ findOff m' f r = findOff m f r := by
  unfold findFile findOff
  rw [h1, h2, h3, h4]
  exact ⟨rfl, rfl⟩

/-- From the failed attempt to the return of the call with `r`. -/
theorem refuse_tail {alive : Nat → Bool} {t : Nat} (hal : alive t = true) {m : Mem} (hs : SOK m)
    {op : Op} {f o l : Nat} {rest : List Nat} (hl : m.lfree = l :: rest)
    (hf : findFile m op.key = some f) (ho : findOff m f op.rng = some o) (hne : ∃ md, m.lks o md ≠ [])
    (r : Nat) :
    ∃ n, Solo alive t n (prepMem m op t f o l) 0 (.acq (.f1 op r f o l)) (undoMem m op t f o l) 0
      (.done r) := by
  obtain ⟨r1, r2, r3, r4, r5, r6, r7, r8, hprot, hoprot⟩ :=
    undo_rest (m := m) (op := op) (t := t) (f := f) (o := o) (l := l)
  have e1 := undo_lks (m := m) (op := op) (t := t) (f := f) (o := o) (l := l)
  obtain ⟨k1, k2⟩ := find_congr r1 r2 r3 r4 op.key f op.rng
  have s1 := solo_acq hal (m := prepMem m op t f o l) (Or.inl rfl) (.f1 op r f o l)
  have s2 : Solo alive t 1 (prepMem m op t f o l) t (.f1 op r f o l) (undoMem m op t f o l) t
      (.rel (after2 op r f)) := by
    rw [← undo_def]
    exact solo_plan hal (by simp [plan, findLk_front])
  generalize undoMem m op t f o l = m' at *
  have hol : oLocked m' o = true := by
    obtain ⟨md, h⟩ := hne
    unfold oLocked
    rw [e1]
    cases md <;> simp [h]
  have hfo := (findOff_some ho).1
  have hfl : fLocked m' f = true := by
    unfold fLocked
    rw [Bool.or_eq_true]; right
    rw [r3]
    exact List.any_eq_true.mpr ⟨o, hfo, hol⟩
  have s3 := solo_rel hal (m := m') (after2 op r f)
  have s123 := solo_trans (solo_trans s1 s2) s3
  have t3 : ∃ n, Solo alive t n m' 0 (after3 op r) m' 0
      (.done r) := by
    unfold after3
    split
    · have u1 := solo_acq hal (m := m') (Or.inl rfl) (.f3 op r)
      have u2 : Solo alive t 1 m' t (.f3 op r) m' t
          (.rel (.done r)) := solo_plan hal (as := []) (by
        simp [plan, k1, hf, hfl])
      exact ⟨_, solo_trans (solo_trans u1 u2) (solo_rel hal _)⟩
    · refine ⟨0, fun pc hpc => ?_⟩
      simp only [alone, List.replicate, run, Option.some.injEq, State.mk.injEq, true_and]
      funext x; simp only [fset]; split <;> simp_all
  obtain ⟨n3, t3⟩ := t3
  unfold after2 at s123
  split at s123
  · have u1 := solo_acq hal (m := m') (Or.inl rfl) (.f2 op r f)
    have u2 : Solo alive t 1 m' t (.f2 op r f) m' t
        (.rel (after3 op r)) := solo_plan hal (as := []) (by
      simp [plan, k2, ho, hol])
    have u3 := solo_rel hal (m := m') (after3 op r)
    exact ⟨_, solo_trans s123 (solo_trans (solo_trans (solo_trans u1 u2) u3) t3)⟩
  · exact ⟨_, solo_trans s123 t3⟩

/-- Repeated failing attempts. -/
theorem spin_wait {alive : Nat → Bool} {t : Nat} (hal : alive t = true) {m : Mem} {op : Op}
    {f o l : Nat} (hc : canTake (m.word o) op.mode = false) (hk : op.kind ≠ .try_) (k : Nat) :
    Solo alive t k m 0 (.spin op f o l) m 0 (.spin op f o l) := by
  induction k with
  | zero =>
    intro pc hpc
    simp only [alone, List.replicate, run, Option.some.injEq, State.mk.injEq, true_and]
    funext x; simp only [fset]; split <;> simp_all
  | succ k ih =>
    exact solo_trans ih (solo_plan hal (as := []) (by simp [plan, hc, hk]))

/-- What is known about the record when the request is not compatible. -/
theorem conflict_unit {R : DevIno → Rng → Prop} (hR : Clustered R) {s : State} (hi : SInv s)
    (he : EInv s) (hr : RInv R s) {op : Op} (hop : R op.key op.rng) (hnc : ¬ Compatible s.mem op) :
    ∃ f o, findFile s.mem op.key = some f ∧ findOff s.mem f op.rng = some o ∧
      (∃ md, s.mem.lks o md ≠ []) ∧ canTake (s.mem.word o) op.mode = false := by
  unfold Compatible at hnc
  push Not at hnc
  obtain ⟨⟨x, h⟩, hm, hk, hov, hmm⟩ := hnc
  simp only at hk hov hmm
  obtain ⟨f, o, ⟨a1, a2, a3⟩, b1, b2, b3, _, _, _, b7⟩ := held_unit hR hr hm (hi.outs.1 _ hm)
  have hh : R op.key h.rng := hk ▸ hr.held _ hm
  rw [hk] at b3
  have hov' : Overlap op.rng (s.mem.rng o) := hR.trans _ _ _ _ hop hh b3 (overlap_symm hov) b2
  refine ⟨f, o, findFile_eq hi.sok a1 (b1.trans hk), ?_, ⟨h.mode, List.ne_nil_of_mem a3⟩, ?_⟩
  · refine find_unique a2 ((hits_iff hR hop b3).mpr hov') ?_
    intro o' ho' hh'
    have hu' : R op.key (s.mem.rng o') := by rw [← hk, ← b1]; exact hr.units f a1 o' ho'
    exact same_unit hR hi ho' a2 hu' b3 hop hh ((hits_iff hR hop hu').mp hh') b2 (overlap_symm hov)
  · have hp : 0 < cnt s.mem o h.mode := List.countP_pos_iff.mpr ⟨x, a3, b7⟩
    have we := he.words o
    unfold WordEq at we
    cases hm1 : h.mode with
    | rd =>
      rw [hm1] at hp
      have : op.mode = .wr := by
        cases hm2 : op.mode with
        | rd => exact absurd hm2 (hmm hm1)
        | wr => rfl
      rw [this]
      simp only [canTake, beq_eq_false_iff_ne, ne_eq]
      omega
    | wr =>
      rw [hm1] at hp
      cases op.mode
      · simp only [canTake, decide_eq_false_iff_not]; omega
      · simp only [canTake, beq_eq_false_iff_ne, ne_eq]; omega

/-- A try call against a lock in force. -/
theorem try_refused {R : DevIno → Rng → Prop} (hR : Clustered R) {s : State} (hi : SInv s)
    (hcs : CsIff s) (he : EInv s) (hr : RInv R s) {t : Nat} (ht0 : t ≠ 0) (hal : s.alive t = true)
    {r : Nat} (hpc : s.pc t = .done r) (hid : OthersIdle s t) {op : Op} (hop : R op.key op.rng)
    (hk : op.kind = .try_) (hfree : s.mem.lfree ≠ []) (hnc : ¬ Compatible s.mem op) :
    ∃ n s', Returns s t (.lock op) n EBUSY s' ∧ SameTables s.mem s'.mem ∧ s'.lockid = 0 := by
  obtain ⟨f, o, hf, ho, hne, hc⟩ := conflict_unit hR hi he hr hop hnc
  match hl : s.mem.lfree with
  | [] => exact absurd hl hfree
  | l :: rest =>
    have p1 := prep_run hal (lock_free hcs hpc hid) hf ho hl
    have p2 : Solo s.alive t 1 (prepMem s.mem op t f o l) 0 (.spin op f o l)
        (prepMem s.mem op t f o l) 0 (.acq (.f1 op EBUSY f o l)) := solo_plan hal (as := []) (by
      have : canTake ((prepMem s.mem op t f o l).word o) op.mode = false := by
        rw [prep_word]; exact hc
      simp [plan, this, hk])
    obtain ⟨n, p3⟩ := refuse_tail hal hi.sok hl hf ho hne EBUSY
    exact ⟨_, _, solo_call (c := .lock op) ht0 hal hpc (solo_trans (solo_trans p1 p2) p3),
      undo_same hi.sok hi.outs hl (findOff_some ho).1 hne, rfl⟩

/-- A timed call against a lock in force: `k` attempts fail, then the time is over. -/
theorem timed_refused {R : DevIno → Rng → Prop} (hR : Clustered R) {s : State} (hi : SInv s)
    (hcs : CsIff s) (he : EInv s) (hr : RInv R s) {t : Nat} (ht0 : t ≠ 0) (hal : s.alive t = true)
    {r : Nat} (hpc : s.pc t = .done r) (hid : OthersIdle s t) {op : Op} (hop : R op.key op.rng)
    (hk : op.kind = .timed) (hfree : s.mem.lfree ≠ []) (hnc : ¬ Compatible s.mem op) (k : Nat) :
    ∃ n s', run s (.call t (.lock op) :: (alone t (7 + k) ++ .go t .limit :: alone t n)) = some s' ∧
      s'.pc t = .done ETIMEDOUT ∧ SameTables s.mem s'.mem ∧ s'.lockid = 0 := by
  obtain ⟨f, o, hf, ho, hne, hc⟩ := conflict_unit hR hi he hr hop hnc
  match hl : s.mem.lfree with
  | [] => exact absurd hl hfree
  | l :: rest =>
    have p1 := prep_run hal (lock_free hcs hpc hid) hf ho hl
    have hc' : canTake ((prepMem s.mem op t f o l).word o) op.mode = false := by
      rw [prep_word]; exact hc
    have p2 := spin_wait hal (f := f) (l := l) hc' (by rw [hk]; simp) k
    obtain ⟨n, p3⟩ := refuse_tail hal hi.sok hl hf ho hne ETIMEDOUT
    refine ⟨n, ⟨undoMem s.mem op t f o l, 0, s.alive, fset s.pc t (.done ETIMEDOUT)⟩, ?_, by simp,
      undo_same hi.sok hi.outs hl (findOff_some ho).1 hne, rfl⟩
    have hst : step s (.call t (.lock op)) = some (s.setPc t (.acq (.lFile op))) := by
      simp [step, ht0, hal, hpc, Call.start]
    simp only [run, hst, Option.bind_some]
    rw [run_append]
    have h1 := solo_trans p1 p2 (fset s.pc t (.acq (.lFile op))) (by simp)
    have h2 : run (s.setPc t (.acq (.lFile op))) (alone t (7 + k)) =
        some ⟨prepMem s.mem op t f o l, 0, s.alive, fset s.pc t (.spin op f o l)⟩ := by
      rw [fset_fset] at h1; exact h1
    rw [h2]
    simp only [Option.bind_some, run]
    have h3 : step ⟨prepMem s.mem op t f o l, 0, s.alive, fset s.pc t (.spin op f o l)⟩ (.go t .limit)
        = some ⟨prepMem s.mem op t f o l, 0, s.alive, fset s.pc t (.acq (.f1 op ETIMEDOUT f o l))⟩ := by
      simp [step, hal, plan, hc', hk, State.setPc, fset_fset, Mem.acts]
    rw [h3]
    simp only [Option.bind_some]
    have h4 := p3 (fset s.pc t (.acq (.f1 op ETIMEDOUT f o l))) (by simp)
    rw [fset_fset] at h4
    exact h4

/-- A blocking call against a lock in force keeps waiting. -/
theorem block_waits {R : DevIno → Rng → Prop} (hR : Clustered R) {s : State} (hi : SInv s)
    (hcs : CsIff s) (he : EInv s) (hr : RInv R s) {t : Nat} (ht0 : t ≠ 0) (hal : s.alive t = true)
    {r : Nat} (hpc : s.pc t = .done r) (hid : OthersIdle s t) {op : Op} (hop : R op.key op.rng)
    (hk : op.kind ≠ .try_) (hfree : s.mem.lfree ≠ []) (hnc : ¬ Compatible s.mem op) (k : Nat) :
    ∃ s' f o l, run s (.call t (.lock op) :: alone t (7 + k)) = some s' ∧
      s'.pc t = .spin op f o l ∧ s'.mem.outs = s.mem.outs := by
  obtain ⟨f, o, hf, ho, hne, hc⟩ := conflict_unit hR hi he hr hop hnc
  match hl : s.mem.lfree with
  | [] => exact absurd hl hfree
  | l :: rest =>
    have p1 := prep_run hal (lock_free hcs hpc hid) hf ho hl
    have hc' : canTake ((prepMem s.mem op t f o l).word o) op.mode = false := by
      rw [prep_word]; exact hc
    have p2 := spin_wait hal (f := f) (l := l) hc' hk k
    refine ⟨⟨prepMem s.mem op t f o l, 0, s.alive, fset s.pc t (.spin op f o l)⟩, f, o, l, ?_,
      by simp, prep_outs⟩
    have hst : step s (.call t (.lock op)) = some (s.setPc t (.acq (.lFile op))) := by
      simp [step, ht0, hal, hpc, Call.start]
    simp only [run, hst, Option.bind_some]
    have h1 := solo_trans p1 p2 (fset s.pc t (.acq (.lFile op))) (by simp)
    rw [fset_fset] at h1; exact h1

/-- A compatible request is granted in nine steps. -/
theorem lock_granted {R : DevIno → Rng → Prop} {A : State → Ev → Prop} (hR : Clustered R)
    (hA : ∀ s e, A s e → softDeath s e ∧ lockIn R e) (hgo : ∀ s t, A s (.go t .go)) {s : State}
    (hre : Reach A s) {t : Nat} (ht0 : t ≠ 0) (hal : s.alive t = true)
    {r : Nat} (hpc : s.pc t = .done r) (hid : OthersIdle s t) {op : Op}
    (hcall : A s (.call t (.lock op)))
    (hroom : Room s.mem op)
    (hnc : Compatible s.mem op) :
    ∃ s' l, Returns s t (.lock op) 9 0 s' ∧
      s'.mem.outs = (l, ⟨t, op.fd, op.key, op.rng, op.mode⟩) :: s.mem.outs ∧ s'.lockid = 0 := by
  have hi := reach_sinv hre
  obtain ⟨f, o, l, m', p1, e1⟩ := lock_prep hal (m := s.mem) (lock_free (reach_csIff hre) hpc hid) op
    hi.sok hroom
  -- the state before the attempt is reachable
  have hst : step s (.call t (.lock op)) = some (s.setPc t (.acq (.lFile op))) := by
    simp [step, ht0, hal, hpc, Call.start]
  have hrun := p1 (fset s.pc t (.acq (.lFile op))) (by simp)
  rw [fset_fset] at hrun
  have hre7 : Reach A ⟨m', 0, s.alive, fset s.pc t (.spin op f o l)⟩ := by
    refine reach_run (Reach.step hre hcall hst) (es := alone t 7) ?_ hrun
    intro e he s'
    obtain ⟨_, rfl⟩ := List.mem_replicate.mp he
    exact hgo s' t
  have hc : canTake (m'.word o) op.mode = true := by
    refine (canTake_iff hR (reach_sinv hre7) (reach_einv (fun s e h => (hA s e h).1) hre7)
      (reach_lo hre7) (reach_rinv (fun s e h => (hA s e h).2) hre7) (t := t) (f := f) (l := l) hal
      (by simp) ?_).mpr ?_
    · intro u hu hau
      have := hid u hu hau
      simpa [fset_other _ _ hu] using this
    · intro x hx
      rw [e1] at hx
      exact hnc x hx
  obtain ⟨m'', p2, e2⟩ := take_flag hal (m := m') (f := f) (l := l) hc
  exact ⟨_, l, solo_call (c := .lock op) ht0 hal hpc (solo_trans p1 p2), by simp only [e2, e1], rfl⟩

/-- From a failure at the range level to the return of the call. -/
theorem after3_tail {alive : Nat → Bool} {t : Nat} (hal : alive t = true) (m : Mem) (op : Op) (r : Nat) :
    ∃ n m', Solo alive t n m 0 (after3 op r) m' 0 (.done r) ∧ m'.outs = m.outs := by
  unfold after3
  split
  · have u1 := solo_acq hal (m := m) (Or.inl rfl) (.f3 op r)
    obtain ⟨as, hp, ho⟩ : ∃ as, plan m alive t (.f3 op r) .go = some (as, .rel (.done r)) ∧
        (m.acts as).outs = m.outs := by
      simp only [plan]
      cases findFile m op.key with
      | none => exact ⟨_, rfl, rfl⟩
      | some f =>
        simp only
        split
        · exact ⟨_, rfl, rfl⟩
        · exact ⟨_, rfl, rfl⟩
    exact ⟨_, _, solo_trans (solo_trans u1 (solo_plan hal hp)) (solo_rel hal _), ho⟩
  · refine ⟨0, m, fun pc hpc => ?_, rfl⟩
    simp only [alone, List.replicate, run, Option.some.injEq, State.mk.injEq, true_and]
    funext x; simp only [fset]; split <;> simp_all

/-- A request for which a record is missing. -/
theorem lock_full {s : State} (hi : SInv s) (hcs : CsIff s) {t : Nat} (ht0 : t ≠ 0)
    (hal : s.alive t = true) {r : Nat} (hpc : s.pc t = .done r) (hid : OthersIdle s t) {op : Op}
    (hno : ¬ Room s.mem op) :
    ∃ n s', Returns s t (.lock op) n ENOLCK s' ∧ s'.mem.outs = s.mem.outs ∧ s'.lockid = 0 := by
  have hL := lock_free hcs hpc hid
  have s1 := solo_acq hal (m := s.mem) hL (.lFile op)
  suffices h : ∃ n m', Solo s.alive t n s.mem s.lockid (.acq (.lFile op)) m' 0 (.done ENOLCK) ∧
      m'.outs = s.mem.outs by
    obtain ⟨n, m', p, e⟩ := h
    exact ⟨_, _, solo_call (c := .lock op) ht0 hal hpc p, e, rfl⟩
  by_cases h1 : (∃ f ∈ s.mem.files, s.mem.key f = op.key) ∨ s.mem.ffree ≠ []
  · by_cases h2 : (∃ f ∈ s.mem.files, s.mem.key f = op.key ∧
        ∃ o ∈ s.mem.offs f, hits op.rng (s.mem.rng o) = true) ∨ s.mem.ofree ≠ []
    · have h3 : s.mem.lfree = [] := by
        by_contra h3
        exact hno ⟨h1, h2, h3⟩
      obtain ⟨f, o, m2, p0, e2, e2'⟩ := lock_prep2 hal hL op hi.sok h1 h2
      have p3 : Solo s.alive t 1 m2 t (.lFProt op f o) (m2.acts [.fprot f false]) t (.lLk op f o) :=
        solo_plan hal rfl
      have p4 : Solo s.alive t 1 (m2.acts [.fprot f false]) t (.lLk op f o) (m2.acts [.fprot f false]) t
          (.rel (after2 op ENOLCK f)) := solo_plan hal (as := []) (by
        have : (m2.acts [.fprot f false]).lfree = [] := by rw [← h3, ← e2']; rfl
        simp [plan, this])
      have p5 := solo_rel hal (m := m2.acts [.fprot f false]) (after2 op ENOLCK f)
      have p := solo_trans (solo_trans (solo_trans p0 p3) p4) p5
      have e3 : (m2.acts [.fprot f false]).outs = s.mem.outs := e2
      generalize m2.acts [.fprot f false] = m3 at *
      unfold after2 at p
      split at p
      · have u1 := solo_acq hal (m := m3) (Or.inl rfl) (.f2 op ENOLCK f)
        obtain ⟨as, hp, ho⟩ : ∃ as, plan m3 s.alive t (.f2 op ENOLCK f) .go =
            some (as, .rel (after3 op ENOLCK)) ∧ (m3.acts as).outs = m3.outs := by
          simp only [plan]
          cases findOff m3 f op.rng with
          | none => exact ⟨_, rfl, rfl⟩
          | some o =>
            simp only
            split
            · exact ⟨_, rfl, rfl⟩
            · exact ⟨_, rfl, rfl⟩
        obtain ⟨n, m', q, eq⟩ := after3_tail hal (m3.acts as) op ENOLCK
        exact ⟨_, _, solo_trans p (solo_trans (solo_trans (solo_trans u1 (solo_plan hal hp))
          (solo_rel hal _)) q), by rw [eq, ho, e3]⟩
      · obtain ⟨n, m', q, eq⟩ := after3_tail hal m3 op ENOLCK
        exact ⟨_, _, solo_trans p q, by rw [eq, e3]⟩
    · push Not at h2
      obtain ⟨h2, h2'⟩ := h2
      obtain ⟨f, m1, p1, e1⟩ : ∃ f m1, Solo s.alive t 1 s.mem t (.lFile op) m1 t (.lOff op f) ∧
          m1.ofree = [] ∧ m1.outs = s.mem.outs ∧ findOff m1 f op.rng = none := by
        cases hf : findFile s.mem op.key with
        | some f =>
          have := findFile_some hf
          refine ⟨f, _, solo_plan hal (as := [.fprot f true]) (by simp [plan, hf]), h2', rfl, ?_⟩
          refine List.find?_eq_none.mpr ?_
          intro o ho
          exact h2 f this.1 this.2 o ho
        | none =>
          match hq : s.mem.ffree with
          | [] =>
            rcases h1 with ⟨f, hf1, hf2⟩ | h1
            · exact absurd hf2 (findFile_none hf f hf1)
            · exact absurd hq h1
          | f :: rest =>
            refine ⟨f, _, solo_plan hal (as := [.popF, .iniF f op.key, .insF f]) (by simp [plan, hf, hq]),
              h2', rfl, ?_⟩
            simp [findOff, Mem.acts, Mem.act]
      have p2 : Solo s.alive t 1 m1 t (.lOff op f) m1 t (.rel (after3 op ENOLCK)) :=
        solo_plan hal (as := []) (by simp [plan, e1.1, e1.2.2])
      obtain ⟨n, m', q, eq⟩ := after3_tail hal m1 op ENOLCK
      exact ⟨_, _, solo_trans (solo_trans (solo_trans (solo_trans s1 p1) p2) (solo_rel hal _)) q,
        by rw [eq, e1.2.1]⟩
  · push Not at h1
    obtain ⟨h1, h1'⟩ := h1
    have hf : findFile s.mem op.key = none := by
      cases hf : findFile s.mem op.key with
      | none => rfl
      | some f =>
        have := findFile_some hf
        exact absurd this.2 (h1 f this.1)
    have p1 : Solo s.alive t 1 s.mem t (.lFile op) s.mem t (.rel (.done ENOLCK)) :=
      solo_plan hal (as := []) (by simp [plan, hf, h1'])
    exact ⟨_, _, solo_trans (solo_trans s1 p1) (solo_rel hal _), rfl⟩

/-- The result a call is about to return (after a failure) or has returned. -/
def code : Pc → Option Nat
  | .acq p => code p
  | .rel p => code p
  | .f1 _ r _ _ _ => some r
  | .f2 _ r _ => some r
  | .f3 _ r => some r
  | .done r => some r
  | _ => none

theorem code_after3 (op : Op) (r : Nat) : code (after3 op r) = some r := by
  unfold after3; split <;> rfl

theorem code_after2 (op : Op) (r f : Nat) : code (after2 op r f) = some r := by
  unfold after2; split
  · rfl
  · exact code_after3 op r

theorem plan_enolck {m : Mem} {alive : Nat → Bool} {t : Nat} {p : Pc} {c : Choice} {as : List Act}
    {p' : Pc} (h : plan m alive t p c = some (as, p')) (he : code p' = some ENOLCK) :
    code p = some ENOLCK ∨ (∃ op, p = .lFile op ∧ (∀ f ∈ m.files, m.key f ≠ op.key) ∧ m.ffree = []) ∨
      (∃ op f, p = .lOff op f ∧ (∀ o ∈ m.offs f, hits op.rng (m.rng o) ≠ true) ∧ m.ofree = []) ∨
      (∃ op f o, p = .lLk op f o ∧ m.lfree = []) := by
  unfold plan at h
  split at h
  all_goals
    repeat' split at h
    all_goals first
      | (cases h; done)
      | (obtain ⟨rfl, rfl⟩ := Option.some.inj h |> Prod.mk.inj
         first
         | (left; exact he)
         | (left; simpa only [code, code_after2, code_after3] using he)
         | (simp [code, EBUSY, ENOLCK, ETIMEDOUT, EINVAL] at he; done)
         | (simp only [code] at he; split at he <;> simp [ENOLCK] at he; done)
         | skip)
  · rename_i op _ hf _ hq
    exact Or.inr (Or.inl ⟨op, rfl, findFile_none hf, hq⟩)
  · rename_i op f _ hf _ hq
    exact Or.inr (Or.inr (Or.inl ⟨op, f, rfl, List.find?_eq_none.mp hf, hq⟩))
  · rename_i op f o _ hq
    exact Or.inr (Or.inr (Or.inr ⟨op, f, o, rfl, hq⟩))

end Fullock.FL
