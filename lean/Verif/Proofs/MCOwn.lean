import Verif.Proofs.MCInv
/-!
Ownership and counts of the mutexes, when no owner dies inside the window of a concurrent check
(`okDie`).
-/
namespace Fullock.MC

/-- Places where the count of the own mutex `m` differs from the number of successful locks. -/
def special (m : Nat) : Pc → Bool
  | .lkChk x _ _ => x == m
  | .ulRead x _ => x == m
  | .ulRead2 x _ => x == m
  | .ulSub x _ => x == m
  | .ulCas x _ => x == m
  | _ => false

/-- Between the two atomic operations that take the free mutex `m`. -/
def isInc (m : Nat) : Pc → Bool
  | .lkInc x _ _ => x == m
  | _ => false

/-- What the place says about the mutex it works on. -/
def At (M : Mem) (alive : Nat → Bool) (t : Nat) : Pc → Prop
  | .mIns m _ => m ∉ M.mlist
  | .lkAdd m _ _ => 1 ≤ M.dep m t
  | .lkChk m _ _ => 1 ≤ M.dep m t ∧ M.mcnt m = M.dep m t + 1
  | .lkSub _ _ _ => False
  | .lkCas m _ _ => M.mval m ≠ t
  | .lkInc m _ _ => M.mval m = t ∧ M.dep m t = 0 ∧ M.mcnt m = 0
  | .ulRead m _ => 1 ≤ M.dep m t → 1 ≤ M.mcnt m ∧ M.mcnt m ≤ M.dep m t
  | .ulRead2 m _ => 1 ≤ M.dep m t → 1 ≤ M.mcnt m ∧ M.mcnt m ≤ M.dep m t
  | .ulSub m _ => 1 ≤ M.dep m t ∧ 1 ≤ M.mcnt m ∧ M.mcnt m ≤ M.dep m t
  | .ulFix _ _ _ => False
  | .ulCas m _ => 1 ≤ M.dep m t ∧ M.mcnt m = 0
  | .ulAdd _ _ => False
  | .swChk m v _ => v ≠ 0 ∧ v ≠ t ∧ (alive v = true ∨ M.mval m = v)
  | .swCnt m _ => M.mval m ≠ 0 ∧ alive (M.mval m) = false
  | .swCntC m old _ => M.mval m ≠ 0 ∧ alive (M.mval m) = false ∧ M.mcnt m = old
  | .swVal m _ => M.mval m ≠ 0 ∧ alive (M.mval m) = false ∧ M.mcnt m = 0
  | .swValC m v _ => M.mval m ≠ 0 ∧ alive (M.mval m) = false ∧ M.mcnt m = 0 ∧ M.mval m = v
  | _ => True

/-- Everything the invariant says about the live thread `t` at place `p`. -/
structure Th (M : Mem) (alive : Nat → Bool) (t : Nat) (p : Pc) : Prop where
  own : ∀ m, 1 ≤ M.dep m t → m ∈ M.mlist ∧ M.mval m = t ∧ (special m p = false → M.mcnt m = M.dep m t)
  held : ∀ m ∈ M.mlist, M.mval m = t → 1 ≤ M.dep m t ∨ isInc m p = true
  at_ : At M alive t p

structure Inv (s : State) : Prop where
  base : Base s
  free : ∀ m ∈ s.mem.mlist, s.mem.mval m = 0 → s.mem.mcnt m = 0
  zero : ∀ m, s.mem.dep m 0 = 0
  th : ∀ t, t ≠ 0 → s.alive t = true → Th s.mem s.alive t (s.pc t)

/-- What a step of `t` may do to the mutexes. -/
structure Eff (M M' : Mem) (alive : Nat → Bool) (t : Nat) (i : Bool) : Prop where
  list : ∀ m ∈ M.mlist, m ∈ M'.mlist
  dep : ∀ m u, u ≠ t → M'.dep m u = M.dep m u
  new : ∀ m, m ∉ M.mlist → m ∈ M'.mlist → i = true ∧ M'.mval m = 0 ∧ M'.mcnt m = 0
  old : ∀ m ∈ M.mlist, (M'.mval m = M.mval m ∧ M'.mcnt m = M.mcnt m) ∨
    (M.mval m = t ∧ (M'.mval m = t ∨ M'.mval m = 0 ∧ M'.mcnt m = 0)) ∨
    (M.mval m = 0 ∧ M'.mval m = t) ∨
    (i = true ∧ M.mval m ≠ 0 ∧ alive (M.mval m) = false ∧
      (M'.mval m = M.mval m ∨ M'.mval m = 0 ∧ M'.mcnt m = 0))

theorem eff_stp {M M' : Mem} {alive : Nat → Bool} {t : Nat} {p p' : Pc}
    (h : Stp M alive t p M' p') (u : ∀ m ∈ uses p, m ∈ M.mlist) (th : Th M alive t p) :
    Eff M M' alive t (inM p) := by
  have ha := th.at_
  have hown := th.own
  cases h <;> (try exact ⟨fun _ h => h, fun _ _ _ => rfl, fun _ h h' => absurd h' h, fun _ _ => .inl ⟨rfl, rfl⟩⟩)
  all_goals simp only [At] at ha
  all_goals (constructor <;> intros <;> (try simp only [inM]) <;> grind)

/-- What holds of the other threads is not changed by a step of `t`. -/
theorem th_frame {M M' : Mem} {alive : Nat → Bool} {t u : Nat} {p : Pc} {i : Bool}
    (e : Eff M M' alive t i) (ut : u ≠ t) (u0 : u ≠ 0) (ua : alive u = true) (ta : alive t = true)
    (hi : i = true → inM p = false) (hu : ∀ m ∈ uses p, m ∈ M.mlist) (th : Th M alive u p) :
    Th M' alive u p := by
  obtain ⟨el, ed, en, eo⟩ := e
  obtain ⟨own, held, hat⟩ := th
  constructor
  · intro m hm
    grind
  · intro m hm hv
    grind
  · cases p <;> simp only [At] at hat ⊢ <;> simp only [inM, uses] at hi hu <;> grind

theorem fin_plain {M : Mem} {alive : Nat → Bool} {t : Nat} (k : LK) (r : Nat) :
    (∀ m, special m (fin k r) = false ∧ isInc m (fin k r) = false) ∧ At M alive t (fin k r) := by
  cases k <;> simp [fin, special, isInc, At]

theorem ufin_plain {M : Mem} {alive : Nat → Bool} {t : Nat} (k : UK) (r : Nat) :
    (∀ m, special m (ufin k r) = false ∧ isInc m (ufin k r) = false) ∧ At M alive t (ufin k r) := by
  cases k
  · simp [ufin, special, isInc, At]
  · by_cases h : r = 0 <;> simp [ufin, special, isInc, At, h]

theorem failed_plain {M : Mem} {alive : Nat → Bool} {t m : Nat} {kd : Kind} {k : LK} {p : Pc}
    (h : Failed m kd k p) :
    (∀ m, special m p = false ∧ isInc m p = false) ∧ At M alive t p := by
  cases h
  · exact fin_plain _ _
  · exact fin_plain _ _
  · simp [special, isInc, At]
  · simp [special, isInc, At]

theorem after_plain {M : Mem} {alive : Nat → Bool} {t : Nat} {p : Pc}
    (h : wf (.acqM p) = true ∨ wf (.relM p) = true ∨ wf (.acqC p) = true ∨ wf (.relC p) = true) :
    (∀ m, special m p = false ∧ isInc m p = false) ∧ At M alive t p := by
  cases p <;> simp_all [wf, special, isInc, At]

/-- A step of `t` keeps what holds of `t`. -/
theorem th_step {M M' : Mem} {alive : Nat → Bool} {t : Nat} {p p' : Pc}
    (h : Stp M alive t p M' p') (t0 : t ≠ 0) (ta : alive t = true) (w : wf p = true)
    (hu : ∀ m ∈ uses p, m ∈ M.mlist) (fr : ∀ m ∈ M.mlist, M.mval m = 0 → M.mcnt m = 0)
    (th : Th M alive t p) : Th M' alive t p' := by
  obtain ⟨own, held, hat⟩ := th
  cases h
  case acqM h =>
    obtain ⟨h1, h2⟩ := after_plain (M := { M with mL := t }) (alive := alive) (t := t) (.inl w)
    exact ⟨by simp only [special] at own; grind, by simp only [isInc] at held; grind, h2⟩
  case relM =>
    obtain ⟨h1, h2⟩ := after_plain (M := { M with mL := if M.mL = t then 0 else M.mL })
      (alive := alive) (t := t) (.inr (.inl w))
    exact ⟨by simp only [special] at own; grind, by simp only [isInc] at held; grind, h2⟩
  case acqC h =>
    obtain ⟨h1, h2⟩ := after_plain (M := { M with cL := t }) (alive := alive) (t := t)
      (.inr (.inr (.inl w)))
    exact ⟨by simp only [special] at own; grind, by simp only [isInc] at held; grind, h2⟩
  case relC =>
    obtain ⟨h1, h2⟩ := after_plain (M := { M with cL := if M.cL = t then 0 else M.cL })
      (alive := alive) (t := t) (.inr (.inr (.inr w)))
    exact ⟨by simp only [special] at own; grind, by simp only [isInc] at held; grind, h2⟩
  case lkSub h => exact absurd hat (by simp [At])
  case ulFix => exact absurd hat (by simp [At])
  case ulAdd => exact absurd hat (by simp [At])
  case lkCasNo h0 h =>
    obtain ⟨h1, h2⟩ := failed_plain (M := M) (alive := alive) (t := t) h
    exact ⟨by simp only [special] at own; grind, by simp only [isInc] at held; grind, h2⟩
  case lkChk m kd k h =>
    obtain ⟨h1, h2⟩ := fin_plain (alive := alive) (t := t)
      (M := { M with dep := upd M.dep m (upd (M.dep m) t (M.dep m t + 1)) }) k 0
    simp only [special, At, isInc] at own hat held
    exact ⟨by grind, by grind, h2⟩
  case lkInc m kd k =>
    obtain ⟨h1, h2⟩ := fin_plain (alive := alive) (t := t)
      (M := { M with mcnt := upd M.mcnt m (M.mcnt m + 1),
                     dep := upd M.dep m (upd (M.dep m) t (M.dep m t + 1)) }) k 0
    simp only [special, At, isInc, uses] at own hat held hu
    exact ⟨by grind, by grind, h2⟩
  case ulFree m k h =>
    obtain ⟨h1, h2⟩ := ufin_plain (alive := alive) (t := t)
      (M := { M with dep := upd M.dep m (upd (M.dep m) t 0) }) k 0
    simp only [special, At, isInc, uses] at own hat held hu
    exact ⟨by grind, by grind, h2⟩
  case ulPerm m k h =>
    obtain ⟨h1, h2⟩ := ufin_plain (alive := alive) (t := t) (M := M) k EPERM
    simp only [special, At, isInc, uses] at own hat held hu
    exact ⟨by grind, by grind, h2⟩
  case ulCas m k h =>
    obtain ⟨h1, h2⟩ := ufin_plain (alive := alive) (t := t)
      (M := { M with mval := upd M.mval m 0, dep := upd M.dep m (upd (M.dep m) t 0) }) k 0
    simp only [special, At, isInc, uses] at own hat held hu
    exact ⟨by grind, by grind, h2⟩
  case ulCasFree m k h h0 =>
    obtain ⟨h1, h2⟩ := ufin_plain (alive := alive) (t := t)
      (M := { M with dep := upd M.dep m (upd (M.dep m) t 0) }) k 0
    simp only [special, At, isInc, uses] at own hat held hu
    exact ⟨by grind, by grind, h2⟩
  case swEnd k =>
    rcases k with _ | ⟨m, kd, k⟩ <;> simp only [special, At, isInc, uses] at own hat held hu <;>
      exact ⟨by simp only [special]; grind, by simp only [isInc]; grind, trivial⟩
  all_goals simp only [special, At, isInc, uses] at own hat held hu
  all_goals constructor
  all_goals simp only [special, At, isInc, uses]
  all_goals grind

theorem inv_init (nm nc nw : Nat) (junk : Mem) : Inv (init nm nc nw junk) := by
  refine ⟨base_init .., ?_, ?_, ?_⟩
  · simp [init]
  · simp [init]
  · intro t _ _
    constructor <;> simp [init, At]

theorem start_plain {M : Mem} {alive : Nat → Bool} {t : Nat} (c : Call) :
    (∀ m, special m c.start = false ∧ isInc m c.start = false) ∧ At M alive t c.start := by
  cases c <;> simp [Call.start, special, isInc, At]

theorem inv_step {s s' : State} {e : Ev} (i : Inv s) (ok : okDie s e) (h : step s e = some s') :
    Inv s' := by
  have hb := base_step i.base h
  rcases step_cases h with ⟨t, c, r, -, t0, ta, hr, rfl⟩ | ⟨t, c, M', p', -, ta, hp, rfl⟩ |
    ⟨t, rfl, ta, rfl⟩
  · refine ⟨hb, i.free, i.zero, ?_⟩
    intro u u0 ua
    have hth := i.th u u0 ua
    simp only [upd]
    split
    · rename_i hut
      subst hut
      rw [hr] at hth
      obtain ⟨h1, h2⟩ := start_plain (M := s.mem) (alive := s.alive) (t := u) c
      obtain ⟨own, held, -⟩ := hth
      simp only [special, isInc] at own held
      exact ⟨by grind, by grind, h2⟩
    · exact hth
  · have t0 := i.base.go0 hp
    have hs := stp_of_plan hp
    have hth := i.th t t0 ta
    have he := eff_stp hs (i.base.used t) hth
    refine ⟨hb, ?_, ?_, ?_⟩
    · intro m hm hv
      have := i.free m
      obtain ⟨el, ed, en, eo⟩ := he
      grind
    · intro m
      rw [he.dep m 0 (Ne.symm t0)]
      exact i.zero m
    · intro u u0 ua
      simp only [upd]
      split
      · rename_i hut
        subst hut
        exact th_step hs t0 ta (i.base.shape u) (i.base.used u) i.free hth
      · rename_i hut
        refine th_frame he hut u0 ua ta ?_ (i.base.used u) (i.th u u0 ua)
        intro hi
        have h1 := (i.base.lockM t t0 ta).mpr hi
        have h2 := i.base.lockM u u0 ua
        rw [h1] at h2
        cases hiu : inM (s.pc u)
        · rfl
        · exact absurd (h2.mpr hiu).symm hut
  · refine ⟨hb, i.free, i.zero, ?_⟩
    intro u u0 ua
    have hut : u ≠ t := by
      rintro rfl
      simp at ua
    have ua' : s.alive u = true := by simpa [upd, hut] using ua
    obtain ⟨own, held, hat⟩ := i.th u u0 ua'
    refine ⟨own, held, ?_⟩
    simp only [okDie] at ok
    have ok' := ok u ua'
    generalize s.pc u = p at *
    cases p <;> simp only [At] at hat ⊢ <;> grind

theorem inv_reach {A : State → Ev → Prop} (hA : ∀ s e, A s e → okDie s e) {s : State}
    (h : Reach A s) : Inv s := by
  induction h with
  | init nm nc nw junk => exact inv_init ..
  | step _ ha h ih => exact inv_step ih (hA _ _ ha) h

/-! ### Without condition waits every death is harmless -/

/-- Places of a condition wait. -/
def inWait : Pc → Bool
  | .acqM p => inWait p
  | .relM p => inWait p
  | .acqC p => inWait p
  | .relC p => inWait p
  | .ulRead _ k => !ukApi k
  | .ulRead2 _ k => !ukApi k
  | .ulSub _ k => !ukApi k
  | .ulFix _ _ k => !ukApi k
  | .ulCas _ k => !ukApi k
  | .ulAdd _ k => !ukApi k
  | .lkRead _ _ k => k != .api
  | .lkAdd _ _ k => k != .api
  | .lkChk _ _ k => k != .api
  | .lkSub _ _ k => k != .api
  | .lkCas _ _ k => k != .api
  | .lkInc _ _ k => k != .api
  | .swM k => k.any fun x => x.2.2 != .api
  | .swChk _ _ k => k.any fun x => x.2.2 != .api
  | .swCnt _ k => k.any fun x => x.2.2 != .api
  | .swCntC _ _ k => k.any fun x => x.2.2 != .api
  | .swVal _ k => k.any fun x => x.2.2 != .api
  | .swValC _ _ k => k.any fun x => x.2.2 != .api
  | .wM _ _ _ => true
  | .wC _ _ _ => true
  | .wNew _ _ _ => true
  | .wGet _ _ _ => true
  | .wIni _ _ _ _ => true
  | .wIns _ _ _ _ => true
  | .wSet _ _ _ _ => true
  | .wErr _ _ _ _ => true
  | .wSpin _ _ _ _ => true
  | .wCut _ _ _ _ => true
  | .wPut _ _ => true
  | _ => false

theorem inWait_stp {M M' : Mem} {alive : Nat → Bool} {t : Nat} {p p' : Pc}
    (h : Stp M alive t p M' p') (w : inWait p = false) : inWait p' = false := by
  cases h <;> (try exact w) <;> (try rfl)
  case lkChk k _ => cases k <;> simp_all [fin, inWait]
  case lkInc k => cases k <;> simp_all [fin, inWait]
  case lkSub k h => cases h <;> cases k <;> simp_all [fin, inWait]
  case lkCasNo k _ h => cases h <;> cases k <;> simp_all [fin, inWait]
  case ulFree k _ => cases k <;> simp_all [ufin, inWait, ukApi]
  case ulPerm k _ => cases k <;> simp_all [ufin, inWait, ukApi, EPERM]
  case ulCas k _ => cases k <;> simp_all [ufin, inWait, ukApi]
  case ulCasFree k _ _ => cases k <;> simp_all [ufin, inWait, ukApi]
  case swEnd k => rcases k with _ | ⟨m, kd, k⟩ <;> simp_all [swBack, inWait]
  all_goals simp_all [inWait]

/-- Without condition waits: nobody is in one, and a check that has read an owner still sees it. -/
structure NoWait (s : State) : Prop where
  inv : Inv s
  out : ∀ t, inWait (s.pc t) = false
  chk : ∀ u, s.alive u = true → ∀ m v k, s.pc u = .swChk m v k → s.mem.mval m = v

theorem nowait_init (nm nc nw : Nat) (junk : Mem) : NoWait (init nm nc nw junk) := by
  refine ⟨inv_init .., ?_, ?_⟩ <;> simp [init, inWait]

/-- Outside the table lock and outside condition waits, only a free mutex gets a new owner. -/
theorem outside_eff {M M' : Mem} {alive : Nat → Bool} {t : Nat} {p p' : Pc}
    (h : Stp M alive t p M' p') (w : inWait p = false) (hi : inM p = false) (m : Nat) :
    M'.mval m = M.mval m ∨ M.mval m = 0 := by
  cases h <;> (try exact .inl rfl)
  all_goals (try (simp only [inM, inWait, Bool.not_eq_false'] at hi w))
  all_goals (try (cases hi))
  all_goals (try (rw [w] at hi; cases hi))
  all_goals grind

theorem fin_ne_swChk {k : LK} {r m v : Nat} {k' : Option (Nat × Kind × LK)} :
    fin k r ≠ .swChk m v k' := by cases k <;> simp [fin]

theorem ufin_ne_swChk {k : UK} {r m v : Nat} {k' : Option (Nat × Kind × LK)} :
    ufin k r ≠ .swChk m v k' := by
  cases k <;> simp only [ufin]
  · simp
  · split <;> simp

theorem to_swChk {M M' : Mem} {alive : Nat → Bool} {t m v : Nat} {p p' : Pc}
    {k : Option (Nat × Kind × LK)} (h : Stp M alive t p M' p') (w : wf p = true)
    (e : p' = .swChk m v k) : M'.mval m = v := by
  cases h <;> (try (cases e; done))
  case acqM => subst e; simp [wf] at w
  case relM => subst e; simp [wf] at w
  case acqC => subst e; simp [wf] at w
  case relC => subst e; simp [wf] at w
  case lkChk => exact absurd e fin_ne_swChk
  case lkInc => exact absurd e fin_ne_swChk
  case lkSub h => cases h <;> first | exact absurd e fin_ne_swChk | cases e
  case lkCasNo h => cases h <;> first | exact absurd e fin_ne_swChk | cases e
  case ulFree => exact absurd e ufin_ne_swChk
  case ulPerm => exact absurd e ufin_ne_swChk
  case ulCas => exact absurd e ufin_ne_swChk
  case ulCasFree => exact absurd e ufin_ne_swChk
  case swTake => cases e; rfl

theorem nowait_step {s s' : State} {e : Ev} (i : NoWait s) (ok : noWait s e)
    (h : step s e = some s') : NoWait s' := by
  have hd : okDie s e := by
    cases e <;> simp only [okDie]
    intro u ua m k hk
    exact i.chk u ua m _ k hk
  have hi := inv_step i.inv hd h
  rcases step_cases h with ⟨t, c, r, rfl, t0, ta, hr, rfl⟩ | ⟨t, c, M', p', -, ta, hp, rfl⟩ |
    ⟨t, rfl, ta, rfl⟩
  · refine ⟨hi, ?_, ?_⟩
    · intro u
      have := i.out u
      simp only [upd]
      split
      · cases c <;> simp_all [Call.start, inWait, noWait]
      · exact this
    · intro u ua m v k hk
      simp only [upd] at hk
      split at hk
      · cases c <;> simp [Call.start] at hk
      · exact i.chk u ua m v k hk
  · have t0 := i.inv.base.go0 hp
    have hs := stp_of_plan hp
    refine ⟨hi, ?_, ?_⟩
    · intro u
      simp only [upd]
      split
      · exact inWait_stp hs (i.out t)
      · exact i.out u
    · intro u ua m v k hk
      simp only [upd] at hk
      split at hk
      · rename_i hut
        subst hut
        exact to_swChk hs (i.inv.base.shape u) hk
      · rename_i hut
        have u0 : u ≠ 0 := by rintro rfl; rw [i.inv.base.zero] at hk; cases hk
        have h1 := i.chk u ua m v k hk
        have h2 := (i.inv.base.lockM u u0 ua).mpr (by rw [hk]; rfl)
        have h3 : inM (s.pc t) = false := by
          cases hx : inM (s.pc t)
          · rfl
          · have := (i.inv.base.lockM t t0 ta).mpr hx
            omega
        have h4 := (i.inv.th u u0 ua).at_
        rw [hk] at h4
        simp only [At] at h4
        rcases outside_eff hs (i.out t) h3 m with h | h
        · exact h.trans h1
        · omega
  · refine ⟨hi, i.out, ?_⟩
    intro u ua m v k hk
    have ua' : s.alive u = true := by
      simp only [upd] at ua
      split at ua
      · cases ua
      · exact ua
    exact i.chk u ua' m v k hk

theorem nowait_reach {A : State → Ev → Prop} (hA : ∀ s e, A s e → noWait s e) {s : State}
    (h : Reach A s) : NoWait s := by
  induction h with
  | init nm nc nw junk => exact nowait_init ..
  | step _ ha h ih => exact nowait_step ih (hA _ _ ha) h

end Fullock.MC
