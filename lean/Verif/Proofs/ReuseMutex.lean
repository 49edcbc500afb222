import Verif.Proofs.Reuse
/-! Exclusion of the mutexes when numbers of dead threads are given to new ones at any time. -/
namespace Fullock.MC

/-- Places from which a thread reaches a mutex only through the table lock. -/
def away : Pc → Bool
  | .done _ => true
  | .acqM _ => true
  | .acqC (.sFind _ _) => true
  | .acqC .swC => true
  | .relC (.done _) => true
  | .sFind _ _ => true
  | .sWalk _ _ => true
  | .sSet _ => true
  | .bWalk _ => true
  | .bSet _ _ => true
  | .swC => true
  | .swPut _ => true
  | _ => false

/-- The bearer of number `w` has nothing to do with mutex `m`: it is dead, or new and has not come near it. -/
def Idle (M : Mem) (alive : Nat → Bool) (pc : Nat → Pc) (m w : Nat) : Prop :=
  alive w = false ∨ (away (pc w) = true ∧ M.dep m w = 0)

/-- What the place of the live thread `u` says. -/
def AtX (M : Mem) (alive : Nat → Bool) (pc : Nat → Pc) (u : Nat) : Pc → Prop
  | .mIns m _ => m ∉ M.mlist
  | .lkInc m _ _ => M.mval m = u
  | .swChk m v _ => v ≠ 0 ∧ v ≠ u ∧ (alive v = true ∨ M.mval m = v)
  | .swCnt m _ => M.mval m ≠ 0 ∧ M.mval m ≠ u ∧ Idle M alive pc m (M.mval m)
  | .swCntC m _ _ => M.mval m ≠ 0 ∧ M.mval m ≠ u ∧ Idle M alive pc m (M.mval m)
  | .swVal m _ => M.mval m ≠ 0 ∧ M.mval m ≠ u ∧ Idle M alive pc m (M.mval m)
  | .swValC m _ _ => M.mval m ≠ 0 ∧ M.mval m ≠ u ∧ Idle M alive pc m (M.mval m)
  | _ => True

structure X (s : State) : Prop where
  zero : s.pc 0 = .done 0
  shape : ∀ t, wf (s.pc t) = true
  lock : ∀ t, t ≠ 0 → s.alive t = true → inM (s.pc t) = true → s.mem.mL = t
  used : ∀ t, ∀ m ∈ uses (s.pc t), m ∈ s.mem.mlist
  own : ∀ t, t ≠ 0 → s.alive t = true → ∀ m, 1 ≤ s.mem.dep m t → m ∈ s.mem.mlist ∧ s.mem.mval m = t
  at_ : ∀ t, t ≠ 0 → s.alive t = true → AtX s.mem s.alive s.pc t (s.pc t)

theorem x_init (nm nc nw : Nat) (junk : Mem) : X (init nm nc nw junk) := by
  constructor <;> intros <;> simp_all [init, wf, inM, uses, AtX]

/-- What a step of `t` may do to the mutexes. -/
structure EffX (M M' : Mem) (alive : Nat → Bool) (pc : Nat → Pc) (t : Nat) (p : Pc) : Prop where
  list : ∀ m ∈ M.mlist, m ∈ M'.mlist
  dep : ∀ m u, u ≠ t → M'.dep m u = M.dep m u
  new : ∀ m, m ∉ M.mlist → m ∈ M'.mlist → inM p = true ∧ M'.mval m = 0
  old : ∀ m ∈ M.mlist, M'.mval m = M.mval m ∨ (M.mval m = t ∧ away p = false ∧ M'.mval m = 0) ∨
    (M.mval m = 0 ∧ M'.mval m = t ∧ away p = false) ∨
    (inM p = true ∧ M.mval m ≠ 0 ∧ M.mval m ≠ t ∧ Idle M alive pc m (M.mval m) ∧ M'.mval m = 0)

theorem effX_stp {M M' : Mem} {alive : Nat → Bool} {pc : Nat → Pc} {t : Nat} {p p' : Pc}
    (h : Stp M alive t p M' p') (u : ∀ m ∈ uses p, m ∈ M.mlist) (ha : AtX M alive pc t p) :
    EffX M M' alive pc t p := by
  cases h <;> (try exact ⟨fun _ h => h, fun _ _ _ => rfl, fun _ h h' => absurd h' h, fun _ _ => .inl rfl⟩)
  all_goals simp only [AtX] at ha
  all_goals (constructor <;> intros <;> (try simp only [inM, away]) <;> grind)

/-- Steps outside the mutexes keep a thread there. -/
theorem away_stp {M M' : Mem} {alive : Nat → Bool} {t : Nat} {p p' : Pc} (h : Stp M alive t p M' p')
    (he : away p = true) (hb : M.mL ≠ 0 ∧ alive M.mL = true) :
    away p' = true ∧ M'.dep = M.dep ∧ M'.mval = M.mval ∧ M'.mlist = M.mlist := by
  cases h <;> (try (simp [away] at he; done)) <;> (try exact ⟨rfl, rfl, rfl, rfl⟩)
  case acqM h => rcases h with h | h <;> simp_all
  case acqC h => cases p' <;> simp_all [away]
  case relC => cases p' <;> simp_all [away]

theorem away_start (c : Call) : away c.start = true := by
  cases c <;> rfl

theorem away_not_inM {p : Pc} (h : away p = true) : inM p = false := by
  cases p <;> simp_all [away, inM]

theorem atX_fin {M : Mem} {alive : Nat → Bool} {pc : Nat → Pc} {t : Nat} (k : LK) (r : Nat) :
    AtX M alive pc t (fin k r) := by
  cases k <;> simp [fin, AtX]

theorem atX_ufin {M : Mem} {alive : Nat → Bool} {pc : Nat → Pc} {t : Nat} (k : UK) (r : Nat) :
    AtX M alive pc t (ufin k r) := by
  cases k
  · simp [ufin, AtX]
  · by_cases h : r = 0 <;> simp [ufin, AtX, h]

theorem atX_failed {M : Mem} {alive : Nat → Bool} {pc : Nat → Pc} {t m : Nat} {kd : Kind} {k : LK} {p : Pc}
    (h : Failed m kd k p) : AtX M alive pc t p := by
  cases h
  · exact atX_fin _ _
  · exact atX_fin _ _
  · simp [AtX]
  · simp [AtX]

theorem atX_after {M : Mem} {alive : Nat → Bool} {pc : Nat → Pc} {t : Nat} {p : Pc}
    (h : wf (.acqM p) = true ∨ wf (.relM p) = true ∨ wf (.acqC p) = true ∨ wf (.relC p) = true) :
    AtX M alive pc t p := by
  cases p <;> simp_all [wf, AtX]

/-- A step of `t` keeps what its place says. -/
theorem atX_stp {M M' : Mem} {alive : Nat → Bool} {pc : Nat → Pc} {t : Nat} {p p' : Pc}
    (h : Stp M alive t p M' p') (w : wf p = true) (ha : AtX M alive pc t p) :
    AtX M' alive (upd pc t p') t p' := by
  cases h
  case acqM h => exact atX_after (.inl w)
  case relM => exact atX_after (.inr (.inl w))
  case acqC h => exact atX_after (.inr (.inr (.inl w)))
  case relC => exact atX_after (.inr (.inr (.inr w)))
  case lkSub h => exact atX_failed h
  case lkCasNo h => exact atX_failed h
  case lkChk => exact atX_fin _ _
  case lkInc => exact atX_fin _ _
  case ulFree => exact atX_ufin _ _
  case ulPerm => exact atX_ufin _ _
  case ulCas => exact atX_ufin _ _
  case ulCasFree => exact atX_ufin _ _
  case swEnd k => rcases k with _ | ⟨m, kd, k⟩ <;> simp [AtX]
  all_goals simp only [AtX, Idle] at ha ⊢
  all_goals grind

/-- A step of `t` keeps what it owns. -/
theorem own_stp {M M' : Mem} {alive : Nat → Bool} {pc : Nat → Pc} {t : Nat} {p p' : Pc} (t0 : t ≠ 0)
    (h : Stp M alive t p M' p') (u : ∀ m ∈ uses p, m ∈ M.mlist) (ha : AtX M alive pc t p)
    (own : ∀ m, 1 ≤ M.dep m t → m ∈ M.mlist ∧ M.mval m = t) :
    ∀ m, 1 ≤ M'.dep m t → m ∈ M'.mlist ∧ M'.mval m = t := by
  cases h <;> (try exact own)
  all_goals simp only [AtX, uses] at ha u
  all_goals intro m hm
  all_goals grind

/-- What holds of the other threads is not changed by a step of `t`. -/
theorem x_frame {M M' : Mem} {alive : Nat → Bool} {pc : Nat → Pc} {t u : Nat} {p' : Pc}
    (st : Stp M alive t (pc t) M' p')
    (e : EffX M M' alive pc t (pc t)) (ut : u ≠ t) (t0 : t ≠ 0) (u0 : u ≠ 0) (ua : alive u = true)
    (ta : alive t = true) (hl : inM (pc u) = true → M.mL = u)
    (hi : inM (pc t) = true → inM (pc u) = false) (hu : ∀ m ∈ uses (pc u), m ∈ M.mlist)
    (own : ∀ m, 1 ≤ M.dep m u → m ∈ M.mlist ∧ M.mval m = u)
    (hat : AtX M alive pc u (pc u)) :
    (∀ m, 1 ≤ M'.dep m u → m ∈ M'.mlist ∧ M'.mval m = u) ∧ AtX M' alive (upd pc t p') u (pc u) := by
  have ey : away (pc t) = true → inM (pc u) = true →
      away p' = true ∧ M'.dep = M.dep ∧ M'.mval = M.mval ∧ M'.mlist = M.mlist :=
    fun h1 h2 => away_stp st h1 ⟨by rw [hl h2]; exact u0, by rw [hl h2]; exact ua⟩
  obtain ⟨el, ed, en, eo⟩ := e
  constructor
  · intro m hm
    rw [ed m u ut] at hm
    obtain ⟨h1, h2⟩ := own m hm
    refine ⟨el m h1, ?_⟩
    rcases eo m h1 with h | ⟨h, -, -⟩ | ⟨h, -, -⟩ | ⟨-, -, -, h, -⟩
    · rw [h, h2]
    · exact absurd (h2.symm.trans h) ut
    · exact absurd (h2.symm.trans h) u0
    · rw [h2] at h
      rcases h with h | ⟨-, h⟩
      · rw [ua] at h; cases h
      · omega
  · have core : ∀ m ∈ M.mlist, inM (pc t) = false → inM (pc u) = true → M.mval m ≠ 0 →
        Idle M alive pc m (M.mval m) →
        M'.mval m = M.mval m ∧ Idle M' alive (upd pc t p') m (M.mval m) := by
      intro m hm h1 h2 h3 h4
      have hid : M.mval m ≠ t ∨ away (pc t) = true := by
        by_cases e : M.mval m = t
        · rw [e] at h4
          rcases h4 with h4 | h4
          · rw [ta] at h4; cases h4
          · exact .inr h4.1
        · exact .inl e
      have hv : M'.mval m = M.mval m := by
        rcases hid with hid | hid
        · rcases eo m hm with h | ⟨h, -, -⟩ | ⟨h, -, -⟩ | ⟨h, -⟩
          · exact h
          · exact absurd h hid
          · exact absurd h h3
          · rw [h1] at h; cases h
        · rw [(ey hid h2).2.2.1]
      refine ⟨hv, ?_⟩
      by_cases e : M.mval m = t
      · have h5 : away (pc t) = true := by
          rcases hid with hid | hid
          · exact absurd e hid
          · exact hid
        obtain ⟨h6, h7, -⟩ := ey h5 h2
        rcases h4 with h4 | h4
        · exact .inl h4
        · refine .inr ⟨?_, ?_⟩
          · rw [e]; simpa using h6
          · rw [h7]; exact h4.2
      · rcases h4 with h4 | h4
        · exact .inl h4
        · refine .inr ⟨?_, ?_⟩
          · simpa [upd, e] using h4.1
          · rw [ed m _ e]; exact h4.2
    have nv : ∀ m ∈ M.mlist, inM (pc t) = false → M.mval m ≠ 0 → M.mval m ≠ t → M'.mval m = M.mval m := by
      intro m hm h1 h3 hid
      rcases eo m hm with h | ⟨h, -, -⟩ | ⟨h, -, -⟩ | ⟨h, -⟩
      · exact h
      · exact absurd h hid
      · exact absurd h h3
      · rw [h1] at h; cases h
    have lv : ∀ m ∈ M.mlist, M.mval m = u → away (pc u) = false → M'.mval m = u := by
      intro m hm h1 h2
      rcases eo m hm with h | ⟨h, -, -⟩ | ⟨h, -, -⟩ | ⟨-, -, -, h, -⟩
      · rw [h, h1]
      · exact absurd (h1.symm.trans h) ut
      · exact absurd (h1.symm.trans h) u0
      · rw [h1] at h
        rcases h with h | ⟨h, -⟩
        · rw [ua] at h; cases h
        · rw [h2] at h; cases h
    clear ey eo hl
    generalize hq : pc u = q at *
    generalize inM (pc t) = i at *
    cases q <;> simp only [AtX] at hat ⊢ <;> simp only [inM, uses, away] at hi hu core nv lv <;> grind

theorem X.go0 {s : State} (b : X s) {t : Nat} {c : Choice} {x : Mem × Pc}
    (h : plan s.mem s.alive t (s.pc t) c = some x) : t ≠ 0 := by
  rintro rfl
  rw [b.zero, plan_done] at h
  cases h

theorem x_step {s s' : State} {e : Ev} (i : X s) (ok : okDie s e) (h : step s e = some s') : X s' := by
  rcases step_cases h with ⟨t, c, r, -, t0, ta, hr, rfl⟩ | ⟨t, c, M', p', -, ta, hp, rfl⟩ |
    ⟨t, rfl, ta, rfl⟩
  · obtain ⟨w1, w2, -, w4⟩ := wf_start c
    refine ⟨?_, ?_, ?_, ?_, i.own, ?_⟩
    · simpa [upd, Ne.symm t0] using i.zero
    · intro u; simp only [upd]; split
      · exact w1
      · exact i.shape u
    · intro u u0 ua; simp only [upd]; split
      · rw [w2]; simp
      · exact i.lock u u0 ua
    · intro u m; simp only [upd]; split
      · rw [w4]; simp
      · exact i.used u m
    · intro u u0 ua
      by_cases e : u = t
      · subst e; cases c <;> simp [upd, Call.start, AtX]
      · simp only [upd, e, if_false]
        have := i.at_ u u0 ua
        have hs := away_start c
        generalize s.pc u = q at this
        cases q <;> simp only [AtX, Idle] at this ⊢ <;> grind
  · have t0 := i.go0 hp
    have hs := stp_of_plan hp
    have he := effX_stp hs (i.used t) (i.at_ t t0 ta)
    have hl := (lock_stp hs (i.shape t)).1
    have huu := uses_stp hs (i.shape t)
    have hex : ∀ u, u ≠ 0 → s.alive u = true → u ≠ t → inM (s.pc t) = true → inM (s.pc u) = false := by
      intro u u0 ua ut h1
      have := i.lock t t0 ta h1
      have h2 := i.lock u u0 ua
      cases hiu : inM (s.pc u)
      · rfl
      · exact absurd ((h2 hiu).symm.trans this) ut
    refine ⟨?_, ?_, ?_, ?_, ?_, ?_⟩
    · simpa [upd, Ne.symm t0] using i.zero
    · intro u; simp only [upd]; split
      · exact wf_stp hs (i.shape t)
      · exact i.shape u
    · intro u u0 ua hi
      have hlu := i.lock u u0 ua
      have hlt := i.lock t t0 ta
      have := hex u u0 ua
      by_cases e : u = t
      · subst e
        simp only [upd_same] at hi
        rcases hl with ⟨h1, h2⟩ | ⟨-, -, -, h2⟩ | ⟨-, h1, -⟩
        · rw [h1] at hi; rw [h2]; exact hlu hi
        · exact h2
        · rw [h1] at hi; cases hi
      · simp only [upd, e, if_false] at hi
        have h3 := hlu hi
        rcases hl with ⟨h1, h2⟩ | ⟨-, -, h1, h2⟩ | ⟨h1, -, h2⟩
        · rw [h2]; exact h3
        · rw [h3] at h1
          rcases h1 with h1 | h1
          · exact absurd h1 u0
          · rw [ua] at h1; cases h1
        · have := this e h1
          rw [this] at hi; cases hi
    · intro u m hm
      by_cases e : u = t
      · subst e
        simp only [upd_same] at hm
        rcases huu.2 m hm with h | h
        · exact huu.1 m (i.used u m h)
        · exact h
      · simp only [upd, e, if_false] at hm
        exact huu.1 m (i.used u m hm)
    · intro u u0 ua
      by_cases e : u = t
      · subst e; exact own_stp u0 hs (i.used u) (i.at_ u u0 ua) (i.own u u0 ua)
      · exact (x_frame hs he e t0 u0 ua ta (i.lock u u0 ua) (hex u u0 ua e) (i.used u) (i.own u u0 ua)
          (i.at_ u u0 ua)).1
    · intro u u0 ua
      by_cases e : u = t
      · subst e
        simpa using atX_stp (pc := s.pc) hs (i.shape u) (i.at_ u u0 ua)
      · have := (x_frame hs he e t0 u0 ua ta (i.lock u u0 ua) (hex u u0 ua e) (i.used u) (i.own u u0 ua)
          (i.at_ u u0 ua)).2
        simpa [upd, e] using this
  · refine ⟨i.zero, i.shape, ?_, i.used, ?_, ?_⟩
    · intro u u0 ua
      by_cases e : u = t
      · subst e; simp at ua
      · exact i.lock u u0 (by simpa [upd, e] using ua)
    · intro u u0 ua
      by_cases e : u = t
      · subst e; simp at ua
      · exact i.own u u0 (by simpa [upd, e] using ua)
    · intro u u0 ua
      by_cases e : u = t
      · subst e; simp at ua
      · have ua' : s.alive u = true := by simpa [upd, e] using ua
        have hat := i.at_ u u0 ua'
        have ok' : ∀ m v k, s.pc u = .swChk m v k → v = t → s.mem.mval m = v := by
          intro m v k hq hv
          subst hv
          exact ok u ua' m k hq
        generalize s.pc u = q at hat ok'
        cases q <;> simp only [AtX, Idle] at hat ⊢ <;> grind

theorem x_born {s s' : State} {t : Nat} (i : X s) (h : born s t = some s') : X s' := by
  obtain ⟨t0, hd, rfl⟩ := born_eq h
  refine ⟨?_, ?_, ?_, ?_, ?_, ?_⟩
  · simpa [upd, Ne.symm t0] using i.zero
  · intro u; simp only [upd]; split
    · rfl
    · exact i.shape u
  · intro u u0 ua
    by_cases e : u = t
    · subst e; simp [inM]
    · simp only [upd, e, if_false] at ua ⊢
      exact i.lock u u0 ua
  · intro u m
    by_cases e : u = t
    · subst e; simp [uses]
    · simpa [upd, e] using i.used u m
  · intro u u0 ua m
    by_cases e : u = t
    · subst e; simp
    · simpa [upd, e] using i.own u u0 (by simpa [upd, e] using ua) m
  · intro u u0 ua
    by_cases e : u = t
    · subst e; simp [AtX]
    · have hat := i.at_ u u0 (by simpa [upd, e] using ua)
      simp only [upd, e, if_false]
      generalize s.pc u = q at hat
      cases q <;> simp only [AtX, Idle] at hat ⊢ <;> grind [away]

theorem x_reenterM {s s' : State} {t : Nat} (i : X s) (h : reenterM s t = some s') : X s' := by
  simp only [reenterM] at h
  split at h
  · rename_i p hp
    split at h
    · rename_i hc
      cases h
      have t0 : t ≠ 0 := by rintro rfl; rw [i.zero] at hp; cases hp
      have hw := i.shape t
      rw [hp] at hw
      have hnp : ∀ u, u ≠ 0 → s.alive u = true → u ≠ t → inM (s.pc u) = false := by
        intro u u0 ua ut
        cases hiu : inM (s.pc u)
        · rfl
        · exact absurd ((i.lock u u0 ua hiu).symm.trans hc.2) ut
      refine ⟨?_, ?_, ?_, ?_, i.own, ?_⟩
      · simpa [upd, Ne.symm t0] using i.zero
      · intro u; simp only [upd]; split
        · cases p <;> simp_all [wf]
        · exact i.shape u
      · intro u u0 ua
        by_cases e : u = t
        · subst e; exact fun _ => hc.2
        · simpa [upd, e] using i.lock u u0 ua
      · intro u m
        by_cases e : u = t
        · subst e
          have := i.used u m
          rw [hp] at this
          simpa [uses] using this
        · simpa [upd, e] using i.used u m
      · intro u u0 ua
        by_cases e : u = t
        · subst e; simpa using atX_after (.inl hw)
        · have hat := i.at_ u u0 ua
          have hn := hnp u u0 ua e
          have hu := i.used u
          simp only [upd, e, if_false]
          generalize s.pc u = q at hat hn hu
          cases q <;> simp only [AtX, inM, reduceCtorEq] at hat hn ⊢ <;> exact hat
    · cases h
  · cases h

theorem x_reenterC {s s' : State} {t : Nat} (i : X s) (h : reenterC s t = some s') : X s' := by
  simp only [reenterC] at h
  split at h
  · rename_i p hp
    split at h
    · rename_i hc
      cases h
      have t0 : t ≠ 0 := by rintro rfl; rw [i.zero] at hp; cases hp
      have hw := i.shape t
      rw [hp] at hw
      have hi : inM p = false := by cases p <;> simp_all [wf, inM]
      have he : away (.acqC p) = true → away p = true := by cases p <;> simp_all [wf, away]
      refine ⟨?_, ?_, ?_, ?_, i.own, ?_⟩
      · simpa [upd, Ne.symm t0] using i.zero
      · intro u; simp only [upd]; split
        · cases p <;> simp_all [wf]
        · exact i.shape u
      · intro u u0 ua
        by_cases e : u = t
        · subst e; simp [hi]
        · simpa [upd, e] using i.lock u u0 ua
      · intro u m
        by_cases e : u = t
        · subst e
          have := i.used u m
          rw [hp] at this
          simpa [uses] using this
        · simpa [upd, e] using i.used u m
      · intro u u0 ua
        by_cases e : u = t
        · subst e; simpa using atX_after (.inr (.inr (.inl hw)))
        · have hat := i.at_ u u0 ua
          simp only [upd, e, if_false]
          generalize s.pc u = q at hat
          cases q <;> simp only [AtX, Idle] at hat ⊢ <;> grind
    · cases h
  · cases h

theorem x_reach {A : State → Ev → Prop} {B : State → Nat → Prop} (hA : ∀ s e, A s e → okDie s e)
    {s : State} (h : RReach A B s) : X s := by
  induction h with
  | init => exact x_init ..
  | ev _ ha hs ih => exact x_step ih (hA _ _ ha) hs
  | born _ _ hs ih => exact x_born ih hs
  | reenterM _ hs ih => exact x_reenterM ih hs
  | reenterC _ hs ih => exact x_reenterC ih hs

end Fullock.MC
