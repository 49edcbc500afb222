import Verif.Proofs.MCRec
import Verif.Proofs.MCSolo
/-!
Conditions: who is woken, what a wait returns, what a signal and a broadcast do.
-/
namespace Fullock.MC

/-! ### Who changes the status of a waiter record -/

theorem wup_stp {M M' : Mem} {alive : Nat → Bool} {t : Nat} {p p' : Pc}
    (h : Stp M alive t p M' p') (w : Nat) :
    M'.wup w = M.wup w ∨
    (M'.wup w = false ∧ ((∃ c m kd, p = .wIni c w m kd) ∨ ∃ c m kd, p = .wSet c w m kd)) ∨
    (M'.wup w = true ∧ (p = .sSet w ∨ (∃ xs, p = .bSet w xs) ∨ ∃ c m r, p = .wErr c w m r)) := by
  cases h <;> (try exact .inl rfl)
  case wIni c x m kd =>
    by_cases h : w = x
    · subst h; exact .inr (.inl ⟨by simp, .inl ⟨_, _, _, rfl⟩⟩)
    · exact .inl (by simp [h])
  case wSet c x m kd =>
    by_cases h : w = x
    · subst h; exact .inr (.inl ⟨by simp, .inr ⟨_, _, _, rfl⟩⟩)
    · exact .inl (by simp [h])
  case wErr c x m r =>
    by_cases h : w = x
    · subst h; exact .inr (.inr ⟨by simp, .inr (.inr ⟨_, _, _, rfl⟩)⟩)
    · exact .inl (by simp [h])
  case sSet x =>
    by_cases h : w = x
    · subst h; exact .inr (.inr ⟨by simp, .inl rfl⟩)
    · exact .inl (by simp [h])
  case bSet x xs =>
    by_cases h : w = x
    · subst h; exact .inr (.inr ⟨by simp, .inr (.inl ⟨_, rfl⟩)⟩)
    · exact .inl (by simp [h])

/-- A step of another thread does not touch the record of `t`, except to wake it. -/
theorem wup_other {s : State} (i : Recs s) {t u c w : Nat} {M' : Mem} {p' : Pc}
    (ta : s.alive t = true) (ua : s.alive u = true) (hut : u ≠ t)
    (hl : lst (s.pc t) = some (c, w)) (h : Stp s.mem s.alive u (s.pc u) M' p') :
    M'.wup w = s.mem.wup w ∨
      (M'.wup w = true ∧ (s.pc u = .sSet w ∨ ∃ xs, s.pc u = .bSet w xs)) := by
  obtain ⟨h1, h2, h3⟩ := i.recs.listed t ta c w hl
  rcases wup_stp h w with h | ⟨-, ⟨c', m, kd, h⟩ | ⟨c', m, kd, h⟩⟩ | ⟨hw, h | h | ⟨c', m, r, h⟩⟩
  · exact .inl h
  · have := (i.recs.handOut u w (by simp only [h]; rfl)).2 c h1
    exact absurd h2 this
  · have := (i.recs.listed u ua c' w (by simp only [h]; rfl)).2.2
    exact absurd (this.symm.trans h3) hut
  · exact .inr ⟨hw, .inl h⟩
  · exact .inr ⟨hw, .inr h⟩
  · have := (i.recs.listed u ua c' w (by simp only [h]; rfl)).2.2
    exact absurd (this.symm.trans h3) hut

/-- No step and no death of `t`, and no call of it. -/
def still (t : Nat) (es : List Ev) : Prop :=
  ∀ e ∈ es, e ≠ .die t ∧ (∀ c, e ≠ .go t c) ∧ ∀ c, e ≠ .call t c

theorem still_step {s s' : State} {t : Nat} {e : Ev} (h : step s e = some s')
    (hs : e ≠ .die t ∧ (∀ c, e ≠ .go t c) ∧ ∀ c, e ≠ .call t c) :
    s'.pc t = s.pc t ∧ s'.alive t = s.alive t ∧ s'.last t = s.last t := by
  rcases step_cases h with ⟨u, c, r, rfl, -, -, -, rfl⟩ | ⟨u, c, M', p', rfl, -, -, rfl⟩ |
    ⟨u, rfl, -, rfl⟩
  · have : t ≠ u := by rintro rfl; exact hs.2.2 c rfl
    simp [this]
  · have : t ≠ u := by rintro rfl; exact hs.2.1 c rfl
    simp [this]
  · have : t ≠ u := by rintro rfl; exact hs.1 rfl
    simp [this]

theorem woken_stays {s s' : State} (i : Recs s) {t c w : Nat} {es : List Ev}
    (ta : s.alive t = true) (hl : lst (s.pc t) = some (c, w)) (hw : s.mem.wup w = true)
    (hs : still t es) (h : run s es = some s') :
    Recs s' ∧ s'.pc t = s.pc t ∧ s'.alive t = true ∧ s'.mem.wup w = true := by
  induction es generalizing s with
  | nil => cases h; exact ⟨i, rfl, ta, hw⟩
  | cons e es ih =>
    simp only [run, Option.bind_eq_some_iff] at h
    obtain ⟨s1, h1, h⟩ := h
    have he := hs e (by simp)
    obtain ⟨e1, e2, -⟩ := still_step h1 he
    have hw1 : s1.mem.wup w = true := by
      rcases step_cases h1 with ⟨u, c', r, rfl, -, -, -, rfl⟩ | ⟨u, c', M', p', rfl, ua, hp, rfl⟩ |
        ⟨u, rfl, -, rfl⟩
      · exact hw
      · have hut : u ≠ t := by rintro rfl; exact he.2.1 c' rfl
        rcases wup_other i ta ua hut hl (stp_of_plan hp) with h | h
        · exact h.trans hw
        · exact h.1
      · exact hw
    obtain ⟨a1, a2, a3, a4⟩ := ih (recs_step i h1) (e2.trans ta) (by rw [e1]; exact hl) hw1
      (fun e he => hs e (by simp [he])) h
    exact ⟨a1, a2.trans e1, a3, a4⟩

/-! ### What a wait returns -/

/-- The result of a wait with mutex `m`, when `D` says that the caller owns `m`. -/
def Res (kd : Kind) (D : Prop) (r : Nat) : Prop :=
  (r = 0 → D) ∧ (kd = .block → r ≠ ETIMEDOUT ∧ r ≠ EBUSY)

def inK (c m : Nat) (kd : Kind) (k : LK) : Prop :=
  ∃ w r, k = .wt c w m r ∧ (r = 0 ∨ r = ETIMEDOUT ∧ kd ≠ .block)

/-- The places of a call `wait c m kd`. -/
def InW (c m : Nat) (kd : Kind) (D : Prop) : Pc → Prop
  | .acqM p => InW c m kd D p
  | .relM p => InW c m kd D p
  | .acqC p => InW c m kd D p
  | .relC p => InW c m kd D p
  | .wM c' m' kd' => c' = c ∧ m' = m ∧ kd' = kd
  | .wC c' m' kd' => c' = c ∧ m' = m ∧ kd' = kd
  | .wNew c' m' kd' => c' = c ∧ m' = m ∧ kd' = kd
  | .wGet c' m' kd' => c' = c ∧ m' = m ∧ kd' = kd
  | .wIni c' _ m' kd' => c' = c ∧ m' = m ∧ kd' = kd
  | .wIns c' _ m' kd' => c' = c ∧ m' = m ∧ kd' = kd
  | .wSet c' _ m' kd' => c' = c ∧ m' = m ∧ kd' = kd
  | .wSpin c' _ m' kd' => c' = c ∧ m' = m ∧ kd' = kd
  | .ulRead m' k => m' = m ∧ ∃ w, k = .wt c w m kd
  | .ulRead2 m' k => m' = m ∧ ∃ w, k = .wt c w m kd
  | .ulSub m' k => m' = m ∧ ∃ w, k = .wt c w m kd
  | .ulFix m' _ k => m' = m ∧ ∃ w, k = .wt c w m kd
  | .ulCas m' k => m' = m ∧ ∃ w, k = .wt c w m kd
  | .ulAdd m' k => m' = m ∧ ∃ w, k = .wt c w m kd
  | .lkRead m' kd' k => m' = m ∧ kd' = kd ∧ inK c m kd k
  | .lkAdd m' kd' k => m' = m ∧ kd' = kd ∧ inK c m kd k
  | .lkChk m' kd' k => m' = m ∧ kd' = kd ∧ inK c m kd k
  | .lkSub m' kd' k => m' = m ∧ kd' = kd ∧ inK c m kd k
  | .lkCas m' kd' k => m' = m ∧ kd' = kd ∧ inK c m kd k
  | .lkInc m' kd' k => m' = m ∧ kd' = kd ∧ inK c m kd k
  | .swM k => ∃ l, k = some (m, kd, l) ∧ inK c m kd l
  | .swChk _ _ k => ∃ l, k = some (m, kd, l) ∧ inK c m kd l
  | .swCnt _ k => ∃ l, k = some (m, kd, l) ∧ inK c m kd l
  | .swCntC _ _ k => ∃ l, k = some (m, kd, l) ∧ inK c m kd l
  | .swVal _ k => ∃ l, k = some (m, kd, l) ∧ inK c m kd l
  | .swValC _ _ k => ∃ l, k = some (m, kd, l) ∧ inK c m kd l
  | .wErr c' _ m' r => c' = c ∧ m' = m ∧ Res kd D r
  | .wCut c' _ m' r => c' = c ∧ m' = m ∧ Res kd D r
  | .wPut _ r => Res kd D r
  | .done r => Res kd D r
  | _ => False

theorem inW_fin {c m : Nat} {kd : Kind} {D : Prop} {k : LK} {r : Nat} (h : inK c m kd k)
    (hr : Res kd D r) : InW c m kd D (fin k r) := by
  obtain ⟨w, r0, rfl, h0⟩ := h
  simp only [fin, InW, true_and]
  split
  · exact hr
  · rename_i hne
    rcases h0 with h0 | ⟨h0, hk⟩
    · exact absurd h0 hne
    · exact ⟨fun h => absurd h hne, fun h => absurd h hk⟩

theorem inW_failed {c m : Nat} {kd : Kind} {D : Prop} {k : LK} {p : Pc} (hf : Failed m kd k p)
    (h : inK c m kd k) : InW c m kd D p := by
  cases hf
  · rename_i hk; exact inW_fin h ⟨by simp [EBUSY], by simp [hk]⟩
  · rename_i hk; exact inW_fin h ⟨by simp [ETIMEDOUT], by simp [hk]⟩
  · exact ⟨rfl, rfl, h⟩
  · exact ⟨k, rfl, h⟩

theorem inW_ufin {c m w : Nat} {kd : Kind} {D : Prop} {r : Nat}
    (hr : r = 0 ∨ r = EPERM) : InW c m kd D (ufin (.wt c w m kd) r) := by
  rcases hr with rfl | rfl <;> simp [ufin, InW, EPERM, Res, ETIMEDOUT, EBUSY]

theorem inW_stp {M M' : Mem} {alive : Nat → Bool} {t : Nat} {p p' : Pc} {c m : Nat} {kd : Kind}
    (h : Stp M alive t p M' p') (hw : InW c m kd (1 ≤ M.dep m t) p) :
    InW c m kd (1 ≤ M'.dep m t) p' := by
  cases h <;> (try exact hw) <;> (try (simp only [InW] at hw; done))
  case lkChk m' kd' k h =>
    obtain ⟨rfl, rfl, hk⟩ := hw
    exact inW_fin hk ⟨by simp, by simp [ETIMEDOUT, EBUSY]⟩
  case lkInc m' kd' k =>
    obtain ⟨rfl, rfl, hk⟩ := hw
    exact inW_fin hk ⟨by simp, by simp [ETIMEDOUT, EBUSY]⟩
  case lkSub m' kd' k h =>
    obtain ⟨rfl, rfl, hk⟩ := hw
    exact inW_failed h hk
  case lkCasNo m' kd' k h0 h =>
    obtain ⟨rfl, rfl, hk⟩ := hw
    exact inW_failed h hk
  case ulFree => obtain ⟨rfl, w, rfl⟩ := hw; exact inW_ufin (.inl rfl)
  case ulPerm => obtain ⟨rfl, w, rfl⟩ := hw; exact inW_ufin (.inr rfl)
  case ulCas => obtain ⟨rfl, w, rfl⟩ := hw; exact inW_ufin (.inl rfl)
  case ulCasFree => obtain ⟨rfl, w, rfl⟩ := hw; exact inW_ufin (.inl rfl)
  case wSet => obtain ⟨rfl, rfl, rfl⟩ := hw; exact ⟨rfl, _, rfl⟩
  case wSpinUp => obtain ⟨rfl, rfl, rfl⟩ := hw; exact ⟨rfl, rfl, _, _, rfl, .inl rfl⟩
  case wSpinOver hk _ => obtain ⟨rfl, rfl, rfl⟩ := hw; exact ⟨rfl, rfl, _, _, rfl, .inr ⟨rfl, hk⟩⟩
  case wCut => exact hw.2.2
  case wCutNo c' w m' r h =>
    obtain ⟨rfl, rfl, hr⟩ := hw
    simp only [InW]
    split
    · exact ⟨by simp [ENOLCK], by simp [ENOLCK, ETIMEDOUT, EBUSY]⟩
    · exact hr
  case swEnd => obtain ⟨l, rfl, hk⟩ := hw; exact ⟨rfl, rfl, hk⟩
  all_goals simp [InW, Res, ENOLCK, EINVAL, ETIMEDOUT, EBUSY]

/-- Nobody's `dep` is changed by another thread. -/
theorem dep_stp {M M' : Mem} {alive : Nat → Bool} {t : Nat} {p p' : Pc}
    (h : Stp M alive t p M' p') {m u : Nat} (hu : u ≠ t) : M'.dep m u = M.dep m u := by
  cases h <;> (try rfl) <;> grind

theorem inW_step {s s' : State} {e : Ev} {t c m : Nat} {kd : Kind} (h : step s e = some s')
    (i : s.last t = .wait c m kd → InW c m kd (1 ≤ s.mem.dep m t) (s.pc t)) :
    s'.last t = .wait c m kd → InW c m kd (1 ≤ s'.mem.dep m t) (s'.pc t) := by
  rcases step_cases h with ⟨u, c', r, rfl, -, -, hr, rfl⟩ | ⟨u, c', M', p', rfl, ua, hp, rfl⟩ |
    ⟨u, rfl, -, rfl⟩
  · by_cases hut : t = u
    · subst hut
      intro hl
      simp only [upd_same] at hl ⊢
      subst hl
      exact ⟨rfl, rfl, rfl⟩
    · simpa [hut] using i
  · intro hl
    by_cases hut : t = u
    · subst hut
      simp only [upd_same]
      exact inW_stp (stp_of_plan hp) (i hl)
    · simp only [upd_ne _ _ hut, dep_stp (stp_of_plan hp) hut]
      exact i hl
  · exact i

theorem inW_reach {A : State → Ev → Prop} {s : State} (r : Reach A s) {t c m : Nat} {kd : Kind} :
    s.last t = .wait c m kd → InW c m kd (1 ≤ s.mem.dep m t) (s.pc t) := by
  induction r with
  | init => intro h; simp [init] at h
  | step _ _ h ih => exact inW_step h ih

/-! ### A waiter that owns the mutex owns it until it releases it -/

/-- The mutex of a wait that has not been released yet. -/
def pre : Pc → Option Nat
  | .acqM p => pre p
  | .relM p => pre p
  | .acqC p => pre p
  | .relC p => pre p
  | .wM _ m _ => some m
  | .wC _ m _ => some m
  | .wNew _ m _ => some m
  | .wGet _ m _ => some m
  | .wIni _ _ m _ => some m
  | .wIns _ _ m _ => some m
  | .wSet _ _ m _ => some m
  | .ulRead m (.wt _ _ _ _) => some m
  | .ulRead2 m (.wt _ _ _ _) => some m
  | .ulSub m (.wt _ _ _ _) => some m
  | .ulFix m _ (.wt _ _ _ _) => some m
  | .ulCas m (.wt _ _ _ _) => some m
  | .ulAdd m (.wt _ _ _ _) => some m
  | _ => none

theorem pre_fin (k : LK) (r : Nat) : pre (fin k r) = none := by cases k <;> rfl
theorem pre_ufin (k : UK) (r : Nat) : pre (ufin k r) = none := by
  cases k <;> simp only [ufin]
  · rfl
  · split <;> rfl
theorem pre_failed {m : Nat} {kd : Kind} {k : LK} {p : Pc} (h : Failed m kd k p) : pre p = none := by
  cases h
  · exact pre_fin _ _
  · exact pre_fin _ _
  · rfl
  · rfl

theorem pre_stp {M M' : Mem} {alive : Nat → Bool} {t m : Nat} {p p' : Pc}
    (h : Stp M alive t p M' p') (hp : pre p' = some m) :
    pre p = some m ∧ M'.dep m t = M.dep m t := by
  cases h <;> (try exact ⟨hp, rfl⟩) <;> (try (simp only [pre, reduceCtorEq] at hp; done))
  case lkChk => rw [pre_fin] at hp; cases hp
  case lkInc => rw [pre_fin] at hp; cases hp
  case lkSub h => rw [pre_failed h] at hp; cases hp
  case lkCasNo h => rw [pre_failed h] at hp; cases hp
  case ulFree => rw [pre_ufin] at hp; cases hp
  case ulPerm => rw [pre_ufin] at hp; cases hp
  case ulCas => rw [pre_ufin] at hp; cases hp
  case ulCasFree => rw [pre_ufin] at hp; cases hp
  case swEnd k => rcases k with _ | ⟨m, kd, k⟩ <;> cases hp
  case ulHeld k _ => cases k <;> first | exact ⟨hp, rfl⟩ | cases hp
  case ulOwn k _ => cases k <;> first | exact ⟨hp, rfl⟩ | cases hp
  case ulSubLow k _ => cases k <;> first | exact ⟨hp, rfl⟩ | cases hp
  case ulSubLast k _ => cases k <;> first | exact ⟨hp, rfl⟩ | cases hp
  case ulSubMore k _ => cases k <;> first | exact ⟨hp, rfl⟩ | cases hp
  case ulFix k => cases k <;> first | exact ⟨hp, rfl⟩ | cases hp
  case ulCasNo k _ _ => cases k <;> first | exact ⟨hp, rfl⟩ | cases hp
  case ulAdd k => cases k <;> first | exact ⟨hp, rfl⟩ | cases hp

theorem pre_reach {A : State → Ev → Prop} (hA : ∀ s e, A s e → waitOwner s e) {s : State}
    (r : Reach A s) (t m : Nat) : pre (s.pc t) = some m → 1 ≤ s.mem.dep m t := by
  induction r with
  | init => intro h; simp [init, pre] at h
  | step _ ha h ih =>
    rcases step_cases h with ⟨u, c', r, rfl, -, -, hr, rfl⟩ | ⟨u, c', M', p', rfl, ua, hp, rfl⟩ |
      ⟨u, rfl, -, rfl⟩
    · by_cases hut : t = u
      · subst hut
        intro hl
        simp only [upd_same] at hl
        have := hA _ _ ha
        cases c' <;> simp [Call.start, pre] at hl
        subst hl
        exact this.2.2
      · simpa [hut] using ih
    · intro hl
      by_cases hut : t = u
      · subst hut
        simp only [upd_same] at hl
        obtain ⟨h1, h2⟩ := pre_stp (stp_of_plan hp) hl
        simp only [h2]
        exact ih h1
      · simp only [upd_ne _ _ hut] at hl
        simp only [dep_stp (stp_of_plan hp) hut]
        exact ih hl
    · exact ih

/-! ### Walks of signals and broadcasts -/

def AtW (M : Mem) (call : Call) : Pc → Prop
  | .acqC (.sFind c b) => call = if b then .broadcast c else .signal c
  | .sFind c b => call = if b then .broadcast c else .signal c
  | .sWalk rest l => ∃ c pre, call = .signal c ∧ c ∈ M.clist ∧ M.ws c = pre ++ rest ∧
      ∀ w, l = some w → w ∈ pre
  | .sSet w => ∃ c, call = .signal c ∧ c ∈ M.clist ∧ w ∈ M.ws c
  | .bWalk rest => ∃ c pre, call = .broadcast c ∧ c ∈ M.clist ∧ M.ws c = pre ++ rest
  | .bSet w rest => ∃ c pre, call = .broadcast c ∧ c ∈ M.clist ∧ M.ws c = pre ++ w :: rest
  | _ => True

theorem ws_stp {M M' : Mem} {alive : Nat → Bool} {t : Nat} {p p' : Pc}
    (h : Stp M alive t p M' p') (hc : inC p = false) : M'.ws = M.ws ∧ M'.clist = M.clist ∧
      M'.warr = M.warr := by
  cases h <;> first | exact ⟨rfl, rfl, rfl⟩ | simp [inC] at hc

theorem fin_AtW {M : Mem} {call : Call} (k : LK) (r : Nat) : AtW M call (fin k r) := by
  cases k <;> trivial
theorem ufin_AtW {M : Mem} {call : Call} (k : UK) (r : Nat) : AtW M call (ufin k r) := by
  cases k <;> simp only [ufin]
  · trivial
  · split <;> trivial
theorem failed_AtW {M : Mem} {call : Call} {m : Nat} {kd : Kind} {k : LK} {p : Pc}
    (h : Failed m kd k p) : AtW M call p := by
  cases h
  · exact fin_AtW _ _
  · exact fin_AtW _ _
  · trivial
  · trivial

theorem atW_stp {M M' : Mem} {alive : Nat → Bool} {t : Nat} {p p' : Pc} {call : Call}
    (h : Stp M alive t p M' p') (w : wf p = true) (ha : AtW M call p) : AtW M' call p' := by
  cases h <;> (try trivial)
  case acqM => cases p' <;> simp_all [wf, AtW]
  case relM => cases p' <;> simp_all [wf]; all_goals first | trivial | (rename_i q; cases q <;> first | trivial | simp [wf] at w)
  case acqC => cases p' <;> simp_all [wf, AtW]
  case relC => cases p' <;> simp_all [wf, AtW]
  case lkChk => exact fin_AtW _ _
  case lkInc => exact fin_AtW _ _
  case lkSub h => exact failed_AtW h
  case lkCasNo h => exact failed_AtW h
  case ulFree => exact ufin_AtW _ _
  case ulPerm => exact ufin_AtW _ _
  case ulCas => exact ufin_AtW _ _
  case ulCasFree => exact ufin_AtW _ _
  case sHit c h => exact ⟨c, [], by simpa [AtW] using ha, h, rfl, by simp⟩
  case bHit c h => exact ⟨c, [], by simpa [AtW] using ha, h, rfl⟩
  case sSome w' =>
    obtain ⟨c, pre, h1, h2, h3, h4⟩ := ha
    exact ⟨c, h1, h2, by rw [h3, List.append_nil]; exact h4 w' rfl⟩
  case sSkip x xs l h =>
    obtain ⟨c, pre, h1, h2, h3, h4⟩ := ha
    exact ⟨c, pre ++ [x], h1, h2, by simp [h3], fun w hw => by simp [h4 w hw]⟩
  case sTake x xs l h =>
    obtain ⟨c, pre, h1, h2, h3, h4⟩ := ha
    exact ⟨c, pre ++ [x], h1, h2, by simp [h3], fun w hw => by cases hw; simp⟩
  case bSkip x xs h =>
    obtain ⟨c, pre, h1, h2, h3⟩ := ha
    exact ⟨c, pre ++ [x], h1, h2, by simp [h3]⟩
  case bSet x xs =>
    obtain ⟨c, pre, h1, h2, h3⟩ := ha
    exact ⟨c, pre ++ [x], h1, h2, by simp [h3]⟩

theorem atW_frame {M M' : Mem} {call : Call} {p : Pc} (h1 : M'.ws = M.ws) (h2 : M'.clist = M.clist)
    (h : AtW M call p) : AtW M' call p := by
  unfold AtW at h ⊢
  simp only [h1, h2]
  exact h

theorem atW_out {M M' : Mem} {call : Call} {p : Pc} (hc : inC p = false) (h : AtW M call p) :
    AtW M' call p := by
  cases p <;> (try trivial) <;> (try (simp [inC] at hc; done))
  rename_i q
  cases q <;> (try trivial)

theorem atW_reach {A : State → Ev → Prop} {s : State} (r : Reach A s) (u : Nat)
    (ua : s.alive u = true) : AtW s.mem (s.last u) (s.pc u) := by
  induction r with
  | init => simp [init, AtW]
  | step r _ h ih =>
    have b := base_reach r
    rcases step_cases h with ⟨t, c', x, rfl, -, -, hr, rfl⟩ | ⟨t, c', M', p', rfl, ta, hp, rfl⟩ |
      ⟨t, rfl, -, rfl⟩
    · by_cases hut : u = t
      · subst hut
        cases c' <;> simp [Call.start, AtW]
      · simpa [hut] using ih ua
    · by_cases hut : u = t
      · subst hut
        simp only [upd_same]
        exact atW_stp (stp_of_plan hp) (b.shape u) (ih ua)
      · simp only [upd_ne _ _ hut]
        by_cases u0 : u = 0
        · subst u0; rw [b.zero]; trivial
        · have hx := b.excl (b.go0 hp) u0 ta ua hut
          cases hc : inC (_root_.Fullock.MC.State.pc _ u)
          · exact atW_out hc (ih ua)
          · obtain ⟨h1, h2, -⟩ := ws_stp (stp_of_plan hp) (hx.2 hc)
            exact atW_frame h1 h2 (ih ua)
    · refine ih ?_
      simp only [upd] at ua
      split at ua
      · cases ua
      · exact ua

end Fullock.MC
