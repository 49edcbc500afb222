import Verif.Proofs.MCSolo
/-!
A lock request that fails has changed nothing.
-/
namespace Fullock.MC

/-- Places of a trylock or timedlock call from the API. -/
def reqNB : Pc → Bool
  | .acqM (.mFind _ kd) => kd != .block
  | .relM (.lkRead _ kd k) => kd != .block && k == .api
  | .relM (.done _) => true
  | .mFind _ kd => kd != .block
  | .mIns _ kd => kd != .block
  | .lkRead _ kd k => kd != .block && k == .api
  | .lkAdd _ kd k => kd != .block && k == .api
  | .lkChk _ kd k => kd != .block && k == .api
  | .lkCas _ kd k => kd != .block && k == .api
  | .lkInc _ kd k => kd != .block && k == .api
  | .done _ => true
  | _ => false

/-- Places of an API lock call that has taken the mutex. -/
def commit : Pc → Bool
  | .lkInc _ _ k => k == .api
  | .lkChk _ _ k => k == .api
  | .done r => r == 0
  | _ => false

theorem reqNB_start (m : Nat) {kd : Kind} (h : kd ≠ .block) : reqNB (Call.lock m kd).start = true := by
  simp [Call.start, reqNB, h]

theorem reqNB_stp {M M' : Mem} {alive : Nat → Bool} {t : Nat} {p p' : Pc}
    (h : Stp M alive t p M' p') (th : Th M alive t p) (w : reqNB p = true) : reqNB p' = true := by
  have ha := th.at_
  have ho := th.own
  cases h <;> (try (cases w; done))
  case acqM => cases p' <;> simp_all [reqNB]
  case relM => cases p' <;> simp_all [reqNB]
  case lkCasNo h => cases h <;> simp_all [reqNB, fin]
  all_goals (simp only [reqNB, At, special] at *)
  all_goals (try (simp_all [fin, reqNB]; done))
  all_goals grind

/-- Every step of such a call either leaves the words of all mutexes alone or commits. -/
theorem reqNB_words {M M' : Mem} {alive : Nat → Bool} {t : Nat} {p p' : Pc}
    (h : Stp M alive t p M' p') (th : Th M alive t p) (w : reqNB p = true) :
    (∀ m ∈ M.mlist, M'.mval m = M.mval m ∧ M'.mcnt m = M.mcnt m) ∨ commit p' = true := by
  have ha := th.at_
  have ho := th.own
  cases h <;> (try (cases w; done)) <;> (try exact .inl fun _ _ => ⟨rfl, rfl⟩)
  all_goals (simp only [reqNB, At, Bool.and_eq_true, beq_iff_eq] at *)
  case mIns m kd => left; grind
  case lkAdd => right; simp [commit, w.2]
  case lkAddNeg => have := ho _ ha; simp only [special] at this; grind
  case lkCas => right; simp [commit, w.2]
  case lkInc => right; simp [commit, w.2, fin]

theorem commit_stp {M M' : Mem} {alive : Nat → Bool} {t : Nat} {p p' : Pc}
    (h : Stp M alive t p M' p') (th : Th M alive t p) (w : commit p = true) : commit p' = true := by
  have ha := th.at_
  have ho := th.own
  cases h <;> (try (cases w; done))
  all_goals (simp only [commit, At, beq_iff_eq] at *)
  case lkChk => simp [commit, w, fin]
  case lkChkNo h => exact absurd (ho _ ha.1).2.1 h
  case lkInc => simp [commit, w, fin]

/-- No call of `t` in `es`. -/
def noCall (t : Nat) (es : List Ev) : Prop := ∀ e ∈ es, ∀ c, e ≠ .call t c

/-- All events of `es` are allowed by `A` in the states in which they happen. -/
def allowed (A : State → Ev → Prop) : State → List Ev → Prop
  | _, [] => True
  | s, e :: es => A s e ∧ ∀ s', step s e = some s' → allowed A s' es

/-- The steps of `t` in the run `es` from `s` leave the words of every existing mutex as they are. -/
def keepsWords (t : Nat) : State → List Ev → Prop
  | _, [] => True
  | s, e :: es => ∀ s', step s e = some s' →
      ((∃ c, e = .go t c) → ∀ m ∈ s.mem.mlist, s'.mem.mval m = s.mem.mval m ∧ s'.mem.mcnt m = s.mem.mcnt m) ∧
      keepsWords t s' es

theorem step_pc_other {s s' : State} {e : Ev} {t : Nat} (h : step s e = some s')
    (h1 : ∀ c, e ≠ .go t c) (h2 : ∀ c, e ≠ .call t c) : s'.pc t = s.pc t := by
  rcases step_cases h with ⟨u, c, r, rfl, -, -, -, rfl⟩ | ⟨u, c, M', p', rfl, -, -, rfl⟩ |
    ⟨u, rfl, -, rfl⟩
  · have : t ≠ u := by rintro rfl; exact h2 c rfl
    simp [upd, this]
  · have : t ≠ u := by rintro rfl; exact h1 c rfl
    simp [upd, this]
  · rfl

theorem step_alive {s s' : State} {e : Ev} {t : Nat} (h : step s e = some s')
    (ha : s'.alive t = true) : s.alive t = true := by
  rcases step_cases h with ⟨u, c, r, rfl, -, -, -, rfl⟩ | ⟨u, c, M', p', rfl, -, -, rfl⟩ |
    ⟨u, rfl, -, rfl⟩
  · exact ha
  · exact ha
  · simp only [upd] at ha; split at ha
    · cases ha
    · exact ha

theorem run_alive {s s' : State} {es : List Ev} {t : Nat} (h : run s es = some s')
    (ha : s'.alive t = true) : s.alive t = true := by
  induction es generalizing s with
  | nil => cases h; exact ha
  | cons e es ih =>
    simp only [run, Option.bind_eq_some_iff] at h
    obtain ⟨s1, h1, h⟩ := h
    exact step_alive h1 (ih h)

theorem commit_run {s s' : State} {es : List Ev} {t : Nat} (i : Inv s) (t0 : t ≠ 0)
    (ok : allowed okDie s es) (nc : noCall t es) (h : run s es = some s') (ha : s'.alive t = true)
    (w : commit (s.pc t) = true) : commit (s'.pc t) = true := by
  induction es generalizing s with
  | nil => cases h; exact w
  | cons e es ih =>
    simp only [run, Option.bind_eq_some_iff] at h
    obtain ⟨s1, h1, h⟩ := h
    have i1 := inv_step i ok.1 h1
    have ta := step_alive h1 (run_alive h ha)
    refine ih i1 (ok.2 s1 h1) (fun e he => nc e (by simp [he])) h ?_
    by_cases hg : ∃ c, e = .go t c
    · obtain ⟨c, rfl⟩ := hg
      rcases step_cases h1 with ⟨u, c', r, hh, -, -, -, rfl⟩ | ⟨u, c', M', p', hh, -, hp, rfl⟩ |
        ⟨u, hh, -, rfl⟩
      · cases hh
      · cases hh
        simpa using commit_stp (stp_of_plan hp) (i.th t t0 ta) w
      · cases hh
    · rw [step_pc_other h1 (fun c hc => hg ⟨c, hc⟩) (nc e (by simp))]
      exact w

theorem fail_keeps {s s' : State} {es : List Ev} {t r : Nat} (i : Inv s) (t0 : t ≠ 0)
    (ok : allowed okDie s es) (nc : noCall t es) (h : run s es = some s') (ha : s'.alive t = true)
    (w : reqNB (s.pc t) = true) (hr : s'.pc t = .done r) (hr0 : r ≠ 0) : keepsWords t s es := by
  induction es generalizing s with
  | nil => trivial
  | cons e es ih =>
    simp only [run, Option.bind_eq_some_iff] at h
    obtain ⟨s1, h1, h⟩ := h
    have i1 := inv_step i ok.1 h1
    have ta := step_alive h1 (run_alive h ha)
    intro s1' h1'
    rw [h1] at h1'
    cases h1'
    have nc' : noCall t es := fun e he => nc e (by simp [he])
    by_cases hg : ∃ c, e = .go t c
    · obtain ⟨c, rfl⟩ := hg
      rcases step_cases h1 with ⟨u, c', r, hh, -, -, -, rfl⟩ | ⟨u, c', M', p', hh, -, hp, rfl⟩ |
        ⟨u, hh, -, rfl⟩
      · cases hh
      · cases hh
        have hs := stp_of_plan hp
        have hth := i.th t t0 ta
        refine ⟨fun _ => ?_, ih i1 (ok.2 _ h1) nc' h (by simpa using reqNB_stp hs hth w)⟩
        rcases reqNB_words hs hth w with h2 | h2
        · exact h2
        · have := commit_run i1 t0 (ok.2 _ h1) nc' h ha (by simpa using h2)
          rw [hr] at this
          simp [commit, hr0] at this
      · cases hh
    · refine ⟨fun hh => absurd hh hg, ih i1 (ok.2 _ h1) nc' h ?_⟩
      rw [step_pc_other h1 (fun c hc => hg ⟨c, hc⟩) (nc e (by simp))]
      exact w

end Fullock.MC
