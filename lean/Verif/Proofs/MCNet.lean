import Verif.Proofs.MCRec
import Verif.Proofs.MCFail
/-!
A lock request that fails has changed nothing in the end, whoever dies wherever.
-/
namespace Fullock.MC

/-- `e` is a step of thread `t`. -/
def Ev.stepOf (t : Nat) : Ev → Bool
  | .go u _ => u == t
  | _ => false

/-- What the steps of `t` in the run `es` from `s` add to the count of mutex `m`, in sum. -/
def net (t m : Nat) : State → List Ev → Int
  | _, [] => 0
  | s, e :: es => match step s e with
    | none => 0
    | some s' => (if e.stepOf t then s'.mem.mcnt m - s.mem.mcnt m else 0) + net t m s' es

/-- No step of `t` in the run `es` from `s` changes the owner of mutex `m`. -/
def keepsOwner (t m : Nat) : State → List Ev → Prop
  | _, [] => True
  | s, e :: es => ∀ s', step s e = some s' →
      (e.stepOf t = true → s'.mem.mval m = s.mem.mval m) ∧ keepsOwner t m s' es

/-- Places of a trylock or timedlock call from the API which has not taken the mutex. -/
def reqNet : Pc → Bool
  | .acqM (.mFind _ kd) => kd != .block
  | .relM (.lkRead _ kd k) => kd != .block && k == .api
  | .relM (.done _) => true
  | .mFind _ kd => kd != .block
  | .mIns _ kd => kd != .block
  | .lkRead _ kd k => kd != .block && k == .api
  | .lkAdd _ kd k => kd != .block && k == .api
  | .lkChk _ kd k => kd != .block && k == .api
  | .lkSub _ kd k => kd != .block && k == .api
  | .lkCas _ kd k => kd != .block && k == .api
  | .done _ => true
  | _ => false

/-- Places of an API lock call that has taken the mutex. -/
def took : Pc → Bool
  | .lkInc _ _ k => k == .api
  | .done r => r == 0
  | _ => false

/-- What the call has added to the count of `m` and not yet taken back. -/
def pend (m : Nat) : Pc → Int
  | .lkChk x _ _ => if x = m then 1 else 0
  | .lkSub x _ _ => if x = m then 1 else 0
  | _ => 0

theorem mlist_stp {M M' : Mem} {alive : Nat → Bool} {t : Nat} {p p' : Pc} (h : Stp M alive t p M' p')
    {m : Nat} (hm : m ∈ M.mlist) : m ∈ M'.mlist := by
  cases h <;> first | exact hm | exact List.mem_cons_of_mem _ hm

theorem reqNet_stp {M M' : Mem} {alive : Nat → Bool} {t : Nat} {p p' : Pc}
    (h : Stp M alive t p M' p') (ha : AtN M p) (w : reqNet p = true) {m : Nat} (hm : m ∈ M.mlist) :
    took p' = true ∨ (reqNet p' = true ∧ M'.mval m = M.mval m ∧
      M'.mcnt m - M.mcnt m = pend m p' - pend m p) := by
  cases h <;> (try (cases w; done))
  case acqM => right; cases p' <;> simp_all [reqNet, pend]
  case relM => right; cases p' <;> simp_all [reqNet, pend]
  case lkCasNo h => right; cases h <;> simp_all [reqNet, pend, fin]
  case lkSub h =>
    right
    cases h <;> simp_all [reqNet, pend, fin, upd] <;> grind
  case mIns x kd =>
    right
    have hx : m ≠ x := by rintro rfl; exact ha hm
    simp_all [reqNet, pend, upd]
  case lkCas => left; simp_all [took, reqNet]
  case lkChk => left; simp_all [took, reqNet, fin]
  all_goals right
  all_goals simp_all [reqNet, pend, upd]
  all_goals grind

theorem took_stp {M M' : Mem} {alive : Nat → Bool} {t : Nat} {p p' : Pc}
    (h : Stp M alive t p M' p') (w : took p = true) : took p' = true := by
  cases h <;> (try (cases w; done))
  case lkInc => simp_all [took, fin]

theorem took_run {s s' : State} {es : List Ev} {t : Nat} (nc : noCall t es) (h : run s es = some s')
    (w : took (s.pc t) = true) : took (s'.pc t) = true := by
  induction es generalizing s with
  | nil => cases h; exact w
  | cons e es ih =>
    simp only [run, Option.bind_eq_some_iff] at h
    obtain ⟨s1, h1, h⟩ := h
    refine ih (fun e he => nc e (by simp [he])) h ?_
    by_cases hg : ∃ c, e = .go t c
    · obtain ⟨c, rfl⟩ := hg
      rcases step_cases h1 with ⟨u, c', r, hh, -, -, -, rfl⟩ | ⟨u, c', M', p', hh, -, hp, rfl⟩ |
        ⟨u, hh, -, rfl⟩
      · cases hh
      · cases hh
        simpa using took_stp (stp_of_plan hp) w
      · cases hh
    · rw [step_pc_other h1 (fun c hc => hg ⟨c, hc⟩) (nc e (by simp))]
      exact w

theorem fail_net {s s' : State} {es : List Ev} {t r m : Nat} (i : Names s) (nc : noCall t es)
    (h : run s es = some s') (ha : s'.alive t = true) (w : reqNet (s.pc t) = true) (hm : m ∈ s.mem.mlist)
    (hr : s'.pc t = .done r) (hr0 : r ≠ 0) : keepsOwner t m s es ∧ net t m s es = - pend m (s.pc t) := by
  induction es generalizing s with
  | nil =>
    cases h
    rw [hr]
    exact ⟨trivial, rfl⟩
  | cons e es ih =>
    simp only [run, Option.bind_eq_some_iff] at h
    obtain ⟨s1, h1, h⟩ := h
    have i1 := names_step i h1
    have ta := step_alive h1 (run_alive h ha)
    have nc' : noCall t es := fun e he => nc e (by simp [he])
    by_cases hg : ∃ c, e = .go t c
    · obtain ⟨c, rfl⟩ := hg
      rcases step_cases h1 with ⟨u, c', r, hh, -, -, -, rfl⟩ | ⟨u, c', M', p', hh, -, hp, hs1⟩ |
        ⟨u, hh, -, rfl⟩
      · cases hh
      · cases hh
        have hs := stp_of_plan hp
        have hpc : s1.pc t = p' := by rw [hs1]; simp
        have hmem : s1.mem = M' := by rw [hs1]
        rcases reqNet_stp hs (i.at_ t ta) w hm with h2 | ⟨h2, h3, h4⟩
        · exfalso
          have := took_run nc' h (by rw [hpc]; exact h2)
          rw [hr] at this
          simp [took, hr0] at this
        · obtain ⟨k1, k2⟩ := ih i1 nc' h (by rw [hpc]; exact h2) (by rw [hmem]; exact mlist_stp hs hm)
          constructor
          · intro s2 hs2
            rw [h1] at hs2
            cases hs2
            exact ⟨fun _ => by rw [hmem]; exact h3, k1⟩
          · simp only [net, h1, k2, Ev.stepOf, beq_self_eq_true, if_true, hmem, h4, hpc]
            omega
      · cases hh
    · have hpc := step_pc_other h1 (fun c hc => hg ⟨c, hc⟩) (nc e (by simp))
      have hst : e.stepOf t = false := by
        cases e with
        | go u c =>
          simp only [Ev.stepOf, beq_eq_false_iff_ne]
          rintro rfl; exact hg ⟨c, rfl⟩
        | _ => rfl
      have hm1 : m ∈ s1.mem.mlist := by
        rcases step_cases h1 with ⟨u, c', r, hh, -, -, -, rfl⟩ | ⟨u, c', M', p', hh, -, hp, rfl⟩ |
          ⟨u, hh, -, rfl⟩
        · exact hm
        · exact mlist_stp (stp_of_plan hp) hm
        · exact hm
      obtain ⟨k1, k2⟩ := ih i1 nc' h (by rw [hpc]; exact w) hm1
      constructor
      · intro s2 hs2
        rw [h1] at hs2
        cases hs2
        exact ⟨fun hh => (Bool.false_ne_true (hst.symm.trans hh)).elim, k1⟩
      · simp only [net, h1, k2, hst, hpc]
        simp

end Fullock.MC
