import Verif.Spec.MCOrder
import Verif.Proofs.MCForever
namespace Fullock.MC

/-- A step of a thread waiting for a mutex that another one owns. -/
theorem seeks_stp {M M' : Mem} {alive : Nat → Bool} {t m : Nat} {p p' : Pc} (h : Stp M alive t p M' p') (hs : seeks m p)
    (hv : M.mval m ≠ t) (h0 : M.mval m ≠ 0) (th : Th M alive t p) : seeks m p' ∧ M'.dep = M.dep := by
  have hown := th.own
  have ha := th.at_
  have hF : ∀ m' kd k q, Failed m' kd k q → m' = m ∧ kd = .block → seeks m q := by
    rintro m' kd k q hq ⟨rfl, rfl⟩
    cases hq <;> simp_all [seeks]
  have hd : ¬ 1 ≤ M.dep m t := fun h => hv (hown m h).2.1
  cases h <;> (try (exact hs.elim))
  case acqM => cases p' <;> first | exact hs.elim | skip
               rename_i k; rcases k with _ | ⟨m', kd, k⟩
               · exact hs.elim
               · exact ⟨hs, rfl⟩
  case relM => cases p' <;> first | exact hs.elim | exact ⟨hs, rfl⟩
  case lkOwn h => obtain ⟨rfl, rfl⟩ := hs; exact absurd h hv
  case lkOther => exact ⟨hs, rfl⟩
  case lkAdd => obtain ⟨rfl, rfl⟩ := hs; exact absurd ha hd
  case lkAddNeg => obtain ⟨rfl, rfl⟩ := hs; exact absurd ha hd
  case lkChk => obtain ⟨rfl, rfl⟩ := hs; exact absurd ha.1 hd
  case lkChkNo => obtain ⟨rfl, rfl⟩ := hs; exact absurd ha.1 hd
  case lkSub => exact ha.elim
  case lkCas h => obtain ⟨rfl, rfl⟩ := hs; exact absurd h h0
  case lkCasNo h _ => exact ⟨hF _ _ _ _ (by assumption) hs, rfl⟩
  case lkInc => obtain ⟨rfl, rfl⟩ := hs; exact absurd ha.1 hv
  case swEnd k =>
    rcases k with _ | ⟨m', kd, k⟩
    · exact hs.elim
    · exact ⟨hs, rfl⟩
  all_goals first
    | (rename_i k; rcases k with _ | ⟨m', kd, k⟩ <;> first | exact hs.elim | exact ⟨hs, rfl⟩)
    | (rename_i k _; rcases k with _ | ⟨m', kd, k⟩ <;> first | exact hs.elim | exact ⟨hs, rfl⟩)
    | (rename_i k _ _; rcases k with _ | ⟨m', kd, k⟩ <;> first | exact hs.elim | exact ⟨hs, rfl⟩)
    | (rename_i k _ _ _; rcases k with _ | ⟨m', kd, k⟩ <;> first | exact hs.elim | exact ⟨hs, rfl⟩)

theorem deadlock_step {s s' : State} {e : Ev} {D : Nat → Prop} (iv : Inv s) (h : Deadlock s D) (he : spares D e)
    (hs : step s e = some s') : Deadlock s' D := by
  refine ⟨h.1, fun t ht => ?_⟩
  obtain ⟨t0, ta, m, u, h1, hu, hut, u0, ua, hd⟩ := h.2 t ht
  have hm := (iv.th u u0 ua).own m hd
  rcases step_cases hs with ⟨v, c, r, rfl, v0, -, hr, rfl⟩ | ⟨v, c, M', p', rfl, va, hp, rfl⟩ | ⟨v, rfl, -, rfl⟩
  · refine ⟨t0, ta, m, u, ?_, hu, hut, u0, ua, hd⟩
    have : t ≠ v := by rintro rfl; rw [hr] at h1; exact h1
    simpa [upd_ne _ _ this] using h1
  · have hst := stp_of_plan hp
    have v0 : v ≠ 0 := by rintro rfl; rw [iv.base.zero, plan_done] at hp; cases hp
    have hth := iv.th v v0 va
    have ef := eff_stp hst (iv.base.used v) hth
    -- nobody in D changes what it owns
    have hkeep : ∀ x, D x → ∀ m, M'.dep m x = s.mem.dep m x := by
      intro x hx m'
      by_cases hxv : x = v
      · subst hxv
        obtain ⟨_, _, m2, u2, g1, _, g3, g4, g5, g6⟩ := h.2 x hx
        have hm2 := ((iv.th u2 g4 g5).own m2 g6).2.1
        rw [(seeks_stp hst g1 (by rw [hm2]; exact g3) (by rw [hm2]; exact g4) hth).2]
      · exact ef.dep m' x hxv
    refine ⟨t0, ta, m, u, ?_, hu, hut, u0, ua, by simpa [hkeep u hu] using hd⟩
    by_cases htv : t = v
    · subst htv
      simp only [upd_same]
      exact (seeks_stp hst h1 (by rw [hm.2.1]; exact hut) (by rw [hm.2.1]; exact u0) hth).1
    · simpa [upd_ne _ _ htv] using h1
  · have : ∀ x, D x → x ≠ v := fun x hx e => he (e ▸ hx)
    refine ⟨t0, by simpa [upd_ne _ _ (this t ht)] using ta, m, u, h1, hu, hut, u0, by simpa [upd_ne _ _ (this u hu)] using ua, hd⟩

/-! ### Order -/

def aimK (m : Nat) : LK → Option (Bool × Nat)
  | .api => some (false, m)
  | .wt _ _ _ _ => some (true, m)

def aimU (m : Nat) : UK → Option (Bool × Nat)
  | .api => none
  | .wt _ _ _ _ => some (true, m)

def aimS : Option (Nat × Kind × LK) → Option (Bool × Nat)
  | none => none
  | some (m, _, k) => aimK m k

/-- The mutex that the call at this place asks for; `true`: in a wait. -/
def aim : Pc → Option (Bool × Nat)
  | .acqM p => aim p
  | .relM p => aim p
  | .acqC p => aim p
  | .relC p => aim p
  | .mFind m _ => some (false, m)
  | .mIns m _ => some (false, m)
  | .lkRead m _ k => aimK m k
  | .lkAdd m _ k => aimK m k
  | .lkChk m _ k => aimK m k
  | .lkSub m _ k => aimK m k
  | .lkCas m _ k => aimK m k
  | .lkInc m _ k => aimK m k
  | .swM x => aimS x
  | .swChk _ _ x => aimS x
  | .swCnt _ x => aimS x
  | .swCntC _ _ x => aimS x
  | .swVal _ x => aimS x
  | .swValC _ _ x => aimS x
  | .wM _ m _ => some (true, m)
  | .wC _ m _ => some (true, m)
  | .wNew _ m _ => some (true, m)
  | .wGet _ m _ => some (true, m)
  | .wIni _ _ m _ => some (true, m)
  | .wIns _ _ m _ => some (true, m)
  | .wSet _ _ m _ => some (true, m)
  | .ulRead m k => aimU m k
  | .ulRead2 m k => aimU m k
  | .ulSub m k => aimU m k
  | .ulFix m _ k => aimU m k
  | .ulCas m k => aimU m k
  | .ulAdd m k => aimU m k
  | .wSpin _ _ m _ => some (true, m)
  | _ => none

theorem aim_stp {M M' : Mem} {alive : Nat → Bool} {t : Nat} {p p' : Pc} (h : Stp M alive t p M' p') (hw : wf p = true)
    {b : Bool} {m : Nat} (hx : aim p' = some (b, m)) :
    aim p = some (b, m) ∧ ∀ m', (b = true → m' ≠ m) → M'.dep m' t = M.dep m' t := by
  have hfin : ∀ k r, aim (fin k r) = none := by intro k r; cases k <;> rfl
  have hF : ∀ m kd k q, Failed m kd k q → aim q = none ∨ aim q = aimK m k := by
    intro m kd k q hq; cases hq <;> first | exact .inl (hfin _ _) | exact .inr rfl
  have hU : ∀ m1 k r, uOk m1 k = true → aim (ufin k r) = some (b, m) → aimU m1 k = some (b, m) ∧ b = true ∧ m1 = m := by
    intro m1 k r hk hq
    cases k with
    | api => cases hq
    | wt c w m2 kd =>
      have e : m1 = m2 := (beq_iff_eq.mp hk).symm
      simp only [ufin] at hq
      split at hq
      · simp only [aim, Option.some.injEq, Prod.mk.injEq] at hq
        obtain ⟨rfl, rfl⟩ := hq
        exact ⟨by rw [e]; rfl, rfl, e⟩
      · cases hq
  cases h
  case lkSub h =>
    rcases hF _ _ _ _ h with e | e
    · rw [e] at hx; cases hx
    · rw [e] at hx; exact ⟨hx, fun _ _ => rfl⟩
  case lkCasNo h =>
    rcases hF _ _ _ _ h with e | e
    · rw [e] at hx; cases hx
    · rw [e] at hx; exact ⟨hx, fun _ _ => rfl⟩
  case swEnd k => rcases k with _ | ⟨_, _, _⟩
                  · cases hx
                  · exact ⟨hx, fun _ _ => rfl⟩
  all_goals first
    | exact ⟨hx, fun _ _ => rfl⟩
    | (cases hx; done)
    | (rw [hfin] at hx; cases hx; done)
    | skip
  all_goals
    obtain ⟨h1, rfl, rfl⟩ := hU _ _ _ hw hx
    refine ⟨h1, fun m' hm => ?_⟩
    first
      | rfl
      | simp [upd_ne _ _ (hm rfl)]

/-- Threads that own mutexes ask for later ones only. -/
def Ordered (rk : Nat → Nat) (s : State) : Prop :=
  ∀ t b m, aim (s.pc t) = some (b, m) →
    (b = false ∧ 1 ≤ s.mem.dep m t) ∨ ∀ m', 1 ≤ s.mem.dep m' t → (b = true ∧ m' = m) ∨ rk m' < rk m

theorem ordered_step {rk : Nat → Nat} {s s' : State} {e : Ev} (iv : Inv s) (h : Ordered rk s) (he : inOrder rk s e)
    (hs : step s e = some s') : Ordered rk s' := by
  intro t b m ha
  rcases step_cases hs with ⟨v, c, r, rfl, v0, -, hr, rfl⟩ | ⟨v, c, M', p', rfl, va, hp, rfl⟩ | ⟨v, rfl, -, rfl⟩
  · by_cases htv : t = v
    · subst htv
      simp only [upd_same] at ha
      cases c <;> simp only [Call.start, aim, aimS, Option.some.injEq, Prod.mk.injEq, reduceCtorEq] at ha
      · obtain ⟨rfl, rfl⟩ := ha
        rcases he with he | he
        · exact .inl ⟨rfl, he⟩
        · exact .inr fun m' hm => .inr (he m' hm)
      · obtain ⟨rfl, rfl⟩ := ha
        refine .inr fun m' hm => ?_
        rcases he m' hm with he | he
        · exact .inl ⟨rfl, he⟩
        · exact .inr he
    · simp only [upd_ne _ _ htv] at ha
      exact h t b m ha
  · have hst := stp_of_plan hp
    have v0 : v ≠ 0 := by rintro rfl; rw [iv.base.zero, plan_done] at hp; cases hp
    by_cases htv : t = v
    · subst htv
      simp only [upd_same] at ha
      obtain ⟨h1, h2⟩ := aim_stp hst (iv.base.shape t) ha
      rcases h t b m h1 with ⟨rfl, h⟩ | h
      · exact .inl ⟨rfl, by simpa [h2 m (by simp)] using h⟩
      · refine .inr fun m' hm => ?_
        by_cases e : b = true ∧ m' = m
        · exact .inl e
        · refine h m' ?_
          have := h2 m' (fun hb hm => e ⟨hb, hm⟩)
          simpa [this] using hm
    · simp only [upd_ne _ _ htv] at ha
      have ef := eff_stp hst (iv.base.used v) (iv.th v v0 va)
      have := h t b m ha
      simpa only [ef.dep _ t htv] using this
  · exact h t b m ha

theorem ordered_reach {rk : Nat → Nat} {A : State → Ev → Prop} (hA : ∀ s e, A s e → okDie s e) (hB : ∀ s e, A s e → inOrder rk s e)
    {s : State} (r : Reach A s) : Ordered rk s := by
  induction r with
  | init => intro t b m h; cases h
  | step r ha hs ih => exact ordered_step (inv_reach hA r) ih (hB _ _ ha) hs

theorem seeks_aim {m : Nat} {p : Pc} (h : seeks m p) : ∃ b, aim p = some (b, m) := by
  have hk : ∀ m k, ∃ b, aimK m k = some (b, m) := by intro m k; cases k <;> exact ⟨_, rfl⟩
  unfold seeks at h
  split at h <;> first
    | exact h.elim
    | (obtain ⟨rfl, rfl⟩ := h; simp only [aim, aimS]; exact hk _ _)

theorem no_deadlock {rk : Nat → Nat} {s : State} (iv : Inv s) (ho : Ordered rk s) (D : Nat → Prop) : ¬ Deadlock s D := by
  rintro ⟨⟨t, ht⟩, hD⟩
  -- the mutex waited for has a rank; the owner waits for one of greater rank
  have key : ∀ t, D t → ∀ m, seeks m (s.pc t) → ∀ u, D u → u ≠ t → Owns s m u → ∃ m' u', seeks m' (s.pc u) ∧ D u' ∧ u' ≠ u ∧
      Owns s m' u' ∧ rk m < rk m' ∧ m' ∈ s.mem.mlist := by
    intro t _ m _ u hu _ hown
    obtain ⟨u0, ua, m', u', g1, g2, g3, g4⟩ := hD u hu
    refine ⟨m', u', g1, g2, g3, g4, ?_, ((iv.th u' g4.1 g4.2.1).own m' g4.2.2).1⟩
    obtain ⟨b, hb⟩ := seeks_aim g1
    have hv := ((iv.th u' g4.1 g4.2.1).own m' g4.2.2).2.1
    rcases ho u b m' hb with ⟨_, h⟩ | h
    · exact absurd (((iv.th u u0 ua).own m' h).2.1.symm.trans hv) (Ne.symm g3)
    · rcases h m hown.2.2 with ⟨_, rfl⟩ | h
      · exact absurd (((iv.th u u0 ua).own m hown.2.2).2.1.symm.trans hv) (Ne.symm g3)
      · exact h
  obtain ⟨B, hB⟩ : ∃ B, ∀ m ∈ s.mem.mlist, rk m ≤ B := by
    generalize s.mem.mlist = l
    induction l with
    | nil => exact ⟨0, by simp⟩
    | cons x l ih =>
      obtain ⟨B, hB⟩ := ih
      refine ⟨max (rk x) B, fun m hm => ?_⟩
      rcases List.mem_cons.1 hm with rfl | hm
      · omega
      · have := hB m hm; omega
  have all : ∀ n t, D t → ∀ m, seeks m (s.pc t) → ∀ u, D u → u ≠ t → Owns s m u → B < rk m + n → False := by
    intro n
    induction n with
    | zero =>
      intro t ht m hm u hu hut g h
      have := hB m ((iv.th u g.1 g.2.1).own m g.2.2).1
      omega
    | succ n ih =>
      intro t ht m hm u hu hut hown h
      obtain ⟨m', u', g1, g2, g3, g4, g5, _⟩ := key t ht m hm u hu hut hown
      exact ih u hu m' g1 u' g2 g3 g4 (by omega)
  obtain ⟨_, _, m, u, g1, g2, g3, g4⟩ := hD t ht
  exact all (B + 1) t ht m g1 u g2 g3 g4 (by omega)

theorem exec_weaken {A B : State → Ev → Prop} {σ : Nat → State} {ε : Nat → Option Ev} (h : Exec A σ ε) (hAB : ∀ s e, A s e → B s e) :
    Exec B σ ε where
  start := h.start
  next := by
    intro i
    have := h.next i
    cases he : ε i with
    | none => rw [he] at this; exact this
    | some e => rw [he] at this; exact ⟨hAB _ _ this.1, this.2⟩

theorem reg_aim {p : Pc} {m : Nat} {kd : Kind} {k : LK} (h : reg p = some (.L m kd k)) : ∃ b, aim p = some (b, m) := by
  have hk : ∀ k, ∃ b, aimK m k = some (b, m) := by intro k; cases k <;> exact ⟨_, rfl⟩
  have hS : ∀ x, regS x = .L m kd k → x = some (m, kd, k) := by
    intro x hx; rcases x with _ | ⟨_, _, _⟩ <;> simp_all [regS]
  unfold reg at h
  split at h <;> simp only [Option.some.injEq, Reg.L.injEq, reduceCtorEq] at h <;> first
    | (obtain ⟨rfl, rfl, rfl⟩ := h; simp only [aim, aimS]; exact hk _)
    | (rw [hS _ h]; simp only [aim, aimS]; exact hk _)

/-- Without new calls, in order, with owners that call again when they can: a thread is stuck only if somebody waits for ever
for a condition. -/
theorem order_returns {rk : Nat → Nat} {σ : Nat → State} {ε : Nat → Option Ev}
    (ex : Exec (fun s e => noDeath s e ∧ inOrder rk s e) σ ε) (hf : Fair σ ε) (hcb : ComesBack σ ε)
    (hce : CallsEnd ε) (hck : ChecksEnd σ) (hti : Timely σ ε) (t i : Nat) :
    ReturnsAfter σ t i ∨ ∃ u n, i ≤ n ∧ Unwoken σ u n := by
  have ex' : Exec noDeath σ ε := exec_weaken ex fun _ _ h => h.1
  refine Classical.byContradiction fun hno => ?_
  rw [not_or] at hno
  have hc : ∀ j, i ≤ j → inCall (σ j) t := fun j hj r e => hno.1 ⟨j, hj, r, e⟩
  obtain ⟨n0, hn0⟩ := hce
  obtain ⟨n, hn, hs⟩ := settled ex' (n := max n0 i) (fun j hj => hn0 j (by omega))
  have h : Late σ ε n := ⟨ex', fun j hj => hn0 j (by omega), hs⟩
  have iv := exec_inv ex' n
  have ho : Ordered rk (σ n) := ordered_reach (A := fun s e => noDeath s e ∧ inOrder rk s e) (fun _ _ h => okDie_of h.1)
    (fun _ _ h => h.2) (exec_reach ex n)
  -- who is in a call for ever waits for a mutex
  have loop : ∀ u, (∀ j, n ≤ j → inCall (σ j) u) → u ≠ 0 ∧ ∃ m kd k, reg ((σ n).pc u) = some (.L m kd k) := by
    intro u hu
    have u0 : u ≠ 0 := by
      rintro rfl
      exact hu n (Nat.le_refl _) _ iv.base.zero
    refine ⟨u0, ?_⟩
    cases hr : reg ((σ n).pc u) with
    | none => exact absurd hr (h.in_loop hf hck hu)
    | some R =>
      have hR : ∀ j, n ≤ j → reg ((σ j).pc u) = some R := fun j hj => (h.regs u hj).trans hr
      cases R with
      | G => exact (h.noG hf hr).elim
      | S => exact absurd ⟨u, n, by omega, h.waits hf hck hti u0 hr⟩ hno.2
      | U => exact (h.noU hf u0 hr).elim
      | C =>
        obtain ⟨j, hj, e⟩ := hck u n (reg_C hr)
        rw [reg_C (hR j hj)] at e; cases e
      | W =>
        obtain ⟨j, hj, e⟩ := hck u n (reg_W hr)
        rw [reg_W (hR j hj)] at e; cases e
      | L m kd k => exact ⟨m, kd, k, rfl⟩
  have stays : ∀ u m, 1 ≤ (σ n).mem.dep m u → ∀ j, n ≤ j → inCall (σ j) u := by
    intro u m hd j hj r hr
    obtain ⟨k, hk, c, e⟩ := hcb j u m (by rw [(h.frozen hj).2]; exact hd) ⟨r, hr⟩
    exact hn0 k (by omega) u c e
  obtain ⟨B, hB⟩ : ∃ B, ∀ m ∈ (σ n).mem.mlist, rk m ≤ B := by
    generalize (σ n).mem.mlist = l
    induction l with
    | nil => exact ⟨0, by simp⟩
    | cons x l ih =>
      obtain ⟨B, hB⟩ := ih
      refine ⟨max (rk x) B, fun m hm => ?_⟩
      rcases List.mem_cons.1 hm with rfl | hm
      · omega
      · have := hB m hm; omega
  have all : ∀ d u m kd k, u ≠ 0 → reg ((σ n).pc u) = some (.L m kd k) → B < rk m + d → False := by
    intro d
    induction d with
    | zero =>
      intro u m kd k _ hr hlt
      have := hB m (iv.base.used u m (reg_uses hr))
      omega
    | succ d ih =>
      intro u m kd k u0 hr hlt
      by_cases hu : 1 ≤ (σ n).mem.dep m u
      · exact h.noL hf hck u0 (.inr hu) hr
      by_cases hv : ∃ v, 1 ≤ (σ n).mem.dep m v
      · obtain ⟨v, hv⟩ := hv
        obtain ⟨v0, m', kd', k', hr'⟩ := loop v (stays v m hv)
        by_cases hown : 1 ≤ (σ n).mem.dep m' v
        · exact h.noL hf hck v0 (.inr hown) hr'
        obtain ⟨b, hb⟩ := reg_aim hr'
        refine ih v m' kd' k' v0 hr' ?_
        rcases ho v b m' hb with ⟨_, h⟩ | h
        · exact absurd h hown
        · rcases h m hv with ⟨_, rfl⟩ | h
          · exact absurd hv hown
          · omega
      · exact h.noL hf hck u0 (.inl fun v hv' => hv ⟨v, hv'⟩) hr
  obtain ⟨t0, m, kd, k, hr⟩ := loop t (fun j hj => hc j (by omega))
  exact all (B + 1) t m kd k t0 hr (by omega)

end Fullock.MC
