import Verif.Spec.MCForeverDead
import Verif.Proofs.MCForever
/-! Executions of mutexes and conditions that never end, with deaths. -/
namespace Fullock.MC
namespace Dead

theorem inv {σ : Nat → State} {ε : Nat → Option Ev} (h : Exec okDie σ ε) (i : Nat) : Inv (σ i) :=
  inv_reach (fun _ _ h => h) (exec_reach h i)

/-- One moment: nothing or a death, or a call, or a step of a thread. -/
theorem any {σ : Nat → State} {ε : Nat → Option Ev} (h : Exec okDie σ ε) (i : Nat) :
    ((∀ t c, ε i ≠ some (.go t c)) ∧ (∀ t c, ε i ≠ some (.call t c)) ∧ (σ (i + 1)).mem = (σ i).mem ∧
      (σ (i + 1)).pc = (σ i).pc ∧ (∀ u, (σ i).alive u = false → (σ (i + 1)).alive u = false) ∧
      (σ (i + 1)).last = (σ i).last) ∨
    (∃ u c r, ε i = some (.call u c) ∧ (σ i).pc u = .done r ∧ (σ (i + 1)).mem = (σ i).mem ∧ u ≠ 0 ∧
      (σ (i + 1)).pc = upd (σ i).pc u c.start ∧ (σ (i + 1)).alive = (σ i).alive ∧
      (σ (i + 1)).last = upd (σ i).last u c) ∨
    ∃ u c p', ε i = some (.go u c) ∧ u ≠ 0 ∧ (σ i).alive u = true ∧
      plan (σ i).mem (σ i).alive u ((σ i).pc u) c = some ((σ (i + 1)).mem, p') ∧
      Stp (σ i).mem (σ i).alive u ((σ i).pc u) (σ (i + 1)).mem p' ∧ (σ (i + 1)).pc = upd (σ i).pc u p' ∧
      (σ (i + 1)).alive = (σ i).alive ∧ (σ (i + 1)).last = (σ i).last := by
  have := h.next i
  cases he : ε i with
  | none => rw [he] at this; simp only at this; left; rw [this]; simp
  | some e =>
    rw [he] at this
    rcases step_cases this.2 with ⟨u, c, r, rfl, u0, _, hr, e⟩ | ⟨u, c, M', p', rfl, ua, hp, e⟩ | ⟨u, rfl, _, e⟩
    · exact .inr (.inl ⟨u, c, r, rfl, hr, by rw [e], u0, by rw [e], by rw [e], by rw [e]⟩)
    · refine .inr (.inr ⟨u, c, p', rfl, (inv h i).base.go0 hp, ua, ?_, ?_, by rw [e], by rw [e], by rw [e]⟩)
      · rw [e]; exact hp
      · rw [e]; exact stp_of_plan hp
    · left
      refine ⟨by simp, by simp, by rw [e], by rw [e], ?_, by rw [e]⟩
      intro v hv
      rw [e]
      simp only [upd]
      split
      · rfl
      · exact hv

/-- Who is dead stays dead. -/
theorem dead_on {σ : Nat → State} {ε : Nat → Option Ev} (h : Exec okDie σ ε) {t i j : Nat} (hij : i ≤ j)
    (hd : (σ i).alive t = false) : (σ j).alive t = false := by
  obtain ⟨d, rfl⟩ := Nat.le.dest hij
  clear hij
  induction d with
  | zero => exact hd
  | succ d ih =>
    rw [← Nat.add_assoc]
    rcases any h (i + d) with ⟨_, _, _, _, e, _⟩ | ⟨_, _, _, _, _, _, _, _, e, _⟩ | ⟨_, _, _, _, _, _, _, _, _, e, _⟩
    · exact e t ih
    · rw [e]; exact ih
    · rw [e]; exact ih

theorem alive_back {σ : Nat → State} {ε : Nat → Option Ev} (h : Exec okDie σ ε) {t i j : Nat} (hij : i ≤ j)
    (hd : (σ j).alive t = true) : (σ i).alive t = true := by
  cases e : (σ i).alive t with
  | true => rfl
  | false => rw [dead_on h hij e] at hd; cases hd

/-- A step that stays in its loop: owners change only by the recovery of a dead one. -/
theorem stay {M M' : Mem} {alive : Nat → Bool} {t : Nat} {p p' : Pc} (h : Stp M alive t p M' p')
    (w : wf p = true) (hr : rank p' = rank p) :
    M'.dep = M.dep ∧ M'.mlist = M.mlist ∧ (M'.mval = M.mval ∨ ∃ m ∈ uses p, M.mval m ≠ 0 ∧ M'.mval = upd M.mval m 0) := by
  cases h <;> (try exact ⟨rfl, rfl, .inl rfl⟩)
  case mIns => simp [rank, rankL] at hr
  case lkChk k _ => have := (rank_fin k 0).1; have hr : rank (fin k 0) = rankL k := hr; omega
  case lkInc k => have := (rank_fin k 0).2; have hr : rank (fin k 0) = rankL k - 1 := hr; omega
  case lkCas k _ => cases k <;> simp [rank, rankL] at hr
  case ulFree k _ => have := rank_ufin k 0; have hr : rank (ufin k 0) = rankU k := hr; omega
  case ulCas k _ => have := rank_ufin k 0; have hr : rank (ufin k 0) = rankU k := hr; omega
  case ulCasFree k _ _ => have := rank_ufin k 0; have hr : rank (ufin k 0) = rankU k := hr; omega
  case swValC m v k h0 h => exact ⟨rfl, rfl, .inr ⟨m, by simp [uses], by rw [h]; exact h0, rfl⟩⟩

theorem rank_mono {σ : Nat → State} {ε : Nat → Option Ev} (h : Exec okDie σ ε) {n : Nat} (hn : quietFrom ε n)
    (t : Nat) {i : Nat} (hi : n ≤ i) : rank ((σ (i + 1)).pc t) ≤ rank ((σ i).pc t) := by
  rcases any h i with ⟨_, _, _, e, _⟩ | ⟨u, c, _, e, _⟩ | ⟨u, c, p', _, _, _, _, hs, e, _⟩
  · rw [e]; exact Nat.le_refl _
  · exact absurd e (hn i hi _ _)
  · rw [e]
    by_cases hu : t = u
    · subst hu
      have := rank_stp hs ((inv h i).base.shape t)
      simp only [upd_same]; omega
    · simp [hu]

theorem not_caller {σ : Nat → State} {ε : Nat → Option Ev} (h : Exec okDie σ ε) (n t : Nat) (ht : t ∉ callers ε n) :
    ∃ r, (σ n).pc t = .done r := by
  induction n with
  | zero => obtain ⟨_, _, _, _, e⟩ := h.start; rw [e]; exact ⟨_, rfl⟩
  | succ n ih =>
    simp only [callers] at ht
    rcases any h n with ⟨_, e0, _, e, _⟩ | ⟨u, c, _, e0, _, _, _, e, _⟩ | ⟨u, c, p', e0, _, _, hp, hs, e, _⟩
    · rw [e]
      refine ih ?_
      revert ht
      split
      · rename_i t' c' he; exact absurd he (e0 _ _)
      · exact id
    · rw [e0] at ht
      simp only [List.mem_cons, not_or] at ht
      rw [e, upd_ne _ _ ht.1]
      exact ih ht.2
    · rw [e0] at ht
      rw [e]
      by_cases hu : t = u
      · subst hu
        obtain ⟨r, hr⟩ := ih ht
        rw [hr, plan_done] at hp
        cases hp
      · rw [upd_ne _ _ hu]; exact ih ht

theorem callers_quiet {ε : Nat → Option Ev} {n : Nat} (hn : quietFrom ε n) {j : Nat} (hj : n ≤ j) : callers ε j = callers ε n := by
  obtain ⟨d, rfl⟩ := Nat.le.dest hj
  clear hj
  induction d with
  | zero => rfl
  | succ d ih =>
    rw [← Nat.add_assoc]
    simp only [callers]
    split
    · rename_i t c he; exact absurd he (hn _ (by omega) _ _)
    · exact ih

/-- Number of mutexes with an owner. -/
def owned (M : Mem) : Nat := M.mlist.countP fun m => M.mval m != 0

theorem owned_le (l : List Nat) (f : Nat → Nat) (m : Nat) :
    l.countP (fun x => upd f m 0 x != 0) ≤ l.countP (fun x => f x != 0) ∧
    (m ∈ l → f m ≠ 0 → l.countP (fun x => upd f m 0 x != 0) < l.countP (fun x => f x != 0)) := by
  induction l with
  | nil => simp
  | cons a l ih =>
    obtain ⟨h1, h2⟩ := ih
    by_cases ha : a = m
    · subst ha
      by_cases hf : f a = 0
      · simp [List.countP_cons, hf]; exact h1
      · simp [List.countP_cons, hf]; omega
    · have : upd f m 0 a = f a := upd_ne _ _ ha
      simp only [List.countP_cons, this, List.mem_cons]
      refine ⟨by omega, ?_⟩
      rintro (e | hm) hf
      · exact absurd e.symm ha
      · have := h2 hm hf; omega

/-- What we know from moment `m` on. -/
structure Late (σ : Nat → State) (ε : Nat → Option Ev) (m : Nat) : Prop where
  ex : Exec okDie σ ε
  quiet : quietFrom ε m
  same : ∀ t j, m ≤ j → rank ((σ j).pc t) = rank ((σ m).pc t)
  vals : ∀ j, m ≤ j → (σ j).mem.mval = (σ m).mem.mval
  life : ∀ t i j, m ≤ i → m ≤ j → inCall (σ i) t → (σ j).alive t = (σ i).alive t

theorem all_const (l : List Nat) (f : Nat → Nat → Nat) (n : Nat) (hf : ∀ t i, n ≤ i → f t (i + 1) ≤ f t i) :
    ∃ m, n ≤ m ∧ ∀ t ∈ l, ∀ j, m ≤ j → f t j = f t m := by
  induction l with
  | nil => exact ⟨n, Nat.le_refl _, by simp⟩
  | cons t l ih =>
    obtain ⟨m1, h1, k1⟩ := ih
    obtain ⟨m2, h2, k2⟩ := const_from (f t) n (hf t)
    refine ⟨max m1 m2, by omega, ?_⟩
    intro u hu j hj
    rcases List.mem_cons.mp hu with rfl | hu
    · exact (k2 j (by omega)).trans (k2 (max m1 m2) (by omega)).symm
    · rw [k1 u hu j (by omega), k1 u hu (max m1 m2) (by omega)]

/-- From some moment on no thread comes closer to the end of its call, no mutex changes its owner, nobody is killed in a
call. -/
theorem settled {σ : Nat → State} {ε : Nat → Option Ev} (h : Exec okDie σ ε) {n : Nat} (hn : quietFrom ε n) :
    ∃ m, n ≤ m ∧ Late σ ε m := by
  obtain ⟨m1, h1, k1⟩ := all_const (callers ε n) (fun t j => rank ((σ j).pc t)) n (fun t i hi => rank_mono h hn t hi)
  obtain ⟨m2, h2, k2⟩ := all_const (callers ε n) (fun t j => if (σ j).alive t then 1 else 0) m1 (by
    intro t i _
    cases e : (σ i).alive t with
    | false => rw [dead_on h (Nat.le_succ i) e]; simp
    | true => simp only [if_true]; split <;> omega)
  have out : ∀ t j, n ≤ j → t ∉ callers ε n → ∃ r, (σ j).pc t = .done r := by
    intro t j hj ht
    exact not_caller h j t (by rw [callers_quiet hn hj]; exact ht)
  have hsame : ∀ t j, m2 ≤ j → rank ((σ j).pc t) = rank ((σ m2).pc t) := by
    intro t j hj
    by_cases ht : t ∈ callers ε n
    · rw [k1 t ht j (by omega), k1 t ht m2 (by omega)]
    · obtain ⟨r, e⟩ := out t j (by omega) ht
      obtain ⟨r', e'⟩ := out t m2 (by omega) ht
      rw [e, e']; rfl
  have hstay : ∀ i, m2 ≤ i → (σ (i + 1)).mem.mlist = (σ i).mem.mlist ∧ ((σ (i + 1)).mem.mval = (σ i).mem.mval ∨
      ∃ m ∈ (σ i).mem.mlist, (σ i).mem.mval m ≠ 0 ∧ (σ (i + 1)).mem.mval = upd (σ i).mem.mval m 0) := by
    intro i hi
    rcases any h i with ⟨_, _, e, _⟩ | ⟨u, c, _, e, _⟩ | ⟨u, c, p', _, _, _, _, hs, e, _⟩
    · rw [e]; exact ⟨rfl, .inl rfl⟩
    · exact absurd e (hn i (by omega) _ _)
    · have e1 := hsame u i hi
      have e2 := hsame u (i + 1) (by omega)
      rw [e, upd_same] at e2
      obtain ⟨_, h4, h5⟩ := stay hs ((inv h i).base.shape u) (by omega)
      refine ⟨h4, ?_⟩
      rcases h5 with h5 | ⟨m, hm, h6, h7⟩
      · exact .inl h5
      · exact .inr ⟨m, (inv h i).base.used u m hm, h6, h7⟩
  have hown : ∀ i, m2 ≤ i → owned (σ (i + 1)).mem ≤ owned (σ i).mem ∧
      (owned (σ (i + 1)).mem = owned (σ i).mem → (σ (i + 1)).mem.mval = (σ i).mem.mval) := by
    intro i hi
    obtain ⟨e1, e2 | ⟨m, hm, h0, e2⟩⟩ := hstay i hi
    · unfold owned; rw [e1, e2]; exact ⟨Nat.le_refl _, fun _ => rfl⟩
    · have := owned_le (σ i).mem.mlist (σ i).mem.mval m
      unfold owned; rw [e1, e2]
      exact ⟨this.1, fun e => absurd e (Nat.ne_of_lt (this.2 hm h0))⟩
  obtain ⟨m3, h3, k3⟩ := const_from (fun j => owned (σ j).mem) m2 (fun i hi => (hown i hi).1)
  refine ⟨m3, by omega, h, fun j hj => hn j (by omega), ?_, ?_, ?_⟩
  · intro t j hj; rw [hsame t j (by omega), hsame t m3 (by omega)]
  · intro j hj
    obtain ⟨d, rfl⟩ := Nat.le.dest hj
    clear hj
    induction d with
    | zero => rfl
    | succ d ih =>
      rw [← ih, ← Nat.add_assoc]
      exact (hown (m3 + d) (by omega)).2 ((k3 (m3 + d + 1) (by omega)).trans (k3 (m3 + d) (by omega)).symm)
  · intro t i j hi hj hc
    by_cases ht : t ∈ callers ε n
    · have e1 := k2 t ht i (by omega)
      have e2 := k2 t ht j (by omega)
      cases ea : (σ i).alive t <;> cases eb : (σ j).alive t <;> simp_all
    · obtain ⟨r, e⟩ := out t i (by omega) ht
      exact absurd e (hc r)

/-- A moment: nothing or a death, or a step inside a loop. -/
theorem Late.moment {σ : Nat → State} {ε : Nat → Option Ev} {m : Nat} (h : Late σ ε m) {i : Nat} (hi : m ≤ i) :
    ((∀ t c, ε i ≠ some (.go t c)) ∧ (σ (i + 1)).mem = (σ i).mem ∧ (σ (i + 1)).pc = (σ i).pc) ∨
    ∃ u c p', ε i = some (.go u c) ∧ u ≠ 0 ∧ (σ i).alive u = true ∧
      plan (σ i).mem (σ i).alive u ((σ i).pc u) c = some ((σ (i + 1)).mem, p') ∧
      Stp (σ i).mem (σ i).alive u ((σ i).pc u) (σ (i + 1)).mem p' ∧ (σ (i + 1)).pc = upd (σ i).pc u p' ∧
      rank p' = rank ((σ i).pc u) ∧ reg p' = reg ((σ i).pc u) ∧ reg p' ≠ none ∧
      (σ (i + 1)).mem.dep = (σ i).mem.dep := by
  rcases any h.ex i with ⟨h1, _, h2, h3, _⟩ | ⟨u, c, _, e, _⟩ | ⟨u, c, p', h1, h0, ua, h2, h3, h4, _⟩
  · exact .inl ⟨h1, h2, h3⟩
  · exact absurd e (h.quiet i hi _ _)
  · have e1 := h.same u i hi
    have e2 := h.same u (i + 1) (by omega)
    rw [h4, upd_same] at e2
    have hr : rank p' = rank ((σ i).pc u) := by omega
    have iv := inv h.ex i
    have st := stay h3 (iv.base.shape u) hr
    rcases rank_stp h3 (iv.base.shape u) with hlt | ⟨_, h5, h6⟩
    · omega
    · exact .inr ⟨u, c, p', h1, h0, ua, h2, h3, h4, hr, h5, h5 ▸ h6, st.1⟩

theorem Late.regs {σ : Nat → State} {ε : Nat → Option Ev} {m : Nat} (h : Late σ ε m) (t : Nat) {j : Nat} (hj : m ≤ j) :
    reg ((σ j).pc t) = reg ((σ m).pc t) := by
  obtain ⟨d, rfl⟩ := Nat.le.dest hj
  clear hj
  induction d with
  | zero => rfl
  | succ d ih =>
    rw [← ih, ← Nat.add_assoc]
    rcases h.moment (i := m + d) (by omega) with ⟨_, _, e⟩ | ⟨u, c, p', _, _, _, _, _, e, _, e2, _⟩
    · rw [e]
    · rw [e]
      by_cases hu : t = u
      · subst hu; simp only [upd_same]; exact e2
      · simp [hu]

theorem Late.deps {σ : Nat → State} {ε : Nat → Option Ev} {m : Nat} (h : Late σ ε m) {j : Nat} (hj : m ≤ j) :
    (σ j).mem.dep = (σ m).mem.dep := by
  obtain ⟨d, rfl⟩ := Nat.le.dest hj
  clear hj
  induction d with
  | zero => rfl
  | succ d ih =>
    rw [← ih, ← Nat.add_assoc]
    rcases h.moment (i := m + d) (by omega) with ⟨_, e, _⟩ | ⟨u, c, p', _, _, _, _, _, _, _, _, _, e⟩
    · rw [e]
    · exact e

theorem Late.later {σ : Nat → State} {ε : Nat → Option Ev} {m : Nat} (h : Late σ ε m) {n : Nat} (hn : m ≤ n) : Late σ ε n :=
  ⟨h.ex, fun j hj => h.quiet j (by omega), fun t j hj => by rw [h.same t j (by omega), h.same t n hn],
    fun j hj => by rw [h.vals j (by omega), h.vals n hn],
    fun t i j hi hj => h.life t i j (by omega) (by omega)⟩

/-- A thread that makes no step stays where it is. -/
theorem Late.rest {σ : Nat → State} {ε : Nat → Option Ev} {m : Nat} (h : Late σ ε m) {t : Nat}
    (hs : ∀ j, m ≤ j → ∀ c, ε j ≠ some (.go t c)) {j : Nat} (hj : m ≤ j) : (σ j).pc t = (σ m).pc t := by
  obtain ⟨d, rfl⟩ := Nat.le.dest hj
  clear hj
  induction d with
  | zero => rfl
  | succ d ih =>
    rw [← ih, ← Nat.add_assoc]
    rcases h.moment (i := m + d) (by omega) with ⟨_, _, e⟩ | ⟨u, c, p', e1, _, _, _, _, e, _⟩
    · rw [e]
    · have hu : t ≠ u := by rintro rfl; exact hs _ (by omega) _ e1
      rw [e]; simp [hu]

theorem mayGo_acqM {s : State} {t : Nat} {p : Pc} (ta : s.alive t = true) (hp : s.pc t = .acqM p)
    (hl : s.mem.mL = 0 ∨ s.alive s.mem.mL = false) : mayGo s t :=
  ⟨.go, _, by simp only [step, ta, hp, plan, if_pos hl]; rfl⟩

theorem mayGo_acqC {s : State} {t : Nat} {p : Pc} (ta : s.alive t = true) (hp : s.pc t = .acqC p)
    (hl : s.mem.cL = 0 ∨ s.alive s.mem.cL = false) : mayGo s t :=
  ⟨.go, _, by simp only [step, ta, hp, plan, if_pos hl]; rfl⟩

/-- A thread that waits for the table lock of the mutexes for ever: somebody holds it for ever. -/
theorem Late.holderM {σ : Nat → State} {ε : Nat → Option Ev} {m : Nat} (h : Late σ ε m) (hf : Fair σ ε) {t : Nat} {p : Pc}
    (ta : ∀ j, (σ j).alive t = true)
    (hs : ∀ j, m ≤ j → ∀ c, ε j ≠ some (.go t c)) (hp : (σ m).pc t = .acqM p) :
    ∃ n v, m ≤ n ∧ v ≠ 0 ∧ (∀ j, (σ j).alive v = true) ∧ ∀ j, n ≤ j → inM ((σ j).pc v) = true := by
  have hno : ¬ ∀ i, ∃ j, i ≤ j ∧ mayGo (σ j) t := by
    intro hall
    obtain ⟨j, hj, c, hc⟩ := hf t hall m
    exact hs j hj c hc
  simp only [Classical.not_forall, not_exists, not_and] at hno
  obtain ⟨i, hi⟩ := hno
  have hl : ∀ j, max m i ≤ j → (σ j).mem.mL ≠ 0 ∧ (σ j).alive (σ j).mem.mL = true := by
    intro j hj
    have h0 : ¬ ((σ j).mem.mL = 0 ∨ (σ j).alive (σ j).mem.mL = false) := fun h0 =>
      hi j (by omega) (mayGo_acqM (p := p) (ta j) (by rw [h.rest hs (by omega), hp]) h0)
    rw [not_or] at h0
    exact ⟨h0.1, by simpa using h0.2⟩
  have hc : ∀ d, (σ (max m i + d)).mem.mL = (σ (max m i)).mem.mL := by
    intro d
    induction d with
    | zero => rfl
    | succ d ih =>
      rw [← ih, ← Nat.add_assoc]
      rcases h.moment (i := max m i + d) (by omega) with ⟨_, e, _⟩ | ⟨u, c, p', _, _, _, _, hst, _⟩
      · rw [e]
      · rcases (lock_stp hst ((inv h.ex _).base.shape u)).1 with ⟨_, e⟩ | ⟨_, _, e, _⟩ | ⟨_, _, e⟩
        · exact e
        · rcases e with e | e
          · exact absurd e (hl _ (by omega)).1
          · rw [(hl _ (by omega)).2] at e; cases e
        · split at e
          · exact absurd e (hl _ (by omega)).1
          · exact e
  have hv : ∀ d, (σ (max m i + d)).alive (σ (max m i)).mem.mL = true := by
    intro d
    have := (hl (max m i + d) (by omega)).2
    rwa [hc d] at this
  refine ⟨max m i, (σ (max m i)).mem.mL, by omega, (hl _ (Nat.le_refl _)).1, fun j => ?_, fun j hj => ?_⟩
  · exact alive_back h.ex (Nat.le_add_left _ _) (hv j)
  · obtain ⟨d, rfl⟩ := Nat.le.dest hj
    exact ((inv h.ex _).base.lockM _ (hl _ (Nat.le_refl _)).1 (hv d)).mp (hc d)

/-- The same for the conditions. -/
theorem Late.holderC {σ : Nat → State} {ε : Nat → Option Ev} {m : Nat} (h : Late σ ε m) (hf : Fair σ ε) {t : Nat} {p : Pc}
    (ta : ∀ j, (σ j).alive t = true)
    (hs : ∀ j, m ≤ j → ∀ c, ε j ≠ some (.go t c)) (hp : (σ m).pc t = .acqC p) :
    ∃ n v, m ≤ n ∧ v ≠ 0 ∧ (∀ j, (σ j).alive v = true) ∧ ∀ j, n ≤ j → inC ((σ j).pc v) = true := by
  have hno : ¬ ∀ i, ∃ j, i ≤ j ∧ mayGo (σ j) t := by
    intro hall
    obtain ⟨j, hj, c, hc⟩ := hf t hall m
    exact hs j hj c hc
  simp only [Classical.not_forall, not_exists, not_and] at hno
  obtain ⟨i, hi⟩ := hno
  have hl : ∀ j, max m i ≤ j → (σ j).mem.cL ≠ 0 ∧ (σ j).alive (σ j).mem.cL = true := by
    intro j hj
    have h0 : ¬ ((σ j).mem.cL = 0 ∨ (σ j).alive (σ j).mem.cL = false) := fun h0 =>
      hi j (by omega) (mayGo_acqC (p := p) (ta j) (by rw [h.rest hs (by omega), hp]) h0)
    rw [not_or] at h0
    exact ⟨h0.1, by simpa using h0.2⟩
  have hc : ∀ d, (σ (max m i + d)).mem.cL = (σ (max m i)).mem.cL := by
    intro d
    induction d with
    | zero => rfl
    | succ d ih =>
      rw [← ih, ← Nat.add_assoc]
      rcases h.moment (i := max m i + d) (by omega) with ⟨_, e, _⟩ | ⟨u, c, p', _, _, _, _, hst, _⟩
      · rw [e]
      · rcases (lock_stp hst ((inv h.ex _).base.shape u)).2 with ⟨_, e⟩ | ⟨_, _, e, _⟩ | ⟨_, _, e⟩
        · exact e
        · rcases e with e | e
          · exact absurd e (hl _ (by omega)).1
          · rw [(hl _ (by omega)).2] at e; cases e
        · split at e
          · exact absurd e (hl _ (by omega)).1
          · exact e
  have hv : ∀ d, (σ (max m i + d)).alive (σ (max m i)).mem.cL = true := by
    intro d
    have := (hl (max m i + d) (by omega)).2
    rwa [hc d] at this
  refine ⟨max m i, (σ (max m i)).mem.cL, by omega, (hl _ (Nat.le_refl _)).1, fun j => ?_, fun j hj => ?_⟩
  · exact alive_back h.ex (Nat.le_add_left _ _) (hv j)
  · obtain ⟨d, rfl⟩ := Nat.le.dest hj
    exact ((inv h.ex _).base.lockC _ (hl _ (Nat.le_refl _)).1 (hv d)).mp (hc d)

/-- A thread that stays in calls and never waits for a table lock makes steps again and again. -/
theorem Late.steps {σ : Nat → State} {ε : Nat → Option Ev} {m : Nat} (_h : Late σ ε m) (hf : Fair σ ε) {t : Nat}
    (ta : ∀ j, (σ j).alive t = true)
    (hc : ∀ j, m ≤ j → inCall (σ j) t) (hq : ∀ j, m ≤ j → acq ((σ j).pc t) = false) (i : Nat) :
    ∃ j, i ≤ j ∧ ∃ c, ε j = some (.go t c) :=
  hf t (fun i => ⟨max m i, by omega, mayGo_of (ta _) (hc _ (by omega)) (hq _ (by omega))⟩) i

/-- A measure of a thread in a loop that falls with each of its steps and is not changed by others. -/
theorem Late.loop {σ : Nat → State} {ε : Nat → Option Ev} {m : Nat} (h : Late σ ε m) {t : Nat} (f : Mem → Pc → Nat)
    (hs : ∀ i, m ≤ i → ∃ j, i ≤ j ∧ ∃ c, ε j = some (.go t c))
    (own : ∀ j p', m ≤ j → Stp (σ j).mem (σ j).alive t ((σ j).pc t) (σ (j + 1)).mem p' → (σ (j + 1)).pc t = p' →
      reg p' = reg ((σ j).pc t) → f (σ (j + 1)).mem p' < f (σ j).mem ((σ j).pc t))
    (others : ∀ j u p', m ≤ j → u ≠ t → u ≠ 0 → (σ j).alive u = true →
      Stp (σ j).mem (σ j).alive u ((σ j).pc u) (σ (j + 1)).mem p' →
      f (σ (j + 1)).mem ((σ j).pc t) ≤ f (σ j).mem ((σ j).pc t)) : False := by
  refine no_descent (fun j => f (σ j).mem ((σ j).pc t)) m ?_ ?_
  · intro i hi
    rcases h.moment hi with ⟨_, e, e'⟩ | ⟨u, c, p', _, u0, ua, _, hst, e, _, hr, _⟩
    · simp only [e, e']; exact Nat.le_refl _
    · by_cases hu : t = u
      · subst hu
        have hp : (σ (i + 1)).pc t = p' := by rw [e]; simp
        simp only [hp]
        exact Nat.le_of_lt (own i p' hi hst hp hr)
      · have hp : (σ (i + 1)).pc t = (σ i).pc t := by rw [e]; simp [hu]
        simp only [hp]
        exact others i u p' hi (fun e => hu e.symm) u0 ua hst
  · intro i hi
    obtain ⟨j, hj, c, hc⟩ := hs i hi
    refine ⟨j, hj, ?_⟩
    rcases h.moment (i := j) (by omega) with ⟨e, _⟩ | ⟨u, c', p', e1, u0, _, _, hst, e, _, hr, _⟩
    · exact absurd hc (e t c)
    · rw [hc] at e1; cases e1
      have hp : (σ (j + 1)).pc t = p' := by rw [e]; simp
      simp only [hp]
      exact own j p' (by omega) hst hp hr

theorem Late.noG {σ : Nat → State} {ε : Nat → Option Ev} {m : Nat} (h : Late σ ε m) (hf : Fair σ ε) {t : Nat}
    (ta : ∀ j, (σ j).alive t = true) (hr : reg ((σ m).pc t) = some .G) : False := by
  have hR : ∀ j, m ≤ j → reg ((σ j).pc t) = some .G := fun j hj => (h.regs t hj).trans hr
  have sh : ∀ j, m ≤ j → acq ((σ j).pc t) = false ∧ inCall (σ j) t := by
    intro j hj
    rcases reg_G (hR j hj) with ⟨_, _, e⟩ | ⟨_, e⟩ | ⟨_, _, e⟩ <;> simp [inCall, e, acq]
  refine h.loop (t := t) (fun _ p => restG p) (fun i _ => h.steps hf ta (fun j hj => (sh j hj).2) (fun j hj => (sh j hj).1) i) ?_ ?_
  · intro j p' hj hst hp hrr
    have e := hR j hj
    have e' := hrr.trans e
    clear hp hrr e
    generalize (σ (j + 1)).mem = M' at hst ⊢
    rcases reg_G (hR j hj) with ⟨r, l, ep⟩ | ⟨r, ep⟩ | ⟨w, r, ep⟩ <;> rw [ep] at hst ⊢ <;> clear ep <;> cases hst <;>
      first
        | (simp [reg] at e'; done)
        | (simp [restG]; done)
        | (simp [restG]; omega)
  · intros; exact Nat.le_refl _

theorem Late.noU {σ : Nat → State} {ε : Nat → Option Ev} {n : Nat} (h : Late σ ε n) (hf : Fair σ ε) {t m : Nat} {k : UK} (t0 : t ≠ 0)
    (ta : ∀ j, (σ j).alive t = true) (hr : reg ((σ n).pc t) = some (.U m k)) : False := by
  have hR : ∀ j, n ≤ j → reg ((σ j).pc t) = some (.U m k) := fun j hj => (h.regs t hj).trans hr
  have sh : ∀ j, n ≤ j → acq ((σ j).pc t) = false ∧ inCall (σ j) t := by
    intro j hj
    rcases reg_U (hR j hj) with e | e | e | ⟨_, e⟩ | e | e <;> simp [inCall, e, acq]
  refine h.loop (t := t) (restU t m) (fun i _ => h.steps hf ta (fun j hj => (sh j hj).2) (fun j hj => (sh j hj).1) i) ?_ ?_
  · intro j p' hj hst hp hrr
    have e := hR j hj
    have e' := hrr.trans e
    have th := (inv h.ex j).th t t0 (ta j)
    have hat := th.at_
    have hrank : rank p' = rank ((σ j).pc t) := by rw [← hp, h.same t j hj, h.same t (j + 1) (by omega)]
    have uf := fun r => rank_ufin k r
    rcases reg_U e with ep | ep | ep | ⟨o, ep⟩ | ep | ep <;> rw [ep] at hst hat hrank ⊢
    · generalize hM : (σ (j + 1)).mem = M' at hst
      cases hst with
      | ulFree => have := uf 0; have hrank : rank (ufin k 0) = rankU k := hrank; omega
      | ulHeld => simp [restU]
    · generalize hM : (σ (j + 1)).mem = M' at hst
      cases hst with
      | ulPerm => have := uf EPERM; have hrank : rank (ufin k EPERM) = rankU k := hrank; omega
      | ulOwn => simp [restU]
    · simp only [At] at hat
      have hv := (th.own m hat.1).2.1
      generalize hM : (σ (j + 1)).mem = M' at hst
      cases hst <;> simp [restU, hv] <;> omega
    · exact hat.elim
    · simp only [At] at hat
      have hv := (th.own m hat.1).2.1
      generalize hM : (σ (j + 1)).mem = M' at hst
      cases hst with
      | ulCas => have := uf 0; have hrank : rank (ufin k 0) = rankU k := hrank; omega
      | ulCasFree _ _ hne => exact absurd hv hne
      | ulCasNo _ _ hne => exact absurd hv hne
    · exact hat.elim
  · intro j u p' hj hut u0 ua hst
    have iv := inv h.ex j
    have ef := eff_stp hst (iv.base.used u) (iv.th u u0 ua)
    have hm : m ∈ (σ j).mem.mlist := by
      apply iv.base.used t
      rcases reg_U (hR j hj) with e | e | e | ⟨_, e⟩ | e | e <;> rw [e] <;> simp [uses]
    have hval : (σ (j + 1)).mem.mval m = t → (σ j).mem.mval m = t ∧ (σ (j + 1)).mem.mcnt m = (σ j).mem.mcnt m := by
      intro hv
      have al := ta j
      have := ef.old m hm
      grind
    have hle : (if (σ (j + 1)).mem.mval m = t then ((σ (j + 1)).mem.mcnt m).toNat else 0) ≤
        (if (σ j).mem.mval m = t then ((σ j).mem.mcnt m).toNat else 0) := by
      split
      · rename_i hv
        obtain ⟨h1, h2⟩ := hval hv
        rw [if_pos h1, h2]; exact Nat.le_refl _
      · exact Nat.zero_le _
    rcases reg_U (hR j hj) with e | e | e | ⟨_, e⟩ | e | e <;> rw [e] <;> simp only [restU] <;> omega

/-- A live thread that is in a check for ever. -/
theorem ends {σ : Nat → State} (hck : ChecksEndOrDead σ) {t : Nat} (ta : ∀ j, (σ j).alive t = true) {i : Nat}
    (hc : checking ((σ i).pc t) = true) : ∃ j, i ≤ j ∧ checking ((σ j).pc t) = false := by
  obtain ⟨j, hj, e | e⟩ := hck t i hc
  · exact ⟨j, hj, e⟩
  · rw [ta] at e; cases e

/-- A thread that holds the table lock of the mutexes for ever. -/
theorem Late.noHolderM {σ : Nat → State} {ε : Nat → Option Ev} {n : Nat} (h : Late σ ε n) (hf : Fair σ ε) (hck : ChecksEndOrDead σ)
    {v : Nat} (v0 : v ≠ 0) (ta : ∀ j, (σ j).alive v = true) (hM : ∀ j, n ≤ j → inM ((σ j).pc v) = true) : False := by
  have hc : ∀ j, n ≤ j → inCall (σ j) v := by
    intro j hj r e; have := hM j hj; rw [e] at this; simp [inM] at this
  have hq : ∀ j, n ≤ j → acq ((σ j).pc v) = false := by
    intro j hj; have := hM j hj; cases e : (σ j).pc v <;> rw [e] at this <;> simp_all [inM, acq]
  cases hr : reg ((σ n).pc v) with
  | none =>
    obtain ⟨j, hj, c, hgo⟩ := h.steps hf ta hc hq n
    rcases h.moment hj with ⟨e, _⟩ | ⟨u, c', p', e1, _, _, _, _, _, _, e2, e3, _⟩
    · exact absurd hgo (e _ _)
    · rw [hgo] at e1; cases e1
      rw [e2, h.regs v hj, hr] at e3; exact e3 rfl
  | some R =>
    have hR : ∀ j, n ≤ j → reg ((σ j).pc v) = some R := fun j hj => (h.regs v hj).trans hr
    have hm := hM n (Nat.le_refl _)
    cases R with
    | G =>
      rcases reg_G hr with ⟨_, _, e⟩ | ⟨_, e⟩ | ⟨_, _, e⟩ <;> rw [e] at hm <;> simp [inM] at hm
    | S => rw [reg_S hr] at hm; simp [inM] at hm
    | U => exact h.noU hf v0 ta hr
    | C =>
      obtain ⟨j, hj, e⟩ := ends hck ta (reg_C hr)
      rw [reg_C (hR j hj)] at e; cases e
    | W =>
      obtain ⟨j, hj, e⟩ := ends hck ta (reg_W hr)
      rw [reg_W (hR j hj)] at e; cases e
    | L m kd k =>
      have hpl : ∀ j, n ≤ j → checking ((σ j).pc v) = true ∨ (σ j).pc v = .relM (.lkRead m kd k) := by
        intro j hj
        have := hM j hj
        rcases reg_L (hR j hj) with e | e | e | e | e | e | e | e <;> first
          | exact .inl e
          | exact .inr e
          | (rw [e] at this; simp [inM] at this)
      have hex : ∃ j, n ≤ j ∧ (σ j).pc v = .relM (.lkRead m kd k) := by
        rcases hpl n (Nat.le_refl _) with e | e
        · obtain ⟨j, hj, e⟩ := ends hck ta e
          rcases hpl j hj with e' | e'
          · rw [e] at e'; cases e'
          · exact ⟨j, hj, e'⟩
        · exact ⟨n, Nat.le_refl _, e⟩
      obtain ⟨j, hj, e⟩ := hex
      by_cases hgo : ∃ i, j ≤ i ∧ (∃ c, ε i = some (.go v c)) ∧ (σ i).pc v = .relM (.lkRead m kd k)
      · obtain ⟨i, hi, ⟨c, hgo⟩, ei⟩ := hgo
        rcases h.moment (i := i) (by omega) with ⟨e, _⟩ | ⟨u, c', p', e1, _, _, _, hst, e2, _⟩
        · exact absurd hgo (e _ _)
        · rw [hgo] at e1; cases e1
          rw [ei] at hst
          have := hM (i + 1) (by omega)
          rw [e2, upd_same] at this
          generalize (σ (i + 1)).mem = M' at hst
          cases hst
          simp [inM] at this
      · have stay : ∀ d, (σ (j + d)).pc v = .relM (.lkRead m kd k) := by
          intro d
          induction d with
          | zero => exact e
          | succ d ih =>
            rw [← ih, ← Nat.add_assoc]
            rcases h.moment (i := j + d) (by omega) with ⟨_, _, e⟩ | ⟨u, c', p', e1, _, _, _, hst, e2, _⟩
            · rw [e]
            · have : v ≠ u := by rintro rfl; exact hgo ⟨j + d, by omega, ⟨_, e1⟩, ih⟩
              rw [e2]; simp [this]
        obtain ⟨i, hi, c, hs⟩ := h.steps hf ta hc hq j
        obtain ⟨d, rfl⟩ := Nat.le.dest hi
        exact hgo ⟨j + d, by omega, ⟨c, hs⟩, stay d⟩

/-- A thread that holds the table lock of the conditions for ever. -/
theorem Late.noHolderC {σ : Nat → State} {ε : Nat → Option Ev} {n : Nat} (h : Late σ ε n) (hf : Fair σ ε) (hck : ChecksEndOrDead σ)
    {v : Nat} (v0 : v ≠ 0) (ta : ∀ j, (σ j).alive v = true) (hM : ∀ j, n ≤ j → inC ((σ j).pc v) = true) : False := by
  have hc : ∀ j, n ≤ j → inCall (σ j) v := by
    intro j hj r e; have := hM j hj; rw [e] at this; simp [inC] at this
  have hq : ∀ j, n ≤ j → acq ((σ j).pc v) = false := by
    intro j hj; have := hM j hj; cases e : (σ j).pc v <;> rw [e] at this <;> simp_all [inC, acq]
  cases hr : reg ((σ n).pc v) with
  | none =>
    obtain ⟨j, hj, c, hgo⟩ := h.steps hf ta hc hq n
    rcases h.moment hj with ⟨e, _⟩ | ⟨u, c', p', e1, _, _, _, _, _, _, e2, e3, _⟩
    · exact absurd hgo (e _ _)
    · rw [hgo] at e1; cases e1
      rw [e2, h.regs v hj, hr] at e3; exact e3 rfl
  | some R =>
    have hR : ∀ j, n ≤ j → reg ((σ j).pc v) = some R := fun j hj => (h.regs v hj).trans hr
    have hm := hM n (Nat.le_refl _)
    cases R with
    | G => exact h.noG hf ta hr
    | S => rw [reg_S hr] at hm; simp [inC] at hm
    | U => exact h.noU hf v0 ta hr
    | C =>
      obtain ⟨j, hj, e⟩ := ends hck ta (reg_C hr)
      rw [reg_C (hR j hj)] at e; cases e
    | W =>
      obtain ⟨j, hj, e⟩ := ends hck ta (reg_W hr)
      rw [reg_W (hR j hj)] at e; cases e
    | L m kd k =>
      have : inC ((σ n).pc v) = false := by
        unfold reg at hr
        split at hr <;> simp_all [inC]
      rw [this] at hm; cases hm

/-- A live thread that is in calls for ever makes steps again and again. -/
theorem Late.moves {σ : Nat → State} {ε : Nat → Option Ev} {n : Nat} (h : Late σ ε n) (hf : Fair σ ε) (hck : ChecksEndOrDead σ)
    {t : Nat} (ta : ∀ j, (σ j).alive t = true) (hc : ∀ j, n ≤ j → inCall (σ j) t) (i : Nat) (hi : n ≤ i) :
    ∃ j, i ≤ j ∧ ∃ c, ε j = some (.go t c) := by
  apply Classical.byContradiction; intro hno
  have hs : ∀ j, i ≤ j → ∀ c, ε j ≠ some (.go t c) := fun j hj c e => hno ⟨j, hj, c, e⟩
  have hl := h.later hi
  cases hq : acq ((σ i).pc t) with
  | true =>
    cases hp : (σ i).pc t <;> rw [hp] at hq <;> simp [acq] at hq
    · obtain ⟨k, v, hk, v0, va, hv⟩ := hl.holderM hf ta hs hp
      exact (hl.later hk).noHolderM hf hck v0 va hv
    · obtain ⟨k, v, hk, v0, va, hv⟩ := hl.holderC hf ta hs hp
      exact (hl.later hk).noHolderC hf hck v0 va hv
  | false =>
    obtain ⟨j, hj, c, e⟩ := hl.steps hf ta (fun j hj => hc j (by omega)) (fun j hj => by rw [hl.rest hs hj]; exact hq) i
    exact hs j hj c e

theorem Late.in_loop {σ : Nat → State} {ε : Nat → Option Ev} {n : Nat} (h : Late σ ε n) (hf : Fair σ ε) (hck : ChecksEndOrDead σ)
    {t : Nat} (ta : ∀ j, (σ j).alive t = true) (hc : ∀ j, n ≤ j → inCall (σ j) t) : reg ((σ n).pc t) ≠ none := by
  intro hr
  obtain ⟨j, hj, c, hgo⟩ := h.moves hf hck ta hc n (Nat.le_refl _)
  rcases h.moment hj with ⟨e, _⟩ | ⟨u, c', p', e1, _, _, _, _, _, _, e2, e3, _⟩
  · exact absurd hgo (e _ _)
  · rw [hgo] at e1; cases e1
    rw [e2, h.regs t hj, hr] at e3; exact e3 rfl

/-- A thread cannot be in the attempts to take a mutex for ever if its attempts never fail. -/
theorem Late.noL {σ : Nat → State} {ε : Nat → Option Ev} {n : Nat} (h : Late σ ε n) (hf : Fair σ ε) (hck : ChecksEndOrDead σ)
    {t m : Nat} {kd : Kind} {k : LK} (t0 : t ≠ 0) (ta : ∀ j, (σ j).alive t = true)
    (hcas : ∀ j c, n ≤ j → ε j = some (.go t c) → (σ j).pc t ≠ .lkCas m kd k)
    (hr : reg ((σ n).pc t) = some (.L m kd k)) : False := by
  have hR : ∀ j, n ≤ j → reg ((σ j).pc t) = some (.L m kd k) := fun j hj => (h.regs t hj).trans hr
  have hc : ∀ j, n ≤ j → inCall (σ j) t := by
    intro j hj r e; have := hR j hj; rw [e] at this; simp [reg] at this
  -- an own step
  have own : ∀ j p', n ≤ j → (σ j).pc t ≠ .lkCas m kd k → Stp (σ j).mem (σ j).alive t ((σ j).pc t) (σ (j + 1)).mem p' →
      reg p' = reg ((σ j).pc t) →
      placeL p' ≤ placeL ((σ j).pc t) ∧ (checking ((σ j).pc t) = false → placeL p' < placeL ((σ j).pc t)) := by
    intro j p' hj hnc hst e
    have th := (inv h.ex j).th t t0 (ta j)
    have hat := th.at_
    have hr' := e.trans (hR j hj)
    rcases reg_L (hR j hj) with ep | ep | ep | ep | ep | ep | ep | ep
    · refine ⟨?_, fun e => by rw [ep] at e; cases e⟩
      have : placeL ((σ j).pc t) = 4 := by simp [placeL, ep]
      rw [this]
      generalize (σ (j + 1)).mem = M' at hst
      generalize (σ j).pc t = p at *
      cases hst <;> simp [checking] at ep <;> simp [placeL, checking]
    · rw [ep] at hst ⊢
      generalize (σ (j + 1)).mem = M' at hst
      cases hst <;> simp [placeL, checking]
    · rw [ep] at hst ⊢
      generalize (σ (j + 1)).mem = M' at hst
      cases hst <;> simp [placeL, checking]
    · rw [ep] at hst hat
      have hv := (th.own m hat.1).2.1
      generalize (σ (j + 1)).mem = M' at hst
      cases hst
      · cases k <;> simp [fin, reg] at hr'
      · rename_i h0; exact absurd hv h0
    · rw [ep] at hat; exact hat.elim
    · exact absurd ep hnc
    · rw [ep] at hst ⊢
      generalize (σ (j + 1)).mem = M' at hst
      cases hst
      simp [placeL, checking]
    · rw [ep] at hst ⊢
      generalize (σ (j + 1)).mem = M' at hst
      cases hst
      simp [placeL, checking]
  have mono : ∀ j, n ≤ j → placeL ((σ (j + 1)).pc t) ≤ placeL ((σ j).pc t) := by
    intro j hj
    rcases h.moment hj with ⟨_, _, e⟩ | ⟨u, c, p', e1, _, _, _, hst, e2, e3, e4, _⟩
    · rw [e]; exact Nat.le_refl _
    · by_cases hu : t = u
      · subst hu; rw [e2, upd_same]; exact (own j p' hj (hcas j _ hj e1) hst e4).1
      · rw [e2, upd_ne _ _ hu]; exact Nat.le_refl _
  obtain ⟨i, hi, hcon⟩ := const_from (fun j => placeL ((σ j).pc t)) n mono
  have hck' : ∃ j, i ≤ j ∧ checking ((σ j).pc t) = false := by
    cases e : checking ((σ i).pc t) with
    | false => exact ⟨i, Nat.le_refl _, e⟩
    | true => exact ends hck ta e
  obtain ⟨j, hj, e⟩ := hck'
  have h4 : ∀ p, reg p = some (.L m kd k) → (checking p = false ↔ placeL p ≠ 4) := by
    intro p hp
    rcases reg_L hp with ep | ep | ep | ep | ep | ep | ep | ep
    · simp [placeL, ep]
    all_goals (rw [ep]; simp [placeL, checking])
  obtain ⟨l, hl, c, hgo⟩ := h.moves hf hck ta hc i hi
  rcases h.moment (i := l) (by omega) with ⟨e', _⟩ | ⟨u, c', p', e1, _, _, _, hst, e2, e3, e4, _⟩
  · exact absurd hgo (e' _ _)
  · have e0 := e1
    rw [hgo] at e1; cases e1
    have hpl : placeL ((σ l).pc t) = placeL ((σ j).pc t) := (hcon l hl).trans (hcon j hj).symm
    have hne := (h4 _ (hR j (by omega))).1 e
    rw [← hpl] at hne
    have := (own l p' (by omega) (hcas l _ (by omega) e0) hst e4).2 ((h4 _ (hR l (by omega))).2 hne)
    have h1 := hcon (l + 1) (by omega)
    have h2 := hcon l hl
    simp only [e2, upd_same] at h1 h2
    omega

/-- At a step that stays in the attempts to take a mutex the mutex has another owner, and the call does not give up at
once. -/
theorem Late.cas {σ : Nat → State} {ε : Nat → Option Ev} {n : Nat} (h : Late σ ε n) {t m : Nat} {kd : Kind} {k : LK} (t0 : t ≠ 0)
    (ta : ∀ j, (σ j).alive t = true) {j : Nat} {c : Choice} (hj : n ≤ j) (he : ε j = some (.go t c))
    (hp : (σ j).pc t = .lkCas m kd k) :
    (σ n).mem.mval m ≠ 0 ∧ (σ n).mem.mval m ≠ t ∧ kd ≠ .try_ ∧
      (c = .limit → kd = .block ∧ (σ (j + 1)).pc t = .acqM (.swM (some (m, kd, k)))) := by
  rw [← h.vals j hj]
  have th := ((inv h.ex j).th t t0 (ta j)).at_
  rw [hp] at th
  rcases h.moment hj with ⟨e, _⟩ | ⟨u, c', p', e1, _, _, hpl, _, e2, e3, e4, e5, _⟩
  · exact absurd he (e _ _)
  · rw [he] at e1; cases e1
    have kf := fun r => rank_fin k r
    have hkr : rank (.lkCas m kd k) = rankL k := rfl
    rw [hp] at hpl e3
    simp only [plan] at hpl
    have e2 : (σ (j + 1)).pc t = p' := by rw [e2]; simp
    split at hpl
    · split at hpl
      · simp only [Option.some.injEq, Prod.mk.injEq] at hpl
        rw [← hpl.2] at e5; exact absurd rfl e5
      · cases hpl
    · rename_i h0
      simp only [Option.map_eq_some_iff, Prod.mk.injEq] at hpl
      obtain ⟨q, hq, _, rfl⟩ := hpl
      refine ⟨h0, th, ?_, ?_⟩
      · rintro rfl
        cases c <;> simp [failed] at hq
        subst hq
        have := (kf EBUSY).1; omega
      · rintro rfl
        cases kd with
        | try_ => simp [failed] at hq
        | timed =>
          simp only [failed, Option.some.injEq] at hq
          subst hq
          have := (kf ETIMEDOUT).1; omega
        | block =>
          simp only [failed, Option.some.injEq] at hq
          exact ⟨rfl, by rw [e2, ← hq]⟩

/-- In the part of a check that treats the mutex `m` with owner `v`. -/
def treats (m v : Nat) : Pc → Bool
  | .swChk m' v' _ => m' == m && v' == v
  | .swCnt m' _ => m' == m
  | .swCntC m' _ _ => m' == m
  | .swVal m' _ => m' == m
  | .swValC m' _ _ => m' == m
  | _ => false

/-- A check that looks at a mutex with a dead owner recovers it. -/
theorem Late.noMx {σ : Nat → State} {ε : Nat → Option Ev} {n : Nat} (h : Late σ ε n) (hck : ChecksEndOrDead σ)
    (hsp : ∀ j, n ≤ j → ∀ t, ε j ≠ some (.go t .spur)) {t m : Nat} (t0 : t ≠ 0) (ta : ∀ j, (σ j).alive t = true)
    (hv0 : (σ n).mem.mval m ≠ 0) (hd : (σ n).alive ((σ n).mem.mval m) = false) {i : Nat} (hi : n ≤ i) :
    ε i ≠ some (.go t (.mx m)) := by
  intro he
  have hvt : (σ n).mem.mval m ≠ t := by intro e; rw [e, ta] at hd; cases hd
  have hD : ∀ j, n ≤ j → (σ j).alive ((σ n).mem.mval m) = false := fun j hj => dead_on h.ex hj hd
  have hT : ∀ d, treats m ((σ n).mem.mval m) ((σ (i + 1 + d)).pc t) = true := by
    intro d
    induction d with
    | zero =>
      rcases h.moment hi with ⟨e, _⟩ | ⟨u, c', p', e1, _, _, hpl, _, e2, _⟩
      · exact absurd he (e _ _)
      · rw [he] at e1; cases e1
        rw [Nat.add_zero, e2, upd_same]
        cases hp : (σ i).pc t <;> rw [hp] at hpl <;> simp only [plan, reduceCtorEq, failed, Option.map_none, ite_self] at hpl
        · simp at hpl
        · split at hpl
          · rw [h.vals i hi, if_neg (by simp [hv0, hvt])] at hpl
            simp only [Option.some.injEq, Prod.mk.injEq] at hpl
            rw [← hpl.2]; simp [treats]
          · cases hpl
    | succ d ih =>
      rw [← Nat.add_assoc]
      rcases h.moment (i := i + 1 + d) (by omega) with ⟨_, _, e⟩ | ⟨u, c', p', e1, _, _, hpl, _, e2, _⟩
      · rw [e]; exact ih
      · by_cases hu : t = u
        · subst hu
          rw [e2, upd_same]
          have hvn := h.vals (i + 1 + d + 1) (by omega)
          have hvo := h.vals (i + 1 + d) (by omega)
          have hat := ((inv h.ex (i + 1 + d)).th t t0 (ta _)).at_
          have hDd := hD (i + 1 + d) (by omega)
          have hs := hsp (i + 1 + d) (by omega) t
          rw [e1] at hs
          cases hp : (σ (i + 1 + d)).pc t <;> rw [hp] at ih <;> simp [treats] at ih <;> rw [hp] at hpl hat
          case swChk m' v' k =>
            obtain ⟨rfl, rfl⟩ := ih
            cases c' <;> simp [plan] at hpl hs
            rw [hDd] at hpl
            simp at hpl
            rw [← hpl.2]; simp [treats]
          case swCnt m' k =>
            subst ih
            cases c' <;> simp [plan] at hpl
            rw [← hpl.2]; simp [treats]
          case swCntC m' o k =>
            subst ih
            cases c' <;> simp only [plan, reduceCtorEq] at hpl
            split at hpl
            · simp only [Option.some.injEq, Prod.mk.injEq] at hpl
              rw [← hpl.2]; simp [treats]
            · split at hpl <;>
                (simp only [Option.some.injEq, Prod.mk.injEq] at hpl
                 rw [← hpl.2]; simp [treats])
          case swVal m' k =>
            subst ih
            cases c' <;> simp [plan] at hpl
            rw [← hpl.2]; simp [treats]
          case swValC m' w k =>
            subst ih
            cases c' <;> simp only [plan, reduceCtorEq] at hpl
            obtain ⟨g1, _, _, g2⟩ := hat
            split at hpl
            · rename_i h0; rw [h0] at g2; exact absurd g2 g1
            · simp only [Option.some.injEq, Prod.mk.injEq] at hpl
              rw [← hpl.1] at hvn
              have := congrFun hvn m'
              simp only [upd_same] at this
              exact absurd this.symm hv0
        · rw [e2, upd_ne _ _ hu]; exact ih
  have hcT : ∀ p, treats m ((σ n).mem.mval m) p = true → checking p = true := by
    intro p hp; cases p <;> simp [treats] at hp <;> rfl
  obtain ⟨j, hj, e⟩ := ends hck ta (hcT _ (hT 0))
  obtain ⟨d, rfl⟩ := Nat.le.dest hj
  rw [Nat.add_zero, hcT _ (hT d)] at e
  cases e

/-- The first moment at which something holds. -/
theorem first {P : Nat → Prop} {i j : Nat} (hij : i ≤ j) (hj : P j) : ∃ l, i ≤ l ∧ l ≤ j ∧ P l ∧ ∀ r, i ≤ r → r < l → ¬ P r := by
  obtain ⟨d, rfl⟩ := Nat.le.dest hij
  clear hij
  induction d generalizing i with
  | zero => exact ⟨i, Nat.le_refl _, Nat.le_refl _, hj, fun r h1 h2 => absurd h1 (by omega)⟩
  | succ d ih =>
    by_cases hi : P i
    · exact ⟨i, Nat.le_refl _, by omega, hi, fun r h1 h2 => absurd h1 (by omega)⟩
    · obtain ⟨l, h1, h2, h3, h4⟩ := ih (i := i + 1) (by rwa [show i + 1 + d = i + (d + 1) by omega])
      refine ⟨l, by omega, by omega, h3, fun r hr hl => ?_⟩
      rcases Nat.eq_or_lt_of_le hr with e | e
      · rw [← e]; exact hi
      · exact h4 r e hl

theorem trying_L {p : Pc} {m : Nat} {kd : Kind} {k : LK} (hk : kd ≠ .try_) (h : reg p = some (.L m kd k)) :
    trying p = true ∨ checking p = true ∨ p = .acqM (.swM (some (m, kd, k))) ∨ p = .relM (.lkRead m kd k) := by
  rcases reg_L h with e | e | e | e | e | e | e | e
  · exact .inr (.inl e)
  · left; rw [e]; simpa [trying] using hk
  · left; rw [e]; simpa [trying] using hk
  · left; rw [e]; simpa [trying] using hk
  · left; rw [e]; simpa [trying] using hk
  · left; rw [e]; simpa [trying] using hk
  · exact .inr (.inr (.inl e))
  · exact .inr (.inr (.inr e))

theorem trying_exit {M M' : Mem} {alive : Nat → Bool} {t : Nat} {p p' : Pc} (h : Stp M alive t p M' p') (hp : trying p = true) :
    trying p' = true ∨ (∃ x, p' = .acqM x) ∨ (∃ m kd k, p' = .lkInc m kd k) ∨ ∃ k r, p' = fin k r := by
  have hF : ∀ m kd k q, kd ≠ .try_ → Failed m kd k q →
      trying q = true ∨ (∃ x, q = .acqM x) ∨ (∃ m kd k, q = .lkInc m kd k) ∨ ∃ k r, q = fin k r := by
    intro m kd k q hk hq
    cases hq with
    | busy => exact .inr (.inr (.inr ⟨_, _, rfl⟩))
    | over => exact .inr (.inr (.inr ⟨_, _, rfl⟩))
    | again => left; simpa [trying] using hk
    | check => exact .inr (.inl ⟨_, rfl⟩)
  cases h <;> simp [trying] at hp
  case lkOwn => left; simpa [trying] using hp
  case lkOther => left; simpa [trying] using hp
  case lkAdd => left; simpa [trying] using hp
  case lkAddNeg => left; simpa [trying] using hp
  case lkChk => exact .inr (.inr (.inr ⟨_, _, rfl⟩))
  case lkChkNo => left; simpa [trying] using hp
  case lkSub h => exact hF _ _ _ _ hp h
  case lkCas => exact .inr (.inr (.inl ⟨_, _, _, rfl⟩))
  case lkCasNo _ h => exact hF _ _ _ _ hp h

theorem check_exit {M M' : Mem} {alive : Nat → Bool} {t : Nat} {p p' : Pc} (h : Stp M alive t p M' p') (hp : checking p = true)
    (hp' : checking p' = false) : (∃ x, p = .swM x ∧ p' = .relM (swBack x)) ∨ p' = .relC (.done 0) := by
  cases h <;> simp [checking] at hp hp'
  · exact .inl ⟨_, rfl, rfl⟩
  · exact .inr rfl

/-- A thread that waits for a mutex with a dead owner for ever begins a check of dead owners. -/
theorem Late.begins {σ : Nat → State} {ε : Nat → Option Ev} {n : Nat} (h : Late σ ε n) (hf : Fair σ ε) (hck : ChecksEndOrDead σ)
    (hpa : Patient σ ε) {t m : Nat} {kd : Kind} {k : LK} (t0 : t ≠ 0) (ta : ∀ j, (σ j).alive t = true)
    (hr : reg ((σ n).pc t) = some (.L m kd k)) : ∃ i, n ≤ i ∧ (σ i).pc t = .acqM (.swM (some (m, kd, k))) := by
  have hR : ∀ j, n ≤ j → reg ((σ j).pc t) = some (.L m kd k) := fun j hj => (h.regs t hj).trans hr
  have hk : kd ≠ .try_ := by
    rintro rfl
    exact h.noL hf hck t0 ta (fun j c hj he hp => (h.cas t0 ta hj he hp).2.2.1 rfl) hr
  have h1 : ∃ j, n ≤ j ∧ trying ((σ j).pc t) = true := by
    refine Classical.byContradiction fun hno => h.noL hf hck t0 ta (fun j c hj he hp => hno ⟨j, hj, ?_⟩) hr
    rw [hp]; simpa [trying] using hk
  obtain ⟨j1, hj1, e1⟩ := h1
  by_cases hall : ∀ j, j1 ≤ j → trying ((σ j).pc t) = true
  · obtain ⟨j, hj, he⟩ := hpa t j1 (fun j hj => ⟨ta j, hall j hj⟩)
    rcases h.moment (i := j) (by omega) with ⟨e, _⟩ | ⟨u, c', p', e1, _, _, hpl, _, e2, _⟩
    · exact absurd he (e _ _)
    · rw [he] at e1; cases e1
      have ht := hall j hj
      have hat := ((inv h.ex j).th t t0 (ta j)).at_
      rcases reg_L (hR j (by omega)) with e | e | e | e | e | e | e | e
      · cases hp : (σ j).pc t <;> rw [hp] at e ht <;> simp [checking, trying] at e ht
      · rw [e] at hpl; simp [plan] at hpl
      · rw [e] at hpl; simp [plan] at hpl
      · rw [e] at hpl; simp [plan] at hpl
      · rw [e] at hat; exact hat.elim
      · exact ⟨j + 1, by omega, ((h.cas t0 ta (by omega) he e).2.2.2 rfl).2⟩
      · rw [e] at ht; simp [trying] at ht
      · rw [e] at ht; simp [trying] at ht
  · simp only [Classical.not_forall] at hall
    obtain ⟨j2, hj2, e2⟩ := hall
    obtain ⟨l, hl, _, hl1, hl2⟩ := first (P := fun j => ¬ trying ((σ j).pc t) = true) hj2 e2
    have hlt : j1 < l := by
      rcases Nat.eq_or_lt_of_le hl with e | e
      · rw [← e] at hl1; exact absurd e1 hl1
      · exact e
    obtain ⟨l, rfl⟩ : ∃ l', l = l' + 1 := ⟨l - 1, by omega⟩
    have ht : trying ((σ l).pc t) = true := Classical.not_not.mp (hl2 l (by omega) (by omega))
    refine ⟨l + 1, by omega, ?_⟩
    have hRl := hR (l + 1) (by omega)
    rcases h.moment (i := l) (by omega) with ⟨_, _, e⟩ | ⟨u, c', p', _, _, _, hpl, hst, e2, _⟩
    · rw [e] at hl1; exact absurd ht hl1
    · by_cases hu : t = u
      · subst hu
        rw [e2, upd_same] at hl1 hRl ⊢
        have hx := trying_exit hst ht
        rcases trying_L hk hRl with e | e | e | e
        · exact absurd e hl1
        · exfalso
          rcases hx with hx | ⟨x, rfl⟩ | ⟨_, _, _, rfl⟩ | ⟨k', r, rfl⟩
          · exact hl1 hx
          · cases e
          · cases e
          · cases k' <;> cases e
        · exact e
        · exfalso
          subst e
          rcases hx with hx | ⟨x, hx⟩ | ⟨_, _, _, hx⟩ | ⟨k', r, hx⟩
          · exact hl1 hx
          · cases hx
          · cases hx
          · cases k' <;> cases hx
      · rw [e2, upd_ne _ _ hu] at hl1; exact absurd ht hl1

/-- Nobody waits for a mutex with a dead owner for ever. -/
theorem Late.noDeadOwner {σ : Nat → State} {ε : Nat → Option Ev} {n : Nat} (h : Late σ ε n) (hf : Fair σ ε)
    (hck : ChecksEndOrDead σ) (hpa : Patient σ ε) (hth : Thorough σ ε) (hsp : ∀ j, n ≤ j → ∀ t, ε j ≠ some (.go t .spur))
    {t m : Nat} {kd : Kind} {k : LK} (t0 : t ≠ 0) (ta : ∀ j, (σ j).alive t = true)
    (hr : reg ((σ n).pc t) = some (.L m kd k)) (hv0 : (σ n).mem.mval m ≠ 0)
    (hd : (σ n).alive ((σ n).mem.mval m) = false) : False := by
  have hR : ∀ j, n ≤ j → reg ((σ j).pc t) = some (.L m kd k) := fun j hj => (h.regs t hj).trans hr
  have hc : ∀ j, n ≤ j → inCall (σ j) t := by
    intro j hj r e; have := hR j hj; rw [e] at this; simp [reg] at this
  obtain ⟨i, hi, hp⟩ := h.begins hf hck hpa t0 ta hr
  obtain ⟨j', hj', hgo'⟩ := h.moves hf hck ta hc i hi
  obtain ⟨j, hj, _, hgo, hfirst⟩ := first (P := fun j => ∃ c, ε j = some (.go t c)) hj' hgo'
  have hstay : ∀ d, i + d ≤ j → (σ (i + d)).pc t = .acqM (.swM (some (m, kd, k))) := by
    intro d
    induction d with
    | zero => intro _; exact hp
    | succ d ih =>
      intro hd
      rw [← ih (by omega), ← Nat.add_assoc]
      rcases h.moment (i := i + d) (by omega) with ⟨_, _, e⟩ | ⟨u, c', p', e1, _, _, _, _, e2, _⟩
      · rw [e]
      · have : t ≠ u := by rintro rfl; exact hfirst (i + d) (by omega) (by omega) ⟨_, e1⟩
        rw [e2, upd_ne _ _ this]
  have hpj : (σ j).pc t = .acqM (.swM (some (m, kd, k))) := by
    obtain ⟨d, rfl⟩ := Nat.le.dest hj
    exact hstay d (Nat.le_refl _)
  have hpj1 : (σ (j + 1)).pc t = .swM (some (m, kd, k)) := by
    obtain ⟨c, hgo⟩ := hgo
    rcases h.moment (i := j) (by omega) with ⟨e, _⟩ | ⟨u, c', p', e1, _, _, _, hst, e2, _⟩
    · exact absurd hgo (e _ _)
    · rw [hgo] at e1; cases e1
      rw [hpj] at hst
      rw [e2, upd_same]
      generalize (σ (j + 1)).mem = M' at hst
      cases hst; rfl
  obtain ⟨l0, hl0, e0⟩ := ends hck ta (i := j + 1) (by rw [hpj1]; rfl)
  obtain ⟨l, hl, _, hl1, hl2⟩ := first (P := fun j => checking ((σ j).pc t) = false) hl0 e0
  have hlt : j + 1 < l := by
    rcases Nat.eq_or_lt_of_le hl with e | e
    · rw [← e, hpj1] at hl1; cases hl1
    · exact e
  obtain ⟨l, rfl⟩ : ∃ l', l = l' + 1 := ⟨l - 1, by omega⟩
  have hchk : ∀ r, j < r → r < l + 1 → checking ((σ r).pc t) = true := by
    intro r h1 h2
    have := hl2 r (by omega) h2
    simpa using this
  have hend : (σ (l + 1)).pc t = .relM (.lkRead m kd k) := by
    have hRl := hR (l + 1) (by omega)
    have hcl := hchk l (by omega) (by omega)
    rcases h.moment (i := l) (by omega) with ⟨_, _, e⟩ | ⟨u, c', p', _, _, _, hpl, hst, e2, _⟩
    · rw [e, hcl] at hl1; cases hl1
    · by_cases hu : t = u
      · subst hu
        rw [e2, upd_same] at hl1 hRl ⊢
        have hRl0 := hR l (by omega)
        rcases check_exit hst hcl hl1 with ⟨x, e, e'⟩ | e
        · rw [e] at hRl0
          simp only [reg, Option.some.injEq] at hRl0
          rcases x with _ | ⟨_, _, _⟩ <;> simp [regS] at hRl0
          obtain ⟨rfl, rfl, rfl⟩ := hRl0
          rw [e']; rfl
        · rw [e] at hRl; simp [reg] at hRl
      · rw [e2, upd_ne _ _ hu, hcl] at hl1; cases hl1
  have hm := (inv h.ex j).base.used t m (reg_uses (hR j (by omega)))
  obtain ⟨r, hr1, _, hr3⟩ := hth t j (l + 1) _ (by omega) hpj hchk hend m hm
  exact h.noMx hck hsp t0 ta hv0 hd (by omega) hr3

/-- A live thread whose wait for a condition never ends: it has no limit and nobody wakes it. -/
theorem Late.waits {σ : Nat → State} {ε : Nat → Option Ev} {n : Nat} (h : Late σ ε n) (hf : Fair σ ε) (hck : ChecksEndOrDead σ)
    (hti : TimelyOrDead σ ε) {t c w m : Nat} {kd : Kind} (ta : ∀ j, (σ j).alive t = true)
    (hr : reg ((σ n).pc t) = some (.S c w m kd)) : Unwoken σ t n := by
  have hR : ∀ j, n ≤ j → (σ j).pc t = .wSpin c w m kd := fun j hj => reg_S ((h.regs t hj).trans hr)
  have hc : ∀ j, n ≤ j → inCall (σ j) t := by
    intro j hj r e; have := hR j hj; rw [e] at this; cases this
  have hkd : kd = .block := by
    refine Classical.byContradiction fun hk => ?_
    obtain ⟨j, hj, e⟩ := hti t n (fun j hj => ⟨ta j, by rw [hR j hj]; simpa [timing] using hk⟩)
    rcases h.moment hj with ⟨e', _⟩ | ⟨u, c', p', e1, _, _, hp, _, e2, e3, e4, _⟩
    · exact absurd e (e' _ _)
    · rw [e] at e1; cases e1
      rw [hR j hj] at hp e4
      simp only [plan] at hp
      split at hp
      · simp only [Option.some.injEq, Prod.mk.injEq] at hp
        rw [← hp.2] at e4; simp [reg] at e4
      · cases hp
  subst hkd
  refine ⟨c, w, m, fun j hj => ⟨hR j hj, ?_⟩⟩
  refine Classical.byContradiction fun hw => ?_
  have hw : (σ j).mem.wup w = true := by simpa using hw
  have hst : ∀ d, (σ (j + d)).mem.wup w = true := by
    intro d
    induction d with
    | zero => exact hw
    | succ d ih =>
      rw [← Nat.add_assoc]
      rcases h.moment (i := j + d) (by omega) with ⟨_, e, _⟩ | ⟨u, c', p', e1, _, ua, _, hst, e2, e3, e4, _⟩
      · rw [e]; exact ih
      · by_cases hu : u = t
        · subst hu
          rw [hR _ (by omega)] at hst
          generalize (σ (j + d + 1)).mem = M' at hst ⊢
          cases hst <;> exact ih
        · rcases wup_other (recs_reach (exec_reach h.ex _)) (ta _) ua hu
            (by rw [hR _ (by omega)]; rfl) hst with e | e
          · rw [e]; exact ih
          · exact e.1
  obtain ⟨l, hl, c', hgo⟩ := h.moves hf hck ta hc j hj
  obtain ⟨d, rfl⟩ := Nat.le.dest hl
  rcases h.moment (i := j + d) (by omega) with ⟨e', _⟩ | ⟨u, c', p', e1, _, _, _, hs, e2, e3, e4, _⟩
  · exact absurd hgo (e' _ _)
  · rw [hgo] at e1; cases e1
    rw [hR _ (by omega)] at hs e4
    have := hst d
    generalize (σ (j + d + 1)).mem = M' at hs
    cases hs <;> simp_all [reg]

/-- Nobody waits for a mutex for ever. -/
theorem Late.noLock {σ : Nat → State} {ε : Nat → Option Ev} {n : Nat} (h : Late σ ε n) (hf : Fair σ ε) (hre : ReleasedOrDead σ)
    (hck : ChecksEndOrDead σ) (hpa : Patient σ ε) (hth : Thorough σ ε) (hsp : ∀ j, n ≤ j → ∀ t, ε j ≠ some (.go t .spur))
    {t m : Nat} {kd : Kind} {k : LK} (t0 : t ≠ 0) (ta : ∀ j, (σ j).alive t = true)
    (hr : reg ((σ n).pc t) = some (.L m kd k)) : False := by
  by_cases hv0 : (σ n).mem.mval m = 0
  · exact h.noL hf hck t0 ta (fun j c hj he hp => (h.cas t0 ta hj he hp).1 hv0) hr
  by_cases hvt : (σ n).mem.mval m = t
  · exact h.noL hf hck t0 ta (fun j c hj he hp => (h.cas t0 ta hj he hp).2.1 hvt) hr
  cases hd : (σ n).alive ((σ n).mem.mval m) with
  | false => exact h.noDeadOwner hf hck hpa hth hsp t0 ta hr hv0 hd
  | true =>
    have iv := inv h.ex n
    have hm := iv.base.used t m (reg_uses hr)
    rcases (iv.th _ hv0 hd).held m hm rfl with hdep | hinc
    · obtain ⟨j, hj, e | e⟩ := hre n m _ hdep
      · rw [h.deps hj] at e; omega
      · refine (h.later hj).noDeadOwner hf hck hpa hth (fun l hl => hsp l (by omega)) t0 ta ((h.regs t hj).trans hr) ?_ ?_
        · rw [h.vals j hj]; exact hv0
        · rw [h.vals j hj]; exact e
    · generalize hu : (σ n).mem.mval m = u at *
      cases hp : (σ n).pc u <;> rw [hp] at hinc <;> simp [isInc] at hinc
      rename_i k'
      have hcu : inCall (σ n) u := by intro r e; rw [e] at hp; cases hp
      have ua : ∀ j, (σ j).alive u = true := by
        intro j
        rcases Nat.le_total n j with hj | hj
        · rw [h.life u n j (Nat.le_refl _) hj hcu]; exact hd
        · exact alive_back h.ex hj hd
      refine h.in_loop (t := u) hf hck ua (fun j hj r e => ?_) (by rw [hp]; rfl)
      have := h.same u j hj
      rw [e, hp] at this
      cases k' <;> simp [rank, rankL] at this

/-- Every call of a thread that is not killed returns, except a wait without limit that nobody wakes. -/
theorem returns_or_waits {σ : Nat → State} {ε : Nat → Option Ev} (ex : Exec okDie σ ε) (hf : Fair σ ε) (hre : ReleasedOrDead σ)
    (hce : CallsEnd ε) (hck : ChecksEndOrDead σ) (hth : Thorough σ ε) (hpa : Patient σ ε) (hti : TimelyOrDead σ ε)
    (hsd : SeenDead ε) (t i : Nat) :
    ReturnsAfter σ t i ∨ Dies σ t ∨ ∃ n, i ≤ n ∧ Unwoken σ t n := by
  refine Classical.byContradiction fun hno => ?_
  rw [not_or, not_or] at hno
  have hc : ∀ j, i ≤ j → inCall (σ j) t := fun j hj r e => hno.1 ⟨j, hj, r, e⟩
  have ta : ∀ j, (σ j).alive t = true := by
    intro j
    cases e : (σ j).alive t with
    | true => rfl
    | false => exact absurd ⟨j, e⟩ hno.2.1
  have t0 : t ≠ 0 := by
    rintro rfl
    exact hc i (Nat.le_refl _) _ (inv ex i).base.zero
  obtain ⟨n0, hn0⟩ := hce
  obtain ⟨n1, hn1⟩ := hsd
  obtain ⟨n, hn, h⟩ := settled ex (n := max n0 (max i n1)) (fun j hj => hn0 j (by omega))
  have hc' : ∀ j, n ≤ j → inCall (σ j) t := fun j hj => hc j (by omega)
  cases hr : reg ((σ n).pc t) with
  | none => exact h.in_loop hf hck ta hc' hr
  | some R =>
    have hR : ∀ j, n ≤ j → reg ((σ j).pc t) = some R := fun j hj => (h.regs t hj).trans hr
    cases R with
    | G => exact h.noG hf ta hr
    | S => exact hno.2.2 ⟨n, by omega, h.waits hf hck hti ta hr⟩
    | U => exact h.noU hf t0 ta hr
    | C =>
      obtain ⟨j, hj, e⟩ := ends hck ta (reg_C hr)
      rw [reg_C (hR j hj)] at e; cases e
    | W =>
      obtain ⟨j, hj, e⟩ := ends hck ta (reg_W hr)
      rw [reg_W (hR j hj)] at e; cases e
    | L m => exact h.noLock hf hre hck hpa hth (fun j hj => hn1 j (by omega)) t0 ta hr

theorem waitsLock_on {σ : Nat → State} {ε : Nat → Option Ev} (ex : Exec okDie σ ε) {t i m : Nat}
    (hw : waitsLock m ((σ i).pc t)) (d : Nat) : waitsLock m ((σ (i + d)).pc t) ∨
      ∃ j, i ≤ j ∧ j ≤ i + d ∧ (σ j).pc t = .done 0 ∧ 1 ≤ (σ j).mem.dep m t := by
  induction d with
  | zero => exact .inl hw
  | succ d ih =>
    rcases ih with ih | ⟨j, h1, h2, h3⟩
    · rw [← Nat.add_assoc]
      rcases any ex (i + d) with ⟨_, _, _, e, _⟩ | ⟨u, cl, r, e1, e2, e3, u0, e4, _⟩ | ⟨u, ch, p', e1, u0, _, hp, hst, e4, _⟩
      · rw [e]; exact .inl ih
      · by_cases hu : t = u
        · subst hu; rw [e2] at ih; exact ih.elim
        · rw [e4, upd_ne _ _ hu]; exact .inl ih
      · by_cases hu : t = u
        · subst hu; rw [e4, upd_same]
          rcases waitsLock_stp hst ih with h | ⟨h1, h2⟩
          · exact .inl h
          · exact .inr ⟨i + d + 1, by omega, by omega, by rw [e4, upd_same, h1], h2⟩
        · rw [e4, upd_ne _ _ hu]; exact .inl ih
    · exact .inr ⟨j, h1, by omega, h3⟩

theorem waitsLock_returns {σ : Nat → State} {ε : Nat → Option Ev} (ex : Exec okDie σ ε) {t i m : Nat}
    (hw : waitsLock m ((σ i).pc t)) (hr : ReturnsAfter σ t i) :
    ∃ j, i ≤ j ∧ (σ j).pc t = .done 0 ∧ 1 ≤ (σ j).mem.dep m t := by
  obtain ⟨j, hj, r, e⟩ := hr
  obtain ⟨d, rfl⟩ := Nat.le.dest hj
  rcases waitsLock_on ex hw d with h | ⟨j, h1, _, h3⟩
  · rw [e] at h; exact h.elim
  · exact ⟨j, h1, h3⟩

end Dead
end Fullock.MC
