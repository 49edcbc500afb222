import Verif.Spec.MCForever
import Verif.Proofs.MCSignal
/-! Executions of mutexes and conditions that never end. -/
namespace Fullock.MC

/-- The loops of the library. -/
inductive Reg where
  | L (m : Nat) (kd : Kind) (k : LK)
  | S (c w m : Nat) (kd : Kind)
  | U (m : Nat) (k : UK)
  | G | W | C
deriving DecidableEq

def regS : Option (Nat × Kind × LK) → Reg
  | none => .W
  | some (m, kd, k) => .L m kd k

/-- The loop a place is in. -/
def reg : Pc → Option Reg
  | .lkRead m kd k => some (.L m kd k)
  | .lkAdd m kd k => some (.L m kd k)
  | .lkChk m kd k => some (.L m kd k)
  | .lkSub m kd k => some (.L m kd k)
  | .lkCas m kd k => some (.L m kd k)
  | .acqM (.swM (some (m, kd, k))) => some (.L m kd k)
  | .relM (.lkRead m kd k) => some (.L m kd k)
  | .swM x => some (regS x)
  | .swChk _ _ x => some (regS x)
  | .swCnt _ x => some (regS x)
  | .swCntC _ _ x => some (regS x)
  | .swVal _ x => some (regS x)
  | .swValC _ _ x => some (regS x)
  | .wSpin c w m kd => some (.S c w m kd)
  | .ulRead m k => some (.U m k)
  | .ulRead2 m k => some (.U m k)
  | .ulSub m k => some (.U m k)
  | .ulFix m _ k => some (.U m k)
  | .ulCas m k => some (.U m k)
  | .ulAdd m k => some (.U m k)
  | .sWalk _ _ => some .G
  | .bWalk _ => some .G
  | .bSet _ _ => some .G
  | .swC => some .C
  | .swPut _ => some .C
  | _ => none

def rankL : LK → Nat
  | .api => 2
  | .wt _ _ _ _ => 6

def rankU : UK → Nat
  | .api => 2
  | .wt _ _ _ _ => 8

def rankS : Option (Nat × Kind × LK) → Nat
  | none => 2
  | some (_, _, k) => rankL k

/-- How far a place is from the end of the call, loops counted as one place. -/
def rank : Pc → Nat
  | .done _ => 0
  | .acqM (.swM (some (_, _, k))) => rankL k
  | .acqM (.swM none) => 3
  | .acqM (.mFind _ _) => 5
  | .acqM (.uFind _) => 4
  | .acqM (.wM _ _ _) => 19
  | .acqM _ => 0
  | .relM (.done _) => 1
  | .relM (.lkRead _ _ k) => rankL k
  | .relM (.acqC _) => 17
  | .relM _ => 0
  | .acqC (.wC _ _ _) => 16
  | .acqC (.wCut _ _ _ _) => 4
  | .acqC (.sFind _ _) => 5
  | .acqC _ => 3
  | .relC (.wSet _ _ _ _) => 10
  | .relC _ => 1
  | .mFind _ _ => 4
  | .mIns _ _ => 3
  | .lkRead _ _ k => rankL k
  | .lkAdd _ _ k => rankL k
  | .lkChk _ _ k => rankL k
  | .lkSub _ _ k => rankL k
  | .lkCas _ _ k => rankL k
  | .lkInc _ _ k => rankL k - 1
  | .uFind _ => 3
  | .ulRead _ k => rankU k
  | .ulRead2 _ k => rankU k
  | .ulSub _ k => rankU k
  | .ulFix _ _ k => rankU k
  | .ulCas _ k => rankU k
  | .ulAdd _ k => rankU k
  | .wM _ _ _ => 18
  | .wC _ _ _ => 15
  | .wNew _ _ _ => 14
  | .wGet _ _ _ => 13
  | .wIni _ _ _ _ => 12
  | .wIns _ _ _ _ => 11
  | .wSet _ _ _ _ => 9
  | .wErr _ _ _ _ => 5
  | .wSpin _ _ _ _ => 7
  | .wCut _ _ _ _ => 3
  | .wPut _ _ => 2
  | .sFind _ _ => 4
  | .sWalk _ _ => 3
  | .sSet _ => 2
  | .bWalk _ => 3
  | .bSet _ _ => 3
  | .swM x => rankS x
  | .swChk _ _ x => rankS x
  | .swCnt _ x => rankS x
  | .swCntC _ _ x => rankS x
  | .swVal _ x => rankS x
  | .swValC _ _ x => rankS x
  | .swC => 2
  | .swPut _ => 2

theorem rank_fin (k : LK) (r : Nat) : rank (fin k r) < rankL k ∧ rank (fin k r) < rankL k - 1 := by
  cases k <;> simp [fin, rank, rankL]

theorem rank_ufin (k : UK) (r : Nat) : rank (ufin k r) < rankU k := by
  cases k
  · simp [ufin, rank, rankU]
  · simp only [ufin]; split <;> simp [rank, rankU]

/-- A step comes closer to the end or stays in the same loop. -/
theorem rank_stp {M M' : Mem} {alive : Nat → Bool} {t : Nat} {p p' : Pc} (h : Stp M alive t p M' p')
    (w : wf p = true) : rank p' < rank p ∨ (rank p' = rank p ∧ reg p' = reg p ∧ reg p ≠ none) := by
  cases h
  case acqM hx => clear hx; cases p' <;> simp_all [wf, rank]; rename_i k; rcases k with _ | ⟨m, kd, k⟩ <;> simp [rank, rankS, reg, regS]
  case relM => cases p' <;> simp_all [wf, rank, reg]; rename_i p; cases p <;> simp_all [wf, rank]
  case acqC => cases p' <;> simp_all [wf, rank]
  case relC => cases p' <;> simp_all [wf, rank]
  case lkChk k _ => exact .inl (rank_fin k 0).1
  case lkInc k => exact .inl (rank_fin k 0).2
  case lkSub h => cases h <;> first | exact .inl (rank_fin _ _).1 | simp [rank, reg]
  case lkCasNo h => cases h <;> first | exact .inl (rank_fin _ _).1 | simp [rank, reg]
  case ulFree k _ => exact .inl (rank_ufin k _)
  case ulPerm k _ => exact .inl (rank_ufin k _)
  case ulCas k _ => exact .inl (rank_ufin k _)
  case ulCasFree k _ _ => exact .inl (rank_ufin k _)
  case swEnd k => rcases k with _ | ⟨m, kd, k⟩ <;> simp [rank, rankS, reg, regS, swBack]
  case lkCas k _ => left; cases k <;> simp [rank, rankL]
  all_goals simp [rank, rankL, rankU, reg]

/-- A step that stays in its loop leaves owners and nesting depths alone, if everybody lives. -/
theorem stay_stp {M M' : Mem} {alive : Nat → Bool} {t : Nat} {p p' : Pc} (h : Stp M alive t p M' p')
    (w : wf p = true) (ha : ∀ u, alive u = true) (th : Th M alive t p) (hr : rank p' = rank p) :
    M'.mval = M.mval ∧ M'.dep = M.dep := by
  have hat := th.at_
  cases h <;> (try exact ⟨rfl, rfl⟩)
  case mIns => simp [rank, rankL] at hr
  case lkChk k _ => have := (rank_fin k 0).1; have hr : rank (fin k 0) = rankL k := hr; omega
  case lkInc k => have := (rank_fin k 0).2; have hr : rank (fin k 0) = rankL k - 1 := hr; omega
  case lkCas k _ => cases k <;> simp [rank, rankL] at hr
  case ulFree k _ => have := rank_ufin k 0; have hr : rank (ufin k 0) = rankU k := hr; omega
  case ulCas k _ => have := rank_ufin k 0; have hr : rank (ufin k 0) = rankU k := hr; omega
  case ulCasFree k _ _ => have := rank_ufin k 0; have hr : rank (ufin k 0) = rankU k := hr; omega
  case swValC v _ _ _ => simp [At, ha] at hat

theorem exec_reach {A : State → Ev → Prop} {σ : Nat → State} {ε : Nat → Option Ev} (h : Exec A σ ε) (i : Nat) :
    Reach A (σ i) := by
  induction i with
  | zero => obtain ⟨_, _, _, _, e⟩ := h.start; rw [e]; exact .init ..
  | succ i ih =>
    have := h.next i
    cases he : ε i with
    | none => rw [he] at this; simp only at this; rw [this]; exact ih
    | some e => rw [he] at this; exact .step ih this.1 this.2

theorem okDie_of {s : State} {e : Ev} (h : noDeath s e) : okDie s e := by
  cases e <;> simp_all [noDeath, okDie]

theorem exec_inv {σ : Nat → State} {ε : Nat → Option Ev} (h : Exec noDeath σ ε) (i : Nat) : Inv (σ i) :=
  inv_reach (fun _ _ => okDie_of) (exec_reach h i)

theorem exec_alive {σ : Nat → State} {ε : Nat → Option Ev} (h : Exec noDeath σ ε) (i t : Nat) : (σ i).alive t = true := by
  induction i with
  | zero => obtain ⟨_, _, _, _, e⟩ := h.start; rw [e]; rfl
  | succ i ih =>
    have := h.next i
    cases he : ε i with
    | none => rw [he] at this; simp only at this; rw [this]; exact ih
    | some e =>
      rw [he] at this
      rcases step_cases this.2 with ⟨u, c, r, rfl, _, _, _, e⟩ | ⟨u, c, M', p', rfl, _, _, e⟩ | ⟨u, rfl, _, e⟩
      · rw [e]; exact ih
      · rw [e]; exact ih
      · exact this.1.elim

/-- One moment, for an execution without deaths and calls: nothing, or a step of a thread. -/
theorem exec_moment {σ : Nat → State} {ε : Nat → Option Ev} (h : Exec noDeath σ ε) {i : Nat}
    (hn : ∀ t c, ε i ≠ some (.call t c)) :
    ((∀ t c, ε i ≠ some (.go t c)) ∧ σ (i + 1) = σ i) ∨
    ∃ u c p', ε i = some (.go u c) ∧ u ≠ 0 ∧
      plan (σ i).mem (σ i).alive u ((σ i).pc u) c = some ((σ (i + 1)).mem, p') ∧
      Stp (σ i).mem (σ i).alive u ((σ i).pc u) (σ (i + 1)).mem p' ∧ (σ (i + 1)).pc = upd (σ i).pc u p' := by
  have := h.next i
  cases he : ε i with
  | none => rw [he] at this; left; exact ⟨by simp, this⟩
  | some e =>
    rw [he] at this
    right
    rcases step_cases this.2 with ⟨u, c, r, rfl, _, _, _, e⟩ | ⟨u, c, M', p', rfl, _, hp, e⟩ | ⟨u, rfl, _, e⟩
    · exact absurd he (hn _ _)
    · refine ⟨u, c, p', rfl, (exec_inv h i).base.go0 hp, ?_, ?_, by rw [e]⟩
      · rw [e]; exact hp
      · rw [e]; exact stp_of_plan hp
    · exact this.1.elim

/-- No call is issued from `n` on. -/
def quietFrom (ε : Nat → Option Ev) (n : Nat) : Prop := ∀ j, n ≤ j → ∀ t c, ε j ≠ some (.call t c)

theorem rank_mono {σ : Nat → State} {ε : Nat → Option Ev} (h : Exec noDeath σ ε) {n : Nat} (hn : quietFrom ε n)
    (t : Nat) {i : Nat} (hi : n ≤ i) : rank ((σ (i + 1)).pc t) ≤ rank ((σ i).pc t) := by
  rcases exec_moment h (hn i hi) with ⟨_, e⟩ | ⟨u, c, p', _, _, _, hs, e⟩
  · rw [e]; exact Nat.le_refl _
  · rw [e]
    by_cases hu : t = u
    · subst hu
      have := rank_stp hs ((exec_inv h i).base.shape t)
      simp only [upd_same]; omega
    · simp [hu]

/-- A sequence that never grows is constant from some moment on. -/
theorem const_from (f : Nat → Nat) (n : Nat) (hf : ∀ i, n ≤ i → f (i + 1) ≤ f i) :
    ∃ m, n ≤ m ∧ ∀ j, m ≤ j → f j = f m := by
  have mono : ∀ i, n ≤ i → ∀ d, f (i + d) ≤ f i := by
    intro i hi d
    induction d with
    | zero => exact Nat.le_refl _
    | succ d ih => exact Nat.le_trans (hf (i + d) (by omega)) ih
  have key : ∀ k i, n ≤ i → f i ≤ k → ∃ m, n ≤ m ∧ ∀ j, m ≤ j → f j = f m := by
    intro k
    induction k with
    | zero =>
      intro i hi hk
      refine ⟨i, hi, fun j hj => ?_⟩
      obtain ⟨d, rfl⟩ := Nat.le.dest hj
      have := mono i hi d; omega
    | succ k ih =>
      intro i hi hk
      by_cases hall : ∀ j, i ≤ j → f j = f i
      · exact ⟨i, hi, hall⟩
      · simp only [Classical.not_forall] at hall
        obtain ⟨j, hj, hne⟩ := hall
        obtain ⟨d, rfl⟩ := Nat.le.dest hj
        have := mono i hi d
        exact ih (i + d) (by omega) (by omega)
  exact key _ n (Nat.le_refl _) (Nat.le_refl _)

/-- No sequence falls again and again and never grows. -/
theorem no_descent (f : Nat → Nat) (n : Nat) (hf : ∀ i, n ≤ i → f (i + 1) ≤ f i)
    (hd : ∀ i, n ≤ i → ∃ j, i ≤ j ∧ f (j + 1) < f j) : False := by
  obtain ⟨m, hm, hc⟩ := const_from f n hf
  obtain ⟨j, hj, hlt⟩ := hd m hm
  rw [hc j hj, hc (j + 1) (by omega)] at hlt
  omega

/-- The threads that have issued a call before moment `n`. -/
def callers (ε : Nat → Option Ev) : Nat → List Nat
  | 0 => []
  | n + 1 => match ε n with
    | some (.call t _) => t :: callers ε n
    | _ => callers ε n

theorem not_caller {σ : Nat → State} {ε : Nat → Option Ev} (h : Exec noDeath σ ε) (n t : Nat) (ht : t ∉ callers ε n) :
    rank ((σ n).pc t) = 0 ∧ ∃ r, (σ n).pc t = .done r := by
  induction n with
  | zero => obtain ⟨_, _, _, _, e⟩ := h.start; rw [e]; exact ⟨rfl, _, rfl⟩
  | succ n ih =>
    simp only [callers] at ht
    by_cases hc : ∃ u c, ε n = some (.call u c)
    · obtain ⟨u, c, hu⟩ := hc
      rw [hu] at ht
      simp only [List.mem_cons, not_or] at ht
      have hn := h.next n
      rw [hu] at hn
      rcases step_cases hn.2 with ⟨u', c', r, he, _, _, _, e⟩ | ⟨u', c', M', p', he, _⟩ | ⟨u', he, _⟩
      · cases he
        rw [e]
        simp only [upd_ne _ _ ht.1]
        exact ih ht.2
      · cases he
      · cases he
    · have ht' : t ∉ callers ε n := by
        revert ht
        split
        · rename_i t' c' he; exact absurd ⟨t', c', he⟩ hc
        · exact id
      rcases exec_moment h (fun u c he => hc ⟨u, c, he⟩) with ⟨_, e⟩ | ⟨u, c, p', _, _, hp, hs, e⟩
      · rw [e]; exact ih ht'
      · rw [e]
        by_cases hu : t = u
        · subst hu
          obtain ⟨_, r, hr⟩ := ih ht'
          rw [hr, plan_done] at hp
          cases hp
        · simp only [upd_ne _ _ hu]; exact ih ht'

/-- From some moment on no thread comes closer to the end of its call. -/
theorem settled {σ : Nat → State} {ε : Nat → Option Ev} (h : Exec noDeath σ ε) {n : Nat} (hn : quietFrom ε n) :
    ∃ m, n ≤ m ∧ ∀ t j, m ≤ j → rank ((σ j).pc t) = rank ((σ m).pc t) := by
  have key : ∀ l : List Nat, ∃ m, n ≤ m ∧ ∀ t ∈ l, ∀ j, m ≤ j → rank ((σ j).pc t) = rank ((σ m).pc t) := by
    intro l
    induction l with
    | nil => exact ⟨n, Nat.le_refl _, by simp⟩
    | cons t l ih =>
      obtain ⟨m1, h1, k1⟩ := ih
      obtain ⟨m2, h2, k2⟩ := const_from (fun j => rank ((σ j).pc t)) n (fun i hi => rank_mono h hn t hi)
      refine ⟨max m1 m2, by omega, ?_⟩
      intro u hu j hj
      rcases List.mem_cons.mp hu with rfl | hu
      · have e1 := k2 j (by omega)
        have e2 := k2 (max m1 m2) (by omega)
        exact e1.trans e2.symm
      · rw [k1 u hu j (by omega), k1 u hu (max m1 m2) (by omega)]
  obtain ⟨m, hm, hk⟩ := key (callers ε n)
  refine ⟨m, hm, fun t j hj => ?_⟩
  by_cases ht : t ∈ callers ε n
  · exact hk t ht j hj
  · have hz : ∀ d, rank ((σ (n + d)).pc t) = 0 := by
      intro d
      induction d with
      | zero => exact (not_caller h n t ht).1
      | succ d ih => have := rank_mono h hn t (i := n + d) (by omega); rw [ih] at this; exact Nat.le_zero.mp this
    obtain ⟨d1, rfl⟩ := Nat.le.dest hm
    obtain ⟨d2, rfl⟩ := Nat.le.dest hj
    rw [hz d1, Nat.add_assoc, hz]

/-- What we know from moment `m` on. -/
structure Late (σ : Nat → State) (ε : Nat → Option Ev) (m : Nat) : Prop where
  ex : Exec noDeath σ ε
  quiet : quietFrom ε m
  same : ∀ t j, m ≤ j → rank ((σ j).pc t) = rank ((σ m).pc t)

/-- A moment: nothing, or a step inside a loop. -/
theorem Late.moment {σ : Nat → State} {ε : Nat → Option Ev} {m : Nat} (h : Late σ ε m) {i : Nat} (hi : m ≤ i) :
    ((∀ t c, ε i ≠ some (.go t c)) ∧ σ (i + 1) = σ i) ∨
    ∃ u c p', ε i = some (.go u c) ∧ u ≠ 0 ∧
      plan (σ i).mem (σ i).alive u ((σ i).pc u) c = some ((σ (i + 1)).mem, p') ∧
      Stp (σ i).mem (σ i).alive u ((σ i).pc u) (σ (i + 1)).mem p' ∧ (σ (i + 1)).pc = upd (σ i).pc u p' ∧
      rank p' = rank ((σ i).pc u) ∧ reg p' = reg ((σ i).pc u) ∧ reg p' ≠ none ∧
      (σ (i + 1)).mem.mval = (σ i).mem.mval ∧ (σ (i + 1)).mem.dep = (σ i).mem.dep := by
  rcases exec_moment h.ex (h.quiet i hi) with h1 | ⟨u, c, p', h1, h0, h2, h3, h4⟩
  · exact .inl h1
  · have e1 := h.same u i hi
    have e2 := h.same u (i + 1) (by omega)
    rw [h4, upd_same] at e2
    have hr : rank p' = rank ((σ i).pc u) := by omega
    have iv := exec_inv h.ex i
    have al := exec_alive h.ex i
    have st := stay_stp h3 (iv.base.shape u) al (iv.th u h0 (al u)) hr
    rcases rank_stp h3 (iv.base.shape u) with hlt | ⟨_, h5, h6⟩
    · omega
    · exact .inr ⟨u, c, p', h1, h0, h2, h3, h4, hr, h5, h5 ▸ h6, st⟩

theorem Late.regs {σ : Nat → State} {ε : Nat → Option Ev} {m : Nat} (h : Late σ ε m) (t : Nat) {j : Nat} (hj : m ≤ j) :
    reg ((σ j).pc t) = reg ((σ m).pc t) := by
  obtain ⟨d, rfl⟩ := Nat.le.dest hj
  clear hj
  induction d with
  | zero => rfl
  | succ d ih =>
    rw [← ih, ← Nat.add_assoc]
    rcases h.moment (i := m + d) (by omega) with ⟨_, e⟩ | ⟨u, c, p', _, _, _, _, e, _, e2, _⟩
    · rw [e]
    · rw [e]
      by_cases hu : t = u
      · subst hu; simp only [upd_same]; exact e2
      · simp [hu]

theorem Late.frozen {σ : Nat → State} {ε : Nat → Option Ev} {m : Nat} (h : Late σ ε m) {j : Nat} (hj : m ≤ j) :
    (σ j).mem.mval = (σ m).mem.mval ∧ (σ j).mem.dep = (σ m).mem.dep := by
  obtain ⟨d, rfl⟩ := Nat.le.dest hj
  clear hj
  induction d with
  | zero => exact ⟨rfl, rfl⟩
  | succ d ih =>
    rw [← ih.1, ← ih.2, ← Nat.add_assoc]
    rcases h.moment (i := m + d) (by omega) with ⟨_, e⟩ | ⟨u, c, p', _, _, _, _, _, _, _, _, e⟩
    · rw [e]; exact ⟨rfl, rfl⟩
    · exact e

theorem Late.later {σ : Nat → State} {ε : Nat → Option Ev} {m : Nat} (h : Late σ ε m) {n : Nat} (hn : m ≤ n) : Late σ ε n :=
  ⟨h.ex, fun j hj => h.quiet j (by omega), fun t j hj => by rw [h.same t j (by omega), h.same t n hn]⟩

/-- A thread that makes no step stays where it is. -/
theorem Late.rest {σ : Nat → State} {ε : Nat → Option Ev} {m : Nat} (h : Late σ ε m) {t : Nat}
    (hs : ∀ j, m ≤ j → ∀ c, ε j ≠ some (.go t c)) {j : Nat} (hj : m ≤ j) : (σ j).pc t = (σ m).pc t := by
  obtain ⟨d, rfl⟩ := Nat.le.dest hj
  clear hj
  induction d with
  | zero => rfl
  | succ d ih =>
    rw [← ih, ← Nat.add_assoc]
    rcases h.moment (i := m + d) (by omega) with ⟨_, e⟩ | ⟨u, c, p', e1, _, _, _, e, _⟩
    · rw [e]
    · have hu : t ≠ u := by rintro rfl; exact hs _ (by omega) _ e1
      rw [e]; simp [hu]

/-- Waiting for a table lock. -/
def acq : Pc → Bool
  | .acqM _ => true
  | .acqC _ => true
  | _ => false

theorem mayGo_of {s : State} {t : Nat} (ta : s.alive t = true) (hc : inCall s t) (hq : acq (s.pc t) = false) : mayGo s t := by
  have : ∃ x, plan s.mem s.alive t (s.pc t) .go = some x := by
    unfold inCall at hc
    cases hp : s.pc t <;> rw [hp] at hc hq <;> (try (simp only [plan, failed] <;> (repeat' split) <;> simp_all [acq]; done))
    · rename_i r l; rcases r with _ | ⟨x, xs⟩ <;> rcases l with _ | w <;> simp [plan]
    · rename_i r; rcases r with _ | ⟨x, xs⟩ <;> simp [plan]
  obtain ⟨x, hx⟩ := this
  exact ⟨.go, { s with mem := x.1, pc := upd s.pc t x.2 }, by simp [step, ta, hx]⟩

theorem mayGo_acqM {s : State} {t : Nat} {p : Pc} (ta : s.alive t = true) (hp : s.pc t = .acqM p) (hl : s.mem.mL = 0) : mayGo s t :=
  ⟨.go, _, by simp only [step, ta, hp, plan, hl]; rfl⟩

theorem mayGo_acqC {s : State} {t : Nat} {p : Pc} (ta : s.alive t = true) (hp : s.pc t = .acqC p) (hl : s.mem.cL = 0) : mayGo s t :=
  ⟨.go, _, by simp only [step, ta, hp, plan, hl]; rfl⟩

/-- A thread that waits for the table lock of the mutexes for ever: somebody holds it for ever. -/
theorem Late.holderM {σ : Nat → State} {ε : Nat → Option Ev} {m : Nat} (h : Late σ ε m) (hf : Fair σ ε) {t : Nat} {p : Pc}
    (hs : ∀ j, m ≤ j → ∀ c, ε j ≠ some (.go t c)) (hp : (σ m).pc t = .acqM p) :
    ∃ n v, m ≤ n ∧ v ≠ 0 ∧ ∀ j, n ≤ j → inM ((σ j).pc v) = true := by
  have hno : ¬ ∀ i, ∃ j, i ≤ j ∧ mayGo (σ j) t := by
    intro hall
    obtain ⟨j, hj, c, hc⟩ := hf t hall m
    exact hs j hj c hc
  simp only [Classical.not_forall, not_exists, not_and] at hno
  obtain ⟨i, hi⟩ := hno
  have hl : ∀ j, max m i ≤ j → (σ j).mem.mL ≠ 0 := by
    intro j hj h0
    exact hi j (by omega) (mayGo_acqM (p := p) (exec_alive h.ex j t) (by rw [h.rest hs (by omega), hp]) h0)
  have hc : ∀ d, (σ (max m i + d)).mem.mL = (σ (max m i)).mem.mL := by
    intro d
    induction d with
    | zero => rfl
    | succ d ih =>
      rw [← ih, ← Nat.add_assoc]
      rcases h.moment (i := max m i + d) (by omega) with ⟨_, e⟩ | ⟨u, c, p', _, _, _, hst, _⟩
      · rw [e]
      · rcases (lock_stp hst ((exec_inv h.ex _).base.shape u)).1 with ⟨_, e⟩ | ⟨_, _, e, _⟩ | ⟨_, _, e⟩
        · exact e
        · rcases e with e | e
          · exact absurd e (hl _ (by omega))
          · rw [exec_alive h.ex] at e; cases e
        · split at e
          · exact absurd e (hl _ (by omega))
          · exact e
  refine ⟨max m i, (σ (max m i)).mem.mL, by omega, hl _ (Nat.le_refl _), fun j hj => ?_⟩
  obtain ⟨d, rfl⟩ := Nat.le.dest hj
  exact ((exec_inv h.ex _).base.lockM _ (hl _ (Nat.le_refl _)) (exec_alive h.ex _ _)).mp (hc d)

/-- The same for the conditions. -/
theorem Late.holderC {σ : Nat → State} {ε : Nat → Option Ev} {m : Nat} (h : Late σ ε m) (hf : Fair σ ε) {t : Nat} {p : Pc}
    (hs : ∀ j, m ≤ j → ∀ c, ε j ≠ some (.go t c)) (hp : (σ m).pc t = .acqC p) :
    ∃ n v, m ≤ n ∧ v ≠ 0 ∧ ∀ j, n ≤ j → inC ((σ j).pc v) = true := by
  have hno : ¬ ∀ i, ∃ j, i ≤ j ∧ mayGo (σ j) t := by
    intro hall
    obtain ⟨j, hj, c, hc⟩ := hf t hall m
    exact hs j hj c hc
  simp only [Classical.not_forall, not_exists, not_and] at hno
  obtain ⟨i, hi⟩ := hno
  have hl : ∀ j, max m i ≤ j → (σ j).mem.cL ≠ 0 := by
    intro j hj h0
    exact hi j (by omega) (mayGo_acqC (p := p) (exec_alive h.ex j t) (by rw [h.rest hs (by omega), hp]) h0)
  have hc : ∀ d, (σ (max m i + d)).mem.cL = (σ (max m i)).mem.cL := by
    intro d
    induction d with
    | zero => rfl
    | succ d ih =>
      rw [← ih, ← Nat.add_assoc]
      rcases h.moment (i := max m i + d) (by omega) with ⟨_, e⟩ | ⟨u, c, p', _, _, _, hst, _⟩
      · rw [e]
      · rcases (lock_stp hst ((exec_inv h.ex _).base.shape u)).2 with ⟨_, e⟩ | ⟨_, _, e, _⟩ | ⟨_, _, e⟩
        · exact e
        · rcases e with e | e
          · exact absurd e (hl _ (by omega))
          · rw [exec_alive h.ex] at e; cases e
        · split at e
          · exact absurd e (hl _ (by omega))
          · exact e
  refine ⟨max m i, (σ (max m i)).mem.cL, by omega, hl _ (Nat.le_refl _), fun j hj => ?_⟩
  obtain ⟨d, rfl⟩ := Nat.le.dest hj
  exact ((exec_inv h.ex _).base.lockC _ (hl _ (Nat.le_refl _)) (exec_alive h.ex _ _)).mp (hc d)

/-- A thread that stays in calls and never waits for a table lock makes steps again and again. -/
theorem Late.steps {σ : Nat → State} {ε : Nat → Option Ev} {m : Nat} (h : Late σ ε m) (hf : Fair σ ε) {t : Nat}
    (hc : ∀ j, m ≤ j → inCall (σ j) t) (hq : ∀ j, m ≤ j → acq ((σ j).pc t) = false) (i : Nat) :
    ∃ j, i ≤ j ∧ ∃ c, ε j = some (.go t c) :=
  hf t (fun i => ⟨max m i, by omega, mayGo_of (exec_alive h.ex _ _) (hc _ (by omega)) (hq _ (by omega))⟩) i

/-- A measure of a thread in a loop that falls with each of its steps and is not changed by others. -/
theorem Late.loop {σ : Nat → State} {ε : Nat → Option Ev} {m : Nat} (h : Late σ ε m) {t : Nat} (f : Mem → Pc → Nat)
    (hs : ∀ i, m ≤ i → ∃ j, i ≤ j ∧ ∃ c, ε j = some (.go t c))
    (own : ∀ j p', m ≤ j → Stp (σ j).mem (σ j).alive t ((σ j).pc t) (σ (j + 1)).mem p' → (σ (j + 1)).pc t = p' →
      reg p' = reg ((σ j).pc t) → f (σ (j + 1)).mem p' < f (σ j).mem ((σ j).pc t))
    (others : ∀ j u p', m ≤ j → u ≠ t → u ≠ 0 → Stp (σ j).mem (σ j).alive u ((σ j).pc u) (σ (j + 1)).mem p' →
      f (σ (j + 1)).mem ((σ j).pc t) ≤ f (σ j).mem ((σ j).pc t)) : False := by
  refine no_descent (fun j => f (σ j).mem ((σ j).pc t)) m ?_ ?_
  · intro i hi
    rcases h.moment hi with ⟨_, e⟩ | ⟨u, c, p', _, u0, _, hst, e, _, hr, _⟩
    · simp only [e]; exact Nat.le_refl _
    · by_cases hu : t = u
      · subst hu
        have hp : (σ (i + 1)).pc t = p' := by rw [e]; simp
        simp only [hp]
        exact Nat.le_of_lt (own i p' hi hst hp hr)
      · have hp : (σ (i + 1)).pc t = (σ i).pc t := by rw [e]; simp [hu]
        simp only [hp]
        exact others i u p' hi (fun e => hu e.symm) u0 hst
  · intro i hi
    obtain ⟨j, hj, c, hc⟩ := hs i hi
    refine ⟨j, hj, ?_⟩
    rcases h.moment (i := j) (by omega) with ⟨e, _⟩ | ⟨u, c', p', e1, u0, _, hst, e, _, hr, _⟩
    · exact absurd hc (e t c)
    · rw [hc] at e1; cases e1
      have hp : (σ (j + 1)).pc t = p' := by rw [e]; simp
      simp only [hp]
      exact own j p' (by omega) hst hp hr

theorem regS_ne {x : Option (Nat × Kind × LK)} : regS x ≠ .G ∧ regS x ≠ .C ∧ (∀ m k, regS x ≠ .U m k) ∧ ∀ c w m kd, regS x ≠ .S c w m kd := by
  rcases x with _ | ⟨_, _, _⟩ <;> simp [regS]

theorem reg_G {p : Pc} (h : reg p = some .G) : (∃ r l, p = .sWalk r l) ∨ (∃ r, p = .bWalk r) ∨ ∃ w r, p = .bSet w r := by
  unfold reg at h
  split at h <;> simp_all [regS_ne]

theorem reg_U {p : Pc} {m : Nat} {k : UK} (h : reg p = some (.U m k)) : p = .ulRead m k ∨ p = .ulRead2 m k ∨ p = .ulSub m k ∨
    (∃ o, p = .ulFix m o k) ∨ p = .ulCas m k ∨ p = .ulAdd m k := by
  unfold reg at h
  split at h <;> simp_all [regS_ne]

theorem reg_S {p : Pc} {c w m : Nat} {kd : Kind} (h : reg p = some (.S c w m kd)) : p = .wSpin c w m kd := by
  unfold reg at h
  split at h <;> simp_all [regS_ne]

theorem reg_C {p : Pc} (h : reg p = some .C) : checking p = true := by
  unfold reg at h
  split at h <;> simp_all [regS_ne, checking]

theorem reg_W {p : Pc} (h : reg p = some .W) : checking p = true := by
  unfold reg at h
  split at h <;> simp_all [checking]

theorem reg_L {p : Pc} {m : Nat} {kd : Kind} {k : LK} (h : reg p = some (.L m kd k)) :
    checking p = true ∨ p = .lkRead m kd k ∨ p = .lkAdd m kd k ∨ p = .lkChk m kd k ∨ p = .lkSub m kd k ∨
    p = .lkCas m kd k ∨ p = .acqM (.swM (some (m, kd, k))) ∨ p = .relM (.lkRead m kd k) := by
  unfold reg at h
  split at h <;> simp_all [checking]

/-- Steps of a loop over waiters still to come. -/
def restG : Pc → Nat
  | .sWalk r _ => r.length
  | .bWalk r => 2 * r.length
  | .bSet _ r => 2 * r.length + 1
  | _ => 0

theorem Late.noG {σ : Nat → State} {ε : Nat → Option Ev} {m : Nat} (h : Late σ ε m) (hf : Fair σ ε) {t : Nat}
    (hr : reg ((σ m).pc t) = some .G) : False := by
  have hR : ∀ j, m ≤ j → reg ((σ j).pc t) = some .G := fun j hj => (h.regs t hj).trans hr
  have sh : ∀ j, m ≤ j → acq ((σ j).pc t) = false ∧ inCall (σ j) t := by
    intro j hj
    rcases reg_G (hR j hj) with ⟨_, _, e⟩ | ⟨_, e⟩ | ⟨_, _, e⟩ <;> simp [inCall, e, acq]
  refine h.loop (t := t) (fun _ p => restG p) (fun i _ => h.steps hf (fun j hj => (sh j hj).2) (fun j hj => (sh j hj).1) i) ?_ ?_
  · intro j p' hj hst hp hrr
    have e := hR j hj
    have e' := hrr.trans e
    clear hp hrr e
    generalize (σ (j + 1)).mem = M' at hst ⊢
    rcases reg_G (hR j hj) with ⟨r, l, ep⟩ | ⟨r, ep⟩ | ⟨w, r, ep⟩ <;> rw [ep] at hst ⊢ <;> clear ep <;> cases hst <;>
      first
        | (simp [reg] at e'; done)
        | (simp [restG]; done)
        | (simp [restG]; omega)
  · intros; exact Nat.le_refl _

/-- Steps of an unlock loop still to come. -/
def restU (t m : Nat) (M : Mem) : Pc → Nat
  | .ulRead _ _ => 3 * (if M.mval m = t then (M.mcnt m).toNat else 0) + 2
  | .ulRead2 _ _ => 3 * (if M.mval m = t then (M.mcnt m).toNat else 0) + 1
  | .ulSub _ _ => 3 * (if M.mval m = t then (M.mcnt m).toNat else 0)
  | _ => 0

theorem Late.noU {σ : Nat → State} {ε : Nat → Option Ev} {n : Nat} (h : Late σ ε n) (hf : Fair σ ε) {t m : Nat} {k : UK} (t0 : t ≠ 0)
    (hr : reg ((σ n).pc t) = some (.U m k)) : False := by
  have hR : ∀ j, n ≤ j → reg ((σ j).pc t) = some (.U m k) := fun j hj => (h.regs t hj).trans hr
  have sh : ∀ j, n ≤ j → acq ((σ j).pc t) = false ∧ inCall (σ j) t := by
    intro j hj
    rcases reg_U (hR j hj) with e | e | e | ⟨_, e⟩ | e | e <;> simp [inCall, e, acq]
  refine h.loop (t := t) (restU t m) (fun i _ => h.steps hf (fun j hj => (sh j hj).2) (fun j hj => (sh j hj).1) i) ?_ ?_
  · intro j p' hj hst hp hrr
    have e := hR j hj
    have e' := hrr.trans e
    have th := (exec_inv h.ex j).th t t0 (exec_alive h.ex j t)
    have hat := th.at_
    have hrank : rank p' = rank ((σ j).pc t) := by rw [← hp, h.same t j hj, h.same t (j + 1) (by omega)]
    have uf := fun r => rank_ufin k r
    rcases reg_U e with ep | ep | ep | ⟨o, ep⟩ | ep | ep <;> rw [ep] at hst hat hrank ⊢
    · generalize hM : (σ (j + 1)).mem = M' at hst
      cases hst with
      | ulFree => have := uf 0; have hrank : rank (ufin k 0) = rankU k := hrank; omega
      | ulHeld => simp [restU]
    · generalize hM : (σ (j + 1)).mem = M' at hst
      cases hst with
      | ulPerm => have := uf EPERM; have hrank : rank (ufin k EPERM) = rankU k := hrank; omega
      | ulOwn => simp [restU]
    · simp only [At] at hat
      have hv := (th.own m hat.1).2.1
      generalize hM : (σ (j + 1)).mem = M' at hst
      cases hst <;> simp [restU, hv] <;> omega
    · exact hat.elim
    · simp only [At] at hat
      have hv := (th.own m hat.1).2.1
      generalize hM : (σ (j + 1)).mem = M' at hst
      cases hst with
      | ulCas => have := uf 0; have hrank : rank (ufin k 0) = rankU k := hrank; omega
      | ulCasFree _ _ hne => exact absurd hv hne
      | ulCasNo _ _ hne => exact absurd hv hne
    · exact hat.elim
  · intro j u p' hj hut u0 hst
    have iv := exec_inv h.ex j
    have ef := eff_stp hst (iv.base.used u) (iv.th u u0 (exec_alive h.ex j u))
    have hm : m ∈ (σ j).mem.mlist := by
      apply iv.base.used t
      rcases reg_U (hR j hj) with e | e | e | ⟨_, e⟩ | e | e <;> rw [e] <;> simp [uses]
    have hval : (σ (j + 1)).mem.mval m = t → (σ j).mem.mval m = t ∧ (σ (j + 1)).mem.mcnt m = (σ j).mem.mcnt m := by
      intro hv
      have al := exec_alive h.ex j
      have := ef.old m hm
      grind
    have hle : (if (σ (j + 1)).mem.mval m = t then ((σ (j + 1)).mem.mcnt m).toNat else 0) ≤
        (if (σ j).mem.mval m = t then ((σ j).mem.mcnt m).toNat else 0) := by
      split
      · rename_i hv
        obtain ⟨h1, h2⟩ := hval hv
        rw [if_pos h1, h2]; exact Nat.le_refl _
      · exact Nat.zero_le _
    rcases reg_U (hR j hj) with e | e | e | ⟨_, e⟩ | e | e <;> rw [e] <;> simp only [restU] <;> omega

/-- A thread that holds the table lock of the mutexes for ever. -/
theorem Late.noHolderM {σ : Nat → State} {ε : Nat → Option Ev} {n : Nat} (h : Late σ ε n) (hf : Fair σ ε) (hck : ChecksEnd σ)
    {v : Nat} (v0 : v ≠ 0) (hM : ∀ j, n ≤ j → inM ((σ j).pc v) = true) : False := by
  have hc : ∀ j, n ≤ j → inCall (σ j) v := by
    intro j hj r e; have := hM j hj; rw [e] at this; simp [inM] at this
  have hq : ∀ j, n ≤ j → acq ((σ j).pc v) = false := by
    intro j hj; have := hM j hj; cases e : (σ j).pc v <;> rw [e] at this <;> simp_all [inM, acq]
  cases hr : reg ((σ n).pc v) with
  | none =>
    obtain ⟨j, hj, c, hgo⟩ := h.steps hf hc hq n
    rcases h.moment hj with ⟨e, _⟩ | ⟨u, c', p', e1, _, _, _, _, _, e2, e3, _⟩
    · exact absurd hgo (e _ _)
    · rw [hgo] at e1; cases e1
      rw [e2, h.regs v hj, hr] at e3; exact e3 rfl
  | some R =>
    have hR : ∀ j, n ≤ j → reg ((σ j).pc v) = some R := fun j hj => (h.regs v hj).trans hr
    have hm := hM n (Nat.le_refl _)
    cases R with
    | G =>
      rcases reg_G hr with ⟨_, _, e⟩ | ⟨_, e⟩ | ⟨_, _, e⟩ <;> rw [e] at hm <;> simp [inM] at hm
    | S => rw [reg_S hr] at hm; simp [inM] at hm
    | U => exact h.noU hf v0 hr
    | C =>
      obtain ⟨j, hj, e⟩ := hck v n (reg_C hr)
      rw [reg_C (hR j hj)] at e; cases e
    | W =>
      obtain ⟨j, hj, e⟩ := hck v n (reg_W hr)
      rw [reg_W (hR j hj)] at e; cases e
    | L m kd k =>
      have hpl : ∀ j, n ≤ j → checking ((σ j).pc v) = true ∨ (σ j).pc v = .relM (.lkRead m kd k) := by
        intro j hj
        have := hM j hj
        rcases reg_L (hR j hj) with e | e | e | e | e | e | e | e <;> first
          | exact .inl e
          | exact .inr e
          | (rw [e] at this; simp [inM] at this)
      have hex : ∃ j, n ≤ j ∧ (σ j).pc v = .relM (.lkRead m kd k) := by
        rcases hpl n (Nat.le_refl _) with e | e
        · obtain ⟨j, hj, e⟩ := hck v n e
          rcases hpl j hj with e' | e'
          · rw [e] at e'; cases e'
          · exact ⟨j, hj, e'⟩
        · exact ⟨n, Nat.le_refl _, e⟩
      obtain ⟨j, hj, e⟩ := hex
      by_cases hgo : ∃ i, j ≤ i ∧ (∃ c, ε i = some (.go v c)) ∧ (σ i).pc v = .relM (.lkRead m kd k)
      · obtain ⟨i, hi, ⟨c, hgo⟩, ei⟩ := hgo
        rcases h.moment (i := i) (by omega) with ⟨e, _⟩ | ⟨u, c', p', e1, _, _, hst, e2, _⟩
        · exact absurd hgo (e _ _)
        · rw [hgo] at e1; cases e1
          rw [ei] at hst
          have := hM (i + 1) (by omega)
          rw [e2, upd_same] at this
          generalize (σ (i + 1)).mem = M' at hst
          cases hst
          simp [inM] at this
      · have stay : ∀ d, (σ (j + d)).pc v = .relM (.lkRead m kd k) := by
          intro d
          induction d with
          | zero => exact e
          | succ d ih =>
            rw [← ih, ← Nat.add_assoc]
            rcases h.moment (i := j + d) (by omega) with ⟨_, e⟩ | ⟨u, c', p', e1, _, _, hst, e2, _⟩
            · rw [e]
            · have : v ≠ u := by rintro rfl; exact hgo ⟨j + d, by omega, ⟨_, e1⟩, ih⟩
              rw [e2]; simp [this]
        obtain ⟨i, hi, c, hs⟩ := h.steps hf hc hq j
        obtain ⟨d, rfl⟩ := Nat.le.dest hi
        exact hgo ⟨j + d, by omega, ⟨c, hs⟩, stay d⟩

/-- A thread that holds the table lock of the conditions for ever. -/
theorem Late.noHolderC {σ : Nat → State} {ε : Nat → Option Ev} {n : Nat} (h : Late σ ε n) (hf : Fair σ ε) (hck : ChecksEnd σ)
    {v : Nat} (v0 : v ≠ 0) (hM : ∀ j, n ≤ j → inC ((σ j).pc v) = true) : False := by
  have hc : ∀ j, n ≤ j → inCall (σ j) v := by
    intro j hj r e; have := hM j hj; rw [e] at this; simp [inC] at this
  have hq : ∀ j, n ≤ j → acq ((σ j).pc v) = false := by
    intro j hj; have := hM j hj; cases e : (σ j).pc v <;> rw [e] at this <;> simp_all [inC, acq]
  cases hr : reg ((σ n).pc v) with
  | none =>
    obtain ⟨j, hj, c, hgo⟩ := h.steps hf hc hq n
    rcases h.moment hj with ⟨e, _⟩ | ⟨u, c', p', e1, _, _, _, _, _, e2, e3, _⟩
    · exact absurd hgo (e _ _)
    · rw [hgo] at e1; cases e1
      rw [e2, h.regs v hj, hr] at e3; exact e3 rfl
  | some R =>
    have hR : ∀ j, n ≤ j → reg ((σ j).pc v) = some R := fun j hj => (h.regs v hj).trans hr
    have hm := hM n (Nat.le_refl _)
    cases R with
    | G => exact h.noG hf hr
    | S => rw [reg_S hr] at hm; simp [inC] at hm
    | U => exact h.noU hf v0 hr
    | C =>
      obtain ⟨j, hj, e⟩ := hck v n (reg_C hr)
      rw [reg_C (hR j hj)] at e; cases e
    | W =>
      obtain ⟨j, hj, e⟩ := hck v n (reg_W hr)
      rw [reg_W (hR j hj)] at e; cases e
    | L m kd k =>
      have : inC ((σ n).pc v) = false := by
        unfold reg at hr
        split at hr <;> simp_all [inC]
      rw [this] at hm; cases hm

/-- A thread that is in calls for ever makes steps again and again. -/
theorem Late.moves {σ : Nat → State} {ε : Nat → Option Ev} {n : Nat} (h : Late σ ε n) (hf : Fair σ ε) (hck : ChecksEnd σ)
    {t : Nat} (hc : ∀ j, n ≤ j → inCall (σ j) t) (i : Nat) (hi : n ≤ i) : ∃ j, i ≤ j ∧ ∃ c, ε j = some (.go t c) := by
  apply Classical.byContradiction; intro hno
  have hs : ∀ j, i ≤ j → ∀ c, ε j ≠ some (.go t c) := fun j hj c e => hno ⟨j, hj, c, e⟩
  have hl := h.later hi
  cases hq : acq ((σ i).pc t) with
  | true =>
    cases hp : (σ i).pc t <;> rw [hp] at hq <;> simp [acq] at hq
    · obtain ⟨k, v, hk, v0, hv⟩ := hl.holderM hf hs hp
      exact (hl.later hk).noHolderM hf hck v0 hv
    · obtain ⟨k, v, hk, v0, hv⟩ := hl.holderC hf hs hp
      exact (hl.later hk).noHolderC hf hck v0 hv
  | false =>
    obtain ⟨j, hj, c, e⟩ := hl.steps hf (fun j hj => hc j (by omega)) (fun j hj => by rw [hl.rest hs hj]; exact hq) i
    exact hs j hj c e

theorem Late.in_loop {σ : Nat → State} {ε : Nat → Option Ev} {n : Nat} (h : Late σ ε n) (hf : Fair σ ε) (hck : ChecksEnd σ)
    {t : Nat} (hc : ∀ j, n ≤ j → inCall (σ j) t) : reg ((σ n).pc t) ≠ none := by
  intro hr
  obtain ⟨j, hj, c, hgo⟩ := h.moves hf hck hc n (Nat.le_refl _)
  rcases h.moment hj with ⟨e, _⟩ | ⟨u, c', p', e1, _, _, _, _, _, e2, e3, _⟩
  · exact absurd hgo (e _ _)
  · rw [hgo] at e1; cases e1
    rw [e2, h.regs t hj, hr] at e3; exact e3 rfl

theorem reg_uses {p : Pc} {m : Nat} {kd : Kind} {k : LK} (h : reg p = some (.L m kd k)) : m ∈ uses p := by
  have hS : ∀ x, regS x = .L m kd k → x = some (m, kd, k) := by
    intro x hx; rcases x with _ | ⟨_, _, _⟩ <;> simp_all [regS]
  unfold reg at h
  split at h <;> simp only [Option.some.injEq, Reg.L.injEq, reduceCtorEq] at h <;> first
    | (obtain ⟨rfl, rfl, rfl⟩ := h; simp [uses]; done)
    | (rw [hS _ h]; simp [uses])

/-- Where a thread is in its attempts to lock a free mutex. -/
def placeL (p : Pc) : Nat := if checking p = true then 4 else match p with
  | .acqM _ => 5
  | .relM _ => 3
  | .lkRead _ _ _ => 2
  | .lkCas _ _ _ => 1
  | .lkAdd _ _ _ => 1
  | _ => 0

theorem Late.noL {σ : Nat → State} {ε : Nat → Option Ev} {n : Nat} (h : Late σ ε n) (hf : Fair σ ε) (hck : ChecksEnd σ)
    {t m : Nat} {kd : Kind} {k : LK} (t0 : t ≠ 0) (hno : (∀ u, ¬ 1 ≤ (σ n).mem.dep m u) ∨ 1 ≤ (σ n).mem.dep m t)
    (hr : reg ((σ n).pc t) = some (.L m kd k)) : False := by
  have hR : ∀ j, n ≤ j → reg ((σ j).pc t) = some (.L m kd k) := fun j hj => (h.regs t hj).trans hr
  have hc : ∀ j, n ≤ j → inCall (σ j) t := by
    intro j hj r e; have := hR j hj; rw [e] at this; simp [reg] at this
  have iv := exec_inv h.ex n
  have hm := iv.base.used t m (reg_uses hr)
  have hinc : ∀ u, u ≠ 0 → isInc m ((σ n).pc u) = true → False := by
    intro u u0 e
    cases hp : (σ n).pc u <;> rw [hp] at e <;> simp [isInc] at e
    rename_i k'
    refine h.in_loop (t := u) hf hck (fun j hj r e => ?_) (by rw [hp]; rfl)
    have := h.same u j hj
    rw [e, hp] at this
    cases k' <;> simp [rank, rankL] at this
  have hz : ((σ n).mem.mval m = 0 ∧ ¬ 1 ≤ (σ n).mem.dep m t) ∨ ((σ n).mem.mval m = t ∧ 1 ≤ (σ n).mem.dep m t) := by
    rcases hno with hno | hno
    · refine .inl ⟨Classical.byContradiction fun hv => ?_, hno t⟩
      rcases (iv.th _ hv (exec_alive h.ex n _)).held m hm rfl with e | e
      · exact hno _ e
      · exact hinc _ hv e
    · exact .inr ⟨((iv.th t t0 (exec_alive h.ex n t)).own m hno).2.1, hno⟩
  have hZ : ∀ j, n ≤ j → ((σ j).mem.mval m = 0 ∧ ¬ 1 ≤ (σ j).mem.dep m t) ∨ ((σ j).mem.mval m = t ∧ 1 ≤ (σ j).mem.dep m t) :=
    fun j hj => by rw [(h.frozen hj).1, (h.frozen hj).2]; exact hz
  -- an own step
  have own : ∀ j p', n ≤ j → Stp (σ j).mem (σ j).alive t ((σ j).pc t) (σ (j + 1)).mem p' → reg p' = reg ((σ j).pc t) →
      rank p' = rank ((σ j).pc t) →
      placeL p' ≤ placeL ((σ j).pc t) ∧ (checking ((σ j).pc t) = false → placeL p' < placeL ((σ j).pc t)) := by
    intro j p' hj hst e hrk
    have hat := ((exec_inv h.ex j).th t t0 (exec_alive h.ex j t)).at_
    have hr' := e.trans (hR j hj)
    have hz := hZ j hj
    have hrj := hR j hj
    rcases reg_L (hR j hj) with ep | ep | ep | ep | ep | ep | ep | ep
    · refine ⟨?_, fun e => by rw [ep] at e; cases e⟩
      have : placeL ((σ j).pc t) = 4 := by simp [placeL, ep]
      rw [this]
      generalize (σ (j + 1)).mem = M' at hst
      generalize (σ j).pc t = p at *
      cases hst <;> simp [checking] at ep <;> simp [placeL, checking]
    · rw [ep] at hst ⊢
      generalize (σ (j + 1)).mem = M' at hst
      cases hst <;> simp [placeL, checking]
    · rw [ep] at hst ⊢
      generalize (σ (j + 1)).mem = M' at hst
      cases hst <;> simp [placeL, checking]
    · rw [ep] at hst hat
      have hv : (σ j).mem.mval m = t := by
        rcases hz with hz | hz
        · exact absurd hat.1 hz.2
        · exact hz.1
      generalize (σ (j + 1)).mem = M' at hst
      cases hst
      · cases k <;> simp [fin, reg] at hr'
      · rename_i h0; exact absurd hv h0
    · rw [ep] at hat; exact hat.elim
    · rw [ep] at hst hrk ⊢
      generalize (σ (j + 1)).mem = M' at hst
      cases hst
      · simp [reg] at hr'
      · rename_i h0 _
        rw [ep] at hat
        rcases hz with hz | hz
        · exact absurd hz.1 h0
        · exact absurd hz.1 hat
    · rw [ep] at hst ⊢
      generalize (σ (j + 1)).mem = M' at hst
      cases hst
      simp [placeL, checking]
    · rw [ep] at hst ⊢
      generalize (σ (j + 1)).mem = M' at hst
      cases hst
      simp [placeL, checking]
  have mono : ∀ j, n ≤ j → placeL ((σ (j + 1)).pc t) ≤ placeL ((σ j).pc t) := by
    intro j hj
    rcases h.moment hj with ⟨_, e⟩ | ⟨u, c, p', e1, _, _, hst, e2, e3, e4, _⟩
    · rw [e]; exact Nat.le_refl _
    · by_cases hu : t = u
      · subst hu; rw [e2, upd_same]; exact (own j p' hj hst e4 e3).1
      · rw [e2, upd_ne _ _ hu]; exact Nat.le_refl _
  obtain ⟨i, hi, hcon⟩ := const_from (fun j => placeL ((σ j).pc t)) n mono
  have hck' : ∃ j, i ≤ j ∧ checking ((σ j).pc t) = false := by
    cases e : checking ((σ i).pc t) with
    | false => exact ⟨i, Nat.le_refl _, e⟩
    | true => exact hck t i e
  obtain ⟨j, hj, e⟩ := hck'
  have h4 : ∀ p, reg p = some (.L m kd k) → (checking p = false ↔ placeL p ≠ 4) := by
    intro p hp
    rcases reg_L hp with ep | ep | ep | ep | ep | ep | ep | ep
    · simp [placeL, ep]
    all_goals (rw [ep]; simp [placeL, checking])
  obtain ⟨l, hl, c, hgo⟩ := h.moves hf hck hc i hi
  rcases h.moment (i := l) (by omega) with ⟨e', _⟩ | ⟨u, c', p', e1, _, _, hst, e2, e3, e4, _⟩
  · exact absurd hgo (e' _ _)
  · rw [hgo] at e1; cases e1
    have hpl : placeL ((σ l).pc t) = placeL ((σ j).pc t) := (hcon l hl).trans (hcon j hj).symm
    have hne := (h4 _ (hR j (by omega))).1 e
    rw [← hpl] at hne
    have := (own l p' (by omega) hst e4 e3).2 ((h4 _ (hR l (by omega))).2 hne)
    have h1 := hcon (l + 1) (by omega)
    have h2 := hcon l hl
    simp only [e2, upd_same] at h1 h2
    omega

/-- A thread in a wait for ever: no limit, and nobody has woken it. -/
theorem Late.waits {σ : Nat → State} {ε : Nat → Option Ev} {n : Nat} (h : Late σ ε n) (hf : Fair σ ε) (hck : ChecksEnd σ)
    (hti : Timely σ ε) {t c w m : Nat} {kd : Kind} (t0 : t ≠ 0) (hr : reg ((σ n).pc t) = some (.S c w m kd)) :
    Unwoken σ t n := by
  have hR : ∀ j, n ≤ j → (σ j).pc t = .wSpin c w m kd := fun j hj => reg_S ((h.regs t hj).trans hr)
  have hc : ∀ j, n ≤ j → inCall (σ j) t := by
    intro j hj r e; have := hR j hj; rw [e] at this; cases this
  have hkd : kd = .block := by
    refine Classical.byContradiction fun hk => ?_
    obtain ⟨j, hj, e⟩ := hti t n (fun j hj => by rw [hR j hj]; simpa [timing] using hk)
    rcases h.moment hj with ⟨e', _⟩ | ⟨u, c', p', e1, _, hp, _, e2, e3, e4, _⟩
    · exact absurd e (e' _ _)
    · rw [e] at e1; cases e1
      rw [hR j hj] at hp e4
      simp only [plan] at hp
      split at hp
      · simp only [Option.some.injEq, Prod.mk.injEq] at hp
        rw [← hp.2] at e4; simp [reg] at e4
      · cases hp
  subst hkd
  refine ⟨c, w, m, fun j hj => ⟨hR j hj, ?_⟩⟩
  refine Classical.byContradiction fun hw => ?_
  have hw : (σ j).mem.wup w = true := by simpa using hw
  have hst : ∀ d, (σ (j + d)).mem.wup w = true := by
    intro d
    induction d with
    | zero => exact hw
    | succ d ih =>
      rw [← Nat.add_assoc]
      rcases h.moment (i := j + d) (by omega) with ⟨_, e⟩ | ⟨u, c', p', e1, _, _, hst, e2, e3, e4, _⟩
      · rw [e]; exact ih
      · by_cases hu : u = t
        · subst hu
          rw [hR _ (by omega)] at hst
          generalize (σ (j + d + 1)).mem = M' at hst ⊢
          cases hst <;> exact ih
        · rcases wup_other (recs_reach (exec_reach h.ex _)) (exec_alive h.ex _ t) (exec_alive h.ex _ u) hu
            (by rw [hR _ (by omega)]; rfl) hst with e | e
          · rw [e]; exact ih
          · exact e.1
  obtain ⟨l, hl, c', hgo⟩ := h.moves hf hck hc j hj
  obtain ⟨d, rfl⟩ := Nat.le.dest hl
  rcases h.moment (i := j + d) (by omega) with ⟨e', _⟩ | ⟨u, c', p', e1, _, _, hs, e2, e3, e4, _⟩
  · exact absurd hgo (e' _ _)
  · rw [hgo] at e1; cases e1
    rw [hR _ (by omega)] at hs e4
    have := hst d
    generalize (σ (j + d + 1)).mem = M' at hs
    cases hs <;> simp_all [reg]

/-- Every call returns, except a wait without limit that nobody wakes. -/
theorem returns_or_waits {σ : Nat → State} {ε : Nat → Option Ev} (ex : Exec noDeath σ ε) (hf : Fair σ ε) (hre : Released σ)
    (hce : CallsEnd ε) (hck : ChecksEnd σ) (hti : Timely σ ε) (t i : Nat) :
    ReturnsAfter σ t i ∨ ∃ n, i ≤ n ∧ Unwoken σ t n := by
  refine Classical.byContradiction fun hno => ?_
  rw [not_or] at hno
  have hc : ∀ j, i ≤ j → inCall (σ j) t := fun j hj r e => hno.1 ⟨j, hj, r, e⟩
  have t0 : t ≠ 0 := by
    rintro rfl
    exact hc i (Nat.le_refl _) _ (exec_inv ex i).base.zero
  obtain ⟨n0, hn0⟩ := hce
  obtain ⟨n, hn, hs⟩ := settled ex (n := max n0 i) (fun j hj => hn0 j (by omega))
  have h : Late σ ε n := ⟨ex, fun j hj => hn0 j (by omega), hs⟩
  have hc' : ∀ j, n ≤ j → inCall (σ j) t := fun j hj => hc j (by omega)
  cases hr : reg ((σ n).pc t) with
  | none => exact h.in_loop hf hck hc' hr
  | some R =>
    have hR : ∀ j, n ≤ j → reg ((σ j).pc t) = some R := fun j hj => (h.regs t hj).trans hr
    cases R with
    | G => exact h.noG hf hr
    | S => exact hno.2 ⟨n, by omega, h.waits hf hck hti t0 hr⟩
    | U => exact h.noU hf t0 hr
    | C =>
      obtain ⟨j, hj, e⟩ := hck t n (reg_C hr)
      rw [reg_C (hR j hj)] at e; cases e
    | W =>
      obtain ⟨j, hj, e⟩ := hck t n (reg_W hr)
      rw [reg_W (hR j hj)] at e; cases e
    | L m =>
      refine h.noL hf hck t0 (.inl fun u hu => ?_) hr
      obtain ⟨j, hj, e⟩ := hre n m u hu
      rw [(h.frozen hj).2] at e; omega

/-- One moment of an execution without deaths. -/
theorem exec_any {σ : Nat → State} {ε : Nat → Option Ev} (h : Exec noDeath σ ε) (i : Nat) :
    (ε i = none ∧ σ (i + 1) = σ i) ∨
    (∃ u c r, ε i = some (.call u c) ∧ (σ i).pc u = .done r ∧ (σ (i + 1)).mem = (σ i).mem ∧ u ≠ 0 ∧
      (σ (i + 1)).pc = upd (σ i).pc u c.start) ∨
    ∃ u c p', ε i = some (.go u c) ∧ u ≠ 0 ∧ plan (σ i).mem (σ i).alive u ((σ i).pc u) c = some ((σ (i + 1)).mem, p') ∧
      Stp (σ i).mem (σ i).alive u ((σ i).pc u) (σ (i + 1)).mem p' ∧ (σ (i + 1)).pc = upd (σ i).pc u p' := by
  have := h.next i
  cases he : ε i with
  | none => rw [he] at this; exact .inl ⟨rfl, this⟩
  | some e =>
    rw [he] at this
    rcases step_cases this.2 with ⟨u, c, r, rfl, u0, _, hr, e⟩ | ⟨u, c, M', p', rfl, _, hp, e⟩ | ⟨u, rfl, _, e⟩
    · exact .inr (.inl ⟨u, c, r, rfl, hr, by rw [e], u0, by rw [e]⟩)
    · refine .inr (.inr ⟨u, c, p', rfl, (exec_inv h i).base.go0 hp, ?_, ?_, by rw [e]⟩)
      · rw [e]; exact hp
      · rw [e]; exact stp_of_plan hp
    · exact this.1.elim

/-- A thread that does not return and is later in a wait has been in it all the time. -/
theorem spin_between {σ : Nat → State} {ε : Nat → Option Ev} (ex : Exec noDeath σ ε) {t i n c w m c' w' m' : Nat} {kd kd' : Kind}
    (hc : ∀ j, i ≤ j → inCall (σ j) t) (hi : (σ i).pc t = .wSpin c w m kd) (hn : (σ n).pc t = .wSpin c' w' m' kd')
    {j : Nat} (hij : i ≤ j) (hjn : j ≤ n) : (σ j).pc t = .wSpin c w m kd := by
  have low : ∀ a d, i ≤ a → rank ((σ a).pc t) < 7 → rank ((σ (a + d)).pc t) < 7 := by
    intro a d ha h7
    induction d with
    | zero => exact h7
    | succ d ih =>
      rw [← Nat.add_assoc]
      rcases exec_any ex (a + d) with ⟨_, e⟩ | ⟨u, cl, r, e1, e2, e3, u0, e4⟩ | ⟨u, ch, p', e1, u0, hp, hst, e4⟩
      · rw [e]; exact ih
      · by_cases hu : t = u
        · subst hu; exact absurd e2 (hc _ (by omega) r)
        · rw [e4, upd_ne _ _ hu]; exact ih
      · by_cases hu : t = u
        · subst hu; rw [e4, upd_same]
          rcases rank_stp hst ((exec_inv ex (a + d)).base.shape t) with e | e
          · omega
          · rw [e.1]; exact ih
        · rw [e4, upd_ne _ _ hu]; exact ih
  have all : ∀ d, (σ (i + d)).pc t = .wSpin c w m kd ∨ rank ((σ (i + d)).pc t) < 7 := by
    intro d
    induction d with
    | zero => exact .inl hi
    | succ d ih =>
      rcases ih with ih | ih
      · rw [← Nat.add_assoc]
        rcases exec_any ex (i + d) with ⟨_, e⟩ | ⟨u, cl, r, e1, e2, e3, u0, e4⟩ | ⟨u, ch, p', e1, u0, hp, hst, e4⟩
        · rw [e]; exact .inl ih
        · by_cases hu : t = u
          · subst hu; rw [ih] at e2; cases e2
          · rw [e4, upd_ne _ _ hu]; exact .inl ih
        · by_cases hu : t = u
          · subst hu; rw [e4, upd_same]
            rw [ih] at hst
            rcases rank_stp hst rfl with e | ⟨-, e, -⟩
            · exact .inr e
            · exact .inl (reg_S e)
          · rw [e4, upd_ne _ _ hu]; exact .inl ih
      · exact .inr (low (i + d) 1 (by omega) ih)
  obtain ⟨d, rfl⟩ := Nat.le.dest hij
  rcases all d with e | e
  · exact e
  · obtain ⟨d', rfl⟩ := Nat.le.dest hjn
    have := low (i + d) d' (by omega) e
    rw [hn] at this; simp [rank] at this

/-- What remains true of a call for the waiter `t` while it waits unwoken. -/
structure Call4 (K : Mem → Pc → Prop) (σ : Nat → State) (ε : Nat → Option Ev) (u i : Nat) : Prop where
  out : ∀ M r, K M (.done r) → False
  spin : ∀ M c w m kd, K M (.wSpin c w m kd) → False
  start : K (σ (i + 1)).mem ((σ (i + 1)).pc u)
  own : ∀ j c p', i ≤ j → ε j = some (.go u c) → Stp (σ j).mem (σ j).alive u ((σ j).pc u) (σ (j + 1)).mem p' →
    K (σ j).mem ((σ j).pc u) → K (σ (j + 1)).mem p'
  others : ∀ j v c p', i ≤ j → v ≠ u → v ≠ 0 → ε j = some (.go v c) → Stp (σ j).mem (σ j).alive v ((σ j).pc v) (σ (j + 1)).mem p' →
    K (σ j).mem ((σ j).pc u) → K (σ (j + 1)).mem ((σ j).pc u)

theorem Call4.never {K : Mem → Pc → Prop} {σ : Nat → State} {ε : Nat → Option Ev} {u i : Nat} (h : Call4 K σ ε u i)
    (ex : Exec noDeath σ ε) (hf : Fair σ ε) (hre : Released σ)
    (hce : CallsEnd ε) (hck : ChecksEnd σ) (hti : Timely σ ε) : False := by
  have all : ∀ d, K (σ (i + 1 + d)).mem ((σ (i + 1 + d)).pc u) := by
    intro d
    induction d with
    | zero => exact h.start
    | succ d ih =>
      rw [← Nat.add_assoc]
      rcases exec_any ex (i + 1 + d) with ⟨_, e⟩ | ⟨v, cl, r, e1, e2, e3, v0, e4⟩ | ⟨v, ch, p', e1, v0, hp, hst, e4⟩
      · rw [e]; exact ih
      · by_cases hv : u = v
        · subst hv; rw [e2] at ih; exact (h.out _ _ ih).elim
        · rw [e3, e4, upd_ne _ _ hv]; exact ih
      · by_cases hv : u = v
        · subst hv; rw [e4, upd_same]; exact h.own _ _ _ (by omega) e1 hst ih
        · rw [e4, upd_ne _ _ hv]; exact h.others _ _ _ _ (by omega) (Ne.symm hv) v0 e1 hst ih
  rcases returns_or_waits ex hf hre hce hck hti u (i + 1) with ⟨j, hj, r, e⟩ | ⟨n, hn, c, w, m, hw⟩
  · obtain ⟨d, rfl⟩ := Nat.le.dest hj
    have := all d
    rw [e] at this; exact h.out _ _ this
  · obtain ⟨d, rfl⟩ := Nat.le.dest hn
    have := all d
    rw [(hw _ (Nat.le_refl _)).1] at this; exact h.spin _ _ _ _ _ this

/-- A waiter that does not return stays in its wait, and its record unwoken. -/
theorem stays_unwoken {σ : Nat → State} {ε : Nat → Option Ev} (ex : Exec noDeath σ ε) (hf : Fair σ ε) (hre : Released σ)
    (hce : CallsEnd ε) (hck : ChecksEnd σ) (hti : Timely σ ε) {t i c w m : Nat} {kd : Kind} (hi : (σ i).pc t = .wSpin c w m kd)
    (hno : ¬ ReturnsAfter σ t i) : ∀ j, i ≤ j → (σ j).pc t = .wSpin c w m kd ∧ (σ j).mem.wup w = false := by
  have hc : ∀ j, i ≤ j → inCall (σ j) t := fun j hj r e => hno ⟨j, hj, r, e⟩
  rcases returns_or_waits ex hf hre hce hck hti t i with h | ⟨n, hn, c', w', m', hw⟩
  · exact absurd h hno
  have hp : ∀ j, i ≤ j → (σ j).pc t = .wSpin c w m kd := by
    intro j hj
    exact spin_between ex hc hi (hw (max n j) (by omega)).1 hj (by omega)
  have hw' : ∀ j, n ≤ j → (σ j).mem.wup w = false := by
    intro j hj
    have h1 := hp j (by omega)
    have h2 := hw j hj
    rw [h1] at h2
    have e := h2.1
    cases e
    exact h2.2
  have up : ∀ j d, i ≤ j → (σ j).mem.wup w = true → (σ (j + d)).mem.wup w = true := by
    intro j d hj hu
    induction d with
    | zero => exact hu
    | succ d ih =>
      rw [← Nat.add_assoc]
      rcases exec_any ex (j + d) with ⟨_, e⟩ | ⟨v, cl, r, e1, e2, e3, v0, e4⟩ | ⟨v, ch, p', e1, v0, _, hst, e4⟩
      · rw [e]; exact ih
      · rw [e3]; exact ih
      · by_cases hv : v = t
        · subst hv
          rw [hp _ (by omega)] at hst
          generalize (σ (j + d + 1)).mem = M' at hst ⊢
          cases hst <;> exact ih
        · rcases wup_other (recs_reach (exec_reach ex _)) (exec_alive ex _ t) (exec_alive ex _ v) hv
            (by rw [hp _ (by omega)]; rfl) hst with e | e
          · rw [e]; exact ih
          · exact e.1
  intro j hj
  refine ⟨hp j hj, ?_⟩
  cases e : (σ j).mem.wup w with
  | false => rfl
  | true =>
    have h1 := up j (n - j + (j - n)) hj e
    by_cases hjn : j ≤ n
    · have h2 := hw' (j + (n - j + (j - n))) (by omega)
      rw [h1] at h2; exact h2
    · rw [hw' j (by omega)] at e; cases e

theorem broadcast_wakes {σ : Nat → State} {ε : Nat → Option Ev} (ex : Exec noDeath σ ε) (hf : Fair σ ε) (hre : Released σ)
    (hce : CallsEnd ε) (hck : ChecksEnd σ) (hti : Timely σ ε) {t u i c w m : Nat} {kd : Kind} (hi : (σ i).pc t = .wSpin c w m kd)
    (hu : ε i = some (.call u (.broadcast c))) : ReturnsAfter σ t i := by
  refine Classical.byContradiction fun hno => ?_
  have st := stays_unwoken ex hf hre hce hck hti hi hno
  have hcall : (σ (i + 1)).pc u = .acqC (.sFind c true) ∧ u ≠ t := by
    rcases exec_any ex i with ⟨e, _⟩ | ⟨v, cl, r, e1, e2, e3, v0, e4⟩ | ⟨v, ch, p', e1, _⟩
    · rw [hu] at e; cases e
    · rw [hu] at e1; cases e1
      refine ⟨by rw [e4, upd_same]; rfl, ?_⟩
      rintro rfl
      rw [hi] at e2; cases e2
    · rw [hu] at e1; cases e1
  refine Call4.never (K := fun M p => M.wup w = false ∧ bcJ M c w p) (u := u) (i := i) ⟨?_, ?_, ?_, ?_, ?_⟩ ex hf hre hce hck hti
  · rintro M r ⟨h1, h2, -⟩; rw [h1] at h2; cases h2
  · rintro M _ _ _ _ ⟨h1, h2⟩; exact h2
  · exact ⟨(st _ (by omega)).2, by rw [hcall.1]; rfl⟩
  · rintro j ch p' hj - hst ⟨h1, h2⟩
    obtain ⟨l1, l2, -⟩ := (recs_reach (exec_reach ex j)).recs.listed t (exec_alive ex j t) c w (by rw [(st j hj).1]; rfl)
    exact ⟨(st _ (by omega)).2, bcJ_own hst l1 l2 h2⟩
  · rintro j v ch p' hj hv v0 - hst ⟨h1, h2⟩
    exact ⟨(st _ (by omega)).2, bcJ_frame (fun e => by rw [h1] at e; cases e) h2⟩

/-- The waiter a signal has chosen is listed. -/
def picked (M : Mem) (c : Nat) : Pc → Prop
  | .sWalk _ (some x) => x ∈ M.ws c
  | .sSet x => x ∈ M.ws c
  | _ => True

theorem picked_own {M M' : Mem} {alive : Nat → Bool} {u c w : Nat} {p p' : Pc} (h : Stp M alive u p M' p')
    (hj : sigJ M c w p) (hp : picked M c p) : picked M' c p' := by
  cases h <;> (try (simp only [sigJ] at hj; done))
  case acqC => simp only [sigJ] at hj; subst hj; trivial
  case relC => simp only [sigJ] at hj; subst hj; trivial
  case sSome => exact hp
  case sSkip l _ => cases l <;> exact hp
  case sTake =>
    obtain ⟨⟨pre, e⟩, -⟩ := hj
    simp [picked, e]
  all_goals trivial

theorem warr_inj {l : List Nat} {f : Nat → Nat} (h : l.Pairwise fun a b => f b < f a) {x y : Nat} (hx : x ∈ l) (hy : y ∈ l)
    (e : f x = f y) : x = y := by
  induction l with
  | nil => cases hx
  | cons a l ih =>
    rw [List.pairwise_cons] at h
    rcases List.mem_cons.1 hx with h1 | h1 <;> rcases List.mem_cons.1 hy with h2 | h2
    · rw [h1, h2]
    · have := h.1 _ h2; rw [← h1] at this; omega
    · have := h.1 _ h1; rw [← h2] at this; omega
    · exact ih h.2 h1 h2

theorem old_reff {M M' : Mem} {alive : Nat → Bool} {v : Nat} {l l' : Option (Nat × Nat)} {h h' : Option Nat}
    (re : REff M M' alive v l h l' h') {c w : Nat} (l1 : c ∈ M.clist) (l2 : w ∈ M.ws c) (tk : M.warr w < M.tick)
    (ho : ∀ w, h = some w → w ∉ M.wfree ∧ ∀ c ∈ M.clist, w ∉ M.ws c) (ih : ∀ x ∈ M.ws c, M.warr w ≤ M.warr x) :
    ∀ x ∈ M'.ws c, M'.warr w ≤ M'.warr x := by
  have er : ∀ y, ∀ x ∈ (M.ws c).erase y, x ∈ M.ws c := fun y x hx => List.mem_of_mem_erase hx
  cases re <;> intro x hx
  case same e => rw [e.ws] at hx; rw [e.warr]; exact ih x hx
  all_goals simp_all only [upd_apply]
  all_goals grind

theorem signal_wakes {σ : Nat → State} {ε : Nat → Option Ev} (ex : Exec noDeath σ ε) (hf : Fair σ ε) (hre : Released σ)
    (hce : CallsEnd ε) (hck : ChecksEnd σ) (hti : Timely σ ε) {t u i c w m : Nat} {kd : Kind} (hi : (σ i).pc t = .wSpin c w m kd)
    (hold : ∀ x ∈ (σ i).mem.ws c, (σ i).mem.warr w ≤ (σ i).mem.warr x)
    (hu : ε i = some (.call u (.signal c))) : ReturnsAfter σ t i := by
  refine Classical.byContradiction fun hno => ?_
  have st := stays_unwoken ex hf hre hce hck hti hi hno
  have hcall : (σ (i + 1)).pc u = .acqC (.sFind c false) ∧ u ≠ t ∧ u ≠ 0 ∧ (σ (i + 1)).mem = (σ i).mem := by
    rcases exec_any ex i with ⟨e, _⟩ | ⟨v, cl, r, e1, e2, e3, v0, e4⟩ | ⟨v, ch, p', e1, _⟩
    · rw [hu] at e; cases e
    · rw [hu] at e1; cases e1
      refine ⟨by rw [e4, upd_same]; rfl, ?_, v0, e3⟩
      rintro rfl
      rw [hi] at e2; cases e2
    · rw [hu] at e1; cases e1
  have lis : ∀ j, i ≤ j → c ∈ (σ j).mem.clist ∧ w ∈ (σ j).mem.ws c ∧ (σ j).mem.wtid w = t := fun j hj =>
    (recs_reach (exec_reach ex j)).recs.listed t (exec_alive ex j t) c w (by rw [(st j hj).1]; rfl)
  have old : ∀ d, ∀ x ∈ (σ (i + d)).mem.ws c, (σ (i + d)).mem.warr w ≤ (σ (i + d)).mem.warr x := by
    intro d
    induction d with
    | zero => exact hold
    | succ d ih =>
      rw [← Nat.add_assoc]
      rcases exec_any ex (i + d) with ⟨_, e⟩ | ⟨v, cl, r, e1, e2, e3, v0, e4⟩ | ⟨v, ch, p', e1, v0, hp, hst, e4⟩
      · rw [e]; exact ih
      · rw [e3]; exact ih
      · have R := recs_reach (exec_reach ex (i + d))
        obtain ⟨l1, l2, l3⟩ := lis (i + d) (by omega)
        have tk := R.recs.ticks c l1 w l2
        have ho := R.recs.handOut v
        have re := reff_stp hst (R.names.base.shape v) (R.names.at_ v (exec_alive ex _ v)) (R.at_ v)
          (fun c w e => (R.recs.listed v (exec_alive ex _ v) c w e).2.1)
        exact old_reff re l1 l2 tk ho ih
  refine Call4.never (K := fun M p => M.wup w = false ∧ sigJ M c w p ∧ sigPre p = true ∧ picked M c p) (u := u) (i := i) ⟨?_, ?_, ?_, ?_, ?_⟩
    ex hf hre hce hck hti
  · rintro M r ⟨h1, h2, h3, -⟩; simp [sigPre] at h3
  · rintro M _ _ _ _ ⟨h1, h2, h3⟩; exact h2
  · exact ⟨(st _ (by omega)).2, by rw [hcall.1]; rfl, by rw [hcall.1]; rfl, by rw [hcall.1]; trivial⟩
  · rintro j ch p' hj he hst ⟨h1, h2, h3, h5⟩
    obtain ⟨l1, l2, -⟩ := lis j hj
    have w' := (st (j + 1) (by omega)).2
    have so := (recs_reach (exec_reach ex j)).recs.sorted c l1
    refine ⟨w', sigJ_own hst l1 l2 so h2, ?_, picked_own hst h2 h5⟩
    rcases sigPre_own hst l1 h2 h3 with e | e | ⟨x, e⟩
    · exact e
    · rw [e] at h2
      obtain ⟨-, h | h | ⟨_, h, -⟩⟩ := h2
      · rw [h1] at h; cases h
      · cases h
      · cases h
    · exfalso
      obtain ⟨d, rfl⟩ := Nat.le.dest hj
      rw [e] at h2 hst h5
      have hx : x ∈ (σ (i + d)).mem.ws c := h5
      rcases h2 with h | h
      · rw [h1] at h; cases h
      · have hxw : x = w := by
          have := old d x hx
          exact warr_inj so hx l2 (by omega)
        subst hxw
        generalize (σ (i + d + 1)).mem = M' at hst w'
        cases hst
        simp at w'
  · rintro j v ch p' hj hv v0 he hst ⟨h1, h2, h3, h5⟩
    have R := recs_reach (exec_reach ex j)
    have hx := R.names.base.excl v0 hcall.2.2.1 (exec_alive ex j v) (exec_alive ex j u) (Ne.symm hv)
    have hws : inC ((σ j).pc u) = true → (σ (j + 1)).mem.ws = (σ j).mem.ws ∧ (σ (j + 1)).mem.warr = (σ j).mem.warr := by
      intro hc
      obtain ⟨b1, -, b3⟩ := ws_stp hst (hx.2 hc)
      exact ⟨b1, b3⟩
    refine ⟨(st _ (by omega)).2, sigJ_frame (fun e => by rw [h1] at e; cases e) hws h2, h3, ?_⟩
    cases e : (σ j).pc u <;> (try trivial) <;> rw [e] at h5 hws
    · rename_i l; cases l
      · trivial
      · simp only [picked] at h5 ⊢; rw [(hws rfl).1]; exact h5
    · simp only [picked] at h5 ⊢; rw [(hws rfl).1]; exact h5

/-! ### Waiting for a mutex -/

theorem waitsLock_stp {M M' : Mem} {alive : Nat → Bool} {t m : Nat} {p p' : Pc} (h : Stp M alive t p M' p') (hw : waitsLock m p) :
    waitsLock m p' ∨ (p' = .done 0 ∧ 1 ≤ M'.dep m t) := by
  have hS : ∀ k : Option (Nat × Kind × LK), waitsLock m (.swM k) → k = some (m, .block, .api) := by
    intro k hk
    rcases k with _ | ⟨m', kd, k⟩
    · exact hk.elim
    · obtain ⟨rfl, rfl, rfl⟩ := hk; rfl
  have hF : ∀ m' kd k q, Failed m' kd k q → m' = m ∧ kd = .block ∧ k = .api → waitsLock m q := by
    rintro m' kd k q hq ⟨rfl, rfl, rfl⟩
    cases hq <;> simp_all [waitsLock]
  cases h <;> (try (exact hw.elim))
  case acqM => cases p' <;> first | exact hw.elim | skip
               rename_i k; rcases k with _ | ⟨m', kd, k⟩
               · exact hw.elim
               · exact .inl hw
  case relM => cases p' <;> first | exact hw.elim | exact .inl hw
  case lkSub h => exact .inl (hF _ _ _ _ h hw)
  case lkCasNo h _ => exact .inl (hF _ _ _ _ (by assumption) hw)
  case lkChk => obtain ⟨rfl, rfl, rfl⟩ := hw; right; simp [fin]
  case lkInc => obtain ⟨rfl, rfl, rfl⟩ := hw; right; simp [fin]
  case swEnd k =>
    rw [hS k hw]; left; exact ⟨rfl, rfl, rfl⟩
  all_goals first
    | exact .inl hw
    | (rename_i k; rcases k with _ | ⟨m', kd, k⟩ <;> first | exact hw.elim | exact .inl hw)
    | (rename_i k _; rcases k with _ | ⟨m', kd, k⟩ <;> first | exact hw.elim | exact .inl hw)
    | (rename_i k _ _; rcases k with _ | ⟨m', kd, k⟩ <;> first | exact hw.elim | exact .inl hw)
    | (rename_i k _ _ _; rcases k with _ | ⟨m', kd, k⟩ <;> first | exact hw.elim | exact .inl hw)

theorem waitsLock_on {σ : Nat → State} {ε : Nat → Option Ev} (ex : Exec noDeath σ ε) {t i m : Nat}
    (hw : waitsLock m ((σ i).pc t)) (d : Nat) : waitsLock m ((σ (i + d)).pc t) ∨
      ∃ j, i ≤ j ∧ j ≤ i + d ∧ (σ j).pc t = .done 0 ∧ 1 ≤ (σ j).mem.dep m t := by
  induction d with
  | zero => exact .inl hw
  | succ d ih =>
    rcases ih with ih | ⟨j, h1, h2, h3⟩
    · rw [← Nat.add_assoc]
      rcases exec_any ex (i + d) with ⟨_, e⟩ | ⟨u, cl, r, e1, e2, e3, u0, e4⟩ | ⟨u, ch, p', e1, u0, hp, hst, e4⟩
      · rw [e]; exact .inl ih
      · by_cases hu : t = u
        · subst hu; rw [e2] at ih; exact ih.elim
        · rw [e4, upd_ne _ _ hu]; exact .inl ih
      · by_cases hu : t = u
        · subst hu; rw [e4, upd_same]
          rcases waitsLock_stp hst ih with h | ⟨h1, h2⟩
          · exact .inl h
          · exact .inr ⟨i + d + 1, by omega, by omega, by rw [e4, upd_same, h1], h2⟩
        · rw [e4, upd_ne _ _ hu]; exact .inl ih
    · exact .inr ⟨j, h1, by omega, h3⟩

theorem waitsLock_returns {σ : Nat → State} {ε : Nat → Option Ev} (ex : Exec noDeath σ ε) {t i m : Nat}
    (hw : waitsLock m ((σ i).pc t)) (hr : ReturnsAfter σ t i) :
    ∃ j, i ≤ j ∧ (σ j).pc t = .done 0 ∧ 1 ≤ (σ j).mem.dep m t := by
  obtain ⟨j, hj, r, e⟩ := hr
  obtain ⟨d, rfl⟩ := Nat.le.dest hj
  rcases waitsLock_on ex hw d with h | ⟨j, h1, _, h3⟩
  · rw [e] at h; exact h.elim
  · exact ⟨j, h1, h3⟩

/-- A step of somebody else: own place and depths unchanged. -/
theorem frame_any {σ : Nat → State} {ε : Nat → Option Ev} (ex : Exec noDeath σ ε) {t : Nat} {i : Nat}
    (hg : ∀ c, ε i ≠ some (.go t c)) (hc : inCall (σ i) t) : (σ (i + 1)).pc t = (σ i).pc t := by
  rcases exec_any ex i with ⟨_, e⟩ | ⟨u, cl, r, e1, e2, e3, u0, e4⟩ | ⟨u, ch, p', e1, u0, hp, hst, e4⟩
  · rw [e]
  · by_cases hu : t = u
    · subst hu; exact absurd e2 (hc r)
    · rw [e4, upd_ne _ _ hu]
  · by_cases hu : t = u
    · subst hu; exact absurd e1 (hg _)
    · rw [e4, upd_ne _ _ hu]

/-- The next step of a thread that does not wait for a table lock. -/
theorem next_step {σ : Nat → State} {ε : Nat → Option Ev} (ex : Exec noDeath σ ε) (hf : Fair σ ε) {t i : Nat}
    (hc : inCall (σ i) t) (hq : acq ((σ i).pc t) = false) :
    ∃ j c p', i ≤ j ∧ ε j = some (.go t c) ∧ (∀ k, i ≤ k → k ≤ j → (σ k).pc t = (σ i).pc t) ∧
      Stp (σ j).mem (σ j).alive t ((σ i).pc t) (σ (j + 1)).mem p' ∧ (σ (j + 1)).pc t = p' := by
  have hex : ∃ j, i ≤ j ∧ ∃ c, ε j = some (.go t c) := by
    refine Classical.byContradiction fun hno => ?_
    have hs : ∀ d, (σ (i + d)).pc t = (σ i).pc t := by
      intro d
      induction d with
      | zero => rfl
      | succ d ih =>
        rw [← ih]
        exact frame_any (i := i + d) ex (fun c e => hno ⟨i + d, by omega, c, e⟩) (by intro r; rw [ih]; exact hc r)
    obtain ⟨j, hj, c, e⟩ := hf t (fun k => ⟨i + k, by omega,
      mayGo_of (exec_alive ex _ _) (by intro r; rw [hs]; exact hc r) (by rw [hs]; exact hq)⟩) i
    exact hno ⟨j, hj, c, e⟩
  have key : ∀ d, (∃ c, ε (i + d) = some (.go t c)) → ∃ d', (∃ c, ε (i + d') = some (.go t c)) ∧
      ∀ e, e < d' → ∀ c, ε (i + e) ≠ some (.go t c) := by
    intro d
    induction d using Nat.strongRecOn with
    | ind d ih =>
      intro hd
      by_cases hm : ∃ e, e < d ∧ ∃ c, ε (i + e) = some (.go t c)
      · obtain ⟨e, he, hc⟩ := hm; exact ih e he hc
      · exact ⟨d, hd, fun e he c hc => hm ⟨e, he, c, hc⟩⟩
  obtain ⟨j, hj, hgo⟩ := hex
  obtain ⟨d, rfl⟩ := Nat.le.dest hj
  obtain ⟨d', ⟨c, hd'⟩, hmin⟩ := key d hgo
  have hs : ∀ e, e ≤ d' → (σ (i + e)).pc t = (σ i).pc t := by
    intro e he
    induction e with
    | zero => rfl
    | succ e ih =>
      have ih := ih (by omega)
      rw [← ih]
      exact frame_any (i := i + e) ex (hmin e (by omega)) (by intro r; rw [ih]; exact hc r)
  rcases exec_any ex (i + d') with ⟨e, _⟩ | ⟨u, cl, r, e1, _⟩ | ⟨u, ch, p', e1, u0, hp, hst, e4⟩
  · rw [hd'] at e; cases e
  · rw [hd'] at e1; cases e1
  · rw [hd'] at e1; cases e1
    rw [hs d' (Nat.le_refl _)] at hst
    refine ⟨i + d', c, p', by omega, hd', fun k h1 h2 => ?_, hst, by rw [e4, upd_same]⟩
    obtain ⟨x, rfl⟩ := Nat.le.dest h1
    exact hs x (by omega)

/-- A mutex that stays free is obtained. -/
theorem takes_free {σ : Nat → State} {ε : Nat → Option Ev} (ex : Exec noDeath σ ε) (hf : Fair σ ε) {t i m : Nat} (t0 : t ≠ 0)
    (hp : (σ i).pc t = .lkRead m .block .api ∨ (σ i).pc t = .lkCas m .block .api)
    (hfree : ∀ j, i ≤ j → (∀ k, i ≤ k → k ≤ j → inCall (σ k) t) → (σ j).mem.mval m = 0 ∨ (σ j).mem.mval m = t) :
    ReturnsAfter σ t i := by
  have at_ : ∀ j, At (σ j).mem (σ j).alive t ((σ j).pc t) := fun j => ((exec_inv ex j).th t t0 (exec_alive ex j t)).at_
  -- one step on from `i1`, with the mutex free or owned meanwhile
  have go : ∀ i1, i ≤ i1 → (∀ k, i ≤ k → k ≤ i1 → inCall (σ k) t) → acq ((σ i1).pc t) = false →
      ∃ j, i1 ≤ j ∧ ((σ j).mem.mval m = 0 ∨ (σ j).mem.mval m = t) ∧ (σ j).pc t = (σ i1).pc t ∧
        Stp (σ j).mem (σ j).alive t ((σ i1).pc t) (σ (j + 1)).mem ((σ (j + 1)).pc t) ∧
        (inCall (σ (j + 1)) t → ∀ k, i ≤ k → k ≤ j + 1 → inCall (σ k) t) := by
    intro i1 h1 hc hq
    obtain ⟨j, c, p', hj, _, hs, hst, e⟩ := next_step ex hf (hc i1 h1 (Nat.le_refl _)) hq
    have hc' : ∀ k, i ≤ k → k ≤ j → inCall (σ k) t := by
      intro k hk hkj
      by_cases hk1 : k ≤ i1
      · exact hc k hk hk1
      · intro r; rw [hs k (by omega) hkj]; exact hc i1 h1 (Nat.le_refl _) r
    refine ⟨j, hj, hfree j (by omega) hc', hs j hj (Nat.le_refl _), by rw [e]; exact hst, fun h k hk hkj => ?_⟩
    by_cases hkj' : k ≤ j
    · exact hc' k hk hkj'
    · have : k = j + 1 := by omega
      rw [this]; exact h
  have inc : ∀ i1, i ≤ i1 → (∀ k, i ≤ k → k ≤ i1 → inCall (σ k) t) → (σ i1).pc t = .lkInc m .block .api → ReturnsAfter σ t i := by
    intro i1 h1 hc hp
    obtain ⟨j, hj, _, _, hst, _⟩ := go i1 h1 hc (by rw [hp]; rfl)
    rw [hp] at hst
    refine ⟨j + 1, by omega, 0, ?_⟩
    generalize (σ (j + 1)).pc t = p' at hst ⊢
    generalize (σ (j + 1)).mem = M' at hst
    cases hst; rfl
  have cas : ∀ i1, i ≤ i1 → (∀ k, i ≤ k → k ≤ i1 → inCall (σ k) t) → (σ i1).pc t = .lkCas m .block .api → ReturnsAfter σ t i := by
    intro i1 h1 hc hp
    obtain ⟨j, hj, hm, he, hst, hc'⟩ := go i1 h1 hc (by rw [hp]; rfl)
    have hat := at_ j
    rw [he, hp] at hat
    rw [hp] at hst
    have hz : (σ j).mem.mval m = 0 := hm.resolve_right hat
    have e : (σ (j + 1)).pc t = .lkInc m .block .api := by
      generalize (σ (j + 1)).pc t = p' at hst ⊢
      generalize (σ (j + 1)).mem = M' at hst
      cases hst
      · rfl
      · rename_i h0 _; exact absurd hz h0
    exact inc (j + 1) (by omega) (hc' (by intro r; rw [e]; simp)) e
  have chk : ∀ i1, i ≤ i1 → (∀ k, i ≤ k → k ≤ i1 → inCall (σ k) t) → (σ i1).pc t = .lkChk m .block .api → ReturnsAfter σ t i := by
    intro i1 h1 hc hp
    obtain ⟨j, hj, hm, he, hst, hc'⟩ := go i1 h1 hc (by rw [hp]; rfl)
    rw [hp] at hst
    have hat := at_ (j + 1)
    refine ⟨j + 1, by omega, 0, ?_⟩
    generalize (σ (j + 1)).pc t = p' at hst hat ⊢
    generalize (σ (j + 1)).mem = M' at hst hat
    cases hst
    · rfl
    · exact hat.elim
  have add : ∀ i1, i ≤ i1 → (∀ k, i ≤ k → k ≤ i1 → inCall (σ k) t) → (σ i1).pc t = .lkAdd m .block .api → ReturnsAfter σ t i := by
    intro i1 h1 hc hp
    obtain ⟨j, hj, hm, he, hst, hc'⟩ := go i1 h1 hc (by rw [hp]; rfl)
    rw [hp] at hst
    have hat := at_ (j + 1)
    have e : (σ (j + 1)).pc t = .lkChk m .block .api := by
      generalize (σ (j + 1)).pc t = p' at hst hat ⊢
      generalize (σ (j + 1)).mem = M' at hst hat
      cases hst
      · rfl
      · exact hat.elim
    exact chk (j + 1) (by omega) (hc' (by intro r; rw [e]; simp)) e
  have h0 : ∀ k, i ≤ k → k ≤ i → inCall (σ k) t := by
    intro k h1 h2 r
    have : k = i := by omega
    rw [this]; rcases hp with hp | hp <;> rw [hp] <;> simp
  rcases hp with hp | hp
  · obtain ⟨j, hj, hm, he, hst, hc'⟩ := go i (Nat.le_refl _) h0 (by rw [hp]; rfl)
    rw [hp] at hst
    have e : (σ (j + 1)).pc t = .lkAdd m .block .api ∨ (σ (j + 1)).pc t = .lkCas m .block .api := by
      generalize (σ (j + 1)).pc t = p' at hst ⊢
      generalize (σ (j + 1)).mem = M' at hst
      cases hst
      · exact .inl rfl
      · exact .inr rfl
    rcases e with e | e
    · exact add (j + 1) (by omega) (hc' (by intro r; rw [e]; simp)) e
    · exact cas (j + 1) (by omega) (hc' (by intro r; rw [e]; simp)) e
  · exact cas i (Nat.le_refl _) h0 hp

/-! ### Which call a thread is in -/

def uW : UK → Option (Nat × Nat × Kind)
  | .api => none
  | .wt c _ m kd => some (c, m, kd)

/-- The wait a place before the end of the waiting belongs to. -/
def waitOf : Pc → Option (Nat × Nat × Kind)
  | .acqM p => waitOf p
  | .relM p => waitOf p
  | .acqC p => waitOf p
  | .relC p => waitOf p
  | .wM c m kd => some (c, m, kd)
  | .wC c m kd => some (c, m, kd)
  | .wNew c m kd => some (c, m, kd)
  | .wGet c m kd => some (c, m, kd)
  | .wIni c _ m kd => some (c, m, kd)
  | .wIns c _ m kd => some (c, m, kd)
  | .wSet c _ m kd => some (c, m, kd)
  | .ulRead _ k => uW k
  | .ulRead2 _ k => uW k
  | .ulSub _ k => uW k
  | .ulFix _ _ k => uW k
  | .ulCas _ k => uW k
  | .ulAdd _ k => uW k
  | .wSpin c _ m kd => some (c, m, kd)
  | _ => none

theorem waitOf_stp {M M' : Mem} {alive : Nat → Bool} {t : Nat} {p p' : Pc} (h : Stp M alive t p M' p')
    {x : Nat × Nat × Kind} (hx : waitOf p' = some x) : waitOf p = some x := by
  have hfin : ∀ k r, waitOf (fin k r) = none := by intro k r; cases k <;> rfl
  have hF : ∀ m kd k q, Failed m kd k q → waitOf q = none := by
    intro m kd k q hq; cases hq <;> first | exact hfin _ _ | rfl
  have hufin : ∀ k r, waitOf (ufin k r) = some x → uW k = some x := by
    intro k r; cases k
    · intro h; cases h
    · simp only [ufin]; split
      · exact id
      · intro h; cases h
  cases h
  case lkSub h => rw [hF _ _ _ _ h] at hx; cases hx
  case lkCasNo h => rw [hF _ _ _ _ h] at hx; cases hx
  case swEnd k => rcases k with _ | ⟨_, _, _⟩ <;> cases hx
  case ulFree => exact hufin _ _ hx
  case ulPerm => exact hufin _ _ hx
  case ulCas => exact hufin _ _ hx
  case ulCasFree => exact hufin _ _ hx
  all_goals first
    | exact hx
    | (cases hx; done)
    | (rw [hfin] at hx; cases hx; done)

theorem waitOf_last {A : State → Ev → Prop} {s : State} (r : Reach A s) (t : Nat) {c m : Nat} {kd : Kind}
    (h : waitOf (s.pc t) = some (c, m, kd)) : s.last t = .wait c m kd := by
  induction r with
  | init => cases h
  | step r _ hs ih =>
    rcases step_cases hs with ⟨u, cl, x, rfl, -, -, hr, rfl⟩ | ⟨u, ch, M', p', rfl, ta, hp, rfl⟩ | ⟨u, rfl, -, rfl⟩
    · by_cases hu : t = u
      · subst hu
        simp only [upd_same] at h ⊢
        cases cl <;> simp_all [Call.start, waitOf]
      · simp only [upd_ne _ _ hu] at h ⊢; exact ih h
    · by_cases hu : t = u
      · subst hu
        simp only [upd_same] at h
        exact ih (waitOf_stp (stp_of_plan hp) h)
      · simp only [upd_ne _ _ hu] at h; exact ih h
    · exact ih h

end Fullock.MC
