import Verif.Proofs.FLMore
import Verif.Proofs.FLExact
import Verif.Proofs.MCForever
import Verif.Spec.FLForever
/-! Executions of the file lock tables that never end. -/
namespace Fullock.FLive
open Fullock.FL Fullock.Spec
open Fullock.MC (const_from no_descent)

/-! ### The way through a call -/

/-- How far a thread is from the end of its call. The places of the waiting loop are equally far. -/
def rank : Pc → Nat
  | .done _ => 0
  | .acq (.rSet ..) => 10
  | .acq p => rank p + 1
  | .rel (.spin ..) => 10
  | .rel p => rank p + 1
  | .setf .. => 1
  | .f3 .. => 2
  | .f2 .. => 5
  | .f1 .. => 8
  | .spin .. => 10
  | .rSet .. => 10
  | .rChk .. => 10
  | .lOProt .. => 11
  | .lLk .. => 12
  | .lFProt .. => 13
  | .lOff .. => 14
  | .lFile .. => 15
  | .uFile .. => 2
  | .uOff .. => 3
  | .uCut .. => 4
  | .uFlag .. => 5
  | .uWord .. => 6
  | .uFind .. => 7
  | .qry .. => 2
  | .sw => 2

/-- The request and the records of a thread in the waiting loop. -/
def loopOf : Pc → Option (Op × Nat × Nat × Nat)
  | .spin op f o l => some (op, f, o, l)
  | .acq (.rSet op f o l) => some (op, f, o, l)
  | .rSet op f o l => some (op, f, o, l)
  | .rChk op f o l => some (op, f, o, l)
  | .rel (.spin op f o l) => some (op, f, o, l)
  | _ => none

/-- The steps that do not come closer to the end. -/
inductive Lp (m : Mem) (alive : Nat → Bool) : Pc → Choice → List Act → Pc → Prop
  | again (op f o l) (c) (hk : op.kind ≠ .try_) (hc : c = .go ∧ canTake (m.word o) op.mode = false ∨ c = .spur) :
      Lp m alive (.spin op f o l) c [] (.spin op f o l)
  | limit (op f o l) (hk : op.kind = .block) : Lp m alive (.spin op f o l) .limit [] (.acq (.rSet op f o l))
  | set (op f o l) : Lp m alive (.rSet op f o l) .go [.oprot o true] (.rChk op f o l)
  | dead (op f o l) (md l') (hl : l' ∈ m.lks o md) (hd : alive (m.ltid l') = false) :
      Lp m alive (.rChk op f o l) (.lk o md l') (sweepActs m o md l') (.rChk op f o l)
  | back (op f o l) : Lp m alive (.rChk op f o l) .go [.oprot o false] (.rel (.spin op f o l))
  | swL (o md l) (hl : l ∈ m.lks o md) (ho : ∃ f ∈ m.files, o ∈ m.offs f) (hd : alive (m.ltid l) = false) :
      Lp m alive .sw (.lk o md l) (sweepActs m o md l) .sw
  | swO (f o) (hf : f ∈ m.files) (ho : o ∈ m.offs f) (hn : oLocked m o = false) :
      Lp m alive .sw (.off f o) [.cutO f o, .pushO o] .sw
  | swF (f) (hf : f ∈ m.files) (ho : m.offs f = []) : Lp m alive .sw (.file f) [.cutF f, .pushF f] .sw

theorem rank_after3 (op : Op) (r : Nat) : rank (after3 op r) ≤ 3 := by unfold after3; split <;> simp [rank]
theorem rank_after2 (op : Op) (r f : Nat) : rank (after2 op r f) ≤ 6 := by
  unfold after2; split
  · simp [rank]
  · have := rank_after3 op r; omega

theorem rank_rel {p : Pc} {n : Nat} (h : rank p ≤ n) (hn : n < 10) : rank (.rel p) ≤ n + 1 := by
  cases p <;> simp_all [rank] <;> omega

theorem rank_plan {m : Mem} {alive : Nat → Bool} {t : Nat} {p : Pc} {c : Choice} {as : List Act} {p' : Pc}
    (h : plan m alive t p c = some (as, p')) : rank p' < rank p ∨ Lp m alive p c as p' := by
  have a3 := fun op r => rank_rel (rank_after3 op r) (by decide)
  have a2 := fun op r f => rank_rel (rank_after2 op r f) (by decide)
  unfold plan at h
  split at h
  all_goals
    repeat' split at h
    all_goals first
      | (cases h; done)
      | skip
  all_goals (obtain ⟨rfl, rfl⟩ := Option.some.inj h |> Prod.mk.inj)
  all_goals first
    | (left; simp [rank]; done)
    | (left; simp only [rank]; have := a3; have := a2; grind)
    | (right; constructor <;> grind)
    | skip
  rename_i hc
  obtain ⟨rfl, h1, h2⟩ := hc
  exact .inr (.dead _ _ _ _ _ _ h1 h2)

theorem rank_acq (p : Pc) : rank p ≤ rank (.acq p) ∧ (rank p = rank (.acq p) → ∃ op f o l, p = .rSet op f o l) := by
  cases p <;> simp [rank]

theorem rank_unrel (p : Pc) : rank p ≤ rank (.rel p) ∧ (rank p = rank (.rel p) → ∃ op f o l, p = .spin op f o l) := by
  cases p <;> simp [rank]

theorem rank_zero {p : Pc} (h : rank p = 0) : ∃ r, p = .done r := by
  unfold rank at h
  split at h <;> first | exact ⟨_, rfl⟩ | omega

theorem lp_rank {m : Mem} {alive : Nat → Bool} {p : Pc} {c : Choice} {as : List Act} {p' : Pc} (h : Lp m alive p c as p') :
    rank p' = rank p := by cases h <;> rfl

/-- The same for a thread that may be dead. -/
def rk (s : State) (t : Nat) : Nat := if s.alive t then rank (s.pc t) else 0

/-! ### Moments of an execution -/

theorem exec_reach {A : State → Ev → Prop} {σ : Nat → State} {ε : Nat → Option Ev} (h : Exec A σ ε) (i : Nat) : Reach A (σ i) := by
  induction i with
  | zero => obtain ⟨nf, no, nl, junk, e⟩ := h.start; rw [e]; exact .init ..
  | succ i ih =>
    have := h.next i
    cases he : ε i with
    | none => rw [he] at this; simp only at this; rw [this]; exact ih
    | some e => rw [he] at this; exact .step ih this.1 this.2

theorem plan_done (m : Mem) (alive : Nat → Bool) (t r : Nat) (c : Choice) : plan m alive t (.done r) c = none := by
  cases c <;> rfl

/-- No calls from `n` on. -/
def quietFrom (ε : Nat → Option Ev) (n : Nat) : Prop := ∀ j, n ≤ j → ∀ t c, ε j ≠ some (.call t c)

/-- What a step of `u` does: it takes the table lock, releases it, or acts. -/
inductive Mv (s : State) (u : Nat) (c : Choice) : State → Prop
  | acq (p) (hp : s.pc u = .acq p) (hl : s.lockid = 0 ∨ s.alive s.lockid = false) : Mv s u c ({ s with lockid := u }.setPc u p)
  | rel (p) (hp : s.pc u = .rel p) : Mv s u c ({ s with lockid := if s.lockid = u then 0 else s.lockid }.setPc u p)
  | act (as p') (hp : plan s.mem s.alive u (s.pc u) c = some (as, p')) : Mv s u c ({ s with mem := s.mem.acts as }.setPc u p')

theorem exec_moment {A : State → Ev → Prop} {σ : Nat → State} {ε : Nat → Option Ev} (h : Exec A σ ε) {i : Nat}
    (hq : ∀ t c, ε i ≠ some (.call t c)) :
    (ε i = none ∧ σ (i + 1) = σ i) ∨
    (∃ u c, ε i = some (.go u c) ∧ (σ i).alive u = true ∧ Mv (σ i) u c (σ (i + 1))) ∨
    (∃ u c k as, ε i = some (.die u c k) ∧ (σ i).alive u = true ∧ A (σ i) (.die u c k) ∧
      ((∃ p', plan (σ i).mem (σ i).alive u ((σ i).pc u) c = some (as, p')) ∨ as = []) ∧
      σ (i + 1) = { σ i with mem := (σ i).mem.acts (as.take k), alive := fset (σ i).alive u false }) := by
  have hn := h.next i
  cases he : ε i with
  | none => rw [he] at hn; exact .inl ⟨rfl, hn⟩
  | some e =>
    rw [he] at hn
    obtain ⟨ha, hs⟩ := hn
    rcases step_cases hs with ⟨t, c, r, rfl, -⟩ | ⟨t, c, p, rfl, hal, hpc, hl, e'⟩ |
      ⟨t, c, p, rfl, hal, hpc, e'⟩ | ⟨t, c, as, p', rfl, hal, hpl, e'⟩ | ⟨t, c, k, as, rfl, hal, hpl, e'⟩
    · exact absurd he (hq t c)
    · exact .inr (.inl ⟨t, c, rfl, hal, e' ▸ .acq p hpc hl⟩)
    · exact .inr (.inl ⟨t, c, rfl, hal, e' ▸ .rel p hpc⟩)
    · exact .inr (.inl ⟨t, c, rfl, hal, e' ▸ .act as p' hpl⟩)
    · exact .inr (.inr ⟨t, c, k, as, rfl, hal, ha, hpl.imp id And.right, e'⟩)

theorem mv_frame {s s' : State} {u : Nat} {c : Choice} (h : Mv s u c s') :
    s'.alive = s.alive ∧ ∀ v, v ≠ u → s'.pc v = s.pc v := by
  cases h <;> exact ⟨rfl, fun v hv => by simp [State.setPc, fset_other _ _ hv]⟩

theorem mv_rank {s s' : State} {u : Nat} {c : Choice} (h : Mv s u c s') : rank (s'.pc u) ≤ rank (s.pc u) := by
  cases h with
  | acq p hp hl => rw [hp]; simpa [State.setPc] using (rank_acq p).1
  | rel p hp => rw [hp]; simpa [State.setPc] using (rank_unrel p).1
  | act as p' hp =>
    simp only [State.setPc, fset_same]
    rcases rank_plan hp with h | h
    · omega
    · exact Nat.le_of_eq (lp_rank h)

theorem rk_mono {A : State → Ev → Prop} {σ : Nat → State} {ε : Nat → Option Ev} (h : Exec A σ ε) {n : Nat} (hn : quietFrom ε n)
    (t : Nat) {i : Nat} (hi : n ≤ i) : rk (σ (i + 1)) t ≤ rk (σ i) t := by
  rcases exec_moment h (hn i hi) with ⟨_, e⟩ | ⟨u, c, he, ha, hm⟩ | ⟨u, c, k, as, he, ha, _, _, e⟩
  · rw [e]; exact Nat.le_refl _
  · obtain ⟨h1, h2⟩ := mv_frame hm
    unfold rk
    rw [h1]
    by_cases ht : t = u
    · subst ht; rw [ha]; simpa using mv_rank hm
    · rw [h2 t ht]; exact Nat.le_refl _
  · rw [e]
    unfold rk
    by_cases ht : t = u
    · subst ht; simp
    · simp [fset_other _ _ ht]

/-- The threads that have issued a call before moment `n`. -/
def callers (ε : Nat → Option Ev) : Nat → List Nat
  | 0 => []
  | n + 1 => match ε n with
    | some (.call t _) => t :: callers ε n
    | _ => callers ε n

theorem not_caller {A : State → Ev → Prop} {σ : Nat → State} {ε : Nat → Option Ev} (h : Exec A σ ε) (n t : Nat) (ht : t ∉ callers ε n) :
    ∃ r, (σ n).pc t = .done r := by
  induction n with
  | zero => obtain ⟨_, _, _, _, e⟩ := h.start; rw [e]; exact ⟨_, rfl⟩
  | succ n ih =>
    simp only [callers] at ht
    by_cases hc : ∃ u c, ε n = some (.call u c)
    · obtain ⟨u, c, hu⟩ := hc
      rw [hu] at ht
      simp only [List.mem_cons, not_or] at ht
      have hn := h.next n
      rw [hu] at hn
      rcases step_cases hn.2 with ⟨u', c', r, he, _, _, _, e⟩ | ⟨_, _, _, he, _⟩ | ⟨_, _, _, he, _⟩ | ⟨_, _, _, _, he, _⟩ |
        ⟨_, _, _, _, he, _⟩ <;> cases he
      rw [e]
      simp only [State.setPc, fset_other _ _ ht.1]
      exact ih ht.2
    · have ht' : t ∉ callers ε n := by
        revert ht
        split
        · rename_i t' c' he; exact absurd ⟨t', c', he⟩ hc
        · exact id
      obtain ⟨r, hr⟩ := ih ht'
      rcases exec_moment h (fun u c he => hc ⟨u, c, he⟩) with ⟨_, e⟩ | ⟨u, c, he, ha, hm⟩ | ⟨u, c, k, as, he, ha, _, _, e⟩
      · rw [e]; exact ⟨r, hr⟩
      · by_cases hu : t = u
        · subst hu
          generalize σ (n + 1) = s' at hm ⊢
          cases hm with
          | acq p hp => rw [hr] at hp; cases hp
          | rel p hp => rw [hr] at hp; cases hp
          | act as p' hp => rw [hr, plan_done] at hp; cases hp
        · rw [(mv_frame hm).2 t hu]; exact ⟨r, hr⟩
      · rw [e]; exact ⟨r, hr⟩

/-- From some moment on no thread comes closer to the end of its call. -/
theorem settled {A : State → Ev → Prop} {σ : Nat → State} {ε : Nat → Option Ev} (h : Exec A σ ε) {n : Nat} (hn : quietFrom ε n) :
    ∃ m, n ≤ m ∧ ∀ t j, m ≤ j → rk (σ j) t = rk (σ m) t := by
  have key : ∀ l : List Nat, ∃ m, n ≤ m ∧ ∀ t ∈ l, ∀ j, m ≤ j → rk (σ j) t = rk (σ m) t := by
    intro l
    induction l with
    | nil => exact ⟨n, Nat.le_refl _, by simp⟩
    | cons t l ih =>
      obtain ⟨m1, h1, k1⟩ := ih
      obtain ⟨m2, h2, k2⟩ := const_from (fun j => rk (σ j) t) n (fun i hi => rk_mono h hn t hi)
      refine ⟨max m1 m2, by omega, ?_⟩
      intro u hu j hj
      rcases List.mem_cons.mp hu with rfl | hu
      · have e1 := k2 j (by omega)
        have e2 := k2 (max m1 m2) (by omega)
        exact e1.trans e2.symm
      · rw [k1 u hu j (by omega), k1 u hu (max m1 m2) (by omega)]
  obtain ⟨m, hm, hk⟩ := key (callers ε n)
  refine ⟨m, hm, fun t j hj => ?_⟩
  by_cases ht : t ∈ callers ε n
  · exact hk t ht j hj
  · have hz : ∀ d, rk (σ (n + d)) t = 0 := by
      intro d
      induction d with
      | zero =>
        obtain ⟨r, hr⟩ := not_caller h n t ht
        show rk (σ n) t = 0
        unfold rk; rw [hr]; simp [rank]
      | succ d ih => have := rk_mono h hn t (i := n + d) (by omega); rw [ih] at this; exact Nat.le_zero.mp this
    obtain ⟨d1, rfl⟩ := Nat.le.dest hm
    obtain ⟨d2, rfl⟩ := Nat.le.dest hj
    rw [hz d1, Nat.add_assoc, hz]

/-! ### After everything has settled -/

structure Late (σ : Nat → State) (ε : Nat → Option Ev) (n : Nat) : Prop where
  ex : Exec softDeath σ ε
  quiet : quietFrom ε n
  same : ∀ t j, n ≤ j → rk (σ j) t = rk (σ n) t

/-- The steps that are left. -/
inductive Slow (s : State) (u : Nat) (c : Choice) : State → Prop
  | acq (op f o l) (hp : s.pc u = .acq (.rSet op f o l)) (hl : s.lockid = 0 ∨ s.alive s.lockid = false) :
      Slow s u c ({ s with lockid := u }.setPc u (.rSet op f o l))
  | rel (op f o l) (hp : s.pc u = .rel (.spin op f o l)) :
      Slow s u c ({ s with lockid := if s.lockid = u then 0 else s.lockid }.setPc u (.spin op f o l))
  | act (as p') (hp : Lp s.mem s.alive (s.pc u) c as p') : Slow s u c ({ s with mem := s.mem.acts as }.setPc u p')

variable {σ : Nat → State} {ε : Nat → Option Ev} {n : Nat}

theorem Late.moment (h : Late σ ε n) {i : Nat} (hi : n ≤ i) :
    ((∀ u c, ε i ≠ some (.go u c)) ∧ σ (i + 1) = σ i) ∨
    (∃ u c, ε i = some (.go u c) ∧ (σ i).alive u = true ∧ Slow (σ i) u c (σ (i + 1))) ∨
    (∃ u r, (∀ u c, ε i ≠ some (.go u c)) ∧ (σ i).pc u = .done r ∧ σ (i + 1) = { σ i with alive := fset (σ i).alive u false }) := by
  rcases exec_moment h.ex (h.quiet i hi) with ⟨he, e⟩ | ⟨u, c, he, ha, hm⟩ | ⟨u, c, k, as, he, ha, _, hp, e⟩
  · exact .inl ⟨by rw [he]; nofun, e⟩
  · right; left
    refine ⟨u, c, he, ha, ?_⟩
    have h1 := h.same u i hi
    have h2 := h.same u (i + 1) (by omega)
    have hr : rank ((σ (i + 1)).pc u) = rank ((σ i).pc u) := by
      have := (mv_frame hm).1
      unfold rk at h1 h2
      rw [this, ha] at h2; rw [ha] at h1
      simp only [if_true] at h1 h2
      omega
    generalize σ (i + 1) = s' at hm hr
    cases hm with
    | acq p hp hl =>
      rw [hp] at hr
      simp only [State.setPc, fset_same] at hr
      obtain ⟨op, f, o, l, rfl⟩ := (rank_acq p).2 hr
      exact .acq _ _ _ _ hp hl
    | rel p hp =>
      rw [hp] at hr
      simp only [State.setPc, fset_same] at hr
      obtain ⟨op, f, o, l, rfl⟩ := (rank_unrel p).2 hr
      exact .rel _ _ _ _ hp
    | act as p' hp =>
      simp only [State.setPc, fset_same] at hr
      rcases rank_plan hp with h | h
      · omega
      · exact .act _ _ h
  · right; right
    have h1 := h.same u i hi
    have h2 := h.same u (i + 1) (by omega)
    have hr : rank ((σ i).pc u) = 0 := by
      have e2 : rk (σ (i + 1)) u = 0 := by rw [e]; simp [rk]
      have e1 : rk (σ i) u = rank ((σ i).pc u) := by simp [rk, ha]
      omega
    obtain ⟨r, hr⟩ := rank_zero hr
    refine ⟨u, r, by rw [he]; nofun, hr, ?_⟩
    have : as = [] := by
      rcases hp with ⟨p', hp⟩ | hp
      · rw [hr, plan_done] at hp; cases hp
      · exact hp
    subst this
    rw [e]; simp [Mem.acts]

theorem Late.reach (h : Late σ ε n) (j : Nat) : Reach softDeath (σ j) := exec_reach h.ex j
theorem Late.sinv (h : Late σ ε n) (j : Nat) : SInv (σ j) := reach_sinv (h.reach j)
theorem Late.einv (h : Late σ ε n) (j : Nat) : EInv (σ j) := reach_einv (fun _ _ h => h) (h.reach j)

theorem inCall_rk (s : State) (t : Nat) : inCall s t ↔ rk s t ≠ 0 := by
  unfold inCall rk
  constructor
  · rintro ⟨h1, h2⟩
    simp only [h1, if_true]
    intro h
    obtain ⟨r, hr⟩ := rank_zero h
    exact h2 r hr
  · intro h
    split at h
    · rename_i ha
      refine ⟨ha, fun r hr => ?_⟩
      rw [hr] at h; exact h rfl
    · exact absurd rfl h

theorem Late.call (h : Late σ ε n) {t i j : Nat} (hi : n ≤ i) (hj : n ≤ j) (hc : inCall (σ i) t) : inCall (σ j) t := by
  rw [inCall_rk] at hc ⊢
  rw [h.same t j hj, ← h.same t i hi]; exact hc

theorem slow_frame {s s' : State} {u : Nat} {c : Choice} (h : Slow s u c s') :
    s'.alive = s.alive ∧ (∀ v, v ≠ u → s'.pc v = s.pc v) ∧ loopOf (s'.pc u) = loopOf (s.pc u) ∧
      (loopOf (s.pc u) = none → s.pc u = .sw ∧ s'.pc u = .sw) := by
  cases h with
  | acq op f o l hp hl => exact ⟨rfl, fun v hv => by simp [State.setPc, fset_other _ _ hv], by simp [State.setPc, hp, loopOf], by simp [hp, loopOf]⟩
  | rel op f o l hp => exact ⟨rfl, fun v hv => by simp [State.setPc, fset_other _ _ hv], by simp [State.setPc, hp, loopOf], by simp [hp, loopOf]⟩
  | act as p' hp =>
    refine ⟨rfl, fun v hv => by simp [State.setPc, fset_other _ _ hv], ?_, ?_⟩ <;> simp only [State.setPc, fset_same]
    · generalize s.pc u = p at hp
      cases hp <;> rfl
    · generalize s.pc u = p at hp
      cases hp <;> simp [loopOf]

theorem Late.loop_step (h : Late σ ε n) (t : Nat) {i : Nat} (hi : n ≤ i) :
    loopOf ((σ (i + 1)).pc t) = loopOf ((σ i).pc t) ∧ (loopOf ((σ i).pc t) = none → (σ (i + 1)).pc t = (σ i).pc t) := by
  rcases h.moment hi with ⟨_, e⟩ | ⟨u, c, _, _, hm⟩ | ⟨u, r, _, _, e⟩
  · rw [e]; exact ⟨rfl, fun _ => rfl⟩
  · obtain ⟨_, h2, h3, h4⟩ := slow_frame hm
    by_cases ht : t = u
    · subst ht; exact ⟨h3, fun hl => (h4 hl).2.trans (h4 hl).1.symm⟩
    · rw [h2 t ht]; exact ⟨rfl, fun _ => rfl⟩
  · rw [e]; exact ⟨rfl, fun _ => rfl⟩

theorem Late.loop (h : Late σ ε n) (t : Nat) {i j : Nat} (hi : n ≤ i) (hj : i ≤ j) : loopOf ((σ j).pc t) = loopOf ((σ i).pc t) := by
  obtain ⟨d, rfl⟩ := Nat.le.dest hj
  clear hj
  induction d with
  | zero => rfl
  | succ d ih => exact ((h.loop_step t (i := i + d) (by omega)).1).trans ih

/-- Outside the waiting loop nothing moves. -/
theorem Late.stuck (h : Late σ ε n) {t i j : Nat} (hi : n ≤ i) (hj : i ≤ j) (hl : loopOf ((σ i).pc t) = none) :
    (σ j).pc t = (σ i).pc t := by
  obtain ⟨d, rfl⟩ := Nat.le.dest hj
  clear hj
  induction d with
  | zero => rfl
  | succ d ih => exact ((h.loop_step t (i := i + d) (by omega)).2 (by rw [ih]; exact hl)).trans ih

/-- While `u` makes no step: it stays where it is, and if it has the table lock nothing changes. -/
theorem Late.still (h : Late σ ε n) {u j k : Nat} (hj : n ≤ j) (hk : j ≤ k) (hc : inCall (σ j) u)
    (hno : ∀ i, j ≤ i → i < k → ∀ c, ε i ≠ some (.go u c)) :
    (σ k).pc u = (σ j).pc u ∧ (σ k).alive u = true ∧
      (inCS ((σ j).pc u) = true → (σ k).mem = (σ j).mem ∧ (σ k).lockid = u) := by
  obtain ⟨d, rfl⟩ := Nat.le.dest hk
  clear hk
  induction d with
  | zero => exact ⟨rfl, hc.1, fun h' => ⟨rfl, (h.sinv j).cs u hc.1 h'⟩⟩
  | succ d ih =>
    obtain ⟨h1, h2, h3⟩ := ih (fun i h1 h2 => hno i h1 (by omega))
    have hal := (h.call hj (show n ≤ j + (d + 1) by omega) hc).1
    refine ⟨?_, hal, ?_⟩
    · rw [← h1, ← Nat.add_assoc]
      rcases h.moment (i := j + d) (by omega) with ⟨_, e⟩ | ⟨v, c, he, _, hm⟩ | ⟨v, r, _, _, e⟩
      · rw [e]
      · refine (slow_frame hm).2.1 u ?_
        rintro rfl
        exact hno (j + d) (by omega) (by omega) c he
      · rw [e]
    · intro hcs
      obtain ⟨h4, h5⟩ := h3 hcs
      rw [← h4, ← Nat.add_assoc]
      have u0 : u ≠ 0 := (h.sinv j).nz u hc.2
      rcases h.moment (i := j + d) (by omega) with ⟨_, e⟩ | ⟨v, c, he, va, hm⟩ | ⟨v, r, _, _, e⟩
      · rw [e]; exact ⟨rfl, h5⟩
      · have hv : u ≠ v := by rintro rfl; exact hno (j + d) (by omega) (by omega) c he
        have hcv : inCS ((σ (j + d)).pc v) = false := by
          by_contra hn
          have := (h.sinv (j + d)).cs v va (by simpa using hn)
          exact hv (h5.symm.trans this)
        generalize σ (j + d + 1) = s' at hm ⊢
        cases hm with
        | acq op f o l hp hl => rw [h5, h2] at hl; rcases hl with hl | hl <;> [exact absurd hl u0; cases hl]
        | rel op f o l hp => rw [hp] at hcv; cases hcv
        | act as p' hp =>
          refine ⟨?_, h5⟩
          generalize (σ (j + d)).pc v = p at hp hcv
          cases hp <;> first | rfl | cases hcv
      · rw [e]; exact ⟨rfl, h5⟩

theorem plan_go' {m : Mem} {al : Nat → Bool} {t : Nat} {p : Pc} (h1 : ∀ r, p ≠ .done r) (h2 : ∀ q, p ≠ .acq q)
    (h3 : ∀ q, p ≠ .rel q) : ∃ x, plan m al t p .go = some x := by
  rw [← Option.isSome_iff_exists]
  cases p with
  | done r => exact absurd rfl (h1 r)
  | acq q => exact absurd rfl (h2 q)
  | rel q => exact absurd rfl (h3 q)
  | _ => simp only [FL.plan]; (repeat' split) <;> rfl

theorem mayGo_of {s : State} {t : Nat} (hc : inCall s t) (h2 : ∀ q, s.pc t ≠ .acq q) : mayGo s t := by
  by_cases h3 : ∃ q, s.pc t = .rel q
  · obtain ⟨q, hq⟩ := h3
    exact ⟨.go, _, by simp [step, hc.1, hq]; rfl⟩
  · have h3' : ∀ q, s.pc t ≠ .rel q := fun q e => h3 ⟨q, e⟩
    obtain ⟨x, hx⟩ := plan_go' (m := s.mem) (al := s.alive) (t := t) hc.2 h2 h3'
    refine ⟨.go, { s with mem := s.mem.acts x.1 }.setPc t x.2, ?_⟩
    simp only [step, hc.1]
    split
    · rename_i h; cases h
    · rw [hx]; rfl

/-- The next step of a thread that makes one sooner or later. -/
theorem first_go {u j : Nat} (h : ∃ k, j ≤ k ∧ ∃ c, ε k = some (.go u c)) :
    ∃ k c, j ≤ k ∧ ε k = some (.go u c) ∧ ∀ i, j ≤ i → i < k → ∀ c, ε i ≠ some (.go u c) := by
  obtain ⟨k, hk⟩ := h
  induction k using Nat.strongRecOn with
  | _ k ih =>
    obtain ⟨h1, c, hc⟩ := hk
    by_cases hn : ∃ i, i < k ∧ j ≤ i ∧ ∃ c, ε i = some (.go u c)
    · obtain ⟨i, h2, h3⟩ := hn
      exact ih i h2 h3
    · exact ⟨k, c, h1, hc, fun i h2 h3 c' hc' => hn ⟨i, h3, h2, c', hc'⟩⟩

/-- A thread in a call that does not wait for the table lock makes a step, and is there until then. -/
theorem Late.goes (h : Late σ ε n) (hf : Fair σ ε) {u j : Nat} (hj : n ≤ j) (hc : inCall (σ j) u) (h2 : ∀ q, (σ j).pc u ≠ .acq q) :
    ∃ k c, j ≤ k ∧ ε k = some (.go u c) ∧ (σ k).pc u = (σ j).pc u ∧ (σ k).alive u = true ∧ Slow (σ k) u c (σ (k + 1)) ∧
      (inCS ((σ j).pc u) = true → (σ k).mem = (σ j).mem ∧ (σ k).lockid = u) := by
  have hex : ∃ k, j ≤ k ∧ ∃ c, ε k = some (.go u c) := by
    by_contra hno
    have hno' : ∀ i, j ≤ i → ∀ c, ε i ≠ some (.go u c) := fun i hi c hc => hno ⟨i, hi, c, hc⟩
    obtain ⟨k, hk, c, he⟩ := hf u (fun i => ⟨max i j, by omega, by
      obtain ⟨h1, h2', _⟩ := h.still (k := max i j) hj (by omega) hc (fun i' hi' _ => hno' i' hi')
      exact mayGo_of (h.call hj (by omega) hc) (by rw [h1]; exact h2)⟩) j
    exact hno' k hk c he
  obtain ⟨k, c, hk, he, hno⟩ := first_go hex
  obtain ⟨h3, h4, h5⟩ := h.still hj hk hc hno
  refine ⟨k, c, hk, he, h3, h4, ?_, h5⟩
  rcases h.moment (i := k) (by omega) with ⟨h1, _⟩ | ⟨v, c', he', _, hm⟩ | ⟨_, _, h1, _⟩
  · exact absurd he (h1 u c)
  · rw [he] at he'; cases he'; exact hm
  · exact absurd he (h1 u c)

/-! ### Sweeps come to an end -/

theorem sweep_mem (m : Mem) (o : Nat) (md : Mode) (l : Nat) :
    (m.acts (sweepActs m o md l)).lks = fset m.lks o (fset (m.lks o) md ((m.lks o md).erase l)) ∧
    (m.acts (sweepActs m o md l)).files = m.files ∧ (m.acts (sweepActs m o md l)).offs = m.offs ∧
    (m.acts (sweepActs m o md l)).ltid = m.ltid ∧ (m.acts (sweepActs m o md l)).outs = revoke m.outs l ∧
    ∀ l', (m.acts (sweepActs m o md l)).taken l' = true → m.taken l' = true := by
  have rr : revoke (revoke m.outs l) l = revoke m.outs l := by simp [revoke, List.filter_filter]
  unfold sweepActs
  split <;> simp only [Mem.acts, List.cons_append, List.nil_append, List.foldl, Mem.act, rr, true_and]
  · intro l' h
    simp only [fset] at h
    split at h
    · cases h
    · exact h
  · exact fun _ h => h

theorem sum_map_le {α : Type} {f g : α → Nat} {l : List α} (h : ∀ x ∈ l, g x ≤ f x) : (l.map g).sum ≤ (l.map f).sum := by
  induction l with
  | nil => exact Nat.le_refl _
  | cons a l ih =>
    have := ih fun x hx => h x (List.mem_cons_of_mem _ hx)
    have := h a (List.mem_cons_self ..)
    simp only [List.map_cons, List.sum_cons]; omega

theorem sum_map_lt {α : Type} {f g : α → Nat} {l : List α} (h : ∀ x ∈ l, g x ≤ f x) {x : α} (hx : x ∈ l) (hl : g x < f x) :
    (l.map g).sum < (l.map f).sum := by
  induction l with
  | nil => cases hx
  | cons a l ih =>
    have h1 := sum_map_le fun x hx => h x (List.mem_cons_of_mem a hx)
    have h2 := h a (List.mem_cons_self ..)
    simp only [List.map_cons, List.sum_cons]
    rcases List.mem_cons.mp hx with rfl | hx
    · omega
    · have := ih (fun x hx => h x (List.mem_cons_of_mem a hx)) hx; omega

theorem sum_erase {α : Type} [DecidableEq α] {f : α → Nat} {l : List α} {x : α} (hx : x ∈ l) :
    ((l.erase x).map f).sum + f x = (l.map f).sum := by
  induction l with
  | nil => cases hx
  | cons a l ih =>
    by_cases e : a = x
    · subst e; simp; omega
    · have := ih ((List.mem_cons.mp hx).resolve_left (Ne.symm e))
      have e' : (a == x) = false := by simpa using e
      rw [List.erase_cons, e']
      simp only [Bool.false_eq_true, if_false, List.map_cons, List.sum_cons]; omega

/-- The number of lockers of a range. -/
def lsize (m : Mem) (o : Nat) : Nat := (m.lks o .rd).length + (m.lks o .wr).length

/-- The number of records in use. -/
def tsize (m : Mem) : Nat := (m.files.map fun f => 1 + ((m.offs f).map fun o => 1 + lsize m o).sum).sum

theorem lsize_sweep {m : Mem} {o : Nat} {md : Mode} {l : Nat} (hl : l ∈ m.lks o md) :
    lsize (m.acts (sweepActs m o md l)) o < lsize m o ∧ ∀ o', lsize (m.acts (sweepActs m o md l)) o' ≤ lsize m o' := by
  have e := (sweep_mem m o md l).1
  have hlen := List.length_erase_of_mem hl
  have hpos := List.length_pos_of_mem hl
  have key : lsize (m.acts (sweepActs m o md l)) o < lsize m o := by
    unfold lsize; rw [e]
    cases md <;> simp [fset] <;> omega
  refine ⟨key, fun o' => ?_⟩
  by_cases h : o' = o
  · subst h; omega
  · unfold lsize; rw [e, fset_other _ _ h]; exact Nat.le_refl _

theorem lp_sw {m : Mem} {alive : Nat → Bool} {p : Pc} {c : Choice} {as : List Act} {p' : Pc} (h : Lp m alive p c as p') (hp : p = .sw) :
    tsize (m.acts as) < tsize m := by
  cases h <;> simp only [reduceCtorEq] at hp
  · rename_i o md l hl ho hd
    obtain ⟨f, hf, ho⟩ := ho
    obtain ⟨h1, h2⟩ := lsize_sweep hl
    unfold tsize
    rw [(sweep_mem m o md l).2.1, (sweep_mem m o md l).2.2.1]
    refine sum_map_lt (x := f) (fun f' _ => ?_) hf ?_
    · exact Nat.add_le_add_left (sum_map_le fun o' _ => Nat.add_le_add_left (h2 o') 1) 1
    · exact Nat.add_lt_add_left (sum_map_lt (fun o' _ => Nat.add_le_add_left (h2 o') 1) ho (Nat.add_lt_add_left h1 1)) 1
  · rename_i f o hf ho hn
    show tsize _ < tsize m
    unfold tsize
    simp only [Mem.acts, List.foldl, Mem.act]
    have hs := sum_erase (f := fun o => 1 + lsize m o) ho
    have hz : ∀ o', lsize { m with offs := fset m.offs f ((m.offs f).erase o), ofree := o :: m.ofree } o' = lsize m o' := fun _ => rfl
    refine sum_map_lt (x := f) (fun f' _ => ?_) hf ?_
    · by_cases e : f' = f
      · subst e; simp only [fset_same, hz]; omega
      · simp only [fset_other _ _ e, hz]; exact Nat.le_refl _
    · simp only [fset_same, hz]; omega
  · rename_i f hf ho
    unfold tsize
    simp only [Mem.acts, List.foldl, Mem.act]
    have hs := sum_erase (f := fun f => 1 + ((m.offs f).map fun o => 1 + lsize m o).sum) hf
    have hz : ∀ o', lsize { m with files := m.files.erase f, ffree := f :: m.ffree } o' = lsize m o' := fun _ => rfl
    simp only [hz]; omega

theorem slow_sw {s s' : State} {u : Nat} {c : Choice} (h : Slow s u c s') (hp : s.pc u = .sw) :
    tsize s'.mem < tsize s.mem ∧ s'.pc u = .sw := by
  have hl := (slow_frame h).2.2.2 (by rw [hp]; rfl)
  refine ⟨?_, hl.2⟩
  cases h with
  | acq op f o l hp' => rw [hp] at hp'; cases hp'
  | rel op f o l hp' => rw [hp] at hp'; cases hp'
  | act as p' hp' => exact lp_sw hp' hp

theorem Late.no_sw (h : Late σ ε n) (hf : Fair σ ε) {u : Nat} : ∀ (m j : Nat), n ≤ j → (σ j).alive u = true → (σ j).pc u = .sw →
    tsize (σ j).mem = m → False := by
  intro m
  induction m using Nat.strongRecOn with
  | _ m ih =>
    intro j hj ha hp hm
    obtain ⟨k, c, hk, he, h1, h2, hs, h3⟩ := h.goes hf hj ⟨ha, by rw [hp]; nofun⟩ (by rw [hp]; nofun)
    rw [hp] at h1 h3
    obtain ⟨h4, h5⟩ := slow_sw hs h1
    rw [(h3 rfl).1] at h4
    exact ih _ (hm ▸ h4) (k + 1) (by omega) (by rw [(slow_frame hs).1]; exact h2) h5 rfl

/-- Who is in a call is in the waiting loop, or waits for the table lock. -/
theorem Late.where (h : Late σ ε n) (hf : Fair σ ε) {u j : Nat} (hj : n ≤ j) (hc : inCall (σ j) u) :
    (loopOf ((σ j).pc u)).isSome = true ∨ ∃ q, (σ j).pc u = .acq q := by
  cases hl : loopOf ((σ j).pc u) with
  | some x => exact .inl rfl
  | none =>
    right
    refine Classical.byContradiction fun hn => ?_
    obtain ⟨k, c, hk, he, h1, h2, hs, _⟩ := h.goes hf hj hc (fun q e => hn ⟨q, e⟩)
    have h3 := (slow_frame hs).2.2.2 (by rw [h1]; exact hl)
    exact h.no_sw hf _ k (by omega) h2 h3.1 rfl

/-! ### The table lock is free again and again -/

theorem slow_rSet {s s' : State} {u : Nat} {c : Choice} (h : Slow s u c s') {op : Op} {f o l : Nat} (hp : s.pc u = .rSet op f o l) :
    s'.pc u = .rChk op f o l := by
  cases h with
  | acq op f o l hp' => rw [hp] at hp'; cases hp'
  | rel op f o l hp' => rw [hp] at hp'; cases hp'
  | act as p' hp' => rw [hp] at hp'; cases hp'; simp [State.setPc]

theorem slow_rel {s s' : State} {u : Nat} {c : Choice} (h : Slow s u c s') {op : Op} {f o l : Nat} (hp : s.pc u = .rel (.spin op f o l)) :
    s'.pc u = .spin op f o l ∧ (s.lockid = u → s'.lockid = 0) ∧ s'.mem = s.mem := by
  cases h with
  | acq op f o l hp' => rw [hp] at hp'; cases hp'
  | rel op f o l hp' => rw [hp] at hp'; cases hp'; exact ⟨by simp [State.setPc], by simp +contextual [State.setPc], rfl⟩
  | act as p' hp' => rw [hp] at hp'; cases hp'

theorem slow_rChk {s s' : State} {u : Nat} {c : Choice} (h : Slow s u c s') {op : Op} {f o l : Nat} (hp : s.pc u = .rChk op f o l) :
    (s'.pc u = .rChk op f o l ∧ lsize s'.mem o < lsize s.mem o) ∨ (c = .go ∧ s'.pc u = .rel (.spin op f o l)) := by
  cases h with
  | acq op f o l hp' => rw [hp] at hp'; cases hp'
  | rel op f o l hp' => rw [hp] at hp'; cases hp'
  | act as p' hp' =>
    rw [hp] at hp'
    cases hp' with
    | dead _ _ _ _ md l' hl hd => exact .inl ⟨by simp [State.setPc], (lsize_sweep hl).1⟩
    | back => exact .inr ⟨rfl, by simp [State.setPc]⟩

theorem slow_spin {s s' : State} {u : Nat} {c : Choice} (h : Slow s u c s') {op : Op} {f o l : Nat} (hp : s.pc u = .spin op f o l) :
    op.kind ≠ .try_ ∧ ((s'.pc u = .spin op f o l ∧ (c = .go ∧ canTake (s.mem.word o) op.mode = false ∨ c = .spur)) ∨
      (op.kind = .block ∧ c = .limit ∧ s'.pc u = .acq (.rSet op f o l))) := by
  cases h with
  | acq op f o l hp' => rw [hp] at hp'; cases hp'
  | rel op f o l hp' => rw [hp] at hp'; cases hp'
  | act as p' hp' =>
    rw [hp] at hp'
    cases hp' with
    | again _ _ _ _ _ hk hc => exact ⟨hk, .inl ⟨by simp [State.setPc], hc⟩⟩
    | limit _ _ _ _ hk => exact ⟨by rw [hk]; nofun, .inr ⟨hk, rfl, by simp [State.setPc]⟩⟩

theorem slow_acq {s s' : State} {u : Nat} {c : Choice} (h : Slow s u c s') {q : Pc} (hp : s.pc u = .acq q) :
    ∃ op f o l, q = .rSet op f o l ∧ s'.pc u = .rSet op f o l := by
  cases h with
  | acq op f o l hp' => rw [hp] at hp'; cases hp'; exact ⟨_, _, _, _, rfl, by simp [State.setPc]⟩
  | rel op f o l hp' => rw [hp] at hp'; cases hp'
  | act as p' hp' => rw [hp] at hp'; cases hp'

/-- The check for dead holders ends. -/
theorem Late.chk_ends (h : Late σ ε n) (hf : Fair σ ε) {u : Nat} {op : Op} {f o l : Nat} : ∀ (m j : Nat), n ≤ j → (σ j).alive u = true →
    (σ j).pc u = .rChk op f o l → lsize (σ j).mem o = m →
    ∃ k, j ≤ k ∧ (σ k).pc u = .rChk op f o l ∧ ε k = some (.go u .go) ∧ (σ (k + 1)).alive u = true ∧
      (σ (k + 1)).pc u = .rel (.spin op f o l) := by
  intro m
  induction m using Nat.strongRecOn with
  | _ m ih =>
    intro j hj ha hp hm
    obtain ⟨k, c, hk, he, h1, h2, hs, h3⟩ := h.goes hf hj ⟨ha, by rw [hp]; nofun⟩ (by rw [hp]; nofun)
    rw [hp] at h1 h3
    have ha' : (σ (k + 1)).alive u = true := by rw [(slow_frame hs).1]; exact h2
    rcases slow_rChk hs h1 with ⟨h4, h5⟩ | ⟨rfl, h4⟩
    · rw [(h3 rfl).1] at h5
      obtain ⟨k', a1, a2, a3, a4⟩ := ih _ (hm ▸ h5) (k + 1) (by omega) ha' h4 rfl
      exact ⟨k', by omega, a2, a3, a4⟩
    · exact ⟨k, hk, h1, he, ha', h4⟩

theorem Late.rel_ends (h : Late σ ε n) (hf : Fair σ ε) {u : Nat} {op : Op} {f o l j : Nat} (hj : n ≤ j) (ha : (σ j).alive u = true)
    (hp : (σ j).pc u = .rel (.spin op f o l)) :
    ∃ k c, j ≤ k ∧ ε k = some (.go u c) ∧ (σ (k + 1)).alive u = true ∧ (σ (k + 1)).pc u = .spin op f o l ∧ (σ (k + 1)).lockid = 0 := by
  obtain ⟨k, c, hk, he, h1, h2, hs, h3⟩ := h.goes hf hj ⟨ha, by rw [hp]; nofun⟩ (by rw [hp]; nofun)
  rw [hp] at h1 h3
  obtain ⟨h4, h5, _⟩ := slow_rel hs h1
  exact ⟨k, c, hk, he, by rw [(slow_frame hs).1]; exact h2, h4, h5 (h3 rfl).2⟩

/-- A waiting thread that has the table lock gives it back. -/
theorem Late.gives (h : Late σ ε n) (hf : Fair σ ε) {u j : Nat} {op : Op} {f o l : Nat} (hj : n ≤ j) (ha : (σ j).alive u = true)
    (hp : loopOf ((σ j).pc u) = some (op, f, o, l)) (hc : inCS ((σ j).pc u) = true) :
    ∃ k, j ≤ k ∧ (σ k).alive u = true ∧ (σ k).pc u = .spin op f o l ∧ (σ k).lockid = 0 := by
  have r1 : ∀ j, n ≤ j → (σ j).alive u = true → (σ j).pc u = .rChk op f o l →
      ∃ k, j ≤ k ∧ (σ k).alive u = true ∧ (σ k).pc u = .spin op f o l ∧ (σ k).lockid = 0 := by
    intro j hj ha hp
    obtain ⟨k, h1, h2, h3, h4, h5⟩ := h.chk_ends hf _ j hj ha hp rfl
    obtain ⟨k', c, g1, _, g2, g3, g4⟩ := h.rel_ends hf (j := k + 1) (by omega) h4 h5
    exact ⟨k' + 1, by omega, g2, g3, g4⟩
  cases hq : (σ j).pc u <;> rw [hq] at hp hc <;> simp only [loopOf, inCS, Bool.false_eq_true, reduceCtorEq] at hp hc
  case rel q =>
    cases q <;> simp only [reduceCtorEq] at hp
    obtain ⟨rfl, rfl, rfl, rfl⟩ := by simpa using hp
    obtain ⟨k', c, g1, _, g2, g3, g4⟩ := h.rel_ends hf hj ha hq
    exact ⟨k' + 1, by omega, g2, g3, g4⟩
  case rSet =>
    obtain ⟨rfl, rfl, rfl, rfl⟩ := by simpa using hp
    obtain ⟨k, c, hk, he, h1, h2, hs, h3⟩ := h.goes hf hj ⟨ha, by rw [hq]; nofun⟩ (by rw [hq]; nofun)
    rw [hq] at h1
    obtain ⟨k', g1, g2⟩ := r1 (k + 1) (by omega) (by rw [(slow_frame hs).1]; exact h2) (slow_rSet hs h1)
    exact ⟨k', by omega, g2⟩
  case rChk =>
    obtain ⟨rfl, rfl, rfl, rfl⟩ := by simpa using hp
    exact r1 j hj ha hq

theorem Late.free (h : Late σ ε n) (hf : Fair σ ε) {i : Nat} (hi : n ≤ i) :
    ∃ j, i ≤ j ∧ ((σ j).lockid = 0 ∨ (σ j).alive (σ j).lockid = false) := by
  by_cases h0 : (σ i).lockid = 0
  · exact ⟨i, Nat.le_refl _, .inl h0⟩
  by_cases ha : (σ i).alive (σ i).lockid = false
  · exact ⟨i, Nat.le_refl _, .inr ha⟩
  have ha : (σ i).alive (σ i).lockid = true := by simpa using ha
  have hc := reach_csIff (h.reach i) _ h0 rfl ha
  have hin : inCall (σ i) (σ i).lockid := ⟨ha, fun r e => by rw [e] at hc; cases hc⟩
  rcases h.where hf hi hin with hl | ⟨q, hq⟩
  · obtain ⟨⟨op, f, o, l⟩, hl⟩ := Option.isSome_iff_exists.1 hl
    obtain ⟨k, h1, h2, h3, h4⟩ := h.gives hf hi ha hl hc
    exact ⟨k, h1, .inl h4⟩
  · rw [hq] at hc; cases hc

/-- Who waits for the table lock gets it. -/
theorem Late.gets (h : Late σ ε n) (hf : Fair σ ε) {u j : Nat} {q : Pc} (hj : n ≤ j) (hc : inCall (σ j) u) (hq : (σ j).pc u = .acq q) :
    ∃ op f o l, q = .rSet op f o l ∧ ∃ k, j ≤ k ∧ (σ k).alive u = true ∧ (σ k).pc u = .rSet op f o l := by
  have hex : ∃ k, j ≤ k ∧ ∃ c, ε k = some (.go u c) := by
    refine Classical.byContradiction fun hno => ?_
    have hno' : ∀ i, j ≤ i → ∀ c, ε i ≠ some (.go u c) := fun i hi c hc => hno ⟨i, hi, c, hc⟩
    obtain ⟨k, hk, c, he⟩ := hf u (fun i => by
      obtain ⟨i', h1, h2⟩ := h.free hf (i := max i j) (by omega)
      refine ⟨i', by omega, ?_⟩
      obtain ⟨h3, h4, _⟩ := h.still (k := i') hj (by omega) hc (fun i' hi' _ => hno' i' hi')
      rw [hq] at h3
      exact ⟨.go, _, by simp [step, h4, h3, h2]; rfl⟩) j
    exact hno' k hk c he
  obtain ⟨k, c, hk, he, hno⟩ := first_go hex
  obtain ⟨h3, h4, h5⟩ := h.still hj hk hc hno
  rcases h.moment (i := k) (by omega) with ⟨h1, _⟩ | ⟨v, c', he', _, hm⟩ | ⟨_, _, h1, _⟩
  · exact absurd he (h1 u c)
  · rw [he] at he'; cases he'
    rw [hq] at h3
    obtain ⟨op, f, o, l, e, h6⟩ := slow_acq hm h3
    exact ⟨op, f, o, l, e, k + 1, by omega, by rw [(slow_frame hm).1]; exact h4, h6⟩
  · exact absurd he (h1 u c)

/-- Everybody in a call is in the waiting loop. -/
theorem Late.loops (h : Late σ ε n) (hf : Fair σ ε) {u j : Nat} (hj : n ≤ j) (hc : inCall (σ j) u) :
    ∃ x, loopOf ((σ j).pc u) = some x := by
  rcases h.where hf hj hc with hl | ⟨q, hq⟩
  · exact Option.isSome_iff_exists.1 hl
  · obtain ⟨op, f, o, l, e, _⟩ := h.gets hf hj hc hq
    rw [hq, e]; exact ⟨_, rfl⟩

/-- … and comes to the attempt again and again. -/
theorem Late.home (h : Late σ ε n) (hf : Fair σ ε) {u j : Nat} {op : Op} {f o l : Nat} (hj : n ≤ j) (hc : inCall (σ j) u)
    (hl : loopOf ((σ j).pc u) = some (op, f, o, l)) : ∃ k, j ≤ k ∧ (σ k).pc u = .spin op f o l := by
  by_cases hcs : inCS ((σ j).pc u) = true
  · obtain ⟨k, h1, _, h2, _⟩ := h.gives hf hj hc.1 hl hcs
    exact ⟨k, h1, h2⟩
  · cases hq : (σ j).pc u <;> rw [hq] at hl hcs <;> simp only [loopOf, inCS, not_true, reduceCtorEq] at hl hcs
    case spin =>
      obtain ⟨rfl, rfl, rfl, rfl⟩ := by simpa using hl
      exact ⟨j, Nat.le_refl _, hq⟩
    case acq q =>
      obtain ⟨op', f', o', l', rfl, k, hk, ha, hp⟩ := h.gets hf hj hc hq
      obtain ⟨rfl, rfl, rfl, rfl⟩ := by simpa using hl
      obtain ⟨k', h1, _, h2, _⟩ := h.gives hf (j := k) (by omega) ha (by rw [hp]; rfl) (by rw [hp]; rfl)
      exact ⟨k', by omega, h2⟩

/-! ### Waiting -/

theorem Late.own_step (h : Late σ ε n) {j : Nat} (hj : n ≤ j) {u : Nat} {c : Choice} (he : ε j = some (.go u c)) :
    Slow (σ j) u c (σ (j + 1)) := by
  rcases h.moment hj with ⟨h1, _⟩ | ⟨v, c', he', _, hm⟩ | ⟨_, _, h1, _⟩
  · exact absurd he (h1 u c)
  · rw [he] at he'; cases he'; exact hm
  · exact absurd he (h1 u c)

/-- Either `u` stays at its place, or it makes a step. -/
theorem Late.one (h : Late σ ε n) {j : Nat} (hj : n ≤ j) (u : Nat) :
    (σ (j + 1)).pc u = (σ j).pc u ∨ ∃ c, ε j = some (.go u c) ∧ Slow (σ j) u c (σ (j + 1)) := by
  rcases h.moment hj with ⟨_, e⟩ | ⟨v, c', he', _, hm⟩ | ⟨_, _, _, _, e⟩
  · rw [e]; exact .inl rfl
  · by_cases e : u = v
    · subst e; exact .inr ⟨c', he', hm⟩
    · exact .inl ((slow_frame hm).2.1 u e)
  · rw [e]; exact .inl rfl

/-- Only threads that wait without limit are left. -/
theorem Late.block (h : Late σ ε n) (hf : Fair σ ε) (ht : Timely σ ε) {u j : Nat} {op : Op} {f o l : Nat} (hj : n ≤ j)
    (hc : inCall (σ j) u) (hl : loopOf ((σ j).pc u) = some (op, f, o, l)) : op.kind = .block := by
  obtain ⟨k, hk, hp⟩ := h.home hf hj hc hl
  refine Classical.byContradiction fun hb => ?_
  have hck : inCall (σ k) u := h.call hj (by omega) hc
  obtain ⟨k1, c, hk1, he, h1, h2, hs, _⟩ := h.goes hf (j := k) (by omega) hck (by rw [hp]; nofun)
  have htry : op.kind ≠ .try_ := (slow_spin hs (h1.trans hp)).1
  have hall : ∀ d, (σ (k + d)).pc u = .spin op f o l := by
    intro d
    induction d with
    | zero => exact hp
    | succ d ih =>
      rcases h.one (j := k + d) (by omega) u with e | ⟨c, _, hs⟩
      · exact e.trans ih
      · rcases (slow_spin hs ih).2 with ⟨e, _⟩ | ⟨e, _⟩
        · exact e
        · exact absurd e hb
  obtain ⟨j', hj', he'⟩ := ht u k (fun i hi => by
    obtain ⟨d, rfl⟩ := Nat.le.dest hi
    exact ⟨(h.call hj (by omega) hc).1, op, f, o, l, hall d, htry⟩)
  obtain ⟨d, rfl⟩ := Nat.le.dest hj'
  rcases (slow_spin (h.own_step (by omega) he') (hall d)).2 with ⟨_, ⟨e, _⟩ | e⟩ | ⟨e, _⟩
  · cases e
  · cases e
  · exact hb e

/-- Who waits without limit checks for dead holders again and again. -/
theorem Late.checks (h : Late σ ε n) (hf : Fair σ ε) (ht : Timely σ ε) {u j : Nat} {op : Op} {f o l : Nat} (hj : n ≤ j)
    (hc : inCall (σ j) u) (hl : loopOf ((σ j).pc u) = some (op, f, o, l)) :
    ∃ k, j ≤ k ∧ (σ k).pc u = .rChk op f o l ∧ ε k = some (.go u .go) ∧ (σ (k + 1)).pc u = .rel (.spin op f o l) := by
  have hb := h.block hf ht hj hc hl
  obtain ⟨k, hk, hp⟩ := h.home hf hj hc hl
  have hck : ∀ i, n ≤ i → inCall (σ i) u := fun i hi => h.call hj hi hc
  have hacq : ∃ i, k ≤ i ∧ (σ i).pc u = .acq (.rSet op f o l) := by
    refine Classical.byContradiction fun hno => ?_
    have hall : ∀ d, (σ (k + d)).pc u = .spin op f o l := by
      intro d
      induction d with
      | zero => exact hp
      | succ d ih =>
        rcases h.one (j := k + d) (by omega) u with e | ⟨c, _, hs⟩
        · exact e.trans ih
        · rcases (slow_spin hs ih).2 with ⟨e, _⟩ | ⟨_, _, e⟩
          · exact e
          · exact absurd ⟨k + d + 1, by omega, e⟩ hno
    obtain ⟨j', hj', he'⟩ := ht u k (fun i hi => by
      obtain ⟨d, rfl⟩ := Nat.le.dest hi
      exact ⟨(hck _ (by omega)).1, op, f, o, l, hall d, by rw [hb]; nofun⟩)
    obtain ⟨d, rfl⟩ := Nat.le.dest hj'
    rcases (slow_spin (h.own_step (by omega) he') (hall d)).2 with ⟨_, ⟨e, _⟩ | e⟩ | ⟨_, _, e⟩
    · cases e
    · cases e
    · exact hno ⟨k + d + 1, by omega, e⟩
  obtain ⟨i, hi, hpi⟩ := hacq
  obtain ⟨op', f', o', l', e, k1, hk1, ha1, hp1⟩ := h.gets hf (j := i) (by omega) (hck i (by omega)) hpi
  cases e
  obtain ⟨k2, c, hk2, he, h1, h2, hs, _⟩ := h.goes hf (j := k1) (by omega) (hck k1 (by omega)) (by rw [hp1]; nofun)
  have hp2 := slow_rSet hs (h1.trans hp1)
  obtain ⟨k3, a1, a2, a3, a4, a5⟩ := h.chk_ends hf _ (k2 + 1) (by omega) (hck _ (by omega)).1 hp2 rfl
  exact ⟨k3, by omega, a2, a3, a5⟩

/-! ### What changes in the tables -/

theorem lp_mem {m : Mem} {alive : Nat → Bool} {p : Pc} {c : Choice} {as : List Act} {p' : Pc} (h : Lp m alive p c as p') :
    (∀ o md l, l ∈ (m.acts as).lks o md → l ∈ m.lks o md) ∧ (m.acts as).ltid = m.ltid ∧
      (∀ l, (m.acts as).taken l = true → m.taken l = true) ∧ (∀ x ∈ (m.acts as).outs, x ∈ m.outs) ∧
      (∀ x ∈ m.outs, alive (m.ltid x.1) = true → x ∈ (m.acts as).outs) ∧
      (∀ o md l, l ∈ m.lks o md → alive (m.ltid l) = true → l ∈ (m.acts as).lks o md) := by
  have triv : ∀ m' : Mem, m'.lks = m.lks → m'.ltid = m.ltid → m'.taken = m.taken → m'.outs = m.outs →
      (∀ o md l, l ∈ m'.lks o md → l ∈ m.lks o md) ∧ m'.ltid = m.ltid ∧
      (∀ l, m'.taken l = true → m.taken l = true) ∧ (∀ x ∈ m'.outs, x ∈ m.outs) ∧
      (∀ x ∈ m.outs, alive (m.ltid x.1) = true → x ∈ m'.outs) ∧
      (∀ o md l, l ∈ m.lks o md → alive (m.ltid l) = true → l ∈ m'.lks o md) := by
    intro m' h1 h2 h3 h4
    rw [h1, h2, h3, h4]
    exact ⟨fun _ _ _ h => h, rfl, fun _ h => h, fun _ h => h, fun _ h _ => h, fun _ _ _ h _ => h⟩
  have swp : ∀ o md l, l ∈ m.lks o md → alive (m.ltid l) = false →
      (∀ o' md' l', l' ∈ (m.acts (sweepActs m o md l)).lks o' md' → l' ∈ m.lks o' md') ∧ (m.acts (sweepActs m o md l)).ltid = m.ltid ∧
      (∀ l', (m.acts (sweepActs m o md l)).taken l' = true → m.taken l' = true) ∧
      (∀ x ∈ (m.acts (sweepActs m o md l)).outs, x ∈ m.outs) ∧
      (∀ x ∈ m.outs, alive (m.ltid x.1) = true → x ∈ (m.acts (sweepActs m o md l)).outs) ∧
      (∀ o' md' l', l' ∈ m.lks o' md' → alive (m.ltid l') = true → l' ∈ (m.acts (sweepActs m o md l)).lks o' md') := by
    intro o md l hl hd
    obtain ⟨e1, _, _, e4, e5, e6⟩ := sweep_mem m o md l
    refine ⟨?_, e4, e6, ?_, ?_, ?_⟩
    · intro o' md' l' h'
      rw [e1] at h'
      by_cases h1 : o' = o
      · subst h1
        rw [fset_same] at h'
        by_cases h2 : md' = md
        · subst h2; rw [fset_same] at h'; exact List.mem_of_mem_erase h'
        · rw [fset_other _ _ h2] at h'; exact h'
      · rw [fset_other _ _ h1] at h'; exact h'
    · intro x hx; rw [e5] at hx; exact (List.mem_filter.mp hx).1
    · intro x hx ha; rw [e5]
      refine List.mem_filter.mpr ⟨hx, ?_⟩
      have : x.1 ≠ l := by intro e; rw [e, hd] at ha; cases ha
      simpa using this
    · intro o' md' l' hl' ha
      have hne : l' ≠ l := by intro e; rw [e, hd] at ha; cases ha
      rw [e1]
      by_cases h1 : o' = o
      · subst h1
        rw [fset_same]
        by_cases h2 : md' = md
        · subst h2; rw [fset_same]; exact (List.mem_erase_of_ne hne).mpr hl'
        · rw [fset_other _ _ h2]; exact hl'
      · rw [fset_other _ _ h1]; exact hl'
  cases h with
  | dead op f o l md l' hl hd => exact swp _ _ _ hl hd
  | swL o md l hl ho hd => exact swp _ _ _ hl hd
  | _ => exact triv _ rfl rfl rfl rfl

theorem Late.mem_step (h : Late σ ε n) {j : Nat} (hj : n ≤ j) :
    (∀ o md l, l ∈ (σ (j + 1)).mem.lks o md → l ∈ (σ j).mem.lks o md) ∧ (σ (j + 1)).mem.ltid = (σ j).mem.ltid ∧
      (∀ l, (σ (j + 1)).mem.taken l = true → (σ j).mem.taken l = true) ∧
      (∀ x ∈ (σ (j + 1)).mem.outs, x ∈ (σ j).mem.outs) ∧
      (∀ x ∈ (σ j).mem.outs, (σ j).alive ((σ j).mem.ltid x.1) = true → x ∈ (σ (j + 1)).mem.outs) ∧
      (∀ o md l, l ∈ (σ j).mem.lks o md → (σ j).alive ((σ j).mem.ltid l) = true → l ∈ (σ (j + 1)).mem.lks o md) := by
  have triv : (σ (j + 1)).mem = (σ j).mem → 
      (∀ o md l, l ∈ (σ (j + 1)).mem.lks o md → l ∈ (σ j).mem.lks o md) ∧ (σ (j + 1)).mem.ltid = (σ j).mem.ltid ∧
      (∀ l, (σ (j + 1)).mem.taken l = true → (σ j).mem.taken l = true) ∧
      (∀ x ∈ (σ (j + 1)).mem.outs, x ∈ (σ j).mem.outs) ∧
      (∀ x ∈ (σ j).mem.outs, (σ j).alive ((σ j).mem.ltid x.1) = true → x ∈ (σ (j + 1)).mem.outs) ∧
      (∀ o md l, l ∈ (σ j).mem.lks o md → (σ j).alive ((σ j).mem.ltid l) = true → l ∈ (σ (j + 1)).mem.lks o md) := by
    intro e
    rw [e]
    exact ⟨fun _ _ _ h => h, rfl, fun _ h => h, fun _ h => h, fun _ h _ => h, fun _ _ _ h _ => h⟩
  rcases h.moment hj with ⟨_, e⟩ | ⟨v, c', he', _, hm⟩ | ⟨_, _, _, _, e⟩
  · exact triv (by rw [e])
  · generalize σ (j + 1) = s' at hm triv ⊢
    cases hm with
    | acq => exact triv rfl
    | rel => exact triv rfl
    | act as p' hp => exact lp_mem hp
  · exact triv (by rw [e])

theorem Late.alive_mono (h : Late σ ε n) {j : Nat} (hj : n ≤ j) (u : Nat) (ha : (σ (j + 1)).alive u = true) : (σ j).alive u = true := by
  rcases h.moment hj with ⟨_, e⟩ | ⟨v, c', he', _, hm⟩ | ⟨v, _, _, _, e⟩
  · rwa [e] at ha
  · rwa [(slow_frame hm).1] at ha
  · rw [e] at ha
    simp only [fset] at ha
    split at ha
    · cases ha
    · exact ha

theorem Late.mem (h : Late σ ε n) {j k : Nat} (hj : n ≤ j) (hk : j ≤ k) :
    (∀ o md l, l ∈ (σ k).mem.lks o md → l ∈ (σ j).mem.lks o md) ∧ (σ k).mem.ltid = (σ j).mem.ltid ∧
      (∀ l, (σ k).mem.taken l = true → (σ j).mem.taken l = true) ∧
      (∀ x ∈ (σ k).mem.outs, x ∈ (σ j).mem.outs) ∧
      (∀ u, (σ k).alive u = true → (σ j).alive u = true) ∧
      (∀ x ∈ (σ j).mem.outs, (σ k).alive ((σ k).mem.ltid x.1) = true → x ∈ (σ k).mem.outs) ∧
      (∀ o md l, l ∈ (σ j).mem.lks o md → (σ k).alive ((σ k).mem.ltid l) = true → l ∈ (σ k).mem.lks o md) := by
  obtain ⟨d, rfl⟩ := Nat.le.dest hk
  clear hk
  induction d with
  | zero => exact ⟨fun _ _ _ h => h, rfl, fun _ h => h, fun _ h => h, fun _ h => h, fun _ h _ => h, fun _ _ _ h _ => h⟩
  | succ d ih =>
    obtain ⟨a1, a2, a3, a4, a5, a6, a7⟩ := ih
    obtain ⟨b1, b2, b3, b4, b5, b6⟩ := h.mem_step (j := j + d) (by omega)
    have b0 := h.alive_mono (j := j + d) (by omega)
    refine ⟨fun o md l hl => a1 o md l (b1 o md l hl), b2.trans a2, fun l hl => a3 l (b3 l hl), fun x hx => a4 x (b4 x hx),
      fun u hu => a5 u (b0 u hu), fun x hx ha => ?_, fun o md l hl ha => ?_⟩
    · have ha : (σ (j + d + 1)).alive ((σ (j + d + 1)).mem.ltid x.1) = true := ha
      rw [b2] at ha
      have ha := b0 _ ha
      exact b5 x (a6 x hx ha) ha
    · have ha : (σ (j + d + 1)).alive ((σ (j + d + 1)).mem.ltid l) = true := ha
      rw [b2] at ha
      have ha := b0 _ ha
      exact b6 o md l (a7 o md l hl ha) ha

theorem lp_cnt {m : Mem} {alive : Nat → Bool} {p : Pc} {c : Choice} {as : List Act} {p' : Pc} (h : Lp m alive p c as p') (o : Nat) (md : Mode) :
    cnt (m.acts as) o md ≤ cnt m o md := by
  have triv : ∀ m' : Mem, m'.lks = m.lks → m'.taken = m.taken → cnt m' o md ≤ cnt m o md := by
    intro m' h1 h2; unfold cnt; rw [h1, h2]; exact Nat.le_refl _
  have swp : ∀ o' md' l, cnt (m.acts (sweepActs m o' md' l)) o md ≤ cnt m o md := by
    intro o' md' l
    obtain ⟨e1, _, _, _, _, e6⟩ := sweep_mem m o' md' l
    unfold cnt
    refine Nat.le_trans (List.countP_mono_left (q := m.taken) (fun l _ => e6 l)) (List.Sublist.countP_le ?_)
    rw [e1]
    by_cases h1 : o = o'
    · subst h1
      rw [fset_same]
      by_cases h2 : md = md'
      · subst h2; rw [fset_same]; exact List.erase_sublist
      · rw [fset_other _ _ h2]
    · rw [fset_other _ _ h1]
  cases h with
  | dead op f o l md l' hl hd => exact swp _ _ _
  | swL o md l hl ho hd => exact swp _ _ _
  | _ => exact triv _ rfl rfl

theorem Late.cnt_step (h : Late σ ε n) (o : Nat) (md : Mode) {j : Nat} (hj : n ≤ j) :
    cnt (σ (j + 1)).mem o md ≤ cnt (σ j).mem o md := by
  have triv : (σ (j + 1)).mem = (σ j).mem → cnt (σ (j + 1)).mem o md ≤ cnt (σ j).mem o md := by
    intro e; rw [e]; exact Nat.le_refl _
  rcases h.moment hj with ⟨_, e⟩ | ⟨v, c', he', _, hm⟩ | ⟨_, _, _, _, e⟩
  · exact triv (by rw [e])
  · generalize σ (j + 1) = s' at hm triv ⊢
    cases hm with
    | acq => exact triv rfl
    | rel => exact triv rfl
    | act as p' hp => exact lp_cnt hp o md
  · exact triv (by rw [e])

theorem Late.cnt_mono (h : Late σ ε n) (o : Nat) (md : Mode) {j k : Nat} (hj : n ≤ j) (hk : j ≤ k) :
    cnt (σ k).mem o md ≤ cnt (σ j).mem o md := by
  obtain ⟨d, rfl⟩ := Nat.le.dest hk
  clear hk
  induction d with
  | zero => exact Nat.le_refl _
  | succ d ih => exact Nat.le_trans (h.cnt_step o md (j := j + d) (by omega)) ih

/-- The lock word of a range does not change any more. -/
theorem Late.word_const (h : Late σ ε n) (o : Nat) : ∃ m, n ≤ m ∧ ∀ j, m ≤ j → (σ (j + 1)).mem.word o = (σ j).mem.word o := by
  obtain ⟨m1, h1, k1⟩ := const_from (fun j => cnt (σ j).mem o .rd) n (fun i hi => h.cnt_step o .rd hi)
  obtain ⟨m2, h2, k2⟩ := const_from (fun j => cnt (σ j).mem o .wr) n (fun i hi => h.cnt_step o .wr hi)
  refine ⟨max m1 m2, by omega, fun j hj => ?_⟩
  have a1 : cnt (σ (j + 1)).mem o .rd = cnt (σ j).mem o .rd := (k1 (j + 1) (by omega)).trans (k1 j (by omega)).symm
  have a2 : cnt (σ (j + 1)).mem o .wr = cnt (σ j).mem o .wr := (k2 (j + 1) (by omega)).trans (k2 j (by omega)).symm
  rcases (h.einv (j + 1)).words o with ⟨b1, b2⟩ | ⟨b1, b3, b2⟩ <;> rcases (h.einv j).words o with ⟨c1, c2⟩ | ⟨c1, c3, c2⟩ <;> omega

/-- A counted locker of a living thread stands for a lock in force. -/
theorem Late.counted (h : Late σ ε n) (hf : Fair σ ε) {j o l : Nat} {md : Mode} (hj : n ≤ j) (hl : l ∈ (σ j).mem.lks o md)
    (ha : (σ j).alive ((σ j).mem.ltid l) = true) (ht : (σ j).mem.taken l = true) :
    ∃ x ∈ (σ j).mem.outs, x.1 = l ∧ x.2.mode = md ∧ (σ j).alive x.2.t = true := by
  obtain ⟨hown, hpc⟩ := (h.sinv j).thr _ ha
  cases hk : (σ j).mem.locked l with
  | false =>
    obtain ⟨op, f, o', hp⟩ := unflagged_taken hpc hown hl rfl hk ht
    obtain ⟨x, hx⟩ := h.loops hf hj (u := (σ j).mem.ltid l) ⟨ha, by rw [hp]; nofun⟩
    rw [hp] at hx; cases hx
  | true =>
    obtain ⟨hh, ho⟩ := (hown o md l hl rfl).2.2 hk ht
    obtain ⟨_, _, ⟨_, _, hl'⟩, _, _, e, _⟩ := (h.sinv j).outs.1 _ ho
    exact ⟨(l, hh), ho, rfl, ((h.sinv j).sok.lksDisj _ _ _ _ _ hl' hl).2, by rw [← e]; exact ha⟩

/-- Whoever still waits, waits for a living thread that holds a lock on the range. -/
theorem Late.held (h : Late σ ε n) (hf : Fair σ ε) (ht : Timely σ ε) (hd : DeadSeen σ ε) (hr : RacesReal σ ε) {u i : Nat} {op : Op}
    {f o l : Nat} (hi : n ≤ i) (hc : inCall (σ i) u) (hl : loopOf ((σ i).pc u) = some (op, f, o, l)) :
    ∃ j, i ≤ j ∧ ∃ x ∈ (σ j).mem.outs, (σ j).alive x.2.t = true ∧ x.1 ∈ (σ j).mem.lks o x.2.mode ∧
      (op.mode = .wr ∨ x.2.mode = .wr) := by
  refine Classical.byContradiction fun hno => ?_
  obtain ⟨M, hM, hconst⟩ := h.word_const o
  have hck : ∀ i, n ≤ i → inCall (σ i) u := fun j hj => h.call hi hj hc
  obtain ⟨k, hk, hp, he, hp1⟩ := h.checks hf ht (j := max i M) (by omega) (hck _ (by omega)) ((h.loop u hi (by omega)).trans hl)
  have hseen := hd k u op f o l hp he
  have none0 : ∀ md, (op.mode = .wr ∨ md = .wr) → cnt (σ k).mem o md = 0 := by
    intro md hmd
    unfold cnt
    rw [List.countP_eq_zero]
    intro l' hl' htk
    obtain ⟨x, hx, e, e', ha⟩ := h.counted hf (by omega) hl' (hseen md l' hl') htk
    exact hno ⟨k, by omega, x, hx, ha, by rw [e, e']; exact hl', by rw [e']; exact hmd⟩
  have take0 : ∀ j, k ≤ j → canTake ((σ j).mem.word o) op.mode = true := by
    intro j hj
    have c0 : ∀ md, (op.mode = .wr ∨ md = .wr) → cnt (σ j).mem o md = 0 := by
      intro md hmd
      have := h.cnt_mono o md (j := k) (k := j) (by omega) hj
      have := none0 md hmd
      omega
    have hw := c0 .wr (.inr rfl)
    rcases (h.einv j).words o with ⟨_, e⟩ | ⟨e, _⟩
    · cases hm : op.mode with
      | rd => simp only [canTake, decide_eq_true_eq]; omega
      | wr => rw [c0 .rd (.inl hm)] at e; simp [canTake, e]
    · omega
  obtain ⟨k1, c1, hk1, he1, _, hp2, _⟩ := h.rel_ends hf (j := k + 1) (by omega) (hck _ (by omega)).1 hp1
  obtain ⟨k2, c, hk2, he2, h1, h2, hs, _⟩ := h.goes hf (j := k1 + 1) (by omega) (hck _ (by omega)) (by rw [hp2]; nofun)
  have hct := take0 k2 (by omega)
  have hcg : c ≠ .go := by
    rintro rfl
    rcases (slow_spin hs (h1.trans hp2)).2 with ⟨_, ⟨_, e⟩ | e⟩ | ⟨_, e, _⟩
    · rw [hct] at e; cases e
    · cases e
    · cases e
  obtain ⟨j, hj, hw, hno'⟩ := hr k2 u c op f o l he2 hcg (h1.trans hp2) hct
  have hkj : k < j := by
    refine Classical.byContradiction fun hn => ?_
    exact hno' k (by omega) (by omega) _ he
  exact hw (hconst j (by omega))

/-- … and does so for ever. -/
theorem Late.forever (h : Late σ ε n) (hf : Fair σ ε) (ht : Timely σ ε) (hd : DeadSeen σ ε) (hr : RacesReal σ ε)
    {u : Nat} {op : Op} {f o l : Nat} (hc : inCall (σ n) u) (hl : loopOf ((σ n).pc u) = some (op, f, o, l)) :
    ∃ x, (op.mode = .wr ∨ x.2.mode = .wr) ∧ x.1 ∈ (σ n).mem.lks o x.2.mode ∧
      ∀ j, n ≤ j → x ∈ (σ j).mem.outs ∧ (σ j).alive x.2.t = true := by
  refine Classical.byContradiction fun hno => ?_
  have key : ∀ L : List (Nat × Out), ∃ m, n ≤ m ∧ ∀ x ∈ L, (op.mode = .wr ∨ x.2.mode = .wr) → x.1 ∈ (σ n).mem.lks o x.2.mode →
      ∀ j, m ≤ j → x ∈ (σ j).mem.outs → (σ j).alive x.2.t = false := by
    intro L
    induction L with
    | nil => exact ⟨n, Nat.le_refl _, by simp⟩
    | cons x L ih =>
      obtain ⟨m1, h1, k1⟩ := ih
      by_cases hx : ∀ j, n ≤ j → x ∈ (σ j).mem.outs ∧ (σ j).alive x.2.t = true
      · refine ⟨m1, h1, ?_⟩
        intro y hy c1 c2
        rcases List.mem_cons.mp hy with rfl | hy
        · exact absurd ⟨y, c1, c2, hx⟩ hno
        · exact k1 y hy c1 c2
      · obtain ⟨m2, hq⟩ := Classical.not_forall.mp hx
        obtain ⟨hm2, k2⟩ := Classical.not_imp.mp hq
        refine ⟨max m1 m2, by omega, ?_⟩
        intro y hy c1 c2 j hj hyj
        rcases List.mem_cons.mp hy with rfl | hy
        · obtain ⟨_, _, _, b4, b5, _⟩ := h.mem (j := m2) (k := j) hm2 (by omega)
          cases hal : (σ j).alive y.2.t with
          | false => rfl
          | true => exact absurd ⟨b4 _ hyj, b5 _ hal⟩ k2
        · exact k1 y hy c1 c2 j (by omega) hyj
  obtain ⟨m, hm, hk⟩ := key (σ n).mem.outs
  obtain ⟨j, hj, x, hx, ha, c2, c1⟩ := h.held hf ht hd hr (i := m) hm (h.call (Nat.le_refl n) hm hc) ((h.loop u (Nat.le_refl n) hm).trans hl)
  obtain ⟨b1, _, _, b4, _⟩ := h.mem (j := n) (k := j) (Nat.le_refl n) (by omega)
  have := hk x (b4 x hx) c1 (b1 _ _ _ c2) j hj hx
  rw [this] at ha; cases ha

theorem Late.later (h : Late σ ε n) {m : Nat} (hm : n ≤ m) : Late σ ε m :=
  ⟨h.ex, fun j hj => h.quiet j (by omega), fun t j hj => (h.same t j (by omega)).trans (h.same t m hm).symm⟩

/-- No thread stays in a call for ever if every lock in force is released or its holder is killed. -/
theorem Late.nobody (h : Late σ ε n) (hf : Fair σ ε) (ht : Timely σ ε) (hd : DeadSeen σ ε) (hr : RacesReal σ ε)
    (hrel : Released σ) {u i : Nat} (hi : n ≤ i) (hc : inCall (σ i) u) : False := by
  obtain ⟨⟨op, f, o, l⟩, hl⟩ := h.loops hf hi hc
  obtain ⟨x, _, _, hx⟩ := (h.later hi).forever hf ht hd hr hc hl
  obtain ⟨j, hj, h1⟩ := hrel i x (hx i (Nat.le_refl _)).1
  obtain ⟨h2, h3⟩ := hx j hj
  rcases h1 with h1 | h1
  · exact h1 h2
  · rw [h3] at h1; cases h1

/-! ### What a waiting thread waits for -/

theorem loop_wait {m : Mem} {t : Nat} {p : Pc} {op : Op} {f o l : Nat} (hl : loopOf p = some (op, f, o, l)) (h : PcOK m t p) :
    Wait m t op f o l false := by
  cases p <;> simp only [loopOf, reduceCtorEq] at hl
  case spin => obtain ⟨rfl, rfl, rfl, rfl⟩ := by simpa using hl
               exact h
  case rSet => obtain ⟨rfl, rfl, rfl, rfl⟩ := by simpa using hl
               exact h
  case rChk => obtain ⟨rfl, rfl, rfl, rfl⟩ := by simpa using hl
               exact h
  case acq q =>
    cases q <;> simp only [reduceCtorEq] at hl
    obtain ⟨rfl, rfl, rfl, rfl⟩ := by simpa using hl
    exact h.2
  case rel q =>
    cases q <;> simp only [reduceCtorEq] at hl
    obtain ⟨rfl, rfl, rfl, rfl⟩ := by simpa using hl
    exact h.2

theorem loop_op {p : Pc} {op : Op} {f o l : Nat} (hl : loopOf p = some (op, f, o, l)) : opOf p = some op := by
  cases p <;> simp only [loopOf, reduceCtorEq] at hl
  case acq q => cases q <;> simp only [reduceCtorEq] at hl; simp only [Option.some.injEq, Prod.mk.injEq] at hl; rw [← hl.1]; rfl
  case rel q => cases q <;> simp only [reduceCtorEq] at hl; simp only [Option.some.injEq, Prod.mk.injEq] at hl; rw [← hl.1]; rfl
  all_goals simp only [Option.some.injEq, Prod.mk.injEq] at hl; rw [← hl.1]; rfl

theorem loop_waits {p : Pc} {op : Op} {f o l : Nat} (hl : loopOf p = some (op, f, o, l)) (hk : op.kind = .block) : waits op p := by
  cases p <;> simp only [loopOf, reduceCtorEq] at hl
  case acq q => cases q <;> simp only [reduceCtorEq] at hl; simp only [Option.some.injEq, Prod.mk.injEq] at hl; exact ⟨hl.1, hk⟩
  case rel q => cases q <;> simp only [reduceCtorEq] at hl; simp only [Option.some.injEq, Prod.mk.injEq] at hl; exact ⟨hl.1, hk⟩
  all_goals simp only [Option.some.injEq, Prod.mk.injEq] at hl; exact ⟨hl.1, hk⟩

/-- Requests and locks on the record of one range, under clustered ranges: same file, common bytes. -/
theorem loop_conflict {R : DevIno → Rng → Prop} (hR : Clustered R) {s : State} (hi : SInv s) (hr : RInv R s) {t : Nat} {op : Op} {f o l : Nat}
    (ha : s.alive t = true) (hl : loopOf (s.pc t) = some (op, f, o, l)) {x : Nat × Out} (hx : x ∈ s.mem.outs)
    (hxl : x.1 ∈ s.mem.lks o x.2.mode) (hm : op.mode = .wr ∨ x.2.mode = .wr) : Conflict x.2 (lockOf t op) := by
  obtain ⟨⟨w1, w2, w3⟩, w4, w5, _⟩ := loop_wait hl (hi.thr t ha).2
  obtain ⟨f', o', ⟨a1, a2, a3⟩, b1, b2, b3, _⟩ := held_unit hR hr hx (hi.outs.1 _ hx)
  have ho := (hi.sok.lksDisj _ _ _ _ _ a3 hxl).1
  subst ho
  have hf := hi.sok.offsDisj _ _ _ a2 w2
  subst hf
  have hk : x.2.key = op.key := b1.symm.trans w4
  have r1 := hr.ops t op (loop_op hl)
  have r2 := hr.held x hx
  rw [hk] at r2 b3
  have o1 := (hits_iff hR r1 b3).mp w5
  exact ⟨hk, hR.trans _ _ _ _ r2 b3 r1 b2 (overlap_symm o1), hm.symm⟩

theorem exec_mono {A B : State → Ev → Prop} (hAB : ∀ s e, A s e → B s e) (h : Exec A σ ε) : Exec B σ ε :=
  ⟨h.start, fun i => by
    have := h.next i
    cases he : ε i with
    | none => rw [he] at this; exact this
    | some e => rw [he] at this; exact ⟨hAB _ _ this.1, this.2⟩⟩

/-- Who does not return waits for ever for a lock that excludes the request and is held for ever. -/
theorem blocked_forever {R : DevIno → Rng → Prop} (hR : Clustered R) (ex : Exec (softIn R) σ ε) (hf : Fair σ ε) (hce : CallsEnd ε)
    (hd : DeadSeen σ ε) (hti : Timely σ ε) (hra : RacesReal σ ε) {t i : Nat} (hno : ¬ ReturnsAfter σ t i) :
    ∃ op x m, i ≤ m ∧ Conflict x.2 (lockOf t op) ∧
      ∀ j, m ≤ j → waits op ((σ j).pc t) ∧ (σ j).alive t = true ∧ x ∈ (σ j).mem.outs ∧ (σ j).alive x.2.t = true := by
  obtain ⟨n, hn⟩ := hce
  have ex' : Exec softDeath σ ε := exec_mono (fun _ _ h => h.1) ex
  obtain ⟨m, hm, hs⟩ := settled ex' (n := n) hn
  have late : Late σ ε (max m i) := Late.later (n := m) ⟨ex', fun j hj => hn j (by omega), hs⟩ (by omega)
  have hc : inCall (σ (max m i)) t := by
    refine ⟨?_, fun r hr => hno ⟨_, by omega, .inl ⟨r, hr⟩⟩⟩
    cases ha : (σ (max m i)).alive t with
    | true => rfl
    | false => exact absurd ⟨_, by omega, .inr ha⟩ hno
  obtain ⟨⟨op, f, o, l⟩, hl⟩ := late.loops hf (Nat.le_refl _) hc
  obtain ⟨x, h1, h2, h3⟩ := late.forever hf hti hd hra hc hl
  refine ⟨op, x, max m i, by omega, ?_, fun j hj => ?_⟩
  · exact loop_conflict hR (late.sinv _) (reach_rinv (fun _ _ h => h.2) (exec_reach ex _)) hc.1 hl (h3 _ (Nat.le_refl _)).1 h2 h1
  · have hcj := late.call (Nat.le_refl _) hj hc
    have hlj := (late.loop t (Nat.le_refl _) hj).trans hl
    exact ⟨loop_waits hlj (late.block hf hti hj hcj hlj), hcj.1, h3 j hj⟩

end Fullock.FLive
