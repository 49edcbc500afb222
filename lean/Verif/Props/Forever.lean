import Verif.Proofs.Forever
/-! C76: a blocking request is granted sooner or later -/
namespace Fullock.Props
open Fullock.FL (Mode canTake)
open Fullock.Spec.RW
open _root_.Fullock.RW

/-- C76 as stated: callers in order, a fair scheduler and every lock released, yet nothing else assumed: a
thread waiting in a call without limit returns. -/
def C76_full : Prop :=
  ∀ σ ε, Exec orderly σ ε → Fair σ ε → Released σ →
    ∀ t i md, waitsFor md ((σ i).pc t) → ReturnsAfter σ t i

/-- C76 (partial): if the calls come to an end, every call returns — whatever function, mode, number of
threads and interleaving. Missing: executions in which others keep calling (`C76_not_full`). -/
theorem C76_returns_partial (σ : Nat → State) (ε : Nat → Option Ev) (h : Exec orderly σ ε) (hf : Fair σ ε)
    (hr : Released σ) (he : CallsEnd ε) (t i : Nat) : ReturnsAfter σ t i := by
  by_contra hno
  have hc : ∀ j, i ≤ j → inCall (σ j) t := fun j hj r hr => hno ⟨j, hj, r, hr⟩
  obtain ⟨n, hn⟩ := he
  obtain ⟨m, hm, hst⟩ := settled h hn
  have hsame := settled_same h hn hm hst
  have hheld : (σ m).held = [] := by
    cases e : (σ m).held with
    | nil => rfl
    | cons x l =>
      obtain ⟨j, hj, hx⟩ := hr m x (by rw [e]; simp)
      rw [(hsame j hj).2, e] at hx
      simp at hx
  have hw : (σ m).word = 0 := by
    rcases (reach_ord (exec_inv h m)).shape with ⟨k, e, _⟩ | ⟨_, e⟩
    · rw [hheld] at e; cases e
    · rw [e, hheld]; rfl
  obtain ⟨j, hj, r, hret⟩ := quiet h hf (t := t) (n := max i m) (w := 0)
    (fun j hj _ => by rw [(hsame j (by omega)).1, hw]) (fun md _ => by cases md <;> rfl)
  exact hc j (by omega) r hret

/-- While a thread waits in a call without limit, it goes on waiting for that lock in that mode or has just
obtained it: there is no other way out. -/
theorem waits_step {A : State → Ev → Prop} {s s' : State} {e : Ev} {t k : Nat} {md : Mode} (_hr : Reach A s)
    (hw : waitsFor md (s.pc t)) (hk : tok (s.pc t) = some k) (hs : step s e = some s') :
    (waitsFor md (s'.pc t) ∧ tok (s'.pc t) = some k) ∨ (s'.pc t = .idle .ok ∧ (k, md) ∈ s'.held) := by
  have hself : ∀ p, (s.goto t p).pc t = p := fun p => by simp [goto_pc]
  by_cases hwho : who e = t
  · cases e with
    | call u c =>
      simp only [who] at hwho; subst hwho
      obtain ⟨⟨r, hr⟩, _⟩ := call_of hs
      rw [hr] at hw; exact hw.elim
    | go u c =>
      simp only [who] at hwho; subst hwho
      cases mv_of hs <;> rename_i hp _ <;> simp_all [waitsFor, tok, fail, spent]
  · left; rw [other_pc hs hwho]; exact ⟨hw, hk⟩

/-- From a moment of waiting on: still waiting for that lock, or it has been obtained. -/
theorem waits_on {A : State → Ev → Prop} {σ : Nat → State} {ε : Nat → Option Ev} (h : Exec A σ ε) {t i k : Nat} {md : Mode}
    (hw : waitsFor md ((σ i).pc t)) (hk : tok ((σ i).pc t) = some k) (d : Nat) :
    (waitsFor md ((σ (i + d)).pc t) ∧ tok ((σ (i + d)).pc t) = some k) ∨
      ∃ j, i ≤ j ∧ j ≤ i + d ∧ (σ j).pc t = .idle .ok ∧ (k, md) ∈ (σ j).held := by
  induction d with
  | zero => exact .inl ⟨hw, hk⟩
  | succ d ih =>
    rcases ih with ⟨h1, h2⟩ | ⟨j, h1, h2, h3⟩
    · have hn := h.next (i + d)
      cases he : ε (i + d) with
      | none =>
        rw [he] at hn; simp only at hn
        left; show waitsFor md ((σ (i + d + 1)).pc t) ∧ tok ((σ (i + d + 1)).pc t) = some k
        rw [hn]; exact ⟨h1, h2⟩
      | some e =>
        rw [he] at hn
        rcases waits_step (exec_inv h (i + d)) h1 h2 hn.2 with h3 | h3
        · exact .inl h3
        · exact .inr ⟨i + d + 1, by omega, by omega, h3⟩
    · exact .inr ⟨j, h1, by omega, h3⟩

theorem waits_returns {A : State → Ev → Prop} {σ : Nat → State} {ε : Nat → Option Ev} (h : Exec A σ ε) {t i k : Nat}
    {md : Mode} (hw : waitsFor md ((σ i).pc t)) (hk : tok ((σ i).pc t) = some k) (hret : ReturnsAfter σ t i) :
    ∃ j, i ≤ j ∧ (σ j).pc t = .idle .ok ∧ (k, md) ∈ (σ j).held := by
  obtain ⟨j, hj, r, hr⟩ := hret
  obtain ⟨d, rfl⟩ := Nat.le.dest hj
  rcases waits_on h hw hk d with ⟨h1, _⟩ | ⟨j', h1, _, h3⟩
  · have : waitsFor md (.idle r) := hr ▸ h1
    exact this.elim
  · exact ⟨j', h1, h3⟩

/-- C76 (partial): under the same hypotheses a thread waiting in a call without limit obtains the lock it
asked for. -/
theorem C76_granted_partial (σ : Nat → State) (ε : Nat → Option Ev) (h : Exec orderly σ ε) (hf : Fair σ ε)
    (hr : Released σ) (he : CallsEnd ε) (t i k : Nat) (md : Mode) (hw : waitsFor md ((σ i).pc t))
    (hk : tok ((σ i).pc t) = some k) : ∃ j, i ≤ j ∧ (σ j).pc t = .idle .ok ∧ (k, md) ∈ (σ j).held :=
  waits_returns h hw hk (C76_returns_partial σ ε h hf hr he t i)

/-- C76: whatever the callers do: if from some moment on nobody else moves the word, and it is such that the
lock can be taken, the waiting thread obtains it. -/
theorem C76_quiet {A : State → Ev → Prop} (σ : Nat → State) (ε : Nat → Option Ev) (h : Exec A σ ε) (hf : Fair σ ε)
    (t i k : Nat) (md : Mode) (hw : waitsFor md ((σ i).pc t)) (hk : tok ((σ i).pc t) = some k) (w : Int)
    (hc : canTake w md = true)
    (hq : ∀ j, i ≤ j → (∀ i', i ≤ i' → i' ≤ j → inCall (σ i') t) → (σ j).word = w) :
    ∃ j, i ≤ j ∧ (σ j).pc t = .idle .ok ∧ (k, md) ∈ (σ j).held := by
  refine waits_returns h hw hk (quiet h hf hq ?_)
  intro md' hm
  have : md' = md := by
    cases hp : (σ i).pc t <;> rw [hp] at hw hm <;> simp_all [waitsFor, asking]
  rw [this]; exact hc

/-- A thread waiting for ever makes endlessly many steps, and endlessly many calls are made meanwhile. -/
theorem C76_starved_calls (σ : Nat → State) (ε : Nat → Option Ev) (h : Exec orderly σ ε) (hf : Fair σ ε)
    (hr : Released σ) (t i : Nat) (hno : ¬ ReturnsAfter σ t i) (n : Nat) :
    (∃ j, n ≤ j ∧ ∃ u c, ε j = some (.call u c)) ∧ ∃ j, n ≤ j ∧ ∃ c, ε j = some (.go t c) := by
  constructor
  · by_contra hc
    refine hno (C76_returns_partial σ ε h hf hr ⟨n, ?_⟩ t i)
    intro j hj u c he
    exact hc ⟨j, hj, u, c, he⟩
  · obtain ⟨j, hj, hc⟩ := hf t (max n i) (fun j hj r hr => hno ⟨j, by omega, r, hr⟩)
    exact ⟨j, by omega, hc⟩

/-! ### Starvation -/

/-- Places of three threads, all others outside. -/
def pcs (a b c : Pc) : Nat → Pc := fun u => if u = 1 then a else if u = 2 then b else if u = 3 then c else .idle .ok

theorem pcs_1 (a b c x : Pc) : FL.fset (pcs a b c) 1 x = pcs x b c := by
  funext u; simp only [FL.fset, pcs]; split_ifs <;> simp_all
theorem pcs_2 (a b c x : Pc) : FL.fset (pcs a b c) 2 x = pcs a x c := by
  funext u; simp only [FL.fset, pcs]; split_ifs <;> simp_all
theorem pcs_3 (a b c x : Pc) : FL.fset (pcs a b c) 3 x = pcs a b x := by
  funext u; simp only [FL.fset, pcs]; split_ifs <;> simp_all
theorem pcs_0 : (fun _ => Pc.idle .ok) = pcs (.idle .ok) (.idle .ok) (.idle .ok) := by
  funext u; simp only [pcs]; split_ifs <;> rfl

/-- An execution made of a beginning and a period: `T r q` is the state at moment `r` of round `q`. -/
theorem periodic {A : State → Ev → Prop} {P L : Nat} (hL : 0 < L) {pre : Nat → State} {epre : Nat → Ev}
    {T : Nat → Nat → State} {ev : Nat → Ev} (h0 : pre 0 = init)
    (h1 : ∀ i, i < P → A (pre i) (epre i) ∧ step (pre i) (epre i) = some (pre (i + 1)))
    (h2 : pre P = T 0 0)
    (h3 : ∀ r q, r < L → A (T r q) (ev r) ∧ step (T r q) (ev r) = some (T (r + 1) q))
    (h4 : ∀ q, T L q = T 0 (q + 1)) :
    Exec A (fun i => if i < P then pre i else T ((i - P) % L) ((i - P) / L))
      (fun i => some (if i < P then epre i else ev ((i - P) % L))) where
  start := by
    by_cases hP : 0 < P
    · simp [hP, h0]
    · have : P = 0 := by omega
      subst this
      simp [← h2, h0]
  next := by
    intro i
    simp only
    by_cases hi : i < P
    · rw [if_pos hi, if_pos hi]
      refine ⟨(h1 i hi).1, ?_⟩
      rw [(h1 i hi).2]
      by_cases hi' : i + 1 < P
      · rw [if_pos hi']
      · have : i + 1 = P := by omega
        rw [if_neg hi', this, h2]; simp
    · rw [if_neg hi, if_neg hi, if_neg (by omega)]
      have hlt : (i - P) % L < L := Nat.mod_lt _ hL
      obtain ⟨ha, hs⟩ := h3 ((i - P) % L) ((i - P) / L) hlt
      refine ⟨ha, ?_⟩
      rw [hs]
      have e : i + 1 - P = (i - P) + 1 := by omega
      rw [e]
      by_cases hw : (i - P) % L + 1 = L
      · rw [hw, h4]
        have e1 : ((i - P) + 1) % L = 0 := by
          rw [Nat.add_mod, ← Nat.mod_add_mod]; simp [hw]
        have e2 : ((i - P) + 1) / L = (i - P) / L + 1 := Nat.succ_div_of_mod_eq_zero e1
        rw [e1, e2]
      · have e1 : ((i - P) + 1) % L = (i - P) % L + 1 := by
          rw [Nat.add_mod, Nat.mod_eq_of_lt (a := 1) (by omega), Nat.mod_eq_of_lt (by omega)]
        have e2 : ((i - P) + 1) / L = (i - P) / L := by
          refine Nat.succ_div_of_mod_ne_zero ?_
          show ((i - P) + 1) % L ≠ 0
          omega
        rw [e1, e2]

/-- No limit. -/
abbrev blk : Kind := .block (-1)
/-- Outside, after success. -/
abbrev out : Pc := .idle .ok

/-- Beginning: thread 1 takes a read lock, thread 3 asks for a write lock. -/
def preR : Nat → State
  | 0 => ⟨0, pcs out out out, []⟩
  | 1 => ⟨0, pcs (.top 10 .rd blk 0) out out, []⟩
  | 2 => ⟨0, pcs (.cas 10 blk 0 0) out out, []⟩
  | 3 => ⟨1, pcs out out out, [(10, .rd)]⟩
  | _ => ⟨1, pcs out out (.top 30 .wr blk 0), [(10, .rd)]⟩

/-- Its events. -/
def epreR : Nat → Ev
  | 0 => .call 1 (.lock 10 .rd blk)
  | 1 => .go 1 .within
  | 2 => .go 1 .within
  | _ => .call 3 (.lock 30 .wr blk)

/-- The round: 2 comes, 1 goes, 1 comes, 2 goes; 3 looks twice. -/
def perR (r q : Nat) : State :=
  match r with
  | 0 => ⟨1, pcs out out (.top 30 .wr blk (2 * q)), [(10, .rd)]⟩
  | 1 => ⟨1, pcs out out (.top 30 .wr blk (2 * q + 1)), [(10, .rd)]⟩
  | 2 => ⟨1, pcs out (.top 20 .rd blk 0) (.top 30 .wr blk (2 * q + 1)), [(10, .rd)]⟩
  | 3 => ⟨1, pcs out (.cas 20 blk 0 1) (.top 30 .wr blk (2 * q + 1)), [(10, .rd)]⟩
  | 4 => ⟨2, pcs out out (.top 30 .wr blk (2 * q + 1)), [(20, .rd), (10, .rd)]⟩
  | 5 => ⟨2, pcs (.uTop 10) out (.top 30 .wr blk (2 * q + 1)), [(20, .rd), (10, .rd)]⟩
  | 6 => ⟨2, pcs (.uCas 10 2 1) out (.top 30 .wr blk (2 * q + 1)), [(20, .rd), (10, .rd)]⟩
  | 7 => ⟨1, pcs out out (.top 30 .wr blk (2 * q + 1)), [(20, .rd)]⟩
  | 8 => ⟨1, pcs out out (.top 30 .wr blk (2 * q + 2)), [(20, .rd)]⟩
  | 9 => ⟨1, pcs (.top 10 .rd blk 0) out (.top 30 .wr blk (2 * q + 2)), [(20, .rd)]⟩
  | 10 => ⟨1, pcs (.cas 10 blk 0 1) out (.top 30 .wr blk (2 * q + 2)), [(20, .rd)]⟩
  | 11 => ⟨2, pcs out out (.top 30 .wr blk (2 * q + 2)), [(10, .rd), (20, .rd)]⟩
  | 12 => ⟨2, pcs out (.uTop 20) (.top 30 .wr blk (2 * q + 2)), [(10, .rd), (20, .rd)]⟩
  | 13 => ⟨2, pcs out (.uCas 20 2 1) (.top 30 .wr blk (2 * q + 2)), [(10, .rd), (20, .rd)]⟩
  | _ => ⟨1, pcs out out (.top 30 .wr blk (2 * q + 2)), [(10, .rd)]⟩

/-- Its events. -/
def evR : Nat → Ev
  | 0 => .go 3 .within
  | 1 => .call 2 (.lock 20 .rd blk)
  | 2 => .go 2 .within
  | 3 => .go 2 .within
  | 4 => .call 1 (.unlock 10)
  | 5 => .go 1 .within
  | 6 => .go 1 .within
  | 7 => .go 3 .within
  | 8 => .call 1 (.lock 10 .rd blk)
  | 9 => .go 1 .within
  | 10 => .go 1 .within
  | 11 => .call 2 (.unlock 20)
  | 12 => .go 2 .within
  | _ => .go 2 .within

/-- The execution in which two readers overlap for ever. -/
def σR (i : Nat) : State := if i < 4 then preR i else perR ((i - 4) % 14) ((i - 4) / 14)
/-- Its events. -/
def εR (i : Nat) : Option Ev := some (if i < 4 then epreR i else evR ((i - 4) % 14))

theorem tok_pcs {a b c : Pc} {k : Nat} (h1 : tok a ≠ some k) (h2 : tok b ≠ some k) (h3 : tok c ≠ some k) (u : Nat) :
    tok (pcs a b c u) ≠ some k := by
  unfold pcs; split_ifs <;> first | assumption | simp [tok]

theorem pcs_at1 (a b c : Pc) : pcs a b c 1 = a := rfl
theorem pcs_at2 (a b c : Pc) : pcs a b c 2 = b := rfl
theorem pcs_at3 (a b c : Pc) : pcs a b c 3 = c := rfl

theorem execR : Exec orderly σR εR := by
  refine periodic (P := 4) (L := 14) (pre := preR) (epre := epreR) (T := perR) (ev := evR) (by decide) ?_ ?_ ?_ ?_ ?_
  · simp [preR, init, pcs_0]
  · intro i hi
    match i with
    | 0 => exact ⟨⟨tok_pcs (by simp [tok]) (by simp [tok]) (by simp [tok]), by simp [preR]⟩,
        by simp [preR, epreR, step, pcs_at1, State.goto, pcs_1, Call.start]⟩
    | 1 => exact ⟨trivial, by simp [preR, epreR, step, pcs_at1, State.goto, pcs_1, spent]⟩
    | 2 => exact ⟨trivial, by simp [preR, epreR, step, pcs_at1, State.goto, pcs_1]⟩
    | 3 => exact ⟨⟨tok_pcs (by simp [tok]) (by simp [tok]) (by simp [tok]), by simp [preR]⟩,
        by simp [preR, epreR, step, pcs_at3, State.goto, pcs_3, Call.start]⟩
  · rfl
  · intro r q hr
    match r with
    | 0 | 7 | 2 | 3 | 5 | 6 | 9 | 10 | 12 | 13 =>
      exact ⟨trivial, by simp [perR, evR, step, pcs_at1, pcs_at2, pcs_at3, State.goto, pcs_1, pcs_2, pcs_3, spent, fail,
        release, List.erase_cons]⟩
    | 1 | 8 =>
      exact ⟨⟨tok_pcs (by simp [tok]) (by simp [tok]) (by simp [tok]), by simp [perR]⟩,
        by simp [perR, evR, step, pcs_at1, pcs_at2, State.goto, pcs_1, pcs_2, Call.start]⟩
    | 4 | 11 =>
      exact ⟨⟨tok_pcs (by simp [tok]) (by simp [tok]) (by simp [tok]), ⟨.rd, by simp [perR]⟩⟩,
        by simp [perR, evR, step, pcs_at1, pcs_at2, State.goto, pcs_1, pcs_2, Call.start]⟩
  · intro q
    simp [perR, Nat.mul_add]

theorem atR (r q : Nat) (hr : r < 14) : σR (4 + 14 * q + r) = perR r q ∧ εR (4 + 14 * q + r) = some (evR r) := by
  have e : 4 + 14 * q + r - 4 = r + 14 * q := by omega
  have e1 : (r + 14 * q) % 14 = r := by rw [Nat.add_mul_mod_self_left, Nat.mod_eq_of_lt hr]
  have e2 : (r + 14 * q) / 14 = q := by rw [Nat.add_mul_div_left _ _ (by decide), Nat.div_eq_of_lt hr]; omega
  simp only [σR, εR, if_neg (show ¬ 4 + 14 * q + r < 4 by omega), e, e1, e2, and_self]

theorem waitR (i : Nat) (hi : 4 ≤ i) : waitsFor .wr ((σR i).pc 3) ∧ 1 ≤ (σR i).word := by
  have hr : (i - 4) % 14 < 14 := Nat.mod_lt _ (by decide)
  simp only [σR, if_neg (show ¬ i < 4 by omega)]
  generalize (i - 4) % 14 = r at hr
  match r, hr with
  | 0, _ | 1, _ | 2, _ | 3, _ | 4, _ | 5, _ | 6, _ | 7, _ | 8, _ | 9, _ | 10, _ | 11, _ | 12, _ | 13, _ =>
    exact ⟨⟨rfl, rfl⟩, by simp [perR]⟩

/-- The code does not do that: two readers whose locks overlap in time keep a writer out for ever, although the
scheduler is fair and every lock is released; the word is never free. -/
theorem C76_not_full : ¬ C76_full := by
  intro h
  refine absurd (h σR εR execR ?_ ?_ 3 4 .wr (waitR 4 (by omega)).1) ?_
  · intro t i hc
    have h0 := atR 0 i (by decide)
    have hi := hc (4 + 14 * i + 0) (by omega)
    refine ⟨4 + 14 * i + 0, by omega, .within, ?_⟩
    rw [h0.2]
    by_cases e : t = 3
    · subst e; rfl
    · exfalso
      rw [h0.1] at hi
      refine hi .ok ?_
      simp only [perR, pcs]
      split_ifs <;> rfl
  · intro i x _
    by_cases e : x = (10, .rd)
    · refine ⟨4 + 14 * i + 7, by omega, ?_⟩
      rw [(atR 7 i (by decide)).1, e]; simp [perR]
    · refine ⟨4 + 14 * i + 0, by omega, ?_⟩
      rw [(atR 0 i (by decide)).1]; simpa [perR] using e
  · rintro ⟨j, hj, r, hr⟩
    have := (waitR j hj).1
    rw [hr] at this
    exact this

/-! One other thread is enough, for either mode. -/

/-- Beginning: thread 1 takes a write lock, thread 3 asks. -/
def preW (md : Mode) : Nat → State
  | 0 => ⟨0, pcs out out out, []⟩
  | 1 => ⟨0, pcs (.top 10 .wr blk 0) out out, []⟩
  | 2 => ⟨-1, pcs out out out, [(10, .wr)]⟩
  | _ => ⟨-1, pcs out out (.top 30 md blk 0), [(10, .wr)]⟩

/-- Its events. -/
def epreW (md : Mode) : Nat → Ev
  | 0 => .call 1 (.lock 10 .wr blk)
  | 1 => .go 1 .within
  | _ => .call 3 (.lock 30 md blk)

/-- The round: 3 looks, 1 unlocks and locks again. -/
def perW (md : Mode) (r q : Nat) : State :=
  match r with
  | 0 => ⟨-1, pcs out out (.top 30 md blk q), [(10, .wr)]⟩
  | 1 => ⟨-1, pcs out out (.top 30 md blk (q + 1)), [(10, .wr)]⟩
  | 2 => ⟨-1, pcs (.uTop 10) out (.top 30 md blk (q + 1)), [(10, .wr)]⟩
  | 3 => ⟨-1, pcs (.uCas 10 (-1) 0) out (.top 30 md blk (q + 1)), [(10, .wr)]⟩
  | 4 => ⟨0, pcs out out (.top 30 md blk (q + 1)), []⟩
  | 5 => ⟨0, pcs (.top 10 .wr blk 0) out (.top 30 md blk (q + 1)), []⟩
  | _ => ⟨-1, pcs out out (.top 30 md blk (q + 1)), [(10, .wr)]⟩

/-- Its events. -/
def evW : Nat → Ev
  | 0 => .go 3 .within
  | 1 => .call 1 (.unlock 10)
  | 2 => .go 1 .within
  | 3 => .go 1 .within
  | 4 => .call 1 (.lock 10 .wr blk)
  | _ => .go 1 .within

/-- The execution in which one writer comes back for ever. -/
def σW (md : Mode) (i : Nat) : State := if i < 3 then preW md i else perW md ((i - 3) % 6) ((i - 3) / 6)
/-- Its events. -/
def εW (md : Mode) (i : Nat) : Option Ev := some (if i < 3 then epreW md i else evW ((i - 3) % 6))

theorem execW (md : Mode) : Exec orderly (σW md) (εW md) := by
  refine periodic (P := 3) (L := 6) (pre := preW md) (epre := epreW md) (T := perW md) (ev := evW) (by decide)
    ?_ ?_ ?_ ?_ ?_
  · simp [preW, init, pcs_0]
  · intro i hi
    match i with
    | 0 => exact ⟨⟨tok_pcs (by simp [tok]) (by simp [tok]) (by simp [tok]), by simp [preW]⟩,
        by simp [preW, epreW, step, pcs_at1, State.goto, pcs_1, Call.start]⟩
    | 1 => exact ⟨trivial, by simp [preW, epreW, step, pcs_at1, State.goto, pcs_1, spent]⟩
    | 2 => exact ⟨⟨tok_pcs (by simp [tok]) (by simp [tok]) (by simp [tok]), by simp [preW]⟩,
        by simp [preW, epreW, step, pcs_at3, State.goto, pcs_3, Call.start]⟩
  · rfl
  · intro r q hr
    match r with
    | 0 | 2 | 3 | 5 =>
      exact ⟨trivial, by cases md <;> simp [perW, evW, step, pcs_at1, pcs_at3, State.goto, pcs_1, pcs_3, spent, fail,
        release]⟩
    | 4 =>
      exact ⟨⟨tok_pcs (by simp [tok]) (by simp [tok]) (by simp [tok]), by simp [perW]⟩,
        by simp [perW, evW, step, pcs_at1, State.goto, pcs_1, Call.start]⟩
    | 1 =>
      exact ⟨⟨tok_pcs (by simp [tok]) (by simp [tok]) (by simp [tok]), ⟨.wr, by simp [perW]⟩⟩,
        by simp [perW, evW, step, pcs_at1, State.goto, pcs_1, Call.start]⟩
  · intro q
    simp [perW]

theorem atW (md : Mode) (r q : Nat) (hr : r < 6) :
    σW md (3 + 6 * q + r) = perW md r q ∧ εW md (3 + 6 * q + r) = some (evW r) := by
  have e : 3 + 6 * q + r - 3 = r + 6 * q := by omega
  have e1 : (r + 6 * q) % 6 = r := by rw [Nat.add_mul_mod_self_left, Nat.mod_eq_of_lt hr]
  have e2 : (r + 6 * q) / 6 = q := by rw [Nat.add_mul_div_left _ _ (by decide), Nat.div_eq_of_lt hr]; omega
  simp only [σW, εW, if_neg (show ¬ 3 + 6 * q + r < 3 by omega), e, e1, e2, and_self]

theorem waitW (md : Mode) (i : Nat) (hi : 3 ≤ i) : waitsFor md ((σW md i).pc 3) := by
  have hr : (i - 3) % 6 < 6 := Nat.mod_lt _ (by decide)
  simp only [σW, if_neg (show ¬ i < 3 by omega)]
  generalize (i - 3) % 6 = r at hr
  match r, hr with
  | 0, _ | 1, _ | 2, _ | 3, _ | 4, _ | 5, _ => exact ⟨rfl, rfl⟩

/-- C76: one thread that keeps taking and releasing the write lock can keep another one out for ever, a reader
or a writer, although the scheduler is fair, every lock is released and the word is free again and again. -/
theorem C76_starved (md : Mode) : ∃ σ ε, Exec orderly σ ε ∧ Fair σ ε ∧ Released σ ∧
    (∀ i, ∃ j, i ≤ j ∧ (σ j).word = 0) ∧ ∃ i, ∀ j, i ≤ j → waitsFor md ((σ j).pc 3) := by
  refine ⟨σW md, εW md, execW md, ?_, ?_, ?_, 3, waitW md⟩
  · intro t i hc
    have h0 := atW md 0 i (by decide)
    have hi := hc (3 + 6 * i + 0) (by omega)
    refine ⟨3 + 6 * i + 0, by omega, .within, ?_⟩
    rw [h0.2]
    by_cases e : t = 3
    · subst e; rfl
    · exfalso
      rw [h0.1] at hi
      refine hi .ok ?_
      simp only [perW, pcs]
      split_ifs <;> rfl
  · intro i x _
    refine ⟨3 + 6 * i + 4, by omega, ?_⟩
    rw [(atW md 4 i (by decide)).1]; simp [perW]
  · intro i
    refine ⟨3 + 6 * i + 4, by omega, ?_⟩
    rw [(atW md 4 i (by decide)).1]; rfl

/-! ### The hypotheses are met -/

/-- 1 reads, 3 asks for a write lock in vain, 1 unlocks, 3 gets it, 3 unlocks; then nothing happens. -/
def σF : Nat → State
  | 0 => ⟨0, pcs out out out, []⟩
  | 1 => ⟨0, pcs (.top 10 .rd blk 0) out out, []⟩
  | 2 => ⟨0, pcs (.cas 10 blk 0 0) out out, []⟩
  | 3 => ⟨1, pcs out out out, [(10, .rd)]⟩
  | 4 => ⟨1, pcs out out (.top 30 .wr blk 0), [(10, .rd)]⟩
  | 5 => ⟨1, pcs out out (.top 30 .wr blk 1), [(10, .rd)]⟩
  | 6 => ⟨1, pcs (.uTop 10) out (.top 30 .wr blk 1), [(10, .rd)]⟩
  | 7 => ⟨1, pcs (.uCas 10 1 0) out (.top 30 .wr blk 1), [(10, .rd)]⟩
  | 8 => ⟨0, pcs out out (.top 30 .wr blk 1), []⟩
  | 9 => ⟨-1, pcs out out out, [(30, .wr)]⟩
  | 10 => ⟨-1, pcs out out (.uTop 30), [(30, .wr)]⟩
  | 11 => ⟨-1, pcs out out (.uCas 30 (-1) 0), [(30, .wr)]⟩
  | _ => ⟨0, pcs out out out, []⟩

/-- Its events. -/
def εF : Nat → Option Ev
  | 0 => some (.call 1 (.lock 10 .rd blk))
  | 1 => some (.go 1 .within)
  | 2 => some (.go 1 .within)
  | 3 => some (.call 3 (.lock 30 .wr blk))
  | 4 => some (.go 3 .within)
  | 5 => some (.call 1 (.unlock 10))
  | 6 => some (.go 1 .within)
  | 7 => some (.go 1 .within)
  | 8 => some (.go 3 .within)
  | 9 => some (.call 3 (.unlock 30))
  | 10 => some (.go 3 .within)
  | 11 => some (.go 3 .within)
  | _ => none

/-- C76_returns_partial, C76_granted_partial: thread 3 waits at moment 4. C76_quiet: at moment 8 the word is
free and stays so until thread 3 takes it. -/
example : Exec orderly σF εF ∧ Fair σF εF ∧ Released σF ∧ CallsEnd εF ∧ waitsFor .wr ((σF 4).pc 3) ∧
    tok ((σF 4).pc 3) = some 30 ∧ waitsFor .wr ((σF 8).pc 3) ∧ canTake 0 .wr = true ∧
    ∀ j, 8 ≤ j → (∀ i', 8 ≤ i' → i' ≤ j → inCall (σF i') 3) → (σF j).word = 0 := by
  refine ⟨⟨by simp [σF, init, pcs_0], ?_⟩, ?_, ?_, ⟨12, ?_⟩, ⟨rfl, rfl⟩, rfl, ⟨rfl, rfl⟩, rfl, ?_⟩
  · intro i
    match i with
    | 0 | 3 =>
      exact ⟨⟨tok_pcs (by simp [tok]) (by simp [tok]) (by simp [tok]), by simp [σF]⟩,
        by simp [σF, step, pcs_at1, pcs_at3, State.goto, pcs_1, pcs_3, Call.start]⟩
    | 5 =>
      exact ⟨⟨tok_pcs (by simp [tok]) (by simp [tok]) (by simp [tok]), ⟨.rd, by simp [σF]⟩⟩,
        by simp [σF, step, pcs_at1, State.goto, pcs_1, Call.start]⟩
    | 9 =>
      exact ⟨⟨tok_pcs (by simp [tok]) (by simp [tok]) (by simp [tok]), ⟨.wr, by simp [σF]⟩⟩,
        by simp [σF, step, pcs_at3, State.goto, pcs_3, Call.start]⟩
    | 1 | 2 | 4 | 6 | 7 | 8 | 10 | 11 =>
      exact ⟨trivial, by simp [σF, step, pcs_at1, pcs_at3, State.goto, pcs_1, pcs_3, spent, fail, release]⟩
    | n + 12 => rfl
  · intro t i hc
    exfalso
    refine hc (i + 12) (by omega) .ok ?_
    simp only [σF, pcs]
    split_ifs <;> rfl
  · intro i x _
    exact ⟨i + 12, by omega, by simp [σF]⟩
  · intro j hj t c
    obtain ⟨d, rfl⟩ := Nat.le.dest hj
    rw [Nat.add_comm]
    simp [εF]
  · intro j hj hc
    by_cases h9 : 9 ≤ j
    · exact absurd rfl (hc 9 (by omega) h9 .ok)
    · have : j = 8 := by omega
      subst this; rfl

end Fullock.Props
