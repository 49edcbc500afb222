import Verif.Spec.Recover
import Verif.Props.MCMemSweep
/-! The worker's way from an event to the end of its check. -/
namespace Fullock.Recover
open Fullock.Layout Fullock.Props
open Fullock.MC (upd Choice)

/-- What an event is for the mutexes and conditions. -/
def evOf (k : Cfg) : Ev → Option MCMem.Ev
  | .call t c => some (.call t c)
  | .go t c => some (.go t c)
  | .vanish t c j => some (.die t c j)
  | .mtxs q => some (.call (k.wk q) .sweepM)
  | .conds q => some (.call (k.wk q) .sweepC)
  | _ => none

theorem step_seg {k : Cfg} {s s' : State} {e : Ev} (h : step k s e = some s') :
    match evOf k e with
    | none => s'.seg = s.seg
    | some e' => MCMem.step k.cnt k.fuel k.base s.seg e' = some s'.seg := by
  cases e <;> simp only [step, evOf] at h ⊢
  case world e => obtain ⟨w, -, rfl⟩ := Option.map_eq_some_iff.1 h; rfl
  case begin => split at h <;> simp only [Option.some.injEq, reduceCtorEq] at h; subst h; rfl
  case back => split at h <;> simp only [Option.some.injEq, reduceCtorEq] at h; subst h; rfl
  all_goals
    split at h <;> first | cases h; done | (obtain ⟨x, hx, rfl⟩ := Option.map_eq_some_iff.1 h; exact hx)

theorem Exec.seg {k : Cfg} {σ : Nat → State} {ε : Nat → Option Ev} (ex : Exec k σ ε) :
    MCMem.Exec k.cnt k.fuel k.base (fun _ _ => True) (fun i => (σ i).seg) (fun i => (ε i).bind (evOf k)) := by
  refine ⟨?_, fun i => ?_⟩
  · obtain ⟨f, f', os, b, m, junk, h, h0⟩ := ex.start
    exact ⟨f, f', os, b, m, junk, h, by rw [h0]; rfl⟩
  · have hn := ex.next i
    cases he : ε i with
    | none => rw [he] at hn; simp only at hn; simp [hn]
    | some e =>
      rw [he] at hn
      have := step_seg hn
      simp only [Option.bind_some]
      cases h' : evOf k e with
      | none => rw [h'] at this; exact this
      | some e' => rw [h'] at this; exact ⟨trivial, this⟩

/-- The event with which the worker leaves a place. -/
def leaves (q : Nat) : Place → Ev × Place
  | .off => (.world (.watch q), .wait)
  | .wait => (.world (.read q), .got)
  | .got => (.begin q, .inF)
  | .inF => (.mtxs q, .inM)
  | .inM => (.conds q, .inC)
  | .inC => (.back q, .wait)

theorem step_work {k : Cfg} {s s' : State} {e : Ev} (h : step k s e = some s') (q : Nat) :
    s'.w.work q = s.w.work q ∨ (e = (leaves q (s.w.work q)).1 ∧ s'.w.work q = (leaves q (s.w.work q)).2) := by
  cases e <;> simp only [step] at h
  case world e =>
    obtain ⟨w, hw, rfl⟩ := Option.map_eq_some_iff.1 h
    cases e <;> simp only [World.step] at hw <;> (try split at hw) <;>
      simp only [Option.some.injEq, reduceCtorEq] at hw <;> subst hw
    case watch p hc =>
      simp only [Bool.and_eq_true, decide_eq_true_eq] at hc
      by_cases e : q = p
      · subst e; right; simp [hc.2, leaves, upd]
      · left; simp [upd, e]
    case read p hc =>
      simp only [Bool.and_eq_true, decide_eq_true_eq] at hc
      by_cases e : q = p
      · subst e; right; simp [hc.1.2, leaves, upd]
      · left; simp [upd, e]
    all_goals exact .inl rfl
  case begin p =>
    split at h <;> simp only [Option.some.injEq, reduceCtorEq] at h
    rename_i hc
    subst h
    simp only [Bool.and_eq_true, decide_eq_true_eq] at hc
    by_cases e : q = p
    · subst e; right; simp [hc.2, leaves, upd, State.move]
    · left; simp [upd, e, State.move]
  case back p =>
    split at h <;> simp only [Option.some.injEq, reduceCtorEq] at h
    rename_i hc
    subst h
    simp only [Bool.and_eq_true, decide_eq_true_eq] at hc
    by_cases e : q = p
    · subst e; right; simp [hc.1.2, leaves, upd, State.move]
    · left; simp [upd, e, State.move]
  case mtxs p =>
    split at h
    · rename_i hc
      obtain ⟨x, hx, rfl⟩ := Option.map_eq_some_iff.1 h
      simp only [Bool.and_eq_true, decide_eq_true_eq] at hc
      by_cases e : q = p
      · subst e; right; simp [hc.2, leaves, upd, State.move]
      · left; simp [upd, e, State.move]
    · cases h
  case conds p =>
    split at h
    · rename_i hc
      obtain ⟨x, hx, rfl⟩ := Option.map_eq_some_iff.1 h
      simp only [Bool.and_eq_true, decide_eq_true_eq] at hc
      by_cases e : q = p
      · subst e; right; simp [hc.1.2, leaves, upd, State.move]
      · left; simp [upd, e, State.move]
    · cases h
  all_goals
    split at h <;> first | cases h; done | (obtain ⟨x, hx, rfl⟩ := Option.map_eq_some_iff.1 h; exact .inl rfl)

/-- What was seen at the beginning of the check stays the same until the next. -/
theorem step_snap {k : Cfg} {s s' : State} {e : Ev} (h : step k s e = some s') (q : Nat) :
    s'.snap q = s.snap q ∨ (e = .begin q ∧ s'.snap q = s.seg.alive) := by
  cases e <;> simp only [step] at h
  case begin p =>
    split at h <;> simp only [Option.some.injEq, reduceCtorEq] at h
    subst h
    by_cases e : q = p
    · subst e; right; simp [upd]
    · left; simp [upd, e, State.move]
  case back p =>
    split at h <;> simp only [Option.some.injEq, reduceCtorEq] at h
    subst h; exact .inl rfl
  case world => obtain ⟨w, hw, rfl⟩ := Option.map_eq_some_iff.1 h; exact .inl rfl
  all_goals
    split at h <;> first | cases h; done | (obtain ⟨x, hx, rfl⟩ := Option.map_eq_some_iff.1 h; exact .inl rfl)

/-- An unread event stays until it is read. -/
theorem step_queue {k : Cfg} {s s' : State} {e : Ev} (h : step k s e = some s') {q : Nat} (hq : s.w.queue q = true) :
    s'.w.queue q = true ∨ (e = .world (.read q) ∧ s'.w.work q = .got) := by
  cases e <;> simp only [step] at h
  case world e =>
    obtain ⟨w, hw, rfl⟩ := Option.map_eq_some_iff.1 h
    cases e <;> simp only [World.step] at hw <;> (try split at hw) <;>
      simp only [Option.some.injEq, reduceCtorEq] at hw <;> subst hw
    case read p hc =>
      by_cases e : q = p
      · subst e; right; simp [upd]
      · left; simp [upd, e, hq]
    all_goals left; simp [World.notify, hq]
  case begin p =>
    split at h <;> simp only [Option.some.injEq, reduceCtorEq] at h
    subst h; exact .inl hq
  case back p =>
    split at h <;> simp only [Option.some.injEq, reduceCtorEq] at h
    subst h; exact .inl hq
  all_goals
    split at h <;> first | cases h; done | (obtain ⟨x, hx, rfl⟩ := Option.map_eq_some_iff.1 h; exact .inl hq)

/-- The first thread of a process is seen until the process has ended and its descriptors are closed. -/
theorem step_lead {k : Cfg} (hk : Fits k) {s s' : State} {e : Ev} (h : step k s e = some s') (p : Nat)
    (hs : s.w.opened p = true ∨ s.w.down p = false → s.seg.alive (k.lead p) = true) :
    s'.w.opened p = true ∨ s'.w.down p = false → s'.seg.alive (k.lead p) = true := by
  have halive : ∀ {t} {e' : MCMem.Ev} {x}, MCMem.step k.cnt k.fuel k.base s.seg e' = some x →
      (∀ c j, e' ≠ .die t c j) → x.alive t = s.seg.alive t := by
    intro t e' x hx hne
    cases e' <;> simp only [MCMem.step] at hx <;> split at hx <;> try cases hx; done
    · split at hx
      · rw [← Option.some.inj hx]
      · cases hx
    · obtain ⟨r, hr, rfl⟩ := Option.map_eq_some_iff.1 hx; rfl
    · rename_i u c j _
      rw [← Option.some.inj hx]
      simp only [upd]
      split
      · rename_i e; subst e; exact absurd rfl (hne c j)
      · rfl
  cases e <;> simp only [step] at h
  case world e =>
    obtain ⟨w, hw, rfl⟩ := Option.map_eq_some_iff.1 h
    show w.opened p = true ∨ w.down p = false → s.seg.alive (k.lead p) = true
    intro ho
    cases e <;> simp only [World.step] at hw <;> (try split at hw) <;>
      simp only [Option.some.injEq, reduceCtorEq] at hw <;> subst hw
    case start u hc =>
      simp only [Bool.or_eq_true, not_or, Bool.not_eq_true] at hc
      apply hs
      simp only [upd] at ho
      by_cases e : p = u
      · subst e; exact .inr hc.1
      · simpa [e] using ho
    case kill u hc =>
      apply hs
      simp only [upd, Bool.not_eq_true] at ho hc
      by_cases e : p = u
      · subst e; exact .inr hc
      · simpa [e] using ho
    case close u hc =>
      apply hs
      simp only [upd, World.notify] at ho
      by_cases e : p = u
      · subst e
        simp only [Bool.and_eq_true] at hc
        exact .inl hc.2
      · simpa [e] using ho
    all_goals exact hs ho
  case begin =>
    split at h <;> simp only [Option.some.injEq, reduceCtorEq] at h
    subst h; exact hs
  case back =>
    split at h <;> simp only [Option.some.injEq, reduceCtorEq] at h
    subst h; exact hs
  case vanish t c j =>
    split at h
    · cases h
    rename_i hc
    obtain ⟨x, hx, rfl⟩ := Option.map_eq_some_iff.1 h
    intro ho
    show x.alive (k.lead p) = true
    rw [halive hx (by
      rintro c' j' e
      cases e
      simp only [hk.lead, decide_true, Bool.true_and, Bool.or_eq_true, not_or, Bool.not_eq_true', Bool.not_eq_true] at hc
      rcases ho with ho | ho
      · rw [hc.2.1] at ho; cases ho
      · exact absurd ho hc.2.2)]
    exact hs ho
  all_goals
    split at h <;> first | cases h; done | (
      obtain ⟨x, hx, rfl⟩ := Option.map_eq_some_iff.1 h
      intro ho
      show x.alive (k.lead p) = true
      rw [halive hx (by simp)]
      exact hs ho)

section exec
variable {k : Cfg} {σ : Nat → State} {ε : Nat → Option Ev}

theorem Exec.moment (ex : Exec k σ ε) (i : Nat) : σ (i + 1) = σ i ∨ ∃ e, ε i = some e ∧ step k (σ i) e = some (σ (i + 1)) := by
  have hn := ex.next i
  cases he : ε i with
  | none => rw [he] at hn; exact .inl hn
  | some e => rw [he] at hn; exact .inr ⟨e, rfl, hn⟩

/-- The worker stays at its place until it leaves it. -/
theorem Exec.leave (ex : Exec k σ ε) {q a j : Nat} {X : Place} (hx : (σ a).w.work q = X) (haj : a ≤ j) (hj : (σ j).w.work q ≠ X) :
    ∃ r, a ≤ r ∧ r < j ∧ (∀ r', a ≤ r' → r' ≤ r → (σ r').w.work q = X) ∧ ε r = some (leaves q X).1 ∧
      step k (σ r) (leaves q X).1 = some (σ (r + 1)) ∧ (σ (r + 1)).w.work q = (leaves q X).2 := by
  obtain ⟨d, rfl⟩ := Nat.le.dest haj
  clear haj
  induction d generalizing a with
  | zero => exact absurd hx hj
  | succ d ih =>
    by_cases hd : (σ (a + 1)).w.work q = X
    · obtain ⟨r, h1, h2, h3, h4⟩ := ih hd (by rw [show a + 1 + d = a + (d + 1) by omega]; exact hj)
      refine ⟨r, by omega, by omega, fun r' g1 g2 => ?_, h4⟩
      rcases Nat.eq_or_lt_of_le g1 with e | e
      · rw [← e]; exact hx
      · exact h3 r' e g2
    · refine ⟨a, Nat.le_refl _, by omega, fun r' g1 g2 => by rw [Nat.le_antisymm g2 g1]; exact hx, ?_⟩
      rcases ex.moment a with h | ⟨e, he, h⟩
      · rw [h] at hd; exact absurd hx hd
      · rcases step_work h q with g | ⟨g, g'⟩
        · rw [g] at hd; exact absurd hx hd
        · rw [hx] at g g'; subst g; exact ⟨he, h, g'⟩

/-- An unread event is read before the worker has handled everything. -/
theorem Exec.reads (ex : Exec k σ ε) {q a j : Nat} (ha : (σ a).w.queue q = true) (haj : a ≤ j) (hj : (σ j).w.queue q = false) :
    ∃ r, a ≤ r ∧ r < j ∧ (σ (r + 1)).w.work q = .got := by
  obtain ⟨d, rfl⟩ := Nat.le.dest haj
  clear haj
  induction d generalizing a with
  | zero => rw [Nat.add_zero, ha] at hj; cases hj
  | succ d ih =>
    cases hd : (σ (a + 1)).w.queue q with
    | true =>
      obtain ⟨r, h1, h2, h3⟩ := ih hd (by rw [show a + 1 + d = a + (d + 1) by omega]; exact hj)
      exact ⟨r, by omega, by omega, h3⟩
    | false =>
      refine ⟨a, Nat.le_refl _, by omega, ?_⟩
      rcases ex.moment a with h | ⟨e, he, h⟩
      · rw [h, ha] at hd; cases hd
      · rcases step_queue h ha with g | ⟨-, g⟩
        · rw [g] at hd; cases hd
        · exact g

theorem Exec.dead_on (ex : Exec k σ ε) {i j v : Nat} (hij : i ≤ j) (hv : (σ i).seg.alive v = false) :
    (σ j).seg.alive v = false :=
  MCMem.dead_on ex.seg hij hv

/-- While the worker is at other places than the beginning of a check, what was seen at the beginning stays. -/
theorem Exec.snap (ex : Exec k σ ε) {q a j : Nat} (haj : a ≤ j) (h : ∀ r, a ≤ r → r < j → (σ r).w.work q ≠ .got) :
    (σ j).snap q = (σ a).snap q := by
  obtain ⟨d, rfl⟩ := Nat.le.dest haj
  clear haj
  induction d with
  | zero => rfl
  | succ d ih =>
    rw [← ih fun r g1 g2 => h r g1 (by omega)]
    show (σ (a + d + 1)).snap q = _
    rcases ex.moment (a + d) with g | ⟨e, he, g⟩
    · rw [g]
    · rcases step_snap g q with g' | ⟨rfl, -⟩
      · exact g'
      · simp only [step] at g
        split at g
        · rename_i hc
          simp only [Bool.and_eq_true, decide_eq_true_eq] at hc
          exact absurd hc.2 (h _ (by omega) (by omega))
        · cases g

/-- An answer about a thread not seen at the beginning of the check is right. -/
theorem Exec.right (ex : Exec k σ ε) (hk : Fits k) {q r v : Nat} (hs : (σ r).snap q v = false)
    (hr : (ε r).bind (evOf k) = some (.go (k.wk q) .spur)) : MCMem.asks k.cnt k.base (σ r).seg (k.wk q) ≠ some v := by
  intro ha
  obtain ⟨e, he, h'⟩ := Option.bind_eq_some_iff.1 hr
  have hn := ex.next r
  rw [he] at hn
  cases e <;> simp only [evOf, reduceCtorEq, Option.some.injEq, MCMem.Ev.go.injEq] at h'
  obtain ⟨rfl, rfl⟩ := h'
  simp only [step] at hn
  split at hn
  · rename_i hc
    have : asked k (σ r).seg (k.wk q) = some v := ha
    simp [wrong, hk.wk, this, hs] at hc
  · cases hn

theorem idle_done {x : MCMem.State} {t : Nat} (h : idle x t = true) : ∃ r, x.pc t = .done r := by
  unfold idle at h
  split at h
  · exact ⟨_, by assumption⟩
  · cases h

/-- A check that begins when `v` is not seen any more leaves nothing of `v`. -/
theorem Exec.swept (ex : Exec k σ ε) (hk : Fits k) (hl : Limits k.cnt) (hfu : MCMem.Fuel k.cnt k.fuel) {q v a j : Nat} (v0 : v ≠ 0)
    (hv : (σ a).seg.alive v = false) (ha : (σ a).w.work q = .got) (haj : a ≤ j) (hj : (σ j).w.work q = .wait) :
    ∀ j', j ≤ j' → NoneOwned k.cnt k.fuel (σ j').seg v ∧ NoneWaits k.cnt k.fuel (σ j').seg v := by
  obtain ⟨r1, a1, b1, c1, d1, e1, f1⟩ := ex.leave ha haj (by rw [hj]; simp)
  obtain ⟨r2, a2, b2, c2, d2, e2, f2⟩ := ex.leave (a := r1 + 1) (j := j) f1 (by omega) (by rw [hj]; simp [leaves])
  obtain ⟨r3, a3, b3, c3, d3, e3, f3⟩ := ex.leave (a := r2 + 1) (j := j) f2 (by omega) (by rw [hj]; simp [leaves])
  obtain ⟨r4, a4, b4, c4, d4, e4, f4⟩ := ex.leave (a := r3 + 1) (j := j) f3 (by omega) (by rw [hj]; simp [leaves])
  simp only [leaves] at c2 c3 c4 d1 d2 d3 d4 e1 e2 e3 e4 f1 f2 f3 f4
  have hs1 : (σ (r1 + 1)).snap q v = false := by
    rcases step_snap e1 q with g | ⟨-, g⟩
    · simp only [step] at e1
      split at e1
      · rw [← Option.some.inj e1]
        simp only [upd, if_true]
        exact ex.dead_on a1 hv
      · cases e1
    · rw [g]; exact ex.dead_on a1 hv
  have hs : ∀ r, r1 + 1 ≤ r → r ≤ r4 → (σ r).snap q v = false := by
    intro r g1 g2
    rw [ex.snap (q := q) g1, hs1]
    intro r' g3 g4
    rcases Nat.lt_or_ge r2 r' with h | h
    · rcases Nat.lt_or_ge r3 r' with h' | h'
      · rw [c4 r' (by omega) (by omega)]; simp
      · rw [c3 r' (by omega) (by omega)]; simp
    · rw [c2 r' (by omega) (by omega)]; simp
  have i3 : ∃ r, (σ r3).seg.pc (k.wk q) = .done r := by
    simp only [step] at e3
    split at e3
    · rename_i hc
      simp only [Bool.and_eq_true] at hc
      exact idle_done hc.2
    · cases e3
  have i4 : ∃ r, (σ r4).seg.pc (k.wk q) = .done r := by
    simp only [step] at e4
    split at e4
    · rename_i hc
      simp only [Bool.and_eq_true] at hc
      exact idle_done hc.2
    · cases e4
  obtain ⟨x3, i3⟩ := i3
  obtain ⟨x4, i4⟩ := i4
  intro j' hj'
  refine ⟨C97_ownersCall k.cnt hl k.fuel hfu k.base _ _ _ ex.seg (k.wk q) r2 r3 v x3 (by omega) v0
      (ex.dead_on (by omega) hv) (by rw [d2]; rfl) (fun r g1 g2 g3 => ex.right hk (hs r (by omega) (by omega)) g3) i3 j' (by omega),
    C97_waitersCall k.cnt hl k.fuel hfu k.base _ _ _ ex.seg (k.wk q) r3 r4 v x4 (by omega)
      (ex.dead_on (by omega) hv) (by rw [d3]; rfl) (fun r g1 g2 g3 => ex.right hk (hs r (by omega) (by omega)) g3) i4 j' (by omega)⟩

end exec
end Fullock.Recover
