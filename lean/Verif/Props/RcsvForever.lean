import Mathlib.Order.Nat
import Mathlib.Data.Nat.Find
import Verif.Props.RcsvConc
import Verif.Spec.RcsvForever
/-
C85: calls of recursive lock objects return sooner or later.
-/
namespace Fullock.Props.RcsvForever
open Fullock.Rcsv Fullock.Rcsv.Conc Fullock.Spec.Rcsv Fullock.Spec.RcsvForever Fullock.Props.Rcsv Fullock.Props.RcsvConc

/-- What may be left of a call after one instruction. -/
inductive Child : Prog → Prog → Prop
  | lock (k) : Child k (.lock k)
  | unlock (k) : Child k (.unlock k)
  | look (i k o) : Child (k o) (.look i k)
  | upd (i g k) : Child k (.upd i g k)
  | erase (i k) : Child k (.erase i k)
  | push (i k) : Child k (.push i k)
  | find (i k f) : Child (k f) (.find i k)
  | scan (i k f l) : Child (k f l) (.scan i k)
  | grant (q w k b) : Child (k b) (.grant q w k)
  | free (q k b) : Child (k b) (.free q k)

theorem child_acc (p : Prog) : Acc Child p := by
  induction p with
  | ret b => exact ⟨_, fun _ h => by cases h⟩
  | lock k ih => exact ⟨_, fun _ h => by cases h; exact ih⟩
  | unlock k ih => exact ⟨_, fun _ h => by cases h; exact ih⟩
  | look i k ih => exact ⟨_, fun _ h => by cases h; exact ih _⟩
  | upd i g k ih => exact ⟨_, fun _ h => by cases h; exact ih⟩
  | erase i k ih => exact ⟨_, fun _ h => by cases h; exact ih⟩
  | push i k ih => exact ⟨_, fun _ h => by cases h; exact ih⟩
  | find i k ih => exact ⟨_, fun _ h => by cases h; exact ih _⟩
  | scan i k ih => exact ⟨_, fun _ h => by cases h; exact ih _ _⟩
  | grant q w k ih => exact ⟨_, fun _ h => by cases h; exact ih _⟩
  | free q k ih => exact ⟨_, fun _ h => by cases h; exact ih _⟩

/-- The call asks for no lock in the segment any more. -/
def NoGrant : Prog → Prop
  | .ret _ => True
  | .lock k => NoGrant k
  | .unlock k => NoGrant k
  | .look _ k => ∀ o, NoGrant (k o)
  | .upd _ _ k => NoGrant k
  | .erase _ k => NoGrant k
  | .push _ k => NoGrant k
  | .find _ k => ∀ f, NoGrant (k f)
  | .scan _ k => ∀ f l, NoGrant (k f l)
  | .grant _ _ _ => False
  | .free _ k => ∀ b, NoGrant (k b)

theorem NoGrant.child {p q : Prog} (h : NoGrant p) (hc : Child q p) : NoGrant q := by
  cases hc <;> simp only [NoGrant] at h <;> first | exact h | exact h _ | exact h _ _

theorem noGrant_firstWriter : ∀ (l : List Nat) {k : Option Nat → Prog}, (∀ f, NoGrant (k f)) → NoGrant (firstWriterP l k)
  | [], _, hk => hk none
  | j :: js, k, hk => by
    intro o
    beta_reduce
    split
    · exact hk _
    · exact noGrant_firstWriter js hk

theorem noGrant_move {m : Nat} : ∀ (l : List Nat) {k : Prog}, NoGrant k → NoGrant (moveP m l k)
  | [], _, hk => hk
  | _ :: js, _, hk => noGrant_move js hk

theorem noGrant_swap {i n : Nat} {ty : Ty} {l : List Nat} {k : Prog} (hk : NoGrant k) : NoGrant (swapP i ty n l k) :=
  noGrant_move l hk

theorem noGrant_unlock (i : Nat) : NoGrant (callP (.unlock i)) := by
  have hk : ∀ b loc, NoGrant (finishP b loc) := by
    intro b loc
    unfold finishP unlockP
    split <;> trivial
  intro o
  beta_reduce
  split
  · exact hk _ _
  intro o
  simp only
  split
  · exact hk _ _
  · simp only [NoGrant]
    split
    · split
      · intro b
        beta_reduce
        split
        · exact hk _ _
        · exact hk _ _
      · exact hk _ _
    · refine noGrant_firstWriter _ fun f => ?_
      split
      · exact noGrant_swap (hk _ _)
      · exact noGrant_swap (hk _ _)

/-- What one instruction of thread `t` does to the places of threads. -/
theorem step_run {s s' : CState} {t : Nat} (e : Conc.step s t = some s') :
    (∀ u, u ≠ t → s'.run u = s.run u) ∧ ∃ p os op, s.run t = some ⟨p, os, op⟩ ∧
      (s'.run t = none ∨ ∃ q os', s'.run t = some ⟨q, os', op⟩ ∧ Child q p) := by
  unfold Conc.step at e
  cases hrun : s.run t with
  | none => rw [hrun] at e; cases e
  | some f =>
    obtain ⟨p, os, op⟩ := f
    rw [hrun] at e
    have fin : ∀ (f : Option Frame), s'.run = (fun u => if u = t then f else s.run u) →
        (f = none ∨ ∃ q os', f = some ⟨q, os', op⟩ ∧ Child q p) →
        (∀ u, u ≠ t → s'.run u = s.run u) ∧ ∃ p' os' op', some (Frame.mk p os op) = some ⟨p', os', op'⟩ ∧
          (s'.run t = none ∨ ∃ q os'', s'.run t = some ⟨q, os'', op'⟩ ∧ Child q p') := by
      intro f h1 h2
      refine ⟨fun u hu => by rw [h1]; simp [hu], p, os, op, rfl, ?_⟩
      rw [h1]
      simpa using h2
    cases p with
    | ret b =>
      simp only [Option.some.injEq] at e; subst e
      exact fin none rfl (Or.inl rfl)
    | lock k =>
      simp only at e
      split at e
      · cases e
      · simp only [Option.some.injEq] at e; subst e
        exact fin _ rfl (Or.inr ⟨_, _, rfl, .lock k⟩)
    | grant q w k =>
      simp only at e
      split at e
      · split at e
        · cases e
        · simp only [Option.some.injEq] at e; subst e
          exact fin _ rfl (Or.inr ⟨_, _, rfl, .grant ..⟩)
      · simp only [Option.some.injEq] at e; subst e
        exact fin _ rfl (Or.inr ⟨_, _, rfl, .grant ..⟩)
    | unlock k =>
      simp only [Option.some.injEq] at e; subst e
      exact fin _ rfl (Or.inr ⟨_, _, rfl, by constructor⟩)
    | look i k =>
      simp only [Option.some.injEq] at e; subst e
      exact fin _ rfl (Or.inr ⟨_, _, rfl, .look ..⟩)
    | upd i g k =>
      simp only [Option.some.injEq] at e; subst e
      exact fin _ rfl (Or.inr ⟨_, _, rfl, .upd ..⟩)
    | erase i k =>
      simp only [Option.some.injEq] at e; subst e
      exact fin _ rfl (Or.inr ⟨_, _, rfl, .erase ..⟩)
    | push i k =>
      simp only [Option.some.injEq] at e; subst e
      exact fin _ rfl (Or.inr ⟨_, _, rfl, .push ..⟩)
    | find i k =>
      simp only [Option.some.injEq] at e; subst e
      exact fin _ rfl (Or.inr ⟨_, _, rfl, .find ..⟩)
    | scan i k =>
      simp only [Option.some.injEq] at e; subst e
      exact fin _ rfl (Or.inr ⟨_, _, rfl, .scan ..⟩)
    | free q k =>
      simp only [Option.some.injEq] at e; subst e
      exact fin _ rfl (Or.inr ⟨_, _, rfl, .free ..⟩)

/-- Locks are added to the segment by a request only. -/
theorem step_held {s s' : CState} {t : Nat} (e : Conc.step s t = some s')
    (hng : ∀ q w k os op, s.run t ≠ some ⟨.grant q w k, os, op⟩) : ∀ x ∈ s'.sh.held, x ∈ s.sh.held := by
  unfold Conc.step at e
  cases hrun : s.run t with
  | none => rw [hrun] at e; cases e
  | some f =>
    obtain ⟨p, os, op⟩ := f
    rw [hrun] at e
    cases p with
    | grant q w k => exact absurd hrun (hng q w k os op)
    | lock k =>
      simp only at e
      split at e
      · cases e
      · simp only [Option.some.injEq] at e; subst e; exact fun x hx => hx
    | free q k =>
      simp only [Option.some.injEq] at e; subst e
      intro x hx
      simp only [segUnlock] at hx
      split at hx
      · exact List.mem_of_mem_eraseP hx
      · exact hx
    | _ => simp only [Option.some.injEq] at e; subst e; exact fun x hx => hx

/-- The lock of the table stays taken only by keeping its owner. -/
theorem step_owner {s s' : CState} {t : Nat} (e : Conc.step s t = some s') (hg : s.sh.glob = true) (hg' : s'.sh.glob = true) :
    s'.owner = s.owner := by
  unfold Conc.step at e
  cases hrun : s.run t with
  | none => rw [hrun] at e; cases e
  | some f =>
    obtain ⟨p, os, op⟩ := f
    rw [hrun] at e
    cases p with
    | lock k => simp [hg] at e
    | unlock k => simp only [Option.some.injEq] at e; subst e; cases hg'
    | grant q w k =>
      simp only at e
      split at e
      · split at e
        · cases e
        · simp only [Option.some.injEq] at e; subst e; rfl
      · simp only [Option.some.injEq] at e; subst e; rfl
    | _ => simp only [Option.some.injEq] at e; subst e; rfl

theorem call_run {s s' : CState} {t : Nat} {os : List Bool} {op : Op} (e : Conc.call s t os op = some s') :
    s.run t = none ∧ s'.run t = some ⟨callP op, os, op⟩ ∧ (∀ u, u ≠ t → s'.run u = s.run u) ∧ s'.sh = s.sh ∧ s'.owner = s.owner := by
  unfold Conc.call at e
  split at e
  · rename_i h
    simp only [Option.some.injEq] at e; subst e
    exact ⟨h, by simp [CState.goto], fun u hu => by simp [CState.goto, hu], rfl, rfl⟩
  · cases e

section
variable {F : Rng → Prop} {r : Nat → Rng} {σ : Nat → CState} {ε : Nat → Option Ev}

theorem exec_reach {ok : State → List Bool → Op → Prop} (hE : Exec ok r σ ε) : ∀ n, ∃ g, Reach ok r (σ n) g
  | 0 => ⟨_, by rw [hE.start]; exact .init⟩
  | n + 1 => by
    obtain ⟨g, hg⟩ := exec_reach hE n
    have := hE.next n
    split at this
    · rw [this]; exact ⟨g, hg⟩
    · rename_i t os op _
      exact ⟨_, .call hg t os op this.1 this.2.1 _ this.2.2⟩
    · rename_i t _
      exact ⟨_, .step hg t _ this⟩

/-- A thread in a call stays where it is until its next instruction. -/
theorem run_keep {ok : State → List Bool → Op → Prop} (hE : Exec ok r σ ε) {t i : Nat} (hn : (σ i).run t ≠ none)
    (hs : ε i ≠ some (.step t)) : (σ (i + 1)).run t = (σ i).run t := by
  have := hE.next i
  split at this
  · rw [this]
  · rename_i u os op _
    obtain ⟨h1, _, h3, _⟩ := call_run this.2.2
    by_cases hu : t = u
    · subst hu; exact absurd h1 hn
    · exact h3 t hu
  · rename_i u he
    by_cases hu : t = u
    · subst hu; exact absurd he hs
    · exact (step_run this).1 t hu

theorem run_keep_upto {ok : State → List Bool → Op → Prop} (hE : Exec ok r σ ε) {t i : Nat} (hn : (σ i).run t ≠ none) :
    ∀ d, (∀ j, i ≤ j → j < i + d → ε j ≠ some (.step t)) → (σ (i + d)).run t = (σ i).run t
  | 0, _ => rfl
  | d + 1, h => by
    have ih := run_keep_upto hE hn d fun j h1 h2 => h j h1 (by omega)
    rw [← ih]
    exact run_keep (i := i + d) hE (by rw [ih]; exact hn) (h (i + d) (by omega) (by omega))

/-- A thread that never returns makes no more instructions from some moment on. -/
theorem settles {ok : State → List Bool → Op → Prop} (hE : Exec ok r σ ε) (t : Nat) : ∀ (p : Prog) (i : Nat) (os : List Bool) (op : Op),
    (σ i).run t = some ⟨p, os, op⟩ → (∀ j, i ≤ j → (σ j).run t ≠ none) →
    ∃ m, i ≤ m ∧ ∀ j, m ≤ j → ε j ≠ some (.step t) := by
  intro p
  induction child_acc p with
  | intro p _ ih =>
    intro i os op hrun hnr
    by_cases hex : ∃ j, i ≤ j ∧ ε j = some (.step t)
    · have hfind : ∃ d, ε (i + d) = some (.step t) := by
        obtain ⟨j, hj, e⟩ := hex
        exact ⟨j - i, by rw [Nat.add_sub_cancel' hj]; exact e⟩
      classical
      have hd := Nat.find_spec hfind
      have hmin := fun k hk => Nat.find_min (H := hfind) (m := k) hk
      generalize Nat.find hfind = d at hd hmin
      have hk := run_keep_upto hE (hnr i (Nat.le_refl _)) d fun j h1 h2 e => hmin (j - i) (by omega) (by
        rw [Nat.add_sub_cancel' h1]; exact e)
      have hst := hE.next (i + d)
      rw [hd] at hst
      obtain ⟨_, p', os', op', h1, h2⟩ := step_run hst
      rw [hk, hrun] at h1
      simp only [Option.some.injEq, Frame.mk.injEq] at h1
      obtain ⟨rfl, rfl, rfl⟩ := h1
      rcases h2 with h2 | ⟨q, os2, h2, hc⟩
      · exact absurd h2 (hnr (i + d + 1) (by omega))
      · obtain ⟨m, hm, hf⟩ := ih q hc (i + d + 1) os2 op h2 (fun j hj => hnr j (by omega))
        exact ⟨m, by omega, hf⟩
    · exact ⟨i, Nat.le_refl _, fun j hj e => hex ⟨j, hj, e⟩⟩

/-- A thread that never returns is stuck for ever at one place. -/
theorem stuck {ok : State → List Bool → Op → Prop} (hE : Exec ok r σ ε) (hF : Fair σ ε) {t i : Nat}
    (hnr : ∀ j, i ≤ j → (σ j).run t ≠ none) :
    ∃ m, i ≤ m ∧ ∃ f, ∀ j, m ≤ j → (σ j).run t = some f ∧ Conc.step (σ j) t = none := by
  obtain ⟨f, hf⟩ := Option.ne_none_iff_exists'.1 (hnr i (Nat.le_refl _))
  obtain ⟨m, hm, hq⟩ := settles hE t f.prog i f.os f.op hf hnr
  have hns : ∃ m', m ≤ m' ∧ ∀ j, m' ≤ j → Conc.step (σ j) t = none := by
    by_contra hcon
    have : ∀ k, ∃ j, k ≤ j ∧ (Conc.step (σ j) t).isSome = true := by
      intro k
      by_contra hk
      refine hcon ⟨max m k, le_max_left _ _, fun j hj => ?_⟩
      by_contra hn
      exact hk ⟨j, le_trans (le_max_right _ _) hj, Option.isSome_iff_ne_none.2 hn⟩
    obtain ⟨j, hj, e⟩ := hF t this m
    exact hq j hj e
  obtain ⟨m', hm', hn⟩ := hns
  obtain ⟨f', hf'⟩ := Option.ne_none_iff_exists'.1 (hnr m' (by omega))
  refine ⟨m', by omega, f', fun j hj => ⟨?_, hn j hj⟩⟩
  have := run_keep_upto hE (hnr m' (by omega)) (j - m') fun k h1 _ => hq k (by omega)
  rw [Nat.add_sub_cancel' hj, hf'] at this
  exact this

/-- The holder of the lock of the table gives it back. -/
theorem glob_free (hS : Sep F) (hr : ∀ i, F (r i)) (hE : Exec (okC F) r σ ε) (hF : Fair σ ε) (i : Nat) :
    ∃ j, i ≤ j ∧ (σ j).sh.glob = false := by
  by_contra hcon
  have hg : ∀ j, i ≤ j → (σ j).sh.glob = true := fun j hj => by
    by_contra hn
    exact hcon ⟨j, hj, by simpa using hn⟩
  obtain ⟨g0, h0⟩ := exec_reach hE i
  have hI0 := reach_inv hS hr h0
  have ho : ∃ u, (σ i).owner = some u := by
    have := hI0.base.glob
    rw [hg i (Nat.le_refl _)] at this
    exact Option.isSome_iff_exists.1 this.symm
  obtain ⟨u, hu⟩ := ho
  have hall : ∀ d, (σ (i + d)).owner = some u := by
    intro d
    induction d with
    | zero => exact hu
    | succ d ih =>
      rw [← ih]
      have := hE.next (i + d)
      split at this
      · rw [← Nat.add_assoc, this]
      · exact (call_run this.2.2).2.2.2.2
      · exact step_owner this (hg _ (by omega)) (hg _ (by omega))
  have howner : ∀ j, i ≤ j → (σ j).owner = some u := fun j hj => by
    have := hall (j - i)
    rwa [Nat.add_sub_cancel' hj] at this
  have hinv : ∀ j, ∃ g, CInv F r (σ j) g := fun j => by
    obtain ⟨g, h⟩ := exec_reach hE j
    exact ⟨g, reach_inv hS hr h⟩
  have hnr : ∀ j, i ≤ j → (σ j).run u ≠ none := by
    intro j hj e
    obtain ⟨g, hI⟩ := hinv j
    exact ((hI.thr u).idle e).2 (howner j hj)
  obtain ⟨m, hm, f, hst⟩ := stuck hE hF hnr
  obtain ⟨g, hI⟩ := hinv m
  have := owner_steps hI u (howner m hm)
  rw [(hst m (Nat.le_refl _)).2] at this
  cases this

/-- Whoever never returns waits in the segment, from some moment on, always behind a lock of another thread. -/
theorem stuck_grant (hS : Sep F) (hr : ∀ i, F (r i)) (hE : Exec (okC F) r σ ε) (hF : Fair σ ε) {t i : Nat}
    (hnr : ∀ j, i ≤ j → (σ j).run t ≠ none) :
    ∃ m q w, i ≤ m ∧ ∀ j, m ≤ j → waitsFor (σ j) t q w ∧ ∃ x ∈ (σ j).sh.held, inWay t q w x := by
  obtain ⟨m, hm, ⟨p, os, op⟩, hst⟩ := stuck hE hF hnr
  obtain ⟨j0, hj0, hg0⟩ := glob_free hS hr hE hF m
  obtain ⟨h1, h2⟩ := hst j0 hj0
  have hp : ∃ q w k, p = .grant q w k ∧ os.headD true = true := by
    unfold Conc.step at h2
    rw [h1] at h2
    cases p with
    | lock k => simp [hg0] at h2
    | grant q w k =>
      refine ⟨q, w, k, rfl, ?_⟩
      simp only at h2
      split at h2
      · assumption
      · cases h2
    | _ => cases h2
  obtain ⟨q, w, k, rfl, hos⟩ := hp
  refine ⟨m, q, w, hm, fun j hj => ⟨⟨k, os, op, (hst j hj).1, hos⟩, ?_⟩⟩
  have hb : busy (σ j).sh.held q w = true := by
    have := (hst j hj).2
    unfold Conc.step at this
    rw [(hst j hj).1] at this
    simp only [hos, if_true] at this
    split at this
    · assumption
    · cases this
  obtain ⟨g, h⟩ := exec_reach hE j
  have hI := reach_inv hS hr h
  by_cases ho : (σ j).owner = some t
  · have := owner_steps hI t ho
    rw [(hst j hj).2] at this; cases this
  obtain ⟨_, s0, os0, b, s1, _, _, _, hex, _⟩ := (hI.thr t).run _ _ _ (hst j hj).1
  simp only [busy, List.any_eq_true, Bool.and_eq_true, Bool.or_eq_true, beq_iff_eq] at hb
  obtain ⟨x, hx, hc, hw⟩ := hb
  refine ⟨x, hx, fun e => ?_, hc, hw⟩
  simp only [exec] at hex
  split at hex
  · rename_i hcond
    obtain ⟨⟨hq, _⟩, _, hsb⟩ := hcond
    have hxm := (mem_proj_held (r := r) (s := σ j) e).2 hx
    have : selfBlock (proj r t (σ j)).held q w = true := by
      simp only [selfBlock, List.any_eq_true, Bool.and_eq_true, Bool.or_eq_true, beq_iff_eq]
      simp only [clash, Bool.and_eq_true, Bool.or_eq_true, beq_iff_eq, decide_eq_true_eq] at hc
      refine ⟨x, hxm, ⟨⟨e.trans hq.symm, hc.1⟩, hc.2.imp id fun c => ?_⟩, hw⟩
      simp [Rng.meet, e, hq, hc.1, c.1, c.2]
    rw [hsb] at this; cases this
  · cases hex

/-- All but finitely many threads are in no call. -/
theorem few_calls {ok : State → List Bool → Op → Prop} (hE : Exec ok r σ ε) : ∀ n, ∃ B, ∀ t, B ≤ t → (σ n).run t = none
  | 0 => ⟨0, fun t _ => by rw [hE.start]; rfl⟩
  | n + 1 => by
    obtain ⟨B, hB⟩ := few_calls hE n
    have := hE.next n
    split at this
    · rw [this]; exact ⟨B, hB⟩
    · rename_i u os op _
      obtain ⟨_, _, h3, _⟩ := call_run this.2.2
      exact ⟨max B (u + 1), fun t ht => by rw [h3 t (by omega)]; exact hB t (by omega)⟩
    · rename_i u _
      exact ⟨max B (u + 1), fun t ht => by rw [(step_run this).1 t (by omega)]; exact hB t (by omega)⟩

/-- A thread that has returned once only `Unlock` is called asks for nothing any more. -/
theorem noGrant_after {ok : State → List Bool → Op → Prop} (hE : Exec ok r σ ε) {n t i : Nat} (hi : n ≤ i)
    (hL : ∀ j, n ≤ j → ∀ t os op, ε j = some (.call t os op) → ∃ i, op = .unlock i) (h0 : (σ i).run t = none) :
    ∀ d f, (σ (i + d)).run t = some f → NoGrant f.prog
  | 0, f, hf => by rw [Nat.add_zero, h0] at hf; cases hf
  | d + 1, f, hf => by
    have ih := noGrant_after hE hi hL h0 d
    have := hE.next (i + d)
    split at this
    · rw [← Nat.add_assoc, this] at hf; exact ih f hf
    · rename_i u os op he
      obtain ⟨_, h2, h3, _⟩ := call_run this.2.2
      by_cases hu : t = u
      · subst hu
        rw [← Nat.add_assoc, h2] at hf
        simp only [Option.some.injEq] at hf; subst hf
        obtain ⟨a, rfl⟩ := hL (i + d) (by omega) _ _ _ he
        exact noGrant_unlock a
      · rw [← Nat.add_assoc, h3 t hu] at hf; exact ih f hf
    · rename_i u he
      obtain ⟨h1, p, os, op, h2, h3⟩ := step_run this
      by_cases hu : t = u
      · subst hu
        rcases h3 with h3 | ⟨q, os', h3, hc⟩
        · rw [← Nat.add_assoc, h3] at hf; cases hf
        · rw [← Nat.add_assoc, h3] at hf
          simp only [Option.some.injEq] at hf; subst hf
          exact (ih _ h2).child hc
      · rw [← Nat.add_assoc, h1 t hu] at hf; exact ih f hf

/-- At that moment the thread makes no request in the segment. -/
def quiet (σ : Nat → CState) (ε : Nat → Option Ev) (t j : Nat) : Prop :=
  ε j = some (.step t) → ∀ q w k os op, (σ j).run t ≠ some ⟨.grant q w k, os, op⟩

theorem quiet_after {ok : State → List Bool → Op → Prop} (hE : Exec ok r σ ε) {n : Nat}
    (hL : ∀ j, n ≤ j → ∀ t os op, ε j = some (.call t os op) → ∃ i, op = .unlock i) (t : Nat) :
    ∃ m, ∀ j, m ≤ j → quiet σ ε t j := by
  by_cases hr : ∃ i, n ≤ i ∧ (σ i).run t = none
  · obtain ⟨i, hi, h0⟩ := hr
    refine ⟨i, fun j hj _ q w k os op e => ?_⟩
    have := noGrant_after hE hi hL h0 (j - i) ⟨.grant q w k, os, op⟩ (by rw [Nat.add_sub_cancel' hj]; exact e)
    exact this
  · have hnr : ∀ j, n ≤ j → (σ j).run t ≠ none := fun j hj e => hr ⟨j, hj, e⟩
    obtain ⟨f, hf⟩ := Option.ne_none_iff_exists'.1 (hnr n (Nat.le_refl _))
    obtain ⟨m, hm, hq⟩ := settles hE t f.prog n f.os f.op hf hnr
    exact ⟨m, fun j hj e => absurd e (hq j hj)⟩

theorem quiet_all {ok : State → List Bool → Op → Prop} (hE : Exec ok r σ ε) (hL : LocksEnd ε) :
    ∃ m, ∀ t j, m ≤ j → quiet σ ε t j := by
  obtain ⟨n, hn⟩ := hL
  obtain ⟨B, hB⟩ := few_calls hE n
  have hfin : ∀ b, ∃ m, ∀ t, t < b → ∀ j, m ≤ j → quiet σ ε t j := by
    intro b
    induction b with
    | zero => exact ⟨0, fun t ht => by omega⟩
    | succ b ih =>
      obtain ⟨m1, h1⟩ := ih
      obtain ⟨m2, h2⟩ := quiet_after hE hn b
      refine ⟨max m1 m2, fun t ht j hj => ?_⟩
      by_cases htb : t = b
      · subst htb; exact h2 j (by omega)
      · exact h1 t (by omega) j (by omega)
  obtain ⟨m, hm⟩ := hfin B
  refine ⟨max m n, fun t j hj => ?_⟩
  by_cases ht : t < B
  · exact hm t ht j (by omega)
  · intro _ q w k os op e
    have := noGrant_after hE (Nat.le_refl n) hn (hB t (by omega)) (j - n) ⟨.grant q w k, os, op⟩
      (by rw [Nat.add_sub_cancel' (by omega)]; exact e)
    exact this

/-- From some moment on no lock is added in the segment. -/
theorem held_shrinks {ok : State → List Bool → Op → Prop} (hE : Exec ok r σ ε) (hL : LocksEnd ε) :
    ∃ m, ∀ i, m ≤ i → ∀ j, i ≤ j → ∀ x ∈ (σ j).sh.held, x ∈ (σ i).sh.held := by
  obtain ⟨m, hm⟩ := quiet_all hE hL
  refine ⟨m, fun i hi j hj => ?_⟩
  have : ∀ d, ∀ x ∈ (σ (i + d)).sh.held, x ∈ (σ i).sh.held := by
    intro d
    induction d with
    | zero => exact fun x hx => hx
    | succ d ih =>
      intro x hx
      refine ih x ?_
      have := hE.next (i + d)
      split at this
      · rw [← Nat.add_assoc, this] at hx; exact hx
      · rw [← Nat.add_assoc, (call_run this.2.2).2.2.2.1] at hx; exact hx
      · rename_i u he
        exact step_held this (hm u (i + d) (by omega) he) x hx
  have h2 := this (j - i)
  rwa [Nat.add_sub_cancel' hj] at h2

end

/-- One of finitely many things that get lost stays. -/
theorem one_stays {α : Type} {H : Nat → List α} {P : α → Prop} {m : Nat} (hs : ∀ i, m ≤ i → ∀ j, i ≤ j → ∀ x ∈ H j, x ∈ H i)
    (hp : ∀ j, m ≤ j → ∃ x ∈ H j, P x) : ∃ x, P x ∧ ∀ j, m ≤ j → x ∈ H j := by
  by_contra hcon
  have hlost : ∀ x, P x → ∃ j, m ≤ j ∧ x ∉ H j := by
    intro x hx
    by_contra hn
    exact hcon ⟨x, hx, fun j hj => by by_contra h; exact hn ⟨j, hj, h⟩⟩
  have hall : ∀ l : List α, ∃ j, m ≤ j ∧ ∀ x ∈ l, P x → x ∉ H j := by
    intro l
    induction l with
    | nil => exact ⟨m, Nat.le_refl _, by simp⟩
    | cons a l ih =>
      obtain ⟨j1, h1, h2⟩ := ih
      by_cases ha : P a
      · obtain ⟨j2, h3, h4⟩ := hlost a ha
        refine ⟨max j1 j2, by omega, fun x hx hpx hin => ?_⟩
        rcases List.mem_cons.1 hx with rfl | hx
        · exact h4 (hs j2 h3 _ (by omega) x hin)
        · exact h2 x hx hpx (hs j1 h1 _ (by omega) x hin)
      · refine ⟨j1, h1, fun x hx hpx => ?_⟩
        rcases List.mem_cons.1 hx with rfl | hx
        · exact absurd hpx ha
        · exact h2 x hx hpx
  obtain ⟨j, hj, h⟩ := hall (H m)
  obtain ⟨x, hx, hpx⟩ := hp j hj
  exact h x (hs m (Nat.le_refl _) j hj x hx) hpx hx

end Fullock.Props.RcsvForever

namespace Fullock.Props
open Fullock.Rcsv Fullock.Rcsv.Conc Fullock.Spec.Rcsv Fullock.Spec.RcsvForever Fullock.Props.Rcsv Fullock.Props.RcsvConc
open Fullock.Props.RcsvForever

/-! ### C85 -/

/-- A call that never returns waits, from some moment on, in the segment, and at every later moment a lock of another
thread is in its way. -/
theorem C85_behind {F : Rng → Prop} (hS : Sep F) {r : Nat → Rng} (hr : ∀ i, F (r i)) {σ : Nat → CState} {ε : Nat → Option Ev}
    (hE : Exec (okC F) r σ ε) (hF : Fair σ ε) (t i : Nat) (hn : ¬ ReturnsAfter σ t i) :
    ∃ m q w, i ≤ m ∧ ∀ j, m ≤ j → waitsFor (σ j) t q w ∧ ∃ x ∈ (σ j).sh.held, inWay t q w x :=
  stuck_grant hS hr hE hF fun j hj e => hn ⟨j, hj, e⟩

/-- Once locks are no more asked for: a call that never returns waits for a lock of another thread that is kept for ever. -/
theorem C85_waits {F : Rng → Prop} (hS : Sep F) {r : Nat → Rng} (hr : ∀ i, F (r i)) {σ : Nat → CState} {ε : Nat → Option Ev}
    (hE : Exec (okC F) r σ ε) (hF : Fair σ ε) (hL : LocksEnd ε) (t i : Nat) (hn : ¬ ReturnsAfter σ t i) :
    ∃ m q w x, i ≤ m ∧ inWay t q w x ∧ ∀ j, m ≤ j → waitsFor (σ j) t q w ∧ x ∈ (σ j).sh.held := by
  obtain ⟨m, q, w, hm, hw⟩ := C85_behind hS hr hE hF t i hn
  obtain ⟨m2, hs⟩ := held_shrinks hE hL
  obtain ⟨x, hx, hk⟩ := one_stays (H := fun j => (σ j).sh.held) (P := inWay t q w) (m := max m m2)
    (fun i hi => hs i (by omega)) (fun j hj => (hw j (by omega)).2)
  exact ⟨max m m2, q, w, x, by omega, hx, fun j hj => ⟨(hw j (by omega)).1, hk j hj⟩⟩

/-- Once locks are no more asked for, and every lock is released sooner or later, every call returns. -/
theorem C85_returns {F : Rng → Prop} (hS : Sep F) {r : Nat → Rng} (hr : ∀ i, F (r i)) {σ : Nat → CState} {ε : Nat → Option Ev}
    (hE : Exec (okC F) r σ ε) (hF : Fair σ ε) (hL : LocksEnd ε) (hR : Released σ) (t i : Nat) : ReturnsAfter σ t i := by
  by_contra hn
  obtain ⟨m, q, w, x, _, _, hk⟩ := C85_waits hS hr hE hF hL t i hn
  obtain ⟨j, hj, hx⟩ := hR m x (hk m (Nat.le_refl _)).2
  exact hx (hk j hj).2

/-- Whoever asks for a lock none is in the way of again and again returns, whatever the others do. -/
theorem C85_free {F : Rng → Prop} (hS : Sep F) {r : Nat → Rng} (hr : ∀ i, F (r i)) {σ : Nat → CState} {ε : Nat → Option Ev}
    (hE : Exec (okC F) r σ ε) (hF : Fair σ ε) (t i : Nat)
    (h : ∀ q w j, i ≤ j → waitsFor (σ j) t q w → ∃ k, j ≤ k ∧ ∀ x ∈ (σ k).sh.held, ¬ inWay t q w x) : ReturnsAfter σ t i := by
  by_contra hn
  obtain ⟨m, q, w, hm, hw⟩ := C85_behind hS hr hE hF t i hn
  obtain ⟨k, hk, hx⟩ := h q w m hm (hw m (Nat.le_refl _)).1
  obtain ⟨x, h1, h2⟩ := (hw k hk).2
  exact hx x h1 h2

/-! ### Executions for the examples: finitely many events, then nothing happens any more -/

def evThr85 : Ev → Nat
  | .call t _ _ => t
  | .step t => t

variable (r : Nat → Rng) (okb : State → List Bool → Op → Bool)

def ev85 (s : CState) : Ev → Option CState
  | .call t os op => if (r (opObj op)).tid = t ∧ okb s.sh os op = true then Conc.call s t os op else none
  | .step t => Conc.step s t

/-- The events of threads 1 and 2 are possible. -/
def good85 : List Ev → CState → Bool
  | [], _ => true
  | e :: l, s =>
    (evThr85 e == 1 || evThr85 e == 2) &&
    match ev85 r okb s e with
    | none => false
    | some s' => good85 l s'

def after85 : List Ev → CState → CState
  | [], s => s
  | e :: l, s => after85 l ((ev85 r okb s e).getD s)

def σ85 (l : List Ev) (i : Nat) : CState := after85 r okb (l.take i) (Conc.init r)

def ε85 (l : List Ev) (i : Nat) : Option Ev := l[i]?

variable {r : Nat → Rng} {okb : State → List Bool → Op → Bool}

theorem after85_append : ∀ (l m : List Ev) (s : CState), after85 r okb (l ++ m) s = after85 r okb m (after85 r okb l s)
  | [], _, _ => rfl
  | _ :: l, m, s => after85_append l m _

theorem good85_split : ∀ (l : List Ev) (i : Nat) (e : Ev) (s : CState), good85 r okb l s = true → l[i]? = some e →
    (evThr85 e = 1 ∨ evThr85 e = 2) ∧ ∃ s', ev85 r okb (after85 r okb (l.take i) s) e = some s'
  | [], i, e, s, _, h => by simp at h
  | a :: l, 0, e, s, hg, h => by
    simp only [List.getElem?_cons_zero, Option.some.injEq] at h
    subst h
    simp only [good85, Bool.and_eq_true, Bool.or_eq_true, beq_iff_eq] at hg
    refine ⟨hg.1, ?_⟩
    simp only [List.take_zero, after85]
    cases he : ev85 r okb s a with
    | none => rw [he] at hg; cases hg.2
    | some s' => exact ⟨s', rfl⟩
  | a :: l, i + 1, e, s, hg, h => by
    simp only [List.getElem?_cons_succ] at h
    simp only [good85, Bool.and_eq_true] at hg
    cases he : ev85 r okb s a with
    | none => rw [he] at hg; cases hg.2
    | some s' =>
      rw [he] at hg
      simp only [List.take_succ_cons, after85, he, Option.getD_some]
      exact good85_split l i e s' hg.2 h

theorem exec85 {ok : State → List Bool → Op → Prop} (hok : ∀ s os op, okb s os op = true → ok s os op) {l : List Ev}
    (hg : good85 r okb l (Conc.init r) = true) : Exec ok r (σ85 r okb l) (ε85 l) := by
  refine ⟨rfl, fun i => ?_⟩
  cases he : ε85 l i with
  | none =>
    have : l.length ≤ i := by simpa [ε85] using he
    simp [σ85, List.take_of_length_le this, List.take_of_length_le (Nat.le_succ_of_le this)]
  | some e =>
    obtain ⟨_, s', hs'⟩ := good85_split l i e _ hg he
    have hnext : σ85 r okb l (i + 1) = s' := by
      have : l.take (i + 1) = l.take i ++ [e] := by
        have hi : l[i]? = some e := he
        rw [List.take_add_one, hi]; rfl
      simp only [σ85, this, after85_append, after85, hs', Option.getD_some]
    cases e with
    | step t =>
      simp only [ev85] at hs'
      simp only [hnext]
      exact hs'
    | call t os op =>
      simp only [ev85] at hs'
      split at hs'
      · rename_i hc
        exact ⟨hc.1, hok _ _ _ hc.2, by rw [hnext]; exact hs'⟩
      · cases hs'

theorem end85 (l : List Ev) {i : Nat} (h : l.length ≤ i) : σ85 r okb l i = σ85 r okb l l.length := by
  simp [σ85, List.take_of_length_le h]

theorem idle85 : ∀ (l : List Ev) (s : CState) (t : Nat), good85 r okb l s = true → t ≠ 1 → t ≠ 2 → s.run t = none → (after85 r okb l s).run t = none
  | [], _, _, _, _, _, h => h
  | e :: l, s, t, hg, h1, h2, h => by
    simp only [good85, Bool.and_eq_true, Bool.or_eq_true, beq_iff_eq] at hg
    cases he : ev85 r okb s e with
    | none => rw [he] at hg; cases hg.2
    | some s' =>
      rw [he] at hg
      simp only [after85, he, Option.getD_some]
      refine idle85 l s' t hg.2 h1 h2 ?_
      have hte : t ≠ evThr85 e := by rcases hg.1 with h | h <;> rw [h] <;> assumption
      cases e with
      | step u => rw [(step_run he).1 t hte]; exact h
      | call u os op =>
        simp only [ev85] at he
        split at he
        · rw [(call_run he).2.2.1 t hte]; exact h
        · cases he

theorem fair85 {l : List Ev} (hg : good85 r okb l (Conc.init r) = true)
    (h : (Conc.step (σ85 r okb l l.length) 1).isNone = true ∧ (Conc.step (σ85 r okb l l.length) 2).isNone = true) :
    Fair (σ85 r okb l) (ε85 l) := by
  intro t ht
  obtain ⟨j, hj, hs⟩ := ht l.length
  rw [end85 l hj] at hs
  by_cases h1 : t = 1
  · subst h1; rw [Option.isNone_iff_eq_none.1 h.1] at hs; cases hs
  by_cases h2 : t = 2
  · subst h2; rw [Option.isNone_iff_eq_none.1 h.2] at hs; cases hs
  have : (σ85 r okb l l.length).run t = none := by
    simp only [σ85, List.take_length]
    exact idle85 l _ t hg h1 h2 rfl
  rw [Conc.step, this] at hs
  cases hs

theorem locksEnd85 (l : List Ev) : LocksEnd (ε85 l) := by
  refine ⟨l.length, fun j hj t os op e => ?_⟩
  simp [ε85, hj] at e

/-- Calls other than `Lock(fd, …)`, with objects that are not in the list or for `Unlock`. -/
def okb85 (s : State) (os : List Bool) (op : Op) : Bool :=
  decide (isLockAt op = false ∧ os = [] ∧ (isUnlock op = true ∨ s.stack.elem (opObj op) = false))

theorem okb85_ok {F : Rng → Prop} (s : State) (os : List Bool) (op : Op) (h : okb85 s os op = true) : okC F s os op := by
  obtain ⟨h2, rfl, h3⟩ := of_decide_eq_true h
  refine ⟨⟨?_, Or.inl (by simp)⟩, fun hcv => ?_⟩
  · cases op <;> simp [isLockAt, Within] at h2 ⊢
  · simp only [List.elem_eq_mem, decide_eq_false_iff_not] at h3
    rcases h3 with h3 | h3
    · rcases hcv.2.2 with ⟨i, rfl, _⟩ | ⟨i, rfl, _⟩ <;> simp [isUnlock] at h3
    · exact h3 hcv.1

def steps85 (t n : Nat) : List Ev := List.replicate n (.step t)

/-- Thread 1 has a write lock with two objects, thread 2 waits for the same range; thread 1 unlocks both, thread 2 gets the
lock and unlocks it. -/
def turn85 : List Ev := .call 1 [] (.writeLock 0) :: steps85 1 11 ++ .call 1 [] (.writeLock 1) :: steps85 1 9 ++
  .call 2 [] (.readLock 2) :: steps85 2 8 ++ .call 1 [] (.unlock 0) :: steps85 1 11 ++ .call 1 [] (.unlock 1) :: steps85 1 8 ++
  steps85 2 3 ++ .call 2 [] (.unlock 2) :: steps85 2 8

/-- The same, but thread 1 unlocks only one of its objects. -/
def kept85 : List Ev := .call 1 [] (.writeLock 0) :: steps85 1 11 ++ .call 1 [] (.writeLock 1) :: steps85 1 9 ++
  .call 2 [] (.readLock 2) :: steps85 2 8 ++ .call 1 [] (.unlock 0) :: steps85 1 11

theorem turn85_ok : good85 rcR okb85 turn85 (Conc.init rcR) = true ∧ ((Conc.step (σ85 rcR okb85 turn85 turn85.length) 1).isNone = true ∧
    (Conc.step (σ85 rcR okb85 turn85 turn85.length) 2).isNone = true) ∧ (σ85 rcR okb85 turn85 turn85.length).sh.held = [] ∧
    ((σ85 rcR okb85 turn85 32).run 2).isSome = true ∧ (Conc.step (σ85 rcR okb85 turn85 32) 2).isNone = true := by
  decide +kernel

theorem kept85_ok : good85 rcR okb85 kept85 (Conc.init rcR) = true ∧ ((Conc.step (σ85 rcR okb85 kept85 kept85.length) 1).isNone = true ∧
    (Conc.step (σ85 rcR okb85 kept85 kept85.length) 2).isNone = true) ∧ (σ85 rcR okb85 kept85 kept85.length).sh.held = [(⟨1, 3, 0, 10⟩, .write)] ∧
    ((σ85 rcR okb85 kept85 kept85.length).run 2).isSome = true ∧ ((σ85 rcR okb85 kept85 kept85.length).run 1).isNone = true := by
  decide +kernel

/-- The hypotheses of `C85_returns` are met by an execution in which thread 2 waits for a time. -/
example : ∃ σ ε, Exec (okC rcG) rcR σ ε ∧ Fair σ ε ∧ LocksEnd ε ∧ Released σ ∧ ∃ i, (σ i).run 2 ≠ none ∧ Conc.step (σ i) 2 = none := by
  obtain ⟨h1, h2, h3, h4, h5⟩ := turn85_ok
  refine ⟨_, _, exec85 okb85_ok h1, fair85 h1 h2, locksEnd85 _, fun i x _ => ⟨max i turn85.length, le_max_left _ _, ?_⟩, 32,
    Option.isSome_iff_ne_none.1 h4, Option.isNone_iff_eq_none.1 h5⟩
  rw [end85 _ (le_max_right _ _), h3]
  simp

/-- The hypotheses of `C85_waits` are met by an execution in which thread 1 keeps a lock and thread 2 never returns. -/
example : ∃ σ ε, Exec (okC rcG) rcR σ ε ∧ Fair σ ε ∧ LocksEnd ε ∧ ∃ i, ¬ ReturnsAfter σ 2 i := by
  obtain ⟨h1, h2, _, h4, _⟩ := kept85_ok
  refine ⟨_, _, exec85 okb85_ok h1, fair85 h1 h2, locksEnd85 _, kept85.length, ?_⟩
  rintro ⟨j, hj, e⟩
  rw [end85 _ hj] at e
  rw [e] at h4; cases h4

end Fullock.Props
