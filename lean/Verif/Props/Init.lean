import Verif.Model.Init
import Mathlib.Tactic.Common
/-
C41: a segment in use is not reinitialised.  C42: attach sees a complete segment.  C62: a start succeeds.
-/
namespace Fullock.Props.Init
open Fullock.Init

/-- Locks that go with a place. -/
def lockOf : Pc → Lk
  | .gotRead => .read
  | .attached true => .read
  | .locked => .write
  | .writing _ => .write
  | .inited => .write
  | _ => .none

structure Inv (ver : Nat → Nat) (s : State) : Prop where
  lock : ∀ p, s.lock p = lockOf (s.pc p)
  excl : ∀ p q, s.lock p = .write → q ≠ p → s.lock q = .none
  writing : ∀ p ph, s.pc p = .writing ph → s.phase = ph ∧ (ph = .header → s.version = ver p) ∧ ph ≠ .complete
  inited : ∀ p, s.pc p = .inited → s.phase = .complete ∧ s.version = ver p
  attached : ∀ p, s.pc p = .attached true → (s.phase = .header ∨ s.phase = .complete) ∧ s.version ≤ ver p
  absent : s.exist = false → ∀ p, s.pc p = .off ∨ s.pc p = .dead

theorem inv_start (ver : Nat → Nat) (ex : Bool) (ph : Phase) (v : Nat) : Inv ver (start ex ph v) := by
  constructor <;> simp [start, lockOf]

/-- Steps that keep the contents. -/
theorem inv_put {ver : Nat → Nat} {s : State} (h : Inv ver s) (p : Nat) (l : Lk) (c : Pc) (hl : l = lockOf c)
    (hw : l = .write → s.canWrite p) (hr : l = .read → s.canRead p)
    (hc : ∀ ph, c ≠ .writing ph) (hi : c = .inited → s.phase = .complete ∧ s.version = ver p)
    (ha : c = .attached true → (s.phase = .header ∨ s.phase = .complete) ∧ s.version ≤ ver p)
    (he : s.exist = false → c = .off ∨ c = .dead) : Inv ver (s.put p l c) := by
  obtain ⟨h1, h2, h3, h4, h5, h6⟩ := h
  unfold State.canWrite at hw
  unfold State.canRead at hr
  constructor <;> simp only [State.put, upd]
  · intro q; by_cases hq : q = p <;> simp [hq, hl, h1]
  · intro q r hq hne
    by_cases hqp : q = p
    · subst hqp
      rw [if_neg hne]
      exact hw (by simpa using hq) r hne
    · rw [if_neg hqp] at hq
      by_cases hrp : r = p
      · subst hrp
        simp only [if_true]
        cases l with
        | none => rfl
        | read => exact absurd hq (hr rfl q hqp)
        | write => have := hw rfl q hqp; rw [this] at hq; simp at hq
      · rw [if_neg hrp]; exact h2 q r hq hne
  · intro q ph; by_cases hq : q = p <;> simp [hq, hc] ; exact h3 q ph
  · intro q; by_cases hq : q = p
    · subst hq; simpa using hi
    · simp [hq]; exact h4 q
  · intro q; by_cases hq : q = p
    · subst hq; simpa using ha
    · simp [hq]; exact h5 q
  · intro hex q; by_cases hq : q = p
    · simpa [hq] using he hex
    · simpa [hq] using h6 hex q

/-- Steps of a process with the write lock. -/
theorem inv_touch {ver : Nat → Nat} {s : State} (h : Inv ver s) (p : Nat) (c : Pc) (ph : Phase) (v : Nat)
    (hw : s.lock p = .write) (hc : c = .writing ph ∧ ph ≠ .complete ∨ c = .inited ∧ ph = .complete)
    (hv : ph = .header ∨ ph = .complete → v = ver p) :
    Inv ver { s.put p .write c with phase := ph, version := v } := by
  have hne : ∀ q, q ≠ p → lockOf (s.pc q) = .none := fun q hq => by
    rw [← h.lock q]; exact h.excl p q hw hq
  obtain ⟨h1, h2, h3, h4, h5, h6⟩ := h
  have hlc : lockOf c = .write := by rcases hc with ⟨rfl, -⟩ | ⟨rfl, -⟩ <;> rfl
  constructor <;> simp only [State.put, upd]
  · intro q; by_cases hq : q = p <;> simp [hq, hlc, h1]
  · intro q r hq hne'
    by_cases hqp : q = p
    · rw [if_neg (by rw [← hqp]; exact hne')]; exact h2 p r hw (by rw [← hqp]; exact hne')
    · rw [if_neg hqp, h1 q, hne q hqp] at hq; simp at hq
  · intro q ph' hq
    by_cases hqp : q = p
    · subst hqp
      simp only [if_true] at hq
      rcases hc with ⟨rfl, hcp⟩ | ⟨rfl, -⟩
      · cases hq; exact ⟨rfl, fun h => hv (Or.inl h), hcp⟩
      · simp at hq
    · rw [if_neg hqp] at hq
      have := hne q hqp
      rw [hq] at this; simp [lockOf] at this
  · intro q hq
    by_cases hqp : q = p
    · subst hqp
      simp only [if_true] at hq
      rcases hc with ⟨rfl, -⟩ | ⟨rfl, hcp⟩
      · simp at hq
      · exact ⟨hcp, hv (Or.inr hcp)⟩
    · rw [if_neg hqp] at hq
      have := hne q hqp
      rw [hq] at this; simp [lockOf] at this
  · intro q hq
    by_cases hqp : q = p
    · subst hqp
      simp only [if_true] at hq
      rw [hq] at hlc; simp [lockOf] at hlc
    · rw [if_neg hqp] at hq
      have := hne q hqp
      rw [hq] at this; simp [lockOf] at this
  · intro hex q
    exfalso
    rw [h1 p] at hw
    rcases h6 hex p with h' | h' <;> rw [h'] at hw <;> simp [lockOf] at hw

theorem inv_step {ver : Nat → Nat} {k : Kind} {s s' : State} (h : Inv ver s) (hs : Step ver k s s') : Inv ver s' := by
  have hex : ∀ p, s.pc p ≠ .off → s.pc p ≠ .dead → s.exist = false → False := fun p h1 h2 h3 => by
    rcases h.absent h3 p with h' | h' <;> contradiction
  cases hs with
  | create p hp he =>
    have hoff := h.absent he
    have hlk : ∀ q, lockOf (s.pc q) = .none := fun q => by rcases hoff q with h' | h' <;> rw [h'] <;> rfl
    obtain ⟨h1, h2, h3, h4, h5, h6⟩ := h
    constructor <;> simp only [State.put, upd]
    · intro q; by_cases hq : q = p <;> simp [hq, h1, hlk, lockOf]
    · intro q r hq; by_cases hq' : q = p <;> simp [hq', h1, hlk] at hq
    · intro q ph hq
      by_cases hq' : q = p
      · simp [hq'] at hq
      · simp only [if_neg hq'] at hq; rcases hoff q with h' | h' <;> rw [h'] at hq <;> simp at hq
    · intro q hq
      by_cases hq' : q = p
      · simp [hq'] at hq
      · simp only [if_neg hq'] at hq; rcases hoff q with h' | h' <;> rw [h'] at hq <;> simp at hq
    · intro q hq
      by_cases hq' : q = p
      · simp [hq'] at hq
      · simp only [if_neg hq'] at hq; rcases hoff q with h' | h' <;> rw [h'] at hq <;> simp at hq
    · simp
  | openOld p hp he => exact inv_put h p _ _ rfl (by simp) (by simp) (by simp) (by simp) (by simp) (by simp [he])
  | wlock p c n hp hl =>
    exact inv_put h p _ _ rfl (fun _ => hl) (by simp) (by simp) (by simp) (by simp)
      (fun e => (hex p (by simp [hp]) (by simp [hp]) e).elim)
  | wlockNo p n hp hl =>
    exact inv_put h p _ _ rfl (by simp) (by simp) (by simp) (by simp) (by simp)
      (fun e => (hex p (by simp [hp]) (by simp [hp]) e).elim)
  | createNo p n hp hl => exact inv_put h p _ _ rfl (by simp) (by simp) (by simp) (by simp) (by simp) (by simp)
  | rlock p n hp hl =>
    exact inv_put h p _ _ rfl (by simp) (fun _ => hl) (by simp) (by simp) (by simp)
      (fun e => (hex p (by simp [hp]) (by simp [hp]) e).elim)
  | rlockNo p n hp hl hn =>
    exact inv_put h p _ _ rfl (by simp) (by simp) (by simp) (by simp) (by simp)
      (fun e => (hex p (by simp [hp]) (by simp [hp]) e).elim)
  | rlockEnd p n hp hl hn => exact inv_put h p _ _ rfl (by simp) (by simp) (by simp) (by simp) (by simp) (by simp)
  | attach p ok hp =>
    have hcr : s.canRead p := fun q hq hw => by
      have := h.excl q p hw (fun e => hq e.symm)
      rw [h.lock p, hp] at this; simp [lockOf] at this
    unfold attachRes
    split
    · exact inv_put h p _ _ rfl (by simp) (by simp) (by simp) (by simp) (by simp) (by simp)
    · exact inv_put h p _ _ rfl (by simp) (by simp) (by simp) (by simp) (by simp) (by simp)
    · rename_i h1 h2
      split_ifs with hv ho
      · exact inv_put h p _ _ rfl (by simp) (by simp) (by simp) (by simp) (by simp) (by simp)
      · refine inv_put h p _ _ rfl (by simp) (fun _ => hcr) (by simp) (by simp) (fun _ => ⟨?_, by omega⟩)
          (fun e => (hex p (by simp [hp]) (by simp [hp]) e).elim)
        cases hph : s.phase <;> simp_all
      · exact inv_put h p _ _ rfl (by simp) (by simp) (by simp) (by simp) (by simp) (by simp)
  | truncate p hp =>
    exact inv_touch h p _ _ _ (by rw [h.lock p, hp]; rfl) (Or.inl ⟨rfl, by simp⟩) (by simp)
  | zero p hp =>
    exact inv_touch h p _ _ _ (by rw [h.lock p, hp]; rfl) (Or.inl ⟨rfl, by simp⟩) (by simp)
  | head p hp =>
    exact inv_touch h p _ _ _ (by rw [h.lock p, hp]; rfl) (Or.inl ⟨rfl, by simp⟩) (by simp)
  | build p hp =>
    exact inv_touch h p _ _ _ (by rw [h.lock p, hp]; rfl) (Or.inr ⟨rfl, rfl⟩)
      (fun _ => (h.writing p _ hp).2.1 rfl)
  | initFail p hp => exact inv_put h p _ _ rfl (by simp) (by simp) (by simp) (by simp) (by simp) (by simp)
  | rdown p hp =>
    have hw : s.lock p = .write := by rw [h.lock p, hp]; rfl
    refine inv_put h p _ _ rfl (by simp) (fun _ q hq => by rw [h.excl p q hw hq]; simp) (by simp) (by simp)
      (fun _ => ?_) (fun e => (hex p (by simp [hp]) (by simp [hp]) e).elim)
    have := h.inited p hp
    exact ⟨Or.inr this.1, by omega⟩
  | detach p o hp => exact inv_put h p _ _ rfl (by simp) (by simp) (by simp) (by simp) (by simp) (by simp)
  | fork p q o hp hq hv =>
    exact inv_put h q _ _ rfl (by simp) (by simp) (by simp) (by simp) (by simp)
      (fun e => (hex p (by simp [hp]) (by simp [hp]) e).elim)
  | crash p hp hp' => exact inv_put h p _ _ rfl (by simp) (by simp) (by simp) (by simp) (by simp) (by simp)
  | crashInit p hp => exact inv_put h p _ _ rfl (by simp) (by simp) (by simp) (by simp) (by simp) (by simp)

theorem inv_of {ver : Nat → Nat} {ab : Bool} {s : State} (h : Reach ver ab s) : Inv ver s := by
  induction h with
  | start ex ph v => exact inv_start ver ex ph v
  | step k hk _ hs ih => exact inv_step ih hs

/-- Steps that are no `touch` keep the contents of an existing file. -/
theorem frame {ver : Nat → Nat} {k : Kind} {s s' : State} (hs : Step ver k s s') (hk : k ≠ .touch)
    (he : s.exist = true) : s'.exist = true ∧ s'.phase = s.phase ∧ s'.version = s.version := by
  cases hs <;> first
    | exact absurd rfl hk
    | exact ⟨he, rfl, rfl⟩
    | (rename_i h1 h2; rw [he] at h2; simp at h2; done)
    | (unfold attachRes; repeat' split
       all_goals exact ⟨he, rfl, rfl⟩)

/-- The process that touches the file has the write lock. -/
theorem touch_lock {ver : Nat → Nat} {s s' : State} (h : Inv ver s) (hs : Step ver .touch s s') :
    ∃ p, s.lock p = .write := by
  cases hs with
  | truncate p hp => exact ⟨p, by rw [h.lock p, hp]; rfl⟩
  | zero p hp => exact ⟨p, by rw [h.lock p, hp]; rfl⟩
  | head p hp => exact ⟨p, by rw [h.lock p, hp]; rfl⟩
  | build p hp => exact ⟨p, by rw [h.lock p, hp]; rfl⟩

/-- Waiting for, or having, the read lock. -/
def cand : Pc → Bool
  | .tryRead _ => true
  | .gotRead => true
  | .attached true => true
  | _ => false

/-- Without aborted initialisations the file is complete whenever somebody may attach. -/
def Ready (s : State) : Prop := ∀ p, cand (s.pc p) = true → (∀ q, s.lock q ≠ .write) → s.phase = .complete

theorem ready_put {s : State} (h : Ready s) (p : Nat) (l : Lk) (c : Pc)
    (ho : s.lock p = .write → l ≠ .write → s.phase = .complete)
    (hc : cand c = true → cand (s.pc p) = true ∨ ((∀ q, s.lock q ≠ .write) → s.phase = .complete) ) :
    Ready (s.put p l c) := by
  intro q hq hw
  simp only [State.put, upd] at hq hw ⊢
  by_cases hlp : s.lock p = .write
  · exact ho hlp (by have := hw p; simpa using this)
  · have hw' : ∀ r, s.lock r ≠ .write := fun r => by
      by_cases hr : r = p
      · rw [hr]; exact hlp
      · have := hw r; simpa [hr] using this
    by_cases hqp : q = p
    · rw [if_pos hqp] at hq
      rcases hc hq with h' | h'
      · exact h p h' hw'
      · exact h' hw'
    · rw [if_neg hqp] at hq; exact h q hq hw'

theorem ready_step {ver : Nat → Nat} {k : Kind} {s s' : State} (hi : Inv ver s) (h : Ready s)
    (hs : Step ver k s s') (hk : k ≠ .abort) : Ready s' := by
  have hlk : ∀ p, (s.pc p ≠ .locked) → (∀ ph, s.pc p ≠ .writing ph) → s.lock p = .write → s.phase = .complete := by
    intro p h1 h2 hw
    rw [hi.lock p] at hw
    cases hp : s.pc p with
    | inited => exact (hi.inited p hp).1
    | attached o => rw [hp] at hw; cases o <;> simp [lockOf] at hw
    | writing ph => exact absurd hp (h2 ph)
    | locked => exact absurd hp h1
    | _ => rw [hp] at hw; simp [lockOf] at hw
  cases hs with
  | create p hp he =>
    intro q hq
    simp only [State.put, upd] at hq
    by_cases hqp : q = p
    · simp [hqp, cand] at hq
    · rw [if_neg hqp] at hq
      rcases hi.absent he q with h' | h' <;> rw [h'] at hq <;> simp [cand] at hq
  | openOld p hp he => exact ready_put h p _ _ (fun hw _ => hlk p (by simp [hp]) (by simp [hp]) hw) (by simp [cand])
  | wlock p c n hp hl => exact ready_put h p _ _ (fun hw _ => hlk p (by simp [hp]) (by simp [hp]) hw) (by simp [cand])
  | wlockNo p n hp hl =>
    refine ready_put h p _ _ (fun hw _ => hlk p (by simp [hp]) (by simp [hp]) hw) (fun _ => Or.inr fun hw => ?_)
    have : ∃ q, s.lock q = .read := by
      by_contra hc
      refine hl fun q _ => ?_
      cases hq : s.lock q with
      | none => rfl
      | read => exact absurd ⟨q, hq⟩ hc
      | write => exact absurd hq (hw q)
    obtain ⟨q, hq⟩ := this
    refine h q ?_ hw
    rw [hi.lock q] at hq
    cases hpq : s.pc q with
    | attached o => cases o <;> simp_all [lockOf, cand]
    | _ => rw [hpq] at hq; simp_all [lockOf, cand]
  | createNo p n hp hl => exact ready_put h p _ _ (fun hw _ => hlk p (by simp [hp]) (by simp [hp]) hw) (by simp [cand])
  | rlock p n hp hl =>
    exact ready_put h p _ _ (fun hw _ => hlk p (by simp [hp]) (by simp [hp]) hw) (fun _ => Or.inl (by rw [hp]; rfl))
  | rlockNo p n hp hl hn => exact ready_put h p _ _ (fun hw _ => hlk p (by simp [hp]) (by simp [hp]) hw) (by simp [cand])
  | rlockEnd p n hp hl hn => exact ready_put h p _ _ (fun hw _ => hlk p (by simp [hp]) (by simp [hp]) hw) (by simp [cand])
  | attach p ok hp =>
    unfold attachRes
    repeat' split
    all_goals
      exact ready_put h p _ _ (fun hw _ => hlk p (by simp [hp]) (by simp [hp]) hw) (fun _ => Or.inl (by rw [hp]; rfl))
  | truncate p hp => intro q _ hw; exact absurd (by simp [State.put, upd]) (hw p)
  | zero p hp => intro q _ hw; exact absurd (by simp [State.put, upd]) (hw p)
  | head p hp => intro q _ hw; exact absurd (by simp [State.put, upd]) (hw p)
  | build p hp => intro q _ hw; exact absurd (by simp [State.put, upd]) (hw p)
  | initFail p hp => exact absurd rfl hk
  | rdown p hp =>
    exact ready_put h p _ _ (fun hw _ => hlk p (by simp [hp]) (by simp [hp]) hw) (fun _ => Or.inr fun _ => (hi.inited p hp).1)
  | detach p o hp => exact ready_put h p _ _ (fun hw _ => hlk p (by simp [hp]) (by simp [hp]) hw) (by simp [cand])
  | fork p q o hp hq hv =>
    exact ready_put h q _ _ (fun hw _ => hlk q (by simp [hq]) (by simp [hq]) hw) (by simp [cand])
  | crash p hp hp' => exact ready_put h p _ _ (fun hw _ => hlk p hp hp' hw) (by simp [cand])
  | crashInit p hp => exact absurd rfl hk

theorem ready_of {ver : Nat → Nat} {s : State} (h : Reach ver false s) : Ready s := by
  induction h with
  | start ex ph v => intro p hp; simp [start, cand] at hp
  | step k hk hr hs ih => exact ready_step (inv_of hr) ih hs (fun e => by simpa using hk e)

/-- One process has created and completed the segment. -/
theorem made (ver : Nat → Nat) (ab : Bool) : ∃ s, Reach ver ab s ∧ s.pc 1 = .attached true ∧ s.exist = true ∧
    s.phase = .complete ∧ s.version = ver 1 ∧ s.lock 1 = .read ∧
    ∀ q, q ≠ 1 → s.pc q = .off ∧ s.lock q = .none := by
  have h0 := Reach.start (ver := ver) (ab := ab) false .empty 0
  have h1 := Reach.step _ (by simp) h0 (Step.create 1 rfl rfl)
  have h2 := Reach.step _ (by simp) h1 (Step.wlock 1 true 0 rfl (by intro q hq; simp [State.put, upd, start]))
  have h3 := Reach.step _ (by simp) h2 (Step.truncate 1 rfl)
  have h4 := Reach.step _ (by simp) h3 (Step.zero 1 rfl)
  have h5 := Reach.step _ (by simp) h4 (Step.head 1 rfl)
  have h6 := Reach.step _ (by simp) h5 (Step.build 1 rfl)
  have h7 := Reach.step _ (by simp) h6 (Step.rdown 1 rfl)
  exact ⟨_, h7, rfl, rfl, rfl, rfl, rfl, fun q hq => by simp [State.put, upd, hq, start]⟩

end Fullock.Props.Init

namespace Fullock.Props
open Fullock.Init Fullock.Props.Init

/-- C41, full: the contents are changed only while nobody is attached. -/
def C41_full : Prop :=
  ∀ (ver : Nat → Nat) (s s' : State), Reach ver false s → Step ver .touch s s' →
    ∀ q o, s.pc q ≠ .attached o

/-- A child keeps using the segment after its parent has detached, but holds no lock: the next process
that starts reinitialises the segment. -/
theorem C41_not_full : ¬ C41_full := by
  intro h
  obtain ⟨s, hr, h1, h2, h3, h4, h5, h6⟩ := made (fun _ => 1) false
  have r1 := Reach.step _ (by simp) hr (Step.fork 1 2 true h1 (h6 2 (by simp)).1 rfl)
  have r2 := Reach.step _ (by simp) r1 (Step.detach 1 true (by simp [State.put, upd, h1]))
  have r3 := Reach.step _ (by simp) r2 (Step.openOld 3 (by simp [State.put, upd, h6]) h2)
  have r4 := Reach.step _ (by simp) r3 (Step.wlock 3 false 0 (by simp [State.put, upd])
    (by intro q hq; simp only [State.put, upd]; by_cases q = 1 <;> by_cases q = 2 <;> simp_all))
  exact h _ _ _ r4 (Step.truncate 3 (by simp [State.put, upd])) 2 false (by simp [State.put, upd])

/-- C41 (missing: processes attached through fork, refuted by `C41_not_full`): the contents are changed
only while no process that attached itself is attached; whatever else happens (starts, forks, deaths,
failing initialisers), in every interleaving. -/
theorem C41_partial {ver : Nat → Nat} {ab : Bool} {s s' : State} (h : Reach ver ab s) (hs : Step ver .touch s s')
    (q : Nat) : s.pc q ≠ .attached true := by
  intro hq
  have hi := inv_of h
  obtain ⟨p, hp⟩ := touch_lock hi hs
  by_cases hqp : q = p
  · subst hqp; rw [hi.lock q, hq] at hp; simp [lockOf] at hp
  · have := hi.excl p q hp hqp
    rw [hi.lock q, hq] at this; simp [lockOf] at this

/-- All other steps keep the contents of the file. -/
theorem C41_frame {ver : Nat → Nat} {k : Kind} {s s' : State} (hs : Step ver k s s') (hk : k ≠ .touch)
    (he : s.exist = true) : s'.phase = s.phase ∧ s'.version = s.version := (frame hs hk he).2

/-- C41: at most one process initialises at a time, and no one attaches meanwhile. -/
theorem C41_one_initialiser {ver : Nat → Nat} {ab : Bool} {s : State} (h : Reach ver ab s) (p q : Nat) (ph : Phase)
    (hp : s.pc p = .writing ph ∨ s.pc p = .locked) (hqp : q ≠ p) :
    s.pc q ≠ .locked ∧ (∀ ph', s.pc q ≠ .writing ph') ∧ s.pc q ≠ .inited ∧ s.pc q ≠ .gotRead := by
  have hi := inv_of h
  have hw : s.lock p = .write := by rcases hp with hp | hp <;> rw [hi.lock p, hp] <;> rfl
  have := hi.excl p q hw hqp
  rw [hi.lock q] at this
  refine ⟨?_, ?_, ?_, ?_⟩ <;> intros <;> intro h' <;> rw [h'] at this <;> simp [lockOf] at this

/-- C42, full: an attached process sees a complete segment. -/
def C42_full : Prop :=
  ∀ (ver : Nat → Nat) (s : State), Reach ver true s → ∀ p, s.pc p = .attached true → s.phase = .complete

/-- The initialiser dies between the two lock requests of another process, which then attaches to the
half initialised segment. -/
theorem C42_not_full : ¬ C42_full := by
  intro h
  have h0 := Reach.start (ver := fun _ => 1) (ab := true) false .empty 0
  have h1 := Reach.step _ (by simp) h0 (Step.create 1 rfl rfl)
  have h2 := Reach.step _ (by simp) h1 (Step.wlock 1 true 0 rfl (by intro q hq; simp [State.put, upd, start]))
  have h3 := Reach.step _ (by simp) h2 (Step.truncate 1 rfl)
  have h4 := Reach.step _ (by simp) h3 (Step.zero 1 rfl)
  have h5 := Reach.step _ (by simp) h4 (Step.head 1 rfl)
  have h6 := Reach.step _ (by simp) h5 (Step.openOld 2 rfl rfl)
  have h7 := Reach.step _ (by simp) h6 (Step.wlockNo 2 0 rfl (by
    intro hc
    have := hc 1 (by simp)
    simp [State.put, upd] at this))
  have h8 := Reach.step _ (by simp) h7 (Step.crashInit 1 (Or.inr ⟨_, rfl⟩))
  have h9 := Reach.step _ (by simp) h8 (Step.rlock 2 0 rfl (by
    intro q hq
    simp only [State.put, upd, start]
    by_cases q = 1 <;> simp_all))
  have h10 := Reach.step _ (by simp) h9 (Step.attach 2 true rfl)
  have := h _ _ h10 2 rfl
  simp [attachRes, State.put] at this

/-- C42 (missing: initialisers that fail or die, refuted by `C42_not_full`): as long as every started
initialisation is completed, an attached process sees a complete segment during its whole attachment. -/
theorem C42_partial {ver : Nat → Nat} {s : State} (h : Reach ver false s) (p : Nat) (hp : s.pc p = .attached true) :
    s.phase = .complete := by
  refine ready_of h p (by rw [hp]; rfl) (fun q hw => ?_)
  have hi := inv_of h
  by_cases hq : p = q
  · subst hq; rw [hi.lock p, hp] at hw; simp [lockOf] at hw
  · have := hi.excl q p hw hq
    rw [hi.lock p, hp] at this; simp [lockOf] at this

/-- C42, version: in every history an attached process sees a segment with a header, whose version is
not newer than its own. -/
theorem C42_version {ver : Nat → Nat} {ab : Bool} {s : State} (h : Reach ver ab s) (p : Nat)
    (hp : s.pc p = .attached true) : (s.phase = .header ∨ s.phase = .complete) ∧ s.version ≤ ver p :=
  (inv_of h).attached p hp

/-- C42, refusal: a segment with a newer version, an empty one or one of zeros is not attached. -/
theorem C42_refused (ver : Nat) (s : State) (p : Nat) (ok : Bool)
    (h : s.phase = .empty ∨ s.phase = .zeros ∨ ver < s.version) :
    (attachRes ver s p ok).pc p = .off ∨ (attachRes ver s p ok).pc p = .dead := by
  unfold attachRes
  rcases h with h | h | h
  · rw [h]; right; simp [State.put, upd]
  · rw [h]; left; simp [State.put, upd]
  · split
    · right; simp [State.put, upd]
    · left; simp [State.put, upd]
    · rw [if_pos h]; left; simp [State.put, upd]

example : ∃ s, Reach (fun _ => 1) false s ∧ s.pc 1 = .attached true := by
  obtain ⟨s, h, h1, -⟩ := made (fun _ => 1) false
  exact ⟨s, h, h1⟩

/-! ### C62: starting -/

/-- C62, full: no start is given up because of the locks of others. -/
def C62_full : Prop := ∀ (ver : Nat → Nat) (s s' : State), Reach ver false s → ¬ Step ver .refuse s s'

/-- The creator of the file is overtaken before it has locked it. -/
theorem C62_not_full : ¬ C62_full := by
  intro h
  have h0 := Reach.start (ver := fun _ => 1) (ab := false) false .empty 0
  have h1 := Reach.step _ (by simp) h0 (Step.create 1 rfl rfl)
  have h2 := Reach.step _ (by simp) h1 (Step.openOld 2 rfl rfl)
  have h3 := Reach.step _ (by simp) h2 (Step.wlock 2 false 0 rfl (by
    intro q hq
    simp only [State.put, upd, start]
    by_cases q = 1 <;> simp_all))
  refine h _ _ _ h3 (Step.createNo 1 0 rfl ?_)
  intro hc
  have := hc 2 (by simp)
  simp [State.put, upd] at this

/-- C62 (missing: an overtaken creator, and initialisations of others that last for all tries): while a
process that attached itself is attached, no start on the existing file is given up, none takes the
write lock; the read lock is granted at once. -/
theorem C62_partial {ver : Nat → Nat} {ab : Bool} {s : State} (h : Reach ver ab s) (q : Nat)
    (hq : s.pc q = .attached true) (p : Nat) (hp : p ≠ q) :
    ¬ s.canWrite p ∧ s.canRead p ∧
    ∀ s', Step ver .refuse s s' → ∃ c n, s.pc c = .opened true n := by
  have hi := inv_of h
  have hlq : s.lock q = .read := by rw [hi.lock q, hq]; rfl
  have hnw : ∀ r, s.lock r ≠ .write := fun r hw => by
    by_cases hr : q = r
    · subst hr; rw [hlq] at hw; simp at hw
    · have := hi.excl r q hw hr; rw [hlq] at this; simp at this
  refine ⟨fun hc => by have := hc q (fun e => hp e.symm); rw [hlq] at this; simp at this, fun r _ => hnw r, ?_⟩
  intro s' hs
  cases hs with
  | createNo c n hc _ => exact ⟨c, n, hc⟩
  | rlockEnd c n hc hl _ => exact absurd (fun r _ => hnw r) hl

/-- C62, alone: when nobody else holds a lock, a process that opens an existing file gets the write lock,
and the completed initialisation ends attached to a complete segment of its version. -/
theorem C62_alone {ver : Nat → Nat} {ab : Bool} {s : State} (h : Reach ver ab s) (p : Nat) (hp : s.pc p = .off)
    (he : s.exist = true) (hl : s.canWrite p) :
    ∃ s', Reach ver ab s' ∧ s'.pc p = .attached true ∧ s'.phase = .complete ∧ s'.version = ver p ∧
      ∀ q, q ≠ p → s'.pc q = s.pc q := by
  have h1 := Reach.step _ (by simp) h (Step.openOld p hp he)
  have h2 := Reach.step _ (by simp) h1 (Step.wlock p false 0 (by simp [State.put, upd])
    (by intro q hq; simpa [State.put, upd, hq] using hl q hq))
  have h3 := Reach.step _ (by simp) h2 (Step.truncate p (by simp [State.put, upd]))
  have h4 := Reach.step _ (by simp) h3 (Step.zero p (by simp [State.put, upd]))
  have h5 := Reach.step _ (by simp) h4 (Step.head p (by simp [State.put, upd]))
  have h6 := Reach.step _ (by simp) h5 (Step.build p (by simp [State.put, upd]))
  have h7 := Reach.step _ (by simp) h6 (Step.rdown p (by simp [State.put, upd]))
  exact ⟨_, h7, by simp [State.put, upd], rfl, rfl, fun q hq => by simp [State.put, upd, hq]⟩

/-- Process `p` opened the existing file and since then its request for the read lock was refused `k` times
with a return to the request for the write lock. -/
inductive Tries (ver : Nat → Nat) (p : Nat) : Nat → State → Prop
  | open_ {k : Kind} {s s' : State} (hs : Step ver k s s') (h : s.pc p = .off) (he : s.exist = true)
      (h' : ∃ n, s'.pc p = .opened false n) : Tries ver p 0 s'
  | again {i : Nat} {k : Kind} {s s' : State} (h : Tries ver p i s) (hs : Step ver k s s')
      (h1 : ∃ n, s.pc p = .tryRead n) (h2 : ∃ c n, s'.pc p = .opened c n) : Tries ver p (i + 1) s'
  | other {i : Nat} {k : Kind} {s s' : State} (h : Tries ver p i s) (hs : Step ver k s s')
      (h1 : ¬ ((∃ n, s.pc p = .tryRead n) ∧ ∃ c n, s'.pc p = .opened c n)) (h2 : s'.pc p ≠ .off) : Tries ver p i s'

/-- How a step can change the place of a process that is on its way through the tries. -/
theorem try_step {ver : Nat → Nat} {k : Kind} {s s' : State} (hs : Step ver k s s') (p : Nat) :
    s'.pc p = s.pc p ∨ (s.pc p = .off ∧ ∃ c, s'.pc p = .opened c 0) ∨
    (∃ n, s.pc p = .opened false n ∧ s'.pc p = .tryRead n ∧ ¬ s.canWrite p) ∨
    (∃ n, s.pc p = .tryRead n ∧ s'.pc p = .opened false (n + 1) ∧ k = .other ∧ ¬ s.canRead p ∧ n + 1 < 100) ∨
    (∃ n, s.pc p = .tryRead n ∧ s'.pc p = .off ∧ k = .refuse ∧ ¬ s.canRead p ∧ 100 ≤ n + 1) ∨
    ((∀ n, s'.pc p ≠ .tryRead n) ∧ (∀ c n, s'.pc p ≠ .opened c n) ∧
      ((∃ n, s.pc p = .tryRead n) → s'.pc p ≠ .off)) := by
  have hn : ∀ (q : Nat) (l : Lk) (c : Pc), q ≠ p → (s.put q l c).pc p = s.pc p := by
    intro q l c h; simp [State.put, upd, Ne.symm h]
  have he : ∀ (l : Lk) (c : Pc), (s.put p l c).pc p = c := by intro l c; simp [State.put, upd]
  cases hs
  case attach q ok h =>
    by_cases e : q = p
    · subst e
      right; right; right; right; right
      unfold attachRes
      refine ⟨?_, ?_, by simp [h]⟩ <;> intros <;> repeat' split
      all_goals simp [he]
    · left
      unfold attachRes
      repeat' split
      all_goals exact hn _ _ _ e
  case fork q r o h h2 h3 =>
    by_cases e : r = p
    · subst e; right; right; right; right; right; simp [he]
    · left; exact hn _ _ _ e
  all_goals (clear hn he; simp only [State.put, upd, tries] at *; grind)

/-- C62, patience: a start on an existing file is given up for want of a lock exactly at the hundredth
refused request. -/
theorem C62_patience {ver : Nat → Nat} {p i : Nat} {s : State} (h : Tries ver p i s) :
    (∀ n, s.pc p = .tryRead n → ¬ s.canRead p →
      ((∃ s', Step ver .refuse s s' ∧ s' = s.put p .none .off) ↔ 99 ≤ i) ∧
      ((∃ s' m, Step ver .other s s' ∧ s' = s.put p .none (.opened false m)) ↔ i < 99)) := by
  have key : s.pc p ≠ .off ∧ ∀ n, (s.pc p = .opened false n ∨ s.pc p = .tryRead n) → n = i := by
    induction h with
    | open_ hs h he h' =>
      refine ⟨by grind, fun n hn => ?_⟩
      rcases try_step hs p with e | e | e | e | e | e <;> grind
    | @again i k s s' h hs h1 h2 ih =>
      obtain ⟨ih0, ih⟩ := ih
      refine ⟨by grind, fun n hn => ?_⟩
      rcases try_step hs p with e | e | e | e | e | e <;> grind
    | @other i k s s' h hs h1 h2 ih =>
      obtain ⟨ih0, ih⟩ := ih
      refine ⟨by grind, fun n hn => ?_⟩
      rcases try_step hs p with e | e | e | e | e | e <;> grind
  intro n hn hl
  have hi := key.2 n (.inr hn)
  subst hi
  refine ⟨⟨?_, fun h => ⟨_, Step.rlockEnd p n hn hl (by unfold tries; omega), rfl⟩⟩,
    ⟨?_, fun h => ⟨_, n + 1, Step.rlockNo p n hn hl (by unfold tries; omega), rfl⟩⟩⟩
  · rintro ⟨s', hs, hg⟩
    have hoff : s'.pc p = .off := by rw [hg]; simp [State.put, upd]
    rcases try_step hs p with e | e | e | e | e | e <;> grind
  · rintro ⟨s', m, hs, hg⟩
    have hoff : s'.pc p = .opened false m := by rw [hg]; simp [State.put, upd]
    rcases try_step hs p with e | e | e | e | e | e <;> grind

/-- Such a start: process 2 finds the file while process 1 is initialising it. -/
example : ∃ s n, Tries (fun _ => 1) 2 0 s ∧ s.pc 2 = .tryRead n ∧ ¬ s.canRead 2 := by
  let s0 := (start true .complete 1).put 1 .write .locked
  have h1 := Tries.open_ (ver := fun _ => 1) (p := 2) (Step.openOld (s := s0) 2 rfl rfl) rfl rfl ⟨0, rfl⟩
  have hw : ¬ (s0.put 2 .none (.opened false 0)).canWrite 2 := fun hc => by
    have := hc 1 (by simp); simp [s0, State.put, upd] at this
  have h2 := Tries.other h1 (Step.wlockNo 2 0 rfl hw) (fun h => by
    obtain ⟨⟨n, h⟩, _⟩ := h; simp [State.put, upd] at h) (by simp [State.put, upd])
  refine ⟨_, 0, h2, rfl, fun hc => ?_⟩
  have := hc 1 (by simp)
  simp [s0, State.put, upd] at this

end Fullock.Props
