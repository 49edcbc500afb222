import Verif.Proofs.FdLife
import Verif.Props.FileLock
import Verif.Props.Os
/-!
C99: file locks and the descriptors through which they have been taken.
-/
namespace Fullock.Props
open FdLife

/-- What the operating system shows to thread `t` in the world `w`, in the numbers of the code: threads as they are; descriptors
as they are, or EACCES. -/
def osOf (w : World) (t : Nat) : Os where
  task p u := if w.runs u.toNat = true ∧ w.pid u.toNat = p.toNat then .ok (1, 1) else .err 2
  fd p d := if w.deny (w.pid t) p.toNat = true then .err 13 else
    match w.fdOf p.toNat d.toInt with
    | some k => .ok k
    | none => .err 2

/-- The check of a record in the model is the verdict of the code on the numbers of its holder, as long as no file has the number
that stands for a refused access. -/
theorem C99_verdict (w : World) (m : FL.Mem) (t l : Nat) (file : DevIno) (ex : FlckPid × BitVec 32)
    (hf : file ≠ (0#64, 0#64)) (hk : ∀ p d k, w.fdOf p d = some k → k.1 ≠ eaccessDI.1 ∧ k.2 ≠ eaccessDI.2)
    (hu : m.ltid l < 2 ^ 32) (hp : w.pid (m.ltid l) < 2 ^ 32) (hd : -2 ^ 31 ≤ m.lfd l ∧ m.lfd l < 2 ^ 31)
    (hx : ¬ (composeFlckpid (.ofNat 32 (w.pid (m.ltid l))) (.ofNat 32 (m.ltid l)) = ex.1 ∧ BitVec.ofInt 32 (m.lfd l) = ex.2)) :
    (askOne (osOf w t) none (.locker file (composeFlckpid (.ofNat 32 (w.pid (m.ltid l))) (.ofNat 32 (m.ltid l)))
      (.ofInt 32 (m.lfd l)) ex)).1 = !w.there m t file l := by
  have hos : ErrnoSane (osOf w t) := by
    constructor
    · intro p u; simp only [osOf]; split <;> simp
    · intro p f; simp only [osOf]; split
      · simp
      · split <;> simp
  have e1 : (BitVec.ofNat 32 (w.pid (m.ltid l))).toNat = w.pid (m.ltid l) := by
    rw [BitVec.toNat_ofNat]; exact Nat.mod_eq_of_lt hp
  have e2 : (BitVec.ofNat 32 (m.ltid l)).toNat = m.ltid l := by
    rw [BitVec.toNat_ofNat]; exact Nat.mod_eq_of_lt hu
  have e3 : (BitVec.ofInt 32 (m.lfd l)).toInt = m.lfd l := by
    rw [BitVec.toInt_ofInt]; simp only [Int.bmod]; omega
  have seen : Spec.ThreadSeen (osOf w t) (.ofNat 32 (w.pid (m.ltid l))) (.ofNat 32 (m.ltid l)) ↔ w.runs (m.ltid l) = true := by
    simp only [Spec.ThreadSeen, osOf, e1, e2, and_true]
    constructor
    · rintro ⟨di, h⟩
      by_contra hn
      rw [if_neg hn] at h; cases h
    · intro h; exact ⟨_, by rw [if_pos h]⟩
  have key := C12_verdict_exact (osOf w t) hos (.locker file (composeFlckpid (.ofNat 32 (w.pid (m.ltid l))) (.ofNat 32 (m.ltid l)))
      (.ofInt 32 (m.lfd l)) ex) hf
  rw [Bool.eq_iff_iff, key]
  simp only [Spec.Truth, hx, not_false_eq_true, true_and, decomposePid_compose, decomposeTid_compose, Spec.HolderGone, e3, seen,
    World.there]
  by_cases h1 : m.lfd l < 0
  · simp [h1]
  · rw [if_neg h1]
    simp only [h1, false_or, osOf, e1, e3]
    by_cases h2 : w.deny (w.pid t) (w.pid (m.ltid l)) = true
    · simp [h2]
    · simp only [h2, if_false, Bool.false_eq_true]
      cases h3 : w.fdOf (w.pid (m.ltid l)) (m.lfd l) with
      | none => simp
      | some k =>
        have := hk _ _ _ h3
        simp [this.1, this.2]

/-- Opening, closing, duplicating and forking change nothing about locks by themselves. -/
theorem C99_close (x x' : State) (e : WEv) (h : x.step (.w e) = some x') :
    x'.mem = x.mem ∧ x'.lockid = x.lockid ∧ x'.pc = x.pc := by
  simp only [State.step] at h
  split at h
  · simp only [Option.map_eq_some_iff] at h
    obtain ⟨w', h1, rfl⟩ := h
    exact ⟨rfl, rfl, rfl⟩
  · cases h

/-- C99 as stated: nobody takes away the lock of a thread that has not ended. -/
def C99_full : Prop :=
  ∀ x x' e y, Reach noEnd x → x.step e = some x' → y ∈ x.mem.outs → x.w.runs y.2.t = true → e.who ≠ y.2.t → y ∈ x'.mem.outs

def dgo (t n : Nat) : List Ev := (Spec.alone t n).map .ev

/-- Thread 1 opens a file, locks [0,10) for writing, and closes the descriptor; another thread checks all records. -/
def closed99 : List Ev :=
  .w (.set 1 3 (some FL.kX)) :: .ev (.call 1 (.lock (FL.mkOp 3 FL.kX FL.rA .wr .block))) :: dgo 1 9 ++ .w (.create 1 2) ::
  .w (.set 1 3 none) :: .ev (.call 2 .sweep) :: dgo 2 1

theorem d_run {A : State → Ev → Prop} {ok : State → Ev → Bool} (hok : ∀ x e, ok x e = true → A x e)
    {x x' : State} {es : List Ev} (hr : Reach A x) (h : dchk ok x es = some x') : Reach A x' := by
  induction es generalizing x with
  | nil => cases h; exact hr
  | cons e es ih =>
    simp only [dchk] at h
    split at h
    · rename_i he
      simp only [Option.bind_eq_some_iff] at h
      obtain ⟨x1, h1, h⟩ := h
      exact ih (.step hr (hok _ _ he) h1) h
    · cases h

theorem d_case {α : Type} {ok : State → Ev → Bool} {x : State} {es : List Ev} (f : State → α) (v : α)
    (h : (dchk ok x es).map f = some v) : ∃ x', dchk ok x es = some x' ∧ f x' = v := by
  cases hr : dchk ok x es with
  | none => rw [hr] at h; simp at h
  | some s => rw [hr] at h; exact ⟨s, rfl, by simpa using h⟩

def _root_.Fullock.FdLife.Ev.isDie : Ev → Bool
  | .ev (.die _ _ _) => true
  | _ => false

theorem noEnd99_ok (x : State) (e : Ev) (h : (!e.isDie) = true) : noEnd x e := by
  cases e with
  | ev e => cases e <;> first | trivial | cases h
  | w e => trivial

/-- The check takes away the lock of a thread that has closed the descriptor. -/
theorem C99_not_full : ¬ C99_full := by
  intro h
  obtain ⟨x, h1, h2⟩ := d_case (ok := fun _ e => !e.isDie) (x := State.init 1 2 4 8 (fun _ _ => false) FL.junk0) (es := closed99)
    (fun x => (x.w.runs 1, x.mem.outs, (x.step (.ev (.go 2 (.lk 0 .wr 0)))).map fun x' => x'.mem.outs))
    (true, [(0, ⟨1, 3, FL.kX, FL.rA, .wr⟩)], some []) (by decide +kernel)
  simp only [Prod.mk.injEq, Option.map_eq_some_iff] at h2
  obtain ⟨a, b, x', c, d⟩ := h2
  have hr : Reach noEnd x := d_run noEnd99_ok (.init 1 2 4 8 _ FL.junk0 (by decide)) h1
  have := h x x' _ (0, ⟨1, 3, FL.kX, FL.rA, .wr⟩) hr c (by rw [b]; simp) a (by simp [Ev.who])
  rw [d] at this
  cases this

/-- What holds, if descriptors in use are left alone: locks that exclude each other are not in force at a time, and the tables are
changed by one thread at a time (deaths and ranges as in `C02_exclusion_partial`). Missing: descriptors closed while in use. -/
theorem C99_exclusion_partial (R : DevIno → Rng → Prop) (hR : Spec.Clustered R) (x : State)
    (hr : Reach (fun x e => keepOpen x e ∧ okIn R x e) x) :
    (∀ y ∈ x.mem.outs, ∀ z ∈ x.mem.outs, y.1 ≠ z.1 → ¬ Spec.Conflict y.2 z.2) ∧
    ∀ t u, x.w.runs t = true → x.w.runs u = true → FL.inCS (x.pc t) = true → FL.inCS (x.pc u) = true → t = u := by
  have r := (reach_real (fun _ _ h => h.1) (Spec.okIn R) (fun _ _ h => h.2)
    (fun _ _ _ _ _ _ _ h => ⟨h, trivial⟩) hr).1
  have i := FL.reach_sinv r
  exact ⟨C02_exclusion_partial R hR x.real r, fun t u h1 h2 h3 h4 =>
    (i.cs t (real_runs h1) h3).symm.trans (i.cs u (real_runs h2) h4)⟩

theorem d_inv {A : State → Ev → Prop} (hA : ∀ x e, A x e → keepOpen x e) {x : State} (hr : Reach A x) : FL.SInv x.real ∧ Inv x := by
  have r := reach_real hA (fun _ _ => True) (fun _ _ _ => trivial) (fun _ _ _ _ _ _ _ _ => trivial) hr
  exact ⟨FL.reach_sinv r.1, r.2⟩

/-- A thread that has not ended loses a lock only by its own unlock of that descriptor and file, whoever dies where. -/
theorem C99_kept_partial (A : State → Ev → Prop) (hA : ∀ x e, A x e → keepOpen x e) (x x' : State) (e : Ev)
    (hr : Reach A x) (h : x.step e = some x') (y : Nat × FL.Out) (hy : y ∈ x.mem.outs)
    (hy1 : x.w.runs y.2.t = true) (hn : y ∉ x'.mem.outs) :
    ∃ op f o md, x.pc y.2.t = .uWord op f o y.1 md ∧ op.fd = y.2.fd ∧ op.key = y.2.key ∧
      (e = .ev (.go y.2.t .go) ∨ ∃ k, e = .ev (.die y.2.t .go k)) := by
  obtain ⟨s, i⟩ := d_inv hA hr
  rcases step_real i s h with ⟨e0, e', rfl, h', he⟩ | ⟨e', w, rfl, h1, rfl, -⟩
  · rcases FL.outs_loss s h' hy hn with h1 | ⟨op, f, o, md, g1, g2, g3, g4⟩
    · rw [show x.real.alive = x.w.real from rfl, real_runs hy1] at h1; cases h1
    · refine ⟨op, f, o, md, g1, g2, g3, ?_⟩
      rcases he with rfl | ⟨t, c, k, rfl, rfl, -⟩
      · rcases g4 with rfl | ⟨k, rfl⟩
        · exact .inl rfl
        · exact .inr ⟨k, rfl⟩
      · rcases g4 with g4 | ⟨k', g4⟩ <;> cases g4
  · exact absurd hy hn

/-- A lock is kept as long as its descriptor is open in its process on its file, even if its thread has ended. -/
theorem C99_open_partial (A : State → Ev → Prop) (hA : ∀ x e, A x e → keepOpen x e) (x x' : State) (e : Ev)
    (hr : Reach A x) (h : x.step e = some x') (y : Nat × FL.Out) (hy : y ∈ x.mem.outs) (hw : e.who ≠ y.2.t)
    (hfd : 0 ≤ y.2.fd) (hd : x.w.deny (x.w.pid e.who) (x.w.pid y.2.t) = false)
    (ho : x.w.fdOf (x.w.pid y.2.t) y.2.fd = some y.2.key) : y ∈ x'.mem.outs := by
  by_contra hn
  rcases loss_gone (d_inv hA hr).1 h hy hn with h1 | h1
  · exact hw h1
  · unfold Gone at h1
    rw [if_neg (by simp [hd]; omega)] at h1
    exact h1 ho

/-- The check of all records removes exactly the locks whose holder is gone: one it comes to is taken away if and only if it is. -/
theorem C99_checked_partial (A : State → Ev → Prop) (hA : ∀ x e, A x e → keepOpen x e) (x : State) (hr : Reach A x)
    (t : Nat) (ht : x.w.runs t = true) (hp : x.pc t = .sw) (y : Nat × FL.Out) (hy : y ∈ x.mem.outs) :
    (∃ c x', x.step (.ev (.go t c)) = some x' ∧ y ∉ x'.mem.outs) ↔ Gone x t y.2 := by
  obtain ⟨s, i⟩ := d_inv hA hr
  constructor
  · rintro ⟨c, x', h, hn⟩
    simp only [State.step, ht, hp, Bool.true_eq_false, if_false, Option.map_eq_some_iff] at h
    obtain ⟨r, h1, rfl⟩ := h
    rw [← hp] at h1
    rcases plan_loss s (a := fun _ => x.w.ask x.mem t (x.pc t) c) (as := r.1) (p' := r.2) (k := r.1.length) hy
      (real_runs ht) h1 (by rw [List.take_length]; exact hn) with ⟨o, md, rfl, h2, h3⟩ | h2
    · exact ask_gone s ht hy h1 h3
    · obtain ⟨-, op, f, o, md, h2⟩ := h2
      rw [show x.real.pc t = x.pc t from rfl, hp] at h2; cases h2
  · intro hg
    obtain ⟨f, o, b, b1, b2, b3, b4, b5, b6⟩ := s.outs.1 _ hy
    have b3 : x.mem.ltid y.1 = y.2.t := b3
    have b4 : x.mem.lfd y.1 = y.2.fd := b4
    have b5 : x.mem.locked y.1 = true := b5
    have b1 : x.mem.key f = y.2.key := b1
    have hth : x.w.ask x.mem t .sw (.lk o y.2.mode y.1) = false := by
      simp only [World.ask, keyOf_some s b.1 b.2.1, World.there, b3, b4, b1]
      unfold Gone at hg
      split at hg
      · rename_i h1; rw [if_pos h1]; exact hg
      · rename_i h1; rw [if_neg h1]; simpa using hg
    have hpl : FL.plan x.mem (fun _ => x.w.ask x.mem t .sw (.lk o y.2.mode y.1)) t .sw (.lk o y.2.mode y.1) =
        some (FL.sweepActs x.mem o y.2.mode y.1, .sw) := by
      simp only [FL.plan]
      rw [if_pos ⟨⟨f, b.1, b.2.1⟩, b.2.2, hth⟩]
    refine ⟨.lk o y.2.mode y.1, _, by simp only [State.step, ht, hp, Bool.true_eq_false, if_false, hpl]; rfl, ?_⟩
    simp only [FL.sweepActs, b5, if_true]
    intro hc
    simp only [FL.Mem.acts, List.foldl_cons, List.foldl_nil, FL.Mem.act, List.cons_append, List.nil_append] at hc
    simp [FL.revoke] at hc

/-- So does the check by a waiting lock call, for the holders of the range it waits for, except its own record. -/
theorem C99_waiter_partial (A : State → Ev → Prop) (hA : ∀ x e, A x e → keepOpen x e) (x : State) (hr : Reach A x)
    (t : Nat) (ht : x.w.runs t = true) (op : FL.Op) (f o l : Nat) (hp : x.pc t = .rChk op f o l) (y : Nat × FL.Out)
    (hy : y ∈ x.mem.outs) (hm : y.1 ∈ x.mem.lks o y.2.mode) :
    (∃ c x', x.step (.ev (.go t c)) = some x' ∧ y ∉ x'.mem.outs) ↔ Gone x t y.2 ∧ ¬ (y.2.t = t ∧ y.2.fd = op.fd) := by
  obtain ⟨s, i⟩ := d_inv hA hr
  obtain ⟨f', o', b, b1, b2, b3, b4, b5, b6⟩ := s.outs.1 _ hy
  have b3 : x.mem.ltid y.1 = y.2.t := b3
  have b4 : x.mem.lfd y.1 = y.2.fd := b4
  have b5 : x.mem.locked y.1 = true := b5
  have b1 : x.mem.key f' = y.2.key := b1
  constructor
  · rintro ⟨c, x', h, hn⟩
    simp only [State.step, ht, hp, Bool.true_eq_false, if_false, Option.map_eq_some_iff] at h
    obtain ⟨r, h1, rfl⟩ := h
    rw [← hp] at h1
    rcases plan_loss s (a := fun _ => x.w.ask x.mem t (x.pc t) c) (as := r.1) (p' := r.2) (k := r.1.length) hy
      (real_runs ht) h1 (by rw [List.take_length]; exact hn) with ⟨o, md, rfl, h2, h3⟩ | h2
    · refine ⟨ask_gone s ht hy h1 h3, ?_⟩
      rintro ⟨c1, c2⟩
      rw [hp] at h3
      simp only [World.ask, b3, b4, c1, c2, decide_true, Bool.and_self, Bool.true_or] at h3
      cases h3
    · obtain ⟨-, op, f, o, md, h2⟩ := h2
      rw [show x.real.pc t = x.pc t from rfl, hp] at h2; cases h2
  · rintro ⟨hg, hx⟩
    have hpc := (s.thr t (real_runs ht)).2
    rw [show x.real.pc t = x.pc t from rfl, hp] at hpc
    obtain ⟨⟨a1, a2, -⟩, a3, -⟩ := hpc
    have hk : op.key = y.2.key := by
      obtain ⟨rfl, -⟩ := s.sok.lksDisj _ _ _ _ _ hm b.2.2
      rw [← b1, ← s.sok.offsDisj _ _ _ a2 b.2.1]; exact a3.symm
    have hth : x.w.ask x.mem t (.rChk op f o l) (.lk o y.2.mode y.1) = false := by
      simp only [World.ask, World.there, b3, b4, hk, Bool.or_eq_false_iff]
      constructor
      · simpa using hx
      · unfold Gone at hg
        split at hg
        · rename_i h1; rw [if_pos h1]; exact hg
        · rename_i h1; rw [if_neg h1]; simpa using hg
    have hpl : FL.plan x.mem (fun _ => x.w.ask x.mem t (.rChk op f o l) (.lk o y.2.mode y.1)) t (.rChk op f o l)
        (.lk o y.2.mode y.1) = some (FL.sweepActs x.mem o y.2.mode y.1, .rChk op f o l) := by
      simp only [FL.plan]
      rw [if_pos ⟨by trivial, hm, hth⟩]
    refine ⟨.lk o y.2.mode y.1, _, by simp only [State.step, ht, hp, Bool.true_eq_false, if_false, hpl]; rfl, ?_⟩
    simp only [FL.sweepActs, b5, if_true]
    intro hc
    simp only [FL.Mem.acts, List.foldl_cons, List.foldl_nil, FL.Mem.act, List.cons_append, List.nil_append] at hc
    simp [FL.revoke] at hc

/-- When the process has ended, all its locks are for everybody those of holders that are gone. -/
theorem C99_process (x : State) (t : Nat) (h : FL.Out) (he : ∀ u, x.w.runs u = true → x.w.pid u ≠ x.w.pid h.t) : Gone x t h := by
  unfold Gone
  split
  · by_contra hc
    exact he h.t (by simpa using hc) rfl
  · unfold World.fdOf
    rw [if_neg]
    · simp
    · simp only [List.any_eq_true, decide_eq_true_eq, not_exists, not_and]
      intro u hu; exact he u (by simpa [World.runs] using hu)

/-- So is a lock taken without a descriptor, when its thread has ended. -/
theorem C99_thread (x : State) (t : Nat) (h : FL.Out) (hf : h.fd < 0) : Gone x t h ↔ x.w.runs h.t = false := by
  unfold Gone
  rw [if_pos (.inl hf)]

/-- C99, locks of ended threads, as stated: they are found to be gone. -/
def C99_ended_full : Prop :=
  ∀ R x y t, Reach (fun x e => keepOpen x e ∧ okIn R x e) x → y ∈ x.mem.outs → x.w.runs y.2.t = false → x.w.runs t = true → Gone x t y.2

/-- The checked events of the cases: descriptors in use are left alone, ranges of `RX`, no death but of idle threads. -/
def keep99 (x : State) : Ev → Bool
  | .w (.set t fd v) => decide (x.w.fdOf (x.w.pid t) fd = v) ||
      (x.mem.outs.all fun y => !x.w.runs y.2.t || !decide (x.w.pid y.2.t = x.w.pid t) || !decide (y.2.fd = fd)) &&
      x.w.thr.all fun u => !decide (x.w.pid u = x.w.pid t) || match reqOf (x.pc u) with
        | some op => !decide (op.fd = fd)
        | none => true
  | .w _ => true
  | .ev (.die t _ _) => match x.pc t with
    | .done _ => true
    | _ => false
  | .ev e => FL.evRX e

theorem keep99_ok (x : State) (e : Ev) (h : keep99 x e = true) : keepOpen x e ∧ okIn FL.RX x e := by
  cases e with
  | w e =>
    refine ⟨?_, trivial⟩
    cases e with
    | set t fd v =>
      simp only [keep99, Bool.or_eq_true, decide_eq_true_eq, Bool.and_eq_true, List.all_eq_true] at h
      rcases h with h | ⟨h1, h2⟩
      · exact .inl h
      · refine .inr ⟨fun y hy hr hp hf => ?_, fun u op hr hp ho hf => ?_⟩
        · have := h1 y hy
          simp [hr, hp, hf] at this
        · have := h2 u (by simpa [World.runs] using hr)
          simp [hp, ho, hf] at this
    | _ => trivial
  | ev e =>
    cases e with
    | die t c k =>
      refine ⟨trivial, ?_, trivial⟩
      simp only [keep99] at h
      split at h
      · rename_i r hp
        simp [FL.okDeath, State.real, hp]
      · cases h
    | call t c => exact ⟨trivial, (FL.evRX_ok (by exact h) _).2.2⟩
    | go t c => exact ⟨trivial, (FL.evRX_ok (by exact h) _).2.2⟩

/-- A thread locks a range and ends; its process goes on with the descriptor. -/
def ended99 : List Ev :=
  .w (.set 1 3 (some FL.kX)) :: .w (.create 1 2) :: .ev (.call 2 (.lock (FL.mkOp 3 FL.kX FL.rA .wr .block))) :: dgo 2 9 ++
  .ev (.die 2 .go 0) :: .ev (.call 1 (.lock (FL.mkOp 3 FL.kX FL.rA .wr .block))) :: dgo 1 7 ++ .ev (.go 1 .limit) :: dgo 1 2

/-- The lock of the ended thread is kept: its process has the descriptor open, and others wait in vain. -/
theorem C99_ended_not_full : ¬ C99_ended_full := by
  intro h
  obtain ⟨x, h1, h2⟩ := d_case (ok := keep99) (x := State.init 1 2 4 8 (fun _ _ => false) FL.junk0) (es := ended99)
    (fun x => decide (x.mem.outs = [(0, ⟨2, 3, FL.kX, FL.rA, .wr⟩)]) && (!x.w.runs 2 && (x.w.runs 1 &&
      (!x.w.deny (x.w.pid 1) (x.w.pid 2) && decide (x.w.fdOf (x.w.pid 2) 3 = some FL.kX))))) true (by decide +kernel)
  simp only [Bool.and_eq_true, decide_eq_true_eq, Bool.not_eq_true'] at h2
  have hr := d_run keep99_ok (.init 1 2 4 8 _ FL.junk0 (by decide)) h1
  have := h FL.RX x (0, ⟨2, 3, FL.kX, FL.rA, .wr⟩) 1 hr (by rw [h2.1]; simp) h2.2.1 h2.2.2.1
  unfold Gone at this
  rw [if_neg (by simp [h2.2.2.2.1])] at this
  exact this h2.2.2.2.2

/-! ### Cases meeting the hypotheses -/

/-- Process 1 and its child 2 have locks through descriptor 3, each in its own table; 2 has another descriptor on the file open
and closes it, thread 4 of process 1 has locked without descriptor; 1 waits for the range of 2 and checks its holders. -/
def both99 : List Ev :=
  .w (.set 1 3 (some FL.kX)) :: .w (.fork 1 2) :: .w (.create 1 4) ::
  .ev (.call 2 (.lock (FL.mkOp 3 FL.kX FL.rA .wr .block))) :: dgo 2 9 ++
  .w (.set 2 5 (some FL.kX)) :: .w (.set 2 5 none) ::
  .ev (.call 1 (.lock (FL.mkOp 3 FL.kX FL.rB .rd .block))) :: dgo 1 9 ++
  .ev (.call 4 (.lock (FL.mkOp (-4) FL.kX FL.rB .rd .block))) :: dgo 4 9 ++
  .ev (.call 1 (.lock (FL.mkOp 3 FL.kX FL.rA .wr .block))) :: dgo 1 7 ++ .ev (.go 1 .limit) :: dgo 1 2

example : ∃ x, Reach (fun x e => keepOpen x e ∧ okIn FL.RX x e) x ∧ Spec.Clustered FL.RX ∧ x.mem.outs.length = 3 ∧
    (0, FL.Out.mk 2 3 FL.kX FL.rA .wr) ∈ x.mem.outs ∧ x.w.runs 2 = true ∧ x.w.runs 1 = true ∧
    x.w.fdOf (x.w.pid 2) 3 = some FL.kX ∧ x.w.deny (x.w.pid 1) (x.w.pid 2) = false ∧
    (∃ op f o l, x.pc 1 = .rChk op f o l ∧ 0 ∈ x.mem.lks o .wr) ∧
    ∃ x', x.step (.ev (.go 1 .go)) = some x' := by
  obtain ⟨x, h1, h2⟩ := d_case (ok := keep99) (x := State.init 1 2 4 8 (fun _ _ => false) FL.junk0) (es := both99)
    (fun x => decide (x.mem.outs.length = 3) && (decide ((0, FL.Out.mk 2 3 FL.kX FL.rA .wr) ∈ x.mem.outs) && (x.w.runs 2 &&
      (x.w.runs 1 && (decide (x.w.fdOf (x.w.pid 2) 3 = some FL.kX) && (!x.w.deny (x.w.pid 1) (x.w.pid 2) && ((match x.pc 1 with
        | .rChk _ _ o _ => decide (0 ∈ x.mem.lks o .wr)
        | _ => false) && (x.step (.ev (.go 1 .go))).isSome)))))))
    true (by decide +kernel)
  simp only [Bool.and_eq_true, decide_eq_true_eq, Bool.not_eq_true'] at h2
  obtain ⟨a1, a2, a3, a4, a5, a6, a7, a8⟩ := h2
  refine ⟨x, d_run keep99_ok (.init 1 2 4 8 _ FL.junk0 (by decide)) h1, FL.separate_clustered FL.sepRX, a1, a2, a3, a4, a5, a6,
    ?_, Option.isSome_iff_exists.1 a8⟩
  split at a7
  · rename_i op f o l hp
    exact ⟨op, f, o, l, hp, by simpa using a7⟩
  · cases a7

/-- The child ends with its lock; the waiting call of process 1, and a check of all records by its thread 4, find it gone. -/
example : ∃ x, Reach keepOpen x ∧ x.pc 4 = .sw ∧ x.w.runs 4 = true ∧
    (0, FL.Out.mk 2 3 FL.kX FL.rA .wr) ∈ x.mem.outs ∧ Gone x 4 (FL.Out.mk 2 3 FL.kX FL.rA .wr) ∧
    ∀ u, x.w.runs u = true → x.w.pid u ≠ x.w.pid 2 := by
  obtain ⟨x, h1, h2⟩ := d_case (ok := keep99) (x := State.init 1 2 4 8 (fun _ _ => false) FL.junk0)
    (es := both99 ++ dgo 1 2 ++ [.ev (.die 2 .go 0), .ev (.call 4 .sweep), .ev (.go 4 .go)])
    (fun x => decide (x.pc 4 = .sw) && (x.w.runs 4 && (decide ((0, FL.Out.mk 2 3 FL.kX FL.rA .wr) ∈ x.mem.outs) &&
      (decide (x.w.thr = [4, 1]) && (decide (x.w.pid 1 = 1) && (decide (x.w.pid 4 = 1) && decide (x.w.pid 2 = 2)))))))
    true (by decide +kernel)
  simp only [Bool.and_eq_true, decide_eq_true_eq] at h2
  obtain ⟨a1, a2, a3, a4, a5, a6, a7⟩ := h2
  have hu : ∀ u, x.w.runs u = true → x.w.pid u ≠ x.w.pid 2 := by
    intro u hu
    have : u ∈ x.w.thr := by simpa [World.runs] using hu
    rw [a4] at this
    simp only [List.mem_cons, List.not_mem_nil, or_false] at this
    rcases this with rfl | rfl
    · rw [a6, a7]; decide
    · rw [a5, a7]; decide
  refine ⟨x, d_run (fun x e h => (keep99_ok x e h).1) (.init 1 2 4 8 _ FL.junk0 (by decide)) h1, a1, a2, a3,
    C99_process x 4 _ hu, hu⟩

/-- Process 2 with thread 5, descriptor 3 open on a file, and descriptors of process 9 that nobody may inspect. -/
def w99 : World where
  thr := [5, 1]
  born := fun _ => true
  pid := fun t => if t = 5 then 2 else t
  tab := fun _ d => if d = 3 then some FL.kY else none
  deny := fun _ q => decide (q = 9)

/-- The verdict of the code on a record of thread 5 with descriptor 3, for a lock on another file and on that file. -/
example : (askOne (osOf w99 1) none (.locker FL.kX (composeFlckpid 2#32 5#32) 3#32 (0#64, 0xFFFFFFFF#32))).1 = true ∧
    (askOne (osOf w99 1) none (.locker FL.kY (composeFlckpid 2#32 5#32) 3#32 (0#64, 0xFFFFFFFF#32))).1 = false := by
  have hk : ∀ p d k, w99.fdOf p d = some k → k.1 ≠ eaccessDI.1 ∧ k.2 ≠ eaccessDI.2 := by
    intro p d k h
    have := fdOf_tab h
    simp only [w99] at this
    split at this
    · cases this; decide
    · cases this
  exact ⟨C99_verdict w99 { FL.junk0 with ltid := fun _ => 5, lfd := fun _ => 3 } 1 0 FL.kX _ (by decide) hk (by decide) (by decide)
    (by decide) (by decide), C99_verdict w99 { FL.junk0 with ltid := fun _ => 5, lfd := fun _ => 3 } 1 0 FL.kY _ (by decide) hk
    (by decide) (by decide) (by decide) (by decide)⟩

end Fullock.Props
