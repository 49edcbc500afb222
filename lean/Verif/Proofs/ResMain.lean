/-
Helper lemmas for `Props/Res`: the steps of the thread that starts and ends the library.
-/
import Verif.Proofs.Res
namespace Fullock.Proofs.Res
open Fullock.Res Fullock.Spec.Res
open Fullock.Thread (Flag)

theorem upd_same {α : Type} (f : Nat → α) (p : Nat) (v w : α) (h : f p = w) : upd (upd f p v) p w = f := by
  funext q
  simp only [upd]
  split
  · rename_i e; rw [e, h]
  · rfl

/-- The state after the file is opened. -/
def opened (s : State) (f : Nat) : State := { s with own := upd s.own f .lib, shm := some f }
/-- The state after the file is opened and mapped. -/
def mapped (s : State) (f a k : Nat) : State :=
  { opened s f with base := some a, maps := upd s.maps a true, next := k }

theorem fresh_map {s : State} (hm : ∀ a, s.maps a = true → a < s.next) (k : Nat) (hk : s.next ≤ k) :
    s.maps k = false := by
  cases h : s.maps k
  · rfl
  · have := hm _ h; omega

theorem closeShm_opened {s : State} {f k : Nat} (hf : s.own f = .free) (hs : s.shm = none) :
    State.closeShm { opened s f with next := k } = { s with next := k } := by
  have e : upd s.own f .lib f = .lib := by simp [upd]
  have u := upd_same s.own f .lib .free hf
  simp only [State.closeShm, opened, State.close, e, if_true, u, hs.symm]

theorem detach_opened {s : State} {f k : Nat} (hf : s.own f = .free) (hs : s.shm = none)
    (hb : s.base = none) : State.detach { opened s f with next := k } = { s with next := k } := by
  rw [← closeShm_opened hf hs]
  simp only [State.detach, opened, hb]

theorem detach_mapped {s : State} {f a k : Nat} (hf : s.own f = .free) (hs : s.shm = none)
    (hb : s.base = none) (hm : s.maps a = false) : State.detach (mapped s f a k) = { s with next := k } := by
  rw [← closeShm_opened hf hs]
  have := upd_same s.maps a true false hm
  have e : upd s.maps a true a = true := by simp [upd]
  simp only [State.detach, mapped, opened, State.munmap, e, if_true, this, hb.symm]

theorem initFile_spec {o : FOut} {s : State} {f : Nat} (hb : s.base = none) (hm : s.maps s.next = false) :
    ((initFile o (opened s f)).2 = true → (initFile o (opened s f)).1 = mapped s f s.next (s.next + 1)) ∧
    ((initFile o (opened s f)).2 = false → ∃ k, s.next ≤ k ∧
      (initFile o (opened s f)).1 = { opened s f with next := k }) := by
  have u := upd_same s.maps s.next true false hm
  have e : upd s.maps s.next true s.next = true := by simp [upd]
  simp only [initFile]
  split
  · exact ⟨by simp, fun _ => ⟨s.next, Nat.le_refl _, rfl⟩⟩
  · split
    · exact ⟨by simp, fun _ => ⟨s.next, Nat.le_refl _, by simp only [opened, hb]⟩⟩
    · split
      · refine ⟨by simp, fun _ => ⟨s.next + 1, by omega, ?_⟩⟩
        simp only [opened, State.mmap, State.munmap, e, if_true, u, hb]
      · refine ⟨fun _ => ?_, by simp⟩
        simp only [opened, State.mmap, mapped]

theorem attach_spec {o : FOut} {s : State} {f : Nat} (hb : s.base = none) (hm : s.maps s.next = false) :
    ((attach o (opened s f)).2 = true →
      (attach o (opened s f)).1 = mapped s f (s.next + 1) (s.next + 1 + 1)) ∧
    ((attach o (opened s f)).2 = false → ∃ k, s.next ≤ k ∧
      (attach o (opened s f)).1 = { opened s f with next := k }) := by
  have u := upd_same s.maps s.next true false hm
  have e : upd s.maps s.next true s.next = true := by simp [upd]
  simp only [attach]
  split
  · exact ⟨by simp, fun _ => ⟨s.next, Nat.le_refl _, rfl⟩⟩
  · split
    · refine ⟨by simp, fun _ => ⟨s.next + 1, by omega, ?_⟩⟩
      simp only [opened, State.mmap, State.munmap, e, if_true, u]
    · split
      · refine ⟨by simp, fun _ => ⟨s.next + 1, by omega, ?_⟩⟩
        simp only [opened, State.mmap, State.munmap, e, if_true, u, hb]
      · refine ⟨fun _ => ?_, by simp⟩
        simp only [opened, State.mmap, State.munmap, e, if_true, u, mapped]

/-- Nothing remains of a refused part of the start; what a successful one has taken. -/
theorem openFile_spec (mask : Nat) (o : FOut) (f : Nat) (s : State) (hf : s.own f = .free)
    (hm : ∀ a, s.maps a = true → a < s.next) (hb : s.base = none) (hs : s.shm = none) :
    ((openFile mask o f s).2 = false →
      ∃ k, s.next ≤ k ∧ (openFile mask o f s).1 = { s with next := k }) ∧
    ((openFile mask o f s).2 = true →
      ∃ a k, s.next ≤ a ∧ a < k ∧ (openFile mask o f s).1 = mapped s f a k) := by
  have m0 := fresh_map hm s.next (Nat.le_refl _)
  have m1 := fresh_map hm (s.next + 1) (by omega)
  have hi := initFile_spec (o := o) (f := f) hb m0
  have ha := attach_spec (o := o) (f := f) hb m0
  have ho : ({ { { s with umask := mask }.openFd f with shm := some f } with umask := s.umask } : State)
      = opened s f := rfl
  have hd : (opened s f).detach = { s with next := s.next } := detach_opened (k := s.next) hf hs hb
  have hcl : (opened s f).closeShm = { s with next := s.next } := closeShm_opened (k := s.next) hf hs
  simp only [openFile, ho]
  have fini : (initFile o (opened s f)).2 = false →
      ∃ k, s.next ≤ k ∧ (initFile o (opened s f)).1.detach = { s with next := k } := by
    intro h
    obtain ⟨k, hk, e⟩ := hi.2 h
    exact ⟨k, hk, by rw [e, detach_opened hf hs hb]⟩
  have fina : (attach o (opened s f)).2 = false →
      ∃ k, s.next ≤ k ∧ (attach o (opened s f)).1.detach = { s with next := k } := by
    intro h
    obtain ⟨k, hk, e⟩ := ha.2 h
    exact ⟨k, hk, by rw [e, detach_opened hf hs hb]⟩
  have find : (initFile o (opened s f)).2 = true →
      ∃ k, s.next ≤ k ∧ (initFile o (opened s f)).1.detach = { s with next := k } := by
    intro h
    exact ⟨s.next + 1, by omega, by rw [hi.1 h, detach_mapped hf hs hb m0]⟩
  have oki : (initFile o (opened s f)).2 = true →
      ∃ a k, s.next ≤ a ∧ a < k ∧ (initFile o (opened s f)).1 = mapped s f a k :=
    fun h => ⟨_, _, Nat.le_refl _, Nat.lt_succ_self _, hi.1 h⟩
  have oka : (attach o (opened s f)).2 = true →
      ∃ a k, s.next ≤ a ∧ a < k ∧ (attach o (opened s f)).1 = mapped s f a k :=
    fun h => ⟨_, _, Nat.le_succ _, Nat.lt_succ_self _, ha.1 h⟩
  have nil : ∃ k, s.next ≤ k ∧ ({ s with umask := s.umask } : State) = { s with next := k } :=
    ⟨s.next, Nat.le_refl _, rfl⟩
  have nil' : ∃ k, s.next ≤ k ∧ ({ s with next := s.next } : State) = { s with next := k } :=
    ⟨s.next, Nat.le_refl _, rfl⟩
  cases h2 : (initFile o (opened s f)).2 <;> cases h3 : (attach o (opened s f)).2 <;>
    simp only [h2, h3, Bool.not_true, Bool.not_false, if_true, if_false, Bool.false_eq_true] <;>
    (repeat' split) <;> simp_all

/-- Without an object no worker is at work. -/
theorem no_worker {L B : List Nat} {s : State} (hi : Inv L B s) (ho : s.obj = none) : NInv L B s := by
  rcases hi.2 with hn | ⟨t, w, hW⟩
  · exact hn
  · have := hW.obj; rw [ho] at this; cases this

/-- `Detach` without an object, at the end of a call. -/
theorem detach_inv {L B : List Nat} {s : State} {r : Bool} (hc : Core L s) (hn : NInv L B s)
    (ho : s.obj = none) : Inv L B (s.detach.back r) := by
  have hp : s.param = none := by
    cases h : s.param with
    | none => rfl
    | some p => have := (hn.prm p h).1; simp [ho] at this
  cases hs : s.shm with
  | none =>
    have hb := hc.bshm hs
    have e : s.detach.back r = { s with main := .idle, ret := some r } := by
      simp only [State.detach, hb, State.closeShm, hs, State.back]
    rw [e]
    obtain ⟨h1, h2, h3, h4, h5, h6, h7, h8, h9, h10, h11, h12, h13, h14, h15, h16, h17, h18, h19, h20⟩ := hc
    obtain ⟨n1, n2, n3, n4, n5, n6⟩ := hn
    refine ⟨?_, .inl ?_⟩ <;> constructor <;> (try dsimp only)
    all_goals fin_res
  | some f =>
    have hf := hc.shm f hs
    cases hb : s.base with
    | none =>
      have e : s.detach.back r = { s with own := upd s.own f .free, shm := none, main := .idle, ret := some r } := by
        simp only [State.detach, hb, State.closeShm, hs, State.back, State.close, hf, if_true]
      rw [e]
      obtain ⟨h1, h2, h3, h4, h5, h6, h7, h8, h9, h10, h11, h12, h13, h14, h15, h16, h17, h18, h19, h20⟩ := hc
      obtain ⟨n1, n2, n3, n4, n5, n6⟩ := hn
      refine ⟨?_, .inl ?_⟩ <;> constructor <;> (try dsimp only)
      all_goals fin_res
    | some a =>
      have hm := (hc.base a).1 hb
      have e : s.detach.back r = { s with own := upd s.own f .free, shm := none, base := none, maps := upd s.maps a false, main := .idle, ret := some r } := by
        simp only [State.detach, hb, State.closeShm, hs, State.back, State.close, State.munmap, hm, hf, if_true]
      rw [e]
      obtain ⟨h1, h2, h3, h4, h5, h6, h7, h8, h9, h10, h11, h12, h13, h14, h15, h16, h17, h18, h19, h20⟩ := hc
      obtain ⟨n1, n2, n3, n4, n5, n6⟩ := hn
      refine ⟨?_, .inl ?_⟩ <;> constructor <;> (try dsimp only)
      all_goals fin_res

/-- The object is deleted, at the end of a call. -/
theorem delete_inv {L B : List Nat} {s : State} {n : Nat} {r : Bool} (hc : Core L s) (hn : NInv L B s)
    (ho : s.obj = some n) (hm : ∀ j, s.main ≠ .atfork j) : Inv L B (deleteObj n r s) := by
  have hl := hc.objl n ho
  have key : Inv L B { s with live := upd s.live n false, obj := none, main := .idle } := by
    obtain ⟨h1, h2, h3, h4, h5, h6, h7, h8, h9, h10, h11, h12, h13, h14, h15, h16, h17, h18, h19, h20⟩ := hc
    obtain ⟨n1, n2, n3, n4, n5, n6⟩ := hn
    refine ⟨?_, .inl ?_⟩ <;> constructor <;> (try dsimp only)
    all_goals fin_res
  have e : deleteObj n r s =
      (State.detach { s with live := upd s.live n false, obj := none, main := .idle }).back r := by
    simp only [deleteObj, State.release, hl, if_true, State.detach]
    cases hb : s.base with
    | none =>
      cases hs : s.shm with
      | none => simp only [State.closeShm, hs, State.back]
      | some f => simp only [State.closeShm, hs, State.back, State.close, hc.shm f hs, if_true]
    | some a =>
      have hma := (hc.base a).1 hb
      cases hs : s.shm with
      | none => simp only [State.closeShm, hs, State.back, State.munmap, hma, if_true]
      | some f =>
        simp only [State.closeShm, hs, State.back, State.munmap, hma, State.close, hc.shm f hs, if_true]
  rw [e]
  exact detach_inv key.1 (no_worker key rfl) rfl

theorem start_inv {mask : Nat} {o : FOut} {f : Nat} {robust : Bool} {L B : List Nat} {s : State}
    (hi : Inv L B s) (h : s.main = .idle) (hf : s.own f = .free) :
    Inv L B (startCall mask o f robust s) := by
  simp only [startCall]
  split
  · have e : s.back false = { s with ret := some false } := by rw [State.back, ← h]
    rw [e]
    obtain ⟨hc, hn | ⟨t, w, hW⟩⟩ := hi
    · obtain ⟨h1, h2, h3, h4, h5, h6, h7, h8, h9, h10, h11, h12, h13, h14, h15, h16, h17, h18, h19, h20⟩ := hc
      obtain ⟨n1, n2, n3, n4, n5, n6⟩ := hn
      refine ⟨?_, .inl ?_⟩ <;> constructor <;> assumption
    · obtain ⟨h1, h2, h3, h4, h5, h6, h7, h8, h9, h10, h11, h12, h13, h14, h15, h16, h17, h18, h19, h20⟩ := hc
      obtain ⟨w1, w2, w3, w4, w5, w6, w7, w8, w9, w10, w11, w12, w13, w14, w15, w16, w17⟩ := hW
      refine ⟨?_, .inr ⟨t, w, ?_⟩⟩ <;> constructor <;> assumption
  · rename_i hs
    have hs : s.shm = none := by cases h' : s.shm <;> simp_all
    have ho : s.obj = none := by
      cases h' : s.obj with
      | none => rfl
      | some n => have := hi.1.objs (by simp [h']); simp [hs] at this
    have hn := no_worker hi ho
    have hb := hi.1.bshm hs
    have hsp := openFile_spec mask o f s hf hi.1.mapn hb hs
    have hc := hi.1
    split
    · rename_i hr
      obtain ⟨k, hk, e⟩ := hsp.1 (by simpa using hr)
      rw [e]
      simp only [State.back]
      obtain ⟨h1, h2, h3, h4, h5, h6, h7, h8, h9, h10, h11, h12, h13, h14, h15, h16, h17, h18, h19, h20⟩ := hc
      obtain ⟨n1, n2, n3, n4, n5, n6⟩ := hn
      refine ⟨?_, .inl ?_⟩ <;> constructor <;> (try dsimp only)
      all_goals fin_res
    · rename_i hr
      obtain ⟨a, k, hk, hak, e⟩ := hsp.2 (by simpa using hr)
      rw [e]
      split
      · simp only [mapped, opened]
        obtain ⟨h1, h2, h3, h4, h5, h6, h7, h8, h9, h10, h11, h12, h13, h14, h15, h16, h17, h18, h19, h20⟩ := hc
        obtain ⟨n1, n2, n3, n4, n5, n6⟩ := hn
        refine ⟨?_, .inl ?_⟩ <;> constructor <;> (try dsimp only)
        all_goals fin_res
      · simp only [mapped, opened, State.back]
        obtain ⟨h1, h2, h3, h4, h5, h6, h7, h8, h9, h10, h11, h12, h13, h14, h15, h16, h17, h18, h19, h20⟩ := hc
        obtain ⟨n1, n2, n3, n4, n5, n6⟩ := hn
        refine ⟨?_, .inl ?_⟩ <;> constructor <;> (try dsimp only)
        all_goals fin_res

end Fullock.Proofs.Res
