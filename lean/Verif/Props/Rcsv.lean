import Verif.Proofs.Rcsv
import Verif.Spec.Rcsv
/-
C52: nested recursive locks do not wait for themselves.  C53: they hold the segment lock exactly as long
as an object is locked.  C63: the process-wide table of recursive locks is used under its lock.
-/
namespace Fullock.Props.Rcsv
open Fullock.Rcsv Fullock.Spec.Rcsv

/-- The object of a call. -/
def opObj : Op → Nat
  | .readLock i => i
  | .writeLock i => i
  | .lock i => i
  | .lockAt i _ _ => i
  | .unlock i => i

/-- The request of a call. `Lock()` repeats an earlier request: it is at least shared. -/
def opReq : Op → Req
  | .readLock _ => .lockShared
  | .writeLock _ => .lockExcl
  | .lock _ => .lockShared
  | .lockAt _ _ isRead => if isRead then .lockShared else .lockExcl
  | .unlock _ => .unlock

/-- The range of the object after the call, where the call may lock for writing. -/
def wrRange (s : State) : Op → Option Rng
  | .writeLock i => some (s.obj i).rng
  | .lock i => some (s.obj i).rng
  | .lockAt i r false => some { r with tid := (s.obj i).rng.tid }
  | _ => none

/-- Segment calls that fail do so only while no other object of the process is locked on the range that
is to be locked for writing. -/
def Calm (s : State) (os : List Bool) (op : Op) : Prop :=
  (∀ b ∈ os, b = true) ∨
  ∀ r, wrRange s op = some r → ∀ j, j ≠ opObj op → (s.obj j).locked = true → (s.obj j).rng ≠ r

/-- The ranges given by the user belong to `F`. -/
def Within (F : Rng → Prop) (s : State) : Op → Prop
  | .lockAt i r _ => F { r with tid := (s.obj i).rng.tid }
  | _ => True

/-- Histories of calls; the second component is the knowledge of the user about each object. -/
inductive Hist (ok : State → List Bool → Op → Prop) (r : Nat → Rng) : State → (Nat → Know) → Prop
  | init : Hist ok r (init r) (fun _ => .free)
  | call {s k} (h : Hist ok r s k) (os : List Bool) (op : Op) (hok : ok s os op) (b : Bool) (s' : State)
      (e : call s os op = some (b, s')) :
      Hist ok r s' (fun j => if j = opObj op then (k j).next (opReq op) b else k j)

/-- Objects between two calls. -/
structure Good (F : Rng → Prop) (s : State) (k : Nat → Know) : Prop where
  inv : Inv F s
  glob : s.glob = false
  must : ∀ i, (k i).must = true → (s.obj i).locked = true
  may : ∀ i, (s.obj i).locked = true → (k i).may = true
  excl : ∀ i, k i = .excl → (s.obj i).ty = .write

/-- Changing the range of an unlocked object. -/
theorem inv_set {F : Rng → Prop} {s : State} (h : Inv F s) (i : Nat) (r : Rng) (t : Ty) (hr : F r)
    (hi : (s.obj i).locked = false) : Inv F (s.mod i fun o => { o with rng := r, ty := t }) := by
  have h1 := h.setRng i r hr hi
  have h2 := h1.setTy i t (by simpa [State.mod] using hi)
  have : ((s.mod i fun o => { o with rng := r }).mod i fun o => { o with ty := t }) =
      (s.mod i fun o => { o with rng := r, ty := t }) := by
    simp only [State.mod, State.mk.injEq, and_true]
    funext j
    by_cases hj : j = i <;> simp [hj]
  rw [this] at h2
  exact h2

/-- The call turns the only lock of its range into the other kind. -/
def Converts (s : State) (op : Op) : Prop :=
  opObj op ∈ s.stack ∧ (s.obj (opObj op)).pend = [] ∧
    ((∃ i, op = .readLock i ∧ (s.obj i).ty = .write) ∨ (∃ i, op = .writeLock i ∧ (s.obj i).ty = .read))

/-- Effect of a call. -/
structure Eff (F : Rng → Prop) (s : State) (os : List Bool) (op : Op) (b : Bool) (s' : State) : Prop where
  inv : Inv F s'
  glob : s'.glob = false
  others : ∀ j, j ≠ opObj op → (s'.obj j).locked = (s.obj j).locked ∧ (s'.obj j).rng = (s.obj j).rng
  wty : ∀ j, j ≠ opObj op → (s.obj j).locked = true → (s.obj j).ty = .write → (s'.obj j).ty = .write
  up : b = true → (s'.obj (opObj op)).locked = decide (opReq op ≠ .unlock)
  wr : b = true → opReq op = .lockExcl → (s'.obj (opObj op)).ty = .write
  down : b = false → (s.obj (opObj op)).locked = false → (s'.obj (opObj op)).locked = false
  why : b = false → false ∈ os ∨ ∃ i, op = .lock i ∧ (s.obj i).ty = .unlock
  race : s'.race = s.race ∨ Converts s op

theorem unlockStack_fields (s : State) (l : Bool) :
    (unlockStack s l).obj = s.obj ∧ (unlockStack s l).race = s.race := by
  unfold unlockStack; split <;> simp

theorem inv_finish {F : Rng → Prop} {s : State} (h : Inv F s) {l : Bool} (hl : l = s.glob) :
    Inv F (unlockStack s l) ∧ (unlockStack s l).glob = false := by
  rw [unlockStack_glob hl]
  exact ⟨h.glob false s.race, rfl⟩

theorem eff_read {F : Rng → Prop} (hF : Sep F) {s : State} (h : Inv F s) (i : Nat) (loc : Bool) (hg : loc = s.glob) (os : List Bool) :
    ∃ b s', finish (rawReadLock s i loc os) = some (b, s') ∧ Inv F s' ∧ s'.glob = false ∧
      (∀ j, j ≠ i → (s'.obj j).locked = (s.obj j).locked) ∧ (∀ j, (s'.obj j).rng = (s.obj j).rng) ∧
      (∀ j, j ≠ i → (s.obj j).locked = true → (s.obj j).ty = .write → (s'.obj j).ty = .write) ∧
      (b = true → (s'.obj i).locked = true) ∧
      (b = false → (s.obj i).locked = false → (s'.obj i).locked = false) ∧ (b = false → false ∈ os) ∧
      (s'.race = s.race ∨ (i ∈ s.stack ∧ (s.obj i).pend = [] ∧ (s.obj i).ty = .write)) := by
  obtain ⟨b, l, s', os', e, hk, h1, h2, h3, h4, h5, h6⟩ := rawReadLock_spec hF h i loc hg os
  obtain ⟨u1, u2⟩ := unlockStack_fields s' l
  obtain ⟨v1, v2⟩ := inv_finish hk.inv hk.loc
  refine ⟨b, unlockStack s' l, by rw [e]; rfl, v1, v2, ?_, ?_, ?_, ?_, ?_, h2, ?_⟩
  · rw [u1]; exact hk.others
  · rw [u1]; exact hk.rng
  · rw [u1]; exact h5
  · rw [u1]; exact h1
  · rw [u1]; exact h6
  · rw [u2]; exact h4

theorem eff_write {F : Rng → Prop} (hF : Sep F) {s : State} (h : Inv F s) (i : Nat) (loc : Bool) (hg : loc = s.glob) (os : List Bool)
    (hos : (∀ b ∈ os, b = true) ∨ ∀ j, j ≠ i → (s.obj j).locked = true → (s.obj j).rng ≠ (s.obj i).rng) :
    ∃ b s', finish (rawWriteLock s i loc os) = some (b, s') ∧ Inv F s' ∧ s'.glob = false ∧
      (∀ j, j ≠ i → (s'.obj j).locked = (s.obj j).locked) ∧ (∀ j, (s'.obj j).rng = (s.obj j).rng) ∧
      (∀ j, j ≠ i → (s.obj j).locked = true → (s.obj j).ty = .write → (s'.obj j).ty = .write) ∧
      (b = true → (s'.obj i).locked = true ∧ (s'.obj i).ty = .write) ∧
      (b = false → (s.obj i).locked = false → (s'.obj i).locked = false) ∧ (b = false → false ∈ os) ∧
      (s'.race = s.race ∨ (i ∈ s.stack ∧ (s.obj i).pend = [] ∧ (s.obj i).ty = .read)) := by
  obtain ⟨b, l, s', os', e, hk, h1, h2, h4, h5, h6⟩ := rawWriteLock_spec hF h i loc hg os hos
  obtain ⟨u1, u2⟩ := unlockStack_fields s' l
  obtain ⟨v1, v2⟩ := inv_finish hk.inv hk.loc
  refine ⟨b, unlockStack s' l, by rw [e]; rfl, v1, v2, ?_, ?_, ?_, ?_, ?_, h2, ?_⟩
  · rw [u1]; exact hk.others
  · rw [u1]; exact hk.rng
  · rw [u1]; exact h5
  · rw [u1]; exact h1
  · rw [u1]; exact h6
  · rw [u2]; exact h4

theorem not_stack {F : Rng → Prop} {s : State} (h : Inv F s) {i : Nat} (hi : (s.obj i).locked = false) : i ∉ s.stack := by
  intro hc
  have := ((h.stk i).1 hc).1
  rw [hi] at this
  simp at this

/-- Every call returns and has its effect. -/
theorem call_eff {F : Rng → Prop} (hF : Sep F) {s : State} (h : Inv F s) (hg : s.glob = false) (os : List Bool) (op : Op)
    (hw : Within F s op) (hc : Calm s os op) : ∃ b s', call s os op = some (b, s') ∧ Eff F s os op b s' := by
  cases op with
  | readLock i =>
    obtain ⟨b, s', e, h1, h2, h3, h4, h5, h6, h7, h8, h9⟩ := eff_read hF h i false hg.symm os
    refine ⟨b, s', e, h1, h2, fun j hj => ⟨h3 j hj, h4 j⟩, h5, fun hb => by simpa [opReq, opObj] using h6 hb, by simp [opReq], h7, fun hb => Or.inl (h8 hb), ?_⟩
    rcases h9 with h9 | ⟨p, q, r⟩
    · exact Or.inl h9
    · exact Or.inr ⟨p, q, Or.inl ⟨i, rfl, r⟩⟩
  | writeLock i =>
    have hos : (∀ b ∈ os, b = true) ∨ ∀ j, j ≠ i → (s.obj j).locked = true → (s.obj j).rng ≠ (s.obj i).rng := by
      rcases hc with hc | hc
      · exact Or.inl hc
      · exact Or.inr (hc _ rfl)
    obtain ⟨b, s', e, h1, h2, h3, h4, h5, h6, h7, h8, h9⟩ := eff_write hF h i false hg.symm os hos
    refine ⟨b, s', e, h1, h2, fun j hj => ⟨h3 j hj, h4 j⟩, h5, fun hb => by simpa [opReq, opObj] using (h6 hb).1, fun hb _ => (h6 hb).2, h7, fun hb => Or.inl (h8 hb), ?_⟩
    rcases h9 with h9 | ⟨p, q, r⟩
    · exact Or.inl h9
    · exact Or.inr ⟨p, q, Or.inr ⟨i, rfl, r⟩⟩
  | lock i =>
    cases ht : (s.obj i).ty with
    | unlock =>
      refine ⟨false, s, by simp [call, ht], h, hg, fun _ _ => ⟨rfl, rfl⟩, fun _ _ _ t => t, by simp, by simp, fun _ hl => hl, fun _ => Or.inr ⟨i, rfl, ht⟩, Or.inl rfl⟩
    | read =>
      obtain ⟨b, s', e, h1, h2, h3, h4, h5, h6, h7, h8, h9⟩ := eff_read hF h i false hg.symm os
      refine ⟨b, s', by simpa [call, ht] using e, h1, h2, fun j hj => ⟨h3 j hj, h4 j⟩, h5, fun hb => by simpa [opReq, opObj] using h6 hb, by simp [opReq], h7, fun hb => Or.inl (h8 hb), ?_⟩
      rcases h9 with h9 | ⟨p, q, r⟩
      · exact Or.inl h9
      · rw [ht] at r; simp at r
    | write =>
      have hos : (∀ b ∈ os, b = true) ∨ ∀ j, j ≠ i → (s.obj j).locked = true → (s.obj j).rng ≠ (s.obj i).rng := by
        rcases hc with hc | hc
        · exact Or.inl hc
        · exact Or.inr (hc _ rfl)
      obtain ⟨b, s', e, h1, h2, h3, h4, h5, h6, h7, h8, h9⟩ := eff_write hF h i false hg.symm os hos
      refine ⟨b, s', by simpa [call, ht] using e, h1, h2, fun j hj => ⟨h3 j hj, h4 j⟩, h5, fun hb => by simpa [opReq, opObj] using (h6 hb).1, by simp [opReq], h7, fun hb => Or.inl (h8 hb), ?_⟩
      rcases h9 with h9 | ⟨p, q, r⟩
      · exact Or.inl h9
      · rw [ht] at r; simp at r
  | unlock i =>
    obtain ⟨b, l, s', os', e, hk, h1, h2, h3, h4, h5, h6, h7⟩ := rawUnlock_spec h i false hg.symm os
    obtain ⟨u1, u2⟩ := unlockStack_fields s' l
    obtain ⟨v1, v2⟩ := inv_finish hk.inv hk.loc
    refine ⟨b, unlockStack s' l, by simp [call, e, finish], v1, v2, ?_, ?_, ?_, by simp [opReq], ?_, fun hb => Or.inl (h3 hb).1, Or.inl (by rw [u2, h4])⟩
    · rw [u1]; exact fun j hj => ⟨hk.others j hj, hk.rng j⟩
    · rw [u1]; exact h7
    · rw [u1]; intro hb; simpa [opReq, opObj] using h1 hb
    · rw [u1]; intro hb hl
      have := h6 hl
      rw [hb] at this; simp at this
  | lockAt i r isRead =>
    obtain ⟨b, l, s1, os1, e, hk, h1, h2, h3, h4, h5, h6, h7⟩ := rawUnlock_spec h i false hg.symm os
    cases b with
    | false =>
      obtain ⟨u1, u2⟩ := unlockStack_fields s1 l
      obtain ⟨v1, v2⟩ := inv_finish hk.inv hk.loc
      refine ⟨false, unlockStack s1 l, by simp [call, Fullock.Rcsv.set, e, finish], v1, v2, ?_, ?_, by simp, by simp, ?_, fun _ => Or.inl (h3 rfl).1, Or.inl (by rw [u2, h4])⟩
      · rw [u1]; exact fun j hj => ⟨hk.others j hj, hk.rng j⟩
      · rw [u1]; exact h7
      · intro _ hl
        have := h6 hl
        simp at this
    | true =>
      have hl1 := h1 rfl
      have hrr : F { r with tid := (s1.obj i).rng.tid } := by
        rw [hk.rng i]; exact hw
      have hi2 := inv_set hk.inv i { r with tid := (s1.obj i).rng.tid } (if isRead then .read else .write) hrr hl1
      have hs2 : (s1.mod i fun o => { o with rng := { r with tid := (s1.obj i).rng.tid }, ty := if isRead then .read else .write }) =
          (s1.mod i fun o => { o with rng := { r with tid := o.rng.tid }, ty := if isRead then .read else .write }) := by
        simp only [State.mod, State.mk.injEq, and_true]
        funext j
        by_cases hj : j = i <;> simp [hj]
      rw [hs2] at hi2
      have hset : Fullock.Rcsv.set s i r isRead os = .done true l (s1.mod i fun o => { o with rng := { r with tid := o.rng.tid }, ty := if isRead then .read else .write }) os1 := by
        simp only [Fullock.Rcsv.set, e]
      have f1 : ((s1.mod i fun o => { o with rng := { r with tid := o.rng.tid }, ty := if isRead then .read else .write }).obj i).rng = { r with tid := (s.obj i).rng.tid } := by
        simp [State.mod, hk.rng i]
      have f2 : ((s1.mod i fun o => { o with rng := { r with tid := o.rng.tid }, ty := if isRead then .read else .write }).obj i).locked = false := by
        simp [State.mod, hl1]
      have f3 : ∀ j, j ≠ i → (s1.mod i fun o => { o with rng := { r with tid := o.rng.tid }, ty := if isRead then .read else .write }).obj j = s1.obj j := by
        intro j hj; simp [State.mod, hj]
      have f4 : (s1.mod i fun o => { o with rng := { r with tid := o.rng.tid }, ty := if isRead then .read else .write }).race = s1.race := rfl
      have f5 : (s1.mod i fun o => { o with rng := { r with tid := o.rng.tid }, ty := if isRead then .read else .write }).glob = s1.glob := rfl
      generalize (s1.mod i fun o => { o with rng := { r with tid := o.rng.tid }, ty := if isRead then .read else .write }) = s2 at hi2 hset f1 f2 f3 f4 f5
      cases isRead with
      | true =>
        obtain ⟨b, s', e', g1, g2, g3, g4, g5, g6, g7, g8, g9⟩ := eff_read hF hi2 i l (by rw [f5]; exact hk.loc) os1
        refine ⟨b, s', by simpa [call, hset] using e', g1, g2, ?_, ?_, fun hb => by simpa [opReq, opObj] using g6 hb, by simp [opReq], fun hb _ => g7 hb f2, fun hb => Or.inl (hk.left _ (g8 hb)), ?_⟩
        · intro j hj
          rw [g3 j hj, g4 j, f3 j hj]
          exact ⟨hk.others j hj, hk.rng j⟩
        · intro j hj hlj ht
          refine g5 j hj ?_ ?_
          · rw [f3 j hj, hk.others j hj]; exact hlj
          · rw [f3 j hj]; exact h7 j hj hlj ht
        · rcases g9 with g9 | ⟨p, _, _⟩
          · left; rw [g9, f4, h4]
          · exact absurd p (not_stack hi2 f2)
      | false =>
        have hos : (∀ b ∈ os1, b = true) ∨ ∀ j, j ≠ i → (s2.obj j).locked = true → (s2.obj j).rng ≠ (s2.obj i).rng := by
          rcases hc with hc | hc
          · exact Or.inl fun b hb => hc b (hk.left b hb)
          · right
            intro j hj hlj
            rw [f1, f3 j hj, hk.rng j]
            rw [f3 j hj, hk.others j hj] at hlj
            exact hc _ rfl j hj hlj
        obtain ⟨b, s', e', g1, g2, g3, g4, g5, g6, g7, g8, g9⟩ := eff_write hF hi2 i l (by rw [f5]; exact hk.loc) os1 hos
        refine ⟨b, s', by simpa [call, hset] using e', g1, g2, ?_, ?_, fun hb => by simpa [opReq, opObj] using (g6 hb).1, fun hb _ => (g6 hb).2, fun hb _ => g7 hb f2, fun hb => Or.inl (hk.left _ (g8 hb)), ?_⟩
        · intro j hj
          rw [g3 j hj, g4 j, f3 j hj]
          exact ⟨hk.others j hj, hk.rng j⟩
        · intro j hj hlj ht
          refine g5 j hj ?_ ?_
          · rw [f3 j hj, hk.others j hj]; exact hlj
          · rw [f3 j hj]; exact h7 j hj hlj ht
        · rcases g9 with g9 | ⟨p, _, _⟩
          · left; rw [g9, f4, h4]
          · exact absurd p (not_stack hi2 f2)

/-- Calls with ranges of the family and calm failures. -/
def okFor (F : Rng → Prop) (s : State) (os : List Bool) (op : Op) : Prop := Within F s op ∧ Calm s os op

theorem hist_good {F : Rng → Prop} (hF : Sep F) {r : Nat → Rng} (hr : ∀ i, F (r i)) {s : State} {k : Nat → Know}
    (h : Hist (okFor F) r s k) : Good F s k := by
  induction h with
  | init => exact ⟨inv_init r hr, rfl, by simp [Know.must], by simp [init], by simp⟩
  | call h os op hok b s' e ih =>
    rename_i s k
    obtain ⟨b', s'', e', hE⟩ := call_eff hF ih.inv ih.glob os op hok.1 hok.2
    rw [e] at e'
    simp only [Option.some.injEq, Prod.mk.injEq] at e'
    obtain ⟨rfl, rfl⟩ := e'
    refine ⟨hE.inv, hE.glob, ?_, ?_, ?_⟩
    · intro i hi
      by_cases hio : i = opObj op
      · subst hio
        simp only [if_true] at hi
        cases b with
        | false => simp only [Know.next] at hi; split_ifs at hi <;> simp [Know.must] at hi
        | true =>
          rw [hE.up rfl]
          cases hq : opReq op <;> rw [hq] at hi <;> simp [Know.next, Know.must] at hi ⊢
      · simp only [hio, if_false] at hi
        rw [(hE.others i hio).1]; exact ih.must i hi
    · intro i hi
      by_cases hio : i = opObj op
      · subst hio
        simp only [if_true]
        cases b with
        | false =>
          simp only [Know.next]
          split_ifs with hf
          · exfalso
            have : (s.obj (opObj op)).locked = false := by
              cases hc : (s.obj (opObj op)).locked
              · rfl
              · have := ih.may _ hc; rw [hf] at this; simp [Know.may] at this
            rw [hE.down rfl this] at hi
            simp at hi
          · rfl
        | true =>
          rw [hE.up rfl] at hi
          cases hq : opReq op <;> rw [hq] at hi <;> simp [Know.next, Know.may] at hi ⊢
      · simp only [hio, if_false]
        rw [(hE.others i hio).1] at hi; exact ih.may i hi
    · intro i hi
      by_cases hio : i = opObj op
      · subst hio
        simp only [if_true] at hi
        cases b with
        | false => simp only [Know.next] at hi; split_ifs at hi
        | true =>
          refine hE.wr rfl ?_
          cases hq : opReq op <;> rw [hq] at hi <;> simp [Know.next] at hi ⊢
      · simp only [hio, if_false] at hi
        exact hE.wty i hio (ih.must i (by rw [hi]; rfl)) (ih.excl i hi)

end Fullock.Props.Rcsv

namespace Fullock.Props
open Fullock.Rcsv Fullock.Spec.Rcsv Fullock.Props.Rcsv

/-! ### Ranges for the examples -/

/-- Two ranges of one thread, far from each other. -/
def rcA : Rng := ⟨1, 3, 0, 10⟩
def rcB : Rng := ⟨1, 3, 100, 10⟩
def rcF (r : Rng) : Prop := r = rcA ∨ r = rcB

theorem rcF_sep : Sep rcF := by
  constructor
  · rintro a (rfl | rfl) <;> decide
  · rintro a b (rfl | rfl) (rfl | rfl) <;> decide

/-- A run of calls; `none` when a call does not return. -/
def rcRun (s : State) : List (List Bool × Op) → Option (List Bool × State)
  | [] => some ([], s)
  | (os, op) :: l =>
    match call s os op with
    | none => none
    | some (b, s') =>
      match rcRun s' l with
      | none => none
      | some (bs, s'') => some (b :: bs, s'')

/-! ### C52 -/

/-- Any calls at all. -/
def anyCall (_ : State) (_ : List Bool) (_ : Op) : Prop := True

/-- C52 as stated: every call returns, whatever was called before. -/
def C52_full : Prop :=
  ∀ r s k, Hist anyCall r s k → ∀ os op, call s os op ≠ none

theorem hist_run {ok : State → List Bool → Op → Prop} (hok : ∀ s os op, ok s os op) {r : Nat → Rng} :
    ∀ (l : List (List Bool × Op)) (s : State) (k : Nat → Know) (bs : List Bool) (s' : State), Hist ok r s k →
      rcRun s l = some (bs, s') → ∃ k', Hist ok r s' k' := by
  intro l
  induction l with
  | nil => intro s k bs s' h e; simp [rcRun] at e; exact ⟨k, e.2 ▸ h⟩
  | cons x xs ih =>
    intro s k bs s' h e
    obtain ⟨os, op⟩ := x
    simp only [rcRun] at e
    cases hc : call s os op with
    | none => rw [hc] at e; simp at e
    | some p =>
      obtain ⟨b, s1⟩ := p
      rw [hc] at e
      simp only at e
      cases hr : rcRun s1 xs with
      | none => rw [hr] at e; simp at e
      | some q =>
        rw [hr] at e
        simp only [Option.some.injEq, Prod.mk.injEq] at e
        obtain ⟨q1, q2⟩ := q
        simp only at e
        obtain ⟨_, rfl⟩ := e
        exact ih s1 _ q1 q2 (.call h os op (hok _ _ _) b s1 hc) hr

/-- Calls whose outcome ends a run. -/
def stuckAfter (r : Nat → Rng) (l : List (List Bool × Op)) (os : List Bool) (op : Op) : Bool :=
  match rcRun (init r) l with
  | some (_, s) => (call s os op).isNone
  | none => false

theorem stuck_refutes {r : Nat → Rng} {l : List (List Bool × Op)} {os : List Bool} {op : Op}
    (h : stuckAfter r l os op = true) : ¬ C52_full := by
  intro hf
  unfold stuckAfter at h
  cases hr : rcRun (init r) l with
  | none => rw [hr] at h; simp at h
  | some p =>
    obtain ⟨bs, s⟩ := p
    rw [hr] at h
    simp only [Option.isNone_iff_eq_none] at h
    obtain ⟨k, hk⟩ := hist_run (ok := anyCall) (fun _ _ _ => trivial) l _ _ bs s (.init) hr
    exact hf r s k hk os op h

/-- An object of length 0 does not find the lock of its own range: the second one waits for the first,
although every segment call succeeds. -/
theorem C52_zero_length : stuckAfter (fun _ => ⟨1, 3, 5, 0⟩) [([], .writeLock 0)] [] (.writeLock 1) = true := by
  decide +kernel

/-- When the write lock that replaces a read lock fails, the call waits for the lock of the table that it
holds itself. -/
theorem C52_failed_upgrade : stuckAfter (fun _ => rcA) [([], .readLock 0)] [true, false] (.writeLock 1) = true := by
  decide +kernel

/-- When the release of the read lock fails, the write lock waits for it. -/
theorem C52_failed_release : stuckAfter (fun _ => rcA) [([], .readLock 0)] [false, true] (.writeLock 1) = true := by
  decide +kernel

/-- Refutation of C52. -/
theorem C52_not_full : ¬ C52_full := stuck_refutes C52_zero_length

/-- C52 for ranges of positive length that are equal or disjoint, as long as the segment calls that take
over locks of other objects succeed: every call returns. -/
theorem C52_partial {F : Rng → Prop} (hF : Sep F) {r : Nat → Rng} (hr : ∀ i, F (r i)) {s : State} {k : Nat → Know}
    (h : Hist (okFor F) r s k) (os : List Bool) (op : Op) (hok : okFor F s os op) :
    ∃ b s', call s os op = some (b, s') := by
  have hg := hist_good hF hr h
  obtain ⟨b, s', e, _⟩ := call_eff hF hg.inv hg.glob os op hok.1 hok.2
  exact ⟨b, s', e⟩

/-- With segment calls that succeed every lock call and every unlock succeeds, at any depth. -/
theorem C52_succeeds {F : Rng → Prop} (hF : Sep F) {r : Nat → Rng} (hr : ∀ i, F (r i)) {s : State} {k : Nat → Know}
    (h : Hist (okFor F) r s k) (os : List Bool) (op : Op) (hw : Within F s op) (hos : ∀ b ∈ os, b = true)
    (hl : ∀ i, op ≠ .lock i) : ∃ s', call s os op = some (true, s') := by
  have hg := hist_good hF hr h
  obtain ⟨b, s', e, hE⟩ := call_eff hF hg.inv hg.glob os op hw (Or.inl hos)
  cases b with
  | true => exact ⟨s', e⟩
  | false =>
    rcases hE.why rfl with hb | ⟨i, hi, _⟩
    · have := hos _ hb; simp at this
    · exact absurd hi (hl i)

/-- Read, upgrade by a second object, third object, conversions, and release in the order of locking. -/
example : (rcRun (init fun _ => rcA) [([], .readLock 0), ([], .writeLock 1), ([], .readLock 2), ([], .unlock 1),
    ([], .writeLock 3), ([], .lockAt 2 rcB false), ([], .unlock 0), ([], .unlock 3), ([], .unlock 2)]).map Prod.fst =
    some [true, true, true, true, true, true, true, true, true] := by decide +kernel

/-! ### C53 -/

/-- C53 as stated, for any calls: locked objects are backed by a lock of their range, and without locked
objects nothing is held. -/
def C53_full : Prop :=
  ∀ r s k, Hist anyCall r s k →
    (∀ i, (k i).must = true → ∃ t, ((s.obj i).rng, t) ∈ s.held ∧ (k i = .excl → t = .write)) ∧
    ((∀ i, k i = .free) → s.held = [])

/-- The lock of the range of each object. -/
theorem C53_held_partial {F : Rng → Prop} (hF : Sep F) {r : Nat → Rng} (hr : ∀ i, F (r i)) {s : State} {k : Nat → Know}
    (h : Hist (okFor F) r s k) (i : Nat) (hi : (k i).must = true) :
    ∃ t, ((s.obj i).rng, t) ∈ s.held ∧ (k i = .excl → t = .write) ∧ t ≠ .unlock := by
  have hg := hist_good hF hr h
  have hl := hg.must i hi
  cases hm : (s.obj i).master with
  | none =>
    refine ⟨(s.obj i).ty, ?_, hg.excl i, hg.inv.typ i hl⟩
    exact hg.inv.held.mem_iff.2 (List.mem_map.2 ⟨i, (hg.inv.stk i).2 ⟨hl, hm⟩, rfl⟩)
  | some m =>
    obtain ⟨h1, h2, h3⟩ := hg.inv.mst i m hl hm
    refine ⟨(s.obj m).ty, ?_, fun e => h3 (hg.excl i e), hg.inv.typ m ((hg.inv.stk m).1 h1).1⟩
    rw [h2]
    exact hg.inv.held.mem_iff.2 (List.mem_map.2 ⟨m, h1, rfl⟩)

/-- Nothing is held longer than needed: each lock of the segment has the range of an object that may be
locked. -/
theorem C53_needed_partial {F : Rng → Prop} (hF : Sep F) {r : Nat → Rng} (hr : ∀ i, F (r i)) {s : State} {k : Nat → Know}
    (h : Hist (okFor F) r s k) (x : Rng × Ty) (hx : x ∈ s.held) :
    ∃ i, (s.obj i).rng = x.1 ∧ (k i).may = true := by
  have hg := hist_good hF hr h
  obtain ⟨j, hj, rfl⟩ := hg.inv.held_fam hx
  exact ⟨j, rfl, hg.may j ((hg.inv.stk j).1 hj).1⟩

/-- After the last unlock nothing is held. -/
theorem C53_released_partial {F : Rng → Prop} (hF : Sep F) {r : Nat → Rng} (hr : ∀ i, F (r i)) {s : State} {k : Nat → Know}
    (h : Hist (okFor F) r s k) (hk : ∀ i, k i = .free) : s.held = [] := by
  apply List.eq_nil_iff_forall_not_mem.2
  intro x hx
  obtain ⟨i, _, hm⟩ := C53_needed_partial hF hr h x hx
  rw [hk i] at hm
  simp [Know.may] at hm

/-- No range is held twice, however deep the nesting. -/
theorem C53_once_partial {F : Rng → Prop} (hF : Sep F) {r : Nat → Rng} (hr : ∀ i, F (r i)) {s : State} {k : Nat → Know}
    (h : Hist (okFor F) r s k) : (s.held.map Prod.fst).Nodup := by
  have hg := hist_good hF hr h
  rw [(hg.inv.held.map Prod.fst).nodup_iff, List.map_map]
  refine List.Nodup.map_on ?_ hg.inv.nodup
  intro i hi j hj e
  exact hg.inv.dist i hi j hj e

/-- A call touches the lock state of its own object only. -/
theorem C53_frame_partial {F : Rng → Prop} (hF : Sep F) {r : Nat → Rng} (hr : ∀ i, F (r i)) {s : State} {k : Nat → Know}
    (h : Hist (okFor F) r s k) (os : List Bool) (op : Op) (hok : okFor F s os op) {b : Bool} {s' : State}
    (e : call s os op = some (b, s')) (j : Nat) (hj : j ≠ opObj op) :
    (s'.obj j).locked = (s.obj j).locked ∧ (s'.obj j).rng = (s.obj j).rng := by
  have hg := hist_good hF hr h
  obtain ⟨b', s'', e', hE⟩ := call_eff hF hg.inv hg.glob os op hok.1 hok.2
  rw [e] at e'
  simp only [Option.some.injEq, Prod.mk.injEq] at e'
  obtain ⟨rfl, rfl⟩ := e'
  exact hE.others j hj

/-- Run with knowledge. -/
def rcKnow (k : Nat → Know) : List (List Bool × Op) → List Bool → (Nat → Know)
  | (_, op) :: l, b :: bs => rcKnow (fun j => if j = opObj op then (k j).next (opReq op) b else k j) l bs
  | _, _ => k

theorem hist_run_know {ok : State → List Bool → Op → Prop} (hok : ∀ s os op, ok s os op) {r : Nat → Rng} :
    ∀ (l : List (List Bool × Op)) (s : State) (k : Nat → Know) (bs : List Bool) (s' : State), Hist ok r s k →
      rcRun s l = some (bs, s') → Hist ok r s' (rcKnow k l bs) := by
  intro l
  induction l with
  | nil => intro s k bs s' h e; simp [rcRun] at e; obtain ⟨rfl, rfl⟩ := e; exact h
  | cons x xs ih =>
    intro s k bs s' h e
    obtain ⟨os, op⟩ := x
    simp only [rcRun] at e
    cases hc : call s os op with
    | none => rw [hc] at e; simp at e
    | some p =>
      obtain ⟨b, s1⟩ := p
      rw [hc] at e
      simp only at e
      cases hr : rcRun s1 xs with
      | none => rw [hr] at e; simp at e
      | some q =>
        rw [hr] at e
        simp only [Option.some.injEq, Prod.mk.injEq] at e
        obtain ⟨q1, q2⟩ := q
        simp only at e
        obtain ⟨rfl, rfl⟩ := e
        exact ih s1 _ q1 q2 (.call h os op (hok _ _ _) b s1 hc) hr

/-- Two overlapping ranges: the lock of the second object is a pending of the first; after the unlock of
the first the second is the owner, but the lock of the segment is that of the first range. -/
def rcOver (i : Nat) : Rng := if i = 0 then ⟨1, 3, 0, 10⟩ else ⟨1, 3, 5, 10⟩

/-- Refutation of C53: with partially overlapping ranges a locked object is not backed by a lock of its
range. -/
theorem C53_not_full : ¬ C53_full := by
  intro hf
  have hrun : (rcRun (init rcOver) [([], .readLock 0), ([], .readLock 1)]).map Prod.fst = some [true, true] := by
    decide +kernel
  cases hr : rcRun (init rcOver) [([], .readLock 0), ([], .readLock 1)] with
  | none => rw [hr] at hrun; simp at hrun
  | some p =>
    obtain ⟨bs, s⟩ := p
    rw [hr] at hrun
    simp only [Option.map_some, Option.some.injEq] at hrun
    subst hrun
    have h := hist_run_know (ok := anyCall) (fun _ _ _ => trivial) _ _ _ _ s .init hr
    obtain ⟨t, ht, _⟩ := (hf _ _ _ h).1 1 (by decide)
    have hx : (rcRun (init rcOver) [([], .readLock 0), ([], .readLock 1)]).map
        (fun p => p.2.held.any fun x => x.1 == (p.2.obj 1).rng) = some false := by decide +kernel
    rw [hr] at hx
    simp only [Option.map_some, Option.some.injEq, List.any_eq_false] at hx
    exact hx _ ht (by simp)

/-- The same for the release: the first range stays locked after its object was unlocked, and the unlock
of the second object fails. -/
theorem C53_overlap_unlock :
    (rcRun (init rcOver) [([], .readLock 0), ([], .readLock 1), ([], .unlock 0), ([], .unlock 1)]).map
      (fun p => (p.1, p.2.held)) = some ([true, true, true, false], [(⟨1, 3, 0, 10⟩, .read)]) := by decide +kernel

/-- A history with two objects locked for writing and one for reading. -/
theorem rc_hist : ∃ s k, Hist (okFor rcF) (fun _ => rcA) s k ∧ (k 0).must = true ∧ k 1 = .excl ∧
    ((rcA, Ty.write) ∈ s.held) := by
  have c1 : ∃ s1, call (init fun _ => rcA) [] (.readLock 0) = some (true, s1) ∧
      ∃ s2, call s1 [] (.writeLock 1) = some (true, s2) ∧ s2.held = [(rcA, .write)] :=
    ⟨_, rfl, _, rfl, rfl⟩
  obtain ⟨s1, e1, s2, e2, e3⟩ := c1
  refine ⟨s2, _, .call (.call .init [] (.readLock 0) ⟨trivial, Or.inl (by simp)⟩ true s1 e1) [] (.writeLock 1)
    ⟨trivial, Or.inl (by simp)⟩ true s2 e2, by decide, by decide, by rw [e3]; simp⟩

/-! ### C63 -/

/-- C63 as stated: the table of recursive locks is used only under its lock. -/
def C63_full : Prop := ∀ r s k, Hist anyCall r s k → s.race = false

/-- Refutation of C63: a read lock that is turned into a write lock uses the table without its lock. -/
theorem C63_not_full : ¬ C63_full := by
  intro hf
  have hrun : (rcRun (init fun _ => rcA) [([], .readLock 0), ([], .writeLock 0)]).map (fun p => p.2.race) = some true := by
    decide +kernel
  cases hr : rcRun (init fun _ => rcA) [([], .readLock 0), ([], .writeLock 0)] with
  | none => rw [hr] at hrun; simp at hrun
  | some p =>
    obtain ⟨bs, s⟩ := p
    rw [hr] at hrun
    simp only [Option.map_some, Option.some.injEq] at hrun
    have h := hist_run_know (ok := anyCall) (fun _ _ _ => trivial) _ _ _ _ s .init hr
    have := hf _ _ _ h
    rw [hrun] at this
    simp at this

/-- C63 for histories in which no only lock of a range is turned into the other kind. -/
theorem C63_partial {F : Rng → Prop} (hF : Sep F) {r : Nat → Rng} (hr : ∀ i, F (r i)) {s : State} {k : Nat → Know}
    (h : Hist (fun s os op => okFor F s os op ∧ ¬ Converts s op) r s k) : s.race = false ∧ s.glob = false := by
  have hmono : ∀ {s k}, Hist (fun s os op => okFor F s os op ∧ ¬ Converts s op) r s k → Hist (okFor F) r s k := by
    intro s k h
    induction h with
    | init => exact .init
    | call h os op hok b s' e ih => exact .call ih os op hok.1 b s' e
  refine ⟨?_, (hist_good hF hr (hmono h)).glob⟩
  induction h with
  | init => rfl
  | call h os op hok b s' e ih =>
    have hg := hist_good hF hr (hmono h)
    obtain ⟨b', s'', e', hE⟩ := call_eff hF hg.inv hg.glob os op hok.1.1 hok.1.2
    rw [e] at e'
    simp only [Option.some.injEq, Prod.mk.injEq] at e'
    obtain ⟨rfl, rfl⟩ := e'
    rcases hE.race with hE | hE
    · rw [hE]; exact ih
    · exact absurd hE hok.2

example : (rcRun (init fun _ => rcA) [([], .readLock 0), ([], .writeLock 1), ([], .unlock 0), ([], .unlock 1)]).map
    (fun p => p.2.race) = some false := by decide +kernel

end Fullock.Props
