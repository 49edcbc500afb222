import Verif.Model.RcsvMake
import Verif.Props.Rcsv
/-
C94: what the constructors of recursive lock objects do.
-/
namespace Fullock.Props.RcsvMake
open Fullock.Rcsv

/-- The request an object made with this kind of lock stands for. -/
def kindOp (i : Nat) (isRead : Bool) : Op := if isRead then .readLock i else .writeLock i

/-- The kind of an object that is not locked does not matter to a request for reading. -/
theorem read_fresh (s : State) (i : Nat) (r : Rng) (k : Option Bool) (os : List Bool) :
    rawReadLock (s.mod i fun _ => fresh r k) i false os =
      if s.glob then .hang else readTail ({ s.mod i (fun _ => fresh r none) with glob := true }) i true os := by
  have hl : ((s.mod i fun _ => fresh r k).obj i).locked = false := by simp [State.mod, fresh]
  have hg : (s.mod i fun _ => fresh r k).glob = s.glob := rfl
  have e1 : ({ s.mod i (fun _ => fresh r k) with glob := true } : State).mod i (fun o => { o with ty := .read }) =
      ({ s.mod i (fun _ => fresh r none) with glob := true } : State).mod i (fun o => { o with ty := .read }) := by
    unfold State.mod
    congr 1
    funext j
    by_cases h : j = i <;> simp [h, fresh]
  have e2 : readTail ({ s.mod i (fun _ => fresh r k) with glob := true }) i true os =
      readTail ({ s.mod i (fun _ => fresh r none) with glob := true }) i true os := by
    unfold readTail
    rw [e1]
  unfold rawReadLock
  simp only [hl, lockStack, hg]
  cases h : s.glob
  · simp [e2]
  · simp

/-- The kind of an object that is not locked does not matter to a request for writing. -/
theorem write_fresh (s : State) (i : Nat) (r : Rng) (k : Option Bool) (os : List Bool) :
    rawWriteLock (s.mod i fun _ => fresh r k) i false os =
      if s.glob then .hang else writeTail ({ s.mod i (fun _ => fresh r none) with glob := true }) i true os := by
  have hl : ((s.mod i fun _ => fresh r k).obj i).locked = false := by simp [State.mod, fresh]
  have hg : (s.mod i fun _ => fresh r k).glob = s.glob := rfl
  have e1 : ({ s.mod i (fun _ => fresh r k) with glob := true } : State).mod i (fun o => { o with ty := .write }) =
      ({ s.mod i (fun _ => fresh r none) with glob := true } : State).mod i (fun o => { o with ty := .write }) := by
    unfold State.mod
    congr 1
    funext j
    by_cases h : j = i <;> simp [h, fresh]
  have e2 : writeTail ({ s.mod i (fun _ => fresh r k) with glob := true }) i true os =
      writeTail ({ s.mod i (fun _ => fresh r none) with glob := true }) i true os := by
    unfold writeTail
    rw [e1]
  unfold rawWriteLock
  simp only [hl, lockStack, hg]
  cases h : s.glob
  · simp [e2]
  · simp

/-- C94 as stated: an object made with a kind of lock is locked when its constructor returns. -/
def C94_full : Prop :=
  ∀ (s : State) (i : Nat) (r : Rng) (isRead : Bool) (os : List Bool) (s' : State),
    construct s i r (some isRead) os = some s' → (s'.obj i).locked = true

/-- C94 is violated: the constructor does not say that the segment refused the request. -/
theorem C94_silent (r : Rng) (isRead : Bool) : ∃ s', construct (init fun _ => r) 0 r (some isRead) [false] = some s' ∧
    (s'.obj 0).locked = false ∧ s'.held = [] := by
  by_cases h : r.fd = -1 <;> cases isRead <;>
    simp [construct, h, init, fresh, State.mod, rawReadLock, rawWriteLock, lockStack, readTail, writeTail, findMatch,
      State.touch, unlockStack, selfBlock, finish, scanW, takeReaders]

/-- C94: the full statement is false. -/
theorem C94_not_full : ¬ C94_full := by
  intro h
  obtain ⟨s', e, hl, -⟩ := C94_silent ⟨1, 3, 0, 10⟩ true
  have := h _ _ _ _ _ _ e
  rw [hl] at this
  cases this

/-- C94: with a valid descriptor the constructor with a kind does exactly what the plain constructor followed by the request
of this kind does, and ignores the result. -/
theorem C94_valid (s : State) (i : Nat) (r : Rng) (isRead : Bool) (os : List Bool) (hr : r.fd ≠ -1) :
    construct s i r (some isRead) os =
      ((construct s i r none []).bind fun p => call p os (kindOp i isRead)).map Prod.snd := by
  cases isRead
  · simp [construct, hr, kindOp, call, write_fresh]
  · simp [construct, hr, kindOp, call, read_fresh]
-- a nested object made with a kind
example : ∃ s', construct ((init fun _ => ⟨1, 3, 0, 10⟩).mod 0 id) 0 ⟨1, 3, 0, 10⟩ (some false) [] = some s' ∧
    (∃ s'', construct s' 1 ⟨1, 3, 0, 10⟩ (some true) [] = some s'' ∧ (s''.obj 1).locked = true ∧
      (s''.obj 1).master = some 0) :=
  ⟨_, rfl, _, rfl, rfl, rfl⟩

/-- C94: the plain constructor and, with the descriptor -1, the constructor with a kind change nothing but the new object,
which is not locked; the table of the process and the segment stay as they are. -/
theorem C94_idle (s : State) (i : Nat) (r : Rng) (kind : Option Bool) (os : List Bool) (hr : kind = none ∨ r.fd = -1) :
    ∃ s', construct s i r kind os = some s' ∧ s'.stack = s.stack ∧ s'.held = s.held ∧ s'.glob = s.glob ∧
      s'.race = s.race ∧ (∀ j, j ≠ i → s'.obj j = s.obj j) ∧ (s'.obj i).locked = false ∧ (s'.obj i).rng = r ∧
      (s'.obj i).pend = [] ∧ (s'.obj i).master = none ∧ (s'.obj i).hasLocker = false := by
  have e : construct s i r kind os = some (s.mod i fun _ => fresh r kind) := by
    cases kind with
    | none => rfl
    | some b =>
      have hr : r.fd = -1 := by rcases hr with hr | hr; cases hr; exact hr
      simp [construct, hr]
  refine ⟨_, e, rfl, rfl, rfl, rfl, ?_, ?_⟩
  · intro j hj; simp [State.mod, hj]
  · simp [State.mod, fresh]
example : ∃ s', construct (init fun _ => ⟨1, 3, 0, 10⟩) 4 ⟨1, -1, 0, 10⟩ (some true) [] = some s' := ⟨_, rfl⟩

/-- C94: an object made with the descriptor -1 remembers its kind: `Lock()` makes the request of this kind. Without a kind,
`Lock()` fails and changes nothing. -/
theorem C94_kept (s : State) (i : Nat) (r : Rng) (os os' : List Bool) (hr : r.fd = -1) :
    (∀ isRead s', construct s i r (some isRead) os = some s' → call s' os' (.lock i) = call s' os' (kindOp i isRead)) ∧
    (∀ s', construct s i r none os = some s' → call s' os' (.lock i) = some (false, s')) := by
  constructor
  · intro b s' e
    cases b <;> simp [construct, hr] at e <;> subst e <;> simp [call, kindOp, State.mod, fresh]
  · intro s' e
    simp [construct] at e
    subst e
    simp [call, State.mod, fresh]
example : ∃ s', construct (init fun _ => ⟨1, 3, 0, 10⟩) 4 ⟨1, -1, 0, 10⟩ (some true) [] = some s' ∧
    (call s' [false] (.lock 4)).map Prod.fst = some false := ⟨_, rfl, rfl⟩

/-- C94: an object made with the descriptor -1 is as one made without a kind whose request was refused, so all that is
proved of such objects holds of it. -/
theorem C94_refused (s : State) (i : Nat) (r : Rng) (isRead : Bool) (os : List Bool) (hr : r.fd = -1)
    (hg : s.glob = false) (hi : i ∉ s.stack)
    (hm : ∀ j ∈ s.stack, (s.obj j).rng.fd ≠ -1) (hh : ∀ h ∈ s.held, h.1.fd ≠ -1) :
    ∃ p s', construct s i r none os = some p ∧ construct s i r (some isRead) os = some s' ∧
      call p [false] (kindOp i isRead) = some (false, s') := by
  have hne : ∀ j ∈ s.stack, j ≠ i := fun j hj e => hi (e ▸ hj)
  have hsb : ∀ w, selfBlock s.held r w = false := by
    intro w
    simp only [selfBlock, List.any_eq_false]
    intro h hh'
    have := hh h hh'
    simp [hr, this]
  have her : (s.stack ++ [i]).erase i = s.stack := by
    rw [List.erase_append_right _ hi]; simp
  refine ⟨s.mod i fun _ => fresh r none, s.mod i fun _ => fresh r (some isRead), rfl, by simp [construct, hr], ?_⟩
  cases isRead
  · have hsc : ∀ (q : State) l, (∀ j ∈ l, (q.obj j).rng.fd ≠ -1) → (q.obj i).rng = r → scanW q i l = (none, l, []) := by
      intro q l hl hq
      induction l with
      | nil => rfl
      | cons j js ih =>
        have h1 : (q.obj j).rng.fd ≠ -1 := hl j (by simp)
        have : Rcsv.compare (q.obj i).rng (q.obj j).rng = false := by
          unfold Rcsv.compare
          rw [hq, hr, if_neg]
          rintro ⟨-, h⟩; exact h1 h.symm
        simp [scanW, this, ih (fun j hj => hl j (by simp [hj]))]
    have hs1 := hsc (((({ (s.mod i fun _ => fresh r none) with glob := true } : State)).mod i
      (fun o => { o with ty := .write })).touch true) ((((({ (s.mod i fun _ => fresh r none) with glob := true } :
      State)).mod i (fun o => { o with ty := .write })).touch true).stack) (by
        intro j hj
        have hj : j ∈ s.stack := hj
        simpa [State.mod, State.touch, hne j hj] using hm j hj) (by simp [State.mod, State.touch, fresh])
    have hw : call (s.mod i fun _ => fresh r none) [false] (kindOp i false) =
        finish (writeTail ({ s.mod i (fun _ => fresh r none) with glob := true }) i true [false]) := by
      simp [kindOp, call, write_fresh, hg]
    rw [hw]
    unfold writeTail
    dsimp only
    rw [hs1]
    simp [State.mod, State.touch, fresh, unlockStack, takeReaders, hsb, lockStack, finish, her]
    refine ⟨?_, hg⟩
    funext j
    by_cases h : j = i <;> simp [h]
  · have hf : ∀ (q : State), q.stack = s.stack → (∀ j ∈ s.stack, (q.obj j).rng.fd ≠ -1) → (q.obj i).rng = r →
        findMatch q i = none := by
      intro q hq hl hqi
      unfold findMatch
      rw [hq, List.find?_eq_none]
      intro j hj
      have h1 := hl j hj
      unfold Rcsv.compare
      rw [hqi, hr, if_neg]
      · simp
      rintro ⟨-, h⟩; exact h1 h.symm
    have hs1 := hf (((({ (s.mod i fun _ => fresh r none) with glob := true } : State)).mod i
      (fun o => { o with ty := .read })).touch true) rfl (by
        intro j hj
        have hj : j ∈ s.stack := hj
        simpa [State.mod, State.touch, hne j hj] using hm j hj) (by simp [State.mod, State.touch, fresh])
    have hw : call (s.mod i fun _ => fresh r none) [false] (kindOp i true) =
        finish (readTail ({ s.mod i (fun _ => fresh r none) with glob := true }) i true [false]) := by
      simp [kindOp, call, read_fresh, hg]
    rw [hw]
    unfold readTail
    dsimp only
    rw [hs1]
    simp [State.mod, State.touch, fresh, unlockStack, hsb, lockStack, finish, her]
    refine ⟨?_, hg⟩
    funext j
    by_cases h : j = i <;> simp [h]
-- another object is locked
example : ∃ s, construct (init fun _ => ⟨1, 3, 0, 10⟩) 0 ⟨1, 3, 0, 10⟩ (some false) [] = some s ∧ s.glob = false ∧
    4 ∉ s.stack ∧ s.stack = [0] ∧ (s.obj 0).rng.fd = 3 ∧ s.held = [(⟨1, 3, 0, 10⟩, .write)] :=
  ⟨_, rfl, rfl, by decide, rfl, rfl, rfl⟩

/-- C94 for ranges of positive length that are equal or disjoint, a valid descriptor and granted requests: after any history
an object made with a kind of lock is locked, and the thread holds a lock of its range in the segment, for writing if the
kind is writing. -/
theorem C94_locked_partial {F : Rng → Prop} (hF : Sep F) {r : Nat → Rng} (hr : ∀ i, F (r i)) {s : State}
    {k : Nat → Fullock.Spec.Rcsv.Know} (h : Rcsv.Hist (Rcsv.okFor F) r s k) (i : Nat) (q : Rng) (hq : F q) (hfd : q.fd ≠ -1)
    (isRead : Bool) (os : List Bool) (hos : ∀ b ∈ os, b = true) (hk : (k i).may = false) :
    ∃ s', construct s i q (some isRead) os = some s' ∧ (s'.obj i).locked = true ∧
      (∃ t, (q, t) ∈ s'.held) ∧ (isRead = false → (q, .write) ∈ s'.held) ∧
      (∀ j, j ≠ i → (s'.obj j).locked = (s.obj j).locked ∧ (s'.obj j).rng = (s.obj j).rng) := by
  have hg := Rcsv.hist_good hF hr h
  have hl : (s.obj i).locked = false := by
    cases hc : (s.obj i).locked with
    | false => rfl
    | true => have := hg.may i hc; rw [hk] at this; cases this
  have hst := Rcsv.not_stack hg.inv hl
  have hfr : (s.mod i fun _ => fresh q (some isRead)) =
      s.mod i fun o => { o with rng := q, ty := if isRead then .read else .write } := by
    unfold State.mod
    congr 1
    funext j
    by_cases hj : j = i
    · subst hj
      have h1 := hg.inv.pend_nil hst
      have h2 := hg.inv.free j hl
      have h3 : (s.obj j).hasLocker = false := by
        cases hc : (s.obj j).hasLocker with
        | false => rfl
        | true => exact absurd ((hg.inv.has j).1 hc) hst
      cases isRead <;> simp [fresh, h1, h2, h3, hl]
    · simp [hj]
  have hinv : Inv F (s.mod i fun _ => fresh q (some isRead)) := by
    rw [hfr]; exact Rcsv.inv_set hg.inv i q _ hq hl
  have key : ∀ s' : State, Inv F s' → (s'.obj i).locked = true → (s'.obj i).rng = q →
      ∃ m ∈ s'.stack, (s'.obj m).rng = q ∧ (q, (s'.obj m).ty) ∈ s'.held ∧
        ((s'.obj i).ty = .write → (s'.obj m).ty = .write) := by
    intro s' hi' hl' hq'
    have hm : ∃ m ∈ s'.stack, (s'.obj m).rng = q ∧ ((s'.obj i).ty = .write → (s'.obj m).ty = .write) := by
      cases hc : (s'.obj i).master with
      | none => exact ⟨i, (hi'.stk i).2 ⟨hl', hc⟩, hq', id⟩
      | some m =>
        obtain ⟨h1, h2, h3⟩ := hi'.mst i m hl' hc
        exact ⟨m, h1, h2 ▸ hq', h3⟩
    obtain ⟨m, h1, h2, h3⟩ := hm
    refine ⟨m, h1, h2, ?_, h3⟩
    rw [hi'.held.mem_iff, List.mem_map]
    exact ⟨m, h1, by rw [h2]⟩
  have nf : false ∉ os := fun hc => by cases hos _ hc
  have ho : ∀ j, j ≠ i → (s.mod i fun _ => fresh q (some isRead)).obj j = s.obj j := by
    intro j hj; simp [State.mod, hj]
  have hrng : ((s.mod i fun _ => fresh q (some isRead)).obj i).rng = q := by simp [State.mod, fresh]
  cases isRead with
  | true =>
    obtain ⟨b, s', e, h1, h2, h3, h4, h5, h6, h7, h8, h9⟩ := Rcsv.eff_read hF hinv i false hg.glob.symm os
    have hb : b = true := by
      cases b with
      | true => rfl
      | false => exact absurd (h8 rfl) nf
    obtain ⟨m, m1, m2, m3, m4⟩ := key s' h1 (h6 hb) (by rw [h4]; exact hrng)
    refine ⟨s', by simp [construct, hfd, e], h6 hb, ⟨_, m3⟩, by simp, ?_⟩
    intro j hj
    exact ⟨by rw [h3 j hj, ho j hj], by rw [h4, ho j hj]⟩
  | false =>
    obtain ⟨b, s', e, h1, h2, h3, h4, h5, h6, h7, h8, h9⟩ := Rcsv.eff_write hF hinv i false hg.glob.symm os (Or.inl hos)
    have hb : b = true := by
      cases b with
      | true => rfl
      | false => exact absurd (h8 rfl) nf
    obtain ⟨m, m1, m2, m3, m4⟩ := key s' h1 (h6 hb).1 (by rw [h4]; exact hrng)
    refine ⟨s', by simp [construct, hfd, e], (h6 hb).1, ⟨_, m3⟩, fun _ => ?_, ?_⟩
    · rw [m4 (h6 hb).2] at m3; exact m3
    · intro j hj
      exact ⟨by rw [h3 j hj, ho j hj], by rw [h4, ho j hj]⟩
-- the hypotheses are met where two objects are locked and a third is made on the same range
example : ∃ s k, Fullock.Props.Rcsv.Hist (Fullock.Props.Rcsv.okFor rcF) (fun _ => rcA) s k ∧ (k 0).must = true ∧
    k 1 = .excl ∧ (k 9).may = false ∧ rcF rcA := by
  have c1 : ∃ s1, call (init fun _ => rcA) [] (.readLock 0) = some (true, s1) ∧
      ∃ s2, call s1 [] (.writeLock 1) = some (true, s2) := ⟨_, rfl, _, rfl⟩
  obtain ⟨s1, e1, s2, e2⟩ := c1
  refine ⟨s2, _, .call (.call .init [] (.readLock 0) ⟨trivial, Or.inl (by simp)⟩ true s1 e1) [] (.writeLock 1)
    ⟨trivial, Or.inl (by simp)⟩ true s2 e2, by decide, by decide, by decide, by simp [rcF]⟩

end Fullock.Props.RcsvMake
