import Verif.Model.RcsvConc
import Verif.Proofs.Rcsv
/-
The programs of `Verif.Model.RcsvConc` run by one thread alone are the calls of `Verif.Model.Rcsv`.
-/
namespace Fullock.Rcsv.Conc

/-- A program run to its end by thread `t`, without anybody else.  `none`: it would touch an object of another
thread, lock, unlock or set a range outside of `R`, use the lock of the table out of order, or wait for itself. -/
def exec (t : Nat) (R : Rng → Bool) : Prog → State → List Bool → Option (Bool × State)
  | .ret b, s, _ => if s.glob then none else some (b, s)
  | .lock k, s, os => if s.glob then none else exec t R k { s with glob := true } os
  | .unlock k, s, os => if s.glob then exec t R k { s with glob := false } os else none
  | .look i k, s, os => if (s.obj i).rng.tid = t then exec t R (k (s.obj i)) s os else none
  | .upd i g k, s, os =>
    if (s.obj i).rng.tid = t ∧ ((g (s.obj i)).rng = (s.obj i).rng ∨
        (g (s.obj i)).rng.tid = t ∧ R (s.obj i).rng = true ∧ R (g (s.obj i)).rng = true) then exec t R k (s.mod i g) os
    else none
  | .erase i k, s, os =>
    if (s.obj i).rng.tid = t then exec t R k { s.touch s.glob with stack := s.stack.erase i } os else none
  | .push i k, s, os =>
    if (s.obj i).rng.tid = t then exec t R k { s.touch s.glob with stack := s.stack ++ [i] } os else none
  | .find i k, s, os =>
    if (s.obj i).rng.tid = t then exec t R (k (findMatch s i)) (s.touch s.glob) os else none
  | .scan i k, s, os =>
    if (s.obj i).rng.tid = t then
      exec t R (k (scanW s i s.stack).1 (scanW s i s.stack).2.2) { s.touch s.glob with stack := (scanW s i s.stack).2.1 } os
    else none
  | .grant r w k, s, os =>
    if (r.tid = t ∧ R r = true) ∧ s.glob = false ∧ selfBlock s.held r w = false then
      if os.headD true then exec t R (k true) { s with held := s.held ++ [(r, if w then .write else .read)] } os.tail
      else exec t R (k false) s os.tail
    else none
  | .free r k, s, os =>
    if (r.tid = t ∧ R r = true) ∧ s.glob = false then exec t R (k (segUnlock s r os).1) (segUnlock s r os).2.1 (segUnlock s r os).2.2
    else none

/-- Objects refer to objects of the same thread. -/
structure Own (s : State) : Prop where
  master : ∀ i m, (s.obj i).master = some m → (s.obj m).rng.tid = (s.obj i).rng.tid
  pend : ∀ i, ∀ j ∈ (s.obj i).pend, (s.obj j).rng.tid = (s.obj i).rng.tid

theorem Own.of_inv {F : Rng → Prop} {s : State} (h : Inv F s) : Own s := by
  refine ⟨fun i m e => ?_, fun i j hj => ?_⟩
  · have hl : (s.obj i).locked = true := by
      by_contra hn
      have := h.free i (by simpa using hn)
      rw [e] at this; cases this
    rw [(h.mst i m hl e).2.1]
  · have := (h.pnd i j).1 hj
    rw [(h.mst j i this.1 this.2).2.1]

theorem mod_tid (s : State) (i : Nat) (g : Obj → Obj) (hg : ∀ o, (g o).rng.tid = o.rng.tid) (j : Nat) :
    ((s.mod i g).obj j).rng.tid = (s.obj j).rng.tid := by
  simp only [State.mod]; split
  · exact hg _
  · rfl

theorem mod_rng (s : State) (i : Nat) (g : Obj → Obj) (hg : ∀ o, (g o).rng = o.rng) (j : Nat) :
    ((s.mod i g).obj j).rng = (s.obj j).rng := by
  simp only [State.mod]; split
  · exact hg _
  · rfl

theorem Own.mod {s : State} (h : Own s) (i : Nat) (g : Obj → Obj) (hg : ∀ o, (g o).rng.tid = o.rng.tid)
    (hm : ∀ m, (g (s.obj i)).master = some m → (s.obj m).rng.tid = (s.obj i).rng.tid)
    (hp : ∀ j ∈ (g (s.obj i)).pend, (s.obj j).rng.tid = (s.obj i).rng.tid) : Own (s.mod i g) := by
  refine ⟨fun k m e => ?_, fun k j hj => ?_⟩
  · rw [mod_tid _ _ _ hg, mod_tid _ _ _ hg]
    by_cases hk : k = i
    · subst hk; simp only [State.mod, if_true] at e; exact hm m e
    · simp only [State.mod, hk, if_false] at e; exact h.master k m e
  · rw [mod_tid _ _ _ hg, mod_tid _ _ _ hg]
    by_cases hk : k = i
    · subst hk; simp only [State.mod, if_true] at hj; exact hp j hj
    · simp only [State.mod, hk, if_false] at hj; exact h.pend k j hj

/-- The objects matter only. -/
theorem Own.of_obj {s s' : State} (h : Own s) (e : s'.obj = s.obj) : Own s' := by
  refine ⟨fun i m => ?_, fun i j => ?_⟩
  · rw [e]; exact h.master i m
  · rw [e]; exact h.pend i j

theorem exec_look {t i : Nat} {k : Obj → Prog} {s : State} {os : List Bool} (h : (s.obj i).rng.tid = t) :
    exec t R (.look i k) s os = exec t R (k (s.obj i)) s os := by simp [exec, h]

theorem exec_upd {t i : Nat} {g : Obj → Obj} {k : Prog} {s : State} {os : List Bool} (h : (s.obj i).rng.tid = t)
    (hg : (g (s.obj i)).rng = (s.obj i).rng) : exec t R (.upd i g k) s os = exec t R k (s.mod i g) os := by
  simp [exec, h, hg]

theorem exec_updR {t i : Nat} {g : Obj → Obj} {k : Prog} {s : State} {os : List Bool} (h : (s.obj i).rng.tid = t)
    (hg : (g (s.obj i)).rng.tid = t) (h1 : R (s.obj i).rng = true) (h2 : R (g (s.obj i)).rng = true) :
    exec t R (.upd i g k) s os = exec t R k (s.mod i g) os := by
  simp [exec, h, hg, h1, h2]

theorem touch_true (s : State) : s.touch true = s := by simp [State.touch]

theorem exec_erase {t i : Nat} {k : Prog} {s : State} {os : List Bool} (h : (s.obj i).rng.tid = t) (hg : s.glob = true) :
    exec t R (.erase i k) s os = exec t R k { s with stack := s.stack.erase i } os := by
  simp [exec, h, hg, touch_true]

theorem exec_push {t i : Nat} {k : Prog} {s : State} {os : List Bool} (h : (s.obj i).rng.tid = t) (hg : s.glob = true) :
    exec t R (.push i k) s os = exec t R k { s with stack := s.stack ++ [i] } os := by
  simp [exec, h, hg, touch_true]

theorem exec_lockP {t : Nat} {loc : Bool} {k : Prog} {s s' : State} {os : List Bool} (hl : loc = s.glob)
    (h : lockStack s loc = some s') : exec t R (lockP loc k) s os = exec t R k s' os ∧ s' = { s with glob := true } := by
  cases loc with
  | true =>
    simp only [lockStack, if_true, Option.some.injEq] at h
    subst h
    refine ⟨rfl, ?_⟩
    obtain ⟨a, b, c, d, e⟩ := s
    simp only at hl; subst hl; rfl
  | false =>
    rw [lockStack_ok hl] at h
    simp only [Option.some.injEq] at h
    subst h
    refine ⟨?_, rfl⟩
    simp only [lockP, Bool.false_eq_true, if_false, exec, ← hl]

theorem exec_unlockP {t : Nat} {loc : Bool} {k : Prog} {s : State} {os : List Bool} (hl : loc = s.glob) :
    exec t R (unlockP loc k) s os = exec t R k { s with glob := false } os := by
  cases loc with
  | true => simp [unlockP, exec, ← hl]
  | false =>
    obtain ⟨a, b, c, d, e⟩ := s
    simp only at hl; subst hl; rfl

theorem exec_firstWriter {t : Nat} {s : State} {os : List Bool} (k : Option Nat → Prog) : ∀ (l : List Nat),
    (∀ j ∈ l, (s.obj j).rng.tid = t) →
    exec t R (firstWriterP l k) s os = exec t R (k (l.find? fun j => (s.obj j).ty == .write)) s os
  | [], _ => rfl
  | j :: js, h => by
    rw [firstWriterP, exec_look (h j List.mem_cons_self)]
    by_cases hw : ((s.obj j).ty == .write) = true
    · rw [if_pos hw, List.find?_cons, hw]
    · rw [if_neg hw, List.find?_cons, Bool.eq_false_iff.2 hw]
      exact exec_firstWriter k js fun x hx => h x (List.mem_cons_of_mem _ hx)

theorem state_ext {s s' : State} (h1 : ∀ i, s.obj i = s'.obj i) (h2 : s.stack = s'.stack) (h3 : s.glob = s'.glob)
    (h4 : s.held = s'.held) (h5 : s.race = s'.race) : s = s' := by
  obtain ⟨a, b, c, d, e⟩ := s
  obtain ⟨a', b', c', d', e'⟩ := s'
  simp only at *
  have := funext h1
  subst this; subst h2; subst h3; subst h4; subst h5; rfl

theorem movePending_cons (s : State) (j m : Nat) (js : List Nat) :
    movePending ((s.mod j fun o => { o with master := some m }).mod m fun o => { o with pend := o.pend ++ [j] }) js m =
      movePending s (j :: js) m := by
  obtain ⟨a, b, c, d, e⟩ := movePending_spec s (j :: js) m
  obtain ⟨a', b', c', d', e'⟩ := movePending_spec
    ((s.mod j fun o => { o with master := some m }).mod m fun o => { o with pend := o.pend ++ [j] }) js m
  refine state_ext (fun i => ?_) (a'.trans a.symm) (b'.trans b.symm) (c'.trans c.symm) (d'.trans d.symm)
  rw [e, e']
  simp only [State.mod, List.mem_cons]
  by_cases h1 : i = m <;> by_cases h2 : i = j <;> by_cases h3 : i ∈ js <;> simp [h1, h2, h3]
  all_goals grind

theorem movePending_nil (s : State) (m : Nat) : movePending s [] m = s := by
  obtain ⟨a, b, c, d, e⟩ := movePending_spec s [] m
  refine state_ext (fun i => ?_) a b c d
  rw [e]; by_cases h : i = m <;> simp [h]

theorem exec_move {t m : Nat} {k : Prog} {os : List Bool} : ∀ (l : List Nat) (s : State),
    (∀ j ∈ l, (s.obj j).rng.tid = t) → (s.obj m).rng.tid = t →
    exec t R (moveP m l k) s os = exec t R k (movePending s l m) os
  | [], s, _, _ => by rw [movePending_nil]; rfl
  | j :: js, s, h, hm => by
    have hj := h j List.mem_cons_self
    have hg : ∀ o : Obj, ({ o with master := some m } : Obj).rng.tid = o.rng.tid := fun _ => rfl
    have hg2 : ∀ o : Obj, ({ o with pend := o.pend ++ [j] } : Obj).rng.tid = o.rng.tid := fun _ => rfl
    rw [moveP, exec_upd hj rfl, exec_upd (by rw [mod_tid _ _ _ hg]; exact hm) rfl, exec_move js, movePending_cons]
    · intro x hx; rw [mod_tid _ _ _ hg2, mod_tid _ _ _ hg]; exact h x (List.mem_cons_of_mem _ hx)
    · rw [mod_tid _ _ _ hg2, mod_tid _ _ _ hg]; exact hm

theorem movePending_tid (s : State) (l : List Nat) (m j : Nat) :
    ((movePending s l m).obj j).rng.tid = (s.obj j).rng.tid := by
  rw [(movePending_spec s l m).2.2.2.2 j]

theorem movePending_rng (s : State) (l : List Nat) (m j : Nat) :
    ((movePending s l m).obj j).rng = (s.obj j).rng := by
  rw [(movePending_spec s l m).2.2.2.2 j]

theorem exec_swap {t i n : Nat} {ty : Ty} {rest : List Nat} {k : Prog} {s : State} {os : List Bool}
    (hi : (s.obj i).rng.tid = t) (hn : (s.obj n).rng.tid = t) (hr : ∀ j ∈ rest, (s.obj j).rng.tid = t) (hg : s.glob = true) :
    exec t R (swapP i ty n rest k) s os =
      (let s := movePending s rest n
       let s := s.mod i fun q => { q with pend := [] }
       let s := s.mod n fun q => { q with hasLocker := true, locked := true, ty := ty, master := none }
       let s := { s with stack := s.stack ++ [n] }
       exec t R k (s.mod i fun q => { q with hasLocker := false, locked := false }) os) := by
  have g1 : ∀ o : Obj, ({ o with pend := [] } : Obj).rng.tid = o.rng.tid := fun _ => rfl
  have g2 : ∀ o : Obj, ({ o with hasLocker := true, locked := true, ty := ty, master := none } : Obj).rng.tid = o.rng.tid :=
    fun _ => rfl
  have e := (movePending_spec s rest n).2.1
  rw [swapP, exec_move _ _ hr hn, exec_upd, exec_upd, exec_push, exec_upd]
  · rw [show (({ ((movePending s rest n).mod i fun q => { q with pend := [] }).mod n
      fun q => { q with hasLocker := true, locked := true, ty := ty, master := none } with
      stack := (((movePending s rest n).mod i fun q => { q with pend := [] }).mod n
      fun q => { q with hasLocker := true, locked := true, ty := ty, master := none }).stack ++ [n] } : State).obj i) =
      ((((movePending s rest n).mod i fun q => { q with pend := [] }).mod n
      fun q => { q with hasLocker := true, locked := true, ty := ty, master := none }).obj i) from rfl,
      mod_tid _ _ _ g2, mod_tid _ _ _ g1, movePending_tid]; exact hi
  · rfl
  · rw [mod_tid _ _ _ g2, mod_tid _ _ _ g1, movePending_tid]; exact hn
  · show (movePending s rest n).glob = true
    rw [e]; exact hg
  · rw [mod_tid _ _ _ g1, movePending_tid]; exact hn
  · rfl
  · rw [movePending_tid]; exact hi
  · rfl

theorem exec_rawUnlock {t i : Nat} {loc : Bool} {k : Bool → Bool → Prog} {s : State} {os : List Bool} (hO : Own s)
    (hi : (s.obj i).rng.tid = t) (hR : R (s.obj i).rng = true) (hl : loc = s.glob) {b l : Bool} {s' : State} {os' : List Bool}
    (h : rawUnlock s i loc os = .done b l s' os') :
    exec t R (rawUnlockP i loc k) s os = exec t R (k b l) s' os' := by
  unfold rawUnlock at h
  rw [rawUnlockP, exec_look hi]
  by_cases h0 : (s.obj i).ty = .unlock ∨ (s.obj i).locked = false
  · simp only [h0, if_true, Res.done.injEq] at h ⊢
    obtain ⟨rfl, rfl, rfl, rfl⟩ := h; rfl
  · simp only [h0, if_false] at h ⊢
    rw [(exec_lockP hl (lockStack_ok hl)).1, exec_look (by exact hi)]
    rw [lockStack_ok hl] at h
    simp only at h
    cases hm : (s.obj i).master with
    | some m =>
      simp only [hm, Res.done.injEq] at h ⊢
      obtain ⟨rfl, rfl, rfl, rfl⟩ := h
      have hmt : (s.obj m).rng.tid = t := (hO.master i m hm).trans hi
      rw [exec_upd, exec_upd, exec_upd]
      · simp only [State.mod]; split_ifs <;> exact hi
      · rfl
      · simp only [State.mod]; split_ifs <;> exact hi
      · rfl
      · exact hmt
      · rfl
    | none =>
      simp only [hm] at h ⊢
      rw [exec_erase]
      rotate_left
      · exact hi
      · rfl
      cases hp : (s.obj i).pend with
      | nil =>
        simp only [hp, pickMaster, List.find?_nil, List.getLast?_nil] at h ⊢
        by_cases hh : (s.obj i).hasLocker = true
        · simp only [hh, if_true] at h ⊢
          simp only [exec, if_true, hi, hR, and_self]
          have hu : unlockStack { s with glob := true, stack := s.stack.erase i } true =
            { s with glob := false, stack := s.stack.erase i } := rfl
          rw [hu] at h
          cases hseg : segUnlock { s with glob := false, stack := s.stack.erase i } (s.obj i).rng os with
          | mk b1 q =>
            obtain ⟨s1, os1⟩ := q
            have hs1 : s1.obj = s.obj ∧ s1.glob = false := by
              unfold segUnlock at hseg; split at hseg <;> cases hseg <;> exact ⟨rfl, rfl⟩
            rw [hseg] at h
            cases b1 with
            | true =>
              simp only [Res.done.injEq] at h
              obtain ⟨rfl, rfl, rfl, rfl⟩ := h
              simp only [if_true]
              rw [exec_upd]
              · rw [hs1.1]; exact hi
              · rfl
            | false =>
              simp only [lockStack, hs1.2, Bool.false_eq_true, if_false, Res.done.injEq] at h
              obtain ⟨rfl, rfl, rfl, rfl⟩ := h
              simp only [Bool.false_eq_true, if_false, exec, hs1.2]
              rw [if_pos (by rw [hs1.1]; exact hi)]
              simp [State.touch]
        · simp only [hh, Bool.false_eq_true, if_false, Res.done.injEq] at h ⊢
          obtain ⟨rfl, rfl, rfl, rfl⟩ := h
          rw [exec_upd]
          · exact hi
          · rfl
      | cons j js =>
        have hpt : ∀ x ∈ j :: js, (s.obj x).rng.tid = t := fun x hx => (hO.pend i x (by rw [hp]; exact hx)).trans hi
        simp only
        rw [exec_firstWriter]
        rotate_left
        · exact hpt
        simp only [hp, pickMaster] at h
        cases hf : (j :: js).find? (fun j => (s.obj j).ty == .write) with
        | some n =>
          simp only [hf, Res.done.injEq] at h ⊢
          obtain ⟨rfl, rfl, rfl, rfl⟩ := h
          have hn := List.mem_of_find?_eq_some hf
          rw [exec_swap]
          · exact hi
          · exact hpt n hn
          · exact fun x hx => hpt x (List.mem_of_mem_erase hx)
          · rfl
        | none =>
          simp only [hf, List.getLast?_eq_some_getLast (l := j :: js) (by simp), Res.done.injEq] at h ⊢
          obtain ⟨rfl, rfl, rfl, rfl⟩ := h
          rw [exec_swap]
          · exact hi
          · exact hpt _ (List.getLast_mem _)
          · exact fun x hx => hpt x (List.dropLast_subset _ hx)
          · rfl

theorem compare_tid {a b : Rng} (h : compare a b = true) : b.tid = a.tid := by
  unfold compare at h
  split at h
  · rename_i e; exact e.1.symm
  · cases h

theorem findMatch_tid {s : State} {i m : Nat} (h : findMatch s i = some m) : (s.obj m).rng.tid = (s.obj i).rng.tid := by
  have := List.find?_some h
  exact compare_tid this

theorem exec_readTail {t i : Nat} {loc : Bool} {k : Bool → Bool → Prog} {s : State} {os : List Bool}
    (hi : (s.obj i).rng.tid = t) (hR : R (s.obj i).rng = true) (hl : loc = s.glob) {b l : Bool} {s' : State} {os' : List Bool}
    (h : readTail s i loc os = .done b l s' os') :
    exec t R (readTailP i loc k) s os = exec t R (k b l) s' os' := by
  unfold readTail at h
  rw [readTailP, exec_upd hi rfl]
  have g1 : ∀ o : Obj, ({ o with ty := .read } : Obj).rng.tid = o.rng.tid := fun _ => rfl
  have hi1 : ((s.mod i fun o => { o with ty := .read }).obj i).rng.tid = t := by rw [mod_tid _ _ _ g1]; exact hi
  have hR1 : R ((s.mod i fun o => { o with ty := .read }).obj i).rng = true := by
    rw [mod_rng s i (fun o => { o with ty := .read }) fun _ => rfl]; exact hR
  have hl1 : loc = (s.mod i fun o => { o with ty := .read }).glob := hl
  generalize (s.mod i fun o => { o with ty := .read }) = s1 at h hi1 hR1 hl1 ⊢
  clear hi hR hl g1 s
  simp only [exec, hi1, if_true]
  rw [← hl1]
  have hf : findMatch (s1.touch loc) i = findMatch s1 i := rfl
  simp only [hf] at h
  have hi2 : ((s1.touch loc).obj i).rng.tid = t := hi1
  have hR2 : R ((s1.touch loc).obj i).rng = true := hR1
  have hl2 : loc = (s1.touch loc).glob := hl1
  have hfm : ∀ m, findMatch s1 i = some m → ((s1.touch loc).obj m).rng.tid = t := fun m e => (findMatch_tid e).trans hi1
  have htt : (s1.touch loc).touch loc = s1.touch loc := by simp [State.touch]
  generalize findMatch s1 i = fm at h hfm ⊢
  generalize s1.touch loc = s2 at h hfm hi2 hR2 hl2 htt ⊢
  clear hf hi1 hR1 hl1 s1
  cases fm with
  | some m =>
    simp only [Res.done.injEq] at h ⊢
    obtain ⟨rfl, rfl, rfl, rfl⟩ := h
    have hm := hfm m rfl
    rw [exec_look hm, exec_upd, exec_upd]
    · simp only [State.mod]; split_ifs <;> assumption
    · rfl
    · exact hi2
    · rfl
  | none =>
    simp only at h ⊢
    simp only [exec, hi2, if_true]
    rw [← hl2, htt, exec_unlockP (by exact hl2), exec_look (by exact hi2)]
    rw [show unlockStack { s2 with stack := s2.stack ++ [i] } loc = { s2 with stack := s2.stack ++ [i], glob := false } from
      unlockStack_glob (by exact hl2)] at h
    simp only [exec, hi2, hR2, true_and]
    by_cases hb : selfBlock s2.held (s2.obj i).rng false = true
    · simp only [hb, if_true] at h; cases h
    · simp only [hb, Bool.false_eq_true, if_false] at h
      rw [if_pos (by simpa using hb)]
      by_cases ho : os.headD true = true
      · simp only [ho, if_true, Res.done.injEq] at h ⊢
        obtain ⟨rfl, rfl, rfl, rfl⟩ := h
        rw [exec_upd]
        · rfl
        · exact hi2
        · rfl
      · simp only [ho, Bool.false_eq_true, if_false, lockStack, Res.done.injEq] at h ⊢
        obtain ⟨rfl, rfl, rfl, rfl⟩ := h
        simp only [exec, Bool.false_eq_true, if_false]
        rw [if_pos (by exact hi2), if_pos ⟨hi2, Or.inl trivial⟩]
        simp [State.touch]

theorem exec_rawReadLock {F : Rng → Prop} {t i : Nat} {loc : Bool} {k : Bool → Bool → Prog} {s : State} {os : List Bool}
    (hI : Inv F s) (hi : (s.obj i).rng.tid = t) (hR : R (s.obj i).rng = true) (hl : loc = s.glob) {b l : Bool} {s' : State} {os' : List Bool}
    (h : rawReadLock s i loc os = .done b l s' os') :
    exec t R (rawReadLockP i loc k) s os = exec t R (k b l) s' os' := by
  unfold rawReadLock at h
  rw [rawReadLockP, exec_look hi]
  by_cases h0 : (s.obj i).locked = true ∧ ((s.obj i).ty = .read ∨ ((s.obj i).ty = .write ∧ (s.obj i).pend ≠ []))
  · simp only [h0, if_true, Res.done.injEq] at h ⊢
    obtain ⟨rfl, rfl, rfl, rfl⟩ := h; rfl
  · rw [if_neg h0] at h ⊢
    rw [(exec_lockP hl (lockStack_ok hl)).1, exec_look (by exact hi)]
    rw [lockStack_ok hl] at h
    simp only at h
    have hI1 := hI.glob true s.race
    by_cases h1 : (s.obj i).ty = .write ∧ (s.obj i).locked = true
    · rw [if_pos h1] at h ⊢
      obtain ⟨ret, loc', s1, os1, hu, hk, _⟩ := rawUnlock_spec hI1 i true rfl os
      rw [exec_rawUnlock (Own.of_inv hI1) (by exact hi) (by exact hR) rfl hu]
      rw [hu] at h
      cases ret with
      | true =>
        simp only [if_true] at h ⊢
        exact exec_readTail ((congrArg Rng.tid (hk.rng i)).trans hi) ((congrArg R (hk.rng i)).trans hR) hk.loc h
      | false =>
        simp only [Bool.false_eq_true, if_false, Res.done.injEq] at h ⊢
        obtain ⟨rfl, rfl, rfl, rfl⟩ := h; rfl
    · rw [if_neg h1] at h ⊢
      exact exec_readTail (by exact hi) (by exact hR) rfl h

theorem segUnlock_frame (s : State) (r : Rng) (os : List Bool) :
    (segUnlock s r os).2.1.obj = s.obj ∧ (segUnlock s r os).2.1.glob = s.glob ∧ (segUnlock s r os).2.1.stack = s.stack ∧
      (segUnlock s r os).2.1.race = s.race := by
  unfold segUnlock; split <;> exact ⟨rfl, rfl, rfl, rfl⟩

theorem exec_takeReaders {t i : Nat} {k : Prog} : ∀ (l : List Nat) (s : State) (os : List Bool), Own s →
    (s.obj i).rng.tid = t → (∀ j ∈ l, (s.obj j).rng.tid = t ∧ R (s.obj j).rng = true) → s.glob = false →
    exec t R (takeReadersP i l k) s os = exec t R k (takeReaders i l s os).1 (takeReaders i l s os).2 ∧
      (((takeReaders i l s os).1.obj i).rng = (s.obj i).rng) ∧ (takeReaders i l s os).1.glob = false
  | [], s, os, _, hi, _, hg => ⟨rfl, rfl, hg⟩
  | j :: js, s, os, hO, hi, hl, hg => by
    have hj := (hl j List.mem_cons_self).1
    have hRj := (hl j List.mem_cons_self).2
    -- the part after the release
    have rest : ∀ (s1 : State) (os1 : List Bool), s1.obj = s.obj → s1.glob = false → ∀ s2 : State,
        s2 = (movePending ((s1.mod j fun q => { q with hasLocker := false, locked := true, master := some i }).mod i
          fun q => { q with pend := q.pend ++ [j] }) (s.obj j).pend i).mod j (fun q => { q with pend := [] }) →
        exec t R (.upd j (fun q => { q with hasLocker := false, locked := true, master := some i }) <|
          .upd i (fun q => { q with pend := q.pend ++ [j] }) <|
          moveP i (s.obj j).pend <|
          .upd j (fun q => { q with pend := [] }) <|
          takeReadersP i js k) s1 os1 =
            exec t R k (takeReaders i js s2 os1).1 (takeReaders i js s2 os1).2 ∧
          (((takeReaders i js s2 os1).1.obj i).rng = (s.obj i).rng) ∧ (takeReaders i js s2 os1).1.glob = false := by
      intro s1 os1 e1 e2 s2 es2
      have ga : ∀ o : Obj, ({ o with hasLocker := false, locked := true, master := some i } : Obj).rng.tid = o.rng.tid :=
        fun _ => rfl
      have gb : ∀ o : Obj, ({ o with pend := o.pend ++ [j] } : Obj).rng.tid = o.rng.tid := fun _ => rfl
      have gc : ∀ o : Obj, ({ o with pend := [] } : Obj).rng.tid = o.rng.tid := fun _ => rfl
      have hO1 : Own s1 := hO.of_obj e1
      have hi1 : (s1.obj i).rng.tid = t := by rw [e1]; exact hi
      have hj1 : (s1.obj j).rng.tid = t := by rw [e1]; exact hj
      have hOa : Own (s1.mod j fun q => { q with hasLocker := false, locked := true, master := some i }) :=
        hO1.mod j _ ga (fun m e => by cases e; rw [hi1, hj1]) (fun x hx => hO1.pend j x hx)
      have ta := mod_tid s1 j _ ga
      have ra := mod_rng s1 j (fun q => { q with hasLocker := false, locked := true, master := some i }) (fun _ => rfl)
      rw [exec_upd hj1 rfl]
      have ea : (s1.mod j fun q => { q with hasLocker := false, locked := true, master := some i }).glob = false := e2
      generalize (s1.mod j fun q => { q with hasLocker := false, locked := true, master := some i }) = sa at hOa ta ra ea es2 ⊢
      have hOb : Own (sa.mod i fun q => { q with pend := q.pend ++ [j] }) :=
        hOa.mod i _ gb (fun m e => hOa.master i m e) (fun x hx => by
          rcases List.mem_append.1 hx with hx | hx
          · exact hOa.pend i x hx
          · rw [List.mem_singleton.1 hx, ta, ta, hi1, hj1])
      have tb := mod_tid sa i _ gb
      have rb := mod_rng sa i (fun q => { q with pend := q.pend ++ [j] }) (fun _ => rfl)
      rw [exec_upd (by rw [ta]; exact hi1) rfl]
      have eb : (sa.mod i fun q => { q with pend := q.pend ++ [j] }).glob = false := ea
      generalize (sa.mod i fun q => { q with pend := q.pend ++ [j] }) = sb at hOb tb rb eb es2 ⊢
      have hpt : ∀ x ∈ (s.obj j).pend, (sb.obj x).rng.tid = t := fun x hx => by
        rw [tb, ta, e1]; exact (hO.pend j x hx).trans hj
      have hib : (sb.obj i).rng.tid = t := by rw [tb, ta]; exact hi1
      obtain ⟨_, mg, _, _, mo⟩ := movePending_spec sb (s.obj j).pend i
      have tc := movePending_tid sb (s.obj j).pend i
      have rc := movePending_rng sb (s.obj j).pend i
      have hOc : Own (movePending sb (s.obj j).pend i) := by
        refine ⟨fun x m e => ?_, fun x y hy => ?_⟩
        · rw [tc, tc]
          rw [mo] at e; simp only at e
          split_ifs at e with hx
          · cases e; rw [hib, hpt x hx]
          · exact hOb.master x m e
        · rw [tc, tc]
          rw [mo] at hy; simp only at hy
          split_ifs at hy with hx
          · rcases List.mem_append.1 hy with hy | hy
            · exact hOb.pend x y hy
            · rw [hx, hib, hpt y hy]
          · exact hOb.pend x y hy
      have ec : (movePending sb (s.obj j).pend i).glob = false := by rw [mg]; exact eb
      rw [exec_move _ _ hpt hib, exec_upd (by rw [tc, tb, ta]; exact hj1) rfl, ← es2]
      have td := mod_tid (movePending sb (s.obj j).pend i) j _ gc
      rw [← es2] at td
      have rd := mod_rng (movePending sb (s.obj j).pend i) j (fun q => { q with pend := [] }) (fun _ => rfl)
      rw [← es2] at rd
      have hs2i : (s2.obj i).rng = (s.obj i).rng := by rw [rd, rc, rb, ra, e1]
      rw [← hs2i]
      refine exec_takeReaders js s2 os1 ?_ ?_ ?_ ?_
      · rw [es2]
        exact hOc.mod j _ gc (fun m e => hOc.master j m e) (fun x hx => by cases hx)
      · rw [td, tc]; exact hib
      · intro x hx; rw [rd, rc, rb, ra, e1]; exact hl x (List.mem_cons_of_mem _ hx)
      · rw [es2]; exact ec
    rw [takeReadersP, exec_look hj]
    by_cases hh : ((s.obj j).locked && (s.obj j).hasLocker) = true
    · simp only [hh, if_true]
      simp only [exec.eq_11, hj, hRj, hg, and_self, if_true]
      obtain ⟨f1, f2, _, _⟩ := segUnlock_frame s (s.obj j).rng os
      have := rest _ (segUnlock s (s.obj j).rng os).2.2 f1 (f2.trans hg) _ rfl
      simpa only [takeReaders, hh, if_true] using this
    · have := rest s os rfl hg _ rfl
      simpa only [takeReaders, hh, Bool.false_eq_true, if_false] using this

theorem scanW_tid (s : State) (i : Nat) : ∀ (l : List Nat),
    (∀ m, (scanW s i l).1 = some m → (s.obj m).rng.tid = (s.obj i).rng.tid) ∧
    ∀ j ∈ (scanW s i l).2.2, (s.obj j).rng.tid = (s.obj i).rng.tid
  | [] => by simp [scanW]
  | j :: js => by
    obtain ⟨ih1, ih2⟩ := scanW_tid s i js
    unfold scanW
    by_cases hc : compare (s.obj i).rng (s.obj j).rng = true
    · have ht := compare_tid hc
      simp only [hc, if_true]
      cases (s.obj j).ty with
      | read =>
        refine ⟨ih1, fun x hx => ?_⟩
        rcases List.mem_cons.1 hx with rfl | hx
        · exact ht
        · exact ih2 x hx
      | write => exact ⟨fun m e => by cases e; exact ht, fun x hx => by cases hx⟩
      | unlock => exact ⟨ih1, ih2⟩
    · simp only [hc, Bool.false_eq_true, if_false]
      exact ⟨ih1, ih2⟩

theorem scanW_mem (s : State) (i : Nat) : ∀ (l : List Nat), ∀ j ∈ (scanW s i l).2.2, j ∈ l ∧ compare (s.obj i).rng (s.obj j).rng = true
  | [] => by simp [scanW]
  | j :: js => by
    have ih := scanW_mem s i js
    unfold scanW
    by_cases hc : compare (s.obj i).rng (s.obj j).rng = true
    · simp only [hc, if_true]
      cases (s.obj j).ty with
      | read =>
        intro x hx
        rcases List.mem_cons.1 hx with rfl | hx
        · exact ⟨List.mem_cons_self, hc⟩
        · exact ⟨List.mem_cons_of_mem _ (ih x hx).1, (ih x hx).2⟩
      | write => intro x hx; cases hx
      | unlock => exact fun x hx => ⟨List.mem_cons_of_mem _ (ih x hx).1, (ih x hx).2⟩
    · simp only [hc, Bool.false_eq_true, if_false]
      exact fun x hx => ⟨List.mem_cons_of_mem _ (ih x hx).1, (ih x hx).2⟩

theorem exec_writeTail {t i : Nat} {loc : Bool} {k : Bool → Bool → Prog} {s : State} {os : List Bool} (hO : Own s)
    (hi : (s.obj i).rng.tid = t) (hR : R (s.obj i).rng = true) (hl : loc = s.glob)
    (hRs : ∀ j ∈ s.stack, compare (s.obj i).rng (s.obj j).rng = true → R (s.obj j).rng = true) {b l : Bool} {s' : State} {os' : List Bool}
    (h : writeTail s i loc os = .done b l s' os') :
    exec t R (writeTailP i loc k) s os = exec t R (k b l) s' os' := by
  unfold writeTail at h
  rw [writeTailP, exec_upd hi rfl]
  have g1 : ∀ o : Obj, ({ o with ty := .write } : Obj).rng.tid = o.rng.tid := fun _ => rfl
  have hi1 : ((s.mod i fun o => { o with ty := .write }).obj i).rng.tid = t := by rw [mod_tid _ _ _ g1]; exact hi
  have r1 := mod_rng s i (fun o => { o with ty := .write }) (fun _ => rfl)
  have hR1 : R ((s.mod i fun o => { o with ty := .write }).obj i).rng = true := by rw [r1]; exact hR
  have hRs1 : ∀ j ∈ (s.mod i fun o => { o with ty := .write }).stack,
      compare ((s.mod i fun o => { o with ty := .write }).obj i).rng ((s.mod i fun o => { o with ty := .write }).obj j).rng = true →
      R ((s.mod i fun o => { o with ty := .write }).obj j).rng = true := by
    intro j hj; rw [r1, r1]; exact hRs j hj
  clear r1
  have hl1 : loc = (s.mod i fun o => { o with ty := .write }).glob := hl
  have hO1 : Own (s.mod i fun o => { o with ty := .write }) := hO.mod i _ g1 (fun m e => hO.master i m e) (fun x hx => hO.pend i x hx)
  generalize (s.mod i fun o => { o with ty := .write }) = s1 at h hi1 hR1 hRs1 hl1 hO1 ⊢
  clear hi hR hRs hl g1 hO s
  simp only [exec, hi1, if_true]
  rw [← hl1]
  have hsc : scanW (s1.touch loc) i (s1.touch loc).stack = scanW s1 i s1.stack := by
    have : ∀ l, scanW (s1.touch loc) i l = scanW s1 i l := by
      intro l
      induction l with
      | nil => rfl
      | cons j js ih => unfold scanW; rw [ih]; rfl
    exact this _
  simp only [hsc] at h
  obtain ⟨hw, hrd⟩ := scanW_tid s1 i s1.stack
  have hrd3 := scanW_mem s1 i s1.stack
  have hi2 : ((s1.touch loc).obj i).rng.tid = t := hi1
  have hR2 : R ((s1.touch loc).obj i).rng = true := hR1
  have hl2 : loc = (s1.touch loc).glob := hl1
  have hO2 : Own (s1.touch loc) := hO1.of_obj rfl
  have hw2 : ∀ m, (scanW s1 i s1.stack).1 = some m → ((s1.touch loc).obj m).rng.tid = t := fun m e => (hw m e).trans hi1
  have hrd2 : ∀ j ∈ (scanW s1 i s1.stack).2.2, ((s1.touch loc).obj j).rng.tid = t ∧ R ((s1.touch loc).obj j).rng = true :=
    fun j e => ⟨(hrd j e).trans hi1, hRs1 j (hrd3 j e).1 (hrd3 j e).2⟩
  have htt : (s1.touch loc).touch loc = s1.touch loc := by simp [State.touch]
  generalize scanW s1 i s1.stack = sc at h hw2 hrd2 ⊢
  generalize s1.touch loc = s2 at h hw2 hrd2 hi2 hR2 hl2 hO2 htt ⊢
  clear hsc hi1 hR1 hRs1 hrd3 hl1 hw hrd hO1 s1
  obtain ⟨f, st, rd⟩ := sc
  cases f with
  | some m =>
    simp only [Res.done.injEq] at h ⊢
    obtain ⟨rfl, rfl, rfl, rfl⟩ := h
    have hm := hw2 m rfl
    rw [exec_upd, exec_upd]
    · simp only [State.mod]; split_ifs <;> assumption
    · rfl
    · exact hi2
    · rfl
  | none =>
    simp only at h hrd2 ⊢
    simp only [exec, hi2, if_true]
    subst hl2
    have htt' : ({ s2 with stack := st } : State).touch s2.glob = { s2 with stack := st } := by
      have := congrArg State.race htt
      simp only [State.touch] at this ⊢
      rw [this]
    rw [htt', exec_unlockP (by rfl)]
    rw [show unlockStack { s2 with stack := st ++ [i] } s2.glob = { s2 with stack := st ++ [i], glob := false } from
      unlockStack_glob (by rfl)] at h
    obtain ⟨e1, e2, e3⟩ := exec_takeReaders (k := .look i fun o =>
      .grant o.rng true fun b =>
      if b then .upd i (fun o => { o with hasLocker := true, locked := true }) (k true false)
      else
        .lock <|
        .erase i <|
        .look i fun o =>
        relockP o.pend <|
        .upd i (fun o => { o with pend := [], hasLocker := false, locked := false }) (k false true)) rd
      { s2 with stack := st ++ [i], glob := false } os (hO2.of_obj rfl) (t := t) (i := i) hi2 hrd2 rfl
    rw [e1]
    replace hR2 : R ((takeReaders i rd { s2 with stack := st ++ [i], glob := false } os).1.obj i).rng = true := by
      rw [e2]; exact hR2
    replace e2 : ((takeReaders i rd { s2 with stack := st ++ [i], glob := false } os).1.obj i).rng.tid = t := by
      rw [e2]; exact hi2
    generalize takeReaders i rd { s2 with stack := st ++ [i], glob := false } os = tr at h hR2 e2 e3
    obtain ⟨s3, os3⟩ := tr
    simp only at h hR2 e2 e3 ⊢
    rw [exec_look e2]
    simp only [exec, e2, e3, hR2, true_and]
    by_cases hb : selfBlock s3.held (s3.obj i).rng true = true
    · simp only [hb, if_true] at h; cases h
    · simp only [hb, Bool.false_eq_true, if_false] at h
      rw [if_pos (by simpa using hb)]
      by_cases ho : os3.headD true = true
      · simp only [ho, if_true, Res.done.injEq] at h ⊢
        obtain ⟨rfl, rfl, rfl, rfl⟩ := h
        rw [exec_upd]
        · simp only [e3]
        · exact e2
        · rfl
      · simp only [ho, Bool.false_eq_true, if_false, lockStack, e3] at h ⊢
        simp only [exec, e3, Bool.false_eq_true, if_false]
        rw [if_pos (by exact e2), if_pos (by exact e2)]
        by_cases hp : (s3.obj i).pend = []
        · rw [if_neg (by simpa using hp)] at h
          simp only [Res.done.injEq] at h
          obtain ⟨rfl, rfl, rfl, rfl⟩ := h
          rw [show (({ ({ s3 with glob := true } : State).touch true with stack := s3.stack.erase i } : State).obj i).pend = [] from hp,
            relockP, exec_upd (by exact e2) rfl]
          congr 1
          refine state_ext (fun j => ?_) rfl rfl rfl (by simp [State.touch, State.mod])
          simp only [State.mod, State.touch]
          split_ifs with hj
          · subst hj; rw [← hp]
          · rfl
        · rw [if_pos (by simpa using hp)] at h; cases h

theorem exec_rawWriteLock {F : Rng → Prop} {t i : Nat} {loc : Bool} {k : Bool → Bool → Prog} {s : State} {os : List Bool}
    (hF : Sep F) (hI : Inv F s) (hi : (s.obj i).rng.tid = t) (hR : R (s.obj i).rng = true) (hl : loc = s.glob) {b l : Bool} {s' : State} {os' : List Bool}
    (h : rawWriteLock s i loc os = .done b l s' os') :
    exec t R (rawWriteLockP i loc k) s os = exec t R (k b l) s' os' := by
  unfold rawWriteLock at h
  rw [rawWriteLockP, exec_look hi]
  have hslow : (¬ ((s.obj i).locked = true ∧ (s.obj i).ty = .write)) →
      (¬ ((s.obj i).locked = true ∧ (s.obj i).ty = .read ∧ masterWrites s (s.obj i) = true)) →
      exec t R (lockP loc <|
        .look i fun o =>
        if o.ty = .read ∧ o.locked = true then
          rawUnlockP i true fun b loc => if b then writeTailP i loc k else k false loc
        else writeTailP i true k) s os = exec t R (k b l) s' os' := by
    intro h0 h1
    have hst : ∀ {s2 : State}, Inv F s2 → (s2.obj i).rng = (s.obj i).rng →
        ∀ j ∈ s2.stack, compare (s2.obj i).rng (s2.obj j).rng = true → R (s2.obj j).rng = true := by
      intro s2 h2 e j _ hc
      rw [← (hF.cmp (h2.fam i) (h2.fam j)).1 hc, e]; exact hR
    rw [if_neg h0, if_neg h1] at h
    rw [(exec_lockP hl (lockStack_ok hl)).1, exec_look (by exact hi)]
    rw [lockStack_ok hl] at h
    simp only at h
    have hI1 := hI.glob true s.race
    by_cases h2 : (s.obj i).ty = .read ∧ (s.obj i).locked = true
    · rw [if_pos h2] at h ⊢
      obtain ⟨ret, loc', s1, os1, hu, hk, _⟩ := rawUnlock_spec hI1 i true rfl os
      rw [exec_rawUnlock (Own.of_inv hI1) (by exact hi) (by exact hR) rfl hu]
      rw [hu] at h
      cases ret with
      | true =>
        simp only [if_true] at h ⊢
        exact exec_writeTail (Own.of_inv hk.inv) ((congrArg Rng.tid (hk.rng i)).trans hi) ((congrArg R (hk.rng i)).trans hR)
          hk.loc (hst hk.inv (hk.rng i)) h
      | false =>
        simp only [Bool.false_eq_true, if_false, Res.done.injEq] at h ⊢
        obtain ⟨rfl, rfl, rfl, rfl⟩ := h; rfl
    · rw [if_neg h2] at h ⊢
      exact exec_writeTail (Own.of_inv hI1) (by exact hi) (by exact hR) rfl (hst hI1 rfl) h
  by_cases h0 : (s.obj i).locked = true ∧ (s.obj i).ty = .write
  · simp only [h0, and_self, if_true, Res.done.injEq] at h ⊢
    obtain ⟨rfl, rfl, rfl, rfl⟩ := h; rfl
  · simp only [h0, if_false]
    by_cases h1 : (s.obj i).locked = true ∧ (s.obj i).ty = .read
    · rw [if_pos h1]
      cases hm : (s.obj i).master with
      | none =>
        simp only [masterWritesP, hm]
        exact hslow h0 (by simp [masterWrites, hm])
      | some m =>
        simp only [masterWritesP, hm]
        rw [exec_look ((Own.of_inv hI).master i m hm |>.trans hi)]
        by_cases hw : ((s.obj m).ty == .write) = true
        · rw [if_pos hw]
          rw [if_neg h0, if_pos ⟨h1.1, h1.2, by simp only [masterWrites, hm]; exact hw⟩] at h
          simp only [Res.done.injEq] at h
          obtain ⟨rfl, rfl, rfl, rfl⟩ := h
          rw [exec_upd hi rfl]
        · rw [if_neg hw]
          exact hslow h0 (by simp only [masterWrites, hm]; exact fun e => hw e.2.2)
    · rw [if_neg h1]
      exact hslow h0 (fun e => h1 ⟨e.1, e.2.1⟩)

theorem exec_finish {t : Nat} {b l : Bool} {s : State} {os : List Bool} (hl : l = s.glob) :
    exec t R (finishP b l) s os = finish (.done b l s os) := by
  rw [finishP, exec_unlockP hl]
  simp only [exec, finish, Bool.false_eq_true, if_false, unlockStack_glob hl]

end Fullock.Rcsv.Conc
