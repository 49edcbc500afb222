import Verif.Props.RcsvForever
import Verif.Spec.RcsvOrder
/-
C86: recursive lock objects taken in a fixed order never deadlock.
-/
namespace Fullock.Props.RcsvOrder
open Fullock.Rcsv Fullock.Rcsv.Conc Fullock.Spec.Rcsv Fullock.Spec.RcsvForever Fullock.Spec.RcsvOrder
open Fullock.Props.Rcsv Fullock.Props.RcsvConc Fullock.Props.RcsvForever

/-- All requests left in a call on object `i`, whose range is `ρ` now, are for the range `q`. -/
def Ask (i : Nat) (q : Rng) : Prog → Rng → Prop
  | .ret _, _ => True
  | .lock k, ρ => Ask i q k ρ
  | .unlock k, ρ => Ask i q k ρ
  | .look j k, ρ => ∀ o, (j = i → o.rng = ρ) → Ask i q (k o) ρ
  | .upd j g k, ρ => ∃ ρ', (j = i → ∀ o, o.rng = ρ → (g o).rng = ρ') ∧ (j ≠ i → ρ' = ρ) ∧ Ask i q k ρ'
  | .erase _ k, ρ => Ask i q k ρ
  | .push _ k, ρ => Ask i q k ρ
  | .find _ k, ρ => ∀ f, Ask i q (k f) ρ
  | .scan _ k, ρ => ∀ f l, Ask i q (k f l) ρ
  | .grant q' _ k, ρ => q' = q ∧ ∀ b, Ask i q (k b) ρ
  | .free _ k, ρ => ∀ b, Ask i q (k b) ρ

variable {i : Nat} {q ρ : Rng}

theorem ask_upd {j : Nat} {g : Obj → Obj} {k : Prog} (hg : ∀ o, (g o).rng = o.rng) (hk : Ask i q k ρ) : Ask i q (.upd j g k) ρ :=
  ⟨ρ, fun _ o ho => by rw [hg, ho], fun _ => rfl, hk⟩

theorem ask_lockP {loc : Bool} {k : Prog} (h : Ask i q k ρ) : Ask i q (lockP loc k) ρ := by
  unfold lockP; split <;> simpa [Ask] using h

theorem ask_unlockP {loc : Bool} {k : Prog} (h : Ask i q k ρ) : Ask i q (unlockP loc k) ρ := by
  unfold unlockP; split <;> simpa [Ask] using h

theorem ask_firstWriter : ∀ (l : List Nat) {k : Option Nat → Prog}, (∀ f, Ask i q (k f) ρ) → Ask i q (firstWriterP l k) ρ
  | [], _, hk => hk none
  | j :: js, k, hk => by
    intro o _
    beta_reduce
    split
    · exact hk _
    · exact ask_firstWriter js hk

theorem ask_move {m : Nat} : ∀ (l : List Nat) {k : Prog}, Ask i q k ρ → Ask i q (moveP m l k) ρ
  | [], _, hk => hk
  | _ :: js, _, hk => ask_upd (fun _ => rfl) (ask_upd (fun _ => rfl) (ask_move js hk))

theorem ask_swap {a n : Nat} {ty : Ty} {l : List Nat} {k : Prog} (hk : Ask i q k ρ) : Ask i q (swapP a ty n l k) ρ :=
  ask_move l (ask_upd (fun _ => rfl) (ask_upd (fun _ => rfl) (ask_upd (fun _ => rfl) hk)))

theorem ask_rawUnlock {a : Nat} {loc : Bool} {k : Bool → Bool → Prog} (hk : ∀ b loc, Ask i q (k b loc) ρ) :
    Ask i q (rawUnlockP a loc k) ρ := by
  intro o _
  beta_reduce
  split
  · exact hk _ _
  refine ask_lockP ?_
  intro o _
  simp only
  split
  · exact ask_upd (fun _ => rfl) (ask_upd (fun _ => rfl) (ask_upd (fun _ => rfl) (hk _ _)))
  · simp only [Ask]
    split
    · split
      · intro b
        beta_reduce
        split
        · exact ask_upd (fun _ => rfl) (hk _ _)
        · exact hk _ _
      · exact ask_upd (fun _ => rfl) (hk _ _)
    · refine ask_firstWriter _ fun f => ?_
      split
      · exact ask_swap (hk _ _)
      · exact ask_swap (hk _ _)

theorem ask_readTail {loc : Bool} {k : Bool → Bool → Prog} (hk : ∀ b loc, Ask i q (k b loc) q) :
    Ask i q (readTailP i loc k) q := by
  refine ask_upd (fun _ => rfl) fun f => ?_
  beta_reduce
  split
  · intro o _
    exact ask_upd (fun _ => rfl) (ask_upd (fun _ => rfl) (hk _ _))
  · refine ask_unlockP (k := .look i _) fun o ho => ⟨ho rfl, fun b => ?_⟩
    beta_reduce
    split
    · exact ask_upd (fun _ => rfl) (hk _ _)
    · exact ask_upd (fun _ => rfl) (hk _ _)

theorem ask_rawReadLock {loc : Bool} {k : Bool → Bool → Prog} (hk : ∀ b loc, Ask i q (k b loc) q) :
    Ask i q (rawReadLockP i loc k) q := by
  intro o _
  beta_reduce
  split
  · exact hk _ _
  refine ask_lockP (k := .look i _) fun o _ => ?_
  beta_reduce
  split
  · refine ask_rawUnlock fun b loc => ?_
    split
    · exact ask_readTail hk
    · exact hk _ _
  · exact ask_readTail hk

theorem ask_takeReaders {a : Nat} : ∀ (l : List Nat) {k : Prog}, Ask i q k ρ → Ask i q (takeReadersP a l k) ρ
  | [], _, hk => hk
  | j :: js, k, hk => by
    intro o _
    have hrest : Ask i q (Prog.upd j (fun q => { q with hasLocker := false, locked := true, master := some a }) <|
      .upd a (fun q => { q with pend := q.pend ++ [j] }) <|
      moveP a o.pend <|
      .upd j (fun q => { q with pend := [] }) <|
      takeReadersP a js k) ρ :=
      ask_upd (fun _ => rfl) (ask_upd (fun _ => rfl) (ask_move _ (ask_upd (fun _ => rfl) (ask_takeReaders js hk))))
    simp only
    split
    · exact fun _ => hrest
    · exact hrest

theorem ask_relock : ∀ (l : List Nat) {k : Prog}, Ask i q k ρ → Ask i q (relockP l k) ρ
  | [], _, hk => hk
  | j :: js, k, hk => by
    refine ask_upd (fun _ => rfl) fun o _ => ?_
    beta_reduce
    split
    · exact ask_relock js hk
    · trivial

theorem ask_writeTail {loc : Bool} {k : Bool → Bool → Prog} (hk : ∀ b loc, Ask i q (k b loc) q) :
    Ask i q (writeTailP i loc k) q := by
  refine ask_upd (fun _ => rfl) fun f l => ?_
  beta_reduce
  split
  · exact ask_upd (fun _ => rfl) (ask_upd (fun _ => rfl) (hk _ _))
  · refine ask_unlockP (ask_takeReaders _ (k := .look i _) fun o ho => ⟨ho rfl, fun b => ?_⟩)
    beta_reduce
    split
    · exact ask_upd (fun _ => rfl) (hk _ _)
    · intro o _
      exact ask_relock _ (ask_upd (fun _ => rfl) (hk _ _))

theorem ask_rawWriteLock {loc : Bool} {k : Bool → Bool → Prog} (hk : ∀ b loc, Ask i q (k b loc) q) :
    Ask i q (rawWriteLockP i loc k) q := by
  intro o _
  beta_reduce
  split
  · exact hk _ _
  have hslow : Ask i q (lockP loc <|
      .look i fun o =>
      if o.ty = .read ∧ o.locked = true then
        rawUnlockP i true fun b loc => if b then writeTailP i loc k else k false loc
      else writeTailP i true k) q := by
    refine ask_lockP (k := .look i _) fun o _ => ?_
    beta_reduce
    split
    · refine ask_rawUnlock fun b loc => ?_
      split
      · exact ask_writeTail hk
      · exact hk _ _
    · exact ask_writeTail hk
  simp only
  split
  · unfold masterWritesP
    split
    · intro o _
      beta_reduce
      split
      · exact ask_upd (fun _ => rfl) (hk _ _)
      · exact hslow
    · simpa using hslow
  · exact hslow

theorem ask_finish (b loc : Bool) : Ask i q (finishP b loc) ρ := ask_unlockP trivial

/-- A call asks for its range only. -/
theorem ask_call {s : State} {op : Op} (h : asks s op = some q) : Ask (opObj op) q (callP op) (s.obj (opObj op)).rng := by
  cases op <;> simp only [asks, Option.some.injEq, reduceCtorEq] at h <;> simp only [opObj]
  · subst h; exact ask_rawReadLock ask_finish
  · subst h; exact ask_rawWriteLock ask_finish
  · subst h
    intro o _
    beta_reduce
    split
    · exact ask_rawReadLock ask_finish
    · exact ask_rawWriteLock ask_finish
    · trivial
  · rename_i j y w
    refine ask_rawUnlock (k := fun b loc =>
      if b then
        .upd j (fun o => { o with rng := { y with tid := o.rng.tid }, ty := if w then .read else .write }) <|
        if w then rawReadLockP j loc finishP else rawWriteLockP j loc finishP
      else finishP false loc) fun b loc => ?_
    beta_reduce
    split
    · refine ⟨q, fun _ o ho => ?_, fun hn => absurd rfl hn, ?_⟩
      · simp only [ho, h]
      · split
        · exact ask_rawReadLock ask_finish
        · exact ask_rawWriteLock ask_finish
    · exact ask_finish _ _

/-! ### The order is kept -/

/-- Calls as in C70, in order. -/
def okO (F : Rng → Prop) (rk : Rng → Nat) (s : State) (os : List Bool) (op : Op) : Prop := okC F s os op ∧ inOrder rk s op

theorem reach_weak {ok ok' : State → List Bool → Op → Prop} (hw : ∀ s os op, ok s os op → ok' s os op) {r : Nat → Rng} {s : CState}
    {g : Ghost} (h : Reach ok r s g) : Reach ok' r s g := by
  induction h with
  | init => exact .init
  | call h t os op ht hok s' e ih => exact .call ih t os op ht (hw _ _ _ hok) s' e
  | step h t s' e ih => exact .step ih t s' e

/-- What is held is in use, and each thread asks in order. -/
structure OInv (F : Rng → Prop) (rk : Rng → Nat) (s : CState) : Prop where
  fam : ∀ x ∈ s.sh.held, F x.1
  thr : ∀ t p os op, s.run t = some ⟨p, os, op⟩ → NoGrant p ∨ ∃ q, q.tid = t ∧ F q ∧
    Ask (opObj op) q p (s.sh.obj (opObj op)).rng ∧ ∀ x ∈ s.sh.held, x.1.tid = t → rk x.1 < rk q ∨ x.1 = q

theorem asks_none {s : State} {op : Op} (h : asks s op = none) : ∃ i, op = .unlock i := by
  cases op <;> simp [asks] at h
  exact ⟨_, rfl⟩

/-- One instruction of thread `t`, for what is left to ask. -/
theorem step_ask {F : Rng → Prop} {r : Nat → Rng} {s s' : CState} {g : Ghost} (hI : CInv F r s g) {t : Nat} {p : Prog} {os : List Bool}
    {op : Op} (hrun : s.run t = some ⟨p, os, op⟩) (e : Conc.step s t = some s') {q : Rng} {i : Nat}
    (ha : Ask i q p (s.sh.obj i).rng) :
    (∀ f, s'.run t = some f → Ask i q f.prog (s'.sh.obj i).rng) ∧
    (∀ x ∈ s'.sh.held, x ∈ s.sh.held ∨ x.1 = q) := by
  unfold Conc.step at e
  rw [hrun] at e
  cases p with
  | ret b =>
    simp only [Option.some.injEq] at e; subst e
    exact ⟨fun f hf => by simp [CState.goto] at hf, fun x hx => Or.inl hx⟩
  | lock k =>
    simp only at e
    split at e
    · cases e
    · simp only [Option.some.injEq] at e; subst e
      refine ⟨fun f hf => ?_, fun x hx => Or.inl hx⟩
      simp only [CState.goto, if_true, Option.some.injEq] at hf; subst hf; exact ha
  | unlock k =>
    simp only [Option.some.injEq] at e; subst e
    refine ⟨fun f hf => ?_, fun x hx => Or.inl hx⟩
    simp only [CState.goto, if_true, Option.some.injEq] at hf; subst hf; exact ha
  | look j k =>
    simp only [Option.some.injEq] at e; subst e
    refine ⟨fun f hf => ?_, fun x hx => Or.inl hx⟩
    simp only [CState.goto, if_true, Option.some.injEq] at hf; subst hf
    exact ha _ (fun h => by subst h; rfl)
  | upd j gg k =>
    simp only [Option.some.injEq] at e; subst e
    refine ⟨fun f hf => ?_, fun x hx => Or.inl hx⟩
    simp only [CState.goto, if_true, Option.some.injEq] at hf; subst hf
    obtain ⟨ρ', h1, h2, h3⟩ := ha
    simp only [State.mod]
    by_cases hj : i = j
    · subst hj
      simp only [if_true]
      rw [h1 rfl _ rfl]; exact h3
    · simp only [hj, if_false]
      rw [← h2 (fun h => hj h.symm)]; exact h3
  | erase j k =>
    simp only [Option.some.injEq] at e; subst e
    refine ⟨fun f hf => ?_, fun x hx => Or.inl hx⟩
    simp only [CState.goto, CState.touch, if_true, Option.some.injEq] at hf; subst hf; exact ha
  | push j k =>
    simp only [Option.some.injEq] at e; subst e
    refine ⟨fun f hf => ?_, fun x hx => Or.inl hx⟩
    simp only [CState.goto, CState.touch, if_true, Option.some.injEq] at hf; subst hf; exact ha
  | find j k =>
    simp only [Option.some.injEq] at e; subst e
    refine ⟨fun f hf => ?_, fun x hx => Or.inl hx⟩
    simp only [CState.goto, CState.touch, if_true, Option.some.injEq] at hf; subst hf; exact ha _
  | scan j k =>
    simp only [Option.some.injEq] at e; subst e
    refine ⟨fun f hf => ?_, fun x hx => Or.inl hx⟩
    simp only [CState.goto, CState.touch, if_true, Option.some.injEq] at hf; subst hf; exact ha _ _
  | grant q' w k =>
    obtain ⟨rfl, ha⟩ := ha
    simp only at e
    split at e
    · split at e
      · cases e
      · simp only [Option.some.injEq] at e; subst e
        refine ⟨fun f hf => ?_, fun x hx => ?_⟩
        · simp only [CState.goto, if_true, Option.some.injEq] at hf; subst hf; exact ha _
        · simp only [CState.goto, List.mem_append, List.mem_singleton] at hx
          rcases hx with hx | rfl
          · exact Or.inl hx
          · exact Or.inr rfl
    · simp only [Option.some.injEq] at e; subst e
      refine ⟨fun f hf => ?_, fun x hx => Or.inl hx⟩
      simp only [CState.goto, if_true, Option.some.injEq] at hf; subst hf; exact ha _
  | free q' k =>
    simp only [Option.some.injEq] at e; subst e
    refine ⟨fun f hf => ?_, fun x hx => Or.inl ?_⟩
    · simp only [CState.goto, if_true, Option.some.injEq] at hf; subst hf
      have : (segUnlock s.sh q' os).2.1.obj = s.sh.obj := by unfold segUnlock; split <;> rfl
      simp only [this]; exact ha _
    · simp only [segUnlock] at hx
      split at hx
      · exact List.mem_of_mem_eraseP hx
      · exact hx

/-- Objects of other threads are left alone. -/
theorem step_other {F : Rng → Prop} (hS : Sep F) {r : Nat → Rng} (hr : ∀ i, F (r i)) {s s' : CState} {g : Ghost}
    (h : Reach (okC F) r s g) {t : Nat} (e : Conc.step s t = some s') {i : Nat} (hi : (r i).tid ≠ t) : s'.sh.obj i = s.sh.obj i := by
  cases hrun : s.run t with
  | none => rw [Conc.step, hrun] at e; cases e
  | some f =>
    have hown := C70_own_objects_partial hS hr h t f hrun
    obtain ⟨p, os, op⟩ := f
    unfold Conc.step at e
    rw [hrun] at e
    cases p with
    | upd j gg k =>
      simp only [Option.some.injEq] at e; subst e
      have := hown j rfl
      have hij : i ≠ j := fun h => hi (h ▸ this)
      simp [State.mod, hij]
    | lock k =>
      simp only at e
      split at e
      · cases e
      · simp only [Option.some.injEq] at e; subst e; rfl
    | grant q' w k =>
      simp only at e
      split at e
      · split at e
        · cases e
        · simp only [Option.some.injEq] at e; subst e; rfl
      · simp only [Option.some.injEq] at e; subst e; rfl
    | free q' k =>
      simp only [Option.some.injEq] at e; subst e
      simp only [segUnlock]; split <;> rfl
    | _ => simp only [Option.some.injEq] at e; subst e; rfl

theorem oinv {F : Rng → Prop} (hS : Sep F) {r : Nat → Rng} (hr : ∀ i, F (r i)) {rk : Rng → Nat} {s : CState} {g : Ghost}
    (h : Reach (okO F rk) r s g) : OInv F rk s := by
  induction h with
  | init => exact ⟨by simp [Conc.init, Rcsv.init], fun t p os op e => by cases e⟩
  | call h t os op ht hok s' e ih =>
    rename_i s g
    have hI := reach_inv hS hr (reach_weak (fun _ _ _ h => h.1) h)
    obtain ⟨hn, he, ho, hsh, _⟩ := call_run e
    refine ⟨by rw [hsh]; exact ih.fam, fun u p os' op' hu => ?_⟩
    rw [hsh]
    by_cases hut : u = t
    · subst hut
      rw [he] at hu
      simp only [Option.some.injEq, Frame.mk.injEq] at hu
      obtain ⟨rfl, rfl, rfl⟩ := hu
      cases ha : asks s.sh op with
      | none =>
        obtain ⟨i, rfl⟩ := asks_none ha
        exact Or.inl (noGrant_unlock i)
      | some q =>
        right
        obtain ⟨hH, _⟩ := (hI.thr u).idle hn
        have hG := hist_good hS hr (hist_weak hH)
        have hfam : F (s.sh.obj (opObj op)).rng := by
          have := hG.inv.fam (opObj op)
          rwa [proj_obj ht] at this
        have hq : q.tid = u ∧ F q := by
          have htid := hI.base.tid (opObj op)
          rw [ht] at htid
          have hw := hok.1.1.1
          cases op <;> simp only [asks, Option.some.injEq, reduceCtorEq] at ha <;> subst ha <;> simp only [opObj, Within] at htid hfam hw ⊢
          · exact ⟨htid, hfam⟩
          · exact ⟨htid, hfam⟩
          · exact ⟨htid, hfam⟩
          · exact ⟨htid, hw⟩
        refine ⟨q, hq.1, hq.2, ask_call ha, fun x hx hxt => hok.2 q ha x hx (hxt.trans hq.1.symm)⟩
    · rw [ho u hut] at hu
      exact ih.thr u p os' op' hu
  | step h t s' e ih =>
    rename_i s g
    have hR : Reach (okC F) r s g := reach_weak (fun _ _ _ h => h.1) h
    have hI := reach_inv hS hr hR
    obtain ⟨hoth, p, os, op, hrun, hnext⟩ := step_run e
    have hheld : (∀ x ∈ s'.sh.held, x ∈ s.sh.held) ∨ ∃ q, q.tid = t ∧ F q ∧ ∀ x ∈ s'.sh.held, x ∈ s.sh.held ∨ x.1 = q := by
      rcases ih.thr t p os op hrun with hng | ⟨q, h1, h2, h3, _⟩
      · refine Or.inl (step_held e fun q' w k os' op' he => ?_)
        rw [hrun] at he
        simp only [Option.some.injEq, Frame.mk.injEq] at he
        rw [he.1] at hng
        exact hng
      · exact Or.inr ⟨q, h1, h2, (step_ask hI hrun e h3).2⟩
    refine ⟨fun x hx => ?_, fun u p' os' op' hu => ?_⟩
    · rcases hheld with hh | ⟨q, _, hq, hh⟩
      · exact ih.fam x (hh x hx)
      · rcases hh x hx with hh | hh
        · exact ih.fam x hh
        · rw [hh]; exact hq
    · by_cases hut : u = t
      · subst hut
        rcases hnext with hnext | ⟨p2, os2, hnext, hc⟩
        · rw [hnext] at hu; cases hu
        · rw [hnext] at hu
          simp only [Option.some.injEq, Frame.mk.injEq] at hu
          obtain ⟨rfl, rfl, rfl⟩ := hu
          rcases ih.thr u p os op hrun with hng | ⟨q, h1, h2, h3, h4⟩
          · exact Or.inl (hng.child hc)
          · right
            obtain ⟨h5, h6⟩ := step_ask hI hrun e h3
            refine ⟨q, h1, h2, h5 _ hnext, fun x hx hxt => ?_⟩
            rcases h6 x hx with h6 | h6
            · exact h4 x h6 hxt
            · exact Or.inr h6
      · rw [hoth u hut] at hu
        rcases ih.thr u p' os' op' hu with hng | ⟨q, h1, h2, h3, h4⟩
        · exact Or.inl hng
        · right
          have hobj : (r (opObj op')).tid = u := ((hI.thr u).run p' os' op' hu).1
          refine ⟨q, h1, h2, ?_, fun x hx hxt => ?_⟩
          · rw [step_other hS hr hR e (by rw [hobj]; exact hut)]; exact h3
          · rcases hheld with hh | ⟨q', hq', _, hh⟩
            · exact h4 x (hh x hx) hxt
            · rcases hh x hx with hh | hh
              · exact h4 x hh hxt
              · rw [hh, hq'] at hxt; exact absurd hxt.symm hut

theorem clash_comm (a b : Rng) : clash a b = clash b a := by
  simp only [clash]
  rw [Bool.eq_iff_iff]
  simp only [Bool.and_eq_true, Bool.or_eq_true, beq_iff_eq, decide_eq_true_eq]
  constructor <;> rintro ⟨h1, h2⟩ <;> refine ⟨h1.symm, ?_⟩ <;> rcases h2 with h2 | h2
  · exact Or.inl h2.symm
  · exact Or.inr ⟨h2.2, h2.1⟩
  · exact Or.inl h2.symm
  · exact Or.inr ⟨h2.2, h2.1⟩

theorem pair_held {l : List (Rng × Ty)} (h : l.Pairwise fun a b => clash a.1 b.1 = true → a.2 ≠ .write ∧ b.2 ≠ .write)
    {x y : Rng × Ty} (hx : x ∈ l) (hy : y ∈ l) (hne : x ≠ y) (hc : clash x.1 y.1 = true) : x.2 ≠ .write ∧ y.2 ≠ .write := by
  have hsym : ∀ a b : Rng × Ty, (clash a.1 b.1 = true → a.2 ≠ .write ∧ b.2 ≠ .write) → clash b.1 a.1 = true → b.2 ≠ .write ∧ a.2 ≠ .write := by
    intro a b hab hba
    have := hab (by rw [clash_comm]; exact hba)
    exact ⟨this.2, this.1⟩
  exact List.Pairwise.forall_of_forall_of_flip
    (R := fun a b => a ≠ b → clash a.1 b.1 = true → a.2 ≠ .write ∧ b.2 ≠ .write)
    (fun a _ hn => absurd rfl hn) (by
      have := h.imp (S := fun (a b : Rng × Ty) => a ≠ b → clash a.1 b.1 = true → a.2 ≠ .write ∧ b.2 ≠ .write) fun hab _ => hab
      exact this) (by
      have := h.imp (S := fun (a b : Rng × Ty) => b ≠ a → clash b.1 a.1 = true → b.2 ≠ .write ∧ a.2 ≠ .write) fun hab _ hba => hsym _ _ hab hba
      exact this) hx hy hne hc

/-- A thread that waits behind another one comes later in the order than all it holds. -/
theorem wait_above {F : Rng → Prop} (hS : Sep F) {r : Nat → Rng} (hr : ∀ i, F (r i)) {rk : Rng → Nat} {s : CState} {g : Ghost}
    (h : Reach (okO F rk) r s g) {t : Nat} {q : Rng} {w : Bool} (hw : waitsFor s t q w) {y : Rng × Ty} (hy : y ∈ s.sh.held)
    (hyw : inWay t q w y) : F q ∧ q.tid = t ∧ ∀ x ∈ s.sh.held, x.1.tid = t → rk x.1 < rk q := by
  obtain ⟨k, os, op, hrun, hos⟩ := hw
  have hI := reach_inv hS hr (reach_weak (fun _ _ _ h => h.1) h)
  have hO := oinv hS hr h
  rcases hO.thr t _ _ _ hrun with hng | ⟨q', h1, h2, ⟨rfl, _⟩, h4⟩
  · exact hng.elim
  refine ⟨h2, h1, fun x hx hxt => ?_⟩
  rcases h4 x hx hxt with h5 | h5
  · exact h5
  exfalso
  obtain ⟨_, s0, os0, b, s1, _, _, _, hex, _⟩ := (hI.thr t).run _ _ _ hrun
  simp only [exec] at hex
  split at hex
  · rename_i hcond
    obtain ⟨_, _, hsb⟩ := hcond
    have hxm := (mem_proj_held (r := r) (s := s) hxt).2 hx
    obtain ⟨hyt, hyc, hyk⟩ := hyw
    have hxy : x ≠ y := fun h => hyt (h ▸ hxt)
    have hnw := pair_held hI.base.held hx hy hxy (by rw [h5, clash_comm]; exact hyc)
    rcases hyk with hyk | hyk
    · have : selfBlock (proj r t s).held q w = true := by
        simp only [selfBlock, List.any_eq_true, Bool.and_eq_true, Bool.or_eq_true, beq_iff_eq]
        exact ⟨x, hxm, ⟨⟨by rw [h5], by rw [h5]⟩, Or.inl (by rw [h5])⟩, Or.inl hyk⟩
      rw [hsb] at this; cases this
    · exact hnw.2 hyk
  · cases hex

/-- All but finitely many threads are in no call. -/
theorem few_run {ok : State → List Bool → Op → Prop} {r : Nat → Rng} {s : CState} {g : Ghost} (h : Reach ok r s g) :
    ∃ B, ∀ t, B ≤ t → s.run t = none := by
  induction h with
  | init => exact ⟨0, fun _ _ => rfl⟩
  | call h t os op ht hok s' e ih =>
    obtain ⟨B, hB⟩ := ih
    obtain ⟨_, _, h3, _⟩ := call_run e
    exact ⟨max B (t + 1), fun u hu => by rw [h3 u (by omega)]; exact hB u (by omega)⟩
  | step h t s' e ih =>
    obtain ⟨B, hB⟩ := ih
    exact ⟨max B (t + 1), fun u hu => by rw [(step_run e).1 u (by omega)]; exact hB u (by omega)⟩

/-- Of finitely many threads one has the last place. -/
theorem last_of {P : Nat → Nat → Prop} (B : Nat) (hB : ∀ t n, P t n → t < B) (hu : ∀ t n m, P t n → P t m → n = m)
    {t n : Nat} (h : P t n) : ∃ t n, P t n ∧ ∀ t' n', P t' n' → n' ≤ n := by
  have hbound : ∀ b, ∃ K, ∀ t n, t < b → P t n → n ≤ K := by
    intro b
    induction b with
    | zero => exact ⟨0, fun t n ht => by omega⟩
    | succ b ih =>
      obtain ⟨K, hK⟩ := ih
      by_cases hb : ∃ n, P b n
      · obtain ⟨n0, h0⟩ := hb
        refine ⟨max K n0, fun t n ht hp => ?_⟩
        by_cases htb : t = b
        · subst htb; have := hu t n n0 hp h0; omega
        · have := hK t n (by omega) hp; omega
      · refine ⟨K, fun t n ht hp => ?_⟩
        by_cases htb : t = b
        · subst htb; exact absurd ⟨n, hp⟩ hb
        · exact hK t n (by omega) hp
  obtain ⟨K, hK⟩ := hbound B
  have key : ∀ d t n, P t n → K - n ≤ d → ∃ t n, P t n ∧ ∀ t' n', P t' n' → n' ≤ n := by
    intro d
    induction d with
    | zero =>
      intro t n hp hd
      refine ⟨t, n, hp, fun t' n' hp' => ?_⟩
      have := hK t' n' (hB _ _ hp') hp'
      omega
    | succ d ih =>
      intro t n hp hd
      by_cases hm : ∃ t' n', P t' n' ∧ n < n'
      · obtain ⟨t', n', hp', hlt⟩ := hm
        exact ih t' n' hp' (by omega)
      · refine ⟨t, n, hp, fun t' n' hp' => ?_⟩
        by_contra hn
        exact hm ⟨t', n', hp', by omega⟩
  exact key K t n h (by omega)

theorem waitsFor_unique {s : CState} {t : Nat} {q q' : Rng} {w w' : Bool} (h : waitsFor s t q w) (h' : waitsFor s t q' w') : q = q' := by
  obtain ⟨k, os, op, h1, _⟩ := h
  obtain ⟨k', os', op', h2, _⟩ := h'
  rw [h1] at h2
  simp only [Option.some.injEq, Frame.mk.injEq, Prog.grant.injEq] at h2
  exact h2.1.1

end Fullock.Props.RcsvOrder

namespace Fullock.Props
open Fullock.Rcsv Fullock.Rcsv.Conc Fullock.Spec.Rcsv Fullock.Spec.RcsvForever Fullock.Spec.RcsvOrder
open Fullock.Props.Rcsv Fullock.Props.RcsvConc Fullock.Props.RcsvForever Fullock.Props.RcsvOrder

/-! ### C86 -/

/-- Threads that ask in a fixed order are never deadlocked. -/
theorem C86_no_deadlock {F : Rng → Prop} (hS : Sep F) {r : Nat → Rng} (hr : ∀ i, F (r i)) {rk : Rng → Nat} (hk : Ranked F rk)
    {s : CState} {g : Ghost} (h : Reach (okO F rk) r s g) (D : Nat → Prop) : ¬ Deadlock s D := by
  rintro ⟨⟨t0, h0⟩, hD⟩
  obtain ⟨B, hB⟩ := few_run h
  have hO := oinv hS hr h
  obtain ⟨q0, w0, hw0, _⟩ := hD t0 h0
  obtain ⟨t, n, ⟨hDt, q, w, hq, rfl⟩, hmax⟩ := last_of (P := fun t n => D t ∧ ∃ q w, waitsFor s t q w ∧ rk q = n) B
    (fun t n ⟨_, q, w, hq, _⟩ => by
      by_contra hn
      obtain ⟨k, os, op, hrun, _⟩ := hq
      rw [hB t (by omega)] at hrun; cases hrun)
    (fun t n m ⟨_, q, w, hq, e1⟩ ⟨_, q', w', hq', e2⟩ => by rw [← e1, ← e2, waitsFor_unique hq hq'])
    ⟨h0, q0, w0, hw0, rfl⟩
  obtain ⟨q1, w1, hw1, x, hx, hxD, hxw⟩ := hD t hDt
  have hqq := waitsFor_unique hq hw1
  subst hqq
  obtain ⟨q2, w2, hw2, y, hy, _, hyw⟩ := hD x.1.tid hxD
  obtain ⟨hFq, _, _⟩ := wait_above hS hr h hw1 hx hxw
  obtain ⟨_, _, hlt⟩ := wait_above hS hr h hw2 hy hyw
  have h1 := hlt x hx rfl
  have h2 := hk x.1 q (hO.fam x hx) hFq hxw.2.1
  have h3 := hmax x.1.tid (rk q2) ⟨hxD, q2, w2, hw2, rfl⟩
  omega

/-- Threads that ask in a fixed order: every call returns, if locks are no more asked for from some moment on and a thread
all of whose calls return releases its locks. -/
theorem C86_returns {F : Rng → Prop} (hS : Sep F) {r : Nat → Rng} (hr : ∀ i, F (r i)) {rk : Rng → Nat} (hk : Ranked F rk)
    {σ : Nat → CState} {ε : Nat → Option Ev} (hE : Exec (okO F rk) r σ ε) (hF : Fair σ ε) (hL : LocksEnd ε) (hY : Yields σ)
    (t i : Nat) : ReturnsAfter σ t i := by
  have hE' : Exec (okC F) r σ ε := ⟨hE.start, fun i => by
    have := hE.next i
    revert this
    cases ε i with
    | none => exact id
    | some e =>
      cases e with
      | call t os op => exact fun h => ⟨h.1, h.2.1.1, h.2.2⟩
      | step t => exact id⟩
  by_contra hn
  -- whoever is stuck, with what it waits for
  let P : Nat → Nat → Prop := fun t n => ∃ m q w x, inWay t q w x ∧ rk q = n ∧
    ∀ j, m ≤ j → waitsFor (σ j) t q w ∧ x ∈ (σ j).sh.held
  have hP : ∀ t i, ¬ ReturnsAfter σ t i → ∃ n, P t n := by
    intro t i hn
    obtain ⟨m, q, w, x, _, hx, hj⟩ := C85_waits hS hr hE' hF hL t i hn
    exact ⟨rk q, m, q, w, x, hx, rfl, hj⟩
  obtain ⟨B, hB⟩ : ∃ B, ∀ t n, P t n → t < B := by
    obtain ⟨n0, hn0⟩ := hL
    obtain ⟨B, hB⟩ := few_calls hE' n0
    refine ⟨B, fun t n ⟨m, q, w, x, _, _, hj⟩ => ?_⟩
    by_contra hlt
    obtain ⟨k, os, op, hrun, _⟩ := (hj (max m n0) (by omega)).1
    have := noGrant_after hE' (Nat.le_refl n0) hn0 (hB t (by omega)) (max m n0 - n0) ⟨.grant q w k, os, op⟩
      (by rw [Nat.add_sub_cancel' (by omega)]; exact hrun)
    exact this
  have hU : ∀ t n m, P t n → P t m → n = m := by
    rintro t n m ⟨m1, q, w, x, _, rfl, h1⟩ ⟨m2, q', w', x', _, rfl, h2⟩
    rw [waitsFor_unique (h1 (max m1 m2) (by omega)).1 (h2 (max m1 m2) (by omega)).1]
  obtain ⟨n0, h0⟩ := hP t i hn
  obtain ⟨u, n, ⟨m, q, w, x, hxw, rfl, hj⟩, hmax⟩ := last_of B hB hU h0
  -- the thread that is in the way is stuck as well
  have hstuck : ∃ k, ¬ ReturnsAfter σ x.1.tid k := by
    by_contra hcon
    have hall : ∀ k, ReturnsAfter σ x.1.tid k := fun k => by
      by_contra h; exact hcon ⟨k, h⟩
    obtain ⟨j, hmj, hx⟩ := hY m x (hj m (Nat.le_refl _)).2 fun k _ => hall k
    exact hx (hj j hmj).2
  obtain ⟨k, hk'⟩ := hstuck
  obtain ⟨n', m', q', w', y, hyw, hn', hj'⟩ := hP x.1.tid k hk'
  obtain ⟨g, hR⟩ := exec_reach hE (max m m')
  have hO := oinv hS hr hR
  have hx1 := (hj (max m m') (by omega)).2
  have h1 := (wait_above hS hr hR (hj' (max m m') (by omega)).1 (hj' (max m m') (by omega)).2 hyw).2.2 x hx1 rfl
  have h2 := hk x.1 q (hO.fam x hx1) (wait_above hS hr hR (hj (max m m') (by omega)).1 hx1 hxw).1 hxw.2.1
  have h3 := hmax x.1.tid (rk q') ⟨m', q', w', y, hyw, rfl, hj'⟩
  omega

/-- A deadlock stays, whatever happens. -/
theorem C86_stays {F : Rng → Prop} (hS : Sep F) {r : Nat → Rng} (hr : ∀ i, F (r i)) {s s' : CState} {g : Ghost}
    (h : Reach (okC F) r s g) {D : Nat → Prop} (hD : Deadlock s D)
    (e : (∃ t, Conc.step s t = some s') ∨ ∃ t os op, Conc.call s t os op = some s') : Deadlock s' D := by
  have hI := reach_inv hS hr h
  obtain ⟨hne, hD⟩ := hD
  refine ⟨hne, fun t ht => ?_⟩
  obtain ⟨q, w, ⟨k, os, op, hrun, hos⟩, x, hx, hxD, hxw⟩ := hD t ht
  have hstuck : ∀ u, D u → Conc.step s u = none := by
    intro u hu
    obtain ⟨q, w, ⟨k, os, op, hrun, hos⟩, x, hx, hxD, hxw⟩ := hD u hu
    unfold Conc.step
    rw [hrun]
    have hb : busy s.sh.held q w = true := by
      simp only [busy, List.any_eq_true, Bool.and_eq_true, Bool.or_eq_true, beq_iff_eq]
      exact ⟨x, hx, hxw.2.1, hxw.2.2⟩
    simp only [hos, hb, if_true]
  rcases e with ⟨u, e⟩ | ⟨u, os', op', e⟩
  · have hu : ¬ D u := fun hu => by rw [hstuck u hu] at e; cases e
    have htu : t ≠ u := fun h => hu (h ▸ ht)
    refine ⟨q, w, ⟨k, os, op, by rw [(step_run e).1 t htu]; exact hrun, hos⟩, x, ?_, hxD, hxw⟩
    obtain ⟨_, p, os1, op1, hrun1, _⟩ := step_run e
    obtain ⟨_, s0, os0, b, s1, _, _, _, hex, _⟩ := (hI.thr u).run _ _ _ hrun1
    unfold Conc.step at e
    rw [hrun1] at e
    cases p with
    | free q' k' =>
      simp only [Option.some.injEq] at e; subst e
      simp only [exec] at hex
      split at hex
      · rename_i hc
        simp only [segUnlock]
        split
        · simp only
          rw [List.mem_eraseP_of_neg]
          · exact hx
          · intro hxe
            have hxe : x.1 = q' := by simpa using hxe
            exact hu (by rw [← hc.1.1, ← hxe]; exact hxD)
        · exact hx
      · cases hex
    | lock k' =>
      simp only at e
      split at e
      · cases e
      · simp only [Option.some.injEq] at e; subst e; exact hx
    | grant q' w' k' =>
      simp only at e
      split at e
      · split at e
        · cases e
        · simp only [Option.some.injEq] at e; subst e
          simp only [List.mem_append]
          exact Or.inl hx
      · simp only [Option.some.injEq] at e; subst e; exact hx
    | _ => simp only [Option.some.injEq] at e; subst e; exact hx
  · obtain ⟨hn, _, ho, hsh, _⟩ := call_run e
    have htu : t ≠ u := fun h => by subst h; rw [hrun] at hn; cases hn
    exact ⟨q, w, ⟨k, os, op, by rw [ho t htu]; exact hrun, hos⟩, x, by rw [hsh]; exact hx, hxD, hxw⟩

/-! ### Examples -/

/-- Thread 1 has objects 0 and 1, thread 2 the others; there are two ranges. -/
def r86 (i : Nat) : Rng := if i = 0 then ⟨1, 3, 0, 10⟩ else if i = 1 then ⟨1, 3, 100, 10⟩ else if i = 2 then ⟨2, 3, 0, 10⟩ else ⟨2, 3, 100, 10⟩

def F86 (r : Rng) : Prop := r = ⟨1, 3, 0, 10⟩ ∨ r = ⟨1, 3, 100, 10⟩ ∨ r = ⟨2, 3, 0, 10⟩ ∨ r = ⟨2, 3, 100, 10⟩

theorem F86_sep : Sep F86 := by
  constructor
  · rintro a (rfl | rfl | rfl | rfl) <;> decide
  · rintro a b (rfl | rfl | rfl | rfl) (rfl | rfl | rfl | rfl) <;> decide

theorem r86_F (i : Nat) : F86 (r86 i) := by
  unfold r86; split_ifs <;> simp [F86]

/-- By offset. -/
def rk86 (r : Rng) : Nat := r.off

theorem rk86_ranked : Ranked F86 rk86 := by
  intro a b ha hb
  rcases ha with rfl | rfl | rfl | rfl <;> rcases hb with rfl | rfl | rfl | rfl <;> decide

def okb86 (s : State) (os : List Bool) (op : Op) : Bool :=
  okb85 s os op && match asks s op with
    | none => true
    | some q => s.held.all fun x => decide (x.1.tid = q.tid → rk86 x.1 < rk86 q ∨ x.1 = q)

theorem okb86_ok (s : State) (os : List Bool) (op : Op) (h : okb86 s os op = true) : okO F86 rk86 s os op := by
  simp only [okb86, Bool.and_eq_true] at h
  refine ⟨okb85_ok s os op h.1, fun q hq x hx hxt => ?_⟩
  have h2 := h.2
  rw [hq] at h2
  exact of_decide_eq_true (List.all_eq_true.1 h2 x hx) hxt

/-- In order: thread 1 takes the first range and, while thread 2 waits for it, the second; it unlocks both; thread 2 goes on
and takes both. -/
def line86 : List Ev := .call 1 [] (.writeLock 0) :: steps85 1 11 ++ .call 2 [] (.readLock 2) :: steps85 2 8 ++
  .call 1 [] (.readLock 1) :: steps85 1 11 ++ .call 1 [] (.unlock 1) :: steps85 1 8 ++ .call 1 [] (.unlock 0) :: steps85 1 8 ++
  steps85 2 3 ++ .call 2 [] (.writeLock 3) :: steps85 2 11 ++ .call 2 [] (.unlock 2) :: steps85 2 8 ++
  .call 2 [] (.unlock 3) :: steps85 2 8

theorem line86_ok : good85 r86 okb86 line86 (Conc.init r86) = true ∧ ((Conc.step (σ85 r86 okb86 line86 line86.length) 1).isNone = true ∧
    (Conc.step (σ85 r86 okb86 line86 line86.length) 2).isNone = true) ∧ (σ85 r86 okb86 line86 line86.length).sh.held = [] ∧
    ((σ85 r86 okb86 line86 33).run 2).isSome = true ∧ (Conc.step (σ85 r86 okb86 line86 33) 2).isNone = true ∧
    (σ85 r86 okb86 line86 33).sh.held.length = 2 := by
  decide +kernel

/-- The hypotheses of `C86_no_deadlock` are met with a thread that waits and another that has locks of both ranges. -/
example : ∃ s g, Sep F86 ∧ (∀ i, F86 (r86 i)) ∧ Ranked F86 rk86 ∧ Reach (okO F86 rk86) r86 s g ∧ s.run 2 ≠ none ∧
    Conc.step s 2 = none ∧ s.sh.held.length = 2 := by
  obtain ⟨h1, _, _, h4, h5, h6⟩ := line86_ok
  obtain ⟨g, hg⟩ := exec_reach (exec85 okb86_ok h1) 33
  exact ⟨_, g, F86_sep, r86_F, rk86_ranked, hg, Option.isSome_iff_ne_none.1 h4, Option.isNone_iff_eq_none.1 h5, h6⟩

/-- The hypotheses of `C86_returns` are met by an execution in which thread 2 waits for a time. -/
example : ∃ σ ε, Exec (okO F86 rk86) r86 σ ε ∧ Fair σ ε ∧ LocksEnd ε ∧ Yields σ ∧ ∃ i, (σ i).run 2 ≠ none ∧ Conc.step (σ i) 2 = none := by
  obtain ⟨h1, h2, h3, h4, h5, _⟩ := line86_ok
  refine ⟨_, _, exec85 okb86_ok h1, fair85 h1 h2, locksEnd85 _, fun i x _ _ => ⟨max i line86.length, le_max_left _ _, ?_⟩, 33,
    Option.isSome_iff_ne_none.1 h4, Option.isNone_iff_eq_none.1 h5⟩
  rw [end85 _ (le_max_right _ _), h3]
  simp

/-- Thread 1 takes the first range and then the second, thread 2 the other way round. -/
def cross86 : List Ev := .call 1 [] (.writeLock 0) :: steps85 1 11 ++ .call 2 [] (.writeLock 3) :: steps85 2 11 ++
  .call 1 [] (.readLock 1) :: steps85 1 8 ++ .call 2 [] (.readLock 2) :: steps85 2 8

def waitsB (s : CState) (t : Nat) (q : Rng) (w : Bool) : Bool :=
  match s.run t with
  | some ⟨.grant q' w' _, os, _⟩ => decide (q' = q ∧ w' = w ∧ os.headD true = true)
  | _ => false

theorem waitsB_iff {s : CState} {t : Nat} {q : Rng} {w : Bool} (h : waitsB s t q w = true) : waitsFor s t q w := by
  unfold waitsB at h
  split at h
  · rename_i q' w' k os op hrun
    obtain ⟨rfl, rfl, ho⟩ := of_decide_eq_true h
    exact ⟨k, os, op, hrun, ho⟩
  · cases h

theorem cross86_ok : good85 r86 okb85 cross86 (Conc.init r86) = true ∧
    waitsB (σ85 r86 okb85 cross86 cross86.length) 1 ⟨1, 3, 100, 10⟩ false = true ∧
    waitsB (σ85 r86 okb85 cross86 cross86.length) 2 ⟨2, 3, 0, 10⟩ false = true ∧
    (σ85 r86 okb85 cross86 cross86.length).sh.held = [(⟨1, 3, 0, 10⟩, .write), (⟨2, 3, 100, 10⟩, .write)] := by
  decide +kernel

/-- The order is needed: without it threads get deadlocked. -/
theorem C86_crossing : ∃ s g, Reach (okC F86) r86 s g ∧ Deadlock s (fun t => t = 1 ∨ t = 2) := by
  obtain ⟨h1, h2, h3, h4⟩ := cross86_ok
  obtain ⟨g, hg⟩ := exec_reach (exec85 (okb85_ok (F := F86)) h1) cross86.length
  refine ⟨_, g, hg, ⟨1, Or.inl rfl⟩, fun t ht => ?_⟩
  rcases ht with rfl | rfl
  · exact ⟨_, _, waitsB_iff h2, (⟨2, 3, 100, 10⟩, .write), by rw [h4]; simp, Or.inr rfl, by decide, by decide, Or.inr rfl⟩
  · exact ⟨_, _, waitsB_iff h3, (⟨1, 3, 0, 10⟩, .write), by rw [h4]; simp, Or.inl rfl, by decide, by decide, Or.inr rfl⟩

end Fullock.Props
