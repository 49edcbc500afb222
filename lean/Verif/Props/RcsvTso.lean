import Verif.Spec.RcsvTso
/-
C92: recursive locks on processors with store buffers.
-/
namespace Fullock.Props.RcsvTso
open Fullock.Rcsv Fullock.Rcsv.Conc Fullock.Rcsv.TsoC Fullock.Spec.Rcsv Fullock.Spec.RcsvTso Fullock.Props.Rcsv Fullock.Props.RcsvConc

theorem view_append (s : State) (b : List Wr) (w : Wr) : view s (b ++ [w]) = apply (view s b) w := by
  induction b generalizing s with
  | nil => rfl
  | cons x b ih => simp only [List.cons_append, view, ih]

theorem view_frame (s : State) (b : List Wr) : (view s b).glob = s.glob ∧ (view s b).held = s.held ∧ (view s b).race = s.race := by
  induction b generalizing s with
  | nil => exact ⟨rfl, rfl, rfl⟩
  | cons x b ih => simp only [view, ih]; cases x <;> exact ⟨rfl, rfl, rfl⟩

theorem view_obj (s : State) (b : List Wr) (i : Nat) (h : ∀ o, Wr.obj i o ∉ b) : (view s b).obj i = s.obj i := by
  induction b generalizing s with
  | nil => rfl
  | cons x b ih =>
    simp only [view]
    rw [ih _ fun o ho => h o (List.mem_cons_of_mem _ ho)]
    cases x with
    | stk l => rfl
    | obj j o =>
      have : i ≠ j := by rintro rfl; exact h o (List.mem_cons_self ..)
      simp [apply, this]

theorem view_stk (s : State) (b : List Wr) (h : ∀ l, Wr.stk l ∉ b) : (view s b).stack = s.stack := by
  induction b generalizing s with
  | nil => rfl
  | cons x b ih =>
    simp only [view]
    rw [ih _ fun o ho => h o (List.mem_cons_of_mem _ ho)]
    cases x with
    | stk l => exact absurd (List.mem_cons_self ..) (h l)
    | obj j o => rfl

/-- The object a view shows depends on that object only. -/
theorem view_obj_congr (s s' : State) (b : List Wr) (i : Nat) (h : s.obj i = s'.obj i) : (view s b).obj i = (view s' b).obj i := by
  induction b generalizing s s' with
  | nil => exact h
  | cons x b ih =>
    refine ih _ _ ?_
    cases x with
    | stk l => exact h
    | obj j o => simp only [apply]; rw [h]

theorem view_stk_congr (s s' : State) (b : List Wr) (h : s.stack = s'.stack) : (view s b).stack = (view s' b).stack := by
  induction b generalizing s s' with
  | nil => exact h
  | cons x b ih =>
    refine ih _ _ ?_
    cases x with
    | stk l => rfl
    | obj j o => exact h

/-- Buffers. -/
structure BInv (r : Nat → Rng) (s : TState) : Prop where
  own : ∀ u i o, Wr.obj i o ∈ s.buf u → (r i).tid = u ∧ o.rng.tid = u
  stk : ∀ u l, Wr.stk l ∈ s.buf u → s.c.owner = some u
  tid : ∀ i, (s.c.sh.obj i).rng.tid = (r i).tid

theorem view_tid {r : Nat → Rng} {s : State} (h : ∀ i, (s.obj i).rng.tid = (r i).tid) (b : List Wr) (u : Nat)
    (hb : ∀ i o, Wr.obj i o ∈ b → (r i).tid = u ∧ o.rng.tid = u) (i : Nat) : ((view s b).obj i).rng.tid = (r i).tid := by
  induction b generalizing s with
  | nil => exact h i
  | cons x b ih =>
    refine ih (fun j => ?_) fun i o ho => hb i o (List.mem_cons_of_mem _ ho)
    cases x with
    | stk l => exact h j
    | obj j' o =>
      simp only [apply]
      split
      · rename_i e; subst e
        obtain ⟨h1, h2⟩ := hb j o (List.mem_cons_self ..)
        rw [h1, h2]
      · exact h j

theorem sees_tid {r : Nat → Rng} {s : TState} (h : BInv r s) (t i : Nat) : ((sees s t).sh.obj i).rng.tid = (r i).tid :=
  view_tid h.tid _ t (h.own t) i

theorem settled_own {r : Nat → Rng} {s : TState} {t i : Nat} (hi : (r i).tid = t) :
    (settled r s).sh.obj i = (sees s t).sh.obj i := by simp only [settled, hi]

/-- The searches see what they would see with sequentially consistent memory. -/
theorem compare_same {r : Nat → Rng} {s : TState} (h : BInv r s) (t i j : Nat) (hi : (r i).tid = t) :
    compare ((sees s t).sh.obj i).rng ((sees s t).sh.obj j).rng = compare ((settled r s).sh.obj i).rng ((settled r s).sh.obj j).rng ∧
    (compare ((sees s t).sh.obj i).rng ((sees s t).sh.obj j).rng = true → (sees s t).sh.obj j = (settled r s).sh.obj j) := by
  by_cases hj : (r j).tid = t
  · rw [settled_own hi, settled_own hj]; exact ⟨rfl, fun _ => rfl⟩
  · have h1 : ((sees s t).sh.obj i).rng.tid ≠ ((sees s t).sh.obj j).rng.tid := by
      rw [sees_tid h, sees_tid h, hi]; exact fun e => hj e.symm
    have h2 : ((settled r s).sh.obj i).rng.tid ≠ ((settled r s).sh.obj j).rng.tid := by
      rw [settled_own hi, settled_own rfl, sees_tid h, sees_tid h, hi]; exact fun e => hj e.symm
    have e1 : compare ((sees s t).sh.obj i).rng ((sees s t).sh.obj j).rng = false := by simp [Rcsv.compare, h1]
    have e2 : compare ((settled r s).sh.obj i).rng ((settled r s).sh.obj j).rng = false := by simp [Rcsv.compare, h2]
    rw [e1, e2]; exact ⟨rfl, fun e => by cases e⟩

theorem scanW_same {r : Nat → Rng} {s : TState} (h : BInv r s) (t i : Nat) (hi : (r i).tid = t) (l : List Nat) :
    scanW (sees s t).sh i l = scanW (settled r s).sh i l := by
  induction l with
  | nil => rfl
  | cons j l ih =>
    obtain ⟨h1, h2⟩ := compare_same h t i j hi
    simp only [scanW, ← h1, ih]
    cases hc : compare ((sees s t).sh.obj i).rng ((sees s t).sh.obj j).rng with
    | false => rfl
    | true => rw [h2 hc]

theorem find_same {r : Nat → Rng} {s : TState} (h : BInv r s) (t i : Nat) (hi : (r i).tid = t)
    (hs : (sees s t).sh.stack = (settled r s).sh.stack) : findMatch (sees s t).sh i = findMatch (settled r s).sh i := by
  simp only [findMatch, hs]
  congr 1
  funext j
  exact (compare_same h t i j hi).1

theorem cstate_ext {a b : CState} (h1 : ∀ i, a.sh.obj i = b.sh.obj i) (h2 : a.sh.stack = b.sh.stack) (h3 : a.sh.glob = b.sh.glob)
    (h4 : a.sh.held = b.sh.held) (h5 : a.sh.race = b.sh.race) (h6 : a.owner = b.owner) (h7 : a.run = b.run) : a = b := by
  obtain ⟨sa, oa, ra⟩ := a
  obtain ⟨sb, ob, rb⟩ := b
  simp only at h6 h7
  subst h6 h7
  have := state_ext h1 h2 h3 h4 h5
  simp only at this
  rw [this]

theorem view_two (s : State) (b ws : List Wr) : view s (b ++ ws) = view (view s b) ws := by
  induction b generalizing s with
  | nil => rfl
  | cons x b ih => exact ih _

theorem step_race {F : Rng → Prop} (hF : Sep F) {r : Nat → Rng} (hr : ∀ i, F (r i)) {s s' : CState} {g : Ghost}
    (h : Reach (okC F) r s g) {t : Nat} (e : Conc.step s t = some s') : s'.sh.race = false :=
  (reach_inv hF hr (.step h t s' e)).base.race

theorem obj_plain {r : Nat → Rng} {s s' : TState} {t : Nat} {ws : List Wr} (hs : s'.c.sh.obj = s.c.sh.obj)
    (hb : s'.buf = fun u => if u = t then s.buf t ++ ws else s.buf u) (i : Nat) :
    (settled r s').sh.obj i =
      if (r i).tid = t then (view (sees s t).sh ws).obj i else (settled r s).sh.obj i := by
  simp only [settled, sees, hb]
  split
  · rename_i e
    rw [← view_two]
    exact view_obj_congr _ _ _ _ (by rw [hs])
  · exact view_obj_congr _ _ _ _ (by rw [hs])

theorem stack_plain {r : Nat → Rng} {s s' : TState} {t : Nat} {ws : List Wr} (hs : s'.c.sh.stack = s.c.sh.stack)
    (ho : s'.c.owner = s.c.owner) (hb : s'.buf = fun u => if u = t then s.buf t ++ ws else s.buf u) :
    (settled r s').sh.stack =
      if s.c.owner = some t then (view (sees s t).sh ws).stack else (settled r s).sh.stack := by
  simp only [settled, sees, ho]
  cases hown : s.c.owner with
  | none => simp [hs]
  | some u =>
    simp only [hb, Option.some.injEq]
    split
    · rw [← view_two]
      exact view_stk_congr _ _ _ hs
    · exact view_stk_congr _ _ _ hs

theorem owner_stack {r : Nat → Rng} {s : TState} {t : Nat} (ho : s.c.owner = some t) :
    (settled r s).sh.stack = (sees s t).sh.stack := by simp only [settled, ho]

theorem scanW_congr {s s' : State} (h : s.obj = s'.obj) (i : Nat) (l : List Nat) : scanW s i l = scanW s' i l := by
  induction l with
  | nil => rfl
  | cons j l ih => simp only [scanW, h, ih]

/-- A step of one thread with buffers is a step of the same thread with sequentially consistent memory. -/
theorem step_settled {F : Rng → Prop} (hF : Sep F) {r : Nat → Rng} (hr : ∀ i, F (r i)) {s s' : TState} {g : Ghost} {t : Nat}
    (h : Reach (okC F) r (settled r s) g) (hb : BInv r s) (e : TsoC.step s t = some s') :
    Conc.step (settled r s) t = some (settled r s') ∧ BInv r s' := by
  have hI := reach_inv hF hr h
  unfold TsoC.step at e
  cases hrun : s.c.run t with
  | none => rw [hrun] at e; cases e
  | some f =>
    rw [hrun] at e
    simp only at e
    obtain ⟨p, os, op⟩ := f
    have hrun' : (settled r s).run t = some ⟨p, os, op⟩ := hrun
    have hrunv : (sees s t).run t = some ⟨p, os, op⟩ := hrun
    have hown := fun i hi => C70_own_objects_partial hF hr h t _ hrun' i hi
    obtain ⟨_, s0, os0, b0, s1, hH, hok, hc, hex, _⟩ := (hI.thr t).run p os op hrun'
    have hfr := view_frame s.c.sh (s.buf t)
    -- plain instructions
    have key : ∀ c c' : CState, fence p = false → Conc.step (sees s t) t = some c → Conc.step (settled r s) t = some c' →
        c.run = c'.run → c'.sh.glob = s.c.sh.glob → c'.sh.held = s.c.sh.held → c.owner = s.c.owner → c'.owner = s.c.owner →
        (∀ i, c'.sh.obj i = if (r i).tid = t then (view (sees s t).sh (writes (sees s t).sh p)).obj i
          else (settled r s).sh.obj i) →
        (c'.sh.stack = if s.c.owner = some t then (view (sees s t).sh (writes (sees s t).sh p)).stack
          else (settled r s).sh.stack) →
        (∀ i o, Wr.obj i o ∈ writes (sees s t).sh p → (r i).tid = t ∧ o.rng.tid = t) →
        (∀ l, Wr.stk l ∈ writes (sees s t).sh p → s.c.owner = some t) → c.sh.race = c'.sh.race →
        Conc.step (settled r s) t = some (settled r s') ∧ BInv r s' := by
      intro c c' hf hc1 hc2 k1 k2 k3 k4 k5 k6 k7 k8 k9 k10
      rw [hc1] at e
      simp only [hf, Bool.false_eq_true, if_false, Option.some.injEq] at e
      subst e
      constructor
      · rw [hc2]
        congr 1
        refine cstate_ext (fun i => ?_) ?_ k2 k3 k10.symm (by rw [k5]; exact k4.symm) k1.symm
        · rw [k6]; symm; apply obj_plain (s := s) <;> rfl
        · rw [k7]; symm; exact stack_plain (s := s) (by rfl) (by exact k4) (by rfl)
      · refine ⟨fun u i o hm => ?_, fun u l hm => ?_, hb.tid⟩
        · simp only at hm
          split at hm
          · rename_i hu; subst hu
            rcases List.mem_append.1 hm with hm | hm
            · exact hb.own _ i o hm
            · exact k8 i o hm
          · exact hb.own u i o hm
        · simp only at hm ⊢
          rw [k4]
          split at hm
          · rename_i hu; subst hu
            rcases List.mem_append.1 hm with hm | hm
            · exact hb.stk _ l hm
            · exact k9 l hm
          · exact hb.stk u l hm
    have kobj : ∀ i, (settled r s).sh.obj i = if (r i).tid = t then (sees s t).sh.obj i else (settled r s).sh.obj i := by
      intro i; split
      · rename_i e; exact settled_own e
      · rfl
    have kstk : (settled r s).sh.stack = if s.c.owner = some t then (sees s t).sh.stack else (settled r s).sh.stack := by
      split
      · rename_i e; exact owner_stack e
      · rfl
    have hrace : (sees s t).sh.race = (settled r s).sh.race := hfr.2.2
    have hc1 := Conc.step.eq_def (sees s t) t
    rw [hrunv] at hc1
    have hc2 := Conc.step.eq_def (settled r s) t
    rw [hrun'] at hc2
    -- the others
    have keyF : ∀ c c' : CState, fence p = true → Conc.step (sees s t) t = some c → (s.buf t = [] →
        Conc.step (settled r s) t = some c' ∧ c.run = c'.run ∧ c.sh.glob = c'.sh.glob ∧ c.sh.held = c'.sh.held ∧
        c.owner = c'.owner ∧ c.sh.race = c'.sh.race ∧ c.sh.obj = s.c.sh.obj ∧ c.sh.stack = s.c.sh.stack ∧
        (∀ i, c'.sh.obj i = (settled r s).sh.obj i) ∧ c'.sh.stack = (settled r s).sh.stack ∧
        (c.owner = s.c.owner ∨ (s.c.owner = none ∧ c.owner = some t) ∨ (s.c.owner = some t ∧ c.owner = none))) →
        Conc.step (settled r s) t = some (settled r s') ∧ BInv r s' := by
      intro c c' hf hc1 hk
      rw [hc1] at e
      simp only [hf, if_true] at e
      cases hbt : s.buf t with
      | cons w b => rw [hbt] at e; cases e
      | nil =>
        rw [hbt] at e
        simp only [Option.some.injEq] at e
        subst e
        obtain ⟨k1, k2, k3, k4, k5, k6, k7, k8, k9, k10, k11⟩ := hk hbt
        constructor
        · rw [k1]
          congr 1
          refine cstate_ext (fun i => ?_) ?_ k3.symm k4.symm k6.symm k5.symm k2.symm
          · rw [k9]; exact view_obj_congr _ _ _ _ (by rw [k7])
          · rw [k10]
            rcases k11 with k | ⟨k, k'⟩ | ⟨k, k'⟩
            · simp only [settled, sees, k]
              cases s.c.owner with
              | none => exact k8.symm
              | some u => exact view_stk_congr _ _ _ k8.symm
            · simp only [settled, sees, k, k', hbt, view, k8]
            · simp only [settled, sees, k, k', hbt, view, k8]
        · refine ⟨hb.own, fun u l hm => ?_, fun i => by simp only [k7]; exact hb.tid i⟩
          have h1 := hb.stk u l hm
          rcases k11 with k | ⟨k, k'⟩ | ⟨k, k'⟩
          · exact k.trans h1
          · rw [k] at h1; cases h1
          · rw [k] at h1
            simp only [Option.some.injEq] at h1
            subst h1
            simp only [hbt] at hm; cases hm
    cases p with
    | ret b =>
      exact key _ _ rfl hc1 hc2 rfl rfl rfl rfl rfl kobj kstk
        (fun _ _ hm => by cases hm) (fun _ hm => by cases hm) hrace
    | look i k =>
      have hi := hown i rfl
      refine key _ _ rfl hc1 hc2 ?_ rfl rfl rfl rfl kobj kstk
        (fun _ _ hm => by cases hm) (fun _ hm => by cases hm) hrace
      simp only [CState.goto]
      rw [settled_own hi]
      rfl
    | upd i g k =>
      have hi := hown i rfl
      have ht : (g ((sees s t).sh.obj i)).rng.tid = t := by
        have := (reach_inv hF hr (.step h t _ hc2)).base.tid i
        simp only [State.mod, if_true] at this
        rw [settled_own hi] at this
        rw [this, hi]
      refine key _ _ rfl hc1 hc2 rfl rfl rfl rfl rfl ?_ kstk
        ?_ (fun _ hm => by simp [writes] at hm) hrace
      · intro j
        simp only [State.mod, writes, view, apply]
        by_cases hj : j = i
        · subst hj; simp [hi, settled_own hi]
        · simp only [hj, if_false]; exact kobj j
      · intro j o hm
        simp only [writes, List.mem_singleton, Wr.obj.injEq] at hm
        obtain ⟨rfl, rfl⟩ := hm
        exact ⟨hi, ht⟩
    | erase i k =>
      have ho : s.c.owner = some t := by
        have := (Bool.or_eq_false_iff.1 (step_race hF hr h hc2)).2
        simp only [decide_eq_false_iff_not, ne_eq, Decidable.not_not] at this
        exact this
      refine key _ _ rfl hc1 hc2 rfl rfl rfl rfl rfl kobj ?_ (fun _ _ hm => by simp [writes] at hm) (fun _ _ => ho) ?_
      · rw [if_pos ho]; simp only [writes, view, apply, CState.touch, owner_stack ho]
      · simp only [CState.touch, hrace]; rfl
    | push i k =>
      have ho : s.c.owner = some t := by
        have := (Bool.or_eq_false_iff.1 (step_race hF hr h hc2)).2
        simp only [decide_eq_false_iff_not, ne_eq, Decidable.not_not] at this
        exact this
      refine key _ _ rfl hc1 hc2 rfl rfl rfl rfl rfl kobj ?_ (fun _ _ hm => by simp [writes] at hm) (fun _ _ => ho) ?_
      · rw [if_pos ho]; simp only [writes, view, apply, CState.touch, owner_stack ho]
      · simp only [CState.touch, hrace]; rfl
    | find i k =>
      have ho : s.c.owner = some t := by
        have := (Bool.or_eq_false_iff.1 (step_race hF hr h hc2)).2
        simp only [decide_eq_false_iff_not, ne_eq, Decidable.not_not] at this
        exact this
      have hi := hown i rfl
      refine key _ _ rfl hc1 hc2 ?_ rfl rfl rfl rfl kobj kstk (fun _ _ hm => by cases hm) (fun _ hm => by cases hm) ?_
      · have := find_same hb t i hi (owner_stack ho).symm
        simp only [CState.goto, CState.touch]
        simp only [findMatch] at this ⊢
        rw [this]; rfl
      · simp only [CState.touch, CState.goto, hrace]; rfl
    | scan i k =>
      have ho : s.c.owner = some t := by
        have := (Bool.or_eq_false_iff.1 (step_race hF hr h hc2)).2
        simp only [decide_eq_false_iff_not, ne_eq, Decidable.not_not] at this
        exact this
      have hi := hown i rfl
      have hsc : scanW ((sees s t).touch t).sh i ((sees s t).touch t).sh.stack =
          scanW ((settled r s).touch t).sh i ((settled r s).touch t).sh.stack := by
        have e1 : ((sees s t).touch t).sh.stack = ((settled r s).touch t).sh.stack := (owner_stack (r := r) ho).symm
        rw [e1, scanW_congr (s := ((sees s t).touch t).sh) (s' := (sees s t).sh) rfl, scanW_same hb t i hi]
        exact scanW_congr (s := (settled r s).sh) (s' := ((settled r s).touch t).sh) rfl _ _
      refine key _ _ rfl hc1 hc2 ?_ rfl rfl rfl rfl kobj ?_ (fun _ _ hm => by simp [writes] at hm) (fun _ _ => ho) ?_
      · simp only [CState.goto]
        rw [hsc]; rfl
      · rw [if_pos ho, ← hsc]
        simp only [writes, view, apply]
        rw [scanW_congr (s := ((sees s t).touch t).sh) (s' := (sees s t).sh) rfl]; rfl
      · simp only [CState.touch, hrace]; rfl
    | lock k =>
      have hgl : (settled r s).sh.glob = (sees s t).sh.glob := hfr.1.symm
      simp only at hc1 hc2
      split at hc1
      · rw [hc1] at e; cases e
      · rename_i hg
        rw [hgl, if_neg hg] at hc2
        refine keyF _ _ rfl hc1 fun hbt => ⟨hc2, rfl, rfl, hfr.2.1, rfl, hrace, by simp [sees, hbt, view], by simp [sees, hbt, view],
          fun _ => rfl, rfl, Or.inr (Or.inl ⟨?_, rfl⟩)⟩
        have := hI.base.glob
        rw [hgl] at this
        have hn : (settled r s).owner.isSome = false := by rw [← this]; simpa using hg
        have hn2 : (settled r s).owner = none := by simpa using hn
        exact hn2
    | unlock k =>
      simp only at hc1 hc2
      have ho : s.c.owner = some t := by
        simp only [exec] at hex
        split at hex
        · rename_i hg; exact of_decide_eq_true hg
        · cases hex
      exact keyF _ _ rfl hc1 fun hbt => ⟨hc2, rfl, rfl, hfr.2.1, rfl, hrace, by simp [sees, hbt, view], by simp [sees, hbt, view],
          fun _ => rfl, rfl, Or.inr (Or.inr ⟨ho, rfl⟩)⟩
    | grant q w k =>
      simp only at hc1 hc2
      have hh : (settled r s).sh.held = (sees s t).sh.held := hfr.2.1.symm
      split at hc1
      · rename_i ho
        rw [if_pos ho] at hc2
        split at hc1
        · rw [hc1] at e; cases e
        · rename_i hbz
          rw [hh, if_neg hbz] at hc2
          exact keyF _ _ rfl hc1 fun hbt => ⟨hc2, rfl, hfr.1, rfl, rfl, hrace, by simp [sees, hbt, view],
            by simp [sees, hbt, view], fun _ => rfl, rfl, Or.inl rfl⟩
      · rename_i ho
        rw [if_neg ho] at hc2
        exact keyF _ _ rfl hc1 fun hbt => ⟨hc2, rfl, hfr.1, hfr.2.1, rfl, hrace, by simp [sees, hbt, view, CState.goto],
            by simp [sees, hbt, view, CState.goto], fun _ => rfl, rfl, Or.inl rfl⟩
    | free q k =>
      simp only at hc1 hc2
      have hh : (settled r s).sh.held = (sees s t).sh.held := hfr.2.1.symm
      simp only [segUnlock] at hc1 hc2
      rw [hh] at hc2
      split at hc1
      · rename_i ho
        rw [if_pos ho] at hc2
        exact keyF _ _ rfl hc1 fun hbt => ⟨hc2, rfl, hfr.1, rfl, rfl, hrace, by simp [sees, hbt, view],
            by simp [sees, hbt, view], fun _ => rfl, rfl, Or.inl rfl⟩
      · rename_i ho
        rw [if_neg ho] at hc2
        exact keyF _ _ rfl hc1 fun hbt => ⟨hc2, rfl, hfr.1, hfr.2.1, rfl, hrace, by simp [sees, hbt, view],
            by simp [sees, hbt, view], fun _ => rfl, rfl, Or.inl rfl⟩

theorem flush_settled {r : Nat → Rng} {s s' : TState} {t : Nat} (hb : BInv r s) (e : TsoC.flush s t = some s') :
    settled r s' = settled r s ∧ BInv r s' := by
  unfold TsoC.flush at e
  cases hbt : s.buf t with
  | nil => rw [hbt] at e; cases e
  | cons w b =>
    rw [hbt] at e
    simp only [Option.some.injEq] at e
    subst e
    have hw : w ∈ s.buf t := by rw [hbt]; exact List.mem_cons_self ..
    have hsub : ∀ x ∈ b, x ∈ s.buf t := fun x hx => by rw [hbt]; exact List.mem_cons_of_mem _ hx
    constructor
    · refine cstate_ext (fun i => ?_) ?_ ?_ ?_ ?_ rfl rfl
      · simp only [settled, sees]
        by_cases hi : (r i).tid = t
        · simp only [hi, if_true, hbt, view]
        · simp only [hi, if_false]
          refine view_obj_congr _ _ _ _ ?_
          cases w with
          | stk l => rfl
          | obj j o =>
            have hj := (hb.own t j o hw).1
            have : i ≠ j := fun e => hi (e ▸ hj)
            simp [apply, this]
      · simp only [settled, sees]
        cases w with
        | stk l =>
          have ho := hb.stk t l hw
          simp only [ho, if_true, hbt, view]
        | obj j o =>
          cases s.c.owner with
          | none => rfl
          | some u =>
            simp only
            by_cases hu : u = t
            · subst hu; simp only [if_true, hbt, view]
            · simp only [hu, if_false]; exact view_stk_congr _ _ _ rfl
      all_goals (cases w <;> rfl)
    · refine ⟨fun u i o hm => ?_, fun u l hm => ?_, fun i => ?_⟩
      · simp only at hm
        split at hm
        · rename_i hu; subst hu; exact hb.own _ i o (hsub _ hm)
        · exact hb.own u i o hm
      · simp only at hm ⊢
        split at hm
        · rename_i hu; subst hu; exact hb.stk _ l (hsub _ hm)
        · exact hb.stk u l hm
      · cases w with
        | stk l => exact hb.tid i
        | obj j o =>
          simp only [apply]
          split
          · rename_i hj; subst hj
            obtain ⟨h1, h2⟩ := hb.own t i o hw
            rw [h1, h2]
          · exact hb.tid i

theorem treach_settled {F : Rng → Prop} (hF : Sep F) {r : Nat → Rng} (hr : ∀ i, F (r i)) {s : TState} {g : Ghost}
    (h : TReach (okC F) r s g) : Reach (okC F) r (settled r s) g ∧ BInv r s := by
  induction h with
  | init => exact ⟨.init, ⟨fun _ _ _ hm => (by simp [TsoC.init] at hm), fun _ _ hm => (by simp [TsoC.init] at hm), fun _ => rfl⟩⟩
  | @call s g h t os op ht hok s' e ih =>
    unfold TsoC.call Conc.call at e
    cases hrun : s.c.run t with
    | some f => rw [hrun] at e; cases e
    | none =>
      rw [hrun] at e
      simp only [Option.some.injEq] at e
      subst e
      refine ⟨.call ih.1 t os op ht hok _ ?_, ih.2.own, ih.2.stk, ih.2.tid⟩
      have : (settled r s).run t = none := hrun
      simp only [Conc.call, this]
      rfl
  | @step s g h t s' e ih =>
    obtain ⟨h1, h2⟩ := step_settled hF hr ih.1 ih.2 e
    exact ⟨.step ih.1 t _ h1, h2⟩
  | flush h t s' e ih =>
    obtain ⟨h1, h2⟩ := flush_settled ih.2 e
    rw [h1]; exact ⟨ih.1, h2⟩

end Fullock.Props.RcsvTso

namespace Fullock.Props
open Fullock.Rcsv Fullock.Rcsv.Conc Fullock.Rcsv.TsoC Fullock.Spec.Rcsv Fullock.Spec.RcsvTso Fullock.Props.Rcsv
  Fullock.Props.RcsvConc Fullock.Props.RcsvTso

/-! ### C92 -/

/-- Whatever happens with store buffers happens with sequentially consistent memory: there is a run in which all threads are at
the same places of the same calls, with the same results and the same locks in the segment; each thread sees its own objects as
they are there, and the holder of the lock of the table sees the table as it is there. -/
theorem C92_sc {F : Rng → Prop} (hF : Sep F) {r : Nat → Rng} (hr : ∀ i, F (r i)) {s : TState} {g : Ghost}
    (h : TReach (okC F) r s g) : ∃ a, Reach (okC F) r a g ∧ a.run = s.c.run ∧ a.owner = s.c.owner ∧ a.sh.held = s.c.sh.held ∧
      a.sh.glob = s.c.sh.glob ∧ a.sh.race = s.c.sh.race ∧ (∀ i, a.sh.obj i = (view s.c.sh (s.buf (r i).tid)).obj i) ∧
      (∀ t, s.c.owner = some t → a.sh.stack = (view s.c.sh (s.buf t)).stack) ∧
      (s.c.owner = none → a.sh.stack = s.c.sh.stack) := by
  refine ⟨settled r s, (treach_settled hF hr h).1, rfl, rfl, rfl, rfl, rfl, fun _ => rfl, fun t ht => ?_, fun ho => ?_⟩
  · simp only [settled, ht, sees]
  · simp only [settled, ho]

/-- Writes reach memory without being overtaken: once nothing is under way memory is what it is there. -/
theorem C92_drained {F : Rng → Prop} (hF : Sep F) {r : Nat → Rng} (hr : ∀ i, F (r i)) {s : TState} {g : Ghost}
    (h : TReach (okC F) r s g) (hb : ∀ t, s.buf t = []) : Reach (okC F) r s.c g := by
  have := (treach_settled hF hr h).1
  have he : settled r s = s.c := by
    refine cstate_ext (fun i => ?_) ?_ rfl rfl rfl rfl rfl
    · simp only [settled, sees, hb, view]
    · simp only [settled, sees, hb, view]; cases s.c.owner <;> rfl
  rwa [he] at this

theorem drained_settled {r : Nat → Rng} {s : TState} (hb : ∀ t, s.buf t = []) : settled r s = s.c := by
  refine cstate_ext (fun i => ?_) ?_ rfl rfl rfl rfl rfl
  · simp only [settled, sees, hb, view]
  · simp only [settled, sees, hb, view]; cases s.c.owner <;> rfl

/-- A step with nothing under way, whose write, if any, reaches memory at once. -/
theorem step_now {ok : State → List Bool → Op → Prop} {r : Nat → Rng} {s : TState} {g : Ghost} (h : TReach ok r s g)
    (hb : ∀ t, s.buf t = []) {t : Nat} {c' : CState} (e : Conc.step s.c t = some c') :
    ∃ s', TReach ok r s' (g.learn s.c t) ∧ s'.c = c' ∧ ∀ t, s'.buf t = [] := by
  have hsee : sees s t = s.c := by simp only [sees, hb, view]
  cases hrun : s.c.run t with
  | none => simp [Conc.step, hrun] at e
  | some f =>
    obtain ⟨p, os, op⟩ := f
    cases hf : fence p with
    | true =>
      refine ⟨{ s with c := c' }, .step h t _ ?_, rfl, hb⟩
      simp only [TsoC.step, hrun, hsee, e, hf, if_true, hb]
    | false =>
      let s1 : TState := { c := { c' with sh := { s.c.sh with race := c'.sh.race } },
                           buf := fun u => if u = t then s.buf t ++ writes (sees s t).sh p else s.buf u }
      have h1 : TReach ok r s1 (g.learn s.c t) := by
        refine .step h t _ ?_
        simp only [TsoC.step, hrun, hsee, e, hf, Bool.false_eq_true, if_false]
        simp only [s1, hsee]
      have hw : writes s.c.sh p = [] ∨ ∃ w, writes s.c.sh p = [w] := by
        cases p <;> first | exact Or.inl rfl | exact Or.inr ⟨_, rfl⟩
      rcases hw with hw | ⟨w, hw⟩
      · refine ⟨s1, h1, ?_, fun u => ?_⟩
        · simp only [Conc.step, hrun] at e
          cases p <;> simp only [fence, reduceCtorEq, Bool.true_eq_false] at hf <;> simp only [writes, reduceCtorEq] at hw
          all_goals (simp only [Option.some.injEq] at e; subst e; rfl)
        · simp only [s1, hsee, hw, hb]; simp
      · refine ⟨{ c := { s1.c with sh := apply s1.c.sh w }, buf := fun u => if u = t then [] else s1.buf u },
          .flush h1 t _ ?_, ?_, fun u => ?_⟩
        · simp [TsoC.flush, s1, hsee, hw, hb]
        · simp only [Conc.step, hrun] at e
          cases p <;> simp only [fence, reduceCtorEq, Bool.true_eq_false] at hf <;>
            simp only [writes, List.cons.injEq, and_true, reduceCtorEq] at hw
          all_goals (subst hw; simp only [Option.some.injEq] at e; subst e)
          all_goals first
            | rfl
            | (refine cstate_ext (fun j => ?_) rfl rfl rfl rfl rfl rfl
               simp only [s1, apply, State.mod]; split <;> [(rename_i e; subst e; rfl); rfl])
            | (refine cstate_ext (fun j => rfl) ?_ rfl rfl rfl rfl rfl
               exact congrArg (fun z => z.2.1) (scanW_congr (s := s.c.sh) (s' := (s.c.touch t).sh) rfl _ _))
        · by_cases hu : u = t <;> simp [hu, s1, hb]

/-- Whatever happens with sequentially consistent memory can happen with store buffers. -/
theorem C92_all {ok : State → List Bool → Op → Prop} {r : Nat → Rng} {a : CState} {g : Ghost}
    (h : Reach ok r a g) : ∃ s, TReach ok r s g ∧ s.c = a ∧ ∀ t, s.buf t = [] := by
  induction h with
  | init => exact ⟨TsoC.init r, .init, rfl, fun _ => rfl⟩
  | @call a g h t os op ht hok a' e ih =>
    obtain ⟨s, hs, rfl, hb⟩ := ih
    have hst := drained_settled (r := r) hb
    have := TReach.call hs t os op ht (by rw [hst]; exact hok) { s with c := a' } (by simp only [TsoC.call, e])
    rw [hst] at this
    exact ⟨_, this, rfl, hb⟩
  | @step a g h t a' e ih =>
    obtain ⟨s, hs, rfl, hb⟩ := ih
    exact step_now hs hb e

/-- C70 with store buffers: threads that were told that they have locks on ranges in common are readers, unless they are in a call
on the range. -/
theorem C92_exclusion {F : Rng → Prop} (hF : Sep F) {r : Nat → Rng} (hr : ∀ i, F (r i)) {s : TState} {g : Ghost}
    (h : TReach (okC F) r s g) (i j : Nat) (ht : (r i).tid ≠ (r j).tid) (hi : g.know i = .excl) (hj : (g.know j).must = true)
    (ui : ((view s.c.sh (s.buf (r i).tid)).obj i).rng ∉ g.use (r i).tid)
    (uj : ((view s.c.sh (s.buf (r j).tid)).obj j).rng ∉ g.use (r j).tid) :
    clash ((view s.c.sh (s.buf (r i).tid)).obj i).rng ((view s.c.sh (s.buf (r j).tid)).obj j).rng = false :=
  C70_exclusion_partial hF hr (treach_settled hF hr h).1 i j ht hi hj ui uj

/-- Whether a thread can go on depends on its place, the lock of the table and the locks in the segment. -/
theorem step_none_congr {a b : CState} {t : Nat} (h1 : a.run t = b.run t) (h2 : a.sh.glob = b.sh.glob)
    (h3 : a.sh.held = b.sh.held) (h : Conc.step a t = none) : Conc.step b t = none := by
  unfold Conc.step at h ⊢
  rw [← h1]
  cases hrun : a.run t with
  | none => rfl
  | some f =>
    obtain ⟨p, os, op⟩ := f
    rw [hrun] at h
    cases p with
    | lock k =>
      simp only at h ⊢
      rw [← h2]
      split at h
      · rename_i hg; rw [if_pos hg]
      · cases h
    | grant q w k =>
      simp only at h ⊢
      rw [← h3]
      split at h
      · rename_i ho
        rw [if_pos ho]
        split at h
        · rename_i hg; rw [if_pos hg]
        · cases h
      · cases h
    | _ => cases h

theorem step_none {r : Nat → Rng} {s : TState} {t : Nat} (hs : TsoC.step s t = none) (hb : s.buf t = []) :
    Conc.step (settled r s) t = none := by
  have hsee : sees s t = s.c := by simp only [sees, hb, view]
  refine step_none_congr (a := s.c) rfl rfl rfl ?_
  unfold TsoC.step at hs
  rw [hsee, hb] at hs
  cases hrun : s.c.run t with
  | none => simp [Conc.step, hrun]
  | some f =>
    rw [hrun] at hs
    cases hc : Conc.step s.c t with
    | none => rfl
    | some c => rw [hc] at hs; simp only at hs; split at hs <;> cases hs

theorem step_or_flush {r : Nat → Rng} {s : TState} {t : Nat} (h : (Conc.step (settled r s) t).isSome = true) :
    (TsoC.step s t).isSome = true ∨ (TsoC.flush s t).isSome = true := by
  cases hs : TsoC.step s t with
  | some x => exact Or.inl rfl
  | none =>
    right
    cases hb : s.buf t with
    | cons w b => simp [TsoC.flush, hb]
    | nil => rw [step_none hs hb] at h; cases h

/-- A thread that cannot go on has writes under way, which can reach memory; or waits for the lock of the table, whose holder can go
on or has writes under way; or, without holding the lock of the table, for a lock of another thread in its way. -/
theorem C92_progress {F : Rng → Prop} (hF : Sep F) {r : Nat → Rng} (hr : ∀ i, F (r i)) {s : TState} {g : Ghost}
    (h : TReach (okC F) r s g) (t : Nat) (f : Frame) (hf : s.c.run t = some f) (hs : TsoC.step s t = none) :
    (TsoC.flush s t).isSome = true ∨
    (∃ u, u ≠ t ∧ s.c.owner = some u ∧ ((TsoC.step s u).isSome = true ∨ (TsoC.flush s u).isSome = true)) ∨
    (s.c.owner ≠ some t ∧ ∃ q w k, f.prog = .grant q w k ∧
      ∃ x ∈ s.c.sh.held, x.1.tid ≠ t ∧ clash x.1 q = true ∧ (w = true ∨ x.2 = .write)) := by
  cases hb : s.buf t with
  | cons w b => left; simp [TsoC.flush, hb]
  | nil =>
    right
    rcases C70_progress_partial hF hr (treach_settled hF hr h).1 t f hf (step_none hs hb) with ⟨u, h1, h2, h3⟩ | h'
    · exact Or.inl ⟨u, h1, h2, step_or_flush h3⟩
    · exact Or.inr h'

/-! ### Runs -/

/-- A call with segment calls that succeed, some steps, or a write that reaches memory. -/
inductive RtAct where
  | call (t : Nat) (op : Op)
  | steps (t n : Nat)
  | flush (t n : Nat)

def rtSteps (t : Nat) : Nat → TState × Ghost → Option (TState × Ghost)
  | 0, x => some x
  | n + 1, x =>
    match TsoC.step x.1 t with
    | none => none
    | some s' => rtSteps t n (s', x.2.learn x.1.c t)

def rtFlush (t : Nat) : Nat → TState × Ghost → Option (TState × Ghost)
  | 0, x => some x
  | n + 1, x =>
    match TsoC.flush x.1 t with
    | none => none
    | some s' => rtFlush t n (s', x.2)

def rtAct (r : Nat → Rng) (x : TState × Ghost) : RtAct → Option (TState × Ghost)
  | .call t op =>
    if (r (opObj op)).tid = t ∧ isLockAt op = false ∧
        (isUnlock op = true ∨ (settled r x.1).sh.stack.elem (opObj op) = false) then
      match TsoC.call x.1 t [] op with
      | none => none
      | some s' => some (s', { x.2 with use := fun u => if u = t then ranges (settled r x.1).sh op else x.2.use u })
    else none
  | .steps t n => rtSteps t n x
  | .flush t n => rtFlush t n x

def rtGo (r : Nat → Rng) : List RtAct → TState × Ghost → Option (TState × Ghost)
  | [], x => some x
  | a :: l, x =>
    match rtAct r x a with
    | none => none
    | some y => rtGo r l y

theorem rtSteps_reach {ok : State → List Bool → Op → Prop} {r : Nat → Rng} (t : Nat) : ∀ (n : Nat) (x y : TState × Ghost),
    TReach ok r x.1 x.2 → rtSteps t n x = some y → TReach ok r y.1 y.2
  | 0, x, y, h, e => by simp only [rtSteps, Option.some.injEq] at e; exact e ▸ h
  | n + 1, x, y, h, e => by
    simp only [rtSteps] at e
    cases hs : TsoC.step x.1 t with
    | none => rw [hs] at e; cases e
    | some s' => rw [hs] at e; exact rtSteps_reach t n (s', _) y (.step h t s' hs) e

theorem rtFlush_reach {ok : State → List Bool → Op → Prop} {r : Nat → Rng} (t : Nat) : ∀ (n : Nat) (x y : TState × Ghost),
    TReach ok r x.1 x.2 → rtFlush t n x = some y → TReach ok r y.1 y.2
  | 0, x, y, h, e => by simp only [rtFlush, Option.some.injEq] at e; exact e ▸ h
  | n + 1, x, y, h, e => by
    simp only [rtFlush] at e
    cases hs : TsoC.flush x.1 t with
    | none => rw [hs] at e; cases e
    | some s' => rw [hs] at e; exact rtFlush_reach t n (s', _) y (.flush h t s' hs) e

theorem rtGo_reach {F : Rng → Prop} {r : Nat → Rng} : ∀ (l : List RtAct) (x y : TState × Ghost),
    TReach (okC F) r x.1 x.2 → rtGo r l x = some y → TReach (okC F) r y.1 y.2
  | [], x, y, h, e => by simp only [rtGo, Option.some.injEq] at e; exact e ▸ h
  | a :: l, x, y, h, e => by
    simp only [rtGo] at e
    cases hs : rtAct r x a with
    | none => rw [hs] at e; cases e
    | some z =>
      rw [hs] at e
      refine rtGo_reach l z y ?_ e
      cases a with
      | steps t n => exact rtSteps_reach t n x z h hs
      | flush t n => exact rtFlush_reach t n x z h hs
      | call t op =>
        simp only [rtAct] at hs
        split at hs
        · rename_i hc
          obtain ⟨h1, h2, h3⟩ := hc
          cases hcl : TsoC.call x.1 t [] op with
          | none => rw [hcl] at hs; cases hs
          | some s' =>
            rw [hcl] at hs
            simp only [Option.some.injEq] at hs
            subst hs
            refine .call h t [] op h1 ⟨⟨?_, Or.inl (by simp)⟩, fun hcv => ?_⟩ s' hcl
            · cases op <;> simp [isLockAt, Within] at h2 ⊢
            · simp only [List.elem_eq_mem, decide_eq_false_iff_not] at h3
              rcases h3 with h3 | h3
              · rcases hcv.2.2 with ⟨i, rfl, _⟩ | ⟨i, rfl, _⟩ <;> simp [isUnlock] at h3
              · exact h3 hcv.1
        · cases hs

/-- A test of the state a run leads to. -/
def rtTest (l : List RtAct) (p : TState → Ghost → Bool) : Bool :=
  match rtGo rcR l (TsoC.init rcR, ⟨fun _ => .free, fun _ => []⟩) with
  | none => false
  | some x => p x.1 x.2

theorem rtTest_reach {l : List RtAct} {p : TState → Ghost → Bool} (h : rtTest l p = true) :
    ∃ s g, TReach (okC rcG) rcR s g ∧ p s g = true := by
  unfold rtTest at h
  cases hg : rtGo rcR l (TsoC.init rcR, ⟨fun _ => .free, fun _ => []⟩) with
  | none => rw [hg] at h; cases h
  | some x => rw [hg] at h; exact ⟨x.1, x.2, rtGo_reach l _ x .init hg, h⟩

/-- Thread 1 has been told that it has a lock; thread 2 has the lock of the table, its entry in the table is under way; thread 1, in
its next call, waits for the lock of the table. -/
theorem C92_lag : rtTest [.call 1 (.readLock 0), .steps 1 6, .flush 1 2, .steps 1 5, .call 2 (.writeLock 3), .steps 2 6,
    .call 1 (.unlock 0), .steps 1 1, .flush 1 1] (fun s g => (g.know 0).must && s.c.owner == some 2 &&
      s.c.sh.stack == [0] && (view s.c.sh (s.buf 2)).stack == [0, 3] && (s.buf 2).length == 3 && (TsoC.step s 1).isNone &&
      (TsoC.step s 2).isNone && (TsoC.flush s 2).isSome) = true := by decide +kernel

/-- Thread 1 has been told that it has a lock, memory does not say so yet. -/
theorem C92_memory_late : rtTest [.call 1 (.readLock 0), .steps 1 6, .flush 1 2, .steps 1 5] (fun s g => (g.know 0).must &&
    !(s.c.sh.obj 0).locked && ((view s.c.sh (s.buf 1)).obj 0).locked && (s.c.run 1).isNone) = true := by decide +kernel

/-- Thread 1 has an exclusive lock, thread 2 a lock of another range, its request for the range of thread 1 waits. -/
theorem C92_case : rtTest [.call 1 (.writeLock 1), .steps 1 6, .flush 1 3, .steps 1 5, .call 2 (.readLock 3), .steps 2 6, .flush 2 2,
    .steps 2 5, .call 2 (.readLock 2), .flush 2 1, .steps 2 6, .flush 2 2, .steps 2 2] (fun s g =>
      decide (g.know 1 = .excl) && (g.know 3).must && (s.c.run 2).isSome && (TsoC.step s 2).isNone &&
      !(g.use 1).elem ((view s.c.sh (s.buf 1)).obj 1).rng && !(g.use 2).elem ((view s.c.sh (s.buf 2)).obj 3).rng) = true := by
  decide +kernel

/-- The hypotheses of the theorems above are met. -/
example : ∃ s g, TReach (okC rcG) rcR s g ∧ g.know 1 = .excl ∧ (g.know 3).must = true ∧ s.c.run 2 ≠ none ∧ TsoC.step s 2 = none ∧
    ((view s.c.sh (s.buf (rcR 1).tid)).obj 1).rng ∉ g.use (rcR 1).tid ∧
    ((view s.c.sh (s.buf (rcR 3).tid)).obj 3).rng ∉ g.use (rcR 3).tid := by
  obtain ⟨s, g, hR, hp⟩ := rtTest_reach C92_case
  simp only [Bool.and_eq_true, decide_eq_true_eq, Bool.not_eq_true', List.elem_eq_mem, decide_eq_false_iff_not,
    Option.isNone_iff_eq_none, Option.isSome_iff_ne_none] at hp
  exact ⟨s, g, hR, hp.1.1.1.1.1, hp.1.1.1.1.2, hp.1.1.1.2, hp.1.1.2, hp.1.2, hp.2⟩

end Fullock.Props
