import Verif.Spec.RcsvFork
/-
C91: recursive locks and fork.
-/
namespace Fullock.Props.RcsvFork
open Fullock.Rcsv Fullock.Rcsv.Conc Fullock.Rcsv.Fork Fullock.Spec.Rcsv Fullock.Spec.RcsvFork Fullock.Props.Rcsv
  Fullock.Props.RcsvConc

/-- No process has a thread of this number. -/
def Fresh (s : Sys) (u : Nat) : Prop := ∀ q ∈ s.live, s.alive q u = false

/-- Two locks that are both granted. -/
def Agree (x y : Rng × Ty) : Prop := clash x.1 y.1 = true → x.2 ≠ .write ∧ y.2 ≠ .write

theorem clash_comm (a b : Rng) : clash a b = clash b a := by
  simp only [clash]
  rw [Bool.eq_iff_iff]
  simp only [Bool.and_eq_true, Bool.or_eq_true, beq_iff_eq, decide_eq_true_eq]
  constructor <;> rintro ⟨h1, h2⟩ <;> refine ⟨h1.symm, h2.imp Eq.symm And.symm⟩

theorem Agree.symm {x y : Rng × Ty} (h : Agree x y) : Agree y x := by
  intro hc
  rw [clash_comm] at hc
  exact (h hc).symm

/-- The state of all processes. -/
structure FInv (F : Rng → Prop) (r : Nat → Rng) (s : Sys) (G : Nat → Ghost) : Prop where
  base : ∀ p ∈ s.live, Base r (s.proc p)
  thr : ∀ p ∈ s.live, ∀ u, s.alive p u = true ∨ Fresh s u → Thr F r (s.proc p) (G p) u
  free : ∀ u, Fresh s u → ∀ p ∈ s.live, ∀ i, (r i).tid = u → (G p).know i = .free
  dead : ∀ p u, s.alive p u = false → (s.proc p).run u = none
  live : ∀ p u, s.alive p u = true → p ∈ s.live
  cross : ∀ p ∈ s.live, ∀ q ∈ s.live, p ≠ q → ∀ x ∈ (s.proc p).sh.held, ∀ y ∈ (s.proc q).sh.held, Agree x y

theorem held_step {c c' : CState} {t : Nat} (e : Conc.step c t = some c') {x : Rng × Ty} (hx : x ∈ c'.sh.held) :
    x ∈ c.sh.held ∨ ∃ q w k os op, c.run t = some ⟨.grant q w k, os, op⟩ ∧ os.headD true = true ∧
      x = (q, if w then .write else .read) := by
  unfold Conc.step at e
  cases hrun : c.run t with
  | none => rw [hrun] at e; cases e
  | some f =>
    obtain ⟨p, os, op⟩ := f
    rw [hrun] at e
    cases p with
    | lock k => simp only at e; split at e <;> cases e; exact Or.inl hx
    | grant q w k =>
      simp only at e
      split at e
      · split at e
        · cases e
        · rename_i ho _
          cases e
          rcases List.mem_append.1 hx with hx | hx
          · exact Or.inl hx
          · exact Or.inr ⟨q, w, k, os, op, rfl, ho, by simpa using hx⟩
      · cases e; exact Or.inl hx
    | free q k =>
      cases e
      left
      simp only [segUnlock] at hx
      split at hx
      · exact List.mem_of_mem_eraseP hx
      · exact hx
    | _ => cases e; exact Or.inl hx

/-- A thread none of whose objects is locked: the child sees what the parent sees. -/
theorem child_thr {F : Rng → Prop} (hF : Sep F) {r : Nat → Rng} (hr : ∀ i, F (r i)) {c : CState} {g : Ghost} {u : Nat}
    (h : Thr F r c g u) (hrun : c.run u = none) (hk : ∀ i, (r i).tid = u → g.know i = .free) :
    Thr F r (child c) nothing u := by
  obtain ⟨hH, ho⟩ := h.idle hrun
  refine ⟨fun _ => ⟨?_, ho⟩, fun _ _ _ e => by cases e⟩
  have hfree : mine r u g.know = fun _ => .free := by
    funext i
    simp only [mine]
    split_ifs with hi
    · exact hk i hi
    · rfl
  have hz := C53_released_partial hF hr (hist_weak hH) (fun i => by rw [hfree])
  have hp : proj r u (child c) = proj r u c := by
    refine state_ext (fun i => rfl) rfl rfl ?_ rfl
    rw [hz]; rfl
  have hm : mine r u nothing.know = mine r u g.know := by rw [hfree]; funext i; simp [mine, nothing]
  rw [hp, hm]
  exact hH

theorem child_base {r : Nat → Rng} {c : CState} (h : Base r c) : Base r (child c) :=
  ⟨h.tid, h.glob, h.race, List.Pairwise.nil⟩

theorem run_of_call {c c' : CState} {t : Nat} {os : List Bool} {op : Op} (e : Conc.call c t os op = some c') :
    c'.sh = c.sh ∧ ∀ u, u ≠ t → c'.run u = c.run u := by
  unfold Conc.call at e
  cases h : c.run t with
  | none =>
    rw [h] at e
    cases e
    exact ⟨rfl, fun u hu => by simp [CState.goto, hu]⟩
  | some f => rw [h] at e; cases e

theorem run_of_step {c c' : CState} {t : Nat} (e : Conc.step c t = some c') (u : Nat) (hu : u ≠ t) : c'.run u = c.run u := by
  unfold Conc.step at e
  cases hrun : c.run t with
  | none => rw [hrun] at e; cases e
  | some f =>
    obtain ⟨p, os, op⟩ := f
    rw [hrun] at e
    cases p <;> simp only [CState.touch] at e <;> (repeat' split at e) <;> first | cases e | skip
    all_goals simp [CState.goto, hu]

theorem know_learn {r : Nat → Rng} {F : Rng → Prop} {c : CState} {g : Ghost} {t u i : Nat} (h : Thr F r c g t) (hu : u ≠ t)
    (hi : (r i).tid = u) : (g.learn c t).know i = g.know i := by
  unfold Ghost.learn
  cases hrun : c.run t with
  | none => rfl
  | some f =>
    obtain ⟨p, os, op⟩ := f
    cases p with
    | ret b =>
      have := (h.run _ _ _ hrun).1
      have hne : i ≠ opObj op := by rintro rfl; exact hu (hi.symm.trans this)
      simp [hne]
    | _ => rfl

theorem freach_inv {F : Rng → Prop} (hF : Sep F) {r : Nat → Rng} (hr : ∀ i, F (r i)) {m : Nat} {okF}
    (hokF : ∀ s G p t, okF s G p t → FreeFork r s G p t) {s : Sys} {G : Nat → Ghost}
    (h : FReach okF (okC F) r m s G) : FInv F r s G := by
  induction h with
  | init =>
    have hI := reach_inv hF hr (Reach.init (ok := okC F) (r := r))
    refine ⟨fun _ _ => hI.base, fun _ _ u _ => hI.thr u, fun _ _ _ _ _ _ => rfl, fun _ _ _ => rfl, ?_, ?_⟩
    · intro p u hp
      simp only [Fork.init, decide_eq_true_eq] at hp
      simp [Fork.init, hp.1]
    · intro p _ q _ _ x hx; simp [Fork.init, Conc.init, Rcsv.init] at hx
  | call h p t os op ht hok s' e ih =>
    rename_i s G
    simp only [Fork.step] at e
    split at e
    · rename_i hA
      obtain ⟨c', hc, rfl⟩ := Option.map_eq_some_iff.1 e
      obtain ⟨hsh, hrn⟩ := run_of_call hc
      have hp := ih.live p t hA
      obtain ⟨a, b⟩ := call_inv hF hr (A := fun u => s.alive p u = true ∨ Fresh s u) (ih.base p hp) (ih.thr p hp) t os op ht hok hc
      refine ⟨fun q hq => ?_, fun q hq u hu => ?_, fun u hu q hq i hi => ?_, fun q u hu => ?_, ih.live, ?_⟩
      · by_cases hqp : q = p
        · subst hqp; simpa [Sys.set] using a
        · simpa [Sys.set, hqp] using ih.base q hq
      · by_cases hqp : q = p
        · subst hqp; simpa [Sys.set, upd] using b u hu
        · simpa [Sys.set, upd, hqp] using ih.thr q hq u hu
      · by_cases hqp : q = p
        · subst hqp; simpa [Sys.set, upd] using ih.free u hu q hq i hi
        · simpa [Sys.set, upd, hqp] using ih.free u hu q hq i hi
      · by_cases hqp : q = p
        · subst hqp
          have hu' : s.alive q u = false := hu
          have : u ≠ t := by rintro rfl; rw [hA] at hu'; cases hu'
          simpa [Sys.set, hrn u this] using ih.dead q u hu
        · simpa [Sys.set, hqp] using ih.dead q u hu
      · have : ∀ q, ((s.set p c').proc q).sh = (s.proc q).sh := by
          intro q
          by_cases hqp : q = p
          · subst hqp; simpa [Sys.set] using hsh
          · simp [Sys.set, hqp]
        intro q hq o ho hne x hx y hy
        rw [this] at hx hy
        exact ih.cross q hq o ho hne x hx y hy
    · cases e
  | run h p t s' e ih =>
    rename_i s G
    simp only [Fork.step] at e
    split at e
    · rename_i hA
      simp only [Bool.and_eq_true, Bool.not_eq_true'] at hA
      obtain ⟨hA, hW⟩ := hA
      obtain ⟨c', hc, rfl⟩ := Option.map_eq_some_iff.1 e
      have hp := ih.live p t hA
      obtain ⟨a, b⟩ := step_inv hF hr (A := fun u => s.alive p u = true ∨ Fresh s u) (ih.base p hp) (ih.thr p hp) t (Or.inl hA) hc
      have hnew : ∀ q ∈ s.live, q ≠ p → ∀ x ∈ c'.sh.held, ∀ y ∈ (s.proc q).sh.held, Agree x y := by
        intro q hq hqp x hx y hy
        rcases held_step hc hx with hx | ⟨rg, w, k, os, op, hrun, ho, rfl⟩
        · exact ih.cross p hp q hq (Ne.symm hqp) x hx y hy
        · intro hcl
          simp only [waits, hrun, ho, Bool.true_and, away, List.any_eq_false, Bool.and_eq_true, bne_iff_ne, ne_eq, not_and,
            Bool.not_eq_true] at hW
          have := hW q hq hqp
          simp only [busy, List.any_eq_false, Bool.and_eq_true, Bool.or_eq_true, beq_iff_eq, not_and, not_or] at this
          rw [clash_comm] at hcl
          obtain ⟨h1, h2⟩ := this y hy hcl
          refine ⟨?_, h2⟩
          cases w with
          | true => exact absurd rfl h1
          | false => simp
      refine ⟨fun q hq => ?_, fun q hq u hu => ?_, fun u hu q hq i hi => ?_, fun q u hu => ?_, ih.live, ?_⟩
      · by_cases hqp : q = p
        · subst hqp; simpa [Sys.set] using a
        · simpa [Sys.set, hqp] using ih.base q hq
      · by_cases hqp : q = p
        · subst hqp; simpa [Sys.set, upd] using b u hu
        · simpa [Sys.set, upd, hqp] using ih.thr q hq u hu
      · by_cases hqp : q = p
        · subst hqp
          have : u ≠ t := by
            rintro rfl
            have h1 : s.alive q u = false := hu q hp
            rw [hA] at h1; cases h1
          simp only [upd, if_true]
          rw [know_learn (ih.thr q hp t (Or.inl hA)) this hi]
          exact ih.free u hu q hq i hi
        · simpa [Sys.set, upd, hqp] using ih.free u hu q hq i hi
      · by_cases hqp : q = p
        · subst hqp
          have hu' : s.alive q u = false := hu
          have : u ≠ t := by rintro rfl; rw [hA] at hu'; cases hu'
          simpa [Sys.set, run_of_step hc u this] using ih.dead q u hu
        · simpa [Sys.set, hqp] using ih.dead q u hu
      · intro q hq o ho hne x hx y hy
        by_cases hqp : q = p
        · subst hqp
          have hop : o ≠ q := Ne.symm hne
          simp only [Sys.set, if_true] at hx
          simp only [Sys.set, hop, if_false] at hy
          exact hnew o ho hop x hx y hy
        · by_cases hop : o = p
          · subst hop
            simp only [Sys.set, if_true] at hy
            simp only [Sys.set, hqp, if_false] at hx
            exact (hnew q hq hqp y hy x hx).symm
          · simp only [Sys.set, hop, hqp, if_false] at hx hy
            exact ih.cross q hq o ho hne x hx y hy
    · cases e
  | spawn h p u s' e ih =>
    rename_i s G
    simp only [Fork.step] at e
    split at e
    · rename_i hA
      cases e
      simp only [Bool.and_eq_true, List.contains_iff_mem, List.all_eq_true, Bool.not_eq_true'] at hA
      obtain ⟨hp, hu⟩ := hA
      refine ⟨ih.base, fun q hq v hv => ih.thr q hq v ?_, fun v hv => ih.free v fun q hq => ?_, fun q v hv => ih.dead q v ?_,
        fun q v hv => ?_, ih.cross⟩
      · rcases hv with hv | hv
        · simp only at hv
          split at hv
          · rename_i hc; rw [hc.2]; exact Or.inr hu
          · exact Or.inl hv
        · right
          intro o ho
          have := hv o ho
          simp only at this
          split at this
          · cases this
          · exact this
      · have := hv q hq
        simp only at this
        split at this
        · cases this
        · exact this
      · simp only at hv
        split at hv
        · cases hv
        · exact hv
      · simp only at hv
        split at hv
        · rename_i hc; rw [hc.1]; exact hp
        · exact ih.live q v hv
    · cases e
  | fork h p t q hf s' e ih =>
    rename_i s G
    simp only [Fork.step] at e
    split at e
    · rename_i hA
      cases e
      simp only [Bool.and_eq_true, Bool.not_eq_true', List.contains_eq_mem, decide_eq_false_iff_not, Option.isNone_iff_eq_none] at hA
      obtain ⟨⟨hA, hq⟩, hrun⟩ := hA
      have hp := ih.live p t hA
      have hfr : ∀ u, Fresh (Sys.mk (q :: s.live) (fun o => if o = q then child (s.proc p) else s.proc o)
          (fun o v => if o = q then decide (v = t) else s.alive o v)) u → Fresh s u := by
        intro u hu o ho
        have := hu o (List.mem_cons_of_mem _ ho)
        have hoq : o ≠ q := by rintro rfl; exact hq ho
        simpa [hoq] using this
      refine ⟨fun o ho => ?_, fun o ho u hu => ?_, fun u hu o ho i hi => ?_, fun o u hu => ?_, fun o u hu => ?_, ?_⟩
      · by_cases hoq : o = q
        · simp only [hoq, if_true]; exact child_base (ih.base p hp)
        · simp only [hoq, if_false]
          exact ih.base o ((List.mem_cons.1 ho).resolve_left hoq)
      · by_cases hoq : o = q
        · simp only [hoq, if_true, upd, decide_eq_true_eq] at hu ⊢
          rcases hu with rfl | hu
          · exact child_thr hF hr (ih.thr p hp u (Or.inl hA)) hrun (hokF _ _ _ _ hf)
          · have hu := hfr u hu
            exact child_thr hF hr (ih.thr p hp u (Or.inr hu)) (ih.dead p u (hu p hp)) (ih.free u hu p hp)
        · simp only [hoq, if_false, upd] at hu ⊢
          exact ih.thr o ((List.mem_cons.1 ho).resolve_left hoq) u (hu.imp id (hfr u))
      · by_cases hoq : o = q
        · simp only [hoq, if_true, upd]; rfl
        · simp only [hoq, if_false, upd]
          exact ih.free u (hfr u hu) o ((List.mem_cons.1 ho).resolve_left hoq) i hi
      · by_cases hoq : o = q
        · simp only [hoq, if_true]; rfl
        · simp only [hoq, if_false] at hu ⊢
          exact ih.dead o u hu
      · by_cases hoq : o = q
        · simp [hoq]
        · simp only [hoq, if_false] at hu
          exact List.mem_cons_of_mem _ (ih.live o u hu)
      · intro o ho v hv hne x hx y hy
        by_cases hoq : o = q
        · simp [hoq, child] at hx
        · by_cases hvq : v = q
          · simp [hvq, child] at hy
          · simp only [hoq, hvq, if_false] at hx hy
            exact ih.cross o ((List.mem_cons.1 ho).resolve_left hoq) v ((List.mem_cons.1 hv).resolve_left hvq) hne x hx y hy
    · cases e

/-- Processes with threads exist, and their locks do not conflict, whenever fork is called. -/
theorem freach_cross {okF ok} {r : Nat → Rng} {m : Nat} {s : Sys} {G : Nat → Ghost} (h : FReach okF ok r m s G) :
    (∀ p u, s.alive p u = true → p ∈ s.live) ∧
    ∀ p ∈ s.live, ∀ q ∈ s.live, p ≠ q → ∀ x ∈ (s.proc p).sh.held, ∀ y ∈ (s.proc q).sh.held, Agree x y := by
  induction h with
  | init =>
    refine ⟨fun p u hp => ?_, fun p _ q _ _ x hx => ?_⟩
    · simp only [Fork.init, decide_eq_true_eq] at hp
      simp [Fork.init, hp.1]
    · simp [Fork.init, Conc.init, Rcsv.init] at hx
  | call h p t os op ht hok s' e ih =>
    rename_i s G
    simp only [Fork.step] at e
    split at e
    · obtain ⟨c', hc, rfl⟩ := Option.map_eq_some_iff.1 e
      refine ⟨ih.1, ?_⟩
      have : ∀ q, ((s.set p c').proc q).sh = (s.proc q).sh := by
        intro q
        by_cases hqp : q = p
        · subst hqp; simpa [Sys.set] using (run_of_call hc).1
        · simp [Sys.set, hqp]
      intro q hq o ho hne x hx y hy
      rw [this] at hx hy
      exact ih.2 q hq o ho hne x hx y hy
    · cases e
  | run h p t s' e ih =>
    rename_i s G
    simp only [Fork.step] at e
    split at e
    · rename_i hA
      simp only [Bool.and_eq_true, Bool.not_eq_true'] at hA
      obtain ⟨hA, hW⟩ := hA
      obtain ⟨c', hc, rfl⟩ := Option.map_eq_some_iff.1 e
      have hp := ih.1 p t hA
      have hnew : ∀ q ∈ s.live, q ≠ p → ∀ x ∈ c'.sh.held, ∀ y ∈ (s.proc q).sh.held, Agree x y := by
        intro q hq hqp x hx y hy
        rcases held_step hc hx with hx | ⟨rg, w, k, os, op, hrun, ho, rfl⟩
        · exact ih.2 p hp q hq (Ne.symm hqp) x hx y hy
        · intro hcl
          simp only [waits, hrun, ho, Bool.true_and, away, List.any_eq_false, Bool.and_eq_true, bne_iff_ne, ne_eq, not_and,
            Bool.not_eq_true] at hW
          have := hW q hq hqp
          simp only [busy, List.any_eq_false, Bool.and_eq_true, Bool.or_eq_true, beq_iff_eq, not_and, not_or] at this
          rw [clash_comm] at hcl
          obtain ⟨h1, h2⟩ := this y hy hcl
          refine ⟨?_, h2⟩
          cases w with
          | true => exact absurd rfl h1
          | false => simp
      refine ⟨ih.1, ?_⟩
      intro q hq o ho hne x hx y hy
      by_cases hqp : q = p
      · subst hqp
        have hop : o ≠ q := Ne.symm hne
        simp only [Sys.set, if_true] at hx
        simp only [Sys.set, hop, if_false] at hy
        exact hnew o ho hop x hx y hy
      · by_cases hop : o = p
        · subst hop
          simp only [Sys.set, if_true] at hy
          simp only [Sys.set, hqp, if_false] at hx
          exact (hnew q hq hqp y hy x hx).symm
        · simp only [Sys.set, hop, hqp, if_false] at hx hy
          exact ih.2 q hq o ho hne x hx y hy
    · cases e
  | spawn h p u s' e ih =>
    simp only [Fork.step] at e
    split at e
    · rename_i hA
      cases e
      simp only [Bool.and_eq_true, List.contains_iff_mem] at hA
      refine ⟨fun q v hv => ?_, ih.2⟩
      simp only at hv
      split at hv
      · rename_i hc; rw [hc.1]; exact hA.1
      · exact ih.1 q v hv
    · cases e
  | fork h p t q hf s' e ih =>
    simp only [Fork.step] at e
    split at e
    · rename_i hA
      cases e
      refine ⟨fun o u hu => ?_, ?_⟩
      · by_cases hoq : o = q
        · simp [hoq]
        · simp only [hoq, if_false] at hu
          exact List.mem_cons_of_mem _ (ih.1 o u hu)
      · intro o ho v hv hne x hx y hy
        by_cases hoq : o = q
        · simp [hoq, child] at hx
        · by_cases hvq : v = q
          · simp [hvq, child] at hy
          · simp only [hoq, hvq, if_false] at hx hy
            exact ih.2 o ((List.mem_cons.1 ho).resolve_left hoq) v ((List.mem_cons.1 hv).resolve_left hvq) hne x hx y hy
    · cases e

theorem owner_of_step {c c' : CState} {t : Nat} (e : Conc.step c t = some c') {u : Nat} (hu : c'.owner = some u) :
    u = t ∨ c.owner = some u := by
  unfold Conc.step at e
  cases hrun : c.run t with
  | none => rw [hrun] at e; cases e
  | some f =>
    obtain ⟨p, os, op⟩ := f
    rw [hrun] at e
    cases p <;> simp only [CState.touch] at e <;> (repeat' split at e) <;> first | cases e | skip
    all_goals simp only [CState.goto, Option.some.injEq, reduceCtorEq] at hu
    all_goals first | exact Or.inr hu | exact Or.inl hu.symm

/-- The lock of the table is held by a thread that exists. -/
theorem freach_owner {F : Rng → Prop} {r : Nat → Rng} {m : Nat} {s : Sys} {G : Nat → Ghost}
    (hb : ∀ {s G}, FReach (QuietFork r) (okC F) r m s G → ∀ p ∈ s.live, Base r (s.proc p))
    (hl : ∀ {s G}, FReach (QuietFork r) (okC F) r m s G → ∀ p u, s.alive p u = true → p ∈ s.live)
    (h : FReach (QuietFork r) (okC F) r m s G) : ∀ p u, (s.proc p).owner = some u → s.alive p u = true := by
  induction h with
  | init => intro p u hu; cases hu
  | call h p t os op ht hok s' e ih =>
    rename_i s G
    simp only [Fork.step] at e
    split at e
    · obtain ⟨c', hc, rfl⟩ := Option.map_eq_some_iff.1 e
      intro q u hu
      refine ih q u ?_
      by_cases hqp : q = p
      · subst hqp
        simp only [Sys.set, if_true] at hu
        unfold Conc.call at hc
        split at hc
        · cases hc; exact hu
        · cases hc
      · simpa [Sys.set, hqp] using hu
    · cases e
  | run h p t s' e ih =>
    simp only [Fork.step] at e
    split at e
    · rename_i hA
      simp only [Bool.and_eq_true] at hA
      obtain ⟨c', hc, rfl⟩ := Option.map_eq_some_iff.1 e
      intro q u hu
      by_cases hqp : q = p
      · subst hqp
        simp only [Sys.set, if_true] at hu
        rcases owner_of_step hc hu with rfl | hu
        · exact hA.1
        · exact ih q u hu
      · refine ih q u ?_
        simpa [Sys.set, hqp] using hu
    · cases e
  | spawn h p u s' e ih =>
    simp only [Fork.step] at e
    split at e
    · cases e
      intro q v hv
      simp only
      split
      · rfl
      · exact ih q v hv
    · cases e
  | fork h p t q hf s' e ih =>
    rename_i s G
    simp only [Fork.step] at e
    split at e
    · rename_i hA
      cases e
      simp only [Bool.and_eq_true] at hA
      intro o u hu
      by_cases hoq : o = q
      · simp only [hoq, if_true, child] at hu
        have := (hb h p (hl h p t hA.1.1)).glob
        rw [hf.2, hu] at this
        cases this
      · simp only [hoq, if_false] at hu ⊢
        exact ih o u hu
    · cases e

/-- A locked object is backed by a lock of its process. -/
theorem thr_held {F : Rng → Prop} (hF : Sep F) {r : Nat → Rng} (hr : ∀ i, F (r i)) {c : CState} {g : Ghost} (hB : Base r c) (i : Nat)
    (hT : Thr F r c g (r i).tid) (hm : (g.know i).must = true) (hu : (c.sh.obj i).rng ∉ g.use (r i).tid) :
    ∃ ty, ((c.sh.obj i).rng, ty) ∈ c.sh.held ∧ (g.know i = .excl → ty = .write) := by
  have hmi : mine r (r i).tid g.know i = g.know i := by simp [mine]
  cases hrun : c.run (r i).tid with
  | none =>
    obtain ⟨hH, _⟩ := hT.idle hrun
    obtain ⟨ty, h1, h2, _⟩ := C53_held_partial hF hr (hist_weak hH) i (by rw [hmi]; exact hm)
    rw [hmi] at h2
    rw [proj_obj rfl] at h1
    exact ⟨ty, (List.mem_filter.1 h1).1, h2⟩
  | some f =>
    obtain ⟨p, os, op⟩ := f
    obtain ⟨_, s0, os0, b, s1, hH, _, _, _, hk, hg⟩ := hT.run p os op hrun
    obtain ⟨ty, h1, h2, _⟩ := C53_held_partial hF hr (hist_weak hH) i (by rw [hmi]; exact hm)
    rw [hmi] at h2
    have he : (c.sh.obj i).rng = (s0.obj i).rng := by
      rcases hg i rfl with c | c
      · exact c
      · exact absurd (by simpa [inR] using c.1) hu
    rw [← he] at h1
    exact ⟨ty, (hk ((c.sh.obj i).rng, ty) (by simpa [inR] using hu) (hB.tid i)).2 h1, h2⟩

/-- The child of a thread with locks of its own, or the parent, or anyone: steps without a condition. -/
inductive Later (s : Sys) : Sys → Prop
  | refl : Later s s
  | step {a b} (h : Later s a) (v : Ev) (e : Fork.step a v = some b) : Later s b

/-- A program that takes the lock of the table before it does anything but read objects or set their kind; where an object
reads as locked as in `L`, it returns before that only if `P`. -/
def Early (L : Nat → Bool) (P : Prop) : Prog → Prop
  | .ret _ => P
  | .lock _ => True
  | .look i k => ∀ o : Obj, o.locked = L i → Early L P (k o)
  | .upd _ g k => (∀ o, (g o).locked = o.locked) ∧ Early L P k
  | _ => False

theorem early_read (L : Nat → Bool) (P : Prop) (i : Nat) (k : Bool → Bool → Prog) (h : L i = true → Early L P (k true false)) :
    Early L P (rawReadLockP i false k) := by
  intro o ho
  beta_reduce
  split
  · rename_i hc; exact h (by rw [← ho]; exact hc.1)
  · trivial

theorem early_write (L : Nat → Bool) (P : Prop) (i : Nat) (k : Bool → Bool → Prog) (h : L i = true → Early L P (k true false)) :
    Early L P (rawWriteLockP i false k) := by
  intro o ho
  beta_reduce
  split
  · rename_i hc; exact h (by rw [← ho]; exact hc.1)
  · simp only
    split
    · rename_i hc
      have hk := h (by rw [← ho]; exact hc.1)
      unfold masterWritesP
      cases o.master with
      | none => trivial
      | some m =>
        intro q _
        beta_reduce
        generalize (q.ty == .write) = b
        cases b with
        | true => exact ⟨fun _ => rfl, hk⟩
        | false => trivial
    · trivial

/-- The calls that ask for a lock of an object. -/
def asks (i : Nat) : Op → Bool
  | .readLock j => j == i
  | .writeLock j => j == i
  | .lockAt j _ _ => j == i
  | _ => false

theorem early_call (L : Nat → Bool) (op : Op) : Early L (∀ i, asks i op = true → L i = true) (callP op) := by
  cases op with
  | readLock j => exact early_read _ _ _ _ fun h => by simpa [Early, finishP, unlockP, asks] using h
  | writeLock j => exact early_write _ _ _ _ fun h => by simpa [Early, finishP, unlockP, asks] using h
  | lock j =>
    intro o ho
    beta_reduce
    generalize o.ty = ty
    cases ty with
    | unlock => intro i hi; cases hi
    | read => exact early_read _ _ _ _ fun _ => by simp [Early, finishP, unlockP, asks]
    | write => exact early_write _ _ _ _ fun _ => by simp [Early, finishP, unlockP, asks]
  | unlock j =>
    intro o ho
    beta_reduce
    split
    · simp [Early, finishP, unlockP, asks]
    · trivial
  | lockAt j r b =>
    intro o ho
    beta_reduce
    split
    · simp only [if_true]
      refine ⟨fun _ => rfl, ?_⟩
      cases b
      · exact early_write _ _ _ _ fun h => by simpa [Early, finishP, unlockP, asks] using h
      · exact early_read _ _ _ _ fun h => by simpa [Early, finishP, unlockP, asks] using h
    · trivial

/-- The table is locked and none of the threads will unlock it. -/
structure Stuck (L : Nat → Bool) (c : CState) : Prop where
  glob : c.sh.glob = true
  locked : ∀ i, (c.sh.obj i).locked = L i
  held : c.sh.held = []
  run : ∀ u p os op, c.run u = some ⟨p, os, op⟩ → Early L (∀ i, asks i op = true → L i = true) p

theorem Stuck.call {L : Nat → Bool} {c c' : CState} (h : Stuck L c) {t : Nat} {os : List Bool} {op : Op}
    (e : Conc.call c t os op = some c') : Stuck L c' := by
  unfold Conc.call at e
  split at e
  · cases e
    refine ⟨h.glob, h.locked, h.held, fun u p os' op' hu => ?_⟩
    simp only [CState.goto] at hu
    split at hu
    · cases hu; exact early_call L op
    · exact h.run u p os' op' hu
  · cases e

theorem Stuck.step {L : Nat → Bool} {c c' : CState} (h : Stuck L c) {t : Nat} (e : Conc.step c t = some c') : Stuck L c' := by
  unfold Conc.step at e
  cases hrun : c.run t with
  | none => rw [hrun] at e; cases e
  | some f =>
    obtain ⟨p, os, op⟩ := f
    have hE := h.run t p os op hrun
    rw [hrun] at e
    cases p with
    | ret b =>
      cases e
      refine ⟨h.glob, h.locked, h.held, fun u p' os' op' hu => ?_⟩
      simp only [CState.goto] at hu
      split at hu
      · cases hu
      · exact h.run u p' os' op' hu
    | lock k => simp [h.glob] at e
    | look i k =>
      cases e
      refine ⟨h.glob, h.locked, h.held, fun u p' os' op' hu => ?_⟩
      simp only [CState.goto] at hu
      split at hu
      · cases hu; exact hE _ (h.locked i)
      · exact h.run u p' os' op' hu
    | upd i g k =>
      cases e
      refine ⟨h.glob, fun j => ?_, h.held, fun u p' os' op' hu => ?_⟩
      · simp only [State.mod]
        split
        · rw [hE.1]; exact h.locked j
        · exact h.locked j
      · simp only [CState.goto] at hu
        split at hu
        · cases hu; exact hE.2
        · exact h.run u p' os' op' hu
    | _ => exact hE.elim

theorem later_stuck {L : Nat → Bool} {q : Nat} {s s' : Sys} (hq : q ∈ s.live) (h : Stuck L (s.proc q)) (hl : Later s s') :
    q ∈ s'.live ∧ Stuck L (s'.proc q) := by
  induction hl with
  | refl => exact ⟨hq, h⟩
  | step _ v e ih =>
    obtain ⟨i1, i2⟩ := ih
    cases v with
    | call p t os op =>
      simp only [Fork.step] at e
      split at e
      · obtain ⟨c', hc, rfl⟩ := Option.map_eq_some_iff.1 e
        refine ⟨i1, ?_⟩
        simp only [Sys.set]
        split
        · rename_i hqp; subst hqp; exact i2.call hc
        · exact i2
      · cases e
    | run p t =>
      simp only [Fork.step] at e
      split at e
      · obtain ⟨c', hc, rfl⟩ := Option.map_eq_some_iff.1 e
        refine ⟨i1, ?_⟩
        simp only [Sys.set]
        split
        · rename_i hqp; subst hqp; exact i2.step hc
        · exact i2
      · cases e
    | spawn p u =>
      simp only [Fork.step] at e
      split at e
      · cases e; exact ⟨i1, i2⟩
      · cases e
    | fork p t o =>
      simp only [Fork.step] at e
      split at e
      · rename_i hA
        cases e
        refine ⟨List.mem_cons_of_mem _ i1, ?_⟩
        have : q ≠ o := by
          rintro rfl
          simp [i1] at hA
        simp only [this, if_false]
        exact i2
      · cases e

end Fullock.Props.RcsvFork

namespace Fullock.Props
open Fullock.Rcsv Fullock.Rcsv.Conc Fullock.Rcsv.Fork Fullock.Spec.Rcsv Fullock.Spec.RcsvFork Fullock.Props.Rcsv
  Fullock.Props.RcsvConc Fullock.Props.RcsvFork

/-! ### C91 -/

/-- C91 as stated: fork at any time; a thread of one process that was told it has an exclusive lock is the only one, in all
processes, that was told it has a lock on a range in common, while both are outside of calls on these ranges. -/
def C91_full : Prop :=
  ∀ F, Sep F → ∀ r, (∀ i, F (r i)) → ∀ m s G, FReach anyFork (okC F) r m s G → ∀ p q i j,
    p ≠ q ∨ (r i).tid ≠ (r j).tid → (G p).know i = .excl → ((G q).know j).must = true →
    ((s.proc p).sh.obj i).rng ∉ (G p).use (r i).tid → ((s.proc q).sh.obj j).rng ∉ (G q).use (r j).tid →
    clash ((s.proc p).sh.obj i).rng ((s.proc q).sh.obj j).rng = false

/-- Knowledge is of objects of threads that exist. -/
theorem C91_known_partial {F : Rng → Prop} (hF : Sep F) {r : Nat → Rng} (hr : ∀ i, F (r i)) {m : Nat} {s : Sys} {G : Nat → Ghost}
    (h : FReach (FreeFork r) (okC F) r m s G) : ∀ p i, (G p).know i ≠ .free → s.alive p (r i).tid = true := by
  induction h with
  | init => intro p i hi; exact absurd rfl hi
  | call h p t os op ht hok s' e ih =>
    simp only [Fork.step] at e
    split at e
    · obtain ⟨c', hc, rfl⟩ := Option.map_eq_some_iff.1 e
      intro q i hi
      refine ih q i ?_
      simp only [upd] at hi
      split at hi
      · rename_i hqp; subst hqp; exact hi
      · exact hi
    · cases e
  | run h p t s' e ih =>
    rename_i s G
    simp only [Fork.step] at e
    split at e
    · rename_i hA
      simp only [Bool.and_eq_true] at hA
      obtain ⟨c', hc, rfl⟩ := Option.map_eq_some_iff.1 e
      intro q i hi
      simp only [upd] at hi
      split at hi
      · rename_i hqp
        subst hqp
        by_cases hit : (r i).tid = t
        · rw [hit]; exact hA.1
        · have hI := freach_inv hF hr (fun _ _ _ _ h => h) h
          rw [know_learn (hI.thr q (hI.live q t hA.1) t (Or.inl hA.1)) hit rfl] at hi
          exact ih q i hi
      · exact ih q i hi
    · cases e
  | spawn h p u s' e ih =>
    simp only [Fork.step] at e
    split at e
    · cases e
      intro q i hi
      simp only
      split
      · rfl
      · exact ih q i hi
    · cases e
  | fork h p t q hf s' e ih =>
    simp only [Fork.step] at e
    split at e
    · cases e
      intro o i hi
      simp only [upd] at hi
      split at hi
      · exact absurd rfl hi
      · rename_i hoq
        simp only [hoq, if_false]
        exact ih o i hi
    · cases e

/-- If threads that call fork have no lock at that time: a thread of a process, between two calls, has what a thread alone
has after the same calls with the same results, made in that process. -/
theorem C91_alone_partial {F : Rng → Prop} (hF : Sep F) {r : Nat → Rng} (hr : ∀ i, F (r i)) {m : Nat} {s : Sys} {G : Nat → Ghost}
    (h : FReach (FreeFork r) (okC F) r m s G) (p t : Nat) (ha : s.alive p t = true) (ht : (s.proc p).run t = none) :
    ∃ s0, Hist (okFor F) r s0 (fun i => if (r i).tid = t then (G p).know i else .free) ∧
      (∀ i, (r i).tid = t → (s.proc p).sh.obj i = s0.obj i) ∧
      (∀ x : Rng × Ty, x.1.tid = t → (x ∈ (s.proc p).sh.held ↔ x ∈ s0.held)) := by
  have hI := freach_inv hF hr (fun _ _ _ _ h => h) h
  obtain ⟨hH, _⟩ := (hI.thr p (hI.live p t ha) t (Or.inl ha)).idle ht
  exact ⟨proj r t (s.proc p), hist_weak hH, fun i hi => (proj_obj hi).symm, fun x hx => (mem_proj_held hx).symm⟩

/-- An object that was reported as locked in a process is backed by a lock which the segment has recorded for that process,
unless its thread is in a call on that range. -/
theorem C91_held_partial {F : Rng → Prop} (hF : Sep F) {r : Nat → Rng} (hr : ∀ i, F (r i)) {m : Nat} {s : Sys} {G : Nat → Ghost}
    (h : FReach (FreeFork r) (okC F) r m s G) (p i : Nat) (hm : ((G p).know i).must = true)
    (hu : ((s.proc p).sh.obj i).rng ∉ (G p).use (r i).tid) :
    ∃ ty, (((s.proc p).sh.obj i).rng, ty) ∈ (s.proc p).sh.held ∧ ((G p).know i = .excl → ty = .write) := by
  have hI := freach_inv hF hr (fun _ _ _ _ h => h) h
  have ha := C91_known_partial hF hr h p i (by intro e; rw [e] at hm; cases hm)
  have hp := hI.live p _ ha
  exact thr_held hF hr (hI.base p hp) i (hI.thr p hp _ (Or.inl ha)) hm hu

/-- C91 where threads that call fork have no lock at that time. -/
theorem C91_exclusion_partial {F : Rng → Prop} (hF : Sep F) {r : Nat → Rng} (hr : ∀ i, F (r i)) {m : Nat} {s : Sys} {G : Nat → Ghost}
    (h : FReach (FreeFork r) (okC F) r m s G) (p q i j : Nat) (hne : p ≠ q ∨ (r i).tid ≠ (r j).tid)
    (hi : (G p).know i = .excl) (hj : ((G q).know j).must = true)
    (ui : ((s.proc p).sh.obj i).rng ∉ (G p).use (r i).tid) (uj : ((s.proc q).sh.obj j).rng ∉ (G q).use (r j).tid) :
    clash ((s.proc p).sh.obj i).rng ((s.proc q).sh.obj j).rng = false := by
  have hI := freach_inv hF hr (fun _ _ _ _ h => h) h
  have ai := C91_known_partial hF hr h p i (by rw [hi]; decide)
  have aj := C91_known_partial hF hr h q j (by intro e; rw [e] at hj; cases hj)
  have hp := hI.live p _ ai
  have hq := hI.live q _ aj
  obtain ⟨ty, h1, h2⟩ := C91_held_partial hF hr h p i (by rw [hi]; rfl) ui
  obtain ⟨ty', h3, _⟩ := C91_held_partial hF hr h q j hj uj
  rw [h2 hi] at h1
  by_contra hc
  rw [Bool.not_eq_false] at hc
  by_cases hpq : p = q
  · subst hpq
    have hr' : ((s.proc p).sh.obj i).rng ≠ ((s.proc p).sh.obj j).rng := by
      intro e
      have := congrArg Rng.tid e
      rw [(hI.base p hp).tid, (hI.base p hp).tid] at this
      exact (hne.resolve_left fun h => h rfl) this
    rcases pairwise_or (hI.base p hp).held h1 h3 (fun e => hr' (congrArg Prod.fst e)) with c | c
    · exact absurd rfl (c hc).1
    · exact absurd rfl (c (by rw [clash_comm]; exact hc)).2
  · exact absurd rfl (hI.cross p hp q hq hpq _ h1 _ h3 hc).1

/-- The locks of different processes never conflict, whenever fork is called. -/
theorem C91_cross {r : Nat → Rng} {m : Nat} {ok} {s : Sys} {G : Nat → Ghost} (h : FReach anyFork ok r m s G) :
    ∀ p ∈ s.live, ∀ q ∈ s.live, p ≠ q → ∀ x ∈ (s.proc p).sh.held, ∀ y ∈ (s.proc q).sh.held,
      clash x.1 y.1 = true → x.2 ≠ .write ∧ y.2 ≠ .write := (freach_cross h).2

/-- Whatever is granted to or released by one process, the locks of the others stay: a child cannot release a lock of its
parent. -/
theorem C91_kept {s s' : Sys} (v : Ev) (e : Fork.step s v = some s') (p : Nat) (hp : p ∈ s.live)
    (hv : ∀ t, v ≠ .run p t) : (s'.proc p).sh.held = (s.proc p).sh.held := by
  cases v with
  | call q t os op =>
    simp only [Fork.step] at e
    split at e
    · obtain ⟨c', hc, rfl⟩ := Option.map_eq_some_iff.1 e
      simp only [Sys.set]
      split
      · rename_i hpq; subst hpq; rw [(run_of_call hc).1]
      · rfl
    · cases e
  | run q t =>
    have hpq : p ≠ q := by rintro rfl; exact hv t rfl
    simp only [Fork.step] at e
    split at e
    · obtain ⟨c', hc, rfl⟩ := Option.map_eq_some_iff.1 e
      simp [Sys.set, hpq]
    · cases e
  | spawn q u => simp only [Fork.step] at e; split at e <;> cases e; rfl
  | fork q t o =>
    simp only [Fork.step] at e
    split at e
    · rename_i hA
      cases e
      have : p ≠ o := by rintro rfl; simp [hp] at hA
      simp [this]
    · cases e

/-- If moreover nobody holds the lock of the table when fork is called: a thread that cannot go on waits for the lock of the
table of its process, held by a thread of that process that can go on, or in a
request that is not refused, for a lock of another thread or process. -/
theorem C91_progress_partial {F : Rng → Prop} (hF : Sep F) {r : Nat → Rng} (hr : ∀ i, F (r i)) {m : Nat} {s : Sys} {G : Nat → Ghost}
    (h : FReach (QuietFork r) (okC F) r m s G) (p t : Nat) (ha : s.alive p t = true) (f : Frame) (hf : (s.proc p).run t = some f)
    (hs : Fork.step s (.run p t) = none) :
    (∃ u, u ≠ t ∧ s.alive p u = true ∧ (s.proc p).owner = some u ∧ (Fork.step s (.run p u)).isSome = true) ∨
    ((s.proc p).owner ≠ some t ∧ f.os.headD true = true ∧ ∃ rg w k, f.prog = .grant rg w k ∧ ∃ q ∈ s.live, ∃ x ∈ (s.proc q).sh.held,
      (q ≠ p ∨ x.1.tid ≠ t) ∧ clash x.1 rg = true ∧ (w = true ∨ x.2 = .write)) := by
  have hI := freach_inv hF hr (fun _ _ _ _ h => h.1) h
  have hO := freach_owner (fun h => (freach_inv hF hr (fun _ _ _ _ h => h.1) h).base)
    (fun h => (freach_inv hF hr (fun _ _ _ _ h => h.1) h).live) h
  have hp := hI.live p t ha
  have hB := hI.base p hp
  have hT := hI.thr p hp t (Or.inl ha)
  obtain ⟨pr, os, op⟩ := f
  obtain ⟨_, s0, os0, b, s1, _, _, _, hex, _⟩ := hT.run pr os op hf
  have hown : ∀ u, (s.proc p).owner = some u → (Fork.step s (.run p u)).isSome = true := by
    intro u ho
    have hu := hO p u ho
    have hTu := hI.thr p hp u (Or.inl hu)
    cases hrun : (s.proc p).run u with
    | none => exact absurd ho (hTu.idle hrun).2
    | some f =>
      obtain ⟨p1, os1, op1⟩ := f
      obtain ⟨_, t0, os2, b2, t1, _, _, _, hex1, _⟩ := hTu.run p1 os1 op1 hrun
      have hg : (proj r u (s.proc p)).glob = true := by simp [proj, ho]
      simp only [Fork.step, hu, waits, hrun, Conc.step]
      cases p1 with
      | lock k => simp [exec, hg] at hex1
      | grant q w k => simp [exec, hg] at hex1
      | _ => rfl
  have hot : (s.proc p).owner ≠ some t := by
    intro ho
    have := hown t ho
    rw [hs] at this; cases this
  simp only [Fork.step, ha, Bool.true_and] at hs
  cases pr with
  | lock k =>
    left
    simp only [waits, hf, Bool.not_false, if_true, Option.map_eq_none_iff, Conc.step] at hs
    split at hs
    · rename_i hg
      rw [hB.glob] at hg
      cases ho : (s.proc p).owner with
      | none => rw [ho] at hg; cases hg
      | some u => exact ⟨u, fun e => hot (by rw [ho, e]), hO p u ho, rfl, hown u ho⟩
    · cases hs
  | grant rg w k =>
    right
    have hos : os.headD true = true := by
      by_contra hn
      have hw : waits s p t = false := by simp only [waits, hf, Bool.not_eq_true] at hn ⊢; rw [hn]; rfl
      simp only [hw, Bool.not_false, if_true, Option.map_eq_none_iff, Conc.step, hf] at hs
      cases hh : os.headD true with
      | true => exact hn hh
      | false => rw [hh] at hs; cases hs
    refine ⟨hot, hos, rg, w, k, rfl, ?_⟩
    by_cases hw : waits s p t = true
    · simp only [waits, hf, Bool.and_eq_true, away, List.any_eq_true, bne_iff_ne, ne_eq, busy, Bool.or_eq_true, beq_iff_eq] at hw
      obtain ⟨_, q, hq, hqp, x, hx, hc, hx2⟩ := hw
      exact ⟨q, hq, x, hx, Or.inl hqp, hc, hx2⟩
    · simp only [hw, Bool.not_false, if_true, Option.map_eq_none_iff, Conc.step, hf] at hs
      refine ⟨p, hp, ?_⟩
      rw [if_pos hos] at hs
      · split at hs
        · rename_i hb
          simp only [busy, List.any_eq_true, Bool.and_eq_true, Bool.or_eq_true, beq_iff_eq] at hb
          obtain ⟨x, hx, hc, hw⟩ := hb
          refine ⟨x, hx, Or.inr fun e => ?_, hc, hw⟩
          simp only [exec] at hex
          split at hex
          · rename_i hcond
            obtain ⟨⟨hq, _⟩, _, hsb⟩ := hcond
            have hxm := (mem_proj_held (r := r) (s := s.proc p) e).2 hx
            have : selfBlock (proj r t (s.proc p)).held rg w = true := by
              simp only [selfBlock, List.any_eq_true, Bool.and_eq_true, Bool.or_eq_true, beq_iff_eq]
              simp only [clash, Bool.and_eq_true, Bool.or_eq_true, beq_iff_eq, decide_eq_true_eq] at hc
              refine ⟨x, hxm, ⟨⟨e.trans hq.symm, hc.1⟩, hc.2.imp id fun c => ?_⟩, hw⟩
              simp [Rng.meet, e, hq, hc.1, c.1, c.2]
            rw [hsb] at this; cases this
          · cases hex
        · cases hs
  | _ => simp [waits, hf, Conc.step] at hs

/-- A thread that calls fork while the table is locked by another thread of its process: in the child the table stays locked
for ever, the segment never grants the child a lock, and no request for an object that was not locked at that time returns. -/
theorem C91_hangs {s s1 s2 : Sys} {p t q : Nat} (hg : (s.proc p).sh.glob = true)
    (e : Fork.step s (.fork p t q) = some s1) (hl : Later s1 s2) :
    (s2.proc q).sh.glob = true ∧ (s2.proc q).sh.held = [] ∧
    ∀ u b os op i, asks i op = true → ((s.proc p).sh.obj i).locked = false → (s2.proc q).run u ≠ some ⟨.ret b, os, op⟩ := by
  simp only [Fork.step] at e
  split at e
  · cases e
    obtain ⟨_, h2⟩ := later_stuck (q := q) (L := fun i => ((s.proc p).sh.obj i).locked) (by simp)
      (by simp only [if_true]; exact ⟨hg, fun _ => rfl, rfl, fun u p os op hu => by cases hu⟩) hl
    refine ⟨h2.glob, h2.held, fun u b os op i ha hi hrun => ?_⟩
    have := h2.run u _ os op hrun i ha
    rw [hi] at this; cases this
  · cases e

/-- The table of a process whose threads are all outside of calls is not locked. -/
theorem C91_quiet {F : Rng → Prop} (hF : Sep F) {r : Nat → Rng} (hr : ∀ i, F (r i)) {m : Nat} {s : Sys} {G : Nat → Ghost}
    (h : FReach (QuietFork r) (okC F) r m s G) (p : Nat) (hp : p ∈ s.live) (hn : ∀ u, (s.proc p).run u = none) :
    (s.proc p).sh.glob = false := by
  have hI := freach_inv hF hr (fun _ _ _ _ h => h.1) h
  have hO := freach_owner (fun h => (freach_inv hF hr (fun _ _ _ _ h => h.1) h).base)
    (fun h => (freach_inv hF hr (fun _ _ _ _ h => h.1) h).live) h
  rw [(hI.base p hp).glob]
  cases ho : (s.proc p).owner with
  | none => rfl
  | some u => exact absurd ho ((hI.thr p hp u (Or.inl (hO p u ho))).idle (hn u)).2

/-! ### Runs -/

/-- What happens in a run. -/
inductive FkAct where
  | call (p t : Nat) (op : Op)
  | steps (p t n : Nat)
  | spawn (p u : Nat)
  | fork (p t q : Nat)

def fkSteps (p t : Nat) : Nat → Sys × (Nat → Ghost) → Option (Sys × (Nat → Ghost))
  | 0, x => some x
  | n + 1, x =>
    match Fork.step x.1 (.run p t) with
    | none => none
    | some s' => fkSteps p t n (s', upd x.2 p ((x.2 p).learn (x.1.proc p) t))

def fkAct (okb : Sys → (Nat → Ghost) → Nat → Nat → Bool) (x : Sys × (Nat → Ghost)) : FkAct → Option (Sys × (Nat → Ghost))
  | .call p t op =>
    if (rcR (opObj op)).tid = t ∧ isLockAt op = false ∧ (isUnlock op = true ∨ (x.1.proc p).sh.stack.elem (opObj op) = false) then
      match Fork.step x.1 (.call p t [] op) with
      | none => none
      | some s' => some (s', upd x.2 p { x.2 p with use := fun u => if u = t then ranges (x.1.proc p).sh op else (x.2 p).use u })
    else none
  | .steps p t n => fkSteps p t n x
  | .spawn p u =>
    match Fork.step x.1 (.spawn p u) with
    | none => none
    | some s' => some (s', x.2)
  | .fork p t q =>
    if okb x.1 x.2 p t then
      match Fork.step x.1 (.fork p t q) with
      | none => none
      | some s' => some (s', upd x.2 q nothing)
    else none

def fkGo (okb : Sys → (Nat → Ghost) → Nat → Nat → Bool) : List FkAct → Sys × (Nat → Ghost) → Option (Sys × (Nat → Ghost))
  | [], x => some x
  | a :: l, x =>
    match fkAct okb x a with
    | none => none
    | some y => fkGo okb l y

theorem fkSteps_reach {okF ok} {r : Nat → Rng} {m p t : Nat} : ∀ (n : Nat) (x y : Sys × (Nat → Ghost)), FReach okF ok r m x.1 x.2 →
    fkSteps p t n x = some y → FReach okF ok r m y.1 y.2
  | 0, x, y, h, e => by cases e; exact h
  | n + 1, x, y, h, e => by
    simp only [fkSteps] at e
    cases hs : Fork.step x.1 (.run p t) with
    | none => rw [hs] at e; cases e
    | some s' =>
      rw [hs] at e
      exact fkSteps_reach n _ y (.run h p t s' hs) e

theorem fkGo_reach {okF} {okb : Sys → (Nat → Ghost) → Nat → Nat → Bool} (hb : ∀ s G p t, okb s G p t = true → okF s G p t) {m : Nat} :
    ∀ (l : List FkAct) (x y : Sys × (Nat → Ghost)), FReach okF (okC rcG) rcR m x.1 x.2 → fkGo okb l x = some y →
      FReach okF (okC rcG) rcR m y.1 y.2
  | [], x, y, h, e => by cases e; exact h
  | a :: l, x, y, h, e => by
    simp only [fkGo] at e
    cases hs : fkAct okb x a with
    | none => rw [hs] at e; cases e
    | some z =>
      rw [hs] at e
      refine fkGo_reach hb l z y ?_ e
      cases a with
      | steps p t n => exact fkSteps_reach n x z h hs
      | call p t op =>
        simp only [fkAct] at hs
        split at hs
        · rename_i hc
          obtain ⟨h1, h2, h3⟩ := hc
          cases hcl : Fork.step x.1 (.call p t [] op) with
          | none => rw [hcl] at hs; cases hs
          | some s' =>
            rw [hcl] at hs
            simp only [Option.some.injEq] at hs
            subst hs
            refine .call h p t [] op h1 ⟨⟨?_, Or.inl (by simp)⟩, fun hcv => ?_⟩ s' hcl
            · cases op <;> simp [isLockAt, Within] at h2 ⊢
            · simp only [List.elem_eq_mem, decide_eq_false_iff_not] at h3
              rcases h3 with h3 | h3
              · rcases hcv.2.2 with ⟨i, rfl, _⟩ | ⟨i, rfl, _⟩ <;> simp [isUnlock] at h3
              · exact h3 hcv.1
        · cases hs
      | spawn p u =>
        simp only [fkAct] at hs
        cases hcl : Fork.step x.1 (.spawn p u) with
        | none => rw [hcl] at hs; cases hs
        | some s' =>
          rw [hcl] at hs
          simp only [Option.some.injEq] at hs
          subst hs
          exact .spawn h p u s' hcl
      | fork p t q =>
        simp only [fkAct] at hs
        split at hs
        · rename_i hc
          cases hcl : Fork.step x.1 (.fork p t q) with
          | none => rw [hcl] at hs; cases hs
          | some s' =>
            rw [hcl] at hs
            simp only [Option.some.injEq] at hs
            subst hs
            exact .fork h p t q (hb _ _ _ _ hc) s' hcl
        · cases hs

/-- A test of the state a run from one thread, number 1, leads to. -/
def fkTest (okb : Sys → (Nat → Ghost) → Nat → Nat → Bool) (l : List FkAct) (c : Sys → (Nat → Ghost) → Bool) : Bool :=
  match fkGo okb l (Fork.init rcR 1, fun _ => nothing) with
  | none => false
  | some x => c x.1 x.2

theorem fkTest_reach {okF} {okb : Sys → (Nat → Ghost) → Nat → Nat → Bool} (hb : ∀ s G p t, okb s G p t = true → okF s G p t)
    {l : List FkAct} {c : Sys → (Nat → Ghost) → Bool} (h : fkTest okb l c = true) :
    ∃ s G, FReach okF (okC rcG) rcR 1 s G ∧ c s G = true := by
  unfold fkTest at h
  cases hg : fkGo okb l (Fork.init rcR 1, fun _ => nothing) with
  | none => rw [hg] at h; cases h
  | some x => rw [hg] at h; exact ⟨x.1, x.2, fkGo_reach hb l _ x .init hg, h⟩

/-- Thread 1 has no lock and nobody holds the lock of the table. -/
def fkQuiet (s : Sys) (G : Nat → Ghost) (p t : Nat) : Bool :=
  t == 1 && decide ((G p).know 0 = .free) && decide ((G p).know 1 = .free) && !(s.proc p).sh.glob

theorem fkQuiet_ok (s : Sys) (G : Nat → Ghost) (p t : Nat) (h : fkQuiet s G p t = true) : QuietFork rcR s G p t := by
  simp only [fkQuiet, Bool.and_eq_true, beq_iff_eq, decide_eq_true_eq, Bool.not_eq_true'] at h
  obtain ⟨⟨⟨rfl, h0⟩, h1⟩, hg⟩ := h
  refine ⟨fun i hi => ?_, hg⟩
  unfold rcR at hi
  split at hi
  · rename_i hc; rcases hc with rfl | rfl <;> assumption
  · split at hi <;> cases hi

/-- Thread 1 has a write lock and forks; in the child, where nothing was requested yet, a write lock of the same range is
granted at once by the class, without a lock of the child in the segment. -/
theorem C91_inherited : fkTest (fun _ _ _ _ => true) [.call 0 1 (.writeLock 0), .steps 0 1 11, .fork 0 1 7,
    .call 7 1 (.writeLock 1), .steps 7 1 9] (fun s G =>
      decide ((G 0).know 0 = .excl) && decide ((G 7).know 1 = .excl) && ((G 0).use 1).isEmpty && ((G 7).use 1).isEmpty &&
      decide (((s.proc 0).sh.obj 0).rng = ⟨1, 3, 0, 10⟩) && decide (((s.proc 7).sh.obj 1).rng = ⟨1, 3, 0, 10⟩) &&
      decide ((s.proc 0).sh.held = [(⟨1, 3, 0, 10⟩, .write)]) && (s.proc 7).sh.held.isEmpty) = true := by decide +kernel

/-- Refutation of C91. -/
theorem C91_not_full : ¬ C91_full := by
  intro hf
  obtain ⟨s, G, hR, hp⟩ := fkTest_reach (okF := anyFork) (fun _ _ _ _ _ => trivial) C91_inherited
  simp only [Bool.and_eq_true, decide_eq_true_eq, List.isEmpty_iff] at hp
  obtain ⟨⟨⟨⟨⟨⟨⟨h1, h2⟩, h3⟩, h4⟩, h5⟩, h6⟩, _⟩, _⟩ := hp
  have h3' : (G 0).use (rcR 0).tid = [] := h3
  have h4' : (G 7).use (rcR 1).tid = [] := h4
  have := hf rcG rcG_sep rcR rcR_G 1 s G hR 0 7 0 1 (Or.inl (by decide)) h1 (by rw [h2]; rfl) (by rw [h3']; simp) (by rw [h4']; simp)
  rw [h5, h6] at this
  revert this; decide

/-- The child unlocks the object it has inherited: the call fails, the object stays in the table of the child, and the lock
stays with the parent. -/
theorem C91_refused : fkTest (fun _ _ _ _ => true) [.call 0 1 (.writeLock 0), .steps 0 1 11, .fork 0 1 7,
    .call 7 1 (.unlock 0), .steps 7 1 9] (fun s _ =>
      (match (s.proc 7).run 1 with | some ⟨.ret b, _, _⟩ => !b | _ => false) && decide ((s.proc 7).sh.stack = [0]) &&
      ((s.proc 7).sh.obj 0).locked && decide ((s.proc 0).sh.held = [(⟨1, 3, 0, 10⟩, .write)])) = true := by decide +kernel

/-- Thread 2 of the parent has locked the table when thread 1 forks: the hypotheses of `C91_hangs` are met, and the request
of the child cannot go on. -/
theorem C91_hangs_case : fkTest (fun _ _ _ _ => true) [.spawn 0 2, .call 0 2 (.readLock 3), .steps 0 2 3] (fun s _ =>
      (s.proc 0).sh.glob && !((s.proc 0).sh.obj 0).locked && (Fork.step s (.fork 0 1 7)).isSome) = true ∧
    fkTest (fun _ _ _ _ => true) [.spawn 0 2, .call 0 2 (.readLock 3), .steps 0 2 3, .fork 0 1 7, .call 7 1 (.writeLock 0),
      .steps 7 1 1, .steps 0 2 8] (fun s G => decide ((G 0).know 3 = .shared) && (Fork.step s (.run 7 1)).isNone &&
      ((s.proc 7).run 1).isSome) = true := by decide +kernel

/-- Thread 2 of the parent has a lock when thread 1, which has none, forks; thread 1 of the child gets a write lock; thread 1
of the parent waits for it in the segment. -/
theorem C91_case : fkTest fkQuiet [.spawn 0 2, .call 0 2 (.writeLock 3), .steps 0 2 11, .fork 0 1 7,
    .call 7 1 (.writeLock 0), .steps 7 1 11, .call 0 1 (.readLock 1), .steps 0 1 8] (fun s G =>
      decide ((G 0).know 3 = .excl) && decide ((G 7).know 0 = .excl) && decide ((s.proc 7).sh.held = [(⟨1, 3, 0, 10⟩, .write)]) &&
      decide ((s.proc 0).sh.held = [(⟨2, 3, 100, 10⟩, .write)]) && s.alive 0 1 && s.alive 7 1 && !s.alive 7 2 &&
      ((G 0).use 2).isEmpty && ((G 7).use 1).isEmpty && ((s.proc 0).run 1).isSome && ((s.proc 7).run 1).isNone &&
      (Fork.step s (.run 0 1)).isNone && decide ((s.proc 7).sh.stack = [3, 0])) = true := by decide +kernel

/-- The hypotheses of the theorems above are met. -/
example : ∃ s G, FReach (QuietFork rcR) (okC rcG) rcR 1 s G ∧ (G 0).know 3 = .excl ∧ (G 7).know 0 = .excl ∧
    s.alive 0 1 = true ∧ s.alive 7 1 = true ∧ (s.proc 7).run 1 = none ∧ (s.proc 0).run 1 ≠ none ∧
    Fork.step s (.run 0 1) = none ∧ (G 0).use 2 = [] ∧ (G 7).use 1 = [] := by
  obtain ⟨s, G, hR, hp⟩ := fkTest_reach fkQuiet_ok C91_case
  simp only [Bool.and_eq_true, decide_eq_true_eq, List.isEmpty_iff, Option.isNone_iff_eq_none, Option.isSome_iff_ne_none] at hp
  obtain ⟨⟨⟨⟨⟨⟨⟨⟨⟨⟨⟨⟨h1, h2⟩, _⟩, _⟩, h3⟩, h4⟩, _⟩, h5⟩, h6⟩, h7⟩, h8⟩, h9⟩, _⟩ := hp
  exact ⟨s, G, hR, h1, h2, h3, h4, h8, h7, h9, h5, h6⟩

end Fullock.Props
