import Verif.Props.Segment
import Verif.Props.LockId
import Verif.Spec.Fine
/-! Runs with one access per step are runs of the segment. -/
namespace Fullock.Fine
open Fullock Fullock.Spec Fullock.Layout Fullock.Seg
open Fullock.FL (fset)

/-! ### Places of the file locks -/

/-- What follows taking or releasing the table lock. -/
def wfF : FL.Pc → Bool
  | .acq p => FL.entry p
  | .rel (.acq p) => FL.entry p
  | .rel p => FL.leave p
  | _ => true

theorem plan_shape {m : FL.Mem} {alive : Nat → Bool} {t : Nat} {p : FL.Pc} {c : FL.Choice} {as : List FL.Act}
    {p' : FL.Pc} (h : FL.plan m alive t p c = some (as, p')) :
    FL.inCS p' = FL.inCS p ∧ wfF p' = true ∧ ∀ r, p ≠ .done r := by
  unfold FL.plan at h
  split at h
  all_goals
    repeat' split at h
    all_goals first
      | (cases h; done)
      | (obtain ⟨rfl, rfl⟩ := Option.some.inj h |> Prod.mk.inj
         refine ⟨?_, ?_, by simp⟩
         · first | rfl | (simp only [FL.inCS])
         · first | rfl | (simp only [FL.after2, FL.after3]; repeat' split
                          all_goals rfl))

/-- The table lock of the files. -/
structure FI (x : FLMem.State) : Prop where
  zero : ∃ r, x.pc 0 = .done r
  wf : ∀ t, wfF (x.pc t) = true
  cs : ∀ t, t ≠ 0 → x.alive t = true → (x.lockid = t ↔ FL.inCS (x.pc t) = true)

theorem wf_acq {p : FL.Pc} (h : wfF (.acq p) = true) : FL.inCS p = true ∧ wfF p = true := by
  cases p <;> simp_all [wfF, FL.entry, FL.inCS]

theorem wf_rel {p : FL.Pc} (h : wfF (.rel p) = true) : FL.inCS p = false ∧ wfF p = true := by
  cases p <;> simp_all [wfF, FL.leave, FL.inCS]

theorem fi_step {cnt : Pool → Nat} {fuel : Nat} {x x' : FLMem.State} {e : FLMem.Ev} (I : FI x)
    (h : FLMem.step cnt fuel x e = some x') : FI x' := by
  obtain ⟨⟨r0, hz⟩, hw, hc⟩ := I
  cases e with
  | call t c =>
    simp only [FLMem.step] at h
    split at h
    · cases h
    · rename_i h0
      simp only [not_or] at h0
      split at h
      · rename_i r hp
        cases h
        have hst : FL.inCS c.start = false ∧ wfF c.start = true := by cases c <;> exact ⟨rfl, rfl⟩
        refine ⟨⟨r0, ?_⟩, fun u => ?_, fun u u0 ua => ?_⟩
        · simp [FLMem.setPc, fset, Ne.symm h0.1, hz]
        · by_cases e : u = t
          · subst e; simpa [FLMem.setPc, fset] using hst.2
          · simpa [FLMem.setPc, fset, e] using hw u
        · by_cases e : u = t
          · subst e
            have := hc u u0 ua
            rw [hp] at this
            simp only [FL.inCS] at this
            simp only [FLMem.setPc, fset, if_true, hst.1]
            exact this
          · simpa [FLMem.setPc, fset, e] using hc u u0 ua
      · cases h
  | go t b c =>
    simp only [FLMem.step] at h
    split at h
    · cases h
    · rename_i ha
      simp only [Bool.not_eq_false] at ha
      split at h
      · rename_i p hp
        split at h
        · rename_i hlk
          cases h
          have t0 : t ≠ 0 := by rintro rfl; rw [hz] at hp; cases hp
          have hwp := wf_acq (by simpa [hp] using hw t)
          refine ⟨⟨r0, ?_⟩, fun u => ?_, fun u u0 ua => ?_⟩
          · simp [FLMem.setPc, fset, Ne.symm t0, hz]
          · by_cases e : u = t
            · subst e; simpa [FLMem.setPc, fset] using hwp.2
            · simpa [FLMem.setPc, fset, e] using hw u
          · by_cases e : u = t
            · subst e; simp [FLMem.setPc, fset, hwp.1]
            · have h1 := hc u u0 ua
              have : x.lockid ≠ u := by
                rintro rfl
                rcases hlk with hlk | hlk
                · exact u0 hlk
                · rw [FLMem.setPc] at ua; simp only at ua; rw [hlk] at ua; cases ua
              simp only [this, false_iff] at h1
              simp [FLMem.setPc, fset, e, h1, Ne.symm e]
        · cases h
      · rename_i p hp
        cases h
        have t0 : t ≠ 0 := by rintro rfl; rw [hz] at hp; cases hp
        have hwp := wf_rel (by simpa [hp] using hw t)
        have ht : x.lockid = t := (hc t t0 ha).2 (by rw [hp]; rfl)
        refine ⟨⟨r0, ?_⟩, fun u => ?_, fun u u0 ua => ?_⟩
        · simp [FLMem.setPc, fset, Ne.symm t0, hz]
        · by_cases e : u = t
          · subst e; simpa [FLMem.setPc, fset] using hwp.2
          · simpa [FLMem.setPc, fset, e] using hw u
        · by_cases e : u = t
          · subst e; simp [FLMem.setPc, fset, hwp.1, ht, Ne.symm t0]
          · have h1 := hc u u0 ua
            rw [ht] at h1
            simp only [Ne.symm e, false_iff] at h1
            simp [FLMem.setPc, fset, e, h1, ht, Ne.symm u0]
      · rename_i h1 h2
        obtain ⟨y, hy, h⟩ := Option.bind_eq_some_iff.1 h
        obtain ⟨m', hm, rfl⟩ := Option.map_eq_some_iff.1 h
        obtain ⟨s1, s2, s3⟩ := plan_shape (p' := y.2) (as := y.1) hy
        have t0 : t ≠ 0 := by rintro rfl; exact s3 _ hz
        refine ⟨⟨r0, ?_⟩, fun u => ?_, fun u u0 ua => ?_⟩
        · simp [FLMem.setPc, fset, Ne.symm t0, hz]
        · by_cases e : u = t
          · subst e; simpa [FLMem.setPc, fset] using s2
          · simpa [FLMem.setPc, fset, e] using hw u
        · by_cases e : u = t
          · subst e; simpa [FLMem.setPc, fset, s1] using hc u u0 ua
          · simpa [FLMem.setPc, fset, e] using hc u u0 ua
  | die t b c k j =>
    simp only [FLMem.step] at h
    split at h
    · cases h
    · obtain ⟨y, h1, rfl⟩ := Option.map_eq_some_iff.1 h
      refine ⟨⟨r0, hz⟩, hw, fun u u0 ua => hc u u0 ?_⟩
      by_cases e : u = t
      · subst e; simp [fset] at ua
      · simpa [fset, e] using ua

/-! ### The table locks in the segment -/

theorem alive_reach {cnt : Pool → Nat} {fuel : Nat} {base : Nat → Nat} {A : Seg.State → Seg.Ev → Prop}
    {x : Seg.State} (hr : Seg.Reach cnt fuel base A x) : x.fl.alive = x.mc.alive := by
  induction hr with
  | init jf jm h => rfl
  | step _ _ hs ih =>
    rcases Seg.step_cases hs with ⟨e', y, rfl, h1, rfl⟩ | ⟨e', y, rfl, h1, rfl, -⟩ <;> rfl

theorem fi_reach {cnt : Pool → Nat} {fuel : Nat} {base : Nat → Nat} {A : Seg.State → Seg.Ev → Prop} {x : Seg.State}
    (hr : Seg.Reach cnt fuel base A x) : FI x.fl := by
  induction hr with
  | init jf jm h => exact ⟨⟨0, rfl⟩, fun _ => rfl, fun t t0 _ => by simp [Seg.init, FLMem.init, FL.inCS, Ne.symm t0]⟩
  | step hr0 _ hs ih =>
    rcases Seg.step_cases hs with ⟨e', y, rfl, h1, rfl⟩ | ⟨e', y, rfl, h1, rfl, -⟩
    · exact fi_step ih h1
    · refine ⟨ih.zero, ih.wf, fun t t0 ta => ih.cs t t0 ?_⟩
      rw [alive_reach hr0]
      rcases Seg.mc_alive h1 with ⟨u, _, _, _, _, e⟩ | ⟨_, e⟩
      · simp only [fromMC, e, MC.upd] at ta
        split at ta
        · cases ta
        · exact ta
      · simpa only [fromMC, e] using ta

/-- Nobody about to take a table lock has it, whoever releases it has it. -/
structure G (x : Seg.State) : Prop where
  cells : x.fl.cells = x.mc.mem.cells
  alive : x.fl.alive = x.mc.alive
  zero : ∀ t g, x.fl.alive t = true → gate x t = some g → t ≠ 0
  up : ∀ t k, x.fl.alive t = true → gate x t = some (k, true) → tword x k ≠ t
  down : ∀ t k, x.fl.alive t = true → gate x t = some (k, false) → tword x k = t

/-- Which table lock, case by case. -/
theorem gate_cases {x : Seg.State} {t : Nat} {k : Tbl} {up : Bool} (h : gate x t = some (k, up)) :
    (∃ p, x.fl.pc t = .acq p ∧ k = .file ∧ up = true) ∨ (∃ p, x.fl.pc t = .rel p ∧ k = .file ∧ up = false) ∨
    ((∀ p, x.fl.pc t ≠ .acq p) ∧ (∀ p, x.fl.pc t ≠ .rel p) ∧
      ((∃ p, x.mc.pc t = .acqM p ∧ k = .mtx ∧ up = true) ∨ (∃ p, x.mc.pc t = .relM p ∧ k = .mtx ∧ up = false) ∨
       (∃ p, x.mc.pc t = .acqC p ∧ k = .cnd ∧ up = true) ∨ (∃ p, x.mc.pc t = .relC p ∧ k = .cnd ∧ up = false))) := by
  unfold gate at h
  split at h
  · rename_i p hp; cases h; exact .inl ⟨p, hp, rfl, rfl⟩
  · rename_i p hp; cases h; exact .inr (.inl ⟨p, hp, rfl, rfl⟩)
  · rename_i h1 h2
    refine .inr (.inr ⟨h1, h2, ?_⟩)
    split at h
    · rename_i p hp; cases h; exact .inl ⟨p, hp, rfl, rfl⟩
    · rename_i p hp; cases h; exact .inr (.inl ⟨p, hp, rfl, rfl⟩)
    · rename_i p hp; cases h; exact .inr (.inr (.inl ⟨p, hp, rfl, rfl⟩))
    · rename_i p hp; cases h; exact .inr (.inr (.inr ⟨p, hp, rfl, rfl⟩))
    · cases h

theorem g_reach {cnt : Pool → Nat} (hl : Props.Limits cnt) {fuel : Nat} (hf : MCMem.Fuel cnt fuel) {base : Nat → Nat}
    {x : Seg.State} (hr : Seg.Reach cnt fuel base (fun _ _ => True) x) : G x := by
  have F := fi_reach hr
  obtain ⟨T, s, hm, I⟩ := Props.seg_reach hl hf (A' := MC.anyEv) (fun _ _ _ _ _ => trivial) (fun _ _ _ => trivial)
    (fun _ _ _ _ _ _ _ _ _ _ _ _ _ => trivial) (fun _ _ _ _ _ _ _ _ _ _ => trivial) hr
  have B : MC.Base s := MC.base_reach hm
  have S := I.sim
  have al : x.fl.alive = s.alive := I.alive.trans S.alive
  have z : ∀ t, x.fl.alive t = true → (∀ r, x.mc.pc t ≠ .done r) → t ≠ 0 := by
    rintro t ta h rfl
    have := S.pcs 0 (by rw [← al]; exact ta)
    rw [B.zero] at this
    exact h _ (MCMem.pcr_done this)
  have zf : ∀ t, (∀ r, x.fl.pc t ≠ .done r) → t ≠ 0 := by
    rintro t h rfl
    obtain ⟨r, hr⟩ := F.zero
    exact h r hr
  have q : ∀ t, x.fl.alive t = true → MCMem.PcR cnt (base t) T x.mc.mem s.alive (x.mc.pc t) (s.pc t) :=
    fun t ta => S.pcs t (by rw [← al]; exact ta)
  refine ⟨I.cells, I.alive, ?_, ?_, ?_⟩
  · rintro t ⟨k, up⟩ ta hg
    rcases gate_cases hg with ⟨p, hp, -⟩ | ⟨p, hp, -⟩ | ⟨-, -, ⟨p, hp, -⟩ | ⟨p, hp, -⟩ | ⟨p, hp, -⟩ | ⟨p, hp, -⟩⟩
    · exact zf t (by rw [hp]; simp)
    · exact zf t (by rw [hp]; simp)
    all_goals exact z t ta (by rw [hp]; simp)
  · intro t k ta hg e
    rcases gate_cases hg with ⟨p, hp, rfl, -⟩ | ⟨p, hp, -, h⟩ |
      ⟨-, -, ⟨p, hp, rfl, -⟩ | ⟨p, hp, -, h⟩ | ⟨p, hp, rfl, -⟩ | ⟨p, hp, -, h⟩⟩
    · have := (F.cs t (zf t (by rw [hp]; simp)) ta).1 e
      rw [hp] at this; cases this
    · cases h
    · have hq := q t ta
      rw [hp] at hq
      obtain ⟨q', hq', -⟩ := hq
      have := (B.lockM t (z t ta (by rw [hp]; simp)) (by rw [← al]; exact ta)).1 (S.dat.mL.trans e)
      rw [hq'] at this; cases this
    · cases h
    · have hq := q t ta
      rw [hp] at hq
      obtain ⟨q', hq', -⟩ := hq
      have := (B.lockC t (z t ta (by rw [hp]; simp)) (by rw [← al]; exact ta)).1 (S.dat.cL.trans e)
      rw [hq'] at this; cases this
    · cases h
  · intro t k ta hg
    rcases gate_cases hg with ⟨p, hp, -, h⟩ | ⟨p, hp, rfl, -⟩ |
      ⟨-, -, ⟨p, hp, -, h⟩ | ⟨p, hp, rfl, -⟩ | ⟨p, hp, -, h⟩ | ⟨p, hp, rfl, -⟩⟩
    · cases h
    · exact (F.cs t (zf t (by rw [hp]; simp)) ta).2 (by rw [hp]; rfl)
    · cases h
    · have hq := q t ta
      rw [hp] at hq
      obtain ⟨q', hq', -⟩ := hq
      exact S.dat.mL.symm.trans ((B.lockM t (z t ta (by rw [hp]; simp)) (by rw [← al]; exact ta)).2 (by rw [hq']; rfl))
    · cases h
    · have hq := q t ta
      rw [hp] at hq
      obtain ⟨q', hq', -⟩ := hq
      exact S.dat.cL.symm.trans ((B.lockC t (z t ta (by rw [hp]; simp)) (by rw [← al]; exact ta)).2 (by rw [hq']; rfl))

/-! ### Passing a table lock -/

/-- The step of the segment at a table lock. -/
def gateEv (base : Nat → Nat) (t : Nat) : Tbl → Seg.Ev
  | .file => .fl (.go t (base t) .go)
  | _ => .mc (.go t .go)

theorem pass_up {cnt : Pool → Nat} {fuel : Nat} {base : Nat → Nat} {x : Seg.State} (g : G x) {t : Nat} {k : Tbl}
    (ta : x.fl.alive t = true) (hg : gate x t = some (k, true)) (hk : tword x k = 0 ∨ x.fl.alive (tword x k) = false) :
    Seg.step cnt fuel base x (gateEv base t k) = some (pass (setTword x t k) t) := by
  obtain ⟨⟨c, pay, lk, al, pf⟩, ⟨mm, al', pm⟩⟩ := x
  have h1 := g.cells
  have h2 := g.alive
  simp only at h1 h2
  subst h1; subst h2
  simp only at ta
  rcases gate_cases hg with ⟨p, hp, rfl, -⟩ | ⟨p, hp, -, h⟩ |
      ⟨n1, n2, ⟨p, hp, rfl, -⟩ | ⟨p, hp, -, h⟩ | ⟨p, hp, rfl, -⟩ | ⟨p, hp, -, h⟩⟩
  · simp only at hp
    simp only [tword] at hk
    simp [gateEv, Seg.step, FLMem.step, ta, hp, hk, pass, setTword, fromFL, FLMem.setPc]
  · cases h
  · simp only at hp n1 n2
    simp only [tword] at hk
    simp [gateEv, Seg.step, MCMem.step, ta, hp, hk, pass, setTword, fromMC, MCMem.plan, MCMem.plain, ListMem.applyWrites]
  · cases h
  · simp only at hp n1 n2
    simp only [tword] at hk
    simp [gateEv, Seg.step, MCMem.step, ta, hp, hk, pass, setTword, fromMC, MCMem.plan, MCMem.plain, ListMem.applyWrites]
  · cases h

theorem pass_down {cnt : Pool → Nat} {fuel : Nat} {base : Nat → Nat} {x : Seg.State} (g : G x) {t : Nat} {k : Tbl}
    (ta : x.fl.alive t = true) (hg : gate x t = some (k, false)) :
    Seg.step cnt fuel base x (gateEv base t k) = some (pass (setTword x 0 k) t) := by
  have hk := g.down t k ta hg
  obtain ⟨⟨c, pay, lk, al, pf⟩, ⟨mm, al', pm⟩⟩ := x
  have h1 := g.cells
  have h2 := g.alive
  simp only at h1 h2
  subst h1; subst h2
  simp only at ta
  rcases gate_cases hg with ⟨p, hp, -, h⟩ | ⟨p, hp, rfl, -⟩ |
      ⟨n1, n2, ⟨p, hp, -, h⟩ | ⟨p, hp, rfl, -⟩ | ⟨p, hp, -, h⟩ | ⟨p, hp, rfl, -⟩⟩
  · cases h
  · simp only at hp
    simp only [tword] at hk
    simp [gateEv, Seg.step, FLMem.step, ta, hp, hk, pass, setTword, fromFL, FLMem.setPc]
  · cases h
  · simp only at hp n1 n2
    simp only [tword] at hk
    simp [gateEv, Seg.step, MCMem.step, ta, hp, hk, pass, setTword, fromMC, MCMem.plan, MCMem.plain, ListMem.applyWrites]
  · cases h
  · simp only at hp n1 n2
    simp only [tword] at hk
    simp [gateEv, Seg.step, MCMem.step, ta, hp, hk, pass, setTword, fromMC, MCMem.plan, MCMem.plain, ListMem.applyWrites]

/-! ### Steps of others -/

/-- The thread of an event. -/
def who : Seg.Ev → Nat
  | .fl (.call t _) => t
  | .fl (.go t _ _) => t
  | .fl (.die t _ _ _ _) => t
  | .mc (.call t _) => t
  | .mc (.go t _) => t
  | .mc (.die t _ _) => t

theorem seg_other {cnt : Pool → Nat} {fuel : Nat} {base : Nat → Nat} {x x' : Seg.State} {e : Seg.Ev}
    (h : Seg.step cnt fuel base x e = some x') {u : Nat} (hu : u ≠ who e) :
    x'.fl.pc u = x.fl.pc u ∧ x'.mc.pc u = x.mc.pc u := by
  rcases Seg.step_cases h with ⟨e', y, rfl, h1, rfl⟩ | ⟨e', y, rfl, h1, rfl, -⟩
  · refine ⟨?_, rfl⟩
    rcases Props.fl_pc h1 with ⟨t, c, rfl, h2⟩ | ⟨t, b, c, rfl, -, h2⟩ | h2
    · exact h2 u hu
    · exact h2 u hu
    · exact congrFun h2 u
  · refine ⟨rfl, ?_⟩
    rcases Props.mc_pc h1 with ⟨t, c, rfl, h2⟩ | ⟨t, c, rfl, -, h2⟩ | h2
    · exact h2 u hu
    · exact h2 u hu
    · exact congrFun h2 u

theorem seg_dead {cnt : Pool → Nat} {fuel : Nat} {base : Nat → Nat} {x x' : Seg.State} {e : Seg.Ev}
    (ha : x.fl.alive = x.mc.alive) (h : Seg.step cnt fuel base x e = some x') {u : Nat}
    (hu : x.fl.alive u = false) : x'.fl.alive u = false := by
  rcases Seg.step_cases h with ⟨e', y, rfl, h1, rfl⟩ | ⟨e', y, rfl, h1, rfl, -⟩
  · rcases Seg.fl_alive h1 with ⟨t, b, c, k, j, -, -, e⟩ | ⟨-, e⟩
    · simp only [fromFL, e, fset, hu, ite_self]
    · simpa only [fromFL, e] using hu
  · rw [ha] at hu
    rcases Seg.mc_alive h1 with ⟨t, c, k, -, -, e⟩ | ⟨-, e⟩
    · simp only [fromMC, e, MC.upd, hu, ite_self]
    · simpa only [fromMC, e] using hu

theorem seg_die {cnt : Pool → Nat} {fuel : Nat} {base : Nat → Nat} {x x' : Seg.State} {e : Seg.Ev}
    (h : Seg.step cnt fuel base x e = some x') :
    (∃ t b c k j, e = .fl (.die t b c k j)) ∨ (∃ t c j, e = .mc (.die t c j)) → x'.fl.alive (who e) = false := by
  rintro (⟨t, b, c, k, j, rfl⟩ | ⟨t, c, j, rfl⟩)
  · rcases Seg.step_cases h with ⟨e', y, he, h1, rfl⟩ | ⟨e', y, he, h1, rfl, -⟩ <;> cases he
    rcases Seg.fl_alive h1 with ⟨_, _, _, _, _, he, -, e⟩ | ⟨e, -⟩
    · cases he; simp [fromFL, e, fset, who]
    · exact absurd rfl (e t b c k j)
  · rcases Seg.step_cases h with ⟨e', y, he, h1, rfl⟩ | ⟨e', y, he, h1, rfl, -⟩ <;> cases he
    rcases Seg.mc_alive h1 with ⟨_, _, _, he, -, e⟩ | ⟨e, -⟩
    · cases he; simp [fromMC, e, MC.upd, who]
    · exact absurd rfl (e t c j)

theorem gate_eq {x x' : Seg.State} {u : Nat} (h : x'.fl.pc u = x.fl.pc u ∧ x'.mc.pc u = x.mc.pc u) :
    gate x' u = gate x u := by
  simp only [gate, h.1, h.2]

/-! ### The loops -/

/-- What is known of a thread in the loop of a table lock. -/
def InLoop (x : Seg.State) (t : Nat) : LockId.Pc → Prop
  | .acq _ _ => ∃ k, gate x t = some (k, true)
  | .chk _ _ => ∃ k, gate x t = some (k, true)
  | .steal _ v => (∃ k, gate x t = some (k, true)) ∧ x.fl.alive v = false
  | _ => False

def L (s : State) : Prop := ∀ t p, s.loc t = .lk p → s.seg.fl.alive t = true → InLoop s.seg t p

theorem inLoop_keep {x x' : Seg.State} {t : Nat} {p : LockId.Pc} (hg : gate x' t = gate x t)
    (hd : ∀ v, x.fl.alive v = false → x'.fl.alive v = false) (h : InLoop x t p) : InLoop x' t p := by
  cases p <;> simp only [InLoop, hg] at h ⊢
  case steal => exact ⟨h.1, hd _ h.2⟩
  all_goals exact h

theorem set_own (x : Seg.State) (k : Tbl) : setTword x (tword x k) k = x := by cases k <;> rfl

/-- One round of the loop that takes a table lock. -/
theorem own_up {w t : Nat} {al : Nat → Bool} {p : LockId.Pc} (hw : w ≠ t)
    (hp : (∃ c o, p = .acq c o) ∨ (∃ c v, p = .chk c v) ∨ ∃ c v, p = .steal c v ∧ al v = false) :
    ((LockId.own ⟨w, al, fun _ => p⟩ t).pc t = .crit ∧ (LockId.own ⟨w, al, fun _ => p⟩ t).lockid = t ∧
      (w = 0 ∨ al w = false)) ∨
    ((LockId.own ⟨w, al, fun _ => p⟩ t).lockid = w ∧
      ((∃ c o, (LockId.own ⟨w, al, fun _ => p⟩ t).pc t = .acq c o) ∨
       (∃ c v, (LockId.own ⟨w, al, fun _ => p⟩ t).pc t = .chk c v) ∨
       ∃ c v, (LockId.own ⟨w, al, fun _ => p⟩ t).pc t = .steal c v ∧ al v = false)) := by
  rcases hp with ⟨c, o, rfl⟩ | ⟨c, v, rfl⟩ | ⟨c, v, rfl, hv⟩
  · simp only [LockId.own, hw, if_false]
    split
    · exact .inl ⟨by simp [LockId.State.setPc], rfl, .inl (by assumption)⟩
    · split
      · exact .inr ⟨rfl, .inl ⟨_, _, by simp [LockId.State.setPc]; exact ⟨rfl, rfl⟩⟩⟩
      · split
        · exact .inr ⟨rfl, .inr (.inl ⟨_, _, by simp [LockId.State.setPc]; exact ⟨rfl, rfl⟩⟩)⟩
        · exact .inr ⟨rfl, .inl ⟨_, _, by simp [LockId.State.setPc]; exact ⟨rfl, rfl⟩⟩⟩
  · simp only [LockId.own]
    split
    · exact .inr ⟨rfl, .inl ⟨_, _, by simp [LockId.State.setPc]; exact ⟨rfl, rfl⟩⟩⟩
    · rename_i h
      exact .inr ⟨rfl, .inr (.inr ⟨c, v, by simp [LockId.State.setPc], by simpa using h⟩)⟩
  · simp only [LockId.own]
    split
    · rename_i h
      exact .inl ⟨by simp [LockId.State.setPc], rfl, .inr (by rw [h]; exact hv)⟩
    · exact .inr ⟨rfl, .inl ⟨_, _, by simp [LockId.State.setPc]; exact ⟨rfl, rfl⟩⟩⟩

theorem loop_shape {s : State} {t : Nat} {k : Tbl} {up : Bool} (hL : L s) (ta : s.seg.fl.alive t = true)
    (hg : gate s.seg t = some (k, up)) :
    up = true ∧ ((∃ c o, inLoop (s.loc t) up = .acq c o) ∨ (∃ c v, inLoop (s.loc t) up = .chk c v) ∨
      ∃ c v, inLoop (s.loc t) up = .steal c v ∧ s.seg.fl.alive v = false) ∨
    up = false ∧ inLoop (s.loc t) up = .rel 0 0 := by
  cases hl : s.loc t with
  | lk p =>
    have h := hL t p hl ta
    simp only [inLoop]
    cases p <;> simp only [InLoop, hg] at h
    · obtain ⟨k', h⟩ := h; cases h; exact .inl ⟨rfl, .inl ⟨_, _, rfl⟩⟩
    · obtain ⟨k', h⟩ := h; cases h; exact .inl ⟨rfl, .inr (.inl ⟨_, _, rfl⟩)⟩
    · obtain ⟨⟨k', h⟩, h2⟩ := h; cases h; exact .inl ⟨rfl, .inr (.inr ⟨_, _, rfl, h2⟩)⟩
  | _ =>
    cases up
    · exact .inr ⟨rfl, rfl⟩
    · exact .inl ⟨rfl, .inl ⟨0, 0, rfl⟩⟩

/-- What one access in the loops does: the table lock is passed as in the segment, or nothing but the
bookkeeping of the thread changes. -/
theorem lk_cases {s s' : State} {t : Nat} (g : G s.seg) (hL : L s) (h : lkStep s t = some s') :
    s.seg.fl.alive t = true ∧
    ((∃ k, gate s.seg t = some (k, true) ∧ (tword s.seg k = 0 ∨ s.seg.fl.alive (tword s.seg k) = false) ∧
        s' = ⟨pass (setTword s.seg t k) t, fset s.loc t .none⟩) ∨
     (∃ k, gate s.seg t = some (k, false) ∧ s' = ⟨pass (setTword s.seg 0 k) t, fset s.loc t .none⟩) ∨
     (∃ p, s' = ⟨s.seg, fset s.loc t (.lk p)⟩ ∧ InLoop s.seg t p)) := by
  unfold lkStep at h
  split at h
  · cases h
  · rename_i ta
    simp only [Bool.not_eq_false] at ta
    refine ⟨ta, ?_⟩
    split at h
    · cases h
    · rename_i k up hg
      rcases loop_shape hL ta hg with ⟨rfl, hp⟩ | ⟨rfl, hp⟩
      · simp only at h
        rcases own_up (g.up t k ta hg) hp with ⟨e1, e2, e3⟩ | ⟨e1, e2⟩
        · simp only [e1, true_or, if_true, e2] at h
          cases h
          exact .inl ⟨k, hg, e3, rfl⟩
        · refine .inr (.inr ?_)
          simp only [e1, set_own] at h
          rcases e2 with ⟨c, o, e⟩ | ⟨c, v, e⟩ | ⟨c, v, e, e'⟩ <;> simp only [e, reduceCtorEq, or_self, if_false] at h <;>
            cases h
          · exact ⟨_, rfl, k, hg⟩
          · exact ⟨_, rfl, k, hg⟩
          · exact ⟨_, rfl, ⟨k, hg⟩, e'⟩
      · refine .inr (.inl ⟨k, hg, ?_⟩)
        have hk := g.down t k ta hg
        have e1 : (LockId.own ⟨tword s.seg k, s.seg.fl.alive, fun _ => .rel 0 0⟩ t).pc t = .out := by
          simp [LockId.own, hk, LockId.State.setPc]
        have e2 : (LockId.own ⟨tword s.seg k, s.seg.fl.alive, fun _ => .rel 0 0⟩ t).lockid = 0 := by
          simp [LockId.own, hk, LockId.State.setPc]
        simp only [hp, e1, e2, or_true, if_true] at h
        cases h
        rfl

theorem pass_other (x : Seg.State) (t : Nat) {u : Nat} (hu : u ≠ t) :
    (pass x t).fl.pc u = x.fl.pc u ∧ (pass x t).mc.pc u = x.mc.pc u := by
  unfold pass
  split
  · simp [FLMem.setPc, fset, hu]
  · simp [FLMem.setPc, fset, hu]
  · split <;> simp [MC.upd, hu]

/-! ### The simulation -/

/-- A step, not a call or a death. -/
def isGo : Seg.Ev → Bool
  | .fl (.go ..) => true
  | .mc (.go ..) => true
  | _ => false

/-- Who makes the step, and whose bookkeeping changes. -/
def actor : Ev → Nat
  | .seg e => who e
  | .lk t => t
  | .load t _ => t
  | .cas t _ => t

/-- One access is a step of the segment or leaves the segment as it is. -/
theorem fine_cases {cnt : Pool → Nat} {fuel : Nat} {base : Nat → Nat} {s s' : State} {e : Ev} (g : G s.seg) (hL : L s)
    (h : step cnt fuel base s e = some s') :
    (s'.seg = s.seg ∧ ∀ e', e ≠ .seg e') ∨
    ∃ e', Seg.step cnt fuel base s.seg e' = some s'.seg ∧ who e' = actor e ∧ (∀ t c, e = .load t c → s'.loc t = .none) ∧
      (e = .seg e' ∨ isGo e' = true ∧ ∀ e', e ≠ .seg e') := by
  cases e with
  | seg e =>
    simp only [step] at h
    split at h
    · obtain ⟨x, h1, rfl⟩ := Option.map_eq_some_iff.1 h
      exact .inr ⟨e, h1, rfl, by simp, .inl rfl⟩
    · cases h
  | lk t =>
    obtain ⟨ta, ⟨k, hg, hk, rfl⟩ | ⟨k, hg, rfl⟩ | ⟨p, rfl, -⟩⟩ := lk_cases g hL h
    · exact .inr ⟨gateEv base t k, pass_up g ta hg hk, by cases k <;> rfl, by simp, .inr ⟨by cases k <;> rfl, by simp⟩⟩
    · exact .inr ⟨gateEv base t k, pass_down g ta hg, by cases k <;> rfl, by simp, .inr ⟨by cases k <;> rfl, by simp⟩⟩
    · exact .inl ⟨rfl, by simp⟩
  | load t c =>
    simp only [step, loadStep] at h
    split at h
    · cases h
    · rename_i hn
      rw [not_or] at hn
      obtain ⟨x, h1, h2⟩ := Option.bind_eq_some_iff.1 h
      obtain ⟨o, h3, h4⟩ := Option.map_eq_some_iff.1 h2
      split at h4
      · subst h4
        exact .inr ⟨_, h1, rfl, by rintro _ _ ⟨⟩; exact Decidable.not_not.1 hn.1, .inr ⟨rfl, by simp⟩⟩
      · subst h4
        exact .inl ⟨rfl, by simp⟩
  | cas t over =>
    simp only [step, casStep] at h
    split at h
    · split at h
      · cases h
      · split at h
        · split at h <;> obtain ⟨x, h1, rfl⟩ := Option.map_eq_some_iff.1 h <;>
            exact .inr ⟨_, h1, rfl, by simp, .inr ⟨rfl, by simp⟩⟩
        · split at h
          · obtain ⟨x, h1, rfl⟩ := Option.map_eq_some_iff.1 h
            exact .inr ⟨_, h1, rfl, by simp, .inr ⟨rfl, by simp⟩⟩
          · split at h
            · cases h; exact .inl ⟨rfl, by simp⟩
            · cases h
    · cases h

theorem fine_other {cnt : Pool → Nat} {fuel : Nat} {base : Nat → Nat} {s s' : State} {e : Ev} (g : G s.seg) (hL : L s)
    (h : step cnt fuel base s e = some s') {u : Nat} (hu : u ≠ actor e) :
    s'.seg.fl.pc u = s.seg.fl.pc u ∧ s'.seg.mc.pc u = s.seg.mc.pc u ∧ s'.loc u = s.loc u := by
  cases e with
  | seg e =>
    simp only [step] at h
    split at h
    · obtain ⟨x, h1, rfl⟩ := Option.map_eq_some_iff.1 h
      have := seg_other h1 hu
      exact ⟨this.1, this.2, rfl⟩
    · cases h
  | lk t =>
    have hu : u ≠ t := hu
    obtain ⟨ta, ⟨k, hg, hk, rfl⟩ | ⟨k, hg, rfl⟩ | ⟨p, rfl, -⟩⟩ := lk_cases g hL h
    · have := seg_other (pass_up (cnt := cnt) (fuel := fuel) (base := base) g ta hg hk) (u := u)
        (by cases k <;> exact hu)
      exact ⟨this.1, this.2, by simp [fset, hu]⟩
    · have := seg_other (pass_down (cnt := cnt) (fuel := fuel) (base := base) g ta hg) (u := u)
        (by cases k <;> exact hu)
      exact ⟨this.1, this.2, by simp [fset, hu]⟩
    · exact ⟨rfl, rfl, by simp [fset, hu]⟩
  | load t c =>
    have hu : u ≠ t := hu
    simp only [step, loadStep] at h
    split at h
    · cases h
    · obtain ⟨x, h1, h2⟩ := Option.bind_eq_some_iff.1 h
      obtain ⟨o, h3, h4⟩ := Option.map_eq_some_iff.1 h2
      split at h4
      · subst h4
        have := seg_other h1 hu
        exact ⟨this.1, this.2, rfl⟩
      · subst h4
        exact ⟨rfl, rfl, by simp [State.setLoc, fset, hu]⟩
  | cas t over =>
    have hu : u ≠ t := hu
    have hfs : ∀ l, fset s.loc t l u = s.loc u := fun l => by simp [fset, hu]
    simp only [step, casStep] at h
    split at h
    · split at h
      · cases h
      · split at h
        · split at h <;> obtain ⟨x, h1, rfl⟩ := Option.map_eq_some_iff.1 h <;>
            (have := seg_other h1 hu; exact ⟨this.1, this.2, hfs _⟩)
        · split at h
          · obtain ⟨x, h1, rfl⟩ := Option.map_eq_some_iff.1 h
            have := seg_other h1 hu; exact ⟨this.1, this.2, hfs _⟩
          · split at h
            · cases h; exact ⟨rfl, rfl, hfs _⟩
            · cases h
    · cases h

theorem fine_dead {cnt : Pool → Nat} {fuel : Nat} {base : Nat → Nat} {s s' : State} {e : Ev} (g : G s.seg) (hL : L s)
    (h : step cnt fuel base s e = some s') {u : Nat} (hu : s.seg.fl.alive u = false) : s'.seg.fl.alive u = false := by
  rcases fine_cases g hL h with ⟨e, -⟩ | ⟨e', h1, -⟩
  · rw [e]; exact hu
  · exact seg_dead g.alive h1 hu

theorem cas_loc {cnt : Pool → Nat} {fuel : Nat} {base : Nat → Nat} {s s' : State} {t : Nat} {over : Bool}
    (h : casStep cnt fuel base s t over = some s') : s'.loc t = .none := by
  simp only [casStep] at h
  split at h
  · split at h
    · cases h
    · split at h
      · split at h <;> obtain ⟨x, h1, rfl⟩ := Option.map_eq_some_iff.1 h <;> simp [fset]
      · split at h
        · obtain ⟨x, h1, rfl⟩ := Option.map_eq_some_iff.1 h; simp [fset]
        · split at h
          · cases h; simp [State.setLoc, fset]
          · cases h
  · cases h

/-- A thread that starts a call is at no table lock. -/
theorem call_gate {cnt : Pool → Nat} {fuel : Nat} {base : Nat → Nat} {x x' : Seg.State} {e : Seg.Ev}
    (h : Seg.step cnt fuel base x e = some x') (he : (∃ t c, e = .fl (.call t c)) ∨ ∃ t c, e = .mc (.call t c)) :
    gate x (who e) = none := by
  rcases he with ⟨t, c, rfl⟩ | ⟨t, c, rfl⟩
  · simp only [Seg.step] at h
    split at h
    · rename_i hi
      obtain ⟨r, hr⟩ := Props.idle_mc hi
      obtain ⟨y, h1, -⟩ := Option.map_eq_some_iff.1 h
      simp only [FLMem.step] at h1
      split at h1
      · cases h1
      · split at h1
        · rename_i hp
          simp [gate, who, hr, hp]
        · cases h1
    · cases h
  · simp only [Seg.step] at h
    split at h
    · rename_i hi
      obtain ⟨r, hr⟩ := Props.idle_fl hi
      obtain ⟨y, h1, -⟩ := Option.map_eq_some_iff.1 h
      simp only [MCMem.step] at h1
      split at h1
      · cases h1
      · split at h1
        · rename_i hp
          simp [gate, who, hr, hp]
        · cases h1
    · cases h

theorem l_step {cnt : Pool → Nat} {fuel : Nat} {base : Nat → Nat} {s s' : State} {e : Ev} (g : G s.seg) (hL : L s)
    (h : step cnt fuel base s e = some s') : L s' := by
  intro u p hp ua
  by_cases hu : u = actor e
  · subst hu
    cases e with
    | seg e =>
      exfalso
      simp only [step] at h
      split at h
      · rename_i hfr
        obtain ⟨x, h1, rfl⟩ := Option.map_eq_some_iff.1 h
        simp only [actor] at hp ua
        have ua0 : s.seg.fl.alive (who e) = true := by
          cases ha : s.seg.fl.alive (who e) with
          | true => rfl
          | false => rw [seg_dead g.alive h1 ha] at ua; cases ua
        have hI := hL _ p hp ua0
        have hg : gate s.seg (who e) ≠ none := by
          cases p <;> simp only [InLoop] at hI
          · obtain ⟨k, hI⟩ := hI; simp [hI]
          · obtain ⟨k, hI⟩ := hI; simp [hI]
          · obtain ⟨⟨k, hI⟩, -⟩ := hI; simp [hI]
        cases e with
        | fl e => cases e with
          | call t c => exact hg (call_gate h1 (.inl ⟨_, _, rfl⟩))
          | go t b c =>
            simp only [free, Bool.and_eq_true, Option.isNone_iff_eq_none] at hfr
            exact hg hfr.1.1
          | die t b c k j => rw [seg_die h1 (.inl ⟨_, _, _, _, _, rfl⟩)] at ua; cases ua
        | mc e => cases e with
          | call t c => exact hg (call_gate h1 (.inr ⟨_, _, rfl⟩))
          | go t c =>
            simp only [free, Option.isNone_iff_eq_none] at hfr
            exact hg hfr
          | die t c j => rw [seg_die h1 (.inr ⟨_, _, _, rfl⟩)] at ua; cases ua
      · cases h
    | lk t =>
      obtain ⟨ta, ⟨k, hg, hk, rfl⟩ | ⟨k, hg, rfl⟩ | ⟨q, rfl, hq⟩⟩ := lk_cases g hL h
      · simp [fset, actor] at hp
      · simp [fset, actor] at hp
      · simp only [fset, actor, if_true, Loc.lk.injEq] at hp
        subst hp
        exact hq
    | load t c =>
      exfalso
      simp only [step, loadStep] at h
      split at h
      · cases h
      · rename_i hn
        rw [not_or] at hn
        replace hn : s.loc t = .none := Decidable.not_not.1 hn.1
        obtain ⟨x, h1, h2⟩ := Option.bind_eq_some_iff.1 h
        obtain ⟨o, h3, h4⟩ := Option.map_eq_some_iff.1 h2
        split at h4
        · subst h4; simp only [actor] at hp; rw [hn] at hp; cases hp
        · subst h4; simp [State.setLoc, fset, actor] at hp
    | cas t over =>
      exfalso
      have hfs : s'.loc t = .none := cas_loc h
      rw [show actor (.cas t over) = t from rfl, hfs] at hp
      cases hp
  · obtain ⟨h1, h2, h3⟩ := fine_other g hL h hu
    rw [h3] at hp
    have ua0 : s.seg.fl.alive u = true := by
      cases ha : s.seg.fl.alive u with
      | true => rfl
      | false => rw [fine_dead g hL h ha] at ua; cases ua
    exact inLoop_keep (gate_eq ⟨h1, h2⟩) (fun v hv => fine_dead g hL h hv) (hL u p hp ua0)

/-- A reachable state is a reachable state of the segment. -/
theorem fine_reach {cnt : Pool → Nat} (hl : Props.Limits cnt) {fuel : Nat} (hf : MCMem.Fuel cnt fuel)
    {base : Nat → Nat} {A : Seg.State → Seg.Ev → Prop} (hA : Loose A) {s : State} (hr : Reach cnt fuel base A s) :
    Seg.Reach cnt fuel base A s.seg ∧ G s.seg ∧ L s := by
  have key : Seg.Reach cnt fuel base A s.seg ∧ L s := by
    induction hr with
    | init jf jm h => exact ⟨.init jf jm h, fun t p h => by cases h⟩
    | step _ ha hs ih =>
      obtain ⟨i1, i2⟩ := ih
      have g := g_reach hl hf (Props.seg_mono (fun _ _ _ => trivial) i1)
      refine ⟨?_, l_step g i2 hs⟩
      rcases fine_cases g i2 hs with ⟨e, -⟩ | ⟨e', h1, -, -, rfl | ⟨hgo, -⟩⟩
      · rw [e]; exact i1
      · exact .step i1 (ha _ rfl) h1
      · refine .step i1 ?_ h1
        cases e' with
        | fl e => cases e <;> first | exact hA.1 _ _ _ _ | cases hgo
        | mc e => cases e <;> first | exact hA.2 _ _ _ | cases hgo
  exact ⟨key.1, g_reach hl hf (Props.seg_mono (fun _ _ _ => trivial) key.1), key.2⟩

end Fullock.Fine
