import Verif.Proofs.WholeInv
/-
C78: recursive locks of several processes, on the tables of the segment.
-/
namespace Fullock.Whole
open Fullock.Rcsv (Op Obj Ty)
open Fullock.Rcsv.Conc (Prog Frame CState)
open Fullock.Props.RcsvConc (Ghost okC)

variable {P : Par} {R : DevIno → Rng → Prop} {F : Nat → Rcsv.Rng → Prop} {r : Nat → Nat → Rcsv.Rng}

theorem owner_step {c c' : CState} {t : Nat} (h : Rcsv.Conc.step c t = some c') :
    c'.owner = c.owner ∨ c'.owner = some t ∨ c'.owner = none := by
  unfold Rcsv.Conc.step at h
  split at h
  all_goals (try split at h) <;> (try split at h)
  all_goals first
    | (cases h; done)
    | (simp only [Option.some.injEq] at h; subst h; simp [CState.goto, CState.touch])

/-- A thread about to call the segment does not hold the lock of the table of its process. -/
theorem head_owner (hfit : Fits P R F r) {p : Nat} {a : CState} {g : Ghost} (h : Props.RcsvConc.Reach (okC (F p)) (r p) a g)
    {t : Nat} {f : Frame} (hf : a.run t = some f) (hq : segCall P t f.prog ≠ none) : a.owner ≠ some t := by
  have hI := Props.RcsvConc.reach_inv (hfit.sepF p) (fun i => (hfit.obj p i).1) h
  obtain ⟨pr, os, op⟩ := f
  obtain ⟨_, s0, os0, b, s1, _, _, _, hex, _⟩ := (hI.thr t).run pr os op hf
  intro ho
  have hg : (Rcsv.Conc.proj (r p) t a).glob = true := by simp [Rcsv.Conc.proj, ho]
  cases pr with
  | grant q w k => simp [Rcsv.Conc.exec, hg] at hex
  | free q k => simp [Rcsv.Conc.exec, hg] at hex
  | _ => exact hq rfl

theorem seg_owner (hfit : Fits P R F r) {s : State} {G : Nat → Ghost} (h : Reach P R F r s G) :
    ∀ t, s.inSeg t = true → (s.proc (P.pr t)).owner ≠ some t := by
  induction h with
  | init => intro t h; cases h
  | call h t op ht hok s' e ih =>
    intro u hu
    simp only [step] at e
    split at e
    · simp only [Option.map_eq_some_iff] at e
      obtain ⟨c', hc, rfl⟩ := e
      simp only [State.setProc]
      split
      · rename_i hp
        unfold Rcsv.Conc.call at hc
        split at hc
        · cases hc
          rw [← hp]; exact ih u hu
        · cases hc
      · exact ih u hu
    · cases e
  | own h t s' e ih =>
    rename_i s G
    intro u hu
    have hI := reach_sys hfit h
    simp only [step] at e
    split at e
    · cases hrun : (s.proc (P.pr t)).run t with
      | none => rw [hrun] at e; cases e
      | some f =>
        rw [hrun] at e
        simp only at e
        cases hsc : segCall P t f.prog with
        | some _ => rw [hsc] at e; cases e
        | none =>
          rw [hsc] at e
          simp only [Option.map_eq_some_iff] at e
          obtain ⟨c', hc, rfl⟩ := e
          have hu' : s.inSeg u = true := hu
          simp only [State.setProc]
          split
          · rename_i hp
            have hut : u ≠ t := by
              intro h
              subst h
              obtain ⟨_, f', hf', hA⟩ := hI.seg u hu'
              rw [hrun] at hf'; cases hf'
              rcases hA.cases with ⟨q, w, k, e, _⟩ | ⟨q, k, e, _⟩ <;> rw [e] at hsc <;> cases hsc
            rcases owner_step hc with h | h | h
            · rw [h, ← hp]; exact ih u hu'
            · rw [h]; simpa using fun h : t = u => hut h.symm
            · rw [h]; simp
          · exact ih u hu'
    · cases e
  | enter h t s' e ih =>
    rename_i s G
    intro u hu
    have hI := reach_sys hfit h
    simp only [step] at e
    split at e
    · rename_i hcond
      simp only [Bool.and_eq_true, Bool.not_eq_true'] at hcond
      obtain ⟨hcls, hin⟩ := hcond
      cases hrun : (s.proc (P.pr t)).run t with
      | none => rw [hrun] at e; cases e
      | some f =>
        rw [hrun] at e
        simp only at e
        cases hsc : segCall P t f.prog with
        | none => rw [hsc] at e; cases e
        | some c =>
          rw [hsc] at e
          simp only [Option.map_eq_some_iff] at e
          obtain ⟨fl', hs, rfl⟩ := e
          by_cases hut : u = t
          · subst hut
            obtain ⟨a, g1, g2⟩ := hI.sim (P.pr u)
            have harun : a.run u = some f := by rw [g2.frame hrun, hin, adv_false]
            have := head_owner hfit g1 harun (by rw [hsc]; simp)
            rw [g2.owner] at this
            exact this
          · simp only [State.mark, hut, if_false] at hu
            exact ih u hu
    · cases e
  | seg h t c s' e ih =>
    intro u hu
    simp only [step] at e
    split at e
    · simp only [Option.map_eq_some_iff] at e
      obtain ⟨fl', hs, rfl⟩ := e
      exact ih u hu
    · cases e
  | leave h t hg s' e ih =>
    rename_i s G
    intro u hu
    simp only [step] at e
    split at e
    · split at e
      · cases e
        have hut : u ≠ t := fun h => by simp [State.mark, h] at hu
        simp only [State.mark, State.setProc, hut, if_false] at hu
        simp only [State.mark, State.setProc]
        split
        · rename_i hp
          simp only [CState.goto]
          rw [← hp]; exact ih u hu
        · exact ih u hu
      · cases e
    · cases e
  | other h e' ha s' e ih =>
    intro u hu
    simp only [step] at e
    split at e
    · cases e
    · simp only [Option.map_eq_some_iff] at e
      obtain ⟨fl', hs, rfl⟩ := e
      exact ih u hu

end Fullock.Whole

namespace Fullock.Props
open Fullock.Whole Fullock.Spec.Rcsv
open Fullock.Rcsv (Op Ty)
open Fullock.Rcsv.Conc (Prog Frame CState)
open Fullock.Props.RcsvConc (Ghost okC)

/-! ### C78 -/

/-- C78 as stated: at every moment, a thread that was told it has an exclusive lock is the only one, of all threads of
all processes, that was told it has a lock of a byte in common in the same file. -/
def C78_full : Prop :=
  ∀ P R F r, Fits P R F r → ∀ s G, Whole.Reach P R F r s G → ∀ p q i j, (r p i).tid ≠ (r q j).tid →
    (G p).know i = .excl → ((G q).know j).must = true →
    ¬ (P.key p ((s.proc p).sh.obj i).rng.fd = P.key q ((s.proc q).sh.obj j).rng.fd ∧
      Spec.Overlap (conv ((s.proc p).sh.obj i).rng) (conv ((s.proc q).sh.obj j).rng))

variable {P : Par} {R : DevIno → Rng → Prop} {F : Nat → Rcsv.Rng → Prop} {r : Nat → Nat → Rcsv.Rng}

/-- Each process is in a state it could be in on a segment that grants and releases at once, with the same results of
its calls; what it holds there are the locks of its threads in force in the tables. -/
theorem C78_process_partial (hfit : Fits P R F r) {s : Whole.State} {G : Nat → Ghost} (h : Whole.Reach P R F r s G) (p : Nat) :
    ∃ a, RcsvConc.Reach (okC (F p)) (r p) a (G p) ∧ a.sh.obj = (s.proc p).sh.obj ∧ a.sh.stack = (s.proc p).sh.stack ∧
      a.sh.glob = (s.proc p).sh.glob ∧ a.sh.race = (s.proc p).sh.race ∧ a.owner = (s.proc p).owner ∧
      (∀ t, s.inSeg t = false → a.run t = (s.proc p).run t) ∧
      ∀ x : Rcsv.Rng × Ty, x ∈ a.sh.held ↔ ∃ y ∈ s.fl.mem.outs, P.cls y.2.t = true ∧ P.pr y.2.t = p ∧
        x.1.tid = y.2.t ∧ x.1.fd = y.2.fd ∧ x.1.off = y.2.rng.off.toNat ∧ x.1.len = y.2.rng.len.toNat ∧
        x.2 = if y.2.mode = .wr then .write else .read := by
  obtain ⟨a, g1, g2⟩ := (reach_sys hfit h).sim p
  obtain ⟨hh, g3, g4⟩ := g2.sh
  refine ⟨a, g1, by rw [g3], by rw [g3], by rw [g3], by rw [g3], g2.owner, fun t ht => ?_, fun x => ?_⟩
  · rw [g2.run t, ht]
    cases (s.proc p).run t with
    | none => rfl
    | some f => simp [adv_false]
  · rw [show a.sh.held = hh by rw [g3], g4.mem_iff]
    constructor
    · intro hx
      obtain ⟨y, y1, y2, y3, rfl⟩ := mem_heldOf hx
      exact ⟨y, y1, y2, y3, rfl, rfl, rfl, rfl, rfl⟩
    · rintro ⟨y, y1, y2, y3, e1, e2, e3, e4, e5⟩
      have : x = back y := by
        obtain ⟨⟨a, b, c, d⟩, e⟩ := x
        simp only at e1 e2 e3 e4 e5
        subst e1; subst e2; subst e3; subst e4; subst e5; rfl
      rw [this]; exact heldOf_mem y1 y2 y3

/-- An object its user was told is locked is backed by a lock of its thread in the tables, on its file and range, for
writing if it is exclusive, unless its thread is in a call on that range. -/
theorem C78_held_partial (hfit : Fits P R F r) {s : Whole.State} {G : Nat → Ghost} (h : Whole.Reach P R F r s G) (p i : Nat)
    (hm : ((G p).know i).must = true) (hu : ((s.proc p).sh.obj i).rng ∉ (G p).use (r p i).tid) :
    ∃ x ∈ s.fl.mem.outs, x.2.t = (r p i).tid ∧ x.2.fd = ((s.proc p).sh.obj i).rng.fd ∧
      x.2.key = P.key p ((s.proc p).sh.obj i).rng.fd ∧ x.2.rng = conv ((s.proc p).sh.obj i).rng ∧
      ((G p).know i = .excl → x.2.mode = .wr) := by
  have hI := reach_sys hfit h
  obtain ⟨a, g1, g2⟩ := hI.sim p
  obtain ⟨hh, g3, g4⟩ := g2.sh
  have hobj : a.sh.obj = (s.proc p).sh.obj := by rw [g3]
  obtain ⟨ty, h1, h2⟩ := C70_held_partial (hfit.sepF p) (fun i => (hfit.obj p i).1) g1 i hm (by rw [hobj]; exact hu)
  have hB := (RcsvConc.reach_inv (hfit.sepF p) (fun i => (hfit.obj p i).1) g1).base.tid i
  rw [hobj] at h1 hB
  rw [show a.sh.held = hh by rw [g3], g4.mem_iff] at h1
  obtain ⟨y, y1, y2, y3, hy⟩ := mem_heldOf h1
  obtain ⟨y4, _⟩ := hI.outs y y1 y2
  have e1 : (back y).1 = ((s.proc p).sh.obj i).rng := by rw [hy]
  have efd : y.2.fd = ((s.proc p).sh.obj i).rng.fd := by rw [← e1]; rfl
  refine ⟨y, y1, ?_, efd, ?_, ?_, ?_⟩
  · rw [← hB, ← e1]; rfl
  · rw [y4, y3, efd]
  · rw [← e1, back_rng]
  · intro hx
    have e2 : (back y).2 = .write := by rw [hy]; exact h2 hx
    simp only [back] at e2
    split at e2
    · assumption
    · cases e2

/-- C78 for objects whose threads are not in a call on the range of the object. -/
theorem C78_exclusion_partial (hfit : Fits P R F r) {s : Whole.State} {G : Nat → Ghost} (h : Whole.Reach P R F r s G)
    (p q i j : Nat) (ht : (r p i).tid ≠ (r q j).tid) (hi : (G p).know i = .excl) (hj : ((G q).know j).must = true)
    (ui : ((s.proc p).sh.obj i).rng ∉ (G p).use (r p i).tid) (uj : ((s.proc q).sh.obj j).rng ∉ (G q).use (r q j).tid) :
    ¬ (P.key p ((s.proc p).sh.obj i).rng.fd = P.key q ((s.proc q).sh.obj j).rng.fd ∧
      Spec.Overlap (conv ((s.proc p).sh.obj i).rng) (conv ((s.proc q).sh.obj j).rng)) := by
  rintro ⟨hk, ho⟩
  have hI := reach_sys hfit h
  obtain ⟨x, x1, x2, x3, x4, x5, x6⟩ := C78_held_partial hfit h p i (by rw [hi]; rfl) ui
  obtain ⟨y, y1, y2, y3, y4, y5, y6⟩ := C78_held_partial hfit h q j hj uj
  have hex : Spec.Exclusive s.fl :=
    FL.exclusive_of_inv (FL.separate_clustered hfit.sep) (FL.reach_sinv hI.fl) (FL.reach_winv okIn_ok hI.fl)
      (FL.reach_rinv okIn_in hI.fl)
  have hne : x.1 ≠ y.1 := by
    intro e
    by_cases hxy : x = y
    · rw [hxy] at x2; exact ht (x2.symm.trans y2)
    · rcases pairwise_or (List.pairwise_map.1 (FL.reach_sinv hI.fl).outs.2) x1 y1 hxy with c | c
      · exact c e
      · exact c e.symm
  exact hex x x1 y y1 hne ⟨by rw [x4, y4, hk], by rw [x5, y5]; exact ho, .inl (x6 hi)⟩

/-- The same with a lock of a thread that uses the segment directly: it does not exclude the lock of an object, and the
lock of an object does not exclude it. -/
theorem C78_direct_partial (hfit : Fits P R F r) {s : Whole.State} {G : Nat → Ghost} (h : Whole.Reach P R F r s G)
    (p i : Nat) (hi : ((G p).know i).must = true) (ui : ((s.proc p).sh.obj i).rng ∉ (G p).use (r p i).tid)
    (y : Nat × FL.Out) (hy : y ∈ s.fl.mem.outs) (ht : y.2.t ≠ (r p i).tid) (hw : (G p).know i = .excl ∨ y.2.mode = .wr) :
    ¬ (y.2.key = P.key p ((s.proc p).sh.obj i).rng.fd ∧ Spec.Overlap y.2.rng (conv ((s.proc p).sh.obj i).rng)) := by
  rintro ⟨hk, ho⟩
  have hI := reach_sys hfit h
  obtain ⟨x, x1, x2, x3, x4, x5, x6⟩ := C78_held_partial hfit h p i hi ui
  have hex : Spec.Exclusive s.fl :=
    FL.exclusive_of_inv (FL.separate_clustered hfit.sep) (FL.reach_sinv hI.fl) (FL.reach_winv okIn_ok hI.fl)
      (FL.reach_rinv okIn_in hI.fl)
  have hne : y.1 ≠ x.1 := by
    intro e
    by_cases hxy : y = x
    · rw [hxy] at ht; exact ht x2
    · rcases pairwise_or (List.pairwise_map.1 (FL.reach_sinv hI.fl).outs.2) hy x1 hxy with c | c
      · exact c e
      · exact c e.symm
  exact hex y hy x x1 hne ⟨by rw [x4, hk], by rw [x5]; exact ho, hw.symm.imp id x6⟩

/-- A thread outside of the class none of whose objects is locked has no lock in the tables. -/
theorem C78_released_partial (hfit : Fits P R F r) {s : Whole.State} {G : Nat → Ghost} (h : Whole.Reach P R F r s G) (t : Nat)
    (hc : P.cls t = true) (ht : (s.proc (P.pr t)).run t = none)
    (hk : ∀ i, (r (P.pr t) i).tid = t → (G (P.pr t)).know i = .free) : ∀ x ∈ s.fl.mem.outs, x.2.t ≠ t := by
  intro x hx e
  have hI := reach_sys hfit h
  obtain ⟨a, g1, g2⟩ := hI.sim (P.pr t)
  obtain ⟨hh, g3, g4⟩ := g2.sh
  have := (C70_released_partial (hfit.sepF _) (fun i => (hfit.obj _ i).1) g1 t (by rw [g2.run t, ht]; rfl) hk).1 (back x)
    (by rw [show a.sh.held = hh by rw [g3], g4.mem_iff]; exact heldOf_mem hx (by rw [e]; exact hc) (by rw [e]))
  exact this e

/-- The table of a process is used by the holder of its lock only; a thread in the segment does not hold that lock; the
thread that holds it is in a call and can go on. -/
theorem C78_table_partial (hfit : Fits P R F r) {s : Whole.State} {G : Nat → Ghost} (h : Whole.Reach P R F r s G) (p : Nat) :
    (s.proc p).sh.race = false ∧ (∀ t, s.inSeg t = true → (s.proc (P.pr t)).owner ≠ some t) ∧
    ((s.proc p).sh.glob = true ↔ (s.proc p).owner ≠ none) ∧
    ∀ t, (s.proc p).owner = some t → P.cls t = true ∧ P.pr t = p ∧ (Whole.step P s (.own t)).isSome = true := by
  have hI := reach_sys hfit h
  obtain ⟨a, g1, g2⟩ := hI.sim p
  obtain ⟨hh, g3, g4⟩ := g2.sh
  have hI2 := RcsvConc.reach_inv (hfit.sepF p) (fun i => (hfit.obj p i).1) g1
  refine ⟨?_, seg_owner hfit h, ?_, fun t ht => ?_⟩
  · have := hI2.base.race; rw [g3] at this; exact this
  · have := hI2.base.glob
    rw [g3, g2.owner] at this
    simp only at this
    rw [this]
    cases (s.proc p).owner <;> simp
  · have hst := owner_steps hI2 t (by rw [g2.owner]; exact ht)
    cases hrun : (s.proc p).run t with
    | none =>
      have : a.run t = none := by rw [g2.run t, hrun]; rfl
      simp [Rcsv.Conc.step, this] at hst
    | some f =>
      obtain ⟨h1, h2, h3⟩ := hI.run p t f hrun
      refine ⟨h1, h2, ?_⟩
      subst h2
      have hin : s.inSeg t = false := by
        cases hin : s.inSeg t with
        | false => rfl
        | true => exact absurd ht (seg_owner hfit h t hin)
      have harun : a.run t = some f := by rw [g2.frame hrun, hin, adv_false]
      have hsc : segCall P t f.prog = none := by
        by_contra hn
        exact head_owner hfit g1 harun hn (by rw [g2.owner]; exact ht)
      simp only [Whole.step, h1, if_true, hrun, hsc, Option.isSome_map]
      obtain ⟨pp, os, op⟩ := f
      unfold Rcsv.Conc.step at hst ⊢
      rw [harun] at hst
      rw [hrun]
      cases pp with
      | lock k =>
        simp only at hst ⊢
        rw [g3] at hst
        split at hst
        · cases hst
        · rename_i hg
          rw [if_neg (by simpa using hg)]; rfl
      | grant q w k => cases hsc
      | free q k => cases hsc
      | _ => rfl

/-! ### Runs for the refutation and the examples -/

/-- Events of a run; the steps of a thread outside of and in the segment are counted. -/
inductive WhAct where
  | call (t : Nat) (op : Op)
  | own (t n : Nat)
  | enter (t : Nat)
  | seg (t n : Nat)
  | leave (t : Nat)
  | direct (e : FL.Ev)

/-- The processes of the runs: thread 10·p + k belongs to process p and uses the class if k < 8; one file. -/
def whP : Par where
  cls := fun t => decide (t % 10 < 8)
  pr := fun t => t / 10
  key := fun _ _ => (1#64, 1#64)
  freeOff := fun _ => true
  freeFd := fun _ => false

/-- Objects 0 and 1 belong to the first thread of the process, the others to the second; object 3 has a range of its
own. -/
def whR (p i : Nat) : Rcsv.Rng :=
  ⟨10 * p + (if i = 0 ∨ i = 1 then 1 else 2), 3, if i = 3 then 100 else 0, 10⟩

def whF (_ : Nat) (a : Rcsv.Rng) : Prop := a.fd = 3 ∧ (a.off = 0 ∨ a.off = 100) ∧ a.len = 10

def whG (_ : DevIno) (g : Rng) : Prop := g = ⟨0#64, 10#64⟩ ∨ g = ⟨100#64, 10#64⟩

theorem wh_fits : Fits whP whG whF whR := by
  refine ⟨⟨?_, ?_⟩, ?_, fun p i => ?_⟩
  · rintro k g (rfl | rfl) <;> (unfold Spec.SaneRange; decide)
  · rintro k g g' (rfl | rfl) (rfl | rfl)
    · exact .inl rfl
    · right; rintro ⟨b, ⟨_, h1⟩, h2, _⟩; simp at h1 h2; omega
    · right; rintro ⟨b, ⟨h1, _⟩, _, h2⟩; simp at h1 h2; omega
    · exact .inl rfl
  · rintro p ⟨t, f, o, l⟩ ⟨rfl, h | h, rfl⟩ <;> simp only at h <;> subst h
    · exact ⟨by simp, by simp, .inl rfl⟩
    · exact ⟨by simp, by simp, .inr rfl⟩
  · refine ⟨⟨rfl, ?_, rfl⟩, ?_, ?_⟩
    · simp only [whR]; split <;> simp
    · simp only [whR, whP]; split <;> simp <;> omega
    · simp only [whR, whP]; split <;> omega

/-- Requests of direct callers in the family; nobody dies. -/
def directOk : FL.Ev → Bool
  | .call _ (.lock op) => decide (op.rng = ⟨0#64, 10#64⟩) || decide (op.rng = ⟨100#64, 10#64⟩)
  | .die _ _ _ => false
  | _ => true

/-- The result of a lock request in the segment is success. -/
def grantOk (s : Whole.State) (t : Nat) : Bool :=
  match s.fl.pc t with
  | .done 0 => true
  | _ =>
    match (s.proc (whP.pr t)).run t with
    | some ⟨.grant _ _ _, _, _⟩ => false
    | _ => true

def whTimes (f : Whole.State × (Nat → Ghost) → Option (Whole.State × (Nat → Ghost))) :
    Nat → Whole.State × (Nat → Ghost) → Option (Whole.State × (Nat → Ghost))
  | 0, x => some x
  | n + 1, x =>
    match f x with
    | none => none
    | some y => whTimes f n y

def whOwn (t : Nat) (x : Whole.State × (Nat → Ghost)) : Option (Whole.State × (Nat → Ghost)) :=
  (Whole.step whP x.1 (.own t)).map fun s' =>
    (s', fun p => if p = whP.pr t then (x.2 p).learn (x.1.proc p) t else x.2 p)

def whSeg (t : Nat) (x : Whole.State × (Nat → Ghost)) : Option (Whole.State × (Nat → Ghost)) :=
  (Whole.step whP x.1 (.seg t .go)).map fun s' => (s', x.2)

def whAct (x : Whole.State × (Nat → Ghost)) : WhAct → Option (Whole.State × (Nat → Ghost))
  | .call t op =>
    if (whR (whP.pr t) (Rcsv.opObj op)).tid = t ∧ isLockAt op = false ∧
        (isUnlock op = true ∨ (x.1.proc (whP.pr t)).sh.stack.elem (Rcsv.opObj op) = false) then
      (Whole.step whP x.1 (.call t op)).map fun s' => (s', fun p => if p = whP.pr t then
        { x.2 p with use := fun u => if u = t then Fullock.Rcsv.Conc.ranges (x.1.proc p).sh op else (x.2 p).use u } else x.2 p)
    else none
  | .own t n => whTimes (whOwn t) n x
  | .enter t => (Whole.step whP x.1 (.enter t)).map fun s' => (s', x.2)
  | .seg t n => whTimes (whSeg t) n x
  | .leave t => if grantOk x.1 t then (Whole.step whP x.1 (.leave t)).map fun s' => (s', x.2) else none
  | .direct e => if directOk e then (Whole.step whP x.1 (.other e)).map fun s' => (s', x.2) else none

def whGo : List WhAct → Whole.State × (Nat → Ghost) → Option (Whole.State × (Nat → Ghost))
  | [], x => some x
  | a :: l, x =>
    match whAct x a with
    | none => none
    | some y => whGo l y

def WhReach (x : Whole.State × (Nat → Ghost)) : Prop := Whole.Reach whP whG whF whR x.1 x.2

theorem whTimes_reach {f : Whole.State × (Nat → Ghost) → Option (Whole.State × (Nat → Ghost))}
    (hf : ∀ x y, WhReach x → f x = some y → WhReach y) : ∀ n x y, WhReach x → whTimes f n x = some y → WhReach y
  | 0, x, y, h, e => by simp only [whTimes, Option.some.injEq] at e; exact e ▸ h
  | n + 1, x, y, h, e => by
    simp only [whTimes] at e
    cases hs : f x with
    | none => rw [hs] at e; cases e
    | some z => rw [hs] at e; exact whTimes_reach hf n z y (hf x z h hs) e

theorem whAct_reach {x y : Whole.State × (Nat → Ghost)} (h : WhReach x) {a : WhAct} (e : whAct x a = some y) : WhReach y := by
  cases a with
  | call t op =>
    simp only [whAct] at e
    split at e
    · rename_i hc
      obtain ⟨h1, h2, h3⟩ := hc
      simp only [Option.map_eq_some_iff] at e
      obtain ⟨s', e1, rfl⟩ := e
      refine Whole.Reach.call h t op h1 ⟨⟨?_, Or.inl (by simp)⟩, fun hcv => ?_⟩ s' e1
      · cases op <;> simp [isLockAt, Rcsv.Within] at h2 ⊢
      · simp only [List.elem_eq_mem, decide_eq_false_iff_not] at h3
        rcases h3 with h3 | h3
        · rcases hcv.2.2 with ⟨i, rfl, _⟩ | ⟨i, rfl, _⟩ <;> simp [isUnlock] at h3
        · exact h3 hcv.1
    · cases e
  | own t n =>
    refine whTimes_reach (fun x y hx e => ?_) n x y h e
    simp only [whOwn, Option.map_eq_some_iff] at e
    obtain ⟨s', e1, rfl⟩ := e
    exact Whole.Reach.own hx t s' e1
  | enter t =>
    simp only [whAct, Option.map_eq_some_iff] at e
    obtain ⟨s', e1, rfl⟩ := e
    exact Whole.Reach.enter h t s' e1
  | seg t n =>
    refine whTimes_reach (fun x y hx e => ?_) n x y h e
    simp only [whSeg, Option.map_eq_some_iff] at e
    obtain ⟨s', e1, rfl⟩ := e
    exact Whole.Reach.seg hx t .go s' e1
  | leave t =>
    simp only [whAct] at e
    split at e
    · rename_i hg
      simp only [Option.map_eq_some_iff] at e
      obtain ⟨s', e1, rfl⟩ := e
      refine Whole.Reach.leave h t (fun f q w k hf hp => ?_) s' e1
      unfold grantOk at hg
      split at hg
      · assumption
      · rw [hf] at hg
        obtain ⟨p, os, op⟩ := f
        simp only at hp
        subst hp
        cases hg
    · cases e
  | direct e' =>
    simp only [whAct] at e
    split at e
    · rename_i hd
      simp only [Option.map_eq_some_iff] at e
      obtain ⟨s', e1, rfl⟩ := e
      refine Whole.Reach.other h e' ?_ s' e1
      cases e' with
      | call t c =>
        refine ⟨trivial, ?_⟩
        cases c with
        | lock op => simpa [directOk, Spec.lockIn, whG] using hd
        | _ => trivial
      | go t c => exact ⟨trivial, trivial⟩
      | die t c k => cases hd
    · cases e

theorem whGo_reach : ∀ (l : List WhAct) (x y : Whole.State × (Nat → Ghost)), WhReach x → whGo l x = some y → WhReach y
  | [], x, y, h, e => by simp only [whGo, Option.some.injEq] at e; exact e ▸ h
  | a :: l, x, y, h, e => by
    simp only [whGo] at e
    cases hs : whAct x a with
    | none => rw [hs] at e; cases e
    | some z => rw [hs] at e; exact whGo_reach l z y (whAct_reach h hs) e

/-- Whatever the free records contain. -/
def whJunk : FL.Mem where
  files := []
  key := fun _ => (0, 0)
  fprot := fun _ => false
  offs := fun _ => []
  rng := fun _ => ⟨0, 0⟩
  oprot := fun _ => false
  word := fun _ => 0
  lks := fun _ _ => []
  ltid := fun _ => 0
  lfd := fun _ => 0
  locked := fun _ => false
  taken := fun _ => false
  ffree := []
  ofree := []
  lfree := []
  outs := []

def whStart : Whole.State × (Nat → Ghost) := (Whole.init whR 2 4 6 whJunk, fun _ => ⟨fun _ => .free, fun _ => []⟩)

def whTest (l : List WhAct) (t : Whole.State → (Nat → Ghost) → Bool) : Bool :=
  match whGo l whStart with
  | none => false
  | some x => t x.1 x.2

theorem whTest_reach {l : List WhAct} {t : Whole.State → (Nat → Ghost) → Bool} (h : whTest l t = true) :
    ∃ s G, Whole.Reach whP whG whF whR s G ∧ t s G = true := by
  unfold whTest at h
  cases hg : whGo l whStart with
  | none => rw [hg] at h; cases h
  | some x => rw [hg] at h; exact ⟨x.1, x.2, whGo_reach l whStart x (.init 2 4 6 whJunk) hg, h⟩

/-- A lock call of thread `t` with one request in the segment. -/
def whLock (t : Nat) (op : Op) : List WhAct := [.call t op, .own t 8, .enter t, .seg t 9, .leave t, .own t 2]

/-- An unlock call of thread `t` that gives the lock back to the segment. -/
def whUnlock (t : Nat) (op : Op) : List WhAct := [.call t op, .own t 5, .enter t, .seg t 8, .leave t, .own t 2]

/-- A thread of process 1 has a read lock and asks for a write lock with a second object: the read lock is given back before
the write lock is requested; meanwhile a thread of process 2 gets its write lock. -/
theorem C78_upgrade_gap : whTest (whLock 11 (.readLock 0) ++ [.call 11 (.writeLock 1), .own 11 8, .enter 11, .seg 11 8, .leave 11] ++
    whLock 21 (.writeLock 0)) (fun s G => decide ((G 2).know 0 = .excl) && ((G 1).know 0).must &&
      decide (((s.proc 2).sh.obj 0).rng.off = 0) && decide (((s.proc 2).sh.obj 0).rng.len = 10) &&
      decide (((s.proc 1).sh.obj 0).rng.off = 0) && decide (((s.proc 1).sh.obj 0).rng.len = 10) &&
      ((s.proc 2).run 21).isNone) = true := by
  decide +kernel

/-- Refutation of C78. -/
theorem C78_not_full : ¬ C78_full := by
  intro hf
  obtain ⟨s, G, hR, hp⟩ := whTest_reach C78_upgrade_gap
  simp only [Bool.and_eq_true, decide_eq_true_eq] at hp
  obtain ⟨⟨⟨⟨⟨⟨h1, h2⟩, h3⟩, h4⟩, h5⟩, h6⟩, _⟩ := hp
  refine hf whP whG whF whR wh_fits s G hR 2 1 0 0 (by decide) h1 h2 ⟨rfl, 0, ?_, ?_⟩
  · simp [Spec.Covers, conv, h3, h4]
  · simp [Spec.Covers, conv, h5, h6]

/-- Thread 11 of process 1 has a write lock of a range; thread 22 of process 2 has a read lock of another and waits for the
first; thread 19 reads the second range through the segment; all others have nothing. -/
theorem C78_case : whTest (whLock 11 (.writeLock 0) ++ whLock 22 (.readLock 3) ++
    [.direct (.call 19 (.lock ⟨5, (1#64, 1#64), ⟨100#64, 10#64⟩, .rd, .block, true, false⟩))] ++
    List.replicate 9 (.direct (.go 19 .go)) ++ [.call 22 (.writeLock 2), .own 22 8, .enter 22, .seg 22 12])
    (fun s G => decide ((G 1).know 0 = .excl) && ((G 2).know 3).must && s.inSeg 22 && ((s.proc 2).run 21).isNone &&
      ((s.proc 1).run 11).isNone && decide (s.fl.mem.outs.map (fun x => x.2.t) = [19, 22, 11]) &&
      !((G 1).use 11).elem ((s.proc 1).sh.obj 0).rng && !((G 2).use 22).elem ((s.proc 2).sh.obj 3).rng) = true := by
  decide +kernel

/-- The hypotheses of the theorems above are met. -/
example : ∃ s G, Whole.Reach whP whG whF whR s G ∧ (G 1).know 0 = .excl ∧ ((G 2).know 3).must = true ∧ s.inSeg 22 = true ∧
    (s.proc 2).run 21 = none ∧ s.fl.mem.outs.map (fun x => x.2.t) = [19, 22, 11] ∧
    ((s.proc 1).sh.obj 0).rng ∉ (G 1).use (whR 1 0).tid ∧ ((s.proc 2).sh.obj 3).rng ∉ (G 2).use (whR 2 3).tid := by
  obtain ⟨s, G, hR, hp⟩ := whTest_reach C78_case
  simp only [Bool.and_eq_true, decide_eq_true_eq, Bool.not_eq_true', List.elem_eq_mem, decide_eq_false_iff_not,
    Option.isNone_iff_eq_none] at hp
  obtain ⟨⟨⟨⟨⟨⟨⟨h1, h2⟩, h3⟩, h4⟩, _⟩, h5⟩, h6⟩, h7⟩ := hp
  exact ⟨s, G, hR, h1, h2, h3, h4, h5, h6, h7⟩

/-- Two processes read the same range at the same time; after both have unlocked nothing is left in the tables. -/
example : whTest (whLock 11 (.readLock 0) ++ whLock 21 (.readLock 0)) (fun s G =>
    decide (s.fl.mem.outs.map (fun x => (x.2.t, x.2.mode)) = [(21, .rd), (11, .rd)]) && ((G 1).know 0).must &&
    ((G 2).know 0).must) = true := by decide +kernel

example : whTest (whLock 11 (.readLock 0) ++ whLock 21 (.readLock 0) ++ whUnlock 11 (.unlock 0) ++ whUnlock 21 (.unlock 0))
    (fun s G => s.fl.mem.outs.isEmpty && decide (s.fl.mem.files.length = 1) && decide (s.fl.mem.ofree.length = 4) &&
      decide ((G 1).know 0 = .free) && decide ((G 2).know 0 = .free) && ((s.proc 1).run 11).isNone &&
      (s.proc 1).sh.stack.isEmpty) = true := by decide +kernel

/-- A thread in the middle of its call holds the lock of the table of its process. -/
example : whTest [.call 11 (.writeLock 0), .own 11 3] (fun s _ => decide ((s.proc 1).owner = some 11) && (s.proc 1).sh.glob) =
    true := by decide +kernel

end Fullock.Props
