import Verif.Spec.RecoverF
import Verif.Proofs.FLInv
import Verif.Proofs.FLSweep
/-! The worker's way from an event to the end of its check, for range locks. -/
namespace Fullock.FL

/-- What is attached after an action was attached before, or has just been inserted. -/
theorem act_back {m : Mem} {a : Act} (hp : Pre m a) {f o : Nat} {md : Mode} {l : Nat} (h : Att (m.act a) f o md l) :
    (Att m f o md l ∧ (m.act a).ltid l = m.ltid l) ∨ ∃ t fd, a = .insL o md l t fd := by
  obtain ⟨h1, h2, h3⟩ := h
  rcases act_lks hp h3 with h3' | h3'
  · left
    cases a with
    | insF f' =>
      rcases List.mem_cons.1 h1 with e | e
      · subst e
        have : o ∈ m.offs f := h2
        rw [hp.2.2.2] at this; cases this
      · exact ⟨⟨e, h2, h3'⟩, rfl⟩
    | iniF f' k =>
      have e : f ≠ f' := ne_of_mem_of_not_mem (show f ∈ m.files from h1) hp
      refine ⟨⟨h1, ?_, h3'⟩, rfl⟩
      simpa [Mem.act, fset_other _ _ e] using h2
    | insO f' o' r =>
      by_cases e : o = o'
      · subst e; simp [Mem.act] at h3
      · refine ⟨⟨h1, ?_, h3'⟩, rfl⟩
        simp only [Mem.act, fset] at h2
        split at h2
        · rename_i e'; subst e'; simpa [e] using h2
        · exact h2
    | insL o' md' l' t fd =>
      refine ⟨⟨h1, h2, h3'⟩, ?_⟩
      have : l ≠ l' := fun e => hp.2 o md (e ▸ h3')
      simp [Mem.act, fset_other _ _ this]
    | cutO f' o' =>
      refine ⟨⟨h1, ?_, h3'⟩, rfl⟩
      simp only [Mem.act, fset] at h2
      split at h2
      · rename_i e'; subst e'; exact List.mem_of_mem_erase h2
      · exact h2
    | drainO f' =>
      refine ⟨⟨h1, ?_, h3'⟩, rfl⟩
      simp only [Mem.act, fset] at h2
      split at h2
      · cases h2
      · exact h2
    | cutF f' => exact ⟨⟨List.mem_of_mem_erase h1, h2, h3'⟩, rfl⟩
    | _ => exact ⟨⟨h1, h2, h3'⟩, rfl⟩
  · exact .inr h3'

open RecoverF (NoneOf)

theorem acts_none {alive : Nat → Bool} {t v : Nat} (htv : t ≠ v) : ∀ {as : List Act} {m : Mem}, OkAll alive t m as → NoneOf m v →
    NoneOf (m.acts as) v := by
  intro as
  induction as with
  | nil => intro m _ h; exact h
  | cons a as ih =>
    intro m hk h
    refine ih hk.2.2 ?_
    intro f hf o ho md l hl
    rcases act_back hk.1 ⟨hf, ho, hl⟩ with ⟨⟨g1, g2, g3⟩, g4⟩ | ⟨u, fd, rfl⟩
    · rw [g4]; exact h f g1 o g2 md l g3
    · have : u = t := hk.2.1
      simpa [Mem.act, this] using htv

/-- The actions of a step of a living thread, or of its end in the middle of one. -/
theorem step_okAll {s s' : State} {e : Ev} (hi : SInv s) (h : step s e = some s') :
    s'.mem = s.mem ∨ ∃ t as, s.alive t = true ∧ OkAll s.alive t s.mem as ∧ (inCS (s.pc t) = false → OutActs s.mem t as) ∧
      s'.mem = s.mem.acts as ∧ ((∃ c, e = .go t c) ∨ ∃ c k, e = .die t c k) := by
  rcases step_cases h with ⟨t, c, r, rfl, ht0, hal, hpc, rfl⟩ | ⟨t, c, p, rfl, hal, hpc, hl, rfl⟩ |
    ⟨t, c, p, rfl, hal, hpc, rfl⟩ | ⟨t, c, as, p', rfl, hal, hpl, rfl⟩ |
    ⟨t, c, k, as, rfl, hal, hpl, rfl⟩
  · exact .inl rfl
  · exact .inl rfl
  · exact .inl rfl
  · have ok := plan_ok hi.sok hal (hi.thr t hal).2 (hi.thr t hal).1 hpl
    exact .inr ⟨t, as, hal, ok.ok, ok.out, rfl, .inl ⟨c, rfl⟩⟩
  · refine .inr ⟨t, as.take k, hal, ?_, ?_, rfl, .inr ⟨c, k, rfl⟩⟩
    · rcases hpl with ⟨p', hpl⟩ | ⟨-, rfl⟩
      · exact okAll_take k (plan_ok hi.sok hal (hi.thr t hal).2 (hi.thr t hal).1 hpl).ok
      · simp [OkAll]
    · intro hc
      rcases hpl with ⟨p', hpl⟩ | ⟨-, rfl⟩
      · exact outActs_take ((plan_ok hi.sok hal (hi.thr t hal).2 (hi.thr t hal).1 hpl).out hc) k
      · exact .inl (by simp)

/-- Nobody makes new records of a thread that has ended. -/
theorem step_none {s s' : State} {e : Ev} (hi : SInv s) (h : step s e = some s') {v : Nat} (hv : s.alive v = false)
    (hn : NoneOf s.mem v) : NoneOf s'.mem v := by
  rcases step_okAll hi h with e | ⟨t, as, hal, hok, -, e, -⟩
  · rw [e]; exact hn
  · rw [e]
    exact acts_none (fun e => by rw [e, hv] at hal; cases hal) hok hn

/-- While somebody is inside, others change no list and no record's owner. -/
theorem inside_frame {s s' : State} {e : Ev} (hi : SInv s) (h : step s e = some s') {t : Nat} (hal : s.alive t = true)
    (hin : inCS (s.pc t) = true) (ht : (∀ c, e ≠ .go t c) ∧ ∀ c k, e ≠ .die t c k) :
    s'.mem.files = s.mem.files ∧ s'.mem.offs = s.mem.offs ∧ s'.mem.lks = s.mem.lks ∧ s'.mem.ltid = s.mem.ltid := by
  rcases step_okAll hi h with e | ⟨u, as, hu, -, hout, e, hev⟩
  · rw [e]; exact ⟨rfl, rfl, rfl, rfl⟩
  · have hut : u ≠ t := by
      rintro rfl
      rcases hev with ⟨c, h⟩ | ⟨c, k, h⟩
      · exact ht.1 c h
      · exact ht.2 c k h
    have hc : inCS (s.pc u) = false := by
      by_contra hn
      exact hut ((hi.cs u hu (by simpa using hn)).symm.trans (hi.cs t hal hin))
    rw [e]
    rcases hout hc with rfl | ⟨o, md, l, rfl, -⟩ | ⟨l, x, rfl, -⟩ <;> exact ⟨rfl, rfl, rfl, rfl⟩

theorem step_pcR {s s' : State} {e : Ev} (h : step s e = some s') {t : Nat} (ht : (∀ c, e ≠ .go t c) ∧ ∀ c, e ≠ .call t c) :
    s'.pc t = s.pc t := by
  rcases step_cases h with ⟨u, c, r, rfl, -, -, -, rfl⟩ | ⟨u, c, p, rfl, -, -, -, rfl⟩ |
    ⟨u, c, p, rfl, -, -, rfl⟩ | ⟨u, c, as, p', rfl, -, -, rfl⟩ | ⟨u, c, k, as, rfl, -, -, rfl⟩
  · exact fset_other _ _ fun e => ht.2 c (by rw [e])
  · exact fset_other _ _ fun e => ht.1 c (by rw [e])
  · exact fset_other _ _ fun e => ht.1 c (by rw [e])
  · exact fset_other _ _ fun e => ht.1 c (by rw [e])
  · rfl

theorem step_aliveR {s s' : State} {e : Ev} (h : step s e = some s') (t : Nat) :
    s'.alive t = s.alive t ∨ (s'.alive t = false ∧ ∃ c k, e = .die t c k) := by
  rcases step_cases h with ⟨u, c, r, rfl, -, -, -, rfl⟩ | ⟨u, c, p, rfl, -, -, -, rfl⟩ |
    ⟨u, c, p, rfl, -, -, rfl⟩ | ⟨u, c, as, p', rfl, -, -, rfl⟩ | ⟨u, c, k, as, rfl, -, -, rfl⟩
  · exact .inl rfl
  · exact .inl rfl
  · exact .inl rfl
  · exact .inl rfl
  · by_cases e : t = u
    · subst e; right; exact ⟨fset_same _ _ _, c, k, rfl⟩
    · left; exact fset_other _ _ e

/-- Steps of the check: no list grows, no record gets another owner. -/
theorem sw_back {s s' : State} {t : Nat} {c : Choice} (hi : SInv s) (h : step s (.go t c) = some s') (hpc : s.pc t = .sw)
    {f o : Nat} {md : Mode} {l : Nat} (ha : Att s'.mem f o md l) :
    Att s.mem f o md l ∧ s'.mem.ltid l = s.mem.ltid l ∧ c ≠ .lk o md l := by
  rcases step_cases h with ⟨u, c, r, e, -⟩ | ⟨u, c, p, e, hal, hp, -⟩ | ⟨u, c, p, e, hal, hp, -⟩ |
    ⟨u, c, as, p', e, hal, hpl, rfl⟩ | ⟨u, c, k, as, e, -⟩
  · cases e
  · cases e; rw [hpc] at hp; cases hp
  · cases e; rw [hpc] at hp; cases hp
  · cases e
    have ok := (plan_ok hi.sok hal (hi.thr t hal).2 (hi.thr t hal).1 hpl).ok
    rw [hpc] at hpl
    have key : ∀ {as : List Act} {m : Mem}, OkAll s.alive t m as → (∀ o md l t fd, Act.insL o md l t fd ∉ as) →
        Att (m.acts as) f o md l → Att m f o md l ∧ (m.acts as).ltid l = m.ltid l := by
      intro as
      induction as with
      | nil => intro m _ _ h; exact ⟨h, rfl⟩
      | cons a as ih =>
        intro m hk hn ha
        obtain ⟨g1, g2⟩ := ih (m := m.act a) hk.2.2 (fun o md l t fd h => hn o md l t fd (List.mem_cons_of_mem _ h)) ha
        rcases act_back hk.1 g1 with ⟨g3, g4⟩ | ⟨u, fd, rfl⟩
        · exact ⟨g3, g2.trans g4⟩
        · exact absurd List.mem_cons_self (hn _ _ _ _ _)
    have hno : ∀ o md l t fd, Act.insL o md l t fd ∉ as := by
      intro o md l t fd hm
      cases c <;> simp only [plan] at hpl
      case go => cases hpl; cases hm
      case lk =>
        split at hpl
        · cases hpl; simp only [sweepActs] at hm; split at hm <;> simp at hm
        · cases hpl
      case off => split at hpl <;> cases hpl; simp at hm
      case file => split at hpl <;> cases hpl; simp at hm
      all_goals cases hpl
    obtain ⟨g1, g2⟩ := key ok hno ha
    refine ⟨g1, g2, ?_⟩
    rintro rfl
    simp only [plan] at hpl
    split at hpl
    · cases hpl
      have hgone := cutL_gone hi.sok g1.2.2 o md
      have h3 : l ∈ (s.mem.acts (sweepActs s.mem o md l)).lks o md := ha.2.2
      have : (s.mem.acts (sweepActs s.mem o md l)).lks = (s.mem.act (.cutL o md l)).lks := by
        simp only [sweepActs]; split <;> rfl
      rw [this] at h3
      exact hgone h3
    · cases hpl
  · cases e

/-- Steps of the check: what is attached stays attached, but for the record taken out. -/
theorem sw_fwd {s s' : State} {t : Nat} {c : Choice} (hi : SInv s) (h : step s (.go t c) = some s') (hpc : s.pc t = .sw)
    {f o : Nat} {md : Mode} {l : Nat} (ha : Att s.mem f o md l) (hc : c ≠ .lk o md l) : Att s'.mem f o md l := by
  rcases step_cases h with ⟨u, c, r, e, -⟩ | ⟨u, c, p, e, hal, hp, -⟩ | ⟨u, c, p, e, hal, hp, -⟩ |
    ⟨u, c, as, p', e, hal, hpl, rfl⟩ | ⟨u, c, k, as, e, -⟩
  · cases e
  · cases e; rw [hpc] at hp; cases hp
  · cases e; rw [hpc] at hp; cases hp
  · cases e
    have ok := (plan_ok hi.sok hal (hi.thr t hal).2 (hi.thr t hal).1 hpl).ok
    rw [hpc] at hpl
    have key : ∀ {as : List Act} {m : Mem}, SOK m → OkAll s.alive t m as → (∀ o md, Act.cutL o md l ∉ as) →
        Att m f o md l → Att (m.acts as) f o md l := by
      intro as
      induction as with
      | nil => intro m _ _ _ h; exact h
      | cons a as ih =>
        intro m hs hk hn ha
        exact ih (m := m.act a) (act_sok hs hk.1) hk.2.2 (fun o md h => hn o md (List.mem_cons_of_mem _ h))
          (act_att hs hk.1 ha fun o' md' e => hn o' md' (by rw [e]; exact List.mem_cons_self)).1
    refine key hi.sok ok ?_ ha
    intro o' md' hm
    cases c <;> simp only [plan] at hpl
    case go => cases hpl; cases hm
    case lk o1 md1 l1 =>
      split at hpl
      · rename_i hg
        cases hpl
        have e : l = l1 := by simp only [sweepActs] at hm; split at hm <;> simp at hm <;> exact hm.2.2
        subst e
        obtain ⟨e1, e2⟩ := hi.sok.lksDisj _ _ _ _ _ ha.2.2 hg.2.1
        subst e1 e2
        exact hc rfl
      · cases hpl
    case off => split at hpl <;> cases hpl; simp at hm
    case file => split at hpl <;> cases hpl; simp at hm
    all_goals cases hpl
  · cases e

/-- Where a thread is in an unlock call. -/
def unl : Pc → Bool
  | .acq p => unl p
  | .rel p => unl p
  | .uFind _ => true
  | .uWord .. => true
  | .uFlag .. => true
  | .uCut .. => true
  | .uOff .. => true
  | .uFile .. => true
  | _ => false

theorem plan_unl_keep {m : Mem} {alive : Nat → Bool} {t : Nat} {p : Pc} {c : Choice} {as : List Act} {p' : Pc}
    (h : plan m alive t p c = some (as, p')) (hu : unl p = false) : unl p' = false := by
  have h3 : ∀ op r, unl (after3 op r) = false := by intro op r; unfold after3; split <;> rfl
  have h2 : ∀ op r f, unl (after2 op r f) = false := by intro op r f; unfold after2; split <;> [rfl; exact h3 _ _]
  cases p <;> cases c <;> simp only [plan] at h <;> (try cases hu; done) <;> (try cases h; done)
  all_goals
    repeat' split at h
    all_goals first
      | cases h; done
      | (simp only [Option.some.injEq, Prod.mk.injEq] at h; rw [← h.2]; first | rfl | exact h2 _ _ _ | exact h3 _ _)

theorem step_unl {s s' : State} {e : Ev} (h : step s e = some s') {t : Nat} (hu : unl (s.pc t) = false)
    (hc : ∀ op, e ≠ .call t (.unlock op)) : unl (s'.pc t) = false := by
  by_cases ht : (∀ c, e ≠ .go t c) ∧ ∀ c, e ≠ .call t c
  · rw [step_pcR h ht]; exact hu
  · rcases step_cases h with ⟨u, c, r, rfl, -, -, -, rfl⟩ | ⟨u, c, p, rfl, -, hp, -, rfl⟩ |
      ⟨u, c, p, rfl, -, hp, rfl⟩ | ⟨u, c, as, p', rfl, -, hpl, rfl⟩ | ⟨u, c, k, as, rfl, -, -, rfl⟩
    · by_cases e : u = t
      · subst e
        simp only [State.setPc, fset_same]
        cases c <;> first | rfl | exact absurd rfl (hc _)
      · exact absurd ⟨by simp, fun c' h => e (by cases h; rfl)⟩ ht
    · by_cases e : u = t
      · subst e; simp only [State.setPc, fset_same]; rw [hp] at hu; exact hu
      · exact absurd ⟨fun c' h => e (by cases h; rfl), by simp⟩ ht
    · by_cases e : u = t
      · subst e; simp only [State.setPc, fset_same]; rw [hp] at hu; exact hu
      · exact absurd ⟨fun c' h => e (by cases h; rfl), by simp⟩ ht
    · by_cases e : u = t
      · subst e; simp only [State.setPc, fset_same]; exact plan_unl_keep hpl hu
      · exact absurd ⟨fun c' h => e (by cases h; rfl), by simp⟩ ht
    · exact hu

end Fullock.FL

namespace Fullock.RecoverF
open Fullock.Recover (WEv Place)
open Fullock.FL (SInv Att)
open Fullock.MC (upd)

theorem mem_walk {m : FL.Mem} {o l : Nat} {md : FL.Mode} : (o, md, l) ∈ walk m ↔ ∃ f, Att m f o md l := by
  simp only [walk, List.mem_flatMap, List.mem_append, List.mem_map, Att]
  constructor
  · rintro ⟨f, hf, o', ho, ⟨l', hl, e⟩ | ⟨l', hl, e⟩⟩ <;> cases e <;> exact ⟨f, hf, ho, hl⟩
  · rintro ⟨f, hf, ho, hl⟩
    refine ⟨f, hf, o, ho, ?_⟩
    cases md
    · exact .inl ⟨l, hl, rfl⟩
    · exact .inr ⟨l, hl, rfl⟩

/-- What an event is for the tables. -/
def evOf (c : Cfg) (s : State) : Ev → Option FL.Ev
  | .call t a => some (.call t a)
  | .go t ch => some (.go t ch)
  | .drop t ch j => some (.die t ch j)
  | .begin q => if s.fl.mem.files.isEmpty then none else some (.call (c.k.wk q) .sweep)
  | .cut q =>
    match s.todo q with
    | [] => none
    | (o, md, l) :: _ => some (.go (c.k.wk q) (.lk o md l))
  | _ => none

theorem step_fl {c : Cfg} {s s' : State} {e : Ev} (h : step c s e = some s') :
    match evOf c s e with
    | none => s'.fl = s.fl
    | some e' => FL.step s.fl e' = some s'.fl := by
  cases e <;> simp only [step, evOf] at h ⊢
  case world e => split at h <;> [skip; cases h]; obtain ⟨w, -, rfl⟩ := Option.map_eq_some_iff.1 h; rfl
  case skip =>
    split at h <;> [skip; cases h]
    split at h
    · cases h
    · split at h <;> simp only [Option.some.injEq, reduceCtorEq] at h; subst h; rfl
  case cut =>
    split at h <;> [skip; cases h]
    split at h
    · cases h
    · rename_i e; rw [e]; obtain ⟨x, hx, rfl⟩ := Option.map_eq_some_iff.1 h; exact hx
  case mtxs => split at h <;> simp only [Option.some.injEq, reduceCtorEq] at h; subst h; rfl
  case back => split at h <;> simp only [Option.some.injEq, reduceCtorEq] at h; subst h; rfl
  case begin =>
    split at h <;> [skip; cases h]
    obtain ⟨x, hx, rfl⟩ := Option.map_eq_some_iff.1 h
    split at hx
    · rename_i e; rw [if_pos e]; exact (Option.some.inj hx).symm
    · rename_i e; rw [if_neg e]; exact hx
  all_goals
    split at h <;> first | cases h; done | (obtain ⟨x, hx, rfl⟩ := Option.map_eq_some_iff.1 h; exact hx)

theorem step_sinv {c : Cfg} {s s' : State} {e : Ev} (h : step c s e = some s') (hi : SInv s.fl) : SInv s'.fl := by
  have := step_fl h
  cases he : evOf c s e with
  | none => rw [he] at this; rw [this]; exact hi
  | some e' => rw [he] at this; exact FL.sinv_step hi this

/-- The event with which the worker leaves a place. -/
def leaves (q : Nat) : Place → Ev × Place
  | .off => (.world (.watch q), .wait)
  | .wait => (.world (.read q), .got)
  | .got => (.begin q, .inF)
  | .inF => (.mtxs q, .inM)
  | .inM => (.back q, .wait)
  | .inC => (.back q, .inC)

theorem world_work {k : Recover.Cfg} {w w' : Recover.World} {e : WEv} (hw : w.step k e = some w') (q : Nat) :
    w'.work q = w.work q ∨ (e = .watch q ∧ w.work q = .off ∧ w'.work q = .wait) ∨ (e = .read q ∧ w.work q = .wait ∧ w'.work q = .got) := by
  cases e <;> simp only [Recover.World.step] at hw <;> (try split at hw) <;>
    simp only [Option.some.injEq, reduceCtorEq] at hw <;> subst hw
  case watch p hc =>
    simp only [Bool.and_eq_true, decide_eq_true_eq] at hc
    by_cases e : q = p
    · subst e; right; left; simp [hc.2, upd]
    · left; simp [upd, e]
  case read p hc =>
    simp only [Bool.and_eq_true, decide_eq_true_eq] at hc
    by_cases e : q = p
    · subst e; right; right; simp [hc.1.2, upd]
    · left; simp [upd, e]
  all_goals exact .inl rfl

theorem world_queue {k : Recover.Cfg} {w w' : Recover.World} {e : WEv} (hw : w.step k e = some w') {q : Nat} (hq : w.queue q = true) :
    w'.queue q = true ∨ (e = .read q ∧ w'.work q = .got) := by
  cases e <;> simp only [Recover.World.step] at hw <;> (try split at hw) <;>
    simp only [Option.some.injEq, reduceCtorEq] at hw <;> subst hw
  case read p hc =>
    by_cases e : q = p
    · subst e; right; simp [upd]
    · left; simp [upd, e, hq]
  all_goals left; simp [Recover.World.notify, hq]

theorem world_down {k : Recover.Cfg} {w w' : Recover.World} {e : WEv} (hw : w.step k e = some w') {p : Nat} (hp : w.down p = true) :
    w'.down p = true := by
  cases e <;> simp only [Recover.World.step] at hw <;> (try split at hw) <;>
    simp only [Option.some.injEq, reduceCtorEq] at hw <;> subst hw
  case kill => simp only [upd]; split <;> first | rfl | exact hp
  all_goals exact hp

theorem world_stop {k : Recover.Cfg} {w w' : Recover.World} {e : WEv} (hw : w.step k e = some w') {t : Nat} (hp : w.stop t = true) :
    w'.stop t = true := by
  cases e <;> simp only [Recover.World.step] at hw <;> (try split at hw) <;>
    simp only [Option.some.injEq, reduceCtorEq] at hw <;> subst hw
  case leave => simp only [upd]; split <;> first | rfl | exact hp
  all_goals exact hp

/-- What the world remembers was an event. -/
theorem world_new {k : Recover.Cfg} {w w' : Recover.World} {e : WEv} (hw : w.step k e = some w') :
    (∀ p, w'.opened p = true → w.opened p = true ∨ e = .start p) ∧ (∀ p, w'.down p = true → w.down p = true ∨ e = .kill p) := by
  cases e <;> simp only [Recover.World.step] at hw <;> (try split at hw) <;>
    simp only [Option.some.injEq, reduceCtorEq] at hw <;> subst hw
  case start u _ =>
    refine ⟨fun p hp => ?_, fun _ => .inl⟩
    simp only [upd] at hp; split at hp
    · rename_i e; subst e; exact .inr rfl
    · exact .inl hp
  case kill u _ =>
    refine ⟨fun _ => .inl, fun p hp => ?_⟩
    simp only [upd] at hp; split at hp
    · rename_i e; subst e; exact .inr rfl
    · exact .inl hp
  case close u _ =>
    refine ⟨fun p hp => ?_, fun _ => .inl⟩
    simp only [upd] at hp; split at hp
    · cases hp
    · exact .inl hp
  all_goals exact ⟨fun _ => .inl, fun _ => .inl⟩

theorem step_world {c : Cfg} {s s' : State} {e : Ev} (h : step c s e = some s') :
    (∃ e', e = .world e' ∧ allowed c s e' = true ∧ s.w.step c.k e' = some s'.w ∧ s'.fl = s.fl ∧ s'.snap = s.snap ∧ s'.todo = s.todo) ∨
    ((∀ e', e ≠ .world e') ∧ s'.w.down = s.w.down ∧ s'.w.stop = s.w.stop ∧ s'.w.opened = s.w.opened ∧ s'.w.queue = s.w.queue) := by
  cases e <;> simp only [step] at h
  case world e =>
    split at h <;> [skip; cases h]
    rename_i ha
    obtain ⟨w, hw, rfl⟩ := Option.map_eq_some_iff.1 h
    exact .inl ⟨e, rfl, ha, hw, rfl, rfl, rfl⟩
  all_goals right; refine ⟨by simp, ?_⟩
  case skip =>
    split at h <;> [skip; cases h]
    split at h
    · cases h
    · split at h <;> simp only [Option.some.injEq, reduceCtorEq] at h; subst h; exact ⟨rfl, rfl, rfl, rfl⟩
  case cut =>
    split at h <;> [skip; cases h]
    split at h
    · cases h
    · obtain ⟨x, hx, rfl⟩ := Option.map_eq_some_iff.1 h; exact ⟨rfl, rfl, rfl, rfl⟩
  case mtxs => split at h <;> simp only [Option.some.injEq, reduceCtorEq] at h; subst h; exact ⟨rfl, rfl, rfl, rfl⟩
  case back => split at h <;> simp only [Option.some.injEq, reduceCtorEq] at h; subst h; exact ⟨rfl, rfl, rfl, rfl⟩
  all_goals
    split at h <;> first | cases h; done | (obtain ⟨x, hx, rfl⟩ := Option.map_eq_some_iff.1 h; exact ⟨rfl, rfl, rfl, rfl⟩)

theorem step_work {c : Cfg} {s s' : State} {e : Ev} (h : step c s e = some s') (q : Nat) :
    s'.w.work q = s.w.work q ∨ (e = (leaves q (s.w.work q)).1 ∧ s'.w.work q = (leaves q (s.w.work q)).2) := by
  cases e <;> simp only [step] at h
  case world e =>
    split at h <;> [skip; cases h]
    obtain ⟨w, hw, rfl⟩ := Option.map_eq_some_iff.1 h
    rcases world_work hw q with h | ⟨rfl, h1, h2⟩ | ⟨rfl, h1, h2⟩
    · exact .inl h
    · right; rw [h1]; exact ⟨rfl, h2⟩
    · right; rw [h1]; exact ⟨rfl, h2⟩
  case begin p =>
    split at h <;> [skip; cases h]
    rename_i hc
    obtain ⟨x, hx, rfl⟩ := Option.map_eq_some_iff.1 h
    simp only [Bool.and_eq_true, decide_eq_true_eq] at hc
    by_cases e : q = p
    · subst e; right; simp [hc.2, leaves, upd, State.move]
    · left; simp [upd, e, State.move]
  case mtxs p =>
    split at h <;> simp only [Option.some.injEq, reduceCtorEq] at h
    rename_i hc
    subst h
    simp only [Bool.and_eq_true, decide_eq_true_eq] at hc
    by_cases e : q = p
    · subst e; right; simp [hc.1.2, leaves, upd, State.move]
    · left; simp [upd, e, State.move]
  case back p =>
    split at h <;> simp only [Option.some.injEq, reduceCtorEq] at h
    rename_i hc
    subst h
    simp only [Bool.and_eq_true, decide_eq_true_eq] at hc
    by_cases e : q = p
    · subst e; right; simp [hc.2, leaves, upd, State.move]
    · left; simp [upd, e, State.move]
  case skip =>
    split at h <;> [skip; cases h]
    split at h
    · cases h
    · split at h <;> simp only [Option.some.injEq, reduceCtorEq] at h; subst h; exact .inl rfl
  case cut =>
    split at h <;> [skip; cases h]
    split at h
    · cases h
    · obtain ⟨x, hx, rfl⟩ := Option.map_eq_some_iff.1 h; exact .inl rfl
  all_goals
    split at h <;> first | cases h; done | (obtain ⟨x, hx, rfl⟩ := Option.map_eq_some_iff.1 h; exact .inl rfl)

theorem step_snap {c : Cfg} {s s' : State} {e : Ev} (h : step c s e = some s') (q : Nat) (he : e ≠ .begin q) :
    s'.snap q = s.snap q := by
  cases e <;> simp only [step] at h
  case world e => split at h <;> [skip; cases h]; obtain ⟨w, -, rfl⟩ := Option.map_eq_some_iff.1 h; rfl
  case skip =>
    split at h <;> [skip; cases h]
    split at h
    · cases h
    · split at h <;> simp only [Option.some.injEq, reduceCtorEq] at h; subst h; rfl
  case cut =>
    split at h <;> [skip; cases h]
    split at h
    · cases h
    · obtain ⟨x, hx, rfl⟩ := Option.map_eq_some_iff.1 h; rfl
  case mtxs => split at h <;> simp only [Option.some.injEq, reduceCtorEq] at h; subst h; rfl
  case back => split at h <;> simp only [Option.some.injEq, reduceCtorEq] at h; subst h; rfl
  case begin p =>
    split at h <;> [skip; cases h]
    obtain ⟨x, hx, rfl⟩ := Option.map_eq_some_iff.1 h
    have : q ≠ p := fun e => he (by rw [e])
    simp [upd, this]
  all_goals
    split at h <;> first | cases h; done | (obtain ⟨x, hx, rfl⟩ := Option.map_eq_some_iff.1 h; rfl)

theorem step_queue {c : Cfg} {s s' : State} {e : Ev} (h : step c s e = some s') {q : Nat} (hq : s.w.queue q = true) :
    s'.w.queue q = true ∨ (e = .world (.read q) ∧ s'.w.work q = .got) := by
  rcases step_world h with ⟨e', rfl, -, hw, -⟩ | ⟨-, -, -, -, h4⟩
  · rcases world_queue hw hq with g | ⟨rfl, g⟩
    · exact .inl g
    · exact .inr ⟨rfl, g⟩
  · left; rw [h4]; exact hq

/-- Whose range locks do not count any more has ended with its process. -/
theorem step_down {c : Cfg} {s s' : State} {e : Ev} (h : step c s e = some s')
    (hs : ∀ t, s.fl.alive t = false → s.w.down (c.k.proc t) = true) :
    ∀ t, s'.fl.alive t = false → s'.w.down (c.k.proc t) = true := by
  intro t ht
  rcases step_world h with ⟨e', rfl, -, hw, hf, -⟩ | ⟨hne, h1, -⟩
  · rw [hf] at ht
    exact world_down hw (hs t ht)
  · rw [h1]
    have hf := step_fl h
    cases he : evOf c s e with
    | none => rw [he] at hf; rw [hf] at ht; exact hs t ht
    | some e' =>
      rw [he] at hf
      rcases FL.step_aliveR hf t with g | ⟨-, ch, j, rfl⟩
      · rw [g] at ht; exact hs t ht
      · cases e <;> simp only [evOf, reduceCtorEq, Option.some.injEq] at he
        case drop => 
          cases he
          simp only [step] at h
          split at h <;> [skip; cases h]
          rename_i hc
          simp only [Bool.and_eq_true] at hc
          exact hc.1
        case begin => split at he <;> cases he
        case cut => split at he <;> cases he

/-- While a check of `q`, begun when `v` did not count any more, goes through the tables. -/
def Walking (c : Cfg) (s : State) (q v : Nat) : Prop :=
  s.fl.pc (c.k.wk q) = .acq .sw ∨
  (s.fl.pc (c.k.wk q) = .sw ∧ (s.fl.alive (c.k.wk q) = true → ∀ f o md l, Att s.fl.mem f o md l → s.fl.mem.ltid l = v → (o, md, l) ∈ s.todo q)) ∨
  NoneOf s.fl.mem v

theorem step_todo {c : Cfg} (hk : Fits c) {s s' : State} {e : Ev} (h : step c s e = some s') (q : Nat)
    (h1 : e ≠ .skip q) (h2 : e ≠ .cut q) (h3 : ∀ ch, e ≠ .go (c.k.wk q) ch) : s'.todo q = s.todo q := by
  cases e <;> simp only [step] at h
  case world e => split at h <;> [skip; cases h]; obtain ⟨w, -, rfl⟩ := Option.map_eq_some_iff.1 h; rfl
  case skip p =>
    split at h <;> [skip; cases h]
    split at h
    · cases h
    · split at h <;> simp only [Option.some.injEq, reduceCtorEq] at h; subst h
      have : q ≠ p := fun e => h1 (by rw [e])
      simp [upd, this]
  case cut p =>
    split at h <;> [skip; cases h]
    split at h
    · cases h
    · obtain ⟨x, hx, rfl⟩ := Option.map_eq_some_iff.1 h
      have : q ≠ p := fun e => h2 (by rw [e])
      simp [upd, this]
  case mtxs => split at h <;> simp only [Option.some.injEq, reduceCtorEq] at h; subst h; rfl
  case back => split at h <;> simp only [Option.some.injEq, reduceCtorEq] at h; subst h; rfl
  case go t ch =>
    split at h <;> [skip; cases h]
    obtain ⟨x, hx, rfl⟩ := Option.map_eq_some_iff.1 h
    simp only [started]
    split
    · rename_i hc
      have : q ≠ c.k.proc t := fun e => h3 ch (by rw [e, hc.1])
      simp [upd, this]
    · rfl
  all_goals
    split at h <;> first | cases h; done | (obtain ⟨x, hx, rfl⟩ := Option.map_eq_some_iff.1 h; rfl)

theorem step_walking {c : Cfg} (hk : Fits c) {s s' : State} {e : Ev} (h : step c s e = some s') (hi : SInv s.fl) {q v : Nat}
    (hv : s.fl.alive v = false) (hs : s.snap q v = false) (hb : e ≠ .begin q) (hw : Walking c s q v) : Walking c s' q v := by
  have hf := step_fl h
  have hpersist : NoneOf s.fl.mem v → NoneOf s'.fl.mem v := by
    intro hn
    cases he : evOf c s e with
    | none => rw [he] at hf; rw [hf]; exact hn
    | some e' => rw [he] at hf; exact FL.step_none hi hf hv hn
  rcases hw with hw | ⟨hw, ht⟩ | hw
  rotate_left 2
  · exact .inr (.inr (hpersist hw))
  all_goals by_cases hself : (∃ ch, e = .go (c.k.wk q) ch)
  · -- the worker takes the table lock
    obtain ⟨ch, rfl⟩ := hself
    simp only [step] at h
    split at h <;> [skip; cases h]
    obtain ⟨x, hx, rfl⟩ := Option.map_eq_some_iff.1 h
    right; left
    simp only [FL.step, hw] at hx
    split at hx <;> [cases hx; skip]
    split at hx <;> [skip; cases hx]
    rw [← Option.some.inj hx]
    refine ⟨FL.fset_same _ _ _, fun _ f o md l ha _ => ?_⟩
    simp only [started, hk.wk, hw, true_and, if_true, upd]
    exact mem_walk.2 ⟨f, ha⟩
  · left
    cases he : evOf c s e with
    | none => rw [he] at hf; rw [hf]; exact hw
    | some e' =>
      rw [he] at hf
      rw [FL.step_pcR hf, hw]
      refine ⟨fun ch e1 => ?_, fun a e1 => ?_⟩
      · subst e1
        cases e <;> simp only [evOf, reduceCtorEq, Option.some.injEq] at he
        case go => cases he; exact hself ⟨_, rfl⟩
        case begin => split at he <;> cases he
        case cut p =>
          simp only [step] at h
          split at h <;> [skip; cases h]
          rename_i hc
          simp only [Bool.and_eq_true, decide_eq_true_eq] at hc
          split at he
          · cases he
          · simp only [Option.some.injEq, FL.Ev.go.injEq] at he
            rw [he.1, hw] at hc; cases hc.2
      · subst e1
        cases e <;> simp only [evOf, reduceCtorEq, Option.some.injEq] at he
        case call =>
          cases he
          simp only [step] at h
          split at h <;> [skip; cases h]
          rename_i hc
          simp [hk.wk] at hc
        case begin p =>
          split at he
          · cases he
          · simp only [Option.some.injEq, FL.Ev.call.injEq] at he
            exact hb (by rw [← hk.wk p, ← hk.wk q, he.1])
        case cut => split at he <;> cases he
  · -- a step of the worker in its walk
    obtain ⟨ch, rfl⟩ := hself
    simp only [step] at h
    split at h <;> [skip; cases h]
    rename_i hc
    obtain ⟨x, hx, rfl⟩ := Option.map_eq_some_iff.1 h
    have hal : s.fl.alive (c.k.wk q) = true := by
      simp only [FL.step] at hx
      split at hx <;> [cases hx; skip]
      simpa using ‹¬ s.fl.alive (c.k.wk q) = false›
    have hal' : x.alive (c.k.wk q) = true := by
      rcases FL.step_aliveR hx (c.k.wk q) with g | ⟨-, _, _, g⟩
      · rw [g]; exact hal
      · cases g
    have hpc : x.pc (c.k.wk q) = .sw ∨ ch = .go := by
      simp only [FL.step, hal, hw] at hx
      cases ch <;> simp only [FL.plan] at hx
      case go => exact .inr rfl
      all_goals left
      case lk => split at hx <;> simp at hx; rw [← hx.2]; exact FL.fset_same _ _ _
      case off => split at hx <;> simp at hx; rw [← hx.2]; exact FL.fset_same _ _ _
      case file => split at hx <;> simp at hx; rw [← hx.2]; exact FL.fset_same _ _ _
      all_goals simp at hx
    rcases hpc with hpc | rfl
    · right; left
      refine ⟨hpc, fun _ f o md l ha hl => ?_⟩
      obtain ⟨g1, g2, -⟩ := FL.sw_back hi hx hw ha
      have := ht hal f o md l g1 (g2 ▸ hl)
      simp only [started, hw]
      simpa using this
    · right; right
      simp only [inWalk, hk.wk, hw, and_self, if_true, Bool.and_eq_true, List.isEmpty_iff] at hc
      apply hpersist
      intro f h1 o h2 md l h3 h4
      have := ht hal f o md l ⟨h1, h2, h3⟩ h4
      rw [hc.2] at this; cases this
  · -- others, or the worker looks at a record
    right; left
    by_cases hsk : e = .skip q
    · subst hsk
      simp only [step] at h
      split at h <;> [skip; cases h]
      split at h
      · cases h
      · rename_i o' md' l' r htd
        split at h <;> simp only [Option.some.injEq, reduceCtorEq] at h
        rename_i hsn
        subst h
        refine ⟨hw, fun hal f o md l ha hl => ?_⟩
        have := ht hal f o md l ha hl
        rw [htd] at this
        rcases List.mem_cons.1 this with e | e
        · cases e
          rw [hl, hs] at hsn; cases hsn
        · simpa [upd] using e
    by_cases hcu : e = .cut q
    · subst hcu
      simp only [step] at h
      split at h <;> [skip; cases h]
      split at h
      · cases h
      · rename_i o' md' l' r htd
        obtain ⟨x, hx, rfl⟩ := Option.map_eq_some_iff.1 h
        have hal : s.fl.alive (c.k.wk q) = true := by
          simp only [FL.step] at hx
          split at hx <;> [cases hx; skip]
          simpa using ‹¬ s.fl.alive (c.k.wk q) = false›
        refine ⟨?_, fun _ f o md l ha hl => ?_⟩
        · simp only [FL.step, hal, hw, FL.plan] at hx
          split at hx
          · cases hx
          · split at hx <;> simp at hx
            rw [← hx]; exact FL.fset_same _ _ _
        · obtain ⟨g1, g2, g3⟩ := FL.sw_back hi hx hw ha
          have := ht hal f o md l g1 (g2 ▸ hl)
          rw [htd] at this
          rcases List.mem_cons.1 this with e | e
          · cases e; exact absurd rfl g3
          · simpa [upd] using e
    rw [step_todo hk h q hsk hcu (fun ch e => hself ⟨ch, e⟩)]
    cases he : evOf c s e with
    | none => rw [he] at hf; rw [hf]; exact ⟨hw, ht⟩
    | some e' =>
      rw [he] at hf
      have hgo : ∀ ch, e' ≠ .go (c.k.wk q) ch := by
        rintro ch rfl
        cases e <;> simp only [evOf, reduceCtorEq, Option.some.injEq] at he
        case go => cases he; exact hself ⟨_, rfl⟩
        case begin => split at he <;> cases he
        case cut p =>
          split at he
          · cases he
          · simp only [Option.some.injEq, FL.Ev.go.injEq] at he
            exact hcu (by rw [← hk.wk p, ← hk.wk q, he.1])
      have hcall : ∀ a, e' ≠ .call (c.k.wk q) a := by
        rintro a rfl
        cases e <;> simp only [evOf, reduceCtorEq, Option.some.injEq] at he
        case call =>
          cases he
          simp only [step] at h
          split at h <;> [skip; cases h]
          rename_i hc
          simp [hk.wk] at hc
        case begin p =>
          split at he
          · cases he
          · simp only [Option.some.injEq, FL.Ev.call.injEq] at he
            exact hb (by rw [← hk.wk p, ← hk.wk q, he.1])
        case cut => split at he <;> cases he
      refine ⟨by rw [FL.step_pcR hf ⟨hgo, hcall⟩]; exact hw, fun hal' f o md l ha hl => ?_⟩
      rcases FL.step_aliveR hf (c.k.wk q) with g | ⟨g, -⟩
      · have hal : s.fl.alive (c.k.wk q) = true := by rw [← g]; exact hal'
        obtain ⟨q1, q2, q3, q4⟩ := FL.inside_frame hi hf hal (by rw [hw]; rfl) ⟨hgo, fun ch j e1 => by
          subst e1
          simp only [FL.step, hal] at hf
          rw [← Option.some.inj hf] at g
          simp [hal] at g⟩
        refine ht hal f o md l ?_ (q4 ▸ hl)
        exact ⟨q1 ▸ ha.1, q2 ▸ ha.2.1, q3 ▸ ha.2.2⟩
      · rw [g] at hal'; cases hal'

theorem walk_nodup {m : FL.Mem} (hs : FL.SOK m) : (walk m).Nodup := by
  unfold walk
  rw [List.nodup_flatMap]
  refine ⟨fun f _ => ?_, ?_⟩
  · rw [List.nodup_flatMap]
    refine ⟨fun o _ => ?_, ?_⟩
    · rw [List.nodup_append]
      refine ⟨(hs.lksNd o .rd).map (fun a b h => by cases h; rfl), (hs.lksNd o .wr).map (fun a b h => by cases h; rfl), ?_⟩
      simp only [List.mem_map]
      rintro _ ⟨a, -, rfl⟩ _ ⟨b, -, rfl⟩ h
      cases h
    · refine (hs.offsNd f).imp ?_
      intro o o' hne x hx hx'
      simp only [List.mem_append, List.mem_map] at hx hx'
      rcases hx with ⟨a, -, rfl⟩ | ⟨a, -, rfl⟩ <;> rcases hx' with ⟨b, -, h⟩ | ⟨b, -, h⟩ <;> cases h <;> exact hne rfl
  · refine hs.filesNd.imp ?_
    intro f f' hne x hx hx'
    simp only [List.mem_flatMap, List.mem_append, List.mem_map] at hx hx'
    obtain ⟨o, ho, hx⟩ := hx
    obtain ⟨o', ho', hx'⟩ := hx'
    have : o = o' := by
      rcases hx with ⟨a, -, rfl⟩ | ⟨a, -, rfl⟩ <;> rcases hx' with ⟨b, -, h⟩ | ⟨b, -, h⟩ <;> cases h <;> rfl
    subst this
    exact hne (hs.offsDisj f f' o ho ho')

/-- What the walk has still to look at is listed. -/
def Look (c : Cfg) (s : State) (q : Nat) : Prop :=
  s.fl.pc (c.k.wk q) = .sw → s.fl.alive (c.k.wk q) = true →
    (s.todo q).Nodup ∧ ∀ x ∈ s.todo q, ∃ f, Att s.fl.mem f x.1 x.2.1 x.2.2

theorem step_look {c : Cfg} (hk : Fits c) {s s' : State} {e : Ev} (h : step c s e = some s') (hi : SInv s.fl) {q : Nat}
    (hw : Look c s q) : Look c s' q := by
  intro hpc' hal'
  have hf := step_fl h
  by_cases hself : (∃ ch, e = .go (c.k.wk q) ch)
  · obtain ⟨ch, rfl⟩ := hself
    have hi' := step_sinv h hi
    simp only [step] at h
    split at h <;> [skip; cases h]
    rename_i hc
    obtain ⟨x, hx, rfl⟩ := Option.map_eq_some_iff.1 h
    have hal : s.fl.alive (c.k.wk q) = true := by
      simp only [FL.step] at hx
      split at hx <;> [cases hx; skip]
      simpa using ‹¬ s.fl.alive (c.k.wk q) = false›
    by_cases hp : s.fl.pc (c.k.wk q) = .acq .sw
    · simp only [started, hk.wk, hp, true_and, if_true, upd]
      refine ⟨walk_nodup hi'.sok, fun y hy => ?_⟩
      exact mem_walk.1 hy
    · have hp2 : s.fl.pc (c.k.wk q) = .sw := by
        rcases FL.step_cases hx with ⟨u, c, r, e, -⟩ | ⟨u, c, p, e, hal, hp', -, rfl⟩ | ⟨u, c, p, e, hal, hp', rfl⟩ |
          ⟨u, c, as, p', e, hal, hpl, rfl⟩ | ⟨u, c, k, as, e, -⟩
        · cases e
        · cases e
          simp only [FL.State.setPc, FL.fset_same] at hpc'
          subst hpc'; exact absurd hp' hp
        · cases e
          simp only [FL.State.setPc, FL.fset_same] at hpc'
          subst hpc'
          have := (hi.thr _ hal).2
          rw [hp'] at this
          cases this.1
        · cases e
          simp only [FL.State.setPc, FL.fset_same] at hpc'
          subst hpc'
          generalize s.fl.pc (c.k.wk q) = p at hpl ⊢
          have h3 : ∀ op r, FL.after3 op r ≠ .sw := by intro op r; unfold FL.after3; split <;> simp
          have h2 : ∀ op r f, FL.after2 op r f ≠ .sw := by intro op r f; unfold FL.after2; split <;> [simp; exact h3 _ _]
          cases p <;> cases ch <;> simp only [FL.plan] at hpl <;> (try cases hpl; done) <;> (try rfl)
          all_goals
            repeat' split at hpl
            all_goals simp at hpl
        · cases e
      have htd : (started c s (c.k.wk q) x) = s.todo := by simp [started, hp2]
      obtain ⟨g1, g2⟩ := hw hp2 hal
      simp only [htd]
      refine ⟨g1, fun y hy => ?_⟩
      obtain ⟨f, hf⟩ := g2 y hy
      refine ⟨f, FL.sw_fwd hi hx hp2 hf ?_⟩
      rintro rfl
      simp [inWalk, hk.wk, hp2] at hc
  · by_cases hsk : e = .skip q
    · subst hsk
      simp only [step] at h
      split at h <;> [skip; cases h]
      split at h
      · cases h
      · rename_i o' md' l' r htd
        split at h <;> simp only [Option.some.injEq, reduceCtorEq] at h
        subst h
        obtain ⟨g1, g2⟩ := hw hpc' hal'
        rw [htd] at g1 g2
        simp only [upd, if_true]
        exact ⟨(List.nodup_cons.1 g1).2, fun y hy => g2 y (List.mem_cons_of_mem _ hy)⟩
    by_cases hcu : e = .cut q
    · subst hcu
      simp only [step] at h
      split at h <;> [skip; cases h]
      rename_i hc
      simp only [Bool.and_eq_true, decide_eq_true_eq] at hc
      split at h
      · cases h
      · rename_i o' md' l' r htd
        obtain ⟨x, hx, rfl⟩ := Option.map_eq_some_iff.1 h
        have hal : s.fl.alive (c.k.wk q) = true := by
          simp only [FL.step] at hx
          split at hx <;> [cases hx; skip]
          simpa using ‹¬ s.fl.alive (c.k.wk q) = false›
        obtain ⟨g1, g2⟩ := hw hc.2 hal
        rw [htd] at g1 g2
        rw [List.nodup_cons] at g1
        simp only [upd, if_true]
        refine ⟨g1.2, fun y hy => ?_⟩
        obtain ⟨f, hf⟩ := g2 y (List.mem_cons_of_mem _ hy)
        refine ⟨f, FL.sw_fwd hi hx hc.2 hf ?_⟩
        intro e
        simp only [FL.Choice.lk.injEq] at e
        obtain ⟨e1, e2, e3⟩ := e
        subst e1 e2 e3
        exact g1.1 hy
    rw [step_todo hk h q hsk hcu (fun ch e => hself ⟨ch, e⟩)]
    cases he : evOf c s e with
    | none => rw [he] at hf; rw [hf] at hpc' hal' ⊢; exact hw hpc' hal'
    | some e' =>
      rw [he] at hf
      have hgo : ∀ ch, e' ≠ .go (c.k.wk q) ch := by
        rintro ch rfl
        cases e <;> simp only [evOf, reduceCtorEq, Option.some.injEq] at he
        case go => cases he; exact hself ⟨_, rfl⟩
        case begin => split at he <;> cases he
        case cut p =>
          split at he
          · cases he
          · simp only [Option.some.injEq, FL.Ev.go.injEq] at he
            exact hcu (by rw [← hk.wk p, ← hk.wk q, he.1])
      have hcall : ∀ a, e' ≠ .call (c.k.wk q) a := by
        rintro a rfl
        simp only [FL.step] at hf
        split at hf <;> [cases hf; skip]
        split at hf <;> [skip; cases hf]
        rw [← Option.some.inj hf] at hpc'
        simp only [FL.State.setPc, FL.fset_same] at hpc'
        cases a <;> cases hpc'
      rw [FL.step_pcR hf ⟨hgo, hcall⟩] at hpc'
      rcases FL.step_aliveR hf (c.k.wk q) with g | ⟨g, -⟩
      · have hal : s.fl.alive (c.k.wk q) = true := by rw [← g]; exact hal'
        obtain ⟨q1, q2, q3, q4⟩ := FL.inside_frame hi hf hal (by rw [hpc']; rfl) ⟨hgo, fun ch j e1 => by
          subst e1
          simp only [FL.step, hal] at hf
          rw [← Option.some.inj hf] at g
          simp [hal] at g⟩
        obtain ⟨g1, g2⟩ := hw hpc' hal
        refine ⟨g1, fun y hy => ?_⟩
        obtain ⟨f, hf⟩ := g2 y hy
        exact ⟨f, q1 ▸ hf.1, q2 ▸ hf.2.1, q3 ▸ hf.2.2⟩
      · rw [g] at hal'; cases hal'

section exec
variable {c : Cfg} {σ : Nat → State} {ε : Nat → Option Ev}

theorem Exec.moment (ex : Exec c σ ε) (i : Nat) : σ (i + 1) = σ i ∨ ∃ e, ε i = some e ∧ step c (σ i) e = some (σ (i + 1)) := by
  have hn := ex.next i
  cases he : ε i with
  | none => rw [he] at hn; exact .inl hn
  | some e => rw [he] at hn; exact .inr ⟨e, rfl, hn⟩

theorem Exec.sinv (ex : Exec c σ ε) (i : Nat) : SInv (σ i).fl := by
  induction i with
  | zero => obtain ⟨nf, no, nl, junk, h⟩ := ex.start; rw [h]; exact FL.sinv_init nf no nl junk
  | succ i ih =>
    rcases ex.moment i with h | ⟨e, -, h⟩
    · rw [h]; exact ih
    · exact step_sinv h ih

theorem Exec.downOf (ex : Exec c σ ε) (i : Nat) : ∀ t, (σ i).fl.alive t = false → (σ i).w.down (c.k.proc t) = true := by
  induction i with
  | zero => obtain ⟨nf, no, nl, junk, h⟩ := ex.start; rw [h]; intro t h; cases h
  | succ i ih =>
    rcases ex.moment i with h | ⟨e, -, h⟩
    · rw [h]; exact ih
    · exact step_down h ih

theorem Exec.dead_on (ex : Exec c σ ε) {i j v : Nat} (hij : i ≤ j) (hv : (σ i).fl.alive v = false) : (σ j).fl.alive v = false := by
  obtain ⟨d, rfl⟩ := Nat.le.dest hij
  clear hij
  induction d with
  | zero => exact hv
  | succ d ih =>
    rcases ex.moment (i + d) with h | ⟨e, -, h⟩
    · show (σ (i + d + 1)).fl.alive v = false; rw [h]; exact ih
    · have hf := step_fl h
      show (σ (i + d + 1)).fl.alive v = false
      cases he : evOf c (σ (i + d)) e with
      | none => rw [he] at hf; rw [hf]; exact ih
      | some e' =>
        rw [he] at hf
        rcases FL.step_aliveR hf v with g | ⟨g, -⟩
        · rw [g]; exact ih
        · exact g

theorem Exec.none_on (ex : Exec c σ ε) {i j v : Nat} (hij : i ≤ j) (hv : (σ i).fl.alive v = false) (hn : NoneOf (σ i).fl.mem v) :
    NoneOf (σ j).fl.mem v := by
  obtain ⟨d, rfl⟩ := Nat.le.dest hij
  clear hij
  induction d with
  | zero => exact hn
  | succ d ih =>
    show NoneOf (σ (i + d + 1)).fl.mem v
    rcases ex.moment (i + d) with h | ⟨e, -, h⟩
    · rw [h]; exact ih
    · have hf := step_fl h
      cases he : evOf c (σ (i + d)) e with
      | none => rw [he] at hf; rw [hf]; exact ih
      | some e' =>
        rw [he] at hf
        exact FL.step_none (ex.sinv _) hf (ex.dead_on (by omega) hv) ih

theorem Exec.leave (ex : Exec c σ ε) {q a j : Nat} {X : Place} (hx : (σ a).w.work q = X) (haj : a ≤ j) (hj : (σ j).w.work q ≠ X) :
    ∃ r, a ≤ r ∧ r < j ∧ (∀ r', a ≤ r' → r' ≤ r → (σ r').w.work q = X) ∧ ε r = some (leaves q X).1 ∧
      step c (σ r) (leaves q X).1 = some (σ (r + 1)) ∧ (σ (r + 1)).w.work q = (leaves q X).2 := by
  obtain ⟨d, rfl⟩ := Nat.le.dest haj
  clear haj
  induction d generalizing a with
  | zero => exact absurd hx hj
  | succ d ih =>
    by_cases hd : (σ (a + 1)).w.work q = X
    · obtain ⟨r, h1, h2, h3, h4⟩ := ih hd (by rw [show a + 1 + d = a + (d + 1) by omega]; exact hj)
      refine ⟨r, by omega, by omega, fun r' g1 g2 => ?_, h4⟩
      rcases Nat.eq_or_lt_of_le g1 with e | e
      · rw [← e]; exact hx
      · exact h3 r' e g2
    · refine ⟨a, Nat.le_refl _, by omega, fun r' g1 g2 => by rw [Nat.le_antisymm g2 g1]; exact hx, ?_⟩
      rcases ex.moment a with h | ⟨e, he, h⟩
      · rw [h] at hd; exact absurd hx hd
      · rcases step_work h q with g | ⟨g, g'⟩
        · rw [g] at hd; exact absurd hx hd
        · rw [hx] at g g'; subst g; exact ⟨he, h, g'⟩

theorem Exec.reads (ex : Exec c σ ε) {q a j : Nat} (ha : (σ a).w.queue q = true) (haj : a ≤ j) (hj : (σ j).w.queue q = false) :
    ∃ r, a ≤ r ∧ r < j ∧ (σ (r + 1)).w.work q = .got := by
  obtain ⟨d, rfl⟩ := Nat.le.dest haj
  clear haj
  induction d generalizing a with
  | zero => rw [Nat.add_zero, ha] at hj; cases hj
  | succ d ih =>
    cases hd : (σ (a + 1)).w.queue q with
    | true =>
      obtain ⟨r, h1, h2, h3⟩ := ih hd (by rw [show a + 1 + d = a + (d + 1) by omega]; exact hj)
      exact ⟨r, by omega, by omega, h3⟩
    | false =>
      refine ⟨a, Nat.le_refl _, by omega, ?_⟩
      rcases ex.moment a with h | ⟨e, he, h⟩
      · rw [h, ha] at hd; cases hd
      · rcases step_queue h ha with g | ⟨-, g⟩
        · rw [g] at hd; cases hd
        · exact g

theorem Exec.look (ex : Exec c σ ε) (hk : Fits c) (q i : Nat) : Look c (σ i) q := by
  induction i with
  | zero => obtain ⟨nf, no, nl, junk, h⟩ := ex.start; rw [h]; intro h; cases h
  | succ i ih =>
    rcases ex.moment i with h | ⟨e, -, h⟩
    · rw [h]; exact ih
    · exact step_look hk h (ex.sinv i) ih

theorem Exec.seen (ex : Exec c σ ε) (q v i : Nat) (hs : (σ i).snap q v = false) : (σ i).fl.alive v = false := by
  induction i with
  | zero => obtain ⟨nf, no, nl, junk, h⟩ := ex.start; rw [h] at hs; cases hs
  | succ i ih =>
    rcases ex.moment i with h | ⟨e, he, h⟩
    · rw [h] at hs ⊢; exact ih hs
    · by_cases hb : e = .begin q
      · subst hb
        refine ex.dead_on (Nat.le_succ i) ?_
        simp only [step] at h
        split at h <;> [skip; cases h]
        obtain ⟨x, hx, h1⟩ := Option.map_eq_some_iff.1 h
        rw [← h1] at hs
        simpa [upd] using hs
      · rw [step_snap h q hb] at hs
        exact ex.dead_on (Nat.le_succ i) (ih hs)

theorem idle_done {x : FL.State} {t : Nat} (h : idle x t = true) : ∃ r, x.pc t = .done r := by
  unfold idle at h
  split at h
  · exact ⟨_, by assumption⟩
  · cases h

/-- A check that begins when the locks of `v` do not count any more leaves nothing of `v`. -/
theorem Exec.swept (ex : Exec c σ ε) (hk : Fits c) {q v a j : Nat} (hv : (σ a).fl.alive v = false) (ha : (σ a).w.work q = .got)
    (haj : a ≤ j) (hj : (σ j).w.work q ≠ .got ∧ (σ j).w.work q ≠ .inF) : ∀ j', j ≤ j' → NoneOf (σ j').fl.mem v := by
  obtain ⟨r1, a1, b1, c1, d1, e1, f1⟩ := ex.leave ha haj hj.1
  obtain ⟨r2, a2, b2, c2, d2, e2, f2⟩ := ex.leave (a := r1 + 1) (j := j) f1 (by omega) hj.2
  simp only [leaves] at c2 d1 d2 e1 e2 f1 f2
  have hv1 := ex.dead_on a1 hv
  have key : ∀ r, r1 + 1 ≤ r → r ≤ r2 → (σ r).snap q v = false ∧ Walking c (σ r) q v := by
    intro r g1 g2
    obtain ⟨d, rfl⟩ := Nat.le.dest g1
    clear g1
    induction d with
    | zero =>
      simp only [step] at e1
      split at e1 <;> [skip; cases e1]
      obtain ⟨x, hx, h1⟩ := Option.map_eq_some_iff.1 e1
      show (σ (r1 + 1)).snap q v = false ∧ Walking c (σ (r1 + 1)) q v
      rw [← h1]
      refine ⟨by simpa [upd] using hv1, ?_⟩
      split at hx
      · rename_i hem
        rw [← Option.some.inj hx]
        right; right
        intro f hf
        rw [List.isEmpty_iff.1 hem] at hf; cases hf
      · left
        simp only [FL.step] at hx
        split at hx <;> [cases hx; skip]
        split at hx <;> [skip; cases hx]
        rw [← Option.some.inj hx]; exact FL.fset_same _ _ _
    | succ d ih =>
      obtain ⟨i1, i2⟩ := ih (by omega)
      show (σ (r1 + 1 + d + 1)).snap q v = false ∧ Walking c (σ (r1 + 1 + d + 1)) q v
      rcases ex.moment (r1 + 1 + d) with h | ⟨e, -, h⟩
      · rw [h]; exact ⟨i1, i2⟩
      · have hb : e ≠ .begin q := by
          rintro rfl
          simp only [step] at h
          split at h <;> [skip; cases h]
          rename_i hc
          simp only [Bool.and_eq_true, decide_eq_true_eq] at hc
          rw [c2 _ (by omega) (by omega)] at hc
          cases hc.2
        exact ⟨by rw [step_snap h q hb]; exact i1, step_walking hk h (ex.sinv _) (ex.dead_on (by omega) hv) i1 hb i2⟩
  have hn : NoneOf (σ r2).fl.mem v := by
    simp only [step] at e2
    split at e2 <;> [skip; cases e2]
    rename_i hc
    simp only [Bool.and_eq_true] at hc
    obtain ⟨r, hr⟩ := idle_done hc.2
    rcases (key r2 a2 (Nat.le_refl _)).2 with h | ⟨h, -⟩ | h
    · rw [hr] at h; cases h
    · rw [hr] at h; cases h
    · exact h
  intro j' hj'
  exact ex.none_on (by omega) (ex.dead_on (by omega) hv) hn

end exec
end Fullock.RecoverF
