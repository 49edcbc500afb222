import Verif.Proofs.RecoverF
import Verif.Proofs.FLForever
import Verif.Spec.RecoverFLive
/-! Executions without end of the way from the end of a process to the check. -/
namespace Fullock.RecoverF
open Fullock.FL (SInv inCS)
open Fullock.FLive (rank tsize lsize)
open Fullock.MC (upd const_from no_descent)

theorem lex_no_descent (f g : Nat → Nat) (n : Nat)
    (h : ∀ i, n ≤ i → f (i + 1) < f i ∨ (f (i + 1) = f i ∧ g (i + 1) ≤ g i))
    (hd : ∀ i, n ≤ i → ∃ j, i ≤ j ∧ (f (j + 1) < f j ∨ (f (j + 1) = f j ∧ g (j + 1) < g j))) : False := by
  obtain ⟨m, hm, hc⟩ := const_from f n fun i hi => by rcases h i hi with h | h <;> omega
  refine no_descent g m (fun i hi => ?_) fun i hi => ?_
  · rcases h i (by omega) with h | h
    · have := hc i hi; have := hc (i + 1) (by omega); omega
    · exact h.2
  · obtain ⟨j, hj, h | h⟩ := hd i (by omega)
    · have := hc j (by omega); have := hc (j + 1) (by omega); omega
    · exact ⟨j, hj, h.2⟩

/-! ### Who does what -/

theorem who_runs {c : Cfg} {s s' : State} {e : Ev} (h : step c s e = some s') {t : Nat} (hw : e.who c = some t) :
    s.w.runs c.k t = true := by
  cases hr : s.w.runs c.k t with
  | true => rfl
  | false =>
    cases e with
    | world e => cases e <;> simp [Ev.who] at hw <;> subst hw <;> simp [step, Recover.World.step, hr] at h
    | drop => simp [Ev.who] at hw
    | _ => simp [Ev.who] at hw; subst hw; simp [step, hr] at h

theorem pc_keep {c : Cfg} {s s' : State} {e : Ev} (h : step c s e = some s') {t : Nat} (hw : e.who c ≠ some t) :
    s'.fl.pc t = s.fl.pc t := by
  have hf := step_fl h
  cases he : evOf c s e with
  | none => rw [he] at hf; rw [hf]
  | some e' =>
    rw [he] at hf
    refine FL.step_pcR hf ⟨?_, ?_⟩
    · rintro ch rfl
      cases e <;> simp only [evOf, reduceCtorEq, Option.some.injEq, FL.Ev.go.injEq] at he
      case go => exact hw (by rw [← he.1]; rfl)
      case begin => split at he <;> simp at he
      case cut =>
        split at he <;> simp only [reduceCtorEq, Option.some.injEq, FL.Ev.go.injEq] at he
        exact hw (by rw [← he.1]; rfl)
    · rintro ch rfl
      cases e <;> simp only [evOf, reduceCtorEq, Option.some.injEq, FL.Ev.call.injEq] at he
      case call => exact hw (by rw [← he.1]; rfl)
      case begin =>
        split at he <;> simp only [reduceCtorEq, Option.some.injEq, FL.Ev.call.injEq] at he
        exact hw (by rw [← he.1]; rfl)
      case cut => split at he <;> simp at he

theorem mem_keep {c : Cfg} {s s' : State} {e : Ev} (hi : SInv s.fl) (h : step c s e = some s') {t : Nat} (hw : e.who c ≠ some t)
    (hal : s'.fl.alive t = true) (hin : inCS (s.fl.pc t) = true) :
    s'.fl.mem.files = s.fl.mem.files ∧ s'.fl.mem.offs = s.fl.mem.offs ∧ s'.fl.mem.lks = s.fl.mem.lks := by
  have hf := step_fl h
  cases he : evOf c s e with
  | none => rw [he] at hf; rw [hf]; exact ⟨rfl, rfl, rfl⟩
  | some e' =>
    rw [he] at hf
    have hd : ∀ ch k, e' ≠ .die t ch k := by
      rintro ch k rfl
      simp only [FL.step] at hf
      split at hf <;> [cases hf; skip]
      rw [← Option.some.inj hf] at hal
      simp at hal
    have hal0 : s.fl.alive t = true := by
      rcases FL.step_aliveR hf t with g | ⟨g, -⟩
      · rw [← g]; exact hal
      · rw [g] at hal; cases hal
    have hg : ∀ ch, e' ≠ .go t ch := by
      rintro ch rfl
      cases e <;> simp only [evOf, reduceCtorEq, Option.some.injEq, FL.Ev.go.injEq] at he
      case go => exact hw (by rw [← he.1]; rfl)
      case begin => split at he <;> simp at he
      case cut =>
        split at he <;> simp only [reduceCtorEq, Option.some.injEq, FL.Ev.go.injEq] at he
        exact hw (by rw [← he.1]; rfl)
    obtain ⟨a, b, d, -⟩ := FL.inside_frame hi hf hal0 hin ⟨hg, hd⟩
    exact ⟨a, b, d⟩

theorem alive_back {c : Cfg} {s s' : State} {e : Ev} (h : step c s e = some s') {t : Nat} (ht : s'.fl.alive t = true) :
    s.fl.alive t = true := by
  have hf := step_fl h
  cases he : evOf c s e with
  | none => rw [he] at hf; rw [← hf]; exact ht
  | some e' =>
    rw [he] at hf
    rcases FL.step_aliveR hf t with g | ⟨g, -⟩
    · rw [← g]; exact ht
    · rw [g] at ht; cases ht

theorem todo_keep {c : Cfg} (hk : Fits c) {s s' : State} {e : Ev} (h : step c s e = some s') {q : Nat}
    (hw : e.who c ≠ some (c.k.wk q)) : s'.todo q = s.todo q := by
  refine step_todo hk h q ?_ ?_ ?_
  · rintro rfl; exact hw rfl
  · rintro rfl; exact hw rfl
  · rintro ch rfl; exact hw rfl

theorem leaves_who (c : Cfg) (q : Nat) (p : Recover.Place) : (leaves q p).1.who c = some (c.k.wk q) := by
  cases p <;> rfl

/-! ### Where threads can be -/

/-- Where threads are: who has ended by itself is in no call, who is in a call has the segment open, the worker is in the tables only
in the first part of its check. -/
structure PInv (c : Cfg) (s : State) : Prop where
  cs : FL.CsIff s.fl
  noC : ∀ q, s.w.work q ≠ .inC
  stop : ∀ t, s.w.stop t = true → ∃ r, s.fl.pc t = .done r
  opn : ∀ t, s.fl.alive t = true → s.w.opened (c.k.proc t) = false → ∃ r, s.fl.pc t = .done r
  wk : ∀ q, s.w.work q ≠ .off → s.w.opened q = false → s.w.down q = true
  at_ : ∀ q, (∃ r, s.fl.pc (c.k.wk q) = .done r) ∨
    (s.w.work q = .inF ∧ (s.fl.pc (c.k.wk q) = .acq .sw ∨ s.fl.pc (c.k.wk q) = .sw ∨ ∃ r, s.fl.pc (c.k.wk q) = .rel (.done r)))

theorem wk_inj {c : Cfg} (hk : Fits c) {q q' : Nat} (h : c.k.wk q = c.k.wk q') : q = q' := by
  rw [← hk.wk q, h, hk.wk]

theorem go_pc {s s' : FL.State} {t : Nat} {ch : FL.Choice} (h : FL.step s (.go t ch) = some s') : ∀ r, s.pc t ≠ .done r := by
  intro r hr
  simp only [FL.step, hr] at h
  split at h <;> [cases h; skip]
  rw [FLive.plan_done] at h; cases h

theorem go_worker {s s' : FL.State} {t : Nat} {ch : FL.Choice} (h : FL.step s (.go t ch) = some s') :
    (s.pc t = .acq .sw → s'.pc t = .sw) ∧ (s.pc t = .sw → s'.pc t = .sw ∨ s'.pc t = .rel (.done 0)) ∧
    (∀ r, s.pc t = .rel (.done r) → s'.pc t = .done r) := by
  rcases FL.step_cases h with ⟨u, c, r, e, -⟩ | ⟨u, c, p, e, hal, hp, -, rfl⟩ | ⟨u, c, p, e, hal, hp, rfl⟩ |
    ⟨u, c, as, p', e, hal, hpl, rfl⟩ | ⟨u, c, k, as, e, -⟩
  · cases e
  · cases e
    simp only [FL.State.setPc, FL.fset_same, hp]
    simp
  · cases e
    simp only [FL.State.setPc, FL.fset_same, hp]
    simp
  · cases e
    simp only [FL.State.setPc, FL.fset_same]
    refine ⟨fun hp => ?_, fun hp => ?_, fun r hp => ?_⟩ <;> rw [hp] at hpl
    · cases ch <;> simp [FL.plan] at hpl
    · cases ch <;> simp only [FL.plan] at hpl <;> (try split at hpl) <;> simp at hpl <;> simp [hpl.2.symm]
    · cases ch <;> simp [FL.plan] at hpl
  · cases e

/-- Events of a thread, for the tables. -/
theorem own_fl {c : Cfg} {s s' : State} {e : Ev} (h : step c s e = some s') {t : Nat} (hw : e.who c = some t) :
    s'.fl = s.fl ∨ (∃ ch, FL.step s.fl (.go t ch) = some s'.fl) ∨
    (∃ a, e = .call t a ∧ c.k.wk (c.k.proc t) ≠ t ∧ s.w.opened (c.k.proc t) = true) ∨
    (∃ q, e = .begin q ∧ t = c.k.wk q ∧ s.w.work q = .got ∧ FL.step s.fl (.call t .sweep) = some s'.fl) := by
  have hf := step_fl h
  cases e <;> simp only [Ev.who, Option.some.injEq] at hw
  case world e => left; exact hf
  case call u a =>
    subst hw
    simp only [step] at h
    split at h <;> [skip; cases h]
    rename_i hc
    simp only [Bool.and_eq_true, decide_eq_true_eq] at hc
    exact .inr (.inr (.inl ⟨a, rfl, hc.2, hc.1.2⟩))
  case go u ch => subst hw; exact .inr (.inl ⟨ch, hf⟩)
  case drop => cases hw
  case begin q =>
    subst hw
    simp only [step] at h
    split at h <;> [skip; cases h]
    rename_i hc
    simp only [Bool.and_eq_true, decide_eq_true_eq] at hc
    simp only [evOf] at hf
    by_cases hm : s.fl.mem.files.isEmpty = true
    · simp only [hm, if_true] at hf; exact .inl hf
    · simp only [hm, if_false, Bool.false_eq_true] at hf; exact .inr (.inr (.inr ⟨q, rfl, rfl, hc.2, hf⟩))
  case skip => exact .inl hf
  case cut q =>
    subst hw
    simp only [evOf] at hf
    split at hf
    · rename_i hm; split at hm <;> simp at hm; exact .inl hf
    · rename_i hm
      split at hm <;> simp only [reduceCtorEq, Option.some.injEq] at hm
      subst hm; exact .inr (.inl ⟨_, hf⟩)
  case mtxs => exact .inl hf
  case back => exact .inl hf

theorem opened_closes {k : Recover.Cfg} {w w' : Recover.World} {e : Recover.WEv} (hw : w.step k e = some w') {p : Nat}
    (h' : w'.opened p = false) : w.opened p = false ∨ (e = .close p ∧ w.down p = true) := by
  cases e <;> simp only [Recover.World.step] at hw <;> (try split at hw) <;>
    simp only [Option.some.injEq, reduceCtorEq] at hw <;> subst hw
  case start u _ =>
    simp only [upd] at h'; split at h'
    · cases h'
    · exact .inl h'
  case close u hc =>
    simp only [Bool.and_eq_true] at hc
    by_cases e : p = u
    · subst e; exact .inr ⟨rfl, hc.1⟩
    · simp only [upd, e, if_false] at h'; exact .inl h'
  all_goals exact .inl h'

theorem stop_new {k : Recover.Cfg} {w w' : Recover.World} {e : Recover.WEv} (hw : w.step k e = some w') {t : Nat}
    (h' : w'.stop t = true) : w.stop t = true ∨ e = .leave t := by
  cases e <;> simp only [Recover.World.step] at hw <;> (try split at hw) <;>
    simp only [Option.some.injEq, reduceCtorEq] at hw <;> subst hw
  case leave u _ =>
    by_cases e : t = u
    · subst e; exact .inr rfl
    · simp only [upd, e, if_false] at h'; exact .inl h'
  all_goals exact .inl h'

theorem step_pinv {c : Cfg} (hk : Fits c) {s s' : State} {e : Ev} (h : step c s e = some s') (hi : SInv s.fl) (hp : PInv c s) :
    PInv c s' := by
  have hf := step_fl h
  refine ⟨?_, ?_, ?_, ?_, ?_, ?_⟩
  · cases he : evOf c s e with
    | none => rw [he] at hf; rw [hf]; exact hp.cs
    | some e' => rw [he] at hf; exact FL.csIff_step hi hp.cs hf
  · intro q
    rcases step_work h q with g | ⟨-, g⟩ <;> rw [g]
    · exact hp.noC q
    · have := hp.noC q
      cases hx : s.w.work q <;> simp [leaves] <;> exact this hx
  · intro t ht
    by_cases hw : e.who c = some t
    · have hr := who_runs h hw
      have hs : s.w.stop t = false := by simp only [Recover.World.runs, Bool.and_eq_true, Bool.not_eq_true'] at hr; exact hr.1
      rcases step_world h with ⟨e', rfl, ha, hw', -⟩ | ⟨-, -, g, -⟩
      · rcases stop_new hw' ht with g | rfl
        · rw [hs] at g; cases g
        · cases hw
      · rw [g, hs] at ht; cases ht
    · rw [pc_keep h hw]
      rcases step_world h with ⟨e', rfl, ha, hw', -⟩ | ⟨-, -, g, -⟩
      · rcases stop_new hw' ht with g | rfl
        · exact hp.stop t g
        · exact idle_done ha
      · rw [g] at ht; exact hp.stop t ht
  · intro t hal ho
    have hal0 := alive_back h hal
    have ho0 : s.w.opened (c.k.proc t) = false := by
      rcases step_world h with ⟨e', rfl, ha, hw', -⟩ | ⟨-, -, -, g, -⟩
      · rcases opened_closes hw' ho with g | ⟨rfl, -⟩
        · exact g
        · simp only [allowed, List.all_eq_true] at ha
          have := ha t ((hk.thr _ t).2 rfl)
          simp [hal0] at this
      · rw [← g]; exact ho
    have hd := hp.opn t hal0 ho0
    by_cases hw : e.who c = some t
    · rcases own_fl h hw with g | ⟨ch, g⟩ | ⟨a, rfl, -, g⟩ | ⟨q, rfl, rfl, g, -⟩
      · rw [g]; exact hd
      · obtain ⟨r, hr⟩ := hd; exact absurd hr (go_pc g r)
      · rw [ho0] at g; cases g
      · rw [hk.wk] at ho0
        have := hp.wk q (by rw [g]; simp) ho0
        have hr := who_runs h hw
        simp [Recover.World.runs, hk.wk, this] at hr
    · rw [pc_keep h hw]; exact hd
  · intro q hw ho
    rcases step_world h with ⟨e', rfl, ha, hw', -⟩ | ⟨hne, g1, -, g2, -⟩
    · have hdn : s.w.down q = true → s'.w.down q = true := fun h => world_down hw' h
      rcases world_work hw' q with g | ⟨rfl, -, -⟩ | ⟨-, g, -⟩
      · rw [g] at hw
        rcases opened_closes hw' ho with g | ⟨-, g⟩
        · exact hdn (hp.wk q hw g)
        · exact hdn g
      · simp only [Recover.World.step] at hw'
        split at hw' <;> [skip; cases hw']
        rename_i hc
        rw [← Option.some.inj hw'] at ho
        simp only [Bool.and_eq_true, decide_eq_true_eq] at hc
        rw [hc.1.2] at ho; cases ho
      · rcases opened_closes hw' ho with g' | ⟨-, g'⟩
        · exact hdn (hp.wk q (by rw [g]; simp) g')
        · exact hdn g'
    · rw [g1]
      rw [g2] at ho
      refine hp.wk q ?_ ho
      intro h0
      rcases step_work h q with g | ⟨g, -⟩
      · exact hw (g.trans h0)
      · rw [h0] at g
        exact hne _ g
  · intro q
    by_cases hw : e.who c = some (c.k.wk q)
    · rcases own_fl h hw with g | ⟨ch, g⟩ | ⟨a, rfl, g, -⟩ | ⟨q', rfl, g, g1, g2⟩
      · rw [g]
        rcases hp.at_ q with g1 | ⟨g1, g2⟩
        · exact .inl g1
        · rcases step_work h q with g3 | ⟨g3, -⟩
          · rw [g3]; exact .inr ⟨g1, g2⟩
          · rw [g1] at g3
            subst g3
            simp only [leaves, step] at h
            split at h <;> [skip; cases h]
            rename_i hc
            simp only [Bool.and_eq_true] at hc
            exact .inl (idle_done hc.2)
      · rcases hp.at_ q with ⟨r, g1⟩ | ⟨g1, g2⟩
        · exact absurd g1 (go_pc g r)
        · have hwk : s'.w.work q = s.w.work q := by
            rcases step_work h q with g3 | ⟨g3, -⟩
            · exact g3
            · rw [g1] at g3
              subst g3
              simp only [leaves, step] at h
              split at h <;> [skip; cases h]
              rename_i hc
              simp only [Bool.and_eq_true] at hc
              obtain ⟨r, hr⟩ := idle_done hc.2
              exact absurd hr (go_pc g r)
          obtain ⟨w1, w2, w3⟩ := go_worker g
          rcases g2 with g2 | g2 | ⟨r, g2⟩
          · exact .inr ⟨hwk.trans g1, .inr (.inl (w1 g2))⟩
          · rcases w2 g2 with g3 | g3
            · exact .inr ⟨hwk.trans g1, .inr (.inl g3)⟩
            · exact .inr ⟨hwk.trans g1, .inr (.inr ⟨_, g3⟩)⟩
          · exact .inl ⟨r, w3 r g2⟩
      · rw [hk.wk] at g; exact absurd rfl g
      · have := wk_inj hk g
        subst this
        right
        constructor
        · rcases step_work h q with g3 | ⟨-, g3⟩
          · simp only [step] at h
            split at h <;> [skip; cases h]
            obtain ⟨x, -, rfl⟩ := Option.map_eq_some_iff.1 h
            simp [State.move, upd]
          · rw [g3, g1]; rfl
        · left
          simp only [FL.step] at g2
          split at g2 <;> [cases g2; skip]
          split at g2 <;> [skip; cases g2]
          rw [← Option.some.inj g2]
          simp [FL.State.setPc, FL.Call.start]
    · rw [pc_keep h hw]
      rcases step_work h q with g | ⟨g, -⟩
      · rw [g]; exact hp.at_ q
      · exact absurd (g ▸ leaves_who c q _) hw

theorem Exec.pinv {c : Cfg} {σ : Nat → State} {ε : Nat → Option Ev} (ex : Exec c σ ε) (hk : Fits c) (i : Nat) : PInv c (σ i) := by
  induction i with
  | zero =>
    obtain ⟨nf, no, nl, junk, h⟩ := ex.start
    rw [h]
    exact ⟨fun u hu hl => absurd hl.symm hu, fun _ => (by simp [init]), fun _ h => (by cases h), fun _ _ _ => ⟨0, rfl⟩,
      fun _ h => absurd rfl h, fun _ => .inl ⟨0, rfl⟩⟩
  | succ i ih =>
    rcases ex.moment i with h | ⟨e, -, h⟩
    · rw [h]; exact ih
    · exact step_pinv hk h (ex.sinv i) ih

/-! ### Inside of the table lock -/

/-- The places inside of the table lock, by their distance from its end. -/
def cr : FL.Pc → Nat
  | .rSet .. => 32
  | .rChk .. => 31
  | p => 3 * rank p

/-- What is left to do at a place. -/
def gs (c : Cfg) (s : State) (u : Nat) : Nat :=
  match s.fl.pc u with
  | .rChk _ _ o _ => lsize s.fl.mem o
  | .sw => tsize s.fl.mem + if c.k.wk (c.k.proc u) = u then (s.todo (c.k.proc u)).length else 0
  | _ => 0

theorem cr_le (p : FL.Pc) : 3 * rank p ≤ cr p ∧ cr p ≤ 3 * rank p + 2 := by
  cases p <;> simp [cr, rank]

theorem gs_keep {c : Cfg} (hk : Fits c) {s s' : State} {e : Ev} (hi : SInv s.fl) (h : step c s e = some s') {u : Nat}
    (hw : e.who c ≠ some u) (hal : s'.fl.alive u = true) (hin : inCS (s.fl.pc u) = true) : gs c s' u = gs c s u := by
  obtain ⟨h1, h2, h3⟩ := mem_keep hi h hw hal hin
  have ht : c.k.wk (c.k.proc u) = u → s'.todo (c.k.proc u) = s.todo (c.k.proc u) := fun e => todo_keep hk h (by rw [e]; exact hw)
  unfold gs
  rw [pc_keep h hw]
  split
  · simp only [lsize, h3]
  · have : tsize s'.fl.mem = tsize s.fl.mem := by simp only [tsize, lsize, h1, h2, h3]
    rw [this]
    split
    · rename_i e; rw [ht e]
    · rfl
  · rfl

/-- A step inside of the table lock: it is left, or less is left to do. -/
theorem go_less {s s' : FL.State} {u : Nat} {ch : FL.Choice} (hi : SInv s) (h : FL.step s (.go u ch) = some s')
    (hin : inCS (s.pc u) = true) :
    inCS (s'.pc u) = false ∨ cr (s'.pc u) < cr (s.pc u) ∨
    (s.pc u = .sw ∧ s'.pc u = .sw ∧ tsize s'.mem < tsize s.mem) ∨
    (∃ op f o l, s.pc u = .rChk op f o l ∧ s'.pc u = .rChk op f o l ∧ lsize s'.mem o < lsize s.mem o) := by
  rcases FL.step_cases h with ⟨u, c, r, e, -⟩ | ⟨u, c, p, e, hal, hp, -, rfl⟩ | ⟨u, c, p, e, hal, hp, rfl⟩ |
    ⟨u, c, as, p', e, hal, hpl, rfl⟩ | ⟨u, c, k, as, e, -⟩
  · cases e
  · cases e; rw [hp] at hin; cases hin
  · cases e
    have := (hi.thr u hal).2
    rw [hp] at this
    left
    simp only [FL.State.setPc, FL.fset_same]
    exact FL.leave_inCS this.1
  · cases e
    simp only [FL.State.setPc, FL.fset_same]
    rcases FLive.rank_plan hpl with g | g
    · right; left
      have := (cr_le p').2; have := (cr_le (s.pc u)).1; omega
    · generalize s.pc u = p at g hin
      have g' := g
      cases g' with
      | again => cases hin
      | limit => cases hin
      | set => right; left; simp [cr]
      | dead op f o l md l' hl hd => right; right; right; exact ⟨_, _, _, _, rfl, rfl, (FLive.lsize_sweep hl).1⟩
      | back => right; left; simp [cr, rank]
      | swL => right; right; left; exact ⟨rfl, rfl, FLive.lp_sw g rfl⟩
      | swO => right; right; left; exact ⟨rfl, rfl, FLive.lp_sw g rfl⟩
      | swF => right; right; left; exact ⟨rfl, rfl, FLive.lp_sw g rfl⟩
  · cases e

theorem own_less {c : Cfg} (hk : Fits c) {s s' : State} {e : Ev} (hi : SInv s.fl) (hp : PInv c s) (h : step c s e = some s') {u : Nat}
    (hw : e.who c = some u) (hin : inCS (s.fl.pc u) = true) :
    inCS (s'.fl.pc u) = false ∨ cr (s'.fl.pc u) < cr (s.fl.pc u) ∨ (cr (s'.fl.pc u) = cr (s.fl.pc u) ∧ gs c s' u < gs c s u) := by
  have hwk : ∀ q, u = c.k.wk q → s.w.work q = .inF := by
    rintro q rfl
    rcases hp.at_ q with ⟨r, g⟩ | ⟨g, -⟩
    · rw [g] at hin; cases hin
    · exact g
  have go : ∀ ch, FL.step s.fl (.go u ch) = some s'.fl → (s'.todo (c.k.proc u)).length ≤ (s.todo (c.k.proc u)).length →
      inCS (s'.fl.pc u) = false ∨ cr (s'.fl.pc u) < cr (s.fl.pc u) ∨ (cr (s'.fl.pc u) = cr (s.fl.pc u) ∧ gs c s' u < gs c s u) := by
    intro ch hf hl
    rcases go_less hi hf hin with g | g | ⟨g1, g2, g3⟩ | ⟨op, f, o, l, g1, g2, g3⟩
    · exact .inl g
    · exact .inr (.inl g)
    · right; right
      rw [g1, g2]
      refine ⟨rfl, ?_⟩
      simp only [gs, g1, g2]
      split <;> omega
    · right; right
      rw [g1, g2]
      refine ⟨rfl, ?_⟩
      simp only [gs, g1, g2]
      exact g3
  have hf := step_fl h
  cases e <;> simp only [Ev.who, Option.some.injEq] at hw
  case world e =>
    simp only [step] at h
    split at h <;> [skip; cases h]
    obtain ⟨w, hw', rfl⟩ := Option.map_eq_some_iff.1 h
    cases e <;> simp only [reduceCtorEq, Option.some.injEq] at hw
    case watch q _ =>
      have := hwk q hw.symm
      simp [Recover.World.step, this] at hw'
    case read q _ =>
      have := hwk q hw.symm
      simp [Recover.World.step, this] at hw'
  case call t a =>
    subst hw
    simp only [evOf, FL.step] at hf
    split at hf <;> [cases hf; skip]
    split at hf <;> [skip; cases hf]
    rename_i hd
    rw [hd] at hin; cases hin
  case go t ch =>
    subst hw
    refine go ch hf (Nat.le_of_eq ?_)
    simp only [step] at h
    split at h <;> [skip; cases h]
    obtain ⟨x, -, rfl⟩ := Option.map_eq_some_iff.1 h
    have : ¬ (c.k.wk (c.k.proc t) = t ∧ s.fl.pc t = .acq .sw) := by
      rintro ⟨-, e⟩; rw [e] at hin; cases hin
    simp only [started, if_neg this]
  case drop => cases hw
  case begin q =>
    have := hwk q hw.symm
    simp [step, this] at h
  case skip q =>
    subst hw
    right; right
    simp only [step] at h
    split at h <;> [skip; cases h]
    rename_i hc
    simp only [Bool.and_eq_true, decide_eq_true_eq] at hc
    split at h <;> [cases h; skip]
    rename_i hx
    split at h <;> [skip; cases h]
    rw [← Option.some.inj h]
    refine ⟨rfl, ?_⟩
    simp only [gs, hc.2, hk.wk, if_true, upd, hx, List.length_cons]
    omega
  case cut q =>
    subst hw
    simp only [step] at h
    split at h <;> [skip; cases h]
    split at h <;> [cases h; skip]
    rename_i hx
    obtain ⟨x, hx', rfl⟩ := Option.map_eq_some_iff.1 h
    refine go _ hx' ?_
    simp only [hk.wk, upd, if_true, hx, List.length_cons]
    omega
  case mtxs q =>
    subst hw
    simp only [step] at h
    split at h <;> [skip; cases h]
    rename_i hc
    simp only [Bool.and_eq_true] at hc
    obtain ⟨r, hr⟩ := idle_done hc.2
    rw [hr] at hin; cases hin
  case back q =>
    have := hwk q hw.symm
    simp [step, this] at h

/-! ### Sooner or later -/

section
variable {c : Cfg} {σ : Nat → State} {ε : Nat → Option Ev}

theorem Exec.alive_runs (ex : Exec c σ ε) {i t : Nat} (hr : (σ i).w.runs c.k t = true) : (σ i).fl.alive t = true := by
  by_contra hn
  have := ex.downOf i t (by simpa using hn)
  simp [Recover.World.runs, this] at hr

/-- Who runs inside of the table lock is able to go on. -/
theorem Exec.able_cs (ex : Exec c σ ε) (hk : Fits c) {i u : Nat} (hr : (σ i).w.runs c.k u = true)
    (hin : inCS ((σ i).fl.pc u) = true) : able c (σ i) u := by
  have hal := ex.alive_runs hr
  by_cases hw : c.k.wk (c.k.proc u) = u ∧ (σ i).fl.pc u = .sw
  · obtain ⟨h1, h2⟩ := hw
    cases htd : (σ i).todo (c.k.proc u) with
    | nil =>
      exact ⟨.go u .go, _, rfl, nofun, by simp only [step, hr, inWalk, h1, h2, htd, FL.step, hal, FL.plan]; rfl⟩
    | cons x r =>
      obtain ⟨o, md, l⟩ := x
      have hpc : (σ i).fl.pc (c.k.wk (c.k.proc u)) = .sw := by rw [h1]; exact h2
      have hr' : (σ i).w.runs c.k (c.k.wk (c.k.proc u)) = true := by rw [h1]; exact hr
      have hal' : (σ i).fl.alive (c.k.wk (c.k.proc u)) = true := by rw [h1]; exact hal
      obtain ⟨-, g2⟩ := ex.look hk (c.k.proc u) i hpc hal'
      obtain ⟨f, g1, g2, g3⟩ := g2 _ (by rw [htd]; exact List.mem_cons_self)
      cases hs : (σ i).snap (c.k.proc u) ((σ i).fl.mem.ltid l) with
      | true =>
        exact ⟨.skip (c.k.proc u), _, by simp [Ev.who, h1], nofun, by simp only [step, hr', hpc, htd, hs]; rfl⟩
      | false =>
        have hd := ex.seen _ _ i hs
        have : ((∃ f ∈ (σ i).fl.mem.files, o ∈ (σ i).fl.mem.offs f) ∧ l ∈ (σ i).fl.mem.lks o md ∧
            (σ i).fl.alive ((σ i).fl.mem.ltid l) = false) := ⟨⟨f, g1, g2⟩, g3, hd⟩
        exact ⟨.cut (c.k.proc u), _, by simp [Ev.who, h1], nofun,
          by simp only [step, hr', hpc, htd, FL.step, hal', FL.plan, if_pos this]; rfl⟩
  · obtain ⟨ch, s', h⟩ := FLive.mayGo_of (s := (σ i).fl) (t := u) ⟨hal, fun r e => by rw [e] at hin; cases hin⟩
      (fun q e => by rw [e] at hin; cases hin)
    exact ⟨.go u ch, _, rfl, nofun, by simp only [step, hr, inWalk, if_neg hw, h]; rfl⟩

/-- Who is inside of the table lock, and goes on running, leaves it. -/
theorem Exec.cs_out (ex : Exec c σ ε) (hk : Fits c) (hf : Fair c σ ε) {u a : Nat} (hin : inCS ((σ a).fl.pc u) = true)
    (hr : ∀ k, a ≤ k → (σ k).w.runs c.k u = true) :
    ∃ k, a ≤ k ∧ (∀ r, a ≤ r → r ≤ k → inCS ((σ r).fl.pc u) = true) ∧ inCS ((σ (k + 1)).fl.pc u) = false := by
  by_contra hno
  have hall : ∀ d, ∀ r, a ≤ r → r ≤ a + d → inCS ((σ r).fl.pc u) = true := by
    intro d
    induction d with
    | zero => intro r h1 h2; rw [show r = a by omega]; exact hin
    | succ d ih =>
      intro r h1 h2
      by_cases hle : r ≤ a + d
      · exact ih r h1 hle
      · by_contra hn
        exact hno ⟨a + d, by omega, ih, by rw [show a + d + 1 = r by omega]; simpa using hn⟩
  have hin' : ∀ r, a ≤ r → inCS ((σ r).fl.pc u) = true := fun r h => hall (r - a) r h (by omega)
  have own : ∀ i, a ≤ i → ∀ e, ε i = some e → e.who c = some u →
      cr ((σ (i + 1)).fl.pc u) < cr ((σ i).fl.pc u) ∨
        (cr ((σ (i + 1)).fl.pc u) = cr ((σ i).fl.pc u) ∧ gs c (σ (i + 1)) u < gs c (σ i) u) := by
    intro i hi e he hw
    have hn := ex.next i
    rw [he] at hn
    rcases own_less hk (ex.sinv i) (ex.pinv hk i) hn hw (hin' i hi) with g | g
    · rw [hin' (i + 1) (by omega)] at g; cases g
    · exact g
  refine lex_no_descent (fun i => cr ((σ i).fl.pc u)) (fun i => gs c (σ i) u) a (fun i hi => ?_) fun i hi => ?_
  · rcases ex.moment i with h | ⟨e, he, h⟩
    · exact .inr ⟨by rw [h], by rw [h]; exact Nat.le_refl _⟩
    · by_cases hw : e.who c = some u
      · rcases own i hi e he hw with g | ⟨g1, g2⟩
        · exact .inl g
        · exact .inr ⟨g1, Nat.le_of_lt g2⟩
      · refine .inr ⟨by rw [pc_keep h hw], Nat.le_of_eq ?_⟩
        exact gs_keep hk (ex.sinv i) h hw (ex.alive_runs (hr (i + 1) (by omega))) (hin' i hi)
  · obtain ⟨j, hj, e, he, hw⟩ := hf u (fun i => ⟨max i a, by omega, ex.able_cs hk (hr _ (by omega)) (hin' _ (by omega))⟩) i
    exact ⟨j, hj, own j (by omega) e he hw⟩

theorem lock_keep {s s' : FL.State} {e : FL.Ev} (h : FL.step s e = some s') (h0 : s.lockid ≠ 0) (ha : s.alive s.lockid = true) :
    s'.lockid = s.lockid ∨ s'.lockid = 0 := by
  rcases FL.step_cases h with ⟨u, c, r, rfl, -, -, -, rfl⟩ | ⟨u, c, p, rfl, -, -, hl, rfl⟩ |
    ⟨u, c, p, rfl, -, -, rfl⟩ | ⟨u, c, as, p', rfl, -, -, rfl⟩ | ⟨u, c, k, as, rfl, -, -, rfl⟩
  · exact .inl rfl
  · rcases hl with hl | hl
    · exact absurd hl h0
    · rw [ha] at hl; cases hl
  · simp only [FL.State.setPc]; split
    · exact .inr rfl
    · exact .inl rfl
  · exact .inl rfl
  · exact .inl rfl

/-- The table lock is free again and again. -/
theorem Exec.free (ex : Exec c σ ε) (hk : Fits c) (hf : Fair c σ ε) (hcl : Closes σ) (i : Nat) :
    ∃ j, i ≤ j ∧ ((σ j).fl.lockid = 0 ∨ (σ j).fl.alive (σ j).fl.lockid = false) := by
  by_contra hno
  have h0 : ∀ j, i ≤ j → (σ j).fl.lockid ≠ 0 ∧ (σ j).fl.alive (σ j).fl.lockid = true := by
    intro j hj
    constructor
    · intro h; exact hno ⟨j, hj, .inl h⟩
    · by_contra h; exact hno ⟨j, hj, .inr (by simpa using h)⟩
  have hc : ∀ d, (σ (i + d)).fl.lockid = (σ i).fl.lockid := by
    intro d
    induction d with
    | zero => rfl
    | succ d ih =>
      show (σ (i + d + 1)).fl.lockid = _
      rcases ex.moment (i + d) with h | ⟨e, -, h⟩
      · rw [h]; exact ih
      · have hf := step_fl h
        cases he : evOf c (σ (i + d)) e with
        | none => rw [he] at hf; rw [hf]; exact ih
        | some e' =>
          rw [he] at hf
          obtain ⟨a, b⟩ := h0 (i + d) (by omega)
          rcases lock_keep hf a b with g | g
          · rw [g]; exact ih
          · exact absurd g (h0 (i + d + 1) (by omega)).1
  generalize hu : (σ i).fl.lockid = u at hc
  have hc' : ∀ j, i ≤ j → (σ j).fl.lockid = u := fun j hj => by
    have := hc (j - i); rwa [show i + (j - i) = j by omega] at this
  have hin : ∀ j, i ≤ j → inCS ((σ j).fl.pc u) = true := fun j hj => by
    have := h0 j hj
    rw [hc' j hj] at this
    exact (ex.pinv hk j).cs u this.1 (hc' j hj) this.2
  have hal : ∀ j, i ≤ j → (σ j).fl.alive u = true := fun j hj => by
    have := (h0 j hj).2; rwa [hc' j hj] at this
  have hr : ∀ j, i ≤ j → (σ j).w.runs c.k u = true := by
    intro j hj
    by_contra hn
    have hd : (σ j).w.stop u = true ∨ (σ j).w.down (c.k.proc u) = true := by
      simp only [Recover.World.runs, Bool.and_eq_true, Bool.not_eq_true', not_and_or, Bool.not_eq_false] at hn
      exact hn
    rcases hd with hd | hd
    · obtain ⟨r, g⟩ := (ex.pinv hk j).stop u hd
      have := hin j hj; rw [g] at this; cases this
    · cases ho : (σ j).w.opened (c.k.proc u) with
      | false =>
        obtain ⟨r, g⟩ := (ex.pinv hk j).opn u (hal j hj) ho
        have := hin j hj; rw [g] at this; cases this
      | true =>
        obtain ⟨k, hjk, ho'⟩ := hcl j _ hd ho
        obtain ⟨r, g⟩ := (ex.pinv hk k).opn u (hal k (by omega)) ho'
        have := hin k (by omega); rw [g] at this; cases this
  obtain ⟨k, hk1, -, hk2⟩ := ex.cs_out hk hf (hin i (Nat.le_refl _)) hr
  rw [hin (k + 1) (by omega)] at hk2; cases hk2

/-- A step of a thread that is in a call. -/
theorem own_in (hk : Fits c) {s s' : State} {e : Ev} (hp : PInv c s) (h : step c s e = some s') {u : Nat} (hw : e.who c = some u)
    (hn : ∀ r, s.fl.pc u ≠ .done r) :
    (∃ ch, e = .go u ch) ∨ ∃ q, u = c.k.wk q ∧ (e = .skip q ∨ e = .cut q) ∧ s.fl.pc u = .sw := by
  have hwk : ∀ q, u = c.k.wk q → s.w.work q = .inF := by
    rintro q rfl
    rcases hp.at_ q with ⟨r, g⟩ | ⟨g, -⟩
    · exact absurd g (hn r)
    · exact g
  have hf := step_fl h
  cases e <;> simp only [Ev.who, Option.some.injEq] at hw
  case world e =>
    simp only [step] at h
    split at h <;> [skip; cases h]
    obtain ⟨w, hw', rfl⟩ := Option.map_eq_some_iff.1 h
    cases e <;> simp only [reduceCtorEq, Option.some.injEq] at hw
    case watch q _ => have := hwk q hw.symm; simp [Recover.World.step, this] at hw'
    case read q _ => have := hwk q hw.symm; simp [Recover.World.step, this] at hw'
  case call t a =>
    subst hw
    simp only [evOf, FL.step] at hf
    split at hf <;> [cases hf; skip]
    cases hf
  case go t ch => subst hw; exact .inl ⟨ch, rfl⟩
  case drop => cases hw
  case begin q => have := hwk q hw.symm; simp [step, this] at h
  case skip q =>
    subst hw
    simp only [step] at h
    split at h <;> [skip; cases h]
    rename_i hc
    simp only [Bool.and_eq_true, decide_eq_true_eq] at hc
    exact .inr ⟨q, rfl, .inl rfl, hc.2⟩
  case cut q =>
    subst hw
    simp only [step] at h
    split at h <;> [skip; cases h]
    rename_i hc
    simp only [Bool.and_eq_true, decide_eq_true_eq] at hc
    exact .inr ⟨q, rfl, .inr rfl, hc.2⟩
  case mtxs q =>
    subst hw
    simp only [step] at h
    split at h <;> [skip; cases h]
    rename_i hc
    simp only [Bool.and_eq_true] at hc
    obtain ⟨r, hr⟩ := idle_done hc.2
    exact absurd hr (hn r)
  case back q => have := hwk q hw.symm; simp [step, this] at h

/-- A step of a worker that is in no call takes it to the next place. -/
theorem own_leaves (hk : Fits c) {s s' : State} {e : Ev} (hp : PInv c s) (h : step c s e = some s') {q : Nat}
    (hw : e.who c = some (c.k.wk q)) {r : Nat} (hd : s.fl.pc (c.k.wk q) = .done r) : s'.w.work q ≠ s.w.work q := by
  have hf := step_fl h
  cases e <;> simp only [Ev.who, Option.some.injEq] at hw
  case world e =>
    simp only [step] at h
    split at h <;> [skip; cases h]
    obtain ⟨w, hw', rfl⟩ := Option.map_eq_some_iff.1 h
    cases e <;> simp only [reduceCtorEq, Option.some.injEq] at hw <;> have hq := wk_inj hk hw <;> subst hq <;>
      simp only [Recover.World.step] at hw' <;> split at hw' <;> (try cases hw'; done) <;> rename_i hc <;>
      simp only [Bool.and_eq_true, decide_eq_true_eq] at hc <;> rw [← Option.some.inj hw'] <;> simp [upd]
    · rw [hc.2]; simp
    · rw [hc.1.2]; simp
  case call t a =>
    subst hw
    simp [step, hk.wk] at h
  case go t ch => subst hw; exact absurd hd (go_pc hf r)
  case drop => cases hw
  case skip q' =>
    have hq := wk_inj hk hw
    subst hq
    simp [step, hd] at h
  case cut q' =>
    have hq := wk_inj hk hw
    subst hq
    simp [step, hd] at h
  case begin q' =>
    have hq := wk_inj hk hw
    subst hq
    simp only [step] at h
    split at h <;> [skip; cases h]
    rename_i hc
    simp only [Bool.and_eq_true, decide_eq_true_eq] at hc
    obtain ⟨x, -, rfl⟩ := Option.map_eq_some_iff.1 h
    rw [hc.2]; simp [State.move, upd]
  case mtxs q' =>
    have hq := wk_inj hk hw
    subst hq
    simp only [step] at h
    split at h <;> [skip; cases h]
    rename_i hc
    simp only [Bool.and_eq_true, decide_eq_true_eq] at hc
    rw [← Option.some.inj h, hc.1.2]; simp [State.move, upd]
  case back q' =>
    have hq := wk_inj hk hw
    subst hq
    simp only [step] at h
    split at h <;> [skip; cases h]
    rename_i hc
    simp only [Bool.and_eq_true, decide_eq_true_eq] at hc
    rw [← Option.some.inj h, hc.2]; simp [State.move, upd]

/-- The next moment at which a thread goes on. -/
theorem Exec.next_own (hf : Fair c σ ε) {t a : Nat} (hab : (∀ r, a ≤ r → ∀ e, ε r = some e → e.who c ≠ some t) →
      ∀ i, ∃ j, i ≤ j ∧ able c (σ j) t) :
    ∃ k e, a ≤ k ∧ ε k = some e ∧ e.who c = some t ∧ ∀ r, a ≤ r → r < k → ∀ e, ε r = some e → e.who c ≠ some t := by
  have hex : ∃ k, a ≤ k ∧ ∃ e, ε k = some e ∧ e.who c = some t := by
    by_contra hno
    have hno' : ∀ r, a ≤ r → ∀ e, ε r = some e → e.who c ≠ some t := fun r hr e he hw => hno ⟨r, hr, e, he, hw⟩
    obtain ⟨j, hj, e, he, hw⟩ := hf t (hab hno') a
    exact hno' j hj e he hw
  obtain ⟨k, hk⟩ := hex
  induction k using Nat.strongRecOn with
  | _ k ih =>
    obtain ⟨h1, e, h2, h3⟩ := hk
    by_cases hn : ∃ r, r < k ∧ a ≤ r ∧ ∃ e, ε r = some e ∧ e.who c = some t
    · obtain ⟨r, g1, g2⟩ := hn
      exact ih r g1 g2
    · exact ⟨k, e, h1, h2, h3, fun r hr hlt e he hw => hn ⟨r, hlt, hr, e, he, hw⟩⟩

theorem Exec.pc_still (ex : Exec c σ ε) {t a k : Nat} (hak : a ≤ k)
    (hno : ∀ r, a ≤ r → r < k → ∀ e, ε r = some e → e.who c ≠ some t) : (σ k).fl.pc t = (σ a).fl.pc t := by
  obtain ⟨d, rfl⟩ := Nat.le.dest hak
  clear hak
  induction d with
  | zero => rfl
  | succ d ih =>
    show (σ (a + d + 1)).fl.pc t = _
    rcases ex.moment (a + d) with h | ⟨e, he, h⟩
    · rw [h]; exact ih fun r h1 h2 => hno r h1 (by omega)
    · rw [pc_keep h (hno _ (by omega) (by omega) e he)]; exact ih fun r h1 h2 => hno r h1 (by omega)

/-- Who waits for the table lock, and goes on running, gets it. -/
theorem Exec.gets (ex : Exec c σ ε) (hk : Fits c) (hf : Fair c σ ε) (hcl : Closes σ) {t a : Nat} {p : FL.Pc}
    (hp : (σ a).fl.pc t = .acq p) (hr : ∀ k, a ≤ k → (σ k).w.runs c.k t = true) :
    ∃ k, a ≤ k ∧ (∀ r, a ≤ r → r ≤ k → (σ r).fl.pc t = .acq p) ∧ (σ (k + 1)).fl.pc t = p ∧ (σ (k + 1)).fl.lockid = t := by
  obtain ⟨k, e, hak, he, hw, hno⟩ := Exec.next_own (σ := σ) hf (t := t) (a := a) (by
    intro hno i
    obtain ⟨j, hj, hfree⟩ := ex.free hk hf hcl (max i a)
    refine ⟨j, by omega, ?_⟩
    have hpc := ex.pc_still (t := t) (a := a) (k := j) (by omega) fun r h1 _ => hno r h1
    have hrj := hr j (by omega)
    have : inWalk c (σ j) t .go = true := by simp [inWalk, hpc, hp]
    exact ⟨.go t .go, _, rfl, nofun, by
      simp only [step, hrj, this, FL.step, ex.alive_runs hrj, hpc, hp, if_pos hfree]; rfl⟩)
  have hst : ∀ r, a ≤ r → r ≤ k → (σ r).fl.pc t = .acq p := fun r h1 h2 => by
    rw [ex.pc_still h1 fun r' h3 h4 => hno r' h3 (by omega), hp]
  have hn := ex.next k
  rw [he] at hn
  have hpk := hst k hak (Nat.le_refl _)
  refine ⟨k, hak, hst, ?_⟩
  rcases own_in hk (ex.pinv hk k) hn hw (by rw [hpk]; nofun) with ⟨ch, rfl⟩ | ⟨q, -, -, g⟩
  · have hf := step_fl hn
    simp only [evOf, FL.step, hpk, ex.alive_runs (hr k hak)] at hf
    split at hf
    · rename_i h; cases h
    · split at hf <;> [skip; cases hf]
      rw [← Option.some.inj hf]; simp [FL.State.setPc]
  · rw [hpk] at g; cases g

/-! ### The worker goes round -/

theorem Stays.runs {q a : Nat} (hs : Stays c σ q a) (hk : Fits c) {k : Nat} (h : a ≤ k) : (σ k).w.runs c.k (c.k.wk q) = true := by
  obtain ⟨h1, h2⟩ := hs k h
  simp [Recover.World.runs, h2, hk.wk, h1]

/-- A worker in no call goes to its next place if it is able to. -/
theorem Exec.next_place (ex : Exec c σ ε) (hk : Fits c) (hf : Fair c σ ε) {q a : Nat} {X : Recover.Place}
    (hx : (σ a).w.work q = X) (hd : ∀ k, a ≤ k → (σ k).w.work q = X → ∃ r, (σ k).fl.pc (c.k.wk q) = .done r)
    (hab : (∀ k, a ≤ k → (σ k).w.work q = X) → ∀ k, a ≤ k → able c (σ k) (c.k.wk q)) :
    ∃ r, a ≤ r ∧ (∀ r', a ≤ r' → r' ≤ r → (σ r').w.work q = X) ∧ ε r = some (leaves q X).1 ∧
      step c (σ r) (leaves q X).1 = some (σ (r + 1)) ∧ (σ (r + 1)).w.work q = (leaves q X).2 := by
  by_cases hall : ∀ k, a ≤ k → (σ k).w.work q = X
  · exfalso
    obtain ⟨k, hak, e, he, hw⟩ := hf (c.k.wk q) (fun i => ⟨max i a, by omega, hab hall _ (by omega)⟩) a
    have hn := ex.next k
    rw [he] at hn
    obtain ⟨r, hr⟩ := hd k hak (hall k hak)
    exact own_leaves hk (ex.pinv hk k) hn hw hr (by rw [hall k hak, hall (k + 1) (by omega)])
  · have : ∃ j, a ≤ j ∧ (σ j).w.work q ≠ X := by
      by_contra h
      exact hall fun k hk => by by_contra hn; exact h ⟨k, hk, hn⟩
    obtain ⟨j, haj, hj⟩ := this
    obtain ⟨r, h1, h2, h3⟩ := ex.leave hx haj hj
    exact ⟨r, h1, h3⟩

theorem Exec.done_at (ex : Exec c σ ε) (hk : Fits c) {q k : Nat} (h : (σ k).w.work q ≠ .inF) : ∃ r, (σ k).fl.pc (c.k.wk q) = .done r := by
  rcases (ex.pinv hk k).at_ q with g | ⟨g, -⟩
  · exact g
  · exact absurd g h

theorem Exec.from_inM (ex : Exec c σ ε) (hk : Fits c) (hf : Fair c σ ε) {q a : Nat} (hs : Stays c σ q a)
    (hx : (σ a).w.work q = .inM) : ∃ r, a ≤ r ∧ ε r = some (.back q) ∧ (σ (r + 1)).w.work q = .wait := by
  obtain ⟨r, h1, -, h2, -, h3⟩ := ex.next_place hk hf hx (fun k _ h => ex.done_at hk (by rw [h]; simp)) (fun hall k h =>
    ⟨.back q, _, rfl, nofun, by simp only [step, hs.runs hk h, hall k h]; rfl⟩)
  exact ⟨r, h1, h2, h3⟩

theorem Exec.from_got (ex : Exec c σ ε) (hk : Fits c) (hf : Fair c σ ε) {q a : Nat} (hs : Stays c σ q a) (h0 : c.k.wk q ≠ 0)
    (hx : (σ a).w.work q = .got) : ∃ r, a ≤ r ∧ ε r = some (.begin q) ∧ (σ (r + 1)).w.work q = .inF := by
  obtain ⟨r, h1, -, h2, -, h3⟩ := ex.next_place hk hf hx (fun k _ h => ex.done_at hk (by rw [h]; simp)) (fun hall k h => by
    have hr := hs.runs hk h
    obtain ⟨r, hd⟩ := ex.done_at hk (q := q) (k := k) (by rw [hall k h]; simp)
    have hal := ex.alive_runs hr
    by_cases hm : (σ k).fl.mem.files.isEmpty = true
    · exact ⟨.begin q, _, rfl, nofun, by simp only [step, hr, hall k h, hm]; rfl⟩
    · exact ⟨.begin q, _, rfl, nofun, by simp only [step, hr, hall k h, hm, FL.step, h0, hal, hd]; rfl⟩)
  exact ⟨r, h1, h2, h3⟩

theorem Exec.from_inF (ex : Exec c σ ε) (hk : Fits c) (hf : Fair c σ ε) (hcl : Closes σ) {q a : Nat} (hs : Stays c σ q a)
    (hx : (σ a).w.work q = .inF) : ∃ r, a ≤ r ∧ ε r = some (.mtxs q) ∧ (σ (r + 1)).w.work q = .inM := by
  by_cases hall : ∀ k, a ≤ k → (σ k).w.work q = .inF
  · exfalso
    -- never out of the call
    have hnd : ∀ k, a ≤ k → ∀ r, (σ k).fl.pc (c.k.wk q) ≠ .done r := by
      intro k hak r hd
      have hown : ∀ r, k ≤ r → (∀ r', k ≤ r' → r' < r → ∀ e, ε r' = some e → e.who c ≠ some (c.k.wk q)) →
          ∀ e, ε r = some e → e.who c ≠ some (c.k.wk q) := by
        intro r' hkr hno e he hw
        have hn := ex.next r'
        rw [he] at hn
        have hd' := ex.pc_still hkr hno
        rw [hd] at hd'
        exact own_leaves hk (ex.pinv hk r') hn hw hd' (by rw [hall r' (by omega), hall (r' + 1) (by omega)])
      have hno : ∀ r, k ≤ r → ∀ e, ε r = some e → e.who c ≠ some (c.k.wk q) := by
        intro r
        induction r using Nat.strongRecOn with
        | _ r ih => exact fun hr => hown r hr fun r' h1 h2 => ih r' h2 h1
      obtain ⟨j, hj, e, he, hw⟩ := hf (c.k.wk q) (fun i => ⟨max i k, by omega, .mtxs q, _, rfl, nofun, by
        have hd' := ex.pc_still (t := c.k.wk q) (a := k) (k := max i k) (by omega) fun r h1 _ => hno r h1
        rw [hd] at hd'
        simp only [step, hs.runs hk (show a ≤ max i k by omega), hall _ (show a ≤ max i k by omega), idle, hd']; rfl⟩) k
      exact hno j hj e he hw
    -- not inside of the table lock
    have hni : ∀ k, a ≤ k → inCS ((σ k).fl.pc (c.k.wk q)) = false := by
      intro k hak
      by_contra hin
      obtain ⟨k', h1, h2, h3⟩ := ex.cs_out hk hf (by simpa using hin) fun r hr => hs.runs hk (show a ≤ r by omega)
      have hin' := h2 k' h1 (Nat.le_refl _)
      have hpc : ∀ {p}, (σ (k' + 1)).fl.pc (c.k.wk q) = p → inCS p = true → False := fun e hp => by
        rw [e, hp] at h3; cases h3
      rcases ex.moment k' with h | ⟨e, he, h⟩
      · rw [h, hin'] at h3; cases h3
      · by_cases hw : e.who c = some (c.k.wk q)
        · have hfl := step_fl h
          have key : ∀ ch, FL.step (σ k').fl (.go (c.k.wk q) ch) = some (σ (k' + 1)).fl → False := by
            intro ch hg
            obtain ⟨-, w2, w3⟩ := go_worker hg
            rcases (ex.pinv hk k').at_ q with ⟨r, g⟩ | ⟨-, g | g | ⟨r, g⟩⟩
            · exact hnd k' (by omega) r g
            · rw [g] at hin'; cases hin'
            · rcases w2 g with g' | g'
              · exact hpc g' rfl
              · exact hpc g' rfl
            · exact hnd (k' + 1) (by omega) r (w3 r g)
          rcases own_in hk (ex.pinv hk k') h hw (hnd k' (by omega)) with ⟨ch, rfl⟩ | ⟨q', -, rfl | rfl, -⟩
          · exact key ch hfl
          · simp only [evOf] at hfl
            rw [hfl, hin'] at h3; cases h3
          · rcases own_fl h hw with g | ⟨ch, g⟩ | ⟨_, g, -⟩ | ⟨_, g, -⟩
            · rw [g, hin'] at h3; cases h3
            · exact key ch g
            · cases g
            · cases g
        · rw [pc_keep h hw, hin'] at h3; cases h3
    rcases (ex.pinv hk a).at_ q with ⟨r, g⟩ | ⟨-, g | g | ⟨r, g⟩⟩
    · exact hnd a (Nat.le_refl _) r g
    · obtain ⟨k, h1, -, h2, -⟩ := ex.gets hk hf hcl g fun r hr => hs.runs hk hr
      have := hni (k + 1) (by omega)
      rw [h2] at this; cases this
    · have := hni a (Nat.le_refl _); rw [g] at this; cases this
    · have := hni a (Nat.le_refl _); rw [g] at this; cases this
  · have : ∃ j, a ≤ j ∧ (σ j).w.work q ≠ .inF := by
      by_contra h
      exact hall fun k hk => by by_contra hn; exact h ⟨k, hk, hn⟩
    obtain ⟨j, haj, hj⟩ := this
    obtain ⟨r, h1, -, -, h2, -, h3⟩ := ex.leave hx haj hj
    exact ⟨r, h1, h2, h3⟩

theorem Stays.mono {q a b : Nat} (hs : Stays c σ q a) (h : a ≤ b) : Stays c σ q b := fun j hj => hs j (by omega)

/-- What the worker is told of it reads. -/
theorem Exec.reads_it (ex : Exec c σ ε) (hk : Fits c) (hf : Fair c σ ε) (hcl : Closes σ) {q a : Nat} (hs : Stays c σ q a)
    (h0 : c.k.wk q ≠ 0) (hw : (σ a).w.work q ≠ .off) (hq : (σ a).w.queue q = true) :
    ∃ r, a ≤ r ∧ ε r = some (.world (.read q)) ∧ (σ (r + 1)).w.work q = .got := by
  have hex : ∃ j, a ≤ j ∧ (σ j).w.queue q = false := by
    by_contra hno
    have hqs : ∀ k, a ≤ k → (σ k).w.queue q = true := fun k hk => by
      by_contra hn; exact hno ⟨k, hk, by simpa using hn⟩
    have wait : ∀ b, a ≤ b → (σ b).w.work q = .wait → False := by
      intro b hab hx
      obtain ⟨r, h1, -, -, h2, -⟩ := ex.next_place hk hf hx (fun k _ h => ex.done_at hk (by rw [h]; simp)) (fun hall k h =>
        ⟨.world (.read q), _, rfl, nofun, by
          simp only [step, allowed, Recover.World.step, hs.runs hk (show a ≤ k by omega), hall k h, hqs k (by omega)]; rfl⟩)
      have := hqs (r + 1) (by omega)
      simp only [leaves, step, allowed, if_true, Recover.World.step] at h2
      split at h2
      · rw [← Option.some.inj h2] at this; simp [upd] at this
      · cases h2
    have inM : ∀ b, a ≤ b → (σ b).w.work q = .inM → False := by
      intro b hab hx
      obtain ⟨r, h1, -, h2⟩ := ex.from_inM hk hf (hs.mono hab) hx
      exact wait _ (by omega) h2
    have inF : ∀ b, a ≤ b → (σ b).w.work q = .inF → False := by
      intro b hab hx
      obtain ⟨r, h1, -, h2⟩ := ex.from_inF hk hf hcl (hs.mono hab) hx
      exact inM _ (by omega) h2
    cases hx : (σ a).w.work q with
    | off => exact hw hx
    | wait => exact wait a (Nat.le_refl _) hx
    | got =>
      obtain ⟨r, h1, -, h2⟩ := ex.from_got hk hf hs h0 hx
      exact inF _ (by omega) h2
    | inF => exact inF a (Nat.le_refl _) hx
    | inM => exact inM a (Nat.le_refl _) hx
    | inC => exact (ex.pinv hk a).noC q hx
  obtain ⟨j, haj, hj⟩ := hex
  obtain ⟨d, rfl⟩ := Nat.le.dest haj
  clear haj
  induction d with
  | zero => rw [Nat.add_zero, hq] at hj; cases hj
  | succ d ih =>
    by_cases hd : (σ (a + d)).w.queue q = false
    · exact ih hd
    · rcases ex.moment (a + d) with h | ⟨e, he, h⟩
      · rw [show a + (d + 1) = a + d + 1 from rfl, h] at hj; exact absurd hj hd
      · rcases step_queue h (q := q) (by simpa using hd) with g | ⟨rfl, g⟩
        · rw [show a + (d + 1) = a + d + 1 from rfl, g] at hj; cases hj
        · exact ⟨a + d, by omega, he, g⟩

end

end Fullock.RecoverF
