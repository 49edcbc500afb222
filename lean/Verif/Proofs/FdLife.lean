import Verif.Spec.FdLife
import Verif.Proofs.FLPaths
/-! Descriptors and the locks taken through them. -/
namespace Fullock.FdLife

theorem runs_iff {w : World} {t : Nat} : w.runs t = true ↔ t ∈ w.thr := by simp [World.runs]

theorem fdOf_run {w : World} {t : Nat} (h : w.runs t = true) (fd : Int) : w.fdOf (w.pid t) fd = w.tab (w.pid t) fd := by
  rw [World.fdOf, if_pos]
  simp only [List.any_eq_true, decide_eq_true_eq]
  exact ⟨t, runs_iff.mp h, rfl⟩

theorem fdOf_tab {w : World} {p : Nat} {fd : Int} {k : DevIno} (h : w.fdOf p fd = some k) : w.tab p fd = some k := by
  unfold World.fdOf at h
  split at h
  · exact h
  · cases h

theorem real_runs {w : World} {t : Nat} (h : w.runs t = true) : w.real t = true := by simp [World.real, h]

/-- The descriptor is open on the file in the table of the thread's process. -/
def Good (w : World) (t : Nat) (fd : Int) (k : DevIno) : Prop := fd < 0 ∨ w.tab (w.pid t) fd = some k

/-- Threads. -/
structure WInv (w : World) : Prop where
  here : ∀ t, w.runs t = true → w.born t = true
  proc : ∀ t, w.runs t = true → w.born (w.pid t) = true

theorem winv_make {w w' : World} {e : WEv} (i : WInv w) (h : w.make e = some w') : WInv w' := by
  cases e with
  | fork t n =>
    simp only [World.make] at h
    split at h
    · cases h
    · cases h
      constructor
      · intro u hu
        simp only [World.runs, List.mem_cons, decide_eq_true_eq] at hu
        simp only [FL.fset]
        split
        · rfl
        · rcases hu with hu | hu
          · contradiction
          · exact i.here u (runs_iff.mpr hu)
      · intro u hu
        simp only [World.runs, List.mem_cons, decide_eq_true_eq] at hu
        simp only [FL.fset]
        split
        · simp
        · split
          · rfl
          · rcases hu with hu | hu
            · contradiction
            · exact i.proc u (runs_iff.mpr hu)
  | create t n =>
    simp only [World.make] at h
    split at h
    · cases h
    · rename_i hg
      cases h
      simp only [not_or, Bool.not_eq_false] at hg
      constructor
      · intro u hu
        simp only [World.runs, List.mem_cons, decide_eq_true_eq] at hu
        simp only [FL.fset]
        split
        · rfl
        · rcases hu with hu | hu
          · contradiction
          · exact i.here u (runs_iff.mpr hu)
      · intro u hu
        simp only [World.runs, List.mem_cons, decide_eq_true_eq] at hu
        simp only [FL.fset]
        split
        · split
          · rfl
          · exact i.proc t hg.2.2
        · split
          · rfl
          · rcases hu with hu | hu
            · contradiction
            · exact i.proc u (runs_iff.mpr hu)
  | set t fd v =>
    simp only [World.make] at h
    split at h
    · cases h
    · cases h; exact ⟨i.here, i.proc⟩

theorem runs_die {w : World} {t u : Nat} : (w.die t).runs u = true ↔ w.runs u = true ∧ u ≠ t := by
  simp [World.die, World.runs]

theorem winv_die {w : World} (i : WInv w) (t : Nat) : WInv (w.die t) :=
  ⟨fun u h => i.here u (runs_die.mp h).1, fun u h => i.proc u (runs_die.mp h).1⟩

theorem real_die {w : World} (i : WInv w) {t : Nat} (h : w.runs t = true) : (w.die t).real = FL.fset w.real t false := by
  funext u
  simp only [FL.fset, World.real]
  split
  · rename_i e
    subst e
    have h2 : (w.die u).runs u = false := by
      simp [World.die, World.runs]
    rw [h2]
    simp [World.die, i.here u h]
  · rename_i e
    have h2 : (w.die t).runs u = w.runs u := by
      simp [World.die, World.runs, e]
    rw [h2]; rfl

theorem real_make {w w' : World} {e : WEv} (i : WInv w) (h : w.make e = some w') : w'.real = w.real := by
  have key : ∀ n, w.born n = false → ∀ u, (!FL.fset w.born n true u || decide (u ∈ n :: w.thr)) = w.real u := by
    intro n hn u
    simp only [World.real, FL.fset]
    by_cases e : u = n
    · subst e; simp [hn]
    · simp [e, World.runs]
  cases e with
  | fork t n =>
    simp only [World.make] at h
    split at h
    · cases h
    · rename_i hg
      cases h
      simp only [not_or, Bool.not_eq_true, Bool.not_eq_false] at hg
      funext u; exact key n hg.2.1 u
  | create t n =>
    simp only [World.make] at h
    split at h
    · cases h
    · rename_i hg
      cases h
      simp only [not_or, Bool.not_eq_true, Bool.not_eq_false] at hg
      funext u; exact key n hg.2.1 u
  | set t fd v =>
    simp only [World.make] at h
    split at h
    · cases h
    · cases h; rfl

theorem plan_mono {m : FL.Mem} {a b : Nat → Bool} {t : Nat} {p : FL.Pc} {c : FL.Choice} {r : List FL.Act × FL.Pc}
    (h : FL.plan m a t p c = some r)
    (hab : ∀ o md l, c = .lk o md l → l ∈ m.lks o md → a (m.ltid l) = false → b (m.ltid l) = false) : FL.plan m b t p c = some r := by
  cases p
  case rChk op f o l =>
    cases c with
    | lk o' md l' =>
      simp only [FL.plan] at h ⊢
      split at h
      · rename_i hg
        obtain ⟨rfl, g1, g2⟩ := hg
        rw [if_pos ⟨rfl, g1, hab _ _ _ rfl g1 g2⟩]; exact h
      · cases h
    | _ => exact h
  case sw =>
    cases c with
    | lk o' md l' =>
      simp only [FL.plan] at h ⊢
      split at h
      · rename_i hg
        obtain ⟨g0, g1, g2⟩ := hg
        rw [if_pos ⟨g0, g1, hab _ _ _ rfl g1 g2⟩]; exact h
      · cases h
    | _ => exact h
  all_goals cases c <;> exact h

/-- What holds in every state reachable with kept descriptors. -/
structure Inv (x : State) : Prop where
  w : WInv x.w
  outs : ∀ y ∈ x.mem.outs, x.w.born y.2.t = true ∧ (x.w.runs y.2.t = true → Good x.w y.2.t y.2.fd y.2.key)
  call : ∀ u op, x.w.runs u = true → reqOf (x.pc u) = some op → Good x.w u op.fd op.key
  idle : ∀ u, x.w.born u = false → ∃ r, x.pc u = .done r
  tab : x.lockid ≠ 0 → x.w.born x.lockid = true

theorem slot_req {m : FL.Mem} {u l : Nat} {p : FL.Pc} (h : FL.PcOK m u p) (hs : FL.slot p = some l ∨ FL.uslot p = some l) :
    ∃ op f o md, reqOf p = some op ∧ FL.Att m f o md l ∧ m.key f = op.key ∧ m.lfd l = op.fd := by
  induction p with
  | acq p ih => exact ih h.2 (.inl (by simpa [FL.slot, FL.uslot] using hs))
  | rel p ih => exact ih h.2 (.inl (by simpa [FL.slot, FL.uslot] using hs))
  | lOProt op f o l' | spin op f o l' | setf op f o l' | rSet op f o l' | rChk op f o l' =>
    simp only [FL.slot, FL.uslot, Option.some.injEq, reduceCtorEq, or_false] at hs
    subst hs
    exact ⟨op, f, o, _, rfl, h.1, h.2.1, h.2.2.2.2.1⟩
  | f1 op r f o l' =>
    simp only [FL.slot, FL.uslot, Option.some.injEq, reduceCtorEq, or_false] at hs
    subst hs
    exact ⟨op, f, o, _, rfl, h.1, h.2.1, h.2.2.2.2.1⟩
  | uFlag op f o l' md | uCut op f o l' md =>
    simp only [FL.slot, FL.uslot, Option.some.injEq, reduceCtorEq, or_false, false_or] at hs
    subst hs
    exact ⟨op, f, o, _, rfl, h.1, h.2.1, h.2.2.2.2.1⟩
  | _ => simp [FL.slot, FL.uslot] at hs

/-- The record of a thread that has not ended: its descriptor is open on the file of the record. -/
theorem record {x : State} (i : Inv x) (s : FL.SInv x.real) {f o l : Nat} {md : FL.Mode} (hl : FL.Att x.mem f o md l)
    (hr : x.w.real (x.mem.ltid l) = true) :
    x.w.runs (x.mem.ltid l) = true ∧ Good x.w (x.mem.ltid l) (x.mem.lfd l) (x.mem.key f) := by
  have same : ∀ f' o' md', FL.Att x.mem f' o' md' l → f' = f := by
    intro f' o' md' h'
    obtain ⟨rfl, rfl⟩ := s.sok.lksDisj _ _ _ _ _ h'.2.2 hl.2.2
    exact s.sok.offsDisj _ _ _ h'.2.1 hl.2.1
  obtain ⟨ho, hp⟩ := s.thr (x.mem.ltid l) hr
  have hb : ∀ (h : x.w.born (x.mem.ltid l) = true), x.w.runs (x.mem.ltid l) = true := by
    intro h; simpa [World.real, h] using hr
  have cases3 : (FL.slot (x.pc (x.mem.ltid l)) = some l ∨ FL.uslot (x.pc (x.mem.ltid l)) = some l) ∨
      ∃ h, (l, h) ∈ x.mem.outs := by
    obtain ⟨h1, h2, h3⟩ := ho _ _ _ hl.2.2 rfl
    cases e1 : x.mem.locked l with
    | false => exact .inl (.inl (h1 e1))
    | true =>
      cases e2 : x.mem.taken l with
      | false => exact .inl (.inr (h2 e1 e2))
      | true => exact .inr (h3 e1 e2)
  rcases cases3 with hs | ⟨h, hh⟩
  · have hb' : x.w.born (x.mem.ltid l) = true := by
      by_contra hc
      obtain ⟨r, hr'⟩ := i.idle (x.mem.ltid l) (by simpa using hc)
      rw [hr'] at hs
      simp [FL.slot, FL.uslot] at hs
    refine ⟨hb hb', ?_⟩
    obtain ⟨op, f', o', md', g1, g2, g3, g4⟩ := slot_req hp hs
    have := same _ _ _ g2
    subst this
    have hg := i.call _ op (hb hb') g1
    rw [show x.mem.key f' = op.key from g3, show x.mem.lfd l = op.fd from g4]; exact hg
  · obtain ⟨f', o', g1, g2, -, g4, g5, -⟩ := s.outs.1 _ hh
    have := same _ _ _ g1
    subst this
    have hg := i.outs _ hh
    have e : h.t = x.mem.ltid l := g4.symm
    rw [e] at hg
    refine ⟨hb hg.1, ?_⟩
    rw [show x.mem.key f' = h.key from g2, show x.mem.lfd l = h.fd from g5]; exact hg.2 (hb hg.1)

theorem there_good {w : World} {m : FL.Mem} {t l : Nat} {k : DevIno} (h1 : w.runs (m.ltid l) = true)
    (h2 : Good w (m.ltid l) (m.lfd l) k) : w.there m t k l = true := by
  unfold World.there
  split
  · exact h1
  · rename_i hg
    simp only [not_or] at hg
    rcases h2 with h2 | h2
    · exact absurd h2 hg.1
    · rw [fdOf_run h1, h2]; simp

/-- The file that a check compares with. -/
theorem keyOf_some {x : State} (s : FL.SInv x.real) {f o : Nat} (hf : f ∈ x.mem.files) (ho : o ∈ x.mem.offs f) :
    keyOf x.mem o = some (x.mem.key f) := by
  unfold keyOf
  cases h : x.mem.files.find? fun f => decide (o ∈ x.mem.offs f) with
  | none =>
    have := List.find?_eq_none.mp h f hf
    simp [ho] at this
  | some f' =>
    have h1 := List.find?_some h
    have : f' = f := s.sok.offsDisj _ _ _ (show o ∈ x.mem.offs f' by simpa using h1) ho
    simp [this]

/-- A record found dead is that of a thread that has ended. -/
theorem ask_right {x : State} (i : Inv x) (s : FL.SInv x.real) {t : Nat} (ht : x.w.runs t = true) {c : FL.Choice}
    {r : List FL.Act × FL.Pc} (h : FL.plan x.mem (fun _ => x.w.ask x.mem t (x.pc t) c) t (x.pc t) c = some r) :
    FL.plan x.mem x.w.real t (x.pc t) c = some r := by
  refine plan_mono h ?_
  intro o md l hc hl ha
  subst hc
  by_contra hn
  have hn : x.w.real (x.mem.ltid l) = true := by simpa using hn
  have hpc := (s.thr t (real_runs ht)).2
  cases hp : x.pc t
  case rChk op f o' l' =>
    rw [show x.real.pc t = x.pc t from rfl, hp] at hpc
    rw [hp] at h ha
    simp only [FL.plan] at h
    split at h
    · rename_i hg
      obtain ⟨rfl, -, -⟩ := hg
      obtain ⟨⟨a1, a2, -⟩, a3, -⟩ := hpc
      have hat : FL.Att x.mem f o md l := ⟨a1, a2, hl⟩
      obtain ⟨g1, g2⟩ := record i s hat hn
      rw [show x.mem.key f = op.key from a3] at g2
      simp [World.ask, there_good g1 g2] at ha
    · cases h
  case sw =>
    rw [hp] at h ha
    simp only [FL.plan] at h
    split at h
    · rename_i hg
      obtain ⟨⟨f, f1, f2⟩, -, -⟩ := hg
      obtain ⟨g1, g2⟩ := record i s ⟨f1, f2, hl⟩ hn
      simp [World.ask, keyOf_some s f1 f2, there_good g1 g2] at ha
    · cases h
  all_goals
    rw [hp] at ha
    simp [World.ask] at ha

/-- With right verdicts, one step is a step with the lives as they are; a thread killed while it would go on with a record that
is found alive is killed before. -/
theorem step_real {x x' : State} {e : Ev} (i : Inv x) (s : FL.SInv x.real) (h : x.step e = some x') :
    (∃ e0 e', e = .ev e0 ∧ FL.step x.real e' = some x'.real ∧
      (e' = e0 ∨ ∃ t c k, e0 = .die t c k ∧ e' = .die t .spur k ∧ FL.okDeath x.real e')) ∨
    ∃ e' w, e = .w e' ∧ x.w.make e' = some w ∧ x' = { x with w := w } ∧ x'.real = x.real := by
  cases e with
  | ev e =>
    cases e with
    | call t c =>
      refine .inl ⟨_, _, rfl, ?_, .inl rfl⟩
      simp only [State.step] at h
      split at h
      · cases h
      · rename_i hg
        simp only [not_or] at hg
        have hr := real_runs (by simpa using hg.2.1 : x.w.runs t = true)
        split at h
        · rename_i r hp
          cases h
          simp [FL.step, State.real, FL.State.setPc, hg.1, hr, hp]
        · cases h
    | go t c =>
      refine .inl ⟨_, _, rfl, ?_, .inl rfl⟩
      simp only [State.step] at h
      split at h
      · cases h
      · rename_i hg
        have hrun : x.w.runs t = true := by simpa using hg
        have hr := real_runs hrun
        split at h
        · rename_i p hp
          split at h
          · rename_i hl
            cases h
            have hl' : x.lockid = 0 ∨ x.w.real x.lockid = false := by
              rcases hl with hl | hl
              · exact .inl hl
              · by_cases h0 : x.lockid = 0
                · exact .inl h0
                · exact .inr (by simp [World.real, i.tab h0, hl])
            simp [FL.step, State.real, FL.State.setPc, hr, hp, hl']
          · cases h
        · rename_i p hp
          cases h
          simp [FL.step, State.real, FL.State.setPc, hr, hp]
          rfl
        · rename_i p' n1 n2
          simp only [Option.map_eq_some_iff] at h
          obtain ⟨r, h1, rfl⟩ := h
          have h1 := ask_right i s hrun h1
          simp only [FL.step, State.real, hr]
          split
          · contradiction
          · simp [h1, FL.State.setPc]
    | die t c k =>
      simp only [State.step] at h
      split at h
      · cases h
      · rename_i hg
        have hrun : x.w.runs t = true := by simpa using hg
        cases h
        cases hq : FL.plan x.mem (fun _ => x.w.ask x.mem t (x.pc t) c) t (x.pc t) c with
        | some r =>
          have h1 := ask_right i s hrun hq
          refine .inl ⟨_, _, rfl, ?_, .inl rfl⟩
          simp [FL.step, State.real, real_runs hrun, real_die i.w hrun, h1]
        | none =>
          cases hq2 : FL.plan x.mem x.w.real t (x.pc t) c with
          | none =>
            refine .inl ⟨_, _, rfl, ?_, .inl rfl⟩
            simp [FL.step, State.real, real_runs hrun, real_die i.w hrun, hq2]
          | some r =>
            have hpc : (∃ op f o l, x.pc t = .rChk op f o l) ∨ x.pc t = .sw := by
              by_contra hn
              simp only [not_or, not_exists] at hn
              have : ∀ o md l, c = .lk o md l → False := by
                rintro o md l rfl
                cases hp : x.pc t <;> rw [hp] at hq2 <;>
                  first | exact hn.1 _ _ _ _ hp | exact hn.2 hp | cases hq2
              rw [plan_mono hq2 (fun o md l e => (this o md l e).elim)] at hq
              cases hq
            have hsp : FL.plan x.mem x.w.real t (x.pc t) .spur = none := by
              rcases hpc with ⟨op, f, o, l, hp⟩ | hp <;> rw [hp] <;> rfl
            refine .inl ⟨_, .die t .spur k, rfl, ?_, .inr ⟨t, c, k, rfl, rfl, ?_⟩⟩
            · simp [FL.step, State.real, real_runs hrun, real_die i.w hrun, hsp]
            · rcases hpc with ⟨op, f, o, l, hp⟩ | hp <;> simp [FL.okDeath, State.real, hp]
  | w e =>
    simp only [State.step] at h
    split at h
    · simp only [Option.map_eq_some_iff] at h
      obtain ⟨r, h1, rfl⟩ := h
      exact .inr ⟨e, r, rfl, h1, rfl, by simp [State.real, real_make i.w h1]⟩
    · cases h

theorem plan_req {m : FL.Mem} {alive : Nat → Bool} {t : Nat} {p : FL.Pc} {c : FL.Choice} {as : List FL.Act} {p' : FL.Pc}
    (h : FL.plan m alive t p c = some (as, p')) {op : FL.Op} (ho : reqOf p' = some op) : reqOf p = some op := by
  unfold FL.plan at h
  split at h
  all_goals
    repeat' split at h
    all_goals first
      | (cases h; done)
      | (obtain ⟨rfl, rfl⟩ := Option.some.inj h |> Prod.mk.inj
         first
         | exact ho
         | (cases ho; done)
         | (simp only [reqOf, FL.after2, FL.after3] at ho ⊢; split at ho <;> first | exact ho | cases ho | (split at ho <;> first | exact ho | cases ho)))

/-- A thread that is there keeps its process and, if it is not kept from it, its descriptors. -/
theorem make_good {x : State} {w' : World} {e : WEv} (i : Inv x) (ha : keepOpen x (.w e)) (h : x.w.make e = some w') :
    (∀ u, x.w.born u = true → w'.born u = true) ∧
    (∀ u, w'.runs u = true → x.w.runs u = false → x.w.born u = false) ∧
    ∀ u fd k, x.w.runs u = true → Good x.w u fd k →
      ((∃ y ∈ x.mem.outs, y.2.t = u ∧ y.2.fd = fd) ∨ ∃ op, reqOf (x.pc u) = some op ∧ op.fd = fd) → Good w' u fd k := by
  cases e with
  | fork t n =>
    simp only [World.make] at h
    split at h
    · cases h
    · rename_i hg
      cases h
      simp only [not_or, Bool.not_eq_true, Bool.not_eq_false] at hg
      refine ⟨fun u hu => by simp only [FL.fset]; split <;> simp [hu], fun u h1 h2 => ?_, fun u fd k hu hgd _ => ?_⟩
      · simp only [World.runs, List.mem_cons, decide_eq_true_eq, decide_eq_false_iff_not] at h1 h2
        rcases h1 with rfl | h1
        · exact hg.2.1
        · exact absurd h1 h2
      · have h1 : u ≠ n := by rintro rfl; rw [i.w.here u hu] at hg; cases hg.2.1
        have h2 : x.w.pid u ≠ n := by intro e; have := i.w.proc u hu; rw [e, hg.2.1] at this; cases this
        rcases hgd with hgd | hgd
        · exact .inl hgd
        · right; simp [FL.fset, h1, h2, hgd]
  | create t n =>
    simp only [World.make] at h
    split at h
    · cases h
    · rename_i hg
      cases h
      simp only [not_or, Bool.not_eq_true, Bool.not_eq_false] at hg
      refine ⟨fun u hu => by simp only [FL.fset]; split <;> simp [hu], fun u h1 h2 => ?_, fun u fd k hu hgd _ => ?_⟩
      · simp only [World.runs, List.mem_cons, decide_eq_true_eq, decide_eq_false_iff_not] at h1 h2
        rcases h1 with rfl | h1
        · exact hg.2.1
        · exact absurd h1 h2
      · have h1 : u ≠ n := by rintro rfl; rw [i.w.here u hu] at hg; cases hg.2.1
        rcases hgd with hgd | hgd
        · exact .inl hgd
        · right; simp [FL.fset, h1, hgd]
  | set t fd v =>
    simp only [World.make] at h
    split at h
    · cases h
    · rename_i hg
      cases h
      simp only [not_or, Bool.not_eq_false] at hg
      refine ⟨fun u hu => hu, fun u h1 h2 => ?_, fun u d k hu hgd hy => ?_⟩
      · exact absurd h1 (by simpa [World.runs] using h2)
      · rcases hgd with hgd | hgd
        · exact .inl hgd
        · right
          simp only [FL.fset]
          split
          · rename_i e
            show (if d = fd then v else _) = some k
            split
            · rename_i e2
              subst e2
              rcases ha with ha | ⟨ha1, ha2⟩
              · rw [fdOf_run hg.2, ← e, hgd] at ha; exact ha.symm
              · rcases hy with ⟨y, y1, rfl, y3⟩ | ⟨op, o1, o2⟩
                · exact absurd y3 (ha1 y y1 hu e)
                · exact absurd o2 (ha2 u op hu e o1)
            · rw [← e]; exact hgd
          · exact hgd

theorem inv_init (p nf no nl : Nat) (deny : Nat → Nat → Bool) (junk : FL.Mem) : Inv (State.init p nf no nl deny junk) where
  w := ⟨fun t h => by simpa [State.init, World.init, World.runs] using h, fun t h => by simpa [State.init, World.init, World.runs] using h⟩
  outs := fun y hy => by cases hy
  call := fun u op _ h => by simp [State.init, FL.init, reqOf] at h
  idle := fun u _ => ⟨0, rfl⟩
  tab := fun h => absurd rfl h

theorem inv_step {x x' : State} {e : Ev} (i : Inv x) (s : FL.SInv x.real) (ha : keepOpen x e) (h : x.step e = some x') : Inv x' := by
  have hg : ∀ t c k (as : List FL.Act), x.w.runs t = true →
      as = (match FL.plan x.mem (fun _ => x.w.ask x.mem t (x.pc t) c) t (x.pc t) c with | some r => r.1 | none => []) →
      ∀ y ∈ (x.mem.acts (as.take k)).outs, x.w.born y.2.t = true ∧ (x.w.runs y.2.t = true → Good x.w y.2.t y.2.fd y.2.key) := by
    intro t c k as hrun has y hy
    rcases FL.acts_outs_new hy with hy | hy
    · exact i.outs y hy
    · have hy := List.mem_of_mem_take hy
      rw [has] at hy
      split at hy
      · rename_i r h1
        rw [show r = (r.1, r.2) from rfl] at h1
        obtain ⟨op, f, o, hp, hh, -⟩ := FL.plan_flag h1 hy
        rw [hh]
        exact ⟨i.w.here t hrun, fun _ => i.call t op hrun (by rw [hp]; rfl)⟩
      · cases hy
  cases e with
  | ev e =>
    cases e with
    | call t c =>
      simp only [State.step] at h
      split at h
      · cases h
      · rename_i hgd
        simp only [not_or, Bool.not_eq_false] at hgd
        split at h
        · cases h
          refine ⟨i.w, i.outs, fun u op hu ho => ?_, fun u hu => ?_, i.tab⟩
          · by_cases e : u = t
            · subst e
              simp only [FL.fset_same] at ho
              have hm := hgd.2.2
              cases c <;> simp only [FL.Call.start, reqOf, Option.some.injEq, reduceCtorEq] at ho
              all_goals
                subst ho
                simp only [World.may, decide_eq_true_eq] at hm
                rcases hm with hm | hm
                · exact .inl hm
                · exact .inr (fdOf_tab hm)
            · simp only at ho
              rw [FL.fset_other _ _ e] at ho
              exact i.call u op hu ho
          · have : u ≠ t := by rintro rfl; simp [i.w.here u hgd.2.1] at hu
            simp only
            rw [FL.fset_other _ _ this]; exact i.idle u hu
        · cases h
    | go t c =>
      simp only [State.step] at h
      split at h
      · cases h
      · rename_i hr
        have hrun : x.w.runs t = true := by simpa using hr
        have pcs : ∀ p', (∀ op, reqOf p' = some op → reqOf (x.pc t) = some op) →
            (∀ u op, x.w.runs u = true → reqOf (FL.fset x.pc t p' u) = some op → Good x.w u op.fd op.key) ∧
            ∀ u, x.w.born u = false → ∃ r, FL.fset x.pc t p' u = .done r := by
          intro p' hp'
          refine ⟨fun u op hu ho => ?_, fun u hu => ?_⟩
          · by_cases e : u = t
            · subst e
              rw [FL.fset_same] at ho
              exact i.call u op hu (hp' op ho)
            · rw [FL.fset_other _ _ e] at ho
              exact i.call u op hu ho
          · have : u ≠ t := by rintro rfl; simp [i.w.here u hrun] at hu
            rw [FL.fset_other _ _ this]; exact i.idle u hu
        split at h
        · rename_i p hp
          split at h
          · cases h
            have hq := pcs p (fun op ho => by rw [hp]; exact ho)
            exact ⟨i.w, i.outs, hq.1, hq.2, fun _ => i.w.here t hrun⟩
          · cases h
        · rename_i p hp
          cases h
          have hq := pcs p (fun op ho => by rw [hp]; exact ho)
          refine ⟨i.w, i.outs, hq.1, hq.2, fun h0 => ?_⟩
          simp only at h0 ⊢
          split at h0
          · exact absurd rfl h0
          · rename_i e; rw [if_neg e]; exact i.tab h0
        · simp only [Option.map_eq_some_iff] at h
          obtain ⟨r, h1, rfl⟩ := h
          have hq := pcs r.2 (fun op ho => plan_req (as := r.1) h1 ho)
          refine ⟨i.w, ?_, hq.1, hq.2, i.tab⟩
          have := hg t c r.1.length r.1 hrun (by rw [h1])
          rw [List.take_length] at this
          exact this
    | die t c k =>
      simp only [State.step] at h
      split at h
      · cases h
      · rename_i hr
        have hrun : x.w.runs t = true := by simpa using hr
        cases h
        refine ⟨winv_die i.w t, fun y hy => ?_, fun u op hu ho => i.call u op (runs_die.mp hu).1 ho, i.idle, i.tab⟩
        have := hg t c k _ hrun rfl y hy
        exact ⟨this.1, fun hu => this.2 (runs_die.mp hu).1⟩
  | w e =>
    simp only [State.step] at h
    split at h
    · simp only [Option.map_eq_some_iff] at h
      obtain ⟨w', h1, rfl⟩ := h
      obtain ⟨g1, g2, g3⟩ := make_good i ha h1
      refine ⟨winv_make i.w h1, fun y hy => ⟨g1 _ (i.outs y hy).1, fun hu => ?_⟩, fun u op hu ho => ?_, fun u hu => ?_, fun h0 => g1 _ (i.tab h0)⟩
      · have hr : x.w.runs y.2.t = true := by
          by_contra hc
          have := g2 _ hu (by simpa using hc)
          rw [(i.outs y hy).1] at this; cases this
        exact g3 _ _ _ hr ((i.outs y hy).2 hr) (.inl ⟨y, hy, rfl, rfl⟩)
      · have hr : x.w.runs u = true := by
          by_contra hc
          obtain ⟨r, hr⟩ := i.idle u (g2 _ hu (by simpa using hc))
          simp only at ho
          rw [hr] at ho; cases ho
        exact g3 _ _ _ hr (i.call u op hr ho) (.inr ⟨op, ho, rfl⟩)
      · refine i.idle u ?_
        by_contra hc
        have := g1 u (by simpa using hc)
        simp only at hu
        rw [this] at hu; cases hu
    · cases h

/-- Reachable with kept descriptors: reachable with the lives as they are. -/
theorem reach_real {A : State → Ev → Prop} (h1 : ∀ x e, A x e → keepOpen x e) (B : FL.State → FL.Ev → Prop)
    (h2 : ∀ x e, A x (.ev e) → B x.real e) (h3 : ∀ x e t c k, A x (.ev e) → e = .die t c k → FL.okDeath x.real (.die t .spur k) → B x.real (.die t .spur k))
    {x : State} (h : Reach A x) : Spec.Reach B x.real ∧ Inv x := by
  induction h with
  | init p nf no nl deny junk h =>
    refine ⟨?_, inv_init p nf no nl deny junk⟩
    have : (State.init p nf no nl deny junk).real = FL.init nf no nl junk := by
      simp only [State.init, State.real, FL.init, World.init]
      congr 1
      funext t
      simp [World.real, World.runs]
    rw [this]; exact .init nf no nl junk
  | step hr ha h ih =>
    obtain ⟨r, i⟩ := ih
    have s := FL.reach_sinv r
    refine ⟨?_, inv_step i s (h1 _ _ ha) h⟩
    rcases step_real i s h with ⟨e0, e', rfl, h', he | ⟨t, c, k, he, he', hok⟩⟩ | ⟨e', w, -, -, -, h'⟩
    · subst he; exact .step r (h2 _ _ ha) h'
    · subst he'
      exact .step r (h3 _ _ t c k ha he hok) h'
    · rw [h']; exact r

/-- How a lock in force is lost: by its own thread's unlock, or in a check of its record. -/
theorem plan_loss {s : FL.State} (hi : FL.SInv s) {a : Nat → Bool} {x : Nat × FL.Out} (hx : x ∈ s.mem.outs) {t : Nat}
    {c : FL.Choice} {as : List FL.Act} {p' : FL.Pc} {k : Nat} (hal : s.alive t = true)
    (hpl : FL.plan s.mem a t (s.pc t) c = some (as, p')) (hn : x ∉ (s.mem.acts (as.take k)).outs) :
    (∃ o md, c = .lk o md x.1 ∧ x.1 ∈ s.mem.lks o md ∧ a x.2.t = false) ∨
      x.2.t = t ∧ ∃ op f o md, s.pc t = .uWord op f o x.1 md := by
  obtain ⟨f', o', b, b1, b2, b3, b4, b5, b6⟩ := hi.outs.1 _ hx
  have hpk := (hi.thr t hal).2
  rcases FL.plan_shape hpk (hi.thr t hal).1 hpl with h1 | ⟨op, f, o, l, hp, hc, ht, rfl⟩ |
    ⟨op, f, o, l, md, hp, hc, rfl⟩ | ⟨o, md, l, hl, ht, hk', htk, rfl, hsl⟩ | ⟨o, md, l, hl, hd, rfl, hc⟩
  · exact absurd (FL.plains_outs (fun a ha => h1 a (List.mem_of_mem_take ha)) hx) hn
  · exfalso; apply hn
    match k with
    | 0 => exact hx
    | k + 1 => simpa [FL.Mem.acts, FL.Mem.act] using hx
  · right
    have he : x.1 = l := by
      by_contra he
      apply hn
      match k with
      | 0 => exact hx
      | k + 1 =>
        simp only [List.take_succ_cons, List.take_nil, FL.Mem.acts, List.foldl_cons, List.foldl_nil, FL.Mem.act]
        exact FL.mem_revoke.mpr ⟨hx, he⟩
    rw [hp] at hpk
    obtain ⟨g1, g2, g3, g4, g5, g6, g7⟩ := hpk
    subst he
    exact ⟨b3.symm.trans g4, op, f, o, md, hp⟩
  · exfalso
    have he : x.1 ≠ l := by
      intro he; subst he; rw [hk'] at b5; cases b5
    apply hn
    match k with
    | 0 => exact hx
    | 1 => exact FL.mem_revoke.mpr ⟨hx, he⟩
    | k + 2 =>
      simp only [List.take_succ_cons, List.take_nil]
      exact FL.mem_revoke.mpr ⟨hx, he⟩
  · left
    have he : x.1 = l := by
      by_contra he
      have h1 : ∀ as : List FL.Act, (∀ a ∈ as, a.lid = none ∨ a.lid = some l) → ∀ m : FL.Mem, x ∈ m.outs →
          x ∈ (m.acts as).outs := by
        intro as
        induction as with
        | nil => intro _ m h; exact h
        | cons a as ih =>
          intro ha m h
          refine ih (fun b hb => ha b (List.mem_cons_of_mem _ hb)) (m.act a) ?_
          refine FL.act_outs_mem (h := x.2) h ?_
          rcases ha a List.mem_cons_self with e | e <;> rw [e] <;> simp
          exact fun e => he e.symm
      apply hn
      refine h1 _ ?_ _ hx
      intro a ha
      have := List.mem_of_mem_take ha
      unfold FL.sweepActs at this
      split at this <;> simp at this <;> rcases this with rfl | rfl | rfl <;> simp [FL.Act.lid]
    subst he
    exact ⟨o, md, hc, hl, by rw [← b3]; exact hd⟩

/-- What the check of the record of a lock in force gives. -/
theorem ask_gone {x : State} (s : FL.SInv x.real) {t : Nat} (ht : x.w.runs t = true) {y : Nat × FL.Out} (hy : y ∈ x.mem.outs)
    {o : Nat} {md : FL.Mode} {a : Nat → Bool} {r : List FL.Act × FL.Pc} (hp : FL.plan x.mem a t (x.pc t) (.lk o md y.1) = some r)
    (h : x.w.ask x.mem t (x.pc t) (.lk o md y.1) = false) : Gone x t y.2 := by
  obtain ⟨f', o', b, b1, b2, b3, b4, b5, b6⟩ := s.outs.1 _ hy
  have b3 : x.mem.ltid y.1 = y.2.t := b3
  have b4 : x.mem.lfd y.1 = y.2.fd := b4
  have b1 : x.mem.key f' = y.2.key := b1
  have hpc := (s.thr t (real_runs ht)).2
  have key : ∀ f, f ∈ x.mem.files → o ∈ x.mem.offs f → y.1 ∈ x.mem.lks o md → x.mem.key f = y.2.key := by
    intro f h1 h2 h3
    obtain ⟨rfl, rfl⟩ := s.sok.lksDisj _ _ _ _ _ h3 b.2.2
    rw [s.sok.offsDisj _ _ _ h2 b.2.1]; exact b1
  have fin : x.w.there x.mem t y.2.key y.1 = false → Gone x t y.2 := by
    intro h
    unfold World.there at h
    rw [b3, b4] at h
    unfold Gone
    split at h
    · rename_i hg; rw [if_pos hg]; exact h
    · rename_i hg; rw [if_neg hg]; simpa using h
  cases hq : x.pc t
  case rChk op f o'' l' =>
    rw [show x.real.pc t = x.pc t from rfl, hq] at hpc
    rw [hq] at h hp
    simp only [FL.plan] at hp
    split at hp
    · rename_i hg
      obtain ⟨rfl, g2, -⟩ := hg
      obtain ⟨⟨a1, a2, -⟩, a3, -⟩ := hpc
      have hk := key f a1 a2 g2
      simp only [World.ask, Bool.or_eq_false_iff] at h
      exact fin (by rw [← hk, show x.mem.key f = op.key from a3]; exact h.2)
    · cases hp
  case sw =>
    rw [hq] at h hp
    simp only [FL.plan] at hp
    split at hp
    · rename_i hg
      obtain ⟨⟨f, f1, f2⟩, g2, -⟩ := hg
      simp only [World.ask, keyOf_some s f1 f2] at h
      exact fin (by rw [← key f f1 f2 g2]; exact h)
    · cases hp
  all_goals
    rw [hq] at h
    simp [World.ask] at h

/-- A lock is taken away by others only when its holder is found to be gone. -/
theorem loss_gone {x x' : State} {e : Ev} (s : FL.SInv x.real) (h : x.step e = some x') {y : Nat × FL.Out}
    (hy : y ∈ x.mem.outs) (hn : y ∉ x'.mem.outs) : e.who = y.2.t ∨ Gone x e.who y.2 := by
  cases e with
  | ev e =>
    cases e with
    | call t c =>
      simp only [State.step] at h
      split at h
      · cases h
      · split at h
        · cases h; exact absurd hy hn
        · cases h
    | go t c =>
      simp only [State.step] at h
      split at h
      · cases h
      · rename_i hg
        have hrun : x.w.runs t = true := by simpa using hg
        split at h
        · split at h
          · cases h; exact absurd hy hn
          · cases h
        · cases h; exact absurd hy hn
        · simp only [Option.map_eq_some_iff] at h
          obtain ⟨r, h1, rfl⟩ := h
          rcases plan_loss s (a := fun _ => x.w.ask x.mem t (x.pc t) c) (as := r.1) (p' := r.2) (k := r.1.length) hy
            (real_runs hrun) h1 (by rw [List.take_length]; exact hn) with ⟨o, md, rfl, h2, h3⟩ | h2
          · exact .inr (ask_gone s hrun hy h1 h3)
          · exact .inl h2.1.symm
    | die t c k =>
      simp only [State.step] at h
      split at h
      · cases h
      · rename_i hg
        have hrun : x.w.runs t = true := by simpa using hg
        cases h
        cases hq : FL.plan x.mem (fun _ => x.w.ask x.mem t (x.pc t) c) t (x.pc t) c with
        | none => simp only [hq, List.take_nil] at hn; exact absurd hy hn
        | some r =>
          simp only [hq] at hn
          rcases plan_loss s (a := fun _ => x.w.ask x.mem t (x.pc t) c) (as := r.1) (p' := r.2) (k := k) hy
            (real_runs hrun) hq hn with ⟨o, md, rfl, h2, h3⟩ | h2
          · exact .inr (ask_gone s hrun hy hq h3)
          · exact .inl h2.1.symm
  | w e =>
    simp only [State.step] at h
    split at h
    · simp only [Option.map_eq_some_iff] at h
      obtain ⟨w', h1, rfl⟩ := h
      exact absurd hy hn
    · cases h

end Fullock.FdLife
