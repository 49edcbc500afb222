import Verif.Proofs.RcsvProj
/-
C70: recursive locks of several threads.
-/
namespace Fullock.Props.RcsvConc
open Fullock.Rcsv Fullock.Rcsv.Conc Fullock.Spec.Rcsv Fullock.Props.Rcsv

/-- What the users know: of each object from the results of the calls that have returned; the ranges of the
call each thread is in. -/
structure Ghost where
  know : Nat → Know
  use : Nat → List Rng

/-- After a step of thread `t`: a result, if the call returns. -/
def Ghost.learn (g : Ghost) (s : CState) (t : Nat) : Ghost :=
  match s.run t with
  | some ⟨.ret b, _, op⟩ =>
    { know := fun j => if j = opObj op then (g.know j).next (opReq op) b else g.know j,
      use := fun u => if u = t then [] else g.use u }
  | _ => g

/-- Threads make calls on their own objects and run in any order. -/
inductive Reach (ok : State → List Bool → Op → Prop) (r : Nat → Rng) : CState → Ghost → Prop
  | init : Reach ok r (Conc.init r) ⟨fun _ => .free, fun _ => []⟩
  | call {s g} (h : Reach ok r s g) (t : Nat) (os : List Bool) (op : Op) (ht : (r (opObj op)).tid = t) (hok : ok s.sh os op)
      (s' : CState) (e : Conc.call s t os op = some s') :
      Reach ok r s' { g with use := fun u => if u = t then ranges s.sh op else g.use u }
  | step {s g} (h : Reach ok r s g) (t : Nat) (s' : CState) (e : Conc.step s t = some s') : Reach ok r s' (g.learn s t)

/-- Calls as in C52, C53, and no only lock of a range turned into the other kind (C63). -/
def okC (F : Rng → Prop) (s : State) (os : List Bool) (op : Op) : Prop := okFor F s os op ∧ ¬ Converts s op

/-- The objects of thread `t`. -/
def mine (r : Nat → Rng) (t : Nat) (k : Nat → Know) (i : Nat) : Know := if (r i).tid = t then k i else .free

/-- The ranges of a call as a test. -/
def inR (l : List Rng) (x : Rng) : Bool := decide (x ∈ l)

/-- A thread between calls, or inside of one. -/
structure Thr (F : Rng → Prop) (r : Nat → Rng) (s : CState) (g : Ghost) (t : Nat) : Prop where
  idle : s.run t = none → Hist (okC F) r (proj r t s) (mine r t g.know) ∧ s.owner ≠ some t
  run : ∀ p os op, s.run t = some ⟨p, os, op⟩ → (r (opObj op)).tid = t ∧
    ∃ s0 os0 b s1, Hist (okC F) r s0 (mine r t g.know) ∧ okC F s0 os0 op ∧ Rcsv.call s0 os0 op = some (b, s1) ∧
      exec t (inR (g.use t)) p (proj r t s) os = some (b, s1) ∧
      (∀ x : Rng × Ty, inR (g.use t) x.1 = false → x.1.tid = t → (x ∈ s.sh.held ↔ x ∈ s0.held)) ∧
      (∀ i, (r i).tid = t → ((s.sh.obj i).rng = (s0.obj i).rng ∨
        (inR (g.use t) (s.sh.obj i).rng = true ∧ inR (g.use t) (s0.obj i).rng = true)))

theorem hist_weak {F : Rng → Prop} {r : Nat → Rng} {s : State} {k : Nat → Know} (h : Hist (okC F) r s k) : Hist (okFor F) r s k := by
  induction h with
  | init => exact .init
  | call h os op hok b s' e ih => exact .call ih os op hok.1 b s' e

theorem proj_init (r : Nat → Rng) (t : Nat) : proj r t (Conc.init r) = Rcsv.init r := by
  refine state_ext (fun i => ?_) rfl ?_ rfl rfl
  · simp only [proj, Conc.init]; split <;> rfl
  · simp [proj, Conc.init, Rcsv.init]

/-- What is asked of a call holds for what its thread sees. -/
theorem okC_proj {F : Rng → Prop} {r : Nat → Rng} {s : CState} {t : Nat} {os : List Bool} {op : Op} (ht : (r (opObj op)).tid = t)
    (h : okC F s.sh os op) : okC F (proj r t s) os op ∧ ranges (proj r t s) op = ranges s.sh op := by
  have ho : (proj r t s).obj (opObj op) = s.sh.obj (opObj op) := proj_obj ht
  obtain ⟨⟨h1, h2⟩, h3⟩ := h
  refine ⟨⟨⟨?_, ?_⟩, ?_⟩, ?_⟩
  · cases op <;> simp only [Within, opObj] at h1 ho ⊢
    rw [ho]; exact h1
  · rcases h2 with h2 | h2
    · exact Or.inl h2
    · right
      intro x hx j hj hl
      have hw : wrRange (proj r t s) op = wrRange s.sh op := by
        cases op with
        | readLock i => rfl
        | writeLock i => simp only [wrRange, opObj] at ho ⊢; rw [ho]
        | lock i => simp only [wrRange, opObj] at ho ⊢; rw [ho]
        | lockAt i y b => cases b <;> simp only [wrRange, opObj] at ho ⊢; rw [ho]
        | unlock i => rfl
      have hjt : (r j).tid = t := by
        by_contra hn
        simp only [proj, hn, if_false, Rcsv.init] at hl
        cases hl
      rw [proj_obj hjt] at hl ⊢
      exact h2 x (hw ▸ hx) j hj hl
  · rintro ⟨c1, c2, c3⟩
    refine h3 ⟨(List.mem_filter.1 c1).1, by rw [← ho]; exact c2, ?_⟩
    rcases c3 with ⟨i, rfl, c⟩ | ⟨i, rfl, c⟩
    · exact Or.inl ⟨i, rfl, by simp only [opObj] at ho; rw [← ho]; exact c⟩
    · exact Or.inr ⟨i, rfl, by simp only [opObj] at ho; rw [← ho]; exact c⟩
  · cases op <;> simp only [ranges, opObj] at ho ⊢ <;> rw [ho]

theorem mem_proj_held {r : Nat → Rng} {s : CState} {t : Nat} {x : Rng × Ty} (hx : x.1.tid = t) :
    x ∈ (proj r t s).held ↔ x ∈ s.sh.held := by
  simp [proj, hx]

theorem hist_race {F : Rng → Prop} (hF : Sep F) {r : Nat → Rng} (hr : ∀ i, F (r i)) {s : State} {k : Nat → Know}
    (h : Hist (okC F) r s k) : s.race = false := (C63_partial hF hr h).1

/-- The state of all threads. -/
structure CInv (F : Rng → Prop) (r : Nat → Rng) (s : CState) (g : Ghost) : Prop where
  base : Base r s
  thr : ∀ t, Thr F r s g t

/-- A call keeps the facts about any set of threads that has its caller. -/
theorem call_inv {F : Rng → Prop} (hF : Sep F) {r : Nat → Rng} (hr : ∀ i, F (r i)) {A : Nat → Prop} {s s' : CState} {g : Ghost}
    (hB : Base r s) (hT : ∀ u, A u → Thr F r s g u) (t : Nat) (os : List Bool) (op : Op) (ht : (r (opObj op)).tid = t)
    (hok : okC F s.sh os op) (e : Conc.call s t os op = some s') :
    Base r s' ∧ ∀ u, A u → Thr F r s' { g with use := fun u => if u = t then ranges s.sh op else g.use u } u := by
  unfold Conc.call at e
  cases hrun : s.run t with
  | some f => rw [hrun] at e; cases e
  | none =>
    rw [hrun] at e
    simp only [Option.some.injEq] at e
    subst e
    refine ⟨⟨hB.tid, hB.glob, hB.race, hB.held⟩, fun u hAu => ?_⟩
    by_cases hu : u = t
    · subst hu
      refine ⟨fun e => by simp [CState.goto] at e, fun p os' op' e => ?_⟩
      simp only [CState.goto, if_true, Option.some.injEq, Frame.mk.injEq] at e
      obtain ⟨rfl, rfl, rfl⟩ := e
      refine ⟨ht, ?_⟩
      obtain ⟨hH, hO⟩ := (hT u hAu).idle hrun
      obtain ⟨hok', hrg⟩ := okC_proj ht hok
      have hG := hist_good hF hr (hist_weak hH)
      obtain ⟨b, s1, hc, hE⟩ := call_eff hF hG.inv hG.glob os op hok'.1.1 hok'.1.2
      refine ⟨proj r u s, os, b, s1, hH, hok', hc, ?_, ?_, ?_⟩
      · rw [proj_goto, ← hc]
        refine exec_call hF hG.inv hG.glob os op hok'.1.1 hok'.1.2 ?_ ?_
        · rw [proj_tid hB, ht]
        · simp only [if_true]
          rw [hrg]
          intro x hx
          simpa [inR] using hx
      · intro x _ hx
        rw [mem_proj_held hx]; exact Iff.rfl
      · intro i hi
        left
        rw [proj_obj hi]; rfl
    · refine ⟨fun e => ?_, fun p os' op' e => ?_⟩
      · simp only [CState.goto, hu, if_false] at e
        exact (hT u hAu).idle e
      · simp only [CState.goto, hu, if_false] at e
        have := (hT u hAu).run p os' op' e
        simp only [hu, if_false]
        exact this

/-- A step keeps the facts about any set of threads that has its thread. -/
theorem step_inv {F : Rng → Prop} (hF : Sep F) {r : Nat → Rng} (hr : ∀ i, F (r i)) {A : Nat → Prop} {s s' : CState} {g : Ghost}
    (hB : Base r s) (hT : ∀ u, A u → Thr F r s g u) (t : Nat) (hA : A t) (e : Conc.step s t = some s') :
    Base r s' ∧ ∀ u, A u → Thr F r s' (g.learn s t) u := by
  cases hrun : s.run t with
  | none => simp [Conc.step, hrun] at e
  | some f =>
    obtain ⟨p, os, op⟩ := f
    obtain ⟨hot, s0, os0, b, s1, hH, hok, hc, hex, hk, hrg⟩ := (hT t hA).run p os op hrun
    have hH1 : Hist (okC F) r s1 (fun j => if j = opObj op then (mine r t g.know j).next (opReq op) b else mine r t g.know j) :=
      .call hH os0 op hok b s1 hc
    have hr1 := hist_race hF hr hH1
    obtain ⟨f', v, hS, hcase⟩ := step_sim hB hrun hex hr1 e
    refine ⟨hS.base, fun u hAu => ?_⟩
    by_cases hu : u = t
    · subst hu
      rcases hcase with ⟨rfl, rfl, rfl⟩ | ⟨p', os', rfl, hex', _⟩
      · have hl : g.learn s u = { know := fun j => if j = opObj op then (g.know j).next (opReq op) b else g.know j,
                                  use := fun w => if w = u then [] else g.use w } := by
          simp [Ghost.learn, hrun]
        rw [hl]
        refine ⟨fun _ => ⟨?_, ?_⟩, fun _ _ _ e => ?_⟩
        · rw [hS.own]
          have : mine r u (fun j => if j = opObj op then (g.know j).next (opReq op) b else g.know j) =
              fun j => if j = opObj op then (mine r u g.know j).next (opReq op) b else mine r u g.know j := by
            funext j
            simp only [mine]
            by_cases hj : j = opObj op
            · subst hj; simp [hot]
            · simp [hj]
          simp only
          rw [this]
          exact hH1
        · have := (hist_good hF hr (hist_weak hH1)).glob
          rw [← hS.own] at this
          simpa [proj] using this
        · rw [hS.run] at e; simp at e
      · have hnret : ∀ b, p ≠ .ret b := by
          intro b0 hb0
          subst hb0
          simp only [Conc.step, hrun, Option.some.injEq] at e
          have := hS.run u
          rw [← e] at this
          simp [CState.goto] at this
        have hl : g.learn s u = g := by
          unfold Ghost.learn
          rw [hrun]
          cases p with
          | ret b => exact absurd rfl (hnret b)
          | _ => rfl
        rw [hl]
        refine ⟨fun e => by rw [hS.run] at e; simp at e, fun p2 os2 op2 e => ?_⟩
        rw [hS.run] at e
        simp only [if_true, Option.some.injEq, Frame.mk.injEq] at e
        obtain ⟨rfl, rfl, rfl⟩ := e
        refine ⟨hot, s0, os0, b, s1, hH, hok, hc, by rw [hS.own]; exact hex', ?_, ?_⟩
        · intro x hx hxt
          rw [hS.keep x hx]; exact hk x hx hxt
        · intro i hi
          rcases hS.rng i with a | a <;> rcases hrg i hi with c | c
          · exact Or.inl (a.trans c)
          · exact Or.inr ⟨by rw [a]; exact c.1, c.2⟩
          · exact Or.inr ⟨a.1, by rw [← c]; exact a.2⟩
          · exact Or.inr ⟨a.1, c.2⟩
    · have hgu : mine r u (g.learn s t).know = mine r u g.know ∧ (g.learn s t).use u = g.use u := by
        unfold Ghost.learn
        rw [hrun]
        cases p with
        | ret b0 =>
          refine ⟨?_, by simp [hu]⟩
          funext j
          simp only [mine]
          by_cases hj : j = opObj op
          · subst hj
            have : ¬ (r (opObj op)).tid = u := by rw [hot]; exact fun h => hu h.symm
            simp [this]
          · simp [hj]
        | _ => exact ⟨rfl, rfl⟩
      have hru := hS.run u
      rw [if_neg hu] at hru
      have hpu := hS.other u hu
      refine ⟨fun e => ?_, fun p2 os2 op2 e => ?_⟩
      · rw [hru] at e
        rw [hpu, hgu.1]
        obtain ⟨a1, a2⟩ := (hT u hAu).idle e
        refine ⟨a1, ?_⟩
        have := congrArg State.glob hpu
        simp only [proj, decide_eq_decide] at this
        exact fun h => a2 (this.1 h)
      · rw [hru] at e
        rw [hpu, hgu.1, hgu.2]
        obtain ⟨a1, s0', os0', b', s1', c1, c2, c3, c4, c5, c6⟩ := (hT u hAu).run p2 os2 op2 e
        refine ⟨a1, s0', os0', b', s1', c1, c2, c3, c4, ?_, ?_⟩
        · intro x hx hxt
          rw [← c5 x hx hxt, ← mem_proj_held (r := r) (s := s') hxt, hpu, mem_proj_held hxt]
        · intro i hi
          have : s'.sh.obj i = s.sh.obj i := by
            have := congrArg (fun z => State.obj z i) hpu
            simpa [proj, hi] using this
          rw [this]
          exact c6 i hi

theorem reach_inv {F : Rng → Prop} (hF : Sep F) {r : Nat → Rng} (hr : ∀ i, F (r i)) {s : CState} {g : Ghost}
    (h : Reach (okC F) r s g) : CInv F r s g := by
  induction h with
  | init =>
    refine ⟨⟨fun _ => rfl, rfl, rfl, List.Pairwise.nil⟩, fun t => ⟨fun _ => ⟨?_, by simp [Conc.init]⟩, fun _ _ _ e => by cases e⟩⟩
    rw [proj_init]
    have : mine r t (fun _ => .free) = fun _ => .free := by funext i; simp [mine]
    rw [this]
    exact .init
  | call h t os op ht hok s' e ih =>
    obtain ⟨a, b⟩ := call_inv hF hr (A := fun _ => True) ih.base (fun u _ => ih.thr u) t os op ht hok e
    exact ⟨a, fun u => b u trivial⟩
  | step h t s' e ih =>
    obtain ⟨a, b⟩ := step_inv hF hr (A := fun _ => True) ih.base (fun u _ => ih.thr u) t trivial e
    exact ⟨a, fun u => b u trivial⟩


end Fullock.Props.RcsvConc

namespace Fullock.Props
open Fullock.Rcsv Fullock.Rcsv.Conc Fullock.Spec.Rcsv Fullock.Props.Rcsv Fullock.Props.RcsvConc

/-! ### C70 -/

/-- C70 as stated: at every moment, a thread that was told it has an exclusive lock is the only one that was told it
has a lock on a range in common. -/
def C70_full : Prop :=
  ∀ F, Sep F → ∀ r, (∀ i, F (r i)) → ∀ s g, Reach (okC F) r s g → ∀ i j, (r i).tid ≠ (r j).tid →
    g.know i = .excl → (g.know j).must = true → clash (s.sh.obj i).rng (s.sh.obj j).rng = false

/-- A thread between two calls has what a thread alone in the process has after the same calls with the same results. -/
theorem C70_alone_partial {F : Rng → Prop} (hF : Sep F) {r : Nat → Rng} (hr : ∀ i, F (r i)) {s : CState} {g : Ghost}
    (h : Reach (okC F) r s g) (t : Nat) (ht : s.run t = none) :
    ∃ s0, Hist (okFor F) r s0 (fun i => if (r i).tid = t then g.know i else .free) ∧
      (∀ i, (r i).tid = t → s.sh.obj i = s0.obj i) ∧ (∀ x : Rng × Ty, x.1.tid = t → (x ∈ s.sh.held ↔ x ∈ s0.held)) := by
  have hI := reach_inv hF hr h
  obtain ⟨hH, _⟩ := (hI.thr t).idle ht
  exact ⟨proj r t s, hist_weak hH, fun i hi => (proj_obj hi).symm, fun x hx => (mem_proj_held hx).symm⟩

/-- A locked object is backed by a lock of its range, for writing if it is exclusive, unless its thread is in a call on
that range. -/
theorem C70_held_partial {F : Rng → Prop} (hF : Sep F) {r : Nat → Rng} (hr : ∀ i, F (r i)) {s : CState} {g : Ghost}
    (h : Reach (okC F) r s g) (i : Nat) (hm : (g.know i).must = true) (hu : (s.sh.obj i).rng ∉ g.use (r i).tid) :
    ∃ ty, ((s.sh.obj i).rng, ty) ∈ s.sh.held ∧ (g.know i = .excl → ty = .write) := by
  have hI := reach_inv hF hr h
  have hmi : mine r (r i).tid g.know i = g.know i := by simp [mine]
  cases hrun : s.run (r i).tid with
  | none =>
    obtain ⟨hH, _⟩ := (hI.thr _).idle hrun
    obtain ⟨ty, h1, h2, _⟩ := C53_held_partial hF hr (hist_weak hH) i (by rw [hmi]; exact hm)
    rw [hmi] at h2
    rw [proj_obj rfl] at h1
    exact ⟨ty, (List.mem_filter.1 h1).1, h2⟩
  | some f =>
    obtain ⟨p, os, op⟩ := f
    obtain ⟨_, s0, os0, b, s1, hH, _, _, _, hk, hg⟩ := (hI.thr _).run p os op hrun
    obtain ⟨ty, h1, h2, _⟩ := C53_held_partial hF hr (hist_weak hH) i (by rw [hmi]; exact hm)
    rw [hmi] at h2
    have he : (s.sh.obj i).rng = (s0.obj i).rng := by
      rcases hg i rfl with c | c
      · exact c
      · exact absurd (by simpa [inR] using c.1) hu
    rw [← he] at h1
    refine ⟨ty, (hk ((s.sh.obj i).rng, ty) (by simpa [inR] using hu) (hI.base.tid i)).2 h1, h2⟩

theorem pairwise_or {α : Type} {R : α → α → Prop} {l : List α} (h : l.Pairwise R) {a b : α} (ha : a ∈ l) (hb : b ∈ l)
    (hne : a ≠ b) : R a b ∨ R b a := by
  induction h with
  | nil => cases ha
  | cons h1 _ ih =>
    rcases List.mem_cons.1 ha with rfl | ha' <;> rcases List.mem_cons.1 hb with rfl | hb'
    · exact absurd rfl hne
    · exact Or.inl (h1 b hb')
    · exact Or.inr (h1 a ha')
    · exact ih ha' hb'

/-- C70 for objects whose threads are not in a call on the range of the object. -/
theorem C70_exclusion_partial {F : Rng → Prop} (hF : Sep F) {r : Nat → Rng} (hr : ∀ i, F (r i)) {s : CState} {g : Ghost}
    (h : Reach (okC F) r s g) (i j : Nat) (ht : (r i).tid ≠ (r j).tid) (hi : g.know i = .excl) (hj : (g.know j).must = true)
    (ui : (s.sh.obj i).rng ∉ g.use (r i).tid) (uj : (s.sh.obj j).rng ∉ g.use (r j).tid) :
    clash (s.sh.obj i).rng (s.sh.obj j).rng = false := by
  have hI := reach_inv hF hr h
  obtain ⟨ty, h1, h2⟩ := C70_held_partial hF hr h i (by rw [hi]; rfl) ui
  obtain ⟨ty', h3, _⟩ := C70_held_partial hF hr h j hj uj
  rw [h2 hi] at h1
  have hne : (s.sh.obj i).rng ≠ (s.sh.obj j).rng := by
    intro e
    have := congrArg Rng.tid e
    rw [hI.base.tid, hI.base.tid] at this
    exact ht this
  cases hc : clash (s.sh.obj i).rng (s.sh.obj j).rng with
  | false => rfl
  | true =>
    have hsym : clash (s.sh.obj j).rng (s.sh.obj i).rng = true := by
      simp only [clash, Bool.and_eq_true, Bool.or_eq_true, beq_iff_eq, decide_eq_true_eq] at hc ⊢
      exact ⟨hc.1.symm, hc.2.imp Eq.symm fun c => ⟨c.2, c.1⟩⟩
    rcases pairwise_or hI.base.held h1 h3 (fun e => hne (congrArg Prod.fst e)) with c | c
    · exact absurd rfl (c hc).1
    · exact absurd rfl (c hsym).2

/-- A thread none of whose objects is locked holds nothing; once this is so for all threads, nothing is held and the table
is empty. -/
theorem C70_released_partial {F : Rng → Prop} (hF : Sep F) {r : Nat → Rng} (hr : ∀ i, F (r i)) {s : CState} {g : Ghost}
    (h : Reach (okC F) r s g) (t : Nat) (ht : s.run t = none) (hk : ∀ i, (r i).tid = t → g.know i = .free) :
    (∀ x ∈ s.sh.held, x.1.tid ≠ t) ∧ (∀ i ∈ s.sh.stack, (r i).tid ≠ t) := by
  have hI := reach_inv hF hr h
  obtain ⟨hH, _⟩ := (hI.thr t).idle ht
  have hfree : ∀ i, mine r t g.know i = .free := by
    intro i
    simp only [mine]
    split_ifs with hi
    · exact hk i hi
    · rfl
  have hz := C53_released_partial hF hr (hist_weak hH) hfree
  refine ⟨fun x hx e => ?_, fun i hi e => ?_⟩
  · have := (mem_proj_held (r := r) (s := s) e).2 hx
    rw [hz] at this; cases this
  · have hG := hist_good hF hr (hist_weak hH)
    have hm : i ∈ (proj r t s).stack := List.mem_filter.2 ⟨hi, by simpa using e⟩
    have := hG.may i ((hG.inv.stk i).1 hm).1
    rw [hfree i] at this
    simp [Know.may] at this

/-- The table is used by the holder of its lock only, at most one thread at a time. -/
theorem C70_no_race_partial {F : Rng → Prop} (hF : Sep F) {r : Nat → Rng} (hr : ∀ i, F (r i)) {s : CState} {g : Ghost}
    (h : Reach (okC F) r s g) : s.sh.race = false ∧ (s.sh.glob = true ↔ ∃ t, s.owner = some t ∧ s.run t ≠ none) := by
  have hI := reach_inv hF hr h
  refine ⟨hI.base.race, ?_⟩
  rw [hI.base.glob]
  constructor
  · intro ho
    cases hs : s.owner with
    | none => rw [hs] at ho; cases ho
    | some t => exact ⟨t, rfl, fun e => ((hI.thr t).idle e).2 hs⟩
  · rintro ⟨t, ho, _⟩; rw [ho]; rfl

/-- The object an instruction reads or writes. -/
def touches : Prog → Option Nat
  | .look i _ => some i
  | .upd i _ _ => some i
  | .erase i _ => some i
  | .push i _ => some i
  | .find i _ => some i
  | .scan i _ => some i
  | _ => none

/-- A thread reads and writes the members of its own objects only. -/
theorem C70_own_objects_partial {F : Rng → Prop} (hF : Sep F) {r : Nat → Rng} (hr : ∀ i, F (r i)) {s : CState} {g : Ghost}
    (h : Reach (okC F) r s g) (t : Nat) (f : Frame) (hf : s.run t = some f) (i : Nat) (hi : touches f.prog = some i) :
    (r i).tid = t := by
  have hI := reach_inv hF hr h
  obtain ⟨p, os, op⟩ := f
  obtain ⟨_, s0, os0, b, s1, _, _, _, hex, _⟩ := (hI.thr t).run p os op hf
  have := proj_tid hI.base t i
  cases p <;> simp only [touches, Option.some.injEq, reduceCtorEq] at hi <;> subst hi <;> simp only [exec, this] at hex <;>
    split at hex <;> first | cases hex | (rename_i hc; first | exact hc | exact hc.1)

theorem owner_steps {F : Rng → Prop} {r : Nat → Rng} {s : CState} {g : Ghost} (hI : CInv F r s g) (u : Nat)
    (ho : s.owner = some u) : (Conc.step s u).isSome = true := by
  cases hrun : s.run u with
  | none => exact absurd ho ((hI.thr u).idle hrun).2
  | some f =>
    obtain ⟨p, os, op⟩ := f
    obtain ⟨_, s0, os0, b, s1, _, _, _, hex, _⟩ := (hI.thr u).run p os op hrun
    have hg : (proj r u s).glob = true := by simp [proj, ho]
    unfold Conc.step
    rw [hrun]
    cases p with
    | lock k => simp [exec, hg] at hex
    | grant q w k => simp [exec, hg] at hex
    | _ => rfl

/-- A thread that cannot go on waits for the lock of the table, whose holder can go on, or, without holding the lock of
the table, for a lock of another thread in its way. -/
theorem C70_progress_partial {F : Rng → Prop} (hF : Sep F) {r : Nat → Rng} (hr : ∀ i, F (r i)) {s : CState} {g : Ghost}
    (h : Reach (okC F) r s g) (t : Nat) (f : Frame) (hf : s.run t = some f) (hs : Conc.step s t = none) :
    (∃ u, u ≠ t ∧ s.owner = some u ∧ (Conc.step s u).isSome = true) ∨
    (s.owner ≠ some t ∧ ∃ q w k, f.prog = .grant q w k ∧
      ∃ x ∈ s.sh.held, x.1.tid ≠ t ∧ clash x.1 q = true ∧ (w = true ∨ x.2 = .write)) := by
  have hI := reach_inv hF hr h
  have hot : s.owner ≠ some t := by
    intro ho
    have := owner_steps hI t ho
    rw [hs] at this; cases this
  obtain ⟨p, os, op⟩ := f
  obtain ⟨_, s0, os0, b, s1, _, _, _, hex, _⟩ := (hI.thr t).run p os op hf
  unfold Conc.step at hs
  rw [hf] at hs
  cases p with
  | lock k =>
    left
    simp only at hs
    split at hs
    · rename_i hg
      rw [hI.base.glob] at hg
      cases ho : s.owner with
      | none => rw [ho] at hg; cases hg
      | some u =>
        refine ⟨u, fun e => hot (by rw [ho, e]), rfl, owner_steps hI u ho⟩
    · cases hs
  | grant q w k =>
    right
    refine ⟨hot, q, w, k, rfl, ?_⟩
    simp only at hs
    split at hs
    · split at hs
      · rename_i hb
        simp only [busy, List.any_eq_true, Bool.and_eq_true, Bool.or_eq_true, beq_iff_eq] at hb
        obtain ⟨x, hx, hc, hw⟩ := hb
        refine ⟨x, hx, fun e => ?_, hc, hw⟩
        simp only [exec] at hex
        split at hex
        · rename_i hcond
          obtain ⟨⟨hq, _⟩, _, hsb⟩ := hcond
          have hxm := (mem_proj_held (r := r) (s := s) e).2 hx
          have : selfBlock (proj r t s).held q w = true := by
            simp only [selfBlock, List.any_eq_true, Bool.and_eq_true, Bool.or_eq_true, beq_iff_eq]
            simp only [clash, Bool.and_eq_true, Bool.or_eq_true, beq_iff_eq, decide_eq_true_eq] at hc
            refine ⟨x, hxm, ⟨⟨e.trans hq.symm, hc.1⟩, hc.2.imp id fun c => ?_⟩, hw⟩
            simp [Rng.meet, e, hq, hc.1, c.1, c.2]
          rw [hsb] at this; cases this
        · cases hex
      · cases hs
    · cases hs
  | _ => cases hs

/-- Continuations of a state in which thread `t` makes no new call; the number counts the steps of `t`. -/
inductive Runs (ok : State → List Bool → Op → Prop) (r : Nat → Rng) (t : Nat) (s : CState) (g : Ghost) : CState → Ghost → Nat → Prop
  | refl : Runs ok r t s g s g 0
  | own {s1 g1 n} (h : Runs ok r t s g s1 g1 n) (s2 : CState) (e : Conc.step s1 t = some s2) :
      Runs ok r t s g s2 (g1.learn s1 t) (n + 1)
  | other {s1 g1 n} (h : Runs ok r t s g s1 g1 n) (u : Nat) (hu : u ≠ t) (s2 : CState) (e : Conc.step s1 u = some s2) :
      Runs ok r t s g s2 (g1.learn s1 u) n
  | call {s1 g1 n} (h : Runs ok r t s g s1 g1 n) (u : Nat) (hu : u ≠ t) (os : List Bool) (op : Op)
      (ht : (r (opObj op)).tid = u) (hok : ok s1.sh os op) (s2 : CState) (e : Conc.call s1 u os op = some s2) :
      Runs ok r t s g s2 { g1 with use := fun w => if w = u then ranges s1.sh op else g1.use w } n

theorem Runs.reach {ok : State → List Bool → Op → Prop} {r : Nat → Rng} {t : Nat} {s s' : CState} {g g' : Ghost} {n : Nat}
    (h : Reach ok r s g) (hr : Runs ok r t s g s' g' n) : Reach ok r s' g' := by
  induction hr with
  | refl => exact h
  | own _ s2 e ih => exact .step ih t s2 e
  | other _ u _ s2 e ih => exact .step ih u s2 e
  | call _ u _ os op ht hok s2 e ih => exact .call ih u os op ht hok s2 e

theorem len_pos (p : Prog) (s : State) (os : List Bool) : 0 < len p s os := by
  cases p <;> unfold len <;> (try split) <;> omega

/-- Whatever the other threads do, a call takes a fixed number of steps of its thread: it returns with the last of them, and
not before. -/
theorem C70_bounded_partial {F : Rng → Prop} (hF : Sep F) {r : Nat → Rng} (hr : ∀ i, F (r i)) {s : CState} {g : Ghost}
    (h : Reach (okC F) r s g) (t : Nat) (ht : s.run t ≠ none) :
    ∃ N, ∀ s' g' n, Runs (okC F) r t s g s' g' n → n ≤ N ∧ (n = N ↔ s'.run t = none) := by
  cases hf : s.run t with
  | none => exact absurd hf ht
  | some f =>
    obtain ⟨p, os, op⟩ := f
    refine ⟨len p (proj r t s) os, fun s' g' n hR => ?_⟩
    have key : (∀ p' os' op', s'.run t = some ⟨p', os', op'⟩ → n + len p' (proj r t s') os' = len p (proj r t s) os) ∧
        (s'.run t = none → n = len p (proj r t s) os) := by
      induction hR with
      | refl =>
        rw [hf]
        refine ⟨fun p' os' op' e => ?_, fun e => by cases e⟩
        simp only [Option.some.injEq, Frame.mk.injEq] at e
        obtain ⟨rfl, rfl, rfl⟩ := e
        omega
      | own hR s2 e ih =>
        rename_i s1 g1 n
        have hI := reach_inv hF hr (hR.reach h)
        cases hrun : s1.run t with
        | none => simp [Conc.step, hrun] at e
        | some f1 =>
          obtain ⟨p1, os1, op1⟩ := f1
          obtain ⟨_, s0, os0, b, s1', hH, hok, hc, hex, _⟩ := (hI.thr t).run p1 os1 op1 hrun
          obtain ⟨f', v, hS, hcase⟩ := step_sim hI.base hrun hex (hist_race hF hr (.call hH os0 op1 hok b s1' hc)) e
          have hn := ih.1 p1 os1 op1 hrun
          rcases hcase with ⟨rfl, rfl, rfl⟩ | ⟨p', os', rfl, _, hl⟩
          · refine ⟨fun p' os' op' e => by rw [hS.run] at e; simp at e, fun _ => ?_⟩
            simp only [len] at hn
            omega
          · refine ⟨fun p2 os2 op2 e => ?_, fun e => by rw [hS.run] at e; simp at e⟩
            rw [hS.run] at e
            simp only [if_true, Option.some.injEq, Frame.mk.injEq] at e
            obtain ⟨rfl, rfl, rfl⟩ := e
            rw [hS.own]; omega
      | other hR u hu s2 e ih =>
        rename_i s1 g1 n
        have hI := reach_inv hF hr (hR.reach h)
        cases hrun : s1.run u with
        | none => simp [Conc.step, hrun] at e
        | some f1 =>
          obtain ⟨p1, os1, op1⟩ := f1
          obtain ⟨_, s0, os0, b, s1', hH, hok, hc, hex, _⟩ := (hI.thr u).run p1 os1 op1 hrun
          obtain ⟨f', v, hS, _⟩ := step_sim hI.base hrun hex (hist_race hF hr (.call hH os0 op1 hok b s1' hc)) e
          rw [hS.other t (Ne.symm hu), hS.run, if_neg (Ne.symm hu)]
          exact ih
      | call hR u hu os2 op2 ht2 hok2 s2 e ih =>
        rename_i s1 g1 n
        unfold Conc.call at e
        split at e
        · simp only [Option.some.injEq] at e
          subst e
          rw [proj_goto, goto_run, if_neg (Ne.symm hu)]
          exact ih
        · cases e
    cases hrun : s'.run t with
    | none => exact ⟨Nat.le_of_eq (key.2 hrun), by simp [key.2 hrun]⟩
    | some f' =>
      obtain ⟨p', os', op'⟩ := f'
      have := key.1 p' os' op' hrun
      have := len_pos p' (proj r t s') os'
      refine ⟨by omega, ⟨fun e => by omega, fun e => by cases e⟩⟩

/-! ### Runs for the refutation and the examples -/

/-- A call with segment calls that succeed, or some steps. -/
inductive RcAct where
  | call (t : Nat) (op : Op)
  | steps (t n : Nat)

def rcSteps (t : Nat) : Nat → CState × Ghost → Option (CState × Ghost)
  | 0, x => some x
  | n + 1, x =>
    match Conc.step x.1 t with
    | none => none
    | some s' => rcSteps t n (s', x.2.learn x.1 t)

def isUnlock : Op → Bool
  | .unlock _ => true
  | _ => false

def isLockAt : Op → Bool
  | .lockAt _ _ _ => true
  | _ => false

def rcAct (r : Nat → Rng) (x : CState × Ghost) : RcAct → Option (CState × Ghost)
  | .call t op =>
    if (r (opObj op)).tid = t ∧ isLockAt op = false ∧ (isUnlock op = true ∨ x.1.sh.stack.elem (opObj op) = false) then
      match Conc.call x.1 t [] op with
      | none => none
      | some s' => some (s', { x.2 with use := fun u => if u = t then ranges x.1.sh op else x.2.use u })
    else none
  | .steps t n => rcSteps t n x

def rcGo (r : Nat → Rng) : List RcAct → CState × Ghost → Option (CState × Ghost)
  | [], x => some x
  | a :: l, x =>
    match rcAct r x a with
    | none => none
    | some y => rcGo r l y

theorem rcSteps_reach {ok : State → List Bool → Op → Prop} {r : Nat → Rng} (t : Nat) : ∀ (n : Nat) (x y : CState × Ghost),
    Reach ok r x.1 x.2 → rcSteps t n x = some y → Reach ok r y.1 y.2
  | 0, x, y, h, e => by simp only [rcSteps, Option.some.injEq] at e; exact e ▸ h
  | n + 1, x, y, h, e => by
    simp only [rcSteps] at e
    cases hs : Conc.step x.1 t with
    | none => rw [hs] at e; cases e
    | some s' => rw [hs] at e; exact rcSteps_reach t n (s', _) y (.step h t s' hs) e

theorem rcGo_reach {F : Rng → Prop} {r : Nat → Rng} : ∀ (l : List RcAct) (x y : CState × Ghost),
    Reach (okC F) r x.1 x.2 → rcGo r l x = some y → Reach (okC F) r y.1 y.2
  | [], x, y, h, e => by simp only [rcGo, Option.some.injEq] at e; exact e ▸ h
  | a :: l, x, y, h, e => by
    simp only [rcGo] at e
    cases hs : rcAct r x a with
    | none => rw [hs] at e; cases e
    | some z =>
      rw [hs] at e
      refine rcGo_reach l z y ?_ e
      cases a with
      | steps t n => exact rcSteps_reach t n x z h hs
      | call t op =>
        simp only [rcAct] at hs
        split at hs
        · rename_i hc
          obtain ⟨h1, h2, h3⟩ := hc
          cases hcl : Conc.call x.1 t [] op with
          | none => rw [hcl] at hs; cases hs
          | some s' =>
            rw [hcl] at hs
            simp only [Option.some.injEq] at hs
            subst hs
            refine .call h t [] op h1 ⟨⟨?_, Or.inl (by simp)⟩, fun hcv => ?_⟩ s' hcl
            · cases op <;> simp [isLockAt, Within] at h2 ⊢
            · simp only [List.elem_eq_mem, decide_eq_false_iff_not] at h3
              rcases h3 with h3 | h3
              · rcases hcv.2.2 with ⟨i, rfl, _⟩ | ⟨i, rfl, _⟩ <;> simp [isUnlock] at h3
              · exact h3 hcv.1
        · cases hs

/-- Objects 0 and 1 belong to thread 1, the others to thread 2; object 3 has a range of its own. -/
def rcR (i : Nat) : Rng := if i = 0 ∨ i = 1 then ⟨1, 3, 0, 10⟩ else if i = 3 then ⟨2, 3, 100, 10⟩ else ⟨2, 3, 0, 10⟩

def rcG (r : Rng) : Prop := r = ⟨1, 3, 0, 10⟩ ∨ r = ⟨2, 3, 100, 10⟩ ∨ r = ⟨2, 3, 0, 10⟩

theorem rcG_sep : Sep rcG := by
  constructor
  · rintro a (rfl | rfl | rfl) <;> decide
  · rintro a b (rfl | rfl | rfl) (rfl | rfl | rfl) <;> decide

theorem rcR_G (i : Nat) : rcG (rcR i) := by
  unfold rcR; split_ifs <;> simp [rcG]

def rcStart : CState × Ghost := (Conc.init rcR, ⟨fun _ => .free, fun _ => []⟩)

/-- A test of the state a run leads to. -/
def rcTest (l : List RcAct) (p : CState → Ghost → Bool) : Bool :=
  match rcGo rcR l rcStart with
  | none => false
  | some x => p x.1 x.2

theorem rcTest_reach {l : List RcAct} {p : CState → Ghost → Bool} (h : rcTest l p = true) :
    ∃ s g, Reach (okC rcG) rcR s g ∧ p s g = true := by
  unfold rcTest at h
  cases hg : rcGo rcR l rcStart with
  | none => rw [hg] at h; cases h
  | some x => rw [hg] at h; exact ⟨x.1, x.2, rcGo_reach l rcStart x .init hg, h⟩

/-- Thread 1 has a read lock and asks for a write lock with a second object: the read lock is given back before the write
lock is requested; meanwhile thread 2 gets its write lock. -/
theorem C70_upgrade_gap : rcTest [.call 1 (.readLock 0), .steps 1 11, .call 1 (.writeLock 1), .steps 1 9,
    .call 2 (.writeLock 2), .steps 2 11] (fun s g =>
      decide (g.know 2 = .excl) && (g.know 0).must && clash (s.sh.obj 2).rng (s.sh.obj 0).rng && (s.run 2).isNone) = true := by
  decide +kernel

/-- Refutation of C70. -/
theorem C70_not_full : ¬ C70_full := by
  intro hf
  obtain ⟨s, g, hR, hp⟩ := rcTest_reach C70_upgrade_gap
  simp only [Bool.and_eq_true, decide_eq_true_eq] at hp
  have := hf rcG rcG_sep rcR rcR_G s g hR 2 0 (by decide) hp.1.1.1 hp.1.1.2
  rw [hp.1.2] at this; cases this

/-- Calls with refused segment requests, for `C70_refused_stuck`. -/
def rcCallO (t : Nat) (os : List Bool) (op : Op) (x : CState × Ghost) : Option (CState × Ghost) :=
  (Conc.call x.1 t os op).map fun s' => (s', { x.2 with use := fun u => if u = t then ranges x.1.sh op else x.2.use u })

theorem rcCallO_reach {r : Nat → Rng} {t : Nat} {os : List Bool} {op : Op} {x y : CState × Ghost} (ht : (r (opObj op)).tid = t)
    (h : Reach (fun _ _ _ => True) r x.1 x.2) (e : rcCallO t os op x = some y) : Reach (fun _ _ _ => True) r y.1 y.2 := by
  unfold rcCallO at e
  cases hc : Conc.call x.1 t os op with
  | none => rw [hc] at e; cases e
  | some s' =>
    rw [hc] at e
    simp only [Option.map_some, Option.some.injEq] at e
    subst e
    exact .call h t os op ht trivial s' hc

/-- Why refused requests are left out of the claims about returning calls: thread 1 has a read lock and asks for a write lock with a
second object, the segment refuses it, and thread 1 waits for the lock of the table, which it has itself. -/
theorem C70_refused_stuck : ∃ s g f, Reach (fun _ _ _ => True) rcR s g ∧ s.run 1 = some f ∧ s.owner = some 1 ∧ Conc.step s 1 = none ∧
    s.sh.held = [] ∧ s.run 2 = none := by
  have hd : ((((rcCallO 1 [] (.readLock 0) rcStart).bind (rcSteps 1 11)).bind (rcCallO 1 [true, false] (.writeLock 1))).bind
      (rcSteps 1 19)).any (fun x => (x.1.run 1).isSome && decide (x.1.owner = some 1) && (Conc.step x.1 1).isNone &&
        x.1.sh.held.isEmpty && (x.1.run 2).isNone) = true := by decide +kernel
  have h0 : Reach (fun _ _ _ => True) rcR rcStart.1 rcStart.2 := .init
  cases h1 : rcCallO 1 [] (.readLock 0) rcStart with
  | none => rw [h1] at hd; cases hd
  | some x1 =>
    rw [h1, Option.bind_some] at hd
    have r1 := rcCallO_reach (r := rcR) (by decide) h0 h1
    cases h2 : rcSteps 1 11 x1 with
    | none => rw [h2] at hd; cases hd
    | some x2 =>
      rw [h2, Option.bind_some] at hd
      have r2 := rcSteps_reach 1 11 x1 x2 r1 h2
      cases h3 : rcCallO 1 [true, false] (.writeLock 1) x2 with
      | none => rw [h3] at hd; cases hd
      | some x3 =>
        rw [h3, Option.bind_some] at hd
        have r3 := rcCallO_reach (r := rcR) (by decide) r2 h3
        cases h4 : rcSteps 1 19 x3 with
        | none => rw [h4] at hd; cases hd
        | some x4 =>
          rw [h4, Option.any_some] at hd
          have r4 := rcSteps_reach 1 19 x3 x4 r3 h4
          simp only [Bool.and_eq_true, decide_eq_true_eq, Option.isNone_iff_eq_none, List.isEmpty_iff] at hd
          obtain ⟨⟨⟨⟨ha, hb⟩, hc⟩, he⟩, hf⟩ := hd
          obtain ⟨f, hf'⟩ := Option.isSome_iff_exists.1 ha
          exact ⟨x4.1, x4.2, f, r4, hf', hb, hc, he, hf⟩

/-- Thread 1 has a write lock with its second object, thread 2 a lock of another range; thread 2 is in a call that waits for
the first range and does not hold the lock of the table. -/
theorem C70_case : rcTest [.call 1 (.readLock 0), .steps 1 4, .call 2 (.readLock 3), .steps 2 1, .steps 1 7, .steps 2 10,
    .call 1 (.writeLock 1), .steps 1 16, .call 2 (.writeLock 2), .steps 2 8] (fun s g =>
      decide (g.know 1 = .excl) && (g.know 3).must && (s.run 1).isNone && (s.run 2).isSome && (Conc.step s 2).isNone &&
      s.owner.isNone && !(g.use 1).elem (s.sh.obj 1).rng && !(g.use 2).elem (s.sh.obj 3).rng) = true := by decide +kernel

/-- The hypotheses of the theorems above are met. -/
example : ∃ s g, Reach (okC rcG) rcR s g ∧ g.know 1 = .excl ∧ (g.know 3).must = true ∧ s.run 1 = none ∧ s.run 2 ≠ none ∧
    Conc.step s 2 = none ∧ (s.sh.obj 1).rng ∉ g.use (rcR 1).tid ∧ (s.sh.obj 3).rng ∉ g.use (rcR 3).tid := by
  obtain ⟨s, g, hR, hp⟩ := rcTest_reach C70_case
  simp only [Bool.and_eq_true, decide_eq_true_eq, Bool.not_eq_true', List.elem_eq_mem, decide_eq_false_iff_not,
    Option.isNone_iff_eq_none, Option.isSome_iff_ne_none] at hp
  exact ⟨s, g, hR, hp.1.1.1.1.1.1.1, hp.1.1.1.1.1.1.2, hp.1.1.1.1.1.2, hp.1.1.1.1.2, hp.1.1.1.2, hp.1.2, hp.2⟩

/-- Two readers of one range at the same time, and nothing held or in the table after both have unlocked. -/
example : rcTest [.call 1 (.readLock 0), .steps 1 11, .call 2 (.readLock 2), .steps 2 11] (fun s g =>
      decide (s.sh.held.length = 2) && decide (s.sh.stack = [0, 2]) && (g.know 0).must && (g.know 2).must) = true := by
  decide +kernel

example : rcTest [.call 1 (.readLock 0), .steps 1 11, .call 2 (.readLock 2), .steps 2 11, .call 1 (.unlock 0), .steps 1 6,
    .call 2 (.unlock 2), .steps 2 1, .steps 1 2, .steps 2 7] (fun s g =>
      s.sh.held.isEmpty && s.sh.stack.isEmpty && decide (g.know 0 = .free) && decide (g.know 2 = .free) && (s.run 1).isNone &&
      (s.run 2).isNone) = true := by decide +kernel

end Fullock.Props
