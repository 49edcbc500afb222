import Verif.Props.RcsvForever
import Verif.Spec.RcsvHand
/-
C87: recursive lock objects used by other threads than their makers.
-/
namespace Fullock.Props.RcsvHand
open Fullock.Rcsv Fullock.Rcsv.Conc Fullock.Spec.Rcsv Fullock.Spec.RcsvHand Fullock.Props.Rcsv Fullock.Props.RcsvConc
open Fullock.Props.RcsvForever

/-- Every thread uses objects it has made. -/
def maker (r : Nat → Rng) (t i : Nat) : Prop := (r i).tid = t

theorem goto_self {s : CState} {t : Nat} {f : Frame} (h : s.run t = some f) : s.goto t (some f) = s := by
  unfold CState.goto
  congr 1
  funext u
  split
  · rename_i hu; rw [hu, h]
  · rfl

/-- With own objects the requests are those of the calling thread. -/
theorem stepH_eq {F : Rng → Prop} (hS : Sep F) {r : Nat → Rng} (hr : ∀ i, F (r i)) {s : CState} {g : Ghost} (h : Reach (okC F) r s g)
    (t : Nat) : stepH s t = Conc.step s t := by
  have hI := reach_inv hS hr h
  unfold stepH
  cases hrun : s.run t with
  | none => simp only [Conc.step, hrun]
  | some f =>
    obtain ⟨p, os, op⟩ := f
    have hp : asCaller t p = p := by
      obtain ⟨_, s0, os0, b, s1, _, _, _, hex, _⟩ := (hI.thr t).run _ _ _ hrun
      cases p with
      | grant q w k =>
        simp only [exec] at hex
        split at hex
        · rename_i hc
          simp only [asCaller]
          have := hc.1.1
          subst this
          rfl
        · cases hex
      | free q k =>
        simp only [exec] at hex
        split at hex
        · rename_i hc
          simp only [asCaller]
          have := hc.1.1
          subst this
          rfl
        · cases hex
      | _ => rfl
    simp only [hp]
    rw [goto_self hrun]

/-- A history of threads with own objects is one of C70. -/
theorem hand_own {F : Rng → Prop} (hS : Sep F) {r : Nat → Rng} (hr : ∀ i, F (r i)) {s : CState} {g : Told}
    (h : HReach (maker r) (okC F) r s g) : ∃ k, Reach (okC F) r s ⟨k, g.use⟩ ∧ ∀ t, g.told t = mine r t k := by
  induction h with
  | init => exact ⟨fun _ => .free, .init, fun t => by funext i; simp [mine]⟩
  | call h t os op ht hok s' e ih =>
    obtain ⟨k, hR, hk⟩ := ih
    exact ⟨k, hR.call t os op ht hok s' e, hk⟩
  | step h t s' e ih =>
    rename_i s g
    obtain ⟨k, hR, hk⟩ := ih
    rw [stepH_eq hS hr hR] at e
    have hR' := hR.step t s' e
    have hI := reach_inv hS hr hR
    unfold Ghost.learn at hR'
    split at hR'
    · rename_i b os op hrun
      have hl : g.learn s t = ⟨fun u j => if u = t ∧ j = opObj op then (g.told u j).next (opReq op) b else g.told u j,
          fun u => if u = t then [] else g.use u⟩ := by simp only [Told.learn, hrun]
      rw [hl]
      refine ⟨_, hR', fun u => ?_⟩
      funext j
      have hown := ((hI.thr t).run _ _ _ hrun).1
      simp only [hk, mine]
      by_cases hj : j = opObj op
      · subst hj
        by_cases hu : u = t
        · subst hu; simp [hown]
        · have : ¬ t = u := fun h => hu h.symm
          simp [hu, hown, this]
      · simp [hj]
    · rename_i hn
      have hl : g.learn s t = g := by
        unfold Told.learn
        split
        · rename_i b os op hrun; exact absurd hrun (hn b os op)
        · rfl
      rw [hl]
      exact ⟨k, hR', hk⟩

end Fullock.Props.RcsvHand

namespace Fullock.Props
open Fullock.Rcsv Fullock.Rcsv.Conc Fullock.Spec.Rcsv Fullock.Spec.RcsvHand Fullock.Props.Rcsv Fullock.Props.RcsvConc
open Fullock.Props.RcsvForever Fullock.Props.RcsvHand

/-! ### C87 -/

/-- Threads exclude each other whoever made the objects they use. -/
def C87_full : Prop :=
  ∀ F : Rng → Prop, Sep F → ∀ r : Nat → Rng, (∀ i, F (r i)) → ∀ s g, HReach (fun _ _ => True) (okC F) r s g → Alone s g

/-- Threads that use objects they have made exclude each other. -/
theorem C87_partial {F : Rng → Prop} (hS : Sep F) {r : Nat → Rng} (hr : ∀ i, F (r i)) {s : CState} {g : Told}
    (h : HReach (maker r) (okC F) r s g) : Alone s g := by
  intro t u i j htu hi hj ui uj
  obtain ⟨k, hR, hk⟩ := hand_own hS hr h
  rw [hk] at hi hj
  simp only [mine] at hi hj
  split at hi
  · split at hj
    · rename_i h1 h2
      exact C70_exclusion_partial hS hr hR i j (by rw [h1, h2]; exact htu) hi hj (by rw [h1]; exact ui) (by rw [h2]; exact uj)
    · cases hj
  · cases hi

/-- With objects of one's own nothing else happens than in C70: the machines agree. -/
theorem C87_same {F : Rng → Prop} (hS : Sep F) {r : Nat → Rng} (hr : ∀ i, F (r i)) {s : CState} {g : Told}
    (h : HReach (maker r) (okC F) r s g) (t : Nat) : stepH s t = Conc.step s t := by
  obtain ⟨k, hR, _⟩ := hand_own hS hr h
  exact stepH_eq hS hr hR t

/-- The locks that come and go with the steps of a thread are its own, whoever made the object. -/
theorem C87_caller {s s' : CState} {t : Nat} (e : stepH s t = some s') :
    (∀ x ∈ s'.sh.held, x ∉ s.sh.held → x.1.tid = t) ∧ (∀ x ∈ s.sh.held, x ∉ s'.sh.held → x.1.tid = t) := by
  unfold stepH at e
  split at e
  · cases e
  · rename_i f hf
    obtain ⟨p, os, op⟩ := f
    unfold Conc.step at e
    simp only [CState.goto, if_true] at e
    cases p with
    | free q k =>
      simp only [asCaller, Option.some.injEq] at e; subst e
      simp only [segUnlock]
      split
      · simp only
        refine ⟨fun x hx hn => absurd (List.mem_of_mem_eraseP hx) hn, fun x hx hn => ?_⟩
        by_cases hxq : x.1 = { q with tid := t }
        · rw [hxq]
        · exact absurd ((List.mem_eraseP_of_neg (by simpa using hxq)).2 hx) hn
      · exact ⟨fun x hx hn => absurd hx hn, fun x hx hn => absurd hx hn⟩
    | grant q w k =>
      simp only [asCaller] at e
      split at e
      · split at e
        · cases e
        · simp only [Option.some.injEq] at e; subst e
          simp only [List.mem_append, List.mem_singleton]
          refine ⟨fun x hx hn => ?_, fun x hx hn => absurd (Or.inl hx) hn⟩
          rcases hx with hx | rfl
          · exact absurd hx hn
          · rfl
      · simp only [Option.some.injEq] at e; subst e
        exact ⟨fun x hx hn => absurd hx hn, fun x hx hn => absurd hx hn⟩
    | lock k =>
      simp only [asCaller] at e
      split at e
      · cases e
      · simp only [Option.some.injEq] at e; subst e
        exact ⟨fun x hx hn => absurd hx hn, fun x hx hn => absurd hx hn⟩
    | _ =>
      simp only [asCaller, Option.some.injEq] at e; subst e
      exact ⟨fun x hx hn => absurd hx hn, fun x hx hn => absurd hx hn⟩

/-! ### Runs for the examples -/

/-- Calls as in `okb85`, or of `WriteLock` with an object that is of that kind. -/
def okb87 (s : State) (os : List Bool) (op : Op) : Bool :=
  okb85 s os op || match os, op with
    | [], .writeLock i => (s.obj i).ty == .write
    | _, _ => false

theorem okb87_ok {F : Rng → Prop} (s : State) (os : List Bool) (op : Op) (h : okb87 s os op = true) : okC F s os op := by
  simp only [okb87, Bool.or_eq_true] at h
  rcases h with h | h
  · exact okb85_ok s os op h
  · split at h
    · rename_i i
      have h : (s.obj i).ty = .write := by simpa using h
      refine ⟨⟨trivial, Or.inl (by simp)⟩, fun hc => ?_⟩
      rcases hc.2.2 with ⟨j, hj, _⟩ | ⟨j, hj, hr⟩
      · cases hj
      · cases hj; rw [h] at hr; cases hr
    · cases h

def hdSteps (t : Nat) : Nat → CState × Told → Option (CState × Told)
  | 0, x => some x
  | n + 1, x =>
    match stepH x.1 t with
    | none => none
    | some s' => hdSteps t n (s', x.2.learn x.1 t)

/-- A call by a thread and `n` of its instructions. -/
def hdAct (x : CState × Told) (t : Nat) (op : Op) (n : Nat) : Option (CState × Told) :=
  if okb87 x.1.sh [] op = true then
    match Conc.call x.1 t [] op with
    | none => none
    | some s' => hdSteps t n (s', { x.2 with use := fun u => if u = t then ranges x.1.sh op else x.2.use u })
  else none

def hdGo : List (Nat × Op × Nat) → CState × Told → Option (CState × Told)
  | [], x => some x
  | (t, op, n) :: l, x =>
    match hdAct x t op n with
    | none => none
    | some y => hdGo l y

theorem hdSteps_reach {may : Nat → Nat → Prop} {ok : State → List Bool → Op → Prop} {r : Nat → Rng} (t : Nat) :
    ∀ (n : Nat) (x y : CState × Told), HReach may ok r x.1 x.2 → hdSteps t n x = some y → HReach may ok r y.1 y.2
  | 0, x, y, h, e => by simp only [hdSteps, Option.some.injEq] at e; exact e ▸ h
  | n + 1, x, y, h, e => by
    simp only [hdSteps] at e
    cases hs : stepH x.1 t with
    | none => rw [hs] at e; cases e
    | some s' => rw [hs] at e; exact hdSteps_reach t n (s', _) y (.step h t s' hs) e

theorem hdGo_reach {F : Rng → Prop} {may : Nat → Nat → Prop} {r : Nat → Rng} : ∀ (l : List (Nat × Op × Nat)) (x y : CState × Told),
    (∀ a ∈ l, may a.1 (opObj a.2.1)) → HReach may (okC F) r x.1 x.2 → hdGo l x = some y → HReach may (okC F) r y.1 y.2
  | [], x, y, _, h, e => by simp only [hdGo, Option.some.injEq] at e; exact e ▸ h
  | (t, op, n) :: l, x, y, hm, h, e => by
    simp only [hdGo] at e
    cases hs : hdAct x t op n with
    | none => rw [hs] at e; cases e
    | some z =>
      rw [hs] at e
      refine hdGo_reach l z y (fun a ha => hm a (List.mem_cons_of_mem _ ha)) ?_ e
      unfold hdAct at hs
      split at hs
      · rename_i hok
        cases hc : Conc.call x.1 t [] op with
        | none => rw [hc] at hs; cases hs
        | some s' =>
          rw [hc] at hs
          exact hdSteps_reach t n _ z (.call h t [] op (hm _ List.mem_cons_self) (okb87_ok _ _ _ hok) s' hc) hs
      · cases hs

def hdTest (l : List (Nat × Op × Nat)) (p : CState → Told → Bool) : Bool :=
  match hdGo l (Conc.init rcR, ⟨fun _ _ => .free, fun _ => []⟩) with
  | none => false
  | some x => p x.1 x.2

theorem hdTest_reach {l : List (Nat × Op × Nat)} {p : CState → Told → Bool} {may : Nat → Nat → Prop}
    (hm : ∀ a ∈ l, may a.1 (opObj a.2.1)) (h : hdTest l p = true) : ∃ s g, HReach may (okC rcG) rcR s g ∧ p s g = true := by
  unfold hdTest at h
  cases hg : hdGo l (Conc.init rcR, ⟨fun _ _ => .free, fun _ => []⟩) with
  | none => rw [hg] at h; cases h
  | some x => rw [hg] at h; exact ⟨x.1, x.2, hdGo_reach l _ x hm .init hg, h⟩

/-- Thread 1 has a write lock with object 0; thread 2 asks for one with object 1, of the same range, which thread 1 made: it is
told that it has it. -/
theorem C87_handed : ∃ s g, HReach (fun _ _ => True) (okC rcG) rcR s g ∧ g.told 1 0 = .excl ∧ g.told 2 1 = .excl ∧
    g.use 1 = [] ∧ g.use 2 = [] ∧ (s.sh.obj 0).rng = (s.sh.obj 1).rng ∧ s.sh.held = [(⟨1, 3, 0, 10⟩, .write)] := by
  obtain ⟨s, g, hR, hp⟩ := hdTest_reach (may := fun _ _ => True) (l := [(1, .writeLock 0, 11), (2, .writeLock 1, 9)])
    (p := fun s g => decide (g.told 1 0 = .excl ∧ g.told 2 1 = .excl ∧ g.use 1 = [] ∧ g.use 2 = [] ∧
      (s.sh.obj 0).rng = (s.sh.obj 1).rng ∧ s.sh.held = [(⟨1, 3, 0, 10⟩, .write)])) (fun _ _ => trivial) (by decide +kernel)
  exact ⟨s, g, hR, of_decide_eq_true hp⟩

/-- Thread 1 has a write lock with object 0; thread 2 asks for one with the same object: it is told that it has it. -/
theorem C87_shared : ∃ s g, HReach (fun _ _ => True) (okC rcG) rcR s g ∧ g.told 1 0 = .excl ∧ g.told 2 0 = .excl ∧
    g.use 1 = [] ∧ g.use 2 = [] ∧ s.sh.held = [(⟨1, 3, 0, 10⟩, .write)] := by
  obtain ⟨s, g, hR, hp⟩ := hdTest_reach (may := fun _ _ => True) (l := [(1, .writeLock 0, 11), (2, .writeLock 0, 2)])
    (p := fun s g => decide (g.told 1 0 = .excl ∧ g.told 2 0 = .excl ∧ g.use 1 = [] ∧ g.use 2 = [] ∧
      s.sh.held = [(⟨1, 3, 0, 10⟩, .write)])) (fun _ _ => trivial) (by decide +kernel)
  exact ⟨s, g, hR, of_decide_eq_true hp⟩

/-- Thread 1 has a write lock with object 0 and asks for one with object 2, of the same range, which thread 2 made: it waits for
itself. -/
theorem C87_self_wait : ∃ s g, HReach (fun _ _ => True) (okC rcG) rcR s g ∧ WaitsForItself s 1 := by
  obtain ⟨s, g, hR, hp⟩ := hdTest_reach (may := fun _ _ => True) (l := [(1, .writeLock 0, 11), (1, .writeLock 2, 8)])
    (p := fun s _ => decide ((s.run 1).isSome = true ∧ (stepH s 1).isNone = true ∧ s.sh.glob = false ∧
      s.sh.held = [(⟨1, 3, 0, 10⟩, .write)])) (fun _ _ => trivial) (by decide +kernel)
  obtain ⟨h1, h2, h3, h4⟩ := of_decide_eq_true hp
  refine ⟨s, g, hR, Option.isSome_iff_ne_none.1 h1, Option.isNone_iff_eq_none.1 h2, h3, fun x hx => ?_⟩
  rw [h4] at hx
  simp only [List.mem_singleton] at hx
  subst hx
  rfl

theorem C87_not_full : ¬ C87_full := by
  intro hf
  obtain ⟨s, g, hR, h1, h2, h3, h4, h5, _⟩ := C87_handed
  have := hf rcG rcG_sep rcR rcR_G s g hR 1 2 0 1 (by decide) h1 (by rw [h2]; rfl) (by rw [h3]; simp) (by rw [h4]; simp)
  rw [h5] at this
  simp only [clash, beq_self_eq_true, Bool.true_or, Bool.and_true] at this
  cases this

/-- With objects of its own no thread waits for itself. -/
theorem C87_no_self_wait_partial {F : Rng → Prop} (hS : Sep F) {r : Nat → Rng} (hr : ∀ i, F (r i)) {s : CState} {g : Told}
    (h : HReach (maker r) (okC F) r s g) (t : Nat) : ¬ WaitsForItself s t := by
  rintro ⟨hrun, hst, hg, hheld⟩
  obtain ⟨k, hR, _⟩ := hand_own hS hr h
  rw [stepH_eq hS hr hR] at hst
  cases hf : s.run t with
  | none => exact hrun hf
  | some f =>
    rcases C70_progress_partial hS hr hR t f hf hst with ⟨u, _, ho, _⟩ | ⟨_, q, w, k, _, x, hx, hxt, _⟩
    · have := (reach_inv hS hr hR).base.glob
      rw [ho, hg] at this
      cases this
    · exact hxt (hheld x hx)

/-- With an object of thread 1 thread 2 gets a lock and gives it back. -/
example : ∃ s s' g, HReach (fun _ _ => True) (okC rcG) rcR s g ∧ stepH s 2 = some s' ∧ (⟨2, 3, 0, 10⟩, .write) ∉ s.sh.held ∧
    (⟨2, 3, 0, 10⟩, .write) ∈ s'.sh.held := by
  obtain ⟨s, g, hR, hp⟩ := hdTest_reach (may := fun _ _ => True) (l := [(2, .writeLock 0, 8)])
    (p := fun s _ => decide (s.sh.held = [] ∧ (stepH s 2).map (fun s' => s'.sh.held) = some [(⟨2, 3, 0, 10⟩, .write)]))
    (fun _ _ => trivial) (by decide +kernel)
  obtain ⟨h1, h2⟩ := of_decide_eq_true hp
  cases hs : stepH s 2 with
  | none => rw [hs] at h2; cases h2
  | some s' =>
    rw [hs] at h2
    simp only [Option.map_some, Option.some.injEq] at h2
    exact ⟨s, s', g, hR, hs, by rw [h1]; simp, by rw [h2]; simp⟩

/-- The hypotheses of `C87_partial` are met by threads that both were told that they have a lock, on different ranges. -/
example : ∃ s g, Sep rcG ∧ (∀ i, rcG (rcR i)) ∧ HReach (maker rcR) (okC rcG) rcR s g ∧ g.told 1 0 = .excl ∧ g.told 2 3 = .excl ∧
    g.use 1 = [] ∧ g.use 2 = [] := by
  obtain ⟨s, g, hR, hp⟩ := hdTest_reach (may := maker rcR) (l := [(1, .writeLock 0, 11), (2, .writeLock 3, 11)])
    (p := fun _ g => decide (g.told 1 0 = .excl ∧ g.told 2 3 = .excl ∧ g.use 1 = [] ∧ g.use 2 = []))
    (by simp [maker, rcR, opObj]) (by decide +kernel)
  exact ⟨s, g, rcG_sep, rcR_G, hR, of_decide_eq_true hp⟩

end Fullock.Props
