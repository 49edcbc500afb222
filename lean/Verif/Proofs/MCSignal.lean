import Verif.Proofs.MCCond
import Verif.Proofs.MCFail
/-!
Signals and broadcasts: concurrent with everything else, and alone; the check of dead waiters.
-/
namespace Fullock.MC

/-! ### A signal while a thread is waiting -/

/-- Progress of a signal on `c` with respect to the waiter record `w`. -/
def sigJ (M : Mem) (c w : Nat) : Pc → Prop
  | .acqC p => p = .sFind c false
  | .sFind c' b => c' = c ∧ b = false
  | .sWalk rest l => (∃ pre, M.ws c = pre ++ rest) ∧
      (M.wup w = true ∨ w ∈ rest ∨ ∃ w', l = some w' ∧ M.warr w' ≤ M.warr w)
  | .sSet w' => M.wup w = true ∨ M.warr w' ≤ M.warr w
  | .relC p => p = .done 0
  | .done r => r = 0
  | _ => False

/-- Progress of a broadcast on `c` with respect to the waiter record `w`. -/
def bcJ (M : Mem) (c w : Nat) : Pc → Prop
  | .acqC p => p = .sFind c true
  | .sFind c' b => c' = c ∧ b = true
  | .bWalk rest => M.wup w = true ∨ w ∈ rest
  | .bSet x rest => M.wup w = true ∨ w = x ∨ w ∈ rest
  | .relC p => M.wup w = true ∧ p = .done 0
  | .done r => M.wup w = true ∧ r = 0
  | _ => False

theorem sigJ_own {M M' : Mem} {alive : Nat → Bool} {u c w : Nat} {p p' : Pc}
    (h : Stp M alive u p M' p') (hc : c ∈ M.clist) (hw : w ∈ M.ws c)
    (hs : (M.ws c).Pairwise fun a b => M.warr b < M.warr a) (hj : sigJ M c w p) :
    sigJ M' c w p' := by
  cases h <;> (try (simp only [sigJ] at hj; done))
  case acqC => simp only [sigJ] at hj; subst hj; exact ⟨rfl, rfl⟩
  case relC => simp only [sigJ] at hj; subst hj; exact rfl
  case sMiss h => simp only [sigJ] at hj; exact absurd (hj.1 ▸ hc) h
  case sHit h =>
    obtain ⟨rfl, -⟩ := hj
    exact ⟨⟨[], rfl⟩, .inr (.inl hw)⟩
  case bHit h => obtain ⟨-, h⟩ := hj; cases h
  case sNone => exact rfl
  case sSome w' =>
    obtain ⟨-, h | h | ⟨x, h1, h2⟩⟩ := hj
    · exact .inl h
    · cases h
    · cases h1; exact .inr h2
  case sSkip x xs l h =>
    obtain ⟨⟨pre, hp⟩, hh⟩ := hj
    refine ⟨⟨pre ++ [x], by simp [hp]⟩, ?_⟩
    rcases hh with hh | hh | hh
    · exact .inl hh
    · rcases List.mem_cons.mp hh with rfl | hh
      · exact .inl h
      · exact .inr (.inl hh)
    · exact .inr (.inr hh)
  case sTake x xs l h =>
    obtain ⟨⟨pre, hp⟩, hh⟩ := hj
    refine ⟨⟨pre ++ [x], by simp [hp]⟩, ?_⟩
    by_cases hx : w ∈ xs
    · exact .inr (.inl hx)
    · refine .inr (.inr ⟨x, rfl, ?_⟩)
      rw [hp] at hs hw
      rcases List.mem_append.mp hw with hw | hw
      · have := (List.pairwise_append.mp hs).2.2 w hw x (by simp)
        omega
      · rcases List.mem_cons.mp hw with rfl | hw
        · exact Nat.le_refl _
        · exact absurd hw hx
  case sSet => exact rfl

theorem bcJ_own {M M' : Mem} {alive : Nat → Bool} {u c w : Nat} {p p' : Pc}
    (h : Stp M alive u p M' p') (hc : c ∈ M.clist) (hw : w ∈ M.ws c) (hj : bcJ M c w p) :
    bcJ M' c w p' := by
  cases h <;> (try (simp only [bcJ] at hj; done))
  case acqC => simp only [bcJ] at hj; subst hj; exact ⟨rfl, rfl⟩
  case relC => simp only [bcJ] at hj; obtain ⟨h1, rfl⟩ := hj; exact ⟨h1, rfl⟩
  case sMiss h => simp only [bcJ] at hj; exact absurd (hj.1 ▸ hc) h
  case bHit h =>
    obtain ⟨rfl, -⟩ := hj
    exact .inr hw
  case sHit h => obtain ⟨-, h⟩ := hj; cases h
  case bEnd =>
    rcases hj with hj | hj
    · exact ⟨hj, rfl⟩
    · cases hj
  case bSkip x xs h =>
    rcases hj with hj | hj
    · exact .inl hj
    · rcases List.mem_cons.mp hj with rfl | hj
      · exact .inl h
      · exact .inr hj
  case bTake x xs h =>
    rcases hj with hj | hj
    · exact .inl hj
    · rcases List.mem_cons.mp hj with rfl | hj
      · exact .inr (.inl rfl)
      · exact .inr (.inr hj)
  case bSet x xs =>
    show upd M.wup x true w = true ∨ _
    rcases hj with hj | rfl | hj
    · left; simp only [upd]; split <;> simp [hj]
    · left; simp
    · exact .inr hj

theorem sigJ_frame {M M' : Mem} {c w : Nat} {p : Pc} (hup : M.wup w = true → M'.wup w = true)
    (hc : inC p = true → M'.ws = M.ws ∧ M'.warr = M.warr) (hj : sigJ M c w p) : sigJ M' c w p := by
  cases p <;> simp only [sigJ, inC] at hj hc ⊢ <;> (try exact hj)
  · obtain ⟨h1, h2⟩ := hc trivial
    rw [h1, h2]
    exact ⟨hj.1, hj.2.imp hup id⟩
  · obtain ⟨h1, h2⟩ := hc trivial
    rw [h2]
    exact hj.imp hup id

theorem bcJ_frame {M M' : Mem} {c w : Nat} {p : Pc} (hup : M.wup w = true → M'.wup w = true)
    (hj : bcJ M c w p) : bcJ M' c w p := by
  cases p <;> simp only [bcJ] at hj ⊢ <;> (try exact hj) <;>
    first | exact hj.imp hup id | exact ⟨hup hj.1, hj.2⟩

/-- Both, through any run in which `t` does not move and `u` makes no new call. -/
theorem signal_run {s s' : State} (i : Recs s) {t u c w : Nat} {es : List Ev} (u0 : u ≠ 0)
    (ta : s.alive t = true) (hl : lst (s.pc t) = some (c, w)) (hs : still t es) (nc : noCall u es)
    (h : run s es = some s') (hut : u ≠ t) :
    ((s.alive u = true → sigJ s.mem c w (s.pc u)) → s'.alive u = true → sigJ s'.mem c w (s'.pc u)) ∧
    ((s.alive u = true → bcJ s.mem c w (s.pc u)) → s'.alive u = true → bcJ s'.mem c w (s'.pc u)) := by
  induction es generalizing s with
  | nil => cases h; exact ⟨id, id⟩
  | cons e es ih =>
    simp only [run, Option.bind_eq_some_iff] at h
    obtain ⟨s1, h1, h⟩ := h
    have he := hs e (by simp)
    obtain ⟨e1, e2, -⟩ := still_step h1 he
    obtain ⟨a1, a2⟩ := ih (recs_step i h1) (e2.trans ta) (by rw [e1]; exact hl)
      (fun e he => hs e (by simp [he])) (fun e he => nc e (by simp [he])) h
    obtain ⟨l1, l2, l3⟩ := i.recs.listed t ta c w hl
    suffices hh : ((s.alive u = true → sigJ s.mem c w (s.pc u)) → s1.alive u = true →
        sigJ s1.mem c w (s1.pc u)) ∧
      ((s.alive u = true → bcJ s.mem c w (s.pc u)) → s1.alive u = true → bcJ s1.mem c w (s1.pc u)) from
      ⟨fun h => a1 (hh.1 h), fun h => a2 (hh.2 h)⟩
    rcases step_cases h1 with ⟨v, c', r, rfl, -, -, -, rfl⟩ | ⟨v, c', M', p', rfl, va, hp, rfl⟩ |
      ⟨v, rfl, -, rfl⟩
    · have : u ≠ v := by rintro rfl; exact nc _ (by simp) c' rfl
      simp only [upd_ne _ _ this]
      exact ⟨id, id⟩
    · have hvt : v ≠ t := by rintro rfl; exact he.2.1 c' rfl
      have hst := stp_of_plan hp
      by_cases huv : u = v
      · subst huv
        simp only [upd_same]
        exact ⟨fun hj ua => sigJ_own hst l1 l2 (i.recs.sorted c l1) (hj ua),
          fun hj ua => bcJ_own hst l1 l2 (hj ua)⟩
      · simp only [upd_ne _ _ huv]
        have hup : s.mem.wup w = true → M'.wup w = true := by
          intro hw
          rcases wup_other i ta va hvt hl hst with h | h
          · exact h.trans hw
          · exact h.1
        refine ⟨fun hj ua => sigJ_frame hup ?_ (hj ua), fun hj ua => bcJ_frame hup (hj ua)⟩
        intro hc
        have hx := i.names.base.excl (i.names.base.go0 hp) u0 va ua huv
        obtain ⟨b1, -, b3⟩ := ws_stp hst (hx.2 hc)
        exact ⟨b1, b3⟩
    · have hal : upd s.alive v false u = true → s.alive u = true := by
        intro hu; simp only [upd] at hu; split at hu
        · cases hu
        · exact hu
      exact ⟨fun hj ua => hj (hal ua), fun hj ua => hj (hal ua)⟩

/-! ### Who woke the waiter -/

/-- If a waiting thread's record is woken during a run in which the thread does not move, then some
thread executed the waking step of a signal or a broadcast for this record in the run. -/
theorem woken_by {s s' : State} (i : Recs s) {t c w : Nat} {es : List Ev}
    (ta : s.alive t = true) (hl : lst (s.pc t) = some (c, w)) (h0 : s.mem.wup w = false)
    (hs : still t es) (h : run s es = some s') (h1 : s'.mem.wup w = true) :
    ∃ es1 u ch es2 s1, es = es1 ++ .go u ch :: es2 ∧ run s es1 = some s1 ∧ u ≠ t ∧
      (s1.pc u = .sSet w ∨ ∃ xs, s1.pc u = .bSet w xs) := by
  induction es generalizing s with
  | nil => cases h; rw [h0] at h1; cases h1
  | cons e es ih =>
    simp only [run, Option.bind_eq_some_iff] at h
    obtain ⟨s1, hs1, h⟩ := h
    have he := hs e (by simp)
    obtain ⟨e1, e2, -⟩ := still_step hs1 he
    have rest : s1.mem.wup w = false → ∃ es1 u ch es2 s1, e :: es = es1 ++ .go u ch :: es2 ∧
        run s es1 = some s1 ∧ u ≠ t ∧ (s1.pc u = .sSet w ∨ ∃ xs, s1.pc u = .bSet w xs) := by
      intro hw
      obtain ⟨es1, u, ch, es2, s2, rfl, b2, b3⟩ := ih (recs_step i hs1) (e2.trans ta)
        (by rw [e1]; exact hl) hw (fun e he => hs e (by simp [he])) h
      exact ⟨e :: es1, u, ch, es2, s2, rfl, by simp [run, hs1, b2], b3⟩
    rcases step_cases hs1 with ⟨v, c', r, rfl, -, -, -, rfl⟩ | ⟨v, c', M', p', rfl, va, hp, rfl⟩ |
      ⟨v, rfl, -, rfl⟩
    · exact rest h0
    · have hvt : v ≠ t := by rintro rfl; exact he.2.1 c' rfl
      rcases wup_other i ta va hvt hl (stp_of_plan hp) with hh | hh
      · exact rest (hh.trans h0)
      · exact ⟨[], v, c', es, s, rfl, rfl, hvt, hh.2⟩
    · exact rest h0

/-! ### Alone -/

/-- The record `rfind` ends with. -/
def pick (up : Nat → Bool) : List Nat → Option Nat → Option Nat
  | [], l => l
  | x :: xs, l => pick up xs (if up x then l else some x)

theorem exec_walk {alive : Nat → Bool} {t : Nat} {M : Mem} (rest : List Nat) (l : Option Nat) :
    exec alive t M (.sWalk rest l) (List.replicate rest.length .go) =
      some (M, .sWalk [] (pick M.wup rest l)) := by
  induction rest generalizing l with
  | nil => rfl
  | cons x xs ih =>
    simp only [List.length_cons, List.replicate_succ, exec, plan, Option.bind_some, pick]
    exact ih _

theorem pick_none {up : Nat → Bool} {xs : List Nat} (h : ∀ x ∈ xs, up x = true) (l : Option Nat) :
    pick up xs l = l := by
  induction xs generalizing l with
  | nil => rfl
  | cons x xs ih => simp [pick, h x (by simp), ih (fun y hy => h y (by simp [hy]))]

/-- On a list sorted by age, youngest first, the walk ends with the oldest waiter not woken yet. -/
theorem pick_oldest {up : Nat → Bool} {arr : Nat → Nat} {xs : List Nat}
    (hs : xs.Pairwise fun a b => arr b < arr a) (l : Option Nat) (h : ∃ x ∈ xs, up x = false) :
    ∃ w, pick up xs l = some w ∧ w ∈ xs ∧ up w = false ∧ ∀ x ∈ xs, up x = false → arr w ≤ arr x := by
  induction xs generalizing l with
  | nil => obtain ⟨x, hx, -⟩ := h; cases hx
  | cons x xs ih =>
    obtain ⟨h1, h2⟩ := List.pairwise_cons.mp hs
    by_cases hx : ∃ y ∈ xs, up y = false
    · obtain ⟨w, a1, a2, a3, a4⟩ := ih h2 (if up x then l else some x) hx
      refine ⟨w, a1, by simp [a2], a3, ?_⟩
      intro y hy hu
      rcases List.mem_cons.mp hy with rfl | hy
      · exact Nat.le_of_lt (h1 w a2)
      · exact a4 y hy hu
    · have hall : ∀ y ∈ xs, up y = true := by
        intro y hy
        cases hu : up y
        · exact absurd ⟨y, hy, hu⟩ hx
        · rfl
      obtain ⟨y, hy, hu⟩ := h
      have : y = x := by
        rcases List.mem_cons.mp hy with rfl | hy
        · rfl
        · rw [hall y hy] at hu; cases hu
      subst this
      refine ⟨y, by simp [pick, hu, pick_none hall], by simp, hu, ?_⟩
      intro z hz hz'
      rcases List.mem_cons.mp hz with rfl | hz
      · exact Nat.le_refl _
      · rw [hall z hz] at hz'; cases hz'

theorem exec_signal_wake {alive : Nat → Bool} {t c w : Nat} {M : Mem} (ho : open_ alive M.cL)
    (hc : c ∈ M.clist) (hp : pick M.wup (M.ws c) none = some w) :
    exec alive t M (.acqC (.sFind c false)) (List.replicate ((M.ws c).length + 5) .go) =
      some ({ M with cL := 0, wup := upd M.wup w true }, .done 0) := by
  have h1 : exec alive t M (.acqC (.sFind c false)) (List.replicate 2 .go) =
      some ({ M with cL := t }, .sWalk (M.ws c) none) := by
    rcases ho with ho | ho <;> simp [exec, plan, ho, hc, List.replicate]
  rw [show (M.ws c).length + 5 = 2 + ((M.ws c).length + 3) by omega,
    ← List.replicate_append_replicate, exec_append h1, ← List.replicate_append_replicate,
    exec_append (exec_walk (M := { M with cL := t }) (M.ws c) none)]
  show exec alive t { M with cL := t } (.sWalk [] (pick M.wup (M.ws c) none)) _ = _
  rw [hp]
  simp [exec, plan, List.replicate]

theorem exec_signal_none {alive : Nat → Bool} {t c : Nat} {M : Mem} (ho : open_ alive M.cL)
    (hc : c ∈ M.clist) (hp : pick M.wup (M.ws c) none = none) :
    exec alive t M (.acqC (.sFind c false)) (List.replicate ((M.ws c).length + 4) .go) =
      some ({ M with cL := 0 }, .done 0) := by
  have h1 : exec alive t M (.acqC (.sFind c false)) (List.replicate 2 .go) =
      some ({ M with cL := t }, .sWalk (M.ws c) none) := by
    rcases ho with ho | ho <;> simp [exec, plan, ho, hc, List.replicate]
  rw [show (M.ws c).length + 4 = 2 + ((M.ws c).length + 2) by omega,
    ← List.replicate_append_replicate, exec_append h1, ← List.replicate_append_replicate,
    exec_append (exec_walk (M := { M with cL := t }) (M.ws c) none)]
  show exec alive t { M with cL := t } (.sWalk [] (pick M.wup (M.ws c) none)) _ = _
  rw [hp]
  simp [exec, plan, List.replicate]

theorem exec_signal_unknown {alive : Nat → Bool} {t c : Nat} {b : Bool} {M : Mem}
    (ho : open_ alive M.cL) (hc : c ∉ M.clist) :
    exec alive t M (.acqC (.sFind c b)) (List.replicate 3 .go) =
      some ({ M with cL := 0 }, .done EINVAL) := by
  rcases ho with ho | ho <;> simp [exec, plan, ho, hc, List.replicate]

/-- Number of steps of the loop of a broadcast. -/
def bSteps (up : Nat → Bool) : List Nat → Nat
  | [] => 0
  | x :: xs => (if up x then 1 else 2) + bSteps up xs

theorem bSteps_congr {up up' : Nat → Bool} {xs : List Nat} (h : ∀ x ∈ xs, up x = up' x) :
    bSteps up xs = bSteps up' xs := by
  induction xs with
  | nil => rfl
  | cons x xs ih => simp [bSteps, h x (by simp), ih (fun y hy => h y (by simp [hy]))]

theorem exec_bwalk {alive : Nat → Bool} {t : Nat} (xs : List Nat) (M : Mem) (hn : xs.Nodup) :
    exec alive t M (.bWalk xs) (List.replicate (bSteps M.wup xs) .go) =
      some ({ M with wup := fun w => decide (w ∈ xs) || M.wup w }, .bWalk []) := by
  induction xs generalizing M with
  | nil => simp [exec, bSteps]
  | cons x xs ih =>
    obtain ⟨hx, hn⟩ := List.nodup_cons.mp hn
    cases hu : M.wup x
    · have h1 : exec alive t M (.bWalk (x :: xs)) (List.replicate 2 .go) =
          some ({ M with wup := upd M.wup x true }, .bWalk xs) := by
        simp [exec, plan, hu, List.replicate]
      have hb : bSteps M.wup (x :: xs) = 2 + bSteps (upd M.wup x true) xs := by
        simp only [bSteps, hu, Bool.false_eq_true, if_false]
        congr 1
        refine bSteps_congr fun y hy => ?_
        have : y ≠ x := by rintro rfl; exact hx hy
        simp [this]
      rw [hb, ← List.replicate_append_replicate, exec_append h1]
      rw [ih { M with wup := upd M.wup x true } hn]
      congr 3
      funext w
      simp only [upd, List.mem_cons]
      by_cases hw : w = x <;> simp [hw]
    · have h1 : exec alive t M (.bWalk (x :: xs)) (List.replicate 1 .go) =
          some (M, .bWalk xs) := by
        simp [exec, plan, hu, List.replicate]
      have hb : bSteps M.wup (x :: xs) = 1 + bSteps M.wup xs := by
        simp [bSteps, hu]
      rw [hb, ← List.replicate_append_replicate, exec_append h1]
      rw [ih M hn]
      congr 3
      funext w
      by_cases hw : w = x
      · subst hw; simp [hu]
      · simp [hw]

theorem exec_broadcast {alive : Nat → Bool} {t c : Nat} {M : Mem} (ho : open_ alive M.cL)
    (hc : c ∈ M.clist) (hn : (M.ws c).Nodup) :
    exec alive t M (.acqC (.sFind c true)) (List.replicate (bSteps M.wup (M.ws c) + 4) .go) =
      some ({ M with cL := 0, wup := fun w => decide (w ∈ M.ws c) || M.wup w }, .done 0) := by
  have h1 : exec alive t M (.acqC (.sFind c true)) (List.replicate 2 .go) =
      some ({ M with cL := t }, .bWalk (M.ws c)) := by
    rcases ho with ho | ho <;> simp [exec, plan, ho, hc, List.replicate]
  rw [show bSteps M.wup (M.ws c) + 4 = 2 + (bSteps M.wup (M.ws c) + 2) by omega,
    ← List.replicate_append_replicate, exec_append h1, ← List.replicate_append_replicate,
    exec_append (exec_bwalk (M.ws c) { M with cL := t } hn)]
  simp [exec, plan, List.replicate]

/-! ### The check of dead waiters, alone -/

/-- The choices that treat the pairs of condition and record one after the other. -/
def cutChoices (ps : List (Nat × Nat)) : List Choice := ps.flatMap fun x => [.wk x.1 x.2, .go]

theorem exec_cuts {alive : Nat → Bool} {t : Nat} (ps : List (Nat × Nat)) (M : Mem)
    (hn : ∀ c ∈ M.clist, (M.ws c).Nodup) (hp : ps.Nodup)
    (h : ∀ x ∈ ps, x.1 ∈ M.clist ∧ x.2 ∈ M.ws x.1 ∧ alive (M.wtid x.2) = false) :
    ∃ W, exec alive t M .swC (cutChoices ps) =
        some ({ M with ws := W, wfree := (ps.map (·.2)).reverse ++ M.wfree }, .swC) ∧
      ∀ c ∈ M.clist, W c = (M.ws c).filter fun w => decide ((c, w) ∉ ps) := by
  induction ps generalizing M with
  | nil => exact ⟨M.ws, by simp [exec, cutChoices], by intro c _; exact (List.filter_eq_self.mpr (by simp)).symm⟩
  | cons x ps ih =>
    obtain ⟨c, w⟩ := x
    obtain ⟨h1, h2, h3⟩ := h (c, w) (by simp)
    obtain ⟨hx, hp⟩ := List.nodup_cons.mp hp
    have hq := fun d x => mem_cut (ws := M.ws) (w := w) (hn c h1) d x
    obtain ⟨W, a1, a2⟩ := ih
      { M with ws := upd M.ws c ((M.ws c).erase w), wfree := w :: M.wfree }
      (fun d hd => (sub_cut d).nodup (hn d hd)) hp (by
        rintro ⟨d, y⟩ hy
        obtain ⟨b1, b2, b3⟩ := h (d, y) (by simp [hy])
        refine ⟨b1, (hq d y).mpr ⟨b2, ?_⟩, b3⟩
        rintro ⟨rfl, rfl⟩
        exact hx hy)
    refine ⟨W, ?_, ?_⟩
    · simp only [cutChoices, List.flatMap_cons, List.cons_append, List.nil_append, exec, plan, h1, h2,
        h3, and_self, if_true, Option.bind_some]
      rw [cutChoices] at a1
      rw [a1]
      simp
    · intro d hd
      rw [a2 d hd]
      show (upd M.ws c ((M.ws c).erase w) d).filter _ = _
      by_cases hdc : d = c
      · subst hdc
        rw [upd_same, (hn d hd).erase_eq_filter, List.filter_filter]
        congr 1
        funext y
        by_cases hy : y = w <;> simp [hy]
      · rw [upd_ne _ _ hdc]
        congr 1
        funext y
        simp [hdc]

/-- All listed records of dead threads. -/
def deadRecs (alive : Nat → Bool) (M : Mem) : List (Nat × Nat) :=
  M.clist.flatMap fun c => ((M.ws c).filter fun w => !alive (M.wtid w)).map fun w => (c, w)

theorem mem_deadRecs {alive : Nat → Bool} {M : Mem} {c w : Nat} :
    (c, w) ∈ deadRecs alive M ↔ c ∈ M.clist ∧ w ∈ M.ws c ∧ alive (M.wtid w) = false := by
  simp [deadRecs]

theorem nodup_deadRecs {alive : Nat → Bool} {M : Mem} (hc : M.clist.Nodup)
    (hn : ∀ c ∈ M.clist, (M.ws c).Nodup) : (deadRecs alive M).Nodup := by
  unfold deadRecs
  generalize M.clist = l at *
  induction l with
  | nil => simp
  | cons c l ih =>
    obtain ⟨h1, h2⟩ := List.nodup_cons.mp hc
    rw [List.flatMap_cons, List.nodup_append]
    refine ⟨?_, ih h2 (fun d hd => hn d (by simp [hd])), ?_⟩
    · refine List.Pairwise.map _ (fun a b hab => by simpa using hab) ((hn c (by simp)).filter _)
    · intro x hx y hy hxy
      subst hxy
      simp only [List.mem_map] at hx
      obtain ⟨w, -, rfl⟩ := hx
      simp only [List.mem_flatMap, List.mem_map, Prod.mk.injEq] at hy
      obtain ⟨d, hd, w', -, rfl, -⟩ := hy
      exact h1 hd

theorem exec_sweepC {alive : Nat → Bool} {t : Nat} {M : Mem} (ho : open_ alive M.cL)
    (hc : M.clist.Nodup) (hn : ∀ c ∈ M.clist, (M.ws c).Nodup) :
    ∃ W, exec alive t M (.acqC .swC) (.go :: (cutChoices (deadRecs alive M) ++ [.go, .go])) =
        some ({ M with cL := 0, ws := W, wfree := ((deadRecs alive M).map (·.2)).reverse ++ M.wfree },
          .done 0) ∧
      ∀ c ∈ M.clist, W c = (M.ws c).filter fun w => alive (M.wtid w) := by
  have h1 : exec alive t M (.acqC .swC) [.go] = some ({ M with cL := t }, .swC) := by
    rcases ho with ho | ho <;> simp [exec, plan, ho]
  obtain ⟨W, h2, h3⟩ := exec_cuts (alive := alive) (t := t) (deadRecs alive M) { M with cL := t } hn
    (nodup_deadRecs hc hn) (by rintro ⟨c, w⟩ h; exact mem_deadRecs.mp h)
  refine ⟨W, ?_, ?_⟩
  · rw [show (.go :: (cutChoices (deadRecs alive M) ++ [.go, .go]) : List Choice) =
      [.go] ++ (cutChoices (deadRecs alive M) ++ [.go, .go]) from rfl, exec_append h1, exec_append h2]
    simp [exec, plan]
  · intro c hc
    rw [h3 c hc]
    refine List.filter_congr ?_
    intro w hw
    simp [mem_deadRecs, hc, hw]

end Fullock.MC

namespace Fullock.MC

/-! ### From the call of a wait to its end -/

/-- In a wait, not yet past the waiting loop. -/
def early (p : Pc) : Prop := (∃ m, pre p = some m) ∨ ∃ c w m kd, p = .wSpin c w m kd

theorem fin_ne_wSpin {k : LK} {r c w m : Nat} {kd : Kind} : fin k r ≠ .wSpin c w m kd := by
  cases k <;> simp [fin]

theorem ufin_wSpin {k : UK} {r c w m : Nat} {kd : Kind} (h : ufin k r = .wSpin c w m kd) :
    k = .wt c w m kd := by
  cases k
  · cases h
  · simp only [ufin] at h
    split at h
    · cases h; rfl
    · cases h

theorem early_stp {M M' : Mem} {alive : Nat → Bool} {t : Nat} {p p' : Pc}
    (h : Stp M alive t p M' p') (w : wf p = true) (he : early p') : early p := by
  rcases he with ⟨m, hm⟩ | ⟨c, x, m, kd, he⟩
  · exact .inl ⟨m, (pre_stp h hm).1⟩
  · cases h <;> (try (cases he; done))
    case acqM => subst he; simp [wf] at w
    case relM => subst he; simp [wf] at w
    case acqC => subst he; simp [wf] at w
    case relC => subst he; simp [wf] at w
    case lkChk => exact absurd he fin_ne_wSpin
    case lkInc => exact absurd he fin_ne_wSpin
    case lkSub h => cases h <;> first | exact absurd he fin_ne_wSpin | cases he
    case lkCasNo h => cases h <;> first | exact absurd he fin_ne_wSpin | cases he
    case ulFree => rw [ufin_wSpin he]; exact .inl ⟨_, rfl⟩
    case ulPerm => rw [ufin_wSpin he]; exact .inl ⟨_, rfl⟩
    case ulCas => rw [ufin_wSpin he]; exact .inl ⟨_, rfl⟩
    case ulCasFree => rw [ufin_wSpin he]; exact .inl ⟨_, rfl⟩
    case wSpin => exact .inr ⟨_, _, _, _, rfl⟩

theorem early_back {s s' : State} {t : Nat} {es : List Ev} (b : Base s) (nc : noCall t es)
    (h : run s es = some s') (he : early (s'.pc t)) : early (s.pc t) := by
  induction es generalizing s with
  | nil => cases h; exact he
  | cons e es ih =>
    simp only [run, Option.bind_eq_some_iff] at h
    obtain ⟨s1, h1, h⟩ := h
    have h2 := ih (base_step b h1) (fun e he => nc e (by simp [he])) h
    rcases step_cases h1 with ⟨u, c', r, rfl, -, -, hr, rfl⟩ | ⟨u, c', M', p', rfl, ua, hp, rfl⟩ |
      ⟨u, rfl, -, rfl⟩
    · have : t ≠ u := by rintro rfl; exact nc _ (by simp) c' rfl
      simpa [this] using h2
    · by_cases hut : t = u
      · subst hut
        simp only [upd_same] at h2
        exact early_stp (stp_of_plan hp) (b.shape t) h2
      · simpa [hut] using h2
    · exact h2

theorem early_lst {M M' : Mem} {alive : Nat → Bool} {t : Nat} {p p' : Pc} {x : Nat × Nat}
    (h : Stp M alive t p M' p') (he : early p') (hl : lst p = some x) : lst p' = some x := by
  cases h <;> (try exact hl) <;> (try (simp only [lst, reduceCtorEq] at hl; done))
  case lkChk => rw [lst_fin]; exact hl
  case lkInc => rw [lst_fin]; exact hl
  case lkSub h => rw [(lst_failed h).1]; exact hl
  case lkCasNo h => rw [(lst_failed h).1]; exact hl
  case ulFree => rw [lst_ufin]; exact hl
  case ulPerm => rw [lst_ufin]; exact hl
  case ulCas => rw [lst_ufin]; exact hl
  case ulCasFree => rw [lst_ufin]; exact hl
  case wCut => simp [early, pre] at he
  case wCutNo => simp [early, pre] at he
  case swEnd k =>
    show lst (swBack k) = _
    rw [lst_swBack]; exact hl

theorem early_wup {M M' : Mem} {alive : Nat → Bool} {t : Nat} {p p' : Pc} {w : Nat}
    (h : Stp M alive t p M' p') (he : early p) (hw : M.wup w = false) : M'.wup w = false := by
  rcases wup_stp h w with h | ⟨h, -⟩ | ⟨-, h | ⟨xs, h⟩ | ⟨c, m, r, h⟩⟩
  · exact h.trans hw
  · exact h
  · subst h; simp [early, pre] at he
  · subst h; simp [early, pre] at he
  · subst h; simp [early, pre] at he

/-- A thread in a wait whose record is listed and not woken, found woken later in the same wait, has
been woken by a signal or broadcast in between. -/
theorem woken_in_wait {s s' : State} (i : Recs s) {t c w : Nat} {es : List Ev}
    (hl : lst (s.pc t) = some (c, w)) (h0 : s.mem.wup w = false) (nc : noCall t es)
    (h : run s es = some s') (ta : s'.alive t = true) (he : early (s'.pc t))
    (h1 : s'.mem.wup w = true) :
    ∃ es1 u ch es2 s1, es = es1 ++ .go u ch :: es2 ∧ run s es1 = some s1 ∧ u ≠ t ∧
      (s1.pc u = .sSet w ∨ ∃ xs, s1.pc u = .bSet w xs) := by
  induction es generalizing s with
  | nil => cases h; rw [h0] at h1; cases h1
  | cons e es ih =>
    have hall := h
    simp only [run, Option.bind_eq_some_iff] at h
    obtain ⟨s1, hs1, h⟩ := h
    have nc' : noCall t es := fun e he => nc e (by simp [he])
    have i1 := recs_step i hs1
    have e1 : early (s1.pc t) := early_back i1.names.base nc' h he
    have e0 : early (s.pc t) := early_back i.names.base nc hall he
    have ta0 : s.alive t = true := run_alive hall ta
    have rest : lst (s1.pc t) = some (c, w) → s1.mem.wup w = false →
        ∃ es1 u ch es2 s1, e :: es = es1 ++ .go u ch :: es2 ∧
        run s es1 = some s1 ∧ u ≠ t ∧ (s1.pc u = .sSet w ∨ ∃ xs, s1.pc u = .bSet w xs) := by
      intro hl hw
      obtain ⟨es1, u, ch, es2, s2, rfl, b2, b3⟩ := ih i1 hl hw nc' h
      exact ⟨e :: es1, u, ch, es2, s2, rfl, by simp [run, hs1, b2], b3⟩
    rcases step_cases hs1 with ⟨v, c', r, rfl, -, -, -, rfl⟩ | ⟨v, c', M', p', rfl, va, hp, rfl⟩ |
      ⟨v, rfl, -, rfl⟩
    · have : t ≠ v := by rintro rfl; exact nc _ (by simp) c' rfl
      exact rest (by simpa [this] using hl) h0
    · by_cases hvt : v = t
      · subst hvt
        simp only [upd_same] at e1
        exact rest (by simp only [upd_same]; exact early_lst (stp_of_plan hp) e1 hl)
          (early_wup (stp_of_plan hp) e0 h0)
      · rcases wup_other i ta0 va hvt hl (stp_of_plan hp) with hh | hh
        · exact rest (by simpa [Ne.symm hvt] using hl) (hh.trans h0)
        · exact ⟨[], v, c', es, s, rfl, rfl, hvt, hh.2⟩
    · exact rest hl h0

end Fullock.MC

namespace Fullock.MC

/-! ### From the wakeup to the end of the wait -/

theorem lst_new {M M' : Mem} {alive : Nat → Bool} {t : Nat} {p p' : Pc} {x : Nat × Nat}
    (h : Stp M alive t p M' p') (hn : pre p = none) (hl : lst p' = some x) : lst p = some x := by
  cases h <;> (try exact hl) <;> (try (simp only [lst, reduceCtorEq] at hl; done))
  case lkChk => rw [lst_fin] at hl; exact hl
  case lkInc => rw [lst_fin] at hl; exact hl
  case lkSub h => rw [(lst_failed h).1] at hl; exact hl
  case lkCasNo h => rw [(lst_failed h).1] at hl; exact hl
  case ulFree => rw [lst_ufin] at hl; exact hl
  case ulPerm => rw [lst_ufin] at hl; exact hl
  case ulCas => rw [lst_ufin] at hl; exact hl
  case ulCasFree => rw [lst_ufin] at hl; exact hl
  case wIns => simp [pre] at hn
  case swEnd k =>
    simp only [lst] at hl
    rw [lst_swBack] at hl; exact hl

/-- A woken thread that has released its mutex stays woken until its record is unlisted. -/
theorem woken_until_end {s s' : State} (i : Recs s) {t c w : Nat} {es : List Ev}
    (hl : lst (s.pc t) = some (c, w) ∨ lst (s.pc t) = none) (hn : pre (s.pc t) = none)
    (hw : lst (s.pc t) = some (c, w) → s.mem.wup w = true) (nc : noCall t es)
    (h : run s es = some s') (ta : s'.alive t = true) :
    (lst (s'.pc t) = some (c, w) ∨ lst (s'.pc t) = none) ∧
      (lst (s'.pc t) = some (c, w) → s'.mem.wup w = true) := by
  induction es generalizing s with
  | nil => cases h; exact ⟨hl, hw⟩
  | cons e es ih =>
    have hall := h
    simp only [run, Option.bind_eq_some_iff] at h
    obtain ⟨s1, hs1, h⟩ := h
    have nc' : noCall t es := fun e he => nc e (by simp [he])
    have i1 := recs_step i hs1
    have ta0 : s.alive t = true := run_alive hall ta
    have key : (lst (s1.pc t) = some (c, w) ∨ lst (s1.pc t) = none) ∧ pre (s1.pc t) = none ∧
        (lst (s1.pc t) = some (c, w) → s1.mem.wup w = true) := by
      rcases step_cases hs1 with ⟨v, c', r, rfl, -, -, -, rfl⟩ | ⟨v, c', M', p', rfl, va, hp, rfl⟩ |
        ⟨v, rfl, -, rfl⟩
      · have : t ≠ v := by rintro rfl; exact nc _ (by simp) c' rfl
        simpa [this] using ⟨hl, hn, hw⟩
      · by_cases hvt : v = t
        · subst hvt
          have hst := stp_of_plan hp
          simp only [upd_same]
          refine ⟨?_, ?_, ?_⟩
          · cases hx : lst p' with
            | none => exact .inr rfl
            | some x =>
              have := lst_new hst hn hx
              rw [this] at hl
              exact .inl (by simpa using hl)
          · cases hx : pre p' with
            | none => rfl
            | some x => rw [(pre_stp hst hx).1] at hn; cases hn
          · intro hx
            have := hw (lst_new hst hn hx)
            rcases wup_stp hst w with h | ⟨-, ⟨c, m, kd, h⟩ | ⟨c, m, kd, h⟩⟩ | ⟨h, -⟩
            · exact h.trans this
            · rw [h] at hn; simp [pre] at hn
            · rw [h] at hn; simp [pre] at hn
            · exact h
        · have hn' : upd s.pc v p' t = s.pc t := by simp [Ne.symm hvt]
          simp only [hn']
          refine ⟨hl, hn, fun hx => ?_⟩
          rcases wup_other i ta0 va hvt hx (stp_of_plan hp) with hh | hh
          · exact hh.trans (hw hx)
          · exact hh.1
      · exact ⟨hl, hn, hw⟩
    exact ih i1 key.1 key.2.1 key.2.2 nc' h

/-- The places of a signal before its effect. -/
def sigPre : Pc → Bool
  | .acqC _ | .sFind _ _ | .sWalk _ _ | .sSet _ => true
  | _ => false

theorem sigPre_own {M M' : Mem} {alive : Nat → Bool} {u c w : Nat} {p p' : Pc}
    (h : Stp M alive u p M' p') (hc : c ∈ M.clist) (hj : sigJ M c w p) (hp : sigPre p = true) :
    sigPre p' = true ∨ p = .sWalk [] none ∨ ∃ w', p = .sSet w' := by
  cases h <;> (try (simp only [sigJ] at hj; done)) <;> (try (simp only [sigPre, reduceCtorEq, Bool.false_eq_true] at hp; done))
  case acqC => simp only [sigJ] at hj; subst hj; exact .inl rfl
  case sMiss h => simp only [sigJ] at hj; exact absurd (hj.1 ▸ hc) h
  case sNone => exact .inr (.inl rfl)
  case sSet => exact .inr (.inr ⟨_, rfl⟩)
  case bHit => exact absurd hj.2 (by simp)
  all_goals exact .inl rfl

/-- A completed signal has woken the waiter `t`, or set a record that was listed before that of `t`. -/
theorem signal_done {s s' : State} (i : Recs s) {t u c w r : Nat} {es : List Ev} (u0 : u ≠ 0)
    (ta : s.alive t = true) (hl : lst (s.pc t) = some (c, w)) (hs : still t es) (nc : noCall u es)
    (h : run s es = some s') (hut : u ≠ t) (ua : s'.alive u = true)
    (hj : sigJ s.mem c w (s.pc u)) (hp : sigPre (s.pc u) = true) (hd : s'.pc u = .done r) :
    r = 0 ∧ (s'.mem.wup w = true ∨ ∃ es1 es2 s1 w', es = es1 ++ es2 ∧ run s es1 = some s1 ∧
      s1.pc u = .sSet w' ∧ s1.mem.warr w' ≤ s1.mem.warr w) := by
  have hr : r = 0 := by
    have := (signal_run i u0 ta hl hs nc h hut).1 (fun _ => hj) ua
    rw [hd] at this
    exact this
  refine ⟨hr, ?_⟩
  clear hr
  induction es generalizing s with
  | nil => cases h; rw [hd] at hp; simp [sigPre] at hp
  | cons e es ih =>
    have hall := h
    simp only [run, Option.bind_eq_some_iff] at h
    obtain ⟨s1, hs1, h⟩ := h
    have nc' : noCall u es := fun e he => nc e (by simp [he])
    have hs' : still t es := fun e he => hs e (by simp [he])
    have i1 := recs_step i hs1
    have ua0 : s.alive u = true := run_alive hall ua
    have hr1 : run s [e] = some s1 := by simp [run, hs1]
    obtain ⟨q1, q2, -⟩ := still_step hs1 (hs e (by simp))
    have j1 := (signal_run (es := [e]) i u0 ta hl (fun x hx => hs x (by simp_all)) (fun x hx => nc x (by simp_all)) hr1 hut).1
      (fun _ => hj) (run_alive h ua)
    have goOn : sigPre (s1.pc u) = true → s'.mem.wup w = true ∨ ∃ es1 es2 s1 w', e :: es = es1 ++ es2 ∧
        run s es1 = some s1 ∧ s1.pc u = .sSet w' ∧ s1.mem.warr w' ≤ s1.mem.warr w := by
      intro hp1
      rcases ih i1 (by rw [q2]; exact ta) (by rw [q1]; exact hl) hs' nc' h j1 hp1 with a | ⟨es1, es2, s2, w', rfl, b2, b3⟩
      · exact .inl a
      · exact .inr ⟨e :: es1, es2, s2, w', rfl, by simp [run, hs1, b2], b3⟩
    rcases step_cases hs1 with ⟨v, c', x, rfl, -, -, -, rfl⟩ | ⟨v, c', M', p', rfl, va, hpl, rfl⟩ |
      ⟨v, rfl, -, rfl⟩
    · have : u ≠ v := by rintro rfl; exact nc _ (by simp) c' rfl
      exact goOn (by simpa [this] using hp)
    · by_cases hvu : u = v
      · subst hvu
        have hc := (i.recs.listed t ta c w hl).1
        rcases sigPre_own (stp_of_plan hpl) hc hj hp with a | a | ⟨w', a⟩
        · exact goOn (by simpa using a)
        · rw [a] at hj
          simp only [sigJ] at hj
          have hw : s.mem.wup w = true := by
            rcases hj.2 with h | h | ⟨_, h, -⟩
            · exact h
            · cases h
            · cases h
          exact .inl (woken_stays i ta hl hw hs hall).2.2.2
        · rw [a] at hj
          rcases hj with h | h
          · exact .inl (woken_stays i ta hl h hs hall).2.2.2
          · exact .inr ⟨[], _, s, w', rfl, rfl, a, h⟩
      · exact goOn (by simpa [hvu] using hp)
    · exact goOn hp

end Fullock.MC
