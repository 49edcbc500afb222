import Verif.Proofs.FineRun
/-!
C75: the guarantees hold between any two accesses to the shared lock words.
-/
namespace Fullock.Props
open Fullock Fullock.Spec Fullock.Layout
open Fullock.MCMem (Owns)
open Fullock.Fine (Tbl Loose gate tword inside mover busy wants attempts)
open _root_.Fullock.FL (mkOp kX rA RX junk0)

/-! ### Refinement -/

/-- C75: whatever is reached by single accesses is reached by the steps of the segment. -/
theorem C75_refines (cnt : Pool → Nat) (hl : Limits cnt) (fuel : Nat) (hf : MCMem.Fuel cnt fuel) (base : Nat → Nat)
    (A : Seg.State → Seg.Ev → Prop) (hA : Loose A) (s : Fine.State) (hr : Fine.Reach cnt fuel base A s) :
    Seg.Reach cnt fuel base A s.seg :=
  (Fine.fine_reach hl hf hA hr).1

/-- C01 between any two accesses: no two conflicting file locks are in force (partial as
`C72_file_exclusion_partial`). -/
theorem C75_file_exclusion_partial (cnt : Pool → Nat) (hl : Limits cnt) (fuel : Nat) (hf : MCMem.Fuel cnt fuel)
    (hff : FLMem.Fuel cnt fuel) (base : Nat → Nat) (R : DevIno → Rng → Prop) (hR : Separate R) (s : Fine.State)
    (hr : Fine.Reach cnt fuel base (fun x e => Seg.whole cnt fuel x e ∧ Seg.okDeath x e ∧ Seg.lockIn R e) s) :
    ∀ p ∈ s.seg.fl.pay.outs, ∀ q ∈ s.seg.fl.pay.outs, p.1 ≠ q.1 → ¬ Conflict p.2 q.2 :=
  C72_file_exclusion_partial cnt hl fuel hf hff base R hR s.seg
    (C75_refines cnt hl fuel hf base _ ⟨fun _ _ _ _ => ⟨trivial, trivial, trivial⟩, fun _ _ _ => ⟨trivial, trivial, trivial⟩⟩ s hr)

/-- C18 between any two accesses: two threads never own a mutex of the same name (partial as
`C72_mutex_exclusion_partial`). -/
theorem C75_mutex_exclusion_partial (cnt : Pool → Nat) (hl : Limits cnt) (fuel : Nat) (hf : MCMem.Fuel cnt fuel)
    (base : Nat → Nat) (s : Fine.State) (hr : Fine.Reach cnt fuel base Seg.okDie s) (b b' n t u : Nat)
    (ht : Owns cnt fuel b s.seg.mc n t) (hu : Owns cnt fuel b' s.seg.mc n u) : t = u :=
  C72_mutex_exclusion_partial cnt hl fuel hf base s.seg
    (C75_refines cnt hl fuel hf base _ ⟨fun _ _ _ _ => trivial, fun _ _ _ => trivial⟩ s hr) b b' n t u ht hu

/-- As before when conditions are not used: whoever dies wherever. -/
theorem C75_mutex_exclusion_no_wait (cnt : Pool → Nat) (hl : Limits cnt) (fuel : Nat) (hf : MCMem.Fuel cnt fuel)
    (base : Nat → Nat) (s : Fine.State) (hr : Fine.Reach cnt fuel base Seg.noWait s) (b b' n t u : Nat)
    (ht : Owns cnt fuel b s.seg.mc n t) (hu : Owns cnt fuel b' s.seg.mc n u) : t = u :=
  C72_mutex_exclusion_no_wait cnt hl fuel hf base s.seg
    (C75_refines cnt hl fuel hf base _ ⟨fun _ _ _ _ => trivial, fun _ _ _ => trivial⟩ s hr) b b' n t u ht hu

/-! ### Table locks -/

theorem any_loose : Loose fun _ _ => True := ⟨fun _ _ _ _ => trivial, fun _ _ _ => trivial⟩

theorem fine_any {cnt : Pool → Nat} (hl : Limits cnt) {fuel : Nat} (hf : MCMem.Fuel cnt fuel) {base : Nat → Nat}
    {s : Fine.State} (hr : Fine.Reach cnt fuel base (fun _ _ => True) s) :
    Seg.Reach cnt fuel base (fun _ _ => True) s.seg ∧ Fine.G s.seg ∧ Fine.L s := Fine.fine_reach hl hf any_loose hr

/-- C75: the word of a table lock names a live thread exactly while that thread is in the protected section. -/
theorem C75_table (cnt : Pool → Nat) (hl : Limits cnt) (fuel : Nat) (hf : MCMem.Fuel cnt fuel) (base : Nat → Nat)
    (s : Fine.State) (hr : Fine.Reach cnt fuel base (fun _ _ => True) s) (k : Tbl) (t : Nat) (t0 : t ≠ 0)
    (ta : s.seg.fl.alive t = true) : tword s.seg k = t ↔ inside s.seg t k = true :=
  Fine.locks_reach hl hf (fine_any hl hf hr).1 k t t0 ta

/-- C75: two live threads are never in the same protected section. -/
theorem C75_table_mutual (cnt : Pool → Nat) (hl : Limits cnt) (fuel : Nat) (hf : MCMem.Fuel cnt fuel) (base : Nat → Nat)
    (s : Fine.State) (hr : Fine.Reach cnt fuel base (fun _ _ => True) s) (k : Tbl) (t u : Nat) (t0 : t ≠ 0) (u0 : u ≠ 0)
    (ta : s.seg.fl.alive t = true) (ua : s.seg.fl.alive u = true) (ht : inside s.seg t k = true)
    (hu : inside s.seg u k = true) : t = u :=
  ((C75_table cnt hl fuel hf base s hr k t t0 ta).2 ht).symm.trans ((C75_table cnt hl fuel hf base s hr k u u0 ua).2 hu)

/-- C75: while its holder lives and does nothing, a table lock stays with it, whatever the others do. -/
theorem C75_table_held (cnt : Pool → Nat) (hl : Limits cnt) (fuel : Nat) (hf : MCMem.Fuel cnt fuel) (base : Nat → Nat)
    (s s' : Fine.State) (hr : Fine.Reach cnt fuel base (fun _ _ => True) s) (e : Fine.Ev)
    (hs : Fine.step cnt fuel base s e = some s') (k : Tbl) (v : Nat) (v0 : v ≠ 0) (hv : tword s.seg k = v)
    (va : s'.seg.fl.alive v = true) (he : Fine.actor e ≠ v) : tword s'.seg k = v := by
  obtain ⟨-, g, hL⟩ := fine_any hl hf hr
  have hr' : Fine.Reach cnt fuel base (fun _ _ => True) s' := .step hr (fun _ _ => trivial) hs
  have va0 : s.seg.fl.alive v = true := by
    cases h : s.seg.fl.alive v with
    | true => rfl
    | false => rw [Fine.fine_dead g hL hs h] at va; cases va
  have h1 := (C75_table cnt hl fuel hf base s hr k v v0 va0).1 hv
  obtain ⟨h2, h3, -⟩ := Fine.fine_other g hL hs (Ne.symm he)
  refine (C75_table cnt hl fuel hf base s' hr' k v v0 va).2 ?_
  cases k <;> simp only [inside, h2, h3] at h1 ⊢ <;> exact h1

theorem tword_pass (x : Seg.State) (t v : Nat) (k : Tbl) : tword (Fine.pass (Fine.setTword x v k) t) k = v := by
  cases k <;> simp only [Fine.pass, Fine.setTword, tword] <;> (repeat' split) <;> rfl

theorem alive_pass (x : Seg.State) (t v : Nat) (k : Tbl) :
    (Fine.pass (Fine.setTword x v k) t).fl.alive = x.fl.alive := by
  cases k <;> simp only [Fine.pass, Fine.setTword] <;> (repeat' split) <;> rfl

/-- C75: a thread alone at a table lock that is free, or whose holder is dead, gets in within 1006 accesses,
with the effect of one step of the segment. -/
theorem C75_enter (cnt : Pool → Nat) (hl : Limits cnt) (fuel : Nat) (hf : MCMem.Fuel cnt fuel) (base : Nat → Nat)
    (s : Fine.State) (hr : Fine.Reach cnt fuel base (fun _ _ => True) s) (k : Tbl) (t : Nat)
    (ta : s.seg.fl.alive t = true) (hg : gate s.seg t = some (k, true))
    (hk : tword s.seg k = 0 ∨ s.seg.fl.alive (tword s.seg k) = false) :
    ∃ n ≤ 1006, ∃ s', Fine.run cnt fuel base s (List.replicate n (.lk t)) = some s' ∧ tword s'.seg k = t ∧
      inside s'.seg t k = true ∧ s'.loc t = .none ∧
      ∃ e, (e = .fl (.go t (base t) .go) ∨ e = .mc (.go t .go)) ∧ Seg.step cnt fuel base s.seg e = some s'.seg := by
  obtain ⟨hrs, g, hL⟩ := fine_any hl hf hr
  have htw := g.up t k ta hg
  have t0 := g.zero t _ ta hg
  have key : ∃ n ≤ 1006, (LockId.alone ⟨tword s.seg k, s.seg.fl.alive, fun _ => Fine.inLoop (s.loc t) true⟩ t n).pc t = .crit := by
    have hac : ∀ y : LockId.State, y.lockid = tword s.seg k → y.alive = s.seg.fl.alive → (∃ c o, y.pc t = .acq c o) →
        ∃ n ≤ 1004, (LockId.alone y t n).pc t = .crit := by
      rintro y e1 e2 ⟨c, o, e3⟩
      by_cases hz : tword s.seg k = 0
      · exact ⟨1, by omega, (C35_free y t c o (e1.trans hz) e3).1⟩
      · obtain ⟨n, hn, h, -⟩ := C35_recovered y t (tword s.seg k) c o hz htw e1
          (by rw [e2]; exact hk.resolve_left hz) e3
        exact ⟨n, hn, h⟩
    have hst : ∀ y : LockId.State, y.lockid = tword s.seg k → y.alive = s.seg.fl.alive →
        (∃ c v, y.pc t = .steal c v) → ∃ n ≤ 1005, (LockId.alone y t n).pc t = .crit := by
      rintro y e1 e2 ⟨c, v, e3⟩
      by_cases hv : y.lockid = v
      · exact ⟨1, by omega, by simp [LockId.alone, LockId.own, e3, hv, LockId.State.setPc]⟩
      · have : LockId.own y t = y.setPc t (.acq (c + 1) y.lockid) := by simp [LockId.own, e3, hv]
        obtain ⟨n, hn, h⟩ := hac (y.setPc t (.acq (c + 1) y.lockid)) e1 e2 ⟨_, _, by simp [LockId.State.setPc]; exact ⟨rfl, rfl⟩⟩
        exact ⟨n + 1, by omega, by rw [LockId.alone, this]; exact h⟩
    rcases Fine.loop_shape hL ta hg with ⟨-, ⟨c, o, e⟩ | ⟨c, v, e⟩ | ⟨c, v, e, -⟩⟩ | ⟨e, -⟩
    · obtain ⟨n, hn, h⟩ := hac ⟨tword s.seg k, s.seg.fl.alive, fun _ => Fine.inLoop (s.loc t) true⟩ rfl rfl ⟨c, o, e⟩
      exact ⟨n, by omega, h⟩
    · generalize hy : (⟨tword s.seg k, s.seg.fl.alive, fun _ => Fine.inLoop (s.loc t) true⟩ : LockId.State) = y
      have e1 : y.lockid = tword s.seg k := by rw [← hy]
      have e2 : y.alive = s.seg.fl.alive := by rw [← hy]
      have e3 : y.pc t = .chk c v := by rw [← hy]; exact e
      cases hv : y.alive v with
      | true =>
        have : LockId.own y t = y.setPc t (.acq (c + 1) v) := by simp [LockId.own, e3, hv]
        obtain ⟨n, hn, h⟩ := hac (y.setPc t (.acq (c + 1) v)) e1 e2 ⟨_, _, by simp [LockId.State.setPc]; exact ⟨rfl, rfl⟩⟩
        exact ⟨n + 1, by omega, by rw [LockId.alone, this]; exact h⟩
      | false =>
        have : LockId.own y t = y.setPc t (.steal c v) := by simp [LockId.own, e3, hv]
        obtain ⟨n, hn, h⟩ := hst (y.setPc t (.steal c v)) e1 e2 ⟨_, _, by simp [LockId.State.setPc]; exact ⟨rfl, rfl⟩⟩
        exact ⟨n + 1, by omega, by rw [LockId.alone, this]; exact h⟩
    · obtain ⟨n, hn, h⟩ := hst ⟨tword s.seg k, s.seg.fl.alive, fun _ => Fine.inLoop (s.loc t) true⟩ rfl rfl ⟨c, v, e⟩
      exact ⟨n, by omega, h⟩
    · cases e
  obtain ⟨n, hn, hc⟩ := key
  obtain ⟨m, hm, hrun⟩ := Fine.alone_lk (cnt := cnt) (fuel := fuel) (base := base) n s _ g hL ta hg rfl rfl rfl hc
  have hp := Fine.pass_up (cnt := cnt) (fuel := fuel) (base := base) g ta hg hk
  have hrs' : Seg.Reach cnt fuel base (fun _ _ => True) (Fine.pass (Fine.setTword s.seg t k) t) := .step hrs trivial hp
  refine ⟨m, by omega, _, hrun, tword_pass _ _ _ _, ?_, by simp [FL.fset], Fine.gateEv base t k, ?_, hp⟩
  · exact (Fine.locks_reach hl hf hrs' k t t0 (by rw [alive_pass]; exact ta)).1 (tword_pass _ _ _ _)
  · cases k
    · exact .inl rfl
    · exact .inr rfl
    · exact .inr rfl

/-- C75: in front of a table lock whose holder lives a thread waits: its accesses change nothing. -/
theorem C75_wait (cnt : Pool → Nat) (hl : Limits cnt) (fuel : Nat) (hf : MCMem.Fuel cnt fuel) (base : Nat → Nat)
    (s : Fine.State) (hr : Fine.Reach cnt fuel base (fun _ _ => True) s) (k : Tbl) (t : Nat)
    (ta : s.seg.fl.alive t = true) (hg : gate s.seg t = some (k, true)) (hz : tword s.seg k ≠ 0)
    (ha : s.seg.fl.alive (tword s.seg k) = true) (n : Nat) :
    ∃ s', Fine.run cnt fuel base s (List.replicate n (.lk t)) = some s' ∧ s'.seg = s.seg := by
  induction n generalizing s with
  | zero => exact ⟨s, rfl, rfl⟩
  | succ n ih =>
    obtain ⟨hrs, g, hL⟩ := fine_any hl hf hr
    obtain ⟨s1, h1⟩ := Option.isSome_iff_exists.1 (Fine.lk_some ta hg)
    have h1' : Fine.step cnt fuel base s (.lk t) = some s1 := h1
    obtain ⟨-, ⟨k', hg', hk', -⟩ | ⟨k', hg', -⟩ | ⟨p, rfl, -⟩⟩ := Fine.lk_cases g hL h1
    · rw [hg] at hg'; cases hg'
      rcases hk' with h | h
      · exact absurd h hz
      · rw [ha] at h; cases h
    · rw [hg] at hg'; cases hg'
    · obtain ⟨s', h2, h3⟩ := ih _ (.step hr (fun _ _ => trivial) h1') ta hg hz ha
      refine ⟨s', ?_, h3⟩
      simp only [List.replicate, Fine.run, h1', Option.bind]
      exact h2

/-- C75: a table lock is released by one access. -/
theorem C75_leave (cnt : Pool → Nat) (hl : Limits cnt) (fuel : Nat) (hf : MCMem.Fuel cnt fuel) (base : Nat → Nat)
    (s : Fine.State) (hr : Fine.Reach cnt fuel base (fun _ _ => True) s) (k : Tbl) (t : Nat)
    (ta : s.seg.fl.alive t = true) (hg : gate s.seg t = some (k, false)) :
    ∃ s', Fine.step cnt fuel base s (.lk t) = some s' ∧ tword s.seg k = t ∧ tword s'.seg k = 0 ∧
      inside s'.seg t k = false ∧ s'.loc t = .none := by
  obtain ⟨hrs, g, hL⟩ := fine_any hl hf hr
  have t0 := g.zero t _ ta hg
  obtain ⟨s1, h1⟩ := Option.isSome_iff_exists.1 (Fine.lk_some ta hg)
  have h1' : Fine.step cnt fuel base s (.lk t) = some s1 := h1
  obtain ⟨-, ⟨k', hg', hk', -⟩ | ⟨k', hg', rfl⟩ | ⟨p, rfl, hp⟩⟩ := Fine.lk_cases g hL h1
  · rw [hg] at hg'; cases hg'
  · rw [hg] at hg'; cases hg'
    refine ⟨_, h1', g.down t k ta hg, tword_pass _ _ _ _, ?_, by simp [FL.fset]⟩
    have hr' : Fine.Reach cnt fuel base (fun _ _ => True) _ := .step hr (fun _ _ => trivial) h1'
    have := C75_table cnt hl fuel hf base _ hr' k t t0 (by simp only [alive_pass]; exact ta)
    rw [tword_pass] at this
    cases hi : inside (Fine.pass (Fine.setTword s.seg 0 k) t) t k with
    | false => rfl
    | true => exact absurd (this.2 hi) (Ne.symm t0)
  · exfalso
    cases p <;> simp only [Fine.InLoop, hg] at hp
    · obtain ⟨_, hp⟩ := hp; cases hp
    · obtain ⟨_, hp⟩ := hp; cases hp
    · obtain ⟨⟨_, hp⟩, -⟩ := hp; cases hp

/-! ### Lock words of ranges -/

/-- C75: nobody between: reading the word and the compare-and-swap are together the step of the segment (an
unlock that reads 0 is over with the reading; the attempt of a reader succeeds if the word is not negative). -/
theorem C75_word (cnt : Pool → Nat) (fuel : Nat) (base : Nat → Nat) (s : Fine.State) (t o : Nat) (c : FL.Choice)
    (x : Seg.State) (hx : Seg.step cnt fuel base s.seg (.fl (.go t (base t) c)) = some x) (hloc : s.loc t = .none)
    (hw : wants s.seg t c = some o)
    (ha : attempts s.seg t = true → c = .go ∧ 0 ≤ s.seg.fl.pay.word o)
    (hb : attempts s.seg t = false → -1 ≤ s.seg.fl.pay.word o) :
    Fine.run cnt fuel base s (if attempts s.seg t = false ∧ s.seg.fl.pay.word o = 0 then [.load t c]
      else [.load t c, .cas t false]) = some ⟨x, s.loc⟩ := by
  have hfs : FL.fset (FL.fset s.loc t (.seen c (s.seg.fl.pay.word o))) t .none = s.loc := by
    funext u; simp only [FL.fset]; split
    · rename_i h; rw [h, hloc]
    · rfl
  cases hat : attempts s.seg t with
  | true =>
    obtain ⟨rfl, h0⟩ := ha hat
    simp [Fine.run, Fine.step, Fine.loadStep, Fine.casStep, hloc, hx, hw, hat, Fine.State.setLoc, FL.fset, Fine.hit, h0]
    simpa [FL.fset] using hfs
  | false =>
    have h1 := hb hat
    by_cases hz : s.seg.fl.pay.word o = 0
    · simp [Fine.run, Fine.step, Fine.loadStep, hloc, hx, hw, hat, hz]
    · have hm : (if s.seg.fl.pay.word o ≤ -1 then -1 else s.seg.fl.pay.word o) = s.seg.fl.pay.word o := by
        split <;> omega
      simp [Fine.run, Fine.step, Fine.loadStep, Fine.casStep, Fine.State.setLoc, FL.fset, Fine.hit, hloc, hw, hat, hx,
        hz, hm]
      simpa [FL.fset] using hfs

/-- C75: a reader whose word changed between gives up as from an attempt that another attempt disturbed; an
unlock reads again. -/
theorem C75_word_lost (cnt : Pool → Nat) (fuel : Nat) (base : Nat → Nat) (s : Fine.State) (t o : Nat) (c : FL.Choice)
    (w : Int) (over : Bool) (ta : s.seg.fl.alive t = true) (hloc : s.loc t = .seen c w) (hw : wants s.seg t c = some o)
    (hv : s.seg.fl.pay.word o ≠ w) (hu : attempts s.seg t = false → -1 ≤ w) :
    Fine.step cnt fuel base s (.cas t over) =
      if attempts s.seg t then (Seg.step cnt fuel base s.seg (.fl (.go t (base t) (if over then .limit else .spur)))).map
        fun x => ⟨x, FL.fset s.loc t .none⟩
      else some ⟨s.seg, FL.fset s.loc t .none⟩ := by
  cases hat : attempts s.seg t with
  | true => simp [Fine.step, Fine.casStep, hloc, hw, hat, Fine.hit, hv]
  | false =>
    have h1 := hu hat
    have hm : (if w ≤ -1 then -1 else w) = w := by split <;> omega
    simp [Fine.step, Fine.casStep, hloc, hw, hat, Fine.hit, hm, hv, ta, Fine.State.setLoc]

/-- C75: a reader that has read a negative word (a writer holds the lock) does not take the lock, whatever the word is by then. -/
theorem C75_word_writer (cnt : Pool → Nat) (fuel : Nat) (base : Nat → Nat) (s : Fine.State) (t o : Nat) (c : FL.Choice)
    (w : Int) (over : Bool) (hloc : s.loc t = .seen c w) (hw : wants s.seg t c = some o) (ha : attempts s.seg t = true)
    (h0 : w < 0) : Fine.step cnt fuel base s (.cas t over) =
      (Seg.step cnt fuel base s.seg (.fl (.go t (base t) (if over then .limit else .spur)))).map
        fun x => ⟨x, FL.fset s.loc t .none⟩ := by
  simp [Fine.step, Fine.casStep, hloc, hw, ha, Fine.hit, Int.not_le.mpr h0]

/-- C75: an unlock that has read a negative word succeeds on the word -1 only. -/
theorem C75_word_below (cnt : Pool → Nat) (fuel : Nat) (base : Nat → Nat) (s : Fine.State) (t o : Nat) (c : FL.Choice)
    (w : Int) (over : Bool) (ta : s.seg.fl.alive t = true) (hloc : s.loc t = .seen c w) (hw : wants s.seg t c = some o)
    (ha : attempts s.seg t = false) (h0 : w < 0) : Fine.step cnt fuel base s (.cas t over) =
      if s.seg.fl.pay.word o = -1 then (Seg.step cnt fuel base s.seg (.fl (.go t (base t) c))).map
        fun x => ⟨x, FL.fset s.loc t .none⟩
      else some ⟨s.seg, FL.fset s.loc t .none⟩ := by
  have : w ≤ -1 := by omega
  by_cases h : s.seg.fl.pay.word o = -1 <;> simp [Fine.step, Fine.casStep, hloc, hw, ha, Fine.hit, this, h, ta, Fine.State.setLoc]

/-- C75: a thread that is killed leaves a lock word changed only if the word still was what the thread had read (for an unlock
that had read a negative word: -1), and a reader only if that was not negative. -/
theorem C75_death (cnt : Pool → Nat) (fuel : Nat) (base : Nat → Nat) (s s' : Fine.State) (t b o k j : Nat) (c : FL.Choice)
    (hs : Fine.step cnt fuel base s (.seg (.fl (.die t b c k j))) = some s') (hw : wants s.seg t c = some o)
    (hk : Fine.before s.seg t < k ∨ k = Fine.before s.seg t ∧ j ≠ 0) :
    (∃ w, s.loc t = .seen c w ∧ (attempts s.seg t = true → 0 ≤ w ∧ s.seg.fl.pay.word o = w) ∧
      (attempts s.seg t = false → s.seg.fl.pay.word o = if w < 0 then -1 else w)) ∨
    (attempts s.seg t = false ∧ s.seg.fl.pay.word o = 0) := by
  have hd : Fine.dieOk s t c k j = true := by
    refine Classical.byContradiction fun h => ?_
    simp [Fine.step, Fine.free, h] at hs
  have hnot : (decide (k < Fine.before s.seg t) || (decide (k = Fine.before s.seg t) && decide (j = 0))) = false := by
    rcases hk with hk | ⟨rfl, hj⟩
    · simp; omega
    · simp [hj]
  simp only [Fine.dieOk, hw, hnot, Bool.false_or] at hd
  split at hd
  · rename_i c' w hloc
    simp only [Bool.and_eq_true, decide_eq_true_eq] at hd
    obtain ⟨rfl, hh⟩ := hd
    refine .inl ⟨w, hloc, fun ha => ?_, fun ha => ?_⟩
    · simpa [Fine.hit, ha] using hh
    · simp only [Fine.hit, ha] at hh
      simp only [Bool.false_eq_true, if_false, decide_eq_true_eq] at hh
      rw [hh]; split <;> split <;> omega
  · simp at hd
    exact .inr hd

/-- C75: the access to the lock word in a step of several actions is the one that `Fine.before` counts up to, and an unlock always
makes it. -/
theorem C75_place (cnt : Pool → Nat) (b fuel : Nat) (s : Seg.State) (t o : Nat) (c : FL.Choice) (x : List FL.Act × FL.Pc)
    (hx : FL.plan (FLMem.view cnt b fuel s.fl.cells s.fl.pay) s.fl.alive t (s.fl.pc t) c = some x) (hw : wants s t c = some o) :
    (∀ i a, x.1[i]? = some a → ((∃ md l, a = .take o md l) ∨ ∃ l, a = .unl o l) → i = Fine.before s t) ∧
    (attempts s t = false → ∃ l, x.1[Fine.before s t]? = some (.unl o l)) := by
  have hl : (FLMem.view cnt b fuel s.fl.cells s.fl.pay).locked = s.fl.pay.locked := rfl
  unfold wants at hw
  unfold Fine.before attempts
  split at hw
  · rename_i c _ _ op f o' l hpc
    rw [hpc] at hx ⊢
    refine ⟨fun i a ha hk => ?_, fun h => by simp at h⟩
    have : x.1 = [] ∨ ∃ md, x.1 = [.take o' md l] := by
      cases c <;> simp only [FL.plan] at hx <;> grind
    rcases this with e | ⟨md, e⟩ <;> rw [e] at ha
    · simp at ha
    · cases i with
      | zero => rfl
      | succ i => simp at ha
  · rename_i c _ _ op f o' l md hpc
    rw [hpc] at hx ⊢
    cases c <;> simp only [FL.plan, reduceCtorEq, Option.some.injEq] at hx hw
    subst hx hw
    refine ⟨fun i a ha hk => ?_, fun _ => ⟨l, rfl⟩⟩
    cases i with
    | zero => rfl
    | succ i => simp at ha
  · rename_i op f o1 l1 o' md l hpc
    rw [hpc] at hx ⊢
    split at hw
    · rename_i hlk
      simp only [Option.some.injEq] at hw
      subst hw
      simp only [FL.plan] at hx
      split at hx
      · rename_i hc
        obtain ⟨rfl, _⟩ := hc
        simp only [Option.some.injEq] at hx
        subst hx
        simp only [FL.sweepActs, hl, hlk, if_true]
        refine ⟨fun i a ha hk => ?_, fun _ => ⟨l, rfl⟩⟩
        rcases i with _ | _ | _ | i <;> simp at ha <;> grind
      · cases hx
    · cases hw
  · rename_i o' md l hpc
    rw [hpc] at hx ⊢
    split at hw
    · rename_i hlk
      simp only [Option.some.injEq] at hw
      subst hw
      simp only [FL.plan] at hx
      split at hx
      · simp only [Option.some.injEq] at hx
        subst hx
        simp only [FL.sweepActs, hl, hlk, if_true]
        refine ⟨fun i a ha hk => ?_, fun _ => ⟨l, rfl⟩⟩
        rcases i with _ | _ | _ | i <;> simp at ha <;> grind
      · cases hx
    · cases hw
  · cases hw

/-- C75: steps that touch no lock word are those of the segment. -/
theorem C75_other (cnt : Pool → Nat) (fuel : Nat) (base : Nat → Nat) (s : Fine.State) (t : Nat) (c : FL.Choice)
    (d : MC.Choice) (hg : gate s.seg t = none) :
    (wants s.seg t c = none → s.loc t = .none → Fine.step cnt fuel base s (.seg (.fl (.go t (base t) c))) =
      (Seg.step cnt fuel base s.seg (.fl (.go t (base t) c))).map fun x => ⟨x, s.loc⟩) ∧
    Fine.step cnt fuel base s (.seg (.mc (.go t d))) =
      (Seg.step cnt fuel base s.seg (.mc (.go t d))).map fun x => ⟨x, s.loc⟩ := by
  constructor
  · intro hw hloc
    simp [Fine.step, Fine.free, hg, hw, hloc]
  · simp [Fine.step, Fine.free, hg]

/-- C75, progress: a live thread inside a call always has an access or a step to make. -/
theorem C75_progress (cnt : Pool → Nat) (hl : Limits cnt) (fuel : Nat) (hf : MCMem.Fuel cnt fuel)
    (hff : FLMem.Fuel cnt fuel) (base : Nat → Nat) (s : Fine.State)
    (hr : Fine.Reach cnt fuel base (Seg.whole cnt fuel) s) (t : Nat) (ta : s.seg.fl.alive t = true)
    (hb : Fine.busy s.seg t) : ∃ e, mover e = some t ∧ (Fine.step cnt fuel base s e).isSome = true := by
  have hA : Loose (Seg.whole cnt fuel) := ⟨fun _ _ _ _ => trivial, fun _ _ _ => trivial⟩
  obtain ⟨hrs, g, hL⟩ := Fine.fine_reach hl hf hA hr
  obtain ⟨T, sm, sf, I, R⟩ := Fine.fine_ready hl hf hff hA (fun _ _ h => h) hr
  cases hg : gate s.seg t with
  | some k => exact ⟨.lk t, rfl, Fine.lk_some ta hg⟩
  | none =>
    cases hloc : s.loc t with
    | lk p =>
      have := hL t p hloc ta
      cases p <;> simp [Fine.InLoop, hg] at this
    | seen c w => exact ⟨.cas t false, rfl, Fine.cas_some hl hff I hloc ta (R t c w hloc ta)⟩
    | none =>
      cases hi : Seg.idleFL s.seg t with
      | false =>
        have hpc := congrFun I.fl.pc t
        have hst := Fine.seg_go (fuel := fuel) hl hff I (t := t) (c := .go) (Fine.fl_go (by rw [← I.fl.alive]; exact ta)
          (by intro r h; rw [← hpc] at h; simp [Seg.idleFL, h] at hi)
          (by intro q h; rw [← hpc] at h; simp [gate, h] at hg)
          (by intro q h; rw [← hpc] at h; simp [gate, h] at hg))
        cases hw : wants s.seg t .go with
        | none =>
          refine ⟨.seg (.fl (.go t (base t) .go)), rfl, ?_⟩
          rw [(C75_other cnt fuel base s t .go .go hg).1 hw hloc]
          simpa using hst
        | some o =>
          refine ⟨.load t .go, rfl, ?_⟩
          obtain ⟨x, hx⟩ := Option.isSome_iff_exists.1 hst
          simp [Fine.step, Fine.loadStep, hloc, hx, hw]
      | true =>
        have hm : Seg.idleMC s.seg t = false := hb.resolve_left (by simp [hi])
        refine ⟨.seg (.mc (.go t .go)), rfl, ?_⟩
        rw [(C75_other cnt fuel base s t .go .go hg).2, Option.isSome_map]
        refine (C72_progress cnt hl fuel hf base s.seg (seg_mono (fun _ _ _ => trivial) hrs) t).2 ⟨?_, ?_⟩
        · rw [← g.alive]; exact ta
        · have h1 : ∃ r, s.seg.fl.pc t = .done r := by
            simp only [Seg.idleFL] at hi
            split at hi
            · exact ⟨_, by assumption⟩
            · cases hi
          obtain ⟨r, h1⟩ := h1
          simp only [gate, h1] at hg
          simp only [Seg.idleMC] at hm
          cases hp : s.seg.mc.pc t <;> simp [hp] at hg hm <;> trivial

/-! ### Cases meeting the hypotheses -/

theorem reach75 {A : Seg.State → Seg.Ev → Prop} {cnt : Pool → Nat} {fuel : Nat} {base : Nat → Nat} :
    ∀ {es : List Fine.Ev} {s s' : Fine.State}, (∀ e, .seg e ∈ es → ∀ x, A x e) → Fine.Reach cnt fuel base A s →
    Fine.run cnt fuel base s es = some s' → Fine.Reach cnt fuel base A s'
  | [], s, s', _, hr, h => by cases h; exact hr
  | e :: es, s, s', hA, hr, h => by
    obtain ⟨s1, h1, h2⟩ := Option.bind_eq_some_iff.1 h
    exact reach75 (fun e he => hA e (List.mem_cons_of_mem _ he))
      (.step hr (fun e' he => hA e' (by rw [he]; exact List.mem_cons_self) s.seg) h1) h2

/-- A reader asks for a file without waiting and goes on until it has read the word of the range. -/
def upto75 (t : Nat) : List Fine.Ev :=
  .seg (.fl (.call t (.lock (mkOp 3 kX rA .rd .try_)))) :: .lk t :: List.replicate 5 (.seg (.fl (.go t (base71 t) .go))) ++
  [.lk t, .load t .go]

def s75 : Fine.State := Fine.init seg71 junk0 junkM

theorem mem_upto75 {t : Nat} {e : Seg.Ev} (h : Fine.Ev.seg e ∈ upto75 t) :
    e = .fl (.call t (.lock (mkOp 3 kX rA .rd .try_))) ∨ e = .fl (.go t (base71 t) .go) := by
  simp only [upto75, List.cons_append, List.mem_cons, List.mem_append, List.mem_replicate, Fine.Ev.seg.injEq,
    reduceCtorEq, List.not_mem_nil, or_false, false_or] at h
  rcases h with rfl | ⟨-, rfl⟩ <;> simp

theorem lim75 : Limits Pool.min ∧ MCMem.Fuel Pool.min 5 ∧ FLMem.Fuel Pool.min 5 :=
  ⟨by intro p; cases p <;> decide, by simp only [MCMem.Fuel]; decide, by simp only [FLMem.Fuel]; decide⟩

/-- The rest of the call of a reader whose attempt failed. -/
def undo75 (t : Nat) : List Fine.Ev :=
  let one : List Fine.Ev := [.lk t, .seg (.fl (.go t (base71 t) .go)), .lk t]
  one ++ one ++ one

set_option synthInstance.maxSize 1000
set_option synthInstance.maxHeartbeats 200000

/-- Two readers have both read 0; the one whose compare-and-swap comes first gets the lock, the other one
`EBUSY` (16), though the range is locked by a reader only: between reading and swapping the segment did
something.  The hypotheses of `C75_refines`, of the theorems on exclusion, of `C75_word_lost` and of
`C75_progress` are met on the way. -/
example : ∃ s s', Fine.run Pool.min 5 base71 s75 (upto75 1 ++ upto75 2 ++ [.cas 2 false]) = some s ∧
    Fine.Reach Pool.min 5 base71 (fun x e => Seg.whole Pool.min 5 x e ∧ Seg.okDeath x e ∧ Seg.lockIn RX e) s ∧
    Fine.Reach Pool.min 5 base71 Seg.okDie s ∧ Fine.Reach Pool.min 5 base71 Seg.noWait s ∧
    Fine.Reach Pool.min 5 base71 (Seg.whole Pool.min 5) s ∧ Fine.busy s.seg 1 ∧ s.seg.fl.alive 1 = true ∧
    s.loc 1 = .seen .go 0 ∧ wants s.seg 1 .go = some 0 ∧ s.seg.fl.pay.word 0 ≠ 0 ∧ attempts s.seg 1 = true ∧
    Fine.run Pool.min 5 base71 s (.cas 1 false :: undo75 1 ++ [.seg (.fl (.go 2 (base71 2) .go))]) = some s' ∧
    s'.seg.fl.pay.word 0 = 1 ∧ s'.seg.fl.pay.outs.length = 1 ∧ s'.seg.fl.pc 2 = .done 0 ∧ s'.seg.fl.pc 1 = .done 16 := by
  have e : (Fine.run Pool.min 5 base71 s75 (upto75 1 ++ upto75 2 ++ [.cas 2 false])).bind (fun s =>
      (Fine.run Pool.min 5 base71 s (.cas 1 false :: undo75 1 ++ [.seg (.fl (.go 2 (base71 2) .go))])).map fun s' =>
      ((Seg.idleFL s.seg 1, s.seg.fl.alive 1, s.loc 1, wants s.seg 1 .go, s.seg.fl.pay.word 0, attempts s.seg 1),
        s'.seg.fl.pay.word 0, s'.seg.fl.pay.outs.length, s'.seg.fl.pc 2, s'.seg.fl.pc 1)) =
      some ((false, true, .seen .go 0, some 0, 1, true), 1, 1, .done 0, .done 16) := by decide +kernel
  obtain ⟨s, hs, h⟩ := Option.bind_eq_some_iff.1 e
  obtain ⟨s', hs', h⟩ := Option.map_eq_some_iff.1 h
  simp only [Prod.mk.injEq] at h
  obtain ⟨⟨h1, h2, h3, h4, h5, h6⟩, h7, h8, h9, h10⟩ := h
  obtain ⟨f', hf⟩ := seg71_ok
  have hes : ∀ e, Fine.Ev.seg e ∈ upto75 1 ++ upto75 2 ++ [.cas 2 false] → ∃ t, t ≠ 0 ∧
      (e = .fl (.call t (.lock (mkOp 3 kX rA .rd .try_))) ∨ e = .fl (.go t (base71 t) .go)) := by
    intro e he
    simp only [List.mem_append, List.mem_cons, reduceCtorEq, List.not_mem_nil, or_false] at he
    rcases he with he | he
    · exact ⟨1, by decide, mem_upto75 he⟩
    · exact ⟨2, by decide, mem_upto75 he⟩
  refine ⟨s, s', hs, reach75 ?_ (.init junk0 junkM hf) hs, reach75 ?_ (.init junk0 junkM hf) hs,
    reach75 ?_ (.init junk0 junkM hf) hs, reach75 ?_ (.init junk0 junkM hf) hs, .inl h1, h2, h3, h4, by rw [h5]; decide,
    h6, hs', h7, h8, h9, h10⟩
  all_goals
    intro e he x
    obtain ⟨t, t0, rfl | rfl⟩ := hes e he
  · exact ⟨trivial, trivial, .inl rfl⟩
  · exact ⟨trivial, trivial, trivial⟩
  all_goals trivial

/-- Thread 1 in the section protected by the table lock of the files, thread 2 in front of it; then 1 is killed.
The hypotheses of `C75_table`, `C75_table_mutual`, `C75_table_held` and `C75_wait` are met before, those of
`C75_enter` after that. -/
example : ∃ s s', Fine.Reach Pool.min 5 base71 (fun _ _ => True) s ∧ s.seg.fl.alive 1 = true ∧
    s.seg.fl.alive 2 = true ∧ inside s.seg 1 .file = true ∧ tword s.seg .file = 1 ∧
    gate s.seg 2 = some (.file, true) ∧ s.loc 2 = .lk (.acq 1 1) ∧
    (Fine.step Pool.min 5 base71 s (.lk 2)).isSome = true ∧ Fine.actor (.lk 2) ≠ 1 ∧
    Fine.step Pool.min 5 base71 s (.seg (.fl (.die 1 (base71 1) .go 0 0))) = some s' ∧
    Fine.Reach Pool.min 5 base71 (fun _ _ => True) s' ∧ s'.seg.fl.alive 2 = true ∧
    gate s'.seg 2 = some (.file, true) ∧ s'.seg.fl.alive (tword s'.seg .file) = false := by
  have e : (Fine.run Pool.min 5 base71 s75 [.seg (.fl (.call 1 (.lock (mkOp 3 kX rA .rd .try_)))), .lk 1,
      .seg (.fl (.call 2 (.lock (mkOp 3 kX rA .rd .try_)))), .lk 2]).bind (fun s =>
      (Fine.step Pool.min 5 base71 s (.seg (.fl (.die 1 (base71 1) .go 0 0)))).map fun s' =>
      ((s.seg.fl.alive 1, s.seg.fl.alive 2, inside s.seg 1 .file, tword s.seg .file, gate s.seg 2, s.loc 2),
        (Fine.step Pool.min 5 base71 s (.lk 2)).isSome, s'.seg.fl.alive 2, gate s'.seg 2,
        s'.seg.fl.alive (tword s'.seg .file))) =
      some ((true, true, true, 1, some (.file, true), .lk (.acq 1 1)), true, true, some (.file, true), false) := by
    decide +kernel
  obtain ⟨s, hs, h⟩ := Option.bind_eq_some_iff.1 e
  obtain ⟨s', hs', h⟩ := Option.map_eq_some_iff.1 h
  simp only [Prod.mk.injEq] at h
  obtain ⟨⟨h1, h2, h3, h4, h5, h6⟩, h7, h8, h9, h10⟩ := h
  obtain ⟨f', hf⟩ := seg71_ok
  have hr : Fine.Reach Pool.min 5 base71 (fun _ _ => True) s :=
    reach75 (fun _ _ _ => trivial) (.init junk0 junkM hf) hs
  exact ⟨s, s', hr, h1, h2, h3, h4, h5, h6, h7, by decide, hs',
    .step hr (fun _ _ => trivial) hs', h8, h9, h10⟩

/-- The hypotheses of `C75_leave` are met: thread 1 has made a mutex and is about to release the table lock. -/
example : ∃ s, Fine.Reach Pool.min 5 base71 (fun _ _ => True) s ∧ s.seg.fl.alive 1 = true ∧
    gate s.seg 1 = some (.mtx, false) := by
  have e : (Fine.run Pool.min 5 base71 s75 (.seg (.mc (.call 1 (.lock 7 .block))) :: .lk 1 ::
      List.replicate 3 (.seg (.mc (.go 1 .go))))).map (fun s => (s.seg.fl.alive 1, gate s.seg 1)) =
      some (true, some (.mtx, false)) := by decide +kernel
  obtain ⟨s, hs, h⟩ := Option.map_eq_some_iff.1 e
  simp only [Prod.mk.injEq] at h
  obtain ⟨f', hf⟩ := seg71_ok
  exact ⟨s, reach75 (fun _ _ _ => trivial) (.init junk0 junkM hf) hs, h⟩

/-- The hypotheses of `C75_word` and of `C75_other` are met: a reader about to attempt; the same reader, having
the lock, about to unlock; one that notes that it has the lock. -/
example : ∃ s s1 s2, s.loc 1 = .none ∧ wants s.seg 1 .go = some 0 ∧ attempts s.seg 1 = true ∧
    s.seg.fl.pay.word 0 = 0 ∧ (Seg.step Pool.min 5 base71 s.seg (.fl (.go 1 (base71 1) .go))).isSome = true ∧
    Fine.run Pool.min 5 base71 s [.load 1 .go, .cas 1 false] = some s1 ∧ gate s1.seg 1 = none ∧
    wants s1.seg 1 .go = none ∧ s1.loc 1 = .none ∧
    Fine.run Pool.min 5 base71 s1 [.seg (.fl (.go 1 (base71 1) .go)),
      .seg (.fl (.call 1 (.unlock (mkOp 3 kX rA .rd .try_)))), .lk 1, .seg (.fl (.go 1 (base71 1) .go))] = some s2 ∧
    s2.loc 1 = .none ∧ wants s2.seg 1 .go = some 0 ∧ attempts s2.seg 1 = false ∧ s2.seg.fl.pay.word 0 = 1 ∧
    (Seg.step Pool.min 5 base71 s2.seg (.fl (.go 1 (base71 1) .go))).isSome = true := by
  have e : (Fine.run Pool.min 5 base71 s75 (upto75 1).dropLast).bind (fun s =>
      (Fine.run Pool.min 5 base71 s [.load 1 .go, .cas 1 false]).bind fun s1 =>
      (Fine.run Pool.min 5 base71 s1 [.seg (.fl (.go 1 (base71 1) .go)),
        .seg (.fl (.call 1 (.unlock (mkOp 3 kX rA .rd .try_)))), .lk 1, .seg (.fl (.go 1 (base71 1) .go))]).map fun s2 =>
      ((s.loc 1, wants s.seg 1 .go, attempts s.seg 1, s.seg.fl.pay.word 0,
        (Seg.step Pool.min 5 base71 s.seg (.fl (.go 1 (base71 1) .go))).isSome),
       (gate s1.seg 1, wants s1.seg 1 .go, s1.loc 1), s2.loc 1, wants s2.seg 1 .go, attempts s2.seg 1,
        s2.seg.fl.pay.word 0, (Seg.step Pool.min 5 base71 s2.seg (.fl (.go 1 (base71 1) .go))).isSome)) =
      some ((.none, some 0, true, 0, true), (none, none, .none), .none, some 0, false, 1, true) := by decide +kernel
  obtain ⟨s, hs, h⟩ := Option.bind_eq_some_iff.1 e
  obtain ⟨s1, hs1, h⟩ := Option.bind_eq_some_iff.1 h
  obtain ⟨s2, hs2, h⟩ := Option.map_eq_some_iff.1 h
  simp only [Prod.mk.injEq] at h
  obtain ⟨⟨a1, a2, a3, a4, a5⟩, ⟨b1, b2, b3⟩, c1, c2, c3, c4, c5⟩ := h
  exact ⟨s, s1, s2, a1, a2, a3, a4, a5, hs1, b1, b2, b3, hs2, c1, c2, c3, c4, c5⟩

/-- Non-vacuity of `C75_death`: a reader that has read 0 is killed after its compare-and-swap, which leaves the word at 1. -/
example : ∃ s s', Fine.run Pool.min 5 base71 s75 (upto75 1) = some s ∧
    Fine.step Pool.min 5 base71 s (.seg (.fl (.die 1 (base71 1) .go 1 0))) = some s' ∧ wants s.seg 1 .go = some 0 ∧
    Fine.before s.seg 1 < 1 ∧ s.seg.fl.pay.word 0 = 0 ∧ s'.seg.fl.pay.word 0 = 1 := by
  have e : (Fine.run Pool.min 5 base71 s75 (upto75 1)).bind (fun s =>
      (Fine.step Pool.min 5 base71 s (.seg (.fl (.die 1 (base71 1) .go 1 0)))).map fun s' =>
      (wants s.seg 1 .go, Fine.before s.seg 1, s.seg.fl.pay.word 0, s'.seg.fl.pay.word 0)) = some (some 0, 0, 0, 1) := by
    decide +kernel
  obtain ⟨s, hs, h⟩ := Option.bind_eq_some_iff.1 e
  obtain ⟨s', hs', h⟩ := Option.map_eq_some_iff.1 h
  simp only [Prod.mk.injEq] at h
  exact ⟨s, s', hs, hs', h.1, by rw [h.2.1]; decide, h.2.2⟩

/-- A writer has the range; a reader asks for it and has read -1; the writer begins to unlock and has read -1. -/
def writer75 : List Fine.Ev :=
  .seg (.fl (.call 1 (.lock (mkOp 3 kX rA .wr .try_)))) :: .lk 1 :: List.replicate 5 (.seg (.fl (.go 1 (base71 1) .go))) ++
  [.lk 1] ++ List.replicate 2 (.seg (.fl (.go 1 (base71 1) .go))) ++ upto75 2 ++
  [.seg (.fl (.call 1 (.unlock (mkOp 3 kX rA .wr .try_)))), .lk 1, .seg (.fl (.go 1 (base71 1) .go)), .load 1 .go]

/-- Non-vacuity of `C75_word_writer` and `C75_word_below`. -/
example : ∃ s, Fine.run Pool.min 5 base71 s75 writer75 = some s ∧ s.loc 2 = .seen .go (-1) ∧ wants s.seg 2 .go = some 0 ∧
    attempts s.seg 2 = true ∧ s.seg.fl.alive 1 = true ∧ s.loc 1 = .seen .go (-1) ∧ wants s.seg 1 .go = some 0 ∧
    attempts s.seg 1 = false ∧ s.seg.fl.pay.word 0 = -1 := by
  have e : (Fine.run Pool.min 5 base71 s75 writer75).map (fun s => (s.loc 2, wants s.seg 2 .go, attempts s.seg 2, s.seg.fl.alive 1,
      s.loc 1, wants s.seg 1 .go, attempts s.seg 1, s.seg.fl.pay.word 0)) =
      some (.seen .go (-1), some 0, true, true, .seen .go (-1), some 0, false, -1) := by decide +kernel
  obtain ⟨s, hs, h⟩ := Option.map_eq_some_iff.1 e
  simp only [Prod.mk.injEq] at h
  exact ⟨s, hs, h⟩

end Fullock.Props
