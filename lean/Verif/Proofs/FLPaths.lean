import Verif.Proofs.FLSolo
/-! What becomes of locks in force; complete runs of the calls. -/
namespace Fullock.FL
open Fullock.Spec

theorem plains_outs : ∀ {as : List Act} {m : Mem} {x : Nat × Out},
    (∀ a ∈ as, a.plain = true) → x ∈ m.outs → x ∈ (m.acts as).outs := by
  intro as
  induction as with
  | nil => intro m x _ h; exact h
  | cons a as ih =>
    intro m x ha h
    refine ih (m := m.act a) (fun b hb => ha b (List.mem_cons_of_mem _ hb)) ?_
    have := ha a List.mem_cons_self
    cases a <;> simp only [Act.plain, Bool.false_eq_true] at this <;>
      first | exact h | exact List.mem_cons_of_mem _ h

/-- A lock in force ends only in its holder's own unlock call, or when the holder is dead. -/
theorem outs_loss {s s' : State} {e : Ev} (hi : SInv s) (h : step s e = some s')
    {x : Nat × Out} (hx : x ∈ s.mem.outs) (hn : x ∉ s'.mem.outs) :
    s.alive x.2.t = false ∨
      ∃ op f o md, s.pc x.2.t = .uWord op f o x.1 md ∧ op.fd = x.2.fd ∧ op.key = x.2.key ∧
        (e = .go x.2.t .go ∨ ∃ k, e = .die x.2.t .go k) := by
  have key : ∀ (t : Nat) (c : Choice) (as : List Act) (p' : Pc) (k : Nat), s.alive t = true →
      plan s.mem s.alive t (s.pc t) c = some (as, p') → x ∉ (s.mem.acts (as.take k)).outs →
      s.alive x.2.t = false ∨ (x.2.t = t ∧ c = .go ∧
        ∃ op f o md, s.pc t = .uWord op f o x.1 md ∧ op.fd = x.2.fd ∧ op.key = x.2.key) := by
    intro t c as p' k hal hpl hn
    obtain ⟨f', o', a, b1, b2, b3, b4, b5, b6⟩ := hi.outs.1 _ hx
    have hpk := (hi.thr t hal).2
    rcases plan_shape hpk (hi.thr t hal).1 hpl with h1 | ⟨op, f, o, l, hp, hc, ht, rfl⟩ |
      ⟨op, f, o, l, md, hp, hc, rfl⟩ | ⟨o, md, l, hl, ht, hk', htk, rfl, hsl⟩ | ⟨o, md, l, hl, hd, rfl, hc⟩
    · exact absurd (plains_outs (fun a ha => h1 a (List.mem_of_mem_take ha)) hx) hn
    · exfalso; apply hn
      match k with
      | 0 => exact hx
      | k + 1 => simpa [Mem.acts, Mem.act] using hx
    · right
      have he : x.1 = l := by
        by_contra he
        apply hn
        match k with
        | 0 => exact hx
        | k + 1 =>
          simp only [List.take_succ_cons, List.take_nil, Mem.acts, List.foldl_cons, List.foldl_nil, Mem.act]
          exact mem_revoke.mpr ⟨hx, he⟩
      rw [hp] at hpk
      obtain ⟨g1, g2, g3, g4, g5, g6, g7⟩ := hpk
      subst he
      have hf : f = f' := by
        have := (hi.sok.lksDisj _ _ _ _ _ g1.2.2 a.2.2).1
        subst this
        exact hi.sok.offsDisj _ _ _ g1.2.1 a.2.1
      subst hf
      exact ⟨b3.symm.trans g4, hc, op, f, o, md, hp, g5.symm.trans b4, g2.symm.trans b1⟩
    · exfalso
      have he : x.1 ≠ l := by
        intro he; subst he; rw [hk'] at b5; cases b5
      apply hn
      match k with
      | 0 => exact hx
      | 1 => exact mem_revoke.mpr ⟨hx, he⟩
      | k + 2 =>
        simp only [List.take_succ_cons, List.take_nil]
        exact mem_revoke.mpr ⟨hx, he⟩
    · left
      by_contra hcon
      have hax : s.alive x.2.t = true := by simpa using hcon
      have he : x.1 ≠ l := by
        intro he; subst he; rw [b3, hax] at hd; cases hd
      have h1 : ∀ as : List Act, (∀ a ∈ as, a.lid = none ∨ a.lid = some l) → ∀ m : Mem, x ∈ m.outs →
          x ∈ (m.acts as).outs := by
        intro as
        induction as with
        | nil => intro _ m h; exact h
        | cons a as ih =>
          intro ha m h
          refine ih (fun b hb => ha b (List.mem_cons_of_mem _ hb)) (m.act a) ?_
          refine act_outs_mem (h := x.2) h ?_
          rcases ha a List.mem_cons_self with e | e <;> rw [e] <;> simp
          exact fun e => he e.symm
      apply hn
      refine h1 _ ?_ _ hx
      intro a ha
      have := List.mem_of_mem_take ha
      unfold sweepActs at this
      split at this <;> simp at this <;> rcases this with rfl | rfl | rfl <;> simp [Act.lid]
  rcases step_cases h with ⟨t, c, r, rfl, ht0, hal, hpc, rfl⟩ | ⟨t, c, p, rfl, hal, hpc, hl, rfl⟩ |
    ⟨t, c, p, rfl, hal, hpc, rfl⟩ | ⟨t, c, as, p', rfl, hal, hpl, rfl⟩ |
    ⟨t, c, k, as, rfl, hal, hpl, rfl⟩
  · exact absurd hx hn
  · exact absurd hx hn
  · exact absurd hx hn
  · rcases key t c as p' as.length hal hpl (by rw [List.take_length]; exact hn) with h1 | ⟨h1, hc, op, f, o, md, h2, h3, h4⟩
    · exact Or.inl h1
    · subst h1 hc
      exact Or.inr ⟨op, f, o, md, h2, h3, h4, Or.inl rfl⟩
  · rcases hpl with ⟨p', hpl⟩ | ⟨hnone, rfl⟩
    · rcases key t c as p' k hal hpl hn with h1 | ⟨h1, hc, op, f, o, md, h2, h3, h4⟩
      · exact Or.inl h1
      · subst h1 hc
        exact Or.inr ⟨op, f, o, md, h2, h3, h4, Or.inr ⟨k, rfl⟩⟩
    · simp only [List.take_nil] at hn; exact absurd hx hn

/-- A new lock in force belongs to the thread whose lock call returns 0 in this step. -/
theorem outs_gain {s s' : State} {e : Ev} (h : step s e = some s')
    {x : Nat × Out} (hx : x ∉ s.mem.outs) (hn : x ∈ s'.mem.outs) :
    ∃ op f o, s.pc x.2.t = .setf op f o x.1 ∧ x.2 = ⟨x.2.t, op.fd, op.key, op.rng, op.mode⟩ ∧
      ((e = .go x.2.t .go ∧ s'.pc x.2.t = .done 0) ∨ ∃ c k, e = .die x.2.t c k) := by
  rcases step_cases h with ⟨t, c, r, rfl, ht0, hal, hpc, rfl⟩ | ⟨t, c, p, rfl, hal, hpc, hl, rfl⟩ |
    ⟨t, c, p, rfl, hal, hpc, rfl⟩ | ⟨t, c, as, p', rfl, hal, hpl, rfl⟩ |
    ⟨t, c, k, as, rfl, hal, hpl, rfl⟩
  · exact absurd hn hx
  · exact absurd hn hx
  · exact absurd hn hx
  · rcases acts_outs_new hn with h1 | h1
    · exact absurd h1 hx
    · obtain ⟨op, f, o, hp, hh, rfl, _⟩ := plan_flag hpl h1
      have ht : x.2.t = t := by rw [hh]
      have hc : c = .go := by rw [hp] at hpl; cases c <;> simp [plan] at hpl; rfl
      subst hc
      refine ⟨op, f, o, by rw [ht, hp], by rw [hh], Or.inl ⟨by rw [ht], by simp [State.setPc, ht]⟩⟩
  · rcases acts_outs_new hn with h1 | h1
    · exact absurd h1 hx
    · rcases hpl with ⟨p', hpl⟩ | ⟨hnone, rfl⟩
      · obtain ⟨op, f, o, hp, hh, _, _⟩ := plan_flag hpl (List.mem_of_mem_take h1)
        have ht : x.2.t = t := by rw [hh]
        refine ⟨op, f, o, by rw [ht, hp], by rw [hh], Or.inr ⟨c, k, by rw [ht]⟩⟩
      · simp at h1

/-- Nobody alive is in a critical section: the table lock can be had at once. -/
theorem lock_free {s : State} (hcs : CsIff s) {t : Nat} {r : Nat} (hpc : s.pc t = .done r)
    (hid : OthersIdle s t) : s.lockid = 0 ∨ s.alive s.lockid = false := by
  by_cases h0 : s.lockid = 0
  · exact Or.inl h0
  · right
    by_contra ha
    have ha' : s.alive s.lockid = true := by simpa using ha
    have hc := hcs s.lockid h0 rfl ha'
    by_cases e : s.lockid = t
    · rw [e, hpc] at hc; simp [inCS] at hc
    · rcases hid _ e ha' with ⟨r', h'⟩ | ⟨_, _, _, _, h'⟩ <;> rw [h'] at hc <;> simp [inCS] at hc

theorem find_unique {l : List Nat} {p : Nat → Bool} {x : Nat} (hx : x ∈ l) (hp : p x = true)
    (hu : ∀ y ∈ l, p y = true → y = x) : l.find? p = some x := by
  cases h : l.find? p with
  | none => rw [List.find?_eq_none] at h; exact absurd hp (h x hx)
  | some y => rw [hu y (List.mem_of_find?_eq_some h) (List.find?_some h)]

theorem findFile_eq {m : Mem} (hs : SOK m) {f : Nat} (hf : f ∈ m.files) {k : DevIno}
    (hk : m.key f = k) : findFile m k = some f := by
  refine find_unique hf ((cmpKey_eq _ _).mpr hk.symm) ?_
  intro y hy hp
  exact hs.keys y hy f hf (((cmpKey_eq _ _).mp hp).symm.trans hk.symm)

theorem findOff_eq {m : Mem} (hs : SOK m) {f o : Nat} (ho : o ∈ m.offs f) :
    findOff m f (m.rng o) = some o := by
  refine find_unique ho (hits_refl _) ?_
  intro y hy hp
  exact (hs.sep f o ho y hy hp).symm

theorem revoke_perm {outs : List (Nat × Out)} (hn : (outs.map Prod.fst).Nodup) {x : Nat × Out}
    (hx : x ∈ outs) : outs.Perm (x :: revoke outs x.1) := by
  induction outs with
  | nil => simp at hx
  | cons y ys ih =>
    simp only [List.map_cons, List.nodup_cons] at hn
    by_cases e : y.1 = x.1
    · have hyx : y = x := by
        rcases List.mem_cons.mp hx with h | h
        · exact h.symm
        · exact absurd (List.mem_map_of_mem (f := Prod.fst) h) (e ▸ hn.1)
      subst hyx
      have : revoke (y :: ys) y.1 = ys := by
        unfold revoke
        simp only [List.filter_cons, ne_eq, not_true_eq_false, decide_false, Bool.false_eq_true, if_false]
        rw [List.filter_eq_self]
        intro z hz
        simp only [decide_not, Bool.not_eq_eq_eq_not, Bool.not_true, decide_eq_false_iff_not]
        intro ez
        exact hn.1 (ez ▸ List.mem_map_of_mem hz)
      rw [this]
    · have hx' : x ∈ ys := by
        rcases List.mem_cons.mp hx with h | h
        · exact absurd (by rw [h]) e
        · exact h
      have : revoke (y :: ys) x.1 = y :: revoke ys x.1 := by
        simp [revoke, e]
      rw [this]
      exact ((ih hn.2 hx').cons y).trans (List.Perm.swap _ _ _)

theorem revoke_revoke (outs : List (Nat × Out)) (l : Nat) :
    revoke (revoke outs l) l = revoke outs l := by
  simp [revoke, List.filter_filter]

/-- From the found locker to the return of the unlock call. -/
theorem unlock_tail {alive : Nat → Bool} {t : Nat} (hal : alive t = true) {m : Mem} (op : Op)
    (f o l : Nat) (md : Mode) :
    ∃ m', Solo alive t 6 m t (.uWord op f o l md) m' 0 (.done 0) ∧ m'.outs = revoke m.outs l := by
  have p1 : Solo alive t 1 m t (.uWord op f o l md) (m.acts [.unl o l]) t (.uFlag op f o l md) :=
    solo_plan hal rfl
  generalize h1 : m.acts [.unl o l] = m1 at p1
  have e1 : m1.outs = revoke m.outs l := by rw [← h1]; rfl
  have p2 : Solo alive t 1 m1 t (.uFlag op f o l md) (m1.acts [.unflag l]) t (.uCut op f o l md) :=
    solo_plan hal rfl
  generalize h2 : m1.acts [.unflag l] = m2 at p2
  have e2 : m2.outs = revoke m.outs l := by rw [← h2]; exact e1
  have p3 : Solo alive t 1 m2 t (.uCut op f o l md) (m2.acts [.cutL o md l, .pushL l]) t
      (.uOff op f o) := solo_plan hal rfl
  generalize h3 : m2.acts [.cutL o md l, .pushL l] = m3 at p3
  have e3 : m3.outs = revoke m.outs l := by
    rw [← h3]
    show revoke m2.outs l = _
    rw [e2, revoke_revoke]
  obtain ⟨m4, p4, e4⟩ : ∃ m4, Solo alive t 1 m3 t (.uOff op f o) m4 t (.uFile op f) ∧
      m4.outs = m3.outs := by
    by_cases hc : (op.freeOff && !oLocked m3 o) = true
    · exact ⟨_, solo_plan hal (as := [.cutO f o, .pushO o]) (by simp only [plan, hc, if_true]), rfl⟩
    · exact ⟨_, solo_plan hal (as := []) (by simp only [plan, hc, Bool.false_eq_true, if_false]), rfl⟩
  obtain ⟨m5, p5, e5⟩ : ∃ m5, Solo alive t 1 m4 t (.uFile op f) m5 t (.rel (.done 0)) ∧
      m5.outs = m4.outs := by
    by_cases hc : (op.freeFd && !fLocked m4 f) = true
    · exact ⟨_, solo_plan hal (as := [.cutF f, .pushF f]) (by simp only [plan, hc, if_true]), rfl⟩
    · exact ⟨_, solo_plan hal (as := []) (by simp only [plan, hc, Bool.false_eq_true, if_false]), rfl⟩
  have p6 := solo_rel hal (m := m5) (.done 0)
  exact ⟨_, solo_trans (solo_trans (solo_trans (solo_trans (solo_trans p1 p2) p3) p4) p5) p6,
    by rw [e5, e4, e3]⟩

/-- A locker of an idle thread which is in a list and flagged locked is a lock in force. -/
theorem idle_out {s : State} (hi : SInv s) {t : Nat} (hal : s.alive t = true) {r : Nat}
    (hpc : s.pc t = .done r) {f o : Nat} {md : Mode} {l : Nat} (ha : Att s.mem f o md l)
    (ht : s.mem.ltid l = t) :
    ∃ h, (l, h) ∈ s.mem.outs ∧ h.t = t ∧ h.fd = s.mem.lfd l ∧ h.key = s.mem.key f ∧ h.mode = md ∧
      hits h.rng (s.mem.rng o) = true := by
  have hown := (hi.thr t hal).1 o md l ha.2.2 ht
  rw [hpc] at hown
  have hk : s.mem.locked l = true := by
    by_contra hc
    have := hown.1 (by simpa using hc)
    simp [slot] at this
  have htk : s.mem.taken l = true := by
    by_contra hc
    have := hown.2.1 hk (by simpa using hc)
    simp [uslot] at this
  obtain ⟨h, hm⟩ := hown.2.2 hk htk
  obtain ⟨f', o', a, b1, b2, b3, b4, b5, b6⟩ := hi.outs.1 _ hm
  obtain ⟨e1, e2⟩ := hi.sok.lksDisj _ _ _ _ _ a.2.2 ha.2.2
  subst e1
  have e3 := hi.sok.offsDisj _ _ _ a.2.1 ha.2.1
  subst e3
  exact ⟨h, hm, b3.symm.trans ht, b4.symm, b1.symm, e2, b2⟩

/-- Unlock of a lock in force. -/
theorem unlock_run {R : DevIno → Rng → Prop} (hR : Clustered R) {s : State} (hi : SInv s)
    (hcs : CsIff s) (hr : RInv R s) {t : Nat} (ht0 : t ≠ 0) (hal : s.alive t = true) {r : Nat}
    (hpc : s.pc t = .done r) (hid : OthersIdle s t) {op : Op} {x : Nat × Out}
    (hx : x ∈ s.mem.outs) (hxt : x.2.t = t) (hxf : x.2.fd = op.fd) (hxk : x.2.key = op.key)
    (hxr : x.2.rng = op.rng) :
    ∃ s' y, Returns s t (.unlock op) 8 0 s' ∧ y ∈ s.mem.outs ∧ y.2.t = t ∧ y.2.fd = op.fd ∧
      y.2.key = op.key ∧ Overlap y.2.rng op.rng ∧ s.mem.outs.Perm (y :: s'.mem.outs) := by
  obtain ⟨f, o, a, b1, b2, bR, b3, b4, b5, b6⟩ := held_unit hR hr (l := x.1) (h := x.2) hx (hi.outs.1 _ hx)
  have hff : findFile s.mem op.key = some f := findFile_eq hi.sok a.1 (b1.trans hxk)
  have hfo : findOff s.mem f op.rng = some o := by
    rw [← hxr]
    refine find_unique a.2.1 ((hits_iff hR (hr.held _ hx) bR).mpr b2) ?_
    intro o' ho' hh'
    have hu' : R x.2.key (s.mem.rng o') := by rw [← b1]; exact hr.units f a.1 o' ho'
    exact same_unit hR hi ho' a.2.1 hu' bR (hr.held _ hx) (hr.held _ hx)
      ((hits_iff hR (hr.held _ hx) hu').mp hh') b2 (overlap_self (hR.sane _ _ (hr.held _ hx)))
  obtain ⟨l, md, hfl, hl⟩ : ∃ l md, plan s.mem s.alive t (.uFind op) .go =
      some ([], .uWord op f o l md) ∧ l ∈ s.mem.lks o md ∧ s.mem.ltid l = t ∧ s.mem.lfd l = op.fd := by
    simp only [plan, hff, hfo]
    cases hw : findLk s.mem o .wr t op.fd true with
    | some l =>
      have := findLk_some hw
      exact ⟨l, .wr, rfl, this.1, this.2.1, this.2.2.1⟩
    | none =>
      cases hw2 : findLk s.mem o .rd t op.fd true with
      | some l =>
        have := findLk_some hw2
        exact ⟨l, .rd, rfl, this.1, this.2.1, this.2.2.1⟩
      | none =>
        exfalso
        cases hmd : x.2.mode with
        | rd => exact findLk_none hw2 x.1 (hmd ▸ a.2.2) ⟨b3.trans hxt, b4.trans hxf, b5⟩
        | wr => exact findLk_none hw x.1 (hmd ▸ a.2.2) ⟨b3.trans hxt, b4.trans hxf, b5⟩
  obtain ⟨h, hm, q1, q2, q3, q4, q5⟩ := idle_out hi hal hpc ⟨a.1, a.2.1, hl.1⟩ hl.2.1
  have s1 := solo_acq hal (m := s.mem) (lock_free hcs hpc hid) (.uFind op)
  have s2 : Solo s.alive t 1 s.mem t (.uFind op) s.mem t (.uWord op f o l md) := solo_plan hal hfl
  obtain ⟨m', s3, hout⟩ := unlock_tail hal (m := s.mem) op f o l md
  have hret := solo_call (c := .unlock op) ht0 hal hpc (solo_trans (solo_trans s1 s2) s3)
  refine ⟨_, (l, h), hret, hm, q1, q2.trans hl.2.2, by rw [q3, b1, hxk], ?_, ?_⟩
  · have h1 := hr.held _ hm
    have h2 := hr.units f a.1 o a.2.1
    simp only at h1
    rw [q3] at h1
    have h3 := hr.held _ hx
    rw [← b1] at h3
    rw [← hxr]
    exact hR.trans _ _ _ _ h1 h2 h3 ((hits_iff hR h1 h2).mp q5) (overlap_symm b2)
  · simp only [hout]
    exact revoke_perm hi.outs.2 hm

/-- Unlock of what the caller does not hold. -/
theorem unlock_einval {R : DevIno → Rng → Prop} (hR : Clustered R) {s : State} (hi : SInv s)
    (hcs : CsIff s) (hr : RInv R s) {t : Nat} (ht0 : t ≠ 0) (hal : s.alive t = true) {r : Nat}
    (hpc : s.pc t = .done r) (hid : OthersIdle s t) {op : Op} (hsane : SaneRange op.rng)
    (htr : ∀ r u, R op.key r → R op.key u → Overlap r u → Overlap u op.rng → Overlap r op.rng)
    (hno : ∀ x ∈ s.mem.outs, x.2.t = t → x.2.fd = op.fd → x.2.key = op.key →
      ¬ Overlap x.2.rng op.rng) :
    ∃ s', Returns s t (.unlock op) 3 EINVAL s' ∧ s'.mem = s.mem ∧ s'.lockid = 0 := by
  have s1 := solo_acq hal (m := s.mem) (lock_free hcs hpc hid) (.uFind op)
  have s2 : Solo s.alive t 1 s.mem t (.uFind op) s.mem t (.rel (.done EINVAL)) := by
    refine solo_plan hal (as := []) ?_
    simp only [plan]
    cases hff : findFile s.mem op.key with
    | none => rfl
    | some f =>
      have g1 := findFile_some hff
      simp only
      cases hfo : findOff s.mem f op.rng with
      | none => rfl
      | some o =>
        have g2 := findOff_some hfo
        have none' : ∀ md, findLk s.mem o md t op.fd true = none := by
          intro md
          cases hl : findLk s.mem o md t op.fd true with
          | none => rfl
          | some l =>
            exfalso
            have g3 := findLk_some hl
            obtain ⟨h, hm, q1, q2, q3, q4, q5⟩ :=
              idle_out hi hal hpc (l := l) ⟨g1.1, g2.1, g3.1⟩ g3.2.1
            have hu := hr.units f g1.1 o g2.1
            have h1 := hr.held _ hm
            simp only at h1
            rw [q3] at h1
            rw [g1.2] at hu h1
            refine hno _ hm q1 (q2.trans g3.2.2.1) (q3.trans g1.2) ?_
            simp only
            refine htr _ _ h1 hu ((hits_iff hR h1 hu).mp q5) (overlap_symm ?_)
            exact (Props.C01_lookup_is_overlap op.rng (s.mem.rng o) hsane (hR.sane _ _ hu)).1.mp (by
              simpa [hits] using g2.2)
        simp [none']
  have s3 := solo_rel hal (m := s.mem) (.done EINVAL)
  exact ⟨_, solo_call (c := .unlock op) ht0 hal hpc (solo_trans (solo_trans s1 s2) s3), rfl, rfl⟩

/-- What islocked answers. -/
theorem islocked_run {s : State} (hi : SInv s) (hcs : CsIff s) {t : Nat} (ht0 : t ≠ 0)
    (hal : s.alive t = true) {r : Nat} (hpc : s.pc t = .done r) (hid : OthersIdle s t) (op : Op) :
    ∃ s' b, Returns s t (.islocked op) 3 (if b then 1 else 0) s' ∧ s'.mem = s.mem ∧ s'.lockid = 0 ∧
      (b = true ↔ ∃ f ∈ s.mem.files, s.mem.key f = op.key ∧ fLocked s.mem f = true) := by
  have s1 := solo_acq hal (m := s.mem) (lock_free hcs hpc hid) (.qry op)
  cases hff : findFile s.mem op.key with
  | none =>
    have s2 : Solo s.alive t 1 s.mem t (.qry op) s.mem t (.rel (.done 0)) :=
      solo_plan hal (as := []) (by simp [plan, hff])
    have s3 := solo_rel hal (m := s.mem) (.done 0)
    refine ⟨_, false, solo_call (c := .islocked op) ht0 hal hpc (solo_trans (solo_trans s1 s2) s3),
      rfl, rfl, ?_⟩
    simp only [Bool.false_eq_true, false_iff]
    rintro ⟨f, hf, hk, _⟩
    exact findFile_none hff f hf hk
  | some f =>
    have g := findFile_some hff
    have s2 : Solo s.alive t 1 s.mem t (.qry op) s.mem t
        (.rel (.done (if fLocked s.mem f then 1 else 0))) :=
      solo_plan hal (as := []) (by simp [plan, hff])
    have s3 := solo_rel hal (m := s.mem) (.done (if fLocked s.mem f then 1 else 0))
    refine ⟨_, fLocked s.mem f,
      solo_call (c := .islocked op) ht0 hal hpc (solo_trans (solo_trans s1 s2) s3), rfl, rfl, ?_⟩
    constructor
    · intro h; exact ⟨f, g.1, g.2, h⟩
    · rintro ⟨f', hf', hk', hl⟩
      have := hi.sok.keys f' hf' f g.1 (hk'.trans g.2.symm)
      exact this ▸ hl

end Fullock.FL
