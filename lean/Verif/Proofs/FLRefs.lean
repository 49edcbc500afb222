import Verif.Proofs.FLStruct
/-! Records in use: what threads and locks in force refer to, and that other threads keep it. -/
namespace Fullock.FL

/-- Locker `l` hangs below range record `o` of the listed file record `f`. -/
def Att (m : Mem) (f o : Nat) (md : Mode) (l : Nat) : Prop :=
  f ∈ m.files ∧ o ∈ m.offs f ∧ l ∈ m.lks o md

/-- Thread `t` waits with (or has just acquired) request `op` at `f`, `o`, `l`. -/
def Wait (m : Mem) (t : Nat) (op : Op) (f o l : Nat) (tk : Bool) : Prop :=
  Att m f o op.mode l ∧ m.key f = op.key ∧ hits op.rng (m.rng o) = true ∧ m.ltid l = t ∧
    m.lfd l = op.fd ∧ m.locked l = false ∧ m.taken l = tk

/-- What a lock in force looks like in the tables. -/
def HeldOK (m : Mem) (l : Nat) (h : Out) : Prop :=
  ∃ f o, Att m f o h.mode l ∧ m.key f = h.key ∧ hits h.rng (m.rng o) = true ∧ m.ltid l = h.t ∧
    m.lfd l = h.fd ∧ m.locked l = true ∧ m.taken l = true

/-- The locker an action is about. -/
def Act.lid : Act → Option Nat
  | .cutL _ _ l => some l
  | .take _ _ l => some l
  | .unl _ l => some l
  | .flag l _ => some l
  | .unflag l => some l
  | _ => none

/-- Who may do an action. -/
def By (m : Mem) (alive : Nat → Bool) (t : Nat) : Act → Prop
  | .insL _ _ _ u _ => u = t
  | .cutL _ _ l => m.ltid l = t ∨ alive (m.ltid l) = false
  | .unl _ l => m.ltid l = t ∨ alive (m.ltid l) = false
  | .take _ _ l => m.ltid l = t ∧ m.taken l = false
  | .flag l h => m.ltid l = t ∧ m.locked l = false ∧
      ∃ f o, Att m f o h.mode l ∧ m.key f = h.key ∧ hits h.rng (m.rng o) = true ∧
        m.ltid l = h.t ∧ m.lfd l = h.fd ∧ m.taken l = true
  | .unflag l => m.ltid l = t ∧ m.taken l = false
  | _ => True

theorem act_att {m : Mem} (hs : SOK m) {a : Act} (hp : Pre m a) {f o : Nat} {md : Mode} {l : Nat}
    (h : Att m f o md l) (hc : ∀ o' md', a ≠ .cutL o' md' l) :
    Att (m.act a) f o md l ∧ (m.act a).key f = m.key f ∧ (m.act a).rng o = m.rng o ∧
      (m.act a).ltid l = m.ltid l ∧ (m.act a).lfd l = m.lfd l := by
  obtain ⟨h1, h2, h3⟩ := h
  cases a with
  | insF f' => exact ⟨⟨List.mem_cons_of_mem _ h1, h2, h3⟩, rfl, rfl, rfl, rfl⟩
  | iniF f' k =>
    have e : f ≠ f' := ne_of_mem_of_not_mem h1 hp
    refine ⟨⟨h1, ?_, h3⟩, ?_, rfl, rfl, rfl⟩
    · simpa [Mem.act, fset_other _ _ e] using h2
    · simp [Mem.act, fset_other _ _ e]
  | insO f' o' r =>
    obtain ⟨p1, p2, p3⟩ := hp
    have e : o ≠ o' := ne_of_mem_of_not_mem h2 (p2 f)
    refine ⟨⟨h1, ?_, ?_⟩, rfl, ?_, rfl, rfl⟩
    · simp only [Mem.act, fset]
      split
      · rename_i e; subst e; simp [h2]
      · exact h2
    · simpa [Mem.act, fset_other _ _ e] using h3
    · simp [Mem.act, fset_other _ _ e]
  | insL o' md' l' t fd =>
    obtain ⟨p1, p2⟩ := hp
    have e : l ≠ l' := ne_of_mem_of_not_mem h3 (p2 o md)
    refine ⟨⟨h1, h2, ?_⟩, rfl, rfl, ?_, ?_⟩
    · simp only [Mem.act, lkset]
      split
      · rename_i e; obtain ⟨rfl, rfl⟩ := e; simp [h3]
      · exact h3
    · simp [Mem.act, fset_other _ _ e]
    · simp [Mem.act, fset_other _ _ e]
  | cutL o' md' l' =>
    have e : l ≠ l' := fun e => hc o' md' (by rw [e])
    refine ⟨⟨h1, h2, ?_⟩, rfl, rfl, rfl, rfl⟩
    simp only [Mem.act, lkset]
    split
    · rename_i e2; obtain ⟨rfl, rfl⟩ := e2
      exact (List.mem_erase_of_ne e).mpr h3
    · exact h3
  | cutO f' o' =>
    have hp' : ∀ md, m.lks o' md = [] := hp
    have e : o ≠ o' := fun e => by subst e; rw [hp' md] at h3; simp at h3
    refine ⟨⟨h1, ?_, h3⟩, rfl, rfl, rfl, rfl⟩
    simp only [Mem.act, fset]
    split
    · rename_i e2; subst e2; exact (List.mem_erase_of_ne e).mpr h2
    · exact h2
  | drainO f' =>
    have hp' : ∀ o ∈ m.offs f', ∀ md, m.lks o md = [] := hp
    have e : f ≠ f' := fun e => by subst e; rw [hp' o h2 md] at h3; simp at h3
    refine ⟨⟨h1, ?_, ?_⟩, rfl, rfl, rfl, rfl⟩
    · simpa [Mem.act, fset_other _ _ e] using h2
    · rw [drain_lks hp']; exact h3
  | cutF f' =>
    have hp' : ∀ o ∈ m.offs f', ∀ md, m.lks o md = [] := hp
    have e : f ≠ f' := fun e => by subst e; rw [hp' o h2 md] at h3; simp at h3
    exact ⟨⟨(List.mem_erase_of_ne e).mpr h1, h2, h3⟩, rfl, rfl, rfl, rfl⟩
  | _ => exact ⟨⟨h1, h2, h3⟩, rfl, rfl, rfl, rfl⟩

theorem act_locked {m : Mem} {a : Act} (hp : Pre m a) {o : Nat} {md : Mode} {l : Nat}
    (hl : l ∈ m.lks o md) (ht : a.lid ≠ some l) :
    (m.act a).locked l = m.locked l ∧ (m.act a).taken l = m.taken l ∧
      (m.act a).ltid l = m.ltid l ∧ (m.act a).lfd l = m.lfd l := by
  cases a with
  | insL o' md' l' t fd =>
    obtain ⟨p1, p2⟩ := hp
    have e : l ≠ l' := ne_of_mem_of_not_mem hl (p2 o md)
    simp [Mem.act, fset_other _ _ e]
  | take o' md' l' =>
    have e : l ≠ l' := fun e => ht (by simp [Act.lid, e])
    simp [Mem.act, fset_other _ _ e]
  | unl o' l' =>
    have e : l ≠ l' := fun e => ht (by simp [Act.lid, e])
    simp [Mem.act, fset_other _ _ e]
  | flag l' h =>
    have e : l ≠ l' := fun e => ht (by simp [Act.lid, e])
    simp [Mem.act, fset_other _ _ e]
  | unflag l' =>
    have e : l ≠ l' := fun e => ht (by simp [Act.lid, e])
    simp [Mem.act, fset_other _ _ e]
  | _ => exact ⟨rfl, rfl, rfl, rfl⟩

theorem act_lks {m : Mem} {a : Act} (hp : Pre m a) {o : Nat} {md : Mode} {l : Nat}
    (hl : l ∈ (m.act a).lks o md) :
    l ∈ m.lks o md ∨ ∃ t fd, a = .insL o md l t fd := by
  cases a with
  | insO f' o' r =>
    simp only [Mem.act, fset] at hl
    split at hl
    · simp at hl
    · exact Or.inl hl
  | insL o' md' l' t fd =>
    simp only [Mem.act, lkset] at hl
    split at hl
    · rename_i e; obtain ⟨rfl, rfl⟩ := e
      simp only [List.mem_cons] at hl
      rcases hl with rfl | hl
      · exact Or.inr ⟨t, fd, rfl⟩
      · exact Or.inl hl
    · exact Or.inl hl
  | cutL o' md' l' =>
    simp only [Mem.act, lkset] at hl
    split at hl
    · rename_i e; obtain ⟨rfl, rfl⟩ := e
      exact Or.inl (List.mem_of_mem_erase hl)
    · exact Or.inl hl
  | drainO f' =>
    rw [drain_lks hp] at hl; exact Or.inl hl
  | _ => exact Or.inl hl

/-- The locker of the request a thread is executing, while its `locked` flag is false. -/
def slot : Pc → Option Nat
  | .acq p => slot p
  | .rel p => slot p
  | .lOProt _ _ _ l => some l
  | .spin _ _ _ l => some l
  | .setf _ _ _ l => some l
  | .rSet _ _ _ l => some l
  | .rChk _ _ _ l => some l
  | .f1 _ _ _ _ l => some l
  | .uCut _ _ _ l _ => some l
  | _ => none

/-- The locker of an unlock request that has changed the lock word but not the flag. -/
def uslot : Pc → Option Nat
  | .uFlag _ _ _ l _ => some l
  | _ => none

/-- A thread's lockers: those not flagged locked belong to its current request; those flagged
locked stand for locks in force, except during its own unlock. -/
def Own (m : Mem) (u : Nat) (p : Pc) : Prop :=
  ∀ o md l, l ∈ m.lks o md → m.ltid l = u →
    (m.locked l = false → slot p = some l) ∧
    (m.locked l = true → m.taken l = false → uslot p = some l) ∧
    (m.locked l = true → m.taken l = true → ∃ h, (l, h) ∈ m.outs)

theorem own_congr {m : Mem} {u : Nat} {p q : Pc} (h : Own m u p) (h1 : slot p = slot q)
    (h2 : uslot p = uslot q) : Own m u q := by
  unfold Own at *
  rw [← h1, ← h2]; exact h

theorem act_outs_mem {m : Mem} {a : Act} {l : Nat} {h : Out} (hm : (l, h) ∈ m.outs)
    (ha : a.lid ≠ some l) : (l, h) ∈ (m.act a).outs := by
  cases a with
  | cutL o md l' =>
    simp only [Mem.act, revoke, List.mem_filter]
    exact ⟨hm, by simpa using fun e : l = l' => ha (by simp [Act.lid, e])⟩
  | unl o l' =>
    simp only [Mem.act, revoke, List.mem_filter]
    exact ⟨hm, by simpa using fun e : l = l' => ha (by simp [Act.lid, e])⟩
  | flag l' h' => simp [Mem.act, hm]
  | _ => exact hm

/-- The part of a thread's view that must survive while it is outside the critical section. -/
def WaitPart (m : Mem) (u : Nat) : Pc → Prop
  | .acq p => WaitPart m u p
  | .spin op f o l => Wait m u op f o l false
  | .setf op f o l => Wait m u op f o l true
  | .rSet op f o l => Wait m u op f o l false
  | .f1 op _ f o l => Wait m u op f o l false
  | _ => True

theorem act_wait {m : Mem} (hs : SOK m) {alive : Nat → Bool} {t u : Nat} {a : Act} (hp : Pre m a)
    (hb : By m alive t a) (hut : u ≠ t) (hu : alive u = true) {op : Op} {f o l : Nat} {tk : Bool}
    (h : Wait m u op f o l tk) : Wait (m.act a) u op f o l tk := by
  obtain ⟨h1, h2, h3, h4, h5, h6, h7⟩ := h
  have hlid : a.lid ≠ some l := by
    intro he
    cases a <;> simp only [Act.lid, Option.some.injEq, reduceCtorEq] at he <;> subst he <;>
      simp only [By] at hb
    · rcases hb with hb | hb
      · exact hut (h4.symm.trans hb)
      · rw [h4, hu] at hb; cases hb
    · exact hut (h4.symm.trans hb.1)
    · rcases hb with hb | hb
      · exact hut (h4.symm.trans hb)
      · rw [h4, hu] at hb; cases hb
    · exact hut (h4.symm.trans hb.1)
    · exact hut (h4.symm.trans hb.1)
  have hc : ∀ o' md', a ≠ .cutL o' md' l := fun o' md' e => hlid (by rw [e]; rfl)
  obtain ⟨a1, a2, a3, a4, a5⟩ := act_att hs hp h1 hc
  obtain ⟨b1, b2, _, _⟩ := act_locked hp h1.2.2 hlid
  exact ⟨a1, a2.trans h2, by rw [a3]; exact h3, a4.trans h4, a5.trans h5, b1.trans h6, b2.trans h7⟩

theorem act_waitPart {m : Mem} (hs : SOK m) {alive : Nat → Bool} {t u : Nat} {a : Act}
    (hp : Pre m a) (hb : By m alive t a) (hut : u ≠ t) (hu : alive u = true) {p : Pc}
    (h : WaitPart m u p) : WaitPart (m.act a) u p := by
  induction p with
  | acq p ih => exact ih h
  | spin op f o l => exact act_wait hs hp hb hut hu h
  | setf op f o l => exact act_wait hs hp hb hut hu h
  | rSet op f o l => exact act_wait hs hp hb hut hu h
  | f1 op r f o l => exact act_wait hs hp hb hut hu h
  | _ => trivial

theorem act_own_pure {m : Mem} {u : Nat} {a : Act} (hp : Pre m a) (ha : a.lid = none)
    (hi : ∀ o md l t fd, a ≠ .insL o md l t fd) {p : Pc} (h : Own m u p) : Own (m.act a) u p := by
  intro o md l hl ht
  rcases act_lks hp hl with h1 | ⟨t', fd, e⟩
  · have hlid : a.lid ≠ some l := by rw [ha]; simp
    obtain ⟨b1, b2, b3, _⟩ := act_locked hp h1 hlid
    rw [b3] at ht
    rw [b1, b2]
    obtain ⟨c1, c2, c3⟩ := h o md l h1 ht
    exact ⟨c1, c2, fun e1 e2 => by
      obtain ⟨hh, hm⟩ := c3 e1 e2
      exact ⟨hh, act_outs_mem hm hlid⟩⟩
  · exact absurd e (hi _ _ _ _ _)

theorem act_own {m : Mem} {alive : Nat → Bool} {t u : Nat} {a : Act}
    (hp : Pre m a) (hb : By m alive t a) (hut : u ≠ t) (hu : alive u = true) {p : Pc}
    (h : Own m u p) : Own (m.act a) u p := by
  intro o md l hl ht
  rcases act_lks hp hl with h1 | ⟨t', fd, rfl⟩
  · by_cases hlid : a.lid = some l
    · -- the actor's own or a dead thread's locker
      have hlt : (m.act a).ltid l = m.ltid l := by
        cases a <;> simp [Act.lid] at hlid <;> rfl
      rw [hlt] at ht
      cases a <;> simp only [Act.lid, Option.some.injEq, reduceCtorEq] at hlid <;> subst hlid <;>
        simp only [By] at hb
      · rcases hb with hb | hb
        · exact absurd (ht.symm.trans hb) hut
        · rw [ht, hu] at hb; cases hb
      · exact absurd (ht.symm.trans hb.1) hut
      · rcases hb with hb | hb
        · exact absurd (ht.symm.trans hb) hut
        · rw [ht, hu] at hb; cases hb
      · exact absurd (ht.symm.trans hb.1) hut
      · exact absurd (ht.symm.trans hb.1) hut
    · obtain ⟨b1, b2, b3, _⟩ := act_locked hp h1 hlid
      rw [b3] at ht
      rw [b1, b2]
      obtain ⟨c1, c2, c3⟩ := h o md l h1 ht
      exact ⟨c1, c2, fun e1 e2 => by
        obtain ⟨hh, hm⟩ := c3 e1 e2
        exact ⟨hh, act_outs_mem hm hlid⟩⟩
  · have : t' = t := hb
    simp [Mem.act] at ht
    exact absurd (ht.symm.trans this) hut

/-- Locks in force are in the tables. -/
def Outs (m : Mem) : Prop :=
  (∀ x ∈ m.outs, HeldOK m x.1 x.2) ∧ (m.outs.map Prod.fst).Nodup

theorem mem_revoke {outs : List (Nat × Out)} {l : Nat} {x : Nat × Out} :
    x ∈ revoke outs l ↔ x ∈ outs ∧ x.1 ≠ l := by
  simp [revoke]

theorem revoke_nodup {outs : List (Nat × Out)} {l : Nat} (h : (outs.map Prod.fst).Nodup) :
    ((revoke outs l).map Prod.fst).Nodup :=
  h.sublist (List.Sublist.map _ List.filter_sublist)

theorem act_outs {m : Mem} (hs : SOK m) {alive : Nat → Bool} {t : Nat} {a : Act} (hp : Pre m a)
    (hb : By m alive t a) (h : Outs m) : Outs (m.act a) := by
  obtain ⟨h1, h2⟩ := h
  -- a lock in force whose locker the action does not concern stays as it is
  have keep : ∀ l hh, HeldOK m l hh → a.lid ≠ some l → HeldOK (m.act a) l hh := by
    rintro l hh ⟨f, o, q1, q2, q3, q4, q5, q6, q7⟩ hlid
    have hc : ∀ o' md', a ≠ .cutL o' md' l := fun o' md' e => hlid (by rw [e]; rfl)
    obtain ⟨a1, a2, a3, a4, a5⟩ := act_att hs hp q1 hc
    obtain ⟨b1, b2, _, _⟩ := act_locked hp q1.2.2 hlid
    exact ⟨f, o, a1, a2.trans q2, by rw [a3]; exact q3, a4.trans q4, a5.trans q5, b1.trans q6,
      b2.trans q7⟩
  cases a with
  | cutL o md l =>
    refine ⟨?_, revoke_nodup h2⟩
    intro x hx
    obtain ⟨hx1, hx2⟩ := mem_revoke.mp hx
    exact keep _ _ (h1 x hx1) (by simp [Act.lid]; exact fun e => hx2 e.symm)
  | unl o l =>
    refine ⟨?_, revoke_nodup h2⟩
    intro x hx
    obtain ⟨hx1, hx2⟩ := mem_revoke.mp hx
    exact keep _ _ (h1 x hx1) (by simp [Act.lid]; exact fun e => hx2 e.symm)
  | take o md l =>
    refine ⟨?_, h2⟩
    intro x hx
    refine keep _ _ (h1 x hx) ?_
    simp only [Act.lid, ne_eq, Option.some.injEq]
    intro e
    obtain ⟨f, o, _, _, _, _, _, _, q7⟩ := h1 x hx
    rw [← e, hb.2] at q7; cases q7
  | unflag l =>
    refine ⟨?_, h2⟩
    intro x hx
    refine keep _ _ (h1 x hx) ?_
    simp only [Act.lid, ne_eq, Option.some.injEq]
    intro e
    obtain ⟨f, o, _, _, _, _, _, _, q7⟩ := h1 x hx
    rw [← e, hb.2] at q7; cases q7
  | flag l hh =>
    obtain ⟨b1, b2, f, o, c1, c2, c3, c4, c5, c6⟩ := hb
    have hnew : ∀ x ∈ m.outs, x.1 ≠ l := by
      intro x hx e
      obtain ⟨f, o, _, _, _, _, _, q6, _⟩ := h1 x hx
      rw [e, b2] at q6; cases q6
    refine ⟨?_, ?_⟩
    · intro x hx
      simp only [Mem.act, List.mem_cons] at hx
      rcases hx with rfl | hx
      · exact ⟨f, o, c1, c2, c3, c4, c5, by simp [Mem.act], c6⟩
      · exact keep _ _ (h1 x hx) (by simp [Act.lid]; exact fun e => hnew x hx e.symm)
    · simp only [Mem.act, List.map_cons, List.nodup_cons]
      refine ⟨?_, h2⟩
      intro hm
      rw [List.mem_map] at hm
      obtain ⟨x, hx, e⟩ := hm
      exact hnew x hx e
  | _ => exact ⟨fun x hx => keep _ _ (h1 x hx) (by simp [Act.lid]), h2⟩

/-- Everything but the acting thread's own view. -/
structure GInv (m : Mem) (alive : Nat → Bool) (pc : Nat → Pc) (t : Nat) : Prop where
  sok : SOK m
  outs : Outs m
  oth : ∀ u, u ≠ t → alive u = true → Own m u (pc u) ∧ WaitPart m u (pc u)

/-- The preconditions of a sequence of actions. -/
def OkAll (alive : Nat → Bool) (t : Nat) : Mem → List Act → Prop
  | _, [] => True
  | m, a :: as => Pre m a ∧ By m alive t a ∧ OkAll alive t (m.act a) as

theorem okAll_take {alive : Nat → Bool} {t : Nat} : ∀ {as : List Act} {m : Mem} (k : Nat),
    OkAll alive t m as → OkAll alive t m (as.take k) := by
  intro as
  induction as with
  | nil => intro m k _; simp [OkAll]
  | cons a as ih =>
    intro m k h
    cases k with
    | zero => simp [OkAll]
    | succ k => exact ⟨h.1, h.2.1, ih k h.2.2⟩

theorem ginv_act {m : Mem} {alive : Nat → Bool} {pc : Nat → Pc} {t : Nat}
    (h : GInv m alive pc t) {a : Act} (hp : Pre m a) (hb : By m alive t a) :
    GInv (m.act a) alive pc t :=
  ⟨act_sok h.sok hp, act_outs h.sok hp hb h.outs, fun u hut hu =>
    ⟨act_own hp hb hut hu (h.oth u hut hu).1, act_waitPart h.sok hp hb hut hu (h.oth u hut hu).2⟩⟩

theorem ginv_acts {alive : Nat → Bool} {pc : Nat → Pc} {t : Nat} : ∀ {as : List Act} {m : Mem},
    GInv m alive pc t → OkAll alive t m as → GInv (m.acts as) alive pc t := by
  intro as
  induction as with
  | nil => intro m h _; exact h
  | cons a as ih => intro m h hk; exact ih (ginv_act h hk.1 hk.2.1) hk.2.2

end Fullock.FL
