import Verif.Proofs.SegStep
/-! The file locks depend on the cells of their own kinds only. -/
namespace Fullock.Seg
open Fullock.ListMem hiding upd
open Fullock.Layout
open Fullock.FLMem (adr idx idx_adr FLP)
open Fullock.Props (NoWrap)

variable {cnt : Pool → Nat}

/-- The cells of the kinds in `Q` hold the same. -/
def Agree (cnt : Pool → Nat) (Q : Pool → Prop) (m m' : Mem) : Prop := ∀ k a, Q k → IsCell cnt k a → m' a = m a

theorem Agree.writes {Q : Pool → Prop} : ∀ {ws : List Write} {m m' : Mem}, Agree cnt Q m m' →
    Agree cnt Q (applyWrites m ws) (applyWrites m' ws)
  | [], m, m', h => h
  | w :: ws, m, m', h => by
    refine Agree.writes (ws := ws) (m := m.set w.1 w.2) (m' := m'.set w.1 w.2) fun k a hk ha => ?_
    simp only [Mem.set]
    split
    · rfl
    · exact h k a hk ha

section
variable (hw : NoWrap cnt)
include hw

theorem insert_same {m m' : Mem} (b p h : Nat) (hs : m' h = m h) : insertW b m' p h = insertW b m p h := by
  simp only [insertW, hs]

theorem retrieve_same {k : Pool} {m m' : Mem} (b : Nat) (hm : Typed cnt m) (hs : ∀ a, IsCell cnt k a → m' a = m a)
    {h : Nat} (hh : IsCell cnt k h) : retrieveW b m' h = retrieveW b m h := by
  simp only [retrieveW, hs h hh]
  split
  · rfl
  · rename_i hne
    have hr := (hm k h hh).resolve_left hne
    rw [nextCell_abs hw b hr, hs _ (.inl hr)]

theorem cutLoop_same {k : Pool} {m m' : Mem} (b : Nat) (hm : Typed cnt m) (hs : ∀ a, IsCell cnt k a → m' a = m a)
    (p : Nat) : ∀ {fuel c v : Nat}, Ref cnt k v → cutLoop b m' p fuel c (toAbs b v) = cutLoop b m p fuel c (toAbs b v)
  | 0, c, v, hv => rfl
  | fuel + 1, c, v, hv => by
    unfold cutLoop
    split
    · rfl
    · rename_i h0
      have hr := abs_eq_zero hw b hv h0
      rw [nextCell_abs hw b hr, hs _ (.inl hr)]
      rw [cutLoop_same b hm hs p (hm k v (.inl hr))]

theorem cutoff_same {k : Pool} {m m' : Mem} (b : Nat) (hm : Typed cnt m) (hs : ∀ a, IsCell cnt k a → m' a = m a)
    {h r fuel : Nat} (hh : IsCell cnt k h) (hr : IsRec cnt k r) :
    cutoffW b m' fuel (toAbs b r) h = cutoffW b m fuel (toAbs b r) h := by
  simp only [cutoffW, hs h hh, cutLoop_same hw b hm hs _ (hm k h hh), nextCell_abs hw b hr, hs r (.inl hr)]

theorem drain_same {k : Pool} (b : Nat) {fr : Nat} (hf : IsCell cnt k fr) : ∀ {fuel : Nat} {m m' : Mem} {v : Nat},
    Typed cnt m → (∀ a, IsCell cnt k a → m' a = m a) → Ref cnt k v →
    drainLoop b fr fuel m' (toAbs b v) = drainLoop b fr fuel m (toAbs b v)
  | 0, m, m', v, hm, hs, hv => rfl
  | fuel + 1, m, m', v, hm, hs, hv => by
    unfold drainLoop
    split
    · rfl
    · rename_i h0
      have hr := abs_eq_zero hw b hv h0
      rw [nextCell_abs hw b hr, hs _ (.inl hr), insert_same hw b _ _ (hs _ hf)]
      have hi : TW cnt (fun _ => True) ((insertW b m (toAbs b v) fr).getD []) := by
        cases hi : insertW b m (toAbs b v) fr with
        | none => exact TW.nil
        | some ws => exact insert_tw hw b hm trivial hr hf hi
      have hag : Agree cnt (· = k) m m' := by rintro _ a rfl ha; exact hs a ha
      simp only
      rw [drain_same b hf (typed_writes hw hm hi).1 (fun a ha => hag.writes k a rfl ha) (hm k v (.inl hr))]

/-- One action. -/
theorem act_same {m m' : Mem} (hm : Typed cnt m) (hs : Agree cnt FLP m m') {a : FL.Act} (ha : ActZ cnt a) (b fuel : Nat) :
    FLMem.actW cnt b fuel m' a = FLMem.actW cnt b fuel m a := by
  have hf : IsCell cnt .file (FLMem.cell cnt .files) := fcell hw (h := .files) trivial
  have hff : IsCell cnt .file (FLMem.cell cnt .ffree) := fcell hw (h := .ffree) trivial
  have hof : IsCell cnt .off (FLMem.cell cnt .ofree) := fcell hw (h := .ofree) trivial
  have hlf : IsCell cnt .locker (FLMem.cell cnt .lfree) := fcell hw (h := .lfree) trivial
  have ho : ∀ f < cnt .file, IsCell cnt .off (FLMem.cell cnt (.offs f)) := fun f h => fcell hw (h := .offs f) h
  have hk : ∀ o < cnt .off, ∀ md, IsCell cnt .locker (FLMem.cell cnt (.lks o md)) :=
    fun o h md => fcell hw (h := .lks o md) h
  by_cases hd : ∀ f, a ≠ .drainO f
  · rw [FLMem.actW_eq hd, FLMem.actW_eq hd]
    have hm' := (typed_writes hw hm (pre_tw hw ha)).1
    have hs' := hs.writes (ws := FLMem.pre cnt a)
    cases hl : FLMem.lop cnt a with
    | none => rfl
    | some op =>
      simp only
      congr 1
      generalize applyWrites m (FLMem.pre cnt a) = M at hm' hs'
      generalize applyWrites m' (FLMem.pre cnt a) = M' at hs'
      have i : ∀ k, FLP k → ∀ p h, IsCell cnt k h → writes b fuel M' (.insert p h) = writes b fuel M (.insert p h) := by
        intro k hk p h hh
        simp only [writes, insert_same hw b _ _ (hs' k h hk hh)]
      have r : ∀ k, FLP k → ∀ h, IsCell cnt k h → writes b fuel M' (.retrieve h) = writes b fuel M (.retrieve h) := by
        intro k hk h hh
        simp only [writes, retrieve_same hw b hm' (fun a ha => hs' k a hk ha) hh]
      have c : ∀ k, FLP k → ∀ p h, IsRec cnt k p → IsCell cnt k h →
          writes b fuel M' (.cutoff p h) = writes b fuel M (.cutoff p h) := by
        intro k hk p h hp hh
        simp only [writes, cutoff_same hw b hm' (fun a ha => hs' k a hk ha) hh hp]
      cases a <;> simp only [FLMem.lop, Option.some.injEq, reduceCtorEq] at hl <;> subst hl <;> simp only [ActZ] at ha
      · exact r .file trivial _ hff
      · exact r .off trivial _ hof
      · exact r .locker trivial _ hlf
      · exact i .file trivial _ _ hf
      · exact i .off trivial _ _ (ho _ ha.1)
      · exact i .locker trivial _ _ (hk _ ha.1 _)
      · exact c .locker trivial _ _ ⟨_, ha.2, rfl⟩ (hk _ ha.1 _)
      · exact i .locker trivial _ _ hlf
      · exact c .off trivial _ _ ⟨_, ha.2, rfl⟩ (ho _ ha.1)
      · exact i .off trivial _ _ hof
      · exact c .file trivial _ _ ⟨_, ha, rfl⟩ hf
      · exact i .file trivial _ _ hff
  · simp only [not_forall, not_not] at hd
    obtain ⟨f, rfl⟩ := hd
    simp only [ActZ] at ha
    simp only [FLMem.actW, drainW]
    rw [hs .off _ trivial (ho f ha), drain_same hw b hof hm (fun a ha => hs .off a trivial ha) (hm _ _ (ho f ha))]

theorem acts_same {b fuel : Nat} : ∀ {as : List FL.Act} {m m' m1 : Mem}, Typed cnt m → Agree cnt FLP m m' →
    (∀ a ∈ as, ActZ cnt a) → FLMem.actsW cnt b fuel m as = some m1 →
    ∃ m2, FLMem.actsW cnt b fuel m' as = some m2 ∧ Agree cnt FLP m1 m2
  | [], m, m', m1, hm, hs, _, e => by cases e; exact ⟨m', rfl, hs⟩
  | a :: as, m, m', m1, hm, hs, ha, e => by
    simp only [FLMem.actsW] at e ⊢
    obtain ⟨ws, h1, h2⟩ := Option.bind_eq_some_iff.1 e
    rw [act_same hw hm hs (ha a List.mem_cons_self), h1]
    exact acts_same (typed_writes hw hm (act_tw hw hm (ha a List.mem_cons_self) h1)).1 hs.writes
      (fun a h => ha a (List.mem_cons_of_mem _ h)) h2

theorem cut_same {b fuel : Nat} {m m' m1 : Mem} {pay pay' : FL.Mem} {as : List FL.Act} {k j : Nat}
    (hm : Typed cnt m) (hs : Agree cnt FLP m m') (hz : ∀ a ∈ as, ActZ cnt a)
    (h : FLMem.cut cnt b fuel m pay as k j = some (m1, pay')) :
    ∃ m2, FLMem.cut cnt b fuel m' pay as k j = some (m2, pay') ∧ Agree cnt FLP m1 m2 := by
  simp only [FLMem.cut] at h ⊢
  obtain ⟨n1, h2, h3⟩ := Option.bind_eq_some_iff.1 h
  have hz1 : ∀ a ∈ as.take k, ActZ cnt a := fun a ha => hz a (List.mem_of_mem_take ha)
  obtain ⟨n2, h4, h5⟩ := acts_same hw hm hs hz1 h2
  have k1 := (acts_frame hw hm hz1 h2).1
  rw [h4]
  simp only [Option.bind_some]
  split at h3
  · cases h3
    exact ⟨n2, rfl, h5⟩
  · rename_i a l hd
    obtain ⟨ws, h6, h7⟩ := Option.map_eq_some_iff.1 h3
    cases h7
    rw [act_same hw k1 h5 (hz a (List.mem_of_mem_drop (by rw [hd]; simp))), h6]
    exact ⟨_, rfl, h5.writes⟩

/-- What is seen of the lists. -/
theorem listed_same {m m' : Mem} (hm : Typed cnt m) (hs : Agree cnt FLP m m') (b fuel : Nat) {h : FLMem.Head}
    (hh : FLMem.HB cnt h) : FLMem.listed cnt b fuel m' h = FLMem.listed cnt b fuel m h := by
  have hp := FLMem.pool_flp h
  have hc := fcell hw hh
  simp only [FLMem.listed]
  rw [hs _ _ hp hc, walk_same hw b hm (fun a ha => hs _ a hp ha) (hm _ _ hc)]

theorem plan_same {m m' : Mem} (hm : Typed cnt m) (hs : Agree cnt FLP m m') (b fuel : Nat) (pay : FL.Mem)
    {alive : Nat → Bool} {t : Nat} {p : FL.Pc} (hp : PcZ cnt p) (c : FL.Choice) :
    FL.plan (FLMem.view cnt b fuel m' pay) alive t p c = FL.plan (FLMem.view cnt b fuel m pay) alive t p c := by
  have hb := view_bv hw hm b fuel pay
  have e1 := listed_same hw hm hs b fuel (h := .files) trivial
  have e2 := listed_same hw hm hs b fuel (h := .ffree) trivial
  have e3 := listed_same hw hm hs b fuel (h := .ofree) trivial
  have e4 := listed_same hw hm hs b fuel (h := .lfree) trivial
  have e5 : ∀ f < cnt .file, (FLMem.view cnt b fuel m' pay).offs f = (FLMem.view cnt b fuel m pay).offs f :=
    fun f hf => listed_same hw hm hs b fuel (h := .offs f) hf
  have e6 : ∀ o < cnt .off, ∀ md, (FLMem.view cnt b fuel m' pay).lks o md = (FLMem.view cnt b fuel m pay).lks o md :=
    fun o ho md => listed_same hw hm hs b fuel (h := .lks o md) ho
  have h1 : (FLMem.view cnt b fuel m' pay).files = (FLMem.view cnt b fuel m pay).files := e1
  have h2 : (FLMem.view cnt b fuel m' pay).ffree = (FLMem.view cnt b fuel m pay).ffree := e2
  have h3 : (FLMem.view cnt b fuel m' pay).ofree = (FLMem.view cnt b fuel m pay).ofree := e3
  have h4 : (FLMem.view cnt b fuel m' pay).lfree = (FLMem.view cnt b fuel m pay).lfree := e4
  have p1 : (FLMem.view cnt b fuel m' pay).key = (FLMem.view cnt b fuel m pay).key := rfl
  have p2 : (FLMem.view cnt b fuel m' pay).rng = (FLMem.view cnt b fuel m pay).rng := rfl
  have p3 : (FLMem.view cnt b fuel m' pay).ltid = (FLMem.view cnt b fuel m pay).ltid := rfl
  have p4 : (FLMem.view cnt b fuel m' pay).lfd = (FLMem.view cnt b fuel m pay).lfd := rfl
  have p5 : (FLMem.view cnt b fuel m' pay).locked = (FLMem.view cnt b fuel m pay).locked := rfl
  have p6 : (FLMem.view cnt b fuel m' pay).oprot = (FLMem.view cnt b fuel m pay).oprot := rfl
  have p7 : (FLMem.view cnt b fuel m' pay).fprot = (FLMem.view cnt b fuel m pay).fprot := rfl
  have p8 : (FLMem.view cnt b fuel m' pay).word = (FLMem.view cnt b fuel m pay).word := rfl
  generalize FLMem.view cnt b fuel m' pay = V' at *
  generalize FLMem.view cnt b fuel m pay = V at *
  clear e1 e2 e3 e4
  have ff : ∀ k, FL.findFile V' k = FL.findFile V k := fun k => by unfold FL.findFile; rw [h1, p1]
  have fo : ∀ f r, f < cnt .file → FL.findOff V' f r = FL.findOff V f r := fun f r hf => by
    unfold FL.findOff; rw [e5 f hf, p2]
  have fl : ∀ o md t fd b, o < cnt .off → FL.findLk V' o md t fd b = FL.findLk V o md t fd b := fun o md t fd b ho => by
    unfold FL.findLk; rw [e6 o ho, p3, p4, p5]
  have ol : ∀ o, o < cnt .off → FL.oLocked V' o = FL.oLocked V o := fun o ho => by
    unfold FL.oLocked; rw [e6 o ho, e6 o ho, p6]
  have flk : ∀ f, f < cnt .file → FL.fLocked V' f = FL.fLocked V f := fun f hf => by
    unfold FL.fLocked
    rw [e5 f hf, p7]
    congr 1
    rw [Bool.eq_iff_iff, List.any_eq_true, List.any_eq_true]
    constructor
    · rintro ⟨o, ho, e⟩; exact ⟨o, ho, by rwa [ol o (hb.os f hf o ho)] at e⟩
    · rintro ⟨o, ho, e⟩; exact ⟨o, ho, by rwa [ol o (hb.os f hf o ho)]⟩
  have sw : ∀ o md l, FL.sweepActs V' o md l = FL.sweepActs V o md l := fun o md l => by
    unfold FL.sweepActs; rw [p5]
  cases p with
  | lFile op => cases c <;> simp only [FL.plan, ff, h2]
  | lOff op f => cases c <;> simp only [FL.plan, fo f _ hp, h3]
  | lLk op f o => cases c <;> simp only [FL.plan, h4]
  | spin op f o l => cases c <;> simp only [FL.plan, p8]
  | rChk op f o l =>
    cases c with
    | lk o' md l' => simp only [FL.plan, p3, sw, e6 o hp.2.1]
    | _ => simp only [FL.plan]
  | f1 op r f o l => cases c <;> simp only [FL.plan, fl o _ _ _ _ hp.2.1]
  | f2 op r f =>
    cases c with
    | go =>
      simp only [FL.plan, fo f _ hp]
      cases e : FL.findOff V f op.rng with
      | none => rfl
      | some o => simp only [ol o (hb.os f hp o (FL.findOff_some e).1)]
    | _ => simp only [FL.plan]
  | f3 op r =>
    cases c with
    | go =>
      simp only [FL.plan, ff]
      cases e : FL.findFile V op.key with
      | none => rfl
      | some f => simp only [flk f (hb.fs f (FL.findFile_some e).1)]
    | _ => simp only [FL.plan]
  | uFind op =>
    cases c with
    | go =>
      simp only [FL.plan, ff]
      cases e : FL.findFile V op.key with
      | none => rfl
      | some f =>
        have hf := hb.fs f (FL.findFile_some e).1
        simp only [fo f _ hf]
        cases e2 : FL.findOff V f op.rng with
        | none => rfl
        | some o => simp only [fl o _ _ _ _ (hb.os f hf o (FL.findOff_some e2).1)]
    | _ => simp only [FL.plan]
  | uOff op f o => cases c <;> simp only [FL.plan, ol o hp.2]
  | uFile op f => cases c <;> simp only [FL.plan, flk f hp]
  | qry op =>
    cases c with
    | go =>
      simp only [FL.plan, ff]
      cases e : FL.findFile V op.key with
      | none => rfl
      | some f => simp only [flk f (hb.fs f (FL.findFile_some e).1)]
    | _ => simp only [FL.plan]
  | sw =>
    cases c with
    | lk o md l =>
      simp only [FL.plan, p3, sw, h1]
      have : ((∃ f ∈ V.files, o ∈ V'.offs f) ∧ l ∈ V'.lks o md ∧ alive (V.ltid l) = false) ↔
          ((∃ f ∈ V.files, o ∈ V.offs f) ∧ l ∈ V.lks o md ∧ alive (V.ltid l) = false) := by
        constructor
        · rintro ⟨⟨f, hf, ho⟩, h2, h3⟩
          have hf' := hb.fs f hf
          rw [e5 f hf'] at ho
          rw [e6 o (hb.os f hf' o ho)] at h2
          exact ⟨⟨f, hf, ho⟩, h2, h3⟩
        · rintro ⟨⟨f, hf, ho⟩, h2, h3⟩
          have hf' := hb.fs f hf
          rw [← e6 o (hb.os f hf' o ho)] at h2
          exact ⟨⟨f, hf, by rwa [e5 f hf']⟩, h2, h3⟩
      simp only [this]
    | off f o =>
      simp only [FL.plan, h1]
      have : (f ∈ V.files ∧ o ∈ V'.offs f ∧ FL.oLocked V' o = false) ↔
          (f ∈ V.files ∧ o ∈ V.offs f ∧ FL.oLocked V o = false) := by
        constructor
        · rintro ⟨hf, ho, h3⟩
          have hf' := hb.fs f hf
          rw [e5 f hf'] at ho
          rw [ol o (hb.os f hf' o ho)] at h3
          exact ⟨hf, ho, h3⟩
        · rintro ⟨hf, ho, h3⟩
          have hf' := hb.fs f hf
          rw [← ol o (hb.os f hf' o ho)] at h3
          exact ⟨hf, by rwa [e5 f hf'], h3⟩
      simp only [this]
    | file f =>
      simp only [FL.plan, h1]
      have : (f ∈ V.files ∧ V'.offs f = [] ∧ FL.fLocked V' f = false) ↔
          (f ∈ V.files ∧ V.offs f = [] ∧ FL.fLocked V f = false) :=
        and_congr_right fun hf => by rw [e5 f (hb.fs f hf), flk f (hb.fs f hf)]
      simp only [this]
    | _ => rfl
  | _ => cases c <;> rfl

/-- The file locks of two segments are in the same state. -/
structure Like (cnt : Pool → Nat) (x y : FLMem.State) : Prop where
  cells : Agree cnt FLP x.cells y.cells
  pay : y.pay = x.pay
  lockid : y.lockid = x.lockid
  alive : y.alive = x.alive
  pc : y.pc = x.pc

theorem step_same {fuel : Nat} {x x' y : FLMem.State} {e : FLMem.Ev} (hm : Typed cnt x.cells)
    (hz : ∀ t, PcZ cnt (x.pc t)) (hl : Like cnt x y) (h : FLMem.step cnt fuel x e = some x') :
    ∃ y', FLMem.step cnt fuel y e = some y' ∧ Like cnt x' y' := by
  obtain ⟨l1, l2, l3, l4, l5⟩ := hl
  obtain ⟨yc, yp, yl, ya, ypc⟩ := y
  simp only at l1 l2 l3 l4 l5
  subst l2 l3 l4 l5
  cases e with
  | call t c =>
    simp only [FLMem.step] at h ⊢
    split at h
    · cases h
    · rename_i hc
      rw [if_neg hc]
      split at h
      · cases h
        rename_i hd
        exact ⟨_, rfl, l1, rfl, rfl, rfl, rfl⟩
      · cases h
  | go t b c =>
    simp only [FLMem.step] at h ⊢
    split at h
    · cases h
    · rename_i hc
      rw [if_neg hc]
      have hp := hz t
      split at h
      · rename_i p hpc
        split at h
        · rename_i hlk
          rw [if_pos hlk]
          cases h
          exact ⟨_, rfl, l1, rfl, rfl, rfl, rfl⟩
        · cases h
      · rename_i p hpc
        cases h
        exact ⟨_, rfl, l1, rfl, rfl, rfl, rfl⟩
      · obtain ⟨⟨as, p'⟩, h1, h2⟩ := Option.bind_eq_some_iff.1 h
        obtain ⟨m', h3, rfl⟩ := Option.map_eq_some_iff.1 h2
        obtain ⟨z1, z2⟩ := plan_z (view_bv hw hm b fuel x.pay) hp h1
        obtain ⟨m2, g1, g2⟩ := acts_same hw hm l1 z1 h3
        rw [plan_same hw hm l1 b fuel _ hp, h1]
        simp only [Option.bind_some, g1, Option.map_some]
        exact ⟨_, rfl, g2, rfl, rfl, rfl, rfl⟩
  | die t b c k j =>
    simp only [FLMem.step] at h ⊢
    split at h
    · cases h
    · rename_i hc
      rw [if_neg hc]
      obtain ⟨⟨m', pay'⟩, h1, rfl⟩ := Option.map_eq_some_iff.1 h
      rw [plan_same hw hm l1 b fuel _ (hz t)]
      obtain ⟨m2, g1, g2⟩ := cut_same hw hm l1 (by
        split
        · rename_i y hy
          exact (plan_z (as := y.1) (p' := y.2) (view_bv hw hm b fuel x.pay) (hz t) hy).1
        · simp) h1
      rw [g1]
      exact ⟨_, rfl, g2, rfl, rfl, rfl, rfl⟩

end

end Fullock.Seg
