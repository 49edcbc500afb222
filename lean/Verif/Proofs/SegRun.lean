import Verif.Proofs.SegSame
import Verif.Props.FLMem
import Verif.Props.MCMem
/-! Runs of the whole segment follow runs of the two models. -/
namespace Fullock.Seg
open Fullock.ListMem hiding upd
open Fullock.Layout
open Fullock.FLMem (adr idx adr_inj' idx_adr FLP)
open Fullock.Props (NoWrap Limits)

variable {cnt : Pool → Nat}

/-! ### The fresh segment -/

theorem chain_ref {m : ListMem.Mem} {k : Pool} : ∀ {l : List Nat} {v : Nat}, Chain m v (l.map (adr cnt k)) →
    (∀ i ∈ l, i < cnt k) → Ref cnt k v ∧ ∀ i ∈ l, Ref cnt k (m (adr cnt k i))
  | [], v, h, _ => ⟨.inl h, by simp⟩
  | i :: l, v, h, hl => by
    obtain ⟨h1, h2, h3⟩ := h
    obtain ⟨g1, g2⟩ := chain_ref h3 fun j hj => hl j (List.mem_cons_of_mem _ hj)
    refine ⟨.inr ⟨i, hl i List.mem_cons_self, h1⟩, fun j hj => ?_⟩
    rcases List.mem_cons.1 hj with rfl | hj
    · exact g1
    · exact g2 j hj

theorem typed_init (hl : Limits cnt) {f f' : File} {os : List Sys} {b : Nat} {m : ListMem.Mem}
    (h : initializeShmFile cnt f true os (some b) = some (.ok f' m)) : Typed cnt m := by
  obtain ⟨hw, hpos⟩ := Props.noWrap_of_limits cnt hl
  obtain ⟨-, -, -, -, ⟨L, hwf, hL1, hL2⟩, hz⟩ := Props.C40_memory_partial cnt f f' os b m hl h
  have hfree : ∀ p, Chain m (m (freeCell p)) ((List.range (cnt p)).map (adr cnt p)) := by
    intro p
    have := hwf.chain (freeCell p) (by cases p <;> decide)
    rw [hL2 p] at this
    exact this
  have hf : ∀ p, Ref cnt p (m (freeCell p)) ∧ ∀ i < cnt p, Ref cnt p (m (adr cnt p i)) := by
    intro p
    obtain ⟨h1, h2⟩ := chain_ref (hfree p) (fun i hi => List.mem_range.1 hi)
    exact ⟨h1, fun i hi => h2 i (List.mem_range.2 hi)⟩
  have hhead : ∀ c, c = headCell 4 ∨ c = headCell 6 ∨ c = headCell 8 → m c = 0 := by
    intro c hc
    have := hwf.chain c (by rcases hc with rfl | rfl | rfl <;> decide)
    rw [hL1 c (by rcases hc with rfl | rfl | rfl <;> decide)] at this
    exact this
  have hin : ∀ c, 136 ≤ c → c + 8 ≤ total cnt → (∀ p i, i < cnt p → c ≠ areaOff cnt p + i * recSize p) → m c = 0 :=
    fun c h1 h2 h3 => hz c (by rw [Props.recSize_values.2.2.2.2.2.2]; exact h1) h2 h3
  obtain ⟨o1, o2, o3, o4, o5, o6, o7, o8, o9⟩ := Props.offs cnt hw
  obtain ⟨r1, r2, r3, r4, r5, r6, r7⟩ := Props.recSize_values
  have ht := Props.C40_areas_partial cnt hw
  simp only [r1, r2, r3, r4, r5, r6, r7] at ht
  obtain ⟨e1, e2, e3, e4, e5, e6, e7⟩ := FLMem.cell_eq cnt hw
  obtain ⟨f1, f2, f3, f4, f5, f6⟩ := MCMem.cell_eq cnt hw
  have hp := hpos
  rintro k a (⟨i, hi, rfl⟩ | ⟨hd, hb, rfl, rfl⟩ | ⟨hd, hb, rfl, rfl⟩)
  · exact (hf k).2 i hi
  · cases hd with
    | files => exact .inl (hhead _ (.inl rfl))
    | ffree => exact (hf .file).1
    | ofree => exact (hf .off).1
    | lfree => exact (hf .locker).1
    | offs i =>
      have hi : i < cnt .file := hb
      refine .inl (hin _ ?_ ?_ ?_)
      · rw [e5]; omega
      · rw [e5]; omega
      · intro p j hj
        rw [e5]
        have := hpos p
        cases p <;> simp only [r1, r2, r3, r4, r5, r6] <;> omega
    | lks i md =>
      have hi : i < cnt .off := hb
      cases md
      · refine .inl (hin _ ?_ ?_ ?_)
        · rw [e6]; omega
        · rw [e6]; omega
        · intro p j hj
          rw [e6]
          have := hpos p
          cases p <;> simp only [r1, r2, r3, r4, r5, r6] <;> omega
      · refine .inl (hin _ ?_ ?_ ?_)
        · rw [e7]; omega
        · rw [e7]; omega
        · intro p j hj
          rw [e7]
          have := hpos p
          cases p <;> simp only [r1, r2, r3, r4, r5, r6] <;> omega
  · cases hd with
    | mtxs => exact .inl (hhead _ (.inr (.inl rfl)))
    | conds => exact .inl (hhead _ (.inr (.inr rfl)))
    | mfree => exact (hf .nmtx).1
    | cfree => exact (hf .ncond).1
    | wfree => exact (hf .waiter).1
    | ws i =>
      have hi : i < cnt .ncond := hb
      refine .inl (hin _ ?_ ?_ ?_)
      · rw [f6]; omega
      · rw [f6]; omega
      · intro p j hj
        rw [f6]
        have := hpos p
        cases p <;> simp only [r1, r2, r3, r4, r5, r6] <;> omega

/-! ### The lists of the other kind -/

theorem mc_flp (h : MCMem.Head) : ¬ FLP h.pool := by cases h <;> exact id

theorem rep_mc (hw : NoWrap cnt) {m m' : ListMem.Mem} (F : Frame cnt FLP m m') {T : MCMem.Tab}
    (hs : MCMem.Sound cnt T) (hr : MCMem.Rep cnt m T) : MCMem.Rep cnt m' T := by
  intro h hb
  rw [F.2 _ _ (mc_flp h) (mcell hw hb)]
  refine chain_congr (fun r hr => ?_) (hr h hb)
  obtain ⟨i, hi, rfl⟩ := List.mem_map.1 hr
  exact F.2 _ _ (mc_flp h) (.inl ⟨i, hs.lt h i hi, rfl⟩)

theorem rep_fl (hw : NoWrap cnt) {m m' : ListMem.Mem} (F : Frame cnt MCP m m') {M : FL.Mem}
    (hb : FLMem.B cnt M) (hr : FLMem.Rep cnt m M) : FLMem.Rep cnt m' M := by
  intro h hl
  have hp : ¬ MCP h.pool := fun e => e (FLMem.pool_flp h)
  rw [F.2 _ _ hp (fcell hw (FLMem.live_hb hb hl))]
  refine chain_congr (fun r hr => ?_) (hr h hl)
  obtain ⟨i, hi, rfl⟩ := List.mem_map.1 hr
  exact F.2 _ _ hp (.inl ⟨i, FLMem.recs_lt hb hi, rfl⟩)

/-! ### Steps -/

/-- The segment is sound, its mutexes and conditions are those of `s`. -/
structure J (cnt : Pool → Nat) (base : Nat → Nat) (T : MCMem.Tab) (x : State) (s : MC.State) : Prop where
  cells : x.fl.cells = x.mc.mem.cells
  alive : x.fl.alive = x.mc.alive
  typed : Typed cnt x.fl.cells
  pcz : ∀ t, PcZ cnt (x.fl.pc t)
  sim : MCMem.Sim cnt base T x.mc s

/-- How an event on the segment is followed on the tables of mutexes and conditions. -/
inductive JFollow (s : MC.State) : Ev → MC.State → Prop
  | mc {e : MCMem.Ev} {s' : MC.State} : MCMem.Follow s e s' → JFollow s (.mc e) s'
  | die {t b k j : Nat} {c : FL.Choice} {s' : MC.State} : MC.step s (.die t) = some s' → JFollow s (.fl (.die t b c k j)) s'
  | call {t : Nat} {c : FL.Call} : JFollow s (.fl (.call t c)) s
  | go {t b : Nat} {c : FL.Choice} : JFollow s (.fl (.go t b c)) s

theorem fl_alive {fuel : Nat} {x x' : FLMem.State} {e : FLMem.Ev} (h : FLMem.step cnt fuel x e = some x') :
    (∃ t b c k j, e = .die t b c k j ∧ x.alive t = true ∧ x'.alive = FL.fset x.alive t false) ∨
    ((∀ t b c k j, e ≠ .die t b c k j) ∧ x'.alive = x.alive) := by
  cases e with
  | call t c =>
    simp only [FLMem.step] at h
    split at h
    · cases h
    · split at h
      · cases h; exact .inr ⟨by simp, rfl⟩
      · cases h
  | go t b c =>
    simp only [FLMem.step] at h
    split at h
    · cases h
    · split at h
      · split at h
        · cases h; exact .inr ⟨by simp, rfl⟩
        · cases h
      · cases h; exact .inr ⟨by simp, rfl⟩
      · obtain ⟨y, h1, h2⟩ := Option.bind_eq_some_iff.1 h
        obtain ⟨m', h3, rfl⟩ := Option.map_eq_some_iff.1 h2
        exact .inr ⟨by simp, rfl⟩
  | die t b c k j =>
    simp only [FLMem.step] at h
    split at h
    · cases h
    · rename_i ht
      obtain ⟨y, h1, rfl⟩ := Option.map_eq_some_iff.1 h
      exact .inl ⟨t, b, c, k, j, rfl, by simpa using ht, rfl⟩

theorem mc_alive {fuel : Nat} {base : Nat → Nat} {x x' : MCMem.State} {e : MCMem.Ev}
    (h : MCMem.step cnt fuel base x e = some x') :
    (∃ t c j, e = .die t c j ∧ x.alive t = true ∧ x'.alive = MC.upd x.alive t false) ∨
    ((∀ t c j, e ≠ .die t c j) ∧ x'.alive = x.alive) := by
  cases e with
  | call t c =>
    simp only [MCMem.step] at h
    split at h
    · cases h
    · split at h
      · cases h; exact .inr ⟨by simp, rfl⟩
      · cases h
  | go t c =>
    simp only [MCMem.step] at h
    split at h
    · cases h
    · obtain ⟨y, h1, rfl⟩ := Option.map_eq_some_iff.1 h
      exact .inr ⟨by simp, rfl⟩
  | die t c j =>
    simp only [MCMem.step] at h
    split at h
    · cases h
    · rename_i ht
      cases h
      exact .inl ⟨t, c, j, rfl, by simpa using ht, rfl⟩

theorem fset_upd {α : Type} (f : Nat → α) (t : Nat) (v : α) : FL.fset f t v = MC.upd f t v := by
  funext u; simp only [FL.fset, MC.upd]

theorem step_cases {fuel : Nat} {base : Nat → Nat} {x x' : State} {e : Ev} (h : step cnt fuel base x e = some x') :
    (∃ e' y, e = .fl e' ∧ FLMem.step cnt fuel x.fl e' = some y ∧ x' = fromFL x y) ∨
    (∃ e' y, e = .mc e' ∧ MCMem.step cnt fuel base x.mc e' = some y ∧ x' = fromMC x y ∧
      ∀ t c j, e' = .die t c j → idleFL x t = true) := by
  cases e with
  | fl e =>
    have h' : (FLMem.step cnt fuel x.fl e).map (fromFL x) = some x' := by
      cases e <;> simp only [step] at h <;> split at h <;> first | exact h | cases h
    obtain ⟨y, h1, rfl⟩ := Option.map_eq_some_iff.1 h'
    exact .inl ⟨e, y, rfl, h1, rfl⟩
  | mc e =>
    have h' : (MCMem.step cnt fuel base x.mc e).map (fromMC x) = some x' ∧ ∀ t c j, e = .die t c j → idleFL x t = true := by
      cases e <;> simp only [step] at h
      · split at h
        · exact ⟨h, by simp⟩
        · cases h
      · exact ⟨by simpa using h, by simp⟩
      · split at h
        · rename_i hok
          exact ⟨h, by rintro t c j ⟨⟩; exact hok⟩
        · cases h
    obtain ⟨h0, h2⟩ := h'
    obtain ⟨y, h1, rfl⟩ := Option.map_eq_some_iff.1 h0
    exact .inr ⟨e, y, rfl, h1, rfl, h2⟩

theorem j_step (hw : NoWrap cnt) {fuel : Nat} (hf : MCMem.Fuel cnt fuel) {base : Nat → Nat} {T : MCMem.Tab}
    {x x' : State} {s : MC.State} {e : Ev} (I : J cnt base T x s) (h : step cnt fuel base x e = some x') :
    ∃ T' s', JFollow s e s' ∧ J cnt base T' x' s' := by
  rcases step_cases h with ⟨e, y, rfl, h1, rfl⟩ | ⟨e, y, rfl, h1, rfl, hid⟩
  · obtain ⟨F, hz⟩ := fl_step hw I.typed I.pcz h1
    have hr : MCMem.Rep cnt y.cells T := rep_mc hw (by rw [← I.cells]; exact F) I.sim.snd I.sim.rep
    rcases fl_alive h1 with ⟨t, b, c, k, j, rfl, ta, ha⟩ | ⟨hne, ha⟩
    · rw [I.alive, I.sim.alive] at ta
      have hd : MC.step s (.die t) = some { s with alive := MC.upd s.alive t false } := by simp [MC.step, ta]
      refine ⟨T, _, .die hd, rfl, rfl, F.1, hz, ?_⟩
      have := MCMem.sim_die I.sim ta hd hr x.mc.pc fun _ _ => rfl
      simp only [fromFL, ha, I.alive, fset_upd]
      exact this
    · refine ⟨T, s, ?_, rfl, rfl, F.1, hz, ?_⟩
      · cases e with
        | call t c => exact .call
        | go t b c => exact .go
        | die t b c k j => exact absurd rfl (hne _ _ _ _ _)
      · refine ⟨I.sim.snd, hr, MCMem.data_cells I.sim.dat _, ?_, fun t ta => MCMem.pcr_cells (I.sim.pcs t ta) _, I.sim.recs⟩
        simp only [fromFL, ha, I.alive, I.sim.alive]
  · obtain ⟨T', s', hfl, S'⟩ := MCMem.sim_step hw hf I.sim h1
    have F := mc_step hw I.sim (by rw [← I.cells]; exact I.typed) h1
    exact ⟨T', s', .mc hfl, rfl, rfl, F.1, I.pcz, S'⟩

/-- With the file locks as well. -/
structure K (cnt : Pool → Nat) (base : Nat → Nat) (T : MCMem.Tab) (x : State) (s : MC.State) (sf : FL.State) : Prop where
  j : J cnt base T x s
  fl : FLMem.Sim cnt x.fl sf

/-- How an event on the segment is followed on the tables of the file locks. -/
inductive KFollow (x : State) (s : FL.State) : Ev → FL.State → Prop
  | fl {e : FLMem.Ev} {e' : FL.Ev} {s' : FL.State} : FLMem.Match e e' → FL.step s e' = some s' → KFollow x s (.fl e) s'
  | die {t j : Nat} {c : MC.Choice} {s' : FL.State} {r : Nat} : x.fl.pc t = .done r → FL.step s (.die t .go 0) = some s' →
      KFollow x s (.mc (.die t c j)) s'
  | call {t : Nat} {c : MC.Call} : KFollow x s (.mc (.call t c)) s
  | go {t : Nat} {c : MC.Choice} : KFollow x s (.mc (.go t c)) s

theorem k_step (hw : NoWrap cnt) {fuel : Nat} (hfm : MCMem.Fuel cnt fuel) (hff : FLMem.Fuel cnt fuel)
    {base : Nat → Nat} {T : MCMem.Tab} {x x' : State} {s : MC.State} {sf : FL.State} {e : Ev}
    (I : K cnt base T x s sf) (hwh : whole cnt fuel x e) (h : step cnt fuel base x e = some x') :
    ∃ T' s' sf', JFollow s e s' ∧ KFollow x sf e sf' ∧ K cnt base T' x' s' sf' := by
  obtain ⟨T', s', hj, I'⟩ := j_step hw hfm I.j h
  rcases step_cases h with ⟨e, y, rfl, h1, rfl⟩ | ⟨e, y, rfl, h1, rfl, hid⟩
  · obtain ⟨e', sf', m1, m2, m3⟩ := FLMem.sim_step hw hff I.fl hwh h1
    exact ⟨T', s', sf', hj, .fl m1 m2, I', m3⟩
  · have F := mc_step hw I.j.sim (by rw [← I.j.cells]; exact I.j.typed) h1
    rw [← I.j.cells] at F
    have hr := rep_fl hw F I.fl.bnd I.fl.rep
    rcases mc_alive h1 with ⟨t, c, j, rfl, ta, ha⟩ | ⟨hne, ha⟩
    · have hp : ∃ r, x.fl.pc t = .done r := by
        have := hid t c j rfl
        unfold idleFL at this
        split at this
        · rename_i r hr; exact ⟨r, hr⟩
        · cases this
      obtain ⟨r, hp⟩ := hp
      rw [← I.j.alive, I.fl.alive] at ta
      have hd : FL.step sf (.die t .go 0) = some { sf with alive := FL.fset sf.alive t false } := by
        simp [FL.step, ta, FL.Mem.acts]
      refine ⟨T', s', _, hj, .die hp hd, I', FLMem.sim_mk hw hff I.fl hd hr I.fl.pay I.fl.lockid ?_ I.fl.pc⟩
      simp only [fromMC, ha, ← I.j.alive, I.fl.alive, fset_upd]
    · refine ⟨T', s', sf, hj, ?_, I', hr, I.fl.pay, I.fl.lockid, ?_, I.fl.pc, I.fl.inv, I.fl.bnd, I.fl.pcb⟩
      · cases e with
        | call t c => exact .call
        | go t c => exact .go
        | die t c j => exact absurd rfl (hne _ _ _)
      · simp only [fromMC, ha, ← I.j.alive, I.fl.alive]

/-- Steps of the whole segment, seen by file locks that are alone in their segment. -/
theorem like_step (hw : NoWrap cnt) {fuel : Nat} {base : Nat → Nat} {T : MCMem.Tab}
    {x x' : State} {y : FLMem.State} {s : MC.State} {e : Ev} (I : J cnt base T x s) (L : Like cnt x.fl y)
    (h : step cnt fuel base x e = some x') :
    ∃ y', runFL cnt fuel y (toFL e).toList = some y' ∧ Like cnt x'.fl y' := by
  rcases step_cases h with ⟨e, z, rfl, h1, rfl⟩ | ⟨e, z, rfl, h1, rfl, hid⟩
  · obtain ⟨y', g1, g2⟩ := step_same hw I.typed I.pcz L h1
    exact ⟨y', by simp [toFL, runFL, g1], g2⟩
  · have F := mc_step hw I.sim (by rw [← I.cells]; exact I.typed) h1
    rw [← I.cells] at F
    have hc : Agree cnt FLP z.mem.cells y.cells := fun k a hk ha => by
      rw [L.cells k a hk ha, F.2 k a (fun e => e hk) ha]
    rcases mc_alive h1 with ⟨t, c, j, rfl, ta, ha⟩ | ⟨hne, ha⟩
    · have hp : ∃ r, x.fl.pc t = .done r := by
        have := hid t c j rfl
        unfold idleFL at this
        split at this
        · rename_i r hr; exact ⟨r, hr⟩
        · cases this
      obtain ⟨r, hp⟩ := hp
      rw [← I.alive, ← L.alive] at ta
      refine ⟨{ y with alive := FL.fset y.alive t false }, ?_, hc, L.pay, L.lockid, ?_, L.pc⟩
      · simp [toFL, runFL, FLMem.step, ta, L.pc, hp, FL.plan, FLMem.cut, FLMem.actsW, FL.Mem.acts]
      · simp only [fromMC, ha, L.alive, I.alive, fset_upd]
    · refine ⟨y, ?_, hc, L.pay, L.lockid, ?_, L.pc⟩
      · cases e with
        | call t c => rfl
        | go t c => rfl
        | die t c j => exact absurd rfl (hne _ _ _)
      · simp only [fromMC, ha, L.alive, I.alive]

end Fullock.Seg
