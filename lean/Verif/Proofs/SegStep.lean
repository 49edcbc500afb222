import Verif.Proofs.SegTyped
/-! Steps of one kind of calls keep the references of the right kind and leave those of the other kind. -/
namespace Fullock.Seg
open Fullock.ListMem hiding upd
open Fullock.Layout
open Fullock.FLMem (adr idx adr_inj' idx_adr FLP)
open Fullock.Props (NoWrap)

/-! ### File locks -/

section
variable (cnt : Pool → Nat)

/-- The record numbers held by a thread exist. -/
def PcZ : FL.Pc → Prop
  | .acq p => PcZ p
  | .rel p => PcZ p
  | .lOff _ f => f < cnt .file
  | .f2 _ _ f => f < cnt .file
  | .uFile _ f => f < cnt .file
  | .lFProt _ f o => f < cnt .file ∧ o < cnt .off
  | .lLk _ f o => f < cnt .file ∧ o < cnt .off
  | .uOff _ f o => f < cnt .file ∧ o < cnt .off
  | .lOProt _ f o l => f < cnt .file ∧ o < cnt .off ∧ l < cnt .locker
  | .spin _ f o l => f < cnt .file ∧ o < cnt .off ∧ l < cnt .locker
  | .setf _ f o l => f < cnt .file ∧ o < cnt .off ∧ l < cnt .locker
  | .rSet _ f o l => f < cnt .file ∧ o < cnt .off ∧ l < cnt .locker
  | .rChk _ f o l => f < cnt .file ∧ o < cnt .off ∧ l < cnt .locker
  | .f1 _ _ f o l => f < cnt .file ∧ o < cnt .off ∧ l < cnt .locker
  | .uWord _ f o l _ => f < cnt .file ∧ o < cnt .off ∧ l < cnt .locker
  | .uFlag _ f o l _ => f < cnt .file ∧ o < cnt .off ∧ l < cnt .locker
  | .uCut _ f o l _ => f < cnt .file ∧ o < cnt .off ∧ l < cnt .locker
  | _ => True

/-- The record numbers of an action exist. -/
def ActZ : FL.Act → Prop
  | .iniF f _ => f < cnt .file
  | .insF f => f < cnt .file
  | .cutF f => f < cnt .file
  | .pushF f => f < cnt .file
  | .drainO f => f < cnt .file
  | .insO f o _ => f < cnt .file ∧ o < cnt .off
  | .cutO f o => f < cnt .file ∧ o < cnt .off
  | .pushO o => o < cnt .off
  | .insL o _ l _ _ => o < cnt .off ∧ l < cnt .locker
  | .cutL o _ l => o < cnt .off ∧ l < cnt .locker
  | .pushL l => l < cnt .locker
  | _ => True

/-- The records seen in the tables exist. -/
structure BV (m : FL.Mem) : Prop where
  ff : ∀ f ∈ m.ffree, f < cnt .file
  fs : ∀ f ∈ m.files, f < cnt .file
  of : ∀ o ∈ m.ofree, o < cnt .off
  os : ∀ f < cnt .file, ∀ o ∈ m.offs f, o < cnt .off
  lf : ∀ l ∈ m.lfree, l < cnt .locker
  ls : ∀ o < cnt .off, ∀ md, ∀ l ∈ m.lks o md, l < cnt .locker

end

variable {cnt : Pool → Nat}

theorem sweep_z {m : FL.Mem} {o : Nat} {md : FL.Mode} {l : Nat} (ho : o < cnt .off) (hl : l < cnt .locker) :
    ∀ a ∈ FL.sweepActs m o md l, ActZ cnt a := by
  intro a ha
  unfold FL.sweepActs at ha
  split at ha <;> simp only [List.cons_append, List.nil_append, List.mem_cons, List.not_mem_nil, or_false] at ha
  · rcases ha with rfl | rfl | rfl <;> simp [ActZ, ho, hl]
  · rcases ha with rfl | rfl <;> simp [ActZ, ho, hl]

theorem plan_z {m : FL.Mem} (hb : BV cnt m) {alive : Nat → Bool} {t : Nat} {p : FL.Pc}
    {c : FL.Choice} {as : List FL.Act} {p' : FL.Pc} (hp : PcZ cnt p)
    (h : FL.plan m alive t p c = some (as, p')) : (∀ a ∈ as, ActZ cnt a) ∧ PcZ cnt p' := by
  obtain ⟨b1, b2, b3, b4, b5, b6⟩ := hb
  have a3 : ∀ op r, PcZ cnt (FL.after3 op r) := by
    intro op r; unfold FL.after3; split <;> trivial
  have a2 : ∀ op r f, f < cnt .file → PcZ cnt (FL.after2 op r f) := by
    intro op r f hf; unfold FL.after2; split
    · exact hf
    · exact a3 op r
  have ff : ∀ k f, FL.findFile m k = some f → f < cnt .file := fun k f h => b2 f (FL.findFile_some h).1
  have fo : ∀ f r o, f < cnt .file → FL.findOff m f r = some o → o < cnt .off :=
    fun f r o hf h => b4 f hf o (FL.findOff_some h).1
  have fl : ∀ o md t fd b l, o < cnt .off → FL.findLk m o md t fd b = some l → l < cnt .locker :=
    fun o md t fd b l ho h => b6 o ho md l (FL.findLk_some h).1
  have g1 : ∀ f l, m.ffree = f :: l → f < cnt .file := fun f l e => b1 f (by simp [e])
  have g2 : ∀ f l, m.ofree = f :: l → f < cnt .off := fun f l e => b3 f (by simp [e])
  have g3 : ∀ f l, m.lfree = f :: l → f < cnt .locker := fun f l e => b5 f (by simp [e])
  clear b1 b3 b5
  unfold FL.plan at h
  split at h
  all_goals
    repeat' split at h
    all_goals first
      | (cases h; done)
      | (obtain ⟨rfl, rfl⟩ := Option.some.inj h |> Prod.mk.inj
         first
         | (refine ⟨sweep_z ?_ ?_, ?_⟩ <;> simp only [PcZ] at hp ⊢ <;> grind)
         | (simp only [PcZ, List.forall_mem_cons, List.not_mem_nil, false_implies, implies_true, and_true, true_and,
              ActZ] at hp ⊢ <;> grind))

section
variable (hw : NoWrap cnt)
include hw

theorem idx_rec {k : Pool} {r : Nat} (b : Nat) (h : IsRec cnt k r) : idx cnt b k (toAbs b r) < cnt k := by
  obtain ⟨i, hi, rfl⟩ := h
  rwa [idx_adr]

theorem fcell {h : FLMem.Head} (hh : FLMem.HB cnt h) : IsCell cnt h.pool (FLMem.cell cnt h) :=
  .inr (.inl ⟨h, hh, rfl, rfl⟩)

theorem mcell {h : MCMem.Head} (hh : MCMem.HB cnt h) : IsCell cnt h.pool (MCMem.cell cnt h) :=
  .inr (.inr ⟨h, hh, rfl, rfl⟩)

theorem listed_lt {m : ListMem.Mem} (hm : Typed cnt m) (b fuel : Nat) {h : FLMem.Head} (hh : FLMem.HB cnt h) :
    ∀ i ∈ FLMem.listed cnt b fuel m h, i < cnt h.pool := by
  intro i hi
  obtain ⟨p, hp, rfl⟩ := List.mem_map.1 hi
  obtain ⟨r, hr, rfl⟩ := walk_typed hw b hm (hm _ _ (fcell hw hh)) p hp
  exact idx_rec hw b hr

theorem view_bv {m : ListMem.Mem} (hm : Typed cnt m) (b fuel : Nat) (pay : FL.Mem) :
    BV cnt (FLMem.view cnt b fuel m pay) :=
  ⟨listed_lt hw hm b fuel (h := .ffree) trivial, listed_lt hw hm b fuel (h := .files) trivial,
    listed_lt hw hm b fuel (h := .ofree) trivial, fun f hf => listed_lt hw hm b fuel (h := .offs f) hf,
    listed_lt hw hm b fuel (h := .lfree) trivial, fun o ho md => listed_lt hw hm b fuel (h := .lks o md) ho⟩

theorem op_tw {Q : Pool → Prop} {m : ListMem.Mem} (hm : Typed cnt m) {k : Pool} (hk : Q k) (b fuel : Nat) :
    (∀ r h, IsRec cnt k r → IsCell cnt k h → ∀ ws, writes b fuel m (.insert r h) = some ws → TW cnt Q ws) ∧
    (∀ h, IsCell cnt k h → ∀ ws, writes b fuel m (.retrieve h) = some ws → TW cnt Q ws) ∧
    (∀ r h, IsCell cnt k h → ∀ ws, writes b fuel m (.cutoff r h) = some ws → TW cnt Q ws) := by
  refine ⟨fun r h hr hh ws e => ?_, fun h hh ws e => ?_, fun r h hh ws e => ?_⟩
  · simp only [writes, Option.some.injEq] at e
    subst e
    cases e : insertW b m (toAbs b r) h with
    | none => exact TW.nil
    | some ws => exact insert_tw hw b hm hk hr hh e
  · simp only [writes, Option.some.injEq] at e
    subst e
    cases e : retrieveW b m h with
    | none => exact TW.nil
    | some x => exact (retrieve_tw hw (p := x.1) (ws := x.2) b hm hk hh e).1
  · simp only [writes] at e
    obtain ⟨o, h1, rfl⟩ := Option.map_eq_some_iff.1 e
    cases o with
    | none => exact TW.nil
    | some ws => exact cutoff_tw hw b hm hk hh h1

theorem pre_tw {a : FL.Act} (ha : ActZ cnt a) : TW cnt FLP (FLMem.pre cnt a) := by
  cases a <;> simp only [FLMem.pre, ActZ] at ha ⊢ <;> (try exact TW.nil) <;> intro w hw' <;>
    simp only [List.mem_cons, List.not_mem_nil, or_false] at hw'
  · rcases hw' with rfl | rfl
    · exact ⟨.file, trivial, .inl ⟨_, ha, rfl⟩, .inl rfl⟩
    · exact ⟨.off, trivial, fcell hw (h := .offs _) ha, .inl rfl⟩
  · rcases hw' with rfl | rfl | rfl
    · exact ⟨.off, trivial, .inl ⟨_, ha.2, rfl⟩, .inl rfl⟩
    · exact ⟨.locker, trivial, fcell hw (h := .lks _ .rd) ha.2, .inl rfl⟩
    · exact ⟨.locker, trivial, fcell hw (h := .lks _ .wr) ha.2, .inl rfl⟩
  · subst hw'
    exact ⟨.locker, trivial, .inl ⟨_, ha.2, rfl⟩, .inl rfl⟩

theorem act_tw {m : ListMem.Mem} (hm : Typed cnt m) {a : FL.Act} (ha : ActZ cnt a) {b fuel : Nat} {ws : List Write}
    (e : FLMem.actW cnt b fuel m a = some ws) : TW cnt FLP ws := by
  by_cases hd : ∀ f, a ≠ .drainO f
  · rw [FLMem.actW_eq hd] at e
    have hp := pre_tw hw ha
    have hm' := (typed_writes hw hm hp).1
    cases hl : FLMem.lop cnt a with
    | none =>
      rw [hl] at e
      cases e
      exact hp
    | some op =>
      rw [hl] at e
      obtain ⟨ws', h1, rfl⟩ := Option.map_eq_some_iff.1 e
      refine TW.append hp ?_
      obtain ⟨f1, f2, f3⟩ := op_tw hw hm' (k := .file) (Q := FLP) trivial b fuel
      obtain ⟨o1, o2, o3⟩ := op_tw hw hm' (k := .off) (Q := FLP) trivial b fuel
      obtain ⟨l1, l2, l3⟩ := op_tw hw hm' (k := .locker) (Q := FLP) trivial b fuel
      have hf : IsCell cnt .file (FLMem.cell cnt .files) := fcell hw (h := .files) trivial
      have hff : IsCell cnt .file (FLMem.cell cnt .ffree) := fcell hw (h := .ffree) trivial
      have hof : IsCell cnt .off (FLMem.cell cnt .ofree) := fcell hw (h := .ofree) trivial
      have hlf : IsCell cnt .locker (FLMem.cell cnt .lfree) := fcell hw (h := .lfree) trivial
      have ho : ∀ f < cnt .file, IsCell cnt .off (FLMem.cell cnt (.offs f)) := fun f h => fcell hw (h := .offs f) h
      have hk : ∀ o < cnt .off, ∀ md, IsCell cnt .locker (FLMem.cell cnt (.lks o md)) :=
        fun o h md => fcell hw (h := .lks o md) h
      cases a <;> simp only [FLMem.lop, Option.some.injEq, reduceCtorEq] at hl <;> subst hl <;> simp only [ActZ] at ha
      · exact f2 _ hff _ h1
      · exact o2 _ hof _ h1
      · exact l2 _ hlf _ h1
      · exact f1 _ _ ⟨_, ha, rfl⟩ hf _ h1
      · exact o1 _ _ ⟨_, ha.2, rfl⟩ (ho _ ha.1) _ h1
      · exact l1 _ _ ⟨_, ha.2, rfl⟩ (hk _ ha.1 _) _ h1
      · exact l3 _ _ (hk _ ha.1 _) _ h1
      · exact l1 _ _ ⟨_, ha, rfl⟩ hlf _ h1
      · exact o3 _ _ (ho _ ha.1) _ h1
      · exact o1 _ _ ⟨_, ha, rfl⟩ hof _ h1
      · exact f3 _ _ hf _ h1
      · exact f1 _ _ ⟨_, ha, rfl⟩ hff _ h1
  · simp only [not_forall, not_not] at hd
    obtain ⟨f, rfl⟩ := hd
    simp only [ActZ] at ha
    simp only [FLMem.actW, drainW] at e
    obtain ⟨ws', h1, rfl⟩ := Option.map_eq_some_iff.1 e
    have hc : IsCell cnt .off (FLMem.cell cnt (.offs f)) := fcell hw (h := .offs f) ha
    refine TW.append (drain_tw hw b (k := .off) trivial (fcell hw (h := .ofree) trivial) hm (hm _ _ hc) h1) ?_
    intro w hw'
    simp only [List.mem_cons, List.not_mem_nil, or_false] at hw'
    subst hw'
    exact ⟨.off, trivial, hc, .inl rfl⟩

/-- What a step may do to the cells. -/
def Frame (cnt : Pool → Nat) (Q : Pool → Prop) (m m' : ListMem.Mem) : Prop :=
  Typed cnt m' ∧ ∀ k a, ¬ Q k → IsCell cnt k a → m' a = m a

omit hw in
theorem Frame.refl {Q : Pool → Prop} {m : ListMem.Mem} (hm : Typed cnt m) : Frame cnt Q m m := ⟨hm, fun _ _ _ _ => rfl⟩

theorem acts_frame {b fuel : Nat} : ∀ {as : List FL.Act} {m m' : ListMem.Mem}, Typed cnt m → (∀ a ∈ as, ActZ cnt a) →
    FLMem.actsW cnt b fuel m as = some m' → Frame cnt FLP m m'
  | [], m, m', hm, _, e => by cases e; exact .refl hm
  | a :: as, m, m', hm, ha, e => by
    simp only [FLMem.actsW] at e
    obtain ⟨ws, h1, h2⟩ := Option.bind_eq_some_iff.1 e
    obtain ⟨g1, g2⟩ := typed_writes hw hm (act_tw hw hm (ha a List.mem_cons_self) h1)
    obtain ⟨k1, k2⟩ := acts_frame g1 (fun a h => ha a (List.mem_cons_of_mem _ h)) h2
    exact ⟨k1, fun k a hk hc => (k2 k a hk hc).trans (g2 k a hk hc)⟩

theorem cut_frame {b fuel : Nat} {m m' : ListMem.Mem} {pay pay' : FL.Mem} {as : List FL.Act} {k j : Nat}
    (hm : Typed cnt m) (hz : ∀ a ∈ as, ActZ cnt a) (h : FLMem.cut cnt b fuel m pay as k j = some (m', pay')) :
    Frame cnt FLP m m' := by
  simp only [FLMem.cut] at h
  obtain ⟨m1, h2, h3⟩ := Option.bind_eq_some_iff.1 h
  obtain ⟨k1, k2⟩ := acts_frame hw hm (fun a ha => hz a (List.mem_of_mem_take ha)) h2
  split at h3
  · cases h3
    exact ⟨k1, k2⟩
  · rename_i a l hd
    obtain ⟨ws, h4, h5⟩ := Option.map_eq_some_iff.1 h3
    cases h5
    have ha : ActZ cnt a := hz a (List.mem_of_mem_drop (by rw [hd]; simp))
    obtain ⟨g1, g2⟩ := typed_writes hw k1 ((act_tw hw k1 ha h4).take j)
    exact ⟨g1, fun k a hk hc => (g2 k a hk hc).trans (k2 k a hk hc)⟩

/-- Steps of the file locks. -/
theorem fl_step {fuel : Nat} {x x' : FLMem.State} {e : FLMem.Ev} (hm : Typed cnt x.cells) (hz : ∀ t, PcZ cnt (x.pc t))
    (h : FLMem.step cnt fuel x e = some x') : Frame cnt FLP x.cells x'.cells ∧ ∀ t, PcZ cnt (x'.pc t) := by
  have hset : ∀ t p, PcZ cnt p → ∀ u, PcZ cnt (FL.fset x.pc t p u) := by
    intro t p h2 u
    unfold FL.fset
    split
    · exact h2
    · exact hz u
  cases e with
  | call t c =>
    simp only [FLMem.step] at h
    split at h
    · cases h
    · split at h
      · cases h
        refine ⟨.refl hm, hset t _ ?_⟩
        cases c <;> trivial
      · cases h
  | go t b c =>
    simp only [FLMem.step] at h
    split at h
    · cases h
    · have hp := hz t
      split at h
      · rename_i p hpc
        split at h
        · cases h
          rw [hpc] at hp
          exact ⟨.refl hm, hset t p hp⟩
        · cases h
      · rename_i p hpc
        cases h
        rw [hpc] at hp
        exact ⟨.refl hm, hset t p hp⟩
      · obtain ⟨⟨as, p'⟩, h1, h2⟩ := Option.bind_eq_some_iff.1 h
        obtain ⟨m', h3, rfl⟩ := Option.map_eq_some_iff.1 h2
        obtain ⟨z1, z2⟩ := plan_z (view_bv hw hm b fuel x.pay) hp h1
        exact ⟨acts_frame hw hm z1 h3, hset t p' z2⟩
  | die t b c k j =>
    simp only [FLMem.step] at h
    split at h
    · cases h
    · obtain ⟨⟨m', pay'⟩, h1, rfl⟩ := Option.map_eq_some_iff.1 h
      refine ⟨?_, hz⟩
      refine cut_frame hw hm ?_ h1
      split
      · rename_i y hy
        exact (plan_z (as := y.1) (p' := y.2) (view_bv hw hm b fuel x.pay) (hz t) hy).1
      · simp

/-! ### Mutexes and conditions -/

theorem pop_tw {b : Nat} {x : MCMem.Mem} (hm : Typed cnt x.cells) {h : MCMem.Head} (hh : MCMem.HB cnt h)
    (hk : MCP h.pool) {i : Nat} {ws : List Write} (e : MCMem.pop cnt b x h = some (i, ws)) : TW cnt MCP ws := by
  unfold MCMem.pop at e
  obtain ⟨⟨p, ws'⟩, h1, h2⟩ := Option.map_eq_some_iff.1 e
  cases h2
  exact (retrieve_tw hw b hm hk (mcell hw hh) h1).1

theorem push_tw {b : Nat} {x : MCMem.Mem} (hm : Typed cnt x.cells) {h : MCMem.Head} (hh : MCMem.HB cnt h)
    (hk : MCP h.pool) {i : Nat} (hi : i < cnt h.pool) {ws : List Write} (e : MCMem.push cnt b x i h = some ws) :
    TW cnt MCP ws :=
  insert_tw hw b hm hk ⟨i, hi, rfl⟩ (mcell hw hh) e

open Fullock.MC (Kind LK UK Choice) in
theorem plan_tw {b fuel : Nat} {T : MCMem.Tab} {x : MCMem.Mem} {alive : Nat → Bool} {t : Nat} {p : MCMem.Pc}
    {q : MC.Pc} {c : Choice} {ws : List Write} {x' : MCMem.Mem} {p' : MCMem.Pc} (hm : Typed cnt x.cells)
    (hs : MCMem.Sound cnt T) (hq : MCMem.PcR cnt b T x alive p q)
    (h : MCMem.plan cnt fuel b x alive t p c = some (ws, x', p')) : TW cnt MCP ws := by
  have kn : MCP .nmtx := id
  have kc : MCP .ncond := id
  have kw : MCP .waiter := id
  have hpl : ∀ (x : MCMem.Mem) p, MCMem.plain x p = some (ws, x', p') → TW cnt MCP ws := by
    intro x p e; cases e; exact TW.nil
  have hpush : ∀ (h : MCMem.Head) i (f : List Write → List Write × MCMem.Mem × MCMem.Pc), MCMem.HB cnt h →
      MCP h.pool → i < cnt h.pool → (∀ ws, (f ws).1 = ws) → (MCMem.push cnt b x i h).map f = some (ws, x', p') →
      TW cnt MCP ws := by
    intro h i f hh hk hi hf e
    obtain ⟨ws', h1, h2⟩ := Option.map_eq_some_iff.1 e
    have := hf ws'
    rw [h2] at this
    subst this
    exact push_tw hw hm hh hk hi h1
  have hcut : ∀ cc ptr (f : List Write → MCMem.Mem × MCMem.Pc) (g : MCMem.Pc), MCMem.HB cnt (.ws cc) →
      (cutoffW b x.cells fuel ptr (MCMem.cell cnt (.ws cc))).bind (fun
        | some ws => some (ws, f ws)
        | none => MCMem.plain x g) = some (ws, x', p') → TW cnt MCP ws := by
    intro cc ptr f g hh e
    obtain ⟨o, h1, h2⟩ := Option.bind_eq_some_iff.1 e
    cases o with
    | none => exact hpl _ _ h2
    | some ws' =>
      simp only [Option.some.injEq, Prod.mk.injEq] at h2
      obtain ⟨rfl, -⟩ := h2
      exact cutoff_tw hw b hm kw (mcell hw hh) h1
  cases p
  case mFind n kd =>
    cases c <;> simp only [MCMem.plan, reduceCtorEq] at h
    obtain ⟨o, h1, h2⟩ := Option.bind_eq_some_iff.1 h
    split at h2
    · exact hpl _ _ h2
    · split at h2
      · exact hpl _ _ h2
      · rename_i e
        cases h2
        exact pop_tw hw hm (h := .mfree) trivial kn e
  case mIni m n kd =>
    cases c <;> simp only [MCMem.plan, reduceCtorEq] at h
    cases h
    intro w hw'
    simp only [List.mem_cons, List.not_mem_nil, or_false] at hw'
    subst hw'
    exact ⟨.nmtx, kn, .inl ⟨m, hq.1.1, rfl⟩, .inl rfl⟩
  case mIns m kd =>
    cases c <;> simp only [MCMem.plan, reduceCtorEq] at h
    exact hpush .mtxs _ _ trivial kn hq.1.1 (fun _ => rfl) h
  case wC nc m kd =>
    cases c <;> simp only [MCMem.plan, reduceCtorEq] at h
    obtain ⟨o, h1, h2⟩ := Option.bind_eq_some_iff.1 h
    split at h2
    · exact hpl _ _ h2
    · split at h2
      · exact hpl _ _ h2
      · rename_i e
        cases h2
        exact pop_tw hw hm (h := .cfree) trivial kc e
  case wNewI cc nc m kd =>
    cases c <;> simp only [MCMem.plan, reduceCtorEq] at h
    cases h
    intro w hw'
    simp only [List.mem_cons, List.not_mem_nil, or_false] at hw'
    rcases hw' with rfl | rfl
    · exact ⟨.ncond, kc, .inl ⟨cc, hq.1.1, rfl⟩, .inl rfl⟩
    · exact ⟨.waiter, kw, mcell hw (h := .ws cc) hq.1.1, .inl rfl⟩
  case wNew cc m kd =>
    cases c <;> simp only [MCMem.plan, reduceCtorEq] at h
    exact hpush .conds _ _ trivial kc hq.1.1 (fun _ => rfl) h
  case wGet cc m kd =>
    cases c <;> simp only [MCMem.plan, reduceCtorEq] at h
    split at h
    · exact hpl _ _ h
    · rename_i e
      cases h
      exact pop_tw hw hm (h := .wfree) trivial kw e
  case wIns cc w m kd =>
    cases c <;> simp only [MCMem.plan, reduceCtorEq] at h
    exact hpush (.ws cc) _ _ (hs.lt .conds _ hq.1) kw hq.2.2.1.1 (fun _ => rfl) h
  case wCut cc w m r =>
    cases c <;> simp only [MCMem.plan, reduceCtorEq] at h
    exact hcut cc _ _ _ (hs.lt .conds _ hq.1) h
  case wPut w r =>
    cases c <;> simp only [MCMem.plan, reduceCtorEq] at h
    exact hpush .wfree _ _ trivial kw hq.1.1 (fun _ => rfl) h
  case swCut cc parent cur =>
    cases c <;> simp only [MCMem.plan, reduceCtorEq] at h
    obtain ⟨pre, w, rest, hc, -⟩ := hq
    exact hcut cc _ _ _ (hs.lt .conds _ hc) h
  case swPut cc parent cur =>
    cases c <;> simp only [MCMem.plan, reduceCtorEq] at h
    obtain ⟨pre, w, rest, hc, -, -, rfl, hfr, -⟩ := hq
    obtain ⟨ws', h1, h2⟩ := Option.map_eq_some_iff.1 h
    cases h2
    exact push_tw hw hm (h := .wfree) trivial kw hfr.1 h1
  case lkCas m kd k =>
    simp only [MCMem.plan] at h
    split at h
    · split at h
      · exact hpl _ _ h
      · cases h
    · obtain ⟨o, h1, h2⟩ := Option.bind_eq_some_iff.1 h
      exact hpl _ _ h2
  all_goals
    clear hpush hcut hq hs hm
    cases c <;> simp only [MCMem.plan, reduceCtorEq, MCMem.plain] at h <;>
      (try simp only [Option.bind_eq_some_iff] at h) <;>
      grind [TW.nil]

/-- Steps of the mutexes and conditions. -/
theorem mc_step {fuel : Nat} {base : Nat → Nat} {T : MCMem.Tab} {x x' : MCMem.State} {s : MC.State} {e : MCMem.Ev}
    (S : MCMem.Sim cnt base T x s) (hm : Typed cnt x.mem.cells) (h : MCMem.step cnt fuel base x e = some x') :
    Frame cnt MCP x.mem.cells x'.mem.cells := by
  have key : ∀ t c r, x.alive t = true → MCMem.plan cnt fuel (base t) x.mem x.alive t (x.pc t) c = some r →
      TW cnt MCP r.1 := by
    rintro t c ⟨ws, x1, p1⟩ ta hp
    rw [S.alive] at ta hp
    exact plan_tw hw hm S.snd (S.pcs t ta) hp
  cases e with
  | call t c =>
    simp only [MCMem.step] at h
    split at h
    · cases h
    · split at h
      · cases h; exact .refl hm
      · cases h
  | go t c =>
    simp only [MCMem.step] at h
    split at h
    · cases h
    · rename_i ht
      obtain ⟨r, hr, rfl⟩ := Option.map_eq_some_iff.1 h
      exact typed_writes hw hm (key t c r (by simpa using ht) hr)
  | die t c j =>
    simp only [MCMem.step] at h
    split at h
    · cases h
    · rename_i ht
      cases h
      refine typed_writes hw hm (TW.take ?_ j)
      split
      · rename_i r hr
        exact key t c r (by simpa using ht) hr
      · exact TW.nil

end

end Fullock.Seg
