import Verif.Proofs.FLMem
/-! The machine on memory cells and the machine on lists take the same steps. -/
namespace Fullock.FLMem
open Fullock.ListMem Fullock.Layout
open Fullock.Props (NoWrap)

/-! ### Reading -/

theorem walk_chain {c : Mem} (b : Nat) : ∀ {rs : List Nat} {v fuel : Nat}, Chain c v rs → rs.length < fuel →
    walk b c fuel (toAbs b v) = rs.map (toAbs b)
  | [], v, fuel + 1, h, _ => by
    have h : v = 0 := h
    simp [walk, h, toAbs]
  | r :: rs, v, fuel + 1, h, hf => by
    obtain ⟨h1, h2, h3⟩ := h
    subst h1
    rw [walk, if_neg (fun e => h2 (toAbs_eq_zero.1 e)), nextCell_toAbs h2,
      walk_chain b h3 (by simpa using hf)]
    rfl

theorem listed_eq {cnt : Pool → Nat} {c : Mem} {m : FL.Mem} (hb : B cnt m) (hs : FL.SOK m) (hr : Rep cnt c m)
    {fuel : Nat} (hf : Fuel cnt fuel) (b : Nat) {h : Head} (hl : Live cnt m h) :
    listed cnt b fuel c h = recs m h := by
  unfold listed
  rw [walk_chain b (hr h hl) (by rw [List.length_map]; exact recs_len hb hs h hf), List.map_map, List.map_map]
  conv_rhs => rw [← List.map_id (recs m h)]
  exact List.map_congr_left fun i _ => idx_adr cnt b h.pool i

theorem view_sameLive {cnt : Pool → Nat} {c : Mem} {m pay : FL.Mem} (hb : B cnt m) (hs : FL.SOK m)
    (hr : Rep cnt c m) (hp : SamePay m pay) {fuel : Nat} (hf : Fuel cnt fuel) (b : Nat) :
    SameLive cnt m (view cnt b fuel c pay) where
  pay := ⟨hp.key, hp.fprot, hp.rng, hp.word, hp.oprot, hp.ltid, hp.lfd, hp.locked, hp.taken, hp.outs⟩
  files := (listed_eq hb hs hr hf b (h := .files) trivial).symm
  ffree := (listed_eq hb hs hr hf b (h := .ffree) trivial).symm
  ofree := (listed_eq hb hs hr hf b (h := .ofree) trivial).symm
  lfree := (listed_eq hb hs hr hf b (h := .lfree) trivial).symm
  offs := fun f h => (listed_eq hb hs hr hf b (h := .offs f) h).symm
  lks := fun f h o ho md => (listed_eq hb hs hr hf b (h := .lks o md) ⟨f, h, ho⟩).symm

/-- The file record number kept after a failed lock call is in range. -/
def PcB (n : Nat) : FL.Pc → Prop
  | .acq p => PcB n p
  | .rel p => PcB n p
  | .f2 _ _ f => f < n
  | _ => True

section congr
variable {cnt : Pool → Nat} {m m' : FL.Mem} (h : SameLive cnt m m')
include h

theorem findFile_congr (k : DevIno) : FL.findFile m' k = FL.findFile m k := by
  unfold FL.findFile; rw [h.files, h.pay.key]

theorem findOff_congr {f : Nat} (hf : f < cnt .file) (r : Rng) : FL.findOff m' f r = FL.findOff m f r := by
  unfold FL.findOff; rw [h.offs f hf, h.pay.rng]

theorem findLk_congr {f o : Nat} (hf : f < cnt .file) (ho : o ∈ m.offs f) (md : FL.Mode) (t : Nat) (fd : Int)
    (b : Bool) : FL.findLk m' o md t fd b = FL.findLk m o md t fd b := by
  unfold FL.findLk; rw [h.lks f hf o ho, h.pay.ltid, h.pay.lfd, h.pay.locked]

theorem oLocked_congr {f o : Nat} (hf : f < cnt .file) (ho : o ∈ m.offs f) : FL.oLocked m' o = FL.oLocked m o := by
  unfold FL.oLocked; rw [h.lks f hf o ho, h.lks f hf o ho, h.pay.oprot]

theorem fLocked_congr {f : Nat} (hf : f < cnt .file) : FL.fLocked m' f = FL.fLocked m f := by
  unfold FL.fLocked
  rw [← h.offs f hf, h.pay.fprot]
  congr 1
  rw [Bool.eq_iff_iff, List.any_eq_true, List.any_eq_true]
  constructor
  · rintro ⟨o, ho, e⟩; exact ⟨o, ho, by rwa [oLocked_congr h hf ho] at e⟩
  · rintro ⟨o, ho, e⟩; exact ⟨o, ho, by rwa [oLocked_congr h hf ho]⟩

theorem sweepActs_congr (o : Nat) (md : FL.Mode) (l : Nat) : FL.sweepActs m' o md l = FL.sweepActs m o md l := by
  unfold FL.sweepActs; rw [h.pay.locked]

theorem plan_congr (hb : B cnt m) {alive : Nat → Bool} {t : Nat} {p : FL.Pc} (hp : FL.PcOK m t p)
    (hq : PcB (cnt .file) p) (c : FL.Choice) : FL.plan m' alive t p c = FL.plan m alive t p c := by
  cases p with
  | lFile op => cases c <;> simp only [FL.plan, findFile_congr h, h.ffree]
  | lOff op f =>
    cases c <;> simp only [FL.plan, findOff_congr h (hb.fs f hp.1), h.ofree]
  | lLk op f o => cases c <;> simp only [FL.plan, h.lfree]
  | spin op f o l => cases c <;> simp only [FL.plan, h.pay.word]
  | rChk op f o l =>
    cases c with
    | lk o' md l' =>
      simp only [FL.plan, h.pay.ltid, sweepActs_congr h, h.lks f (hb.fs f hp.1.1) o hp.1.2.1]
    | _ => simp only [FL.plan]
  | f1 op r f o l =>
    cases c <;> simp only [FL.plan, findLk_congr h (hb.fs f hp.1.1) hp.1.2.1]
  | f2 op r f =>
    cases c with
    | go =>
      simp only [FL.plan, findOff_congr h hq]
      cases e : FL.findOff m f op.rng with
      | none => rfl
      | some o => simp only [oLocked_congr h hq (FL.findOff_some e).1]
    | _ => simp only [FL.plan]
  | f3 op r =>
    cases c with
    | go =>
      simp only [FL.plan, findFile_congr h]
      cases e : FL.findFile m op.key with
      | none => rfl
      | some f => simp only [fLocked_congr h (hb.fs f (FL.findFile_some e).1)]
    | _ => simp only [FL.plan]
  | uFind op =>
    cases c with
    | go =>
      simp only [FL.plan, findFile_congr h]
      cases e : FL.findFile m op.key with
      | none => rfl
      | some f =>
        have hf := hb.fs f (FL.findFile_some e).1
        simp only [findOff_congr h hf]
        cases e2 : FL.findOff m f op.rng with
        | none => rfl
        | some o => simp only [findLk_congr h hf (FL.findOff_some e2).1]
    | _ => simp only [FL.plan]
  | uOff op f o => cases c <;> simp only [FL.plan, oLocked_congr h (hb.fs f hp.1) hp.2]
  | uFile op f => cases c <;> simp only [FL.plan, fLocked_congr h (hb.fs f hp)]
  | qry op =>
    cases c with
    | go =>
      simp only [FL.plan, findFile_congr h]
      cases e : FL.findFile m op.key with
      | none => rfl
      | some f => simp only [fLocked_congr h (hb.fs f (FL.findFile_some e).1)]
    | _ => simp only [FL.plan]
  | sw =>
    cases c with
    | lk o md l =>
      simp only [FL.plan, h.pay.ltid, sweepActs_congr h]
      have : ((∃ f ∈ m'.files, o ∈ m'.offs f) ∧ l ∈ m'.lks o md ∧ alive (m'.ltid l) = false) ↔
          ((∃ f ∈ m.files, o ∈ m.offs f) ∧ l ∈ m.lks o md ∧ alive (m'.ltid l) = false) := by
        rw [← h.files]
        constructor
        · rintro ⟨⟨f, hf, ho⟩, h2, h3⟩
          rw [← h.offs f (hb.fs f hf)] at ho
          rw [← h.lks f (hb.fs f hf) o ho] at h2
          exact ⟨⟨f, hf, ho⟩, h2, h3⟩
        · rintro ⟨⟨f, hf, ho⟩, h2, h3⟩
          rw [h.lks f (hb.fs f hf) o ho] at h2
          exact ⟨⟨f, hf, by rwa [← h.offs f (hb.fs f hf)]⟩, h2, h3⟩
      simp only [this]
    | off f o =>
      simp only [FL.plan]
      have : (f ∈ m'.files ∧ o ∈ m'.offs f ∧ FL.oLocked m' o = false) ↔
          (f ∈ m.files ∧ o ∈ m.offs f ∧ FL.oLocked m o = false) := by
        rw [← h.files]
        constructor
        · rintro ⟨hf, ho, h3⟩
          rw [← h.offs f (hb.fs f hf)] at ho
          rw [oLocked_congr h (hb.fs f hf) ho] at h3
          exact ⟨hf, ho, h3⟩
        · rintro ⟨hf, ho, h3⟩
          rw [← oLocked_congr h (hb.fs f hf) ho] at h3
          exact ⟨hf, by rwa [← h.offs f (hb.fs f hf)], h3⟩
      simp only [this]
    | file f =>
      simp only [FL.plan]
      have : (f ∈ m'.files ∧ m'.offs f = [] ∧ FL.fLocked m' f = false) ↔
          (f ∈ m.files ∧ m.offs f = [] ∧ FL.fLocked m f = false) := by
        rw [← h.files]
        constructor
        · rintro ⟨hf, ho, h3⟩
          rw [← h.offs f (hb.fs f hf)] at ho
          rw [fLocked_congr h (hb.fs f hf)] at h3
          exact ⟨hf, ho, h3⟩
        · rintro ⟨hf, ho, h3⟩
          rw [← fLocked_congr h (hb.fs f hf)] at h3
          exact ⟨hf, by rwa [← h.offs f (hb.fs f hf)], h3⟩
      simp only [this]
    | _ => simp only [FL.plan]
  | _ => cases c <;> simp only [FL.plan]

end congr

/-! ### Writing -/

def TgtAll (cnt : Pool → Nat) : FL.Mem → List FL.Act → Prop
  | _, [] => True
  | m, a :: as => Tgt cnt m a ∧ TgtAll cnt (m.act a) as

theorem sweep_tgt {cnt : Pool → Nat} {m : FL.Mem} {f o : Nat} (hf : f < cnt .file) (ho : o ∈ m.offs f)
    (md : FL.Mode) (l : Nat) : TgtAll cnt m (FL.sweepActs m o md l) := by
  unfold FL.sweepActs
  split
  · exact ⟨⟨f, hf, ho⟩, trivial, trivial, trivial⟩
  · exact ⟨⟨f, hf, ho⟩, trivial, trivial⟩

theorem plan_tgt {cnt : Pool → Nat} {m : FL.Mem} (hb : B cnt m) (hs : FL.SOK m) {alive : Nat → Bool} {t : Nat}
    {p : FL.Pc} {c : FL.Choice} {as : List FL.Act} {p' : FL.Pc} (hp : FL.PcOK m t p)
    (hq : PcB (cnt .file) p) (h : FL.plan m alive t p c = some (as, p')) : TgtAll cnt m as := by
  unfold FL.plan at h
  split at h
  all_goals
    repeat' split at h
    all_goals first
      | (cases h; done)
      | (obtain ⟨rfl, rfl⟩ := Option.some.inj h |> Prod.mk.inj
         first
         | exact trivial
         | exact ⟨trivial, trivial⟩
         | skip)
  · rename_i f rest hfr
    have hnd := hs.ffreeNd
    rw [hfr, List.nodup_cons] at hnd
    exact ⟨trivial, ⟨hb.ff f (by rw [hfr]; simp), by simpa [FL.Mem.act, hfr] using hnd.1⟩, trivial, trivial⟩
  · exact ⟨trivial, hb.fs _ hp.1, trivial⟩
  · exact ⟨trivial, ⟨_, hb.fs _ hp.1, hp.2.2.1⟩, trivial⟩
  · exact sweep_tgt (hb.fs _ hp.1.1) hp.1.2.1 _ _
  · exact ⟨⟨_, hb.fs _ hp.1.1, hp.1.2.1⟩, trivial, trivial⟩
  · exact ⟨hq, trivial, trivial⟩
  · rename_i hf _; exact ⟨hb.fs _ (FL.findFile_some hf).1, trivial, trivial, trivial⟩
  · exact ⟨⟨_, hb.fs _ hp.1.1, hp.1.2.1⟩, trivial, trivial⟩
  · exact ⟨hb.fs _ hp.1, trivial, trivial⟩
  · exact ⟨trivial, trivial, trivial⟩
  · rename_i hc; obtain ⟨⟨f, hf, ho⟩, -, -⟩ := hc; exact sweep_tgt (hb.fs _ hf) ho _ _
  · rename_i hc; exact ⟨hb.fs _ hc.1, trivial, trivial⟩
  · exact ⟨trivial, trivial, trivial⟩

theorem samePay_act {m m' : FL.Mem} (h : SamePay m m') (a : FL.Act) : SamePay (m.act a) (m'.act a) := by
  obtain ⟨h1, h2, h3, h4, h5, h6, h7, h8, h9, h10⟩ := h
  cases a <;> constructor <;> simp only [FL.Mem.act, *]

theorem samePay_acts {m m' : FL.Mem} (h : SamePay m m') (as : List FL.Act) : SamePay (m.acts as) (m'.acts as) := by
  induction as generalizing m m' with
  | nil => exact h
  | cons a as ih => exact ih (samePay_act h a)

theorem pre_len (cnt : Pool → Nat) (a : FL.Act) : (pre cnt a).length ≤ 3 := by
  cases a <;> simp [pre]

theorem effective_big {cnt : Pool → Nat} {a : FL.Act} (hd : ∀ f, a ≠ .drainO f) {j : Nat} (hj : 5 ≤ j) :
    effective cnt a j = true := by
  have := pre_len cnt a
  unfold effective
  split
  · exact absurd rfl (hd _)
  · simp; omega
  · split <;> simp <;> omega

section sim
variable {cnt : Pool → Nat} (hw : NoWrap cnt) {fuel : Nat} (hf : Fuel cnt fuel) (b : Nat)
include hw hf

theorem act_full {c : Mem} {m : FL.Mem} (hb : B cnt m) (hs : FL.SOK m) (hr : Rep cnt c m) {a : FL.Act}
    (hp : FL.Pre m a) (ha : FL.ActB (cnt .file) (cnt .off) (cnt .locker) a) (ht : Tgt cnt m a) :
    ∃ ws, actW cnt b fuel c a = some ws ∧ Rep cnt (applyWrites c ws) (m.act a) := by
  by_cases hd : ∀ f, a ≠ .drainO f
  · obtain ⟨ws, h1, h2⟩ := act_sim hw hb hs hr hf b hp ha ht hd
    refine ⟨ws, h1, ?_⟩
    have := h2 (ws.length + 5)
    rwa [effective_big hd (by omega), if_pos rfl, List.take_of_length_le (by omega)] at this
  · simp only [ne_eq, not_forall, not_not] at hd
    obtain ⟨f, rfl⟩ := hd
    exact drain_sim hw hb hs hr hf b hp ht

theorem acts_full {alive : Nat → Bool} {t : Nat} : ∀ {as : List FL.Act} {c : Mem} {m : FL.Mem}, B cnt m →
    FL.SOK m → Rep cnt c m → FL.OkAll alive t m as →
    (∀ a ∈ as, FL.ActB (cnt .file) (cnt .off) (cnt .locker) a) → TgtAll cnt m as →
    ∃ c', actsW cnt b fuel c as = some c' ∧ Rep cnt c' (m.acts as) ∧ B cnt (m.acts as) ∧ FL.SOK (m.acts as)
  | [], c, m, hb, hs, hr, _, _, _ => ⟨c, rfl, hr, hb, hs⟩
  | a :: as, c, m, hb, hs, hr, hk, ha, ht => by
    have ha1 := ha a List.mem_cons_self
    obtain ⟨ws, h1, h2⟩ := act_full hw hf b hb hs hr hk.1 ha1 ht.1
    obtain ⟨c', h3, h4⟩ := acts_full (FL.act_bnd hb ha1) (FL.act_sok hs hk.1) h2 hk.2.2
      (fun x hx => ha x (List.mem_cons_of_mem _ hx)) ht.2
    exact ⟨c', by simp only [actsW, h1, Option.bind_some]; exact h3, h4⟩

theorem okAll_drop {alive : Nat → Bool} {t : Nat} : ∀ {as : List FL.Act} {m : FL.Mem} (k : Nat),
    FL.OkAll alive t m as → FL.OkAll alive t (m.acts (as.take k)) (as.drop k)
  | [], m, k, h => by simp [FL.OkAll]
  | a :: as, m, 0, h => h
  | a :: as, m, k + 1, h => okAll_drop (as := as) k h.2.2

theorem tgtAll_take : ∀ {as : List FL.Act} {m : FL.Mem} (k : Nat), TgtAll cnt m as → TgtAll cnt m (as.take k)
  | [], m, k, h => by simp [TgtAll]
  | a :: as, m, 0, h => by simp [TgtAll]
  | a :: as, m, k + 1, h => ⟨h.1, tgtAll_take (as := as) k h.2⟩

theorem tgtAll_drop : ∀ {as : List FL.Act} {m : FL.Mem} (k : Nat), TgtAll cnt m as →
    TgtAll cnt (m.acts (as.take k)) (as.drop k)
  | [], m, k, h => by simp [TgtAll]
  | a :: as, m, 0, h => h
  | a :: as, m, k + 1, h => tgtAll_drop (as := as) k h.2

/-- Death between two writes amounts to death between two actions. -/
theorem cut_sim {alive : Nat → Bool} {t : Nat} {as : List FL.Act} {c : Mem} {m pay : FL.Mem} (hb : B cnt m)
    (hs : FL.SOK m) (hr : Rep cnt c m) (hp : SamePay m pay) (hk : FL.OkAll alive t m as)
    (ha : ∀ a ∈ as, FL.ActB (cnt .file) (cnt .off) (cnt .locker) a) (ht : TgtAll cnt m as) (k j : Nat)
    (hj : ∀ f, (as.drop k).head? = some (.drainO f) → j = 0) :
    ∃ c' pay', cut cnt b fuel c pay as k j = some (c', pay') ∧
      ∃ k', (k' = k ∨ k' = k + 1) ∧ (j = 0 → k' = k) ∧ Rep cnt c' (m.acts (as.take k')) ∧
        SamePay (m.acts (as.take k')) pay' := by
  obtain ⟨c1, h1, h2, h3, h4⟩ := acts_full hw hf b hb hs hr (FL.okAll_take k hk)
    (fun a h => ha a (List.mem_of_mem_take h)) (tgtAll_take hw hf k ht)
  have k1 := okAll_drop hw hf k hk
  have k2 := tgtAll_drop hw hf k ht
  unfold cut
  rw [h1, Option.bind_some]
  cases hd : as.drop k with
  | nil => exact ⟨_, _, rfl, k, Or.inl rfl, fun _ => rfl, h2, samePay_acts hp _⟩
  | cons a rest =>
    rw [hd] at k1 k2 hj
    have hm : a ∈ as := List.mem_of_mem_drop (i := k) (by rw [hd]; simp)
    have htake : as.take (k + 1) = as.take k ++ [a] := by
      have : as[k]? = some a := by
        have := congrArg List.head? hd
        rw [List.head?_drop] at this
        simpa using this
      rw [List.take_add_one, this]; rfl
    by_cases hdr : ∀ f, a ≠ .drainO f
    · obtain ⟨ws, w1, w2⟩ := act_sim hw h3 h4 h2 hf b k1.1 (ha a hm) k2.1 hdr
      refine ⟨_, _, by simp only [w1]; rfl, if effective cnt a j = true then k + 1 else k, ?_, ?_, ?_, samePay_acts hp _⟩
      · split <;> simp
      · intro e
        subst e
        rw [if_neg]
        unfold effective
        split
        · simp
        · simp
        · split <;> simp
      · have := w2 j
        split
        · rename_i e
          rw [if_pos e] at this
          rw [htake]
          unfold FL.Mem.acts at this ⊢
          rw [List.foldl_append]
          exact this
        · rename_i e
          rw [if_neg e] at this
          exact this
    · simp only [ne_eq, not_forall, not_not] at hdr
      obtain ⟨f, rfl⟩ := hdr
      have hj0 := hj f rfl
      subst hj0
      obtain ⟨ws, w1, -⟩ := act_full hw hf b h3 h4 h2 k1.1 (ha _ hm) k2.1
      refine ⟨_, _, by simp only [w1]; rfl, k, Or.inl rfl, fun _ => rfl, ?_, samePay_acts hp _⟩
      rw [List.take_zero]
      exact h2

end sim

/-! ### Steps -/

theorem plan_pcB {m : FL.Mem} {n : Nat} (hfs : ∀ f ∈ m.files, f < n) {alive : Nat → Bool} {t : Nat} {p : FL.Pc}
    {c : FL.Choice} {as : List FL.Act} {p' : FL.Pc} (hp : FL.PcOK m t p)
    (h : FL.plan m alive t p c = some (as, p')) : PcB n p' := by
  have a3 : ∀ op r, PcB n (FL.after3 op r) := by
    intro op r; unfold FL.after3; split <;> trivial
  have a2 : ∀ op r f, f ∈ m.files → PcB n (FL.after2 op r f) := by
    intro op r f hf; unfold FL.after2; split
    · exact hfs f hf
    · exact a3 op r
  unfold FL.plan at h
  split at h
  all_goals
    repeat' split at h
    all_goals first
      | (cases h; done)
      | (obtain ⟨rfl, rfl⟩ := Option.some.inj h |> Prod.mk.inj
         first
         | exact trivial
         | exact a3 _ _
         | exact a2 _ _ _ hp.1
         | exact a2 _ _ _ hp.1.1)

/-- The two machines are in the same situation. -/
structure Sim (cnt : Pool → Nat) (x : State) (s : FL.State) : Prop where
  rep : Rep cnt x.cells s.mem
  pay : SamePay s.mem x.pay
  lockid : x.lockid = s.lockid
  alive : x.alive = s.alive
  pc : x.pc = s.pc
  inv : FL.SInv s
  bnd : B cnt s.mem
  pcb : ∀ t, PcB (cnt .file) (s.pc t)

/-- The list event of an event on cells: a death inside an action falls to one side of it. -/
inductive Match : Ev → FL.Ev → Prop
  | call (t : Nat) (c : FL.Call) : Match (.call t c) (.call t c)
  | go (t b : Nat) (c : FL.Choice) : Match (.go t b c) (.go t c)
  | die (t b : Nat) (c : FL.Choice) (k j k' : Nat) (h : k' = k ∨ k' = k + 1) (h0 : j = 0 → k' = k) :
      Match (.die t b c k j) (.die t c k')

section step
variable {cnt : Pool → Nat} (hw : NoWrap cnt) {fuel : Nat} (hf : Fuel cnt fuel)
include hw hf

theorem sim_plan {x : State} {s : FL.State} (hx : Sim cnt x s) {t : Nat} (hal : s.alive t = true) (b : Nat)
    (c : FL.Choice) : FL.plan (view cnt b fuel x.cells x.pay) x.alive t (x.pc t) c =
      FL.plan s.mem s.alive t (s.pc t) c := by
  rw [hx.alive, hx.pc]
  exact plan_congr (view_sameLive hx.bnd hx.inv.sok hx.rep hx.pay hf b) hx.bnd (hx.inv.thr t hal).2 (hx.pcb t) c

theorem pcb_step {s s' : FL.State} {e : FL.Ev} (hi : FL.SInv s) (hb : B cnt s.mem)
    (h : FL.step s e = some s') (hq : ∀ t, PcB (cnt .file) (s.pc t)) : ∀ t, PcB (cnt .file) (s'.pc t) := by
  have hset : ∀ (pc : Nat → FL.Pc) t p, (∀ u, PcB (cnt .file) (pc u)) → PcB (cnt .file) p →
      ∀ u, PcB (cnt .file) (FL.fset pc t p u) := by
    intro pc t p h1 h2 u
    unfold FL.fset
    split
    · exact h2
    · exact h1 u
  rcases FL.step_cases h with ⟨t, c, r, rfl, ht0, hal, hpc, rfl⟩ | ⟨t, c, p, rfl, hal, hpc, hl, rfl⟩ |
    ⟨t, c, p, rfl, hal, hpc, rfl⟩ | ⟨t, c, as, p', rfl, hal, hpl, rfl⟩ |
    ⟨t, c, k, as, rfl, hal, hpl, rfl⟩
  · exact hset _ _ _ hq (by cases c <;> trivial)
  · exact hset _ _ _ hq (by have := hq t; rwa [hpc] at this)
  · exact hset _ _ _ hq (by have := hq t; rwa [hpc] at this)
  · exact hset _ _ _ hq (plan_pcB hb.fs (hi.thr t hal).2 hpl)
  · exact hq

/-- Assembling the new pair of states. -/
theorem sim_mk {x x' : State} {s s' : FL.State} {e : FL.Ev} (hx : Sim cnt x s) (h : FL.step s e = some s')
    (h1 : Rep cnt x'.cells s'.mem) (h2 : SamePay s'.mem x'.pay) (h3 : x'.lockid = s'.lockid)
    (h4 : x'.alive = s'.alive) (h5 : x'.pc = s'.pc) : Sim cnt x' s' :=
  ⟨h1, h2, h3, h4, h5, FL.sinv_step hx.inv h, FL.bnd_step hx.inv hx.bnd h, pcb_step hw hf hx.inv hx.bnd h hx.pcb⟩

theorem sim_acts {x : State} {s : FL.State} (hx : Sim cnt x s) {t : Nat} (hal : s.alive t = true)
    {c : FL.Choice} {as : List FL.Act} {p' : FL.Pc}
    (hpl : FL.plan s.mem s.alive t (s.pc t) c = some (as, p')) :
    FL.OkAll s.alive t s.mem as ∧ (∀ a ∈ as, FL.ActB (cnt .file) (cnt .off) (cnt .locker) a) ∧
      TgtAll cnt s.mem as :=
  ⟨(FL.plan_ok hx.inv.sok hal (hx.inv.thr t hal).2 (hx.inv.thr t hal).1 hpl).ok,
    FL.plan_bnd hx.bnd (hx.inv.thr t hal).2 hpl,
    plan_tgt hx.bnd hx.inv.sok (hx.inv.thr t hal).2 (hx.pcb t) hpl⟩

/-- Every step on cells is a step on lists. -/
theorem sim_step {x x' : State} {s : FL.State} {e : Ev} (hx : Sim cnt x s) (hwh : e.whole cnt fuel x)
    (h : step cnt fuel x e = some x') : ∃ e' s', Match e e' ∧ FL.step s e' = some s' ∧ Sim cnt x' s' := by
  cases e with
  | call t c =>
    simp only [step] at h
    split at h
    · cases h
    rename_i hc
    split at h
    · rename_i r hr
      have hs : FL.step s (.call t c) = some (s.setPc t c.start) := by
        simp only [FL.step]
        rw [if_neg (by rw [← hx.alive]; exact hc), ← hx.pc, hr]
      refine ⟨_, _, Match.call t c, hs, ?_⟩
      cases h
      refine sim_mk hw hf hx hs hx.rep hx.pay hx.lockid hx.alive ?_
      show FL.fset x.pc t _ = FL.fset s.pc t _
      rw [hx.pc]
    · cases h
  | go t b c =>
    simp only [step] at h
    split at h
    · cases h
    rename_i hc
    have hal : s.alive t = true := by rw [← hx.alive]; simpa using hc
    split at h
    · rename_i p hp
      split at h
      · rename_i hl
        have hs : FL.step s (.go t c) = some ({ s with lockid := t }.setPc t p) := by
          simp only [FL.step]
          rw [if_neg (by rw [← hx.alive]; exact hc), ← hx.pc, hp]
          simp only
          rw [if_pos (by rw [← hx.alive, ← hx.lockid]; exact hl)]
        refine ⟨_, _, Match.go t b c, hs, ?_⟩
        cases h
        refine sim_mk hw hf hx hs hx.rep hx.pay rfl hx.alive ?_
        show FL.fset x.pc t _ = FL.fset s.pc t _
        rw [hx.pc]
      · cases h
    · rename_i p hp
      have hs : FL.step s (.go t c) =
          some ({ s with lockid := if s.lockid = t then 0 else s.lockid }.setPc t p) := by
        simp only [FL.step]
        rw [if_neg (by rw [← hx.alive]; exact hc), ← hx.pc, hp]
      refine ⟨_, _, Match.go t b c, hs, ?_⟩
      cases h
      refine sim_mk hw hf hx hs hx.rep hx.pay ?_ hx.alive ?_
      · show (if x.lockid = t then 0 else x.lockid) = (if s.lockid = t then 0 else s.lockid)
        rw [hx.lockid]
      · show FL.fset x.pc t _ = FL.fset s.pc t _
        rw [hx.pc]
    · rename_i hn1 hn2
      rw [sim_plan hw hf hx hal b c, Option.bind_eq_some_iff] at h
      obtain ⟨⟨as, p'⟩, hpl, h⟩ := h
      rw [Option.map_eq_some_iff] at h
      obtain ⟨m', hm', rfl⟩ := h
      obtain ⟨k1, k2, k3⟩ := sim_acts hw hf hx hal hpl
      obtain ⟨c', a1, a2, -, -⟩ := acts_full hw hf b hx.bnd hx.inv.sok hx.rep k1 k2 k3
      have hs : FL.step s (.go t c) = some ({ s with mem := s.mem.acts as }.setPc t p') := by
        simp only [FL.step]
        rw [if_neg (by rw [← hx.alive]; exact hc)]
        split
        · rename_i p hp; exact absurd (by rw [hx.pc, hp]) (hn1 p)
        · rename_i p hp; exact absurd (by rw [hx.pc, hp]) (hn2 p)
        · rw [hpl]; rfl
      refine ⟨_, _, Match.go t b c, hs, ?_⟩
      have : m' = c' := by rw [a1] at hm'; exact (Option.some.inj hm').symm
      subst this
      refine sim_mk hw hf hx hs a2 (samePay_acts hx.pay as) hx.lockid hx.alive ?_
      show FL.fset x.pc t _ = FL.fset s.pc t _
      rw [hx.pc]
  | die t b c k j =>
    simp only [step] at h
    split at h
    · cases h
    rename_i hc
    have hal : s.alive t = true := by rw [← hx.alive]; simpa using hc
    have hwh' : ∀ y, FL.plan s.mem s.alive t (s.pc t) c = some y → ∀ f,
        (y.1.drop k).head? = some (.drainO f) → j = 0 := by
      intro y hy; exact hwh y (by rw [sim_plan hw hf hx hal b c]; exact hy)
    rw [sim_plan hw hf hx hal b c, Option.map_eq_some_iff] at h
    obtain ⟨⟨c1, p1⟩, hcut, rfl⟩ := h
    have hmain : ∀ as, ((∃ p', FL.plan s.mem s.alive t (s.pc t) c = some (as, p')) ∨ as = []) →
        cut cnt b fuel x.cells x.pay as k j = some (c1, p1) →
        ∃ k', (k' = k ∨ k' = k + 1) ∧ (j = 0 → k' = k) ∧ Rep cnt c1 (s.mem.acts (as.take k')) ∧
          SamePay (s.mem.acts (as.take k')) p1 := by
      intro as has hcut
      rcases has with ⟨p', hpl⟩ | rfl
      · obtain ⟨k1, k2, k3⟩ := sim_acts hw hf hx hal hpl
        obtain ⟨c', pay', e1, e2⟩ := cut_sim hw hf b hx.bnd hx.inv.sok hx.rep hx.pay k1 k2 k3 k j (hwh' _ hpl)
        rw [e1] at hcut
        cases hcut
        exact e2
      · simp only [cut, List.take_nil, actsW, Option.bind_some, List.drop_nil, Option.some.injEq,
          Prod.mk.injEq] at hcut
        obtain ⟨rfl, rfl⟩ := hcut
        exact ⟨k, Or.inl rfl, fun _ => rfl, by rw [List.take_nil]; exact hx.rep, by rw [List.take_nil]; exact hx.pay⟩
    cases hpl : FL.plan s.mem s.alive t (s.pc t) c with
    | none =>
      rw [hpl] at hcut
      obtain ⟨k', h1, h2, h3, h4⟩ := hmain [] (Or.inr rfl) hcut
      have hs : FL.step s (.die t c k') =
          some { s with mem := s.mem.acts (([] : List FL.Act).take k'), alive := FL.fset s.alive t false } := by
        simp only [FL.step]
        rw [if_neg (by rw [hal]; simp), hpl]
      refine ⟨_, _, Match.die t b c k j k' h1 h2, hs, ?_⟩
      refine sim_mk hw hf hx hs h3 h4 hx.lockid ?_ hx.pc
      show FL.fset x.alive t _ = FL.fset s.alive t _
      rw [hx.alive]
    | some y =>
      rw [hpl] at hcut
      obtain ⟨k', h1, h2, h3, h4⟩ := hmain y.1 (Or.inl ⟨y.2, hpl⟩) hcut
      have hs : FL.step s (.die t c k') =
          some { s with mem := s.mem.acts (y.1.take k'), alive := FL.fset s.alive t false } := by
        simp only [FL.step]
        rw [if_neg (by rw [hal]; simp), hpl]
      refine ⟨_, _, Match.die t b c k j k' h1 h2, hs, ?_⟩
      refine sim_mk hw hf hx hs h3 h4 hx.lockid ?_ hx.pc
      show FL.fset x.alive t _ = FL.fset s.alive t _
      rw [hx.alive]

/-- The event on cells of an event on lists, made by a process that maps the segment at `b`. -/
def lift (b : Nat) : FL.Ev → Ev
  | .call t c => .call t c
  | .go t c => .go t b c
  | .die t c k => .die t b c k 0

theorem lift_whole (b : Nat) (e : FL.Ev) (x : State) : (lift b e).whole cnt fuel x := by
  cases e <;> simp [lift, Ev.whole]

omit hw hf in
theorem match_lift {b : Nat} {e e' : FL.Ev} (h : Match (lift b e) e') : e' = e := by
  cases e <;> cases h
  · rfl
  · rfl
  · rename_i h0; rw [h0 rfl]

/-- Every step on lists is a step on cells, wherever the segment is mapped: no loop runs for ever. -/
theorem sim_back {x : State} {s s' : FL.State} {e : FL.Ev} (hx : Sim cnt x s) (b : Nat)
    (h : FL.step s e = some s') : ∃ x', step cnt fuel x (lift b e) = some x' ∧ Sim cnt x' s' := by
  have key : ∃ x', step cnt fuel x (lift b e) = some x' := by
    rcases FL.step_cases h with ⟨t, c, r, rfl, ht0, hal, hpc, rfl⟩ | ⟨t, c, p, rfl, hal, hpc, hl, rfl⟩ |
      ⟨t, c, p, rfl, hal, hpc, rfl⟩ | ⟨t, c, as, p', rfl, hal, hpl, rfl⟩ |
      ⟨t, c, k, as, rfl, hal, hpl, rfl⟩
    · simp only [lift, step, hx.alive, hal, ht0, hx.pc, hpc]
      exact ⟨_, rfl⟩
    · simp only [lift, step, hx.alive, hal, hx.pc, hpc, hx.lockid]
      rw [if_neg (by simp), if_pos hl]
      exact ⟨_, rfl⟩
    · simp only [lift, step, hx.alive, hal, hx.pc, hpc]
      exact ⟨_, rfl⟩
    · obtain ⟨k1, k2, k3⟩ := sim_acts hw hf hx hal hpl
      obtain ⟨c', a1, -⟩ := acts_full hw hf b hx.bnd hx.inv.sok hx.rep k1 k2 k3
      have hp := sim_plan hw hf hx hal b c
      simp only [lift, step]
      rw [if_neg (by rw [hx.alive, hal]; simp)]
      split
      · rename_i p hp'
        exfalso
        rw [← hx.pc, hp'] at hpl
        simp [FL.plan] at hpl
      · rename_i p hp'
        exfalso
        rw [← hx.pc, hp'] at hpl
        simp [FL.plan] at hpl
      · rw [hp, hpl, Option.bind_some, a1]
        exact ⟨_, rfl⟩
    · simp only [lift, step]
      rw [if_neg (by rw [hx.alive, hal]; simp), sim_plan hw hf hx hal b c]
      rcases hpl with ⟨p', hpl⟩ | ⟨hpl, rfl⟩
      · rw [hpl]
        obtain ⟨k1, k2, k3⟩ := sim_acts hw hf hx hal hpl
        obtain ⟨c', pay', e1, -⟩ := cut_sim hw hf b hx.bnd hx.inv.sok hx.rep hx.pay k1 k2 k3 k 0 (fun _ _ => rfl)
        simp only [e1]
        exact ⟨_, rfl⟩
      · rw [hpl]
        simp only [cut, List.take_nil, actsW, Option.bind_some, List.drop_nil]
        exact ⟨_, rfl⟩
  obtain ⟨x', hx'⟩ := key
  obtain ⟨e', s1, hm, hs, hsim⟩ := sim_step hw hf hx (lift_whole hw hf b e x) hx'
  rw [match_lift hm, h] at hs
  cases hs
  exact ⟨x', hx', hsim⟩

end step

end Fullock.FLMem
