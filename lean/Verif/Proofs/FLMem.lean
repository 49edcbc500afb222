import Verif.Spec.FLMem
import Verif.Proofs.FLConserve
import Verif.Props.Layout
import Verif.Props.Drain
import Mathlib.Data.List.Perm.Subperm
/-! The actions on the file lock tables keep the cells in step with the lists. -/
namespace Fullock.FLMem
open Fullock.ListMem Fullock.Layout
open Fullock.Props (NoWrap)

/-! ### Places -/

def FLP : Pool → Prop
  | .file => True
  | .off => True
  | .locker => True
  | _ => False

theorem pool_flp (h : Head) : FLP h.pool := by cases h <;> trivial

theorem adr_eq (cnt : Pool → Nat) (hw : NoWrap cnt) (i : Nat) :
    adr cnt .file i = 136 + i * 40 ∧ adr cnt .off i = 136 + 40 * cnt .file + i * 56 ∧
    adr cnt .locker i = 136 + 40 * cnt .file + 56 * cnt .off + i * 24 := by
  obtain ⟨o1, o2, o3, -⟩ := Props.offs cnt hw
  obtain ⟨r1, r2, r3, -⟩ := Props.recSize_values
  refine ⟨?_, ?_, ?_⟩ <;> unfold adr <;> simp only [r1, r2, r3] <;> omega

theorem member_eq : member .file 3 = 24 ∧ member .off 4 = 32 ∧ member .off 5 = 40 := by decide
theorem headCell_eq : headCell 4 = 48 ∧ freeCell .file = 88 ∧ freeCell .off = 96 ∧
    freeCell .locker = 104 := by decide

theorem cell_eq (cnt : Pool → Nat) (hw : NoWrap cnt) :
    cell cnt .files = 48 ∧ cell cnt .ffree = 88 ∧ cell cnt .ofree = 96 ∧ cell cnt .lfree = 104 ∧
    (∀ f, cell cnt (.offs f) = 160 + f * 40) ∧
    (∀ o, cell cnt (.lks o .rd) = 168 + 40 * cnt .file + o * 56) ∧
    (∀ o, cell cnt (.lks o .wr) = 176 + 40 * cnt .file + o * 56) := by
  obtain ⟨m1, m2, m3⟩ := member_eq
  obtain ⟨c1, c2, c3, c4⟩ := headCell_eq
  refine ⟨c1, c2, c3, c4, fun f => ?_, fun o => ?_, fun o => ?_⟩
  · have := (adr_eq cnt hw f).1; simp only [cell, m1]; omega
  · have := (adr_eq cnt hw o).2.1; simp only [cell, m2]; omega
  · have := (adr_eq cnt hw o).2.1; simp only [cell, m3]; omega

theorem cell_inj {cnt : Pool → Nat} (hw : NoWrap cnt) {h h' : Head} (hb : HB cnt h) (hb' : HB cnt h')
    (e : cell cnt h = cell cnt h') : h = h' := by
  obtain ⟨e1, e2, e3, e4, e5, e6, e7⟩ := cell_eq cnt hw
  cases h <;> cases h' <;> try cases ‹FL.Mode›
  all_goals try cases ‹FL.Mode›
  all_goals simp only [e1, e2, e3, e4, e5, e6, e7, HB] at e hb hb'
  all_goals first
    | rfl
    | (exfalso; omega)
    | (congr 1; omega)

theorem cell_ne_adr {cnt : Pool → Nat} (hw : NoWrap cnt) {h : Head} (hb : HB cnt h) {p : Pool} (hp : FLP p)
    {i : Nat} (hi : i < cnt p) : cell cnt h ≠ adr cnt p i := by
  obtain ⟨e1, e2, e3, e4, e5, e6, e7⟩ := cell_eq cnt hw
  obtain ⟨a1, a2, a3⟩ := adr_eq cnt hw i
  cases h <;> cases p <;> try cases ‹FL.Mode›
  all_goals simp only [e1, e2, e3, e4, e5, e6, e7, a1, a2, a3, HB, FLP] at *
  all_goals omega

theorem adr_inj {cnt : Pool → Nat} (hw : NoWrap cnt) {p q : Pool} (hp : FLP p) (hq : FLP q)
    {i j : Nat} (hi : i < cnt p) (hj : j < cnt q) (e : adr cnt p i = adr cnt q j) : p = q ∧ i = j := by
  obtain ⟨a1, a2, a3⟩ := adr_eq cnt hw i
  obtain ⟨b1, b2, b3⟩ := adr_eq cnt hw j
  cases p <;> cases q
  all_goals simp only [a1, a2, a3, b1, b2, b3, FLP] at *
  all_goals first
    | exact ⟨trivial, by omega⟩
    | (exfalso; omega)

theorem adr_inj' {cnt : Pool → Nat} {p : Pool} {i j : Nat} (e : adr cnt p i = adr cnt p j) : i = j := by
  unfold adr at e
  exact Nat.eq_of_mul_eq_mul_right (Props.recSize_pos p) (by omega)

theorem adr_ne_zero {cnt : Pool → Nat} (hw : NoWrap cnt) {p : Pool} (hp : FLP p) (i : Nat) : adr cnt p i ≠ 0 := by
  obtain ⟨a1, a2, a3⟩ := adr_eq cnt hw i
  cases p <;> simp only [a1, a2, a3, FLP] at * <;> omega

theorem idx_adr (cnt : Pool → Nat) (b : Nat) (p : Pool) (i : Nat) : idx cnt b p (toAbs b (adr cnt p i)) = i := by
  unfold idx
  rw [toRel_toAbs]
  unfold adr
  rw [Nat.add_sub_cancel_left, Nat.mul_div_cancel _ (Props.recSize_pos p)]

/-! ### The lists in use as an instance of the specification of lists -/

/-- The list heads in use. -/
def lives (cnt : Pool → Nat) (m : FL.Mem) : List Head :=
  [.files, .ffree, .ofree, .lfree] ++ (List.range (cnt .file)).map .offs ++
    (List.range (cnt .file)).flatMap fun f => (m.offs f).flatMap fun o => [.lks o .rd, .lks o .wr]

theorem mem_lives {cnt : Pool → Nat} {m : FL.Mem} {h : Head} : h ∈ lives cnt m ↔ Live cnt m h := by
  unfold lives
  cases h with
  | lks o md => cases md <;> simp [Live]
  | _ => simp [Live]

abbrev B (cnt : Pool → Nat) (m : FL.Mem) : Prop := FL.Bnd (cnt .file) (cnt .off) (cnt .locker) m

theorem live_hb {cnt : Pool → Nat} {m : FL.Mem} (hb : B cnt m) {h : Head} (hl : Live cnt m h) : HB cnt h := by
  cases h with
  | offs f => exact hl
  | lks o md => obtain ⟨f, -, ho⟩ := hl; exact hb.os f o ho
  | _ => trivial

theorem recs_lt {cnt : Pool → Nat} {m : FL.Mem} (hb : B cnt m) {h : Head} {i : Nat} (hi : i ∈ recs m h) :
    i < cnt h.pool := by
  cases h with
  | files => exact hb.fs i hi
  | ffree => exact hb.ff i hi
  | ofree => exact hb.of i hi
  | lfree => exact hb.lf i hi
  | offs f => exact hb.os f i hi
  | lks o md => exact hb.ls o md i hi

theorem recs_nodup {m : FL.Mem} (hs : FL.SOK m) (h : Head) : (recs m h).Nodup := by
  cases h with
  | files => exact hs.filesNd
  | ffree => exact hs.ffreeNd
  | ofree => exact hs.ofreeNd
  | lfree => exact hs.lfreeNd
  | offs f => exact hs.offsNd f
  | lks o md => exact hs.lksNd o md

theorem recs_disj {m : FL.Mem} (hs : FL.SOK m) {h h' : Head} (hp : h.pool = h'.pool) {i : Nat}
    (hi : i ∈ recs m h) (hi' : i ∈ recs m h') : h = h' := by
  cases h <;> cases h' <;> simp only [Head.pool, reduceCtorEq] at hp <;> simp only [recs] at hi hi'
  · rfl
  · exact absurd hi (hs.fdisj i hi')
  · exact absurd hi' (hs.fdisj i hi)
  · rfl
  · rfl
  · exact absurd hi' (hs.odisj i hi _)
  · rfl
  · exact absurd hi' (hs.ldisj i hi _ _)
  · exact absurd hi (hs.odisj i hi' _)
  · rw [hs.offsDisj _ _ _ hi hi']
  · exact absurd hi (hs.ldisj i hi' _ _)
  · obtain ⟨rfl, rfl⟩ := hs.lksDisj _ _ _ _ _ hi hi'; rfl

/-- The cells of the heads in use and the addresses in their lists. -/
def HS (cnt : Pool → Nat) (m : FL.Mem) : List Nat := (lives cnt m).map (cell cnt)

def LS (cnt : Pool → Nat) (m : FL.Mem) (c : Nat) : List Nat :=
  match (lives cnt m).find? (fun h => cell cnt h == c) with
  | some h => (recs m h).map (adr cnt h.pool)
  | none => []

theorem ls_cell {cnt : Pool → Nat} (hw : NoWrap cnt) {m : FL.Mem} (hb : B cnt m) {h : Head} (hl : Live cnt m h) :
    LS cnt m (cell cnt h) = (recs m h).map (adr cnt h.pool) := by
  unfold LS
  have hex : ∃ h', (lives cnt m).find? (fun h' => cell cnt h' == cell cnt h) = some h' := by
    rw [← Option.isSome_iff_exists, List.find?_isSome]
    exact ⟨h, mem_lives.2 hl, by simp⟩
  obtain ⟨h', hf⟩ := hex
  have h1 := List.find?_some hf
  have h2 := mem_lives.1 (List.mem_of_find?_eq_some hf)
  have : h' = h := cell_inj hw (live_hb hb h2) (live_hb hb hl) (by simpa using h1)
  rw [hf, this]

theorem mem_hs {cnt : Pool → Nat} {m : FL.Mem} {c : Nat} : c ∈ HS cnt m ↔ ∃ h, Live cnt m h ∧ c = cell cnt h := by
  unfold HS
  rw [List.mem_map]
  constructor
  · rintro ⟨h, hl, rfl⟩; exact ⟨h, mem_lives.1 hl, rfl⟩
  · rintro ⟨h, hl, rfl⟩; exact ⟨h, mem_lives.2 hl, rfl⟩

theorem sound_of {cnt : Pool → Nat} {m : FL.Mem} (hb : B cnt m) (hs : FL.SOK m) : Sound cnt m :=
  ⟨recs_nodup hs, fun _ _ hi => recs_lt hb hi, fun _ _ hp hne _ hi hi' => hne (recs_disj hs hp hi hi')⟩

theorem bnd_of {cnt : Pool → Nat} {m : FL.Mem} (h : Sound cnt m) : B cnt m :=
  ⟨h.lt .ffree, h.lt .files, h.lt .ofree, fun f => h.lt (.offs f), h.lt .lfree, fun o md => h.lt (.lks o md)⟩

theorem sound_wf {cnt : Pool → Nat} (hw : NoWrap cnt) {c : Mem} {m : FL.Mem} (hs : Sound cnt m)
    (hr : Rep cnt c m) : WF c (HS cnt m) (LS cnt m) := by
  have hb := bnd_of hs
  constructor
  · intro x hx
    obtain ⟨h, hl, rfl⟩ := mem_hs.1 hx
    rw [ls_cell hw hb hl]
    exact hr h hl
  · intro x hx
    obtain ⟨h, hl, rfl⟩ := mem_hs.1 hx
    rw [ls_cell hw hb hl]
    exact List.Nodup.map (fun i j e => adr_inj' e) (hs.nodup h)
  · intro x hx r hr' hrH
    obtain ⟨h, hl, rfl⟩ := mem_hs.1 hx
    rw [ls_cell hw hb hl] at hr'
    obtain ⟨i, hi, rfl⟩ := List.mem_map.1 hr'
    obtain ⟨h', hl', e⟩ := mem_hs.1 hrH
    exact cell_ne_adr hw (live_hb hb hl') (pool_flp h) (recs_lt hb hi) e.symm
  · intro x hx y hy hne r hrx hry
    obtain ⟨h, hl, rfl⟩ := mem_hs.1 hx
    obtain ⟨h', hl', rfl⟩ := mem_hs.1 hy
    rw [ls_cell hw hb hl] at hrx
    rw [ls_cell hw hb hl'] at hry
    obtain ⟨i, hi, rfl⟩ := List.mem_map.1 hrx
    obtain ⟨j, hj, e⟩ := List.mem_map.1 hry
    obtain ⟨e1, e2⟩ := adr_inj hw (pool_flp h') (pool_flp h) (recs_lt hb hj) (recs_lt hb hi) e
    subst e2
    by_cases e : h = h'
    · exact hne (by rw [e])
    · exact hs.disj h h' e1.symm e j hi hj

theorem rep_wf {cnt : Pool → Nat} (hw : NoWrap cnt) {c : Mem} {m : FL.Mem} (hb : B cnt m) (hs : FL.SOK m)
    (hr : Rep cnt c m) : WF c (HS cnt m) (LS cnt m) := sound_wf hw (sound_of hb hs) hr

theorem rep_of_wf {cnt : Pool → Nat} (hw : NoWrap cnt) {c : Mem} {m : FL.Mem} (hb : B cnt m)
    (h : WF c (HS cnt m) (LS cnt m)) : Rep cnt c m := by
  intro hd hl
  have := h.chain _ (mem_hs.2 ⟨hd, hl, rfl⟩)
  rwa [ls_cell hw hb hl] at this

/-- Enough rounds for every loop. -/
def Fuel (cnt : Pool → Nat) (fuel : Nat) : Prop := cnt .file < fuel ∧ cnt .off < fuel ∧ cnt .locker < fuel

theorem recs_len {cnt : Pool → Nat} {m : FL.Mem} (hb : B cnt m) (hs : FL.SOK m) (h : Head) {fuel : Nat}
    (hf : Fuel cnt fuel) : (recs m h).length < fuel := by
  have h1 : (recs m h).length ≤ cnt h.pool := by
    have := (List.subperm_of_subset (recs_nodup hs h)
      (l₂ := List.range (cnt h.pool)) (fun i hi => List.mem_range.2 (recs_lt hb hi))).length_le
    simpa using this
  obtain ⟨f1, f2, f3⟩ := hf
  cases h <;> simp only [Head.pool] at h1 <;> omega

theorem ls_len {cnt : Pool → Nat} (hw : NoWrap cnt) {m : FL.Mem} (hb : B cnt m) (hs : FL.SOK m) {fuel : Nat}
    (hf : Fuel cnt fuel) : ∀ x ∈ HS cnt m, (LS cnt m x).length < fuel := by
  intro x hx
  obtain ⟨h, hl, rfl⟩ := mem_hs.1 hx
  rw [ls_cell hw hb hl, List.length_map]
  exact recs_len hb hs h hf

/-! ### Single writes and list operations -/

/-- A cell of no list in use. -/
def Foreign (cnt : Pool → Nat) (m : FL.Mem) (x : Nat) : Prop :=
  ∀ h, Live cnt m h → cell cnt h ≠ x ∧ x ∉ (recs m h).map (adr cnt h.pool)

theorem rep_write {cnt : Pool → Nat} {c : Mem} {m : FL.Mem} (hr : Rep cnt c m) {x : Nat} (hx : Foreign cnt m x)
    (v : Nat) : Rep cnt (c.set x v) m := by
  intro h hl
  obtain ⟨h1, h2⟩ := hx h hl
  rw [set_other _ _ _ h1]
  exact chain_congr (fun y hy => set_other _ _ _ (fun e => h2 (e ▸ hy))) (hr h hl)

theorem rep_writes {cnt : Pool → Nat} {m : FL.Mem} : ∀ {ws : List Write} {c : Mem}, Rep cnt c m →
    (∀ w ∈ ws, Foreign cnt m w.1) → Rep cnt (applyWrites c ws) m
  | [], _, hr, _ => hr
  | w :: ws, c, hr, h => rep_writes (ws := ws) (rep_write hr (h w (by simp)) w.2)
      (fun w' hw => h w' (by simp [hw]))

/-- A record in no list of its kind that is in use. -/
def Free (cnt : Pool → Nat) (m : FL.Mem) (p : Pool) (i : Nat) : Prop := ∀ h, Live cnt m h → h.pool = p → i ∉ recs m h

theorem free_foreign {cnt : Pool → Nat} (hw : NoWrap cnt) {m : FL.Mem} (hb : B cnt m) {p : Pool} (hp : FLP p)
    {i : Nat} (hi : i < cnt p) (hf : Free cnt m p i) : Foreign cnt m (adr cnt p i) := by
  intro h hl
  refine ⟨cell_ne_adr hw (live_hb hb hl) hp hi, fun hm => ?_⟩
  obtain ⟨j, hj, e⟩ := List.mem_map.1 hm
  obtain ⟨e1, e2⟩ := adr_inj hw (pool_flp h) hp (recs_lt hb hj) hi e
  subst e2
  exact hf h hl e1 hj

theorem head_foreign {cnt : Pool → Nat} (hw : NoWrap cnt) {m : FL.Mem} (hb : B cnt m) {h : Head}
    (hh : HB cnt h) (hn : ¬ Live cnt m h) : Foreign cnt m (cell cnt h) := by
  intro h' hl
  refine ⟨fun e => hn (cell_inj hw (live_hb hb hl) hh e ▸ hl), fun hm => ?_⟩
  obtain ⟨j, hj, e⟩ := List.mem_map.1 hm
  exact cell_ne_adr hw hh (pool_flp h') (recs_lt hb hj) e.symm

theorem foreign_loose {cnt : Pool → Nat} (hw : NoWrap cnt) {m : FL.Mem} (hb : B cnt m) {x : Nat} (hx0 : x ≠ 0)
    (hx : Foreign cnt m x) : Loose (HS cnt m) (LS cnt m) x := by
  refine ⟨hx0, fun hm => ?_, fun y hy => ?_⟩
  · obtain ⟨h, hl, e⟩ := mem_hs.1 hm
    exact (hx h hl).1 e.symm
  · obtain ⟨h, hl, rfl⟩ := mem_hs.1 hy
    rw [ls_cell hw hb hl]
    exact (hx h hl).2

theorem op_sim {fuel : Nat} {c : Mem} {H : List Nat} {L : Nat → List Nat} (hw : WF c H L) (b : Nat) (op : Op)
    (ha : Allowed H L op) (hf : ∀ h ∈ H, (L h).length < fuel) :
    ∃ ws, writes b fuel c op = some ws ∧
      ∀ k, WF (applyWrites c (ws.take k)) H (absCall L ⟨b, op, k⟩) := by
  obtain ⟨m0, h0, -⟩ := Props.exec_ok hw ⟨b, op, 0⟩ ha hf
  cases hws : writes b fuel c op with
  | none => simp [exec, hws] at h0
  | some ws =>
    refine ⟨ws, rfl, fun k => ?_⟩
    obtain ⟨m1, h1, h2⟩ := Props.exec_ok hw ⟨b, op, k⟩ ha hf
    simp only [exec, hws, Option.map_some, Option.some.injEq] at h1
    rw [h1]; exact h2

section ops
variable {cnt : Pool → Nat} (hw : NoWrap cnt) {c : Mem} {m : FL.Mem} (hb : B cnt m) (hs : FL.SOK m)
  (hr : Rep cnt c m) {fuel : Nat} (hf : Fuel cnt fuel) (b : Nat)
include hw hb hs hr hf

theorem rep_upd {c1 : Mem} {m' : FL.Mem} {h : Head} {l : List Nat} (hl : Live cnt m h)
    (h1 : WF c1 (HS cnt m) (upd (LS cnt m) (cell cnt h) l))
    (hm : (recs m' h).map (adr cnt h.pool) = l)
    (ho : ∀ h', Live cnt m' h' → h' ≠ h → (Live cnt m h' ∧ recs m' h' = recs m h') ∨
      (HB cnt h' ∧ recs m' h' = [] ∧ c1 (cell cnt h') = 0)) : Rep cnt c1 m' := by
  intro h' hl'
  by_cases e : h' = h
  · subst e
    have := h1.chain _ (mem_hs.2 ⟨h', hl, rfl⟩)
    rw [upd_at] at this
    rw [hm]; exact this
  · rcases ho h' hl' e with ⟨a, a'⟩ | ⟨a, a', a''⟩
    · have := h1.chain _ (mem_hs.2 ⟨h', a, rfl⟩)
      have hne : cell cnt h' ≠ cell cnt h := fun e' => e (cell_inj hw (live_hb hb a) (live_hb hb hl) e')
      simp only [upd, if_neg hne] at this
      rw [ls_cell hw hb a] at this
      rw [a']; exact this
    · rw [a', a'']; rfl

theorem sim_ins {m' : FL.Mem} {h : Head} {i : Nat} (hl : Live cnt m h) (hi : i < cnt h.pool)
    (hfr : Free cnt m h.pool i) (hm : recs m' h = i :: recs m h)
    (ho : ∀ h', Live cnt m' h' → h' ≠ h → (Live cnt m h' ∧ recs m' h' = recs m h') ∨
      (HB cnt h' ∧ recs m' h' = [] ∧ c (cell cnt h') = 0)) :
    ∃ ws, writes b fuel c (.insert (adr cnt h.pool i) (cell cnt h)) = some ws ∧
      ∀ k, Rep cnt (applyWrites c (ws.take k)) (if 2 ≤ k then m' else m) := by
  have hwf := rep_wf hw hb hs hr
  have hfo := free_foreign hw hb (pool_flp h) hi hfr
  have hloose := foreign_loose hw hb (adr_ne_zero hw (pool_flp h) i) hfo
  have hH : cell cnt h ∈ HS cnt m := mem_hs.2 ⟨h, hl, rfl⟩
  obtain ⟨ws, hws, hk⟩ := op_sim hwf b (.insert (adr cnt h.pool i) (cell cnt h)) ⟨hH, hloose⟩
    (ls_len hw hb hs hf)
  refine ⟨ws, hws, fun k => ?_⟩
  have hwe : ws = [(adr cnt h.pool i, c (cell cnt h)), (cell cnt h, adr cnt h.pool i)] := by
    obtain ⟨ws', h1, h2, -⟩ := insert_ok hwf b hloose hH
    simp only [writes, h1, Option.getD_some, Option.some.injEq] at hws
    rw [← hws, h2]
  have h1 := hk k
  split
  · rename_i h2
    have : absCall (LS cnt m) ⟨b, .insert (adr cnt h.pool i) (cell cnt h), k⟩ =
        upd (LS cnt m) (cell cnt h) (adr cnt h.pool i :: LS cnt m (cell cnt h)) := by
      unfold absCall
      rw [if_neg (by show k ≠ 0; omega), if_neg (by show k ≠ 1; omega)]
      rfl
    rw [this, ls_cell hw hb hl] at h1
    refine rep_upd hw hb hs hr hf hl h1 (by rw [hm]; rfl) ?_
    intro h' hl' hne
    rcases ho h' hl' hne with a | ⟨a1, a2, a3⟩
    · exact Or.inl a
    · refine Or.inr ⟨a1, a2, ?_⟩
      rw [applyWrites_other _ _ _ ?_]
      · exact a3
      · intro w hwm
        have := List.mem_of_mem_take hwm
        rw [hwe] at this
        simp only [List.mem_cons, List.not_mem_nil, or_false] at this
        rcases this with rfl | rfl
        · exact (cell_ne_adr hw a1 (pool_flp h) hi).symm
        · exact fun e => hne (cell_inj hw (live_hb hb hl) a1 e).symm
  · rename_i h2
    have : absCall (LS cnt m) ⟨b, .insert (adr cnt h.pool i) (cell cnt h), k⟩ = LS cnt m := by
      unfold absCall
      have : k = 0 ∨ k = 1 := by omega
      rcases this with rfl | rfl <;> simp
    rw [this] at h1
    exact rep_of_wf hw hb h1

theorem sim_rem {m' : FL.Mem} {h : Head} {op : Op} (hl : Live cnt m h)
    (hop : (op = .retrieve (cell cnt h) ∧ recs m' h = (recs m h).tail) ∨
      ∃ i, op = .cutoff (adr cnt h.pool i) (cell cnt h) ∧ recs m' h = (recs m h).erase i)
    (ho : ∀ h', Live cnt m' h' → h' ≠ h → (Live cnt m h' ∧ recs m' h' = recs m h')) :
    ∃ ws, writes b fuel c op = some ws ∧
      ∀ k, Rep cnt (applyWrites c (ws.take k)) (if 1 ≤ k then m' else m) := by
  have hwf := rep_wf hw hb hs hr
  have hH : cell cnt h ∈ HS cnt m := mem_hs.2 ⟨h, hl, rfl⟩
  have hal : Allowed (HS cnt m) (LS cnt m) op := by
    rcases hop with ⟨rfl, -⟩ | ⟨i, rfl, -⟩
    · exact hH
    · exact ⟨hH, adr_ne_zero hw (pool_flp h) i⟩
  obtain ⟨ws, hws, hk⟩ := op_sim hwf b op hal (ls_len hw hb hs hf)
  refine ⟨ws, hws, fun k => ?_⟩
  have h1 := hk k
  split
  · rename_i h2
    have : absCall (LS cnt m) ⟨b, op, k⟩ = absOp (LS cnt m) op := by
      unfold absCall
      rw [if_neg (by show k ≠ 0; omega)]
      split
      · rcases hop with ⟨rfl, -⟩ | ⟨i, rfl, -⟩ <;> rfl
      · rfl
    rw [this] at h1
    have : absOp (LS cnt m) op = upd (LS cnt m) (cell cnt h) ((recs m' h).map (adr cnt h.pool)) := by
      rcases hop with ⟨rfl, e⟩ | ⟨i, rfl, e⟩
      · simp only [absOp]
        rw [ls_cell hw hb hl, e, List.map_tail]
      · simp only [absOp]
        rw [ls_cell hw hb hl, e, List.map_erase]
        intro x y e; exact adr_inj' e
    rw [this] at h1
    exact rep_upd hw hb hs hr hf hl h1 rfl (fun h' a e => Or.inl (ho h' a e))
  · rename_i h2
    have : k = 0 := by omega
    subst this
    have : absCall (LS cnt m) ⟨b, op, 0⟩ = LS cnt m := by simp [absCall]
    rw [this] at h1
    exact rep_of_wf hw hb h1

end ops

/-! ### Actions -/

/-- The list an action works on is in use. -/
def Tgt (cnt : Pool → Nat) (m : FL.Mem) : FL.Act → Prop
  | .iniF f _ => f < cnt .file ∧ f ∉ m.ffree
  | .insO f _ _ => f < cnt .file
  | .insL o _ _ _ _ => ∃ f < cnt .file, o ∈ m.offs f
  | .cutL o _ _ => ∃ f < cnt .file, o ∈ m.offs f
  | .cutO f _ => f < cnt .file
  | .drainO f => f < cnt .file
  | _ => True

/-- A list of an action that touches no references. -/
theorem act_plain {m m' : FL.Mem} (h1 : m'.files = m.files) (h2 : m'.ffree = m.ffree) (h3 : m'.ofree = m.ofree)
    (h4 : m'.lfree = m.lfree) (h5 : m'.offs = m.offs) (h6 : m'.lks = m.lks) (cnt : Pool → Nat) (c : Mem) :
    Rep cnt c m' ↔ Rep cnt c m := by
  have hl : ∀ h, Live cnt m' h ↔ Live cnt m h := by
    intro h; cases h <;> simp [Live, h1, h5]
  have hr : ∀ h, recs m' h = recs m h := by
    intro h; cases h <;> simp [recs, h1, h2, h3, h4, h5, h6]
  unfold Rep
  constructor
  · intro h hd a; have := h hd ((hl hd).2 a); rwa [hr] at this
  · intro h hd a; have := h hd ((hl hd).1 a); rwa [hr]

/-- The form of an action other than a bulk return. -/
theorem actW_eq {cnt : Pool → Nat} {b fuel : Nat} {c : Mem} {a : FL.Act} (hd : ∀ f, a ≠ .drainO f) :
    actW cnt b fuel c a = match lop cnt a with
      | none => some (pre cnt a)
      | some op => (writes b fuel (applyWrites c (pre cnt a)) op).map (pre cnt a ++ ·) := by
  cases a <;> first | rfl | exact absurd rfl (hd _)

section acts
variable {cnt : Pool → Nat} (hw : NoWrap cnt) {c : Mem} {m : FL.Mem} (hb : B cnt m) (hs : FL.SOK m)
  (hr : Rep cnt c m) {fuel : Nat} (hf : Fuel cnt fuel) (b : Nat)
include hw hb hs hr hf

/-- An insertion preceded by writes to the new record. -/
theorem pre_ins {a : FL.Act} {h : Head} {i : Nat} (hd : ∀ f, a ≠ .drainO f)
    (hlop : lop cnt a = some (.insert (adr cnt h.pool i) (cell cnt h)))
    (hpre : ∀ w ∈ pre cnt a, Foreign cnt m w.1) (hl : Live cnt m h) (hi : i < cnt h.pool)
    (hfr : Free cnt m h.pool i) (hm : recs (m.act a) h = i :: recs m h)
    (ho : ∀ h', Live cnt (m.act a) h' → h' ≠ h → (Live cnt m h' ∧ recs (m.act a) h' = recs m h') ∨
      (HB cnt h' ∧ recs (m.act a) h' = [] ∧ applyWrites c (pre cnt a) (cell cnt h') = 0)) :
    ∃ ws, actW cnt b fuel c a = some ws ∧
      ∀ j, Rep cnt (applyWrites c (ws.take j)) (if effective cnt a j then m.act a else m) := by
  obtain ⟨ws, h1, h2⟩ := sim_ins hw hb hs (rep_writes hr hpre) hf b hl hi hfr hm ho
  refine ⟨pre cnt a ++ ws, by rw [actW_eq hd, hlop]; simp [h1], fun j => ?_⟩
  have heff : effective cnt a j = decide ((pre cnt a).length + 2 ≤ j) := by
    unfold effective
    split
    · exact absurd rfl (hd _)
    · cases hlop
    · rw [hlop]
  rw [heff, List.take_append, applyWrites_append]
  by_cases hj : (pre cnt a).length + 2 ≤ j
  · rw [if_pos (by simpa using hj), List.take_of_length_le (by omega)]
    have := h2 (j - (pre cnt a).length)
    rwa [if_pos (by omega)] at this
  · rw [if_neg (by simpa using hj)]
    by_cases hj2 : (pre cnt a).length ≤ j
    · rw [List.take_of_length_le hj2]
      have := h2 (j - (pre cnt a).length)
      rwa [if_neg (by omega)] at this
    · have : j - (pre cnt a).length = 0 := by omega
      rw [this, List.take_zero]
      show Rep cnt (applyWrites c ((pre cnt a).take j)) m
      exact rep_writes hr (fun w hw' => hpre w (List.mem_of_mem_take hw'))

theorem pre_rem {a : FL.Act} {h : Head} {op : Op} (hd : ∀ f, a ≠ .drainO f)
    (hlop : lop cnt a = some op) (hpre : pre cnt a = []) (hl : Live cnt m h)
    (hop : (op = .retrieve (cell cnt h) ∧ recs (m.act a) h = (recs m h).tail) ∨
      ∃ i, op = .cutoff (adr cnt h.pool i) (cell cnt h) ∧ recs (m.act a) h = (recs m h).erase i)
    (ho : ∀ h', Live cnt (m.act a) h' → h' ≠ h → (Live cnt m h' ∧ recs (m.act a) h' = recs m h')) :
    ∃ ws, actW cnt b fuel c a = some ws ∧
      ∀ j, Rep cnt (applyWrites c (ws.take j)) (if effective cnt a j then m.act a else m) := by
  obtain ⟨ws, h1, h2⟩ := sim_rem hw hb hs hr hf b hl hop ho
  refine ⟨ws, by rw [actW_eq hd, hlop, hpre]; simp [applyWrites, h1], fun j => ?_⟩
  have heff : effective cnt a j = decide (1 ≤ j) := by
    unfold effective
    split
    · exact absurd rfl (hd _)
    · cases hlop
    · rw [hlop]
      rcases hop with ⟨rfl, -⟩ | ⟨i, rfl, -⟩ <;> rfl
  rw [heff]
  have := h2 j
  by_cases hj : 1 ≤ j <;> simp only [hj, decide_true, decide_false, if_true, if_false] at this ⊢ <;> exact this

theorem act_sim {a : FL.Act} (hp : FL.Pre m a) (ha : FL.ActB (cnt .file) (cnt .off) (cnt .locker) a)
    (ht : Tgt cnt m a) (hd : ∀ f, a ≠ .drainO f) :
    ∃ ws, actW cnt b fuel c a = some ws ∧
      ∀ j, Rep cnt (applyWrites c (ws.take j)) (if effective cnt a j then m.act a else m) := by
  cases a with
  | popF =>
    refine pre_rem hw hb hs hr hf b (h := .ffree) hd rfl rfl trivial (Or.inl ⟨rfl, rfl⟩) ?_
    intro h' hl hne; cases h' <;> first | exact ⟨hl, rfl⟩ | exact absurd rfl hne
  | popO =>
    refine pre_rem hw hb hs hr hf b (h := .ofree) hd rfl rfl trivial (Or.inl ⟨rfl, rfl⟩) ?_
    intro h' hl hne; cases h' <;> first | exact ⟨hl, rfl⟩ | exact absurd rfl hne
  | popL =>
    refine pre_rem hw hb hs hr hf b (h := .lfree) hd rfl rfl trivial (Or.inl ⟨rfl, rfl⟩) ?_
    intro h' hl hne; cases h' <;> first | exact ⟨hl, rfl⟩ | exact absurd rfl hne
  | insF f =>
    obtain ⟨p1, p2, -, -⟩ := hp
    refine pre_ins hw hb hs hr hf b (h := .files) (i := f) hd rfl (by simp [pre]) trivial ha ?_ rfl ?_
    · intro h hl hpl
      cases h <;> simp only [Head.pool, reduceCtorEq] at hpl
      · exact p1
      · exact p2
    · intro h' hl hne; left; cases h' <;> first | exact ⟨hl, rfl⟩ | exact absurd rfl hne
  | iniF f k =>
    obtain ⟨ht1, ht2⟩ := ht
    refine ⟨_, rfl, fun j => ?_⟩
    have hfree : Free cnt m .file f := by
      intro h hl hpl
      cases h <;> simp only [Head.pool, reduceCtorEq] at hpl
      · exact hp
      · exact ht2
    have h1 : Rep cnt (c.set (adr cnt .file f) 0) m :=
      rep_write hr (free_foreign hw hb (p := .file) trivial ht1 hfree) 0
    match j with
    | 0 => exact hr
    | 1 => exact h1
    | j + 2 =>
      have he : effective cnt (.iniF f k) (j + 2) = true := by simp [effective]
      rw [he, if_pos rfl, List.take_of_length_le (by simp [pre])]
      show Rep cnt (((c.set (adr cnt .file f) 0).set (cell cnt (.offs f)) 0)) _
      intro h' hl'
      by_cases e : h' = .offs f
      · subst e
        simp [recs, FL.Mem.act, FL.fset, Mem.set, Chain]
      · have hl : Live cnt m h' := by
          cases h' with
          | lks o md =>
            obtain ⟨g, hg, ho⟩ := hl'
            refine ⟨g, hg, ?_⟩
            simp only [FL.Mem.act, FL.fset] at ho
            split at ho
            · simp at ho
            · exact ho
          | _ => exact hl'
        have hre : recs (m.act (.iniF f k)) h' = recs m h' := by
          cases h' with
          | offs g =>
            have : g ≠ f := fun e' => e (e' ▸ rfl)
            simp [recs, FL.Mem.act, FL.fset, this]
          | _ => rfl
        have hne : cell cnt h' ≠ cell cnt (.offs f) :=
          fun e' => e (cell_inj hw (live_hb hb hl) (h' := .offs f) ht1 e')
        rw [hre, set_other _ _ _ hne]
        refine chain_congr (fun y hy => set_other _ _ _ (fun e' => ?_)) (h1 h' hl)
        obtain ⟨i, hi, rfl⟩ := List.mem_map.1 hy
        exact cell_ne_adr hw (h := .offs f) ht1 (pool_flp h') (recs_lt hb hi) e'.symm
  | insO f o r =>
    obtain ⟨p1, p2, p3⟩ := hp
    have hfree : Free cnt m .off o := by
      intro h hl hpl
      cases h <;> simp only [Head.pool, reduceCtorEq] at hpl
      · exact p1
      · exact p2 _
    have hnl : ∀ md, ¬ Live cnt m (.lks o md) := fun md ⟨g, _, ho⟩ => p2 g ho
    refine pre_ins hw hb hs hr hf b (h := .offs f) (i := o) hd rfl ?_ ht ha hfree (by simp [recs, FL.Mem.act, FL.fset]) ?_
    · intro w hwm
      simp only [pre, List.mem_cons, List.not_mem_nil, or_false] at hwm
      rcases hwm with rfl | rfl | rfl
      · exact free_foreign hw hb (p := .off) trivial ha hfree
      · exact head_foreign hw hb (h := .lks o .rd) ha (hnl _)
      · exact head_foreign hw hb (h := .lks o .wr) ha (hnl _)
    · intro h' hl hne
      cases h' with
      | offs g =>
        have e : g ≠ f := fun e => hne (e ▸ rfl)
        exact Or.inl ⟨hl, by simp [recs, FL.Mem.act, FL.fset, e]⟩
      | lks o' md =>
        by_cases e : o' = o
        · subst e
          refine Or.inr ⟨ha, by simp [recs, FL.Mem.act, FL.fset], ?_⟩
          cases md <;> simp [pre, applyWrites, Mem.set]
        · obtain ⟨g, hg, ho⟩ := hl
          refine Or.inl ⟨⟨g, hg, ?_⟩, by simp [recs, FL.Mem.act, FL.fset, e]⟩
          simp only [FL.Mem.act, FL.fset] at ho
          split at ho
          · rename_i eg; subst eg
            rcases List.mem_cons.1 ho with h | h
            · exact absurd h e
            · exact h
          · exact ho
      | _ => exact Or.inl ⟨hl, rfl⟩
  | insL o md l t fd =>
    obtain ⟨p1, p2⟩ := hp
    have hfree : Free cnt m .locker l := by
      intro h hl hpl
      cases h <;> simp only [Head.pool, reduceCtorEq] at hpl
      · exact p1
      · exact p2 _ _
    refine pre_ins hw hb hs hr hf b (h := .lks o md) (i := l) hd rfl ?_ ht ha hfree (by simp [recs, FL.Mem.act, FL.fset]) ?_
    · intro w hwm
      simp only [pre, List.mem_cons, List.not_mem_nil, or_false] at hwm
      subst hwm
      exact free_foreign hw hb (p := .locker) trivial ha hfree
    · intro h' hl hne
      cases h' with
      | lks o' md' =>
        refine Or.inl ⟨hl, ?_⟩
        by_cases e : o' = o
        · subst e
          have e2 : md' ≠ md := fun e2 => hne (e2 ▸ rfl)
          simp [recs, FL.Mem.act, FL.fset, e2]
        · simp [recs, FL.Mem.act, FL.fset, e]
      | _ => exact Or.inl ⟨hl, rfl⟩
  | cutL o md l =>
    refine pre_rem hw hb hs hr hf b (h := .lks o md) hd rfl rfl ht
      (Or.inr ⟨l, rfl, by simp [recs, FL.Mem.act, FL.fset]⟩) ?_
    intro h' hl hne
    cases h' with
    | lks o' md' =>
      refine ⟨hl, ?_⟩
      by_cases e : o' = o
      · subst e
        have e2 : md' ≠ md := fun e2 => hne (e2 ▸ rfl)
        simp [recs, FL.Mem.act, FL.fset, e2]
      · simp [recs, FL.Mem.act, FL.fset, e]
    | _ => exact ⟨hl, rfl⟩
  | pushL l =>
    obtain ⟨p1, p2⟩ := hp
    refine pre_ins hw hb hs hr hf b (h := .lfree) (i := l) hd rfl (by simp [pre]) trivial ha ?_ rfl ?_
    · intro h hl hpl
      cases h <;> simp only [Head.pool, reduceCtorEq] at hpl
      · exact p1
      · exact p2 _ _
    · intro h' hl hne; left; cases h' <;> first | exact ⟨hl, rfl⟩ | exact absurd rfl hne
  | cutO f o =>
    refine pre_rem hw hb hs hr hf b (h := .offs f) hd rfl rfl ht
      (Or.inr ⟨o, rfl, by simp [recs, FL.Mem.act, FL.fset]⟩) ?_
    intro h' hl hne
    cases h' with
    | offs g =>
      have e : g ≠ f := fun e => hne (e ▸ rfl)
      exact ⟨hl, by simp [recs, FL.Mem.act, FL.fset, e]⟩
    | lks o' md =>
      obtain ⟨g, hg, ho⟩ := hl
      refine ⟨⟨g, hg, ?_⟩, rfl⟩
      simp only [FL.Mem.act, FL.fset] at ho
      split at ho
      · rename_i eg; subst eg; exact List.mem_of_mem_erase ho
      · exact ho
    | _ => exact ⟨hl, rfl⟩
  | pushO o =>
    obtain ⟨p1, p2⟩ := hp
    refine pre_ins hw hb hs hr hf b (h := .ofree) (i := o) hd rfl (by simp [pre]) trivial ha ?_ rfl ?_
    · intro h hl hpl
      cases h <;> simp only [Head.pool, reduceCtorEq] at hpl
      · exact p1
      · exact p2 _
    · intro h' hl hne; left; cases h' <;> first | exact ⟨hl, rfl⟩ | exact absurd rfl hne
  | drainO f => exact absurd rfl (hd f)
  | cutF f =>
    refine pre_rem hw hb hs hr hf b (h := .files) hd rfl rfl trivial
      (Or.inr ⟨f, rfl, rfl⟩) ?_
    intro h' hl hne
    cases h' with
    | files => exact absurd rfl hne
    | _ => exact ⟨hl, rfl⟩
  | pushF f =>
    obtain ⟨p1, p2⟩ := hp
    refine pre_ins hw hb hs hr hf b (h := .ffree) (i := f) hd rfl (by simp [pre]) trivial ha ?_ rfl ?_
    · intro h hl hpl
      cases h <;> simp only [Head.pool, reduceCtorEq] at hpl
      · exact p2
      · exact p1
    · intro h' hl hne; left; cases h' <;> first | exact ⟨hl, rfl⟩ | exact absurd rfl hne
  | _ =>
    refine ⟨[], rfl, fun j => ?_⟩
    rw [List.take_nil]
    show Rep cnt c _
    split
    · exact (act_plain rfl rfl rfl rfl rfl rfl cnt c).2 hr
    · exact hr

theorem drain_sim {f : Nat} (hp : FL.Pre m (.drainO f)) (ht : f < cnt .file) :
    ∃ ws, actW cnt b fuel c (.drainO f) = some ws ∧ Rep cnt (applyWrites c ws) (m.act (.drainO f)) := by
  have hwf := rep_wf hw hb hs hr
  have hl1 : Live cnt m (.offs f) := ht
  have hl2 : Live cnt m .ofree := trivial
  have hH1 := mem_hs (cnt := cnt).2 ⟨_, hl1, rfl⟩
  have hH2 := mem_hs (cnt := cnt).2 ⟨_, hl2, rfl⟩
  obtain ⟨ws, h1, h2⟩ := Props.C57_bulk_return_complete hwf b hH1 hH2
    (fun e => by have := cell_inj hw (live_hb hb hl1) (live_hb hb hl2) e; cases this)
    (ls_len hw hb hs hf _ hH1)
  refine ⟨ws, h1, ?_⟩
  rw [ls_cell hw hb hl1, ls_cell hw hb hl2] at h2
  have hlk : ∀ o md, (m.act (.drainO f)).lks o md = m.lks o md := by
    intro o md
    simp only [FL.Mem.act]
    split
    · rename_i h; exact (hp o h md).symm
    · rfl
  have hlf : (m.act (.drainO f)).lfree = m.lfree := by
    simp only [FL.Mem.act]
    have : ((m.offs f).map fun o => (m.lks o .wr).reverse ++ (m.lks o .rd).reverse).reverse.flatten = [] := by
      rw [List.flatten_eq_nil_iff]
      intro l hl
      rw [List.mem_reverse, List.mem_map] at hl
      obtain ⟨o, ho, rfl⟩ := hl
      simp [hp o ho]
    rw [this]; rfl
  intro h' hl'
  have hlive : Live cnt m h' := by
    cases h' with
    | lks o md =>
      obtain ⟨g, hg, ho⟩ := hl'
      refine ⟨g, hg, ?_⟩
      simp only [FL.Mem.act, FL.fset] at ho
      split at ho
      · simp at ho
      · exact ho
    | _ => exact hl'
  have hc := h2.chain _ (mem_hs.2 ⟨h', hlive, rfl⟩)
  by_cases e1 : h' = .offs f
  · subst e1
    rw [upd_at] at hc
    simpa [recs, FL.Mem.act, FL.fset] using hc
  · have n1 : cell cnt h' ≠ cell cnt (.offs f) := fun e => e1 (cell_inj hw (live_hb hb hlive) (live_hb hb hl1) e)
    rw [show upd (upd (LS cnt m) (cell cnt .ofree) _) (cell cnt (.offs f)) [] (cell cnt h') = _ from if_neg n1] at hc
    by_cases e2 : h' = .ofree
    · subst e2
      rw [upd_at] at hc
      simpa [recs, FL.Mem.act, Head.pool] using hc
    · have n2 : cell cnt h' ≠ cell cnt .ofree := fun e => e2 (cell_inj hw (live_hb hb hlive) (live_hb hb hl2) e)
      rw [show upd (LS cnt m) (cell cnt .ofree) _ (cell cnt h') = _ from if_neg n2, ls_cell hw hb hlive] at hc
      have : recs (m.act (.drainO f)) h' = recs m h' := by
        cases h' with
        | lks o md => exact hlk o md
        | lfree => exact hlf
        | offs g =>
          have : g ≠ f := fun e => e1 (e ▸ rfl)
          simp [recs, FL.Mem.act, FL.fset, this]
        | ofree => exact absurd rfl e2
        | _ => rfl
      rw [this]; exact hc

end acts

end Fullock.FLMem
