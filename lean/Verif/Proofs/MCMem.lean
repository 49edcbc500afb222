import Verif.Spec.MCMem
import Verif.Proofs.MCRec
import Verif.Proofs.FLMemStep
/-! The list operations of the named mutexes and conditions on memory cells. -/
namespace Fullock.MCMem
open Fullock.ListMem Fullock.Layout
open Fullock.FLMem (adr idx member adr_inj' idx_adr)
open Fullock.Props (NoWrap)

/-! ### Places -/

theorem adr_eq (cnt : Pool → Nat) (hw : NoWrap cnt) (i : Nat) :
    adr cnt .nmtx i = 136 + 40 * cnt .file + 56 * cnt .off + 24 * cnt .locker + i * 96 ∧
    adr cnt .ncond i = 136 + 40 * cnt .file + 56 * cnt .off + 24 * cnt .locker + 96 * cnt .nmtx + i * 88 ∧
    adr cnt .waiter i = 136 + 40 * cnt .file + 56 * cnt .off + 24 * cnt .locker + 96 * cnt .nmtx +
      88 * cnt .ncond + i * 32 := by
  obtain ⟨o1, o2, o3, o4, o5, o6, -⟩ := Props.offs cnt hw
  obtain ⟨r1, r2, r3, r4, r5, r6, -⟩ := Props.recSize_values
  refine ⟨?_, ?_, ?_⟩ <;> unfold adr <;> simp only [r4, r5, r6] <;> omega

theorem headCells : headCell 6 = 64 ∧ headCell 8 = 80 ∧ freeCell .nmtx = 112 ∧ freeCell .ncond = 120 ∧
    freeCell .waiter = 128 ∧ member .ncond 1 = 8 := by decide

theorem cell_eq (cnt : Pool → Nat) (hw : NoWrap cnt) :
    cell cnt .mtxs = 64 ∧ cell cnt .mfree = 112 ∧ cell cnt .conds = 80 ∧ cell cnt .cfree = 120 ∧
    cell cnt .wfree = 128 ∧
    (∀ c, cell cnt (.ws c) = 144 + 40 * cnt .file + 56 * cnt .off + 24 * cnt .locker + 96 * cnt .nmtx + c * 88) := by
  obtain ⟨c1, c2, c3, c4, c5, c6⟩ := headCells
  refine ⟨c1, c3, c2, c4, c5, fun c => ?_⟩
  have := (adr_eq cnt hw c).2.1
  simp only [cell, c6]; omega

theorem cell_inj {cnt : Pool → Nat} (hw : NoWrap cnt) {h h' : Head} (e : cell cnt h = cell cnt h') : h = h' := by
  obtain ⟨e1, e2, e3, e4, e5, e6⟩ := cell_eq cnt hw
  cases h <;> cases h' <;> simp only [e1, e2, e3, e4, e5, e6] at e
  all_goals first
    | rfl
    | (exfalso; omega)
    | (congr 1; omega)

theorem cell_ne_adr {cnt : Pool → Nat} (hw : NoWrap cnt) {h h' : Head} (hb : HB cnt h) {i : Nat}
    (hi : i < cnt h'.pool) : cell cnt h ≠ adr cnt h'.pool i := by
  obtain ⟨e1, e2, e3, e4, e5, e6⟩ := cell_eq cnt hw
  obtain ⟨a1, a2, a3⟩ := adr_eq cnt hw i
  cases h <;> cases h' <;> simp only [e1, e2, e3, e4, e5, e6, a1, a2, a3, HB, Head.pool] at * <;> omega

theorem adr_inj {cnt : Pool → Nat} (hw : NoWrap cnt) {h h' : Head} {i j : Nat} (hi : i < cnt h.pool)
    (hj : j < cnt h'.pool) (e : adr cnt h.pool i = adr cnt h'.pool j) : h.pool = h'.pool ∧ i = j := by
  obtain ⟨a1, a2, a3⟩ := adr_eq cnt hw i
  obtain ⟨b1, b2, b3⟩ := adr_eq cnt hw j
  cases h <;> cases h'
  all_goals simp only [a1, a2, a3, b1, b2, b3, Head.pool] at *
  all_goals first
    | exact ⟨trivial, by omega⟩
    | (exfalso; omega)

theorem adr_ne_zero {cnt : Pool → Nat} (hw : NoWrap cnt) (h : Head) (i : Nat) : adr cnt h.pool i ≠ 0 := by
  obtain ⟨a1, a2, a3⟩ := adr_eq cnt hw i
  cases h <;> simp only [a1, a2, a3, Head.pool] at * <;> omega

/-! ### The lists as an instance of the specification of lists -/

def heads (cnt : Pool → Nat) : List Head :=
  [.mtxs, .mfree, .conds, .cfree, .wfree] ++ (List.range (cnt .ncond)).map .ws

theorem mem_heads {cnt : Pool → Nat} {h : Head} : h ∈ heads cnt ↔ HB cnt h := by
  unfold heads
  cases h <;> simp [HB]

def HS (cnt : Pool → Nat) : List Nat := (heads cnt).map (cell cnt)

def LS (cnt : Pool → Nat) (T : Tab) (c : Nat) : List Nat :=
  match (heads cnt).find? (fun h => cell cnt h == c) with
  | some h => (T h).map (adr cnt h.pool)
  | none => []

theorem mem_hs {cnt : Pool → Nat} {c : Nat} : c ∈ HS cnt ↔ ∃ h, HB cnt h ∧ c = cell cnt h := by
  unfold HS
  rw [List.mem_map]
  constructor
  · rintro ⟨h, hl, rfl⟩; exact ⟨h, mem_heads.1 hl, rfl⟩
  · rintro ⟨h, hl, rfl⟩; exact ⟨h, mem_heads.2 hl, rfl⟩

theorem ls_cell {cnt : Pool → Nat} (hw : NoWrap cnt) (T : Tab) {h : Head} (hl : HB cnt h) :
    LS cnt T (cell cnt h) = (T h).map (adr cnt h.pool) := by
  unfold LS
  have hex : ∃ h', (heads cnt).find? (fun h' => cell cnt h' == cell cnt h) = some h' := by
    rw [← Option.isSome_iff_exists, List.find?_isSome]
    exact ⟨h, mem_heads.2 hl, by simp⟩
  obtain ⟨h', hf⟩ := hex
  have h1 := List.find?_some hf
  have : h' = h := cell_inj hw (by simpa using h1)
  rw [hf, this]

theorem rep_wf {cnt : Pool → Nat} (hw : NoWrap cnt) {c : ListMem.Mem} {T : Tab} (hs : Sound cnt T)
    (hr : Rep cnt c T) : WF c (HS cnt) (LS cnt T) := by
  constructor
  · intro x hx
    obtain ⟨h, hl, rfl⟩ := mem_hs.1 hx
    rw [ls_cell hw T hl]
    exact hr h hl
  · intro x hx
    obtain ⟨h, hl, rfl⟩ := mem_hs.1 hx
    rw [ls_cell hw T hl]
    exact List.Nodup.map (fun i j e => adr_inj' e) (hs.nodup h)
  · intro x hx r hr' hrH
    obtain ⟨h, hl, rfl⟩ := mem_hs.1 hx
    rw [ls_cell hw T hl] at hr'
    obtain ⟨i, hi, rfl⟩ := List.mem_map.1 hr'
    obtain ⟨h', hl', e⟩ := mem_hs.1 hrH
    exact cell_ne_adr hw hl' (hs.lt h i hi) e.symm
  · intro x hx y hy hne r hrx hry
    obtain ⟨h, hl, rfl⟩ := mem_hs.1 hx
    obtain ⟨h', hl', rfl⟩ := mem_hs.1 hy
    rw [ls_cell hw T hl] at hrx
    rw [ls_cell hw T hl'] at hry
    obtain ⟨i, hi, rfl⟩ := List.mem_map.1 hrx
    obtain ⟨j, hj, e⟩ := List.mem_map.1 hry
    obtain ⟨e1, e2⟩ := adr_inj hw (hs.lt h' j hj) (hs.lt h i hi) e
    subst e2
    by_cases e : h = h'
    · exact hne (by rw [e])
    · exact hs.disj h h' e1.symm e j hi hj

theorem rep_of_wf {cnt : Pool → Nat} (hw : NoWrap cnt) {c : ListMem.Mem} {T : Tab}
    (h : WF c (HS cnt) (LS cnt T)) : Rep cnt c T := by
  intro hd hl
  have := h.chain _ (mem_hs.2 ⟨hd, hl, rfl⟩)
  rwa [ls_cell hw T hl] at this

/-- Enough rounds for every loop. -/
def Fuel (cnt : Pool → Nat) (fuel : Nat) : Prop := cnt .nmtx < fuel ∧ cnt .ncond < fuel ∧ cnt .waiter < fuel

theorem recs_len {cnt : Pool → Nat} {T : Tab} (hs : Sound cnt T) (h : Head) {fuel : Nat}
    (hf : Fuel cnt fuel) : (T h).length < fuel := by
  have h1 : (T h).length ≤ cnt h.pool := by
    have := (List.subperm_of_subset (hs.nodup h)
      (l₂ := List.range (cnt h.pool)) (fun i hi => List.mem_range.2 (hs.lt h i hi))).length_le
    simpa using this
  obtain ⟨f1, f2, f3⟩ := hf
  cases h <;> simp only [Head.pool] at h1 <;> omega

theorem ls_len {cnt : Pool → Nat} (hw : NoWrap cnt) {T : Tab} (hs : Sound cnt T) {fuel : Nat}
    (hf : Fuel cnt fuel) : ∀ x ∈ HS cnt, (LS cnt T x).length < fuel := by
  intro x hx
  obtain ⟨h, hl, rfl⟩ := mem_hs.1 hx
  rw [ls_cell hw T hl, List.length_map]
  exact recs_len hs h hf

/-- The tables with one list replaced. -/
def set (T : Tab) (h : Head) (l : List Nat) : Tab := fun h' => if h' = h then l else T h'

@[simp] theorem set_at (T : Tab) (h : Head) (l : List Nat) : set T h l h = l := by simp [set]
theorem set_ne (T : Tab) {h h' : Head} (l : List Nat) (e : h' ≠ h) : set T h l h' = T h' := by simp [set, e]

theorem ls_set {cnt : Pool → Nat} (hw : NoWrap cnt) {c : ListMem.Mem} {T : Tab} {h : Head} (hl : HB cnt h)
    {l : List Nat} (h1 : WF c (HS cnt) (ListMem.upd (LS cnt T) (cell cnt h) (l.map (adr cnt h.pool)))) :
    Rep cnt c (set T h l) := by
  intro h' hl'
  have := h1.chain _ (mem_hs.2 ⟨h', hl', rfl⟩)
  by_cases e : h' = h
  · subst e
    simpa [ListMem.upd] using this
  · have hne : cell cnt h' ≠ cell cnt h := fun e' => e (cell_inj hw e')
    rw [set_ne T l e]
    simpa [ListMem.upd, hne, ls_cell hw T hl'] using this

/-- A record of a kind that is in no list. -/
def Free (cnt : Pool → Nat) (T : Tab) (h : Head) (i : Nat) : Prop :=
  i < cnt h.pool ∧ ∀ h', h'.pool = h.pool → i ∉ T h'

theorem free_loose {cnt : Pool → Nat} (hw : NoWrap cnt) {T : Tab} (hs : Sound cnt T) {h : Head} {i : Nat}
    (hf : Free cnt T h i) : Loose (HS cnt) (LS cnt T) (adr cnt h.pool i) := by
  refine ⟨adr_ne_zero hw h i, fun hm => ?_, fun y hy hm => ?_⟩
  · obtain ⟨h', hl, e⟩ := mem_hs.1 hm
    exact cell_ne_adr hw hl hf.1 e.symm
  · obtain ⟨h', hl, rfl⟩ := mem_hs.1 hy
    rw [ls_cell hw T hl] at hm
    obtain ⟨j, hj, e⟩ := List.mem_map.1 hm
    obtain ⟨e1, e2⟩ := adr_inj hw (hs.lt h' j hj) hf.1 e
    subst e2
    exact hf.2 h' e1 hj

theorem sound_ins {cnt : Pool → Nat} {T : Tab} (hs : Sound cnt T) {h : Head} {i : Nat}
    (hf : Free cnt T h i) : Sound cnt (set T h (i :: T h)) := by
  constructor
  · intro h'
    by_cases e : h' = h
    · subst e; rw [set_at]; exact List.nodup_cons.2 ⟨hf.2 _ rfl, hs.nodup _⟩
    · rw [set_ne T _ e]; exact hs.nodup _
  · intro h' j hj
    by_cases e : h' = h
    · subst e; rw [set_at] at hj
      rcases List.mem_cons.1 hj with rfl | hj
      · exact hf.1
      · exact hs.lt _ _ hj
    · rw [set_ne T _ e] at hj; exact hs.lt _ _ hj
  · intro h1 h2 hp hne j hj hj'
    by_cases e1 : h1 = h
    · subst e1
      rw [set_at] at hj
      rw [set_ne T _ (Ne.symm hne)] at hj'
      rcases List.mem_cons.1 hj with rfl | hj
      · exact hf.2 h2 hp.symm hj'
      · exact hs.disj _ _ hp hne j hj hj'
    · rw [set_ne T _ e1] at hj
      by_cases e2 : h2 = h
      · subst e2
        rw [set_at] at hj'
        rcases List.mem_cons.1 hj' with rfl | hj'
        · exact hf.2 h1 hp hj
        · exact hs.disj _ _ hp hne j hj hj'
      · rw [set_ne T _ e2] at hj'
        exact hs.disj _ _ hp hne j hj hj'

theorem sound_sub {cnt : Pool → Nat} {T : Tab} (hs : Sound cnt T) {h : Head} {l : List Nat}
    (hl : l.Sublist (T h)) : Sound cnt (set T h l) := by
  have hsub : ∀ h', ∀ j ∈ set T h l h', j ∈ T h' := by
    intro h' j hj
    by_cases e : h' = h
    · subst e; rw [set_at] at hj; exact hl.subset hj
    · rwa [set_ne T _ e] at hj
  constructor
  · intro h'
    by_cases e : h' = h
    · subst e; rw [set_at]; exact (hs.nodup _).sublist hl
    · rw [set_ne T _ e]; exact hs.nodup _
  · intro h' j hj; exact hs.lt _ _ (hsub _ _ hj)
  · intro h1 h2 hp hne j hj hj'
    exact hs.disj _ _ hp hne j (hsub _ _ hj) (hsub _ _ hj')

/-- The pointer to the first record of the rest of a list. -/
def hdp (cnt : Pool → Nat) (b : Nat) (p : Pool) : List Nat → Nat
  | [] => 0
  | i :: _ => ptr cnt b p i

theorem chain_mid {m : ListMem.Mem} {f : Nat → Nat} : ∀ {pre rest : List Nat} {i v : Nat},
    Chain m v ((pre ++ i :: rest).map f) → Chain m (m (f i)) (rest.map f)
  | [], rest, i, v, h => h.2.2
  | a :: pre, rest, i, v, h => chain_mid (pre := pre) h.2.2

theorem erase_map_adr {cnt : Pool → Nat} {h : Head} {i : Nat} {l : List Nat} :
    (l.map (adr cnt h.pool)).erase (adr cnt h.pool i) = (l.erase i).map (adr cnt h.pool) := by
  induction l with
  | nil => rfl
  | cons a l ih =>
    by_cases e : a = i
    · subst e; simp
    · have : adr cnt h.pool a ≠ adr cnt h.pool i := fun e' => e (adr_inj' e')
      simp [List.erase_cons, e, this, ih]

section ops
variable {cnt : Pool → Nat} (hw : NoWrap cnt) {x : Mem} {T : Tab} (hs : Sound cnt T)
  (hr : Rep cnt x.cells T) (b : Nat)
include hw hs hr

theorem rep_loose {h : Head} {i v : Nat} (hf : Free cnt T h i) :
    Rep cnt (x.cells.set (adr cnt h.pool i) v) T :=
  rep_of_wf hw (wf_write_loose (rep_wf hw hs hr) (free_loose hw hs hf))

theorem push_ok {h : Head} {i : Nat} (hl : HB cnt h) (hf : Free cnt T h i) :
    ∃ ws, push cnt b x i h = some ws ∧ Rep cnt (applyWrites x.cells ws) (set T h (i :: T h)) ∧
      ∀ j, Rep cnt (applyWrites x.cells (ws.take j)) T ∨
        Rep cnt (applyWrites x.cells (ws.take j)) (set T h (i :: T h)) := by
  obtain ⟨ws, h1, h2, h3, h4⟩ := insert_ok (rep_wf hw hs hr) b (free_loose hw hs hf) (mem_hs.2 ⟨h, hl, rfl⟩)
  have h5 : Rep cnt (applyWrites x.cells ws) (set T h (i :: T h)) := by
    apply ls_set hw hl
    rw [ls_cell hw T hl] at h4
    simpa using h4
  refine ⟨ws, h1, h5, fun j => ?_⟩
  match j with
  | 0 => exact Or.inl hr
  | 1 => exact Or.inl (rep_of_wf hw h3)
  | j + 2 =>
    right
    rw [List.take_of_length_le (by rw [h2]; simp)]
    exact h5

theorem pop_nil {h : Head} (hl : HB cnt h) (he : T h = []) : pop cnt b x h = none := by
  have := retrieve_empty (rep_wf hw hs hr) b (mem_hs.2 ⟨h, hl, rfl⟩) (by rw [ls_cell hw T hl, he]; rfl)
  simp [pop, this]

theorem pop_ok {h : Head} {i : Nat} {l : List Nat} (hl : HB cnt h) (he : T h = i :: l) :
    ∃ ws, pop cnt b x h = some (i, ws) ∧ Rep cnt (applyWrites x.cells ws) (set T h l) ∧
      ∀ j, Rep cnt (applyWrites x.cells (ws.take j)) T ∨ Rep cnt (applyWrites x.cells (ws.take j)) (set T h l) := by
  obtain ⟨ws, h1, h2, h3, h4, -⟩ := retrieve_ok (rep_wf hw hs hr) b (mem_hs.2 ⟨h, hl, rfl⟩)
    (r := adr cnt h.pool i) (rs := l.map (adr cnt h.pool)) (by rw [ls_cell hw T hl, he]; rfl)
  have h5 := ls_set hw hl h4
  refine ⟨ws, by simp [pop, h1, idx_adr], h5, fun j => ?_⟩
  match j with
  | 0 => exact Or.inl hr
  | 1 => exact Or.inr (ls_set hw hl h3)
  | j + 2 =>
    right
    rw [List.take_of_length_le (by rw [h2]; simp)]
    exact h5

theorem cut_ok {fuel : Nat} (hfu : Fuel cnt fuel) {h : Head} {i : Nat} (hl : HB cnt h) (hi : i ∈ T h) :
    ∃ ws, cutoffW b x.cells fuel (ptr cnt b h.pool i) (cell cnt h) = some (some ws) ∧
      Rep cnt (applyWrites x.cells ws) (set T h ((T h).erase i)) ∧
      ∀ j, Rep cnt (applyWrites x.cells (ws.take j)) T ∨
        Rep cnt (applyWrites x.cells (ws.take j)) (set T h ((T h).erase i)) := by
  have hH := mem_hs.2 ⟨h, hl, rfl⟩
  obtain ⟨q, ws, h1, h2, -, h3, h4, -⟩ := cutoff_ok (rep_wf hw hs hr) b hH (r := adr cnt h.pool i)
    (by rw [ls_cell hw T hl]; exact List.mem_map.2 ⟨i, hi, rfl⟩) (ls_len hw hs hfu _ hH)
  rw [ls_cell hw T hl, erase_map_adr] at h3 h4
  have h5 := ls_set hw hl h4
  refine ⟨ws, h1, h5, fun j => ?_⟩
  match j with
  | 0 => exact Or.inl hr
  | 1 => exact Or.inr (ls_set hw hl h3)
  | j + 2 =>
    right
    rw [List.take_of_length_le (by rw [h2]; simp)]
    exact h5

theorem cut_none {fuel : Nat} (hfu : Fuel cnt fuel) {h : Head} {i : Nat} (hl : HB cnt h) (hi : i ∉ T h) :
    cutoffW b x.cells fuel (ptr cnt b h.pool i) (cell cnt h) = some none := by
  have hH := mem_hs.2 ⟨h, hl, rfl⟩
  refine cutoff_absent (rep_wf hw hs hr) b hH (adr_ne_zero hw h i) ?_ (ls_len hw hs hfu _ hH)
  rw [ls_cell hw T hl]
  intro hm
  obtain ⟨j, hj, e⟩ := List.mem_map.1 hm
  exact hi (adr_inj' e ▸ hj)

/-! ### Reading -/

theorem ptr_ne {h : Head} (i : Nat) : ptr cnt b h.pool i ≠ 0 := by
  clear hs hr
  exact fun e => adr_ne_zero hw h i (toAbs_eq_zero.1 e)

theorem top_eq {h : Head} (hl : HB cnt h) : top cnt b x h = hdp cnt b h.pool (T h) := by
  have := hr h hl
  unfold top
  cases e : T h with
  | nil =>
    rw [e] at this
    rw [show x.cells (cell cnt h) = 0 from this]; simp [toAbs, hdp]
  | cons i l =>
    rw [e] at this
    rw [this.1]; rfl

omit hs in
theorem next_eq {h : Head} (hl : HB cnt h) {pre rest : List Nat} {i : Nat} (he : T h = pre ++ i :: rest) :
    nextOf b x (ptr cnt b h.pool i) = hdp cnt b h.pool rest := by
  have := hr h hl
  rw [he] at this
  have h1 := chain_mid this
  unfold nextOf ptr
  rw [nextCell_toAbs (adr_ne_zero hw h i)]
  cases rest with
  | nil => rw [show x.cells (adr cnt h.pool i) = 0 from h1]; simp [toAbs, hdp]
  | cons j l => rw [h1.1]; rfl

theorem find_eq {fuel : Nat} (hfu : Fuel cnt fuel) {h : Head} (hl : HB cnt h) (f : Nat → Bool) :
    (find b x.cells (fun p => f (idx cnt b h.pool p)) fuel (cell cnt h)).map (Option.map (idx cnt b h.pool)) =
      some ((T h).find? f) := by
  unfold find
  rw [findLoop_eq b x.cells _ _ fuel _ (by rw [List.length_map]; exact recs_len hs h hfu) (hr h hl)]
  simp only [Option.map_some, Option.some.injEq]
  rw [List.find?_map]
  simp only [Option.map_map]
  have : (fun r => f (idx cnt b h.pool (toAbs b r))) ∘ adr cnt h.pool = f := by
    funext i; simp [idx_adr]
  rw [this]
  cases (T h).find? f <;> simp [idx_adr]

theorem findM_eq {fuel : Nat} (hfu : Fuel cnt fuel) (n : Nat) :
    findM cnt fuel b x n = some ((T .mtxs).find? fun m => x.mname m == n) :=
  find_eq hw hs hr b hfu (h := .mtxs) trivial fun m => x.mname m == n

theorem findC_eq {fuel : Nat} (hfu : Fuel cnt fuel) (n : Nat) :
    findC cnt fuel b x n = some ((T .conds).find? fun c => x.cname c == n) :=
  find_eq hw hs hr b hfu (h := .conds) trivial fun c => x.cname c == n

theorem listed_eq {fuel : Nat} (hfu : Fuel cnt fuel) {h : Head} (hl : HB cnt h) :
    listed cnt b fuel x h = T h := by
  unfold listed
  rw [FLMem.walk_chain b (hr h hl) (by rw [List.length_map]; exact recs_len hs h hfu), List.map_map, List.map_map]
  conv_rhs => rw [← List.map_id (T h)]
  exact List.map_congr_left fun i _ => idx_adr cnt b h.pool i

end ops

end Fullock.MCMem
