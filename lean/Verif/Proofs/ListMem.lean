import Verif.Spec.ListMem
import Mathlib.Data.List.Nodup
namespace Fullock.ListMem

theorem nextCell_toAbs {b r : Nat} (h : r ≠ 0) : nextCell b (toAbs b r) = r := by
  simp [nextCell, toAbs, h]

theorem toAbs_eq_zero {b r : Nat} : toAbs b r = 0 ↔ r = 0 := by
  unfold toAbs; split <;> omega

theorem toAbs_inj {b r r' : Nat} (h : toAbs b r = toAbs b r') : r = r' := by
  unfold toAbs at h; split at h <;> split at h <;> omega

theorem toRel_toAbs (b r : Nat) : toRel b (toAbs b r) = r := by
  by_cases h : r = 0
  · simp [toRel, toAbs, h]
  · simp [toRel, toAbs, h]

theorem set_same (m : Mem) (c v : Nat) : m.set c v c = v := by simp [Mem.set]
theorem set_other (m : Mem) (c v : Nat) {x : Nat} (h : x ≠ c) : m.set c v x = m x := by
  simp [Mem.set, h]

theorem chain_congr {m m' : Mem} : ∀ {rs : List Nat} {v : Nat}, (∀ r ∈ rs, m' r = m r) →
    Chain m v rs → Chain m' v rs := by
  intro rs
  induction rs with
  | nil => intro v _ h; exact h
  | cons r rs ih =>
    intro v hm h
    refine ⟨h.1, h.2.1, ?_⟩
    rw [hm r (by simp)]
    exact ih (fun x hx => hm x (by simp [hx])) h.2.2

theorem chain_ne_zero {m : Mem} : ∀ {rs : List Nat} {v : Nat}, Chain m v rs → ∀ r ∈ rs, r ≠ 0 := by
  intro rs
  induction rs with
  | nil => intro v _ r hr; simp at hr
  | cons a rs ih =>
    intro v h r hr
    simp at hr
    rcases hr with rfl | hr
    · exact h.2.1
    · exact ih h.2.2 r hr

/-- The sequence is determined by the memory. -/
theorem chain_unique {m : Mem} : ∀ {rs rs' : List Nat} {v : Nat}, Chain m v rs → Chain m v rs' →
    rs = rs' := by
  intro rs
  induction rs with
  | nil =>
    intro rs' v h h'
    cases rs' with
    | nil => rfl
    | cons a t => exact absurd (h'.1 ▸ h : a = 0) h'.2.1
  | cons r rs ih =>
    intro rs' v h h'
    cases rs' with
    | nil => exact absurd (h.1 ▸ h' : r = 0) h.2.1
    | cons a t =>
      have : a = r := h'.1.symm.trans h.1
      subst this
      rw [ih h.2.2 h'.2.2]

/-- Writing a loose record's cell changes no list. -/
theorem wf_write_loose {m : Mem} {H : List Nat} {L : Nat → List Nat} (h : WF m H L) {r v : Nat}
    (hr : Loose H L r) : WF (m.set r v) H L := by
  refine ⟨?_, h.nodup, h.notHead, h.disj⟩
  intro x hx
  have hxr : x ≠ r := fun e => hr.2.1 (e ▸ hx)
  rw [set_other m r v hxr]
  exact chain_congr (fun y hy => set_other m r v (fun e => hr.2.2 x hx (e ▸ hy))) (h.chain x hx)

/-- Changing one head. -/
theorem wf_set_head {m : Mem} {H : List Nat} {L : Nat → List Nat} (h : WF m H L) {hd v : Nat}
    (hh : hd ∈ H) {l : List Nat} (hc : Chain m v l) (hnd : l.Nodup) (hnh : ∀ r ∈ l, r ∉ H)
    (hdis : ∀ h' ∈ H, h' ≠ hd → ∀ r ∈ l, r ∉ L h') : WF (m.set hd v) H (upd L hd l) := by
  have hcong : ∀ {rs : List Nat} {w : Nat}, (∀ r ∈ rs, r ∉ H) → Chain m w rs →
      Chain (m.set hd v) w rs := by
    intro rs w hn hch
    exact chain_congr (fun y hy => set_other m hd v (fun e => hn y hy (e ▸ hh))) hch
  constructor
  · intro x hx
    unfold upd
    split
    · rename_i e; subst e
      rw [set_same]
      exact hcong hnh hc
    · rename_i e
      rw [set_other m hd v e]
      exact hcong (h.notHead x hx) (h.chain x hx)
  · intro x hx
    unfold upd
    split
    · exact hnd
    · exact h.nodup x hx
  · intro x hx r hr
    unfold upd at hr
    split at hr
    · exact hnh r hr
    · exact h.notHead x hx r hr
  · intro x hx y hy hne r hr hr'
    unfold upd at hr hr'
    split at hr <;> split at hr'
    · omega
    · rename_i e1 e2; exact hdis y hy e2 r hr hr'
    · rename_i e1 e2; exact hdis x hx e1 r hr' hr
    · exact h.disj x hx y hy hne r hr hr'

theorem upd_same (L : Nat → List Nat) (h : Nat) : upd L h (L h) = L := by
  funext x; unfold upd; split
  · rename_i e; rw [e]
  · rfl

/-! ### Insert -/

theorem insert_ok {m : Mem} {H : List Nat} {L : Nat → List Nat} (hw : WF m H L) (b : Nat)
    {r h : Nat} (hr : Loose H L r) (hh : h ∈ H) :
    ∃ ws, insertW b m (toAbs b r) h = some ws ∧ ws = [(r, m h), (h, r)] ∧
      WF (applyWrites m (ws.take 1)) H L ∧
      WF (applyWrites m ws) H (upd L h (r :: L h)) := by
  have hr0 := hr.1
  have hne : h ≠ r := fun e => hr.2.1 (e ▸ hh)
  refine ⟨[(r, m h), (h, r)], ?_, rfl, ?_, ?_⟩
  · unfold insertW
    rw [if_neg (by rw [toAbs_eq_zero]; exact hr0)]
    simp [nextCell_toAbs hr0, toRel_toAbs]
  · exact wf_write_loose hw hr
  · have h1 := wf_write_loose (v := m h) hw hr
    show WF ((m.set r (m h)).set h r) H _
    apply wf_set_head h1 hh
    · refine ⟨rfl, hr0, ?_⟩
      rw [set_same]
      exact chain_congr (fun y hy => set_other m r _ (fun e => hr.2.2 h hh (e ▸ hy))) (hw.chain h hh)
    · rw [List.nodup_cons]
      exact ⟨hr.2.2 h hh, hw.nodup h hh⟩
    · intro x hx
      simp at hx
      rcases hx with rfl | hx
      · exact hr.2.1
      · exact hw.notHead h hh x hx
    · intro h' hh' hne' x hx
      simp at hx
      rcases hx with rfl | hx
      · exact hr.2.2 h' hh'
      · exact hw.disj h hh h' hh' (Ne.symm hne') x hx

/-! ### Retrieve -/

theorem retrieve_empty {m : Mem} {H : List Nat} {L : Nat → List Nat} (hw : WF m H L) (b : Nat)
    {h : Nat} (hh : h ∈ H) (he : L h = []) : retrieveW b m h = none := by
  have := hw.chain h hh
  rw [he] at this
  simp [retrieveW, show m h = 0 from this]

theorem retrieve_ok {m : Mem} {H : List Nat} {L : Nat → List Nat} (hw : WF m H L) (b : Nat)
    {h r : Nat} {rs : List Nat} (hh : h ∈ H) (he : L h = r :: rs) :
    ∃ ws, retrieveW b m h = some (toAbs b r, ws) ∧ ws = [(h, m r), (r, 0)] ∧
      WF (applyWrites m (ws.take 1)) H (upd L h rs) ∧
      WF (applyWrites m ws) H (upd L h rs) ∧ Loose H (upd L h rs) r := by
  have hch := hw.chain h hh
  rw [he] at hch
  obtain ⟨hv, hr0, hch⟩ := hch
  have hnd := hw.nodup h hh
  rw [he, List.nodup_cons] at hnd
  have hmem : r ∈ L h := by simp [he]
  have hloose : Loose H (upd L h rs) r := by
    refine ⟨hr0, hw.notHead h hh r hmem, ?_⟩
    intro h' hh'
    unfold upd
    split
    · exact hnd.1
    · rename_i e; exact hw.disj h hh h' hh' (Ne.symm e) r hmem
  have w1 : WF (m.set h (m r)) H (upd L h rs) := by
    apply wf_set_head hw hh hch hnd.2
    · intro x hx; exact hw.notHead h hh x (by simp [he, hx])
    · intro h' hh' hne x hx
      exact hw.disj h hh h' hh' (Ne.symm hne) x (by simp [he, hx])
  refine ⟨[(h, m r), (r, 0)], ?_, rfl, w1, wf_write_loose w1 hloose, hloose⟩
  unfold retrieveW
  simp only [hv]
  rw [if_neg hr0]
  simp [nextCell_toAbs hr0]

/-! ### Cut off -/

/-- The predecessor cell of `r` in the chain starting in cell `c`. -/
def predCell : Nat → List Nat → Nat → Option Nat
  | _, [], _ => none
  | c, x :: xs, r => if x = r then some c else predCell x xs r

theorem predCell_none {r : Nat} : ∀ {l : List Nat} {c : Nat}, r ∉ l → predCell c l r = none := by
  intro l
  induction l with
  | nil => intros; rfl
  | cons x xs ih =>
    intro c h
    simp at h
    unfold predCell
    rw [if_neg (Ne.symm h.1)]
    exact ih h.2

theorem predCell_some {r : Nat} : ∀ {l : List Nat} {c : Nat}, r ∈ l →
    ∃ q, predCell c l r = some q ∧ (q = c ∨ q ∈ l) := by
  intro l
  induction l with
  | nil => intro c h; simp at h
  | cons x xs ih =>
    intro c h
    unfold predCell
    by_cases hx : x = r
    · exact ⟨c, by rw [if_pos hx], Or.inl rfl⟩
    · rw [if_neg hx]
      have : r ∈ xs := by
        simp at h; rcases h with h | h
        · exact absurd h.symm hx
        · exact h
      obtain ⟨q, hq, hq'⟩ := ih this (c := x)
      refine ⟨q, hq, Or.inr ?_⟩
      rcases hq' with h | h <;> simp [h]

theorem cutLoop_eq (b : Nat) (m : Mem) (r : Nat) (hr : r ≠ 0) : ∀ (l : List Nat) (fuel c : Nat),
    l.length < fuel → Chain m (m c) l →
    cutLoop b m (toAbs b r) fuel c (toAbs b (m c)) = some (predCell c l r) := by
  intro l
  induction l with
  | nil =>
    intro fuel c hf hc
    cases fuel with
    | zero => simp at hf
    | succ f =>
      have : m c = 0 := hc
      simp [cutLoop, this, toAbs, predCell]
  | cons x xs ih =>
    intro fuel c hf hc
    cases fuel with
    | zero => simp at hf
    | succ f =>
      obtain ⟨hv, hx0, hch⟩ := hc
      simp only [cutLoop]
      rw [if_neg (by rw [toAbs_eq_zero, hv]; exact hx0)]
      unfold predCell
      by_cases hxr : x = r
      · subst hxr
        rw [hv, if_pos rfl, if_pos rfl]
      · rw [if_neg (by rw [hv]; exact fun h => hxr (toAbs_inj h)), if_neg hxr, hv,
          nextCell_toAbs hx0]
        exact ih f x (by simp at hf; omega) hch

/-- Unlinking a record in the middle of a chain. -/
theorem chain_cut {m : Mem} {r : Nat} : ∀ {l : List Nat} {c q : Nat}, c ∉ l → l.Nodup →
    Chain m (m c) l → predCell c l r = some q →
    Chain (m.set q (m r)) ((m.set q (m r)) c) (l.erase r) := by
  intro l
  induction l with
  | nil => intro c q _ _ _ h; simp [predCell] at h
  | cons x xs ih =>
    intro c q hc hnd hch hq
    obtain ⟨hv, hx0, hch⟩ := hch
    rw [List.nodup_cons] at hnd
    simp only [List.mem_cons, not_or] at hc
    unfold predCell at hq
    by_cases hxr : x = r
    · subst hxr
      rw [if_pos rfl] at hq
      cases hq
      rw [set_same]
      simp only [List.erase_cons_head]
      exact chain_congr (fun y hy => set_other m _ _ (fun e => hc.2 (e ▸ hy))) hch
    · rw [if_neg hxr] at hq
      have hqc : q ≠ c := by
        by_cases hm : r ∈ xs
        · obtain ⟨q', hq', h2⟩ := predCell_some hm (c := x)
          rw [hq] at hq'; cases hq'
          rcases h2 with h2 | h2
          · exact fun e => hc.1 (e ▸ h2)
          · exact fun e => hc.2 (e ▸ h2)
        · rw [predCell_none hm] at hq; simp at hq
      rw [set_other m q _ (Ne.symm hqc)]
      rw [List.erase_cons_tail (by simpa using hxr)]
      exact ⟨hv, hx0, ih hnd.1 hnd.2 hch hq⟩

theorem cutoff_absent {m : Mem} {H : List Nat} {L : Nat → List Nat} (hw : WF m H L) (b : Nat)
    {r h fuel : Nat} (hh : h ∈ H) (hr0 : r ≠ 0) (hr : r ∉ L h) (hf : (L h).length < fuel) :
    cutoffW b m fuel (toAbs b r) h = some none := by
  unfold cutoffW
  by_cases he : toAbs b r = 0 ∨ m h = 0
  · rw [if_pos he]
  · rw [if_neg he, cutLoop_eq b m r hr0 (L h) fuel h hf (hw.chain h hh), predCell_none hr]
    rfl

theorem cutoff_ok {m : Mem} {H : List Nat} {L : Nat → List Nat} (hw : WF m H L) (b : Nat)
    {r h fuel : Nat} (hh : h ∈ H) (hr : r ∈ L h) (hf : (L h).length < fuel) :
    ∃ q ws, cutoffW b m fuel (toAbs b r) h = some (some ws) ∧ ws = [(q, m r), (r, 0)] ∧
      (q = h ∨ q ∈ L h) ∧
      WF (applyWrites m (ws.take 1)) H (upd L h ((L h).erase r)) ∧
      WF (applyWrites m ws) H (upd L h ((L h).erase r)) ∧
      Loose H (upd L h ((L h).erase r)) r := by
  have hch := hw.chain h hh
  have hr0 := chain_ne_zero hch r hr
  obtain ⟨q, hq, hqm⟩ := predCell_some hr (c := h)
  have hhn : h ∉ L h := fun hm => hw.notHead h hh h hm hh
  have hloose : Loose H (upd L h ((L h).erase r)) r := by
    refine ⟨hr0, hw.notHead h hh r hr, ?_⟩
    intro h' hh'
    unfold upd
    split
    · exact List.Nodup.not_mem_erase (hw.nodup h hh)
    · rename_i e; exact hw.disj h hh h' hh' (Ne.symm e) r hr
  have w1 : WF (m.set q (m r)) H (upd L h ((L h).erase r)) := by
    have hcut := chain_cut hhn (hw.nodup h hh) hch hq
    constructor
    · intro x hx
      unfold upd
      split
      · rename_i e; subst e; exact hcut
      · rename_i e
        have hxq : x ≠ q := by
          intro he
          rcases hqm with h1 | h1
          · exact e (he.trans h1)
          · exact hw.notHead h hh q h1 (he ▸ hx)
        rw [set_other m q _ hxq]
        refine chain_congr (fun y hy => set_other m q _ ?_) (hw.chain x hx)
        intro he
        rcases hqm with h1 | h1
        · exact hw.notHead x hx y hy (he.trans h1 ▸ hh)
        · exact hw.disj x hx h hh e y hy (he ▸ h1)
    · intro x hx
      unfold upd
      split
      · exact (hw.nodup h hh).erase r
      · exact hw.nodup x hx
    · intro x hx y hy
      unfold upd at hy
      split at hy
      · exact hw.notHead h hh y (List.mem_of_mem_erase hy)
      · exact hw.notHead x hx y hy
    · intro x hx y hy hne z hz hz'
      unfold upd at hz hz'
      split at hz <;> split at hz'
      · omega
      · rename_i e1 e2; exact hw.disj h hh y hy (Ne.symm e2) z (List.mem_of_mem_erase hz) hz'
      · rename_i e1 e2; exact hw.disj x hx h hh e1 z hz (List.mem_of_mem_erase hz')
      · exact hw.disj x hx y hy hne z hz hz'
  refine ⟨q, [(q, m r), (r, 0)], ?_, rfl, hqm, w1, wf_write_loose w1 hloose, hloose⟩
  unfold cutoffW
  have hmh : m h ≠ 0 := by
    intro he
    cases hl : L h with
    | nil => rw [hl] at hr; simp at hr
    | cons x xs => rw [hl] at hch; exact hch.2.1 (hch.1 ▸ he)
  rw [if_neg (by rw [toAbs_eq_zero]; simp [hr0, hmh]),
    cutLoop_eq b m r hr0 (L h) fuel h hf hch, hq]
  simp [nextCell_toAbs hr0]

/-! ### Find -/

theorem findLoop_eq (b : Nat) (m : Mem) (eq : Nat → Bool) : ∀ (l : List Nat) (fuel v : Nat),
    l.length < fuel → Chain m v l →
    findLoop b m eq fuel (toAbs b v) =
      some ((l.find? (fun r => eq (toAbs b r))).map (toAbs b)) := by
  intro l
  induction l with
  | nil =>
    intro fuel v hf hc
    cases fuel with
    | zero => simp at hf
    | succ f =>
      have : v = 0 := hc
      simp [findLoop, this, toAbs]
  | cons x xs ih =>
    intro fuel v hf hc
    cases fuel with
    | zero => simp at hf
    | succ f =>
      obtain ⟨rfl, hx0, hch⟩ := hc
      simp only [findLoop]
      rw [if_neg (by rw [toAbs_eq_zero]; exact hx0), List.find?_cons]
      by_cases he : eq (toAbs b v) = true
      · rw [if_pos he, he]; rfl
      · have he' : eq (toAbs b v) = false := by simpa using he
        rw [if_neg he, he', nextCell_toAbs hx0]
        exact ih f _ (by simp at hf; omega) hch

theorem rfindLoop_eq (b : Nat) (m : Mem) (eq : Nat → Bool) : ∀ (l : List Nat) (fuel v : Nat)
    (last : Option Nat), l.length < fuel → Chain m v l →
    rfindLoop b m eq fuel (toAbs b v) last =
      some (((l.reverse.find? (fun r => eq (toAbs b r))).map (toAbs b)).or last) := by
  intro l
  induction l with
  | nil =>
    intro fuel v last hf hc
    cases fuel with
    | zero => simp at hf
    | succ f =>
      have : v = 0 := hc
      simp [rfindLoop, this, toAbs]
  | cons x xs ih =>
    intro fuel v last hf hc
    cases fuel with
    | zero => simp at hf
    | succ f =>
      obtain ⟨rfl, hx0, hch⟩ := hc
      simp only [rfindLoop]
      rw [if_neg (by rw [toAbs_eq_zero]; exact hx0), nextCell_toAbs hx0,
        ih f _ _ (by simp at hf; omega) hch]
      congr 1
      rw [List.reverse_cons, List.find?_append]
      cases h1 : xs.reverse.find? (fun r => eq (toAbs b r)) with
      | some y => simp
      | none =>
        by_cases he : eq (toAbs b v) = true
        · simp [he]
        · have he' : eq (toAbs b v) = false := by simpa using he
          simp [he']

/-! ### Initialise -/

/-- Offsets of `count` consecutive records. -/
def area (r size : Nat) : Nat → List Nat
  | 0 => []
  | count + 1 => r :: area (r + size) size count

theorem area_ge {size : Nat} : ∀ {count r x : Nat}, x ∈ area r size count → r ≤ x := by
  intro count
  induction count with
  | zero => intro r x h; simp [area] at h
  | succ n ih =>
    intro r x h
    simp only [area, List.mem_cons] at h
    rcases h with rfl | h
    · omega
    · have := ih h; omega

theorem applyWrites_append (m : Mem) (a b : List Write) :
    applyWrites m (a ++ b) = applyWrites (applyWrites m a) b := by
  induction a generalizing m with
  | nil => rfl
  | cons w ws ih => simp only [List.cons_append, applyWrites]; exact ih _

theorem initLoop_frame (b size : Nat) (hs : 0 < size) : ∀ (count r prev : Nat) (m : Mem) (x : Nat),
    r ≠ 0 → x ∉ area r size count → (prev ≠ 0 → x ≠ prev) →
    applyWrites m (initLoop b size count (toAbs b r) (toAbs b prev)) x = m x := by
  intro count
  induction count with
  | zero => intros; rfl
  | succ n ih =>
    intro r prev m x hr hx hp
    simp only [area, List.mem_cons, not_or] at hx
    simp only [initLoop]
    rw [applyWrites_append, applyWrites_append]
    have hadd : toAbs b r + size = toAbs b (r + size) := by
      unfold toAbs; rw [if_pos hr, if_pos (by omega)]; omega
    rw [hadd, ih (r + size) r _ x (by omega) hx.2 (fun _ => hx.1)]
    simp only [applyWrites, nextCell_toAbs hr]
    rw [set_other _ _ _ hx.1]
    by_cases hp0 : prev = 0
    · simp [hp0, toAbs, applyWrites]
    · have : toAbs b prev ≠ 0 := by rw [ne_eq, toAbs_eq_zero]; exact hp0
      rw [if_pos this]
      simp only [applyWrites, nextCell_toAbs hp0]
      rw [set_other _ _ _ (hp hp0)]

theorem initLoop_chain (b size : Nat) (hs : 0 < size) : ∀ (count r prev : Nat) (m : Mem),
    r ≠ 0 → prev < r →
    (0 < count → Chain (applyWrites m (initLoop b size count (toAbs b r) (toAbs b prev)))
      r (area r size count)) ∧
    (prev ≠ 0 → 0 < count →
      applyWrites m (initLoop b size count (toAbs b r) (toAbs b prev)) prev = r) := by
  intro count
  induction count with
  | zero => intro r prev m _ _; exact ⟨by simp, by simp⟩
  | succ n ih =>
    intro r prev m hr hpr
    have hadd : toAbs b r + size = toAbs b (r + size) := by
      unfold toAbs; rw [if_pos hr, if_pos (by omega)]; omega
    have hra : r ∉ area (r + size) size n := fun h => by have := area_ge h; omega
    have hpa : prev ∉ area (r + size) size n := fun h => by have := area_ge h; omega
    constructor
    · intro _
      simp only [initLoop, area]
      rw [applyWrites_append, applyWrites_append, hadd]
      refine ⟨rfl, hr, ?_⟩
      cases n with
      | zero =>
        simp only [initLoop, applyWrites, nextCell_toAbs hr, area, Chain]
        rw [set_same]
      | succ k =>
        have := ih (r + size) r (applyWrites (applyWrites m
          (if toAbs b prev ≠ 0 then [(nextCell b (toAbs b prev), toRel b (toAbs b r))] else []))
          [(nextCell b (toAbs b r), 0)]) (by omega) (by omega)
        rw [this.2 hr (by omega)]
        exact this.1 (by omega)
    · intro hp0 _
      simp only [initLoop]
      rw [applyWrites_append, applyWrites_append, hadd,
        initLoop_frame b size hs n (r + size) r _ prev (by omega) hpa (by intro _; omega)]
      have : toAbs b prev ≠ 0 := by rw [ne_eq, toAbs_eq_zero]; exact hp0
      rw [if_pos this]
      simp only [applyWrites, nextCell_toAbs hp0, nextCell_toAbs hr, toRel_toAbs]
      rw [set_other _ _ _ (by omega), set_same]

theorem area_length (size : Nat) : ∀ (count r : Nat), (area r size count).length = count := by
  intro count
  induction count with
  | zero => intro r; rfl
  | succ n ih => intro r; simp [area, ih]

theorem area_mem {size : Nat} : ∀ {count r x : Nat}, x ∈ area r size count ↔
    ∃ i, i < count ∧ x = r + i * size := by
  intro count
  induction count with
  | zero => intro r x; simp [area]
  | succ n ih =>
    intro r x
    simp only [area, List.mem_cons, ih]
    constructor
    · rintro (rfl | ⟨i, hi, rfl⟩)
      · exact ⟨0, by omega, by simp⟩
      · exact ⟨i + 1, by omega, by rw [Nat.add_mul]; omega⟩
    · rintro ⟨i, hi, rfl⟩
      cases i with
      | zero => left; simp
      | succ i => right; exact ⟨i, by omega, by rw [Nat.add_mul]; omega⟩

theorem area_range (size : Nat) : ∀ (count r : Nat),
    area r size count = (List.range count).map fun i => r + i * size := by
  intro count
  induction count with
  | zero => intro r; rfl
  | succ n ih =>
    intro r
    rw [List.range_succ_eq_map, List.map_cons, List.map_map, area, ih]
    refine congrArg₂ List.cons (by omega) (List.map_congr_left fun i _ => ?_)
    simp only [Function.comp, Nat.succ_eq_add_one, Nat.add_mul]
    omega

theorem area_nodup {size : Nat} (hs : 0 < size) : ∀ (count r : Nat), (area r size count).Nodup := by
  intro count
  induction count with
  | zero => intro r; simp [area]
  | succ n ih =>
    intro r
    simp only [area, List.nodup_cons]
    exact ⟨fun h => by have := area_ge h; omega, ih _⟩

end Fullock.ListMem
