import Verif.Model.Rcsv
import Mathlib.Data.List.Nodup
import Mathlib.Tactic.Common
/-
Invariants of the recursive lock class.
-/
namespace Fullock.Rcsv

/-- Ranges that are pairwise equal or disjoint, and not empty. -/
structure Sep (F : Rng → Prop) : Prop where
  pos : ∀ a, F a → 0 < a.len
  sep : ∀ a b, F a → F b → a.meet b = true → a = b

theorem meet_self {a : Rng} (h : 0 < a.len) : a.meet a = true := by
  simp [Rng.meet]; omega

theorem compare_meet {a b : Rng} (ha : 0 < a.len) (hb : 0 < b.len) : compare a b = a.meet b := by
  unfold compare Rng.meet
  by_cases h1 : a.tid = b.tid <;> by_cases h2 : a.fd = b.fd <;> simp [h1, h2]
  split
  · have : a.off < b.off + b.len := by omega
    simp [this]
  · have : b.off < a.off + a.len := by omega
    simp [this]

theorem Sep.cmp {F : Rng → Prop} (hF : Sep F) {a b : Rng} (ha : F a) (hb : F b) : compare a b = true ↔ a = b := by
  rw [compare_meet (hF.pos a ha) (hF.pos b hb)]
  refine ⟨hF.sep a b ha hb, fun h => ?_⟩
  subst h; exact meet_self (hF.pos a ha)

structure Inv (F : Rng → Prop) (s : State) : Prop where
  fam : ∀ i, F (s.obj i).rng
  nodup : s.stack.Nodup
  stk : ∀ i, i ∈ s.stack ↔ ((s.obj i).locked = true ∧ (s.obj i).master = none)
  pnd : ∀ m i, i ∈ (s.obj m).pend ↔ ((s.obj i).locked = true ∧ (s.obj i).master = some m)
  pnodup : ∀ m, (s.obj m).pend.Nodup
  mst : ∀ i m, (s.obj i).locked = true → (s.obj i).master = some m →
    m ∈ s.stack ∧ (s.obj i).rng = (s.obj m).rng ∧ ((s.obj i).ty = .write → (s.obj m).ty = .write)
  free : ∀ i, (s.obj i).locked = false → (s.obj i).master = none
  has : ∀ i, (s.obj i).hasLocker = true ↔ i ∈ s.stack
  typ : ∀ i, (s.obj i).locked = true → (s.obj i).ty ≠ .unlock
  dist : ∀ i ∈ s.stack, ∀ j ∈ s.stack, (s.obj i).rng = (s.obj j).rng → i = j
  held : s.held.Perm (s.stack.map fun i => ((s.obj i).rng, (s.obj i).ty))

theorem inv_init {F : Rng → Prop} (r : Nat → Rng) (h : ∀ i, F (r i)) : Inv F (init r) := by
  constructor <;> simp [init, h]

/-- The lock of the stack and the record of races do not matter. -/
theorem Inv.glob {F : Rng → Prop} {s : State} (h : Inv F s) (b c : Bool) : Inv F { s with glob := b, race := c } := by
  obtain ⟨h1, h2, h3, h4, h5, h6, h7, h8, h9, h10, h11⟩ := h
  exact ⟨h1, h2, h3, h4, h5, h6, h7, h8, h9, h10, h11⟩

theorem Inv.pend_nil {F : Rng → Prop} {s : State} (h : Inv F s) {i : Nat} (hi : i ∉ s.stack) :
    (s.obj i).pend = [] := by
  apply List.eq_nil_iff_forall_not_mem.2
  intro k hk
  have := (h.pnd i k).1 hk
  exact hi (h.mst k i this.1 this.2).1

/-- Equal objects, perhaps another stack order. -/
theorem Inv.perm {F : Rng → Prop} {s : State} (h : Inv F s) (st : List Nat) (hp : st.Perm s.stack) :
    Inv F { s with stack := st } := by
  obtain ⟨h1, h2, h3, h4, h5, h6, h7, h8, h9, h10, h11⟩ := h
  refine ⟨h1, hp.nodup_iff.2 h2, ?_, h4, h5, ?_, h7, ?_, h9, ?_, ?_⟩
  · intro i; rw [hp.mem_iff]; exact h3 i
  · intro i m; rw [hp.mem_iff]; exact h6 i m
  · intro i; rw [hp.mem_iff]; exact h8 i
  · intro i hi j hj; exact h10 i (hp.mem_iff.1 hi) j (hp.mem_iff.1 hj)
  · exact h11.trans (hp.map _).symm

/-- A new type of an object that is not locked. -/
theorem Inv.setTy {F : Rng → Prop} {s : State} (h : Inv F s) (i : Nat) (t : Ty) (hi : (s.obj i).locked = false) :
    Inv F (s.mod i fun o => { o with ty := t }) := by
  obtain ⟨h1, h2, h3, h4, h5, h6, h7, h8, h9, h10, h11⟩ := h
  have hni : i ∉ s.stack := fun hc => by have := (h3 i).1 hc; rw [hi] at this; simp at this
  constructor <;> simp only [State.mod]
  · intro j; by_cases hj : j = i <;> simp [hj, h1]
  · exact h2
  · intro j; by_cases hj : j = i <;> grind
  · intro m j; by_cases hj : j = i <;> by_cases hm : m = i <;> grind
  · intro m; by_cases hm : m = i <;> grind
  · intro j m; by_cases hj : j = i <;> by_cases hm : m = i <;> grind
  · intro j; by_cases hj : j = i <;> grind
  · intro j; by_cases hj : j = i <;> grind
  · intro j; by_cases hj : j = i <;> grind
  · intro j hj k hk; by_cases hj' : j = i <;> by_cases hk' : k = i <;> grind
  · refine h11.trans (List.Perm.of_eq (List.map_congr_left fun j hj => ?_))
    have : j ≠ i := fun e => hni (e ▸ hj)
    simp [this]

/-- A new range of an object that is not locked. -/
theorem Inv.setRng {F : Rng → Prop} {s : State} (h : Inv F s) (i : Nat) (r : Rng) (hr : F r)
    (hi : (s.obj i).locked = false) :
    Inv F (s.mod i fun o => { o with rng := r }) := by
  obtain ⟨h1, h2, h3, h4, h5, h6, h7, h8, h9, h10, h11⟩ := h
  have hni : i ∉ s.stack := fun hc => by have := (h3 i).1 hc; rw [hi] at this; simp at this
  constructor <;> simp only [State.mod]
  · intro j; by_cases hj : j = i <;> simp [hj, h1, hr]
  · exact h2
  · intro j; by_cases hj : j = i <;> grind
  · intro m j; by_cases hj : j = i <;> by_cases hm : m = i <;> grind
  · intro m; by_cases hm : m = i <;> grind
  · intro j m; by_cases hj : j = i <;> by_cases hm : m = i <;> grind
  · intro j; by_cases hj : j = i <;> grind
  · intro j; by_cases hj : j = i <;> grind
  · intro j; by_cases hj : j = i <;> grind
  · intro j hj k hk; by_cases hj' : j = i <;> by_cases hk' : k = i <;> grind
  · refine h11.trans (List.Perm.of_eq (List.map_congr_left fun j hj => ?_))
    have : j ≠ i := fun e => hni (e ▸ hj)
    simp [this]

/-- (a) A pending object is unlocked. -/
theorem Inv.unpend {F : Rng → Prop} {s : State} (h : Inv F s) (i m : Nat) (hi : (s.obj i).locked = true)
    (hm : (s.obj i).master = some m) :
    Inv F (((s.mod m fun q => { q with pend := q.pend.erase i }).mod i fun q => { q with master := none }).mod i
      fun o => { o with hasLocker := false, locked := false }) := by
  obtain ⟨h1, h2, h3, h4, h5, h6, h7, h8, h9, h10, h11⟩ := h
  have hni : i ∉ s.stack := fun hc => by have := (h3 i).1 hc; rw [hm] at this; simp at this
  have hms := (h6 i m hi hm).1
  have hmi : m ≠ i := fun e => hni (e ▸ hms)
  have herase : ∀ k, k ∈ (s.obj m).pend.erase i ↔ k ≠ i ∧ k ∈ (s.obj m).pend := fun k => (h5 m).mem_erase_iff
  constructor <;> simp only [State.mod]
  · intro j; by_cases hj : j = i <;> by_cases hjm : j = m <;> grind
  · exact h2
  · intro j; by_cases hj : j = i <;> by_cases hjm : j = m <;> grind
  · intro q j
    by_cases hj : j = i
    · subst hj
      by_cases hq : q = m
      · subst hq; simp [hmi, herase]
      · by_cases hq' : q = j
        · simp [hq', hmi.symm, h4]
          intro _ e
          have := h6 j j hi e
          exact hni this.1
        · simp [hq, hq', h4, hm]
          exact fun _ e => hq e.symm
    · by_cases hq : q = m
      · subst hq; simp [hmi, herase, hj, h4]
        by_cases hjq : j = q <;> simp [hjq]
      · by_cases hq' : q = i
        · subst hq'; simp [hmi.symm, hj, h4]; grind
        · simp [hq, hq', hj, h4]; grind
  · intro q
    by_cases hq : q = m
    · subst hq; simp [hmi]; exact (h5 q).erase i
    · by_cases hq' : q = i <;> simp [hq, hq', h5, hmi.symm]
  · intro j q; by_cases hj : j = i
    · simp [hj]
    · have := h6 j q
      simp only [hj, if_false]
      intro hl hq
      have hl' : (s.obj j).locked = true := by by_cases hjm : j = m <;> simpa [hjm] using hl
      have hq' : (s.obj j).master = some q := by by_cases hjm : j = m <;> simpa [hjm] using hq
      have h' := h6 j q hl' hq'
      have hqi : q ≠ i := fun e => hni (e ▸ h'.1)
      refine ⟨h'.1, ?_⟩
      by_cases hjm : j = m <;> by_cases hqm : q = m <;> simp_all
  · intro j; by_cases hj : j = i
    · simp [hj]
    · by_cases hjm : j = m <;> grind
  · intro j; by_cases hj : j = i
    · simp [hj, hni]
    · by_cases hjm : j = m <;> grind
  · intro j; by_cases hj : j = i
    · simp [hj]
    · by_cases hjm : j = m <;> grind
  · intro j hj k hk
    have e1 : j ≠ i := fun e => hni (e ▸ hj)
    have e2 : k ≠ i := fun e => hni (e ▸ hk)
    have := h10 j hj k hk
    by_cases hjm : j = m <;> by_cases hkm : k = m <;> simp_all
  · refine h11.trans (List.Perm.of_eq (List.map_congr_left fun j hj => ?_))
    have : j ≠ i := fun e => hni (e ▸ hj)
    by_cases hjm : j = m <;> simp [this, hjm, hmi]

/-- (b) A master with pending objects is unlocked: one of them becomes the master. -/
theorem Inv.promote {F : Rng → Prop} {s s' : State} (h : Inv F s) (i n : Nat) (rest : List Nat)
    (hi : i ∈ s.stack) (hp : (s.obj i).pend.Perm (n :: rest))
    (e1 : ∀ j, (s'.obj j).rng = (s.obj j).rng)
    (e2 : ∀ j, (s'.obj j).ty = if j = n then (s.obj i).ty else (s.obj j).ty)
    (e3 : ∀ j, (s'.obj j).locked = if j = i then false else (s.obj j).locked)
    (e4 : ∀ j, (s'.obj j).master = if j = n then none else if j ∈ rest then some n else (s.obj j).master)
    (e5 : ∀ j, (s'.obj j).pend = if j = i then [] else if j = n then rest else (s.obj j).pend)
    (e6 : ∀ j, (s'.obj j).hasLocker = if j = n then true else if j = i then false else (s.obj j).hasLocker)
    (e7 : s'.stack = s.stack.erase i ++ [n]) (e8 : s'.held = s.held) : Inv F s' := by
  obtain ⟨h1, h2, h3, h4, h5, h6, h7, h8, h9, h10, h11⟩ := h
  have hpm : ∀ k, k ∈ (s.obj i).pend ↔ k = n ∨ k ∈ rest := fun k => by rw [hp.mem_iff]; simp
  have hnd : n ∉ rest ∧ rest.Nodup := List.nodup_cons.1 (hp.nodup_iff.1 (h5 i))
  have hn := (h4 i n).1 ((hpm n).2 (Or.inl rfl))
  have hrest : ∀ k ∈ rest, (s.obj k).locked = true ∧ (s.obj k).master = some i :=
    fun k hk => (h4 i k).1 ((hpm k).2 (Or.inr hk))
  have hil := (h3 i).1 hi
  have hni : n ≠ i := fun e => by rw [e, hil.2] at hn; simp at hn
  have hnst : n ∉ s.stack := fun hc => by have := (h3 n).1 hc; rw [hn.2] at this; simp at this
  have hirest : i ∉ rest := fun hc => by have := hrest i hc; rw [hil.2] at this; simp at this
  have hst : ∀ k, k ∈ s'.stack ↔ k = n ∨ (k ∈ s.stack ∧ k ≠ i) := by
    intro k; rw [e7, List.mem_append, h2.mem_erase_iff]; simp; tauto
  have hrng : ∀ k, k = n ∨ k ∈ rest → (s.obj k).rng = (s.obj i).rng := by
    intro k hk
    have := (h4 i k).1 ((hpm k).2 hk)
    exact (h6 k i this.1 this.2).2.1
  constructor
  · intro j; rw [e1]; exact h1 j
  · rw [e7]
    refine List.nodup_append.2 ⟨h2.erase i, by simp, ?_⟩
    intro a ha b hb
    simp at hb
    subst hb
    intro e; subst e
    exact hnst (List.mem_of_mem_erase ha)
  · intro j; rw [hst, e3, e4]
    by_cases hj : j = n
    · subst hj; simp [hni, hn]
    · by_cases hji : j = i
      · subst hji; simp [hj]
      · by_cases hjr : j ∈ rest
        · have := hrest j hjr
          have hns : j ∉ s.stack := fun hc => by have h' := (h3 j).1 hc; rw [this.2] at h'; simp at h'
          simp [hj, hji, hjr, hns]
        · simp [hj, hji, hjr, h3]
  · intro m j; rw [e5, e3, e4]
    by_cases hji : j = i
    · subst hji
      simp
      by_cases hmi : m = j
      · simp [hmi]
      · by_cases hmn : m = n
        · simp [hmn, hni, hirest]
        · simp [hmi, hmn, h4, hil]
    · by_cases hj : j = n
      · subst hj
        by_cases hmi : m = i
        · simp [hmi]
        · by_cases hmn : m = j
          · simp [hmn, hnd, hni]
          · simp [hmn, hmi, hni, h4, hn.2]; exact fun _ e => hmi e.symm
      · by_cases hjr : j ∈ rest
        · have := hrest j hjr
          by_cases hmi : m = i
          · simp [hmi, hj, hji, hjr, hni]
          · by_cases hmn : m = n
            · subst hmn; simp [hni, hj, hji, hjr, this]
            · simp [hmn, hmi, hj, hji, hjr, h4, this]
              exact ⟨fun e => absurd e.symm hmi, fun e => absurd e.symm hmn⟩
        · by_cases hmi : m = i
          · simp [hmi, hj, hji, hjr]
            intro hl hm
            have := (hpm j).1 ((h4 i j).2 ⟨hl, hm⟩)
            tauto
          · by_cases hmn : m = n
            · subst hmn; simp [hni, hj, hji, hjr]
              intro hl hm
              exact hnst (h6 j m hl hm).1
            · simp [hmn, hmi, hj, hji, hjr, h4]
  · intro m; rw [e5]
    by_cases hmi : m = i
    · simp [hmi]
    · by_cases hmn : m = n
      · simp [hmn, hni, hnd.2]
      · simp [hmi, hmn, h5]
  · intro j m hl hm
    rw [e3] at hl
    rw [e4] at hm
    rw [e1, e1, e2, e2, hst]
    by_cases hji : j = i
    · simp [hji] at hl
    · by_cases hj : j = n
      · simp [hj] at hm
      · by_cases hjr : j ∈ rest
        · simp [hj, hjr] at hm
          subst hm
          refine ⟨Or.inl rfl, by rw [hrng j (Or.inr hjr), hrng n (Or.inl rfl)], ?_⟩
          simp only [hj, if_false, if_true]
          have := hrest j hjr
          exact (h6 j i this.1 this.2).2.2
        · simp only [hj, hjr, if_false] at hm
          simp only [hji, if_false] at hl
          have := h6 j m hl hm
          have hmi : m ≠ i := fun e => by
            subst e
            have := (hpm j).1 ((h4 m j).2 ⟨hl, hm⟩)
            tauto
          have hmn : m ≠ n := fun e => hnst (e ▸ this.1)
          simp only [hj, hmn, if_false]
          exact ⟨Or.inr ⟨this.1, hmi⟩, this.2⟩
  · intro j hl
    rw [e3] at hl
    rw [e4]
    by_cases hji : j = i
    · subst hji; simp [hirest, hni.symm, hil.2]
    · simp only [hji, if_false] at hl
      by_cases hj : j = n
      · simp [hj]
      · by_cases hjr : j ∈ rest
        · have := hrest j hjr; rw [hl] at this; simp at this
        · simp [hj, hjr, h7 j hl]
  · intro j; rw [e6, hst]
    by_cases hj : j = n
    · simp [hj]
    · by_cases hji : j = i
      · simp [hji, hni.symm]
      · simp [hj, hji, h8]
  · intro j hl
    rw [e3] at hl
    rw [e2]
    by_cases hji : j = i
    · simp [hji] at hl
    · simp only [hji, if_false] at hl
      by_cases hj : j = n
      · simp only [hj, if_true]; exact h9 i hil.1
      · simp only [hj, if_false]; exact h9 j hl
  · intro j hj k hk
    rw [hst] at hj hk
    rw [e1, e1]
    rcases hj with rfl | ⟨hj, hji⟩ <;> rcases hk with rfl | ⟨hk, hki⟩
    · simp
    · rw [hrng j (Or.inl rfl)]
      intro e; exact absurd (h10 i hi k hk e).symm hki
    · rw [hrng k (Or.inl rfl)]
      intro e; exact absurd (h10 j hj i hi e) hji
    · exact h10 j hj k hk
  · rw [e8, e7, List.map_append]
    refine h11.trans ?_
    have hperm := (List.perm_cons_erase hi).map fun i => ((s.obj i).rng, (s.obj i).ty)
    refine hperm.trans ?_
    rw [List.map_cons]
    refine (List.perm_append_singleton _ _).symm.trans ?_
    refine List.Perm.append ?_ ?_
    · refine List.Perm.of_eq (List.map_congr_left fun j hj => ?_)
      rw [h2.mem_erase_iff] at hj
      have : j ≠ n := fun e => hnst (e ▸ hj.2)
      rw [e1, e2, if_neg this]
    · simp [e1, e2, hrng n (Or.inl rfl)]

/-- Taking away the only lock of a range. -/
theorem erase_held {held l : List (Rng × Ty)} {r : Rng} {t : Ty} (hp : held.Perm ((r, t) :: l))
    (hn : ∀ x ∈ l, x.1 ≠ r) : (held.eraseP fun h => h.1 == r).Perm l := by
  have hex : ∃ x ∈ held, (x.1 == r) = true := ⟨_, hp.mem_iff.2 (List.mem_cons_self), by simp⟩
  obtain ⟨x, l₁, l₂, hl1, hx, hsplit, her⟩ :=
    List.exists_of_eraseP (p := fun h : Rng × Ty => h.1 == r) hex.choose_spec.1 hex.choose_spec.2
  rw [her]
  rw [hsplit] at hp
  have hx2 : x = (r, t) := by
    have hxm : x ∈ (r, t) :: l := hp.mem_iff.1 (by simp)
    rcases List.mem_cons.1 hxm with h' | h'
    · exact h'
    · exact absurd (by simpa using hx) (hn x h')
  subst hx2
  exact (List.perm_middle.symm.trans hp).cons_inv

/-- (c) A master without pending objects is unlocked. -/
theorem Inv.release {F : Rng → Prop} {s s' : State} (h : Inv F s) (i : Nat)
    (hi : i ∈ s.stack) (hp : (s.obj i).pend = [])
    (e1 : ∀ j, j ≠ i → s'.obj j = s.obj j)
    (e2 : s'.obj i = { s.obj i with hasLocker := false, locked := false })
    (e7 : s'.stack = s.stack.erase i)
    (e8 : s'.held = s.held.eraseP fun h => h.1 == (s.obj i).rng) : Inv F s' := by
  obtain ⟨h1, h2, h3, h4, h5, h6, h7, h8, h9, h10, h11⟩ := h
  have hil := (h3 i).1 hi
  have hst : ∀ k, k ∈ s'.stack ↔ k ∈ s.stack ∧ k ≠ i := by
    intro k; rw [e7, h2.mem_erase_iff]; tauto
  have hpi : ∀ k, (s.obj k).locked = true → (s.obj k).master ≠ some i := fun k hk hc => by
    have := (h4 i k).2 ⟨hk, hc⟩; rw [hp] at this; simp at this
  constructor
  · intro j; by_cases hj : j = i
    · subst hj; rw [e2]; exact h1 j
    · rw [e1 j hj]; exact h1 j
  · rw [e7]; exact h2.erase i
  · intro j; rw [hst]; by_cases hj : j = i
    · subst hj; rw [e2]; simp
    · rw [e1 j hj, h3]; simp [hj]
  · intro m j
    by_cases hj : j = i
    · subst hj
      rw [e2]
      by_cases hm : m = j
      · subst hm; rw [e2]; simp [hp]
      · rw [e1 m hm, h4, hil.2]; simp
    · rw [e1 j hj]
      by_cases hm : m = i
      · subst hm; rw [e2]; simp only; rw [h4]
      · rw [e1 m hm, h4]
  · intro m
    by_cases hm : m = i
    · subst hm; rw [e2]; exact h5 m
    · rw [e1 m hm]; exact h5 m
  · intro j m hl hm
    have hj : j ≠ i := fun e => by subst e; rw [e2] at hl; simp at hl
    rw [e1 j hj] at hl hm
    have hmi : m ≠ i := fun e => by subst e; exact hpi j hl hm
    rw [hst, e1 j hj, e1 m hmi]
    have := h6 j m hl hm
    exact ⟨⟨this.1, hmi⟩, this.2⟩
  · intro j hl
    by_cases hj : j = i
    · subst hj; rw [e2]; exact hil.2
    · rw [e1 j hj] at hl ⊢; exact h7 j hl
  · intro j; rw [hst]; by_cases hj : j = i
    · subst hj; rw [e2]; simp
    · rw [e1 j hj, h8]; simp [hj]
  · intro j hl
    have hj : j ≠ i := fun e => by subst e; rw [e2] at hl; simp at hl
    rw [e1 j hj] at hl ⊢; exact h9 j hl
  · intro j hj k hk
    rw [hst] at hj hk
    rw [e1 j hj.2, e1 k hk.2]; exact h10 j hj.1 k hk.1
  · rw [e8, e7]
    have hperm := h11.trans ((List.perm_cons_erase hi).map fun i => ((s.obj i).rng, (s.obj i).ty))
    rw [List.map_cons] at hperm
    have hmap : (s.stack.erase i).map (fun j => ((s'.obj j).rng, (s'.obj j).ty)) =
        (s.stack.erase i).map (fun j => ((s.obj j).rng, (s.obj j).ty)) :=
      List.map_congr_left fun j hj => by
        rw [h2.mem_erase_iff] at hj; rw [e1 j hj.1]
    rw [hmap]
    exact erase_held hperm (fun x hx => by
      obtain ⟨j, hj, rfl⟩ := List.mem_map.1 hx
      rw [h2.mem_erase_iff] at hj
      exact fun e => hj.1 (h10 j hj.2 i hi e))

/-- (e), (h) An unlocked object becomes pending. -/
theorem Inv.pending {F : Rng → Prop} {s s' : State} (h : Inv F s) (i m : Nat)
    (hi : (s.obj i).locked = false) (hm : m ∈ s.stack) (hr : (s.obj i).rng = (s.obj m).rng)
    (ht : (s.obj i).ty ≠ .unlock) (hw : (s.obj i).ty = .write → (s.obj m).ty = .write)
    (e1 : ∀ j, j ≠ i → j ≠ m → s'.obj j = s.obj j)
    (e2 : s'.obj i = { s.obj i with locked := true, hasLocker := false, master := some m })
    (e3 : s'.obj m = { s.obj m with pend := (s.obj m).pend ++ [i] })
    (e7 : s'.stack = s.stack) (e8 : s'.held = s.held) : Inv F s' := by
  obtain ⟨h1, h2, h3, h4, h5, h6, h7, h8, h9, h10, h11⟩ := h
  have hml := (h3 m).1 hm
  have hmi : m ≠ i := fun e => by rw [e, hi] at hml; simp at hml
  have hni : i ∉ s.stack := fun hc => by have := (h3 i).1 hc; rw [hi] at this; simp at this
  have hip : ∀ q, i ∉ (s.obj q).pend := fun q hc => by have := (h4 q i).1 hc; rw [hi] at this; simp at this
  have hq : ∀ j, j ≠ i → (s'.obj j).rng = (s.obj j).rng ∧ (s'.obj j).ty = (s.obj j).ty ∧
      (s'.obj j).locked = (s.obj j).locked ∧ (s'.obj j).hasLocker = (s.obj j).hasLocker ∧
      (s'.obj j).master = (s.obj j).master := by
    intro j hj
    by_cases hjm : j = m
    · subst hjm; rw [e3]; simp
    · rw [e1 j hj hjm]; simp
  constructor
  · intro j; by_cases hj : j = i
    · subst hj; rw [e2]; exact h1 j
    · rw [(hq j hj).1]; exact h1 j
  · rw [e7]; exact h2
  · intro j; rw [e7]; by_cases hj : j = i
    · subst hj; rw [e2]; simp [hni]
    · rw [(hq j hj).2.2.1, (hq j hj).2.2.2.2]; exact h3 j
  · intro q j
    have hpq : j ∈ (s'.obj q).pend ↔ j ∈ (s.obj q).pend ∨ (q = m ∧ j = i) := by
      by_cases hqi : q = i
      · subst hqi; rw [e2]; simp [hmi.symm]
      · by_cases hqm : q = m
        · subst hqm; rw [e3]; simp
        · rw [e1 q hqi hqm]; simp [hqm]
    rw [hpq]
    by_cases hj : j = i
    · subst hj; rw [e2]; simp [hip]; exact eq_comm
    · rw [(hq j hj).2.2.1, (hq j hj).2.2.2.2, ← h4]; simp [hj]
  · intro q
    by_cases hqi : q = i
    · subst hqi; rw [e2]; exact h5 q
    · by_cases hqm : q = m
      · subst hqm; rw [e3]
        refine List.nodup_append.2 ⟨h5 q, by simp, ?_⟩
        intro a ha b hb
        simp at hb; subst hb
        intro e; subst e; exact hip q ha
      · rw [e1 q hqi hqm]; exact h5 q
  · intro j q hl hm'
    rw [e7]
    by_cases hj : j = i
    · subst hj
      rw [e2] at hl hm'
      simp at hm'
      subst hm'
      rw [e2, e3]
      exact ⟨hm, hr, hw⟩
    · have := hq j hj
      rw [this.2.2.1] at hl
      rw [this.2.2.2.2] at hm'
      have h' := h6 j q hl hm'
      have hqi : q ≠ i := fun e => hni (e ▸ h'.1)
      rw [this.1, this.2.1, (hq q hqi).1, (hq q hqi).2.1]
      exact h'
  · intro j hl
    by_cases hj : j = i
    · subst hj; rw [e2] at hl; simp at hl
    · rw [(hq j hj).2.2.1] at hl; rw [(hq j hj).2.2.2.2]; exact h7 j hl
  · intro j; rw [e7]; by_cases hj : j = i
    · subst hj; rw [e2]; simp [hni]
    · rw [(hq j hj).2.2.2.1]; exact h8 j
  · intro j hl
    by_cases hj : j = i
    · subst hj; rw [e2]; exact ht
    · rw [(hq j hj).2.2.1] at hl; rw [(hq j hj).2.1]; exact h9 j hl
  · rw [e7]; intro j hj k hk
    have e1 : j ≠ i := fun e => hni (e ▸ hj)
    have e2 : k ≠ i := fun e => hni (e ▸ hk)
    rw [(hq j e1).1, (hq k e2).1]; exact h10 j hj k hk
  · rw [e8, e7]
    refine h11.trans (List.Perm.of_eq (List.map_congr_left fun j hj => ?_))
    have : j ≠ i := fun e => hni (e ▸ hj)
    rw [(hq j this).1, (hq j this).2.1]

/-- (f), (i) An unlocked object becomes a master. -/
theorem Inv.push {F : Rng → Prop} {s s' : State} (h : Inv F s) (i : Nat)
    (hi : (s.obj i).locked = false) (hr : ∀ m ∈ s.stack, (s.obj m).rng ≠ (s.obj i).rng)
    (ht : (s.obj i).ty ≠ .unlock)
    (e1 : ∀ j, j ≠ i → s'.obj j = s.obj j)
    (e2 : s'.obj i = { s.obj i with locked := true, hasLocker := true })
    (e7 : s'.stack = s.stack ++ [i]) (e8 : s'.held = s.held ++ [((s.obj i).rng, (s.obj i).ty)]) : Inv F s' := by
  have hpn := h.pend_nil (i := i)
  obtain ⟨h1, h2, h3, h4, h5, h6, h7, h8, h9, h10, h11⟩ := h
  have hni : i ∉ s.stack := fun hc => by have := (h3 i).1 hc; rw [hi] at this; simp at this
  have hpn := hpn hni
  have hst : ∀ k, k ∈ s'.stack ↔ k ∈ s.stack ∨ k = i := by intro k; rw [e7]; simp
  have hpe : ∀ q, (s'.obj q).pend = (s.obj q).pend := fun q => by
    by_cases hq : q = i
    · subst hq; rw [e2]
    · rw [e1 q hq]
  have hme : ∀ q, (s'.obj q).master = (s.obj q).master := fun q => by
    by_cases hq : q = i
    · subst hq; rw [e2]
    · rw [e1 q hq]
  have hre : ∀ q, (s'.obj q).rng = (s.obj q).rng := fun q => by
    by_cases hq : q = i
    · subst hq; rw [e2]
    · rw [e1 q hq]
  have hte : ∀ q, (s'.obj q).ty = (s.obj q).ty := fun q => by
    by_cases hq : q = i
    · subst hq; rw [e2]
    · rw [e1 q hq]
  constructor
  · intro j; rw [hre]; exact h1 j
  · rw [e7]
    refine List.nodup_append.2 ⟨h2, by simp, ?_⟩
    intro a ha b hb
    simp at hb; subst hb
    intro e; subst e; exact hni ha
  · intro j; rw [hst, hme]; by_cases hj : j = i
    · subst hj; rw [e2]; simp [h7 j hi]
    · rw [e1 j hj, h3]; simp [hj]
  · intro q j; rw [hpe, hme, h4]
    by_cases hj : j = i
    · subst hj; rw [h7 j hi]; simp
    · rw [e1 j hj]
  · intro q; rw [hpe]; exact h5 q
  · intro j q hl hm
    rw [hme] at hm
    rw [hst, hre, hre, hte, hte]
    by_cases hj : j = i
    · subst hj; rw [h7 j hi] at hm; simp at hm
    · rw [e1 j hj] at hl
      have := h6 j q hl hm
      exact ⟨Or.inl this.1, this.2⟩
  · intro j hl; rw [hme]
    by_cases hj : j = i
    · subst hj; exact h7 j hi
    · rw [e1 j hj] at hl; exact h7 j hl
  · intro j; rw [hst]; by_cases hj : j = i
    · subst hj; rw [e2]; simp
    · rw [e1 j hj, h8]; simp [hj]
  · intro j hl; rw [hte]
    by_cases hj : j = i
    · subst hj; exact ht
    · rw [e1 j hj] at hl; exact h9 j hl
  · intro j hj k hk; rw [hst] at hj hk; rw [hre, hre]
    rcases hj with hj | rfl <;> rcases hk with hk | rfl
    · exact h10 j hj k hk
    · intro e; exact absurd e (hr j hj)
    · intro e; exact absurd e.symm (hr k hk)
    · simp
  · rw [e8, e7, List.map_append]
    refine List.Perm.append ?_ ?_
    · refine h11.trans (List.Perm.of_eq (List.map_congr_left fun j hj => ?_))
      rw [hre, hte]
    · simp [hre, hte]

/-- (j) An unlocked object takes the place of a reading master as writer. -/
theorem Inv.upgrade {F : Rng → Prop} {s s' : State} (h : Inv F s) (i m : Nat)
    (hi : (s.obj i).locked = false) (hm : m ∈ s.stack) (hr : (s.obj m).rng = (s.obj i).rng)
    (e1 : ∀ j, (s'.obj j).rng = (s.obj j).rng)
    (e2 : ∀ j, (s'.obj j).ty = if j = i then .write else (s.obj j).ty)
    (e3 : ∀ j, (s'.obj j).locked = if j = i then true else (s.obj j).locked)
    (e4 : ∀ j, (s'.obj j).master = if j = m ∨ j ∈ (s.obj m).pend then some i else (s.obj j).master)
    (e5 : ∀ j, (s'.obj j).pend = if j = i then m :: (s.obj m).pend else if j = m then [] else (s.obj j).pend)
    (e6 : ∀ j, (s'.obj j).hasLocker = if j = i then true else if j = m then false else (s.obj j).hasLocker)
    (e7 : s'.stack = s.stack.erase m ++ [i])
    (e8 : s'.held = (s.held.eraseP fun h => h.1 == (s.obj i).rng) ++ [((s.obj i).rng, .write)]) : Inv F s' := by
  obtain ⟨h1, h2, h3, h4, h5, h6, h7, h8, h9, h10, h11⟩ := h
  have hml := (h3 m).1 hm
  have hmi : m ≠ i := fun e => by rw [e, hi] at hml; simp at hml
  have hni : i ∉ s.stack := fun hc => by have := (h3 i).1 hc; rw [hi] at this; simp at this
  have hip : ∀ q, i ∉ (s.obj q).pend := fun q hc => by have := (h4 q i).1 hc; rw [hi] at this; simp at this
  have hpl : ∀ k ∈ (s.obj m).pend, (s.obj k).locked = true ∧ (s.obj k).master = some m := fun k hk => (h4 m k).1 hk
  have hmp : m ∉ (s.obj m).pend := fun hc => by have := hpl m hc; rw [hml.2] at this; simp at this
  have hpi : ∀ k, (s.obj k).locked = true → (s.obj k).master ≠ some i := fun k hk hc => hni (h6 k i hk hc).1
  have hst : ∀ k, k ∈ s'.stack ↔ k = i ∨ (k ∈ s.stack ∧ k ≠ m) := by
    intro k; rw [e7, List.mem_append, h2.mem_erase_iff]; simp; tauto
  constructor
  · intro j; rw [e1]; exact h1 j
  · rw [e7]
    refine List.nodup_append.2 ⟨h2.erase m, by simp, ?_⟩
    intro a ha b hb
    simp at hb
    subst hb
    intro e; subst e
    exact hni (List.mem_of_mem_erase ha)
  · intro j; rw [hst, e3, e4]
    by_cases hj : j = i
    · subst hj; simp [hmi.symm, hip, h7 j hi]
    · by_cases hjm : j = m
      · subst hjm; simp [hj]
      · by_cases hjp : j ∈ (s.obj m).pend
        · have := hpl j hjp
          have hns : j ∉ s.stack := fun hc => by have h' := (h3 j).1 hc; rw [this.2] at h'; simp at h'
          simp [hj, hjm, hjp, hns]
        · simp [hj, hjm, hjp, h3]
  · intro q j; rw [e5, e3, e4]
    by_cases hj : j = i
    · subst hj
      by_cases hqj : q = j
      · simp [hqj, hmi.symm, hip, h7 j hi]
      · by_cases hqm : q = m
        · simp [hqm, hmi, hmi.symm, hip, h7 j hi]
        · simp [hqj, hqm, hmi.symm, hip, h7 j hi]
    · by_cases hjm : j = m
      · subst hjm
        by_cases hqi : q = i
        · simp [hqi, hmi, hml]
        · by_cases hqm : q = j
          · simp [hqm, hj, hml]; exact hmi.symm
          · simp [hqi, hqm, hj, h4, hml]; exact fun e => hqi e.symm
      · by_cases hjp : j ∈ (s.obj m).pend
        · have := hpl j hjp
          by_cases hqi : q = i
          · simp [hqi, hj, hjp, this]
          · by_cases hqm : q = m
            · simp [hqm, hmi, hj, hjp]; exact fun _ e => hmi e.symm
            · simp [hqi, hqm, hj, hjp, h4, this]
              constructor
              · exact fun e => absurd e.symm hqm
              · exact fun e => absurd e.symm hqi
        · by_cases hqi : q = i
          · simp [hqi, hj, hjm, hjp]; exact fun hl => hpi j hl
          · by_cases hqm : q = m
            · simp [hqm, hmi, hj, hjm, hjp]
              intro hl hc
              exact hjp ((h4 m j).2 ⟨hl, hc⟩)
            · simp [hqi, hqm, hj, hjm, hjp, h4]
  · intro q; rw [e5]
    by_cases hqi : q = i
    · simp [hqi, hmp, h5 m]
    · by_cases hqm : q = m
      · simp [hqm, hmi]
      · simp [hqi, hqm, h5]
  · intro j q hl hm'
    rw [e3] at hl
    rw [e4] at hm'
    rw [e1, e1, e2, e2, hst]
    by_cases hj : j = i
    · subst hj; simp [hmi.symm, hip, h7 j hi] at hm'
    · simp only [hj, if_false] at hl
      by_cases hjm : j = m ∨ j ∈ (s.obj m).pend
      · simp only [hjm, if_true, Option.some.injEq] at hm'
        subst hm'
        refine ⟨Or.inl rfl, ?_, by simp⟩
        rcases hjm with rfl | hjm
        · exact hr
        · have := hpl j hjm
          rw [(h6 j m this.1 this.2).2.1, hr]
      · simp only [hjm, if_false] at hm'
        have h' := h6 j q hl hm'
        have hqi : q ≠ i := fun e => hni (e ▸ h'.1)
        have hqm : q ≠ m := fun e => by
          subst e; exact hjm (Or.inr ((h4 q j).2 ⟨hl, hm'⟩))
        simp only [hj, hqi, if_false]
        exact ⟨Or.inr ⟨h'.1, hqm⟩, h'.2⟩
  · intro j hl
    rw [e3] at hl
    by_cases hj : j = i
    · simp [hj] at hl
    · simp only [hj, if_false] at hl
      rw [e4]
      have hjm : ¬ (j = m ∨ j ∈ (s.obj m).pend) := by
        rintro (rfl | hjp)
        · rw [hml.1] at hl; simp at hl
        · rw [(hpl j hjp).1] at hl; simp at hl
      rw [if_neg hjm]; exact h7 j hl
  · intro j; rw [e6, hst]
    by_cases hj : j = i
    · simp [hj]
    · by_cases hjm : j = m
      · simp [hjm, hmi]
      · simp [hj, hjm, h8]
  · intro j hl
    rw [e3] at hl
    rw [e2]
    by_cases hj : j = i
    · simp [hj]
    · simp only [hj, if_false] at hl ⊢; exact h9 j hl
  · intro j hj k hk
    rw [hst] at hj hk
    rw [e1, e1]
    rcases hj with rfl | ⟨hj, hjm⟩ <;> rcases hk with rfl | ⟨hk, hkm⟩
    · simp
    · intro e; exact absurd (h10 m hm k hk (hr.trans e)).symm hkm
    · intro e; exact absurd (h10 j hj m hm (e.trans hr.symm)) hjm
    · exact h10 j hj k hk
  · rw [e8, e7, List.map_append]
    refine List.Perm.append ?_ ?_
    · have hperm := h11.trans ((List.perm_cons_erase hm).map fun i => ((s.obj i).rng, (s.obj i).ty))
      rw [List.map_cons] at hperm
      have hmap : (s.stack.erase m).map (fun j => ((s'.obj j).rng, (s'.obj j).ty)) =
          (s.stack.erase m).map (fun j => ((s.obj j).rng, (s.obj j).ty)) :=
        List.map_congr_left fun j hj => by
          rw [h2.mem_erase_iff] at hj
          have : j ≠ i := fun e => hni (e ▸ hj.2)
          rw [e1, e2, if_neg this]
      rw [hmap, ← hr]
      exact erase_held hperm (fun x hx => by
        obtain ⟨j, hj, rfl⟩ := List.mem_map.1 hx
        rw [h2.mem_erase_iff] at hj
        exact fun e => hj.1 (h10 j hj.2 m hm e))
    · simp [e1, e2]

/-- The scan in a stack without a match. -/
theorem scanW_none (s : State) (i : Nat) : ∀ (st : List Nat),
    (∀ j ∈ st, compare (s.obj i).rng (s.obj j).rng = false) → scanW s i st = (none, st, []) := by
  intro st
  induction st with
  | nil => intro _; rfl
  | cons j js ih =>
    intro h
    unfold scanW
    rw [h j (by simp), ih (fun k hk => h k (by simp [hk]))]
    simp

/-- The scan in a stack with one match. -/
theorem scanW_one (s : State) (i m : Nat) : ∀ (st : List Nat), m ∈ st → st.Nodup →
    (∀ j ∈ st, compare (s.obj i).rng (s.obj j).rng = true ↔ j = m) →
    ((s.obj m).ty = .read → scanW s i st = (none, st.erase m, [m])) ∧
    ((s.obj m).ty = .write → (scanW s i st).1 = some m ∧ (scanW s i st).2.1 = st) := by
  intro st
  induction st with
  | nil => intro h; simp at h
  | cons j js ih =>
    intro hm hnd h
    rw [List.nodup_cons] at hnd
    by_cases hj : j = m
    · subst hj
      have hc := (h j (by simp)).2 rfl
      have hn : scanW s i js = (none, js, []) := by
        apply scanW_none
        intro k hk
        have := h k (by simp [hk])
        have hkj : k ≠ j := fun e => hnd.1 (e ▸ hk)
        simpa [hkj] using this
      unfold scanW
      rw [hc, hn]
      simp only [if_true, List.erase_cons_head]
      refine ⟨fun ht => by rw [ht], fun ht => by rw [ht]; simp⟩
    · have hc : compare (s.obj i).rng (s.obj j).rng = false := by
        have := h j (by simp)
        simpa [hj] using this
      have hm' : m ∈ js := by
        rcases List.mem_cons.1 hm with e | e
        · exact absurd e.symm hj
        · exact e
      have ih' := ih hm' hnd.2 (fun k hk => h k (by simp [hk]))
      unfold scanW
      rw [hc]
      have hje : (j :: js).erase m = j :: js.erase m := by
        rw [List.erase_cons]; simp [hj]
      rw [hje]
      refine ⟨fun ht => by rw [ih'.1 ht]; simp, fun ht => ?_⟩
      have := ih'.2 ht
      simp [this.1, this.2]

theorem fold_master (m : Nat) : ∀ (src : List Nat) (s : State),
    let t := src.foldl (fun s j => s.mod j fun o => { o with master := some m }) s
    t.stack = s.stack ∧ t.glob = s.glob ∧ t.held = s.held ∧ t.race = s.race ∧
    ∀ j, t.obj j = if j ∈ src then { s.obj j with master := some m } else s.obj j := by
  intro src
  induction src with
  | nil => intro s; simp
  | cons k ks ih =>
    intro s
    simp only [List.foldl_cons]
    have h := ih (s.mod k fun o => { o with master := some m })
    obtain ⟨a, b, c, d, e⟩ := h
    refine ⟨a, b, c, d, ?_⟩
    intro j
    rw [e j]
    simp only [State.mod, List.mem_cons]
    by_cases hk : j = k <;> by_cases hks : j ∈ ks <;> simp [hk, hks]

/-- `movePending` field by field. -/
theorem movePending_spec (s : State) (src : List Nat) (m : Nat) :
    (movePending s src m).stack = s.stack ∧ (movePending s src m).glob = s.glob ∧
    (movePending s src m).held = s.held ∧ (movePending s src m).race = s.race ∧
    ∀ j, (movePending s src m).obj j =
      { s.obj j with master := if j ∈ src then some m else (s.obj j).master,
                     pend := if j = m then (s.obj j).pend ++ src else (s.obj j).pend } := by
  have h := fold_master m src s
  simp only at h
  obtain ⟨a, b, c, d, e⟩ := h
  refine ⟨a, b, c, d, ?_⟩
  intro j
  unfold movePending
  simp only
  generalize hT : src.foldl (fun s j => s.mod j fun o => { o with master := some m }) s = T at e
  simp only [State.mod]
  rw [e j]
  by_cases hj : j = m <;> by_cases hs : j ∈ src <;> simp [hj, hs]
  · subst hj; simp [hs]
  · subst hj; simp [hs]

theorem pickMaster_some {s : State} {l : List Nat} {n : Nat} {rest : List Nat} (h : pickMaster s l = some (n, rest)) :
    l.Perm (n :: rest) := by
  unfold pickMaster at h
  split at h
  · rename_i j hj
    simp only [Option.some.injEq, Prod.mk.injEq] at h
    obtain ⟨rfl, rfl⟩ := h
    exact List.perm_cons_erase (List.mem_of_find?_eq_some hj)
  · split at h
    · rename_i j hj
      simp only [Option.some.injEq, Prod.mk.injEq] at h
      obtain ⟨rfl, rfl⟩ := h
      have : l = l.dropLast ++ [j] := (List.dropLast_append_getLast? j hj).symm
      rw [this]
      simp only [List.dropLast_concat]
      exact List.perm_append_singleton _ _
    · simp at h

theorem pickMaster_none {s : State} {l : List Nat} (h : pickMaster s l = none) : l = [] := by
  unfold pickMaster at h
  split at h
  · simp at h
  · split at h
    · simp at h
    · rename_i hj
      simpa using hj

/-- What every step on object `i` keeps. -/
structure Kept (F : Rng → Prop) (i : Nat) (s s' : State) (os os' : List Bool) (loc' : Bool) : Prop where
  inv : Inv F s'
  loc : loc' = s'.glob
  rng : ∀ j, (s'.obj j).rng = (s.obj j).rng
  others : ∀ j, j ≠ i → (s'.obj j).locked = (s.obj j).locked
  left : ∀ b ∈ os', b ∈ os

theorem rawUnlock_spec {F : Rng → Prop} {s : State} (h : Inv F s) (i : Nat) (loc : Bool) (hl : loc = s.glob)
    (os : List Bool) :
    ∃ ret loc' s' os', rawUnlock s i loc os = .done ret loc' s' os' ∧ Kept F i s s' os os' loc' ∧
      (ret = true → (s'.obj i).locked = false) ∧
      (ret = false → (s'.obj i).locked = true ∧ (s'.obj i).ty = (s.obj i).ty) ∧
      (ret = false → false ∈ os ∧ s'.held = s.held) ∧
      s'.race = s.race ∧
      ((s.obj i).locked = true → (loc' = false → i ∈ s.stack ∧ (s.obj i).pend = [])) ∧
      ((s.obj i).locked = false → loc' = loc ∧ s' = s ∧ os' = os ∧ ret = true) ∧
      (∀ j, j ≠ i → (s.obj j).locked = true → (s.obj j).ty = .write → (s'.obj j).ty = .write) := by
  unfold rawUnlock
  by_cases h0 : (s.obj i).ty = .unlock ∨ (s.obj i).locked = false
  · have hlk : (s.obj i).locked = false := by
      rcases h0 with h0 | h0
      · cases hc : (s.obj i).locked
        · rfl
        · exact absurd h0 (h.typ i hc)
      · exact h0
    simp only [h0, if_true]
    exact ⟨true, loc, s, os, rfl, ⟨h, hl, fun _ => rfl, fun _ _ => rfl, fun _ hb => hb⟩, fun _ => hlk,
      by simp, by simp, rfl, by simp [hlk], by simp, fun _ _ _ ht => ht⟩
  · simp only [h0, if_false]
    have hlk : (s.obj i).locked = true := by
      cases hc : (s.obj i).locked
      · exact absurd (Or.inr hc) h0
      · rfl
    have hls : lockStack s loc = some { s with glob := true } := by
      unfold lockStack
      cases loc
      · simp [← hl]
      · simp only [if_true, Option.some.injEq]
        cases s; simp at hl ⊢; exact hl
    simp only [hls]
    cases hm : (s.obj i).master with
    | some m =>
      simp only
      have hinv := (h.unpend i m hlk hm).glob true s.race
      have hmi : m ≠ i := by
        intro e; subst e
        have := (h.mst _ _ hlk hm).1
        have := (h.stk m).1 this
        rw [hm] at this; simp at this
      refine ⟨_, _, _, _, rfl, ⟨hinv, rfl, ?_, ?_, fun _ hb => hb⟩, ?_, by simp, by simp, rfl, by simp, by simp [hlk], ?_⟩
      · intro j; simp only [State.mod]; split_ifs <;> simp
      · intro j hj; simp only [State.mod, hj, if_false]; split_ifs <;> simp
      · intro _; simp [State.mod]
      · intro j hj _ ht; simp only [State.mod, hj, if_false]; split_ifs <;> simpa using ht
    | none =>
      have hs : i ∈ s.stack := (h.stk i).2 ⟨hlk, hm⟩
      simp only
      cases hp : pickMaster { s with glob := true, stack := s.stack.erase i } (s.obj i).pend with
      | some nr =>
        obtain ⟨n, rest⟩ := nr
        simp only
        have hperm := pickMaster_some hp
        have hn : n ∈ (s.obj i).pend := hperm.mem_iff.2 (by simp)
        have hnl := (h.pnd i n).1 hn
        have hni : n ≠ i := by rintro rfl; rw [hm] at hnl; simp at hnl
        have hns : n ∉ s.stack := fun hc => by have := (h.stk n).1 hc; rw [hnl.2] at this; simp at this
        have hnp := h.pend_nil hns
        have hnd : (n :: rest).Nodup := hperm.nodup_iff.1 (h.pnodup i)
        have hnr : n ∉ rest := (List.nodup_cons.1 hnd).1
        have hir : i ∉ rest := fun hc => by
          have : i ∈ (s.obj i).pend := hperm.mem_iff.2 (by simp [hc])
          have := (h.pnd i i).1 this
          rw [hm] at this; simp at this
        obtain ⟨a, b, c, d, e⟩ := movePending_spec { s with glob := true, stack := s.stack.erase i } rest n
        refine ⟨_, _, _, _, rfl, ⟨?_, ?_, ?_, ?_, fun _ hb => hb⟩, ?_, by simp, by simp, ?_, by simp, by simp [hlk], ?_⟩
        · refine h.promote i n rest hs hperm ?_ ?_ ?_ ?_ ?_ ?_ ?_ ?_
          · intro j; simp only [State.mod, e]; split_ifs <;> simp
          · intro j; simp only [State.mod, e]; by_cases h1 : j = n <;> by_cases h2 : j = i <;> simp [h1, h2, hni, hni.symm]
          · intro j; simp only [State.mod, e]; by_cases h1 : j = n <;> by_cases h2 : j = i <;> simp [h1, h2, hni, hni.symm, hnl]
          · intro j; simp only [State.mod, e]; by_cases h1 : j = n <;> by_cases h2 : j = i <;> simp [h1, h2, hni, hni.symm, hir]
          · intro j; simp only [State.mod, e]; by_cases h1 : j = n <;> by_cases h2 : j = i <;> simp [h1, h2, hni, hni.symm, hnp]
          · intro j; simp only [State.mod, e]; by_cases h1 : j = n <;> by_cases h2 : j = i <;> simp [h1, h2, hni, hni.symm]
          · simp [State.mod, a]
          · simp [State.mod, c]
        · simp [State.mod, b]
        · intro j; simp only [State.mod, e]; split_ifs <;> simp
        · intro j hj; simp only [State.mod, e]; by_cases h1 : j = n <;> simp [h1, hj, hni, hnl]
        · intro _; simp [State.mod]
        · simp [State.mod, d]
        · intro j hj _ ht
          simp only [State.mod, e]
          by_cases h1 : j = n
          · subst h1
            simp only [hj, if_true, if_false]
            exact (h.mst j i hnl.1 hnl.2).2.2 ht
          · simp [h1, hj, ht]
      | none =>
        have hpn := pickMaster_none hp
        have hhas : (s.obj i).hasLocker = true := (h.has i).2 hs
        have hheld : s.held.any (fun x => x.1 == (s.obj i).rng) = true := by
          rw [List.any_eq_true]
          exact ⟨((s.obj i).rng, (s.obj i).ty), h.held.mem_iff.2 (List.mem_map.2 ⟨i, hs, rfl⟩), by simp⟩
        simp only [hhas, if_true]
        by_cases ho : os.headD true = true
        · have hseg : segUnlock (unlockStack { s with glob := true, stack := s.stack.erase i } true) (s.obj i).rng os =
              (true, { s with glob := false, stack := s.stack.erase i, held := s.held.eraseP (fun x => x.1 == (s.obj i).rng) }, os.tail) := by
            unfold segUnlock unlockStack
            rw [if_pos]
            · rfl
            · simp only [if_true]; rw [ho, hheld]; rfl
          rw [hseg]
          simp only
          refine ⟨_, _, _, _, rfl, ⟨?_, rfl, ?_, ?_, fun _ hb => List.mem_of_mem_tail hb⟩, ?_, by simp, by simp, rfl, fun _ _ => ⟨hs, hpn⟩, by simp [hlk], ?_⟩
          · refine h.release i hs hpn ?_ ?_ rfl rfl
            · intro j hj; simp [State.mod, hj]
            · simp [State.mod]
          · intro j; simp only [State.mod]; split_ifs <;> simp
          · intro j hj; simp [State.mod, hj]
          · intro _; simp [State.mod]
          · intro j hj _ ht; simp [State.mod, hj, ht]
        · have hseg : segUnlock (unlockStack { s with glob := true, stack := s.stack.erase i } true) (s.obj i).rng os =
              (false, { s with glob := false, stack := s.stack.erase i }, os.tail) := by
            unfold segUnlock unlockStack
            rw [if_neg]
            · rfl
            · simp only [if_true]; intro hc; rw [Bool.and_eq_true] at hc; exact ho hc.1
          rw [hseg]
          simp only [lockStack]
          have hfo : false ∈ os := by
            cases os with
            | nil => simp at ho
            | cons b bs => simp at ho; simp [ho]
          refine ⟨_, _, _, _, rfl, ⟨?_, rfl, fun _ => rfl, fun _ _ => rfl, fun _ hb => List.mem_of_mem_tail hb⟩, by simp, fun _ => ⟨hlk, rfl⟩, fun _ => ⟨hfo, rfl⟩, rfl, by simp, by simp [hlk], fun _ _ _ ht => ht⟩
          have hp2 : (s.stack.erase i ++ [i]).Perm s.stack :=
            (List.perm_append_singleton _ _).trans (List.perm_cons_erase hs).symm
          exact (h.perm _ hp2).glob true s.race

/-- In a family of separate ranges nothing of the thread conflicts with a range nobody holds. -/
theorem no_selfBlock {F : Rng → Prop} (hF : Sep F) {held : List (Rng × Ty)} {r : Rng} (w : Bool) (hr : F r)
    (hh : ∀ x ∈ held, F x.1 ∧ x.1 ≠ r) : selfBlock held r w = false := by
  unfold selfBlock
  rw [List.any_eq_false]
  intro x hx hc
  obtain ⟨hfx, hne⟩ := hh x hx
  simp only [Bool.and_eq_true, Bool.or_eq_true, beq_iff_eq] at hc
  obtain ⟨⟨⟨h1, h2⟩, h3⟩, _⟩ := hc
  have hm : x.1.meet r = true := by
    rcases h3 with h3 | h3
    · have := hF.pos _ hfx
      have := hF.pos _ hr
      simp [Rng.meet, h1, h2, h3]; omega
    · exact h3
  exact hne (hF.sep _ _ hfx hr hm)

theorem Inv.held_fam {F : Rng → Prop} {s : State} (h : Inv F s) {x : Rng × Ty} (hx : x ∈ s.held) :
    ∃ j ∈ s.stack, x = ((s.obj j).rng, (s.obj j).ty) := by
  obtain ⟨j, hj, rfl⟩ := List.mem_map.1 (h.held.mem_iff.1 hx)
  exact ⟨j, hj, rfl⟩

/-- The lock of the stack is given back by the local flag. -/
theorem unlockStack_glob {s : State} {loc : Bool} (hl : loc = s.glob) : unlockStack s loc = { s with glob := false } := by
  unfold unlockStack
  cases loc
  · cases s; simp at hl ⊢; exact hl
  · rfl

theorem readTail_spec {F : Rng → Prop} (hF : Sep F) {s : State} (h : Inv F s) (i : Nat) (loc : Bool) (hl : loc = s.glob)
    (hi : (s.obj i).locked = false) (os : List Bool) :
    ∃ ret loc' s' os', readTail s i loc os = .done ret loc' s' os' ∧ Kept F i s s' os os' loc' ∧
      (s'.obj i).locked = ret ∧ (s'.obj i).ty = .read ∧ (ret = false → false ∈ os) ∧
      (∀ j, j ≠ i → (s'.obj j).ty = (s.obj j).ty) ∧
      s'.race = (s.race || !loc) := by
  unfold readTail
  have h1 := (h.setTy i .read hi)
  generalize hs1 : (s.mod i fun o => { o with ty := .read }) = s1 at h1
  have ei : s1.obj i = { s.obj i with ty := .read } := by rw [← hs1]; simp [State.mod]
  have ej : ∀ j, j ≠ i → s1.obj j = s.obj j := by intro j hj; rw [← hs1]; simp [State.mod, hj]
  have erng : ∀ j, (s1.obj j).rng = (s.obj j).rng := by intro j; by_cases hj : j = i; · rw [hj, ei]
                                                        · rw [ej j hj]
  have hg : s1.glob = s.glob := by rw [← hs1]; rfl
  have hrc : s1.race = s.race := by rw [← hs1]; rfl
  have hi1 : (s1.obj i).locked = false := by rw [ei]; exact hi
  have hni : i ∉ s1.stack := fun hc => by have := (h1.stk i).1 hc; rw [hi1] at this; simp at this
  simp only
  have h2 : Inv F (s1.touch loc) := h1.glob _ _
  have hst : (s1.touch loc).stack = s1.stack := rfl
  have hob : (s1.touch loc).obj = s1.obj := rfl
  cases hfm : findMatch (s1.touch loc) i with
  | some m =>
    simp only
    have hm : m ∈ s1.stack := List.mem_of_find?_eq_some hfm
    have hcmp : compare (s1.obj i).rng (s1.obj m).rng = true := by
      have := List.find?_some hfm
      exact this
    have hr := (hF.cmp (h1.fam i) (h1.fam m)).1 hcmp
    have hmi : m ≠ i := fun e => hni (e ▸ hm)
    have hml := ((h1.stk m).1 hm).1
    refine ⟨_, _, _, _, rfl, ⟨?_, ?_, ?_, ?_, fun _ hb => hb⟩, ?_, ?_, by simp, ?_, ?_⟩
    · refine h2.pending i m hi1 hm hr ?_ ?_ ?_ ?_ ?_ rfl rfl
      · rw [hob, ei]; simp
      · rw [hob, ei]; simp
      · intro j hj hjm; simp [State.mod, hj, hjm]
      · simp [State.mod, hmi.symm, hob, hml]
      · simp [State.mod, hmi]
    · rw [hl, ← hg]; rfl
    · intro j; rw [← erng]; simp only [State.mod, hob]; split_ifs <;> simp
    · intro j hj; rw [← ej j hj]; simp only [State.mod, hob, hj, if_false]; split_ifs <;> simp
    · simp [State.mod, hmi.symm, hob, hml]
    · simp [State.mod, hmi.symm, hob, ei]
    · intro j hj; rw [← ej j hj]; simp only [State.mod, hob, hj, if_false]; split_ifs <;> simp
    · simp [State.mod, State.touch, hrc]
  | none =>
    simp only
    have hnm : ∀ m ∈ s1.stack, (s1.obj m).rng ≠ (s1.obj i).rng := by
      intro m hm e
      have := List.find?_eq_none.1 hfm m hm
      exact this ((hF.cmp (h1.fam i) (h1.fam m)).2 e.symm)
    have hus : unlockStack { s1.touch loc with stack := (s1.touch loc).stack ++ [i] } loc =
        { s1.touch loc with stack := s1.stack ++ [i], glob := false } := by
      rw [unlockStack_glob (by rw [hl, ← hg]; rfl)]; rfl
    rw [hus]
    have hnb : selfBlock s1.held (s1.obj i).rng false = false :=
      no_selfBlock hF false (h1.fam i) (fun x hx => by
        obtain ⟨j, hj, rfl⟩ := h1.held_fam hx
        exact ⟨h1.fam j, hnm j hj⟩)
    simp only
    have hnb' : selfBlock (s1.touch loc).held ((s1.touch loc).obj i).rng false = false := hnb
    rw [hnb']
    simp only [Bool.false_eq_true, if_false]
    by_cases ho : os.headD true = true
    · simp only [ho, if_true]
      refine ⟨_, _, _, _, rfl, ⟨?_, rfl, ?_, ?_, fun _ hb => List.mem_of_mem_tail hb⟩, ?_, ?_, by simp, ?_, ?_⟩
      · refine h2.push i hi1 hnm ?_ ?_ ?_ rfl ?_
        · rw [hob, ei]; simp
        · intro j hj; simp [State.mod, hj]
        · simp [State.mod]
        · simp [State.mod, hob, ei]
      · intro j; rw [← erng]; simp only [State.mod, hob]; split_ifs <;> simp
      · intro j hj; rw [← ej j hj]; simp [State.mod, hob, hj]
      · simp [State.mod]
      · simp [State.mod, hob, ei]
      · intro j hj; rw [← ej j hj]; simp [State.mod, hob, hj]
      · simp [State.mod, State.touch, hrc]
    · simp only [ho, if_false, lockStack, Bool.false_eq_true]
      have hfo : false ∈ os := by
        cases os with
        | nil => simp at ho
        | cons b bs => simp at ho; simp [ho]
      have herase : (s1.stack ++ [i]).erase i = s1.stack := by
        rw [List.erase_append_right _ hni]; simp
      refine ⟨_, _, _, _, rfl, ⟨?_, rfl, ?_, ?_, fun _ hb => List.mem_of_mem_tail hb⟩, ?_, ?_, fun _ => hfo, ?_, ?_⟩
      · have hh : (s1.obj i).hasLocker = false := by
          cases hc : (s1.obj i).hasLocker
          · rfl
          · exact absurd ((h1.has i).1 hc) hni
        have : (({ s1 with glob := true, race := (s1.touch loc).race } : State)) =
            State.mod { s1.touch loc with glob := true, stack := (s1.stack ++ [i]).erase i } i
              fun o => { o with hasLocker := false, locked := false } := by
          simp only [State.mod, herase, hob, State.touch, State.mk.injEq, and_true, true_and]
          funext j
          by_cases hj : j = i
          · subst hj; revert hi1 hh; cases s1.obj j; intro hi1 hh; simp at hi1 hh; simp [hi1, hh]
          · simp [hj]
        rw [← this]
        exact h1.glob _ _
      · intro j; rw [← erng]; simp only [State.mod, hob]; split_ifs <;> simp
      · intro j hj; rw [← ej j hj]; simp [State.mod, hob, hj]
      · simp [State.mod]
      · simp [State.mod, hob, ei]
      · intro j hj; rw [← ej j hj]; simp [State.mod, hob, hj]
      · simp [State.mod, State.touch, hrc]

theorem writeTail_spec {F : Rng → Prop} (hF : Sep F) {s : State} (h : Inv F s) (i : Nat) (loc : Bool) (hl : loc = s.glob)
    (hi : (s.obj i).locked = false) (os : List Bool)
    (hos : (∀ b ∈ os, b = true) ∨ ∀ j, (s.obj j).locked = true → (s.obj j).rng ≠ (s.obj i).rng) :
    ∃ ret loc' s' os', writeTail s i loc os = .done ret loc' s' os' ∧ Kept F i s s' os os' loc' ∧
      (s'.obj i).locked = ret ∧ (s'.obj i).ty = .write ∧ (ret = false → false ∈ os) ∧
      (∀ j, j ≠ i → (s'.obj j).ty = (s.obj j).ty) ∧
      s'.race = (s.race || !loc) := by
  unfold writeTail
  have h1 := (h.setTy i .write hi)
  generalize hs1 : (s.mod i fun o => { o with ty := .write }) = s1 at h1
  have ei : s1.obj i = { s.obj i with ty := .write } := by rw [← hs1]; simp [State.mod]
  have ej : ∀ j, j ≠ i → s1.obj j = s.obj j := by intro j hj; rw [← hs1]; simp [State.mod, hj]
  have erng : ∀ j, (s1.obj j).rng = (s.obj j).rng := by intro j; by_cases hj : j = i; · rw [hj, ei]
                                                        · rw [ej j hj]
  have hg : s1.glob = s.glob := by rw [← hs1]; rfl
  have hrc : s1.race = s.race := by rw [← hs1]; rfl
  have hi1 : (s1.obj i).locked = false := by rw [ei]; exact hi
  have hni : i ∉ s1.stack := fun hc => by have := (h1.stk i).1 hc; rw [hi1] at this; simp at this
  have hpi : (s1.obj i).pend = [] := h1.pend_nil hni
  simp only
  have h2 : Inv F (s1.touch loc) := h1.glob _ _
  have hob : (s1.touch loc).obj = s1.obj := rfl
  have hstk : (s1.touch loc).stack = s1.stack := rfl
  by_cases hex : ∃ m ∈ s1.stack, (s1.obj m).rng = (s1.obj i).rng
  · obtain ⟨m, hm, hr⟩ := hex
    have hmi : m ≠ i := fun e => hni (e ▸ hm)
    have hml := (h1.stk m).1 hm
    have hsc := scanW_one (s1.touch loc) i m s1.stack hm h1.nodup (fun j hj => by
      rw [hob, hF.cmp (h1.fam i) (h1.fam j)]
      exact ⟨fun e => (h1.dist j hj m hm (e.symm.trans hr.symm)), fun e => by subst e; exact hr.symm⟩)
    cases hty : (s1.obj m).ty with
    | unlock => exact absurd hty (h1.typ m hml.1)
    | write =>
      obtain ⟨hw1, hw2⟩ := hsc.2 hty
      generalize hW : scanW (s1.touch loc) i (s1.touch loc).stack = W
      rw [hstk] at hW
      rw [hW] at hw1 hw2
      obtain ⟨w1, w2, w3⟩ := W
      simp only at hw1 hw2
      subst hw1 hw2
      simp only
      refine ⟨_, _, _, _, rfl, ⟨?_, ?_, ?_, ?_, fun _ hb => hb⟩, ?_, ?_, by simp, ?_, ?_⟩
      · refine h2.pending i m hi1 hm hr.symm ?_ ?_ ?_ ?_ ?_ rfl rfl
        · rw [hob, ei]; simp
        · intro _; exact hty
        · intro j hj hjm; simp [State.mod, hj, hjm]
        · simp [State.mod, hmi.symm, hob]
        · simp [State.mod, hmi]
      · rw [hl, ← hg]; rfl
      · intro j; rw [← erng]; simp only [State.mod, hob]; split_ifs <;> simp
      · intro j hj; rw [← ej j hj]; simp only [State.mod, hob, hj, if_false]; split_ifs <;> simp
      · simp [State.mod, hmi.symm]
      · simp [State.mod, hmi.symm, hob, ei]
      · intro j hj; rw [← ej j hj]; simp only [State.mod, hob, hj, if_false]; split_ifs <;> simp
      · simp [State.mod, State.touch, hrc]
    | read =>
      have hall : ∀ b ∈ os, b = true := by
        rcases hos with hos | hos
        · exact hos
        · have := hos m (by rw [← ej m hmi]; exact hml.1)
          rw [← erng, ← erng] at this
          exact absurd hr this
      have hd : ∀ l : List Bool, (∀ b ∈ l, b = true) → l.headD true = true := by
        intro l hlb; cases l with
        | nil => rfl
        | cons b bs => exact hlb b (by simp)
      rw [hstk, hsc.1 hty]
      simp only
      have hus : unlockStack { s1.touch loc with stack := s1.stack.erase m ++ [i] } loc =
          { s1.touch loc with stack := s1.stack.erase m ++ [i], glob := false } := by
        rw [unlockStack_glob (by rw [hl, ← hg]; rfl)]
      rw [hus]
      have hhas : (s1.obj m).hasLocker = true := (h1.has m).2 hm
      have hheld : s1.held.any (fun x => x.1 == (s1.obj m).rng) = true := by
        rw [List.any_eq_true]
        exact ⟨((s1.obj m).rng, (s1.obj m).ty), h1.held.mem_iff.2 (List.mem_map.2 ⟨m, hm, rfl⟩), by simp⟩
      have hseg : segUnlock ⟨s1.obj, s1.stack.erase m ++ [i], false, (s1.touch loc).held, (s1.touch loc).race⟩ (s1.obj m).rng os =
          (true, ⟨s1.obj, s1.stack.erase m ++ [i], false, s1.held.eraseP (fun x => x.1 == (s1.obj m).rng), (s1.touch loc).race⟩, os.tail) := by
        unfold segUnlock
        rw [if_pos]
        · rfl
        · rw [hd os hall]; exact hheld
      unfold takeReaders takeReaders
      simp only [hob, hml.1, hhas, Bool.and_self, if_true, hseg]
      have hpm : ∀ k ∈ (s1.obj m).pend, (s1.obj k).locked = true ∧ (s1.obj k).master = some m := fun k hk => (h1.pnd m k).1 hk
      have hmp : m ∉ (s1.obj m).pend := fun hc => by have := hpm m hc; rw [hml.2] at this; simp at this
      have hip : i ∉ (s1.obj m).pend := fun hc => by have := hpm i hc; rw [hi1] at this; simp at this
      generalize hs3 : (State.mod (State.mod ⟨s1.obj, s1.stack.erase m ++ [i], false,
          s1.held.eraseP (fun x => x.1 == (s1.obj m).rng), (s1.touch loc).race⟩ m
          fun q => { q with hasLocker := false, locked := true, master := some i }) i
          fun q => { q with pend := q.pend ++ [m] }) = s3
      have e3s : s3.stack = s1.stack.erase m ++ [i] := by rw [← hs3]; rfl
      have e3g : s3.glob = false := by rw [← hs3]; rfl
      have e3h : s3.held = s1.held.eraseP (fun x => x.1 == (s1.obj m).rng) := by rw [← hs3]; rfl
      have e3r : s3.race = (s1.touch loc).race := by rw [← hs3]; rfl
      have e3m : s3.obj m = { s1.obj m with hasLocker := false, locked := true, master := some i } := by
        rw [← hs3]; simp [State.mod, hmi]
      have e3i : s3.obj i = { s1.obj i with pend := [m] } := by
        rw [← hs3]; simp [State.mod, hmi.symm, hpi]
      have e3j : ∀ j, j ≠ i → j ≠ m → s3.obj j = s1.obj j := by
        intro j hj hjm; rw [← hs3]; simp [State.mod, hj, hjm]
      obtain ⟨a, b, c, d, e⟩ := movePending_spec s3 (s1.obj m).pend i
      generalize movePending s3 (s1.obj m).pend i = s4 at a b c d e
      have hrr : (State.obj (s4.mod m fun q => { q with pend := [] }) i).rng = (s1.obj i).rng := by
        simp only [State.mod, hmi.symm, if_false, e, e3i]
      have hperm : (s1.held.eraseP (fun x => x.1 == (s1.obj m).rng)).Perm
          ((s1.stack.erase m).map fun j => ((s1.obj j).rng, (s1.obj j).ty)) := by
        have hp := h1.held.trans ((List.perm_cons_erase hm).map fun i => ((s1.obj i).rng, (s1.obj i).ty))
        rw [List.map_cons] at hp
        exact erase_held hp (fun x hx => by
          obtain ⟨j, hj, rfl⟩ := List.mem_map.1 hx
          rw [h1.nodup.mem_erase_iff] at hj
          exact fun e => hj.1 (h1.dist j hj.2 m hm e))
      have hnb : selfBlock (State.held (s4.mod m fun q => { q with pend := [] }))
          (State.obj (s4.mod m fun q => { q with pend := [] }) i).rng true = false := by
        rw [hrr]
        have : State.held (s4.mod m fun q => { q with pend := [] }) = s4.held := rfl
        rw [this, c, e3h]
        refine no_selfBlock hF true (h1.fam i) (fun x hx => ?_)
        obtain ⟨j, hj, rfl⟩ := List.mem_map.1 (hperm.mem_iff.1 hx)
        rw [h1.nodup.mem_erase_iff] at hj
        exact ⟨h1.fam j, fun e => hj.1 (h1.dist j hj.2 m hm (e.trans hr.symm))⟩
      rw [hnb]
      simp only [Bool.false_eq_true, if_false]
      have hot : os.tail.headD true = true := hd _ (fun b hb => hall b (List.mem_of_mem_tail hb))
      simp only [hot, if_true]
      have e4 : ∀ j, s4.obj j = { s1.obj j with
            hasLocker := if j = m then false else (s1.obj j).hasLocker,
            master := if j = m ∨ j ∈ (s1.obj m).pend then some i else (s1.obj j).master,
            pend := if j = i then m :: (s1.obj m).pend else (s1.obj j).pend } := by
        intro j
        rw [e j]
        by_cases hjm : j = m
        · subst hjm; rw [e3m]; simp [hmi, hmp, hml.1]
        · by_cases hj : j = i
          · subst hj; rw [e3i]; simp [hmi.symm, hip]
          · rw [e3j j hj hjm]; simp [hj, hjm]
      refine ⟨_, _, _, _, rfl, ⟨?_, ?_, ?_, ?_, fun b hb => List.mem_of_mem_tail (List.mem_of_mem_tail hb)⟩, ?_, ?_, by simp, ?_, ?_⟩
      · refine h2.upgrade i m hi1 hm hr ?_ ?_ ?_ ?_ ?_ ?_ ?_ ?_
        · intro j; simp only [State.mod, e4, hob]; split_ifs <;> simp
        · intro j; simp only [State.mod, e4, hob]; by_cases hj : j = i <;> by_cases hjm : j = m <;> simp [hj, hjm, hmi, hmi.symm, ei]
        · intro j; simp only [State.mod, e4, hob]; by_cases hj : j = i <;> by_cases hjm : j = m <;> simp [hj, hjm, hmi, hmi.symm]
        · intro j; simp only [State.mod, e4, hob]; by_cases hj : j = i <;> by_cases hjm : j = m <;> simp [hj, hjm, hmi, hmi.symm]
        · intro j; simp only [State.mod, e4, hob]; by_cases hj : j = i <;> by_cases hjm : j = m <;> simp [hj, hjm, hmi, hmi.symm]
        · intro j; simp only [State.mod, e4, hob]; by_cases hj : j = i <;> by_cases hjm : j = m <;> simp [hj, hjm, hmi, hmi.symm]
        · simp only [State.mod]; rw [a, e3s]; rfl
        · simp only [State.mod]; rw [c, e3h]
          have : s4.obj i = _ := e4 i
          simp only [hmi.symm, if_false, this, hob, hr]; rfl
      · simp [State.mod, b, e3g]
      · intro j; rw [← erng]; simp only [State.mod, e4]; split_ifs <;> simp
      · intro j hj; rw [← ej j hj]; simp only [State.mod, e4, hj, if_false]; split_ifs <;> simp
      · simp [State.mod]
      · simp [State.mod, e4, ei, hmi.symm]
      · intro j hj; rw [← ej j hj]; simp only [State.mod, e4, hj, if_false]; split_ifs <;> simp
      · simp [State.mod, d, e3r, State.touch, hrc]
  · have hnm : ∀ m ∈ s1.stack, (s1.obj m).rng ≠ (s1.obj i).rng := fun m hm e => hex ⟨m, hm, e⟩
    have hsc := scanW_none (s1.touch loc) i s1.stack (fun j hj => by
      rw [hob]
      have := hF.cmp (h1.fam i) (h1.fam j)
      rw [← Bool.not_eq_true, this]
      exact fun e => hnm j hj e.symm)
    rw [hstk, hsc]
    simp only [takeReaders]
    have hus : unlockStack { s1.touch loc with stack := s1.stack ++ [i] } loc =
        { s1.touch loc with stack := s1.stack ++ [i], glob := false } := by
      rw [unlockStack_glob (by rw [hl, ← hg]; rfl)]
    rw [hus]
    have hnb : selfBlock s1.held (s1.obj i).rng true = false :=
      no_selfBlock hF true (h1.fam i) (fun x hx => by
        obtain ⟨j, hj, rfl⟩ := h1.held_fam hx
        exact ⟨h1.fam j, hnm j hj⟩)
    simp only
    have hnb' : selfBlock (s1.touch loc).held ((s1.touch loc).obj i).rng true = false := hnb
    simp only [hnb', Bool.false_eq_true, if_false]
    by_cases ho : os.headD true = true
    · simp only [ho, if_true]
      refine ⟨_, _, _, _, rfl, ⟨?_, rfl, ?_, ?_, fun _ hb => List.mem_of_mem_tail hb⟩, ?_, ?_, by simp, ?_, ?_⟩
      · refine h2.push i hi1 hnm ?_ ?_ ?_ rfl ?_
        · rw [hob, ei]; simp
        · intro j hj; simp [State.mod, hj]
        · simp [State.mod]
        · simp [State.mod, hob, ei]
      · intro j; rw [← erng]; simp only [State.mod, hob]; split_ifs <;> simp
      · intro j hj; rw [← ej j hj]; simp [State.mod, hob, hj]
      · simp [State.mod]
      · simp [State.mod, hob, ei]
      · intro j hj; rw [← ej j hj]; simp [State.mod, hob, hj]
      · simp [State.mod, State.touch, hrc]
    · simp only [ho, if_false, lockStack, Bool.false_eq_true]
      have hfo : false ∈ os := by
        cases os with
        | nil => simp at ho
        | cons b bs => simp at ho; simp [ho]
      have herase : (s1.stack ++ [i]).erase i = s1.stack := by
        rw [List.erase_append_right _ hni]; simp
      simp only [hob, hpi, ne_eq, not_true_eq_false, if_false]
      refine ⟨_, _, _, _, rfl, ⟨?_, rfl, ?_, ?_, fun _ hb => List.mem_of_mem_tail hb⟩, ?_, ?_, fun _ => hfo, ?_, ?_⟩
      · have hh : (s1.obj i).hasLocker = false := by
          cases hc : (s1.obj i).hasLocker
          · rfl
          · exact absurd ((h1.has i).1 hc) hni
        have : (({ s1 with glob := true, race := (s1.touch loc).race } : State)) =
            State.mod ⟨s1.obj, (s1.stack ++ [i]).erase i, true, (s1.touch loc).held, (s1.touch loc).race⟩ i
              fun o => { o with hasLocker := false, locked := false } := by
          simp only [State.mod, herase, State.touch, State.mk.injEq, and_true, true_and]
          funext j
          by_cases hj : j = i
          · subst hj; revert hi1 hh; cases s1.obj j; intro hi1 hh; simp at hi1 hh; simp [hi1, hh]
          · simp [hj]
        rw [← this]
        exact h1.glob _ _
      · intro j; rw [← erng]; simp only [State.mod]; split_ifs <;> simp
      · intro j hj; rw [← ej j hj]; simp [State.mod, hj]
      · simp [State.mod]
      · simp [State.mod, ei]
      · intro j hj; rw [← ej j hj]; simp [State.mod, hj]
      · simp [State.mod, State.touch, hrc]

theorem Kept.trans {F : Rng → Prop} {i : Nat} {s s' s'' : State} {os os' os'' : List Bool} {l l' : Bool}
    (h : Kept F i s s' os os' l) (h' : Kept F i s' s'' os' os'' l') : Kept F i s s'' os os'' l' :=
  ⟨h'.inv, h'.loc, fun j => (h'.rng j).trans (h.rng j), fun j hj => (h'.others j hj).trans (h.others j hj),
    fun b hb => h.left b (h'.left b hb)⟩

theorem lockStack_ok {s : State} {loc : Bool} (hl : loc = s.glob) : lockStack s loc = some { s with glob := true } := by
  unfold lockStack
  cases loc
  · simp [← hl]
  · simp only [if_true, Option.some.injEq]
    cases s; simp at hl ⊢; exact hl

theorem rawReadLock_spec {F : Rng → Prop} (hF : Sep F) {s : State} (h : Inv F s) (i : Nat) (loc : Bool)
    (hl : loc = s.glob) (os : List Bool) :
    ∃ ret loc' s' os', rawReadLock s i loc os = .done ret loc' s' os' ∧ Kept F i s s' os os' loc' ∧
      (ret = true → (s'.obj i).locked = true) ∧ (ret = false → false ∈ os) ∧
      (ret = true → (s'.obj i).ty = .read ∨ ((s.obj i).ty = .write ∧ (s.obj i).pend ≠ [] ∧ s' = s)) ∧
      (s'.race = s.race ∨ (i ∈ s.stack ∧ (s.obj i).pend = [] ∧ (s.obj i).ty = .write)) ∧
      (∀ j, j ≠ i → (s.obj j).locked = true → (s.obj j).ty = .write → (s'.obj j).ty = .write) ∧
      (ret = false → (s.obj i).locked = false → (s'.obj i).locked = false) := by
  unfold rawReadLock
  by_cases h0 : (s.obj i).locked = true ∧ ((s.obj i).ty = .read ∨ ((s.obj i).ty = .write ∧ (s.obj i).pend ≠ []))
  · simp only [h0, and_self, if_true]
    refine ⟨_, _, _, _, rfl, ⟨h, hl, fun _ => rfl, fun _ _ => rfl, fun _ hb => hb⟩, fun _ => h0.1, by simp, ?_, Or.inl rfl, fun _ _ _ ht => ht, by simp⟩
    intro _
    rcases h0.2 with h' | h'
    · exact Or.inl h'
    · exact Or.inr ⟨h'.1, h'.2, rfl⟩
  · simp only [h0, if_false, lockStack_ok hl]
    have hg : Inv F { s with glob := true } := h.glob true s.race
    by_cases h1 : (s.obj i).ty = .write ∧ (s.obj i).locked = true
    · simp only [h1, and_self, if_true]
      obtain ⟨ret, loc', s', os', e, hk, k1, k2, k3, k4, k5, _, k6⟩ := rawUnlock_spec hg i true rfl os
      rw [e]
      cases ret with
      | false =>
        simp only
        exact ⟨_, _, _, _, rfl, ⟨hk.inv, hk.loc, hk.rng, hk.others, hk.left⟩, by simp, fun _ => (k3 rfl).1, by simp, Or.inl k4, k6, fun _ hf => by simp at hf⟩
      | true =>
        simp only
        obtain ⟨ret, loc'', s'', os'', e', hk', t1, t2, t3, t5, t4⟩ := readTail_spec hF hk.inv i loc' hk.loc (k1 rfl) os'
        rw [e']
        have hkk := hk.trans hk'
        refine ⟨_, _, _, _, rfl, ⟨hkk.inv, hkk.loc, hkk.rng, hkk.others, hkk.left⟩, fun hr => t1.trans hr, fun hr => hk.left _ (t3 hr), fun _ => Or.inl t2, ?_, fun j hj hlj ht => (t5 j hj).trans (k6 j hj hlj ht), fun hr _ => t1.trans hr⟩
        cases hc : loc' with
        | true => left; rw [t4, hc, k4]; simp
        | false =>
          right
          have := k5 h1.2 hc
          exact ⟨this.1, this.2, trivial⟩
    · simp only [h1, if_false]
      have hi : (s.obj i).locked = false := by
        cases hc : (s.obj i).locked
        · rfl
        · have := h.typ i hc
          cases ht : (s.obj i).ty
          · exact absurd ht this
          · exact absurd ⟨hc, Or.inl ht⟩ h0
          · exact absurd ⟨ht, hc⟩ h1
      obtain ⟨ret, loc'', s'', os'', e', hk', t1, t2, t3, t5, t4⟩ := readTail_spec hF hg i true rfl hi os
      rw [e']
      exact ⟨_, _, _, _, rfl, ⟨hk'.inv, hk'.loc, hk'.rng, hk'.others, hk'.left⟩, fun hr => t1.trans hr, t3, fun _ => Or.inl t2, Or.inl (by rw [t4]; simp), fun j hj _ ht => (t5 j hj).trans ht, fun hr _ => t1.trans hr⟩

/-- A pending object of a writer becomes a writer. -/
theorem Inv.rewrite {F : Rng → Prop} {s : State} (h : Inv F s) (i m : Nat) (hl : (s.obj i).locked = true)
    (hm : (s.obj i).master = some m) (hw : (s.obj m).ty = .write) :
    Inv F (s.mod i fun o => { o with ty := .write }) := by
  obtain ⟨h1, h2, h3, h4, h5, h6, h7, h8, h9, h10, h11⟩ := h
  have hni : i ∉ s.stack := fun hc => by have := (h3 i).1 hc; rw [hm] at this; simp at this
  have hmi : m ≠ i := fun e => hni (e ▸ (h6 i m hl hm).1)
  have er : ∀ j, ((s.mod i fun o => { o with ty := .write }).obj j).rng = (s.obj j).rng := by
    intro j; simp only [State.mod]; split_ifs <;> rfl
  have el : ∀ j, ((s.mod i fun o => { o with ty := .write }).obj j).locked = (s.obj j).locked := by
    intro j; simp only [State.mod]; split_ifs <;> rfl
  have ep : ∀ j, ((s.mod i fun o => { o with ty := .write }).obj j).pend = (s.obj j).pend := by
    intro j; simp only [State.mod]; split_ifs <;> rfl
  have em : ∀ j, ((s.mod i fun o => { o with ty := .write }).obj j).master = (s.obj j).master := by
    intro j; simp only [State.mod]; split_ifs <;> rfl
  have eh : ∀ j, ((s.mod i fun o => { o with ty := .write }).obj j).hasLocker = (s.obj j).hasLocker := by
    intro j; simp only [State.mod]; split_ifs <;> rfl
  have et : ∀ j, ((s.mod i fun o => { o with ty := .write }).obj j).ty = if j = i then .write else (s.obj j).ty := by
    intro j; simp only [State.mod]; split_ifs <;> rfl
  have es : (s.mod i fun o => { o with ty := .write }).stack = s.stack := rfl
  have ed : (s.mod i fun o => { o with ty := .write }).held = s.held := rfl
  generalize (s.mod i fun o => { o with ty := .write }) = t at *
  constructor
  · intro j; rw [er]; exact h1 j
  · rw [es]; exact h2
  · intro j; rw [es, el, em]; exact h3 j
  · intro q j; rw [ep, el, em]; exact h4 q j
  · intro q; rw [ep]; exact h5 q
  · intro j q a b
    rw [el] at a; rw [em] at b
    have := h6 j q a b
    have hqi : q ≠ i := fun e => hni (e ▸ this.1)
    rw [es, er, er, et, et]
    refine ⟨this.1, this.2.1, ?_⟩
    simp only [hqi, if_false]
    by_cases hj : j = i
    · subst hj; rw [hm] at b; simp at b; subst b; intro _; exact hw
    · simp only [hj, if_false]; exact this.2.2
  · intro j a; rw [el] at a; rw [em]; exact h7 j a
  · intro j; rw [eh, es]; exact h8 j
  · intro j a; rw [el] at a; rw [et]; split_ifs
    · simp
    · exact h9 j a
  · intro j hj k hk; rw [es] at hj hk; rw [er, er]; exact h10 j hj k hk
  · rw [ed, es]
    have : s.stack.map (fun j => ((t.obj j).rng, (t.obj j).ty)) = s.stack.map (fun j => ((s.obj j).rng, (s.obj j).ty)) :=
      List.map_congr_left fun j hj => by
        have : j ≠ i := fun e => hni (e ▸ hj)
        rw [er, et, if_neg this]
    rw [this]; exact h11

theorem rawWriteLock_spec {F : Rng → Prop} (hF : Sep F) {s : State} (h : Inv F s) (i : Nat) (loc : Bool)
    (hl : loc = s.glob) (os : List Bool)
    (hos : (∀ b ∈ os, b = true) ∨ ∀ j, j ≠ i → (s.obj j).locked = true → (s.obj j).rng ≠ (s.obj i).rng) :
    ∃ ret loc' s' os', rawWriteLock s i loc os = .done ret loc' s' os' ∧ Kept F i s s' os os' loc' ∧
      (ret = true → (s'.obj i).locked = true ∧ (s'.obj i).ty = .write) ∧ (ret = false → false ∈ os) ∧
      (s'.race = s.race ∨ (i ∈ s.stack ∧ (s.obj i).pend = [] ∧ (s.obj i).ty = .read)) ∧
      (∀ j, j ≠ i → (s.obj j).locked = true → (s.obj j).ty = .write → (s'.obj j).ty = .write) ∧
      (ret = false → (s.obj i).locked = false → (s'.obj i).locked = false) := by
  unfold rawWriteLock
  by_cases h0 : (s.obj i).locked = true ∧ (s.obj i).ty = .write
  · simp only [h0, and_self, if_true]
    exact ⟨_, _, _, _, rfl, ⟨h, hl, fun _ => rfl, fun _ _ => rfl, fun _ hb => hb⟩, fun _ => h0, by simp, Or.inl rfl, fun _ _ _ ht => ht, by simp⟩
  · simp only [h0, if_false]
    by_cases h2 : (s.obj i).locked = true ∧ (s.obj i).ty = .read ∧ masterWrites s (s.obj i) = true
    · simp only [h2, and_self, if_true]
      obtain ⟨hl1, hl2, hl3⟩ := h2
      unfold masterWrites at hl3
      cases hm : (s.obj i).master with
      | none => rw [hm] at hl3; simp at hl3
      | some m =>
        rw [hm] at hl3; simp at hl3
        refine ⟨_, _, _, _, rfl, ⟨h.rewrite i m hl1 hm hl3, hl, ?_, ?_, fun _ hb => hb⟩, fun _ => ⟨?_, ?_⟩, by simp, Or.inl rfl, ?_, by simp⟩
        · intro j; simp only [State.mod]; split_ifs <;> rfl
        · intro j hj; simp [State.mod, hj]
        · simp [State.mod, hl1]
        · simp [State.mod]
        · intro j hj _ ht; simp [State.mod, hj, ht]
    · simp only [h2, if_false, lockStack_ok hl]
      have hg : Inv F { s with glob := true } := h.glob true s.race
      by_cases h1 : (s.obj i).ty = .read ∧ (s.obj i).locked = true
      · simp only [h1, and_self, if_true]
        obtain ⟨ret, loc', s', os', e, hk, k1, k2, k3, k4, k5, _, k6⟩ := rawUnlock_spec hg i true rfl os
        rw [e]
        cases ret with
        | false =>
          simp only
          exact ⟨_, _, _, _, rfl, ⟨hk.inv, hk.loc, hk.rng, hk.others, hk.left⟩, by simp, fun _ => (k3 rfl).1, Or.inl k4, k6, fun _ hf => by simp at hf⟩
        | true =>
          simp only
          have hos' : (∀ b ∈ os', b = true) ∨ ∀ j, (s'.obj j).locked = true → (s'.obj j).rng ≠ (s'.obj i).rng := by
            rcases hos with hos | hos
            · exact Or.inl fun b hb => hos b (hk.left b hb)
            · right
              intro j hj
              have hji : j ≠ i := fun e => by rw [e, k1 rfl] at hj; simp at hj
              have h1 := hk.rng j
              have h2 := hk.rng i
              have h3 := hk.others j hji
              simp only at h1 h2 h3
              rw [h1, h2]
              exact hos j hji (h3 ▸ hj)
          obtain ⟨ret, loc'', s'', os'', e', hk', t1, t2, t3, t5, t4⟩ := writeTail_spec hF hk.inv i loc' hk.loc (k1 rfl) os' hos'
          rw [e']
          have hkk := hk.trans hk'
          refine ⟨_, _, _, _, rfl, ⟨hkk.inv, hkk.loc, hkk.rng, hkk.others, hkk.left⟩, fun hr => ⟨t1.trans hr, t2⟩, fun hr => hk.left _ (t3 hr), ?_, fun j hj hlj ht => (t5 j hj).trans (k6 j hj hlj ht), fun hr _ => t1.trans hr⟩
          cases hc : loc' with
          | true => left; rw [t4, hc, k4]; simp
          | false =>
            right
            have := k5 h1.2 hc
            exact ⟨this.1, this.2, trivial⟩
      · simp only [h1, if_false]
        have hi : (s.obj i).locked = false := by
          cases hc : (s.obj i).locked
          · rfl
          · have := h.typ i hc
            cases ht : (s.obj i).ty
            · exact absurd ht this
            · exact absurd ⟨ht, hc⟩ h1
            · exact absurd ⟨hc, ht⟩ h0
        have hos' : (∀ b ∈ os, b = true) ∨ ∀ j, (s.obj j).locked = true → (s.obj j).rng ≠ (s.obj i).rng := by
          rcases hos with hos | hos
          · exact Or.inl hos
          · exact Or.inr fun j hj => hos j (fun e => by rw [e, hi] at hj; simp at hj) hj
        obtain ⟨ret, loc'', s'', os'', e', hk', t1, t2, t3, t5, t4⟩ := writeTail_spec hF hg i true rfl hi os hos'
        rw [e']
        exact ⟨_, _, _, _, rfl, ⟨hk'.inv, hk'.loc, hk'.rng, hk'.others, hk'.left⟩, fun hr => ⟨t1.trans hr, t2⟩, t3, Or.inl (by rw [t4]; simp), fun j hj _ ht => (t5 j hj).trans ht, fun hr _ => t1.trans hr⟩

end Fullock.Rcsv
