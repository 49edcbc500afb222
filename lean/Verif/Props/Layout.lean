import Verif.Model.Layout
import Verif.Props.ListMem
import Verif.Props.IO
/-
Property theorems about the layout of the segment (C40).
-/
namespace Fullock.Props
open Fullock Fullock.Spec Fullock.Layout Fullock.ListMem

/-! ### Sizes -/

theorem recSize_values : recSize .file = 40 ∧ recSize .off = 56 ∧ recSize .locker = 24 ∧
    recSize .nmtx = 96 ∧ recSize .ncond = 88 ∧ recSize .waiter = 32 ∧ headSize = 136 := by decide

theorem recSize_pos (p : Pool) : 0 < recSize p := by cases p <;> decide

/-- The size of all records is small enough for the arithmetic of the machine. -/
def NoWrap (cnt : Pool → Nat) : Prop :=
  136 + 40 * cnt .file + 56 * cnt .off + 24 * cnt .locker + 96 * cnt .nmtx + 88 * cnt .ncond +
    32 * cnt .waiter + 8192 < 2 ^ 64

theorem align8 (v : Nat) (h : v < 2 ^ 64 - 8192) (h8 : v % 8 = 0) : align v 8 = v := by
  unfold align wrap
  rw [if_pos h8]
  omega

theorem align_page (v : Nat) (h : v < 2 ^ 64 - 8192) :
    align v 4096 % 4096 = 0 ∧ v ≤ align v 4096 ∧ align v 4096 < v + 4096 := by
  unfold align wrap
  split_ifs <;> omega

theorem wrap_id (x : Nat) (h : x < 2 ^ 64) : wrap x = x := Nat.mod_eq_of_lt h

theorem step_off (o s c : Nat) (hs : s % 8 = 0) (ho : o % 8 = 0) (h : o + s * c < 2 ^ 64 - 8192) :
    wrap (o + align (wrap (s * c)) 8) = o + s * c ∧ (o + s * c) % 8 = 0 := by
  have h8 : s * c % 8 = 0 := by rw [Nat.mul_mod, hs]; simp
  rw [wrap_id (s * c) (by omega), align8 (s * c) (by omega) h8, wrap_id _ (by omega)]
  exact ⟨rfl, by omega⟩

theorem offs (cnt : Pool → Nat) (h : NoWrap cnt) :
    areaOff cnt .file = 136 ∧ areaOff cnt .off = 136 + 40 * cnt .file ∧
    areaOff cnt .locker = areaOff cnt .off + 56 * cnt .off ∧
    areaOff cnt .nmtx = areaOff cnt .locker + 24 * cnt .locker ∧
    areaOff cnt .ncond = areaOff cnt .nmtx + 96 * cnt .nmtx ∧
    areaOff cnt .waiter = areaOff cnt .ncond + 88 * cnt .ncond ∧
    offEnd cnt = areaOff cnt .waiter + 32 * cnt .waiter ∧
    offEnd cnt < 2 ^ 64 - 8192 ∧ ∀ p, areaOff cnt p % 8 = 0 := by
  obtain ⟨r1, r2, r3, r4, r5, r6, r7⟩ := recSize_values
  unfold NoWrap at h
  have h0 : offFile = 136 := by decide
  have h1 := step_off 136 40 (cnt .file) rfl rfl (by omega)
  have e1 : offOff cnt = 136 + 40 * cnt .file := by unfold offOff areaSize; rw [h0, r1]; exact h1.1
  have h2 := step_off _ 56 (cnt .off) rfl h1.2 (by omega)
  have e2 : offLocker cnt = offOff cnt + 56 * cnt .off := by
    unfold offLocker areaSize; rw [e1, r2]; exact h2.1
  have h3 := step_off _ 24 (cnt .locker) rfl h2.2 (by omega)
  have e3 : offNmtx cnt = offLocker cnt + 24 * cnt .locker := by
    unfold offNmtx areaSize; rw [e2, e1, r3]; exact h3.1
  have h4 := step_off _ 96 (cnt .nmtx) rfl h3.2 (by omega)
  have e4 : offNcond cnt = offNmtx cnt + 96 * cnt .nmtx := by
    unfold offNcond areaSize; rw [e3, e2, e1, r4]; exact h4.1
  have h5 := step_off _ 88 (cnt .ncond) rfl h4.2 (by omega)
  have e5 : offWaiter cnt = offNcond cnt + 88 * cnt .ncond := by
    unfold offWaiter areaSize; rw [e4, e3, e2, e1, r5]; exact h5.1
  have h6 := step_off _ 32 (cnt .waiter) rfl h5.2 (by omega)
  have e6 : offEnd cnt = offWaiter cnt + 32 * cnt .waiter := by
    unfold offEnd areaSize; rw [e5, e4, e3, e2, e1, r6]; exact h6.1
  refine ⟨h0, e1, e2, e3, e4, e5, e6, by omega, fun p => ?_⟩
  cases p <;> simp only [areaOff] <;> omega

/-- C40, areas (missing: configurations whose sizes overflow, `C40_not_full`): in order, without overlap, aligned, inside the file, behind the header; the size of
the file is a multiple of the page size.  Every area has room for its number of records. -/
theorem C40_areas_partial (cnt : Pool → Nat) (h : NoWrap cnt) :
    headSize ≤ areaOff cnt .file ∧
    areaOff cnt .file + recSize .file * cnt .file ≤ areaOff cnt .off ∧
    areaOff cnt .off + recSize .off * cnt .off ≤ areaOff cnt .locker ∧
    areaOff cnt .locker + recSize .locker * cnt .locker ≤ areaOff cnt .nmtx ∧
    areaOff cnt .nmtx + recSize .nmtx * cnt .nmtx ≤ areaOff cnt .ncond ∧
    areaOff cnt .ncond + recSize .ncond * cnt .ncond ≤ areaOff cnt .waiter ∧
    areaOff cnt .waiter + recSize .waiter * cnt .waiter ≤ total cnt ∧
    total cnt < areaOff cnt .waiter + recSize .waiter * cnt .waiter + 4096 ∧
    total cnt % 4096 = 0 ∧ (∀ p, areaOff cnt p % 8 = 0) := by
  obtain ⟨r1, r2, r3, r4, r5, r6, r7⟩ := recSize_values
  obtain ⟨o1, o2, o3, o4, o5, o6, o7, o8, o9⟩ := offs cnt h
  rw [r1, r2, r3, r4, r5, r6, r7]
  have ht := align_page (offEnd cnt) o8
  have htot : total cnt = align (offEnd cnt) 4096 := rfl
  rw [htot]
  refine ⟨by omega, by omega, by omega, by omega, by omega, by omega, by omega, by omega, ht.1, o9⟩

/-- All counts within the limits (0 not allowed here). -/
def Limits (cnt : Pool → Nat) : Prop := ∀ p, p.min ≤ cnt p ∧ cnt p ≤ p.max

theorem noWrap_of_limits (cnt : Pool → Nat) (h : Limits cnt) : NoWrap cnt ∧ ∀ p, 0 < cnt p := by
  have h1 := h .file
  have h2 := h .off
  have h3 := h .locker
  have h4 := h .nmtx
  have h5 := h .ncond
  have h6 := h .waiter
  simp only [Pool.min, Pool.max] at h1 h2 h3 h4 h5 h6
  refine ⟨by unfold NoWrap; omega, fun p => ?_⟩
  cases p <;> omega

example : Limits Pool.dflt := by intro p; cases p <;> decide

/-- C40, full: every set of counts accepted at reinitialisation (with the defaults for 0) gives areas
inside the file. -/
def C40_full : Prop :=
  ∀ n : Pool → Nat, reinitCheck n = true →
    let cnt := fun p => if n p = 0 then p.dflt else n p
    areaOff cnt .waiter + recSize .waiter * cnt .waiter ≤ total cnt

/-- It fails: because of the wrong guard of the waiter count, 2^59 waiters are accepted, whose size
is 0 modulo 2^64; all records of the area are outside of the file. -/
theorem C40_not_full : ¬ C40_full := by
  intro h
  have := h (fun p => if p = .waiter then 2 ^ 59 else 0) (by decide)
  revert this
  decide

/-! ### The memory after initialisation -/

theorem freeCell_lt (p : Pool) : freeCell p < 136 ∧ freeCell p ≠ 0 := by cases p <;> decide

theorem freeCell_inj {p q : Pool} (h : freeCell p = freeCell q) : p = q := by
  cases p <;> cases q <;> first | rfl | (revert h; decide)

/-- The records of a pool. -/
def records (cnt : Pool → Nat) (p : Pool) : List Nat := area (areaOff cnt p) (recSize p) (cnt p)

theorem records_ge (cnt : Pool → Nat) (h : NoWrap cnt) (p : Pool) (x : Nat) (hx : x ∈ records cnt p) :
    136 ≤ x := by
  have := area_ge hx
  obtain ⟨o1, o2, o3, o4, o5, o6, o7, o8, o9⟩ := offs cnt h
  cases p <;> omega

theorem record_bounds (cnt : Pool → Nat) (p : Pool) (x : Nat) (hx : x ∈ records cnt p) :
    areaOff cnt p ≤ x ∧ x + recSize p ≤ areaOff cnt p + recSize p * cnt p := by
  unfold records at hx
  rw [area_mem] at hx
  obtain ⟨i, hi, rfl⟩ := hx
  refine ⟨by omega, ?_⟩
  have : (i + 1) * recSize p ≤ cnt p * recSize p := Nat.mul_le_mul_right _ hi
  rw [Nat.add_mul] at this
  rw [Nat.mul_comm (recSize p) (cnt p)]
  omega

theorem records_disj (cnt : Pool → Nat) (h : NoWrap cnt) {p q : Pool} (hpq : p ≠ q) (x : Nat)
    (hx : x ∈ records cnt p) (hy : x ∈ records cnt q) : False := by
  have hp := record_bounds cnt p x hx
  have hq := record_bounds cnt q x hy
  have h1 := recSize_pos p
  have h2 := recSize_pos q
  obtain ⟨r1, r2, r3, r4, r5, r6, r7⟩ := recSize_values
  obtain ⟨o1, o2, o3, o4, o5, o6, o7, o8, o9⟩ := offs cnt h
  cases p <;> cases q <;> first | exact hpq rfl | (simp only [r1, r2, r3, r4, r5, r6] at *; omega)

theorem makeList_ok (b : Nat) (cnt : Pool → Nat) (h : NoWrap cnt) (p : Pool) (hc : 0 < cnt p) (m : Mem) :
    (makeList b cnt p m).2 = areaOff cnt p ∧
    Chain (makeList b cnt p m).1 (areaOff cnt p) (records cnt p) ∧
    ∀ x, x ∉ records cnt p → (makeList b cnt p m).1 x = m x := by
  have h0 : areaOff cnt p ≠ 0 := by
    obtain ⟨o1, o2, o3, o4, o5, o6, o7, o8, o9⟩ := offs cnt h
    cases p <;> omega
  have habs : areaOff cnt p + b = toAbs b (areaOff cnt p) := by unfold toAbs; rw [if_pos h0]
  have habs0 : toAbs b (areaOff cnt p) ≠ 0 := by rw [← habs]; omega
  have hinit : initW b (recSize p) (areaOff cnt p + b) (cnt p) =
      some (initLoop b (recSize p) (cnt p) (toAbs b (areaOff cnt p)) (toAbs b 0)) := by
    unfold initW
    rw [habs, if_neg (by omega)]
    rfl
  unfold makeList
  rw [hinit]
  refine ⟨by simp only; rw [habs, toRel_toAbs], ?_, ?_⟩
  · exact (initLoop_chain b (recSize p) (recSize_pos p) (cnt p) (areaOff cnt p) 0 m h0 (by omega)).1 hc
  · intro x hx
    exact initLoop_frame b (recSize p) (recSize_pos p) (cnt p) (areaOff cnt p) 0 m x h0 hx (by omega)

theorem build_frame (b : Nat) (cnt : Pool → Nat) (h : NoWrap cnt) (hc : ∀ p, 0 < cnt p) : ∀ (ps : List Pool)
    (m : Mem) (x : Nat), (∀ p ∈ ps, x ∉ records cnt p ∧ x ≠ freeCell p) → buildPools b cnt ps m x = m x := by
  intro ps
  induction ps with
  | nil => intro m x _; rfl
  | cons p ps ih =>
    intro m x hx
    unfold buildPools
    simp only
    rw [ih _ _ (fun q hq => hx q (by simp [hq])), set_other _ _ _ (hx p (by simp)).2,
      (makeList_ok b cnt h p (hc p) m).2.2 x (hx p (by simp)).1]

theorem build_chain (b : Nat) (cnt : Pool → Nat) (h : NoWrap cnt) (hc : ∀ p, 0 < cnt p) : ∀ (ps : List Pool)
    (m : Mem), ps.Nodup → ∀ p ∈ ps, buildPools b cnt ps m (freeCell p) = areaOff cnt p ∧
      Chain (buildPools b cnt ps m) (areaOff cnt p) (records cnt p) := by
  intro ps
  induction ps with
  | nil => intro m _ p hp; simp at hp
  | cons q ps ih =>
    intro m hnd p hp
    rw [List.nodup_cons] at hnd
    unfold buildPools
    simp only
    by_cases hpq : p = q
    · subst hpq
      have hm := makeList_ok b cnt h p (hc p) m
      have hcell : ∀ r ∈ ps, freeCell p ∉ records cnt r ∧ freeCell p ≠ freeCell r := by
        intro r hr
        refine ⟨fun hx => ?_, fun he => hnd.1 (freeCell_inj he ▸ hr)⟩
        have := records_ge cnt h r _ hx
        have := (freeCell_lt p).1
        omega
      constructor
      · rw [build_frame b cnt h hc ps _ _ hcell, set_same, hm.1]
      · refine chain_congr (fun r hr => ?_) hm.2.1
        have h136 := records_ge cnt h p r hr
        have hfc := fun q => (freeCell_lt q).1
        rw [build_frame b cnt h hc ps _ _ (fun q hq => ⟨fun hx => records_disj cnt h (p := p) (q := q)
          (fun he => hnd.1 (he ▸ hq)) r hr hx, by have := hfc q; omega⟩), set_other _ _ _ (by have := hfc p; omega)]
    · exact ih _ hnd.2 p (by simpa [hpq] using hp)

/-- The heads of all lists: three of used, six of free records. -/
def heads : List Nat := listCells ++ allPools.map freeCell

/-- What every list holds after initialisation. -/
def initLists (cnt : Pool → Nat) (h : Nat) : List Nat :=
  match allPools.find? (fun p => freeCell p == h) with
  | none => []
  | some p => records cnt p

theorem initLists_free (cnt : Pool → Nat) (p : Pool) : initLists cnt (freeCell p) = records cnt p := by
  unfold initLists
  cases p <;> rfl

theorem initLists_list (cnt : Pool → Nat) (c : Nat) (hc : c ∈ listCells) : initLists cnt c = [] := by
  unfold initLists
  have : c = 48 ∨ c = 64 ∨ c = 80 := by
    have hl : listCells = [48, 64, 80] := by decide
    rw [hl] at hc
    simpa using hc
  rcases this with rfl | rfl | rfl <;> rfl

theorem heads_cases {c : Nat} (hc : c ∈ heads) : c ∈ listCells ∨ ∃ p, c = freeCell p := by
  unfold heads at hc
  rcases List.mem_append.1 hc with h | h
  · exact Or.inl h
  · obtain ⟨p, -, rfl⟩ := List.mem_map.1 h
    exact Or.inr ⟨p, rfl⟩

theorem heads_lt {c : Nat} (hc : c ∈ heads) : c < 136 := by
  have : heads = [48, 64, 80, 88, 96, 104, 112, 120, 128] := by decide
  rw [this] at hc
  simp at hc
  omega

theorem mem_allPools (p : Pool) : p ∈ allPools := by cases p <;> decide

theorem word64_zero (f : File) (c : Nat) (h : ∀ i, i < 8 → f.data (c + i) = 0) : word64 f c = 0 := by
  unfold word64
  have : List.range 8 = [0, 1, 2, 3, 4, 5, 6, 7] := by decide
  rw [this]
  have h0 := h 0 (by decide)
  rw [Nat.add_zero] at h0
  simp [h0, h 1, h 2, h 3, h 4, h 5, h 6, h 7]

/-- C40: a number of 64 bits is in the file as its eight bytes, the lowest first. -/
theorem C40_word (f : File) (c v : Nat) (hv : v < 2 ^ 64)
    (h : ∀ i, i < 8 → (f.data (c + i)).toNat = v / 256 ^ i % 256) : word64 f c = v := by
  unfold word64
  have : List.range 8 = [0, 1, 2, 3, 4, 5, 6, 7] := by decide
  rw [this]
  simp only [List.foldr, h 0 (by decide), h 1 (by decide), h 2 (by decide), h 3 (by decide), h 4 (by decide), h 5 (by decide),
    h 6 (by decide), h 7 (by decide)]
  omega

/-- C40, memory (counts within the documented limits; missing: the waiter counts above the limit that
are accepted, `C40_not_full`): after a successful initialisation the file has the computed size, the header holds
version and size, no lock word is taken, the three lists of used records are empty, every free list
holds exactly the records of its area in order (so the configured number, all different), and all
other members of the records are zero. -/
theorem C40_memory_partial (cnt : Pool → Nat) (f f' : File) (os : List Sys) (b : Nat) (m : Mem)
    (hl : Limits cnt) (h : initializeShmFile cnt f true os (some b) = some (.ok f' m)) :
    f'.size = total cnt ∧ m versionCell = 1 ∧ m lengthCell = total cnt ∧
    (∀ c ∈ lockidCells, m c = 0) ∧
    (∃ L, WF m heads L ∧ (∀ c ∈ listCells, L c = []) ∧
      ∀ p, L (freeCell p) = (List.range (cnt p)).map fun i => areaOff cnt p + i * recSize p) ∧
    ∀ c, headSize ≤ c → c + 8 ≤ total cnt →
      (∀ p i, i < cnt p → c ≠ areaOff cnt p + i * recSize p) → m c = 0 := by
  obtain ⟨hw, hpos⟩ := noWrap_of_limits cnt hl
  unfold initializeShmFile at h
  rw [if_neg (by simp)] at h
  split at h
  · simp at h
  · simp at h
  · rename_i f1 os1 hfill
    simp only at h
    split at h
    · simp at h
    · simp only [Option.some.injEq, InitRes.ok.injEq] at h
      obtain ⟨rfl, rfl⟩ := h
      have hst := C47_fill_zero _ _ _ _ _ _ _ hfill
      simp only [Bool.true_eq_false, false_and, or_false, true_and] at hst
      have htot : 136 ≤ total cnt := by
        have := C40_areas_partial cnt hw
        have r7 : headSize = 136 := by decide
        omega
      have hsize : f1.size = total cnt := by
        rw [hst.size, if_neg (by
          intro hc
          have := congrArg List.length hc
          rw [List.length_replicate] at this
          simp at this
          omega)]
        simp [File.truncate0]
      have hdata : ∀ i < total cnt, f1.data i = 0 := by
        intro i hi
        have := hst.inside i (by rw [List.length_replicate]; exact hi)
        rw [Nat.zero_add] at this
        rw [this, List.getElem_replicate]
      have hnd : allPools.Nodup := by decide
      have hhead : ∀ c, c < 136 → (∀ p, c ≠ freeCell p) →
          buildPools b cnt allPools (writeHead (total cnt) (word64 f1)) c =
            writeHead (total cnt) (word64 f1) c := by
        intro c hc hn
        exact build_frame b cnt hw hpos allPools _ c (fun p _ =>
          ⟨fun hx => by have := records_ge cnt hw p c hx; omega, hn p⟩)
      have hz : ∀ c, c + 8 ≤ 136 → word64 f1 c = 0 := fun c hc =>
        word64_zero f1 c (fun i hi => hdata _ (by omega))
      have hbuild := fun p => build_chain b cnt hw hpos allPools (writeHead (total cnt) (word64 f1)) hnd p
        (mem_allPools p)
      refine ⟨hsize, ?_, ?_, ?_, ⟨initLists cnt, ⟨?_, ?_, ?_, ?_⟩, initLists_list cnt, ?_⟩, ?_⟩
      · rw [hhead _ (by decide) (by intro p; cases p <;> decide)]
        rfl
      · rw [hhead _ (by decide) (by intro p; cases p <;> decide)]
        rfl
      · intro c hc
        have hlk : lockidCells = [40, 56, 72] := by decide
        rw [hlk] at hc
        simp only [List.mem_cons, List.not_mem_nil, or_false] at hc
        rcases hc with rfl | rfl | rfl
        · rw [hhead _ (by decide) (by intro p; cases p <;> decide)]; rfl
        · rw [hhead _ (by decide) (by intro p; cases p <;> decide)]; rfl
        · rw [hhead _ (by decide) (by intro p; cases p <;> decide)]
          have := hz 72 (by decide)
          exact this
      · intro c hc
        rcases heads_cases hc with hlist | ⟨p, rfl⟩
        · rw [initLists_list cnt c hlist]
          have hl : listCells = [48, 64, 80] := by decide
          rw [hl] at hlist
          simp only [List.mem_cons, List.not_mem_nil, or_false] at hlist
          show _ = 0
          rcases hlist with rfl | rfl | rfl
          · rw [hhead _ (by decide) (by intro p; cases p <;> decide)]; rfl
          · rw [hhead _ (by decide) (by intro p; cases p <;> decide)]; rfl
          · rw [hhead _ (by decide) (by intro p; cases p <;> decide)]
            have := hz 80 (by decide)
            exact this
        · rw [initLists_free, (hbuild p).1]
          exact (hbuild p).2
      · intro c hc
        rcases heads_cases hc with hlist | ⟨p, rfl⟩
        · rw [initLists_list cnt c hlist]; simp
        · rw [initLists_free]; exact area_nodup (recSize_pos p) _ _
      · intro c hc r hr hr2
        have h1 := heads_lt hr2
        rcases heads_cases hc with hlist | ⟨p, rfl⟩
        · rw [initLists_list cnt c hlist] at hr; simp at hr
        · rw [initLists_free] at hr
          have := records_ge cnt hw p r hr
          omega
      · intro c hc c' hc' hne r hr hr2
        rcases heads_cases hc with hlist | ⟨p, rfl⟩
        · rw [initLists_list cnt c hlist] at hr; simp at hr
        · rcases heads_cases hc' with hlist | ⟨q, rfl⟩
          · rw [initLists_list cnt c' hlist] at hr2; simp at hr2
          · rw [initLists_free] at hr hr2
            exact records_disj cnt hw (fun he => hne (by rw [he])) r hr hr2
      · intro p
        rw [initLists_free]
        exact area_range _ _ _
      · intro c hc1 hc2 hc3
        have hc1 : 136 ≤ c := hc1
        rw [build_frame b cnt hw hpos allPools _ c (fun p _ =>
          ⟨fun hx => ?_, by have := (freeCell_lt p).1; omega⟩)]
        · have h0 : word64 f1 c = 0 := word64_zero f1 c (fun i hi => hdata _ (by omega))
          have v : versionCell = 0 ∧ lengthCell = 32 ∧ headCell 3 = 40 ∧ headCell 4 = 48 ∧
            headCell 5 = 56 ∧ headCell 6 = 64 := by decide
          obtain ⟨v1, v2, v3, v4, v5, v6⟩ := v
          unfold writeHead
          rw [v1, v2, v3, v4, v5, v6]
          repeat rw [set_other _ _ _ (by omega)]
          exact h0
        · obtain ⟨i, hi, e⟩ := area_mem.1 hx
          exact hc3 p i hi e

/-- C40, success: with counts within the limits the initialisation succeeds, wherever the file is
mapped, when the system calls do. -/
theorem C40_succeeds (cnt : Pool → Nat) (f : File) (b : Nat) (hl : Limits cnt) :
    ∃ f' m, initializeShmFile cnt f true (List.replicate (total cnt) (.ok 4096)) (some b) =
      some (.ok f' m) := by
  obtain ⟨hw, hpos⟩ := noWrap_of_limits cnt hl
  obtain ⟨f', os', hfill⟩ := C47_fill_zero_ends File.truncate0 (total cnt) 0
  unfold initializeShmFile
  rw [if_neg (by simp), hfill]
  simp only
  rw [if_neg]
  · exact ⟨_, _, rfl⟩
  · rw [List.any_eq_true]
    rintro ⟨p, -, hp⟩
    rw [(build_chain b cnt hw hpos allPools _ (by decide) p (mem_allPools p)).1] at hp
    obtain ⟨o1, o2, o3, o4, o5, o6, o7, o8, o9⟩ := offs cnt hw
    have : areaOff cnt p ≠ 0 := by cases p <;> omega
    simp [this] at hp

/-- The hypotheses of `C40_memory_partial` are met by the default configuration. -/
example : Limits Pool.dflt ∧ ∃ f' m, initializeShmFile Pool.dflt File.truncate0 true
    (List.replicate (total Pool.dflt) (.ok 4096)) (some 4096) = some (.ok f' m) :=
  ⟨by intro p; cases p <;> decide, C40_succeeds _ _ _ (by intro p; cases p <;> decide)⟩

/-- C40: a failing system call makes the initialisation fail. -/
theorem C40_fails (cnt : Pool → Nat) (f : File) (os : List Sys) (b : Option Nat) :
    initializeShmFile cnt f false os b = some (.fail f) ∧
    (∀ r, initializeShmFile cnt f true os none = some r → ∃ f', r = .fail f') := by
  refine ⟨rfl, fun r hr => ?_⟩
  unfold initializeShmFile at hr
  rw [if_neg (by simp)] at hr
  split at hr
  · simp at hr
  · simp only [Option.some.injEq] at hr; exact ⟨_, hr.symm⟩
  · simp only [Option.some.injEq] at hr; exact ⟨_, hr.symm⟩

theorem makeList_zero (b : Nat) (cnt : Pool → Nat) (p : Pool) (hc : cnt p = 0) (m : Mem) :
    makeList b cnt p m = (m, 0) := by
  unfold makeList initW
  rw [if_pos (Or.inr hc)]

theorem build_zero (b : Nat) (cnt : Pool → Nat) (h : NoWrap cnt) (p : Pool) (hc : cnt p = 0) : ∀ (ps : List Pool)
    (m : Mem), (p ∈ ps ∨ m (freeCell p) = 0) → buildPools b cnt ps m (freeCell p) = 0 := by
  intro ps
  induction ps with
  | nil =>
    intro m hm
    rcases hm with hm | hm
    · simp at hm
    · exact hm
  | cons q ps ih =>
    intro m hm
    unfold buildPools
    simp only
    apply ih
    by_cases hq : p = q
    · subst hq
      right
      rw [set_same, makeList_zero b cnt p hc]
    · rcases hm with hm | hm
      · left; simpa [hq] using hm
      · right
        rw [set_other _ _ _ (fun he => hq (freeCell_inj he))]
        by_cases hcq : cnt q = 0
        · rw [makeList_zero b cnt q hcq]; exact hm
        · rw [(makeList_ok b cnt h q (by omega) m).2.2 _ (fun hx => by
            have := records_ge cnt h q _ hx
            have := (freeCell_lt p).1
            omega)]
          exact hm

/-- C40: an area without records is refused. -/
theorem C40_zero (cnt : Pool → Nat) (f : File) (os : List Sys) (b : Nat) (h : NoWrap cnt) (p : Pool)
    (hc : cnt p = 0) : ∀ r, initializeShmFile cnt f true os (some b) = some r → ∃ f', r = .fail f' := by
  intro r hr
  unfold initializeShmFile at hr
  rw [if_neg (by simp)] at hr
  split at hr
  · simp at hr
  · simp only [Option.some.injEq] at hr; exact ⟨_, hr.symm⟩
  · simp only at hr
    rw [if_pos] at hr
    · simp only [Option.some.injEq] at hr; exact ⟨_, hr.symm⟩
    · rw [List.any_eq_true]
      exact ⟨p, mem_allPools p, by rw [build_zero b cnt h p hc _ _ (Or.inl (mem_allPools p))]; rfl⟩

example : NoWrap (fun _ => 0) := by unfold NoWrap; decide

/-- C40 with C37, C38: starting from a new segment, any history of list operations by any processes,
each completed or cut short by a death, leaves all lists well formed. -/
theorem C40_then_histories_partial (cnt : Pool → Nat) (f f' : File) (os : List Sys) (b : Nat) (m : Mem)
    (hl : Limits cnt) (h : initializeShmFile cnt f true os (some b) = some (.ok f' m)) :
    ∃ L, (∀ p, (L (freeCell p)).length = cnt p) ∧ ∀ cs, AllowedAll heads L cs → ∃ fuel m',
      execAll fuel m cs = some m' ∧ WF m' heads (absAll L cs) := by
  obtain ⟨-, -, -, -, ⟨L, hw, -, hL⟩, -⟩ := C40_memory_partial cnt f f' os b m hl h
  refine ⟨L, fun p => by rw [hL p]; simp, fun cs hcs => ?_⟩
  have hbound : ∃ B, ∀ h ∈ heads, (L h).length ≤ B := by
    have hle : ∀ (l : List Nat) (g : Nat → Nat), ∀ h ∈ l, g h ≤ (l.map g).sum := by
      intro l g
      induction l with
      | nil => simp
      | cons a l ih =>
        intro h hh
        rw [List.map_cons, List.sum_cons]
        rcases List.mem_cons.1 hh with rfl | hh
        · omega
        · have := ih h hh; omega
    exact ⟨_, hle heads fun h => (L h).length⟩
  obtain ⟨B, hB⟩ := hbound
  obtain ⟨m', h1, h2⟩ := C37_C38_lists_are_sequences hw cs hcs (fuel := B + cs.length + 1)
    (fun h hh => by have := hB h hh; omega)
  exact ⟨_, m', h1, h2⟩

end Fullock.Props
