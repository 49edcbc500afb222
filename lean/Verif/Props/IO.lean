import Verif.Spec.IO
import Mathlib.Tactic.SplitIfs
import Mathlib.Tactic.Push
import Mathlib.Data.Nat.Bitwise
/-
Property theorems about input and output (C47) and file events (C60).
-/
namespace Fullock.Props
open Fullock Fullock.Spec

/-! ### C47: writing -/

theorem stored_nil (f : File) (off : Nat) : Stored f f off [] :=
  ⟨rfl, fun j h => absurd h (by simp), fun _ _ _ => rfl, fun h => absurd rfl h⟩

theorem stored_writeAt (f : File) (off : Nat) (bs : List UInt8) : Stored f (f.writeAt off bs) off bs := by
  unfold File.writeAt
  by_cases h : bs = []
  · subst h; rw [if_pos rfl]; exact stored_nil f off
  · rw [if_neg h]
    refine ⟨by simp [h], fun j hj => ?_, fun i hi ho => ?_, fun _ i hi ho => ?_⟩
    · have h1 : ¬ off + j < off := by omega
      have h2 : off + j < off + bs.length := by omega
      simp [hj]
    · simp only
      split_ifs <;> first | rfl | omega
    · simp only
      split_ifs <;> first | rfl | omega

theorem stored_append {f f1 f2 : File} {off : Nat} {a b : List UInt8} (h1 : Stored f f1 off a)
    (h2 : Stored f1 f2 (off + a.length) b) : Stored f f2 off (a ++ b) := by
  by_cases hb : b = []
  · subst hb
    have hs2 := h2.size
    rw [if_pos rfl] at hs2
    have hd : ∀ i < f1.size, f2.data i = f1.data i := by
      intro i hi
      exact h2.outside i hi (by simp; omega)
    have hs1 := h1.size
    rw [List.append_nil]
    by_cases ha : a = []
    · subst ha
      rw [if_pos rfl] at hs1
      refine ⟨by simp [hs1, hs2], fun j hj => absurd hj (by simp), fun i hi ho => ?_, fun h => absurd rfl h⟩
      rw [hd i (by omega), h1.outside i hi ho]
    · rw [if_neg ha] at hs1
      have hmax : f.size ≤ f1.size ∧ off + a.length ≤ f1.size := by rw [hs1]; exact ⟨Nat.le_max_left _ _, Nat.le_max_right _ _⟩
      refine ⟨by rw [hs2, hs1, if_neg ha], fun j hj => ?_, fun i hi ho => ?_, fun h i hi ho => ?_⟩
      · rw [hd _ (by omega), h1.inside j hj]
      · rw [hd i (by omega), h1.outside i hi ho]
      · rw [hd i (by omega), h1.gap h i hi ho]
  · have hs2 := h2.size
    have hs1 := h1.size
    rw [if_neg hb] at hs2
    by_cases ha : a = []
    · subst ha
      rw [if_pos rfl] at hs1
      simp only [List.length_nil, Nat.add_zero, List.nil_append] at h2 hs2 ⊢
      refine ⟨by rw [hs2, hs1, if_neg hb], fun j hj => h2.inside j hj, fun i hi ho => ?_, fun h i hi ho => ?_⟩
      · rw [h2.outside i (by omega) ho, h1.outside i hi (by simp; omega)]
      · exact h2.gap h i (by omega) ho
    · rw [if_neg ha] at hs1
      have hmax : f.size ≤ f1.size ∧ off + a.length ≤ f1.size := by rw [hs1]; exact ⟨Nat.le_max_left _ _, Nat.le_max_right _ _⟩
      refine ⟨?_, fun j hj => ?_, fun i hi ho => ?_, fun h i hi ho => ?_⟩
      · rw [hs2, hs1, if_neg (by simp [ha])]
        simp only [List.length_append]
        show max (max f.size (off + a.length)) (off + a.length + b.length) = max f.size (off + (a.length + b.length))
        omega
      · by_cases hja : j < a.length
        · rw [List.getElem_append_left hja, h2.outside (off + j) (by omega) (by omega), h1.inside j hja]
        · have hj2 : j - a.length < b.length := by simp at hj; omega
          rw [List.getElem_append_right (by omega), ← h2.inside (j - a.length) hj2]
          congr 1; omega
      · simp only [List.length_append] at ho
        rw [h2.outside i (by omega) (by omega), h1.outside i hi (by omega)]
      · rw [h2.outside i (by omega) (by omega), h1.gap ha i hi ho]

theorem pwrite_inv (f0 : File) (buf : List UInt8) (off : Nat) : ∀ (os : List Sys) (wc : Nat) (f : File)
    (r : Int) (f' : File) (os' : List Sys), wc ≤ buf.length → Stored f0 f off (buf.take wc) →
    flckPwrite f buf off wc os = some (r, f', os') →
    (r = buf.length ∧ Stored f0 f' off buf) ∨
    (r = -1 ∧ Sys.err ∈ os ∧ ∃ j, j < buf.length ∧ Stored f0 f' off (buf.take j)) := by
  intro os
  induction os with
  | nil =>
    intro wc f r f' os' hwc hst h
    unfold flckPwrite at h
    split at h
    · simp at h
    · simp only [Option.some.injEq, Prod.mk.injEq] at h
      obtain ⟨rfl, rfl, rfl⟩ := h
      have : wc = buf.length := by omega
      subst this
      left
      exact ⟨rfl, by simpa using hst⟩
  | cons o os ih =>
    intro wc f r f' os' hwc hst h
    unfold flckPwrite at h
    split at h
    · rename_i hlt
      cases o with
      | err =>
        simp only [Option.some.injEq, Prod.mk.injEq] at h
        obtain ⟨rfl, rfl, rfl⟩ := h
        right
        exact ⟨rfl, by simp, wc, hlt, hst⟩
      | ok k =>
        simp only at h
        have hlen : (buf.take wc).length = wc := by simp; omega
        have hst' : Stored f0 (f.writeAt (off + wc) ((buf.drop wc).take (min k (buf.length - wc)))) off
            (buf.take (wc + min k (buf.length - wc))) := by
          have hw := stored_writeAt f (off + wc) ((buf.drop wc).take (min k (buf.length - wc)))
          have := stored_append (a := buf.take wc) hst (by rw [hlen]; exact hw)
          rwa [← List.take_add] at this
        have := ih _ _ r f' os' (by omega) hst' h
        rcases this with h | ⟨h1, h2, h3⟩
        · left; exact h
        · right; exact ⟨h1, by simp [h2], h3⟩
    · simp only [Option.some.injEq, Prod.mk.injEq] at h
      obtain ⟨rfl, rfl, rfl⟩ := h
      have : wc = buf.length := by omega
      subst this
      left
      exact ⟨rfl, by simpa using hst⟩

/-- C47, writing: whatever sizes the system accepts at a time, the call ends with all bytes stored in
order at the given place and nothing else changed, returning their number; or it ends with -1, only
when the system reported an error, and then a prefix is stored. -/
theorem C47_pwrite (f f' : File) (buf : List UInt8) (off : Nat) (os os' : List Sys) (r : Int)
    (h : flckPwrite f buf off 0 os = some (r, f', os')) :
    (r = buf.length ∧ Stored f f' off buf) ∨
    (r = -1 ∧ Sys.err ∈ os ∧ ∃ j, j < buf.length ∧ Stored f f' off (buf.take j)) :=
  pwrite_inv f buf off os 0 f r f' os' (by omega) (stored_nil f off) h

theorem pwrite_ends (buf : List UInt8) (off : Nat) : ∀ (os : List Sys) (wc : Nat) (f : File),
    buf.length ≤ wc + os.length → Sys.ok 0 ∉ os → ∃ r, flckPwrite f buf off wc os = some r := by
  intro os
  induction os with
  | nil =>
    intro wc f hl _
    unfold flckPwrite
    rw [if_neg (by simp at hl; omega)]
    exact ⟨_, rfl⟩
  | cons o os ih =>
    intro wc f hl h0
    unfold flckPwrite
    split
    · cases o with
      | err => exact ⟨_, rfl⟩
      | ok k =>
        simp only
        have hk : k ≠ 0 := by rintro rfl; simp at h0
        apply ih
        · simp only [List.length_cons] at hl; omega
        · intro hc; exact h0 (by simp [hc])
    · exact ⟨_, rfl⟩

/-- C47, writing ends: when no transfer moves zero bytes, as many transfers as bytes are enough. -/
theorem C47_pwrite_ends (f : File) (buf : List UInt8) (off : Nat) (os : List Sys)
    (h : buf.length ≤ os.length) (h0 : Sys.ok 0 ∉ os) : ∃ r, flckPwrite f buf off 0 os = some r :=
  pwrite_ends buf off os 0 f (by omega) h0

/-- A system that keeps accepting zero bytes keeps the call in its loop for ever. -/
theorem C47_pwrite_zero (f : File) (b : UInt8) (off n : Nat) :
    flckPwrite f [b] off 0 (List.replicate n (.ok 0)) = none := by
  induction n with
  | zero => simp [flckPwrite]
  | succ n ih =>
    rw [List.replicate_succ]
    unfold flckPwrite
    have : f.writeAt (off + 0) ((List.drop 0 [b]).take (min 0 ([b].length - 0))) = f := by
      simp [File.writeAt]
    simp only [List.length_singleton, Nat.zero_lt_one, if_true, Nat.zero_min, Nat.add_zero]
    simpa [File.writeAt] using ih

/-- Three transfers of two, one and two bytes. -/
example : (flckPwrite File.truncate0 [1, 2, 3, 4, 5] 3 0 [.ok 2, .ok 1, .ok 9]).map
    (fun x => (x.1, (List.range 9).map x.2.1.data, x.2.1.size)) =
    some (5, [0, 0, 0, 1, 2, 3, 4, 5, 0], 8) := by decide +kernel

theorem fill_inv (count off : Nat) (f0 : File) : ∀ (fuel wc : Nat) (f : File) (os : List Sys)
    (b : Bool) (f' : File) (os' : List Sys), wc ≤ count → Stored f0 f off (List.replicate wc 0) →
    flckFillZero f count off fuel wc os = some (b, f', os') →
    (b = true ∧ Stored f0 f' off (List.replicate count 0)) ∨
    (b = false ∧ ∃ j, j < count ∧ Stored f0 f' off (List.replicate j 0)) := by
  intro fuel
  induction fuel with
  | zero =>
    intro wc f os b f' os' hwc hst h
    unfold flckFillZero at h
    split at h
    · simp at h
    · simp only [Option.some.injEq, Prod.mk.injEq] at h
      obtain ⟨rfl, rfl, rfl⟩ := h
      have : wc = count := by omega
      subst this
      exact Or.inl ⟨rfl, hst⟩
  | succ fuel ih =>
    intro wc f os b f' os' hwc hst h
    unfold flckFillZero at h
    split at h
    · rename_i hlt
      simp only at h
      split at h
      · simp at h
      · rename_i r f1 os1 hp
        have hw := C47_pwrite _ _ _ _ _ _ _ hp
        simp only [List.length_replicate, List.take_replicate] at hw
        rcases hw with ⟨hr, hs⟩ | ⟨hr, -, j, hj, hs⟩
        · rw [if_neg (by omega)] at h
          have hst' := stored_append hst (by simpa using hs)
          rw [List.replicate_append_replicate] at hst'
          have hr2 : r.toNat = min (count - wc) 4096 := by omega
          rw [hr2] at h
          exact ih _ _ _ _ _ _ (by omega) hst' h
        · rw [if_pos hr] at h
          simp only [Option.some.injEq, Prod.mk.injEq] at h
          obtain ⟨rfl, rfl, rfl⟩ := h
          right
          have hst' := stored_append hst (by simpa using hs)
          rw [List.replicate_append_replicate] at hst'
          exact ⟨rfl, wc + min j (min (count - wc) 4096), by omega, hst'⟩
    · simp only [Option.some.injEq, Prod.mk.injEq] at h
      obtain ⟨rfl, rfl, rfl⟩ := h
      have : wc = count := by omega
      subst this
      exact Or.inl ⟨rfl, hst⟩

/-- C47, zero filling: on success exactly the given interval is zero and nothing else has changed; on
failure zeros were written to a part of the interval only. -/
theorem C47_fill_zero (f f' : File) (count off : Nat) (os os' : List Sys) (b : Bool)
    (h : flckFillZero f count off count 0 os = some (b, f', os')) :
    (b = true ∧ Stored f f' off (List.replicate count 0)) ∨
    (b = false ∧ ∃ j, j < count ∧ Stored f f' off (List.replicate j 0)) :=
  fill_inv count off f count 0 f os b f' os' (by omega) (stored_nil f off) h

theorem pwrite_full (buf : List UInt8) (off : Nat) (f : File) (k : Nat) (os : List Sys) (hk : buf.length ≤ k)
    (hb : buf ≠ []) :
    flckPwrite f buf off 0 (.ok k :: os) = some ((buf.length : Int), f.writeAt off buf, os) := by
  have hpos : 0 < buf.length := List.length_pos_iff.2 hb
  unfold flckPwrite
  rw [if_pos hpos]
  simp only [List.drop_zero, Nat.sub_zero, Nat.zero_add, Nat.add_zero]
  rw [Nat.min_eq_right hk, List.take_length]
  unfold flckPwrite
  rw [if_neg (Nat.lt_irrefl _)]

theorem fill_ends (count off : Nat) : ∀ (fuel wc : Nat) (f : File) (n : Nat), count ≤ wc + fuel → fuel ≤ n →
    ∃ f' os', flckFillZero f count off fuel wc (List.replicate n (.ok 4096)) = some (true, f', os') := by
  intro fuel
  induction fuel with
  | zero =>
    intro wc f n hc _
    unfold flckFillZero
    rw [if_neg (by omega)]
    exact ⟨_, _, rfl⟩
  | succ fuel ih =>
    intro wc f n hc hn
    unfold flckFillZero
    split
    · rename_i hlt
      obtain ⟨m, rfl⟩ : ∃ m, n = m + 1 := ⟨n - 1, by omega⟩
      rw [List.replicate_succ]
      simp only
      rw [pwrite_full _ _ _ _ _ (by simp; omega) (by
        intro hc2
        have := congrArg List.length hc2
        simp at this
        omega)]
      simp only [List.length_replicate]
      rw [if_neg (by omega)]
      exact ih _ _ _ (by simp; omega) (by omega)
    · exact ⟨_, _, rfl⟩

/-- C47: zero filling of any size succeeds when the system accepts whole pages. -/
theorem C47_fill_zero_ends (f : File) (count off : Nat) :
    ∃ f' os', flckFillZero f count off count 0 (List.replicate count (.ok 4096)) = some (true, f', os') :=
  fill_ends count off count 0 f count (by omega) (by omega)

/-! ### C47: reading -/

theorem pread_inv (f : File) (count off : Nat) : ∀ (os : List Sys) (rc : Nat) (acc : List UInt8)
    (r : Int) (buf : List UInt8), rc ≤ count → rc ≤ f.size - off → acc = contents f off rc →
    flckPread f count off acc rc os = some (r, buf) →
    (r = (contents f off count).length ∧ buf = contents f off count) ∨
    (r = -1 ∧ Sys.err ∈ os ∧ ∃ j, j < count ∧ buf = contents f off j) := by
  have hcont : ∀ a n, a + n ≤ f.size - off → contents f off (a + n) =
      contents f off a ++ (List.range n).map fun i => f.data (off + a + i) := by
    intro a n h
    unfold contents
    rw [Nat.min_eq_left h, Nat.min_eq_left (by omega), List.range_add, List.map_append, List.map_map]
    simp [Function.comp_def, Nat.add_assoc]
  have hlen : ∀ a, (contents f off a).length = min a (f.size - off) := by intro a; simp [contents]
  have hstop : ∀ rc, rc ≤ f.size - off → min count (f.size - off) ≤ rc → rc ≤ count →
      contents f off rc = contents f off count := by
    intro rc h1 h2 h3
    unfold contents
    congr 2
    omega
  intro os
  induction os with
  | nil =>
    intro rc acc r buf h1 h2 hacc h
    unfold flckPread at h
    split at h
    · simp at h
    · simp only [Option.some.injEq, Prod.mk.injEq] at h
      obtain ⟨rfl, rfl⟩ := h
      left
      have := hstop rc h2 (by omega) h1
      rw [hacc, this, hlen]
      exact ⟨by omega, rfl⟩
  | cons o os ih =>
    intro rc acc r buf h1 h2 hacc h
    unfold flckPread at h
    split at h
    · rename_i hlt
      cases o with
      | err =>
        simp only [Option.some.injEq, Prod.mk.injEq] at h
        obtain ⟨rfl, rfl⟩ := h
        right
        exact ⟨rfl, by simp, rc, hlt, hacc⟩
      | ok k =>
        simp only at h
        split at h
        · rename_i hn
          simp only [Option.some.injEq, Prod.mk.injEq] at h
          obtain ⟨rfl, rfl⟩ := h
          left
          have := hstop rc h2 (by omega) h1
          rw [hacc, this, hlen]
          exact ⟨by omega, rfl⟩
        · have := ih _ _ r buf (by omega) (by omega) (by rw [hacc, hcont _ _ (by omega)]) h
          rcases this with h | ⟨h1, h2, h3⟩
          · left; exact h
          · right; exact ⟨h1, by simp [h2], h3⟩
    · simp only [Option.some.injEq, Prod.mk.injEq] at h
      obtain ⟨rfl, rfl⟩ := h
      left
      have := hstop rc h2 (by omega) h1
      rw [hacc, this, hlen]
      exact ⟨by omega, rfl⟩

/-- C47, reading at a position: whatever sizes the system delivers at a time, the call returns the
bytes of the interval (as far as the file goes) in order and their number, or -1 and only after an
error of the system. -/
theorem C47_pread (f : File) (count off : Nat) (os : List Sys) (r : Int) (buf : List UInt8)
    (h : flckPread f count off [] 0 os = some (r, buf)) :
    (r = (contents f off count).length ∧ buf = contents f off count) ∨
    (r = -1 ∧ Sys.err ∈ os ∧ ∃ j, j < count ∧ buf = contents f off j) :=
  pread_inv f count off os 0 [] r buf (by omega) (by omega) (by simp [contents]) h

/-- C47: reading ends after at most one transfer per byte. -/
theorem C47_pread_ends (f : File) (count off : Nat) (os : List Sys) (h : count ≤ os.length) :
    ∃ r, flckPread f count off [] 0 os = some r := by
  have key : ∀ (os : List Sys) (rc : Nat) (acc : List UInt8), count ≤ rc + os.length →
      ∃ r, flckPread f count off acc rc os = some r := by
    intro os
    induction os with
    | nil =>
      intro rc acc h
      unfold flckPread
      rw [if_neg (by simp at h; omega)]
      exact ⟨_, rfl⟩
    | cons o os ih =>
      intro rc acc h
      unfold flckPread
      split
      · cases o with
        | err => exact ⟨_, rfl⟩
        | ok k =>
          simp only
          split
          · exact ⟨_, rfl⟩
          · exact ih _ _ (by simp only [List.length_cons] at h; omega)
      · exact ⟨_, rfl⟩
  exact key os 0 [] (by omega)

example : flckPread { size := 4, data := fun i => UInt8.ofNat (10 + i) } 100 1 [] 0 [.ok 0, .ok 7, .ok 3] =
    some (3, [11, 12, 13]) := by decide +kernel

/-! ### C47: reading until nothing is left -/

/-- Reads deliver at most a page. -/
def paged (os : List Rd) : Prop := ∀ bs, Rd.data bs ∈ os → bs.length ≤ 4096

/-- The outcomes that the call uses: up to the first one that ends it. -/
def used : List Rd → List Rd
  | [] => []
  | .data bs :: os => if bs.length < 4096 then [.data bs] else .data bs :: used os
  | .eintr :: os => .eintr :: used os
  | o :: _ => [o]

theorem read_inv (P : Nat) (hP : P = 4096) : ∀ (os : List Rd) (got : List UInt8) (r : RdRes), paged os →
    flckReadLoop got.length (got.map some ++ List.replicate P none) os = some r →
    (r = .fail ∧ (used os).getLast? = some .err) ∨
    (r = .ok ((got ++ delivered (used os)).map some ++ List.replicate P none) ∧
      (used os).getLast? = some .eagain) ∨
    (r = .ok ((got ++ delivered (used os)).map some) ∧ ∃ bs, (used os).getLast? = some (.data bs)) := by
  have hpg : pageSize = P := hP.symm
  intro os
  induction os with
  | nil => intro got r _ h; simp [flckReadLoop] at h
  | cons o os ih =>
    intro got r hp h
    have hp' : paged os := fun bs hb => hp bs (by simp [hb])
    have hlast : ∀ (o : Rd) (l : List Rd) x, l.getLast? = some x → (o :: l).getLast? = some x := by
      intro o l x hx
      cases l with
      | nil => simp at hx
      | cons a l => rw [List.getLast?_cons_cons]; exact hx
    cases o with
    | eagain =>
      simp only [flckReadLoop, Option.some.injEq] at h
      right; left
      subst h
      exact ⟨by simp [used, delivered], by simp [used]⟩
    | err =>
      simp only [flckReadLoop, Option.some.injEq] at h
      left
      exact ⟨h.symm, by simp [used]⟩
    | eintr =>
      simp only [flckReadLoop] at h
      rcases ih got r hp' h with ⟨h1, h2⟩ | ⟨h1, h2⟩ | ⟨h1, bs, h2⟩
      · left; exact ⟨h1, hlast _ _ _ h2⟩
      · right; left; exact ⟨h1, hlast _ _ _ h2⟩
      · right; right; exact ⟨h1, bs, hlast _ _ _ h2⟩
    | data bs =>
      have hb := hp bs (by simp)
      simp only [flckReadLoop, hpg] at h
      rw [if_neg (by simp; omega)] at h
      have hbuf : List.take got.length (got.map some ++ List.replicate P (none : Option UInt8)) ++ bs.map some ++
          List.drop (got.length + bs.length) (got.map some ++ List.replicate P none) =
          (got ++ bs).map some ++ List.replicate (P - bs.length) none := by
        rw [List.take_append_of_le_length (by simp), List.take_of_length_le (by simp)]
        rw [List.drop_append, List.drop_eq_nil_of_le (by simp)]
        simp
      rw [hbuf] at h
      split at h
      · rename_i hlt
        simp only [Option.some.injEq] at h
        right; right
        have hu : used (.data bs :: os) = [.data bs] := by simp [used, ← hP, hlt]
        rw [hu]
        refine ⟨?_, bs, rfl⟩
        rw [← h, List.take_append_of_le_length (by simp), List.take_of_length_le (by simp)]
        simp [delivered]
      · rename_i hge
        have h4 : bs.length = 4096 := by omega
        have hbl : (got.map some ++ List.replicate P (none : Option UInt8)).length = got.length + P := by simp
        rw [hbl] at h
        rw [if_pos (by omega)] at h
        have e1 : got.length + bs.length + P - (got.length + P) = P := by omega
        have e2 : P - bs.length = 0 := by omega
        have e3 : got.length + bs.length = (got ++ bs).length := by simp
        rw [e1, e2, e3] at h
        simp only [List.replicate_zero, List.append_nil] at h
        have hu : used (.data bs :: os) = .data bs :: used os := by simp [used, ← hP, hge]
        rw [hu]
        have hdl : got ++ delivered (Rd.data bs :: used os) = (got ++ bs) ++ delivered (used os) := by
          simp [delivered]
        rw [hdl]
        rcases ih (got ++ bs) r hp' h with ⟨h1, h2⟩ | ⟨h1, h2⟩ | ⟨h1, bs', h2⟩
        · left; exact ⟨h1, hlast _ _ _ h2⟩
        · right; left; exact ⟨h1, hlast _ _ _ h2⟩
        · right; right; exact ⟨h1, bs', hlast _ _ _ h2⟩

/-- C47, full, for reading until nothing is left: the buffer returned is exactly what was delivered. -/
def C47_full : Prop :=
  ∀ os buf, paged os → flckRead os = some (.ok buf) → buf = (delivered (used os)).map some

/-- It fails when the source has no more data after a whole page (or none at all): the size returned
includes a page of bytes that were never written. -/
theorem C47_not_full : ¬ C47_full := by
  intro h
  have := h [.eagain] (List.replicate 4096 none) (by simp [paged]) rfl
  have := congrArg List.length this
  rw [List.length_replicate] at this
  simp [delivered, used] at this

/-- C47, partial: the buffer is never overrun; on a short read it is exactly what was delivered, in
order; an error gives failure.  Missing: when the system says "no more data for now" the buffer has
4096 indeterminate bytes after the data. -/
theorem C47_read_partial (os : List Rd) (r : RdRes) (hp : paged os) (h : flckRead os = some r) :
    (r = .fail ∧ (used os).getLast? = some .err) ∨
    (r = .ok ((delivered (used os)).map some) ∧ ∃ bs, (used os).getLast? = some (.data bs)) ∨
    (r = .ok ((delivered (used os)).map some ++ List.replicate 4096 none) ∧
      (used os).getLast? = some .eagain) := by
  have := read_inv 4096 rfl os [] r hp h
  simp only [List.nil_append] at this
  rcases this with h | h | h
  · left; exact h
  · right; right; exact h
  · right; left; exact h

example : flckRead [.eintr, .data [1, 2], .err] = some (.ok [some 1, some 2]) := by decide +kernel

/-! ### C60: file events -/

theorem le32_val (x : Nat) (h : x < 4294967296) (a : UInt8) : ∀ buf : List (Option UInt8), ∀ p,
    buf[p]? = some (some (UInt8.ofNat x)) → buf[p + 1]? = some (some (UInt8.ofNat (x / 256))) →
    buf[p + 2]? = some (some (UInt8.ofNat (x / 65536))) →
    buf[p + 3]? = some (some (UInt8.ofNat (x / 16777216))) → word32 buf p = some x := by
  intro buf p h0 h1 h2 h3
  unfold word32
  rw [h0, h1, h2, h3]
  simp only [UInt8.toNat_ofNat', Option.some.injEq]
  omega

theorem word_at (pre post : List (Option UInt8)) (x : Nat) (h : x < 4294967296) (p : Nat) (hp : p = pre.length) :
    word32 (pre ++ ((le32 x).map some ++ post)) p = some x := by
  subst hp
  refine le32_val x h 0 _ _ ?_ ?_ ?_ ?_
  · rw [List.getElem?_append_right (by omega)]; simp [le32]
  · rw [List.getElem?_append_right (by omega)]; simp [le32]
  · rw [List.getElem?_append_right (by omega)]; simp [le32]
  · rw [List.getElem?_append_right (by omega)]; simp [le32]

theorem mask_iff (m : Nat) : (m &&& inClose ≠ 0 ∨ m &&& inCloseNowrite ≠ 0 ∨ m &&& inCloseWrite ≠ 0) ↔
    (m.testBit 3 = true ∨ m.testBit 4 = true) := by
  have h8 : m &&& inCloseWrite ≠ 0 ↔ m.testBit 3 = true := by
    have : inCloseWrite = 2 ^ 3 := rfl
    rw [this, Nat.and_two_pow]
    cases m.testBit 3 <;> simp
  have h16 : m &&& inCloseNowrite ≠ 0 ↔ m.testBit 4 = true := by
    have : inCloseNowrite = 2 ^ 4 := rfl
    rw [this, Nat.and_two_pow]
    cases m.testBit 4 <;> simp
  have h24 : m &&& inClose ≠ 0 ↔ (m &&& inCloseWrite ≠ 0 ∨ m &&& inCloseNowrite ≠ 0) := by
    unfold inClose
    rw [Nat.and_or_distrib_left]
    rw [← Decidable.not_iff_not]
    push Not
    rw [Nat.or_eq_zero_iff]
  rw [h24, h8, h16]
  constructor
  · rintro ((h | h) | h | h) <;> simp [h]
  · intro h; exact Or.inl h

theorem check_events (watch : Nat) : ∀ (es : List Event) (pre : List (Option UInt8)) (fuel : Nat) (ret : Bool),
    (∀ e ∈ es, e.name.length < 4294967296) → es.length < fuel →
    checkLoop watch (pre ++ (es.flatMap Event.bytes).map some) fuel pre.length ret =
      some (ret || decide (∃ e ∈ es, (e.wd.toNat = watch ∧ (e.mask.toNat.testBit 3 = true ∨ e.mask.toNat.testBit 4 = true)))) := by
  intro es
  induction es with
  | nil =>
    intro pre fuel ret _ hf
    obtain ⟨fuel, rfl⟩ : ∃ k, fuel = k + 1 := ⟨fuel - 1, by simp at hf; omega⟩
    unfold checkLoop
    rw [if_neg (by simp)]
    simp
  | cons e es ih =>
    intro pre fuel ret hn hf
    obtain ⟨fuel, rfl⟩ : ∃ k, fuel = k + 1 := ⟨fuel - 1, by simp at hf; omega⟩
    have hnl := hn e (by simp)
    have hbytes : pre ++ ((e :: es).flatMap Event.bytes).map some =
        pre ++ ((le32 e.wd.toNat).map some ++ ((le32 e.mask.toNat).map some ++ ((le32 e.cookie.toNat).map some ++
          ((le32 e.name.length).map some ++ (e.name.map some ++ (es.flatMap Event.bytes).map some))))) := by
      simp [Event.bytes, List.flatMap_cons]
    have hlen : ∀ x, ((le32 x).map some : List (Option UInt8)).length = 4 := by intro x; rfl
    have w1 : word32 (pre ++ ((e :: es).flatMap Event.bytes).map some) pre.length = some e.wd.toNat := by
      rw [hbytes]; exact word_at _ _ _ e.wd.toNat_lt _ rfl
    have w2 : word32 (pre ++ ((e :: es).flatMap Event.bytes).map some) (pre.length + 4) = some e.mask.toNat := by
      rw [hbytes, ← List.append_assoc]; exact word_at _ _ _ e.mask.toNat_lt _ (by simp [hlen])
    have w3 : word32 (pre ++ ((e :: es).flatMap Event.bytes).map some) (pre.length + 12) = some e.name.length := by
      rw [hbytes, ← List.append_assoc, ← List.append_assoc, ← List.append_assoc]
      exact word_at _ _ _ hnl _ (by simp [hlen])
    have hnext : checkLoop watch (pre ++ ((e :: es).flatMap Event.bytes).map some) fuel
        (pre.length + 16 + e.name.length) = fun ret => some (ret || decide (∃ e ∈ es, (e.wd.toNat = watch ∧
          (e.mask.toNat.testBit 3 = true ∨ e.mask.toNat.testBit 4 = true)))) := by
      funext ret
      have := ih (pre ++ e.bytes.map some) fuel ret (fun x hx => hn x (by simp [hx])) (by simp at hf; omega)
      have hl : (pre ++ e.bytes.map some).length = pre.length + 16 + e.name.length := by
        simp [Event.bytes, le32]; omega
      rw [hl] at this
      rw [← this]
      simp [List.flatMap_cons]
    unfold checkLoop
    rw [if_pos (by rw [hbytes]; simp [hlen]; omega), w1, w2, w3]
    simp only
    rw [hnext]
    by_cases hw : watch = e.wd.toNat
    · rw [if_neg (by simpa using hw)]
      by_cases hm : e.mask.toNat.testBit 3 = true ∨ e.mask.toNat.testBit 4 = true
      · rw [if_pos ((mask_iff _).2 hm)]
        have : ∃ x ∈ e :: es, (x.wd.toNat = watch ∧ (x.mask.toNat.testBit 3 = true ∨ x.mask.toNat.testBit 4 = true)) :=
          ⟨e, by simp, hw.symm, hm⟩
        simp only [this, decide_true, Bool.or_true, Bool.true_or]
      · rw [if_neg (fun h => hm ((mask_iff _).1 h))]
        have : (∃ x ∈ e :: es, (x.wd.toNat = watch ∧ (x.mask.toNat.testBit 3 = true ∨ x.mask.toNat.testBit 4 = true))) ↔
            (∃ x ∈ es, (x.wd.toNat = watch ∧ (x.mask.toNat.testBit 3 = true ∨ x.mask.toNat.testBit 4 = true))) := by
          simp only [List.mem_cons, exists_eq_or_imp, hm, and_false, false_or]
        simp only [this]
    · rw [if_pos hw]
      have : (∃ x ∈ e :: es, (x.wd.toNat = watch ∧ (x.mask.toNat.testBit 3 = true ∨ x.mask.toNat.testBit 4 = true))) ↔
          (∃ x ∈ es, (x.wd.toNat = watch ∧ (x.mask.toNat.testBit 3 = true ∨ x.mask.toNat.testBit 4 = true))) := by
        simp only [List.mem_cons, exists_eq_or_imp, Ne.symm hw, false_and, false_or]
      simp only [this]

/-- The reads delivered the encodings of these events. -/
def Delivers (os : List Rd) (es : List Event) : Prop :=
  paged os ∧ delivered (used os) = es.flatMap Event.bytes ∧ ∀ e ∈ es, e.name.length < 4294967296

/-- C60, full: the answer is "closed" exactly when one of the delivered events closes the file. -/
def C60_full : Prop :=
  ∀ watch os es r, Delivers os es → (used os).getLast? ≠ some .err → checkEvent watch os = some r →
    ∃ b, r = .ans b ∧ (b = true ↔ ∃ e ∈ es, e.closes watch)

/-- It fails: when exactly a number of whole pages of events (or none) is there, indeterminate bytes
are interpreted as an event. -/
theorem C60_not_full : ¬ C60_full := by
  intro h
  obtain ⟨b, hb, -⟩ := h 1 [.eagain] [] .ub ⟨by simp [paged], rfl, by simp⟩ (by decide) (by decide +kernel)
  simp at hb

/-- C60, partial: when the reading ends with a short read the answer is right. -/
theorem C60_partial (watch : Nat) (os : List Rd) (es : List Event) (r : EvRes) (hd : Delivers os es)
    (hl : ∃ bs, (used os).getLast? = some (.data bs)) (h : checkEvent watch os = some r) :
    ∃ b, r = .ans b ∧ (b = true ↔ ∃ e ∈ es, e.closes watch) := by
  obtain ⟨bs, hbs⟩ := hl
  unfold checkEvent at h
  cases hr : flckRead os with
  | none => rw [hr] at h; simp at h
  | some r' =>
    rw [hr] at h
    rcases C47_read_partial os r' hd.1 hr with ⟨-, h2⟩ | ⟨h1, -⟩ | ⟨-, h2⟩
    · rw [hbs] at h2; simp at h2
    · subst h1
      simp only at h
      rw [hd.2.1] at h
      have hfuel : es.length < ((es.flatMap Event.bytes).map (some : UInt8 → Option UInt8)).length / 16 + 1 := by
        have : 16 * es.length ≤ (es.flatMap Event.bytes).length := by
          clear h hr hbs hd
          induction es with
          | nil => simp
          | cons e es ih =>
            rw [List.flatMap_cons, List.length_append]
            have : 16 ≤ e.bytes.length := by simp [Event.bytes, le32]
            simp only [List.length_cons]
            omega
        rw [List.length_map]
        omega
      have := check_events watch es [] _ false hd.2.2 hfuel
      simp only [List.nil_append, List.length_nil, Bool.false_or] at this
      rw [this] at h
      simp only [Option.some.injEq] at h
      exact ⟨_, h.symm, by simp [Event.closes]⟩
    · rw [hbs] at h2; simp at h2

/-- Two events, the second of which closes the watched file. -/
example : checkEvent 1 [.data ((Event.bytes ⟨2, 8, 0, [1, 2, 3]⟩) ++ (Event.bytes ⟨1, 16, 0, []⟩))] =
    some (.ans true) := by decide +kernel
example : checkEvent 1 [.data ((Event.bytes ⟨2, 8, 0, [1, 2, 3]⟩) ++ (Event.bytes ⟨1, 32, 0, []⟩))] =
    some (.ans false) := by decide +kernel

/-- C60: a failing read is no event. -/
theorem C60_fail (watch : Nat) (os : List Rd) (hp : paged os) (hl : (used os).getLast? = some .err)
    (r : EvRes) (h : checkEvent watch os = some r) : r = .ans false := by
  unfold checkEvent at h
  cases hr : flckRead os with
  | none => rw [hr] at h; simp at h
  | some r' =>
    rw [hr] at h
    rcases C47_read_partial os r' hp hr with ⟨h1, -⟩ | ⟨-, bs, h2⟩ | ⟨-, h2⟩
    · subst h1; simpa using h.symm
    · rw [hl] at h2; simp at h2
    · rw [hl] at h2; simp at h2

end Fullock.Props
