import Verif.Proofs.ListMem
/-! C37, C38, C39: the shared lists. -/
namespace Fullock.Props
open Fullock.ListMem

theorem take_ge {α} {l : List α} {k : Nat} (h : l.length ≤ k) : l.take k = l := by
  exact List.take_of_length_le h

/-- One call, complete or cut short: the loop ends, and memory holds the sequences of the spec. -/
theorem exec_ok {fuel : Nat} {m : Mem} {H : List Nat} {L : Nat → List Nat} (hw : WF m H L)
    (c : Call) (ha : Allowed H L c.op) (hf : ∀ h ∈ H, (L h).length < fuel) :
    ∃ m', exec fuel m c = some m' ∧ WF m' H (absCall L c) := by
  obtain ⟨b, op, k⟩ := c
  rcases k with _ | _ | k
  · -- no write done
    suffices ∃ ws, writes b fuel m op = some ws by
      obtain ⟨ws, hws⟩ := this
      exact ⟨m, by simp [exec, hws, applyWrites], by simpa [absCall] using hw⟩
    cases op with
    | insert r h => exact ⟨_, rfl⟩
    | retrieve h => exact ⟨_, rfl⟩
    | cutoff r h =>
      by_cases hm : r ∈ L h
      · obtain ⟨q, ws, h1, _⟩ := cutoff_ok hw b ha.1 hm (hf h ha.1)
        exact ⟨ws, by simp [writes, h1]⟩
      · exact ⟨[], by simp [writes, cutoff_absent hw b ha.1 ha.2 hm (hf h ha.1)]⟩
  · cases op with
    | insert r h =>
      obtain ⟨ws, h1, _, h2, _⟩ := insert_ok hw b ha.2 ha.1
      exact ⟨_, by simp [exec, writes, h1]; rfl, by simpa [absCall] using h2⟩
    | retrieve h =>
      cases hl : L h with
      | nil =>
        refine ⟨m, by simp [exec, writes, retrieve_empty hw b ha hl, applyWrites], ?_⟩
        have : upd L h [] = L := by rw [← hl]; exact upd_same L h
        simpa [absCall, absOp, hl, this] using hw
      | cons r rs =>
        obtain ⟨ws, h1, _, h2, _⟩ := retrieve_ok hw b ha hl
        exact ⟨_, by simp [exec, writes, h1]; rfl, by simpa [absCall, absOp, hl] using h2⟩
    | cutoff r h =>
      by_cases hm : r ∈ L h
      · obtain ⟨q, ws, h1, _, _, h2, _⟩ := cutoff_ok hw b ha.1 hm (hf h ha.1)
        exact ⟨_, by simp [exec, writes, h1]; rfl, by simpa [absCall, absOp] using h2⟩
      · refine ⟨m, by simp [exec, writes, cutoff_absent hw b ha.1 ha.2 hm (hf h ha.1), applyWrites], ?_⟩
        have : upd L h (L h) = L := upd_same L h
        simpa [absCall, absOp, List.erase_of_not_mem hm, this] using hw
  · cases op with
    | insert r h =>
      obtain ⟨ws, h1, he, _, h2⟩ := insert_ok hw b ha.2 ha.1
      refine ⟨_, by simp [exec, writes, h1]; rfl, ?_⟩
      rw [take_ge (by simp [he])]
      simpa [absCall, absOp] using h2
    | retrieve h =>
      cases hl : L h with
      | nil =>
        refine ⟨m, by simp [exec, writes, retrieve_empty hw b ha hl, applyWrites], ?_⟩
        have : upd L h [] = L := by rw [← hl]; exact upd_same L h
        simpa [absCall, absOp, hl, this] using hw
      | cons r rs =>
        obtain ⟨ws, h1, he, _, h2, _⟩ := retrieve_ok hw b ha hl
        refine ⟨_, by simp [exec, writes, h1]; rfl, ?_⟩
        rw [take_ge (by simp [he])]
        simpa [absCall, absOp, hl] using h2
    | cutoff r h =>
      by_cases hm : r ∈ L h
      · obtain ⟨q, ws, h1, he, _, _, h2, _⟩ := cutoff_ok hw b ha.1 hm (hf h ha.1)
        refine ⟨_, by simp [exec, writes, h1]; rfl, ?_⟩
        rw [take_ge (by simp [he])]
        simpa [absCall, absOp] using h2
      · refine ⟨m, by simp [exec, writes, cutoff_absent hw b ha.1 ha.2 hm (hf h ha.1), applyWrites], ?_⟩
        have : upd L h (L h) = L := upd_same L h
        simpa [absCall, absOp, List.erase_of_not_mem hm, this] using hw

theorem absCall_length (L : Nat → List Nat) (c : Call) (x : Nat) :
    (absCall L c x).length ≤ (L x).length + 1 := by
  have hop : ∀ o : Op, (absOp L o x).length ≤ (L x).length + 1 := by
    intro o
    cases o with
    | insert r h => simp only [absOp, upd]; split <;> simp_all
    | retrieve h =>
      simp only [absOp, upd]; split
      · rename_i e; subst e; simp; omega
      · omega
    | cutoff r h =>
      simp only [absOp, upd]; split
      · rename_i e; subst e
        have := List.length_erase_le (a := r) (l := L x)
        omega
      · omega
  unfold absCall
  split
  · omega
  · split
    · cases hc : c.op with
      | insert r h => simp
      | retrieve h => simpa using hop (.retrieve h)
      | cutoff r h => simpa using hop (.cutoff r h)
    · exact hop c.op

/-- C37, C38 (history form).  Start with any memory in which the heads `H` hold sequences, and let
any processes, each mapping the segment anywhere, do any list operations in any order, any of them
dying after any of its writes.  No loop runs for ever (a number of rounds bounded by list lengths
and history suffices), and afterwards every head holds exactly the sequence computed by the
specification: every list is finite, ends, and no record is in two places. -/
theorem C37_C38_lists_are_sequences {m : Mem} {H : List Nat} {L : Nat → List Nat} (hw : WF m H L)
    (cs : List Call) (ha : AllowedAll H L cs) {fuel : Nat}
    (hf : ∀ h ∈ H, (L h).length + cs.length < fuel) :
    ∃ m', execAll fuel m cs = some m' ∧ WF m' H (absAll L cs) := by
  induction cs generalizing m L with
  | nil => exact ⟨m, rfl, hw⟩
  | cons c cs ih =>
    obtain ⟨m1, h1, hw1⟩ := exec_ok (fuel := fuel) hw c ha.1
      (fun h hh => by have := hf h hh; simp at this; omega)
    obtain ⟨m2, h2, hw2⟩ := ih hw1 ha.2 (fun h hh => by
      have := hf h hh
      have := absCall_length L c h
      simp at *; omega)
    exact ⟨m2, by simp [execAll, h1, h2], hw2⟩

theorem filter_erase_self (r : Nat) (l : List Nat) :
    (l.erase r).filter (fun y => decide (some r ≠ some y)) =
      l.filter (fun y => decide (some r ≠ some y)) := by
  induction l with
  | nil => rfl
  | cons a t ih =>
    by_cases h : a = r
    · subst h; simp
    · rw [List.erase_cons_tail (by simpa using h)]
      simp only [List.filter_cons, ih]

/-- C38: a caller dying anywhere in an operation leaves, in every list, every record other than the
one being moved, in the same order. -/
theorem C38_crash_loses_at_most_moved (L : Nat → List Nat) (c : Call) (x : Nat) :
    (absCall L c x).filter (fun y => decide (moved L c.op ≠ some y)) =
      (L x).filter (fun y => decide (moved L c.op ≠ some y)) := by
  have hop : ∀ o : Op, (absOp L o x).filter (fun y => decide (moved L o ≠ some y)) =
      (L x).filter (fun y => decide (moved L o ≠ some y)) := by
    intro o
    cases o with
    | insert r h =>
      simp only [absOp]; unfold upd
      split
      · rename_i e; subst e; simp [moved]
      · rfl
    | retrieve h =>
      simp only [absOp]; unfold upd
      split
      · rename_i e; subst e
        cases hl : L x with
        | nil => rfl
        | cons a t => simp [moved, hl]
      · rfl
    | cutoff r h =>
      simp only [absOp]; unfold upd
      split
      · rename_i e; subst e; exact filter_erase_self r (L x)
      · rfl
  obtain ⟨b, op, k⟩ := c
  unfold absCall
  split
  · rfl
  · split
    · cases op with
      | insert r h => rfl
      | retrieve h => exact hop _
      | cutoff r h => exact hop _
    · exact hop _

/-- C37: what the calls return.  Taking from an empty list fails and writes nothing; from a
non-empty list it returns the first record, which is then in no list. -/
theorem C37_retrieve_result {m : Mem} {H : List Nat} {L : Nat → List Nat} (hw : WF m H L)
    (b : Nat) {h : Nat} (hh : h ∈ H) :
    (L h = [] → retrieveW b m h = none) ∧
    (∀ r rs, L h = r :: rs → ∃ ws, retrieveW b m h = some (toAbs b r, ws) ∧
      WF (applyWrites m ws) H (upd L h rs) ∧ Loose H (upd L h rs) r ∧
      applyWrites m ws r = 0) := by
  refine ⟨retrieve_empty hw b hh, ?_⟩
  intro r rs hl
  obtain ⟨ws, h1, he, _, h2, h3⟩ := retrieve_ok hw b hh hl
  refine ⟨ws, h1, h2, h3, ?_⟩
  subst he
  simp [applyWrites, Mem.set]

/-- C37: unlinking succeeds exactly on members and then removes exactly that record. -/
theorem C37_cutoff_result {m : Mem} {H : List Nat} {L : Nat → List Nat} (hw : WF m H L)
    (b : Nat) {h r fuel : Nat} (hh : h ∈ H) (hr0 : r ≠ 0) (hf : (L h).length < fuel) :
    (r ∉ L h → cutoffW b m fuel (toAbs b r) h = some none) ∧
    (r ∈ L h → ∃ ws, cutoffW b m fuel (toAbs b r) h = some (some ws) ∧
      WF (applyWrites m ws) H (upd L h ((L h).erase r)) ∧
      Loose H (upd L h ((L h).erase r)) r) := by
  refine ⟨fun h1 => cutoff_absent hw b hh hr0 h1 hf, fun h1 => ?_⟩
  obtain ⟨q, ws, h2, _, _, _, h3, h4⟩ := cutoff_ok hw b hh h1 hf
  exact ⟨ws, h2, h3, h4⟩

/-- C37: only the cells of the moved record and of the place it is (un)linked at are written: no
other record or head changes. -/
theorem C37_frame {m : Mem} {H : List Nat} {L : Nat → List Nat} (hw : WF m H L)
    (b fuel : Nat) (op : Op) (ha : Allowed H L op) (hf : ∀ h ∈ H, (L h).length < fuel) :
    ∃ ws, writes b fuel m op = some ws ∧ ∀ x, applyWrites m ws x ≠ m x →
      match op with
      | .insert r h => x = r ∨ x = h
      | .retrieve h => x = h ∨ some x = (L h).head?
      | .cutoff r h => x = h ∨ x ∈ L h := by
  cases op with
  | insert r h =>
    obtain ⟨ws, h1, he, _⟩ := insert_ok hw b ha.2 ha.1
    refine ⟨ws, by simp [writes, h1], ?_⟩
    intro x hx
    subst he
    simp only [applyWrites, Mem.set] at hx
    by_cases h1 : x = h
    · exact Or.inr h1
    · by_cases h2 : x = r
      · exact Or.inl h2
      · simp [h1, h2] at hx
  | retrieve h =>
    cases hl : L h with
    | nil => exact ⟨[], by simp [writes, retrieve_empty hw b ha hl], by simp [applyWrites]⟩
    | cons r rs =>
      obtain ⟨ws, h1, he, _⟩ := retrieve_ok hw b ha hl
      refine ⟨ws, by simp [writes, h1], ?_⟩
      intro x hx
      subst he
      simp only [applyWrites, Mem.set] at hx
      by_cases h1 : x = h
      · exact Or.inl h1
      · by_cases h2 : x = r
        · right; rw [hl]; simp [h2]
        · simp [h1, h2] at hx
  | cutoff r h =>
    by_cases hm : r ∈ L h
    · obtain ⟨q, ws, h1, he, hq, _⟩ := cutoff_ok hw b ha.1 hm (hf h ha.1)
      refine ⟨ws, by simp [writes, h1], ?_⟩
      intro x hx
      subst he
      simp only [applyWrites, Mem.set] at hx
      by_cases h2 : x = q
      · subst h2; exact hq
      · by_cases h3 : x = r
        · subst h3; exact Or.inr hm
        · simp [h2, h3] at hx
    · exact ⟨[], by simp [writes, cutoff_absent hw b ha.1 ha.2 hm (hf h ha.1)], by simp [applyWrites]⟩

/-- C37: `find` returns the first matching record, `rfind` the last one, and both report absence
exactly when nothing matches.  `eq` is the comparison, by offset. -/
theorem C37_find {m : Mem} {H : List Nat} {L : Nat → List Nat} (hw : WF m H L) (b : Nat)
    {h fuel : Nat} (hh : h ∈ H) (hf : (L h).length < fuel) (eq : Nat → Bool) :
    find b m (fun p => eq (toRel b p)) fuel h = some (((L h).find? eq).map (toAbs b)) ∧
    rfind b m (fun p => eq (toRel b p)) fuel h = some (((L h).reverse.find? eq).map (toAbs b)) := by
  have hc := hw.chain h hh
  constructor
  · unfold find
    rw [findLoop_eq b m _ (L h) fuel (m h) hf hc]
    simp only [toRel_toAbs]
  · unfold rfind
    rw [rfindLoop_eq b m _ (L h) fuel (m h) none hf hc]
    simp only [toRel_toAbs, Option.or_none]

/-- C37: a fresh area of `count` records becomes the list of exactly those records in order, and
nothing outside the area is written. -/
theorem C37_initialize (b size r count : Nat) (m : Mem) (hr : r ≠ 0) (hs : 0 < size) :
    (count = 0 → initW b size (toAbs b r) count = none) ∧
    (0 < count → ∃ ws, initW b size (toAbs b r) count = some ws ∧
      ∃ rs : List Nat, Chain (applyWrites m ws) r rs ∧ rs.Nodup ∧ rs.length = count ∧
        (∀ x, x ∈ rs ↔ ∃ i, i < count ∧ x = r + i * size) ∧
        ∀ x, x ∉ rs → applyWrites m ws x = m x) := by
  constructor
  · intro h; simp [initW, h]
  · intro hc
    refine ⟨_, by rw [initW, if_neg (by rw [toAbs_eq_zero]; omega)], area r size count, ?_,
      area_nodup hs count r, area_length size count r, fun x => area_mem, ?_⟩
    · have := (initLoop_chain b size hs count r 0 m hr (by omega)).1 hc
      simpa [toAbs] using this
    · intro x hx
      have := initLoop_frame b size hs count r 0 m x hr hx (by simp)
      simpa [toAbs] using this

/-- C39: the effect of every list operation on shared memory is the same whatever address the
caller maps the segment at. -/
theorem C39_position_independent {m : Mem} {H : List Nat} {L : Nat → List Nat} (hw : WF m H L)
    (op : Op) (ha : Allowed H L op) {fuel : Nat} (hf : ∀ h ∈ H, (L h).length < fuel) (b b' : Nat) :
    writes b fuel m op = writes b' fuel m op := by
  cases op with
  | insert r h =>
    obtain ⟨ws, h1, he, _⟩ := insert_ok hw b ha.2 ha.1
    obtain ⟨ws', h1', he', _⟩ := insert_ok hw b' ha.2 ha.1
    simp [writes, h1, h1', he, he']
  | retrieve h =>
    cases hl : L h with
    | nil => simp [writes, retrieve_empty hw b ha hl, retrieve_empty hw b' ha hl]
    | cons r rs =>
      obtain ⟨ws, h1, he, _⟩ := retrieve_ok hw b ha hl
      obtain ⟨ws', h1', he', _⟩ := retrieve_ok hw b' ha hl
      simp [writes, h1, h1', he, he']
  | cutoff r h =>
    have hr0 : r ≠ 0 := ha.2
    have hc := hw.chain h ha.1
    simp only [writes, cutoffW, toAbs_eq_zero, cutLoop_eq b m r hr0 (L h) fuel h (hf h ha.1) hc,
      cutLoop_eq b' m r hr0 (L h) fuel h (hf h ha.1) hc, nextCell_toAbs hr0]

/-- C39: references found by one process name the same record in every other. -/
theorem C39_references_portable {m : Mem} {H : List Nat} {L : Nat → List Nat} (hw : WF m H L)
    {h fuel : Nat} (hh : h ∈ H) (hf : (L h).length < fuel) (eq : Nat → Bool) (b b' : Nat) :
    (find b m (fun p => eq (toRel b p)) fuel h).map (Option.map (toRel b)) =
      (find b' m (fun p => eq (toRel b' p)) fuel h).map (Option.map (toRel b')) ∧
    (rfind b m (fun p => eq (toRel b p)) fuel h).map (Option.map (toRel b)) =
      (rfind b' m (fun p => eq (toRel b' p)) fuel h).map (Option.map (toRel b')) ∧
    (retrieveW b m h).map (fun x => toRel b x.1) = (retrieveW b' m h).map (fun x => toRel b' x.1) := by
  refine ⟨?_, ?_, ?_⟩
  · rw [(C37_find hw b hh hf eq).1, (C37_find hw b' hh hf eq).1]
    simp [Function.comp_def, toRel_toAbs]
  · rw [(C37_find hw b hh hf eq).2, (C37_find hw b' hh hf eq).2]
    simp [Function.comp_def, toRel_toAbs]
  · cases hl : L h with
    | nil => simp [retrieve_empty hw b hh hl, retrieve_empty hw b' hh hl]
    | cons r rs =>
      obtain ⟨ws, h1, _⟩ := retrieve_ok hw b hh hl
      obtain ⟨ws', h1', _⟩ := retrieve_ok hw b' hh hl
      simp [h1, h1', toRel_toAbs]

/-! ### The hypotheses are met: heads at 8 and 16, records at 32, 48, 64; 32→48 in list 8, 64 in
list 16. -/

def exMem : Mem := fun c => if c = 8 then 32 else if c = 32 then 48 else if c = 16 then 64 else 0
def exL : Nat → List Nat := fun h => if h = 8 then [32, 48] else if h = 16 then [64] else []

theorem exWF : WF exMem [8, 16] exL := by
  constructor <;> simp [exL, exMem, Chain]

/-- Move record 32 from list 8 to list 16 by two processes with different mappings, then lose
record 48 in a crash of an unlinking process. -/
def exCalls : List Call :=
  [⟨1000, .retrieve 8, 2⟩, ⟨5000, .insert 32 16, 2⟩, ⟨7000, .cutoff 48 8, 1⟩]

example : AllowedAll [8, 16] exL exCalls := by
  simp [exCalls, AllowedAll, Allowed, Loose, absCall, absOp, upd, exL]

example : absAll exL exCalls 16 = [32, 64] ∧ absAll exL exCalls 8 = [] := by decide

example : (execAll 10 exMem exCalls).map (fun m => (m 8, m 16, m 32, m 64)) =
    some (0, 32, 64, 0) := by decide

example : find 1000 exMem (fun p => decide (toRel 1000 p = 48)) 5 8 = some (some 1048) := by decide

end Fullock.Props
