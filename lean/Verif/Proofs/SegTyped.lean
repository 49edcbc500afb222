import Verif.Spec.Segment
import Verif.Proofs.MCMemRun
import Verif.Proofs.FLMemStep
/-! Every reference in the segment is NULL or refers to a record of the kind its list is for, whatever
happened before; list operations write only to references of this kind. -/
namespace Fullock.Seg
open Fullock.ListMem Fullock.Layout
open Fullock.FLMem (adr idx adr_inj' idx_adr FLP)
open Fullock.Props (NoWrap)

/-! ### Kinds of cells -/

def MCP (k : Pool) : Prop := ¬ FLP k

theorem rec_ne {cnt : Pool → Nat} (hw : NoWrap cnt) {k : Pool} {r : Nat} (h : IsRec cnt k r) : r ≠ 0 := by
  obtain ⟨i, -, rfl⟩ := h
  obtain ⟨a1, a2, a3⟩ := FLMem.adr_eq cnt hw i
  obtain ⟨b1, b2, b3⟩ := MCMem.adr_eq cnt hw i
  cases k <;> omega

theorem kind_uniq {cnt : Pool → Nat} (hw : NoWrap cnt) {k k' : Pool} {a : Nat} (h : IsCell cnt k a)
    (h' : IsCell cnt k' a) : k = k' := by
  obtain ⟨e1, e2, e3, e4, e5, e6, e7⟩ := FLMem.cell_eq cnt hw
  obtain ⟨f1, f2, f3, f4, f5, f6⟩ := MCMem.cell_eq cnt hw
  have key : ∀ k a, IsCell cnt k a → (k = .file ∧ (a = 48 ∨ a = 88 ∨ ∃ i < cnt .file, a = 136 + i * 40)) ∨
      (k = .off ∧ (a = 96 ∨ (∃ i < cnt .file, a = 160 + i * 40) ∨ ∃ i < cnt .off, a = 136 + 40 * cnt .file + i * 56)) ∨
      (k = .locker ∧ (a = 104 ∨ (∃ i < cnt .off, a = 168 + 40 * cnt .file + i * 56) ∨
        (∃ i < cnt .off, a = 176 + 40 * cnt .file + i * 56) ∨
        ∃ i < cnt .locker, a = 136 + 40 * cnt .file + 56 * cnt .off + i * 24)) ∨
      (k = .nmtx ∧ (a = 64 ∨ a = 112 ∨
        ∃ i < cnt .nmtx, a = 136 + 40 * cnt .file + 56 * cnt .off + 24 * cnt .locker + i * 96)) ∨
      (k = .ncond ∧ (a = 80 ∨ a = 120 ∨
        ∃ i < cnt .ncond, a = 136 + 40 * cnt .file + 56 * cnt .off + 24 * cnt .locker + 96 * cnt .nmtx + i * 88)) ∨
      (k = .waiter ∧ (a = 128 ∨
        (∃ i < cnt .ncond, a = 144 + 40 * cnt .file + 56 * cnt .off + 24 * cnt .locker + 96 * cnt .nmtx + i * 88) ∨
        ∃ i < cnt .waiter, a = 136 + 40 * cnt .file + 56 * cnt .off + 24 * cnt .locker + 96 * cnt .nmtx +
          88 * cnt .ncond + i * 32)) := by
    rintro k a (⟨i, hi, rfl⟩ | ⟨h, hb, rfl, rfl⟩ | ⟨h, hb, rfl, rfl⟩)
    · obtain ⟨a1, a2, a3⟩ := FLMem.adr_eq cnt hw i
      obtain ⟨b1, b2, b3⟩ := MCMem.adr_eq cnt hw i
      cases k <;> simp only [a1, a2, a3, b1, b2, b3] <;> grind
    · cases h with
      | lks o md => cases md <;> simp only [e6, e7, FLMem.Head.pool, FLMem.HB] at * <;> grind
      | _ => simp only [e1, e2, e3, e4, e5, FLMem.Head.pool, FLMem.HB] at * <;> grind
    · cases h <;> simp only [f1, f2, f3, f4, f5, f6, MCMem.Head.pool, MCMem.HB] at * <;> grind
  have g := key _ _ h
  have g' := key _ _ h'
  clear key h h' e1 e2 e3 e4 e5 e6 e7 f1 f2 f3 f4 f5 f6
  rcases g with ⟨rfl, g⟩ | ⟨rfl, g⟩ | ⟨rfl, g⟩ | ⟨rfl, g⟩ | ⟨rfl, g⟩ | ⟨rfl, g⟩ <;>
  rcases g' with ⟨rfl, g'⟩ | ⟨rfl, g'⟩ | ⟨rfl, g'⟩ | ⟨rfl, g'⟩ | ⟨rfl, g'⟩ | ⟨rfl, g'⟩ <;>
  first
    | rfl
    | (exfalso; clear hw; casesm* _ ∨ _, ∃ _, _, _ ∧ _ <;> omega)

/-! ### References of the right kind -/

/-- Writes to references of kinds in `Q`, of the right kind. -/
def TW (cnt : Pool → Nat) (Q : Pool → Prop) (ws : List Write) : Prop :=
  ∀ w ∈ ws, ∃ k, Q k ∧ IsCell cnt k w.1 ∧ Ref cnt k w.2

theorem TW.take {cnt : Pool → Nat} {Q : Pool → Prop} {ws : List Write} (h : TW cnt Q ws) (j : Nat) :
    TW cnt Q (ws.take j) := fun w hw => h w (List.mem_of_mem_take hw)

theorem TW.append {cnt : Pool → Nat} {Q : Pool → Prop} {ws ws' : List Write} (h : TW cnt Q ws) (h' : TW cnt Q ws') :
    TW cnt Q (ws ++ ws') := fun w hw => (List.mem_append.1 hw).elim (h w) (h' w)

theorem TW.nil {cnt : Pool → Nat} {Q : Pool → Prop} : TW cnt Q [] := by simp [TW]

section
variable {cnt : Pool → Nat} (hw : NoWrap cnt)
include hw

theorem typed_writes {Q : Pool → Prop} : ∀ {ws : List Write} {m : Mem}, Typed cnt m → TW cnt Q ws →
    Typed cnt (applyWrites m ws) ∧ ∀ k a, ¬ Q k → IsCell cnt k a → applyWrites m ws a = m a
  | [], m, h, _ => ⟨h, fun _ _ _ _ => rfl⟩
  | w :: ws, m, h, ht => by
    obtain ⟨k, hk, h1, h2⟩ := ht w (by simp)
    have hm : Typed cnt (m.set w.1 w.2) := by
      intro k' a ha
      unfold Mem.set
      split
      · rename_i e
        subst e
        rw [← kind_uniq hw h1 ha]; exact h2
      · exact h k' a ha
    obtain ⟨g1, g2⟩ := typed_writes (Q := Q) hm (fun w2 hw2 => ht w2 (List.mem_cons_of_mem _ hw2))
    refine ⟨g1, fun k' a hk' ha => ?_⟩
    have := g2 k' a hk' ha
    simp only [applyWrites]
    rw [this]
    unfold Mem.set
    rw [if_neg]
    rintro rfl
    exact hk' (kind_uniq hw h1 ha ▸ hk)

theorem nextCell_abs {k : Pool} {r : Nat} (b : Nat) (h : IsRec cnt k r) : nextCell b (toAbs b r) = r := by
  have := rec_ne hw h
  simp [nextCell, toAbs, this]

theorem rel_abs {k : Pool} {r : Nat} (b : Nat) (h : IsRec cnt k r) : toRel b (toAbs b r) = r := by
  have := rec_ne hw h
  simp [toRel, toAbs, this]

theorem abs_eq_zero {k : Pool} {v : Nat} (b : Nat) (h : Ref cnt k v) (e : toAbs b v ≠ 0) :
    IsRec cnt k v := by
  rcases h with rfl | h
  · simp [toAbs] at e
  · exact h

variable {Q : Pool → Prop} {m : Mem}

theorem insert_tw {k : Pool} {r h : Nat} (b : Nat) (hm : Typed cnt m) (hk : Q k) (hr : IsRec cnt k r)
    (hh : IsCell cnt k h) {ws : List Write} (e : insertW b m (toAbs b r) h = some ws) : TW cnt Q ws := by
  unfold insertW at e
  split at e
  · cases e
  · cases e
    intro w hw'
    simp only [List.mem_cons, List.not_mem_nil, or_false] at hw'
    rcases hw' with rfl | rfl
    · exact ⟨k, hk, by rw [nextCell_abs hw b hr]; exact .inl hr, hm k h hh⟩
    · exact ⟨k, hk, hh, by rw [rel_abs hw b hr]; exact .inr hr⟩

theorem retrieve_tw {k : Pool} {h : Nat} (b : Nat) (hm : Typed cnt m) (hk : Q k) (hh : IsCell cnt k h)
    {p : Nat} {ws : List Write} (e : retrieveW b m h = some (p, ws)) :
    TW cnt Q ws ∧ ∃ r, IsRec cnt k r ∧ p = toAbs b r := by
  unfold retrieveW at e
  simp only at e
  split at e
  · cases e
  · rename_i hne
    have hr : IsRec cnt k (m h) := (hm k h hh).resolve_left hne
    rw [nextCell_abs hw b hr] at e
    simp only [Option.some.injEq, Prod.mk.injEq] at e
    obtain ⟨rfl, rfl⟩ := e
    refine ⟨?_, _, hr, rfl⟩
    intro w hw'
    simp only [List.mem_cons, List.not_mem_nil, or_false] at hw'
    rcases hw' with rfl | rfl
    · exact ⟨k, hk, hh, hm k _ (.inl hr)⟩
    · exact ⟨k, hk, .inl hr, .inl rfl⟩

theorem cutLoop_typed {k : Pool} (b : Nat) (hm : Typed cnt m) (p : Nat) : ∀ {fuel c v c' : Nat}, IsCell cnt k c →
    Ref cnt k v → cutLoop b m p fuel c (toAbs b v) = some (some c') →
    IsCell cnt k c' ∧ ∃ r, IsRec cnt k r ∧ p = toAbs b r
  | 0, c, v, c', hc, hv, e => by simp [cutLoop] at e
  | fuel + 1, c, v, c', hc, hv, e => by
    unfold cutLoop at e
    split at e
    · cases e
    · rename_i h0
      have hr := abs_eq_zero hw b hv h0
      split at e
      · rename_i h1
        cases e
        exact ⟨hc, v, hr, h1.symm⟩
      · rw [nextCell_abs hw b hr] at e
        exact cutLoop_typed b hm p (.inl hr) (hm k v (.inl hr)) e

theorem cutoff_tw {k : Pool} {h p : Nat} (b : Nat) (hm : Typed cnt m) (hk : Q k) (hh : IsCell cnt k h) {fuel : Nat}
    {ws : List Write} (e : cutoffW b m fuel p h = some (some ws)) : TW cnt Q ws := by
  unfold cutoffW at e
  split at e
  · cases e
  · obtain ⟨r, h1, h2⟩ := Option.map_eq_some_iff.1 e
    cases r with
    | none => cases h2
    | some c =>
      obtain ⟨g1, r, hr, rfl⟩ := cutLoop_typed hw b hm p hh (hm k h hh) h1
      simp only [Option.map_some, Option.some.injEq] at h2
      subst h2
      rw [nextCell_abs hw b hr]
      intro w hw'
      simp only [List.mem_cons, List.not_mem_nil, or_false] at hw'
      rcases hw' with rfl | rfl
      · exact ⟨k, hk, g1, hm k _ (.inl hr)⟩
      · exact ⟨k, hk, .inl hr, .inl rfl⟩

theorem drain_tw {k : Pool} {fr : Nat} (b : Nat) (hk : Q k) (hf : IsCell cnt k fr) : ∀ {fuel : Nat} {m : Mem} {v : Nat}
    {ws : List Write}, Typed cnt m → Ref cnt k v → drainLoop b fr fuel m (toAbs b v) = some ws → TW cnt Q ws
  | 0, m, v, ws, hm, hv, e => by simp [drainLoop] at e
  | fuel + 1, m, v, ws, hm, hv, e => by
    unfold drainLoop at e
    split at e
    · cases e; exact TW.nil
    · rename_i h0
      have hr := abs_eq_zero hw b hv h0
      rw [nextCell_abs hw b hr] at e
      obtain ⟨ws', h1, rfl⟩ := Option.map_eq_some_iff.1 e
      have hi : TW cnt Q ((insertW b m (toAbs b v) fr).getD []) := by
        cases hi : insertW b m (toAbs b v) fr with
        | none => exact TW.nil
        | some ws => exact insert_tw hw b hm hk hr hf hi
      exact TW.append hi (drain_tw b hk hf (typed_writes hw hm hi).1 (hm k v (.inl hr)) h1)

theorem find_typed {k : Pool} (b : Nat) (hm : Typed cnt m) (eq : Nat → Bool) : ∀ {fuel v p : Nat}, Ref cnt k v →
    findLoop b m eq fuel (toAbs b v) = some (some p) → ∃ r, IsRec cnt k r ∧ p = toAbs b r
  | 0, v, p, hv, e => by simp [findLoop] at e
  | fuel + 1, v, p, hv, e => by
    unfold findLoop at e
    split at e
    · cases e
    · rename_i h0
      have hr := abs_eq_zero hw b hv h0
      split at e
      · cases e; exact ⟨v, hr, rfl⟩
      · rw [nextCell_abs hw b hr] at e
        exact find_typed b hm eq (hm k v (.inl hr)) e

theorem walk_typed {k : Pool} (b : Nat) (hm : Typed cnt m) : ∀ {fuel v : Nat}, Ref cnt k v →
    ∀ p ∈ FLMem.walk b m fuel (toAbs b v), ∃ r, IsRec cnt k r ∧ p = toAbs b r
  | 0, v, hv, p, hp => by simp [FLMem.walk] at hp
  | fuel + 1, v, hv, p, hp => by
    unfold FLMem.walk at hp
    split at hp
    · simp at hp
    · rename_i h0
      have hr := abs_eq_zero hw b hv h0
      rcases List.mem_cons.1 hp with rfl | hp
      · exact ⟨v, hr, rfl⟩
      · rw [nextCell_abs hw b hr] at hp
        exact walk_typed b hm (hm k v (.inl hr)) p hp

/-- A walk sees the same if the references of its kind are the same. -/
theorem walk_same {k : Pool} (b : Nat) (hm : Typed cnt m) {m' : Mem} (hs : ∀ a, IsCell cnt k a → m' a = m a) :
    ∀ {fuel v : Nat}, Ref cnt k v → FLMem.walk b m' fuel (toAbs b v) = FLMem.walk b m fuel (toAbs b v)
  | 0, v, hv => rfl
  | fuel + 1, v, hv => by
    unfold FLMem.walk
    split
    · rfl
    · rename_i h0
      have hr := abs_eq_zero hw b hv h0
      rw [nextCell_abs hw b hr, hs _ (.inl hr)]
      rw [walk_same b hm hs (hm k v (.inl hr))]

theorem find_same {k : Pool} (b : Nat) (hm : Typed cnt m) {m' : Mem} (hs : ∀ a, IsCell cnt k a → m' a = m a)
    (eq : Nat → Bool) : ∀ {fuel v : Nat}, Ref cnt k v → findLoop b m' eq fuel (toAbs b v) = findLoop b m eq fuel (toAbs b v)
  | 0, v, hv => rfl
  | fuel + 1, v, hv => by
    unfold findLoop
    split
    · rfl
    · rename_i h0
      have hr := abs_eq_zero hw b hv h0
      rw [nextCell_abs hw b hr, hs _ (.inl hr)]
      rw [find_same b hm hs eq (hm k v (.inl hr))]

end

end Fullock.Seg
