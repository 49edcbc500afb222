import Verif.Proofs.Drain
import Verif.Props.ListMem
/-! C57: returning the records of a list in bulk, and a crash in the middle of it. -/
namespace Fullock.Props
open Fullock.ListMem

/-- C57 (complete run): the loop ends; afterwards the emptied list holds nothing, the free list holds
its records in reverse order in front of what it held, all other lists are unchanged, and every record
is in exactly one list. -/
theorem C57_bulk_return_complete {m : Mem} {H : List Nat} {L : Nat → List Nat} (hw : WF m H L) (b : Nat)
    {h fr fuel : Nat} (hh : h ∈ H) (hfr : fr ∈ H) (hne : h ≠ fr) (hf : (L h).length < fuel) :
    ∃ ws, drainW b fuel m h fr = some ws ∧
      WF (applyWrites m ws) H (upd (upd L fr ((L h).reverse ++ L fr)) h []) := by
  obtain ⟨ws, h1, hlen, h2, h3⟩ := drain_ok hw b hh hfr hne hf
  refine ⟨ws ++ [(h, 0)], by simp [drainW, h1], ?_⟩
  have h4 := h2 ws.length (Nat.le_refl _)
  rw [List.take_length, hlen, Nat.mul_div_cancel_left _ (by decide), List.take_length] at h4
  rw [applyWrites_append]
  set m1 := applyWrites m ws
  have hin : ∀ x ∈ H, x ≠ h → x ∈ H.filter (· ≠ h) := fun x hx e => List.mem_filter.mpr ⟨hx, by simpa using e⟩
  have hnh : ∀ x ∈ H, x ≠ h → ∀ r ∈ upd L fr ((L h).reverse ++ L fr) x, r ∉ H := by
    intro x hx _ r hr
    unfold upd at hr
    split at hr
    · rcases List.mem_append.mp hr with a | a
      · exact hw.notHead h hh r (List.mem_reverse.mp a)
      · exact hw.notHead fr hfr r a
    · exact hw.notHead x hx r hr
  show WF (m1.set h 0) H _
  constructor
  · intro x hx
    by_cases e : x = h
    · subst e
      rw [set_same, upd_at]
      rfl
    · rw [set_other _ _ _ e]
      have : upd (upd L fr ((L h).reverse ++ L fr)) h [] x = upd L fr ((L h).reverse ++ L fr) x := by
        simp [upd, e]
      rw [this]
      exact chain_congr (fun y hy => set_other _ _ _ (fun e' => hnh x hx e y hy (e' ▸ hh)))
        (h4.chain x (hin x hx e))
  · intro x hx
    by_cases e : x = h
    · subst e; rw [upd_at]; exact List.nodup_nil
    · have : upd (upd L fr ((L h).reverse ++ L fr)) h [] x = upd L fr ((L h).reverse ++ L fr) x := by
        simp [upd, e]
      rw [this]
      exact h4.nodup x (hin x hx e)
  · intro x hx r hr
    by_cases e : x = h
    · subst e; rw [upd_at] at hr; cases hr
    · have : upd (upd L fr ((L h).reverse ++ L fr)) h [] x = upd L fr ((L h).reverse ++ L fr) x := by
        simp [upd, e]
      rw [this] at hr
      exact hnh x hx e r hr
  · intro x hx y hy hne' r hr hr'
    by_cases e : x = h
    · subst e; rw [upd_at] at hr; cases hr
    · by_cases e' : y = h
      · subst e'; rw [upd_at] at hr'; cases hr'
      · have q : ∀ z, z ≠ h → upd (upd L fr ((L h).reverse ++ L fr)) h [] z =
            upd L fr ((L h).reverse ++ L fr) z := fun z hz => by simp [upd, hz]
        rw [q x e] at hr
        rw [q y e'] at hr'
        exact h4.disj x (hin x hx e) y (hin y hy e') hne' r hr hr'

/-- C57 as stated: a process dying after any number of writes of a bulk return leaves lists in which
no record is in two places. -/
def C57_full : Prop :=
  ∀ (m : Mem) (H : List Nat) (L : Nat → List Nat), WF m H L → ∀ b h fr fuel, h ∈ H → fr ∈ H → h ≠ fr →
    (L h).length < fuel → ∀ ws, drainW b fuel m h fr = some ws → ∀ k,
      ∃ L', WF (applyWrites m (ws.take k)) H L'

/-- C57 fails, whatever the lists are: a process dying anywhere between the completed return of the
first record and the final write leaves that first record both in the list and in the free list; no
reading of the memory as separate lists is possible any more. -/
theorem C57_crash_corrupts {m : Mem} {H : List Nat} {L : Nat → List Nat} (hw : WF m H L) (b : Nat)
    {h fr fuel : Nat} (hh : h ∈ H) (hfr : fr ∈ H) (hne : h ≠ fr) (hf : (L h).length < fuel)
    {ws : List Write} (hws : drainW b fuel m h fr = some ws) {k : Nat} (hk : 2 ≤ k)
    (hk' : k < ws.length) : ¬ ∃ L', WF (applyWrites m (ws.take k)) H L' := by
  obtain ⟨ws0, h1, hlen, h2, h3⟩ := drain_ok hw b hh hfr hne hf
  have e : ws = ws0 ++ [(h, 0)] := by
    simp only [drainW, h1, Option.map_some, Option.some.injEq] at hws
    exact hws.symm
  have hk2 : k ≤ ws0.length := by rw [e] at hk'; simp at hk'; omega
  have ht : ws.take k = ws0.take k := by rw [e, List.take_append_of_le_length hk2]
  rw [ht]
  rintro ⟨L', hw'⟩
  cases hl : L h with
  | nil =>
    rw [hl] at hlen
    simp only [List.length_nil, Nat.mul_zero] at hlen
    omega
  | cons r rs =>
    have hch := hw.chain h hh
    rw [hl] at hch
    have hmh : applyWrites m (ws0.take k) h = r := by
      rw [applyWrites_other]
      · exact hch.1
      · intro w hwm
        rcases h3 w (List.mem_of_mem_take hwm) with a | a
        · exact fun e => hw.notHead h hh _ a (e ▸ hh)
        · rw [a]; exact Ne.symm hne
    have hrL : r ∈ L' h := by
      have c := hw'.chain h hh
      rw [hmh] at c
      cases hq : L' h with
      | nil => rw [hq] at c; exact absurd c hch.2.1
      | cons a t => rw [hq] at c; rw [c.1]; simp
    have hW := h2 k hk2
    have c1 := hW.chain fr (List.mem_filter.mpr ⟨hfr, by simpa using Ne.symm hne⟩)
    have c2 := hw'.chain fr hfr
    have := chain_unique c1 c2
    rw [upd_at] at this
    have hrF : r ∈ L' fr := by
      rw [← this, hl]
      have : k / 2 = (k / 2 - 1) + 1 := by omega
      rw [this, List.take_succ_cons]
      simp
    exact hw'.disj h hh fr hfr hne r hrL hrF

/-- A concrete consequence: after a death just after the first record was returned, the next process
taking a free record is given one that is still in the list. -/
theorem C57_crash_hands_out_listed {m : Mem} {H : List Nat} {L : Nat → List Nat} (hw : WF m H L)
    (b b' : Nat) {h fr fuel r : Nat} {rs : List Nat} (hh : h ∈ H) (hfr : fr ∈ H) (hne : h ≠ fr)
    (hf : (L h).length < fuel) (hl : L h = r :: rs) {ws : List Write}
    (hws : drainW b fuel m h fr = some ws) :
    ∃ ws', retrieveW b' (applyWrites m (ws.take 2)) fr = some (toAbs b' r, ws') ∧
      applyWrites (applyWrites m (ws.take 2)) ws' h = r := by
  obtain ⟨ws0, h1, hlen, h2, h3⟩ := drain_ok hw b hh hfr hne hf
  have e : ws = ws0 ++ [(h, 0)] := by
    simp only [drainW, h1, Option.map_some, Option.some.injEq] at hws
    exact hws.symm
  have hk2 : 2 ≤ ws0.length := by rw [hlen, hl]; simp; omega
  have ht : ws.take 2 = ws0.take 2 := by rw [e, List.take_append_of_le_length hk2]
  have hW := h2 2 hk2
  have hfrF : fr ∈ H.filter (· ≠ h) := List.mem_filter.mpr ⟨hfr, by simpa using Ne.symm hne⟩
  obtain ⟨ws', a1, a2, _⟩ := retrieve_ok hW b' (r := r) (rs := L fr) hfrF (by
    rw [upd_at, hl]; simp)
  rw [ht]
  refine ⟨ws', a1, ?_⟩
  have hch := hw.chain h hh
  rw [hl] at hch
  rw [applyWrites_other, applyWrites_other]
  · exact hch.1
  · intro w hwm
    rcases h3 w (List.mem_of_mem_take hwm) with a | a
    · exact fun e => hw.notHead h hh _ a (e ▸ hh)
    · rw [a]; exact Ne.symm hne
  · intro w hwm
    rw [a2] at hwm
    simp only [List.mem_cons, List.not_mem_nil, or_false] at hwm
    rcases hwm with rfl | rfl
    · exact Ne.symm hne
    · exact fun e => hw.notHead h hh r (by simp [hl]) ((show r = h from e) ▸ hh)

theorem C57_not_full : ¬ C57_full := by
  intro h
  have hw := exWF
  obtain ⟨ws, h1, h2⟩ := C57_bulk_return_complete hw 1000 (h := 8) (fr := 16) (fuel := 5) (by simp) (by simp)
    (by decide) (by decide)
  refine C57_crash_corrupts hw 1000 (h := 8) (fr := 16) (fuel := 5) (by simp) (by simp) (by decide)
    (by decide) h1 (k := 2) (by decide) ?_ (h exMem [8, 16] exL hw 1000 8 16 5 (by simp) (by simp)
      (by decide) (by decide) ws h1 2)
  have : drainW 1000 5 exMem 8 16 = some [(32, 64), (16, 32), (48, 32), (16, 48), (8, 0)] := by decide
  rw [this] at h1
  cases h1
  decide

/-- Draining list 8 = [32, 48] into list 16 = [64]. -/
example : drainW 1000 5 exMem 8 16 = some [(32, 64), (16, 32), (48, 32), (16, 48), (8, 0)] := by decide

end Fullock.Props
