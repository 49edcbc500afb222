import Verif.Model.Drain
import Verif.Proofs.ListMem
/-! Helper lemmas for the bulk return of records. -/
namespace Fullock.ListMem

theorem upd_upd (L : Nat → List Nat) (h : Nat) (l l' : List Nat) : upd (upd L h l) h l' = upd L h l' := by
  funext x; unfold upd; split <;> rfl

theorem upd_at (L : Nat → List Nat) (h : Nat) (l : List Nat) : upd L h l h = l := by simp [upd]

/-- The loop on a chain of loose records: total effect, and the lists after any number of writes. -/
theorem drainLoop_ok (b fr : Nat) : ∀ (rs : List Nat) (fuel : Nat) (m : Mem) (H : List Nat)
    (L : Nat → List Nat) (v : Nat), WF m H L → fr ∈ H → rs.length < fuel → Chain m v rs → rs.Nodup →
    (∀ r ∈ rs, Loose H L r) →
    ∃ ws, drainLoop b fr fuel m (toAbs b v) = some ws ∧ ws.length = 2 * rs.length ∧
      (∀ k ≤ ws.length, WF (applyWrites m (ws.take k)) H (upd L fr ((rs.take (k / 2)).reverse ++ L fr))) ∧
      (∀ w ∈ ws, w.1 ∈ rs ∨ w.1 = fr) := by
  intro rs
  induction rs with
  | nil =>
    intro fuel m H L v hw hfr hf hc _ _
    cases fuel with
    | zero => simp at hf
    | succ n =>
      refine ⟨[], ?_, rfl, ?_, by simp⟩
      · have : v = 0 := hc
        simp [drainLoop, toAbs_eq_zero, this]
      · intro k _
        simpa [applyWrites, upd_same] using hw
  | cons r rs ih =>
    intro fuel m H L v hw hfr hf hc hnd hl
    cases fuel with
    | zero => simp at hf
    | succ n =>
      obtain ⟨rfl, hv0, hc⟩ := hc
      rw [List.nodup_cons] at hnd
      have hlr := hl v (by simp)
      obtain ⟨ws1, h1, he, w1, w2⟩ := insert_ok hw b hlr hfr
      have hm1 : ∀ y ∈ rs, applyWrites m ws1 y = m y := by
        intro y hy
        subst he
        have hyH := (hl y (by simp [hy])).2.1
        simp only [applyWrites]
        have n1 : y ≠ fr := fun e => hyH (e ▸ hfr)
        have n2 : y ≠ v := fun e => hnd.1 (e ▸ hy)
        rw [set_other _ _ _ n1, set_other _ _ _ n2]
      obtain ⟨ws2, h2, hlen, hk, hfrm⟩ := ih n (applyWrites m ws1) H (upd L fr (v :: L fr)) (m v) w2 hfr
        (by simp at hf; omega) (chain_congr hm1 hc) hnd.2 (by
          intro y hy
          have hy' := hl y (by simp [hy])
          refine ⟨hy'.1, hy'.2.1, ?_⟩
          intro h hh
          unfold upd
          split
          · simp only [List.mem_cons, not_or]
            exact ⟨fun e => hnd.1 (e ▸ hy), hy'.2.2 fr hfr⟩
          · exact hy'.2.2 h hh)
      refine ⟨ws1 ++ ws2, ?_, ?_, ?_, ?_⟩
      · simp only [drainLoop]
        rw [if_neg (by rw [toAbs_eq_zero]; exact hv0)]
        simp only [nextCell_toAbs hv0, h1, Option.getD_some]
        rw [h2]
        rfl
      · simp [he, hlen]; omega
      · intro k hkl
        have hl1 : ws1.length = 2 := by simp [he]
        rcases k with _ | _ | k
        · simpa [applyWrites, upd_same] using hw
        · have : (ws1 ++ ws2).take 1 = ws1.take 1 := by rw [he]; rfl
          rw [this]
          simpa [upd_same] using w1
        · have : (ws1 ++ ws2).take (k + 1 + 1) = ws1 ++ ws2.take k := by rw [he]; rfl
          rw [this, applyWrites_append]
          have h3 := hk k (by simp [hl1] at hkl; omega)
          rw [upd_upd, upd_at] at h3
          have : (k + 1 + 1) / 2 = k / 2 + 1 := by omega
          rw [this, List.take_succ_cons, List.reverse_cons, List.append_assoc]
          exact h3
      · intro w hw'
        rcases List.mem_append.mp hw' with h | h
        · rw [he] at h
          simp only [List.mem_cons, List.not_mem_nil, or_false] at h
          rcases h with rfl | rfl
          · left; simp
          · right; rfl
        · rcases hfrm w h with a | a
          · left; simp [a]
          · exact Or.inr a

theorem applyWrites_other : ∀ (ws : List Write) (m : Mem) (x : Nat), (∀ w ∈ ws, w.1 ≠ x) →
    applyWrites m ws x = m x
  | [], _, _, _ => rfl
  | w :: ws, m, x, h => by
    simp only [applyWrites]
    rw [applyWrites_other ws _ x (fun w' hw => h w' (by simp [hw])),
      set_other _ _ _ (Ne.symm (h w (by simp)))]

/-- The other lists, seen without head `h`. -/
theorem wf_drop {m : Mem} {H : List Nat} {L : Nat → List Nat} (hw : WF m H L) (h : Nat) :
    WF m (H.filter (· ≠ h)) L := by
  have hs : ∀ x, x ∈ H.filter (· ≠ h) → x ∈ H := fun x hx => (List.mem_filter.mp hx).1
  exact ⟨fun x hx => hw.chain x (hs x hx), fun x hx => hw.nodup x (hs x hx),
    fun x hx r hr hr' => hw.notHead x (hs x hx) r hr (hs r hr'),
    fun x hx y hy => hw.disj x (hs x hx) y (hs y hy)⟩

theorem drain_ok {m : Mem} {H : List Nat} {L : Nat → List Nat} (hw : WF m H L) (b : Nat) {h fr fuel : Nat}
    (hh : h ∈ H) (hfr : fr ∈ H) (hne : h ≠ fr) (hf : (L h).length < fuel) :
    ∃ ws, drainLoop b fr fuel m (toAbs b (m h)) = some ws ∧ ws.length = 2 * (L h).length ∧
      (∀ k ≤ ws.length, WF (applyWrites m (ws.take k)) (H.filter (· ≠ h))
        (upd L fr (((L h).take (k / 2)).reverse ++ L fr))) ∧
      (∀ w ∈ ws, w.1 ∈ L h ∨ w.1 = fr) := by
  refine drainLoop_ok b fr (L h) fuel m (H.filter (· ≠ h)) L (m h) (wf_drop hw h) ?_ hf (hw.chain h hh)
    (hw.nodup h hh) ?_
  · exact List.mem_filter.mpr ⟨hfr, by simpa using Ne.symm hne⟩
  · intro r hr
    refine ⟨chain_ne_zero (hw.chain h hh) r hr, fun e => hw.notHead h hh r hr (List.mem_filter.mp e).1, ?_⟩
    intro x hx
    obtain ⟨hx, hxh⟩ := List.mem_filter.mp hx
    exact hw.disj h hh x hx (by simpa using Ne.symm (by simpa using hxh)) r hr

end Fullock.ListMem
