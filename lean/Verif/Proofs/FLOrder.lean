import Verif.Spec.FLOrder
import Verif.Proofs.FLForever
import Verif.Proofs.Deadlock
/-! Proofs about file ranges taken in a fixed order. -/
namespace Fullock.FLive
open Fullock.FL Fullock.Spec

/-- What a thread is on its way to lock comes after all it holds. -/
def Ordered (rk : DevIno → Rng → Nat) (s : State) : Prop :=
  ∀ t op, s.alive t = true → opOf (s.pc t) = some op → op.kind = .block → ∀ x ∈ s.mem.outs, x.2.t = t → Before rk x.2 op

theorem ordered_step {rk : DevIno → Rng → Nat} {s s' : State} {e : Ev} (ho : Ordered rk s) (he : inOrder rk s e)
    (h : step s e = some s') : Ordered rk s' := by
  intro t op ha hop hk x hx hxt
  by_cases hx0 : x ∈ s.mem.outs
  · rcases step_cases h with ⟨u, c, r, rfl, ht0, hal, hpc, rfl⟩ | ⟨u, c, p, rfl, hal, hpc, hl, rfl⟩ |
      ⟨u, c, p, rfl, hal, hpc, rfl⟩ | ⟨u, c, as, p', rfl, hal, hpl, rfl⟩ | ⟨u, c, k, as, rfl, hal, hpl, rfl⟩
    · by_cases hu : t = u
      · subst hu
        simp only [State.setPc, fset_same] at hop
        cases c <;> simp only [Call.start, opOf, reduceCtorEq, Option.some.injEq] at hop
        subst hop
        exact he hk x hx0 hxt
      · exact ho t op ha (by simpa only [State.setPc, fset_other _ _ hu] using hop) hk x hx0 hxt
    · by_cases hu : t = u
      · subst hu
        exact ho t op ha (by simpa only [State.setPc, fset_same, hpc, opOf] using hop) hk x hx0 hxt
      · exact ho t op ha (by simpa only [State.setPc, fset_other _ _ hu] using hop) hk x hx0 hxt
    · by_cases hu : t = u
      · subst hu
        exact ho t op ha (by simpa only [State.setPc, fset_same, hpc, opOf] using hop) hk x hx0 hxt
      · exact ho t op ha (by simpa only [State.setPc, fset_other _ _ hu] using hop) hk x hx0 hxt
    · by_cases hu : t = u
      · subst hu
        exact ho t op ha (plan_op hpl (by simpa only [State.setPc, fset_same] using hop)) hk x hx0 hxt
      · exact ho t op ha (by simpa only [State.setPc, fset_other _ _ hu] using hop) hk x hx0 hxt
    · refine ho t op ?_ hop hk x hx0 hxt
      by_cases hu : t = u
      · exact hu ▸ hal
      · simpa only [fset_other _ _ hu] using ha
  · obtain ⟨op', f, o, _, _, h3⟩ := outs_gain h hx0 hx
    rw [hxt] at h3
    rcases h3 with ⟨_, h3⟩ | ⟨c, k, rfl⟩
    · rw [h3] at hop; cases hop
    · rcases step_cases h with ⟨u, c, r, he, _⟩ | ⟨u, c, p, he, _⟩ | ⟨u, c, p, he, _⟩ | ⟨u, c, as, p', he, _⟩ |
        ⟨u, c, k, as, he, hal, hpl, rfl⟩ <;> cases he
      simp only [fset_same] at ha; cases ha

theorem ordered_reach {A : State → Ev → Prop} {rk : DevIno → Rng → Nat} (hA : ∀ s e, A s e → inOrder rk s e) {s : State}
    (r : Reach A s) : Ordered rk s := by
  induction r with
  | init => intro t op _ h; cases h
  | step _ ha hs ih => exact ordered_step ih (hA _ _ ha) hs

theorem waits_op {op : Op} {p : Pc} (h : waits op p) : opOf p = some op ∧ op.kind = .block := by
  unfold waits at h
  split at h <;> first | exact h.elim | (obtain ⟨rfl, h⟩ := h; exact ⟨rfl, h⟩)

theorem max_of (f : Nat × Out → Nat) (P : Nat × Out → Prop) (l : List (Nat × Out)) (h : ∃ x ∈ l, P x) :
    ∃ x ∈ l, P x ∧ ∀ y ∈ l, P y → f y ≤ f x := by
  induction l with
  | nil => simp at h
  | cons a l ih =>
    by_cases hl : ∃ x ∈ l, P x
    · obtain ⟨x, hx, px, hm⟩ := ih hl
      by_cases ha : P a ∧ f x < f a
      · refine ⟨a, by simp, ha.1, fun y hy py => ?_⟩
        rcases List.mem_cons.mp hy with rfl | hy
        · exact Nat.le_refl _
        · have := hm y hy py; omega
      · refine ⟨x, by simp [hx], px, fun y hy py => ?_⟩
        rcases List.mem_cons.mp hy with rfl | hy
        · exact Nat.le_of_not_lt fun h => ha ⟨py, h⟩
        · exact hm y hy py
    · obtain ⟨x, hx, px⟩ := h
      rcases List.mem_cons.mp hx with rfl | hx
      · refine ⟨x, by simp, px, fun y hy py => ?_⟩
        rcases List.mem_cons.mp hy with rfl | hy
        · exact Nat.le_refl _
        · exact absurd ⟨y, hy, py⟩ hl
      · exact absurd ⟨x, hx, px⟩ hl

theorem key_inj83 {l : List (Nat × Out)} (hn : (l.map Prod.fst).Nodup) {x y : Nat × Out} (hx : x ∈ l) (hy : y ∈ l) (e : x.1 = y.1) :
    x = y := by
  induction l with
  | nil => cases hx
  | cons a l ih =>
    simp only [List.map_cons, List.nodup_cons, List.mem_map, not_exists, not_and] at hn
    rcases List.mem_cons.mp hx with rfl | hx' <;> rcases List.mem_cons.mp hy with rfl | hy'
    · rfl
    · exact absurd e.symm (hn.1 y hy')
    · exact absurd e (hn.1 x hx')
    · exact ih hn.2 hx' hy'

theorem no_deadlock {R : DevIno → Rng → Prop} {rk : DevIno → Rng → Nat} (hR : Clustered R) (hrk : Ranked R rk) {s : State}
    (hi : SInv s) (ri : RInv R s) (hex : Exclusive s) (ho : Ordered rk s) (D : Nat → Prop) : ¬ Deadlock s D := by
  rintro ⟨⟨t0, ht0⟩, hD⟩
  obtain ⟨_, op0, _, x0, hx0, hd0, _⟩ := hD t0 ht0
  obtain ⟨x, hx, hdx, hmax⟩ := max_of (fun x => rk x.2.key x.2.rng) (fun x => D x.2.t) s.mem.outs ⟨x0, hx0, hd0⟩
  obtain ⟨ha, op, hw, y, hy, hdy, hc⟩ := hD x.2.t hdx
  obtain ⟨hop, hk⟩ := waits_op hw
  have hm := hmax y hy hdy
  obtain ⟨c1, c2, c3⟩ := hc
  simp only [lockOf] at c1 c2 c3
  have hRy := ri.held y hy
  have hRo := ri.ops _ _ hop
  rcases ho _ op ha hop hk x hx rfl with hb | ⟨b1, b2, b3, b4⟩
  · have := hrk y.2.key y.2.rng op.rng hRy (c1 ▸ hRo) c2
    rw [c1] at this hm
    omega
  · rw [b4] at c3
    have c3 : y.2.mode = .wr := by simpa using c3
    have hRx := ri.held x hx
    have hyx : R op.key y.2.rng := c1 ▸ hRy
    have hov : Overlap x.2.rng y.2.rng := by
      obtain ⟨b, h1, h2⟩ := c2
      exact hR.trans op.key _ _ _ (b1 ▸ hRx) hRo hyx b2 ⟨b, h2, h1⟩
    by_cases e : x.1 = y.1
    · have : x = y := key_inj83 hi.outs.2 hx hy e
      rw [this, c3] at b3; cases b3
    · exact hex x hx y hy e ⟨b1.trans c1.symm, hov, .inr c3⟩

theorem waits_plan {m : Mem} {alive : Nat → Bool} {t : Nat} {op : Op} {p : Pc} {c : Choice} {as : List Act} {p' : Pc}
    (hg : waits op p) (h : plan m alive t p c = some (as, p')) : waits op p' ∨ ∃ f o l, p' = .setf op f o l := by
  cases p with
  | spin op' f o l =>
    obtain ⟨rfl, hk⟩ := hg
    cases c <;> simp only [plan, hk, reduceCtorEq, if_false] at h
    · split at h <;> (obtain ⟨_, rfl⟩ := by simpa using h)
      · exact .inr ⟨_, _, _, rfl⟩
      · exact .inl ⟨rfl, hk⟩
    · split at h
      · obtain ⟨_, rfl⟩ := by simpa using h
        exact .inl ⟨rfl, hk⟩
      · cases h
    · split at h
      · obtain ⟨_, rfl⟩ := by simpa using h
        exact .inl ⟨rfl, hk⟩
      · cases h
  | rSet op' f o l =>
    obtain ⟨rfl, hk⟩ := hg
    cases c <;> simp only [plan, reduceCtorEq] at h
    obtain ⟨_, rfl⟩ := by simpa using h
    exact .inl ⟨rfl, hk⟩
  | rChk op' f o l =>
    obtain ⟨rfl, hk⟩ := hg
    left
    cases c <;> simp only [plan, reduceCtorEq] at h
    · obtain ⟨_, rfl⟩ := by simpa using h
      exact ⟨rfl, hk⟩
    · split at h
      · obtain ⟨_, rfl⟩ := by simpa using h
        exact ⟨rfl, hk⟩
      · cases h
  | acq q => cases c <;> cases h
  | rel q => cases c <;> cases h
  | _ => exact hg.elim

theorem waits_step {s s' : State} {e : Ev} {t : Nat} {op : Op} (hw : waits op (s.pc t)) (h : step s e = some s') :
    waits op (s'.pc t) ∨ ∃ f o l, s'.pc t = .setf op f o l := by
  rcases step_cases h with ⟨u, c, r, rfl, ht0, hal, hpc, rfl⟩ | ⟨u, c, p, rfl, hal, hpc, hl, rfl⟩ |
    ⟨u, c, p, rfl, hal, hpc, rfl⟩ | ⟨u, c, as, p', rfl, hal, hpl, rfl⟩ | ⟨u, c, k, as, rfl, hal, hpl, rfl⟩
  · by_cases hu : t = u
    · subst hu; rw [hpc] at hw; exact hw.elim
    · simp only [State.setPc, fset_other _ _ hu]; exact .inl hw
  · by_cases hu : t = u
    · subst hu; rw [hpc] at hw; simp only [State.setPc, fset_same]; left
      cases p <;> first | exact hw.elim | exact hw
    · simp only [State.setPc, fset_other _ _ hu]; exact .inl hw
  · by_cases hu : t = u
    · subst hu; rw [hpc] at hw; simp only [State.setPc, fset_same]; left
      cases p <;> first | exact hw.elim | exact hw
    · simp only [State.setPc, fset_other _ _ hu]; exact .inl hw
  · by_cases hu : t = u
    · subst hu; simp only [State.setPc, fset_same]; exact waits_plan hw hpl
    · simp only [State.setPc, fset_other _ _ hu]; exact .inl hw
  · exact .inl hw

theorem waits_uop {op : Op} {p : Pc} (h : waits op p) : uop p = none ∧ Under op p ∧ ∀ r, p ≠ .done r := by
  unfold waits at h
  split at h <;> first | exact h.elim | (obtain ⟨rfl, h⟩ := h; exact ⟨rfl, ⟨by simp [code], .inl rfl⟩, nofun⟩)

theorem deadlock_step {R : DevIno → Rng → Prop} (hR : Clustered R) {s s' : State} {e : Ev} {D : Nat → Prop} (r : Reach (okIn R) s)
    (hD : Deadlock s D) (he : okIn R s e) (hsp : spares D e) (h : step s e = some s') : Deadlock s' D := by
  have r' : Reach (okIn R) s' := .step r he h
  have exc : ∀ {s}, Reach (okIn R) s → Exclusive s := fun hr =>
    exclusive_of_inv hR (reach_sinv hr) (reach_winv (fun _ _ h => h.1) hr) (reach_rinv (fun _ _ h => h.2) hr)
  refine ⟨hD.1, fun t ht => ?_⟩
  obtain ⟨ha, op, hw, x, hx, hdx, hc⟩ := hD.2 t ht
  obtain ⟨hxa, op2, hw2, -⟩ := hD.2 _ hdx
  have nocall : ∀ {u op}, waits op (s.pc u) → ∀ c, e ≠ .call u c := by
    rintro u op hw c rfl
    rcases step_cases h with ⟨u, c, r, he, ht0, hal, hpc, -⟩ | ⟨u, c, p, he, _⟩ | ⟨u, c, p, he, _⟩ | ⟨u, c, as, p', he, _⟩ |
        ⟨u, c, k, as, he, hal, hpl, rfl⟩ <;> cases he
    rw [hpc] at hw; exact hw
  have nodie : ∀ u, D u → ∀ c k, e ≠ .die u c k := by
    rintro u hu c k rfl; exact hsp hu
  have hal' : s'.alive t = true := step_alive h ha (nodie t ht)
  obtain ⟨b1, b2, b3, b4⟩ := blocked_step (reach_sinv r) (exc r') h hx rfl hxa (waits_uop hw2).1 (waits_uop hw).2.1 hc
    ⟨fun op => nocall hw2 _, nodie _ hdx⟩ (nocall hw)
  refine ⟨hal', op, ?_, x, b1, hdx, hc⟩
  rcases waits_step hw h with hw' | ⟨f, o, l, hs⟩
  · exact hw'
  · exfalso
    -- the thread would obtain the lock by its next step
    obtain ⟨s2, h2, hp2⟩ : ∃ s2, step s' (.go t .go) = some s2 ∧ s2.pc t = .done 0 :=
      ⟨_, by simp [step, hal', hs, plan]; rfl, by simp [State.setPc]⟩
    have r2 : Reach (okIn R) s2 := .step (e := .go t .go) r' ⟨trivial, trivial⟩ h2
    obtain ⟨_, _, _, b5⟩ := blocked_step (t := t) (op := op) (reach_sinv r') (exc r2) h2 b1 rfl b2 b3 b4 hc ⟨nofun, nofun⟩ nofun
    rw [hp2] at b5
    exact b5.1 rfl

theorem order_returns {σ : Nat → State} {ε : Nat → Option Ev} {R : DevIno → Rng → Prop} {rk : DevIno → Rng → Nat} (hR : Clustered R)
    (hrk : Ranked R rk) (ex : Exec (fun s e => softIn R s e ∧ inOrder rk s e) σ ε) (hf : Fair σ ε) (hcb : ComesBack σ ε)
    (hce : CallsEnd ε) (hd : DeadSeen σ ε) (hti : Timely σ ε) (hra : RacesReal σ ε) (t i : Nat) : ReturnsAfter σ t i := by
  refine Classical.byContradiction fun hno => ?_
  have ex' : Exec softDeath σ ε := exec_mono (fun _ _ h => h.1.1) ex
  obtain ⟨n, hn⟩ := hce
  obtain ⟨m, hm, hs⟩ := settled ex' (n := n) hn
  have late : Late σ ε (max m i) := Late.later (n := m) ⟨ex', fun j hj => hn j (by omega), hs⟩ (by omega)
  have hc : inCall (σ (max m i)) t := by
    refine ⟨?_, fun r hr => hno ⟨_, by omega, .inl ⟨r, hr⟩⟩⟩
    cases ha : (σ (max m i)).alive t with
    | true => rfl
    | false => exact absurd ⟨_, by omega, .inr ha⟩ hno
  have hr := exec_reach ex (max m i)
  have ri : RInv R (σ (max m i)) := reach_rinv (fun _ _ h => h.1.2) hr
  have hex : Exclusive (σ (max m i)) := exclusive_of_inv hR (reach_sinv hr) (reach_winv (fun _ _ h => softDeath_ok h.1.1) hr) ri
  refine no_deadlock hR hrk (reach_sinv hr) ri hex (ordered_reach (fun _ _ h => h.2) hr) (fun u => inCall (σ (max m i)) u)
    ⟨⟨t, hc⟩, fun u hu => ?_⟩
  obtain ⟨⟨op, f, o, l⟩, hl⟩ := late.loops hf (Nat.le_refl _) hu
  obtain ⟨x, h1, h2, h3⟩ := late.forever hf hti hd hra hu hl
  refine ⟨hu.1, op, loop_waits hl (late.block hf hti (Nat.le_refl _) hu hl), x, (h3 _ (Nat.le_refl _)).1, ⟨(h3 _ (Nat.le_refl _)).2, ?_⟩, ?_⟩
  · intro r hr
    obtain ⟨j, hj, h4⟩ := hcb _ x (h3 _ (Nat.le_refl _)).1 ⟨r, hr⟩
    rcases h4 with ⟨c, h4⟩ | h4
    · exact hn j (by omega) _ _ h4
    · rw [(h3 j hj).2] at h4; cases h4
  · exact loop_conflict hR (late.sinv _) ri hu.1 hl (h3 _ (Nat.le_refl _)).1 h2 h1

end Fullock.FLive
