import Verif.Spec.Deadlock
import Verif.Proofs.FLConserve
import Verif.Proofs.FLRefuse
import Verif.Proofs.FLPaths
/-! A request excluded by a lock that is kept is never granted. -/
namespace Fullock.FL
open Fullock.Spec

/-- A lock request of `op` under way, or one that has failed. -/
def Under (op : Op) (p : Pc) : Prop := code p ≠ some 0 ∧ (opOf p = some op ∨ ∃ r, code p = some r)

theorem plan_under {m : Mem} {alive : Nat → Bool} {t : Nat} {p : Pc} {c : Choice} {as : List Act} {p' : Pc} {op : Op}
    (h : plan m alive t p c = some (as, p')) (hu : Under op p) :
    Under op p' ∨ ∃ f o l, p = .setf op f o l ∧ as = [.flag l (lockOf t op)] ∧ p' = .done 0 := by
  obtain ⟨h0, h1⟩ := hu
  unfold plan at h
  split at h
  all_goals
    repeat' split at h
    all_goals first
      | (cases h; done)
      | (obtain ⟨rfl, rfl⟩ := Option.some.inj h |> Prod.mk.inj
         first
         | (simp [opOf, code] at h1; done)
         | (left
            refine ⟨?_, ?_⟩
            · first
              | (simp_all [code, code_after2, code_after3, EBUSY, ENOLCK, ETIMEDOUT, EINVAL]; done)
              | (simp only [code]; split <;> simp_all [code, EBUSY, ENOLCK, ETIMEDOUT, EINVAL]; done)
            · first
              | (simp_all [opOf, code, code_after2, code_after3]; done))
         | skip)
  · simp only [opOf, code, Option.some.injEq, reduceCtorEq, exists_const, or_false] at h1
    subst h1
    exact .inr ⟨_, _, _, rfl, rfl, rfl⟩

/-- Reachability goes on. -/
theorem later_reach {A : State → Ev → Prop} {s s' : State} {es : List Ev} (hr : Reach A s) (h : Later A s es s') :
    Reach A s' := by
  induction h with
  | here => exact hr
  | more _ ha hs ih => exact .step ih ha hs

/-- What another thread's event leaves alone. -/
theorem step_pc_other {s s' : State} {e : Ev} {u : Nat} (h : step s e = some s')
    (hne : (∀ c, e ≠ .call u c) ∧ ∀ c, e ≠ .go u c) : s'.pc u = s.pc u := by
  rcases step_cases h with ⟨t, c, r, rfl, ht0, hal, hpc, rfl⟩ | ⟨t, c, p, rfl, hal, hpc, hl, rfl⟩ |
    ⟨t, c, p, rfl, hal, hpc, rfl⟩ | ⟨t, c, as, p', rfl, hal, hpl, rfl⟩ |
    ⟨t, c, k, as, rfl, hal, hpl, rfl⟩
  · exact fset_pc_other (fun e => hne.1 c (by rw [e]))
  · exact fset_pc_other (fun e => hne.2 c (by rw [e]))
  · exact fset_pc_other (fun e => hne.2 c (by rw [e]))
  · exact fset_pc_other (fun e => hne.2 c (by rw [e]))
  · rfl

/-- A thread lives on through an event that is not its death. -/
theorem step_alive {s s' : State} {e : Ev} {u : Nat} (h : step s e = some s') (hu : s.alive u = true)
    (hne : ∀ c k, e ≠ .die u c k) : s'.alive u = true := by
  rcases step_cases h with ⟨t, c, r, rfl, ht0, hal, hpc, rfl⟩ | ⟨t, c, p, rfl, hal, hpc, hl, rfl⟩ |
    ⟨t, c, p, rfl, hal, hpc, rfl⟩ | ⟨t, c, as, p', rfl, hal, hpl, rfl⟩ |
    ⟨t, c, k, as, rfl, hal, hpl, rfl⟩
  · exact hu
  · exact hu
  · exact hu
  · exact hu
  · show fset s.alive t false u = true
    rw [fset_other _ _ (fun e => hne c k (by rw [e]))]; exact hu

/-- A thread that is in no unlock call and issues none is in none afterwards. -/
theorem step_uop {s s' : State} {e : Ev} {u : Nat} (h : step s e = some s') (hu : uop (s.pc u) = none)
    (hne : ∀ op, e ≠ .call u (.unlock op)) : uop (s'.pc u) = none := by
  rcases step_cases h with ⟨t, c, r, rfl, ht0, hal, hpc, rfl⟩ | ⟨t, c, p, rfl, hal, hpc, hl, rfl⟩ |
    ⟨t, c, p, rfl, hal, hpc, rfl⟩ | ⟨t, c, as, p', rfl, hal, hpl, rfl⟩ |
    ⟨t, c, k, as, rfl, hal, hpl, rfl⟩
  · by_cases e : u = t
    · subst e
      cases c with
      | unlock op => exact absurd rfl (hne op)
      | _ => simp [State.setPc, Call.start, uop]
    · simpa only [State.setPc, fset_pc_other e] using hu
  · by_cases e : u = t
    · subst e; rw [hpc] at hu; simpa [State.setPc, uop] using hu
    · simpa only [State.setPc, fset_pc_other e] using hu
  · by_cases e : u = t
    · subst e; rw [hpc] at hu; simpa [State.setPc, uop] using hu
    · simpa only [State.setPc, fset_pc_other e] using hu
  · by_cases e : u = t
    · subst e
      simp only [State.setPc, fset_same]
      cases ho : uop p' with
      | none => rfl
      | some op => rw [plan_uop hpl ho] at hu; cases hu
    · simpa only [State.setPc, fset_pc_other e] using hu
  · exact hu

/-- One event: the kept lock stays, and the excluded request is not granted. -/
theorem blocked_step {s s' : State} {e : Ev} {t u : Nat} {op : Op} {x : Nat × Out} (hi : SInv s) (hex : Exclusive s')
    (h : step s e = some s') (hx : x ∈ s.mem.outs) (hxu : x.2.t = u) (hal : s.alive u = true)
    (hu : uop (s.pc u) = none) (hpt : Under op (s.pc t)) (hcf : Conflict x.2 (lockOf t op))
    (h1 : (∀ op, e ≠ .call u (.unlock op)) ∧ ∀ c k, e ≠ .die u c k) (h2 : ∀ c, e ≠ .call t c) :
    x ∈ s'.mem.outs ∧ s'.alive u = true ∧ uop (s'.pc u) = none ∧ Under op (s'.pc t) := by
  have hx' : x ∈ s'.mem.outs := by
    by_contra hn
    rcases outs_loss hi h hx hn with h3 | ⟨op', f, o, md, h3, _⟩
    · rw [hxu, hal] at h3; cases h3
    · rw [hxu] at h3; rw [h3] at hu; simp [uop] at hu
  refine ⟨hx', step_alive h hal h1.2, step_uop h hu h1.1, ?_⟩
  by_cases hg : ∀ c, e ≠ .go t c
  · rw [step_pc_other h ⟨h2, hg⟩]; exact hpt
  · rcases step_cases h with ⟨v, c, r, rfl, ht0, hal', hpc, rfl⟩ | ⟨v, c, p, rfl, hal', hpc, hl, rfl⟩ |
      ⟨v, c, p, rfl, hal', hpc, rfl⟩ | ⟨v, c, as, p', rfl, hal', hpl, rfl⟩ |
      ⟨v, c, k, as, rfl, hal', hpl, rfl⟩
    · exact absurd (fun c => by simp) hg
    · have : v = t := by by_contra hne; exact hg (fun c => by simp [hne])
      subst this
      rw [hpc] at hpt; simpa [State.setPc, Under, code, opOf] using hpt
    · have : v = t := by by_contra hne; exact hg (fun c => by simp [hne])
      subst this
      rw [hpc] at hpt; simpa [State.setPc, Under, code, opOf] using hpt
    · have : v = t := by by_contra hne; exact hg (fun c => by simp [hne])
      subst this
      rcases plan_under hpl hpt with h3 | ⟨f, o, l, h3, rfl, rfl⟩
      · simpa [State.setPc] using h3
      · exfalso
        have hw := (hi.thr v hal').2
        rw [h3] at hw
        obtain ⟨f', o', _, _, _, _, _, hlk, _⟩ := hi.outs.1 x hx
        have hne : x.1 ≠ l := fun e => by
          have := hw.2.2.2.2.2.1
          rw [← e, hlk] at this; cases this
        exact hex x hx' (l, lockOf v op) (by simp [Mem.acts, Mem.act, State.setPc]) hne hcf
    · exact absurd (fun c => by simp) hg

/-- A request excluded by a lock that its holder keeps is not granted, however long the run. -/
theorem blocked {A : State → Ev → Prop} (hA : ∀ s, Reach A s → Exclusive s) {s s' : State} {es : List Ev} {t u : Nat}
    {op : Op} {x : Nat × Out} (hr : Reach A s) (hl : Later A s es s') (hx : x ∈ s.mem.outs) (hxu : x.2.t = u)
    (hal : s.alive u = true) (hu : uop (s.pc u) = none) (hpt : Under op (s.pc t))
    (hcf : Conflict x.2 (lockOf t op)) (h1 : Keeps u es) (h2 : Within t es) :
    x ∈ s'.mem.outs ∧ s'.alive u = true ∧ uop (s'.pc u) = none ∧ Under op (s'.pc t) := by
  induction hl with
  | here => exact ⟨hx, hal, hu, hpt⟩
  | @more es s1 s2 e hl ha hs ih =>
    obtain ⟨a, b, c, d⟩ := ih (fun e he => h1 e (by simp [he])) (fun e he => h2 e (by simp [he]))
    have hr1 := later_reach hr hl
    exact blocked_step (reach_sinv hr1) (hA _ (.step hr1 ha hs)) hs a hxu b c d hcf (h1 _ (by simp)) (h2 _ (by simp))

end Fullock.FL
