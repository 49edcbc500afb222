import Verif.Proofs.MCMemSweep
import Verif.Props.MCMemForever
/-! C97: a check for dead threads leaves nothing of them behind, in the cells of the segment, while other threads run. -/
namespace Fullock.Props
open Fullock Fullock.Layout Fullock.MCMem
open Fullock.MC (upd)

/-- No mutex record that is listed is of `v`, whatever the address at which the reader has mapped the segment. -/
def NoneOwned (cnt : Pool → Nat) (fuel : Nat) (x : State) (v : Nat) : Prop :=
  ∀ b, ∀ m ∈ listed cnt b fuel x.mem .mtxs, x.mem.mval m ≠ v

/-- No waiter record that is listed, in any condition that is listed, is of `v`. -/
def NoneWaits (cnt : Pool → Nat) (fuel : Nat) (x : State) (v : Nat) : Prop :=
  ∀ b, ∀ c ∈ listed cnt b fuel x.mem .conds, ∀ w ∈ listed cnt b fuel x.mem (.ws c), x.mem.wtid w ≠ v

section lists
variable {cnt : Pool → Nat} {fuel : Nat} {base : Nat → Nat} {Tb : Tab} {x : State} {r : MC.State} {v : Nat}

theorem noneOwned_of (hw : NoWrap cnt) (hf : Fuel cnt fuel) (S : Sim cnt base Tb x r)
    (h : ∀ m ∈ Tb .mtxs, x.mem.mval m ≠ v) : NoneOwned cnt fuel x v := by
  intro b m hm
  rw [listed_eq hw S.snd S.rep b hf (h := .mtxs) trivial] at hm
  exact h m hm

theorem noneWaits_of (hw : NoWrap cnt) (hf : Fuel cnt fuel) (S : Sim cnt base Tb x r)
    (h : ∀ c ∈ Tb .conds, ∀ w ∈ Tb (.ws c), x.mem.wtid w ≠ v) : NoneWaits cnt fuel x v := by
  intro b c hc w hw'
  rw [listed_eq hw S.snd S.rep b hf (h := .conds) trivial] at hc
  rw [listed_eq hw S.snd S.rep b hf (h := .ws c) (S.snd.lt .conds c hc)] at hw'
  exact h c hc w hw'

end lists

/-- C97: a check of dead owners that has begun when `v` was dead, and that was answered rightly whether `v` runs, whatever it
was answered about others, leaves no mutex of `v`; and no mutex is of `v` at any later moment. Other threads may do anything meanwhile and be killed
between any two writes; the check may be part of a lock call or a call of its own. -/
theorem C97_owners (cnt : Pool → Nat) (hl : Limits cnt) (fuel : Nat) (hfu : Fuel cnt fuel) (base : Nat → Nat)
    (A : State → Ev → Prop) (σ : Nat → State) (ε : Nat → Option Ev) (ex : Exec cnt fuel base A σ ε) (t i j v : Nat) (hij : i ≤ j)
    (v0 : v ≠ 0) (hv : (σ i).alive v = false) (hb : ∃ k, (σ i).pc t = .acqM (.swTop k))
    (hsp : ∀ r, i ≤ r → r < j → ε r = some (.go t .spur) → asks cnt base (σ r) t ≠ some v)
    (he : checking ((σ j).pc t) = false ∧ ∀ k, (σ j).pc t ≠ .acqM (.swTop k)) :
    ∀ j', j ≤ j' → NoneOwned cnt fuel (σ j') v := by
  obtain ⟨hw, -⟩ := noWrap_of_limits cnt hl
  obtain ⟨T, s, s1, e1, e2, F⟩ := follows hl hfu ex
  intro j' hj
  refine noneOwned_of hw hfu (F.sim j') (F.clr_end hw ex hij v0 hv hsp (.inl ?_) ?_ he.1 hj)
  · obtain ⟨k, h⟩ := hb; rw [h]; rfl
  · unfold preM; split
    · exact absurd (by assumption) (he.2 _)
    · rfl

/-- C97: so it is in particular when a call that only checks has returned. -/
theorem C97_ownersCall (cnt : Pool → Nat) (hl : Limits cnt) (fuel : Nat) (hfu : Fuel cnt fuel) (base : Nat → Nat)
    (A : State → Ev → Prop) (σ : Nat → State) (ε : Nat → Option Ev) (ex : Exec cnt fuel base A σ ε) (t i j v r : Nat) (hij : i < j)
    (v0 : v ≠ 0) (hv : (σ i).alive v = false) (hb : ε i = some (.call t .sweepM))
    (hsp : ∀ r, i ≤ r → r < j → ε r = some (.go t .spur) → asks cnt base (σ r) t ≠ some v) (he : (σ j).pc t = .done r) :
    ∀ j', j ≤ j' → NoneOwned cnt fuel (σ j') v := by
  refine C97_owners cnt hl fuel hfu base A σ ε ex t (i + 1) j v hij v0 (dead_on ex (Nat.le_succ i) hv) ⟨none, ?_⟩
    (fun r h1 h2 => hsp r (by omega) h2) (by rw [he]; exact ⟨rfl, by simp⟩)
  have hn := ex.next i
  rw [hb] at hn
  have hst := hn.2
  simp only [step] at hst
  split at hst
  · cases hst
  · split at hst
    · rw [← Option.some.inj hst]; simp [start]
    · cases hst

/-- C97: as `C97_owners`, for the check of dead waiters: no waiter of `v` is left in any condition. -/
theorem C97_waiters (cnt : Pool → Nat) (hl : Limits cnt) (fuel : Nat) (hfu : Fuel cnt fuel) (base : Nat → Nat)
    (A : State → Ev → Prop) (σ : Nat → State) (ε : Nat → Option Ev) (ex : Exec cnt fuel base A σ ε) (t i j v : Nat) (hij : i ≤ j)
    (hv : (σ i).alive v = false) (hb : (σ i).pc t = .acqC .swC) (hsp : ∀ r, i ≤ r → r < j → ε r = some (.go t .spur) → asks cnt base (σ r) t ≠ some v)
    (he : checking ((σ j).pc t) = false ∧ (σ j).pc t ≠ .acqC .swC) :
    ∀ j', j ≤ j' → NoneWaits cnt fuel (σ j') v := by
  obtain ⟨hw, -⟩ := noWrap_of_limits cnt hl
  obtain ⟨T, s, s1, e1, e2, F⟩ := follows hl hfu ex
  intro j' hj
  refine noneWaits_of hw hfu (F.sim j') (F.clrC_end hw hfu ex hij hv hsp (.inl ?_) ?_ he.1 hj)
  · rw [hb]; rfl
  · unfold preC; split
    · exact absurd (by assumption) he.2
    · rfl

/-- C97: so it is in particular when a call that only checks has returned. -/
theorem C97_waitersCall (cnt : Pool → Nat) (hl : Limits cnt) (fuel : Nat) (hfu : Fuel cnt fuel) (base : Nat → Nat)
    (A : State → Ev → Prop) (σ : Nat → State) (ε : Nat → Option Ev) (ex : Exec cnt fuel base A σ ε) (t i j v r : Nat) (hij : i < j)
    (hv : (σ i).alive v = false) (hb : ε i = some (.call t .sweepC))
    (hsp : ∀ r, i ≤ r → r < j → ε r = some (.go t .spur) → asks cnt base (σ r) t ≠ some v) (he : (σ j).pc t = .done r) :
    ∀ j', j ≤ j' → NoneWaits cnt fuel (σ j') v := by
  refine C97_waiters cnt hl fuel hfu base A σ ε ex t (i + 1) j v hij (dead_on ex (Nat.le_succ i) hv) ?_
    (fun r h1 h2 => hsp r (by omega) h2) (by rw [he]; exact ⟨rfl, by simp⟩)
  have hn := ex.next i
  rw [hb] at hn
  have hst := hn.2
  simp only [step] at hst
  split at hst
  · cases hst
  · split at hst
    · rw [← Option.some.inj hst]; simp [start]
    · cases hst

/-! ### Cases that meet the hypotheses -/

/-- 1 owns the mutex 7 and is killed between the two writes that enter the mutex 9; 2 checks, meanwhile 3 asks for 7. -/
def owners97 : List Ev := .call 1 (.lock 7 .block) :: alone71 1 8 ++ .call 1 (.lock 9 .block) :: alone71 1 3 ++
  [.die 1 .go 1, .call 2 .sweepM] ++ alone71 2 4 ++ .call 3 (.lock 7 .block) :: alone71 2 6

/-- 1 waits on the condition 5 and is killed; 2 checks, meanwhile 3 signals. -/
def waiters97 : List Ev := .call 1 (.lock 7 .block) :: alone71 1 8 ++ .call 1 (.wait 5 7 .block) :: alone71 1 18 ++
  [.die 1 .go 0, .call 2 .sweepC] ++ alone71 2 5 ++ .call 3 (.signal 5) :: alone71 2 5

/-- The execution of events of which none kills during a check. -/
theorem exec97 {es : List Ev} {s : State} (hr : run cnt96 5 base71 s96 es = some s)
    (hd : ∀ i < es.length, (match es[i]? with
        | some (.die _ _ _) => ((es ++ []).map actor).all fun u => !checking ((st96 cnt96 base71 s96 es [] i).pc u)
        | _ => true) = true) :
    Exec cnt96 5 base71 okDie (st96 cnt96 base71 s96 es []) (ev96 es []) :=
  exec96 (lp := []) hr rfl (by
    intro i hi v c j hv
    have := hd i hi
    rw [List.append_nil] at hv
    rw [hv] at this
    exact this)

theorem nospur97 {es : List Ev} {t : Nat} (h : es.all (fun e => decide (e ≠ .go t .spur)) = true) (r : Nat) :
    ev96 es [] r ≠ some (.go t .spur) := by
  intro hr
  unfold ev96 at hr
  split at hr
  · have := List.all_eq_true.1 h _ (List.mem_of_getElem? hr)
    simp at this
  · simp at hr

/-- Non-vacuity of C97: the mutex of the dead 1 is listed when the check is called. -/
example : ∃ σ ε, Exec cnt96 5 base71 okDie σ ε ∧ (σ 14).alive 1 = false ∧ 0 ∈ listed cnt96 4096 5 (σ 14).mem .mtxs ∧
    (σ 14).mem.mval 0 = 1 ∧ ∀ j', 26 ≤ j' → NoneOwned cnt96 5 (σ j') 1 := by
  have e : (run cnt96 5 base71 s96 owners97).isSome = true := by decide +kernel
  obtain ⟨s, hr⟩ := Option.isSome_iff_exists.1 e
  have ex := exec97 hr (by decide +kernel)
  have h : decide ((st96 cnt96 base71 s96 owners97 [] 14).alive 1 = false ∧
      0 ∈ listed cnt96 4096 5 (st96 cnt96 base71 s96 owners97 [] 14).mem .mtxs ∧
      (st96 cnt96 base71 s96 owners97 [] 14).mem.mval 0 = 1 ∧
      (st96 cnt96 base71 s96 owners97 [] 26).pc 2 = .done 0) = true := by decide +kernel
  obtain ⟨h1, h2, h3, h4⟩ := of_decide_eq_true h
  exact ⟨_, _, ex, h1, h2, h3, C97_ownersCall _ limits96 _ fuel96 _ _ _ _ ex 2 14 26 1 0 (by omega) (by omega) h1 rfl
    (fun r _ _ h => absurd h (nospur97 (by decide +kernel) r)) h4⟩

/-- Non-vacuity of C97: the waiter of the dead 1 is listed when the check is called. -/
example : ∃ σ ε, Exec cnt96 5 base71 okDie σ ε ∧ (σ 29).alive 1 = false ∧ 0 ∈ listed cnt96 4096 5 (σ 29).mem .conds ∧
    0 ∈ listed cnt96 4096 5 (σ 29).mem (.ws 0) ∧ (σ 29).mem.wtid 0 = 1 ∧ ∀ j', 41 ≤ j' → NoneWaits cnt96 5 (σ j') 1 := by
  have e : (run cnt96 5 base71 s96 waiters97).isSome = true := by decide +kernel
  obtain ⟨s, hr⟩ := Option.isSome_iff_exists.1 e
  have ex := exec97 hr (by decide +kernel)
  have h : decide ((st96 cnt96 base71 s96 waiters97 [] 29).alive 1 = false ∧
      0 ∈ listed cnt96 4096 5 (st96 cnt96 base71 s96 waiters97 [] 29).mem .conds ∧
      0 ∈ listed cnt96 4096 5 (st96 cnt96 base71 s96 waiters97 [] 29).mem (.ws 0) ∧
      (st96 cnt96 base71 s96 waiters97 [] 29).mem.wtid 0 = 1 ∧
      (st96 cnt96 base71 s96 waiters97 [] 41).pc 2 = .done 0) = true := by decide +kernel
  obtain ⟨h1, h2, h3, h5, h4⟩ := of_decide_eq_true h
  exact ⟨_, _, ex, h1, h2, h3, h5, C97_waitersCall _ limits96 _ fuel96 _ _ _ _ ex 2 29 41 1 0 (by omega) h1 rfl
    (fun r _ _ h => absurd h (nospur97 (by decide +kernel) r)) h4⟩

/-- Non-vacuity of C97: the check that a lock call makes (`killed96`). -/
example : ∃ σ ε, Exec cnt96 5 base71 okDie σ ε ∧ (σ 20).alive 1 = false ∧ (σ 20).mem.mval 0 = 1 ∧ ∀ j', 33 ≤ j' → NoneOwned cnt96 5 (σ j') 1 := by
  have e : (run cnt96 5 base71 s96 killed96).isSome = true := by decide +kernel
  obtain ⟨s, hr⟩ := Option.isSome_iff_exists.1 e
  have ex := exec97 hr (by decide +kernel)
  have h : decide ((st96 cnt96 base71 s96 killed96 [] 20).alive 1 = false ∧
      (st96 cnt96 base71 s96 killed96 [] 20).mem.mval 0 = 1 ∧
      (st96 cnt96 base71 s96 killed96 [] 20).pc 2 = .acqM (.swTop (some (0, .block, .api))) ∧
      (st96 cnt96 base71 s96 killed96 [] 33).pc 2 = .done 0) = true := by decide +kernel
  obtain ⟨h1, h2, h3, h4⟩ := of_decide_eq_true h
  exact ⟨_, _, ex, h1, h2, C97_owners _ limits96 _ fuel96 _ _ _ _ ex 2 20 33 1 (by omega) (by omega) h1 ⟨_, h3⟩
    (fun r _ _ h => absurd h (nospur97 (by decide +kernel) r)) (by rw [h4]; exact ⟨rfl, by simp⟩)⟩

end Fullock.Props
