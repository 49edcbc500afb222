import Verif.Proofs.MCFail
/-!
Concrete runs of the model of mutexes and conditions, for the examples and counterexamples.
-/
namespace Fullock.MC

/-- Free records may contain anything; here: every mutex record claims to be owned by thread 9. -/
def junk0 : Mem where
  mval := fun _ => 9
  mcnt := fun _ => 5
  mlist := []
  mroom := 0
  mL := 0
  clist := []
  croom := 0
  cL := 0
  ws := fun _ => []
  wfree := []
  wtid := fun _ => 9
  wup := fun _ => true
  dep := fun _ _ => 0
  warr := fun _ => 0
  tick := 0

/-- `n` plain steps of `t`. -/
def gos (t n : Nat) : List Ev := List.replicate n (.go t .go)

theorem run_case {α : Type} {s0 : State} {es : List Ev} (f : State → α) (v : α)
    (h : (run s0 es).map f = some v) : ∃ s, run s0 es = some s ∧ f s = v := by
  cases hr : run s0 es with
  | none => rw [hr] at h; simp at h
  | some s => rw [hr] at h; exact ⟨s, rfl, by simpa using h⟩

theorem reach_run {A : State → Ev → Prop} {s s' : State} {es : List Ev} (h0 : Reach A s)
    (h : run s es = some s') (ha : allowed A s es) : Reach A s' := by
  induction es generalizing s with
  | nil => cases h; exact h0
  | cons e es ih =>
    simp only [run, Option.bind_eq_some_iff] at h
    obtain ⟨s1, h1, h⟩ := h
    exact ih (.step h0 ha.1 h1) h (ha.2 s1 h1)

theorem allowed_any (s : State) (es : List Ev) : allowed anyEv s es := by
  induction es generalizing s with
  | nil => trivial
  | cons e es ih => exact ⟨trivial, fun s' _ => ih s'⟩

theorem allowed_all {A : State → Ev → Prop} (es : List Ev) (h : ∀ e ∈ es, ∀ s, A s e) (s : State) :
    allowed A s es := by
  induction es generalizing s with
  | nil => trivial
  | cons e es ih => exact ⟨h e (by simp) s, fun s' _ => ih (fun e he => h e (by simp [he])) s'⟩

/-- Is the event a death? -/
def Ev.isDie : Ev → Bool
  | .die _ => true
  | _ => false

def Ev.isWait : Ev → Bool
  | .call _ (.wait _ _ _) => true
  | _ => false

theorem allowed_noDeath {es : List Ev} (h : es.all (fun e => !e.isDie) = true) (s : State) :
    allowed noDeath s es := by
  refine allowed_all es ?_ s
  intro e he s
  have := List.all_eq_true.mp h e he
  cases e <;> simp_all [Ev.isDie, noDeath]

theorem okDie_of_noDeath {s : State} {e : Ev} (h : noDeath s e) : okDie s e := by
  cases e <;> simp_all [okDie, noDeath]

theorem allowed_okDie {es : List Ev} (h : es.all (fun e => !e.isDie) = true) (s : State) :
    allowed okDie s es := by
  refine allowed_all es ?_ s
  intro e he s
  have := List.all_eq_true.mp h e he
  cases e <;> simp_all [Ev.isDie, okDie]

theorem allowed_noWait {es : List Ev} (h : es.all (fun e => !e.isWait) = true) (s : State) :
    allowed noWait s es := by
  refine allowed_all es ?_ s
  intro e he s
  have := List.all_eq_true.mp h e he
  cases e with
  | call t c => cases c <;> simp_all [Ev.isWait, noWait]
  | _ => trivial

theorem run_reach {nm nc nw : Nat} {junk : Mem} {es : List Ev} {s : State}
    (h : run (init nm nc nw junk) es = some s) : Reach anyEv s :=
  reach_run (.init ..) h (allowed_any _ _)

theorem run_reach_okDie {nm nc nw : Nat} {junk : Mem} {es : List Ev} {s : State}
    (h : run (init nm nc nw junk) es = some s) (hd : es.all (fun e => !e.isDie) = true) :
    Reach okDie s := reach_run (.init ..) h (allowed_okDie hd _)

theorem run_reach_noDeath {nm nc nw : Nat} {junk : Mem} {es : List Ev} {s : State}
    (h : run (init nm nc nw junk) es = some s) (hd : es.all (fun e => !e.isDie) = true) :
    Reach noDeath s := reach_run (.init ..) h (allowed_noDeath hd _)

theorem run_reach_noWait {nm nc nw : Nat} {junk : Mem} {es : List Ev} {s : State}
    (h : run (init nm nc nw junk) es = some s) (hd : es.all (fun e => !e.isWait) = true) :
    Reach noWait s := reach_run (.init ..) h (allowed_noWait hd _)

end Fullock.MC
