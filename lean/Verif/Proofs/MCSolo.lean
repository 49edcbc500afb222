import Verif.Proofs.MCOwn
/-!
Threads running alone.
-/
namespace Fullock.MC

/-- Consecutive steps of one thread. -/
def exec (alive : Nat → Bool) (t : Nat) : Mem → Pc → List Choice → Option (Mem × Pc)
  | M, p, [] => some (M, p)
  | M, p, c :: cs => (plan M alive t p c).bind fun x => exec alive t x.1 x.2 cs

theorem exec_append {alive : Nat → Bool} {t : Nat} {M M' : Mem} {p p' : Pc} {cs : List Choice}
    (h : exec alive t M p cs = some (M', p')) (ds : List Choice) :
    exec alive t M p (cs ++ ds) = exec alive t M' p' ds := by
  induction cs generalizing M p with
  | nil => simp only [exec, Option.some.injEq, Prod.mk.injEq] at h; rw [h.1, h.2]; rfl
  | cons c cs ih =>
    simp only [exec, List.cons_append, Option.bind_eq_some_iff] at h ⊢
    obtain ⟨x, hx, h⟩ := h
    rw [hx]
    exact ih h

theorem run_append {s s' : State} {es : List Ev} (h : run s es = some s') (fs : List Ev) :
    run s (es ++ fs) = run s' fs := by
  induction es generalizing s with
  | nil => simp only [run, Option.some.injEq] at h; rw [h]; rfl
  | cons e es ih =>
    simp only [run, List.cons_append, Option.bind_eq_some_iff] at h ⊢
    obtain ⟨x, hx, h⟩ := h
    rw [hx]
    exact ih h

theorem upd_twice {α : Type} (f : Nat → α) (a : Nat) (b c : α) : upd (upd f a b) a c = upd f a c := by
  funext x; simp only [upd]; split <;> rfl

theorem upd_self {α : Type} (f : Nat → α) (a : Nat) : upd f a (f a) = f := by
  funext x; simp only [upd]; split <;> simp_all

theorem run_alone {s : State} {t : Nat} {cs : List Choice} {M' : Mem} {p' : Pc}
    (ta : s.alive t = true) (h : exec s.alive t s.mem (s.pc t) cs = some (M', p')) :
    run s (alone t cs) = some { s with mem := M', pc := upd s.pc t p' } := by
  induction cs generalizing s with
  | nil =>
    simp only [exec, Option.some.injEq, Prod.mk.injEq] at h
    rw [← h.1, ← h.2, upd_self]; rfl
  | cons c cs ih =>
    simp only [exec, Option.bind_eq_some_iff] at h
    obtain ⟨x, hx, h⟩ := h
    have h1 : step s (.go t c) = some { s with mem := x.1, pc := upd s.pc t x.2 } := by
      simp [step, ta, hx]
    have h2 := ih (s := { s with mem := x.1, pc := upd s.pc t x.2 }) ta (by simpa using h)
    simp only [alone, List.map_cons, run, h1, Option.bind_some]
    rw [alone] at h2
    rw [h2, upd_twice]

/-- A call followed by a solo run. -/
theorem returns_of {s : State} {t : Nat} {c : Call} {cs : List Choice} {M' : Mem} {r r0 : Nat}
    (t0 : t ≠ 0) (ta : s.alive t = true) (out : s.pc t = .done r0)
    (h : exec s.alive t s.mem c.start cs = some (M', .done r)) :
    Returns s t c cs r { s with mem := M', pc := upd s.pc t (.done r), last := upd s.last t c } := by
  refine ⟨?_, by simp⟩
  have h1 : step s (.call t c) = some { s with pc := upd s.pc t c.start, last := upd s.last t c } := by
    simp [step, t0, ta, out]
  have h2 := run_alone (s := { s with pc := upd s.pc t c.start, last := upd s.last t c }) (t := t)
    ta (cs := cs) (M' := M') (p' := .done r) (by simpa using h)
  simp only [run, h1, Option.bind_some, h2, upd_twice]

/-- Nobody (alive) is inside the table lock. -/
def open_ (alive : Nat → Bool) (l : Nat) : Prop := l = 0 ∨ alive l = false

/-! ### lock -/

/-- The lock loop on a free mutex. -/
theorem exec_lock_free {alive : Nat → Bool} {t m : Nat} {M : Mem} {kd : Kind} {k : LK} (t0 : t ≠ 0)
    (h : M.mval m = 0) :
    exec alive t M (.lkRead m kd k) [.go, .go, .go] =
      some ({ M with mval := upd M.mval m t, mcnt := upd M.mcnt m (M.mcnt m + 1),
                     dep := upd M.dep m (upd (M.dep m) t (M.dep m t + 1)) }, fin k 0) := by
  simp [exec, plan, h, Ne.symm t0]

/-- The lock loop on the own mutex. -/
theorem exec_lock_own {alive : Nat → Bool} {t m : Nat} {M : Mem} {kd : Kind} {k : LK}
    (h : M.mval m = t) (h0 : 0 ≤ M.mcnt m) :
    exec alive t M (.lkRead m kd k) [.go, .go, .go] =
      some ({ M with mcnt := upd M.mcnt m (M.mcnt m + 1),
                     dep := upd M.dep m (upd (M.dep m) t (M.dep m t + 1)) }, fin k 0) := by
  simp [exec, plan, h, h0]

/-- One attempt on the mutex of another. -/
theorem exec_lock_held {alive : Nat → Bool} {t m : Nat} {M : Mem} {kd : Kind} {k : LK} {c : Choice}
    {p : Pc} (h : M.mval m ≠ t) (h0 : M.mval m ≠ 0) (hf : failed m kd k c = some p) :
    exec alive t M (.lkRead m kd k) [.go, c] = some (M, p) := by
  simp [exec, plan, h, h0, hf]

/-- Finding an existing mutex. -/
theorem exec_find {alive : Nat → Bool} {t m : Nat} {M : Mem} {kd : Kind} (ho : open_ alive M.mL)
    (h : m ∈ M.mlist) :
    exec alive t M (.acqM (.mFind m kd)) [.go, .go, .go] = some ({ M with mL := 0 }, .lkRead m kd .api) := by
  rcases ho with ho | ho <;> simp [exec, plan, h, ho]

/-- Creating a mutex. -/
theorem exec_create {alive : Nat → Bool} {t m : Nat} {M : Mem} {kd : Kind} (ho : open_ alive M.mL)
    (h : m ∉ M.mlist) (h0 : M.mroom ≠ 0) :
    exec alive t M (.acqM (.mFind m kd)) [.go, .go, .go, .go] =
      some ({ M with mL := 0, mroom := M.mroom - 1, mlist := m :: M.mlist, mval := upd M.mval m 0,
                     mcnt := upd M.mcnt m 0 }, .lkRead m kd .api) := by
  rcases ho with ho | ho <;> simp [exec, plan, h, ho, h0]

theorem exec_full {alive : Nat → Bool} {t m : Nat} {M : Mem} {kd : Kind} (ho : open_ alive M.mL)
    (h : m ∉ M.mlist) (h0 : M.mroom = 0) :
    exec alive t M (.acqM (.mFind m kd)) [.go, .go, .go] = some ({ M with mL := 0 }, .done ENOLCK) := by
  rcases ho with ho | ho <;> simp [exec, plan, h, ho, h0]

/-! ### unlock -/

/-- The unlock loop on the own mutex, counted `n + 1` times. -/
theorem exec_unlock_own {alive : Nat → Bool} {t m : Nat} {k : UK} (t0 : t ≠ 0) (n : Nat) :
    ∀ M : Mem, M.mval m = t → M.mcnt m = n + 1 →
    exec alive t M (.ulRead m k) (List.replicate (3 * n + 4) .go) =
      some ({ M with mval := upd M.mval m 0, mcnt := upd M.mcnt m 0,
                     dep := upd M.dep m (upd (M.dep m) t 0) }, ufin k 0) := by
  induction n with
  | zero =>
    intro M h hc
    simp at hc
    simp [exec, plan, h, t0, hc, List.replicate]
  | succ n ih =>
    intro M h hc
    rw [show 3 * (n + 1) + 4 = 3 + (3 * n + 4) by omega, ← List.replicate_append_replicate]
    have h1 : exec alive t M (.ulRead m k) (List.replicate 3 .go) =
        some ({ M with mcnt := upd M.mcnt m (n + 1) }, .ulRead m k) := by
      have : ¬ M.mcnt m ≤ 1 := by omega
      have e : M.mcnt m - 1 = n + 1 := by omega
      simp [exec, plan, h, t0, this, List.replicate, e]
    rw [exec_append h1, ih { M with mcnt := upd M.mcnt m (n + 1) } h (by simp)]
    simp [upd_twice]

/-- One unlock by the owner releases the mutex, whatever the nesting. -/
theorem exec_unlock {alive : Nat → Bool} {t m n : Nat} {M : Mem} (t0 : t ≠ 0)
    (ho : open_ alive M.mL) (hm : m ∈ M.mlist) (h : M.mval m = t) (hc : M.mcnt m = n + 1) :
    exec alive t M (.acqM (.uFind m)) (List.replicate (3 * n + 7) .go) =
      some ({ M with mL := 0, mval := upd M.mval m 0, mcnt := upd M.mcnt m 0,
                     dep := upd M.dep m (upd (M.dep m) t 0) }, .done 0) := by
  rw [show 3 * n + 7 = 2 + ((3 * n + 4) + 1) by omega, ← List.replicate_append_replicate,
    ← List.replicate_append_replicate]
  have h1 : exec alive t M (.acqM (.uFind m)) (List.replicate 2 .go) =
      some ({ M with mL := t }, .ulRead m .api) := by
    rcases ho with ho | ho <;> simp [exec, plan, ho, hm, List.replicate]
  rw [exec_append h1, exec_append (exec_unlock_own t0 n { M with mL := t } h hc)]
  simp [exec, plan, ufin, List.replicate]

theorem exec_unlock_free {alive : Nat → Bool} {t m : Nat} {M : Mem}
    (ho : open_ alive M.mL) (hm : m ∈ M.mlist) (h : M.mval m = 0) :
    exec alive t M (.acqM (.uFind m)) [.go, .go, .go, .go] =
      some ({ M with mL := 0, dep := upd M.dep m (upd (M.dep m) t 0) }, .done 0) := by
  rcases ho with ho | ho <;> simp [exec, plan, ho, hm, h, ufin]

theorem exec_unlock_other {alive : Nat → Bool} {t m : Nat} {M : Mem}
    (ho : open_ alive M.mL) (hm : m ∈ M.mlist) (h : M.mval m ≠ t) (h0 : M.mval m ≠ 0) :
    exec alive t M (.acqM (.uFind m)) [.go, .go, .go, .go, .go] =
      some ({ M with mL := 0 }, .done EPERM) := by
  rcases ho with ho | ho <;> simp [exec, plan, ho, hm, h, h0, ufin, EPERM]

theorem exec_unlock_none {alive : Nat → Bool} {t m : Nat} {M : Mem}
    (ho : open_ alive M.mL) (hm : m ∉ M.mlist) :
    exec alive t M (.acqM (.uFind m)) [.go, .go, .go] = some ({ M with mL := 0 }, .done EINVAL) := by
  rcases ho with ho | ho <;> simp [exec, plan, ho, hm]

/-! ### The check of dead owners -/

/-- The choices of the check for one record: the code reads the owner, asks whether it is alive and
forces the mutex open if not (/repo/lib/flcklistnmtx.cc 97-121). -/
def checkChoices (alive : Nat → Bool) (t v : Nat) (m : Nat) : List Choice :=
  if v = 0 ∨ v = t then [.mx m]
  else if alive v then [.mx m, .go]
  else [.mx m, .go, .go, .go, .go, .go]

/-- The choices of the check of all records (/repo/lib/flckshm.cc 584-589). -/
def sweepChoices (alive : Nat → Bool) (t : Nat) (mval : Nat → Nat) (l : List Nat) : List Choice :=
  l.flatMap fun m => checkChoices alive t (mval m) m

/-- Mutexes of dead owners in `l` are opened. -/
def opened (alive : Nat → Bool) (l : List Nat) (M : Mem) : Mem :=
  { M with
    mval := fun m => if m ∈ l ∧ M.mval m ≠ 0 ∧ alive (M.mval m) = false then 0 else M.mval m
    mcnt := fun m => if m ∈ l ∧ M.mval m ≠ 0 ∧ alive (M.mval m) = false then 0 else M.mcnt m }

theorem Mem.ext_mutex {M : Mem} {v v' : Nat → Nat} {c c' : Nat → Int} (h : v = v') (h' : c = c') :
    ({ M with mval := v, mcnt := c } : Mem) = { M with mval := v', mcnt := c' } := by rw [h, h']

theorem exec_check {alive : Nat → Bool} {t m : Nat} {M : Mem} {k : Option (Nat × Kind × LK)}
    (ta : alive t = true) (hm : m ∈ M.mlist) :
    exec alive t M (.swM k) (checkChoices alive t (M.mval m) m) = some (opened alive [m] M, .swM k) := by
  by_cases h0 : M.mval m = 0 ∨ M.mval m = t
  · have : opened alive [m] M = M := by
      have e1 : (fun x => if x ∈ [m] ∧ M.mval x ≠ 0 ∧ alive (M.mval x) = false then 0 else M.mval x) = M.mval := by
        funext x; grind
      have e2 : (fun x => if x ∈ [m] ∧ M.mval x ≠ 0 ∧ alive (M.mval x) = false then 0 else M.mcnt x) = M.mcnt := by
        funext x; grind
      simp only [opened, e1, e2]
    rw [this]
    simp [checkChoices, h0, exec, plan, hm]
  · obtain ⟨h0, h1⟩ : M.mval m ≠ 0 ∧ M.mval m ≠ t := by omega
    by_cases ha : alive (M.mval m)
    · have : opened alive [m] M = M := by
        have e1 : (fun x => if x ∈ [m] ∧ M.mval x ≠ 0 ∧ alive (M.mval x) = false then 0 else M.mval x) = M.mval := by
          funext x; grind
        have e2 : (fun x => if x ∈ [m] ∧ M.mval x ≠ 0 ∧ alive (M.mval x) = false then 0 else M.mcnt x) = M.mcnt := by
          funext x; grind
        simp only [opened, e1, e2]
      rw [this]
      simp [checkChoices, h0, h1, exec, plan, hm, ha]
    · have ha : alive (M.mval m) = false := by simpa using ha
      have e1 : (fun x => if x ∈ [m] ∧ M.mval x ≠ 0 ∧ alive (M.mval x) = false then 0 else M.mval x) =
          upd M.mval m 0 := by funext x; grind
      have e2 : (fun x => if x ∈ [m] ∧ M.mval x ≠ 0 ∧ alive (M.mval x) = false then 0 else M.mcnt x) =
          upd M.mcnt m 0 := by funext x; grind
      simp only [opened, e1, e2]
      by_cases hc : M.mcnt m = 0
      · have e3 : upd M.mcnt m 0 = M.mcnt := by rw [← hc, upd_self]
        simp [checkChoices, h0, h1, exec, plan, hm, ha, hc, e3]
      · simp [checkChoices, h0, h1, exec, plan, hm, ha, hc]

theorem exec_sweepM {alive : Nat → Bool} {t : Nat} {k : Option (Nat × Kind × LK)}
    (ta : alive t = true) : ∀ (l : List Nat) (M : Mem), l.Nodup → (∀ m ∈ l, m ∈ M.mlist) →
    exec alive t M (.swM k) (sweepChoices alive t M.mval l) = some (opened alive l M, .swM k) := by
  intro l
  induction l with
  | nil => intro M _ _; simp [sweepChoices, exec, opened]
  | cons m l ih =>
    intro M nd hl
    obtain ⟨hn, nd⟩ := List.nodup_cons.mp nd
    have h1 := exec_check (M := M) (k := k) ta (hl m (by simp))
    have h2 := ih (opened alive [m] M) nd (fun x hx => hl x (by simp [hx]))
    have e : sweepChoices alive t (opened alive [m] M).mval l = sweepChoices alive t M.mval l := by
      simp only [sweepChoices, List.flatMap]
      congr 1
      apply List.map_congr_left
      intro x hx
      have : x ≠ m := by rintro rfl; exact hn hx
      simp [opened, this]
    rw [e] at h2
    show exec alive t M (.swM k) (checkChoices alive t (M.mval m) m ++ sweepChoices alive t M.mval l) = _
    rw [exec_append h1, h2]
    have e1 : (opened alive l (opened alive [m] M)).mval = (opened alive (m :: l) M).mval := by
      funext x; simp only [opened]; grind
    have e2 : (opened alive l (opened alive [m] M)).mcnt = (opened alive (m :: l) M).mcnt := by
      funext x; simp only [opened]; grind
    simp only [Option.some.injEq, Prod.mk.injEq, and_true]
    exact Mem.ext_mutex (M := M) e1 e2

/-- The whole check. -/
theorem exec_sweep_call {alive : Nat → Bool} {t : Nat} {M : Mem} (ta : alive t = true)
    (ho : open_ alive M.mL) (nd : M.mlist.Nodup) :
    exec alive t M (.acqM (.swM none)) (.go :: (sweepChoices alive t M.mval M.mlist ++ [.go, .go])) =
      some ({ opened alive M.mlist M with mL := 0 }, .done 0) := by
  have h1 : exec alive t M (.acqM (.swM none)) [.go] = some ({ M with mL := t }, .swM none) := by
    rcases ho with ho | ho <;> simp [exec, plan, ho]
  have h2 := exec_sweepM (alive := alive) (t := t) (k := none) ta M.mlist { M with mL := t } nd
    (fun _ h => h)
  rw [show (.go :: (sweepChoices alive t M.mval M.mlist ++ [.go, .go]) : List Choice) =
    [.go] ++ (sweepChoices alive t M.mval M.mlist ++ [.go, .go]) from rfl, exec_append h1,
    exec_append h2]
  simp [exec, plan, swBack, opened]

end Fullock.MC
