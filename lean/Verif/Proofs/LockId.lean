import Verif.Model.LockId
namespace Fullock.LockId

/-- Inside the section: from acquisition to the end of the release call. -/
def Pc.inside : Pc → Prop
  | .crit | .rel .. | .rchk .. | .rsteal .. => True
  | _ => False

structure Inv (s : State) : Prop where
  own : ∀ t, s.alive t = true → (s.pc t).inside → s.lockid = t
  nz : ∀ t, s.pc t ≠ .out → t ≠ 0
  steal : ∀ t cnt v, s.pc t = .steal cnt v → s.alive v = false
  norel : ∀ t, s.alive t = true → (∀ c o, s.pc t ≠ .rchk c o ∧ s.pc t ≠ .rsteal c o)
  chk : ∀ t c v, (s.pc t = .chk c v ∨ s.pc t = .steal c v) → v ≠ 0
  dead0 : s.lockid = 0 ∨ s.alive s.lockid = false ∨ (s.pc s.lockid).inside

@[simp] theorem setPc_pc (s : State) (t : Nat) (p : Pc) (u : Nat) :
    (s.setPc t p).pc u = if u = t then p else s.pc u := rfl
@[simp] theorem setPc_lockid (s : State) (t : Nat) (p : Pc) : (s.setPc t p).lockid = s.lockid := rfl
@[simp] theorem setPc_alive (s : State) (t : Nat) (p : Pc) : (s.setPc t p).alive = s.alive := rfl

theorem inv_init : Inv init := by
  constructor <;> simp [init, Pc.inside]

theorem inv_setPc {s : State} (h : Inv s) {t : Nat} {p : Pc} (ht0 : p ≠ .out → t ≠ 0)
    (hin : p.inside → s.lockid = t) (hout : ¬ p.inside → s.alive t = true → s.lockid ≠ t)
    (hst : ∀ c v, p = .steal c v → s.alive v = false)
    (hch : ∀ c v, (p = .chk c v ∨ p = .steal c v) → v ≠ 0)
    (hnr : ∀ c o, p ≠ .rchk c o ∧ p ≠ .rsteal c o) : Inv (s.setPc t p) := by
  constructor
  · intro u hu hi
    simp only [setPc_pc, setPc_lockid, setPc_alive] at *
    split at hi
    · rename_i h1; subst h1; exact hin hi
    · exact h.own u hu hi
  · intro u hu
    simp only [setPc_pc] at hu
    split at hu
    · rename_i h1; subst h1; exact ht0 hu
    · exact h.nz u hu
  · intro u c v hu
    simp only [setPc_pc] at hu
    split at hu
    · exact hst c v hu
    · exact h.steal u c v hu
  · intro u hu c o
    simp only [setPc_pc]
    split
    · exact hnr c o
    · exact h.norel u hu c o
  · intro u c v hu
    simp only [setPc_pc] at hu
    split at hu
    · exact hch c v hu
    · exact h.chk u c v hu
  · simp only [setPc_pc, setPc_lockid, setPc_alive]
    rcases h.dead0 with h1 | h1 | h1
    · left; exact h1
    · right; left; exact h1
    · by_cases hl : s.lockid = t
      · rw [if_pos hl]
        by_cases hp : p.inside
        · right; right; exact hp
        · by_cases ha : s.alive t = true
          · exact absurd hl (hout hp ha)
          · right; left; rw [hl]; simpa using ha
      · rw [if_neg hl]; right; right; exact h1

/-- Taking the lock. -/
theorem inv_take {s : State} (h : Inv s) {t : Nat} (ht : t ≠ 0)
    (hfree : ∀ u, s.alive u = true → (s.pc u).inside → u = t) :
    Inv ({ s with lockid := t }.setPc t .crit) := by
  constructor
  · intro u hu hi
    simp only [setPc_pc, setPc_lockid, setPc_alive] at *
    split at hi
    · rename_i h1; exact h1.symm
    · exact (hfree u hu hi).symm
  · intro u hu
    simp only [setPc_pc] at hu
    split at hu
    · rename_i h1; subst h1; exact ht
    · exact h.nz u hu
  · intro u c v hu
    simp only [setPc_pc] at hu
    split at hu
    · simp at hu
    · exact h.steal u c v hu
  · intro u hu c o
    simp only [setPc_pc]
    split
    · simp
    · exact h.norel u hu c o
  · intro u c v hu
    simp only [setPc_pc] at hu
    split at hu
    · simp at hu
    · exact h.chk u c v hu
  · right; right
    simp [Pc.inside]

/-- Giving the lock back. -/
theorem inv_free {s : State} (h : Inv s) {t : Nat}
    (hfree : ∀ u, s.alive u = true → (s.pc u).inside → u = t) :
    Inv ({ s with lockid := 0 }.setPc t .out) := by
  constructor
  · intro u hu hi
    simp only [setPc_pc, setPc_lockid, setPc_alive] at *
    split at hi
    · simp [Pc.inside] at hi
    · rename_i hne; exact absurd (hfree u hu hi) hne
  · intro u hu
    simp only [setPc_pc] at hu
    split at hu
    · simp at hu
    · exact h.nz u hu
  · intro u c v hu
    simp only [setPc_pc] at hu
    split at hu
    · simp at hu
    · exact h.steal u c v hu
  · intro u hu c o
    simp only [setPc_pc]
    split
    · simp
    · exact h.norel u hu c o
  · intro u c v hu
    simp only [setPc_pc] at hu
    split at hu
    · simp at hu
    · exact h.chk u c v hu
  · left; rfl

theorem inv_own {s : State} (h : Inv s) {t : Nat} (ha : s.alive t = true) : Inv (own s t) := by
  unfold own
  cases hp : s.pc t with
  | out => exact h
  | crit => exact h
  | acq cnt old2 =>
    have ht : t ≠ 0 := h.nz t (by simp [hp])
    simp only
    split
    · rename_i h0
      apply inv_take h ht
      intro u hu hi
      have := h.own u hu hi
      have hu0 : u ≠ 0 := h.nz u (by intro hh; rw [hh] at hi; exact hi)
      omega
    · split
      · rename_i h0 hv
        exfalso
        rcases h.dead0 with h1 | h1 | h1
        · exact h0 h1
        · rw [hv, ha] at h1; simp at h1
        · rw [hv, hp] at h1; exact h1
      · rename_i h0 hv
        split
        · exact inv_setPc h (fun _ => ht) (by simp [Pc.inside]) (fun _ _ => hv) (by simp)
            (by simp) (by simp)
        · split
          · exact inv_setPc h (fun _ => ht) (by simp [Pc.inside]) (fun _ _ => hv) (by simp)
              (by intro c v hh; simp at hh; rw [← hh.2]; exact h0) (by simp)
          · exact inv_setPc h (fun _ => ht) (by simp [Pc.inside]) (fun _ _ => hv) (by simp)
              (by simp) (by simp)
  | chk cnt v =>
    have ht : t ≠ 0 := h.nz t (by simp [hp])
    have hv : s.lockid ≠ t := by
      intro hv
      rcases h.dead0 with h1 | h1 | h1
      · omega
      · rw [hv, ha] at h1; simp at h1
      · rw [hv, hp] at h1; exact h1
    simp only
    split
    · exact inv_setPc h (fun _ => ht) (by simp [Pc.inside]) (fun _ _ => hv) (by simp)
        (by simp) (by simp)
    · rename_i hd
      exact inv_setPc h (fun _ => ht) (by simp [Pc.inside]) (fun _ _ => hv)
        (by intro c w hh; simp at hh; rw [← hh.2]; simpa using hd)
        (by intro c w hh; simp at hh; rw [← hh.2]; exact h.chk t cnt v (Or.inl hp)) (by simp)
  | steal cnt v =>
    have ht : t ≠ 0 := h.nz t (by simp [hp])
    have hdead := h.steal t cnt v hp
    have hv : s.lockid ≠ t := by
      intro hv
      rcases h.dead0 with h1 | h1 | h1
      · omega
      · rw [hv, ha] at h1; simp at h1
      · rw [hv, hp] at h1; exact h1
    simp only
    split
    · rename_i hl
      apply inv_take h ht
      intro u hu hi
      have := h.own u hu hi
      rw [this] at hl
      rw [← hl, hu] at hdead
      simp at hdead
    · exact inv_setPc h (fun _ => ht) (by simp [Pc.inside]) (fun _ _ => hv) (by simp)
        (by simp) (by simp)
  | rel cnt old2 =>
    have hl := h.own t ha (by rw [hp]; trivial)
    simp only
    rw [if_pos hl]
    apply inv_free h
    intro u hu hi
    have := h.own u hu hi
    omega
  | rchk cnt v => exact absurd hp (h.norel t ha cnt v).1
  | rsteal cnt v => exact absurd hp (h.norel t ha cnt v).2

theorem inv_step {s s' : State} {e : Ev} (h : Inv s) (hs : step s e = some s') : Inv s' := by
  cases e with
  | enter t =>
    simp only [step] at hs
    split at hs
    · rename_i hc
      obtain ⟨h0, ha, hp⟩ := hc
      cases hs
      apply inv_setPc h (fun _ => h0) (by simp [Pc.inside]) ?_ (by simp) (by simp) (by simp)
      intro _ _ hl
      rcases h.dead0 with h1 | h1 | h1
      · omega
      · rw [hl, ha] at h1; simp at h1
      · rw [hl, hp] at h1; exact h1
    · simp at hs
  | leave t =>
    simp only [step] at hs
    split at hs
    · rename_i hc
      obtain ⟨ha, hp⟩ := hc
      cases hs
      exact inv_setPc h (fun _ => h.nz t (by simp [hp])) (fun _ => h.own t ha (by rw [hp]; trivial))
        (by simp [Pc.inside]) (by simp) (by simp) (by simp)
    · simp at hs
  | go t =>
    simp only [step] at hs
    split at hs
    · rename_i ha
      cases hs
      exact inv_own h ha
    · simp at hs
  | die t =>
    simp only [step, Option.some.injEq] at hs
    subst hs
    constructor
    · intro u hu hi
      simp only at hu hi
      split at hu
      · simp at hu
      · exact h.own u hu hi
    · exact h.nz
    · intro u c v hu
      simp only at hu ⊢
      split
      · rfl
      · exact h.steal u c v hu
    · intro u hu
      simp only at hu
      split at hu
      · simp at hu
      · exact h.norel u hu
    · exact h.chk
    · rcases h.dead0 with h1 | h1 | h1
      · left; exact h1
      · right; left
        simp only
        split
        · rfl
        · exact h1
      · right; right; exact h1

theorem inv_run {es : List Ev} : ∀ {s s' : State}, Inv s → run s es = some s' → Inv s' := by
  induction es with
  | nil => intro s s' h hr; simp only [run, Option.some.injEq] at hr; exact hr ▸ h
  | cons e es ih =>
    intro s s' h hr
    simp only [run] at hr
    cases hs : step s e with
    | none => rw [hs] at hr; simp at hr
    | some s1 =>
      rw [hs] at hr
      exact ih (inv_step h hs) hr

/-! ### Progress after a crash -/

theorem alone_add (s : State) (t m n : Nat) : alone s t (m + n) = alone (alone s t m) t n := by
  induction m generalizing s with
  | zero => simp [alone]
  | succ m ih => rw [Nat.succ_add]; simp only [alone]; exact ih _

/-- With the dead holder remembered and the counter at `cnt`. -/
theorem steal_from (d t : Nat) (hd0 : d ≠ 0) (hdt : d ≠ t) : ∀ (k cnt : Nat) (s : State),
    s.lockid = d → s.alive d = false → s.pc t = .acq cnt d → limit + 1 ≤ cnt + k →
    ∃ n, n ≤ k + 3 ∧ (alone s t n).pc t = .crit ∧ (alone s t n).lockid = t := by
  intro k
  induction k with
  | zero =>
    intro cnt s hl hd hp hk
    refine ⟨3, by omega, ?_⟩
    have hlim : limit < cnt := by omega
    have h1 : own s t = s.setPc t (.chk cnt d) := by
      simp [own, hp, hl, hd0, hdt, hlim]
    have h2 : own (s.setPc t (.chk cnt d)) t = (s.setPc t (.chk cnt d)).setPc t (.steal cnt d) := by
      simp [own, hd]
    simp only [alone, h1, h2]
    simp [own, hl]
  | succ k ih =>
    intro cnt s hl hd hp hk
    by_cases hlim : limit < cnt
    · refine ⟨3, by omega, ?_⟩
      have h1 : own s t = s.setPc t (.chk cnt d) := by
        simp [own, hp, hl, hd0, hdt, hlim]
      have h2 : own (s.setPc t (.chk cnt d)) t =
          (s.setPc t (.chk cnt d)).setPc t (.steal cnt d) := by
        simp [own, hd]
      simp only [alone, h1, h2]
      simp [own, hl]
    · have h1 : own s t = s.setPc t (.acq (cnt + 1) d) := by
        simp [own, hp, hl, hd0, hdt, hlim]
      obtain ⟨n, hn, hc⟩ := ih (cnt + 1) (s.setPc t (.acq (cnt + 1) d)) hl hd (by simp) (by omega)
      exact ⟨n + 1, by omega, by simp only [alone, h1]; exact hc⟩

end Fullock.LockId
