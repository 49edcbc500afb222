import Verif.Spec.Tso
/-
C89: store buffers change nothing under the table lock.
-/
namespace Fullock.Props.Tso
open Fullock.Tso Fullock.Spec.Tso

variable {L : Type}

theorem fput_same {α : Type} (f : Nat → α) (t : Nat) (x : α) : fput f t x t = x := by simp [fput]
theorem fput_other {α : Type} (f : Nat → α) {t u : Nat} (x : α) (h : u ≠ t) : fput f t x u = f u := by simp [fput, h]

theorem view_append (m : Nat → Nat) (b : List (Nat × Nat)) (a v : Nat) : view m (b ++ [(a, v)]) = put (view m b) a v := by
  induction b generalizing m with
  | nil => rfl
  | cons w b ih => simp only [List.cons_append, view]; exact ih _

theorem view_other (m : Nat → Nat) (b : List (Nat × Nat)) (a : Nat) (h : ∀ v, (a, v) ∉ b) : view m b a = m a := by
  induction b generalizing m with
  | nil => rfl
  | cons w b ih =>
    simp only [view]
    rw [ih _ fun v hv => h v (List.mem_cons_of_mem _ hv)]
    have : a ≠ w.1 := fun e => h w.2 (by rw [e]; exact List.mem_cons_self)
    simp [put, this]

theorem view_put (m : Nat → Nat) (b : List (Nat × Nat)) (a v x : Nat) (h : x ≠ a) : view (put m a v) b x = view m b x := by
  induction b generalizing m with
  | nil => simp [view, put, h]
  | cons w b ih =>
    simp only [view]
    by_cases hw : w.1 = a
    · have : put (put m a v) w.1 w.2 = put m w.1 w.2 := by
        funext y; simp only [put, hw]; split <;> rfl
      rw [this]
    · have : put (put m a v) w.1 w.2 = put (put m w.1 w.2) a v := by
        funext y
        simp only [put]
        by_cases h1 : y = w.1
        · have : y ≠ a := fun e => hw (h1 ▸ e)
          simp [h1, hw]
        · simp [h1]
      rw [this]; exact ih _

/-- What ties both together. -/
structure Sim (s : St L) (c : Sc L) : Prop extends Same s c where
  dirty : ∀ u a v, (a, v) ∈ s.buf u → a ∈ c.dirty u
  apart : ∀ a u u', a ∈ c.dirty u → a ∈ c.dirty u' → u = u'

theorem sim_step {code : Nat → L → Ins L} {s s' : St L} {c : Sc L} (h : Sim s c) (hn : NoRace code c) {e : Ev}
    (he : step code s e = some s') : (Sim s' c ∧ ∃ t, e = .flush t) ∨ ∃ c', scStep code c e = some c' ∧ Sim s' c' := by
  cases e with
  | flush t =>
    left
    refine ⟨?_, t, rfl⟩
    simp only [step] at he
    split at he
    · cases he
    · rename_i w b hb
      simp only [Option.some.injEq] at he; subst he
      have hw : w.1 ∈ c.dirty t := h.dirty t w.1 w.2 (by rw [hb]; exact List.mem_cons_self)
      have hold := h.mem t
      refine ⟨⟨h.loc, h.alive, fun x a ha => ?_⟩, fun u a v hv => ?_, h.apart⟩
      · simp only at ha ⊢
        by_cases hx : x = t
        · subst hx
          rw [fput_same]
          have := hold a fun u hu v hv => ha u hu v (by rw [fput_other _ _ hu]; exact hv)
          rw [hb] at this
          exact this
        · rw [fput_other _ _ hx]
          by_cases haw : a = w.1
          · subst haw
            have h1 : ∀ u, u ≠ t → ∀ v, (w.1, v) ∉ s.buf u := fun u hu v hv => hu (h.apart _ _ _ (h.dirty u _ v hv) hw)
            rw [view_other _ _ _ (h1 x hx), ← hold w.1 h1, hb]
            simp only [view]
            rw [view_other _ b w.1 fun v hv => ha t (fun e => hx e.symm) v (by rw [fput_same]; exact hv)]
          · rw [view_put _ _ _ _ _ haw]
            refine h.mem x a fun u hu v hv => ?_
            by_cases hut : u = t
            · subst hut
              rw [hb] at hv
              rcases List.mem_cons.1 hv with e | hv
              · exact haw (by rw [← e])
              · exact ha u hu v (by rw [fput_same]; exact hv)
            · exact ha u hu v (by rw [fput_other _ _ hut]; exact hv)
      · simp only at hv
        by_cases hut : u = t
        · subst hut
          rw [fput_same] at hv
          exact h.dirty u a v (by rw [hb]; exact List.mem_cons_of_mem _ hv)
        · rw [fput_other _ _ hut] at hv
          exact h.dirty u a v hv
  | die t =>
    right
    simp only [step] at he
    split at he
    · rename_i hb
      simp only [Option.some.injEq] at he; subst he
      refine ⟨_, rfl, ⟨h.loc, by simp only [h.alive], h.mem⟩, fun u a v hv => ?_, fun a u u' hu hu' => ?_⟩
      · simp only at hv ⊢
        by_cases hut : u = t
        · subst hut; rw [hb] at hv; cases hv
        · rw [fput_other _ _ hut]; exact h.dirty u a v hv
      · simp only at hu hu'
        by_cases h1 : u = t
        · subst h1; rw [fput_same] at hu; cases hu
        · by_cases h2 : u' = t
          · subst h2; rw [fput_same] at hu'; cases hu'
          · rw [fput_other _ _ h1] at hu; rw [fput_other _ _ h2] at hu'; exact h.apart a u u' hu hu'
    · cases he
  | run t n =>
    right
    simp only [step] at he
    split at he
    · cases he
    rename_i hal
    have hal' : c.alive t = true := by rw [← h.alive]; simpa using hal
    have hclean : ∀ a, touches (code t (c.loc t)) a → ∀ u, u ≠ t → ∀ v, (a, v) ∉ s.buf u :=
      fun a ha u hu v hv => hn t hal' a ha u hu (h.dirty u a v hv)
    simp only [scStep]
    rw [if_neg (by rw [hal']; simp)]
    rw [h.loc] at he
    cases hc : code t (c.loc t) with
    | rd a k =>
      rw [hc] at he
      simp only [Option.some.injEq] at he; subst he
      refine ⟨_, rfl, ⟨?_, h.alive, h.mem⟩, h.dirty, h.apart⟩
      simp only
      rw [h.mem t a (hclean a (by rw [hc]; rfl))]
    | wr a v l =>
      rw [hc] at he
      simp only [Option.some.injEq] at he; subst he
      refine ⟨_, rfl, ⟨rfl, h.alive, fun x b hb => ?_⟩, fun u b v' hv => ?_, fun b u u' hu hu' => ?_⟩
      · simp only at hb ⊢
        by_cases hx : x = t
        · subst hx
          rw [fput_same, view_append]
          simp only [put]
          split
          · rfl
          · exact h.mem x b fun u hu v hv => hb u hu v (by rw [fput_other _ _ hu]; exact hv)
        · rw [fput_other _ _ hx]
          have hba : b ≠ a := fun e => by
            subst e
            exact hb t (fun e => hx e.symm) v (by rw [fput_same]; simp)
          simp only [put, hba, if_false]
          refine h.mem x b fun u hu v' hv => ?_
          by_cases hut : u = t
          · subst hut; exact hb u hu v' (by rw [fput_same]; exact List.mem_append_left _ hv)
          · exact hb u hu v' (by rw [fput_other _ _ hut]; exact hv)
      · simp only at hv ⊢
        by_cases hut : u = t
        · subst hut
          rw [fput_same] at hv ⊢
          rcases List.mem_append.1 hv with hv | hv
          · exact List.mem_cons_of_mem _ (h.dirty u b v' hv)
          · simp only [List.mem_singleton, Prod.mk.injEq] at hv
            rw [hv.1]; exact List.mem_cons_self
        · rw [fput_other _ _ hut] at hv ⊢; exact h.dirty u b v' hv
      · simp only at hu hu'
        have hdis : ∀ w, w ≠ t → a ∉ c.dirty w := fun w hw => hn t hal' a (by rw [hc]; rfl) w hw
        have key : ∀ w, b ∈ fput c.dirty t (a :: c.dirty t) w → b ∈ c.dirty w ∨ (w = t ∧ b = a) := by
          intro w hw
          by_cases hwt : w = t
          · subst hwt
            rw [fput_same] at hw
            rcases List.mem_cons.1 hw with rfl | hw
            · exact Or.inr ⟨rfl, rfl⟩
            · exact Or.inl hw
          · rw [fput_other _ _ hwt] at hw; exact Or.inl hw
        rcases key u hu with h1 | ⟨h1, h1'⟩ <;> rcases key u' hu' with h2 | ⟨h2, h2'⟩
        · exact h.apart b u u' h1 h2
        · by_cases hut : u = t
          · rw [hut, h2]
          · exact absurd (h2' ▸ h1) (hdis u hut)
        · by_cases hut : u' = t
          · rw [hut, h1]
          · exact absurd (h1' ▸ h2) (hdis u' hut)
        · rw [h1, h2]
    | rmw a f k =>
      rw [hc] at he
      simp only at he
      split at he
      · rename_i hb
        simp only [Option.some.injEq] at he; subst he
        have hm : s.mem a = c.mem a := by
          have := h.mem t a (hclean a (by rw [hc]; rfl))
          rw [hb] at this
          exact this
        refine ⟨_, rfl, ⟨by simp only [hm], h.alive, fun x b hx => ?_⟩, fun u b v hv => ?_, fun b u u' hu hu' => ?_⟩
        · simp only [hm]
          have hmem := h.mem x b hx
          by_cases hba : b = a
          · subst hba
            have hx' : ∀ v, (b, v) ∉ s.buf x := by
              by_cases hxt : x = t
              · subst hxt; rw [hb]; simp
              · exact hclean b (by rw [hc]; rfl) x hxt
            rw [view_other _ _ _ hx']
            simp [put]
          · rw [view_put _ _ _ _ _ hba, hmem]
            simp [put, hba]
        · simp only at hv ⊢
          by_cases hut : u = t
          · subst hut; rw [hb] at hv; cases hv
          · rw [fput_other _ _ hut]; exact h.dirty u b v hv
        · simp only at hu hu'
          by_cases h1 : u = t
          · subst h1; rw [fput_same] at hu; cases hu
          · by_cases h2 : u' = t
            · subst h2; rw [fput_same] at hu'; cases hu'
            · rw [fput_other _ _ h1] at hu; rw [fput_other _ _ h2] at hu'; exact h.apart b u u' hu hu'
      · cases he
    | ask u k =>
      rw [hc] at he
      simp only [Option.some.injEq] at he; subst he
      exact ⟨_, rfl, ⟨by simp only [h.alive], h.alive, h.mem⟩, h.dirty, h.apart⟩
    | any k =>
      rw [hc] at he
      simp only [Option.some.injEq] at he; subst he
      exact ⟨_, rfl, ⟨rfl, h.alive, h.mem⟩, h.dirty, h.apart⟩

theorem sim_reach {code : Nat → L → Ins L} {s0 s : St L} (h0 : s0.buf = fun _ => [])
    (hn : ∀ c, SReach code (scInit s0) c → NoRace code c) (h : TReach code s0 s) : ∃ c, SReach code (scInit s0) c ∧ Sim s c := by
  induction h with
  | init =>
    refine ⟨_, .init, ⟨rfl, rfl, fun t a _ => ?_⟩, fun u a v hv => ?_, fun a u u' hu => ?_⟩
    · rw [h0]; rfl
    · rw [h0] at hv; cases hv
    · cases hu
  | step h e s' he ih =>
    obtain ⟨c, hc, hs⟩ := ih
    rcases sim_step hs (hn c hc) he with ⟨h1, _⟩ | ⟨c', h1, h2⟩
    · exact ⟨c, hc, h1⟩
    · exact ⟨c', .step hc e c' h1, h2⟩

/-- With sequentially consistent memory nothing else happens than with buffers that are emptied at once. -/
theorem back {code : Nat → L → Ins L} {s0 : St L} (h0 : s0.buf = fun _ => []) {c : Sc L} (h : SReach code (scInit s0) c) :
    TReach code s0 ⟨c.mem, fun _ => [], c.loc, c.alive⟩ := by
  induction h with
  | init =>
    have : (⟨(scInit s0).mem, fun _ => [], (scInit s0).loc, (scInit s0).alive⟩ : St L) = s0 := by
      obtain ⟨m, b, l, al⟩ := s0
      simp only at h0
      subst h0
      rfl
    rw [this]; exact .init
  | step h e c' he ih =>
    rename_i c
    cases e with
    | flush t => cases he
    | die t =>
      simp only [scStep, Option.some.injEq] at he; subst he
      exact .step ih (.die t) _ rfl
    | run t n =>
      simp only [scStep] at he
      split at he
      · cases he
      · rename_i hal
        cases hc : code t (c.loc t) with
        | wr a v l =>
          rw [hc] at he
          simp only [Option.some.injEq] at he; subst he
          have h1 : TReach code s0 ⟨c.mem, fput (fun _ => []) t [(a, v)], fput c.loc t l, c.alive⟩ :=
            .step ih (.run t n) _ (by simp only [step]; rw [if_neg hal, hc]; rfl)
          refine .step h1 (.flush t) _ ?_
          simp only [step, fput_same, Option.some.injEq, St.mk.injEq, true_and, and_true]
          funext u
          simp only [fput]; split <;> simp_all
        | rd a k =>
          rw [hc] at he
          simp only [Option.some.injEq] at he; subst he
          exact .step ih (.run t n) _ (by simp only [step]; rw [if_neg hal, hc]; rfl)
        | rmw a f k =>
          rw [hc] at he
          simp only [Option.some.injEq] at he; subst he
          exact .step ih (.run t n) _ (by simp only [step]; rw [if_neg hal, hc]; rfl)
        | ask u k =>
          rw [hc] at he
          simp only [Option.some.injEq] at he; subst he
          exact .step ih (.run t n) _ (by simp only [step]; rw [if_neg hal, hc])
        | any k =>
          rw [hc] at he
          simp only [Option.some.injEq] at he; subst he
          exact .step ih (.run t n) _ (by simp only [step]; rw [if_neg hal, hc])

/-! ### The table lock -/

section table
variable {B : Type} {body : Nat → B → Body B} {start : Nat → Nat → B}

/-- Inside. -/
def isInn : Loc B → Bool
  | .inn _ => true
  | _ => false

theorem isInn_iff (l : Loc B) : isInn l = true ↔ ∃ b, l = .inn b := by cases l <;> simp [isInn]

/-- The table lock with sequentially consistent memory. -/
structure TInv (c : Sc (Loc B)) : Prop where
  heldI : ∀ t, c.alive t = true → isInn (c.loc t) = true → c.mem lockA = idOf t
  holds : ∀ t, c.alive t = true → c.mem lockA = idOf t → isInn (c.loc t) = true
  dirtyI : ∀ t, c.dirty t ≠ [] → c.alive t = true ∧ isInn (c.loc t) = true
  clean : ∀ t, lockA ∉ c.dirty t
  steal : ∀ t b x, c.loc t = .steal b x → x ≠ 0 ∧ c.alive (x - 1) = false
  seen : ∀ t b x, c.loc t = .seen b x ∨ c.loc t = .look b x → x ≠ 0

theorem TInv.held {c : Sc (Loc B)} (h : TInv c) (t : Nat) (b : B) (ha : c.alive t = true) (hl : c.loc t = .inn b) :
    c.mem lockA = idOf t := h.heldI t ha (by rw [hl]; rfl)

theorem TInv.dirty {c : Sc (Loc B)} (h : TInv c) (t : Nat) (hd : c.dirty t ≠ []) : c.alive t = true ∧ ∃ b, c.loc t = .inn b :=
  ⟨(h.dirtyI t hd).1, (isInn_iff _).1 (h.dirtyI t hd).2⟩

theorem tinv_step (hg : Guarded body) {c c' : Sc (Loc B)} (h : TInv c) {e : Ev} (he : scStep (code body start) c e = some c') :
    TInv c' := by
  obtain ⟨h1, h2, h3, h4, h5, h6⟩ := h
  cases e with
  | flush t => cases he
  | die t =>
    simp only [scStep, Option.some.injEq] at he; subst he
    constructor <;> simp only [fput] <;> grind [isInn]
  | run t n =>
    simp only [scStep] at he
    split at he
    · cases he
    rename_i hal
    have hal' : c.alive t = true := by simpa using hal
    have hgt := hg t
    cases hl : c.loc t with
    | out =>
      simp only [hl, code, Ins.cas, Option.some.injEq] at he; subst he
      constructor <;> simp only [fput] <;> grind [isInn]
    | acq b =>
      simp only [hl, code, Ins.cas, Option.some.injEq] at he; subst he
      constructor <;> simp only [fput, put, idOf] at * <;> grind [isInn]
    | seen b x =>
      simp only [hl, code, Ins.cas, Option.some.injEq] at he; subst he
      constructor <;> simp only [fput] <;> grind [isInn]
    | look b x =>
      simp only [hl, code, Ins.cas, Option.some.injEq] at he; subst he
      constructor <;> simp only [fput] <;> grind [isInn]
    | steal b x =>
      simp only [hl, code, Ins.cas, Option.some.injEq] at he; subst he
      constructor <;> simp only [fput, put, idOf] at * <;> grind [isInn]
    | inn b =>
      have hgb := hgt b
      have hm := h1 t hal' (by rw [hl]; rfl)
      cases hb : body t b with
      | rd a k =>
        simp only [hl, code, Ins.cas, hb, Option.some.injEq] at he; subst he
        constructor <;> simp only [fput] <;> grind [isInn]
      | wr a v b' =>
        simp only [hb] at hgb
        simp only [hl, code, Ins.cas, hb, Option.some.injEq] at he; subst he
        constructor <;> simp only [fput, put] <;> grind [isInn]
      | fin =>
        simp only [hl, code, Ins.cas, hb, hm, if_true, Option.some.injEq] at he; subst he
        constructor <;> simp only [fput, put, idOf] at * <;> grind [isInn]

theorem tinv (hg : Guarded body) {c : Sc (Loc B)} (h : SReach (code body start) (scInit (init B)) c) : TInv c := by
  induction h with
  | init =>
    constructor <;> simp [scInit, init, idOf, isInn]
  | step h e c' he ih => exact tinv_step hg ih he

theorem norace (hg : Guarded body) {c : Sc (Loc B)} (h : TInv c) : NoRace (code body start) c := by
  intro t hal a ha u hu hd
  obtain ⟨hau, bu, hbu⟩ := h.dirty u (fun e => by rw [e] at hd; cases hd)
  have hmu := h.held u bu hau hbu
  have hne : a ≠ lockA := fun e => h.clean u (e ▸ hd)
  cases hl : c.loc t with
  | inn b =>
    have := h.held t b hal hl
    simp only [idOf] at *
    omega
  | _ => rw [hl] at ha; first | exact ha | exact hne ha

end table

/-- Every program without races behaves with store buffers as with sequentially consistent memory: the threads are at the same
places of their programs and see the same memory. -/
theorem C89_sc {code : Nat → L → Ins L} {s0 s : St L} (h0 : s0.buf = fun _ => [])
    (hn : ∀ c, SReach code (scInit s0) c → NoRace code c) (h : TReach code s0 s) : ∃ c, SReach code (scInit s0) c ∧ Same s c :=
  (sim_reach h0 hn h).imp fun _ h => ⟨h.1, h.2.toSame⟩

/-- The hypothesis holds for the table lock around any sections. -/
example {B : Type} {body : Nat → B → Body B} {start : Nat → Nat → B} (hg : Guarded body) (c : Sc (Loc B))
    (h : SReach (code body start) (scInit (init B)) c) : NoRace (code body start) c := norace hg (tinv hg h)

/-- And the other way round: what happens with sequentially consistent memory happens with store buffers too. -/
theorem C89_back {code : Nat → L → Ins L} {s0 : St L} (h0 : s0.buf = fun _ => []) {c : Sc L}
    (h : SReach code (scInit s0) c) : ∃ s, TReach code s0 s ∧ s.buf = (fun _ => []) ∧ s.mem = c.mem ∧ s.loc = c.loc ∧
      s.alive = c.alive :=
  ⟨_, back h0 h, rfl, rfl, rfl, rfl⟩

section table
variable {B : Type} {body : Nat → B → Body B} {start : Nat → Nat → B}

theorem both (hg : Guarded body) {s : St (Loc B)} (h : TReach (code body start) (init B) s) :
    ∃ c, SReach (code body start) (scInit (init B)) c ∧ TInv c ∧ Sim s c := by
  obtain ⟨c, hc, hs⟩ := sim_reach rfl (fun c hc => norace hg (tinv hg hc)) h
  exact ⟨c, hc, tinv hg hc, hs⟩

/-- The table lock around any accesses to the tables: every state with store buffers is one with sequentially consistent
memory. -/
theorem C89_tables (hg : Guarded body) {s : St (Loc B)} (h : TReach (code body start) (init B) s) :
    ∃ c, SReach (code body start) (scInit (init B)) c ∧ Same s c := by
  obtain ⟨c, hc, _, hs⟩ := both hg h
  exact ⟨c, hc, hs.toSame⟩

/-- At most one thread is inside; only it can have writes under way. -/
theorem C89_exclusive (hg : Guarded body) {s : St (Loc B)} (h : TReach (code body start) (init B) s) :
    (∀ t u, inside s t → inside s u → t = u) ∧ ∀ t, s.buf t ≠ [] → inside s t := by
  obtain ⟨c, -, hi, hs⟩ := both hg h
  constructor
  · rintro t u ⟨h1, b, h2⟩ ⟨h3, b', h4⟩
    have e1 := hi.held t b (hs.alive ▸ h1) (hs.loc ▸ h2)
    have e2 := hi.held u b' (hs.alive ▸ h3) (hs.loc ▸ h4)
    simp only [idOf] at e1 e2
    omega
  · intro t ht
    obtain ⟨w, hw⟩ := List.exists_mem_of_ne_nil _ ht
    have := hi.dirty t fun e => by have := hs.dirty t w.1 w.2 hw; rw [e] at this; cases this
    rw [← hs.alive, ← hs.loc] at this
    exact this

/-- Who is inside has its own number in the lock, so that leaving succeeds at once when its writes are done. -/
theorem C89_leaves (hg : Guarded body) {s : St (Loc B)} (h : TReach (code body start) (init B) s) {t : Nat} (ht : inside s t) :
    s.mem lockA = t + 1 := by
  obtain ⟨c, -, hi, hs⟩ := both hg h
  obtain ⟨h1, b, h2⟩ := ht
  have e1 := hi.held t b (hs.alive ▸ h1) (hs.loc ▸ h2)
  have hn : ∀ u v, (lockA, v) ∉ s.buf u := fun u v hv => hi.clean u (hs.dirty u _ v hv)
  have := hs.mem t lockA fun u _ => hn u
  rw [view_other _ _ _ (hn t), e1] at this
  exact this

/-- While a thread is inside, nothing but its own accesses changes what it sees of the tables: neither other threads, nor deaths,
nor writes that reach memory late. -/
theorem C89_stable (hg : Guarded body) {s s' : St (Loc B)} (h : TReach (code body start) (init B) s) {e : Ev}
    (he : step (code body start) s e = some s') {t : Nat} (ht : inside s t) (hne : ¬ own t e) (a : Nat) (ha : a ≠ lockA) :
    view s'.mem (s'.buf t) a = view s.mem (s.buf t) a := by
  obtain ⟨hex, hbuf⟩ := C89_exclusive hg h
  obtain ⟨c, -, hi, hs⟩ := both hg h
  cases e with
  | flush u =>
    simp only [step] at he
    split at he
    · cases he
    · rename_i w b hb
      have hu : u = t := hex u t (hbuf u (by rw [hb]; simp)) ht
      subst hu
      simp only [Option.some.injEq] at he; subst he
      simp only [fput_same, hb, view]
  | die u =>
    simp only [step] at he
    split at he
    · simp only [Option.some.injEq] at he; subst he; rfl
    · cases he
  | run u n =>
    have hut : u ≠ t := hne
    simp only [step] at he
    split at he
    · cases he
    rename_i hal
    have hal' : s.alive u = true := by simpa using hal
    cases hl : s.loc u with
    | inn b => exact absurd (hex u t ⟨hal', b, hl⟩ ht) hut
    | out => simp only [hl, code, Ins.cas, Option.some.injEq] at he; subst he; rfl
    | seen b x => simp only [hl, code, Ins.cas, Option.some.injEq] at he; subst he; rfl
    | look b x => simp only [hl, code, Ins.cas, Option.some.injEq] at he; subst he; rfl
    | acq b =>
      simp only [hl, code, Ins.cas] at he
      split at he
      · simp only [Option.some.injEq] at he; subst he
        exact view_put _ _ _ _ _ ha
      · cases he
    | steal b x =>
      simp only [hl, code, Ins.cas] at he
      split at he
      · simp only [Option.some.injEq] at he; subst he
        exact view_put _ _ _ _ _ ha
      · cases he

/-- What a thread inside does: a read gives the value it sees, a write changes what it sees at that one address, and at the end
all its writes have reached memory and the lock is free. -/
theorem C89_access (hg : Guarded body) {s s' : St (Loc B)} (h : TReach (code body start) (init B) s) {t n : Nat} {b : B}
    (ht : s.loc t = .inn b) (he : step (code body start) s (.run t n) = some s') :
    match body t b with
    | .rd a k => s'.loc t = .inn (k (view s.mem (s.buf t) a)) ∧ view s'.mem (s'.buf t) = view s.mem (s.buf t)
    | .wr a v b' => s'.loc t = .inn b' ∧ view s'.mem (s'.buf t) a = v ∧
        ∀ x, x ≠ a → view s'.mem (s'.buf t) x = view s.mem (s.buf t) x
    | .fin => s'.loc t = .out ∧ s'.buf t = [] ∧ s'.mem lockA = 0 ∧ ∀ x, x ≠ lockA → s'.mem x = view s.mem (s.buf t) x := by
  have hal : s.alive t = true := by
    simp only [step] at he
    split at he
    · cases he
    · rename_i h; simpa using h
  have hlk := C89_leaves hg h ⟨hal, b, ht⟩
  simp only [step, hal, Bool.true_eq_false, if_false, ht, code] at he
  cases hb : body t b with
  | rd a k =>
    simp only [hb, Option.some.injEq] at he; subst he
    exact ⟨fput_same _ _ _, rfl⟩
  | wr a v b' =>
    simp only [hb, Option.some.injEq] at he; subst he
    refine ⟨fput_same _ _ _, ?_, fun x hx => ?_⟩ <;> simp only [fput_same, view_append, put]
    · simp
    · simp [hx]
  | fin =>
    simp only [hb, Ins.cas] at he
    split at he
    · rename_i hbuf
      simp only [Option.some.injEq] at he; subst he
      refine ⟨fput_same _ _ _, hbuf, ?_, fun x hx => ?_⟩
      · simp [put, hlk, idOf]
      · simp [put, hx, hbuf, view]
    · cases he

/-- Who enters sees all that was ever written: no write of another thread is under way. -/
theorem C89_enter (hg : Guarded body) {s s' : St (Loc B)} (h : TReach (code body start) (init B) s) {e : Ev}
    (he : step (code body start) s e = some s') {t : Nat} (h0 : ¬ inside s t) (h1 : inside s' t) :
    s'.mem lockA = t + 1 ∧ (∀ u, s'.buf u = []) ∧ ∀ x, x ≠ lockA → s'.mem x = s.mem x := by
  have h' : TReach (code body start) (init B) s' := .step h e s' he
  obtain ⟨hex, hbuf⟩ := C89_exclusive hg h'
  have hb0 : s.buf t = [] := Classical.byContradiction fun hne => h0 ((C89_exclusive hg h).2 t hne)
  refine ⟨C89_leaves hg h' h1, ?_, ?_⟩
  · intro u
    refine Classical.byContradiction fun hne => ?_
    have hu := hex u t (hbuf u hne) h1
    subst hu
    cases e with
    | flush v =>
      simp only [step] at he
      split at he
      · cases he
      · simp only [Option.some.injEq] at he; subst he
        exact h0 h1
    | die v =>
      simp only [step] at he
      split at he
      · simp only [Option.some.injEq] at he; subst he
        exact hne hb0
      · cases he
    | run v n =>
      simp only [step] at he
      split at he
      · cases he
      rename_i hal
      have hal' : s.alive v = true := by simpa using hal
      by_cases hv : u = v
      · subst hv
        cases hl : s.loc u with
        | inn b => exact h0 ⟨hal', b, hl⟩
        | out => simp only [hl, code, Option.some.injEq] at he; subst he; exact hne hb0
        | seen b x => simp only [hl, code, Option.some.injEq] at he; subst he; exact hne hb0
        | look b x => simp only [hl, code, Option.some.injEq] at he; subst he; exact hne hb0
        | acq b =>
          simp only [hl, code, Ins.cas, hb0, if_true, Option.some.injEq] at he; subst he; exact hne hb0
        | steal b x =>
          simp only [hl, code, Ins.cas, hb0, if_true, Option.some.injEq] at he; subst he; exact hne hb0
      · refine h0 ⟨?_, ?_⟩
        · have := h1.1
          split at he <;> (try split at he) <;> first | (simp only [Option.some.injEq] at he; subst he; exact this) | cases he
        · obtain ⟨b, hb⟩ := h1.2
          refine ⟨b, ?_⟩
          split at he <;> (try split at he) <;>
            first | (simp only [Option.some.injEq] at he; subst he; rw [← hb]; simp [fput, hv]; done) | cases he
  · intro x hx
    cases e with
    | flush v =>
      simp only [step] at he
      split at he
      · cases he
      · simp only [Option.some.injEq] at he; subst he
        exact absurd h1 h0
    | die v =>
      simp only [step] at he
      split at he
      · simp only [Option.some.injEq] at he; subst he; rfl
      · cases he
    | run v n =>
      simp only [step] at he
      split at he
      · cases he
      rename_i hal
      have hal' : s.alive v = true := by simpa using hal
      cases hl : s.loc v with
      | inn b =>
        simp only [hl, code] at he
        cases hb : body v b with
        | rd a k => simp only [hb, Option.some.injEq] at he; subst he; rfl
        | wr a k b' => simp only [hb, Option.some.injEq] at he; subst he; rfl
        | fin =>
          simp only [hb, Ins.cas] at he
          split at he
          · simp only [Option.some.injEq] at he; subst he; simp [put, hx]
          · cases he
      | out => simp only [hl, code, Option.some.injEq] at he; subst he; rfl
      | seen b x => simp only [hl, code, Option.some.injEq] at he; subst he; rfl
      | look b x => simp only [hl, code, Option.some.injEq] at he; subst he; rfl
      | acq b =>
        simp only [hl, code, Ins.cas] at he
        split at he
        · simp only [Option.some.injEq] at he; subst he; simp [put, hx]
        · cases he
      | steal b x =>
        simp only [hl, code, Ins.cas] at he
        split at he
        · simp only [Option.some.injEq] at he; subst he; simp [put, hx]
        · cases he

end table

/-! ### Examples -/

/-- Run a list of events. -/
def runs {L : Type} (st : St L → Ev → Option (St L)) (s : St L) : List Ev → Option (St L)
  | [] => some s
  | e :: es => (st s e).bind fun s' => runs st s' es

theorem treach_runs {code : Nat → L → Ins L} {s0 s s' : St L} (h : TReach code s0 s) :
    ∀ {es : List Ev}, runs (step code) s es = some s' → TReach code s0 s' := by
  intro es
  induction es generalizing s with
  | nil => intro he; simp only [runs, Option.some.injEq] at he; exact he ▸ h
  | cons e es ih =>
    intro he
    simp only [runs] at he
    cases h1 : step code s e with
    | none => rw [h1] at he; cases he
    | some s1 => rw [h1] at he; exact ih (.step h e s1 h1) he

theorem late_runs {code : Nat → L → Ins L} {s0 s s' : St L} (h : LateReach code s0 s) :
    ∀ {es : List Ev}, runs (lateStep code) s es = some s' → LateReach code s0 s' := by
  intro es
  induction es generalizing s with
  | nil => intro he; simp only [runs, Option.some.injEq] at he; exact he ▸ h
  | cons e es ih =>
    intro he
    simp only [runs] at he
    cases h1 : lateStep code s e with
    | none => rw [h1] at he; cases he
    | some s1 => rw [h1] at he; exact ih (.step h e s1 h1) he

/-- Every section writes 7 to address 5 and reads it, and ends. -/
def body89 (_ : Nat) : Nat → Body Nat
  | 0 => .wr 5 7 1
  | 1 => .rd 5 fun v => v + 2
  | _ => .fin

theorem guarded89 : Guarded body89 := by
  intro t b
  match b with
  | 0 => simp [body89, lockA]
  | 1 => simp [body89, lockA]
  | n + 2 => simp [body89]

/-- Thread 0 enters and writes; the write is under way. -/
def es89 : List Ev := [.run 0 0, .run 0 0, .run 0 0]

/-- The state is reached, the thread is inside, sees its write, and memory does not have it yet; thread 1 fails to enter. -/
example : ∃ s, TReach (code body89 fun _ n => n) (init Nat) s ∧ inside s 0 ∧ view s.mem (s.buf 0) 5 = 7 ∧ s.mem 5 = 0 ∧
    s.buf 0 ≠ [] ∧ (∃ b x, s.loc 1 = .seen b x) := by
  have h : ∃ s, runs (step (code body89 fun _ n => n)) (init Nat) (es89 ++ [.run 1 0, .run 1 0]) = some s ∧ s.alive 0 = true ∧
      s.loc 0 = .inn 1 ∧ view s.mem (s.buf 0) 5 = 7 ∧ s.mem 5 = 0 ∧ s.buf 0 = [(5, 7)] ∧ s.loc 1 = .seen 0 1 :=
    ⟨_, rfl, rfl, rfl, rfl, rfl, rfl, rfl⟩
  obtain ⟨s, h1, h2, h3, h4, h5, h6, h7⟩ := h
  exact ⟨s, treach_runs .init h1, ⟨h2, 1, h3⟩, h4, h5, by rw [h6]; simp, 0, 1, h7⟩

/-- `C89_enter` and `C89_access`: thread 0 enters, writes 7 and reads it before it has reached memory. -/
example : ∃ s s' s'' s3, TReach (code body89 fun _ n => n) (init Nat) s ∧ step (code body89 fun _ n => n) s (.run 0 0) = some s' ∧
    ¬ inside s 0 ∧ inside s' 0 ∧ step (code body89 fun _ n => n) s' (.run 0 0) = some s'' ∧
    step (code body89 fun _ n => n) s'' (.run 0 0) = some s3 ∧ s''.mem 5 = 0 ∧ s3.loc 0 = .inn 9 := by
  refine ⟨_, _, _, _, treach_runs (es := [.run 0 0]) .init rfl, rfl, ?_, ⟨rfl, 0, rfl⟩, rfl, rfl, rfl, rfl⟩
  rintro ⟨-, b, h⟩
  cases h

/-- A holder that dies inside, after its write is done: thread 1 takes the lock over and sees the write. -/
example : ∃ s, TReach (code body89 fun t n => t + n) (init Nat) s ∧ inside s 1 ∧ s.alive 0 = false ∧
    view s.mem (s.buf 1) 5 = 7 := by
  have h : ∃ s, runs (step (code body89 fun t n => t + n)) (init Nat)
      (es89 ++ [.flush 0, .die 0, .run 1 0, .run 1 0, .run 1 1, .run 1 0, .run 1 0]) = some s ∧ s.alive 1 = true ∧
      s.loc 1 = .inn 1 ∧ s.alive 0 = false ∧ view s.mem (s.buf 1) 5 = 7 :=
    ⟨_, rfl, rfl, rfl, rfl, rfl⟩
  obtain ⟨s, h1, h2, h3, h4, h5⟩ := h
  exact ⟨s, treach_runs .init h1, ⟨h2, 1, h3⟩, h4, h5⟩

/-- The lock cannot be left while a write is under way, nor does a thread die before. -/
example : runs (step (code body89 fun _ n => n)) (init Nat) (es89 ++ [.run 0 0, .run 0 0]) = none ∧
    runs (step (code body89 fun _ n => n)) (init Nat) (es89 ++ [.die 0]) = none ∧
    (runs (step (code body89 fun _ n => n)) (init Nat) (es89 ++ [.run 0 0, .flush 0, .run 0 0])).map (fun s => s.mem lockA)
      = some 0 := by
  refine ⟨rfl, rfl, rfl⟩

/-- Were the death of a thread visible before its writes are done, the claim would be false: a thread takes over the lock of a
dead one, and what it sees changes under its hands. -/
theorem C89_late : ∃ (s s' : St (Loc Nat)) (e : Ev), LateReach (code body89 fun t n => t + n) (init Nat) s ∧
    lateStep (code body89 fun t n => t + n) s e = some s' ∧ inside s 1 ∧ ¬ own 1 e ∧
    view s.mem (s.buf 1) 5 = 0 ∧ view s'.mem (s'.buf 1) 5 = 7 := by
  have h : ∃ s s', runs (lateStep (code body89 fun t n => t + n)) (init Nat)
      (es89 ++ [.die 0, .run 1 0, .run 1 0, .run 1 1, .run 1 0, .run 1 0]) = some s ∧
      lateStep (code body89 fun t n => t + n) s (.flush 0) = some s' ∧ s.alive 1 = true ∧
      s.loc 1 = .inn 1 ∧ view s.mem (s.buf 1) 5 = 0 ∧ view s'.mem (s'.buf 1) 5 = 7 :=
    ⟨_, _, rfl, rfl, rfl, rfl, rfl, rfl⟩
  obtain ⟨s, s', h1, h2, h3, h4, h5, h6⟩ := h
  exact ⟨s, s', .flush 0, late_runs .init h1, h2, ⟨h3, 1, h4⟩, id, h5, h6⟩

/-! ### The flag of a granted lock is written outside of the table lock -/

/-- What is under way in the program with the flag. -/
structure FInv (s : St FLoc) : Prop where
  buf : ∀ t, s.buf t = [] ∨ (s.buf t = [(t + 1, 1)] ∧ s.loc t = .held ∧ s.alive t = true)
  done : ∀ t, s.loc t = .held → s.buf t = [] → s.mem (t + 1) = 1

theorem finv {s : St FLoc} (h : TReach flagCode flagInit s) : FInv s := by
  induction h with
  | init => constructor <;> simp [flagInit]
  | step h e s' he ih =>
    rename_i s
    obtain ⟨h1, h2⟩ := ih
    cases e with
    | die t =>
      simp only [step] at he
      split at he
      · simp only [Option.some.injEq] at he; subst he
        constructor <;> simp only [fput] <;> grind
      · cases he
    | flush t =>
      simp only [step] at he
      split at he
      · cases he
      · rename_i w b hb
        simp only [Option.some.injEq] at he; subst he
        have hw := h1 t
        rw [hb] at hw
        simp only [List.cons_ne_nil, false_or, List.cons.injEq] at hw
        obtain ⟨⟨hw1, hw2⟩, hw3, hw4⟩ := hw
        subst hw1; subst hw2
        constructor <;> simp only [fput, put] <;> grind
    | run t n =>
      simp only [step] at he
      split at he
      · cases he
      rename_i hal
      have hal' : s.alive t = true := by simpa using hal
      cases hl : s.loc t with
      | idle => simp only [hl, flagCode, Option.some.injEq] at he; subst he; constructor <;> simp only [fput] <;> grind
      | held => simp only [hl, flagCode, Option.some.injEq] at he; subst he; constructor <;> simp only [fput] <;> grind
      | peek u => simp only [hl, flagCode, Option.some.injEq] at he; subst he; constructor <;> simp only [fput] <;> grind
      | saw u v => simp only [hl, flagCode, Option.some.injEq] at he; subst he; constructor <;> simp only [fput] <;> grind
      | wait =>
        simp only [hl, flagCode, Ins.cas] at he
        split at he
        · simp only [Option.some.injEq] at he; subst he
          constructor <;> simp only [fput, put] <;> grind
        · cases he
      | flag =>
        simp only [hl, flagCode, Option.some.injEq] at he; subst he
        have hb : s.buf t = [] := by rcases h1 t with h | h
                                     · exact h
                                     · rw [hl] at h; exact absurd h.2.1 (by simp)
        simp only [hb, List.nil_append]
        constructor <;> simp only [fput] <;> grind

/-- When the call has returned, the thread itself sees the flag of its record, and so does everybody once the thread is dead:
that is all the library looks at it for. -/
theorem C89_flag {s : St FLoc} (h : TReach flagCode flagInit s) {t : Nat} (ht : s.loc t = .held) :
    view s.mem (s.buf t) (t + 1) = 1 ∧ (s.alive t = false → ∀ u, u ≠ t → view s.mem (s.buf u) (t + 1) = 1) := by
  obtain ⟨h1, h2⟩ := finv h
  constructor
  · rcases h1 t with hb | ⟨hb, -⟩
    · rw [hb]; exact h2 t ht hb
    · rw [hb]; simp [view, put]
  · intro hal u hu
    have hb : s.buf t = [] := by
      rcases h1 t with h | h
      · exact h
      · rw [hal] at h; simp at h
    rw [view_other _ _ _ fun v hv => ?_]
    · exact h2 t ht hb
    · rcases h1 u with h | ⟨h, -⟩ <;> rw [h] at hv
      · cases hv
      · simp only [List.mem_singleton, Prod.mk.injEq, Nat.add_right_cancel_iff] at hv
        exact hu hv.1.symm

/-- Another thread can see the flag of a live holder down although its call has returned; with sequentially consistent memory it
cannot. -/
theorem C89_flag_late : (∃ s, TReach flagCode flagInit s ∧ s.loc 0 = .held ∧ s.loc 1 = .peek 0 ∧
      view s.mem (s.buf 1) 1 = 0) ∧
    ∀ c, SReach flagCode (scInit flagInit) c → ∀ t, c.loc t = .held → c.mem (t + 1) = 1 := by
  constructor
  · have h : ∃ s, runs (step flagCode) flagInit [.run 0 0, .run 0 0, .run 0 0, .run 1 1] = some s ∧ s.loc 0 = .held ∧
        s.loc 1 = .peek 0 ∧ view s.mem (s.buf 1) 1 = 0 := ⟨_, rfl, rfl, rfl, rfl⟩
    obtain ⟨s, h1, h2⟩ := h
    exact ⟨s, treach_runs .init h1, h2⟩
  · intro c hc t ht
    have := (finv (back rfl hc)).done t ht rfl
    exact this

/-- The hypothesis of `C89_flag` is met by a thread that is dead. -/
example : ∃ s, TReach flagCode flagInit s ∧ s.loc 0 = .held ∧ s.alive 0 = false := by
  have h : ∃ s, runs (step flagCode) flagInit [.run 0 0, .run 0 0, .run 0 0, .flush 0, .die 0] = some s ∧ s.loc 0 = .held ∧
      s.alive 0 = false := ⟨_, rfl, rfl, rfl⟩
  obtain ⟨s, h1, h2⟩ := h
  exact ⟨s, treach_runs .init h1, h2⟩

end Fullock.Props.Tso
