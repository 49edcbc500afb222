import Verif.Proofs.MCMemForever
import Verif.Props.MCMem
/-! The execution on the tables that follows an execution on the cells, and what is assumed of it. -/
namespace Fullock.MCMem
open Fullock.ListMem hiding upd
open Fullock.Layout
open Fullock.FLMem (adr idx member adr_inj' idx_adr)
open Fullock.Props (Limits NoWrap mc_init owns_of noWrap_of_limits)
open Fullock.MC (Kind LK UK Choice EPERM EBUSY EINVAL ENOLCK ETIMEDOUT upd)

theorem dep_choice {α β : Type} {P : Nat → α → Prop} {R : Nat → α → β → α → Prop} {a0 : α} (h0 : P 0 a0)
    (h : ∀ i a, P i a → ∃ b a', R i a b a' ∧ P (i + 1) a') :
    ∃ (f : Nat → α) (g : Nat → β), f 0 = a0 ∧ ∀ i, P i (f i) ∧ R i (f i) (g i) (f (i + 1)) := by
  have h' : ∀ i (a : {a // P i a}), ∃ b, ∃ a' : {a // P (i + 1) a}, R i a.1 b a'.1 := by
    rintro i ⟨a, ha⟩
    obtain ⟨b, a', h1, h2⟩ := h i a ha
    exact ⟨b, ⟨a', h2⟩, h1⟩
  choose B F hF using h'
  let f : (i : Nat) → {a // P i a} := Nat.rec ⟨a0, h0⟩ fun i a => F i a
  exact ⟨fun i => (f i).1, fun i => B i (f i), rfl, fun i => ⟨(f i).2, hF i (f i)⟩⟩

/-- The tables and the two events on them, moment by moment. -/
structure Fol (cnt : Pool → Nat) (base : Nat → Nat) (σ : Nat → State) (ε : Nat → Option Ev) (T : Nat → Tab)
    (s s1 : Nat → MC.State) (e1 e2 : Nat → Option MC.Ev) : Prop where
  sim : ∀ i, Sim cnt base (T i) (σ i) (s i)
  zero : ∃ nm nc nw junk, s 0 = MC.init nm nc nw junk
  idle : ∀ i, ε i = none → σ (i + 1) = σ i ∧ T (i + 1) = T i ∧ s (i + 1) = s i ∧ s1 i = s i ∧ e1 i = none ∧ e2 i = none
  two : ∀ i e, ε i = some e → Two cnt base (σ i) (T i) (s i) e (T (i + 1)) (s1 i) (s (i + 1)) (e1 i) (e2 i) ∧
    Keep ((s i).pc (actor e)) (T i) (σ i).mem (T (i + 1)) (σ (i + 1)).mem

theorem follows {cnt : Pool → Nat} (hl : Limits cnt) {fuel : Nat} (hf : Fuel cnt fuel) {base : Nat → Nat}
    {A : State → Ev → Prop} {σ : Nat → State} {ε : Nat → Option Ev} (ex : Exec cnt fuel base A σ ε) :
    ∃ T s s1 e1 e2, Fol cnt base σ ε T s s1 e1 e2 := by
  obtain ⟨hw, -⟩ := noWrap_of_limits cnt hl
  obtain ⟨f, f', os, b, m, junk, h0, e0⟩ := ex.start
  have S0 := mc_init hl base junk
      ⟨fun _ => 0, fun _ => 0, [], 0, 0, [], 0, 0, fun _ => [], [], fun _ => 0, fun _ => false, fun _ _ => 0, fun _ => 0, 0⟩ h0
  rw [← e0] at S0
  obtain ⟨T0, s0, hs0, S0⟩ : ∃ T0 s0, (∃ nm nc nw junk, s0 = MC.init nm nc nw junk) ∧ Sim cnt base T0 (σ 0) s0 :=
    ⟨_, _, ⟨_, _, _, _, rfl⟩, S0⟩
  obtain ⟨g, h, hg, hR⟩ := dep_choice (α := Tab × MC.State) (β := MC.State × Option MC.Ev × Option MC.Ev)
    (P := fun i a => Sim cnt base a.1 (σ i) a.2)
    (R := fun i a w a' => (ε i = none → σ (i + 1) = σ i ∧ a'.1 = a.1 ∧ a'.2 = a.2 ∧ w.1 = a.2 ∧ w.2.1 = none ∧ w.2.2 = none) ∧
      ∀ e, ε i = some e → Two cnt base (σ i) a.1 a.2 e a'.1 w.1 a'.2 w.2.1 w.2.2 ∧
        Keep (a.2.pc (actor e)) a.1 (σ i).mem a'.1 (σ (i + 1)).mem) (a0 := (T0, s0)) S0 (by
    rintro i ⟨T, s⟩ S
    have hn := ex.next i
    cases he : ε i with
    | none =>
      rw [he] at hn
      refine ⟨(s, none, none), (T, s), ⟨fun _ => ⟨hn, rfl, rfl, rfl, rfl, rfl⟩, fun e h => by cases h⟩, ?_⟩
      simp only at hn ⊢
      rw [hn]; exact S
    | some e =>
      rw [he] at hn
      obtain ⟨T', s1, s', e1, e2, h1, h2, h3⟩ := two_step hw hf S hn.2
      exact ⟨(s1, e1, e2), (T', s'), ⟨(fun h => by cases h), (fun e h => by cases h; exact ⟨h1, h3⟩)⟩, h2⟩)
  exact ⟨fun i => (g i).1, fun i => (g i).2, fun i => (h i).1, fun i => (h i).2.1, fun i => (h i).2.2,
    fun i => (hR i).1, (by rw [hg]; exact hs0), fun i => (hR i).2.1, fun i => (hR i).2.2⟩

theorem go_frame {r r' : MC.State} {t : Nat} {c : Choice} (h : MC.step r (.go t c) = some r') :
    r.alive t = true ∧ r'.alive = r.alive ∧ r'.last = r.last ∧ (∀ u, u ≠ t → r'.pc u = r.pc u) ∧
    MC.plan r.mem r.alive t (r.pc t) c = some (r'.mem, r'.pc t) := by
  simp only [MC.step] at h
  split at h
  · cases h
  · rename_i ha
    obtain ⟨y, hy, rfl⟩ := Option.map_eq_some_iff.1 h
    exact ⟨by simpa using ha, rfl, rfl, fun u hu => MC.upd_ne _ _ hu, by simpa using hy⟩

/-- Two moments for one. -/
def dbl {α : Type} (a b : Nat → α) (k : Nat) : α := if k % 2 = 0 then a (k / 2) else b (k / 2)

theorem dbl_even {α : Type} (a b : Nat → α) (i : Nat) : dbl a b (2 * i) = a i := by
  simp [dbl]

theorem dbl_odd {α : Type} (a b : Nat → α) (i : Nat) : dbl a b (2 * i + 1) = b i := by
  simp [dbl, Nat.mul_add_mod, show (2 * i + 1) / 2 = i from by omega]

theorem two_cases (k : Nat) : (∃ i, k = 2 * i) ∨ ∃ i, k = 2 * i + 1 := by
  by_cases h : k % 2 = 0
  · exact .inl ⟨k / 2, by omega⟩
  · exact .inr ⟨k / 2, by omega⟩

section fol
variable {cnt : Pool → Nat} {fuel : Nat} {base : Nat → Nat} {σ : Nat → State} {ε : Nat → Option Ev} {T : Nat → Tab}
  {s s1 : Nat → MC.State} {e1 e2 : Nat → Option MC.Ev}

/-- The second half of a moment: nothing, or a death. -/
theorem Fol.second (F : Fol cnt base σ ε T s s1 e1 e2) (i : Nat) :
    (e2 i = none ∧ s (i + 1) = s1 i) ∨ ∃ t, e2 i = some (.die t) ∧ (s1 i).alive t = true ∧
      s (i + 1) = { s1 i with alive := upd (s1 i).alive t false } := by
  cases he : ε i with
  | none => obtain ⟨-, -, h3, h4, -, h6⟩ := F.idle i he; exact .inl ⟨h6, by rw [h3, h4]⟩
  | some e =>
    have := (F.two i e he).1
    generalize s (i + 1) = s' at this ⊢
    generalize e2 i = f2 at this ⊢
    generalize s1 i = s1' at this ⊢
    generalize e1 i = f1 at this
    generalize T (i + 1) = T' at this
    cases this with
    | call h => exact .inl ⟨rfl, rfl⟩
    | stay h => exact .inl ⟨rfl, rfl⟩
    | go h => exact .inl ⟨rfl, rfl⟩
    | die h =>
      simp only [MC.step] at h
      split at h
      · cases h
      · cases h; exact .inr ⟨_, rfl, by simp_all, rfl⟩
    | goDie _ h =>
      simp only [MC.step] at h
      split at h
      · cases h
      · cases h; exact .inr ⟨_, rfl, by simp_all, rfl⟩

theorem Fol.half (F : Fol cnt base σ ε T s s1 e1 e2) (i : Nat) :
    (s (i + 1)).mem = (s1 i).mem ∧ (s (i + 1)).pc = (s1 i).pc ∧ (s (i + 1)).last = (s1 i).last ∧
    (∀ u, (s1 i).alive u = false → (s (i + 1)).alive u = false) := by
  rcases F.second i with ⟨-, e⟩ | ⟨t, -, -, e⟩
  · rw [e]; exact ⟨rfl, rfl, rfl, fun _ h => h⟩
  · rw [e]; refine ⟨rfl, rfl, rfl, fun u h => ?_⟩
    simp only [upd]; split
    · rfl
    · exact h

/-- What is allowed on the cells is allowed on the tables. -/
theorem okDie_of (S : Sim cnt base (T i) (σ i) (s i)) {v j : Nat} {c : Choice} {r : MC.State}
    (ha : okDie (σ i) (.die v c j)) (h1 : ∀ m ∈ (s i).mem.mlist, r.mem.mval m = (s i).mem.mval m) (h2 : r.alive = (s i).alive)
    (h3 : ∀ u, u ≠ v → r.pc u = (s i).pc u) (h4 : r.pc v = (s i).pc v ∨ ∀ m k, r.pc v ≠ .swChk m v k) :
    MC.okDie r (.die v) := by
  intro u ua m k hk
  rw [h2] at ua
  have key : (s i).pc u = .swChk m v k → r.mem.mval m = v := by
    intro hk
    have hq := S.pcs u ua
    rw [hk] at hq
    have : ∃ l k', (σ i).pc u = .swChk l v k' ∧ l ∈ T i .mtxs ∧ (σ i).mem.mname l = m := by
      cases hp : (σ i).pc u <;> rw [hp] at hq <;> simp only [PcR, reduceCtorEq, and_false, false_and, exists_false] at hq
      obtain ⟨g1, g2, g3⟩ := hq
      cases g3
      exact ⟨_, _, rfl, g1, rfl⟩
    obtain ⟨l, k', g1, g2, rfl⟩ := this
    rw [h1 _ (mem_name S.dat g2), S.dat.mv l g2]
    exact ha u (by rw [S.alive]; exact ua) l k' g1
  by_cases e : u = v
  · subst e
    rcases h4 with e4 | e4
    · exact key (by rw [← e4]; exact hk)
    · exact absurd hk (e4 m k)
  · exact key (by rw [← h3 u e]; exact hk)

theorem Fol.exec (F : Fol cnt base σ ε T s s1 e1 e2) (ex : Exec cnt fuel base okDie σ ε) :
    MC.Exec MC.okDie (dbl s s1) (dbl e1 e2) := by
  refine ⟨F.zero, fun k => ?_⟩
  have key : ∀ i, (match e1 i with
      | none => s1 i = s i
      | some e => MC.okDie (s i) e ∧ MC.step (s i) e = some (s1 i)) ∧
      (match e2 i with
      | none => s (i + 1) = s1 i
      | some e => MC.okDie (s1 i) e ∧ MC.step (s1 i) e = some (s (i + 1))) := by
    intro i
    have hn := ex.next i
    have S := F.sim i
    cases he : ε i with
    | none => obtain ⟨-, -, h3, h4, h5, h6⟩ := F.idle i he; rw [h5, h6, h3, h4]; exact ⟨rfl, rfl⟩
    | some e =>
      rw [he] at hn
      have ha := hn.1
      have := (F.two i e he).1
      generalize s (i + 1) = s' at this ⊢
      generalize e2 i = f2 at this ⊢
      generalize s1 i = s1' at this ⊢
      generalize e1 i = f1 at this ⊢
      generalize T (i + 1) = T' at this
      cases this with
      | call h => exact ⟨⟨trivial, h⟩, rfl⟩
      | stay h => exact ⟨rfl, rfl⟩
      | go h => exact ⟨⟨trivial, h⟩, rfl⟩
      | die h => exact ⟨rfl, okDie_of S ha (fun _ _ => rfl) rfl (fun _ _ => rfl) (.inl rfl), h⟩
      | goDie h h' h1 h2 =>
        exact ⟨⟨trivial, h⟩, okDie_of S ha h1 (go_frame h).2.1 (go_frame h).2.2.2.1 (.inr h2), h'⟩
  rcases two_cases k with ⟨i, rfl⟩ | ⟨i, rfl⟩
  · rw [dbl_even, dbl_even, dbl_odd]; exact (key i).1
  · rw [dbl_odd, dbl_odd, show 2 * i + 1 + 1 = 2 * (i + 1) from by omega, dbl_even]; exact (key i).2

theorem Fol.calls (F : Fol cnt base σ ε T s s1 e1 e2) (h : CallsEnd ε) : MC.CallsEnd (dbl e1 e2) := by
  obtain ⟨n, hn⟩ := h
  refine ⟨2 * n, fun k hk t c he => ?_⟩
  rcases two_cases k with ⟨i, rfl⟩ | ⟨i, rfl⟩
  · rw [dbl_even] at he
    cases hε : ε i with
    | none => rw [(F.idle i hε).2.2.2.2.1] at he; cases he
    | some e =>
      have := (F.two i e hε).1
      rw [he] at this
      generalize e2 i = f2 at this
      generalize s (i + 1) = s' at this
      generalize s1 i = s1' at this
      generalize T (i + 1) = T' at this
      cases this
      exact hn i (by omega) _ _ hε
  · rw [dbl_odd] at he
    rcases F.second i with ⟨e, -⟩ | ⟨_, e, -⟩ <;> rw [e] at he <;> cases he

theorem Fol.seen (F : Fol cnt base σ ε T s s1 e1 e2) (h : SeenDead ε) : MC.SeenDead (dbl e1 e2) := by
  obtain ⟨n, hn⟩ := h
  have key : ∀ (x : Mem) b p c, Like cnt b x p c .spur → c = .spur := by
    intro x b p c hl
    cases p <;> simp only [Like] at hl <;> (try exact hl.symm)
    · split at hl <;> cases hl
    · obtain ⟨_, _, e⟩ := hl; cases e
  refine ⟨2 * n, fun k hk t he => ?_⟩
  rcases two_cases k with ⟨i, rfl⟩ | ⟨i, rfl⟩
  · rw [dbl_even] at he
    cases hε : ε i with
    | none => rw [(F.idle i hε).2.2.2.2.1] at he; cases he
    | some e =>
      have := (F.two i e hε).1
      rw [he] at this
      generalize e2 i = f2 at this
      generalize s (i + 1) = s' at this
      generalize s1 i = s1' at this
      generalize T (i + 1) = T' at this
      cases this with
      | go h hl =>
        cases key _ _ _ _ hl
        exact hn i (by omega) _ hε
      | goDie _ _ _ _ hl hne => exact hne (key _ _ _ _ hl)
  · rw [dbl_odd] at he
    rcases F.second i with ⟨e, -⟩ | ⟨_, e, -⟩ <;> rw [e] at he <;> cases he

theorem Fol.alive (F : Fol cnt base σ ε T s s1 e1 e2) (i : Nat) : (σ i).alive = (s i).alive := (F.sim i).alive

theorem Fol.pcr (F : Fol cnt base σ ε T s s1 e1 e2) {i t : Nat} (h : (s i).alive t = true) :
    PcR cnt (base t) (T i) (σ i).mem (s i).alive ((σ i).pc t) ((s i).pc t) := (F.sim i).pcs t h

theorem trying_iff {b : Nat} {T : Tab} {x : Mem} {alive : Nat → Bool} {p : Pc} {q : MC.Pc}
    (h : PcR cnt b T x alive p q) : MC.trying q = trying p := by
  cases p <;> simp only [PcR] at h <;> grind [trying, MC.trying]

theorem timing_iff {b : Nat} {T : Tab} {x : Mem} {alive : Nat → Bool} {p : Pc} {q : MC.Pc}
    (h : PcR cnt b T x alive p q) : MC.timing q = timing p := by
  cases p <;> simp only [PcR] at h <;> grind [timing, MC.timing]

/-- A step with the choice `limit`. -/
theorem Fol.limit (F : Fol cnt base σ ε T s s1 e1 e2) {i t : Nat} (h : ε i = some (.go t .limit))
    (hp : trying ((σ i).pc t) = true ∨ timing ((σ i).pc t) = true) : e1 i = some (.go t .limit) := by
  have := (F.two i _ h).1
  generalize e2 i = f2 at this
  generalize s (i + 1) = s' at this
  generalize s1 i = s1' at this
  generalize e1 i = f1 at this ⊢
  generalize T (i + 1) = T' at this
  cases this with
  | stay hst => cases hq : (σ i).pc t <;> rw [hq] at hp hst <;> simp [trying, timing, Stays] at hp hst
  | go _ hl =>
    cases hq : (σ i).pc t <;> rw [hq] at hp hl <;> simp [trying, timing] at hp <;> simp only [Like] at hl <;> rw [hl]

theorem Fol.patient (F : Fol cnt base σ ε T s s1 e1 e2) (h : Patient σ ε) : MC.Patient (dbl s s1) (dbl e1 e2) := by
  intro t k hk
  have h1 : ∀ i, k ≤ 2 * i → (σ i).alive t = true ∧ trying ((σ i).pc t) = true := by
    intro i hi
    obtain ⟨h1, h2⟩ := hk (2 * i) hi
    rw [dbl_even] at h1 h2
    rw [trying_iff (F.pcr h1)] at h2
    rw [F.alive]; exact ⟨h1, h2⟩
  obtain ⟨j, hj, e⟩ := h t k fun j hj => h1 j (by omega)
  exact ⟨2 * j, by omega, by rw [dbl_even]; exact F.limit e (.inl (h1 j (by omega)).2)⟩

theorem Fol.timely (F : Fol cnt base σ ε T s s1 e1 e2) (h : Timely σ ε) : MC.TimelyOrDead (dbl s s1) (dbl e1 e2) := by
  intro t k hk
  have h1 : ∀ i, k ≤ 2 * i → (σ i).alive t = true ∧ timing ((σ i).pc t) = true := by
    intro i hi
    obtain ⟨h1, h2⟩ := hk (2 * i) hi
    rw [dbl_even] at h1 h2
    rw [timing_iff (F.pcr h1)] at h2
    rw [F.alive]; exact ⟨h1, h2⟩
  obtain ⟨j, hj, e⟩ := h t k fun j hj => h1 j (by omega)
  exact ⟨2 * j, by omega, by rw [dbl_even]; exact F.limit e (.inr (h1 j (by omega)).2)⟩

theorem Fol.inv (F : Fol cnt base σ ε T s s1 e1 e2) (ex : Exec cnt fuel base okDie σ ε) (i : Nat) : MC.Inv (s i) := by
  have := MC.Dead.inv (F.exec ex) (2 * i)
  rwa [dbl_even] at this

theorem Fol.released (F : Fol cnt base σ ε T s s1 e1 e2) (hw : NoWrap cnt) (hf : Fuel cnt fuel)
    (ex : Exec cnt fuel base okDie σ ε) (h : Released cnt fuel base σ) : MC.ReleasedOrDead (dbl s s1) := by
  have main : ∀ i n t, 1 ≤ (s i).mem.dep n t → ∃ j, i ≤ j ∧ ((s j).mem.dep n t = 0 ∨ (s j).alive t = false) := by
    intro i n t hd
    by_cases t0 : t = 0
    · subst t0; have := (F.inv ex i).zero n; omega
    cases ha : (s i).alive t with
    | false => exact ⟨i, Nat.le_refl _, .inr ha⟩
    | true =>
      obtain ⟨j, hj, hno⟩ := h i n t ((owns_of hw hf (F.sim i) (base t) n t).2 ⟨t0, ha, hd⟩)
      rw [owns_of hw hf (F.sim j) (base t) n t] at hno
      refine ⟨j, hj, ?_⟩
      cases ha' : (s j).alive t with
      | false => exact .inr rfl
      | true =>
        refine .inl (Classical.byContradiction fun hz => hno ⟨t0, ha', ?_⟩)
        omega
  intro k n t hd
  have : ∃ i, k ≤ 2 * i ∧ 1 ≤ (s i).mem.dep n t := by
    rcases two_cases k with ⟨i, rfl⟩ | ⟨i, rfl⟩
    · rw [dbl_even] at hd; exact ⟨i, Nat.le_refl _, hd⟩
    · rw [dbl_odd, ← (F.half i).1] at hd; exact ⟨i + 1, by omega, hd⟩
  obtain ⟨i, hi, hd⟩ := this
  obtain ⟨j, hj, h1⟩ := main i n t hd
  exact ⟨2 * j, by omega, by rw [dbl_even]; exact h1⟩

/-- Who can go on the tables can go on the cells. -/
theorem canGo_of {Tb : Tab} {x : State} {r r1 : MC.State} (S : Sim cnt base Tb x r) (hm : r1.mem = r.mem) (hpc : r1.pc = r.pc)
    (hal : ∀ u, r1.alive u = false → r.alive u = false) {t : Nat} (ha : r.alive t = true) (h : MC.mayGo r1 t) : CanGo x t := by
  obtain ⟨c, r', h⟩ := h
  simp only [MC.step] at h
  split at h
  · cases h
  · obtain ⟨y, hy, -⟩ := Option.map_eq_some_iff.1 h
    rw [hm, hpc] at hy
    have hq := S.pcs t ha
    refine ⟨by rw [S.alive]; exact ha, ?_⟩
    cases hp : x.pc t <;> simp only [] <;> rw [hp] at hq
    case done => rw [pcr_of_done hq, MC.plan_done] at hy; cases hy
    case acqM =>
      obtain ⟨q', e, -⟩ := hq
      rw [e] at hy
      cases c <;> simp only [MC.plan, reduceCtorEq] at hy
      split at hy
      · rename_i h0
        rw [← S.dat.mL, S.alive]
        exact h0.imp id (hal _)
      · cases hy
    case acqC =>
      obtain ⟨q', e, -⟩ := hq
      rw [e] at hy
      cases c <;> simp only [MC.plan, reduceCtorEq] at hy
      split at hy
      · rename_i h0
        rw [← S.dat.cL, S.alive]
        exact h0.imp id (hal _)
      · cases hy

theorem mayGo_of (hw : NoWrap cnt) (hf : Fuel cnt fuel) {Tb : Tab} {x : State} {r : MC.State} (S : Sim cnt base Tb x r) {t : Nat}
    (h : CanGo x t) : mayGo cnt fuel base x t := by
  obtain ⟨ha, h⟩ := h
  have hq := S.pcs t (by rw [← S.alive]; exact ha)
  rw [← S.alive] at hq
  have hp := (progress (t := t) hw hf S.snd S.rep S.dat hq).2 (by cases hp : x.pc t <;> rw [hp] at h <;> exact h)
  obtain ⟨y, hy⟩ := Option.isSome_iff_exists.1 hp
  exact ⟨.go, _, by simp only [step, ha, Bool.true_eq_false, if_false, hy]; rfl⟩

theorem alive_on {A : State → Ev → Prop} (ex : Exec cnt fuel base A σ ε) {i j t : Nat} (hij : i ≤ j)
    (h : (σ j).alive t = true) : (σ i).alive t = true := by
  obtain ⟨d, rfl⟩ := Nat.le.dest hij
  clear hij
  induction d with
  | zero => exact h
  | succ d ih =>
    refine ih ?_
    have hn := ex.next (i + d)
    cases he : ε (i + d) with
    | none => rw [he] at hn; simp only at hn; rw [← hn]; exact h
    | some e =>
      rw [he] at hn
      have hn := hn.2
      cases e <;> simp only [step] at hn <;> split at hn <;> try cases hn; done
      · split at hn
        · rw [← Nat.add_assoc, ← Option.some.inj hn] at h; exact h
        · cases hn
      · obtain ⟨r, -, hr⟩ := Option.map_eq_some_iff.1 hn
        rw [← Nat.add_assoc, ← hr] at h; exact h
      · rename_i u _ _ ha
        rw [← Nat.add_assoc, ← Option.some.inj hn] at h
        simp only [upd] at h
        split at h
        · cases h
        · exact h

theorem Fol.alive_back (F : Fol cnt base σ ε T s s1 e1 e2) {A : State → Ev → Prop} (ex : Exec cnt fuel base A σ ε) {i j t : Nat}
    (hij : i ≤ j) (h : (s j).alive t = true) : (s i).alive t = true := by
  rw [← F.alive] at h ⊢
  exact alive_on ex hij h

/-- What the steps of another thread leave alone. -/
theorem Fol.other (F : Fol cnt base σ ε T s s1 e1 e2) {A : State → Ev → Prop} (ex : Exec cnt fuel base A σ ε) {i t : Nat} {e : Ev}
    (ha0 : (s i).alive t = true) (he : ε i = some e) (hu : actor e ≠ t) :
    (σ (i + 1)).pc t = (σ i).pc t ∧
    (MC.inM ((s i).pc t) = true → T (i + 1) .mtxs = T i .mtxs ∧ (σ (i + 1)).mem.mname = (σ i).mem.mname) ∧
    (MC.inC ((s i).pc t) = true → T (i + 1) .conds = T i .conds ∧ ∀ c, T (i + 1) (.ws c) = T i (.ws c)) := by
  have hn := ex.next i
  rw [he] at hn
  obtain ⟨htwo, K⟩ := F.two i e he
  refine ⟨?_, ?_, ?_⟩
  · have := hn.2
    cases e with
    | go u c =>
      simp only [step] at this
      split at this
      · cases this
      · obtain ⟨r, -, hr⟩ := Option.map_eq_some_iff.1 this
        rw [← hr]; exact MC.upd_ne _ _ (Ne.symm hu)
    | die u c j =>
      simp only [step] at this
      split at this
      · cases this
      · rw [← Option.some.inj this]
    | call u c =>
      simp only [step] at this
      split at this
      · cases this
      · split at this
        · rw [← Option.some.inj this]; exact MC.upd_ne _ _ (Ne.symm hu)
        · cases this
  all_goals
    have hua : (s i).alive (actor e) = true := by
      have := hn.2
      rw [← F.alive]
      cases e <;> simp only [step] at this <;> split at this <;> first | cases this; done | (simp_all [actor])
    have B := (F.sim i).recs.names.base
    have q0 : ∀ v, MC.inM ((s i).pc v) = true ∨ MC.inC ((s i).pc v) = true → v ≠ 0 := by
      rintro v hv rfl
      rw [B.zero] at hv
      rcases hv with hv | hv <;> cases hv
  · intro hM
    have := K.notM (by
      cases hv : MC.inM ((s i).pc (actor e)) with
      | false => rfl
      | true =>
        have h1 := (B.lockM _ (q0 _ (.inl hv)) hua).2 hv
        have h2 := (B.lockM _ (q0 _ (.inl hM)) ha0).2 hM
        exact absurd (h1.symm.trans h2) hu)
    exact ⟨this.1, this.2.2.1⟩
  · intro hC
    have := (K.notC (by
      cases hv : MC.inC ((s i).pc (actor e)) with
      | false => rfl
      | true =>
        have h1 := (B.lockC _ (q0 _ (.inr hv)) hua).2 hv
        have h2 := (B.lockC _ (q0 _ (.inr hC)) ha0).2 hC
        exact absurd (h1.symm.trans h2) hu)).1
    exact ⟨this .conds (by simp [Head.pool]), fun c => this (.ws c) (by simp [Head.pool])⟩

/-- What a thread that lives does besides steps: it calls. -/
theorem Fol.own (F : Fol cnt base σ ε T s s1 e1 e2) {A : State → Ev → Prop} (ex : Exec cnt fuel base A σ ε) {i t : Nat} {e : Ev}
    (ha : (s (i + 1)).alive t = true) (he : ε i = some e) (hu : actor e = t) :
    (∃ c, e = .go t c) ∨ ∃ c r, e = .call t c ∧ (σ i).pc t = .done r ∧ (σ (i + 1)).pc t = start c := by
  have hn := ex.next i
  rw [he] at hn
  have hst := hn.2
  cases e with
  | go u c => cases hu; exact .inl ⟨c, rfl⟩
  | die u c j =>
    simp only [actor] at hu
    subst hu
    simp only [step] at hst
    split at hst
    · cases hst
    · have e3 : (σ (i + 1)).alive u = false := by
        rw [← Option.some.inj hst]; simp
      rw [F.alive] at e3
      rw [e3] at ha; cases ha
  | call u c =>
    simp only [actor] at hu
    subst hu
    simp only [step] at hst
    split at hst
    · cases hst
    · split at hst
      · rename_i r hr
        exact .inr ⟨c, r, rfl, hr, by rw [← Option.some.inj hst]; simp⟩
      · cases hst

/-- What the next step of another thread leaves of a check. -/
theorem Fol.left_stay (F : Fol cnt base σ ε T s s1 e1 e2) (ex : Exec cnt fuel base okDie σ ε) {i t n : Nat}
    (ha : (s (i + 1)).alive t = true) (hne : ∀ c, ε i ≠ some (.go t c)) (h : Left cnt (base t) (T i) ((σ i).pc t) n) :
    Left cnt (base t) (T (i + 1)) ((σ (i + 1)).pc t) n := by
  have ha0 := F.alive_back ex (Nat.le_succ i) ha
  cases he : ε i with
  | none => obtain ⟨h1, h2, -⟩ := F.idle i he; rw [h1, h2]; exact h
  | some e =>
    by_cases hu : actor e = t
    · rcases F.own ex ha he hu with ⟨c, rfl⟩ | ⟨c, r, rfl, h1, h2⟩
      · exact absurd he (hne c)
      · rw [h1] at h
        rw [h2]
        have : n = 0 := h
        subst this
        cases c <;> rfl
    · obtain ⟨h1, h2, h3⟩ := F.other ex ha0 he hu
      rw [h1]
      exact left_keepM (F.pcr ha0) (fun hM => (h2 hM).1) h3 h

theorem Fol.left_on (F : Fol cnt base σ ε T s s1 e1 e2) (ex : Exec cnt fuel base okDie σ ε) {i j t n : Nat} (hij : i ≤ j)
    (ha : (s j).alive t = true) (hne : ∀ r, i ≤ r → r < j → ∀ c, ε r ≠ some (.go t c))
    (h : Left cnt (base t) (T i) ((σ i).pc t) n) : Left cnt (base t) (T j) ((σ j).pc t) n := by
  obtain ⟨d, rfl⟩ := Nat.le.dest hij
  clear hij
  induction d with
  | zero => exact h
  | succ d ih =>
    have := ih (F.alive_back ex (by omega) ha) fun r h1 h2 => hne r h1 (by omega)
    exact F.left_stay ex (i := i + d) ha (hne _ (by omega) (by omega)) this

/-- A step of the thread itself. -/
theorem Fol.going (F : Fol cnt base σ ε T s s1 e1 e2) {A : State → Ev → Prop} (ex : Exec cnt fuel base A σ ε) {i t : Nat} {c : Choice}
    (he : ε i = some (.go t c)) : t ≠ 0 ∧ (s i).alive t = true ∧ Tabs cnt (base t) (T i) ((σ i).pc t) (T (i + 1)) ∧
    (∃ ws x', plan cnt fuel (base t) (σ i).mem (σ i).alive t ((σ i).pc t) c = some (ws, x', (σ (i + 1)).pc t)) ∧
    ((Stays ((σ i).pc t) ∧ s (i + 1) = s i) ∨ ∃ c', e1 i = some (.go t c') ∧ e2 i = none ∧ s (i + 1) = s1 i ∧
      MC.step (s i) (.go t c') = some (s1 i) ∧ Like cnt (base t) (σ i).mem ((σ i).pc t) c c') := by
  have hn := ex.next i
  rw [he] at hn
  have hst := hn.2
  simp only [step] at hst
  split at hst
  · cases hst
  rename_i ha
  obtain ⟨r, hr, hx⟩ := Option.map_eq_some_iff.1 hst
  have ha : (s i).alive t = true := by rw [← F.alive]; simpa using ha
  refine ⟨?_, ha, ?_, ⟨r.1, r.2.1, by rw [hr, ← hx]; simp⟩, ?_⟩
  · rintro rfl
    have hq := F.pcr ha
    rw [(F.sim i).recs.names.base.zero] at hq
    rw [pcr_done hq] at hr
    cases c <;> simp [plan] at hr
  all_goals
    have := (F.two i _ he).1
    generalize s (i + 1) = s' at this ⊢
    generalize e2 i = f2 at this ⊢
    generalize s1 i = s1' at this ⊢
    generalize e1 i = f1 at this ⊢
    generalize T (i + 1) = T' at this ⊢
    cases this with
    | stay h1 h2 => first | exact h2 | exact .inl ⟨h1, rfl⟩
    | go h1 h2 h3 => first | exact h3 | exact .inr ⟨_, rfl, rfl, rfl, h1, h2⟩

theorem Fol.left_own (F : Fol cnt base σ ε T s s1 e1 e2) (hw : NoWrap cnt) (hf : Fuel cnt fuel) (ex : Exec cnt fuel base okDie σ ε)
    {i t n : Nat} {c : Choice} (he : ε i = some (.go t c)) (h : Left cnt (base t) (T i) ((σ i).pc t) n) :
    (checking ((σ i).pc t) = true → checking ((σ (i + 1)).pc t) = false ∨ ∃ n', n' < n ∧ Left cnt (base t) (T (i + 1)) ((σ (i + 1)).pc t) n') ∧
    (checking ((σ i).pc t) = false → Stays ((σ i).pc t) → ∃ n', n' < n ∧ Left cnt (base t) (T (i + 1)) ((σ (i + 1)).pc t) n') := by
  obtain ⟨t0, ha, ht, ⟨ws, x', hp⟩, -⟩ := F.going ex he
  have S := F.sim i
  rw [F.alive] at hp
  exact left_go hw hf S.snd S.rep S.dat (F.pcr ha) ((F.inv ex i).th t t0 ha).at_ hp ht h

theorem canGo_chk {x : State} {t : Nat} (ha : x.alive t = true) (h : checking (x.pc t) = true) : CanGo x t := by
  refine ⟨ha, ?_⟩
  cases hp : x.pc t <;> rw [hp] at h <;> simp [checking] at h ⊢

/-- Every check ends. -/
theorem Fol.checks (F : Fol cnt base σ ε T s s1 e1 e2) (hw : NoWrap cnt) (hf : Fuel cnt fuel) (ex : Exec cnt fuel base okDie σ ε)
    (hfair : Fair cnt fuel base σ ε) {t i : Nat} (hall : ∀ j, i ≤ j → (s j).alive t = true ∧ checking ((σ j).pc t) = true) : False := by
  have hgo := hfair t fun j => ⟨j + i, by omega, mayGo_of hw hf (F.sim (j + i))
    (canGo_chk (by rw [F.alive]; exact (hall _ (by omega)).1) (hall _ (by omega)).2)⟩
  have key : ∀ n j, i ≤ j → Left cnt (base t) (T j) ((σ j).pc t) n → False := by
    intro n
    induction n using Nat.strong_induction_on with
    | _ n ih =>
      intro j hj hl
      obtain ⟨l, h1, c, h2⟩ := hgo j
      obtain ⟨l, h1, -, ⟨c, h2⟩, h3⟩ := MC.Dead.first (P := fun l => ∃ c, ε l = some (.go t c)) h1 ⟨c, h2⟩
      have hl' := F.left_on ex h1 (hall l (by omega)).1 (fun r hr hr' c hc => h3 r hr hr' ⟨c, hc⟩) hl
      rcases (F.left_own hw hf ex h2 hl').1 (hall l (by omega)).2 with h | ⟨n', h4, h5⟩
      · rw [(hall (l + 1) (by omega)).2] at h; cases h
      · exact ih n' h4 (l + 1) (by omega) h5
  obtain ⟨n, hn⟩ := left_of (F.pcr (hall i (Nat.le_refl _)).1)
  exact key n i (Nat.le_refl _) hn

theorem Fol.checksEnd (F : Fol cnt base σ ε T s s1 e1 e2) (hw : NoWrap cnt) (hf : Fuel cnt fuel) (ex : Exec cnt fuel base okDie σ ε)
    (hfair : Fair cnt fuel base σ ε) : MC.ChecksEndOrDead (dbl s s1) := by
  intro t k _
  refine Classical.byContradiction fun hno => ?_
  have hall : ∀ j, k ≤ j → MC.checking ((dbl s s1 j).pc t) = true ∧ (dbl s s1 j).alive t = true := by
    intro j hj
    refine ⟨?_, ?_⟩ <;> refine Classical.byContradiction fun h => hno ⟨j, hj, ?_⟩
    · exact .inl (by simpa using h)
    · exact .inr (by simpa using h)
  refine F.checks hw hf ex hfair (t := t) (i := k) fun j hj => ?_
  obtain ⟨h1, h2⟩ := hall (2 * j) (by omega)
  rw [dbl_even] at h1 h2
  exact ⟨h2, by rw [← chk_iff (F.pcr h2)]; exact h1⟩

/-- The scheduler is fair on the tables. -/
theorem Fol.fair (F : Fol cnt base σ ε T s s1 e1 e2) (hw : NoWrap cnt) (hf : Fuel cnt fuel) (ex : Exec cnt fuel base okDie σ ε)
    (hfair : Fair cnt fuel base σ ε) : MC.Fair (dbl s s1) (dbl e1 e2) := by
  intro t hmay k
  refine Classical.byContradiction fun hno => ?_
  have hno : ∀ j, k ≤ j → ∀ c, dbl e1 e2 j ≠ some (.go t c) := fun j hj c h => hno ⟨j, hj, c, h⟩
  have ha : ∀ i, (s i).alive t = true := by
    intro i
    obtain ⟨j, hj, c, r, h⟩ := hmay (2 * i)
    have := MC.Dead.alive_back (F.exec ex) hj (go_frame h).1
    rwa [dbl_even] at this
  have hgo := hfair t fun i => by
    obtain ⟨j, hj, h⟩ := hmay (2 * i)
    rcases two_cases j with ⟨l, rfl⟩ | ⟨l, rfl⟩
    · rw [dbl_even] at h
      exact ⟨l, by omega, mayGo_of hw hf (F.sim l) (canGo_of (F.sim l) rfl rfl (fun _ h => h) (ha l) h)⟩
    · rw [dbl_odd] at h
      have e := F.half l
      exact ⟨l + 1, by omega, mayGo_of hw hf (F.sim (l + 1)) (canGo_of (F.sim (l + 1)) e.1.symm e.2.1.symm e.2.2.2 (ha (l + 1)) h)⟩
  have key : ∀ n j, k ≤ j → Left cnt (base t) (T j) ((σ j).pc t) n → False := by
    intro n
    induction n using Nat.strong_induction_on with
    | _ n ih =>
      intro j hj hl
      obtain ⟨l, h1, c, h2⟩ := hgo j
      obtain ⟨l, h1, -, ⟨c, h2⟩, h3⟩ := MC.Dead.first (P := fun l => ∃ c, ε l = some (.go t c)) h1 ⟨c, h2⟩
      have hl' := F.left_on ex h1 (ha l) (fun r hr hr' c hc => h3 r hr hr' ⟨c, hc⟩) hl
      have hown := F.left_own hw hf ex h2 hl'
      obtain ⟨-, -, -, -, ⟨hst, hsame⟩ | ⟨c', he, -⟩⟩ := F.going ex h2
      · have : ∃ n', n' < n ∧ Left cnt (base t) (T (l + 1)) ((σ (l + 1)).pc t) n' := by
          cases hc : checking ((σ l).pc t) with
          | false => exact hown.2 hc hst
          | true =>
            rcases hown.1 hc with h | h
            · rw [← chk_iff (F.pcr (ha (l + 1))), hsame, chk_iff (F.pcr (ha l)), hc] at h; cases h
            · exact h
        obtain ⟨n', h4, h5⟩ := this
        exact ih n' h4 (l + 1) (by omega) h5
      · exact hno (2 * l) (by omega) c' (by rw [dbl_even]; exact he)
  obtain ⟨n, hn⟩ := left_of (F.pcr (ha k))
  exact key n k (Nat.le_refl _) hn

/-! ### Checks look at every mutex -/

theorem Fol.mlist_on (F : Fol cnt base σ ε T s s1 e1 e2) {i j n : Nat} (hij : i ≤ j) (h : n ∈ (s i).mem.mlist) :
    n ∈ (s j).mem.mlist := by
  obtain ⟨d, rfl⟩ := Nat.le.dest hij
  clear hij
  induction d with
  | zero => exact h
  | succ d ih =>
    cases he : ε (i + d) with
    | none => rw [← Nat.add_assoc, (F.idle _ he).2.2.1]; exact ih
    | some e =>
      have K := (F.two _ e he).2
      rw [(F.sim _).dat.ml] at ih
      obtain ⟨m, hm, rfl⟩ := List.mem_map.1 ih
      rw [← Nat.add_assoc, (F.sim (i + d + 1)).dat.ml, ← K.mname m hm]
      exact List.mem_map_of_mem (K.mtxs.subset hm)

/-- A dead thread stays where it is. -/
theorem dead_pc {σ : Nat → MC.State} {ε : Nat → Option MC.Ev} (ex : MC.Exec MC.okDie σ ε) {t i j : Nat} (hij : i ≤ j)
    (h : (σ i).alive t = false) : (σ j).pc t = (σ i).pc t := by
  obtain ⟨d, rfl⟩ := Nat.le.dest hij
  clear hij
  induction d with
  | zero => rfl
  | succ d ih =>
    have hd := MC.Dead.dead_on ex (Nat.le_add_right i d) h
    rw [← ih, ← Nat.add_assoc]
    have hn := ex.next (i + d)
    cases he : ε (i + d) with
    | none => rw [he] at hn; simp only at hn; rw [hn]
    | some e =>
      rw [he] at hn
      have hs := hn.2
      cases e with
      | call u c =>
        simp only [MC.step] at hs
        split at hs
        · cases hs
        · rename_i hu
          split at hs
          · rw [← Option.some.inj hs]
            refine MC.upd_ne _ _ ?_
            rintro rfl
            exact hu (.inr hd)
          · cases hs
      | go u c =>
        refine (go_frame hs).2.2.2.1 t ?_
        rintro rfl
        rw [(go_frame hs).1] at hd; cases hd
      | die u =>
        simp only [MC.step] at hs
        split at hs
        · cases hs
        · rw [← Option.some.inj hs]

/-- What a check of dead owners that began after moment `i` has looked at. -/
def Seen (cnt : Pool → Nat) (b : Nat) (L : Nat → Prop) (T : Tab) (x : Mem) : Pc → Prop
  | .swTop _ => True
  | .swAt a _ => ∃ pre rest, T .mtxs = pre ++ rest ∧ a = hdp cnt b .nmtx rest ∧ ∀ m ∈ pre, L (x.mname m)
  | .swChk m _ _ => ∃ pre rest, T .mtxs = pre ++ m :: rest ∧ ∀ m' ∈ pre ++ [m], L (x.mname m')
  | .swCnt m _ => ∃ pre rest, T .mtxs = pre ++ m :: rest ∧ ∀ m' ∈ pre ++ [m], L (x.mname m')
  | .swCntC m _ _ => ∃ pre rest, T .mtxs = pre ++ m :: rest ∧ ∀ m' ∈ pre ++ [m], L (x.mname m')
  | .swVal m _ => ∃ pre rest, T .mtxs = pre ++ m :: rest ∧ ∀ m' ∈ pre ++ [m], L (x.mname m')
  | .swValC m _ _ => ∃ pre rest, T .mtxs = pre ++ m :: rest ∧ ∀ m' ∈ pre ++ [m], L (x.mname m')
  | _ => False

theorem seen_congr {b : Nat} {L L' : Nat → Prop} {T T' : Tab} {x x' : Mem} {p : Pc} (hT : T' .mtxs = T .mtxs)
    (hx : ∀ m ∈ T .mtxs, x'.mname m = x.mname m) (hL : ∀ n, L n → L' n) (h : Seen cnt b L T x p) : Seen cnt b L' T' x' p := by
  cases p <;> simp only [Seen] at h ⊢
  case swAt =>
    obtain ⟨pre, rest, h1, h2, h3⟩ := h
    exact ⟨pre, rest, hT.trans h1, h2, fun m hm => by
      rw [hx m (by rw [h1]; exact List.mem_append_left _ hm)]; exact hL _ (h3 m hm)⟩
  all_goals
    obtain ⟨pre, rest, h1, h3⟩ := h
    exact ⟨pre, rest, hT.trans h1, fun m hm => by
      rw [hx m (by rw [h1]; simp at hm ⊢; tauto)]; exact hL _ (h3 m hm)⟩

/-- A step of the check. -/
theorem seen_go (hw : NoWrap cnt) {b : Nat} {Tb : Tab} {x : Mem} {alive : Nat → Bool} {t : Nat} {M : MC.Mem} {q : MC.Pc} {p p' : Pc}
    {c : Choice} {ws : List Write} {x' : Mem} {L L' : Nat → Prop}
    (hs : Sound cnt Tb) (hr : Rep cnt x.cells Tb) (hd : Data Tb x M) (hq : PcR cnt b Tb x alive p q) (hat : MC.At M alive t q)
    (h : plan cnt fuel b x alive t p c = some (ws, x', p')) (hc : checking p' = true) (hL : ∀ n, L n → L' n)
    (hA : ∀ a k, p = .swAt a k → a ≠ 0 → L' (x.mname (idx cnt b .nmtx a)))
    (hS : Seen cnt b L Tb x p) : Seen cnt b L' Tb x p' := by
  have hnext : ∀ {m k} {pre rest : List Nat}, Tb .mtxs = pre ++ m :: rest → (∀ m' ∈ pre ++ [m], L' (x.mname m')) →
      Seen cnt b L' Tb x (.swAt (nextOf b x (ptr cnt b .nmtx m)) k) := by
    intro m k pre rest e h
    exact ⟨pre ++ [m], rest, by rw [e]; simp, next_eq hw hr b (h := .mtxs) trivial e, h⟩
  cases p <;> simp only [Seen] at hS
  case swTop k =>
    cases c <;> simp only [plan, plain, reduceCtorEq, Option.some.injEq, Prod.mk.injEq] at h
    obtain ⟨rfl, rfl, rfl⟩ := h
    exact ⟨[], Tb .mtxs, rfl, top_eq hw hs hr b (h := .mtxs) trivial, by simp⟩
  case swAt a k =>
    obtain ⟨pre, rest, e0, rfl, h3⟩ := hS
    cases c <;> simp only [plan, plain, reduceCtorEq] at h
    split at h
    · simp only [Option.some.injEq, Prod.mk.injEq] at h
      obtain ⟨rfl, rfl, rfl⟩ := h
      cases hc
    · rename_i hne
      have hA := hA _ _ rfl hne
      obtain ⟨m, l, rfl, e⟩ := hdp_cons hne
      rw [e, idx_ptr] at h hA
      have h4 : ∀ m' ∈ pre ++ [m], L' (x.mname m') := by
        intro m' hm
        rcases List.mem_append.1 hm with hm | hm
        · exact hL _ (h3 m' hm)
        · rw [List.mem_singleton.1 hm]; exact hA
      split at h <;> simp only [Option.some.injEq, Prod.mk.injEq] at h <;> obtain ⟨rfl, rfl, rfl⟩ := h
      · exact hnext e0 h4
      · exact ⟨pre, l, e0, h4⟩
  case swChk m v k =>
    obtain ⟨pre, rest, e, h3⟩ := hS
    have h3 : ∀ m' ∈ pre ++ [m], L' (x.mname m') := fun m' hm => hL _ (h3 m' hm)
    cases c <;> simp only [plan, plain, reduceCtorEq, Option.some.injEq, Prod.mk.injEq] at h
    · obtain ⟨rfl, rfl, rfl⟩ := h
      split
      · exact hnext e h3
      · exact ⟨pre, rest, e, h3⟩
    · obtain ⟨rfl, rfl, rfl⟩ := h
      exact hnext e h3
  case swCnt m k =>
    obtain ⟨pre, rest, e, h3⟩ := hS
    have h3 : ∀ m' ∈ pre ++ [m], L' (x.mname m') := fun m' hm => hL _ (h3 m' hm)
    cases c <;> simp only [plan, plain, reduceCtorEq, Option.some.injEq, Prod.mk.injEq] at h
    obtain ⟨rfl, rfl, rfl⟩ := h
    exact ⟨pre, rest, e, h3⟩
  case swCntC m o k =>
    obtain ⟨pre, rest, e, h3⟩ := hS
    have h3 : ∀ m' ∈ pre ++ [m], L' (x.mname m') := fun m' hm => hL _ (h3 m' hm)
    obtain ⟨h1, h2, rfl⟩ := hq
    have h4 : x.mcnt m = o := by rw [← hd.mc m h1]; exact hat.2.2
    cases c <;> simp only [plan, plain, reduceCtorEq, if_pos h4] at h
    split at h <;> simp only [Option.some.injEq, Prod.mk.injEq] at h <;> obtain ⟨rfl, rfl, rfl⟩ := h <;>
      exact ⟨pre, rest, e, h3⟩
  case swVal m k =>
    obtain ⟨pre, rest, e, h3⟩ := hS
    have h3 : ∀ m' ∈ pre ++ [m], L' (x.mname m') := fun m' hm => hL _ (h3 m' hm)
    cases c <;> simp only [plan, plain, reduceCtorEq, Option.some.injEq, Prod.mk.injEq] at h
    obtain ⟨rfl, rfl, rfl⟩ := h
    exact ⟨pre, rest, e, h3⟩
  case swValC m v k =>
    obtain ⟨pre, rest, e, h3⟩ := hS
    have h3 : ∀ m' ∈ pre ++ [m], L' (x.mname m') := fun m' hm => hL _ (h3 m' hm)
    obtain ⟨h1, h2, rfl⟩ := hq
    have h4 : x.mval m = v := by rw [← hd.mv m h1]; exact hat.2.2.2
    cases c <;> simp only [plan, plain, reduceCtorEq, if_pos h4] at h
    split at h <;> simp only [Option.some.injEq, Prod.mk.injEq] at h <;> obtain ⟨rfl, rfl, rfl⟩ := h <;>
      exact hnext e h3

theorem seen_inM {b : Nat} {L : Nat → Prop} {Tb : Tab} {x : Mem} {alive : Nat → Bool} {p : Pc} {q : MC.Pc}
    (hq : PcR cnt b Tb x alive p q) (h : Seen cnt b L Tb x p) : MC.inM q = true ∧ ∀ T', Tabs cnt b Tb p T' → T' = Tb := by
  cases p <;> simp only [Seen] at h <;> simp only [PcR] at hq
  case swAt => obtain ⟨_, _, _, _, rfl⟩ := hq; exact ⟨rfl, fun _ h => h⟩
  case swTop => obtain ⟨_, rfl⟩ := hq; exact ⟨rfl, fun _ h => h⟩
  all_goals obtain ⟨_, _, rfl⟩ := hq; exact ⟨rfl, fun _ h => h⟩

/-- A thread that is elsewhere after the first half of a moment. -/
theorem Fol.moved (F : Fol cnt base σ ε T s s1 e1 e2) {i t : Nat} (h : (s1 i).pc t ≠ (s i).pc t) :
    (∃ r, (s i).pc t = .done r) ∨ ∃ c c', e1 i = some (.go t c') ∧ MC.step (s i) (.go t c') = some (s1 i) ∧
      Like cnt (base t) (σ i).mem ((σ i).pc t) c c' ∧ (ε i = some (.go t c) ∨ (s (i + 1)).alive t = false) := by
  cases he : ε i with
  | none => exact absurd (by rw [(F.idle i he).2.2.2.1]) h
  | some e =>
    have := (F.two i e he).1
    generalize s (i + 1) = s' at this ⊢
    generalize e2 i = f2 at this
    generalize s1 i = s1' at this h ⊢
    generalize e1 i = f1 at this ⊢
    generalize T (i + 1) = T' at this
    cases this with
    | @call u c _ h1 =>
      simp only [MC.step] at h1
      split at h1
      · cases h1
      · split at h1
        · rename_i r hr
          rw [← Option.some.inj h1] at h
          by_cases e : t = u
          · subst e; exact .inl ⟨r, hr⟩
          · exact absurd (MC.upd_ne _ _ e) h
        · cases h1
    | stay => exact absurd rfl h
    | die => exact absurd rfl h
    | @go u c c' _ _ h1 h2 =>
      by_cases e : t = u
      · subst e; exact .inr ⟨_, _, rfl, h1, h2, .inl rfl⟩
      · exact absurd ((go_frame h1).2.2.2.1 t e) h
    | @goDie u j c c' _ _ _ h1 h1' _ _ h2 =>
      by_cases e : t = u
      · subst e
        refine .inr ⟨_, _, rfl, h1, h2, .inr ?_⟩
        simp only [MC.step] at h1'
        split at h1'
        · cases h1'
        · rw [← Option.some.inj h1']; simp
      · exact absurd ((go_frame h1).2.2.2.1 t e) h

theorem Fol.thorough (F : Fol cnt base σ ε T s s1 e1 e2) (hw : NoWrap cnt) (ex : Exec cnt fuel base okDie σ ε) :
    MC.Thorough (dbl s s1) (dbl e1 e2) := by
  have ex' := F.exec ex
  intro t k j x hkj hp hchk hend n hn
  have hal : ∀ r, k < r → r < j → (dbl s s1 r).alive t = true := by
    intro r h1 h2
    cases ha : (dbl s s1 r).alive t with
    | true => rfl
    | false =>
      have := hchk r h1 h2
      rw [← dead_pc ex' (by omega : r ≤ j) ha, hend] at this; cases this
  -- the beginning
  obtain ⟨i, rfl⟩ : ∃ i, k = 2 * i := by
    rcases two_cases k with h | ⟨i, rfl⟩
    · exact h
    exfalso
    have e1 : (dbl s s1 (2 * (i + 1))).pc t = .acqM (.swM x) := by
      rw [dbl_odd] at hp
      rw [dbl_even, (F.half i).2.1]; exact hp
    by_cases e : j = 2 * (i + 1)
    · rw [e, e1] at hend; cases hend
    · have := hchk (2 * (i + 1)) (by omega) (by omega)
      rw [e1] at this; cases this
  rw [dbl_even] at hp hn
  have hfirst : (s1 i).pc t ≠ (s i).pc t := by
    intro e
    by_cases ej : j = 2 * i + 1
    · rw [ej, dbl_odd, e, hp] at hend; cases hend
    · have := hchk (2 * i + 1) (by omega) (by omega)
      rw [dbl_odd, e, hp] at this; cases this
  have hgo : ∀ c', MC.step (s i) (.go t c') = some (s1 i) → (s1 i).pc t = .swM x := by
    intro c' h
    have := (go_frame h).2.2.2.2
    rw [hp] at this
    cases c' <;> simp only [MC.plan, reduceCtorEq] at this
    split at this
    · simp only [Option.some.injEq, Prod.mk.injEq] at this; exact this.2.symm
    · cases this
  rcases F.moved hfirst with ⟨r, hr⟩ | ⟨c, c', -, h1, -, h3⟩
  · rw [hp] at hr; cases hr
  have h1 := hgo _ h1
  have hj : 2 * (i + 1) < j := by
    have : j ≠ 2 * i + 1 := by rintro rfl; rw [dbl_odd, h1] at hend; cases hend
    have : j ≠ 2 * (i + 1) := by rintro rfl; rw [dbl_even, (F.half i).2.1, h1] at hend; cases hend
    omega
  have ha1 := hal (2 * (i + 1)) (by omega) hj
  rw [dbl_even] at ha1
  have h3 : ε i = some (.go t c) := by
    rcases h3 with h | h
    · exact h
    · rw [ha1] at h; cases h
  obtain ⟨-, ha0, -, ⟨ws, x', hpl⟩, -⟩ := F.going ex h3
  have htop : ∃ k', (σ (i + 1)).pc t = .swTop k' := by
    have hq := F.pcr ha0
    rw [hp] at hq
    cases hpc : (σ i).pc t <;> rw [hpc] at hq <;> simp only [PcR, reduceCtorEq, and_false, exists_false, false_and] at hq
    rename_i p
    obtain ⟨q', e, g1, -, g2⟩ := hq
    cases e
    have : ∃ k', p = .swTop k' := by
      cases p <;> simp only [PcR, reduceCtorEq, and_false, exists_false, false_and] at g2
      · exact ⟨_, rfl⟩
      · simp [needM] at g1
    obtain ⟨k', rfl⟩ := this
    rw [hpc] at hpl
    cases c <;> simp only [plan, plain, reduceCtorEq] at hpl
    split at hpl
    · simp only [Option.some.injEq, Prod.mk.injEq] at hpl
      exact ⟨k', hpl.2.2.symm⟩
    · cases hpl
  obtain ⟨k', htop⟩ := htop
  -- the middle
  have hmid : ∀ d, 2 * (i + 1 + d) < j → Seen cnt (base t) (fun n => ∃ r, 2 * i < r ∧ r < 2 * (i + 1 + d) ∧ dbl e1 e2 r = some (.go t (.mx n)))
      (T (i + 1 + d)) (σ (i + 1 + d)).mem ((σ (i + 1 + d)).pc t) := by
    intro d
    induction d with
    | zero => intro _; rw [Nat.add_zero, htop]; trivial
    | succ d ih =>
      intro hlt
      have ih := ih (by omega)
      generalize ea : i + 1 + d = a at ih
      rw [show i + 1 + (d + 1) = a + 1 from by omega] at hlt ⊢
      have haa := hal (2 * a) (by omega) (by omega)
      have hab := hal (2 * (a + 1)) (by omega) (by omega)
      have hcb := hchk (2 * (a + 1)) (by omega) (by omega)
      rw [dbl_even] at haa hab hcb
      rw [chk_iff (F.pcr hab)] at hcb
      have hmon : ∀ n, (∃ r, 2 * i < r ∧ r < 2 * a ∧ dbl e1 e2 r = some (.go t (.mx n))) →
          ∃ r, 2 * i < r ∧ r < 2 * (a + 1) ∧ dbl e1 e2 r = some (.go t (.mx n)) :=
        fun n ⟨r, h1, h2, h3⟩ => ⟨r, h1, by omega, h3⟩
      obtain ⟨hM, hTabs⟩ := seen_inM (F.pcr haa) ih
      cases he : ε a with
      | none =>
        obtain ⟨g1, g2, -⟩ := F.idle a he
        rw [g1, g2]
        exact seen_congr rfl (fun _ _ => rfl) hmon ih
      | some e =>
        by_cases hu : actor e = t
        · rcases F.own ex hab he hu with ⟨c, rfl⟩ | ⟨c, r, -, g1, -⟩
          · obtain ⟨t0, -, gt, ⟨ws, x', gp⟩, gc⟩ := F.going ex he
            have eT := hTabs _ gt
            have K := (F.two a _ he).2
            have S := F.sim a
            rw [F.alive] at gp
            refine seen_congr (by rw [eT]) (fun m hm => K.mname m hm) (fun _ h => h)
              (seen_go hw S.snd S.rep S.dat (F.pcr haa) ((F.inv ex a).th t t0 haa).at_ gp hcb hmon ?_ ih)
            intro ad k2 hpc hne
            rw [hpc] at gc
            rcases gc with ⟨gc, -⟩ | ⟨c', g1, -, -, -, g2⟩
            · exact gc.elim
            · simp only [Like, if_neg hne] at g2
              exact ⟨2 * a, by omega, by omega, by rw [dbl_even, g1, g2]⟩
          · rw [g1] at ih; exact ih.elim
        · obtain ⟨g1, g2, -⟩ := F.other ex haa he hu
          obtain ⟨g2, g3⟩ := g2 hM
          rw [g1]
          exact seen_congr g2 (fun m _ => by rw [g3]) hmon ih
  -- the end
  obtain ⟨a, rfl⟩ : ∃ a, j = 2 * a + 1 := by
    rcases two_cases j with ⟨a, rfl⟩ | h
    · exfalso
      obtain ⟨a, rfl⟩ : ∃ b, a = b + 1 := ⟨a - 1, by omega⟩
      have := hchk (2 * a + 1) (by omega) (by omega)
      rw [dbl_odd, ← (F.half a).2.1] at this
      rw [dbl_even] at hend
      rw [hend] at this; cases this
    · exact h
  have haa := hal (2 * a) (by omega) (by omega)
  have hca := hchk (2 * a) (by omega) (by omega)
  rw [dbl_even] at haa hca
  rw [dbl_odd] at hend
  have hS := hmid (a - (i + 1)) (by omega)
  rw [show i + 1 + (a - (i + 1)) = a from by omega] at hS
  rcases F.moved (i := a) (t := t) (by intro e; rw [← e, hend] at hca; cases hca) with ⟨r, hr⟩ | ⟨c, c', -, g1, g2, -⟩
  · rw [hr] at hca; cases hca
  have hpl := (go_frame g1).2.2.2.2
  have hq := F.pcr haa
  rw [hend] at hpl
  have hn' := F.mlist_on (show i ≤ a by omega) hn
  rw [(F.sim a).dat.ml] at hn'
  obtain ⟨m, hm, rfl⟩ := List.mem_map.1 hn'
  cases hpc : (σ a).pc t <;> rw [hpc] at hq hS g2 <;> simp only [Seen] at hS <;> simp only [PcR] at hq
  case swTop => exact g2.elim
  case swAt ad k2 =>
    obtain ⟨_, -, -, -, hq⟩ := hq
    rw [hq] at hpl
    simp only [Like] at g2
    obtain ⟨pre, rest, h4, h5, h6⟩ := hS
    by_cases h0 : ad = 0
    · rw [h0] at h5
      have : rest = [] := hdp_zero hw .mtxs h5.symm
      subst this
      rw [List.append_nil] at h4
      obtain ⟨r, r1, r2, r3⟩ := h6 m (by rw [← h4]; exact hm)
      exact ⟨r, r1, by omega, r3⟩
    · rw [if_neg h0] at g2
      rw [g2] at hpl
      simp only [MC.plan] at hpl
      split at hpl
      · simp only [Option.some.injEq, Prod.mk.injEq] at hpl
        have := hpl.2
        split at this <;> cases this
      · cases hpl
  all_goals
    obtain ⟨-, -, hq⟩ := hq
    rw [hq] at hpl
    exfalso
    cases c' <;> simp only [MC.plan, reduceCtorEq] at hpl <;> grind

end fol
end Fullock.MCMem
