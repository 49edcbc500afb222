import Verif.Props.Tso
import Verif.Spec.TsoUser
/-
C90: data guarded by locks.
-/
namespace Fullock.Props.TsoUser
open Fullock.Tso Fullock.TsoUser Fullock.Spec.Tso Fullock.Spec.TsoUser Fullock.Props.Tso

/-! ### Lock words of ranges -/

/-- The word tells who has the range: `rs` are the readers. -/
def WordOK (v : Nat) (mode : Nat → Mode) : Prop :=
  ∃ rs : List Nat, rs.Nodup ∧ (∀ t, t ∈ rs ↔ mode t = .r) ∧
    ((v = 1 ∧ rs = [] ∧ ∃ w, mode w = .w ∧ ∀ u, mode u = .w → u = w) ∨
     ((∀ u, mode u ≠ .w) ∧ v = if rs.length = 0 then 0 else rs.length + 1))

theorem WordOK.excl {v : Nat} {mode : Nat → Mode} (h : WordOK v mode) {t u : Nat} (ht : mode t = .w) (hu : mode u ≠ .no) :
    u = t := by
  obtain ⟨rs, hn, hr, ⟨h1, h2, w, h3, h4⟩ | ⟨h1, h2⟩⟩ := h
  · cases hm : mode u with
    | no => exact absurd hm hu
    | r => have := (hr u).2 hm; rw [h2] at this; cases this
    | w => rw [h4 u hm, h4 t ht]
  · exact absurd ht (h1 t)

theorem WordOK.rlock {v : Nat} {mode : Nat → Mode} (h : WordOK v mode) (hv : v ≠ 1) {t : Nat} (ht : mode t = .no) :
    WordOK (inc v) (fput mode t .r) := by
  obtain ⟨rs, hn, hr, ⟨h1, -⟩ | ⟨h1, h2⟩⟩ := h
  · exact absurd h1 hv
  · refine ⟨t :: rs, ?_, fun u => ?_, Or.inr ⟨fun u => ?_, ?_⟩⟩
    · refine List.nodup_cons.2 ⟨fun hm => ?_, hn⟩
      have := (hr t).1 hm
      rw [ht] at this; cases this
    · simp only [fput, List.mem_cons]
      grind
    · simp only [fput]; grind
    · simp only [List.length_cons, inc]
      grind

theorem WordOK.wlock {mode : Nat → Mode} (h : WordOK 0 mode) {t : Nat} (ht : mode t = .no) :
    WordOK 1 (fput mode t .w) := by
  obtain ⟨rs, hn, hr, ⟨h1, -⟩ | ⟨h1, h2⟩⟩ := h
  · cases h1
  · have : rs = [] := by
      cases rs with
      | nil => rfl
      | cons a b => simp at h2
    subst this
    refine ⟨[], List.nodup_nil, fun u => ?_, Or.inl ⟨rfl, rfl, t, ?_, fun u => ?_⟩⟩
    · have := hr u
      simp only [fput]; grind
    · simp [fput]
    · simp only [fput]; grind

theorem WordOK.unlock {v : Nat} {mode : Nat → Mode} (h : WordOK v mode) {t : Nat} (ht : mode t ≠ .no) :
    WordOK (dec v) (fput mode t .no) := by
  obtain ⟨rs, hn, hr, ⟨h1, h2, w, h3, h4⟩ | ⟨h1, h2⟩⟩ := h
  · subst h2
    refine ⟨[], List.nodup_nil, fun u => ?_, Or.inr ⟨fun u => ?_, ?_⟩⟩
    · have := hr u
      simp only [fput]; grind
    · have h5 := hr t
      simp only [fput]
      have : mode t = .w := by cases hm : mode t <;> simp_all
      grind
    · simp [dec, h1]
  · have hm : mode t = .r := by
      cases hm : mode t with
      | no => exact absurd hm ht
      | r => rfl
      | w => exact absurd hm (h1 t)
    have hmem := (hr t).2 hm
    refine ⟨rs.erase t, hn.erase t, fun u => ?_, Or.inr ⟨fun u => ?_, ?_⟩⟩
    · rw [hn.mem_erase_iff, hr u]
      simp only [fput]; grind
    · simp only [fput]; grind
    · have hl : (rs.erase t).length = rs.length - 1 := List.length_erase_of_mem hmem
      have hp : 0 < rs.length := List.length_pos_of_mem hmem
      rw [hl, h2]
      simp only [dec]
      grind

theorem WordOK.held {mode : Nat → Mode} (h : WordOK 0 mode) (t : Nat) : mode t = .no := by
  obtain ⟨rs, hn, hr, ⟨h1, -⟩ | ⟨h1, h2⟩⟩ := h
  · cases h1
  · have : rs = [] := by
      cases rs with
      | nil => rfl
      | cons a b => simp at h2
    have h3 := hr t
    subst this
    cases hm : mode t with
    | no => rfl
    | r => rw [hm] at h3; simp at h3
    | w => exact absurd hm (h1 t)

/-! ### Invariants -/

variable {U : Type} {guard : Nat → Guard} {prog : Nat → U → UIns U}

/-- Ranges: what a place says. -/
def PcR (s : Lc U) : Prop :=
  match s.pc with
  | .rdA l _ => s.mode l = .no
  | .rdC l b _ => s.mode l = .no ∧ b ≠ 1
  | .wrC l _ => s.mode l = .no
  | .unA l _ => s.mode l ≠ .no
  | .unC l _ _ => s.mode l ≠ .no
  | _ => True

/-- Ranges. -/
structure RInv (c : Sc (Lc U)) : Prop where
  word : ∀ l, WordOK (c.mem (rwA l)) (fun t => (c.loc t).mode l)
  pc : ∀ t, PcR (c.loc t)

/-- Thread `t` goes to `s'` keeping its ranges, and no word of a range changes. -/
theorem RInv.keep {c : Sc (Lc U)} (h : RInv c) {t : Nat} {s' : Lc U} {m : Nat → Nat} {al : Nat → Bool} {d : Nat → List Nat}
    (hm : s'.mode = (c.loc t).mode) (hw : ∀ l, m (rwA l) = c.mem (rwA l)) (hp : PcR s') :
    RInv ⟨m, fput c.loc t s', al, d⟩ := by
  constructor
  · intro l
    simp only [hw]
    have : (fun u => (fput c.loc t s' u).mode l) = fun u => (c.loc u).mode l := by
      funext u
      simp only [fput]
      split
      · rename_i e; rw [e, hm]
      · rfl
    rw [this]; exact h.word l
  · intro u
    simp only [fput]
    split
    · exact hp
    · exact h.pc u

/-- Thread `t` changes range `l`. -/
theorem RInv.change {c : Sc (Lc U)} (h : RInv c) {t l : Nat} {x : Mode} {s' : Lc U} {m : Nat → Nat} {al : Nat → Bool}
    {d : Nat → List Nat} (hm : s'.mode = fput (c.loc t).mode l x) (hw : ∀ l', l' ≠ l → m (rwA l') = c.mem (rwA l'))
    (hl : WordOK (m (rwA l)) (fput (fun u => (c.loc u).mode l) t x)) (hp : PcR s') : RInv ⟨m, fput c.loc t s', al, d⟩ := by
  constructor
  · intro l'
    simp only
    by_cases e : l' = l
    · subst e
      have : (fun u => (fput c.loc t s' u).mode l') = fput (fun u => (c.loc u).mode l') t x := by
        funext u
        simp only [fput]
        split
        · rw [hm]; simp [fput]
        · rfl
      rw [this]; exact hl
    · rw [hw l' e]
      have : (fun u => (fput c.loc t s' u).mode l') = fun u => (c.loc u).mode l' := by
        funext u
        simp only [fput]
        split
        · rename_i e'; rw [e', hm]; simp [fput, e]
        · rfl
      rw [this]; exact h.word l'
  · intro u
    simp only [fput]
    split
    · exact hp
    · exact h.pc u

theorem rw_rw {l l' : Nat} : rwA l = rwA l' ↔ l = l' := by simp only [rwA]; omega
theorem rw_mx {l l' : Nat} : rwA l ≠ mxA l' := by simp only [rwA, mxA]; omega
theorem rw_cnt {l l' : Nat} : rwA l ≠ cntA l' := by simp only [rwA, cntA]; omega
theorem rw_data {l a : Nat} : rwA l ≠ dataA a := by simp only [rwA, dataA]; omega

theorem rinv_step {c c' : Sc (Lc U)} (h : RInv c) (ho : ∀ t, Obeys guard prog t (c.loc t)) {e : Ev}
    (he : scStep (ucode prog) c e = some c') : RInv c' := by
  cases e with
  | flush t => cases he
  | die t =>
    simp only [scStep, Option.some.injEq] at he; subst he
    exact ⟨h.word, h.pc⟩
  | run t n =>
    simp only [scStep] at he
    split at he
    · cases he
    have hpt := h.pc t
    have hot := ho t
    have hwt := fun l => h.word l
    cases hp : (c.loc t).pc with
    | usr u =>
      simp only [Obeys, hp] at hot
      cases hu : prog t u with
      | rd a k =>
        simp only [ucode, hp, hu, Option.some.injEq] at he; subst he
        exact h.keep rfl (fun _ => rfl) trivial
      | wr a v u' =>
        simp only [ucode, hp, hu, Option.some.injEq] at he; subst he
        refine h.keep rfl (fun l => ?_) trivial
        simp only [put, rw_data, if_false]
      | any k =>
        simp only [ucode, hp, hu, Option.some.injEq] at he; subst he
        exact h.keep rfl (fun _ => rfl) trivial
      | mlock l u' =>
        simp only [ucode, hp, hu, Option.some.injEq] at he; subst he
        exact h.keep rfl (fun _ => rfl) trivial
      | munlock l u' =>
        simp only [ucode, hp, hu, Option.some.injEq] at he; subst he
        exact h.keep rfl (fun _ => rfl) trivial
      | rlock l u' =>
        simp only [hu] at hot
        simp only [ucode, hp, hu, Option.some.injEq] at he; subst he
        exact h.keep rfl (fun _ => rfl) hot
      | wlock l u' =>
        simp only [hu] at hot
        simp only [ucode, hp, hu, Option.some.injEq] at he; subst he
        exact h.keep rfl (fun _ => rfl) hot
      | unlock l u' =>
        simp only [hu] at hot
        simp only [ucode, hp, hu, Option.some.injEq] at he; subst he
        exact h.keep rfl (fun _ => rfl) hot
    | rdA l u =>
      simp only [PcR, hp] at hpt
      simp only [ucode, hp, Option.some.injEq] at he; subst he
      split
      · exact h.keep rfl (fun _ => rfl) hpt
      · rename_i hb
        exact h.keep rfl (fun _ => rfl) ⟨hpt, hb⟩
    | rdC l b u =>
      simp only [PcR, hp] at hpt
      simp only [ucode, hp, Ins.cas, Option.some.injEq] at he; subst he
      by_cases hb : c.mem (rwA l) = b
      · simp only [hb, if_true]
        refine h.change (l := l) (x := .r) rfl (fun l' hl' => ?_) ?_ trivial
        · simp only [put, rw_rw, hl', if_false]
        · simp only [put, if_true]
          have := hwt l
          rw [hb] at this
          exact this.rlock hpt.2 hpt.1
      · simp only [hb, if_false]
        refine h.keep rfl (fun l' => ?_) hpt.1
        simp only [put, rw_rw]; grind
    | wrC l u =>
      simp only [PcR, hp] at hpt
      simp only [ucode, hp, Ins.cas, Option.some.injEq] at he; subst he
      by_cases hb : c.mem (rwA l) = 0
      · simp only [hb, if_true]
        refine h.change (l := l) (x := .w) rfl (fun l' hl' => ?_) ?_ trivial
        · simp only [put, rw_rw, hl', if_false]
        · simp only [put, if_true]
          have := hwt l
          rw [hb] at this
          exact this.wlock hpt
      · simp only [hb, if_false]
        refine h.keep rfl (fun l' => ?_) hpt
        simp only [put, rw_rw]; grind
    | unA l u =>
      simp only [PcR, hp] at hpt
      simp only [ucode, hp, Option.some.injEq] at he; subst he
      split
      · exact h.keep rfl (fun _ => rfl) trivial
      · exact h.keep rfl (fun _ => rfl) hpt
    | unC l b u =>
      simp only [PcR, hp] at hpt
      simp only [ucode, hp, Ins.cas, Option.some.injEq] at he; subst he
      by_cases hb : c.mem (rwA l) = b
      · simp only [hb, if_true]
        refine h.change (l := l) (x := .no) rfl (fun l' hl' => ?_) ?_ trivial
        · simp only [put, rw_rw, hl', if_false]
        · simp only [put, if_true]
          have := hwt l
          rw [hb] at this
          exact this.unlock hpt
      · simp only [hb, if_false]
        refine h.keep rfl (fun l' => ?_) hpt
        simp only [put, rw_rw]; grind
    | mlA l u =>
      simp only [ucode, hp, Option.some.injEq] at he; subst he
      split <;> exact h.keep rfl (fun _ => rfl) trivial
    | mlR l u =>
      simp only [ucode, hp, Option.some.injEq] at he; subst he
      exact h.keep rfl (fun l' => by simp only [put, rw_cnt, if_false]) trivial
    | mlV l u =>
      simp only [ucode, hp, Ins.cas, Option.some.injEq] at he; subst he
      exact h.keep rfl (fun l' => by simp only [put, rw_mx, if_false]) trivial
    | mlC l u =>
      simp only [ucode, hp, Ins.cas, Option.some.injEq] at he; subst he
      split <;> exact h.keep rfl (fun l' => by simp only [put, rw_mx, if_false]) trivial
    | mlN l u =>
      simp only [ucode, hp, Option.some.injEq] at he; subst he
      exact h.keep rfl (fun l' => by simp only [put, rw_cnt, if_false]) trivial
    | muA l u =>
      simp only [ucode, hp, Option.some.injEq] at he; subst he
      split <;> exact h.keep rfl (fun _ => rfl) trivial
    | muB l u =>
      simp only [ucode, hp, Option.some.injEq] at he; subst he
      split <;> exact h.keep rfl (fun _ => rfl) trivial
    | muC l u =>
      simp only [ucode, hp, Option.some.injEq] at he; subst he
      split <;> exact h.keep rfl (fun l' => by simp only [put, rw_cnt, if_false]) trivial
    | muU l u =>
      simp only [ucode, hp, Ins.cas, Option.some.injEq] at he; subst he
      exact h.keep rfl (fun l' => by simp only [put, rw_mx, if_false]) trivial

/-- The thread has the mutex, or is in the call that takes it or leaves it. -/
def owns (s : Lc U) (l : Nat) : Bool :=
  (s.depth l != 0) ||
    match s.pc with
    | .mlN l' _ => l' == l
    | .muU l' _ => l' == l
    | _ => false

/-- Counted up before the nesting is. -/
def extra (s : Lc U) (l : Nat) : Nat :=
  match s.pc with
  | .mlV l' _ => if l' = l then 1 else 0
  | _ => 0

/-- Mutexes: what a place says. -/
def PcM (s : Lc U) : Prop :=
  match s.pc with
  | .mlR l _ => 0 < s.depth l
  | .mlV l _ => 0 < s.depth l
  | .muC l _ => 0 < s.depth l
  | .mlN l _ => s.depth l = 0
  | .muU l _ => s.depth l = 0
  | _ => True

/-- Mutexes. -/
structure MInv (c : Sc (Lc U)) : Prop where
  own : ∀ l t, c.mem (mxA l) = idOf t ↔ owns (c.loc t) l = true
  cnt : ∀ l t, owns (c.loc t) l = true → c.mem (cntA l) = (c.loc t).depth l + extra (c.loc t) l
  free : ∀ l, c.mem (mxA l) = 0 → c.mem (cntA l) = 0
  pc : ∀ t, PcM (c.loc t)

/-- Thread `t` goes to `s'` where it owns the same, and no mutex changes. -/
theorem MInv.keep {c : Sc (Lc U)} (h : MInv c) {t : Nat} {s' : Lc U} {m : Nat → Nat} {al : Nat → Bool} {d : Nat → List Nat}
    (ho : ∀ l, owns s' l = owns (c.loc t) l) (hd : s'.depth = (c.loc t).depth) (hx : ∀ l, extra s' l = extra (c.loc t) l)
    (hm : ∀ l, m (mxA l) = c.mem (mxA l)) (hw : ∀ l, m (cntA l) = c.mem (cntA l)) (hp : PcM s') :
    MInv ⟨m, fput c.loc t s', al, d⟩ := by
  obtain ⟨h1, h2, h3, h4⟩ := h
  constructor
  · intro l u
    simp only [fput, hm]
    split
    · rename_i e; subst e; rw [ho]; exact h1 l u
    · exact h1 l u
  · intro l u
    simp only [fput, hw]
    split
    · rename_i e; subst e; rw [ho, hd, hx]; exact h2 l u
    · exact h2 l u
  · intro l
    simp only [hm, hw]; exact h3 l
  · intro u
    simp only [fput]
    split
    · exact hp
    · exact h4 u

/-- Thread `t` does something to mutex `l` that it owns before or afterwards, or that is free. -/
theorem MInv.change {c : Sc (Lc U)} (h : MInv c) {t l : Nat} {s' : Lc U} {m : Nat → Nat} {al : Nat → Bool} {d : Nat → List Nat}
    (ho : ∀ l', l' ≠ l → owns s' l' = owns (c.loc t) l') (hd : ∀ l', l' ≠ l → s'.depth l' = (c.loc t).depth l')
    (hx : ∀ l', l' ≠ l → extra s' l' = extra (c.loc t) l')
    (hm : ∀ l', l' ≠ l → m (mxA l') = c.mem (mxA l')) (hw : ∀ l', l' ≠ l → m (cntA l') = c.mem (cntA l')) (hp : PcM s')
    (hb : c.mem (mxA l) = 0 ∨ c.mem (mxA l) = idOf t)
    (hl : (m (mxA l) = 0 ∧ m (cntA l) = 0 ∧ owns s' l = false) ∨
      (m (mxA l) = idOf t ∧ owns s' l = true ∧ m (cntA l) = s'.depth l + extra s' l)) :
    MInv ⟨m, fput c.loc t s', al, d⟩ := by
  obtain ⟨h1, h2, h3, h4⟩ := h
  have hu : ∀ u, u ≠ t → owns (c.loc u) l = false := by
    intro u hut
    have := h1 l u
    simp only [idOf] at *
    cases ho : owns (c.loc u) l
    · rfl
    · have := this.2 ho; omega
  constructor
  · intro l' u
    simp only [fput, idOf] at *
    grind
  · intro l' u
    simp only [fput, idOf] at *
    grind
  · intro l'
    simp only [idOf] at *
    grind
  · intro u
    simp only [fput]
    split
    · exact hp
    · exact h4 u

theorem mx_mx {l l' : Nat} : mxA l = mxA l' ↔ l = l' := by simp only [mxA]; omega
theorem cnt_cnt {l l' : Nat} : cntA l = cntA l' ↔ l = l' := by simp only [cntA]; omega
theorem mx_rw {l l' : Nat} : mxA l ≠ rwA l' := by simp only [rwA, mxA]; omega
theorem mx_cnt {l l' : Nat} : mxA l ≠ cntA l' := by simp only [mxA, cntA]; omega
theorem mx_data {l a : Nat} : mxA l ≠ dataA a := by simp only [mxA, dataA]; omega
theorem cnt_rw {l l' : Nat} : cntA l ≠ rwA l' := by simp only [rwA, cntA]; omega
theorem cnt_mx {l l' : Nat} : cntA l ≠ mxA l' := by simp only [mxA, cntA]; omega
theorem cnt_data {l a : Nat} : cntA l ≠ dataA a := by simp only [cntA, dataA]; omega

theorem minv_step {c c' : Sc (Lc U)} (h : MInv c) {e : Ev} (he : scStep (ucode prog) c e = some c') : MInv c' := by
  cases e with
  | flush t => cases he
  | die t =>
    simp only [scStep, Option.some.injEq] at he; subst he
    exact ⟨h.own, h.cnt, h.free, h.pc⟩
  | run t n =>
    simp only [scStep] at he
    split at he
    · cases he
    have hpt := h.pc t
    have h1 := fun l => h.own l t
    have h2 := fun l => h.cnt l t
    have h3 := h.free
    cases hp : (c.loc t).pc with
    | usr u =>
      cases hu : prog t u with
      | wr a v u' =>
        simp only [ucode, hp, hu, Option.some.injEq] at he; subst he
        refine h.keep (fun l => ?_) rfl (fun l => ?_) (fun l => ?_) (fun l => ?_) trivial
        · simp [owns, ret, hp]
        · simp [extra, ret, hp]
        · simp only [put, mx_data, if_false]
        · simp only [put, cnt_data, if_false]
      | _ =>
        simp only [ucode, hp, hu, Option.some.injEq] at he; subst he
        refine h.keep (fun l => ?_) rfl (fun l => ?_) (fun l => rfl) (fun l => rfl) trivial
        · simp [owns, ret, goto, hp]
        · simp [extra, ret, goto, hp]
    | rdA l u =>
      simp only [ucode, hp, Option.some.injEq] at he; subst he
      split
      all_goals
        refine h.keep (fun l => ?_) rfl (fun l => ?_) (fun l => rfl) (fun l => rfl) trivial
        · simp [owns, ret, goto, hp]
        · simp [extra, ret, goto, hp]
    | unA l u =>
      simp only [ucode, hp, Option.some.injEq] at he; subst he
      split
      all_goals
        refine h.keep (fun l => ?_) rfl (fun l => ?_) (fun l => rfl) (fun l => rfl) trivial
        · simp [owns, ret, goto, hp]
        · simp [extra, ret, goto, hp]
    | rdC l b u =>
      simp only [ucode, hp, Ins.cas, Option.some.injEq] at he; subst he
      split
      all_goals
        refine h.keep (fun l => ?_) rfl (fun l => ?_) (fun l => ?_) (fun l => ?_) trivial
        · simp [owns, ret, goto, setMode, hp]
        · simp [extra, ret, goto, setMode, hp]
        · simp only [put, mx_rw, if_false]
        · simp only [put, cnt_rw, if_false]
    | wrC l u =>
      simp only [ucode, hp, Ins.cas, Option.some.injEq] at he; subst he
      split
      all_goals
        refine h.keep (fun l => ?_) rfl (fun l => ?_) (fun l => ?_) (fun l => ?_) trivial
        · simp [owns, ret, goto, setMode, hp]
        · simp [extra, ret, goto, setMode, hp]
        · simp only [put, mx_rw, if_false]
        · simp only [put, cnt_rw, if_false]
    | unC l b u =>
      simp only [ucode, hp, Ins.cas, Option.some.injEq] at he; subst he
      split
      all_goals
        refine h.keep (fun l => ?_) rfl (fun l => ?_) (fun l => ?_) (fun l => ?_) trivial
        · simp [owns, ret, goto, setMode, hp]
        · simp [extra, ret, goto, setMode, hp]
        · simp only [put, mx_rw, if_false]
        · simp only [put, cnt_rw, if_false]
    | mlA l u =>
      simp only [ucode, hp, Option.some.injEq] at he; subst he
      have h1l := h1 l
      split
      · rename_i hx
        refine h.keep (fun l => ?_) rfl (fun l => ?_) (fun l => rfl) (fun l => rfl) ?_
        · simp [owns, goto, hp]
        · simp [extra, goto, hp]
        · rw [hx] at h1l
          simp only [owns, hp] at h1l
          simp only [PcM, goto]
          simp at h1l; omega
      · refine h.keep (fun l => ?_) rfl (fun l => ?_) (fun l => rfl) (fun l => rfl) trivial
        · simp [owns, goto, hp]
        · simp [extra, goto, hp]
    | mlR l u =>
      simp only [PcM, hp] at hpt
      simp only [ucode, hp, Option.some.injEq] at he; subst he
      have ho : owns (c.loc t) l = true := by simp [owns, Nat.ne_of_gt hpt]
      have hc := h2 l ho
      refine h.change (l := l) (fun l' hl' => ?_) (fun l' _ => rfl) (fun l' hl' => ?_) (fun l' _ => ?_) (fun l' hl' => ?_) ?_
        (Or.inr ((h1 l).2 ho)) (Or.inr ⟨?_, ?_, ?_⟩)
      · simp [owns, goto, hp]
      · simp [extra, goto, hp, Ne.symm hl']
      · simp only [put, mx_cnt, if_false]
      · simp only [put, cnt_cnt, hl', if_false]
      · exact hpt
      · simp only [put, mx_cnt, if_false]; exact (h1 l).2 ho
      · simp [owns, goto, Nat.ne_of_gt hpt]
      · simp only [put, if_true, hc, extra, goto, hp]
    | mlV l u =>
      simp only [PcM, hp] at hpt
      simp only [ucode, hp, Ins.cas, Option.some.injEq] at he; subst he
      have ho : owns (c.loc t) l = true := by simp [owns, Nat.ne_of_gt hpt]
      have hc := h2 l ho
      have hi := (h1 l).2 ho
      refine h.change (l := l) (fun l' hl' => ?_) (fun l' hl' => ?_) (fun l' hl' => ?_) (fun l' hl' => ?_) (fun l' hl' => ?_) trivial
        (Or.inr hi) (Or.inr ⟨?_, ?_, ?_⟩)
      · simp [owns, ret, setDepth, fput, hp, hl']
      · simp [ret, setDepth, fput, hl']
      · simp [extra, ret, setDepth, hp, Ne.symm hl']
      · simp only [put, mx_mx, hl', if_false]
      · simp only [put, cnt_mx, if_false]
      · simp only [put, if_true, hi]
      · simp [owns, ret, setDepth, fput]
      · simp only [put, cnt_mx, if_false, hc]
        simp [extra, ret, setDepth, fput, hp]
    | mlC l u =>
      simp only [ucode, hp, Ins.cas, Option.some.injEq] at he; subst he
      by_cases hx : c.mem (mxA l) = 0
      · simp only [hx, if_true]
        have ho : owns (c.loc t) l = false := by
          have := h1 l
          rw [hx] at this
          simp only [idOf] at this
          cases ho : owns (c.loc t) l
          · rfl
          · have := this.2 ho; omega
        have hdep : (c.loc t).depth l = 0 := by
          simp only [owns, hp] at ho
          simpa using ho
        refine h.change (l := l) (fun l' hl' => ?_) (fun l' hl' => ?_) (fun l' hl' => ?_) (fun l' hl' => ?_) (fun l' hl' => ?_) ?_
          (Or.inl hx) (Or.inr ⟨?_, ?_, ?_⟩)
        · simp [owns, goto, hp, Ne.symm hl']
        · rfl
        · simp [extra, goto, hp]
        · simp only [put, mx_mx, hl', if_false]
        · simp only [put, cnt_mx, if_false]
        · exact hdep
        · simp only [put, if_true]
        · simp [owns, goto]
        · simp only [put, cnt_mx, if_false]
          rw [h3 l hx]
          simp [extra, goto, hdep]
      · simp only [hx, if_false]
        refine h.keep (fun l' => ?_) rfl (fun l' => ?_) (fun l' => ?_) (fun l' => ?_) trivial
        · simp [owns, goto, hp]
        · simp [extra, goto, hp]
        · simp only [put, mx_mx]; grind
        · simp only [put, cnt_mx, if_false]
    | mlN l u =>
      simp only [PcM, hp] at hpt
      simp only [ucode, hp, Option.some.injEq] at he; subst he
      have ho : owns (c.loc t) l = true := by simp [owns, hp]
      have hc := h2 l ho
      have hi := (h1 l).2 ho
      refine h.change (l := l) (fun l' hl' => ?_) (fun l' hl' => ?_) (fun l' hl' => ?_) (fun l' hl' => ?_) (fun l' hl' => ?_) trivial
        (Or.inr hi) (Or.inr ⟨?_, ?_, ?_⟩)
      · simp [owns, ret, setDepth, fput, hp, hl', Ne.symm hl']
      · simp [ret, setDepth, fput, hl']
      · simp [extra, ret, setDepth, hp]
      · simp only [put, mx_cnt, if_false]
      · simp only [put, cnt_cnt, hl', if_false]
      · simp only [put, mx_cnt, if_false, hi]
      · simp [owns, ret, setDepth, fput]
      · simp only [put, if_true, hc]
        simp [extra, ret, setDepth, fput, hp, hpt]
    | muA l u =>
      simp only [ucode, hp, Option.some.injEq] at he; subst he
      split
      all_goals
        refine h.keep (fun l => ?_) rfl (fun l => ?_) (fun l => rfl) (fun l => rfl) trivial
        · simp [owns, ret, goto, hp]
        · simp [extra, ret, goto, hp]
    | muB l u =>
      simp only [ucode, hp, Option.some.injEq] at he; subst he
      have h1l := h1 l
      split
      · refine h.keep (fun l => ?_) rfl (fun l => ?_) (fun l => rfl) (fun l => rfl) trivial
        · simp [owns, ret, hp]
        · simp [extra, ret, hp]
      · rename_i hx
        refine h.keep (fun l => ?_) rfl (fun l => ?_) (fun l => rfl) (fun l => rfl) ?_
        · simp [owns, goto, hp]
        · simp [extra, goto, hp]
        · simp only [ne_eq, Decidable.not_not] at hx
          rw [hx] at h1l
          simp only [owns, hp] at h1l
          simp only [PcM, goto]
          simp at h1l; omega
    | muC l u =>
      simp only [PcM, hp] at hpt
      simp only [ucode, hp, Option.some.injEq] at he; subst he
      have ho : owns (c.loc t) l = true := by simp [owns, Nat.ne_of_gt hpt]
      have hc := h2 l ho
      have hi := (h1 l).2 ho
      simp only [extra, hp, Nat.add_zero] at hc
      by_cases hle : c.mem (cntA l) ≤ 1
      · simp only [hle, if_true]
        refine h.change (l := l) (fun l' hl' => ?_) (fun l' hl' => ?_) (fun l' hl' => ?_) (fun l' hl' => ?_) (fun l' hl' => ?_) ?_
          (Or.inr hi) (Or.inr ⟨?_, ?_, ?_⟩)
        · simp [owns, goto, setDepth, fput, hp, hl', Ne.symm hl']
        · simp [goto, setDepth, fput, hl']
        · simp [extra, goto, setDepth, hp]
        · simp only [put, mx_cnt, if_false]
        · simp only [put, cnt_cnt, hl', if_false]
        · simp only [PcM, goto, setDepth, fput, if_true]; omega
        · simp only [put, mx_cnt, if_false, hi]
        · simp [owns, goto, setDepth, fput]
        · simp only [put, if_true, hc]
          simp [extra, goto, setDepth, fput]
      · simp only [hle, if_false]
        refine h.change (l := l) (fun l' hl' => ?_) (fun l' hl' => ?_) (fun l' hl' => ?_) (fun l' hl' => ?_) (fun l' hl' => ?_) trivial
          (Or.inr hi) (Or.inr ⟨?_, ?_, ?_⟩)
        · simp [owns, goto, setDepth, fput, hp, hl']
        · simp [goto, setDepth, fput, hl']
        · simp [extra, goto, setDepth, hp]
        · simp only [put, mx_cnt, if_false]
        · simp only [put, cnt_cnt, hl', if_false]
        · simp only [put, mx_cnt, if_false, hi]
        · simp only [owns, goto, setDepth, fput, if_true, Bool.or_false, bne_iff_ne]; omega
        · simp only [put, if_true, hc]
          simp [extra, goto, setDepth, fput]
    | muU l u =>
      simp only [PcM, hp] at hpt
      simp only [ucode, hp, Ins.cas, Option.some.injEq] at he; subst he
      have ho : owns (c.loc t) l = true := by simp [owns, hp]
      have hc := h2 l ho
      have hi := (h1 l).2 ho
      refine h.change (l := l) (fun l' hl' => ?_) (fun l' hl' => rfl) (fun l' hl' => ?_) (fun l' hl' => ?_) (fun l' hl' => ?_) trivial
        (Or.inr hi) (Or.inl ⟨?_, ?_, ?_⟩)
      · simp [owns, ret, hp, Ne.symm hl']
      · simp [extra, ret, hp]
      · simp only [put, mx_mx, hl', if_false]
      · simp only [put, cnt_mx, if_false]
      · simp only [put, if_true, hi]
      · simp only [put, cnt_mx, if_false, hc]
        simp [extra, hp, hpt]
      · simp [owns, ret, hpt]

/-- What a thread has written and others may not have seen is guarded by a lock that it has. -/
def DInv (guard : Nat → Guard) (c : Sc (Lc U)) : Prop :=
  ∀ t a, a ∈ c.dirty t → ∃ d, a = dataA d ∧ mayWrite (c.loc t) (guard d)

theorem DInv.keep {c : Sc (Lc U)} (h : DInv guard c) {t : Nat} {s' : Lc U} {m : Nat → Nat} {al : Nat → Bool}
    (hm : s'.mode = (c.loc t).mode) (hd : s'.depth = (c.loc t).depth) : DInv guard ⟨m, fput c.loc t s', al, c.dirty⟩ := by
  intro u a ha
  obtain ⟨d, h1, h2⟩ := h u a ha
  refine ⟨d, h1, ?_⟩
  simp only [fput]
  split
  · rename_i e; subst e
    cases hg : guard d <;> rw [hg] at h2 <;> simp only [mayWrite] at h2 ⊢
    · rw [hm]; exact h2
    · rw [hd]; exact h2
  · exact h2

theorem DInv.atomic {c : Sc (Lc U)} (h : DInv guard c) {t : Nat} {s' : Lc U} {m : Nat → Nat} {al : Nat → Bool} :
    DInv guard ⟨m, fput c.loc t s', al, fput c.dirty t []⟩ := by
  intro u a ha
  by_cases e : u = t
  · subst e
    simp only [fput_same] at ha
    cases ha
  · simp only [fput_other _ _ e] at ha ⊢
    exact h u a ha

theorem dinv_step {c c' : Sc (Lc U)} (h : DInv guard c) (ho : ∀ t, Obeys guard prog t (c.loc t)) {e : Ev}
    (he : scStep (ucode prog) c e = some c') : DInv guard c' := by
  cases e with
  | flush t => cases he
  | die t =>
    simp only [scStep, Option.some.injEq] at he; subst he
    intro u a ha
    by_cases e : u = t
    · subst e
      simp only [fput_same] at ha
      cases ha
    · simp only [fput_other _ _ e] at ha ⊢
      exact h u a ha
  | run t n =>
    simp only [scStep] at he
    split at he
    · cases he
    have hot := ho t
    cases hp : (c.loc t).pc with
    | usr u =>
      simp only [Obeys, hp] at hot
      cases hu : prog t u with
      | wr a v u' =>
        simp only [hu] at hot
        simp only [ucode, hp, hu, Option.some.injEq] at he; subst he
        intro x b hb
        have hk := h.keep (t := t) (s' := ret (c.loc t) u') (m := c.mem) (al := c.alive) rfl rfl x b
        by_cases e : x = t
        · subst e
          simp only [fput_same] at hb hk ⊢
          rcases List.mem_cons.1 hb with rfl | hb
          · exact ⟨a, rfl, hot⟩
          · exact hk hb
        · simp only [fput_other _ _ e] at hb hk ⊢
          exact hk hb
      | _ =>
        simp only [ucode, hp, hu, Option.some.injEq] at he; subst he
        exact h.keep rfl rfl
    | rdA l u | unA l u | mlA l u | muA l u | muB l u =>
      simp only [ucode, hp, Option.some.injEq] at he; subst he
      split <;> exact h.keep rfl rfl
    | _ =>
      simp only [ucode, hp, Ins.cas, Option.some.injEq] at he; subst he
      exact h.atomic

theorem invs {u0 : Nat → U} (ho : AllObey guard prog u0) {c : Sc (Lc U)} (h : SReach (ucode prog) (scInit (uinit u0)) c) :
    RInv c ∧ MInv c ∧ DInv guard c := by
  induction h with
  | init =>
    refine ⟨⟨fun l => ?_, fun t => trivial⟩, ⟨fun l t => ?_, fun l t => ?_, fun l => ?_, fun t => trivial⟩, fun t a ha => ?_⟩
    · exact ⟨[], List.nodup_nil, fun t => by simp [scInit, uinit], Or.inr ⟨fun t => by simp [scInit, uinit], rfl⟩⟩
    · simp [scInit, uinit, owns, idOf]
    · simp [scInit, uinit, owns]
    · simp [scInit, uinit]
    · cases ha
  | step h e c' he ih =>
    obtain ⟨h1, h2, h3⟩ := ih
    exact ⟨rinv_step h1 (ho _ h) he, minv_step h2 he, dinv_step h3 (ho _ h) he⟩

/-- Who may write excludes who may read. -/
theorem excl {c : Sc (Lc U)} (h1 : RInv c) (h2 : MInv c) {t u : Nat} {g : Guard} (ht : mayWrite (c.loc t) g)
    (hu : mayRead (c.loc u) g) : u = t := by
  cases g with
  | range l => exact (h1.word l).excl ht hu
  | mutex l =>
    have e1 := (h2.own l t).2 (by simp only [mayWrite] at ht; simp [owns, Nat.ne_of_gt ht])
    have e2 := (h2.own l u).2 (by simp only [mayRead] at hu; simp [owns, Nat.ne_of_gt hu])
    simp only [idOf] at e1 e2
    omega

theorem mayWrite_read {s : Lc U} {g : Guard} (h : mayWrite s g) : mayRead s g := by
  cases g <;> simp_all [mayWrite, mayRead]

theorem norace_user {u0 : Nat → U} (ho : AllObey guard prog u0) {c : Sc (Lc U)}
    (h : SReach (ucode prog) (scInit (uinit u0)) c) : NoRace (ucode prog) c := by
  obtain ⟨h1, h2, h3⟩ := invs ho h
  intro t hal a ha u hu hd
  obtain ⟨d, rfl, hw⟩ := h3 u a hd
  have hot := ho c h t
  cases hp : (c.loc t).pc with
  | usr x =>
    simp only [Obeys, hp] at hot
    cases hx : prog t x with
    | rd b k =>
      simp only [hx] at hot
      simp only [ucode, hp, hx, touches, dataA] at ha
      have : b = d := by omega
      subst this
      exact hu (excl h1 h2 hw hot).symm
    | wr b v x' =>
      simp only [hx] at hot
      simp only [ucode, hp, hx, touches, dataA] at ha
      have : b = d := by omega
      subst this
      exact hu (excl h1 h2 hw (mayWrite_read hot)).symm
    | _ => simp [ucode, hp, hx, touches] at ha
  | _ =>
    simp only [ucode, hp, touches, Ins.cas, dataA, rwA, mxA, cntA] at ha
    omega

/-! ### The claims -/

/-- Programs that obey the rules behave as on sequentially consistent memory. -/
theorem C90_sc {u0 : Nat → U} (ho : AllObey guard prog u0) {s : St (Lc U)} (h : TReach (ucode prog) (uinit u0) s) :
    ∃ c, SReach (ucode prog) (scInit (uinit u0)) c ∧ Same s c :=
  C89_sc rfl (fun _ hc => norace_user ho hc) h

theorem both_user {u0 : Nat → U} (ho : AllObey guard prog u0) {s : St (Lc U)} (h : TReach (ucode prog) (uinit u0) s) :
    ∃ c, SReach (ucode prog) (scInit (uinit u0)) c ∧ Sim s c :=
  sim_reach rfl (fun _ hc => norace_user ho hc) h

/-- Who has write access has it alone. -/
theorem C90_exclusive {u0 : Nat → U} (ho : AllObey guard prog u0) {s : St (Lc U)} (h : TReach (ucode prog) (uinit u0) s)
    {t u : Nat} {g : Guard} (ht : mayWrite (s.loc t) g) (hu : mayRead (s.loc u) g) : u = t := by
  obtain ⟨c, hc, hs⟩ := both_user ho h
  obtain ⟨h1, h2, -⟩ := invs ho hc
  rw [hs.loc] at ht hu
  exact excl h1 h2 ht hu

/-- A write of another thread that is under way is to data that this thread may not read. -/
theorem C90_seen {u0 : Nat → U} (ho : AllObey guard prog u0) {s : St (Lc U)} (h : TReach (ucode prog) (uinit u0) s)
    {t u a v : Nat} (ht : mayRead (s.loc t) (guard a)) (hu : (dataA a, v) ∈ s.buf u) : u = t := by
  obtain ⟨c, hc, hs⟩ := both_user ho h
  obtain ⟨h1, h2, h3⟩ := invs ho hc
  obtain ⟨d, e, hw⟩ := h3 u _ (hs.dirty u _ v hu)
  simp only [dataA] at e
  have : d = a := by omega
  subst this
  rw [hs.loc] at ht
  exact (excl h1 h2 hw ht).symm

/-- While a thread has a lock, for reading or for writing, nothing but its own accesses changes what it sees of the data guarded
by it: neither other threads, nor deaths, nor writes that reach memory late. -/
theorem C90_stable {u0 : Nat → U} (ho : AllObey guard prog u0) {s s' : St (Lc U)} (h : TReach (ucode prog) (uinit u0) s)
    {e : Ev} (he : step (ucode prog) s e = some s') {t a : Nat} (ht : mayRead (s.loc t) (guard a)) (hne : ¬ own t e) :
    view s'.mem (s'.buf t) (dataA a) = view s.mem (s.buf t) (dataA a) := by
  cases e with
  | flush u =>
    simp only [step] at he
    split at he
    · cases he
    · rename_i w b hb
      simp only [Option.some.injEq] at he; subst he
      by_cases hu : u = t
      · subst hu; simp only [fput_same, hb, view]
      · simp only [fput_other _ _ (Ne.symm hu)]
        refine view_put _ _ _ _ _ fun e => ?_
        exact hu (C90_seen ho h (u := u) (v := w.2) ht (by rw [hb, e]; exact List.mem_cons_self))
  | die u =>
    simp only [step] at he
    split at he
    · simp only [Option.some.injEq] at he; subst he; rfl
    · cases he
  | run u n =>
    have hut : t ≠ u := fun e => hne e.symm
    simp only [step] at he
    split at he
    · cases he
    cases hp : (s.loc u).pc with
    | usr x =>
      cases hx : prog u x with
      | wr b v x' =>
        simp only [ucode, hp, hx, Option.some.injEq] at he; subst he
        simp only [fput_other _ _ hut]
      | _ => simp only [ucode, hp, hx, Option.some.injEq] at he; subst he; rfl
    | rdA l x | unA l x | mlA l x | muA l x | muB l x =>
      simp only [ucode, hp, Option.some.injEq] at he; subst he; rfl
    | _ =>
      simp only [ucode, hp, Ins.cas] at he
      split at he
      · simp only [Option.some.injEq] at he; subst he
        refine view_put _ _ _ _ _ ?_
        simp only [dataA, rwA, mxA, cntA]; omega
      · cases he

/-- The tests of the code whose failure the model leaves out do not fail: a thread that counts up or gives back a mutex owns it,
its count is positive, and a thread that gives a range back finds it locked. -/
theorem C90_owner {u0 : Nat → U} (ho : AllObey guard prog u0) {s : St (Lc U)} (h : TReach (ucode prog) (uinit u0) s) (t : Nat) :
    match (s.loc t).pc with
    | .mlV l _ => s.mem (mxA l) = idOf t
    | .muU l _ => s.mem (mxA l) = idOf t
    | .muC l _ => s.mem (mxA l) = idOf t ∧ 1 ≤ s.mem (cntA l)
    | .unA l _ => s.mem (rwA l) ≠ 0
    | .unC l _ _ => s.mem (rwA l) ≠ 0
    | _ => True := by
  obtain ⟨c, hc, hs⟩ := both_user ho h
  obtain ⟨h1, h2, h3⟩ := invs ho hc
  have key : ∀ a, (∀ d, a ≠ dataA d) → s.mem a = c.mem a := by
    intro a ha
    have hn : ∀ u v, (a, v) ∉ s.buf u := fun u v hv => by
      obtain ⟨d, e, -⟩ := h3 u a (hs.dirty u a v hv)
      exact ha d e
    have := hs.mem t a fun u _ => hn u
    rwa [view_other _ _ _ (hn t)] at this
  have kr := fun l => key (rwA l) fun _ => rw_data
  have km := fun l => key (mxA l) fun _ => mx_data
  have kc := fun l => key (cntA l) fun _ => cnt_data
  simp only [kr, km, kc]
  rw [hs.loc]
  have hr := h1.pc t
  have hm := h2.pc t
  cases hp : (c.loc t).pc with
  | mlV l u =>
    simp only [PcM, hp] at hm
    exact (h2.own l t).2 (by simp [owns, Nat.ne_of_gt hm])
  | muU l u => exact (h2.own l t).2 (by simp [owns, hp])
  | muC l u =>
    simp only [PcM, hp] at hm
    have ho : owns (c.loc t) l = true := by simp [owns, Nat.ne_of_gt hm]
    refine ⟨(h2.own l t).2 ho, ?_⟩
    rw [h2.cnt l t ho]; omega
  | unA l u =>
    simp only [PcR, hp] at hr
    intro e
    have := h1.word l
    rw [e] at this
    exact hr (this.held t)
  | unC l b u =>
    simp only [PcR, hp] at hr
    intro e
    have := h1.word l
    rw [e] at this
    exact hr (this.held t)
  | _ => trivial

/-! ### A program -/

/-- Rules kept step by step are kept always. -/
theorem obey_of {J : Nat → Lc U → Prop} {u0 : Nat → U} (hJ : ∀ t s, J t s → Obeys guard prog t s)
    (h0 : ∀ t, J t ((uinit u0).loc t))
    (hs : ∀ c, RInv c → MInv c → (∀ t, J t (c.loc t)) → ∀ e c', scStep (ucode prog) c e = some c' → ∀ t, J t (c'.loc t)) :
    AllObey guard prog u0 := by
  have : ∀ c, SReach (ucode prog) (scInit (uinit u0)) c → RInv c ∧ MInv c ∧ ∀ t, J t (c.loc t) := by
    intro c h
    induction h with
    | init =>
      refine ⟨⟨fun l => ?_, fun t => trivial⟩, ⟨fun l t => ?_, fun l t => ?_, fun l => ?_, fun t => trivial⟩, h0⟩
      · exact ⟨[], List.nodup_nil, fun t => by simp [scInit, uinit], Or.inr ⟨fun t => by simp [scInit, uinit], rfl⟩⟩
      · simp [scInit, uinit, owns, idOf]
      · simp [scInit, uinit, owns]
      · simp [scInit, uinit]
    | step h e c' he ih =>
      obtain ⟨h1, h2, h3⟩ := ih
      exact ⟨rinv_step h1 (fun t => hJ t _ (h3 t)) he, minv_step h2 he, hs _ h1 h2 h3 e c' he⟩
  intro c hc t
  exact hJ t _ ((this c hc).2.2 t)

/-- Places of the program: count up data 0 under range 0, write data 1 under mutex 1, again and again. -/
inductive P90 where
  | a | b | c (v : Nat) | d | e | f | g
  deriving DecidableEq

/-- The program, for all threads. -/
def prog90 (_ : Nat) : P90 → UIns P90
  | .a => .wlock 0 .b
  | .b => .rd 0 .c
  | .c v => .wr 0 (v + 1) .d
  | .d => .unlock 0 .e
  | .e => .mlock 1 .f
  | .f => .wr 1 5 .g
  | .g => .munlock 1 .a

/-- What guards what. -/
def guard90 (a : Nat) : Guard := if a = 0 then .range 0 else .mutex 1

/-- What holds at each place. -/
def J90 (s : Lc P90) : Prop :=
  match s.pc with
  | .usr .a => s.mode 0 = .no
  | .usr .b => s.mode 0 = .w
  | .usr (.c _) => s.mode 0 = .w
  | .usr .d => s.mode 0 = .w
  | .usr .e => s.mode 0 = .no
  | .usr .f => s.mode 0 = .no ∧ 0 < s.depth 1
  | .usr .g => s.mode 0 = .no ∧ 0 < s.depth 1
  | .wrC l p => l = 0 ∧ p = .b ∧ s.mode 0 = .no
  | .unA l p => l = 0 ∧ p = .e ∧ s.mode 0 = .w
  | .unC l _ p => l = 0 ∧ p = .e ∧ s.mode 0 = .w
  | .mlA l p => l = 1 ∧ p = .f ∧ s.mode 0 = .no
  | .mlR l p => l = 1 ∧ p = .f ∧ s.mode 0 = .no
  | .mlV l p => l = 1 ∧ p = .f ∧ s.mode 0 = .no
  | .mlC l p => l = 1 ∧ p = .f ∧ s.mode 0 = .no
  | .mlN l p => l = 1 ∧ p = .f ∧ s.mode 0 = .no
  | .muA l p => l = 1 ∧ p = .a ∧ s.mode 0 = .no
  | .muB l p => l = 1 ∧ p = .a ∧ s.mode 0 = .no
  | .muC l p => l = 1 ∧ p = .a ∧ s.mode 0 = .no
  | .muU l p => l = 1 ∧ p = .a ∧ s.mode 0 = .no
  | _ => False

theorem obey90 : AllObey guard90 prog90 (fun _ => .a) := by
  refine obey_of (J := fun _ => J90) ?_ (fun t => rfl) ?_
  · intro t s h
    cases hp : s.pc with
    | usr u =>
      cases u <;> simp_all [J90, Obeys, prog90, guard90, mayRead, mayWrite]
    | _ => simp [Obeys, hp]
  · intro c h1 h2 hJ e c' he t
    have keep : ∀ {t : Nat} {s' : Lc P90}, J90 s' → J90 (fput c.loc t s' t) := fun h => by rw [fput_same]; exact h
    cases e with
    | flush u => cases he
    | die u => simp only [scStep, Option.some.injEq] at he; subst he; exact hJ t
    | run u n =>
      simp only [scStep] at he
      split at he
      · cases he
      by_cases htu : t = u
      · subst htu
        have hj := hJ t
        have hw := h1.word 0
        cases hp : (c.loc t).pc with
        | usr x =>
          cases x <;> simp only [ucode, hp, prog90, Option.some.injEq] at he <;> subst he <;> apply keep <;>
            simp_all [J90, goto, ret]
        | unA l x =>
          simp only [J90, hp] at hj
          obtain ⟨rfl, rfl, hj⟩ := hj
          simp only [ucode, hp, Option.some.injEq] at he; subst he
          apply keep
          split
          · rename_i h0
            rw [h0] at hw
            have := hw.held t
            rw [hj] at this; cases this
          · simp [J90, goto, hj]
        | _ =>
          simp only [J90, hp] at hj
          try cases hj
          all_goals
            rename_i hj1 hj2
            obtain ⟨hj2, hj3⟩ := hj2
            subst hj1 hj2
            simp only [ucode, hp, Ins.cas, Option.some.injEq] at he; subst he
            apply keep
            first
              | (split <;> simp [J90, goto, ret, setMode, setDepth, fput, hj3])
              | simp [J90, goto, ret, setMode, setDepth, fput, hj3]
      · have hl : c'.loc t = c.loc t := by
          split at he <;> simp only [Option.some.injEq] at he <;> subst he <;> exact fput_other _ _ htu
        rw [hl]; exact hJ t

/-- Thread 0 has counted up under its lock; the write is under way and nobody else sees it; thread 1 waits. The hypotheses of the
claims are met. -/
example : ∃ s, TReach (ucode prog90) (uinit fun _ => .a) s ∧ mayWrite (s.loc 0) (guard90 0) ∧
    view s.mem (s.buf 0) (dataA 0) = 1 ∧ view s.mem (s.buf 1) (dataA 0) = 0 ∧ (s.loc 1).pc = .wrC 0 .b ∧
    ¬ mayRead (s.loc 1) (guard90 0) := by
  have h : ∃ s, runs (step (ucode prog90)) (uinit fun _ => .a) [.run 0 0, .run 0 0, .run 0 0, .run 0 0, .run 1 0, .run 1 0] = some s ∧
      (s.loc 0).mode 0 = .w ∧ view s.mem (s.buf 0) (dataA 0) = 1 ∧ view s.mem (s.buf 1) (dataA 0) = 0 ∧
      (s.loc 1).pc = .wrC 0 .b ∧ (s.loc 1).mode 0 = .no := ⟨_, rfl, rfl, rfl, rfl, rfl, rfl⟩
  obtain ⟨s, h1, h2, h3, h4, h5, h6⟩ := h
  exact ⟨s, treach_runs .init h1, h2, h3, h4, h5, fun hn => hn h6⟩

/-- Thread 1 gets the lock after thread 0 and sees the count; it counts on. Thread 0 has the mutex meanwhile. -/
example : ∃ s, TReach (ucode prog90) (uinit fun _ => .a) s ∧ mayWrite (s.loc 1) (guard90 0) ∧
    view s.mem (s.buf 1) (dataA 0) = 2 ∧ mayWrite (s.loc 0) (guard90 1) ∧ view s.mem (s.buf 0) (dataA 1) = 5 := by
  have h : ∃ s, runs (step (ucode prog90)) (uinit fun _ => .a)
      ([.run 0 0, .run 0 0, .run 0 0, .run 0 0, .run 1 0, .run 1 0, .flush 0, .run 0 0, .run 0 0, .run 0 0, .run 1 0, .run 1 0,
        .run 0 0, .run 0 0, .run 0 0, .run 0 0, .run 1 0, .run 0 0]) = some s ∧
      (s.loc 1).mode 0 = .w ∧ view s.mem (s.buf 1) (dataA 0) = 2 ∧ (s.loc 0).depth 1 = 1 ∧
      view s.mem (s.buf 0) (dataA 1) = 5 := ⟨_, rfl, rfl, rfl, rfl, rfl⟩
  obtain ⟨s, h1, h2, h3, h4, h5⟩ := h
  exact ⟨s, treach_runs .init h1, h2, h3, by show 0 < (s.loc 0).depth 1; omega, h5⟩

/-- Read locks are shared: two threads read data 0 under range 0, a third waits to write it. -/
def prog90r (t : Nat) : Nat → UIns Nat
  | 0 => if t = 2 then .wlock 0 1 else .rlock 0 1
  | 1 => .rd 0 fun v => v + 2
  | 2 => .unlock 0 0
  | _ => .any id

example : ∃ s, TReach (ucode prog90r) (uinit fun _ => 0) s ∧ mayRead (s.loc 0) (.range 0) ∧ mayRead (s.loc 1) (.range 0) ∧
    s.mem (rwA 0) = 3 ∧ (s.loc 2).pc = .wrC 0 1 := by
  have h : ∃ s, runs (step (ucode prog90r)) (uinit fun _ => 0)
      [.run 0 0, .run 0 0, .run 0 0, .run 1 0, .run 1 0, .run 1 0, .run 2 0, .run 2 0] = some s ∧ (s.loc 0).mode 0 = .r ∧
      (s.loc 1).mode 0 = .r ∧ s.mem (rwA 0) = 3 ∧ (s.loc 2).pc = .wrC 0 1 := ⟨_, rfl, rfl, rfl, rfl, rfl⟩
  obtain ⟨s, h1, h2, h3, h4, h5⟩ := h
  exact ⟨s, treach_runs .init h1, by simp [mayRead, h2], by simp [mayRead, h3], h4, h5⟩

/-- One call gives a mutex back however often it is nested: the loop of `fl_unlock_mutex`. -/
def prog90m (_ : Nat) : Nat → UIns Nat
  | 0 => .mlock 7 1
  | 1 => .mlock 7 2
  | 2 => .munlock 7 3
  | _ => .munlock 7 3

example : (runs (step (ucode prog90m)) (uinit fun _ => 0) (List.replicate 8 (.run 0 0))).map
      (fun s => (s.mem (mxA 7), s.mem (cntA 7), (s.loc 0).depth 7)) = some (1, 2, 2) ∧
    (runs (step (ucode prog90m)) (uinit fun _ => 0) (List.replicate 16 (.run 0 0))).map
      (fun s => (s.mem (mxA 7), s.mem (cntA 7), (s.loc 0).depth 7, match (s.loc 0).pc with | .usr u => u | _ => 0))
        = some (0, 0, 0, 3) ∧
    (runs (step (ucode prog90m)) (uinit fun _ => 0) (List.replicate 8 (.run 0 0) ++ [.run 1 0, .run 1 0, .run 1 0])).map
      (fun s => (s.mem (mxA 7), (s.loc 1).depth 7, match (s.loc 1).pc with | .mlA l _ => l | _ => 0)) = some (1, 0, 7) := by
  refine ⟨by decide +kernel, by decide +kernel, by decide +kernel⟩

/-! ### Without locks -/

/-- Threads 0 and 1 write their own data and read the other's, without locks. -/
def progSB (t : Nat) : Nat → UIns Nat
  | 0 => if t < 2 then .wr t 1 1 else .any fun _ => 0
  | 1 => .rd (1 - t) fun v => v + 2
  | n => .any fun _ => n

/-- With sequentially consistent memory. -/
def SBInv (c : Sc (Lc Nat)) : Prop :=
  (∀ t, ∃ n, (c.loc t).pc = .usr n) ∧ (∀ t, t < 2 → (c.loc t).pc ≠ .usr 0 → c.mem (dataA t) = 1) ∧
    ¬ ((c.loc 0).pc = .usr 2 ∧ (c.loc 1).pc = .usr 2) ∧ (∀ t, 2 ≤ t → (c.loc t).pc = .usr 0)

theorem sbInv {c : Sc (Lc Nat)} (h : SReach (ucode progSB) (scInit (uinit fun _ => 0)) c) : SBInv c := by
  induction h with
  | init => simp [SBInv, scInit, uinit]
  | step h e c' he ih =>
    rename_i c
    obtain ⟨h1, h2, h3, h4⟩ := ih
    cases e with
    | flush t => cases he
    | die t => simp only [scStep, Option.some.injEq] at he; subst he; exact ⟨h1, h2, h3, h4⟩
    | run t n =>
      simp only [scStep] at he
      split at he
      · cases he
      obtain ⟨x, hx⟩ := h1 t
      have h20 := h2 0
      have h21 := h2 1
      match x, hx with
      | 0, hx =>
        by_cases ht : t < 2
        · simp only [ucode, hx, progSB, ht, if_true, Option.some.injEq] at he; subst he
          refine ⟨fun u => ?_, fun u hu hp => ?_, fun hh => ?_, fun u hu => ?_⟩
          · simp only [fput, ret]; split
            · exact ⟨1, rfl⟩
            · exact h1 u
          · simp only [fput, ret, put, dataA] at *
            by_cases hut : u = t
            · simp [hut]
            · have : ¬ 4 * u + 3 = 4 * t + 3 := by omega
              simp only [this, if_false, hut] at hp ⊢
              exact h2 u hu hp
          · simp only [fput, ret] at hh
            by_cases h0 : t = 0
            · subst h0; simp at hh
            · have : t = 1 := by omega
              subst this; simp at hh
          · have : u ≠ t := by omega
            simp only [fput, this, if_false]; exact h4 u hu
        · simp only [ucode, hx, progSB, ht, if_false, Option.some.injEq] at he; subst he
          refine ⟨fun u => ?_, fun u hu hp => ?_, fun hh => ?_, fun u hu => ?_⟩
          · simp only [fput, ret]; split
            · exact ⟨0, rfl⟩
            · exact h1 u
          · have : u ≠ t := by omega
            simp only [fput, this, if_false] at hp
            exact h2 u hu hp
          · have e0 : (0 : Nat) ≠ t := by omega
            have e1 : (1 : Nat) ≠ t := by omega
            simp only [fput, e0, e1, if_false] at hh
            exact h3 hh
          · simp only [fput, ret]; split
            · rfl
            · exact h4 u hu
      | 1, hx =>
        have ht : t < 2 := by
          by_cases ht : t < 2
          · exact ht
          · have := h4 t (by omega); rw [hx] at this; cases this
        simp only [ucode, hx, progSB, Option.some.injEq] at he; subst he
        refine ⟨fun u => ?_, fun u hu hp => ?_, fun hh => ?_, fun u hu => ?_⟩
        · simp only [fput, ret]; split
          · exact ⟨_, rfl⟩
          · exact h1 u
        · simp only [fput] at hp
          by_cases hut : u = t
          · subst hut; exact h2 u hu (by rw [hx]; simp)
          · simp only [hut, if_false] at hp; exact h2 u hu hp
        · simp only [fput, ret] at hh
          by_cases h0 : t = 0
          · subst h0
            simp only [if_true, Nat.sub_zero, Pc.usr.injEq, Nat.reduceEqDiff] at hh
            have hm := h21 (by omega) (by have := hh.2; simp at this; rw [this]; simp)
            rw [hm] at hh
            simp at hh
          · have : t = 1 := by omega
            subst this
            have hm := h20 (by omega) (by have := hh.1; simp at this; rw [this]; simp)
            rw [hm] at hh
            simp at hh
        · have : u ≠ t := by omega
          simp only [fput, this, if_false]; exact h4 u hu
      | x + 2, hx =>
        simp only [ucode, hx, progSB, Option.some.injEq] at he; subst he
        have hsame : ∀ u, (fput c.loc t (ret (c.loc t) (x + 2)) u).pc = (c.loc u).pc := by
          intro u
          simp only [fput, ret]
          split
          · rename_i e; rw [e, hx]
          · rfl
        refine ⟨fun u => ?_, fun u hu hp => ?_, fun hh => ?_, fun u hu => ?_⟩
        · simp only [hsame]; exact h1 u
        · simp only [hsame] at hp; exact h2 u hu hp
        · simp only [hsame] at hh; exact h3 hh
        · simp only [hsame]; exact h4 u hu

/-- Programs that do not keep to the rules are not covered: without locks each of two threads can miss the other's write, which
cannot happen on sequentially consistent memory. -/
theorem C90_needs : (∃ s, TReach (ucode progSB) (uinit fun _ => 0) s ∧ (s.loc 0).pc = .usr 2 ∧ (s.loc 1).pc = .usr 2) ∧
    ∀ c, SReach (ucode progSB) (scInit (uinit fun _ => 0)) c → ¬ ((c.loc 0).pc = .usr 2 ∧ (c.loc 1).pc = .usr 2) := by
  constructor
  · have h : ∃ s, runs (step (ucode progSB)) (uinit fun _ => 0) [.run 0 0, .run 1 0, .run 0 0, .run 1 0] = some s ∧
        (s.loc 0).pc = .usr 2 ∧ (s.loc 1).pc = .usr 2 := ⟨_, rfl, rfl, rfl⟩
    obtain ⟨s, h1, h2⟩ := h
    exact ⟨s, treach_runs .init h1, h2⟩
  · exact fun c hc => (sbInv hc).2.2.1

end Fullock.Props.TsoUser
