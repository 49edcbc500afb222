import Verif.Spec.Forever
import Verif.Proofs.RwWord
/-! Executions of the lock word that never end: a quiet word is taken, finitely many calls all return. -/
namespace Fullock.RW
open Fullock.FL (Mode fset canTake takeWord)
open Fullock.Spec.RW

/-- Own steps to the end of the call while the word stays `w`. -/
def rank (w : Int) : Pc → Nat
  | .idle _ => 0
  | .top _ .rd _ _ => 2
  | .top _ .wr _ _ => 1
  | .cas _ _ _ b => if b = w then 1 else 4
  | .clk0 _ _ | .clk _ _ => 3
  | .uTop _ => 2
  | .uCas _ b _ => if b = w then 1 else 3

theorem rank_own {s s' : State} {t : Nat} {c : Clock} (hm : Mv s t c s') (hf : -1 ≤ s.word)
    (ha : ∀ md, asking (s.pc t) = some md → canTake s.word md = true) (hi : inCall s' t) :
    rank s.word (s'.pc t) < rank s.word (s.pc t) ∧ asking (s'.pc t) = asking (s.pc t) := by
  have hself : ∀ p, (s.goto t p).pc t = p := fun p => by simp [goto_pc]
  unfold inCall at hi
  cases hm with
  | @casFail k kd cnt b _ hp hne =>
    have hb : ¬ b = s.word := fun e => hne e.symm
    cases kd <;> simp_all [rank, asking, fail]
  | @uFail k b n _ hp hne =>
    have hb : ¬ b = s.word := fun e => hne e.symm
    simp_all [rank, asking]
  | @uNeg k _ hp hw =>
    have hb : s.word = -1 := by omega
    simp_all [rank, asking]
  | @clk0 k md _ hp _ => cases md <;> simp_all [rank, asking]
  | @clkIn k md hp => cases md <;> simp_all [rank, asking]
  | _ => simp_all [rank, asking, fail, canTake] <;> omega

theorem exec_inv {A : State → Ev → Prop} {σ : Nat → State} {ε : Nat → Option Ev} (h : Exec A σ ε) (i : Nat) :
    Reach A (σ i) := by
  induction i with
  | zero => rw [h.start]; exact .init
  | succ i ih =>
    have := h.next i
    cases he : ε i with
    | none => rw [he] at this; simp only at this; rw [this]; exact ih
    | some e => rw [he] at this; exact .step ih this.1 this.2

/-- One moment: nothing changes for a thread that makes no step. -/
theorem exec_pc {A : State → Ev → Prop} {σ : Nat → State} {ε : Nat → Option Ev} (h : Exec A σ ε) {t i : Nat}
    (hc : inCall (σ i) t) (hn : ∀ c, ε i ≠ some (.go t c)) : (σ (i + 1)).pc t = (σ i).pc t := by
  have := h.next i
  cases he : ε i with
  | none => rw [he] at this; simp only at this; rw [this]
  | some e =>
    rw [he] at this
    refine other_pc this.2 ?_
    intro hw
    cases e with
    | call u c => simp only [who] at hw; subst hw; obtain ⟨⟨r, hr⟩, _⟩ := call_of this.2; exact hc r hr
    | go u c => simp only [who] at hw; subst hw; exact hn c he

theorem quiet_aux {A : State → Ev → Prop} {σ : Nat → State} {ε : Nat → Option Ev} (h : Exec A σ ε) (hf : Fair σ ε)
    {t : Nat} {w : Int} : ∀ k n, (∀ j, n ≤ j → inCall (σ j) t) → (∀ j, n ≤ j → (σ j).word = w) →
      (∀ md, asking ((σ n).pc t) = some md → canTake w md = true) → rank w ((σ n).pc t) ≤ k → False := by
  intro k
  induction k with
  | zero =>
    intro n hc _ _ hk
    have := hc n (Nat.le_refl _)
    cases hp : (σ n).pc t with
    | idle r => exact this r hp
    | top k md kd cnt => cases md <;> simp [hp, rank] at hk
    | cas k kd cnt b => simp only [hp, rank] at hk; split at hk <;> omega
    | uCas k b n => simp only [hp, rank] at hk; split at hk <;> omega
    | _ => simp [hp, rank] at hk
  | succ k ih =>
    intro n hc hw ha hk
    have hstep : ∃ j, n ≤ j ∧ (∃ c, ε j = some (.go t c)) ∧ (σ j).pc t = (σ n).pc t := by
      obtain ⟨j, hj, hg⟩ := hf t n hc
      obtain ⟨d, rfl⟩ := Nat.le.dest hj
      clear hj
      induction d using Nat.strongRecOn with
      | ind d ihd =>
        by_cases hex : ∃ d' < d, ∃ c, ε (n + d') = some (.go t c)
        · obtain ⟨d', h1, h2⟩ := hex
          exact ihd d' h1 h2
        · refine ⟨n + d, by omega, hg, ?_⟩
          have : ∀ m, m ≤ d → (σ (n + m)).pc t = (σ n).pc t := by
            intro m
            induction m with
            | zero => intro _; rfl
            | succ m ihm =>
              intro hm
              rw [← ihm (by omega)]
              exact exec_pc h (hc (n + m) (Nat.le_add_right _ _)) (fun c e => hex ⟨m, by omega, c, e⟩)
          exact this d (Nat.le_refl _)
    obtain ⟨j, hj, ⟨c, hg⟩, hp⟩ := hstep
    have hn := h.next j
    rw [hg] at hn
    have := rank_own (mv_of hn.2) (reach_inv (exec_inv h j)).floor (by rw [hp, hw j hj]; exact ha) (hc (j + 1) (by omega))
    rw [hw j hj, hp] at this
    refine ih (j + 1) (fun i hi => hc i (by omega)) (fun i hi => hw i (by omega)) ?_ (by omega)
    rw [this.2]; exact ha

/-- A call returns if from some moment on the word stays as the caller wants it (any word, for an unlock call). -/
theorem quiet {A : State → Ev → Prop} {σ : Nat → State} {ε : Nat → Option Ev} (h : Exec A σ ε) (hf : Fair σ ε)
    {t n : Nat} {w : Int} (hw : ∀ j, n ≤ j → (∀ i, n ≤ i → i ≤ j → inCall (σ i) t) → (σ j).word = w)
    (ha : ∀ md, asking ((σ n).pc t) = some md → canTake w md = true) : ReturnsAfter σ t n := by
  by_contra hno
  have hc : ∀ j, n ≤ j → inCall (σ j) t := fun j hj r hr => hno ⟨j, hj, r, hr⟩
  exact quiet_aux h hf _ n hc (fun j hj => hw j hj fun i hi _ => hc i hi) ha (Nat.le_refl _)

/-- A step after which its thread is still in the call changes neither the word nor the holders. -/
theorem stay_same {s s' : State} {t : Nat} {c : Clock} (hm : Mv s t c s') (hi : inCall s' t) :
    s'.word = s.word ∧ s'.held = s.held := by
  have hself : ∀ p, (s.goto t p).pc t = p := fun p => by simp [goto_pc]
  unfold inCall at hi
  cases hm <;> first
    | exact ⟨rfl, rfl⟩
    | (simp [hself] at hi)
    | (exfalso; exact hi .ok (hself _))

/-- The threads that have issued a call before moment `n`. -/
def callers (ε : Nat → Option Ev) : Nat → List Nat
  | 0 => []
  | n + 1 => match ε n with
    | some (.call t _) => t :: callers ε n
    | _ => callers ε n

theorem in_callers {A : State → Ev → Prop} {σ : Nat → State} {ε : Nat → Option Ev} (h : Exec A σ ε) (n : Nat) (t : Nat)
    (hc : inCall (σ n) t) : t ∈ callers ε n := by
  induction n with
  | zero => rw [h.start] at hc; exact absurd rfl (hc .ok)
  | succ n ih =>
    have hn := h.next n
    simp only [callers]
    cases he : ε n with
    | none =>
      rw [he] at hn; simp only at hn ⊢
      rw [hn] at hc
      exact ih hc
    | some e =>
      rw [he] at hn
      cases e with
      | call u c =>
        by_cases hu : u = t
        · simp [hu]
        · refine List.mem_cons_of_mem _ (ih ?_)
          intro r; rw [← other_pc hn.2 hu]; exact hc r
      | go u c =>
        refine ih ?_
        by_cases hu : u = t
        · subst hu
          intro r hr
          have := hn.2
          simp [step, hr] at this
        · intro r; rw [← other_pc (e := .go u c) hn.2 hu]; exact hc r

/-- A thread in a call at a later moment was in it before, if no call is issued in between. -/
theorem inCall_back {A : State → Ev → Prop} {σ : Nat → State} {ε : Nat → Option Ev} (h : Exec A σ ε) {n : Nat}
    (hn : ∀ j, n ≤ j → ∀ t c, ε j ≠ some (.call t c)) {i j : Nat} (hi : n ≤ i) (hij : i ≤ j) {t : Nat}
    (hc : inCall (σ j) t) : inCall (σ i) t := by
  obtain ⟨d, rfl⟩ := Nat.le.dest hij
  clear hij
  induction d with
  | zero => exact hc
  | succ d ih =>
    apply ih
    have hx := h.next (i + d)
    have hc : inCall (σ (i + d + 1)) t := hc
    cases he : ε (i + d) with
    | none => rw [he] at hx; simp only at hx; rw [hx] at hc; exact hc
    | some e =>
      rw [he] at hx
      cases e with
      | call u c => exact absurd he (hn _ (by omega) _ _)
      | go u c =>
        by_cases hu : u = t
        · subst hu
          intro r hr
          have := hx.2
          simp [step, hr] at this
        · intro r; rw [← other_pc (e := .go u c) hx.2 hu]; exact hc r

/-- If calls end, from some moment on no call returns any more. -/
theorem settled {A : State → Ev → Prop} {σ : Nat → State} {ε : Nat → Option Ev} (h : Exec A σ ε) {n : Nat}
    (hn : ∀ j, n ≤ j → ∀ t c, ε j ≠ some (.call t c)) :
    ∃ m, n ≤ m ∧ ∀ j, m ≤ j → ∀ t, inCall (σ m) t → inCall (σ j) t := by
  classical
  let cnt : Nat → Nat := fun j => ((callers ε n).filter fun t => decide (inCall (σ j) t)).length
  have key : ∀ k m, n ≤ m → cnt m ≤ k → ∃ m', n ≤ m' ∧ ∀ j, m' ≤ j → ∀ t, inCall (σ m') t → inCall (σ j) t := by
    intro k
    induction k with
    | zero =>
      intro m hm hk
      refine ⟨m, hm, fun j hj t ht => ?_⟩
      have h1 : t ∈ callers ε n := in_callers h n t (inCall_back h hn (Nat.le_refl _) hm ht)
      have h2 : (callers ε n).filter (fun t => decide (inCall (σ m) t)) = [] :=
        List.length_eq_zero_iff.mp (Nat.le_zero.mp hk)
      have h3 := List.filter_eq_nil_iff.mp h2 t h1
      simp [ht] at h3
    | succ k ih =>
      intro m hm hk
      by_cases hall : ∀ j, m ≤ j → ∀ t, inCall (σ m) t → inCall (σ j) t
      · exact ⟨m, hm, hall⟩
      · simp only [not_forall] at hall
        obtain ⟨j, hj, t, ht, hnt⟩ := hall
        refine ih j (by omega) ?_
        have hlt : cnt j < cnt m := by
          have hsub : ((callers ε n).filter fun t => decide (inCall (σ j) t)) =
              ((callers ε n).filter fun t => decide (inCall (σ m) t)).filter fun t => decide (inCall (σ j) t) := by
            rw [List.filter_filter]
            congr 1
            funext u
            by_cases hu : inCall (σ j) u
            · simp [hu, inCall_back h hn hm hj hu]
            · simp [hu]
          show (List.filter _ _).length < (List.filter _ _).length
          rw [hsub]
          have h1 : t ∈ callers ε n := in_callers h n t (inCall_back h hn (Nat.le_refl _) hm ht)
          refine List.length_filter_lt_length_iff_exists.mpr ⟨t, ?_, by simpa using hnt⟩
          exact List.mem_filter.mpr ⟨h1, by simpa using ht⟩
        omega
  exact key _ n (Nat.le_refl _) (Nat.le_refl _)

/-- Then the word and the holders stay as they are. -/
theorem settled_same {A : State → Ev → Prop} {σ : Nat → State} {ε : Nat → Option Ev} (h : Exec A σ ε) {n m : Nat}
    (hn : ∀ j, n ≤ j → ∀ t c, ε j ≠ some (.call t c)) (hm : n ≤ m)
    (hst : ∀ j, m ≤ j → ∀ t, inCall (σ m) t → inCall (σ j) t) (j : Nat) (hj : m ≤ j) :
    (σ j).word = (σ m).word ∧ (σ j).held = (σ m).held := by
  obtain ⟨d, rfl⟩ := Nat.le.dest hj
  clear hj
  induction d with
  | zero => exact ⟨rfl, rfl⟩
  | succ d ih =>
    rw [← ih.1, ← ih.2]
    have hx := h.next (m + d)
    show (σ (m + d + 1)).word = _ ∧ (σ (m + d + 1)).held = _
    cases he : ε (m + d) with
    | none => rw [he] at hx; simp only at hx; rw [hx]; exact ⟨rfl, rfl⟩
    | some e =>
      rw [he] at hx
      cases e with
      | call u c => exact absurd he (hn _ (by omega) _ _)
      | go u c =>
        have hu : inCall (σ (m + d)) u := by
          intro r hr
          have := hx.2
          simp [step, hr] at this
        exact stay_same (mv_of hx.2) (hst _ (by omega) u (inCall_back h hn hm (by omega) hu))

end Fullock.RW
