import Verif.Spec.RwWord
import Mathlib.Tactic.Common
/-! The lock word with one memory access per step: case analysis, invariant, interference counting. -/
namespace Fullock.RW
open Fullock.FL (Mode fset)
open Fullock.Spec.RW

/-- The moves of a thread. -/
inductive Mv (s : State) (t : Nat) : Clock → State → Prop
  | clk0Err {k md} : s.pc t = .clk0 k md → Mv s t .err (s.goto t (.idle .ebusy))
  | clk0 {k md c} : s.pc t = .clk0 k md → c ≠ .err → Mv s t c (s.goto t (.top k md .timed 0))
  | spent {k md kd cnt c} : s.pc t = .top k md kd cnt → spent kd cnt = true → Mv s t c (s.goto t (.idle .etimedout))
  | rdFail {k kd cnt c} : s.pc t = .top k .rd kd cnt → spent kd cnt = false → s.word < 0 →
      Mv s t c (s.goto t (fail k .rd kd cnt))
  | rdRead {k kd cnt c} : s.pc t = .top k .rd kd cnt → spent kd cnt = false → 0 ≤ s.word →
      Mv s t c (s.goto t (.cas k kd cnt s.word))
  | wrOk {k kd cnt c} : s.pc t = .top k .wr kd cnt → spent kd cnt = false → s.word = 0 →
      Mv s t c { (s.goto t (.idle .ok)) with word := -1, held := (k, .wr) :: s.held }
  | wrFail {k kd cnt c} : s.pc t = .top k .wr kd cnt → spent kd cnt = false → s.word ≠ 0 →
      Mv s t c (s.goto t (fail k .wr kd cnt))
  | casOk {k kd cnt b c} : s.pc t = .cas k kd cnt b → s.word = b →
      Mv s t c { (s.goto t (.idle .ok)) with word := b + 1, held := (k, .rd) :: s.held }
  | casFail {k kd cnt b c} : s.pc t = .cas k kd cnt b → s.word ≠ b → Mv s t c (s.goto t (fail k .rd kd cnt))
  | clkErr {k md} : s.pc t = .clk k md → Mv s t .err (s.goto t (.idle .ebusy))
  | clkOver {k md} : s.pc t = .clk k md → Mv s t .over (s.goto t (.idle .etimedout))
  | clkIn {k md} : s.pc t = .clk k md → Mv s t .within (s.goto t (.top k md .timed 0))
  | uZero {k c} : s.pc t = .uTop k → s.word = 0 → Mv s t c (s.goto t (.idle .ok))
  | uNeg {k c} : s.pc t = .uTop k → s.word ≤ -1 → Mv s t c (s.goto t (.uCas k (-1) 0))
  | uPos {k c} : s.pc t = .uTop k → 0 < s.word → Mv s t c (s.goto t (.uCas k s.word (s.word - 1)))
  | uOk {k b n c} : s.pc t = .uCas k b n → s.word = b →
      Mv s t c { (s.goto t (.idle .ok)) with word := n, held := release s.held k s.word }
  | uFail {k b n c} : s.pc t = .uCas k b n → s.word ≠ b → Mv s t c (s.goto t (.uTop k))

theorem mv_of {s s' : State} {t : Nat} {c : Clock} (h : step s (.go t c) = some s') : Mv s t c s' := by
  simp only [step] at h
  split at h
  · cases h
  · rename_i k md hp
    split at h <;> cases h
    · rename_i e; subst e; exact .clk0Err hp
    · exact .clk0 hp ‹_›
  · rename_i k md kd cnt hp
    split at h
    · cases h; exact .spent hp ‹_›
    · rename_i hs
      have hs : spent kd cnt = false := by simpa using hs
      cases md <;> simp only at h <;> split at h <;> cases h
      · exact .rdFail hp hs (by omega)
      · exact .rdRead hp hs (by omega)
      · exact .wrOk hp hs ‹_›
      · exact .wrFail hp hs ‹_›
  · rename_i k kd cnt b hp
    split at h <;> cases h
    · exact .casOk hp ‹_›
    · exact .casFail hp ‹_›
  · rename_i k md hp
    cases c <;> cases h
    · exact .clkErr hp
    · exact .clkOver hp
    · exact .clkIn hp
  · rename_i k hp
    split at h
    · cases h; exact .uZero hp ‹_›
    · split at h <;> cases h
      · exact .uNeg hp ‹_›
      · exact .uPos hp (by omega)
  · rename_i k b n hp
    split at h <;> cases h
    · exact .uOk hp ‹_›
    · exact .uFail hp ‹_›

theorem call_of {s s' : State} {t : Nat} {c : Call} (h : step s (.call t c) = some s') :
    (∃ r, s.pc t = .idle r) ∧ s' = s.goto t c.start := by
  simp only [step] at h
  split at h <;> cases h
  exact ⟨⟨_, ‹_›⟩, rfl⟩

/-- What the places of a thread know. -/
def PcOK : Pc → Prop
  | .cas _ kd cnt b => 0 ≤ b ∧ spent kd cnt = false
  | .uCas _ b n => (b = -1 ∧ n = 0) ∨ (0 < b ∧ n = b - 1)
  | .top _ _ (.block max) cnt => max = -1 ∨ cnt = 0 ∨ (cnt : Int) ≤ max + 1
  | _ => True

structure Inv (s : State) : Prop where
  floor : -1 ≤ s.word
  pcs : ∀ t, PcOK (s.pc t)

theorem inv_init : Inv init := ⟨by decide, fun _ => trivial⟩

theorem fail_ok {k md kd cnt} (h : spent kd cnt = false) : PcOK (fail k md kd cnt) := by
  cases kd <;> simp only [fail, PcOK]
  simp only [spent, Bool.and_eq_false_iff, decide_eq_false_iff_not] at h
  omega

theorem goto_ok {s : State} {t : Nat} {p : Pc} (h : Inv s) (hp : PcOK p) : ∀ u, PcOK ((s.goto t p).pc u) := by
  intro u
  simp only [State.goto, fset]
  split
  · exact hp
  · exact h.pcs u

theorem inv_step {s s' : State} {e : Ev} (h : Inv s) (hs : step s e = some s') : Inv s' := by
  have hf := h.floor
  cases e with
  | call t c =>
    obtain ⟨_, rfl⟩ := call_of hs
    refine ⟨hf, goto_ok h ?_⟩
    cases c with
    | lock k md kd => cases kd <;> simp [Call.start, PcOK]
    | unlock k => trivial
  | go t c =>
    have hm := mv_of hs
    cases hm with
    | rdFail hp hsp hw => exact ⟨hf, goto_ok h (fail_ok hsp)⟩
    | wrFail hp hsp hw => exact ⟨hf, goto_ok h (fail_ok hsp)⟩
    | casFail hp hw => 
      have := h.pcs t; rw [hp] at this
      exact ⟨hf, goto_ok h (fail_ok this.2)⟩
    | rdRead hp hsp hw => exact ⟨hf, goto_ok h ⟨hw, hsp⟩⟩
    | wrOk hp hsp hw => exact ⟨by show (-1 : Int) ≤ -1; omega, goto_ok h trivial⟩
    | casOk hp hw =>
      have := h.pcs t; rw [hp] at this
      exact ⟨by show (-1 : Int) ≤ _ + 1; have := this.1; omega, goto_ok h trivial⟩
    | uNeg hp hw => exact ⟨hf, goto_ok h (Or.inl ⟨rfl, rfl⟩)⟩
    | uPos hp hw => exact ⟨hf, goto_ok h (Or.inr ⟨hw, rfl⟩)⟩
    | @uOk k b n c hp hw =>
      have := h.pcs t; rw [hp] at this
      refine ⟨?_, goto_ok h trivial⟩
      show -1 ≤ n
      rcases this with ⟨_, h2⟩ | ⟨_, h2⟩ <;> omega
    | _ => exact ⟨hf, goto_ok h trivial⟩

theorem reach_inv {A : State → Ev → Prop} {s : State} (h : Reach A s) : Inv s := by
  induction h with
  | init => exact inv_init
  | step _ _ hs ih => exact inv_step ih hs

/-! ### Callers in order -/

/-- The token a thread wants to take / to release. -/
def wants : Pc → Option Nat
  | .top k _ _ _ | .cas k _ _ _ | .clk0 k _ | .clk k _ => some k
  | _ => none

def drops : Pc → Option Nat
  | .uTop k | .uCas k _ _ => some k
  | _ => none

structure Ord (s : State) : Prop where
  nodup : (s.held.map (·.1)).Nodup
  shape : (∃ k, s.held = [(k, .wr)] ∧ s.word = -1) ∨ ((∀ x ∈ s.held, x.2 = .rd) ∧ s.word = s.held.length)
  sep : ∀ t u k, tok (s.pc t) = some k → tok (s.pc u) = some k → t = u
  want : ∀ t k, wants (s.pc t) = some k → ∀ md, (k, md) ∉ s.held
  drop : ∀ t k, drops (s.pc t) = some k → ∃ md, (k, md) ∈ s.held

theorem ord_init : Ord init := by
  constructor <;> simp [init, tok, wants, drops]

theorem tok_wants {p : Pc} {k : Nat} (h : wants p = some k) : tok p = some k := by
  cases p <;> simp_all [wants, tok]

theorem tok_drops {p : Pc} {k : Nat} (h : drops p = some k) : tok p = some k := by
  cases p <;> simp_all [drops, tok]

theorem goto_pc (s : State) (t : Nat) (p : Pc) (u : Nat) : (s.goto t p).pc u = if u = t then p else s.pc u := rfl

theorem ord_goto {s : State} (h : Ord s) {t : Nat} {p : Pc} (h1 : tok p = none ∨ tok p = tok (s.pc t))
    (h2 : wants p = none ∨ wants p = wants (s.pc t)) (h3 : drops p = none ∨ drops p = drops (s.pc t)) :
    Ord (s.goto t p) := by
  refine ⟨h.nodup, h.shape, ?_, ?_, ?_⟩
  · intro u v k
    rw [goto_pc, goto_pc]
    have := h.sep
    split <;> split <;> intro a b
    · simp_all
    · subst u; rcases h1 with h1 | h1 <;> rw [h1] at a
      · cases a
      · exact this _ _ _ a b
    · subst v; rcases h1 with h1 | h1 <;> rw [h1] at b
      · cases b
      · exact this _ _ _ a b
    · exact this _ _ _ a b
  · intro u k
    rw [goto_pc]
    split <;> intro a
    · rcases h2 with h2 | h2 <;> rw [h2] at a
      · cases a
      · exact h.want t k a
    · exact h.want u k a
  · intro u k
    rw [goto_pc]
    split <;> intro a
    · rcases h3 with h3 | h3 <;> rw [h3] at a
      · cases a
      · exact h.drop t k a
    · exact h.drop u k a

theorem fail_tok (k : Nat) (md : Mode) (kd : Kind) (cnt : Nat) :
    (tok (fail k md kd cnt) = none ∨ tok (fail k md kd cnt) = some k) ∧
    (wants (fail k md kd cnt) = none ∨ wants (fail k md kd cnt) = some k) ∧ drops (fail k md kd cnt) = none := by
  cases kd <;> simp [fail, tok, wants, drops]

theorem ord_fail {s : State} (h : Ord s) {t k : Nat} {md : Mode} {kd : Kind} {cnt : Nat}
    (h1 : tok (s.pc t) = some k) (h2 : wants (s.pc t) = some k) : Ord (s.goto t (fail k md kd cnt)) := by
  obtain ⟨a, b, c⟩ := fail_tok k md kd cnt
  exact ord_goto h (by rw [h1]; exact a) (by rw [h2]; exact b) (Or.inl c)

theorem ord_take {s : State} (h : Ord s) {t k : Nat} {md : Mode} {w : Int} (hw : wants (s.pc t) = some k)
    (hsh : (s.held = [] ∧ md = .wr ∧ w = -1) ∨ ((∀ x ∈ s.held, x.2 = .rd) ∧ md = .rd ∧ w = s.held.length + 1)) :
    Ord { (s.goto t (.idle .ok)) with word := w, held := (k, md) :: s.held } := by
  have hg : Ord (s.goto t (.idle .ok)) := ord_goto h (Or.inl rfl) (Or.inl rfl) (Or.inl rfl)
  refine ⟨?_, ?_, hg.sep, ?_, ?_⟩
  · simp only [List.map_cons, List.nodup_cons]
    refine ⟨?_, h.nodup⟩
    intro hm
    obtain ⟨⟨k', md'⟩, hx, rfl⟩ := List.mem_map.1 hm
    exact h.want t _ hw md' hx
  · rcases hsh with ⟨h1, rfl, rfl⟩ | ⟨h1, rfl, rfl⟩
    · left; exact ⟨k, by simp [h1], rfl⟩
    · right; simpa using h1
  · intro u k' hu md' hm
    have hut : u ≠ t := by
      intro e; subst e
      simp [goto_pc, wants] at hu
    simp only [goto_pc, if_neg hut] at hu
    rcases List.mem_cons.1 hm with e | hm
    · cases e
      exact hut (h.sep _ _ _ (tok_wants hu) (tok_wants hw))
    · exact h.want u k' hu md' hm
  · intro u k' hu
    obtain ⟨md', hm⟩ := hg.drop u k' hu
    exact ⟨md', List.mem_cons_of_mem _ hm⟩

theorem ord_step {s s' : State} {e : Ev} (hi : Inv s) (h : Ord s) (ho : orderly s e) (hs : step s e = some s') :
    Ord s' := by
  cases e with
  | call t c =>
    obtain ⟨⟨r, hr⟩, rfl⟩ := call_of hs
    have htok : ∀ k, (∀ u, tok (s.pc u) ≠ some k) → ∀ p, tok p = some k → ∀ u v k',
        tok ((s.goto t p).pc u) = some k' → tok ((s.goto t p).pc v) = some k' → u = v := by
      intro k hk p hp u v k' a b
      rw [goto_pc] at a b
      split at a <;> split at b
      · simp_all
      · rw [hp] at a; cases a; exact absurd b (hk v)
      · rw [hp] at b; cases b; exact absurd a (hk u)
      · exact h.sep _ _ _ a b
    cases c with
    | lock k md kd =>
      have hst : tok (Call.start (.lock k md kd)) = some k ∧ wants (Call.start (.lock k md kd)) = some k ∧
          drops (Call.start (.lock k md kd)) = none := by
        cases kd <;> simp [Call.start, tok, wants, drops]
      obtain ⟨e1, e2, e3⟩ := hst
      refine ⟨h.nodup, h.shape, htok k ho.1 _ e1, ?_, ?_⟩
      · intro u k' hu
        rw [goto_pc] at hu
        split at hu
        · rw [e2] at hu; cases hu; exact ho.2
        · exact h.want u k' hu
      · intro u k' hu
        rw [goto_pc] at hu
        split at hu
        · rw [e3] at hu; cases hu
        · exact h.drop u k' hu
    | unlock k =>
      refine ⟨h.nodup, h.shape, htok k ho.1 _ rfl, ?_, ?_⟩
      · intro u k' hu
        rw [goto_pc] at hu
        split at hu
        · cases hu
        · exact h.want u k' hu
      · intro u k' hu
        rw [goto_pc] at hu
        split at hu
        · cases hu; exact ho.2
        · exact h.drop u k' hu
  | go t c =>
    have hm := mv_of hs
    have hidle : ∀ r, Ord (s.goto t (.idle r)) := fun r => ord_goto h (Or.inl rfl) (Or.inl rfl) (Or.inl rfl)
    cases hm with
    | clk0Err hp => exact hidle _
    | clkErr hp => exact hidle _
    | clkOver hp => exact hidle _
    | spent hp _ => exact hidle _
    | uZero hp _ => exact hidle _
    | clk0 hp _ => exact ord_goto h (by simp [hp, tok]) (by simp [hp, wants]) (by simp [drops])
    | clkIn hp => exact ord_goto h (by simp [hp, tok]) (by simp [hp, wants]) (by simp [drops])
    | rdFail hp _ _ => exact ord_fail h (by simp [hp, tok]) (by simp [hp, wants])
    | wrFail hp _ _ => exact ord_fail h (by simp [hp, tok]) (by simp [hp, wants])
    | casFail hp _ => exact ord_fail h (by simp [hp, tok]) (by simp [hp, wants])
    | rdRead hp _ _ => exact ord_goto h (by simp [hp, tok]) (by simp [hp, wants]) (by simp [drops])
    | uNeg hp _ => exact ord_goto h (by simp [hp, tok]) (by simp [wants]) (by simp [hp, drops])
    | uPos hp _ => exact ord_goto h (by simp [hp, tok]) (by simp [wants]) (by simp [hp, drops])
    | uFail hp _ => exact ord_goto h (by simp [hp, tok]) (by simp [wants]) (by simp [hp, drops])
    | wrOk hp _ hw =>
      refine ord_take h (by simp [hp, wants]) (Or.inl ⟨?_, rfl, rfl⟩)
      rcases h.shape with ⟨k', _, e⟩ | ⟨_, e⟩
      · omega
      · rw [hw] at e
        exact List.length_eq_zero_iff.1 (by omega)
    | @casOk k kd cnt b c hp hw =>
      have hb := hi.pcs t; rw [hp] at hb
      have hb := hb.1
      rcases h.shape with ⟨k', _, e⟩ | ⟨e1, e⟩
      · omega
      · exact ord_take h (by simp [hp, wants]) (Or.inr ⟨e1, rfl, by omega⟩)
    | @uOk k b n c hp hw =>
      have hb := hi.pcs t; rw [hp] at hb
      obtain ⟨md, hmd⟩ := h.drop t k (by simp [hp, drops])
      have hg := hidle .ok
      have hsub : ∀ x ∈ release s.held k s.word, x ∈ s.held := fun x hx => List.mem_of_mem_erase hx
      refine ⟨(List.Sublist.map _ List.erase_sublist).nodup h.nodup, ?_, hg.sep,
        fun u k' hu md' hm => hg.want u k' hu md' (hsub _ hm), ?_⟩
      · simp only [release]
        rcases h.shape with ⟨k', e1, e2⟩ | ⟨e1, e2⟩
        · rw [e1] at hmd
          simp only [List.mem_singleton, Prod.mk.injEq] at hmd
          obtain ⟨rfl, rfl⟩ := hmd
          right
          rw [if_pos (by omega), e1]
          simp
          rcases hb with ⟨_, rfl⟩ | ⟨_, _⟩
          · rfl
          · omega
        · have := e1 _ hmd
          simp only at this
          subst this
          right
          rw [if_neg (by omega)]
          refine ⟨fun x hx => e1 x (List.mem_of_mem_erase hx), ?_⟩
          have hl := List.length_erase_of_mem hmd
          have hpos : 0 < s.held.length := List.length_pos_of_mem hmd
          rcases hb with ⟨_, _⟩ | ⟨_, _⟩
          · omega
          · rw [hl]; omega
      · intro u k' hu
        have hut : u ≠ t := by
          intro e; subst e
          simp [goto_pc, drops] at hu
        obtain ⟨md', hm⟩ := hg.drop u k' hu
        simp only [goto_pc, if_neg hut] at hu
        refine ⟨md', ?_⟩
        refine (List.mem_erase_of_ne ?_).2 hm
        intro e
        have : k' = k := congrArg Prod.fst e
        subst this
        exact hut (h.sep _ _ _ (tok_drops hu) (by simp [hp, tok]))

theorem reach_ord {s : State} (h : Reach orderly s) : Ord s := by
  induction h with
  | init => exact ord_init
  | step hr ho hs ih => exact ord_step (reach_inv hr) ih ho hs

theorem goto_word (s : State) (t : Nat) (p : Pc) : (s.goto t p).word = s.word := rfl

theorem reach_any {A : State → Ev → Prop} {s : State} (h : Reach A s) : Reach (fun _ _ => True) s := by
  induction h with
  | init => exact .init
  | step _ _ hs ih => exact .step ih trivial hs

theorem other_pc {s s' : State} {e : Ev} {t : Nat} (h : step s e = some s') (hne : who e ≠ t) : s'.pc t = s.pc t := by
  have hg : ∀ u p, u ≠ t → (s.goto u p).pc t = s.pc t := fun u p hu => by
    rw [goto_pc, if_neg (fun e => hu e.symm)]
  cases e with
  | call u c => obtain ⟨_, rfl⟩ := call_of h; exact hg _ _ hne
  | go u c => cases mv_of h <;> exact hg _ _ hne

/-- Bookkeeping along a run: a fact about the place of one thread, the word, the steps of the thread and the
changes of the word by others, kept by each own step and by each step of another thread. -/
theorem track {t : Nat} (P : Pc → Int → Nat → Nat → Prop) (B C : Prop)
    (hgo : ∀ s s' c n m, P (s.pc t) s.word n m → Mv s t c s' → -1 ≤ s.word → (B → 0 ≤ s.word) → (C → c ≠ .err) →
      P (s'.pc t) s'.word (n + 1) m)
    (hoth : ∀ p w w' n m, P p w n m → P p w' n (m + if w' ≠ w then 1 else 0)) :
    ∀ (es : List Ev) (s s' : State) (n m : Nat), Reach (fun _ _ => True) s → staying t es → (B → noWriter s es) →
      (C → clockWorks t es) → run s es = some s' → P (s.pc t) s.word n m →
      P (s'.pc t) s'.word (n + steps t es) (m + changes t s es)
  | [], s, s', n, m, _, _, _, _, hr, hp => by
    simp only [run, Option.some.injEq] at hr
    subst hr; simpa [steps, changes] using hp
  | e :: es, s, s', n, m, hR, hst, hB, hC, hr, hp => by
    simp only [run] at hr
    cases h1 : step s e with
    | none => rw [h1] at hr; cases hr
    | some s1 =>
      rw [h1] at hr
      have hr : run s1 es = some s' := hr
      have hR1 : Reach (fun _ _ => True) s1 := .step hR trivial h1
      have hst1 : staying t es := fun e' he' => hst e' (List.mem_cons_of_mem _ he')
      have hB1 : B → noWriter s1 es := fun b => (hB b).2 s1 h1
      have hC1 : C → clockWorks t es := fun c e' he' => hC c e' (List.mem_cons_of_mem _ he')
      have ih := fun n m => track P B C hgo hoth es s1 s' n m hR1 hst1 hB1 hC1 hr
      by_cases hw : who e = t
      · cases e with
        | call u c =>
          simp only [who] at hw; subst hw
          exact absurd rfl (hst _ List.mem_cons_self c)
        | go u c =>
          simp only [who] at hw; subst hw
          have := ih (n + 1) m (hgo s s1 c n m hp (mv_of h1) (reach_inv hR).floor (fun b => (hB b).1)
            (fun hc e => hC hc _ List.mem_cons_self (by rw [e])))
          simpa [steps, changes, h1, who, Nat.add_assoc] using this
      · have hq := hoth _ _ s1.word _ _ hp
        rw [← other_pc h1 hw] at hq
        have := ih n _ hq
        have hsteps : steps t (e :: es) = steps t es := by
          cases e with
          | call u c => rfl
          | go u c => simp only [who] at hw; simp [steps, hw]
        rw [hsteps]
        simpa [changes, h1, hw, Nat.add_assoc] using this

end Fullock.RW
