import Verif.Model.RwWord
/-! Specification of the lock word: what callers may do, and words over a run. -/
namespace Fullock.Spec.RW
open Fullock.FL (Mode)
open _root_.Fullock.RW

/-- States reached by events allowed by `A`. -/
inductive Reach (A : State → Ev → Prop) : State → Prop
  | init : Reach A init
  | step {s s' : State} {e : Ev} : Reach A s → A s e → step s e = some s' → Reach A s'

/-- The token a thread is working on. -/
def tok : Pc → Option Nat
  | .idle _ => none
  | .top k _ _ _ | .cas k _ _ _ | .clk0 k _ | .clk k _ | .uTop k | .uCas k _ _ => some k

/-- Callers in order: nobody asks for a lock under a token in use, and a lock is released only while it
is held, by one thread at a time. -/
def orderly (s : State) : Ev → Prop
  | .call _ (.lock k _ _) => (∀ u, tok (s.pc u) ≠ some k) ∧ ∀ md, (k, md) ∉ s.held
  | .call _ (.unlock k) => (∀ u, tok (s.pc u) ≠ some k) ∧ ∃ md, (k, md) ∈ s.held
  | .go _ _ => True

/-- The request of a thread that is inside a lock function. -/
def asking : Pc → Option Mode
  | .top _ md _ _ | .clk0 _ md | .clk _ md => some md
  | .cas _ _ _ _ => some .rd
  | _ => none

/-- A thread is inside the unlock function. -/
def unlocking : Pc → Bool
  | .uTop _ | .uCas _ _ _ => true
  | _ => false

/-- Number of steps of thread `t`. -/
def steps (t : Nat) : List Ev → Nat
  | [] => 0
  | .go u _ :: es => (if u = t then 1 else 0) + steps t es
  | .call _ _ :: es => steps t es

/-- The thread of an event. -/
def who : Ev → Nat
  | .call t _ | .go t _ => t

/-- Number of events of other threads that change the word. -/
def changes (t : Nat) : State → List Ev → Nat
  | _, [] => 0
  | s, e :: es =>
    match step s e with
    | none => 0
    | some s' => (if who e ≠ t ∧ s'.word ≠ s.word then 1 else 0) + changes t s' es

/-- Thread `t` makes no call in the run. -/
def staying (t : Nat) (es : List Ev) : Prop := ∀ e ∈ es, ∀ c, e ≠ .call t c

/-- The clock of thread `t` does not fail. -/
def clockWorks (t : Nat) (es : List Ev) : Prop := ∀ e ∈ es, e ≠ .go t .err

/-- The word is never negative on the way (no writer). -/
def noWriter : State → List Ev → Prop
  | s, [] => 0 ≤ s.word
  | s, e :: es => 0 ≤ s.word ∧ ∀ s', step s e = some s' → noWriter s' es

/-- Which function a thread is in. -/
def kindOf : Pc → Option Kind
  | .top _ _ kd _ | .cas _ kd _ _ => some kd
  | .clk0 _ _ | .clk _ _ => some .timed
  | _ => none

end Fullock.Spec.RW
