import Verif.Model.TsoCond
/-! Executions with store buffers, and what a signal hands over. -/
namespace Fullock.Spec.TsoCond
open Fullock.Tso Fullock.TsoCond

variable {U : Type}

/-- An execution: `σ i` is the state at moment `i`, `ε i` what happens then (`none`: nothing). -/
structure Exec (prog : Nat → U → UIns U) (u0 : Nat → U) (σ : Nat → St (Pc U)) (ε : Nat → Option Ev) : Prop where
  start : σ 0 = cinit u0
  next : ∀ i, match ε i with
    | none => σ (i + 1) = σ i
    | some e => step (ccode prog) (σ i) e = some (σ (i + 1))

/-- At moment `i` a signal of thread `t` takes effect: the record `w` becomes told. -/
def Tells (σ : Nat → St (Pc U)) (ε : Nat → Option Ev) (i t w : Nat) : Prop :=
  (∃ b u, (σ i).loc t = .sgC w b u) ∧ (∃ n, ε i = some (.run t n)) ∧ (σ i).mem (wordA w) ≠ up ∧ (σ (i + 1)).mem (wordA w) = up

/-- At moment `j` a wait of thread `u` as record `w` returns with success. -/
def Returns (σ : Nat → St (Pc U)) (ε : Nat → Option Ev) (j u w : Nat) : Prop :=
  ∃ lim k n, (σ j).loc u = .wt w lim k ∧ ε j = some (.run u n) ∧ (σ (j + 1)).loc u = .usr (k true)

/-- At moment `k` a wait of thread `u` as record `w` says in the record that it waits. -/
def Arms (σ : Nat → St (Pc U)) (ε : Nat → Option Ev) (k u w : Nat) : Prop :=
  ∃ b lim f n, (σ k).loc u = .armC w b lim f ∧ ε k = some (.run u n) ∧ (σ (k + 1)).loc u = .wt w lim f ∧
    (σ (k + 1)).mem (wordA w) = waiting

/-- Thread `v` writes `x` into data `a` at moment `i`. -/
def Writes (prog : Nat → U → UIns U) (σ : Nat → St (Pc U)) (ε : Nat → Option Ev) (i v a x : Nat) : Prop :=
  ∃ n u u', ε i = some (.run v n) ∧ (σ i).loc v = .usr u ∧ prog v u = .wr a x u'

/-- What thread `t` finds when it reads data `a`. -/
def sees (s : St (Pc U)) (t a : Nat) : Nat := view s.mem (s.buf t) (dataA a)

end Fullock.Spec.TsoCond
