import Verif.Model.FileLock
import Verif.Spec.Range
/-! Specification vocabulary for file locks. -/
namespace Fullock.FL

/-- Deaths that are not in the middle of an unlock: between the change of the lock word
(/repo/lib/flcklistofflock.cc 97) and `set_unlock` (line 103). -/
def okDeath (s : State) : Ev → Prop
  | .die t c k => match s.pc t with
    | .uWord .. => c ≠ .go ∨ k = 0
    | .uFlag .. => c = .go ∧ k ≠ 0
    | _ => True
  | _ => True

/-- Deaths outside the three windows: between the successful attempt on the lock word and
`set_lock` (/repo/lib/flcklistofflock.cc 169-195 and 164); between `fl_unlock_rwlock` (97) and
`set_unlock` (103); and, for a sweeping thread, between `cutoff_list` and `fl_unlock_rwlock`
(255-262, 292-299). -/
def softDeath (s : State) : Ev → Prop
  | .die t c k => match s.pc t with
    | .spin .. => c ≠ .go ∨ k = 0
    | .setf .. => c = .go ∧ k ≠ 0
    | .uWord .. => c ≠ .go ∨ k = 0
    | .uFlag .. => c = .go ∧ k ≠ 0
    | .sw => k ≠ 1
    | .rChk .. => k ≠ 1
    | _ => True
  | _ => True

end Fullock.FL

namespace Fullock.Spec
open Fullock.FL

/-- The states reachable from fresh tables of any capacity (whatever the free records contain), by
events which `A` allows. -/
inductive Reach (A : State → Ev → Prop) : State → Prop
  | init (nf no nl : Nat) (junk : Mem) : Reach A (FL.init nf no nl junk)
  | step {s s' : State} {e : Ev} : Reach A s → A s e → FL.step s e = some s' → Reach A s'

/-- Nobody dies. -/
def noDeath : State → Ev → Prop
  | _, .die _ _ _ => False
  | _, _ => True

/-- Lock requests are for ranges in `R`. -/
def lockIn (R : DevIno → Rng → Prop) : Ev → Prop
  | .call _ (.lock op) => R op.key op.rng
  | _ => True

/-- Deaths only at harmless places (`softDeath`), requests only for ranges in `R`. -/
def softIn (R : DevIno → Rng → Prop) (s : State) (e : Ev) : Prop := softDeath s e ∧ lockIn R e

/-- The same with `okDeath`. -/
def okIn (R : DevIno → Rng → Prop) (s : State) (e : Ev) : Prop := okDeath s e ∧ lockIn R e

/-- All ranges in use are sane; those of one file are pairwise equal or disjoint. -/
structure Separate (R : DevIno → Rng → Prop) : Prop where
  sane : ∀ k r, R k r → SaneRange r
  apart : ∀ k r r', R k r → R k r' → r = r' ∨ ¬ Overlap r r'

/-- All ranges in use are sane, and among those of one file overlapping is transitive: they fall
into groups, any two ranges of a group overlapping and ranges of different groups disjoint. -/
structure Clustered (R : DevIno → Rng → Prop) : Prop where
  sane : ∀ k r, R k r → SaneRange r
  trans : ∀ k r r' r'', R k r → R k r' → R k r'' → Overlap r r' → Overlap r' r'' → Overlap r r''

/-- Two locks exclude each other: same file, a common byte, one of them a write lock. -/
def Conflict (h h' : Out) : Prop :=
  h.key = h'.key ∧ Overlap h.rng h'.rng ∧ (h.mode = .wr ∨ h'.mode = .wr)

/-- No two different locks in force exclude each other.  (`outs` lists the locks in force: an entry
is made when a lock call returns 0 and removed when the lock word is released on its behalf.) -/
def Exclusive (s : State) : Prop :=
  ∀ x ∈ s.mem.outs, ∀ y ∈ s.mem.outs, x.1 ≠ y.1 → ¬ Conflict x.2 y.2

/-- The sequence of events of thread `t` making `n` steps alone. -/
def alone (t n : Nat) : List Ev := List.replicate n (.go t .go)

/-- Thread `t`, outside the library, calls `c` and runs alone; after `n` steps the call has
returned `r`, and the state is `s'`. -/
def Returns (s : State) (t : Nat) (c : Call) (n r : Nat) (s' : State) : Prop :=
  run s (.call t c :: alone t n) = some s' ∧ s'.pc t = .done r

/-- Every other thread is outside the library, waiting for a lock, or dead. -/
def OthersIdle (s : State) (t : Nat) : Prop :=
  ∀ u, u ≠ t → s.alive u = true →
    (∃ r, s.pc u = .done r) ∨ ∃ op f o l, s.pc u = .spin op f o l

/-- The tables say the same: same records in the same lists, same lock words, same holders, same
locks in force, same answer of islocked for every file. -/
structure SameTables (m m' : Mem) : Prop where
  files : m'.files = m.files
  keys : m'.key = m.key
  offs : m'.offs = m.offs
  rngs : m'.rng = m.rng
  words : m'.word = m.word
  lks : m'.lks = m.lks
  ffree : m'.ffree = m.ffree
  ofree : m'.ofree = m.ofree
  lfree : m'.lfree = m.lfree
  outs : m'.outs = m.outs
  lockers : ∀ o md, ∀ l ∈ m.lks o md,
    m'.ltid l = m.ltid l ∧ m'.lfd l = m.lfd l ∧ m'.locked l = m.locked l
  isLocked : ∀ f ∈ m.files, fLocked m' f = fLocked m f

/-- No lock in force excludes the request: a lock on the same file with a common byte is there only
if both are read locks. -/
def Compatible (m : Mem) (op : Op) : Prop :=
  ∀ x ∈ m.outs, x.2.key = op.key → Overlap x.2.rng op.rng → x.2.mode = .rd ∧ op.mode = .rd

/-- The records the request needs are there: its file is listed or a file record is free, its range
is listed or a range record is free, and a locker record is free. -/
structure Room (m : Mem) (op : Op) : Prop where
  file : (∃ f ∈ m.files, m.key f = op.key) ∨ m.ffree ≠ []
  range : (∃ f ∈ m.files, m.key f = op.key ∧ ∃ o ∈ m.offs f, hits op.rng (m.rng o) = true) ∨
    m.ofree ≠ []
  locker : m.lfree ≠ []

end Fullock.Spec
