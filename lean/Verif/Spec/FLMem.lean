import Verif.Model.FLMem
import Verif.Spec.ListMem
/-! Specification: what it means that the cells of the segment hold the tables of the file locks. -/
namespace Fullock.FLMem
open Fullock.ListMem Fullock.Layout

/-- The records of each list. -/
def recs (m : FL.Mem) : Head → List Nat
  | .files => m.files
  | .ffree => m.ffree
  | .ofree => m.ofree
  | .lfree => m.lfree
  | .offs f => m.offs f
  | .lks o md => m.lks o md

/-- The list heads that exist. -/
def HB (cnt : Pool → Nat) : Head → Prop
  | .offs f => f < cnt .file
  | .lks o _ => o < cnt .off
  | _ => True

/-- The lists in use: those of the header, of all file records (also of free ones: a thread whose lock
call failed may look at the list of a record that has been freed meanwhile) and of the range records
listed there. -/
def Live (cnt : Pool → Nat) (m : FL.Mem) : Head → Prop
  | .offs f => f < cnt .file
  | .lks o _ => ∃ f < cnt .file, o ∈ m.offs f
  | _ => True

/-- The cells hold the tables: from every list head in use the references run through exactly the
records of the list and end with NULL. -/
def Rep (cnt : Pool → Nat) (c : Mem) (m : FL.Mem) : Prop :=
  ∀ h, Live cnt m h → Chain c (c (cell cnt h)) ((recs m h).map (adr cnt h.pool))

/-- Lists without repetition, of records that exist, no record in two lists. -/
structure Sound (cnt : Pool → Nat) (m : FL.Mem) : Prop where
  nodup : ∀ h, (recs m h).Nodup
  lt : ∀ h, ∀ i ∈ recs m h, i < cnt h.pool
  disj : ∀ h h', h.pool = h'.pool → h ≠ h' → ∀ i ∈ recs m h, i ∉ recs m h'

/-- The references in the segment form separate finite lists of existing records. -/
def Intact (cnt : Pool → Nat) (c : Mem) : Prop := ∃ m, Sound cnt m ∧ Rep cnt c m

/-- The members that are not references. -/
structure SamePay (m m' : FL.Mem) : Prop where
  key : m.key = m'.key
  fprot : m.fprot = m'.fprot
  rng : m.rng = m'.rng
  word : m.word = m'.word
  oprot : m.oprot = m'.oprot
  ltid : m.ltid = m'.ltid
  lfd : m.lfd = m'.lfd
  locked : m.locked = m'.locked
  taken : m.taken = m'.taken
  outs : m.outs = m'.outs

/-- Two tables agree in everything that is in use. -/
structure SameLive (cnt : Pool → Nat) (m m' : FL.Mem) : Prop where
  pay : SamePay m m'
  files : m.files = m'.files
  ffree : m.ffree = m'.ffree
  ofree : m.ofree = m'.ofree
  lfree : m.lfree = m'.lfree
  offs : ∀ f < cnt .file, m.offs f = m'.offs f
  lks : ∀ f < cnt .file, ∀ o ∈ m.offs f, ∀ md, m.lks o md = m'.lks o md

/-- The states reachable from a segment just made by `InitializeShmFile` (wherever it was mapped) by
events which `A` allows. -/
inductive Reach (cnt : Pool → Nat) (fuel : Nat) (A : State → Ev → Prop) : State → Prop
  | init {f f' : File} {os : List Sys} {b : Nat} {m : Mem} (junk : FL.Mem)
      (h : initializeShmFile cnt f true os (some b) = some (.ok f' m)) : Reach cnt fuel A (FLMem.init m junk)
  | step {s s' : State} {e : Ev} : Reach cnt fuel A s → A s e → step cnt fuel s e = some s' →
      Reach cnt fuel A s'

/-- As `FL.okDeath`: nobody dies in the middle of an unlock. -/
def okDeath (s : State) : Ev → Prop
  | .die t _ c k j => match s.pc t with
    | .uWord .. => c ≠ .go ∨ (k = 0 ∧ j = 0)
    | .uFlag .. => c = .go ∧ k ≠ 0
    | _ => True
  | _ => True

/-- Lock requests are for ranges in `R`. -/
def lockIn (R : DevIno → Rng → Prop) : Ev → Prop
  | .call _ (.lock op) => R op.key op.rng
  | _ => True

end Fullock.FLMem
