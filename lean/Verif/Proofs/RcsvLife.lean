import Verif.Proofs.RcsvProj
import Verif.Spec.RcsvLife
/-
Lemmas for C84: a call refers only to objects it got from its object, the table and other objects.
-/
namespace Fullock.Proofs.RcsvLife
open Fullock.Rcsv Fullock.Rcsv.Conc

/-- All objects an object points to satisfy `L`. -/
def refsIn (L : Nat → Prop) (o : Obj) : Prop := (∀ m, o.master = some m → L m) ∧ ∀ j ∈ o.pend, L j

/-- A call uses only objects that satisfy `L`, if it finds only such objects. -/
def SafeP (L : Nat → Prop) : Prog → Prop
  | .ret _ => True
  | .lock k => SafeP L k
  | .unlock k => SafeP L k
  | .look i k => L i ∧ ∀ o, refsIn L o → SafeP L (k o)
  | .upd i g k => L i ∧ (∀ o, refsIn L o → refsIn L (g o)) ∧ SafeP L k
  | .erase _ k => SafeP L k
  | .push i k => L i ∧ SafeP L k
  | .find i k => L i ∧ ∀ f, (∀ m, f = some m → L m) → SafeP L (k f)
  | .scan i k => L i ∧ ∀ f l, (∀ m, f = some m → L m) → (∀ j ∈ l, L j) → SafeP L (k f l)
  | .grant _ _ k => ∀ b, SafeP L (k b)
  | .free _ k => ∀ b, SafeP L (k b)

variable {L : Nat → Prop}

theorem safe_lockP {loc : Bool} {k : Prog} (h : SafeP L k) : SafeP L (lockP loc k) := by
  unfold lockP; split <;> simpa [SafeP] using h

theorem safe_unlockP {loc : Bool} {k : Prog} (h : SafeP L k) : SafeP L (unlockP loc k) := by
  unfold unlockP; split <;> simpa [SafeP] using h

theorem safe_firstWriter : ∀ (l : List Nat) {k : Option Nat → Prog}, (∀ j ∈ l, L j) → (∀ f, (∀ m, f = some m → m ∈ l) → SafeP L (k f)) →
    SafeP L (firstWriterP l k)
  | [], k, _, hk => hk none (by simp)
  | j :: js, k, hl, hk => by
    refine ⟨hl j (by simp), fun o _ => ?_⟩
    try beta_reduce
    split
    · exact hk (some j) (by simp)
    · exact safe_firstWriter js (fun x hx => hl x (by simp [hx])) (fun f hf => hk f fun m hm => by simp [hf m hm])

theorem safe_move {m : Nat} (hm : L m) : ∀ (l : List Nat) {k : Prog}, (∀ j ∈ l, L j) → SafeP L k → SafeP L (moveP m l k)
  | [], _, _, hk => hk
  | j :: js, k, hl, hk => by
    refine ⟨hl j (by simp), fun o ho => ⟨fun x hx => ?_, ho.2⟩, hm, fun o ho => ⟨ho.1, fun x hx => ?_⟩,
      safe_move hm js (fun x hx => hl x (by simp [hx])) hk⟩
    · simp only [Option.some.injEq] at hx; exact hx ▸ hm
    · simp only [List.mem_append, List.mem_singleton] at hx
      rcases hx with hx | rfl
      · exact ho.2 x hx
      · exact hl _ (by simp)

theorem safe_swap {i n : Nat} {ty : Ty} {rest : List Nat} {k : Prog} (hi : L i) (hn : L n) (hr : ∀ j ∈ rest, L j) (hk : SafeP L k) :
    SafeP L (swapP i ty n rest k) := by
  refine safe_move hn rest hr ⟨hi, fun o ho => ⟨ho.1, by simp⟩, hn, fun o ho => ⟨by simp, ho.2⟩, hn, hi, fun o ho => ho, hk⟩

theorem safe_rawUnlock {i : Nat} (hi : L i) {loc : Bool} {k : Bool → Bool → Prog} (hk : ∀ b loc, SafeP L (k b loc)) :
    SafeP L (rawUnlockP i loc k) := by
  refine ⟨hi, fun o _ => ?_⟩
  try beta_reduce
  split
  · exact hk _ _
  refine safe_lockP ⟨hi, fun o ho => ?_⟩
  simp only
  try beta_reduce
  split
  · rename_i m e
    refine ⟨ho.1 m e, fun q hq => ⟨hq.1, fun x hx => hq.2 x (List.mem_of_mem_erase hx)⟩, hi, fun q hq => ⟨by simp, hq.2⟩,
      hi, fun q hq => hq, hk _ _⟩
  · simp only [SafeP]
    try beta_reduce
    split
    · try beta_reduce
      split
      · intro b
        try beta_reduce
        split
        · exact ⟨hi, fun q hq => hq, hk _ _⟩
        · exact ⟨hi, hk _ _⟩
      · exact ⟨hi, fun q hq => hq, hk _ _⟩
    · rename_i j js e
      simp only [refsIn, e] at ho
      refine safe_firstWriter _ ho.2 fun f hf => ?_
      try beta_reduce
      split
      · rename_i n
        exact safe_swap hi (ho.2 n (hf n rfl)) (fun x hx => ho.2 x (List.mem_of_mem_erase hx)) (hk _ _)
      · exact safe_swap hi (ho.2 _ (List.getLast_mem _)) (fun x hx => ho.2 x (List.dropLast_subset _ hx)) (hk _ _)

theorem safe_readTail {i : Nat} (hi : L i) {loc : Bool} {k : Bool → Bool → Prog} (hk : ∀ b loc, SafeP L (k b loc)) :
    SafeP L (readTailP i loc k) := by
  refine ⟨hi, fun o ho => ho, hi, fun f hf => ?_⟩
  try beta_reduce
  split
  · rename_i m
    have hm := hf m rfl
    refine ⟨hm, fun q _ => ⟨hi, fun o ho => ⟨fun x hx => ?_, ho.2⟩, hm, fun o ho => ⟨ho.1, fun x hx => ?_⟩, hk _ _⟩⟩
    · simp only [Option.some.injEq] at hx; exact hx ▸ hm
    · simp only [List.mem_append, List.mem_singleton] at hx
      rcases hx with hx | rfl
      · exact ho.2 x hx
      · exact hi
  · refine ⟨hi, safe_unlockP ⟨hi, fun o _ b => ?_⟩⟩
    try beta_reduce
    split
    · exact ⟨hi, fun q hq => hq, hk _ _⟩
    · exact ⟨hi, fun q hq => hq, hk _ _⟩

theorem safe_rawReadLock {i : Nat} (hi : L i) {loc : Bool} {k : Bool → Bool → Prog} (hk : ∀ b loc, SafeP L (k b loc)) :
    SafeP L (rawReadLockP i loc k) := by
  refine ⟨hi, fun o _ => ?_⟩
  try beta_reduce
  split
  · exact hk _ _
  refine safe_lockP ⟨hi, fun o _ => ?_⟩
  try beta_reduce
  split
  · refine safe_rawUnlock hi fun b loc => ?_
    try beta_reduce
    split
    · exact safe_readTail hi hk
    · exact hk _ _
  · exact safe_readTail hi hk

theorem safe_takeReaders {i : Nat} (hi : L i) : ∀ (l : List Nat) {k : Prog}, (∀ j ∈ l, L j) → SafeP L k → SafeP L (takeReadersP i l k)
  | [], _, _, hk => hk
  | j :: js, k, hl, hk => by
    have hj := hl j (by simp)
    refine ⟨hj, fun o ho => ?_⟩
    have hrest : SafeP L (Prog.upd j (fun q => { q with hasLocker := false, locked := true, master := some i }) <|
      .upd i (fun q => { q with pend := q.pend ++ [j] }) <|
      moveP i o.pend <|
      .upd j (fun q => { q with pend := [] }) <|
      takeReadersP i js k) := by
      refine ⟨hj, fun q hq => ⟨fun x hx => ?_, hq.2⟩, hi, fun q hq => ⟨hq.1, fun x hx => ?_⟩,
        safe_move hi _ ho.2 ⟨hj, fun q hq => ⟨hq.1, by simp⟩, safe_takeReaders hi js (fun x hx => hl x (by simp [hx])) hk⟩⟩
      · simp only [Option.some.injEq] at hx; exact hx ▸ hi
      · simp only [List.mem_append, List.mem_singleton] at hx
        rcases hx with hx | rfl
        · exact hq.2 x hx
        · exact hj
    simp only
    try beta_reduce
    split
    · exact fun _ => hrest
    · exact hrest

theorem safe_relock : ∀ (l : List Nat) {k : Prog}, (∀ j ∈ l, L j) → SafeP L k → SafeP L (relockP l k)
  | [], _, _, hk => hk
  | j :: js, k, hl, hk => by
    have hj := hl j (by simp)
    refine ⟨hj, fun q hq => ⟨by simp, hq.2⟩, hj, fun o _ => ?_⟩
    try beta_reduce
    split
    · exact safe_relock js (fun x hx => hl x (by simp [hx])) hk
    · trivial

theorem safe_writeTail {i : Nat} (hi : L i) {loc : Bool} {k : Bool → Bool → Prog} (hk : ∀ b loc, SafeP L (k b loc)) :
    SafeP L (writeTailP i loc k) := by
  refine ⟨hi, fun o ho => ho, hi, fun f l hf hl => ?_⟩
  try beta_reduce
  split
  · rename_i m
    have hm := hf m rfl
    refine ⟨hi, fun o ho => ⟨fun x hx => ?_, ho.2⟩, hm, fun o ho => ⟨ho.1, fun x hx => ?_⟩, hk _ _⟩
    · simp only [Option.some.injEq] at hx; exact hx ▸ hm
    · simp only [List.mem_append, List.mem_singleton] at hx
      rcases hx with hx | rfl
      · exact ho.2 x hx
      · exact hi
  · refine ⟨hi, safe_unlockP (safe_takeReaders hi _ hl ⟨hi, fun o _ b => ?_⟩)⟩
    try beta_reduce
    split
    · exact ⟨hi, fun q hq => hq, hk _ _⟩
    · exact ⟨hi, fun o ho => safe_relock _ ho.2 ⟨hi, fun q hq => ⟨hq.1, by simp⟩, hk _ _⟩⟩

theorem safe_rawWriteLock {i : Nat} (hi : L i) {loc : Bool} {k : Bool → Bool → Prog} (hk : ∀ b loc, SafeP L (k b loc)) :
    SafeP L (rawWriteLockP i loc k) := by
  refine ⟨hi, fun o ho => ?_⟩
  try beta_reduce
  split
  · exact hk _ _
  have hslow : SafeP L (lockP loc <|
      .look i fun o =>
      if o.ty = .read ∧ o.locked = true then
        rawUnlockP i true fun b loc => if b then writeTailP i loc k else k false loc
      else writeTailP i true k) := by
    refine safe_lockP ⟨hi, fun o _ => ?_⟩
    try beta_reduce
    split
    · refine safe_rawUnlock hi fun b loc => ?_
      try beta_reduce
      split
      · exact safe_writeTail hi hk
      · exact hk _ _
    · exact safe_writeTail hi hk
  simp only
  try beta_reduce
  split
  · unfold masterWritesP
    try beta_reduce
    split
    · rename_i m e
      refine ⟨ho.1 m e, fun q _ => ?_⟩
      try beta_reduce
      split
      · exact ⟨hi, fun q hq => hq, hk _ _⟩
      · exact hslow
    · simpa using hslow
  · exact hslow

theorem safe_finish (b loc : Bool) : SafeP L (finishP b loc) := safe_unlockP trivial

theorem safe_call {op : Op} {i : Nat} (hi : L i) (ho : match op with
    | .readLock j => j = i | .writeLock j => j = i | .lock j => j = i | .lockAt j _ _ => j = i | .unlock j => j = i) :
    SafeP L (callP op) := by
  cases op <;> simp only at ho <;> subst ho
  · exact safe_rawReadLock hi safe_finish
  · exact safe_rawWriteLock hi safe_finish
  · refine ⟨hi, fun o _ => ?_⟩
    try beta_reduce
    split
    · exact safe_rawReadLock hi safe_finish
    · exact safe_rawWriteLock hi safe_finish
    · trivial
  · rename_i y w
    refine safe_rawUnlock (k := fun b loc =>
      if b then
        .upd _ (fun o => { o with rng := { y with tid := o.rng.tid }, ty := if w then .read else .write }) <|
        if w then rawReadLockP _ loc finishP else rawWriteLockP _ loc finishP
      else finishP false loc) hi fun b loc => ?_
    try beta_reduce
    split
    · refine ⟨hi, fun o ho => ho, ?_⟩
      try beta_reduce
      split
      · exact safe_rawReadLock hi safe_finish
      · exact safe_rawWriteLock hi safe_finish
    · exact safe_finish _ _
  · exact safe_rawUnlock hi safe_finish

theorem scanW_sub (s : State) (i : Nat) : ∀ (l : List Nat), (∀ m, (scanW s i l).1 = some m → m ∈ l ∧ Rcsv.compare (s.obj i).rng (s.obj m).rng = true) ∧
    (∀ j ∈ (scanW s i l).2.1, j ∈ l)
  | [] => by simp [scanW]
  | j :: js => by
    obtain ⟨h1, h2⟩ := scanW_sub s i js
    unfold scanW
    try beta_reduce
    split
    · rename_i hc
      try beta_reduce
      split
      · exact ⟨fun m hm => ⟨by simp [(h1 m hm).1], (h1 m hm).2⟩, fun x hx => by simp [h2 x hx]⟩
      · refine ⟨fun m hm => ?_, fun x hx => hx⟩
        simp only [Option.some.injEq] at hm
        subst hm; exact ⟨by simp, hc⟩
      · refine ⟨fun m hm => ⟨by simp [(h1 m hm).1], (h1 m hm).2⟩, fun x hx => ?_⟩
        simp only [List.mem_cons] at hx ⊢
        exact hx.imp id (h2 x)
    · refine ⟨fun m hm => ⟨by simp [(h1 m hm).1], (h1 m hm).2⟩, fun x hx => ?_⟩
      simp only [List.mem_cons] at hx ⊢
      exact hx.imp id (h2 x)

theorem compare_tid {a b : Rng} (h : Rcsv.compare a b = true) : b.tid = a.tid := by
  unfold Rcsv.compare at h
  split at h
  · rename_i hc; exact hc.1.symm
  · cases h

end Fullock.Proofs.RcsvLife
