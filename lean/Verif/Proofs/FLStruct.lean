import Verif.Model.FileLock
import Verif.Proofs.Range
import Mathlib.Data.List.Nodup
import Mathlib.Tactic.SplitIfs
import Mathlib.Tactic.Tauto
/-! Invariants of the tables, preserved by every action that meets its precondition. -/
namespace Fullock.FL

@[simp] theorem fset_same {α β : Type} [DecidableEq α] (f : α → β) (a : α) (b : β) :
    fset f a b a = b := by simp [fset]

theorem fset_other {α β : Type} [DecidableEq α] (f : α → β) {a x : α} (b : β) (h : x ≠ a) :
    fset f a b x = f x := by simp [fset, h]

theorem lkset (L : Nat → Mode → List Nat) (o : Nat) (md : Mode) (v : List Nat) (z : Nat)
    (md' : Mode) : fset L o (fset (L o) md v) z md' = if z = o ∧ md' = md then v else L z md' := by
  by_cases h : z = o
  · subst h
    by_cases h2 : md' = md
    · subst h2; simp
    · simp [fset_other _ _ h2, h2]
  · simp [fset_other _ _ h, h]

theorem cmpKey_eq (a b : DevIno) : (cmpKey a b == 0) = true ↔ a = b := by
  unfold cmpKey
  obtain ⟨a1, a2⟩ := a
  obtain ⟨b1, b2⟩ := b
  simp only [BitVec.ult, decide_eq_true_eq, Prod.mk.injEq, beq_iff_eq]
  constructor
  · intro h
    constructor
    · apply BitVec.eq_of_toNat_eq; split_ifs at h <;> omega
    · apply BitVec.eq_of_toNat_eq; split_ifs at h <;> omega
  · rintro ⟨rfl, rfl⟩; simp

theorem cmpLocker_eq (t1 : Nat) (f1 : Int) (l1 : Bool) (t2 : Nat) (f2 : Int) (l2 : Bool) :
    (cmpLocker t1 f1 l1 t2 f2 l2 == 0) = true ↔ t1 = t2 ∧ f1 = f2 ∧ l1 = l2 := by
  unfold cmpLocker
  simp only [beq_iff_eq]
  constructor
  · intro h
    split_ifs at h <;> first | (exfalso; omega) | (refine ⟨by omega, by omega, ?_⟩; simp_all)
  · rintro ⟨rfl, rfl, rfl⟩
    cases l1 <;> simp

theorem findFile_some {m : Mem} {k : DevIno} {f : Nat} (h : findFile m k = some f) :
    f ∈ m.files ∧ m.key f = k := by
  have h1 := List.mem_of_find?_eq_some h
  have h2 := List.find?_some h
  exact ⟨h1, ((cmpKey_eq _ _).mp h2).symm⟩

theorem findFile_none {m : Mem} {k : DevIno} (h : findFile m k = none) :
    ∀ f ∈ m.files, m.key f ≠ k := by
  intro f hf he
  unfold findFile at h
  rw [List.find?_eq_none] at h
  exact h f hf ((cmpKey_eq _ _).mpr he.symm)

theorem findOff_some {m : Mem} {f : Nat} {r : Rng} {o : Nat} (h : findOff m f r = some o) :
    o ∈ m.offs f ∧ hits r (m.rng o) = true :=
  ⟨List.mem_of_find?_eq_some h, List.find?_some (p := fun o => hits r (m.rng o)) h⟩

theorem findOff_none {m : Mem} {f : Nat} {r : Rng} (h : findOff m f r = none) :
    ∀ o ∈ m.offs f, hits r (m.rng o) ≠ true := by
  intro o ho
  unfold findOff at h
  rw [List.find?_eq_none] at h
  exact h o ho

theorem findLk_some {m : Mem} {o : Nat} {md : Mode} {t : Nat} {fd : Int} {b : Bool} {l : Nat}
    (h : findLk m o md t fd b = some l) :
    l ∈ m.lks o md ∧ m.ltid l = t ∧ m.lfd l = fd ∧ m.locked l = b := by
  have h1 := List.mem_of_find?_eq_some h
  have h2 := List.find?_some h
  obtain ⟨a, b, c⟩ := (cmpLocker_eq _ _ _ _ _ _).mp h2
  exact ⟨h1, a.symm, b.symm, c.symm⟩

theorem findLk_none {m : Mem} {o : Nat} {md : Mode} {t : Nat} {fd : Int} {b : Bool}
    (h : findLk m o md t fd b = none) :
    ∀ l ∈ m.lks o md, ¬ (m.ltid l = t ∧ m.lfd l = fd ∧ m.locked l = b) := by
  intro l hl hc
  unfold findLk at h
  rw [List.find?_eq_none] at h
  exact h l hl ((cmpLocker_eq _ _ _ _ _ _).mpr ⟨hc.1.symm, hc.2.1.symm, hc.2.2.symm⟩)

theorem oLocked_false {m : Mem} {o : Nat} (h : oLocked m o = false) : ∀ md, m.lks o md = [] := by
  simp [oLocked] at h
  intro md
  cases md
  · exact h.1.2
  · exact h.2

theorem fLocked_false {m : Mem} {f : Nat} (h : fLocked m f = false) :
    ∀ o ∈ m.offs f, ∀ md, m.lks o md = [] := by
  intro o ho
  simp only [fLocked, Bool.or_eq_false_iff, List.any_eq_false] at h
  exact oLocked_false (by simpa using h.2 o ho)

/-- Number of lockers of a record whose word update has been done. -/
def cnt (m : Mem) (o : Nat) (md : Mode) : Nat := (m.lks o md).countP m.taken

/-- The lock word covers the counted lockers. -/
def WordOK (m : Mem) (o : Nat) : Prop :=
  -1 ≤ m.word o ∧ (m.word o = -1 → cnt m o .rd = 0 ∧ cnt m o .wr ≤ 1) ∧
    (0 ≤ m.word o → cnt m o .wr = 0 ∧ (cnt m o .rd : Int) ≤ m.word o)

/-- Structural invariants. -/
structure SOK (m : Mem) : Prop where
  filesNd : m.files.Nodup
  ffreeNd : m.ffree.Nodup
  fdisj : ∀ f ∈ m.ffree, f ∉ m.files
  keys : ∀ f ∈ m.files, ∀ f' ∈ m.files, m.key f = m.key f' → f = f'
  offsNd : ∀ f, (m.offs f).Nodup
  offsDisj : ∀ f f' o, o ∈ m.offs f → o ∈ m.offs f' → f = f'
  ofreeNd : m.ofree.Nodup
  odisj : ∀ o ∈ m.ofree, ∀ f, o ∉ m.offs f
  lksNd : ∀ o md, (m.lks o md).Nodup
  lksDisj : ∀ o md o' md' l, l ∈ m.lks o md → l ∈ m.lks o' md' → o = o' ∧ md = md'
  lfreeNd : m.lfree.Nodup
  ldisj : ∀ l ∈ m.lfree, ∀ o md, l ∉ m.lks o md
  sep : ∀ f, ∀ o ∈ m.offs f, ∀ o' ∈ m.offs f, hits (m.rng o) (m.rng o') = true → o = o'

/-- The counts when locker `l` is no longer counted. -/
def cntWithout (m : Mem) (o : Nat) (md : Mode) (l : Nat) : Nat :=
  (m.lks o md).countP (fset m.taken l false)

/-- Preconditions of the actions. -/
def Pre (m : Mem) : Act → Prop
  | .iniF f _ => f ∉ m.files
  | .insF f => f ∉ m.files ∧ f ∉ m.ffree ∧ (∀ f' ∈ m.files, m.key f' ≠ m.key f) ∧ m.offs f = []
  | .insO f o r => o ∉ m.ofree ∧ (∀ f', o ∉ m.offs f') ∧ ∀ o' ∈ m.offs f, hits r (m.rng o') ≠ true
  | .insL _ _ l _ _ => l ∉ m.lfree ∧ ∀ o md, l ∉ m.lks o md
  | .pushL l => l ∉ m.lfree ∧ ∀ o md, l ∉ m.lks o md
  | .cutO _ o => ∀ md, m.lks o md = []
  | .pushO o => o ∉ m.ofree ∧ ∀ f, o ∉ m.offs f
  | .drainO f => ∀ o ∈ m.offs f, ∀ md, m.lks o md = []
  | .cutF f => ∀ o ∈ m.offs f, ∀ md, m.lks o md = []
  | .pushF f => f ∉ m.ffree ∧ f ∉ m.files
  | _ => True

/-- Preconditions of the two actions on lock words. -/
def PreW (m : Mem) : Act → Prop
  | .take o md l => canTake (m.word o) md = true ∧ m.taken l = false ∧ l ∈ m.lks o md
  | .unl o l => (m.word o = -1 → cntWithout m o .wr l = 0) ∧
      (0 < m.word o → (cntWithout m o .rd l : Int) ≤ m.word o - 1)
  | _ => True

theorem countP_mono {α} {p q : α → Bool} (l : List α) (h : ∀ x ∈ l, p x = true → q x = true) :
    l.countP p ≤ l.countP q := List.countP_mono_left h

theorem countP_fset_notin (l : List Nat) (p : Nat → Bool) (x : Nat) (b : Bool) (h : x ∉ l) :
    l.countP (fset p x b) = l.countP p := by
  apply List.countP_congr
  intro y hy
  rw [fset_other _ _ (ne_of_mem_of_not_mem hy h)]

theorem countP_fset_true (l : List Nat) (p : Nat → Bool) (x : Nat) (hn : l.Nodup) (hx : x ∈ l)
    (hp : p x = false) : l.countP (fset p x true) = l.countP p + 1 := by
  induction l with
  | nil => simp at hx
  | cons a t ih =>
    rw [List.nodup_cons] at hn
    simp only [List.mem_cons] at hx
    by_cases h : a = x
    · subst h
      rw [List.countP_cons, List.countP_cons, countP_fset_notin t p a true hn.1]
      simp [hp]
    · have hx' : x ∈ t := by rcases hx with h' | h' <;> [exact absurd h'.symm h; exact h']
      rw [List.countP_cons, List.countP_cons, ih hn.2 hx', fset_other _ _ h]
      omega

theorem countP_fset_false (l : List Nat) (p : Nat → Bool) (x : Nat) (hn : l.Nodup) (hx : x ∈ l)
    (hp : p x = true) : l.countP (fset p x false) + 1 = l.countP p := by
  induction l with
  | nil => simp at hx
  | cons a t ih =>
    rw [List.nodup_cons] at hn
    simp only [List.mem_cons] at hx
    by_cases h : a = x
    · subst h
      rw [List.countP_cons, List.countP_cons, countP_fset_notin t p a false hn.1]
      simp [hp]
    · have hx' : x ∈ t := by rcases hx with h' | h' <;> [exact absurd h'.symm h; exact h']
      rw [List.countP_cons, List.countP_cons, fset_other _ _ h]
      have := ih hn.2 hx'
      omega

theorem countP_fset_le (l : List Nat) (p : Nat → Bool) (x : Nat) :
    l.countP (fset p x false) ≤ l.countP p := by
  apply countP_mono
  intro y _ hy
  by_cases h : y = x
  · subst h; simp at hy
  · rwa [fset_other _ _ h] at hy

theorem wordOK_mono {m m' : Mem} {o : Nat} (hw : m'.word o = m.word o)
    (hc : ∀ md, cnt m' o md ≤ cnt m o md) (h : WordOK m o) : WordOK m' o := by
  obtain ⟨h1, h2, h3⟩ := h
  have hr := hc .rd
  have hwr := hc .wr
  unfold WordOK
  rw [hw]
  exact ⟨h1, fun e => by have := h2 e; omega, fun e => by have := h3 e; omega⟩

theorem mem_tail {α} {l : List α} {x : α} (h : x ∈ l.tail) : x ∈ l := List.mem_of_mem_tail h

theorem act_sok {m : Mem} (h : SOK m) {a : Act} (hp : Pre m a) : SOK (m.act a) := by
  cases a with
  | popF =>
    exact { h with
      ffreeNd := List.Nodup.tail h.ffreeNd
      fdisj := fun f hf => h.fdisj f (mem_tail hf) }
  | popO =>
    exact { h with
      ofreeNd := List.Nodup.tail h.ofreeNd
      odisj := fun f hf => h.odisj f (mem_tail hf) }
  | popL =>
    exact { h with
      lfreeNd := List.Nodup.tail h.lfreeNd
      ldisj := fun f hf => h.ldisj f (mem_tail hf) }
  | insF f =>
    obtain ⟨hp1, hp2, hp3, _⟩ := hp
    refine { h with filesNd := ?_, fdisj := ?_, keys := ?_ }
    · exact List.nodup_cons.mpr ⟨hp1, h.filesNd⟩
    · intro x hx hm
      simp only [Mem.act, List.mem_cons] at hm hx
      rcases hm with rfl | hm
      · exact hp2 hx
      · exact h.fdisj x hx hm
    · intro x hx y hy he
      simp only [Mem.act, List.mem_cons] at hx hy he
      rcases hx with rfl | hx <;> rcases hy with rfl | hy
      · rfl
      · exact absurd he.symm (hp3 y hy)
      · exact absurd he (hp3 x hx)
      · exact h.keys x hx y hy he
  | iniF f k =>
    have hp1 : f ∉ m.files := hp
    refine { h with keys := ?_, offsNd := ?_, offsDisj := ?_, odisj := ?_, sep := ?_ }
    · intro x hx y hy he
      have hx : x ∈ m.files := hx
      have hy : y ∈ m.files := hy
      simp only [Mem.act, fset] at he
      rw [if_neg (ne_of_mem_of_not_mem hx (hp1)), if_neg (ne_of_mem_of_not_mem hy (hp1))] at he
      exact h.keys x hx y hy he
    · intro x
      simp only [Mem.act, fset]; split
      · simp
      · exact h.offsNd x
    · intro x y o hx hy
      simp only [Mem.act, fset] at hx hy
      split at hx <;> split at hy <;> first | exact h.offsDisj x y o hx hy | (simp at hx; done) | simp at hy
    · intro o ho x hx
      simp only [Mem.act, fset] at hx
      split at hx <;> first | exact h.odisj o ho x hx | simp at hx
    · intro x o ho o' ho' hh
      simp only [Mem.act, fset] at ho ho'
      split at ho
      · simp at ho
      · rename_i e
        rw [if_neg e] at ho'
        exact h.sep x o ho o' ho' hh
  | insO f o r =>
    obtain ⟨hp1, hp2, hp3⟩ := hp
    have hmem : ∀ x y, y ∈ (m.act (.insO f o r)).offs x ↔ (x = f ∧ y = o) ∨ y ∈ m.offs x := by
      intro x y
      simp only [Mem.act, fset]
      split
      · rename_i e; subst e; simp
      · rename_i e; simp [e]
    refine { h with offsNd := ?_, offsDisj := ?_, odisj := ?_, lksNd := ?_, lksDisj := ?_, ldisj := ?_, sep := ?_ }
    · intro x
      simp only [Mem.act, fset]; split
      · exact List.nodup_cons.mpr ⟨hp2 f, h.offsNd f⟩
      · exact h.offsNd x
    · intro x y z hx hy
      rw [hmem] at hx hy
      rcases hx with ⟨rfl, rfl⟩ | hx <;> rcases hy with ⟨rfl, h2⟩ | hy
      · rfl
      · exact absurd hy (hp2 y)
      · exact absurd (h2 ▸ hx) (hp2 x)
      · exact h.offsDisj x y z hx hy
    · intro z hz x hx
      rw [hmem] at hx
      rcases hx with ⟨rfl, rfl⟩ | hx
      · exact hp1 hz
      · exact h.odisj z hz x hx
    · intro z md
      simp only [Mem.act, fset]; split
      · simp
      · exact h.lksNd z md
    · intro z md z' md' l h1 h2
      simp only [Mem.act, fset] at h1 h2
      split at h1 <;> split at h2 <;> first | exact h.lksDisj z md z' md' l h1 h2 | (simp at h1; done) | simp at h2
    · intro l hl z md h1
      simp only [Mem.act, fset] at h1
      split at h1 <;> first | exact h.ldisj l hl z md h1 | simp at h1
    · intro x y hy z hz hh
      rw [hmem] at hy hz
      simp only [Mem.act, fset] at hh
      rcases hy with ⟨e1, e2⟩ | hy <;> rcases hz with ⟨e3, e4⟩ | hz
      · rw [e2, e4]
      · subst e1; subst e2
        rw [if_pos rfl, if_neg (ne_of_mem_of_not_mem hz (hp2 x))] at hh
        exact absurd hh (hp3 z hz)
      · subst e3; subst e4
        rw [if_pos rfl, if_neg (ne_of_mem_of_not_mem hy (hp2 x)), hits_symm] at hh
        exact absurd hh (hp3 y hy)
      · rw [if_neg (ne_of_mem_of_not_mem hy (hp2 x)), if_neg (ne_of_mem_of_not_mem hz (hp2 x))] at hh
        exact h.sep x y hy z hz hh
  | insL o md l t fd =>
    obtain ⟨hp1, hp2⟩ := hp
    have hmem : ∀ z md' x, x ∈ (m.act (.insL o md l t fd)).lks z md' ↔
        (z = o ∧ md' = md ∧ x = l) ∨ x ∈ m.lks z md' := by
      intro z md' x
      simp only [Mem.act, lkset]
      split
      · rename_i e; obtain ⟨rfl, rfl⟩ := e; simp
      · rename_i e; constructor
        · exact Or.inr
        · rintro (⟨rfl, rfl, rfl⟩ | h')
          · exact absurd ⟨rfl, rfl⟩ e
          · exact h'
    refine { h with lksNd := ?_, lksDisj := ?_, ldisj := ?_ }
    · intro z md'
      simp only [Mem.act, lkset]
      split
      · exact List.nodup_cons.mpr ⟨hp2 o md, h.lksNd o md⟩
      · exact h.lksNd z md'
    · intro z md1 z' md2 x h1 h2
      rw [hmem] at h1 h2
      rcases h1 with ⟨rfl, rfl, rfl⟩ | h1 <;> rcases h2 with ⟨rfl, rfl, e⟩ | h2
      · exact ⟨rfl, rfl⟩
      · exact absurd h2 (hp2 _ _)
      · exact absurd (e ▸ h1) (hp2 _ _)
      · exact h.lksDisj z md1 z' md2 x h1 h2
    · intro x hx z md' h1
      rw [hmem] at h1
      rcases h1 with ⟨rfl, rfl, rfl⟩ | h1
      · exact hp1 hx
      · exact h.ldisj x hx z md' h1
  | fprot f b => exact { h with }
  | oprot o b => exact { h with }
  | cutL o md l =>
    have hmem : ∀ z md' x, x ∈ (m.act (.cutL o md l)).lks z md' → x ∈ m.lks z md' := by
      intro z md' x hx
      simp only [Mem.act, lkset] at hx
      split at hx
      · rename_i e; obtain ⟨rfl, rfl⟩ := e; exact List.mem_of_mem_erase hx
      · exact hx
    refine { h with lksNd := ?_, lksDisj := ?_, ldisj := ?_ }
    · intro z md'
      simp only [Mem.act, lkset]
      split
      · exact (h.lksNd o md).erase l
      · exact h.lksNd z md'
    · intro z md1 z' md2 x h1 h2
      exact h.lksDisj z md1 z' md2 x (hmem _ _ _ h1) (hmem _ _ _ h2)
    · intro x hx z md' h1
      exact h.ldisj x hx z md' (hmem _ _ _ h1)
  | pushL l =>
    obtain ⟨hp1, hp2⟩ := hp
    exact { h with
      lfreeNd := List.nodup_cons.mpr ⟨hp1, h.lfreeNd⟩
      ldisj := fun x hx => by
        simp only [Mem.act, List.mem_cons] at hx
        rcases hx with rfl | hx
        · exact hp2
        · exact h.ldisj x hx }
  | cutO f o =>
    have hmem : ∀ x y, y ∈ (m.act (.cutO f o)).offs x → y ∈ m.offs x := by
      intro x y hy
      simp only [Mem.act, fset] at hy
      split at hy
      · rename_i e; subst e; exact List.mem_of_mem_erase hy
      · exact hy
    refine { h with offsNd := ?_, offsDisj := ?_, odisj := ?_, sep := ?_ }
    · intro x
      simp only [Mem.act, fset]; split
      · exact (h.offsNd f).erase o
      · exact h.offsNd x
    · intro x y z hx hy
      exact h.offsDisj x y z (hmem _ _ hx) (hmem _ _ hy)
    · intro z hz x hx
      exact h.odisj z hz x (hmem _ _ hx)
    · intro x y hy z hz hh
      exact h.sep x y (hmem _ _ hy) z (hmem _ _ hz) hh
  | pushO o =>
    obtain ⟨hp1, hp2⟩ := hp
    exact { h with
      ofreeNd := List.nodup_cons.mpr ⟨hp1, h.ofreeNd⟩
      odisj := fun x hx => by
        simp only [Mem.act, List.mem_cons] at hx
        rcases hx with rfl | hx
        · exact hp2
        · exact h.odisj x hx }
  | drainO f =>
    have hp' : ∀ o ∈ m.offs f, ∀ md, m.lks o md = [] := hp
    have hlk : (m.act (.drainO f)).lks = m.lks := by
      funext o md
      simp only [Mem.act]
      split
      · rename_i e; exact (hp' o e md).symm
      · rfl
    have hlf : (m.act (.drainO f)).lfree = m.lfree := by
      have : ((m.offs f).map fun o => (m.lks o .wr).reverse ++ (m.lks o .rd).reverse).reverse.flatten
          = [] := by
        rw [List.flatten_eq_nil_iff]
        intro l hl
        rw [List.mem_reverse, List.mem_map] at hl
        obtain ⟨o, ho, rfl⟩ := hl
        simp [hp' o ho]
      simp only [Mem.act, this, List.nil_append]
    have hmem : ∀ x y, y ∈ (m.act (.drainO f)).offs x ↔ x ≠ f ∧ y ∈ m.offs x := by
      intro x y
      simp only [Mem.act, fset]
      split
      · rename_i e; simp [e]
      · rename_i e; simp [e]
    refine ⟨h.filesNd, h.ffreeNd, h.fdisj, h.keys, ?_, ?_, ?_, ?_, ?_, ?_, ?_, ?_, ?_⟩
    · intro x
      simp only [Mem.act, fset]; split
      · simp
      · exact h.offsNd x
    · intro x y z hx hy
      rw [hmem] at hx hy
      exact h.offsDisj x y z hx.2 hy.2
    · show ((m.offs f).reverse ++ m.ofree).Nodup
      rw [List.nodup_append]
      refine ⟨List.nodup_reverse.mpr (h.offsNd f), h.ofreeNd, ?_⟩
      intro x hx y hy e
      subst e
      exact h.odisj x hy f (List.mem_reverse.mp hx)
    · intro z hz x hx
      rw [hmem] at hx
      simp only [Mem.act, List.mem_append, List.mem_reverse] at hz
      rcases hz with hz | hz
      · exact hx.1 (h.offsDisj _ _ z hx.2 hz)
      · exact h.odisj z hz x hx.2
    · rw [hlk]; exact h.lksNd
    · rw [hlk]; exact h.lksDisj
    · rw [hlf]; exact h.lfreeNd
    · rw [hlf, hlk]; exact h.ldisj
    · intro x y hy z hz hh
      rw [hmem] at hy hz
      exact h.sep x y hy.2 z hz.2 hh
  | cutF f =>
    exact { h with
      filesNd := h.filesNd.erase f
      fdisj := fun x hx hm => h.fdisj x hx (List.mem_of_mem_erase hm)
      keys := fun x hx y hy => h.keys x (List.mem_of_mem_erase hx) y (List.mem_of_mem_erase hy) }
  | pushF f =>
    obtain ⟨hp1, hp2⟩ := hp
    exact { h with
      ffreeNd := List.nodup_cons.mpr ⟨hp1, h.ffreeNd⟩
      fdisj := fun x hx => by
        simp only [Mem.act, List.mem_cons] at hx
        rcases hx with rfl | hx
        · exact hp2
        · exact h.fdisj x hx }
  | take o md l => exact { h with }
  | unl o l => exact { h with }
  | flag l hh => exact { h with }
  | unflag l => exact { h with }


/-- A drained file record has no lockers below it, so nothing changes in the locker lists. -/
theorem drain_lks {m : Mem} {f : Nat} (hp' : ∀ o ∈ m.offs f, ∀ md, m.lks o md = []) :
    (m.act (.drainO f)).lks = m.lks := by
  funext o md
  simp only [Mem.act]
  split
  · rename_i e; exact (hp' o e md).symm
  · rfl

theorem act_word {m : Mem} (h : SOK m) (hwd : ∀ o, WordOK m o) {a : Act} (hp : Pre m a)
    (hpw : PreW m a) : ∀ o, WordOK (m.act a) o := by
  cases a with
  | insO f o r =>
    intro z
    by_cases e : z = o
    · subst e
      simp [WordOK, cnt, Mem.act]
    · have := hwd z
      simpa [WordOK, cnt, Mem.act, fset_other _ _ e] using this
  | insL o md l t fd =>
    obtain ⟨hp1, hp2⟩ := hp
    intro z
    refine wordOK_mono (m := m) (by rfl) ?_ (hwd z)
    intro md'
    simp only [cnt, Mem.act, lkset]
    split
    · rename_i e; obtain ⟨rfl, rfl⟩ := e
      simp only [List.countP_cons]
      rw [countP_fset_notin _ _ _ _ (hp2 _ _)]
      simp
    · rw [countP_fset_notin _ _ _ _ (hp2 _ _)]
      exact Nat.le_refl _
  | cutL o md l =>
    intro z
    refine wordOK_mono (m := m) (by rfl) ?_ (hwd z)
    intro md'
    simp only [cnt, Mem.act, lkset]
    split
    · rename_i e; obtain ⟨rfl, rfl⟩ := e
      exact List.Sublist.countP_le List.erase_sublist
    · exact Nat.le_refl _
  | drainO f =>
    have hlk := drain_lks (m := m) (f := f) hp
    intro z
    have := hwd z
    unfold WordOK cnt at this ⊢
    rw [hlk]
    exact this
  | take o md l =>
    obtain ⟨hp1, hp2, hp3⟩ := hpw
    intro z
    by_cases e : z = o
    · subst e
      have hw := hwd z
      obtain ⟨w1, w2, w3⟩ := hw
      have hoth : ∀ md', md' ≠ md → cnt (m.act (.take z md l)) z md' = cnt m z md' := by
        intro md' hne
        simp only [cnt, Mem.act]
        exact countP_fset_notin _ _ _ _ (fun hm => hne (h.lksDisj _ _ _ _ _ hm hp3).2)
      have hsame : cnt (m.act (.take z md l)) z md = cnt m z md + 1 := by
        simp only [cnt, Mem.act]
        exact countP_fset_true _ _ _ (h.lksNd z md) hp3 hp2
      cases md with
      | rd =>
        have h0 : 0 ≤ m.word z := by simpa [canTake] using hp1
        have := hoth .wr (by simp)
        have hw' : (m.act (.take z .rd l)).word z = m.word z + 1 := by simp [Mem.act, takeWord]
        unfold WordOK
        rw [hw', this, hsame]
        have := w3 h0
        omega
      | wr =>
        have h0 : m.word z = 0 := by simpa [canTake] using hp1
        have := hoth .rd (by simp)
        have hw' : (m.act (.take z .wr l)).word z = -1 := by simp [Mem.act, takeWord]
        unfold WordOK
        rw [hw', this, hsame]
        have := w3 (by omega)
        omega
    · apply wordOK_mono (m := m) (by simp [Mem.act, fset_other _ _ e]) ?_ (hwd z)
      intro md'
      simp only [cnt, Mem.act]
      rw [countP_fset_notin _ _ _ _ (fun hm => e (h.lksDisj _ _ _ _ _ hm hp3).1)]
      exact Nat.le_refl _
  | unl o l =>
    obtain ⟨hp1, hp2⟩ := hpw
    intro z
    by_cases e : z = o
    · subst e
      obtain ⟨w1, w2, w3⟩ := hwd z
      have hle : ∀ md, cntWithout m z md l ≤ cnt m z md := fun md => countP_fset_le _ _ _
      have hr := hle .rd
      have hwr := hle .wr
      have hcr : cnt (m.act (.unl z l)) z .rd = cntWithout m z .rd l := rfl
      have hcw : cnt (m.act (.unl z l)) z .wr = cntWithout m z .wr l := rfl
      have hw' : (m.act (.unl z l)).word z = unlockWord (m.word z) := by simp [Mem.act]
      unfold WordOK
      rw [hw', hcr, hcw]
      unfold unlockWord
      by_cases h0 : m.word z = 0
      · have := w3 (by omega)
        simp [h0]; omega
      · by_cases h1 : m.word z ≤ -1
        · have h2 : m.word z = -1 := by omega
          have := w2 h2
          have := hp1 h2
          simp [h2]; omega
        · have := w3 (by omega)
          have := hp2 (by omega)
          rw [if_neg h0, if_neg h1]
          omega
    · apply wordOK_mono (m := m) (by simp [Mem.act, fset_other _ _ e]) ?_ (hwd z)
      intro md'
      exact countP_fset_le _ _ _
  | _ => exact hwd

end Fullock.FL
