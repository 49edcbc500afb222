import Verif.Proofs.Ids
/-! C49 thread identity, C51 identity after fork. -/
namespace Fullock.Props

/-- C49.  The 64-bit identity decomposes into exactly the pair it was composed from, different
pairs have different identities, every 64-bit value is the identity of the pair it decomposes
into, and the identity of a thread of a real process (pid ≠ 0) is never the free marker 0. -/
theorem C49_identity (p t p' t' : BitVec 32) (id : FlckPid) :
    (decomposePid (composeFlckpid p t) = p ∧ decomposeTid (composeFlckpid p t) = t) ∧
    (composeFlckpid p t = composeFlckpid p' t' ↔ p = p' ∧ t = t') ∧
    composeFlckpid (decomposePid id) (decomposeTid id) = id ∧
    (p ≠ 0#32 → composeFlckpid p t ≠ 0#64) := by
  refine ⟨⟨decomposePid_compose p t, decomposeTid_compose p t⟩, ⟨?_, ?_⟩, compose_decompose id, ?_⟩
  · intro h
    have h1 := congrArg decomposePid h
    have h2 := congrArg decomposeTid h
    simp only [decomposePid_compose, decomposeTid_compose] at h1 h2
    exact ⟨h1, h2⟩
  · rintro ⟨rfl, rfl⟩; rfl
  · intro hp h
    have := congrArg decomposePid h
    rw [decomposePid_compose] at this
    apply hp; rw [this]; decide

example : composeFlckpid 1234#32 1235#32 = 5299989644499#64 := by decide

/-- The kernel's view: thread `(p, t)` exists. -/
def ThreadExists (w : List KThread) (p t : Nat) : Prop := ∃ u ∈ w, u.pid = p ∧ u.tid = t

/-- C51, full claim: in every history starting from one thread of one process, the identity under
which any live thread locks is the identity of a live thread. -/
def C51_full : Prop :=
  ∀ (key store : Bool) (pid : Nat) (evs : List WorldEv), ∀ t ∈ evs.foldl (worldStep key) [⟨pid, pid, none⟩],
    ThreadExists (evs.foldl (worldStep key) [⟨pid, pid, none⟩]) (identityOf key store t).1
      (identityOf key store t).2

/-- C51 is false: lock once in the parent (which caches the thread number), then fork. The live
child then locks as thread (101, 100), which does not exist. -/
theorem C51_not_full : ¬ C51_full := by
  intro h
  obtain ⟨u, hu, h1, h2⟩ := h true true 100 [.call 0 true, .fork 0 101] ⟨101, 101, some 100⟩ (by decide)
  revert h1 h2
  have : u = ⟨100, 100, some 100⟩ ∨ u = ⟨101, 101, some 100⟩ := by
    have e : [WorldEv.call 0 true, .fork 0 101].foldl (worldStep true) [⟨100, 100, none⟩] =
      [⟨100, 100, some 100⟩, ⟨101, 101, some 100⟩] := by decide
    rw [e] at hu; simpa using hu
  rcases this with rfl | rfl <;> decide

/-- A history in which every fork is done by a thread that has not called the library yet, or whose number
could not be stored. -/
def ForksBeforeUse (key : Bool) : List KThread → List WorldEv → Prop
  | _, [] => True
  | w, e :: es =>
    (∀ i n, e = .fork i n → ∀ t, w[i]? = some t → t.cache = none) ∧
    ForksBeforeUse key (worldStep key w e) es

/-- C51 (partial): if threads fork only before their first library call, every live thread locks
under its own identity, which exists. Missing for the full claim: forks after a library call (see
`C51_not_full`). -/
theorem C51_identity_partial (key store : Bool) (pid : Nat) (evs : List WorldEv)
    (hf : ForksBeforeUse key [⟨pid, pid, none⟩] evs) :
    ∀ t ∈ evs.foldl (worldStep key) [⟨pid, pid, none⟩], identityOf key store t = (t.pid, t.tid) ∧
      ThreadExists (evs.foldl (worldStep key) [⟨pid, pid, none⟩]) (identityOf key store t).1
        (identityOf key store t).2 := by
  have inv : ∀ (es : List WorldEv) (w : List KThread),
      (∀ t ∈ w, t.cache = none ∨ t.cache = some t.tid) → ForksBeforeUse key w es →
      ∀ t ∈ es.foldl (worldStep key) w, t.cache = none ∨ t.cache = some t.tid := by
    intro es
    induction es with
    | nil => intro w hw _; simpa using hw
    | cons e es ih =>
      intro w hw hfb
      refine ih _ ?_ hfb.2
      cases e with
      | call i st =>
        simp only [worldStep]
        split
        · exact hw
        · rename_i u hu
          intro t ht
          rcases List.mem_or_eq_of_mem_set ht with ht | rfl
          · exact hw t ht
          · have hu' := hw u (List.mem_of_getElem? hu)
            unfold getThreadid
            split
            · split
              · dsimp only
                split
                · right; rfl
                · exact hu'
              · exact hu'
            · exact hu'
      | create i n =>
        simp only [worldStep]
        split
        · exact hw
        · split
          · exact hw
          · intro t ht
            rcases List.mem_append.1 ht with ht | ht
            · exact hw t ht
            · simp at ht; subst ht; left; rfl
      | fork i n =>
        simp only [worldStep]
        split
        · exact hw
        · rename_i u hu
          split
          · exact hw
          · intro t ht
            rcases List.mem_append.1 ht with ht | ht
            · exact hw t ht
            · simp at ht; subst ht; left; exact hfb.1 i n rfl u hu
      | exit i =>
        intro t ht
        exact hw t (List.mem_of_mem_eraseIdx ht)
  intro t ht
  have hc := inv evs _ (by simp) hf t ht
  have hid : identityOf key store t = (t.pid, t.tid) := by
    unfold identityOf getThreadid
    rcases hc with hc | hc <;> rw [hc] <;> split <;> rfl
  exact ⟨hid, t, ht, by rw [hid], by rw [hid]⟩

example : ForksBeforeUse true [⟨7, 7, none⟩] [.fork 0 9, .call 0 true, .call 1 true, .create 1 10] := by
  refine ⟨?_, ?_, ?_, ?_, trivial⟩ <;> intro i n h
  · cases h; intro t ht; simp at ht; subst ht; rfl
  all_goals cases h
-- a fork after a call whose number could not be stored
example : ForksBeforeUse true [⟨7, 7, none⟩] [.call 0 false, .fork 0 9] := by
  refine ⟨?_, ?_, trivial⟩ <;> intro i n h
  · cases h
  · cases h; intro t ht; simp [worldStep, getThreadid] at ht; subst ht; rfl

/-- C51: when the system gives no key for the cache, every thread locks under its own identity, whatever
was called before the forks. -/
theorem C51_no_key (store : Bool) (pid : Nat) (evs : List WorldEv) :
    ∀ t ∈ evs.foldl (worldStep false) [⟨pid, pid, none⟩], identityOf false store t = (t.pid, t.tid) ∧
      ThreadExists (evs.foldl (worldStep false) [⟨pid, pid, none⟩]) (identityOf false store t).1
        (identityOf false store t).2 := by
  intro t ht
  have hid : identityOf false store t = (t.pid, t.tid) := rfl
  exact ⟨hid, t, ht, rfl, rfl⟩
example : (⟨9, 9, none⟩ : KThread) ∈ [WorldEv.call 0 true, .fork 0 9].foldl (worldStep false) [⟨7, 7, none⟩] := by
  decide

/-- C51: a thread that has called the library keeps the number of that call until it ends, and a thread
without a stored number gets its own. -/
theorem C51_cache (store : Bool) (t : KThread) :
    (∀ c, t.cache = some c → getThreadid true store t = (c, t)) ∧
    (t.cache = none → (getThreadid true store t).1 = t.tid ∧
      (getThreadid true store t).2.cache = (if store then some t.tid else none) ∧
      (getThreadid true store t).2.pid = t.pid ∧ (getThreadid true store t).2.tid = t.tid) := by
  constructor
  · intro c h; simp [getThreadid, h]
  · intro h; cases store <;> simp [getThreadid, h]
example : (getThreadid true true ⟨7, 8, none⟩).2 = ⟨7, 8, some 8⟩ := rfl

end Fullock.Props
