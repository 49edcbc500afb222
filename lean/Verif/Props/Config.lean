import Verif.Proofs.Str
import Verif.Model.Config
import Mathlib.Tactic.SplitIfs
/-
Property theorems about the configuration (C43-C46).
-/
namespace Fullock.Props
open Fullock Fullock.Spec

/-- The order of two words does not matter: equal up to the case of letters. -/
def sameWord (v : Str) (w : String) : Prop := v.map Char.toLower = w.toList.map Char.toLower

/-! ### C43: configuration invariants -/

theorem envLoopCnt_ge (e : Env) (r : Robust) (old : Int) (h : 50 ≤ old) : 50 ≤ envLoopCnt e r old := by
  unfold envLoopCnt chkCntMin chkCntDefault
  cases e .robustChkCnt with
  | none => simp only; split_ifs <;> omega
  | some s => simp only; split_ifs <;> omega

theorem loadEnv_loop {w : World} {e : Env} {c c' : Config} {fs fs' : Str → FStat}
    (h : loadEnv w e c fs = some (c', fs')) (hc : 50 ≤ c.loopCnt) : 50 ≤ c'.loopCnt := by
  unfold loadEnv at h
  split at h
  · simp at h
  · simp only [Option.some.injEq, Prod.mk.injEq] at h
    rw [← h.1]
    exact envLoopCnt_ge e _ _ hc

theorem initShm_cfg (w : World) (s : Proc) : (initShm w s).2.cfg = s.cfg ∧ (initShm w s).2.fs = s.fs := by
  unfold initShm; split_ifs <;> exact ⟨rfl, rfl⟩

theorem initPath_loop {w : World} {s s' : Proc} {ok : Bool} (h : initPath w s = some (ok, s')) :
    s'.cfg.loopCnt = s.cfg.loopCnt := by
  unfold initPath at h
  simp only at h
  split at h
  · simp at h
  · simp only [Option.some.injEq, Prod.mk.injEq] at h; rw [← h.2]
  · rename_i fs' _
    simp only [Option.some.injEq] at h
    have := congrArg (fun x => x.2.cfg.loopCnt) h
    simp only at this
    rw [← this, (initShm_cfg w _).1]

theorem initObject_loop {w : World} {e : Env} {b : Bool} {s s' : Proc} {ok : Bool}
    (h : initObject w e b s = some (ok, s')) (hc : 50 ≤ s.cfg.loopCnt) : 50 ≤ s'.cfg.loopCnt := by
  unfold initObject at h
  simp only at h
  split at h
  · split at h
    · simp at h
    · rename_i c fs' hl
      have hl' := loadEnv_loop hl hc
      split at h
      · simp only [Option.some.injEq, Prod.mk.injEq] at h; rw [← h.2]; exact hl'
      · rw [initPath_loop h]; exact hl'
  · rw [initPath_loop h]; exact hc

theorem reinit_loop {w : World} {e : Env} {d f : Str} {n : Pool → Nat} {s s' : Proc} {ok : Bool}
    (h : reinitObject w e d f n s = some (ok, s')) (hc : 50 ≤ s.cfg.loopCnt) : 50 ≤ s'.cfg.loopCnt := by
  unfold reinitObject at h
  split at h
  · simp only [Option.some.injEq, Prod.mk.injEq] at h; rw [← h.2]; exact hc
  · split at h
    · simp at h
    · simp only [Option.some.injEq, Prod.mk.injEq] at h; rw [← h.2]; exact hc
    · split at h
      · simp only [Option.some.injEq, Prod.mk.injEq] at h; rw [← h.2]; exact hc
      · simp only at h
        split at h
        · simp at h
        · rename_i c2 fs2 hl
          have hl' : 50 ≤ c2.loopCnt := loadEnv_loop hl hc
          generalize hd : (if d = [] then some c2.dir else match getRealPath w.cwd d with
            | .ok top => some top | _ => none) = dd at h
          cases dd with
          | none => simp at h
          | some d' => simp only at h; exact initObject_loop h hl'

theorem checkAttach_cfg (w : World) (s : Proc) : (checkAttach w s).2.cfg = s.cfg ∧
    (checkAttach w s).2.fs = s.fs := by
  unfold checkAttach
  split_ifs
  · exact ⟨rfl, rfl⟩
  · exact initShm_cfg w s
  · exact ⟨rfl, rfl⟩

theorem lockFront_state (w : World) (s : Proc) (c : LockCall) :
    (lockFront w s c).2 = s ∨ (lockFront w s c).2 = (checkAttach w s).2 := by
  unfold lockFront
  cases c with
  | file d => right; simp only; split_ifs <;> rfl
  | mutex n => cases n with
    | none => left; rfl
    | some n => right; simp only; split_ifs <;> rfl
  | cond n => cases n with
    | none => left; rfl
    | some n => right; simp only; split_ifs <;> rfl
  | isLocked d => right; simp only; split_ifs <;> rfl

theorem lockFront_cfg (w : World) (s : Proc) (c : LockCall) : (lockFront w s c).2.cfg = s.cfg := by
  rcases lockFront_state w s c with h | h
  · rw [h]
  · rw [h, (checkAttach_cfg w s).1]

theorem confStep_loop {s s' : Proc} {c : ConfCall} (h : confStep s c = some s')
    (hc : 50 ≤ s.cfg.loopCnt) : 50 ≤ s'.cfg.loopCnt := by
  cases c with
  | robustMode m =>
    simp only [confStep, setRobustMode, Option.some.injEq] at h; subst h
    simp only [chkCntMin, chkCntDefault]; split_ifs <;> omega
  | nomapMode m => simp only [confStep, setNomapMode, Option.some.injEq] at h; subst h; exact hc
  | freeUnitMode m => simp only [confStep, setFreeUnitMode, Option.some.injEq] at h; subst h; exact hc
  | loopCnt v =>
    simp only [confStep, setRobustLoopCnt, Option.some.injEq] at h; subst h
    by_cases h1 : s.cfg.robust ≠ .high
    · simp only [if_pos h1]; exact hc
    · by_cases h2 : v < chkCntMin
      · simp only [if_neg h1, if_pos h2]; exact hc
      · simp only [if_neg h1, if_neg h2]; unfold chkCntMin at h2; omega
  | areaCount p v => simp only [confStep, setAreaCount, Option.some.injEq] at h; subst h; exact hc
  | init w e =>
    simp only [confStep, Option.map_eq_some_iff] at h
    obtain ⟨⟨ok, s1⟩, h1, rfl⟩ := h
    exact initObject_loop h1 hc
  | reinit w e d f n =>
    simp only [confStep, Option.map_eq_some_iff] at h
    obtain ⟨⟨ok, s1⟩, h1, rfl⟩ := h
    exact reinit_loop h1 hc
  | lock w c => simp only [confStep, Option.some.injEq] at h; subst h; rw [lockFront_cfg]; exact hc

/-- C43: for every history of setters, initialisations, reinitialisations and lock calls, in every
environment, the retry limit stays at least 50. -/
theorem C43_limit (cs : List ConfCall) (fs : Str → FStat) (s' : Proc)
    (h : confRun { fs := fs } cs = some s') : 50 ≤ s'.cfg.loopCnt := by
  have key : ∀ (cs : List ConfCall) (s : Proc), 50 ≤ s.cfg.loopCnt → confRun s cs = some s' →
      50 ≤ s'.cfg.loopCnt := by
    intro cs
    induction cs with
    | nil => intro s hs h; simp only [confRun, Option.some.injEq] at h; subst h; exact hs
    | cons c cs ih =>
      intro s hs h
      unfold confRun at h
      split at h
      · simp at h
      · rename_i s1 h1; exact ih s1 (confStep_loop h1 hs) h
  exact key cs _ (show (50 : Int) ≤ 5000 by decide) h

/-- A history that makes the limit as small as it can be, and tries to make it smaller. -/
example : ∃ s', confRun { fs := fun _ => .enoent } [.robustMode .low, .loopCnt 60, .robustMode .high,
    .loopCnt 50, .loopCnt 49, .nomapMode .denyRetry] = some s' ∧ s'.cfg.loopCnt = 50 ∧
    s'.cfg.nomap = .denyRetry :=
  ⟨_, rfl, by decide, by decide⟩

/-- C43: each mode setter returns the old value and changes its own item, nothing else. -/
theorem C43_own_item (c : Config) (hc : 50 ≤ c.loopCnt) :
    (∀ m, setRobustMode c m = (c.robust, { c with robust := m })) ∧
    (∀ m, setNomapMode c m = (c.nomap, { c with nomap := m })) ∧
    (∀ m, setFreeUnitMode c m = (c.freeUnit, { c with freeUnit := m })) ∧
    (∀ p v, (setAreaCount c p v).1 = c.cnt p ∧ (setAreaCount c p v).2.cnt p = v ∧
      (∀ q, q ≠ p → (setAreaCount c p v).2.cnt q = c.cnt q) ∧
      { (setAreaCount c p v).2 with cnt := c.cnt } = c) := by
  refine ⟨fun m => ?_, fun m => rfl, fun m => rfl, fun p v => ⟨rfl, if_pos rfl, fun q hq => if_neg hq, rfl⟩⟩
  unfold setRobustMode
  have : ¬ (m = .high ∧ c.loopCnt < chkCntMin) := by unfold chkCntMin; omega
  simp only [this, if_false]

/-- C43: the setter of the retry limit rejects exactly the values below 50 and all values outside
high robust mode, with -1 and without any change; else it returns the old limit and changes only
the limit. -/
theorem C43_loop_setter (c : Config) (v : Int) (hc : 50 ≤ c.loopCnt) :
    ((c.robust ≠ .high ∨ v < 50) ↔ (setRobustLoopCnt c v).1 = -1) ∧
    ((setRobustLoopCnt c v).1 = -1 → (setRobustLoopCnt c v).2 = c) ∧
    ((setRobustLoopCnt c v).1 ≠ -1 → setRobustLoopCnt c v = (c.loopCnt, { c with loopCnt := v })) := by
  unfold setRobustLoopCnt chkCntMin
  by_cases h1 : c.robust ≠ .high
  · simp [h1]
  · by_cases h2 : v < 50
    · simp [h1, h2]
    · simp only [h1, h2, if_false, or_self, false_iff, ne_eq]
      exact ⟨by omega, fun h => by omega, fun _ => trivial⟩

/-- C43: lock calls change no setting. -/
theorem C43_lock_calls (w : World) (s : Proc) (c : LockCall) : (lockFront w s c).2.cfg = s.cfg :=
  lockFront_cfg w s c

/-! ### C45: environment -/

/-- First entry of a table matching a word. -/
def firstMatch {α : Type} (t : List (String × α)) (v : Str) (old : α) : α :=
  match t with
  | [] => old
  | (w, a) :: t => if strcaseEq v w.toList then a else firstMatch t v old

theorem firstMatch_hit {α : Type} (t : List (String × α)) (v : Str) (old : α) (w : String) (a : α)
    (hm : (w, a) ∈ t) (hv : sameWord v w)
    (hd : t.Pairwise (fun x y => x.1.toList.map Char.toLower ≠ y.1.toList.map Char.toLower)) :
    firstMatch t v old = a := by
  induction t with
  | nil => simp at hm
  | cons x t ih =>
    obtain ⟨w', a'⟩ := x
    unfold firstMatch
    rw [List.pairwise_cons] at hd
    rcases List.mem_cons.1 hm with h | h
    · simp only [Prod.mk.injEq] at h
      obtain ⟨rfl, rfl⟩ := h
      rw [if_pos ((strcaseEq_iff _ _).2 hv)]
    · rw [if_neg, ih h hd.2]
      intro hc
      exact hd.1 _ h (((strcaseEq_iff _ _).1 hc).symm.trans hv)

theorem firstMatch_miss {α : Type} (t : List (String × α)) (v : Str) (old : α)
    (h : ∀ x ∈ t, ¬ sameWord v x.1) : firstMatch t v old = old := by
  induction t with
  | nil => rfl
  | cons x t ih =>
    obtain ⟨w', a'⟩ := x
    unfold firstMatch
    rw [if_neg (fun hc => h (w', a') (by simp) ((strcaseEq_iff _ _).1 hc)), ih (fun x hx => h x (by simp [hx]))]

/-- The documented words. -/
def autoWords : List (String × Bool) := [("YES", true), ("NO", false)]
def nomapWords : List (String × Nomap) :=
  [("ALLOW_NORETRY", .allowNoretry), ("DENY_NORETRY", .denyNoretry), ("ALLOW_RETRY", .allowRetry),
   ("DENY_RETRY", .denyRetry), ("ALLOW", .allowNoretry), ("DENY", .denyNoretry)]
def robustWords : List (String × Robust) := [("NO", .no), ("LOW", .low), ("HIGH", .high)]
def freeUnitWords : List (String × FreeUnit) :=
  [("NO", .no), ("FD", .fd), ("OFFSET", .offset), ("ALWAYS", .fd)]

/-- What a variable of words does to its item. -/
def SetsByWord {α : Type} (t : List (String × α)) (var : Option Str) (old new : α) : Prop :=
  (var = none → new = old) ∧
  (∀ v, var = some v → (∀ w a, (w, a) ∈ t → sameWord v w → new = a) ∧
    ((∀ x ∈ t, ¬ sameWord v x.1) → new = old))

/-- Look a variable up in a table. -/
def wordOf {α : Type} (t : List (String × α)) (var : Option Str) (old : α) : α :=
  match var with
  | none => old
  | some v => firstMatch t v old

theorem setsByWord_firstMatch {α : Type} (t : List (String × α)) (var : Option Str) (old : α)
    (hd : t.Pairwise (fun x y => x.1.toList.map Char.toLower ≠ y.1.toList.map Char.toLower)) :
    SetsByWord t var old (wordOf t var old) := by
  constructor
  · rintro rfl; rfl
  · rintro v rfl
    exact ⟨fun w a hm hv => firstMatch_hit t v old w a hm hv hd, fun h => firstMatch_miss t v old h⟩

/-- C45: the four variables of words: each sets its item exactly when it holds a documented word,
in any case of letters; otherwise the item keeps its value. -/
theorem C45_words (w : World) (e : Env) (c c' : Config) (fs fs' : Str → FStat)
    (h : loadEnv w e c fs = some (c', fs')) :
    SetsByWord autoWords (e .autoInit) c.auto c'.auto ∧
    SetsByWord nomapWords (e .nomapMode) c.nomap c'.nomap ∧
    SetsByWord robustWords (e .robustMode) c.robust c'.robust ∧
    SetsByWord freeUnitWords (e .freeUnitMode) c.freeUnit c'.freeUnit := by
  unfold loadEnv at h
  split at h
  · simp at h
  · simp only [Option.some.injEq, Prod.mk.injEq] at h
    rw [← h.1]
    refine ⟨?_, ?_, ?_, ?_⟩
    · exact setsByWord_firstMatch autoWords (e .autoInit) c.auto (by decide)
    · exact setsByWord_firstMatch nomapWords (e .nomapMode) c.nomap (by decide)
    · exact setsByWord_firstMatch robustWords (e .robustMode) c.robust (by decide)
    · exact setsByWord_firstMatch freeUnitWords (e .freeUnitMode) c.freeUnit (by decide)

/-- An environment with one variable. -/
def env1 (x : EnvVar) (v : String) : Env := fun y => if y = x then some v.toList else none

/-- A system where everything works, and an empty file system. -/
def goodWorld : World := { cwd := some ['/'], mkdir := fun _ => true, shmOk := fun _ => true }

example : ∃ c' fs', loadEnv goodWorld (env1 .nomapMode "deny_Retry") {} (fun _ => .enoent) = some (c', fs') ∧
    c'.nomap = .denyRetry := ⟨_, _, rfl, by decide⟩

/-- C45: for all strings: a count is left as it was or within its limits. -/
theorem C45_limits (w : World) (e : Env) (c c' : Config) (fs fs' : Str → FStat)
    (h : loadEnv w e c fs = some (c', fs')) (p : Pool) :
    c'.cnt p = c.cnt p ∨ (p.min ≤ c'.cnt p ∧ c'.cnt p ≤ p.max) := by
  unfold loadEnv at h
  split at h
  · simp at h
  · simp only [Option.some.injEq, Prod.mk.injEq] at h
    rw [← h.1]
    simp only [envCnt]
    cases e (.cnt p) with
    | none => left; rfl
    | some s =>
      simp only
      split_ifs with hl
      · left; rfl
      · right; omega

/-- C45: an unset variable leaves its count as it was. -/
theorem C45_unset (w : World) (e : Env) (c c' : Config) (fs fs' : Str → FStat)
    (h : loadEnv w e c fs = some (c', fs')) :
    (∀ p, e (.cnt p) = none → c'.cnt p = c.cnt p) ∧
    (e .umask = none → c'.umask = c.umask) ∧
    (e .robustChkCnt = none → 50 ≤ c.loopCnt → c'.loopCnt = c.loopCnt) := by
  unfold loadEnv at h
  split at h
  · simp at h
  · simp only [Option.some.injEq, Prod.mk.injEq] at h
    rw [← h.1]
    refine ⟨fun p hp => by simp [envCnt, hp], fun hu => by simp [envUmask, hu], fun hr h50 => ?_⟩
    have : ¬ c.loopCnt < 50 := by omega
    simp [envLoopCnt, hr, chkCntMin, this]

theorem atoi_dec (b : Str) (hb : ∀ c ∈ b, isSpaceC c = true) (ds : List Nat) (hne : ds ≠ [])
    (hd : ∀ d ∈ ds, d < 10) (rest : Str) (hr : ∀ c ∈ rest.head?, 10 ≤ digitVal c) (neg : Bool)
    (hlt : numeral 10 ds < 2 ^ 31) :
    atoi (b ++ (if neg then ['-'] else []) ++ (ds.map digChar ++ rest)) =
      if neg then -(numeral 10 ds : Int) else numeral 10 ds := by
  unfold atoi
  rw [strtol_dec b hb ds hne hd rest hr neg]
  have hn : ∀ v : Int, -2 ^ 31 < v → v < 2 ^ 31 → toInt32 (clampLong v).1 = v := by
    intro v h1 h2
    have : clampLong v = (v, false) := by
      unfold clampLong longMax longMin
      rw [if_neg (by omega), if_neg (by omega)]
    rw [this]
    exact toInt32_id v (by omega) h2
  cases neg
  · exact hn _ (by simp; omega) (by simp; omega)
  · exact hn _ (by simp; omega) (by simp; omega)

/-- The blanks allowed in front of a number. -/
def blanks : List Char := [' ', '\t', '\n', '\x0b', '\x0c', '\r']

theorem blanks_ok {b : Str} (hb : ∀ x ∈ b, x ∈ blanks) : ∀ x ∈ b, isSpaceC x = true := by
  intro x hx
  have := hb x hx
  simp only [blanks, List.mem_cons, List.not_mem_nil, or_false] at this
  rcases this with h | h | h | h | h | h <;> rw [h] <;> decide

/-- C45: a count variable holding blanks, a decimal number below 2^31 and anything that does not
continue the number sets the count exactly when the number is within the limits; a negative number
never does. -/
theorem C45_count (w : World) (e : Env) (c c' : Config) (fs fs' : Str → FStat)
    (h : loadEnv w e c fs = some (c', fs')) (p : Pool) (b : Str) (hb : ∀ x ∈ b, x ∈ blanks)
    (ds : List Nat) (hne : ds ≠ []) (hd : ∀ d ∈ ds, d < 10) (rest : Str)
    (hr : ∀ x ∈ rest.head?, 10 ≤ digitVal x) (hlt : numeral 10 ds < 2 ^ 31) :
    (e (.cnt p) = some (b ++ ds.map digChar ++ rest) →
      c'.cnt p = if p.min ≤ numeral 10 ds ∧ numeral 10 ds ≤ p.max then numeral 10 ds else c.cnt p) ∧
    (e (.cnt p) = some (b ++ ['-'] ++ ds.map digChar ++ rest) → c'.cnt p = c.cnt p) := by
  have hpos := atoi_dec b (blanks_ok hb) ds hne hd rest hr false hlt
  have hneg := atoi_dec b (blanks_ok hb) ds hne hd rest hr true hlt
  simp only [if_false, if_true, Bool.false_eq_true, List.append_nil] at hpos hneg
  have hmin : 0 < p.min := by cases p <;> decide
  have hmax : p.max < 2 ^ 31 := by cases p <;> decide
  unfold loadEnv at h
  split at h
  · simp at h
  · simp only [Option.some.injEq, Prod.mk.injEq] at h
    rw [← h.1]
    simp only [envCnt]
    constructor
    · intro he
      rw [he]
      simp only [List.append_assoc] at hpos ⊢
      rw [hpos]
      have : toSizeT (numeral 10 ds : Int) = numeral 10 ds := by unfold toSizeT; omega
      rw [this]
      split_ifs <;> first | rfl | omega
    · intro he
      rw [he]
      simp only [List.append_assoc] at hneg ⊢
      rw [hneg]
      have : toSizeT (-(numeral 10 ds : Int)) = 0 ∨ 2 ^ 31 ≤ toSizeT (-(numeral 10 ds : Int)) := by
        unfold toSizeT; omega
      rw [if_pos (by rcases this with h | h <;> omega)]

example : numeral 10 [2, 0, 4, 8] = 2048 ∧ [2, 0, 4, 8].map digChar = "2048".toList := by decide
example : ∃ c' fs', loadEnv goodWorld (env1 (.cnt .file) " 2048 files") {} (fun _ => .enoent) = some (c', fs') ∧
    c'.cnt .file = 2048 := ⟨_, _, rfl, by decide⟩

theorem digitsVal_zero (base : Nat) (s : Str) (h : ∀ c ∈ s.head?, base ≤ digitVal c) : digitsVal base s = 0 := by
  cases s with
  | nil => rfl
  | cons c s =>
    have := h c (by simp)
    unfold digitsVal
    rw [List.takeWhile_cons_of_neg (by simpa using this)]
    rfl

/-- C45: the conversion of a parsed number into a count: the value modulo 2^64, never negative. -/
theorem C45_size (v : Int) : toSizeT v < 2 ^ 64 ∧ (2 ^ 64 : Int) ∣ (toSizeT v - v) := by
  unfold toSizeT
  constructor <;> omega

example : toSizeT (-1) = 2 ^ 64 - 1 := by decide

/-- C45: a text that does not begin with a number never changes a count. -/
theorem C45_count_text (w : World) (e : Env) (c c' : Config) (fs fs' : Str → FStat)
    (h : loadEnv w e c fs = some (c', fs')) (p : Pool) (v : Str) (he : e (.cnt p) = some v)
    (hv : ∀ x ∈ (v.dropWhile isSpaceC).head?, x ≠ '-' ∧ x ≠ '+' ∧ 10 ≤ digitVal x) :
    c'.cnt p = c.cnt p := by
  have ha : atoi v = 0 := by
    unfold atoi strtol
    have hs : signPart (v.dropWhile isSpaceC) = (false, v.dropWhile isSpaceC) := by
      cases hd : v.dropWhile isSpaceC with
      | nil => rfl
      | cons x r => have := hv x (by rw [hd]; rfl); exact signPart_plain x r this.1 this.2.1
    rw [hs]
    simp only [basePart]
    have hz := digitsVal_zero 10 (v.dropWhile isSpaceC) (fun x hx => (hv x hx).2.2)
    simp only [Nat.reduceEqDiff, if_false, hz]
    decide
  have hmin : 0 < p.min := by cases p <;> decide
  unfold loadEnv at h
  split at h
  · simp at h
  · simp only [Option.some.injEq, Prod.mk.injEq] at h
    rw [← h.1]
    simp only [envCnt, he, ha]
    rw [if_pos (Or.inl (by simpa [toSizeT] using hmin))]

example : ∀ x ∈ (" many".toList.dropWhile isSpaceC).head?, x ≠ '-' ∧ x ≠ '+' ∧ 10 ≤ digitVal x := by decide

/-- C45: the retry limit is taken from the environment exactly when the number is at least 50. -/
theorem C45_loop (w : World) (e : Env) (c c' : Config) (fs fs' : Str → FStat)
    (h : loadEnv w e c fs = some (c', fs')) (h50 : 50 ≤ c.loopCnt) (b : Str)
    (hb : ∀ x ∈ b, x ∈ blanks) (ds : List Nat) (hne : ds ≠ []) (hd : ∀ d ∈ ds, d < 10)
    (rest : Str) (hr : ∀ x ∈ rest.head?, 10 ≤ digitVal x) (hlt : numeral 10 ds < 2 ^ 31)
    (he : e .robustChkCnt = some (b ++ ds.map digChar ++ rest)) :
    c'.loopCnt = if 50 ≤ numeral 10 ds then (numeral 10 ds : Int) else c.loopCnt := by
  have hpos := atoi_dec b (blanks_ok hb) ds hne hd rest hr false hlt
  simp only [if_false, Bool.false_eq_true, List.append_nil] at hpos
  unfold loadEnv at h
  split at h
  · simp at h
  · simp only [Option.some.injEq, Prod.mk.injEq] at h
    rw [← h.1]
    simp only [envLoopCnt, he, List.append_assoc] at hpos ⊢
    rw [hpos]
    unfold chkCntMin chkCntDefault
    split_ifs <;> omega

/-- C45: the file mode mask is taken from an octal, decimal or hexadecimal number exactly when it is
below 0777 (0777 itself is not accepted). -/
theorem C45_umask (w : World) (e : Env) (c c' : Config) (fs fs' : Str → FStat)
    (h : loadEnv w e c fs = some (c', fs')) (b : Str) (hb : ∀ x ∈ b, x ∈ blanks) (base : Nat)
    (hbase : base = 8 ∨ base = 10 ∨ base = 16) (ds : List Nat) (hne : ds ≠ [])
    (hd : ∀ d ∈ ds, d < base) (h10 : base = 10 → ds.head? ≠ some 0) (rest : Str)
    (hr : ∀ x ∈ rest.head?, base ≤ digitVal x) :
    (e .umask = some (b ++ basePrefix base ++ ds.map digChar ++ rest) →
      c'.umask = if numeral base ds < 0o777 then numeral base ds else c.umask) ∧
    (e .umask = some (b ++ ['-'] ++ basePrefix base ++ ds.map digChar ++ rest) →
      c'.umask = if numeral base ds = 0 then 0 else c.umask) := by
  have hpos := strtol_zero b (blanks_ok hb) base hbase ds hne hd h10 rest hr false
  have hneg := strtol_zero b (blanks_ok hb) base hbase ds hne hd h10 rest hr true
  simp only [if_false, if_true, Bool.false_eq_true, List.append_nil] at hpos hneg
  have hcvt : ∀ s : Str, s ≠ [] → cvtNumberStringToLong (some s) =
      if (strtol s 0).2 && ((strtol s 0).1 == longMax || (strtol s 0).1 == longMin) then none
      else some (strtol s 0).1 := by
    intro s hs
    cases s with
    | nil => exact absurd rfl hs
    | cons a s => rfl
  have hclamp : ∀ v : Int, (if (clampLong v).2 && ((clampLong v).1 == longMax || (clampLong v).1 == longMin)
      then none else some (clampLong v).1) = if longMax < v ∨ v < longMin then none else some v := by
    intro v
    unfold clampLong
    split_ifs with h1 h2 <;> simp_all <;> omega
  have hnn : ∀ a z : Str, ds ≠ [] → a ++ (ds.map digChar ++ z) ≠ [] := by
    intro a z h; simp [h]
  unfold loadEnv at h
  split at h
  · simp at h
  · simp only [Option.some.injEq, Prod.mk.injEq] at h
    rw [← h.1]
    simp only [envUmask]
    constructor
    · intro he
      rw [he]
      simp only [List.append_assoc] at hpos ⊢
      rw [hcvt _ (by simp [hne]), hpos, hclamp]
      unfold longMax longMin
      split_ifs with h1 h2 <;> simp only <;> (try split_ifs) <;> omega
    · intro he
      rw [he]
      simp only [List.append_assoc] at hneg ⊢
      rw [hcvt _ (by simp), hneg, hclamp]
      unfold longMax longMin
      split_ifs with h1 h2 <;> simp only <;> (try split_ifs) <;> omega

example : ∃ c' fs', loadEnv goodWorld (env1 .umask "022") {} (fun _ => .enoent) = some (c', fs') ∧
    c'.umask = 0o22 := ⟨_, _, rfl, by decide⟩
example : ∃ c' fs', loadEnv goodWorld (env1 .umask "0x1fe") {} (fun _ => .enoent) = some (c', fs') ∧
    c'.umask = 0o776 := ⟨_, _, rfl, by decide⟩
example : ∃ c' fs', loadEnv goodWorld (env1 .umask "0777") { umask := 7 } (fun _ => .enoent) = some (c', fs') ∧
    c'.umask = 7 := ⟨_, _, rfl, by decide⟩

/-- C45: numbers of any size.  A number that is no `long` is refused where a `long` is asked for; where an
`int` is, the 32 low bits of the nearest `long` are taken. -/
theorem C45_long (b : Str) (hb : ∀ x ∈ b, x ∈ blanks) (ds : List Nat) (hne : ds ≠ [])
    (hd : ∀ d ∈ ds, d < 10) (h0 : ds.head? ≠ some 0) (rest : Str)
    (hr : ∀ x ∈ rest.head?, 10 ≤ digitVal x) :
    cvtNumberStringToLong (some (b ++ (ds.map digChar ++ rest))) =
      (if numeral 10 ds < 2 ^ 63 then some (numeral 10 ds : Int) else none) ∧
    cvtNumberStringToLong (some (b ++ ['-'] ++ (ds.map digChar ++ rest))) =
      (if numeral 10 ds ≤ 2 ^ 63 then some (-(numeral 10 ds : Int)) else none) ∧
    (2 ^ 63 ≤ numeral 10 ds → atoi (b ++ (ds.map digChar ++ rest)) = -1) ∧
    (2 ^ 63 ≤ numeral 10 ds → atoi (b ++ ['-'] ++ (ds.map digChar ++ rest)) = 0) := by
  have hz := fun neg => strtol_zero b (blanks_ok hb) 10 (by simp) ds hne hd (fun _ => h0) rest hr neg
  have h1 := fun neg => strtol_dec b (blanks_ok hb) ds hne hd rest hr neg
  simp only [basePrefix, List.nil_append] at hz
  have hz0 := hz false
  have hz1 := hz true
  have h10 := h1 false
  have h11 := h1 true
  simp only [if_false, if_true, Bool.false_eq_true, List.append_nil] at hz0 hz1 h10 h11
  have hcvt : ∀ s : Str, s ≠ [] → cvtNumberStringToLong (some s) =
      if (strtol s 0).2 && ((strtol s 0).1 == longMax || (strtol s 0).1 == longMin) then none
      else some (strtol s 0).1 := by
    intro s hs
    cases s with
    | nil => exact absurd rfl hs
    | cons a s => rfl
  have hclamp : ∀ v : Int, (if (clampLong v).2 && ((clampLong v).1 == longMax || (clampLong v).1 == longMin)
      then none else some (clampLong v).1) = if longMax < v ∨ v < longMin then none else some v := by
    intro v
    unfold clampLong
    split_ifs with h1 h2 <;> simp_all <;> omega
  refine ⟨?_, ?_, ?_, ?_⟩
  · rw [hcvt _ (by simp [hne]), hz0, hclamp]
    unfold longMax longMin
    split_ifs <;> first | rfl | omega
  · rw [hcvt _ (by simp), hz1, hclamp]
    unfold longMax longMin
    split_ifs <;> first | rfl | omega
  · intro h
    rw [atoi, h10]
    have : clampLong (numeral 10 ds : Int) = (longMax, true) := by
      unfold clampLong; rw [if_pos (by unfold longMax; omega)]
    rw [this]; decide
  · intro h
    rw [atoi, h11]
    by_cases e : numeral 10 ds = 2 ^ 63
    · have : clampLong (-(numeral 10 ds : Int)) = (-(2 ^ 63), false) := by
        unfold clampLong longMax longMin
        rw [if_neg (by omega), if_neg (by omega), e]; rfl
      rw [this]; decide
    · have : clampLong (-(numeral 10 ds : Int)) = (longMin, true) := by
        unfold clampLong longMax longMin
        rw [if_neg (by omega), if_pos (by omega)]
      rw [this]; decide
example : ([9, 2, 2, 3, 3, 7, 2, 0, 3, 6, 8, 5, 4, 7, 7, 5, 8, 0, 8].map digChar) = "9223372036854775808".toList ∧
    numeral 10 [9, 2, 2, 3, 3, 7, 2, 0, 3, 6, 8, 5, 4, 7, 7, 5, 8, 0, 8] = 2 ^ 63 := by decide

/-- C45, full, numbers: a count changes only to the number written in its variable, and the mask
only when its variable holds a number. -/
def C45_full : Prop :=
  (∀ w e c fs c' fs' p ds, loadEnv w e c fs = some (c', fs') → ds ≠ [] → (∀ d ∈ ds, d < 10) →
    e (.cnt p) = some (ds.map digChar) → c'.cnt p = c.cnt p ∨ c'.cnt p = numeral 10 ds) ∧
  (∀ w e c fs c' fs' v, loadEnv w e c fs = some (c', fs') → e .umask = some v →
    (∀ x ∈ v, 10 ≤ digitVal x) → c'.umask = c.umask)

/-- The first part fails: 4294967297 is taken as 1. -/
theorem C45_not_full : ¬ C45_full := by
  intro h
  have := h.1 goodWorld (env1 (.cnt .file) "4294967297") {} (fun _ => .enoent) _ _ .file
    [4, 2, 9, 4, 9, 6, 7, 2, 9, 7] rfl (by decide) (by decide) (by decide)
  revert this
  decide

/-- The second part fails too: a word in place of the mask sets it to 0. -/
theorem C45_umask_word : ∃ c' fs', loadEnv goodWorld (env1 .umask "none") { umask := 0o22 } (fun _ => .enoent)
    = some (c', fs') ∧ c'.umask = 0 := ⟨_, _, rfl, by decide⟩

/-- C45: the file name: the default when unset; the trimmed text when it has no slash; otherwise
the name stays as it was. -/
theorem C45_file (w : World) (e : Env) (c c' : Config) (fs fs' : Str → FStat)
    (h : loadEnv w e c fs = some (c', fs')) :
    (e .fileName = none → c'.file = "fullock.shm".toList) ∧
    (∀ v t, e .fileName = some v →
      Trimmed (fun x => x = ' ' ∨ x = '\t' ∨ x = '\r' ∨ x = '\n') v t →
      c'.file = if '/' ∈ t then c.file else t) := by
  unfold loadEnv at h
  split at h
  · simp at h
  · simp only [Option.some.injEq, Prod.mk.injEq] at h
    rw [← h.1]
    simp only [envFile]
    constructor
    · intro he; rw [he]
    · intro v t he ht
      have he2 : (fun c => c = ' ' ∨ c = '\t' ∨ c = '\r' ∨ c = '\n') = (fun c : Char => c ∈ spaceChars) := by
        funext c; simp [spaceChars]
      rw [he2] at ht
      have := trimmed_unique _ v _ _ ht (trimmed_trim v spaceChars)
      rw [he, this]

example : ∃ c' fs', loadEnv goodWorld (env1 .fileName " my.shm\n") {} (fun _ => .enoent) = some (c', fs') ∧
    c'.file = "my.shm".toList := ⟨_, _, rfl, by decide⟩

/-- C45: the default directory is below /var/lib/antpickax when that is a directory, and below /tmp when it
is missing, cannot be examined or is an ordinary file. -/
theorem C45_default_dir (fs : Str → FStat) :
    (fs "/var/lib/antpickax".toList = .node 0x4000 → defaultDir fs = "/var/lib/antpickax/.fullock".toList) ∧
    (fs "/var/lib/antpickax".toList = .enoent ∨ fs "/var/lib/antpickax".toList = .err ∨
      fs "/var/lib/antpickax".toList = .node 0x8000 → defaultDir fs = "/tmp/.fullock".toList) := by
  refine ⟨fun h => ?_, fun h => ?_⟩
  · simp only [defaultDir, h]
    decide
  · rcases h with h | h | h <;> simp only [defaultDir, h] <;> decide

example : defaultDir (fun p => if p = "/var/lib/antpickax".toList then .node 0x4000 else .enoent) =
    "/var/lib/antpickax/.fullock".toList := by decide

/-- C45: the directory: the resolved path when it exists or can be made; otherwise, and when unset,
the default directory when that can be made; otherwise it stays as it was. -/
theorem C45_dir (w : World) (e : Env) (c c' : Config) (fs fs' : Str → FStat)
    (h : loadEnv w e c fs = some (c', fs')) :
    (∀ v top fs1, e .dirPath = some v → getRealPath w.cwd v = .ok top →
      makeWorkDirectory w.cwd w.mkdir top fs = some (true, fs1) → c'.dir = top ∧ fs' = fs1) ∧
    (e .dirPath = none ∨ (∃ v, e .dirPath = some v ∧ getRealPath w.cwd v = .fail) →
      ∀ ok fs1, makeWorkDirectory w.cwd w.mkdir (defaultDir fs) fs = some (ok, fs1) →
      c'.dir = (if ok then defaultDir fs else c.dir) ∧ fs' = fs1) := by
  unfold loadEnv at h
  split at h
  · simp at h
  · rename_i d fs2 hd
    simp only [Option.some.injEq, Prod.mk.injEq] at h
    rw [← h.1, ← h.2]
    simp only
    constructor
    · intro v top fs1 he hg hm
      simp only [envDir, he, hg, hm] at hd
      simp only [Option.some.injEq, Prod.mk.injEq] at hd
      exact ⟨hd.1.symm, hd.2.symm⟩
    · intro he ok fs1 hm
      have hdd : envDirDefault w c.dir fs = some (d, fs2) := by
        rcases he with he | ⟨v, he, hg⟩
        · simpa only [envDir, he] using hd
        · simpa only [envDir, he, hg] using hd
      simp only [envDirDefault, hm] at hdd
      cases ok <;> simp only [Option.some.injEq, Prod.mk.injEq] at hdd
      · exact ⟨hdd.1.symm, hdd.2.symm⟩
      · exact ⟨hdd.1.symm, hdd.2.symm⟩

example : ∃ c' fs', loadEnv goodWorld (env1 .dirPath "/x/../run") {} (fun _ => .enoent) = some (c', fs') ∧
    c'.dir = "/run".toList ∧ fs' "/run".toList = .node sIfDir := ⟨_, _, rfl, by decide, by decide⟩
example : ∃ c' fs', loadEnv goodWorld (fun _ => none) {} (fun _ => .enoent) = some (c', fs') ∧
    c'.dir = "/tmp/.fullock".toList := ⟨_, _, rfl, by decide⟩

/-- C45: a directory named in the environment that cannot be made is not used: as when the variable is unset,
the default directory is taken when that can be made, otherwise the directory stays as it was. -/
theorem C45_dir_unmade (w : World) (e : Env) (c c' : Config) (fs fs' : Str → FStat)
    (h : loadEnv w e c fs = some (c', fs')) (v top : Str) (fs1 : Str → FStat) (he : e .dirPath = some v)
    (hg : getRealPath w.cwd v = .ok top) (hm : makeWorkDirectory w.cwd w.mkdir top fs = some (false, fs1)) :
    ∃ ok, makeWorkDirectory w.cwd w.mkdir (defaultDir fs1) fs1 = some (ok, fs') ∧
      c'.dir = if ok then defaultDir fs1 else c.dir := by
  unfold loadEnv at h
  split at h
  · simp at h
  · rename_i d fs2 hd
    simp only [Option.some.injEq, Prod.mk.injEq] at h
    rw [← h.1, ← h.2]
    simp only [envDir, he, hg, hm, envDirDefault] at hd
    split at hd
    · cases hd
    · rename_i h1; cases hd; exact ⟨_, h1, rfl⟩
    · rename_i h1; cases hd; exact ⟨_, h1, rfl⟩

/-- The hypotheses of `C45_dir_unmade` are met: /run/x is an ordinary file. -/
example : ∃ c' fs' fs1, loadEnv goodWorld (env1 .dirPath "/run/x") {}
      (fun p => if p = "/run/x".toList then .node 0x8000 else .enoent) = some (c', fs') ∧
    makeWorkDirectory goodWorld.cwd goodWorld.mkdir "/run/x".toList
      (fun p => if p = "/run/x".toList then .node 0x8000 else .enoent) = some (false, fs1) ∧
    c'.dir = "/tmp/.fullock".toList := ⟨_, _, _, rfl, rfl, by decide⟩

/-! ### C46: without a segment -/

/-- No segment can be had: not attached, and either no retry or the retry fails. -/
def NoSegment (w : World) (s : Proc) : Prop :=
  s.attached = false ∧
  (s.cfg.nomap = .allowRetry ∨ s.cfg.nomap = .denyRetry → w.shmOk s.cfg.path = false)

theorem checkAttach_none (w : World) (s : Proc) (h : NoSegment w s) : checkAttach w s = (false, s) := by
  obtain ⟨h1, h2⟩ := h
  unfold checkAttach initShm
  rw [if_neg (by simp [h1])]
  by_cases h3 : s.cfg.nomap = .allowRetry ∨ s.cfg.nomap = .denyRetry
  · simp [h1, h2 h3]
  · simp [h3]

/-- C46: without a segment every lock and unlock returns 0 in the allow modes and `ENOLCK` in the
deny modes, for every argument other than a null name; the question whether a file is locked is
answered no and yes; and nothing changes. -/
theorem C46_unattached (w : World) (s : Proc) (h : NoSegment w s) :
    (∀ d, lockFront w s (.file d) = (.ret (if s.cfg.nomap = .allowRetry ∨ s.cfg.nomap = .allowNoretry then 0 else 37), s)) ∧
    (∀ n, lockFront w s (.mutex (some n)) = (.ret (if s.cfg.nomap = .allowRetry ∨ s.cfg.nomap = .allowNoretry then 0 else 37), s)) ∧
    (∀ n, lockFront w s (.cond (some n)) = (.ret (if s.cfg.nomap = .allowRetry ∨ s.cfg.nomap = .allowNoretry then 0 else 37), s)) ∧
    (∀ d, lockFront w s (.isLocked d) = (.answer (decide (s.cfg.nomap = .denyRetry ∨ s.cfg.nomap = .denyNoretry)), s)) := by
  have hc := checkAttach_none w s h
  refine ⟨fun d => ?_, fun n => ?_, fun n => ?_, fun d => ?_⟩
  · simp [lockFront, hc, nomapCode, eNolck]
  · simp [lockFront, hc, nomapCode, eNolck]
  · simp [lockFront, hc, nomapCode, eNolck]
  · simp only [lockFront, hc]
    cases s.cfg.nomap <;> simp

example : NoSegment goodWorld { fs := fun _ => .enoent } := by simp [NoSegment]
example : NoSegment { goodWorld with shmOk := fun _ => false }
    { fs := fun _ => .enoent, cfg := { nomap := .denyRetry } } := by simp [NoSegment]

/-- C46: in the retry modes a call that can have the segment gets it and goes on in it. -/
theorem C46_retry (w : World) (s : Proc) (h1 : s.attached = false)
    (h2 : s.cfg.nomap = .allowRetry ∨ s.cfg.nomap = .denyRetry) (h3 : w.shmOk s.cfg.path = true)
    (c : LockCall) (hc : c = .file true ∨ (∃ n, c = .mutex (some n)) ∨ (∃ n, c = .cond (some n)) ∨
      c = .isLocked true) :
    lockFront w s c = (.proceed, { s with attached := true }) := by
  have hca : checkAttach w s = (true, { s with attached := true }) := by
    unfold checkAttach initShm
    simp [h1, h2, h3]
  rcases hc with rfl | ⟨n, rfl⟩ | ⟨n, rfl⟩ | rfl <;> simp [lockFront, hca]

example : ∃ s : Proc, s.attached = false ∧ s.cfg.nomap = .denyRetry ∧ goodWorld.shmOk s.cfg.path = true :=
  ⟨{ fs := fun _ => .enoent, cfg := { nomap := .denyRetry } }, rfl, rfl, rfl⟩

/-- C46, full: when attached the mode has no influence on any call. -/
def C46_full : Prop :=
  ∀ w s m c, s.attached = true →
    (lockFront w s c).1 = (lockFront w { s with cfg := { s.cfg with nomap := m } } c).1

/-- It fails: a lock call with a bad descriptor is answered with 0 or `ENOLCK` by the mode, even
though a segment is attached. -/
theorem C46_not_full : ¬ C46_full := by
  intro h
  have := h goodWorld { fs := fun _ => .enoent, attached := true } .denyNoretry (.file false) rfl
  revert this
  decide

/-- C46: a lock on a bad descriptor is even reported as granted, in the default mode. -/
theorem C46_bad_descriptor_granted (w : World) (s : Proc) (h : s.attached = true)
    (hm : s.cfg.nomap = .allowNoretry ∨ s.cfg.nomap = .allowRetry) :
    lockFront w s (.file false) = (.ret 0, s) := by
  have : checkAttach w s = (true, s) := by simp [checkAttach, h]
  rcases hm with hm | hm <;> simp [lockFront, this, nomapCode, hm]

/-- C46, partial: when attached every call with good arguments goes on in the segment, in every
mode.  Missing: calls with a bad descriptor, see above. -/
theorem C46_attached_partial (w : World) (s : Proc) (h : s.attached = true) (c : LockCall)
    (hc : c ≠ .file false) :
    (∀ m, (lockFront w s c).1 = (lockFront w { s with cfg := { s.cfg with nomap := m } } c).1) ∧
    (lockFront w s c).2 = s ∧
    ((lockFront w s c).1 = .proceed ∨ c = .mutex none ∨ c = .cond none ∨ c = .isLocked false) := by
  have h1 : ∀ m, checkAttach w { s with cfg := { s.cfg with nomap := m } } =
      (true, { s with cfg := { s.cfg with nomap := m } }) := by intro m; simp [checkAttach, h]
  have h2 : checkAttach w s = (true, s) := by simp [checkAttach, h]
  refine ⟨fun m => ?_, ?_, ?_⟩
  · rcases c with d | n | n | d
    · cases d
      · exact absurd rfl hc
      · simp [lockFront, h1, h2]
    · cases n <;> simp [lockFront, h1, h2]
    · cases n <;> simp [lockFront, h1, h2]
    · cases d <;> simp [lockFront, h1, h2]
  · rcases c with d | n | n | d
    · cases d <;> simp [lockFront, h2]
    · cases n <;> simp [lockFront, h2]
    · cases n <;> simp [lockFront, h2]
    · cases d <;> simp [lockFront, h2]
  · rcases c with d | n | n | d
    · cases d <;> simp_all [lockFront]
    · cases n <;> simp_all [lockFront]
    · cases n <;> simp_all [lockFront]
    · cases d <;> simp_all [lockFront]

/-- C46: a null name is refused with `EINVAL` in every mode, attached or not. -/
theorem C46_null_name (w : World) (s : Proc) :
    lockFront w s (.mutex none) = (.ret 22, s) ∧ lockFront w s (.cond none) = (.ret 22, s) := ⟨rfl, rfl⟩

/-- Calls other than a reinitialisation. -/
def noReinit : ConfCall → Prop
  | .init _ _ => False
  | .reinit _ _ _ _ _ => False
  | .lock w _ => w.shmOk [] = false
  | _ => True

/-- C46: after a start with automatic initialisation switched off the path of the segment is empty;
since no segment can be opened at the empty path, no later setting or lock call ever attaches, in
spite of the retry modes. -/
theorem C46_retry_needs_auto (w : World) (e : Env) (fs : Str → FStat) (s1 s2 : Proc)
    (ok : Bool) (h : initObject w e true { fs := fs } = some (ok, s1)) (v : Str)
    (hv : e .autoInit = some v) (hno : sameWord v "NO") (cs : List ConfCall)
    (hcs : ∀ c ∈ cs, noReinit c) (hr : confRun s1 cs = some s2) :
    ok = true ∧ s2.attached = false := by
  have hs1 : ok = true ∧ s1.attached = false ∧ s1.cfg.path = [] := by
    unfold initObject at h
    simp only [if_true] at h
    split at h
    · simp at h
    · rename_i c fs' hl
      have hauto : c.auto = false := by
        have := (C45_words w e _ c _ fs' hl).1.2 v hv
        exact this.1 "NO" false (by decide) hno
      have hpath : c.path = [] := by
        unfold loadEnv at hl
        split at hl
        · simp at hl
        · simp only [Option.some.injEq, Prod.mk.injEq] at hl; rw [← hl.1]
      rw [if_pos hauto] at h
      simp only [Option.some.injEq, Prod.mk.injEq] at h
      rw [← h.2]
      exact ⟨h.1.symm, rfl, hpath⟩
  refine ⟨hs1.1, ?_⟩
  have key : ∀ (cs : List ConfCall) (s : Proc), (∀ c ∈ cs, noReinit c) → s.attached = false →
      s.cfg.path = [] → confRun s cs = some s2 → s2.attached = false := by
    intro cs
    induction cs with
    | nil => intro s _ ha _ h; simp only [confRun, Option.some.injEq] at h; subst h; exact ha
    | cons c cs ih =>
      intro s hn ha hp h
      unfold confRun at h
      split at h
      · simp at h
      · rename_i s' hst
        have hc := hn c (by simp)
        have hinv : s'.attached = false ∧ s'.cfg.path = [] := by
          cases c with
          | robustMode m => simp only [confStep, setRobustMode, Option.some.injEq] at hst; subst hst; exact ⟨ha, hp⟩
          | nomapMode m => simp only [confStep, setNomapMode, Option.some.injEq] at hst; subst hst; exact ⟨ha, hp⟩
          | freeUnitMode m => simp only [confStep, setFreeUnitMode, Option.some.injEq] at hst; subst hst; exact ⟨ha, hp⟩
          | loopCnt v =>
            simp only [confStep, setRobustLoopCnt, Option.some.injEq] at hst; subst hst
            refine ⟨ha, ?_⟩
            simp only
            split_ifs <;> exact hp
          | areaCount p v => simp only [confStep, setAreaCount, Option.some.injEq] at hst; subst hst; exact ⟨ha, hp⟩
          | init w e => exact absurd hc id
          | reinit w e d f n => exact absurd hc id
          | lock w' c =>
            simp only [confStep, Option.some.injEq] at hst
            subst hst
            have hns : NoSegment w' s := ⟨ha, fun _ => by rw [hp]; exact hc⟩
            have hca := checkAttach_none w' s hns
            rcases lockFront_state w' s c with h | h
            · rw [h]; exact ⟨ha, hp⟩
            · rw [h, hca]; exact ⟨ha, hp⟩
        exact ih s' (fun x hx => hn x (by simp [hx])) hinv.1 hinv.2 h
  exact key cs s1 hcs hs1.2.1 hs1.2.2 hr

example : ∃ s1, initObject { goodWorld with shmOk := fun p => decide (p ≠ []) } (env1 .autoInit "no") true
    { fs := fun _ => .enoent } = some (true, s1) ∧ s1.attached = false := ⟨_, rfl, rfl⟩

/-! ### C44: reinitialisation -/

/-- The documented condition on the six counts. -/
def Acceptable (n : Pool → Nat) : Prop := ∀ p, n p = 0 ∨ (p.min ≤ n p ∧ n p ≤ p.max)

/-- C44, full: with directory and file name left to the defaults, in a system where everything
works, the call succeeds exactly for acceptable counts, and then the pools have the requested
numbers, or the defaults for 0. -/
def C44_full : Prop :=
  ∀ (s s' : Proc) (n : Pool → Nat) (ok : Bool),
    reinitObject goodWorld (fun _ => none) [] [] n s = some (ok, s') →
    (ok = true ↔ Acceptable n) ∧
    (ok = true → ∀ p, s'.cfg.cnt p = if n p = 0 then p.dflt else n p)

/-- All files are missing. -/
def emptyProc : Proc := { fs := fun _ => .enoent }

/-- Requested counts, one pool at a time. -/
def cnts (l : List (Pool × Nat)) : Pool → Nat := fun p => (l.lookup p).getD 0

/-- It fails: a waiter count of 99999 is accepted. -/
theorem C44_not_full : ¬ C44_full := by
  intro h
  have := (h emptyProc _ (cnts [(.waiter, 99999)]) true rfl).1.1 rfl .waiter
  revert this
  decide

/-- It fails in the other direction as well: asking for 4 lockers and nothing else is refused. -/
theorem C44_refused : reinitObject goodWorld (fun _ => none) [] [] (cnts [(.locker, 4)]) emptyProc =
    some (false, emptyProc) ∧ Acceptable (cnts [(.locker, 4)]) := by
  refine ⟨rfl, fun p => ?_⟩
  cases p <;> decide

/-- And a count of conditions or waiters set earlier survives a call that asks for the default. -/
theorem C44_default_kept : ∃ s', reinitObject goodWorld (fun _ => none) [] [] (fun _ => 0)
    { emptyProc with cfg := { cnt := fun _ => 7 } } = some (true, s') ∧ s'.cfg.cnt .ncond = 7 ∧
    s'.cfg.cnt .waiter = 7 ∧ s'.cfg.cnt .file = 128 := ⟨_, rfl, rfl, rfl, rfl⟩

theorem reinitCheck_iff (n : Pool → Nat) (h : n .locker = 0 ↔ n .waiter = 0) :
    reinitCheck n = true ↔ Acceptable n := by
  have hA : Acceptable n ↔
      (n .file = 0 ∨ (1 ≤ n .file ∧ n .file ≤ 2048)) ∧ (n .off = 0 ∨ (4 ≤ n .off ∧ n .off ≤ 16384)) ∧
      (n .locker = 0 ∨ (4 ≤ n .locker ∧ n .locker ≤ 16384)) ∧ (n .nmtx = 0 ∨ (1 ≤ n .nmtx ∧ n .nmtx ≤ 8192)) ∧
      (n .ncond = 0 ∨ (1 ≤ n .ncond ∧ n .ncond ≤ 8192)) ∧ (n .waiter = 0 ∨ (4 ≤ n .waiter ∧ n .waiter ≤ 16384)) := by
    constructor
    · intro h; exact ⟨h .file, h .off, h .locker, h .nmtx, h .ncond, h .waiter⟩
    · rintro ⟨h1, h2, h3, h4, h5, h6⟩ p
      cases p
      · exact h1
      · exact h2
      · exact h3
      · exact h4
      · exact h5
      · exact h6
  rw [hA]
  unfold reinitCheck
  simp only [Bool.not_eq_true', Bool.or_eq_false_iff, Bool.and_eq_false_iff, decide_eq_false_iff_not]
  simp only [Pool.min, Pool.max]
  omega

/-- C44, partial: as long as the counts of lockers and waiters are both given or both left to the
default, the counts pass exactly when all are in range; when they do not the call fails and nothing
at all has changed.  Missing: the waiter count is checked by the wrong guard, see above. -/
theorem C44_check_partial (n : Pool → Nat) (hg : n .locker = 0 ↔ n .waiter = 0) :
    (¬ Acceptable n → ∀ w e d f s, reinitObject w e d f n s = some (false, s)) ∧
    (Acceptable n → ∀ s : Proc, ∃ s', reinitObject goodWorld (fun _ => none) "/run".toList "x".toList n
      { s with fs := fun _ => .enoent } = some (true, s')) := by
  constructor
  · intro hn w e d f s
    have : reinitCheck n = false := by
      cases h : reinitCheck n
      · rfl
      · exact absurd ((reinitCheck_iff n hg).1 h) hn
    unfold reinitObject
    rw [if_pos this]
  · intro hn s
    have hc : reinitCheck n = true := (reinitCheck_iff n hg).2 hn
    unfold reinitObject
    rw [if_neg (by simp [hc])]
    exact ⟨_, rfl⟩

example : Acceptable (cnts [(.file, 10), (.locker, 4), (.waiter, 16384)]) := by
  intro p; cases p <;> decide

/-- What a successful reinitialisation leaves. -/
theorem reinit_success {w : World} {e : Env} {d f : Str} {n : Pool → Nat} {s s' : Proc}
    (h : reinitObject w e d f n s = some (true, s')) :
    ∃ fs1 c2 fs2 d', reinitDir w d s.fs = some (true, fs1) ∧
      loadEnv w e { s.cfg with
        dir := defaultDir fs1, file := "fullock.shm".toList, cnt := reinitReset s.cfg } fs1 = some (c2, fs2) ∧
      (d = [] → d' = c2.dir) ∧ (d ≠ [] → getRealPath w.cwd d = .ok d') ∧
      (f ≠ [] → '/' ∉ trim f) ∧
      s'.cfg = { c2 with
        auto := true,
        dir := if d' = [] then defaultDir fs2 else d',
        file := if f = [] then c2.file else trim f,
        path := (if d' = [] then defaultDir fs2 else d') ++ '/' :: (if f = [] then c2.file else trim f),
        cnt := fun p => if n p = 0 then c2.cnt p else n p } ∧
      s'.attached = true ∧ w.shmOk s'.cfg.path = true := by
  unfold reinitObject at h
  split at h
  · simp at h
  · split at h
    · simp at h
    · simp at h
    · rename_i fs1 hdir
      split at h
      · simp at h
      · rename_i hf
        simp only at h
        split at h
        · simp at h
        · rename_i c2 fs2 hl
          generalize hd : (if d = [] then some c2.dir else match getRealPath w.cwd d with
            | .ok top => some top | _ => none) = dd at h
          cases dd with
          | none => simp at h
          | some d' =>
            simp only at h
            refine ⟨fs1, c2, fs2, d', hdir, hl, ?_, ?_, ?_, ?_⟩
            · rintro rfl; simpa using hd.symm
            · intro hne
              rw [if_neg hne] at hd
              split at hd
              · rename_i top ht; simp only [Option.some.injEq] at hd; rw [ht, hd]
              · simp at hd
            · intro h1 h2; exact hf ⟨h1, h2⟩
            · unfold initObject initPath at h
              simp only [Bool.false_eq_true, if_false] at h
              split at h
              · simp at h
              · simp at h
              · simp only [Option.some.injEq] at h
                generalize hq : (if d' = [] then defaultDir fs2 else d') = q at h ⊢
                unfold initShm at h
                simp only [Bool.false_eq_true, if_false] at h
                by_cases hok : w.shmOk (q ++ ['/'] ++ (if f = [] then c2.file else trim f)) = true
                · rw [if_pos hok] at h
                  simp only [Prod.mk.injEq, true_and] at h
                  subst h
                  refine ⟨?_, rfl, hok⟩
                  simp
                · rw [if_neg hok] at h
                  simp at h

/-- The documented numbers of records: 128 files, 8192 ranges, lockers and waiters, 256 names. -/
def usual : Pool → Nat
  | .file => 128
  | .nmtx => 256
  | .ncond => 256
  | _ => 8192

/-- C44: after a successful call every count that was given is exactly the capacity; a count left to
the default is, for the files, offsets, lockers and mutexes, the default, unless its variable sets
it.  (For conditions and waiters it is the count from before, see `C44_default_kept`.) -/
theorem C44_capacity_partial (w : World) (e : Env) (d f : Str) (n : Pool → Nat) (s s' : Proc)
    (h : reinitObject w e d f n s = some (true, s')) (p : Pool) :
    (n p ≠ 0 → s'.cfg.cnt p = n p) ∧
    (n p = 0 → p ≠ .ncond → p ≠ .waiter → e (.cnt p) = none → s'.cfg.cnt p = usual p) ∧
    (n p = 0 → p = .ncond ∨ p = .waiter → e (.cnt p) = none → s'.cfg.cnt p = s.cfg.cnt p) ∧
    ({} : Config).cnt p = usual p ∧
    (n p = 0 → ∀ k, (∀ c c' fs fs', loadEnv w e c fs = some (c', fs') → c'.cnt p = k) →
      s'.cfg.cnt p = k) := by
  obtain ⟨fs1, c2, fs2, d', -, hl, -, -, -, hc, -, -⟩ := reinit_success h
  rw [hc]
  refine ⟨fun hn => if_neg hn, fun hn h1 h2 he => ?_, fun hn h1 he => ?_, by cases p <;> rfl, fun hn k hk => ?_⟩
  · simp only [hn, if_true]
    rw [(C45_unset w e _ c2 _ fs2 hl).1 p he]
    cases p <;> first | rfl | exact absurd rfl h1 | exact absurd rfl h2
  · simp only [hn, if_true]
    rw [(C45_unset w e _ c2 _ fs2 hl).1 p he]
    rcases h1 with rfl | rfl <;> rfl
  · simp only [hn, if_true]
    exact hk _ _ _ _ hl

/-- C44: after a successful call the segment is attached at the path made of the directory and the
file name; these are the ones given (resolved and trimmed), or those of the environment, or the
defaults. -/
theorem C44_path (w : World) (e : Env) (d f : Str) (n : Pool → Nat) (s s' : Proc)
    (h : reinitObject w e d f n s = some (true, s')) :
    s'.attached = true ∧ w.shmOk s'.cfg.path = true ∧
    s'.cfg.path = s'.cfg.dir ++ '/' :: s'.cfg.file ∧
    (d ≠ [] → ∀ top, getRealPath w.cwd d = .ok top → top ≠ [] → s'.cfg.dir = top) ∧
    (f ≠ [] → ∀ t, Trimmed (fun x => x = ' ' ∨ x = '\t' ∨ x = '\r' ∨ x = '\n') f t →
      s'.cfg.file = t ∧ '/' ∉ t) ∧
    (f = [] → e .fileName = none → s'.cfg.file = "fullock.shm".toList) := by
  obtain ⟨fs1, c2, fs2, d', -, hl, hd1, hd2, hf, hc, ha, hok⟩ := reinit_success h
  refine ⟨ha, hok, by rw [hc], ?_, ?_, ?_⟩
  · intro hne top ht htn
    have := hd2 hne
    rw [ht, PathRes.ok.injEq] at this
    subst this
    rw [hc]
    simp [htn]
  · intro hne t ht
    have he2 : (fun c => c = ' ' ∨ c = '\t' ∨ c = '\r' ∨ c = '\n') = (fun c : Char => c ∈ spaceChars) := by
      funext c; simp [spaceChars]
    rw [he2] at ht
    have := trimmed_unique _ f _ _ ht (trimmed_trim f spaceChars)
    rw [this, hc]
    exact ⟨by simp [hne], hf hne⟩
  · intro h0 he
    rw [hc]
    simp only [h0, if_true]
    exact (C45_file w e _ c2 _ fs2 hl).1 he

/-- C44: a reinitialisation that fails leaves the process as it was (except for directories made), or detached
and without the old path: what a later retry tries to attach to is nothing or the new segment, which could not be
made, never the old one. -/
theorem C44_failed (w : World) (e : Env) (d f : Str) (n : Pool → Nat) (s s' : Proc)
    (h : reinitObject w e d f n s = some (false, s')) :
    (s'.cfg = s.cfg ∧ s'.attached = s.attached) ∨
    (s'.attached = false ∧ (s'.cfg.path = [] ∨
      (s'.cfg.path = s'.cfg.dir ++ ['/'] ++ s'.cfg.file ∧ w.shmOk s'.cfg.path = false))) := by
  unfold reinitObject at h
  split at h
  · simp only [Option.some.injEq, Prod.mk.injEq] at h; rw [← h.2]; exact .inl ⟨rfl, rfl⟩
  · split at h
    · simp at h
    · simp only [Option.some.injEq, Prod.mk.injEq] at h; rw [← h.2]; exact .inl ⟨rfl, rfl⟩
    · rename_i fs1 hdir
      split at h
      · simp only [Option.some.injEq, Prod.mk.injEq] at h; rw [← h.2]; exact .inl ⟨rfl, rfl⟩
      · simp only at h
        split at h
        · simp at h
        · rename_i c2 fs2 hl
          generalize (if d = [] then some c2.dir else match getRealPath w.cwd d with
            | .ok top => some top | _ => none) = dd at h
          cases dd with
          | none => simp at h
          | some d' =>
            right
            simp only at h
            unfold initObject initPath at h
            simp only [Bool.false_eq_true, if_false] at h
            split at h
            · simp at h
            · simp only [Option.some.injEq, Prod.mk.injEq] at h; rw [← h.2]; exact ⟨rfl, .inl rfl⟩
            · simp only [Option.some.injEq] at h
              generalize hq : (if d' = [] then defaultDir fs2 else d') = q at h
              unfold initShm at h
              simp only [Bool.false_eq_true, if_false] at h
              by_cases hok : w.shmOk (q ++ ['/'] ++ (if f = [] then c2.file else trim f)) = true
              · rw [if_pos hok] at h
                simp at h
              · rw [if_neg hok] at h
                simp only [Prod.mk.injEq, true_and] at h
                subst h
                exact ⟨rfl, .inr ⟨rfl, by simpa using hok⟩⟩

/-- The hypothesis of `C44_failed` is met: the process was attached under /run, and the new directory, the
default one, cannot be made. -/
example : ∃ s', reinitObject { goodWorld with mkdir := fun _ => false } (fun _ => none) [] [] (fun _ => 0)
      { cfg := { path := "/run/x".toList }, fs := fun _ => .enoent, attached := true } = some (false, s') ∧
    s'.cfg.path = [] ∧ s'.attached = false := ⟨_, rfl, by decide, rfl⟩

/-- C44: modes and the retry limit are those of the environment, or those from before. -/
theorem C44_modes (w : World) (e : Env) (d f : Str) (n : Pool → Nat) (s s' : Proc)
    (h : reinitObject w e d f n s = some (true, s')) :
    SetsByWord nomapWords (e .nomapMode) s.cfg.nomap s'.cfg.nomap ∧
    SetsByWord robustWords (e .robustMode) s.cfg.robust s'.cfg.robust ∧
    SetsByWord freeUnitWords (e .freeUnitMode) s.cfg.freeUnit s'.cfg.freeUnit := by
  obtain ⟨fs1, c2, fs2, d', -, hl, -, -, -, hc, -, -⟩ := reinit_success h
  have := C45_words w e _ c2 _ fs2 hl
  rw [hc]
  exact this.2

example : ∃ s', reinitObject goodWorld (env1 .nomapMode "deny") "/run//x/./y".toList " my.shm".toList
    (cnts [(.file, 10), (.locker, 4), (.waiter, 100)]) emptyProc = some (true, s') ∧
    s'.cfg.path = "/run/x/y/my.shm".toList ∧ s'.cfg.cnt .file = 10 ∧ s'.cfg.cnt .off = 8192 :=
  ⟨_, rfl, by decide, by decide, by decide⟩

end Fullock.Props
