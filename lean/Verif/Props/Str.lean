import Verif.Proofs.Str
import Verif.Model.Dbg
import Mathlib.Logic.Function.Iterate
/-
Property theorems about strings, paths, the work directory and the debug control
(C48, C56, C58, C59).
-/
namespace Fullock.Props
open Fullock Fullock.Spec

/-! ### C56: trimming and debug mode -/

/-- C56: for all strings `trim` yields the text without its leading and trailing blanks, and that
is the only such text. -/
theorem C56_trim (base t : Str) :
    t = trim base ↔ Trimmed (fun c => c = ' ' ∨ c = '\t' ∨ c = '\r' ∨ c = '\n') base t := by
  have he : (fun c => c = ' ' ∨ c = '\t' ∨ c = '\r' ∨ c = '\n') = (fun c : Char => c ∈ spaceChars) := by
    funext c; simp [spaceChars]
  rw [he]
  constructor
  · rintro rfl; exact trimmed_trim base spaceChars
  · intro h; exact trimmed_unique _ base _ _ h (trimmed_trim base spaceChars)

example : trim " \ta b\r\n ".toList = "a b".toList := by decide
example : trim " \n ".toList = [] := by decide

/-- C56: trimming on one side removes exactly the blanks of that side. -/
theorem C56_one_side (base trims : Str) :
    (∃ l, base = l ++ ltrim base trims ∧ (∀ c ∈ l, c ∈ trims) ∧
      ∀ c ∈ (ltrim base trims).head?, c ∉ trims) ∧
    (∃ r, base = rtrim base trims ++ r ∧ (∀ c ∈ r, c ∈ trims) ∧
      ∀ c ∈ (rtrim base trims).getLast?, c ∉ trims) := by
  rw [ltrim_eq, rtrim_eq]
  constructor
  · obtain ⟨l, h1, h2⟩ := dropWhile_split (fun c => trims.contains c) base
    exact ⟨l, h1, fun c hc => by simpa using h2 c hc,
      fun c hc => by simpa using dropWhile_head (fun c => trims.contains c) base c hc⟩
  · obtain ⟨l, h1, h2⟩ := dropWhile_split (fun c => trims.contains c) base.reverse
    refine ⟨l.reverse, ?_, fun c hc => by simpa using h2 c (by simpa using hc), ?_⟩
    · simpa using congrArg List.reverse h1
    · intro c hc
      rw [List.getLast?_reverse] at hc
      simpa using dropWhile_head (fun c => trims.contains c) base.reverse c hc

/-- C56: bumping the debug mode four times visits every mode and returns to the first one; each
bump reports the mode it replaced and changes nothing else. -/
theorem C56_bump (s : Dbg) :
    (∀ m, m ∈ [s.mode, (dbgBump s).2.mode, (dbgBump (dbgBump s).2).2.mode,
      (dbgBump (dbgBump (dbgBump s).2).2).2.mode]) ∧
    (dbgBump (dbgBump (dbgBump (dbgBump s).2).2).2).2 = s ∧
    (dbgBump s).1 = s.mode ∧ (dbgBump s).2 = { s with mode := (dbgBump s).2.mode } ∧
    (s.mode ≠ .msg → s.mode.val < (dbgBump s).2.mode.val) := by
  rcases s with ⟨m, fp, o, c, u⟩
  cases m <;>
    refine ⟨fun m => by cases m <;> simp [dbgBump, dbgSetMode], rfl, rfl, rfl, ?_⟩ <;>
    simp [dbgBump, dbgSetMode, DbgMode.val]

/-- C56: after any number of bumps the mode is determined by the number modulo four. -/
theorem C56_bump_cycle (s : Dbg) (n : Nat) :
    (fun s => (dbgBump s).2)^[n] s = (fun s => (dbgBump s).2)^[n % 4] s := by
  have h4 : ∀ s, (fun s => (dbgBump s).2)^[4] s = s := fun s => (C56_bump s).2.1
  have hk : ∀ k s, (fun s => (dbgBump s).2)^[4 * k] s = s := by
    intro k
    induction k with
    | zero => intro s; rfl
    | succ k ih => intro s; rw [Nat.mul_succ, Function.iterate_add_apply, h4, ih]
  conv_lhs => rw [← Nat.mod_add_div n 4]
  rw [Function.iterate_add_apply, hk]

/-- C56: a message is printed exactly when its level does not exceed the mode. -/
theorem C56_filter (mode level : DbgMode) : dbgPrints mode level = true ↔ level.val ≤ mode.val := by
  cases mode <;> cases level <;> decide

/-- C56: the environment sets the mode by the words SILENT, ERR, WAN and INFO in any case of
letters; any other word is reported and leaves the mode as it was. -/
theorem C56_env (s : Dbg) (v : Str) (hub : s.ub = false) (hfp : ∀ h ∈ s.fp, h ∉ s.closed) :
    let word := fun w : String => v.map Char.toLower = w.toList.map Char.toLower
    (word "SILENT" → dbgLoadMode s (some v) = (true, { s with mode := .silent })) ∧
    (word "ERR" → dbgLoadMode s (some v) = (true, { s with mode := .err })) ∧
    (word "WAN" → dbgLoadMode s (some v) = (true, { s with mode := .warn })) ∧
    (word "INFO" → dbgLoadMode s (some v) = (true, { s with mode := .msg })) ∧
    (¬ word "SILENT" → ¬ word "ERR" → ¬ word "WAN" → ¬ word "INFO" →
      dbgLoadMode s (some v) = (false, s)) := by
  have hp : ∀ l, dbgPrint s l = s := by
    intro l
    unfold dbgPrint
    split
    · cases hf : s.fp with
      | none => rfl
      | some h => have := hfp h (by rw [hf]; rfl); simp [this]
    · rfl
  intro word
  have hw : ∀ w : String, strcaseEq v w.toList = true ↔ word w := fun w => strcaseEq_iff v w.toList
  unfold dbgLoadMode
  simp only [hw, hp, dbgSetMode]
  have hne : ∀ a b : String, a.toList.map Char.toLower ≠ b.toList.map Char.toLower → word a → ¬ word b :=
    fun a b h h1 h2 => h (h1.symm.trans h2)
  refine ⟨fun h => by simp [h], fun h => ?_, fun h => ?_, fun h => ?_, fun h1 h2 h3 h4 => ?_⟩
  · have := hne "ERR" "SILENT" (by decide) h; simp [h, this]
  · have h1 := hne "WAN" "SILENT" (by decide) h
    have h2 := hne "WAN" "ERR" (by decide) h; simp [h, h1, h2]
  · have h1 := hne "INFO" "SILENT" (by decide) h
    have h2 := hne "INFO" "ERR" (by decide) h
    have h3 := hne "INFO" "WAN" (by decide) h; simp [h, h1, h2, h3]
  · simp [h1, h2, h3, h4]

example : dbgLoadMode {} (some "wAn".toList) = (true, { mode := .warn }) := by decide
example : dbgLoadMode {} (some "WARN".toList) = (false, {}) := by decide

/-! ### C59: the debug file -/

/-- New streams are fresh. -/
def freshStreams : Dbg → List DbgCall → Prop
  | _, [] => True
  | s, c :: cs =>
    (match c with
      | .setFile _ _ (some h) => h ∉ s.opened
      | .loadEnv _ _ _ (some h) => h ∉ s.opened
      | _ => True) ∧ freshStreams (dbgStep s c) cs

/-- The stream in use is open, every other opened one has been closed, none twice. -/
def DbgOk (s : Dbg) : Prop :=
  s.opened.Nodup ∧ s.closed.Nodup ∧ (∀ h ∈ s.closed, h ∈ s.opened) ∧
  (∀ h, s.fp = some h ↔ h ∈ s.opened ∧ h ∉ s.closed)

theorem dbgPrint_eq (s : Dbg) (l : DbgMode) : dbgPrint s l = { s with ub := (dbgPrint s l).ub } := by
  unfold dbgPrint; split
  · split
    · rfl
    · split <;> rfl
  · rfl

theorem dbgOk_print (s : Dbg) (l : DbgMode) (h : DbgOk s) : DbgOk (dbgPrint s l) := by
  rw [dbgPrint_eq]; exact h

theorem dbgOk_unset (s : Dbg) (c : Bool) (h : DbgOk s) :
    DbgOk (dbgUnsetFile s c).2 ∧ (dbgUnsetFile s c).2.fp = none ∧
    (dbgUnsetFile s c).2.opened = s.opened := by
  obtain ⟨h1, h2, h3, h4⟩ := h
  unfold dbgUnsetFile
  cases hf : s.fp with
  | none => exact ⟨⟨h1, h2, h3, h4⟩, hf, rfl⟩
  | some k =>
    have hk := (h4 k).1 hf
    have hok : DbgOk { s with closed := k :: s.closed, fp := none } := by
      refine ⟨h1, List.nodup_cons.2 ⟨hk.2, h2⟩, ?_, ?_⟩
      · intro x hx
        rcases List.mem_cons.1 hx with rfl | hx
        · exact hk.1
        · exact h3 x hx
      · intro x
        constructor
        · intro e; simp at e
        · rintro ⟨hx, hn⟩
          have hn : x ≠ k ∧ x ∉ s.closed := by simpa using hn
          have : s.fp = some x := (h4 x).2 ⟨hx, hn.2⟩
          rw [hf] at this
          exact absurd (Option.some.inj this).symm hn.1
    simp only
    split
    · exact ⟨hok, rfl, rfl⟩
    · rw [dbgPrint_eq]
      exact ⟨hok, rfl, rfl⟩

theorem dbgOk_set (s : Dbg) (p : Str) (c : Bool) (f : Option Nat) (h : DbgOk s)
    (hf : ∀ k ∈ f, k ∉ s.opened) : DbgOk (dbgSetFile s p c f).2 := by
  unfold dbgSetFile
  split
  · exact dbgOk_print s _ h
  · have hu := dbgOk_unset s c h
    simp only
    split
    · exact hu.1
    · cases f with
      | none => exact dbgOk_print _ _ hu.1
      | some k =>
        obtain ⟨⟨h1, h2, h3, h4⟩, h5, h6⟩ := hu
        have hk := hf k rfl
        rw [← h6] at hk
        refine ⟨List.nodup_cons.2 ⟨hk, h1⟩, h2, fun x hx => List.mem_cons_of_mem _ (h3 x hx), ?_⟩
        intro x
        simp only [List.mem_cons, Option.some.injEq]
        constructor
        · rintro rfl; exact ⟨Or.inl rfl, fun hc => hk (h3 _ hc)⟩
        · rintro ⟨rfl | hx, hn⟩
          · rfl
          · have := (h4 x).2 ⟨hx, hn⟩; rw [h5] at this; simp at this

theorem dbgOk_loadMode (s : Dbg) (e : Option Str) (h : DbgOk s) :
    DbgOk (dbgLoadMode s e).2 ∧ (dbgLoadMode s e).2.opened = s.opened := by
  have hp := dbgPrint_eq s .msg
  unfold dbgLoadMode
  cases e with
  | none => rw [hp]; exact ⟨h, rfl⟩
  | some v =>
    simp only [dbgSetMode]
    split_ifs <;> first | exact ⟨h, rfl⟩ | (rw [hp]; exact ⟨h, rfl⟩)

/-- C59: in every history of calls to the debug control, whatever the stream library answers, at
any time exactly the stream in use is open, every stream replaced or given up has been closed
once. -/
theorem C59_streams (cs : List DbgCall) (s : Dbg) (h : DbgOk s) (hf : freshStreams s cs) :
    DbgOk (dbgRun s cs) := by
  induction cs generalizing s with
  | nil => exact h
  | cons c cs ih =>
    refine ih (dbgStep s c) ?_ hf.2
    cases c with
    | setMode m => exact h
    | bump => exact h
    | setFile p c f =>
      refine dbgOk_set s p c f h ?_
      cases f with
      | none => simp
      | some k => intro x hx; cases hx; exact hf.1
    | unsetFile c => exact (dbgOk_unset s c h).1
    | print l => exact dbgOk_print s l h
    | loadEnv m p c f =>
      obtain ⟨hm, ho⟩ := dbgOk_loadMode s m h
      simp only [dbgStep, dbgLoadEnv]
      split
      · exact hm
      · cases p with
        | none => exact dbgOk_print _ _ hm
        | some p =>
          have hs : DbgOk (dbgSetFile (dbgLoadMode s m).2 p c f).2 := by
            refine dbgOk_set _ p c f hm ?_
            rw [ho]
            cases f with
            | none => simp
            | some k => intro x hx; cases hx; exact hf.1
          simp only
          split
          · exact hs
          · exact dbgOk_print _ _ hs

/-- The initial state meets the premise, so do histories that replace files. -/
example : DbgOk {} ∧ freshStreams {} [.setFile ['a'] true (some 1), .setFile ['b'] true (some 2),
    .unsetFile true] := by
  refine ⟨⟨by simp, by simp, by simp, by simp⟩, ?_⟩
  simp [freshStreams, dbgStep, dbgSetFile, dbgUnsetFile]

/-- C59, full: in no history is a closed stream written to. -/
def C59_full : Prop :=
  ∀ cs : List DbgCall, freshStreams {} cs → (dbgRun {} cs).ub = false

/-- It fails: when closing the debug file fails the error message goes to the closed stream. -/
theorem C59_not_full : ¬ C59_full := by
  intro h
  have := h [.setMode .err, .setFile ['a'] true (some 1), .unsetFile false]
    (by simp [freshStreams, dbgStep, dbgSetFile, dbgUnsetFile, dbgSetMode])
  revert this
  decide

/-- The stream library reports success of every close. -/
def closesOk : DbgCall → Prop
  | .setFile _ c _ => c = true
  | .unsetFile c => c = true
  | .loadEnv _ _ c _ => c = true
  | _ => True

theorem ub_print (s : Dbg) (l : DbgMode) (h : DbgOk s) : (dbgPrint s l).ub = s.ub := by
  unfold dbgPrint
  split
  · cases hf : s.fp with
    | none => rfl
    | some k => simp [((h.2.2.2 k).1 hf).2]
  · rfl

theorem ub_unset (s : Dbg) : (dbgUnsetFile s true).2.ub = s.ub := by
  unfold dbgUnsetFile; cases s.fp <;> rfl

theorem ub_set (s : Dbg) (p : Str) (f : Option Nat) (h : DbgOk s) :
    (dbgSetFile s p true f).2.ub = s.ub := by
  unfold dbgSetFile
  have hu := ub_unset s
  have ho := (dbgOk_unset s true h).1
  split
  · exact ub_print s _ h
  · simp only
    split
    · exact hu
    · cases f with
      | none => simp only; rw [ub_print _ _ ho, hu]
      | some k => exact hu

theorem ub_loadMode (s : Dbg) (e : Option Str) (h : DbgOk s) : (dbgLoadMode s e).2.ub = s.ub := by
  have hp := ub_print s .msg h
  unfold dbgLoadMode
  cases e with
  | none => exact hp
  | some v =>
    simp only [dbgSetMode]
    split_ifs <;> first | rfl | exact hp

/-- C59, partial: as long as no close is reported to have failed no closed stream is written to. -/
theorem C59_no_use_after_close_partial (cs : List DbgCall) (s : Dbg) (h : DbgOk s)
    (hub : s.ub = false) (hf : freshStreams s cs) (hc : ∀ c ∈ cs, closesOk c) :
    (dbgRun s cs).ub = false := by
  induction cs generalizing s with
  | nil => exact hub
  | cons c cs ih =>
    have h1 : DbgOk (dbgStep s c) := C59_streams [c] s h ⟨hf.1, trivial⟩
    refine ih (dbgStep s c) h1 ?_ hf.2 (fun x hx => hc x (List.mem_cons_of_mem _ hx))
    have hcc := hc c List.mem_cons_self
    cases c with
    | setMode m => exact hub
    | bump => exact hub
    | setFile p c f => simp only [closesOk] at hcc; subst hcc; simp only [dbgStep]; rw [ub_set s p f h, hub]
    | unsetFile c => simp only [closesOk] at hcc; subst hcc; simp only [dbgStep]; rw [ub_unset, hub]
    | print l => simp only [dbgStep]; rw [ub_print s l h, hub]
    | loadEnv m p c f =>
      simp only [closesOk] at hcc; subst hcc
      obtain ⟨hm, ho⟩ := dbgOk_loadMode s m h
      have hum := ub_loadMode s m h
      simp only [dbgStep, dbgLoadEnv]
      split
      · rw [hum, hub]
      · cases p with
        | none => simp only; rw [ub_print _ _ hm, hum, hub]
        | some p =>
          have hus := ub_set (dbgLoadMode s m).2 p f hm
          have hs : DbgOk (dbgSetFile (dbgLoadMode s m).2 p true f).2 := by
            refine dbgOk_set _ p true f hm ?_
            rw [ho]
            cases f with
            | none => simp
            | some k => intro x hx; cases hx; exact hf.1
          simp only
          split
          · rw [hus, hum, hub]
          · rw [ub_print _ _ hs, hus, hum, hub]

example : ∃ cs : List DbgCall, freshStreams {} cs ∧ (∀ c ∈ cs, closesOk c) ∧ (dbgRun {} cs).fp = some 2 :=
  ⟨[.setMode .msg, .setFile ['a'] true (some 1), .setFile ['b'] true (some 2)],
    by simp [freshStreams, dbgStep, dbgSetFile, dbgUnsetFile, dbgSetMode],
    by simp [closesOk], by decide⟩

/-- C59: a successful call makes the named file the one in use; a failed one never leaves a
stream of an earlier call half replaced: messages go to standard error, or, if the name was empty,
to the same file as before. -/
theorem C59_set (s : Dbg) (p : Str) (c : Bool) (f : Option Nat) :
    ((dbgSetFile s p c f).1 = true → p ≠ [] ∧ f ≠ none ∧ (dbgSetFile s p c f).2.fp = f) ∧
    ((dbgSetFile s p c f).1 = false → (dbgSetFile s p c f).2.fp = if p = [] then s.fp else none) := by
  have hp : ∀ (s : Dbg) l, (dbgPrint s l).fp = s.fp := fun s l => by rw [dbgPrint_eq]
  have hu : (dbgUnsetFile s c).2.fp = none := by
    unfold dbgUnsetFile
    cases hf : s.fp with
    | none => exact hf
    | some h => cases c <;> rfl
  unfold dbgSetFile
  by_cases hpe : p = []
  · simp [hpe, hp]
  · simp only [hpe, if_false]
    split
    · simp [hu]
    · cases f with
      | none => simp [hp, hu]
      | some k => simp [hpe]

/-- The mode a word of the environment stands for. -/
def modeWords : List (String × DbgMode) :=
  [("silent", .silent), ("err", .err), ("wan", .warn), ("info", .msg)]

/-- C59: reading the environment succeeds exactly when the mode variable is unset or one of the four words
in any case, and the file variable is unset or names a file that can be made the log file.  A known word
becomes the mode.  An unknown word leaves mode and log file as they were, the file variable is then not
looked at. -/
theorem C59_load (s : Dbg) (em ef : Option Str) (c : Bool) (f : Option Nat) :
    let known := ∀ v, em = some v → ∃ x ∈ modeWords, v.map Char.toLower = x.1.toList
    ((dbgLoadEnv s em ef c f).1 = true ↔
      known ∧ ∀ p, ef = some p → p ≠ [] ∧ f ≠ none ∧ (s.fp = none ∨ c = true)) ∧
    (∀ v, em = some v → ∀ x ∈ modeWords, v.map Char.toLower = x.1.toList → (dbgLoadEnv s em ef c f).2.mode = x.2) ∧
    (em = none → (dbgLoadEnv s em ef c f).2.mode = s.mode) ∧
    (¬ known → (dbgLoadEnv s em ef c f).2.mode = s.mode ∧ (dbgLoadEnv s em ef c f).2.fp = s.fp) := by
  have hpr : ∀ (s : Dbg) l, (dbgPrint s l).mode = s.mode ∧ (dbgPrint s l).fp = s.fp := by
    intro s l; rw [dbgPrint_eq]; exact ⟨rfl, rfl⟩
  have hsf : ∀ (s : Dbg) p, (dbgSetFile s p c f).2.mode = s.mode ∧
      ((dbgSetFile s p c f).1 = true ↔ p ≠ [] ∧ f ≠ none ∧ (s.fp = none ∨ c = true)) := by
    intro s p
    unfold dbgSetFile dbgUnsetFile
    by_cases hp : p = []
    · simp [hp, hpr]
    · cases hfp : s.fp <;> cases c <;> cases f <;> simp [hp, hpr]
  have hlm : ∃ b m, (dbgLoadMode s em).1 = b ∧ (dbgLoadMode s em).2.mode = m ∧ (dbgLoadMode s em).2.fp = s.fp ∧
      (b = true ↔ ∀ v, em = some v → ∃ x ∈ modeWords, v.map Char.toLower = x.1.toList) ∧
      (∀ v, em = some v → ∀ x ∈ modeWords, v.map Char.toLower = x.1.toList → m = x.2) ∧
      (em = none → m = s.mode) ∧ (b = false → m = s.mode) := by
    refine ⟨_, _, rfl, rfl, ?_⟩
    cases em with
    | none => simp [dbgLoadMode, hpr]
    | some v =>
      have e1 : ("SILENT".toList).map Char.toLower = "silent".toList := by decide
      have e2 : ("ERR".toList).map Char.toLower = "err".toList := by decide
      have e3 : ("WAN".toList).map Char.toLower = "wan".toList := by decide
      have e4 : ("INFO".toList).map Char.toLower = "info".toList := by decide
      simp only [dbgLoadMode, strcaseEq_iff, e1, e2, e3, e4, modeWords, dbgSetMode, Option.some.injEq, forall_eq']
      generalize v.map Char.toLower = u
      split_ifs with h1 h2 h3 h4
      · subst h1; simp
      · subst h2; simp
      · subst h3; simp
      · subst h4; simp
      · simp at h1 h2 h3 h4; simp [h1, h2, h3, h4, hpr]
  obtain ⟨b, m, h1, h2, h3, h4, h5, h6, h7⟩ := hlm
  simp only [dbgLoadEnv, h1]
  rw [← h4]
  cases b with
  | false => exact ⟨by simp, by simpa [h2] using h5, by simp [h2, h7], by simp [h2, h3, h7]⟩
  | true =>
    cases ef with
    | none => exact ⟨by simp, by simpa [hpr, h2] using h5, by simpa [hpr, h2] using h6, by simp⟩
    | some p =>
      have := hsf (dbgLoadMode s em).2 p
      rw [h3, h2] at this
      obtain ⟨g1, g2⟩ := this
      simp only [Bool.true_eq_false, if_false]
      by_cases hb : (dbgSetFile (dbgLoadMode s em).2 p c f).1 = true
      · have := g2.1 hb
        simp only [hb, if_true, g1]
        refine ⟨by simpa using this, h5, h6, by simp⟩
      · have := mt g2.2 hb
        rw [if_neg hb]
        have e := (hpr (dbgSetFile (dbgLoadMode s em).2 p c f).2 .msg).1.trans g1
        refine ⟨?_, fun v h x hx hv => e.trans (h5 v h x hx hv), fun h => e.trans (h6 h), by simp⟩
        simpa using this

example : (dbgLoadEnv {} (some "Info".toList) (some "/x".toList) true (some 1)).1 = true ∧
    (dbgLoadEnv {} (some "all".toList) none true none).1 = false := by decide

/-- The mode after a call. -/
def modeAfter (m : DbgMode) : DbgCall → DbgMode
  | .setMode x => x
  | .bump => match m with
    | .silent => .err
    | .err => .warn
    | .warn => .msg
    | .msg => .silent
  | .loadEnv (some v) _ _ _ => ((modeWords.find? fun x => v.map Char.toLower == x.1.toList).map Prod.snd).getD m
  | _ => m

/-- The file after a call that names one: it is used if it can be opened and the one in use can be closed. -/
def named (fp : Option Nat) (p : Str) (c : Bool) (f : Option Nat) : Option Nat :=
  if p = [] then fp else if fp = none ∨ c = true then f else none

/-- The file in use after a call. -/
def fileAfter (fp : Option Nat) : DbgCall → Option Nat
  | .setFile p c f => named fp p c f
  | .unsetFile _ => none
  | .loadEnv none (some p) c f => named fp p c f
  | .loadEnv (some v) (some p) c f => if modeWords.any fun x => v.map Char.toLower == x.1.toList then named fp p c f else fp
  | _ => fp

theorem loadMode_eq (s : Dbg) (v : Str) :
    (dbgLoadMode s (some v)).1 = (modeWords.any fun x => v.map Char.toLower == x.1.toList) ∧
    (dbgLoadMode s (some v)).2.mode = ((modeWords.find? fun x => v.map Char.toLower == x.1.toList).map Prod.snd).getD s.mode ∧
    (dbgLoadMode s (some v)).2.fp = s.fp := by
  have hpr : ∀ (s : Dbg) l, (dbgPrint s l).mode = s.mode ∧ (dbgPrint s l).fp = s.fp := by
    intro s l; rw [dbgPrint_eq]; exact ⟨rfl, rfl⟩
  have e1 : ("SILENT".toList).map Char.toLower = "silent".toList := by decide
  have e2 : ("ERR".toList).map Char.toLower = "err".toList := by decide
  have e3 : ("WAN".toList).map Char.toLower = "wan".toList := by decide
  have e4 : ("INFO".toList).map Char.toLower = "info".toList := by decide
  simp only [dbgLoadMode, strcaseEq_iff, e1, e2, e3, e4, modeWords, dbgSetMode]
  generalize v.map Char.toLower = u
  split_ifs with h1 h2 h3 h4
  · subst h1; exact ⟨by show true = _; decide, by show DbgMode.silent = _; generalize s.mode = m; cases m <;> decide, rfl⟩
  · subst h2; exact ⟨by show true = _; decide, by show DbgMode.err = _; generalize s.mode = m; cases m <;> decide, rfl⟩
  · subst h3; exact ⟨by show true = _; decide, by show DbgMode.warn = _; generalize s.mode = m; cases m <;> decide, rfl⟩
  · subst h4; exact ⟨by show true = _; decide, by show DbgMode.msg = _; generalize s.mode = m; cases m <;> decide, rfl⟩
  · have g1 := beq_eq_false_iff_ne.2 h1
    have g2 := beq_eq_false_iff_ne.2 h2
    have g3 := beq_eq_false_iff_ne.2 h3
    have g4 := beq_eq_false_iff_ne.2 h4
    simp only [List.find?, List.any, g1, g2, g3, g4, hpr]
    exact ⟨rfl, rfl, trivial⟩

/-- C59: mode and file after any calls. -/
theorem C59_calls (cs : List DbgCall) (s : Dbg) :
    (dbgRun s cs).mode = cs.foldl modeAfter s.mode ∧ (dbgRun s cs).fp = cs.foldl fileAfter s.fp := by
  have hpr : ∀ (s : Dbg) l, (dbgPrint s l).mode = s.mode ∧ (dbgPrint s l).fp = s.fp := by
    intro s l; rw [dbgPrint_eq]; exact ⟨rfl, rfl⟩
  have hset : ∀ (s : Dbg) p c f, (dbgSetFile s p c f).2.mode = s.mode ∧ (dbgSetFile s p c f).2.fp = named s.fp p c f := by
    intro s p c f
    unfold dbgSetFile dbgUnsetFile named
    by_cases hp : p = []
    · simp [hp, hpr]
    · cases hfp : s.fp <;> cases c <;> cases f <;> simp [hp, hpr, hfp]
  have step : ∀ (s : Dbg) c, (dbgStep s c).mode = modeAfter s.mode c ∧ (dbgStep s c).fp = fileAfter s.fp c := by
    intro s c
    cases c with
    | setMode m => exact ⟨rfl, rfl⟩
    | bump => cases h : s.mode <;> simp [dbgStep, dbgBump, dbgSetMode, modeAfter, fileAfter, h]
    | setFile p c f => exact hset s p c f
    | unsetFile c =>
      simp only [dbgStep, dbgUnsetFile, modeAfter, fileAfter]
      cases hfp : s.fp <;> cases c <;> simp [hpr, hfp]
    | print l => exact hpr s l
    | loadEnv em ef c f =>
      have h0 : (dbgLoadMode s em).2.fp = s.fp ∧
          (dbgLoadMode s em).2.mode = modeAfter s.mode (.loadEnv em ef c f) := by
        cases em with
        | none => exact ⟨(hpr s .msg).2, (hpr s .msg).1⟩
        | some v => exact ⟨(loadMode_eq s v).2.2, (loadMode_eq s v).2.1⟩
      have hb : (dbgLoadMode s em).1 = match em with
          | none => true
          | some v => modeWords.any fun x => v.map Char.toLower == x.1.toList := by
        cases em with
        | none => rfl
        | some v => exact (loadMode_eq s v).1
      simp only [dbgStep, dbgLoadEnv]
      cases hk : (dbgLoadMode s em).1 with
      | false =>
        rw [hk] at hb
        cases em with
        | none => cases hb
        | some v =>
          simp only [if_true, h0, fileAfter]
          cases ef with
          | none => simp [modeAfter]
          | some p => simp only at hb; simp [← hb, modeAfter]
      | true =>
        rw [hk] at hb
        cases ef with
        | none => simp [hpr, h0, fileAfter]
        | some p =>
          have h1 := hset (dbgLoadMode s em).2 p c f
          rw [h0.1, h0.2] at h1
          have h2 : named s.fp p c f = fileAfter s.fp (.loadEnv em (some p) c f) := by
            cases em with
            | none => rfl
            | some v => simp only at hb; simp [fileAfter, ← hb]
          simp only [Bool.true_eq_false, if_false]
          split
          · exact ⟨h1.1, h1.2.trans h2⟩
          · exact ⟨(hpr _ _).1.trans h1.1, (hpr _ _).2.trans (h1.2.trans h2)⟩
  induction cs generalizing s with
  | nil => exact ⟨rfl, rfl⟩
  | cons c cs ih =>
    have := ih (dbgStep s c)
    rw [(step s c).1, (step s c).2] at this
    exact this

example : (dbgRun {} [.bump, .setFile ['a'] true (some 1), .loadEnv (some "Info".toList) (some ['b']) true (some 2), .bump]).mode =
    .silent := by decide

/-! ### C48: paths -/

/-- C48: for all names, working directories and ways to cut the path into components: if following
the components from the root stays inside the tree, the result spells the directory reached, and
keeps a trailing slash. -/
theorem C48_resolves (cwd p : Str) (hp : p ≠ []) (cs : List Str)
    (hc : Components (fullPath cwd p) cs) (pos : List Str) (hw : walk [] cs = some pos) :
    ∃ r, getRealPath (some cwd) p = .ok r ∧ NormalChain pos ∧
      r = (pos.map ('/' :: ·)).flatten ++ (if cs.getLast hc.1 = [] then ['/'] else []) := by
  have h := getRealPath_cases cwd p hp cs hc
  rw [hw] at h
  refine ⟨_, h, walk_normal cs hc.2.1 [] pos (by simp [NormalChain]) hw, ?_⟩
  rw [joinLeaves_eq]
  by_cases hl : cs.getLast hc.1 = [] <;> simp [hl]

example : ∃ cs pos, Components (fullPath "/w/d".toList "../x//./y/".toList) cs ∧
    walk [] cs = some pos ∧ pos = ["w".toList, "x".toList, "y".toList] :=
  ⟨["".toList, "w".toList, "d".toList, "..".toList, "x".toList, "".toList, ".".toList, "y".toList,
    "".toList], _, ⟨by decide, by decide, by decide⟩, by decide, rfl⟩

/-- Every path has components. -/
theorem C48_components (t : Str) : ∃ cs, Components t cs := exists_components t

/-- C48, full: every result is the absolute path of a chain of names in normal form, apart from a
trailing slash, and a path that climbs above the root is refused. -/
def C48_full : Prop :=
  (∀ cwd p r, getRealPath (some cwd) p = .ok r →
    ∃ pos, NormalChain pos ∧ (r = absPath pos ∨ r = absPath pos ++ ['/'])) ∧
  (∀ cwd p cs, p ≠ [] → Components (fullPath cwd p) cs → walk [] cs = none →
    getRealPath (some cwd) p = .fail)

/-- The second part fails: `/..` runs into undefined behaviour. -/
theorem C48_not_full : ¬ C48_full := by
  intro h
  have := h.2 [] "/..".toList ["".toList, "..".toList] (by decide) ⟨by decide, by decide, by decide⟩
    (by decide)
  revert this
  decide

/-- The first part fails as well: the root written as `/.` yields the empty string. -/
theorem C48_not_root : getRealPath (some []) "/.".toList = .ok [] ∧
    ∀ pos, [] ≠ absPath pos ∧ [] ≠ absPath pos ++ ['/'] := by
  refine ⟨by decide, fun pos => ⟨by simp [absPath], by simp⟩⟩

/-- C48: every path that climbs above the root runs into undefined behaviour, none is refused. -/
theorem C48_escape (cwd p : Str) (hp : p ≠ []) (cs : List Str)
    (hc : Components (fullPath cwd p) cs) (hw : walk [] cs = none) :
    getRealPath (some cwd) p = .ub := by
  rw [getRealPath_cases cwd p hp cs hc, hw]

/-- C48, partial: when the path does not lead to the root itself, or keeps a trailing slash, the
result is the absolute path of the directory reached.  Missing: the root without trailing slash
and paths above the root. -/
theorem C48_normal_partial (cwd p : Str) (hp : p ≠ []) (cs : List Str)
    (hc : Components (fullPath cwd p) cs) (pos : List Str) (hw : walk [] cs = some pos)
    (hne : pos ≠ []) :
    NormalChain pos ∧ getRealPath (some cwd) p =
      .ok (absPath pos ++ (if cs.getLast hc.1 = [] then ['/'] else [])) := by
  obtain ⟨r, h1, h2, h3⟩ := C48_resolves cwd p hp cs hc pos hw
  refine ⟨h2, ?_⟩
  rw [h1, h3, absPath_cons pos hne]

/-- C48: the empty name is refused. -/
theorem C48_empty (cwd : Option Str) : getRealPath cwd [] = .fail := rfl

theorem last_join (pos : List Str) (b : Bool) (hn : NormalChain pos) (hne : pos ≠ [] ∨ b = true)
    (h : [] :: pos ++ (if b then [[]] else []) ≠ []) :
    decide (([] :: pos ++ (if b then [[]] else [])).getLast h = []) = b := by
  cases b with
  | true => simp
  | false =>
    simp only [Bool.false_eq_true, if_false, List.append_nil, decide_eq_false_iff_not]
    obtain ⟨a, l, rfl⟩ := List.exists_cons_of_ne_nil (hne.resolve_right (by simp))
    intro he
    have : ([] :: a :: l : List Str).getLast (by simp) ∈ a :: l := by
      rw [List.getLast_cons (by simp)]; exact List.getLast_mem _
    rw [he] at this
    exact (hn _ this).1 rfl

/-- C48: a result is a fixed point: resolving it again, in any working directory, changes
nothing. -/
theorem C48_idempotent (cwd cwd' p r : Str) (h : getRealPath (some cwd) p = .ok r) (hr : r ≠ []) :
    getRealPath (some cwd') r = .ok r := by
  have hp : p ≠ [] := by rintro rfl; simp [getRealPath] at h
  obtain ⟨cs, hc⟩ := exists_components (fullPath cwd p)
  have h1 := getRealPath_cases cwd p hp cs hc
  rw [h] at h1
  cases hw : walk [] cs with
  | none => rw [hw] at h1; simp at h1
  | some pos =>
    rw [hw] at h1
    simp only [PathRes.ok.injEq] at h1
    have hn := walk_normal cs hc.2.1 [] pos (by simp [NormalChain]) hw
    set b := decide (cs.getLast hc.1 = []) with hb
    have hhead : r.head? = some '/' := by
      rw [h1, joinLeaves_eq] at hr ⊢
      cases pos with
      | nil => cases hbv : b <;> rw [hbv] at hr <;> simp at hr ⊢
      | cons a pos => simp
    have hc2 : Components (fullPath cwd' r) ([] :: pos ++ (if b then [[]] else [])) := by
      unfold fullPath
      rw [if_pos hhead, h1]
      exact components_join pos hn b
    rw [getRealPath_cases cwd' r hr _ hc2]
    have hwalk : ∀ (l q : List Str), NormalChain l → ∀ m, walk q (l ++ m) = walk (q ++ l) m := by
      intro l
      induction l with
      | nil => intro q _ m; simp
      | cons c l ih =>
        intro q hl m
        have h0 := hl c (by simp)
        rw [List.cons_append, walk, if_neg (by rintro (h | h); exact h0.1 h; exact h0.2.1 h),
          if_neg h0.2.2.1, ih (q ++ [c]) (fun x hx => hl x (by simp [hx]))]
        simp
    have hw2 : walk [] ([] :: pos ++ (if b then [[]] else [])) = some pos := by
      rw [List.cons_append, walk, if_pos (Or.inl rfl), hwalk pos [] hn]
      cases b <;> simp [walk]
    rw [hw2]
    simp only
    conv_rhs => rw [h1]
    congr 2
    refine last_join pos b hn ?_ _
    by_contra hcon
    push Not at hcon
    rw [h1, hcon.1, Bool.eq_false_iff.2 hcon.2] at hr
    simp [joinLeaves] at hr

example : getRealPath (some "/w".toList) "a/../b".toList = .ok "/w/b".toList := by decide

/-! ### C58: the work directory -/

/-- C58: creating the work directory touches nothing but the directories of the path: whatever
existed stays as it was, new are only directories along the path, in every outcome. -/
theorem C58_frame (cwd p : Str) (mk : Str → Bool) (fs fs' : Str → FStat) (ok : Bool)
    (h : makeWorkDirectory (some cwd) mk p fs = some (ok, fs')) (q : Str) :
    fs' q = fs q ∨ (fs q = .enoent ∧ mk q = true ∧ fs' q = .node sIfDir ∧
      ∃ r cs pos, getRealPath (some cwd) p = .ok r ∧ Components (fullPath cwd p) cs ∧
        walk [] cs = some pos ∧ DirPrefix pos q) := by
  unfold makeWorkDirectory at h
  split at h
  · simp at h; left; rw [h.2]
  · rename_i hp
    obtain ⟨cs, hc⟩ := exists_components (fullPath cwd p)
    have h1 := getRealPath_cases cwd p (by intro e; exact hp e) cs hc
    split at h
    · simp at h; left; rw [h.2]
    · simp at h
    · rename_i r hr
      rw [hr] at h1
      cases hw : walk [] cs with
      | none => rw [hw] at h1; simp at h1
      | some pos =>
        rw [hw] at h1
        simp only [PathRes.ok.injEq] at h1
        have hn := walk_normal cs hc.2.1 [] pos (by simp [NormalChain]) hw
        rw [h1, pathLeaves_join_normal pos hn] at h
        simp only [Option.some.injEq] at h
        have hf := makeDirs_frame mk pos [] fs q
        rw [h] at hf
        rcases hf.1 with hf1 | ⟨a, b, c⟩
        · exact Or.inl hf1
        · by_cases hv : q ∈ visited [] pos
          · exact Or.inr ⟨a, b, c, r, cs, pos, hr, hc, hw, (visited_prefix pos q).1 hv⟩
          · exact Or.inl (hf.2 hv)

/-- The full claim: after success every directory of the path exists. -/
def C58_full : Prop :=
  ∀ cwd p mk fs fs' cs pos, makeWorkDirectory (some cwd) mk p fs = some (true, fs') →
    Components (fullPath cwd p) cs → walk [] cs = some pos →
    ∀ q, DirPrefix pos q → fs' q = .node sIfDir

/-- It fails: a socket (type 0xc000) in the place of a directory is accepted. -/
theorem C58_not_full : ¬ C58_full := by
  intro h
  have := h [] "/s".toList (fun _ => true) (fun _ => .node 0xc000) _ ["".toList, "s".toList]
    ["s".toList] rfl ⟨by decide, by decide, by decide⟩ (by decide) "/s".toList
    ⟨0, by decide, by decide⟩
  revert this
  decide

theorem mwd_makeDirs (cwd p : Str) (hp : p ≠ []) (mk : Str → Bool) (fs : Str → FStat) (cs pos : List Str)
    (hc : Components (fullPath cwd p) cs) (hw : walk [] cs = some pos) :
    makeWorkDirectory (some cwd) mk p fs = some (makeDirs mk [] pos fs) := by
  have h1 := getRealPath_cases cwd p hp cs hc
  rw [hw] at h1
  have hn := walk_normal cs hc.2.1 [] pos (by simp [NormalChain]) hw
  unfold makeWorkDirectory
  split
  · exact absurd rfl hp
  · rw [h1]
    simp only
    rw [pathLeaves_join_normal pos hn]

/-- The types of file the test of a directory tells apart: no block device, no socket. -/
def plainTypes (fs : Str → FStat) : Prop :=
  ∀ q fmt, fs q = .node fmt → fmt ∈ [0x1000, 0x2000, 0x4000, 0x8000, 0xa000]

/-- C58, partial: success means that every directory of the path exists, unless a block device or
a socket stands in the place of a directory. -/
theorem C58_creates_partial (cwd p : Str) (mk : Str → Bool) (fs fs' : Str → FStat)
    (cs pos : List Str) (h : makeWorkDirectory (some cwd) mk p fs = some (true, fs'))
    (hc : Components (fullPath cwd p) cs) (hw : walk [] cs = some pos) (hfs : plainTypes fs)
    (q : Str) (hq : DirPrefix pos q) : fs' q = .node sIfDir := by
  have hp : p ≠ [] := by rintro rfl; simp [makeWorkDirectory] at h
  rw [mwd_makeDirs cwd p hp mk fs cs pos hc hw] at h
  simp only [Option.some.injEq] at h
  have h1 : (makeDirs mk [] pos fs).1 = true := by rw [h]
  have h2 : (makeDirs mk [] pos fs).2 = fs' := by rw [h]
  obtain ⟨fmt, hf, hd⟩ := makeDirs_ok mk pos [] fs h1 q ((visited_prefix pos q).2 hq)
  rcases (makeDirs_frame mk pos [] fs q).1 with he | ⟨_, _, he⟩
  · rw [h2] at hf he
    rw [hf]
    rw [he] at hf
    have := hfs q fmt hf
    simp only [List.mem_cons, List.not_mem_nil, or_false] at this
    rcases this with rfl | rfl | rfl | rfl | rfl
    · exact absurd rfl hd
    · exact absurd rfl hd
    · rfl
    · exact absurd rfl hd
    · exact absurd rfl hd
  · rw [← h2]; exact he

/-- A missing directory below an existing one is created. -/
example : ∃ fs', makeWorkDirectory (some []) (fun _ => true) "/a/b".toList
    (fun q => if q = "/a".toList then .node sIfDir else .enoent) = some (true, fs') ∧
    fs' "/a/b".toList = .node sIfDir ∧ fs' "/b".toList = .enoent :=
  ⟨_, rfl, by decide, by decide⟩

/-- C58: failure is reported only when something on the path cannot be inspected, is no directory,
or cannot be created; or the name was empty. -/
theorem C58_failure (cwd p : Str) (hp : p ≠ []) (mk : Str → Bool) (fs fs' : Str → FStat)
    (cs pos : List Str) (h : makeWorkDirectory (some cwd) mk p fs = some (false, fs'))
    (hc : Components (fullPath cwd p) cs) (hw : walk [] cs = some pos) :
    ∃ q, DirPrefix pos q ∧ (fs q = .err ∨ (∃ fmt, fs q = .node fmt ∧ fmt ≠ sIfDir) ∨
      (fs q = .enoent ∧ mk q = false)) := by
  rw [mwd_makeDirs cwd p hp mk fs cs pos hc hw] at h
  simp only [Option.some.injEq] at h
  obtain ⟨q, hq, hh⟩ := makeDirs_fail mk pos [] fs (by rw [h])
  refine ⟨q, (visited_prefix pos q).1 hq, ?_⟩
  rcases hh with hh | ⟨fmt, h1, h2⟩ | hh
  · exact Or.inl hh
  · exact Or.inr (Or.inl ⟨fmt, h1, by rintro rfl; revert h2; decide⟩)
  · exact Or.inr (Or.inr hh)

example : (makeWorkDirectory (some []) (fun _ => false) "/a".toList (fun _ => .enoent)).map Prod.fst
    = some false := by decide

end Fullock.Props
