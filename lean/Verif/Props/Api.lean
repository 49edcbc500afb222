import Verif.Model.Api
import Verif.Props.Config
/-
C64-C66: the public C functions.
-/
namespace Fullock.Props
open Fullock.Api

/-! ### C65: what the public calls ask for -/

/-- How long a request waits, as the user of a timed call sees it. -/
inductive Patience where
  | forever | once | limited
deriving DecidableEq

/-- The timeout argument, /repo/lib/fullock.h and README: -1 for ever, 0 try. -/
def patience (usec : Int) : Patience := if usec = -1 then .forever else if usec = 0 then .once else .limited

def kindF : Patience → FL.Kind
  | .forever => .block
  | .once => .try_
  | .limited => .timed

def kindM : Patience → MC.Kind
  | .forever => .block
  | .once => .try_
  | .limited => .timed

theorem flKind_eq (u : Int) : flKind u = kindF (patience u) := by
  unfold flKind waitMode patience kindF
  by_cases h : u = -1
  · simp [h]
  · by_cases h' : u = 0 <;> simp [h, h']

theorem mcKind_eq (u : Int) : mcKind u = kindM (patience u) := by
  unfold mcKind waitMode patience kindM
  by_cases h : u = -1
  · simp [h]
  · by_cases h' : u = 0 <;> simp [h, h']

/-- The request of a range lock call as the user means it. -/
def rangeRequest (x : Ctx) (fd : BitVec 32) (r : Rng) (md : FL.Mode) (p : Patience) : FL.Op :=
  { fd := fd.toInt, key := x.key fd, rng := r, mode := md, kind := kindF p
    freeOff := decide (x.free ≠ .no), freeFd := decide (x.free = .fd) }

theorem op_eq (x : Ctx) (fd : BitVec 32) (r : Rng) (md : FL.Mode) (p : Patience) :
    x.op fd r md (kindF p) = rangeRequest x fd r md p := by
  unfold Ctx.op rangeRequest
  cases x.free <;> rfl

/-- C65: when a call gets through to the segment it makes exactly the request its name says: the right kind
of lock, on the file behind the descriptor given, with the range given, and with the patience given (lock:
for ever, try: once, timed: by the argument). -/
theorem C65_range_requests (x : Ctx) (fd : BitVec 32) (r : Rng) (u : Int) :
    (Fn.rdlock fd r).raw.seg x = .fl (.lock (rangeRequest x fd r .rd .forever)) ∧
    (Fn.tryrdlock fd r).raw.seg x = .fl (.lock (rangeRequest x fd r .rd .once)) ∧
    (Fn.timedrdlock fd r u).raw.seg x = .fl (.lock (rangeRequest x fd r .rd (patience u))) ∧
    (Fn.wrlock fd r).raw.seg x = .fl (.lock (rangeRequest x fd r .wr .forever)) ∧
    (Fn.trywrlock fd r).raw.seg x = .fl (.lock (rangeRequest x fd r .wr .once)) ∧
    (Fn.timedwrlock fd r u).raw.seg x = .fl (.lock (rangeRequest x fd r .wr (patience u))) := by
  have e : ∀ (v : Int) (md : FL.Mode), x.op fd r md (flKind v) = rangeRequest x fd r md (patience v) := by
    intro v md; rw [flKind_eq, op_eq]
  have n1 : patience noTimeout = .forever := rfl
  have n2 : patience tryTimeout = .once := rfl
  refine ⟨?_, ?_, ?_, ?_, ?_, ?_⟩ <;> simp [Fn.raw, Raw.seg, e, n1, n2]

/-- C65: unlock and the question about a range name the same file and range as the lock calls. -/
theorem C65_range_others (x : Ctx) (fd : BitVec 32) (r : Rng) :
    (∃ op, (Fn.rwUnlock fd r).raw.seg x = .fl (.unlock op) ∧ op.fd = fd.toInt ∧ op.key = x.key fd ∧ op.rng = r ∧
      (op.freeOff = true ↔ x.free ≠ .no) ∧ (op.freeFd = true ↔ x.free = .fd)) ∧
    (∃ op, (Fn.islocked fd r).raw.seg x = .fl (.islocked op) ∧ op.key = x.key fd ∧ op.rng = r) := by
  refine ⟨⟨x.op fd r .wr .block, by simp [Fn.raw, Raw.seg], rfl, rfl, rfl, ?_, ?_⟩,
    ⟨x.op fd r .rd .block, by simp [Fn.raw, Raw.seg], rfl, rfl⟩⟩
  · unfold Ctx.op; cases x.free <;> simp
  · unfold Ctx.op; cases x.free <;> simp

/-- C65: the calls on mutexes and conditions. -/
theorem C65_name_requests (x : Ctx) (c n : List Byte) (u : Int) :
    (Fn.mutexLock (some n)).raw.seg x = .mc (.lock (x.mrec n) .block) ∧
    (Fn.mutexTrylock (some n)).raw.seg x = .mc (.lock (x.mrec n) .try_) ∧
    (Fn.mutexTimedlock (some n) u).raw.seg x = .mc (.lock (x.mrec n) (kindM (patience u))) ∧
    (Fn.mutexUnlock (some n)).raw.seg x = .mc (.unlock (x.mrec n)) ∧
    (Fn.condWait (some c) (some n)).raw.seg x = .mc (.wait (x.crec c) (x.mrec n) .block) ∧
    (Fn.condTimedwait (some c) (some n) u).raw.seg x =
      .mc (.wait (x.crec c) (x.mrec n) (kindM (patience u))) ∧
    (Fn.condSignal (some c)).raw.seg x = .mc (.signal (x.crec c)) ∧
    (Fn.condBroadcast (some c)).raw.seg x = .mc (.broadcast (x.crec c)) := by
  have n1 : patience noTimeout = .forever := rfl
  have n2 : patience tryTimeout = .once := rfl
  refine ⟨?_, ?_, ?_, ?_, ?_, ?_, ?_, ?_⟩ <;> simp [Fn.raw, Raw.seg, mcKind_eq, n1, n2, kindM]

/-- C65: a timed call with -1 is the same as the untimed call, with 0 the same as the try call, whatever
the state of the process and the tables. -/
theorem C65_timed_extremes (w : World) (s : Proc) (x : Ctx) (d : Bool) (fd : BitVec 32) (r : Rng) (c n : Name) :
    invoke w s x d (.timedrdlock fd r (-1)) = invoke w s x d (.rdlock fd r) ∧
    invoke w s x d (.timedrdlock fd r 0) = invoke w s x d (.tryrdlock fd r) ∧
    invoke w s x d (.timedwrlock fd r (-1)) = invoke w s x d (.wrlock fd r) ∧
    invoke w s x d (.timedwrlock fd r 0) = invoke w s x d (.trywrlock fd r) ∧
    invoke w s x d (.mutexTimedlock n (-1)) = invoke w s x d (.mutexLock n) ∧
    invoke w s x d (.mutexTimedlock n 0) = invoke w s x d (.mutexTrylock n) ∧
    invoke w s x d (.condTimedwait c n (-1)) = invoke w s x d (.condWait c n) :=
  ⟨rfl, rfl, rfl, rfl, rfl, rfl, rfl⟩

/-- C65: in an attached process every call with a good descriptor and good names reaches the segment, and
nothing else in the process changes. -/
theorem C65_reaches (w : World) (s : Proc) (x : Ctx) (f : Fn) (ha : s.attached = true)
    (hn : ∀ n u, f.raw ≠ .nmtx n none u) (hc : ∀ ty n b u, f.raw ≠ .ncond ty none n b u) :
    invoke w s x true f = (.seg (f.raw.seg x), s) := by
  have hck : checkAttach w s = (true, s) := by simp [checkAttach, ha]
  unfold invoke
  cases hr : f.raw with
  | nmtx ty n u =>
    cases n with
    | none => exact absurd hr (hn ty u)
    | some n => simp [Raw.front, lockFront, hck]
  | file ty fd r u => simp [Raw.front, lockFront, hck]
  | ncond ty c n b u =>
    cases c with
    | none => exact absurd hr (hc ty n b u)
    | some c => simp [Raw.front, lockFront, hck]
  | islocked fd r => simp [Raw.front, lockFront, hck]

example : invoke ⟨none, fun _ => true, fun _ => true⟩ { fs := fun _ => .enoent, attached := true }
    ⟨.fd, fun _ => (1#64, 2#64), fun _ => 0, fun _ => 0⟩ true (.timedwrlock 3#32 ⟨0#64, 10#64⟩ 250) =
    (.seg (.fl (.lock ⟨3, (1#64, 2#64), ⟨0#64, 10#64⟩, .wr, .timed, true, true⟩)),
      { fs := fun _ => .enoent, attached := true }) :=
  C65_reaches _ _ _ _ rfl (by simp [Fn.raw]) (by simp [Fn.raw])

/-! ### C64: null names -/

/-- A name argument of the call is a null pointer. -/
def hasNull : Fn → Bool
  | .mutexLock n | .mutexTrylock n | .mutexTimedlock n _ | .mutexUnlock n => n.isNone
  | .condTimedwait c n _ | .condWait c n => c.isNone || n.isNone
  | .condSignal c | .condBroadcast c => c.isNone
  | _ => false

/-- The first name argument of the call is a null pointer. -/
def firstNull : Fn → Bool
  | .mutexLock n | .mutexTrylock n | .mutexTimedlock n _ | .mutexUnlock n => n.isNone
  | .condTimedwait c _ _ | .condWait c _ | .condSignal c | .condBroadcast c => c.isNone
  | _ => false

/-- C64: a call with a null name is refused with EINVAL and has no effect. -/
def C64_full : Prop := ∀ w s x d f, hasNull f = true → invoke w s x d f = (.ret 22, s)

/-- Attached, `fullock_cond_wait(c, NULL)` waits with the mutex of the empty name. -/
theorem C64_not_full : ¬ C64_full := by
  intro h
  have := h ⟨none, fun _ => true, fun _ => true⟩ { fs := fun _ => .enoent, attached := true }
    ⟨.fd, fun _ => (1#64, 2#64), fun _ => 0, fun _ => 0⟩ true (.condWait (some []) none) rfl
  rw [C65_reaches _ _ _ _ rfl (by simp [Fn.raw]) (by simp [Fn.raw])] at this
  cases this

/-- C64: what a null mutex name of a wait means: the empty name. -/
theorem C64_null_is_empty (w : World) (s : Proc) (x : Ctx) (d : Bool) (c : Name) (u : Int) :
    invoke w s x d (.condTimedwait c none u) = invoke w s x d (.condTimedwait c (some []) u) := rfl

/-- C64 for the names of mutex calls and for condition names: refused in every state, attached or not. -/
theorem C64_partial (w : World) (s : Proc) (x : Ctx) (d : Bool) (f : Fn) (h : firstNull f = true) :
    invoke w s x d f = (.ret 22, s) := by
  cases f <;> simp only [firstNull, Option.isNone_iff_eq_none, reduceCtorEq, Bool.false_eq_true] at h <;>
    subst h <;> rfl

example : firstNull (.condSignal none) = true ∧ firstNull (.mutexTimedlock none 5) = true := ⟨rfl, rfl⟩

/-! ### C66: settings -/

/-- The retry limit after any history of setting calls. -/
theorem runSets_limit (fs : List SetFn) : ∀ (c : Config), 50 ≤ c.loopCnt → 50 ≤ (runSets c fs).loopCnt := by
  induction fs with
  | nil => exact fun _ h => h
  | cons f fs ih =>
    intro c hc
    apply ih
    have key : ∀ m, (setRobustMode c m).2 = { c with robust := m } := fun m => by
      rw [(C43_own_item c hc).1 m]
    cases f with
    | checkCount v =>
      obtain ⟨_, h2, h3⟩ := C43_loop_setter c v hc
      simp only [SetFn.run]
      by_cases h : (setRobustLoopCnt c v).1 = -1
      · simp only [h, if_true]; rw [h2 h]; exact hc
      · simp only [h, if_false]
        rw [h3 h]
        have := (not_congr (C43_loop_setter c v hc).1).2 h
        show 50 ≤ v
        omega
    | noRobust => simp only [SetFn.run, key]; exact hc
    | lowRobust => simp only [SetFn.run, key]; exact hc
    | highRobust => simp only [SetFn.run, key]; exact hc
    | _ => exact hc

/-- C66: `fullock_set_robust_check_count(v)` answers true exactly when the process is in high robust mode and
v is at least 50, then v is the limit from now on; else nothing changes — after any history of setting
calls. -/
theorem C66_check_count (fs : List SetFn) (v : Int) :
    let c := runSets {} fs
    ((SetFn.run c (.checkCount v)).1 = true ↔ c.robust = .high ∧ 50 ≤ v) ∧
    ((SetFn.run c (.checkCount v)).1 = true → (SetFn.run c (.checkCount v)).2 = { c with loopCnt := v }) ∧
    ((SetFn.run c (.checkCount v)).1 = false → (SetFn.run c (.checkCount v)).2 = c) := by
  intro c
  have hc : 50 ≤ c.loopCnt := runSets_limit fs {} (show (50 : Int) ≤ 5000 by decide)
  obtain ⟨h1, h2, h3⟩ := C43_loop_setter c v hc
  by_cases h : (setRobustLoopCnt c v).1 = -1
  · have e : SetFn.run c (.checkCount v) = (false, c) := by simp only [SetFn.run, h, if_true, h2 h]
    have := h1.2 h
    rw [e]
    refine ⟨⟨fun hh => by simp at hh, fun hh => ?_⟩, fun hh => by simp at hh, fun _ => rfl⟩
    rcases this with g | g
    · exact absurd hh.1 g
    · omega
  · have e : SetFn.run c (.checkCount v) = (true, { c with loopCnt := v }) := by
      simp only [SetFn.run, h, if_false]; rw [h3 h]
    have := (not_congr h1).2 h
    rw [e]
    refine ⟨⟨fun _ => ?_, fun _ => rfl⟩, fun _ => rfl, fun hh => by simp at hh⟩
    refine ⟨?_, by omega⟩
    by_cases g : c.robust = .high
    · exact g
    · exact absurd (Or.inl g) this

example : (SetFn.run (runSets {} [.lowRobust, .checkCount 100, .highRobust, .checkCount 60]) (.checkCount 49)).1 =
    false ∧ (runSets {} [.lowRobust, .checkCount 100, .highRobust, .checkCount 60]).loopCnt = 60 := by
  decide +kernel

/-- C66: every other setting call answers true and sets its own item only. -/
theorem C66_setters (fs : List SetFn) :
    let c := runSets {} fs
    SetFn.run c .noRobust = (true, { c with robust := .no }) ∧
    SetFn.run c .lowRobust = (true, { c with robust := .low }) ∧
    SetFn.run c .highRobust = (true, { c with robust := .high }) ∧
    SetFn.run c .noretryAllow = (true, { c with nomap := .allowNoretry }) ∧
    SetFn.run c .noretryDeny = (true, { c with nomap := .denyNoretry }) ∧
    SetFn.run c .retryAllow = (true, { c with nomap := .allowRetry }) ∧
    SetFn.run c .retryDeny = (true, { c with nomap := .denyRetry }) ∧
    SetFn.run c .noFreeunit = (true, { c with freeUnit := .no }) ∧
    SetFn.run c .fdFreeunit = (true, { c with freeUnit := .fd }) ∧
    SetFn.run c .offsetFreeunit = (true, { c with freeUnit := .offset }) := by
  intro c
  have hc : 50 ≤ c.loopCnt := runSets_limit fs {} (show (50 : Int) ≤ 5000 by decide)
  have key : ∀ m, (setRobustMode c m).2 = { c with robust := m } := fun m => by
    rw [(C43_own_item c hc).1 m]
  refine ⟨?_, ?_, ?_, rfl, rfl, rfl, rfl, rfl, rfl, rfl⟩ <;> simp only [SetFn.run, key]

/-! ### The numbers of the answers -/

/-- The names of `errno.h` the calls answer with. -/
inductive Errno where
  | perm | busy | inval | nolck | timedout
deriving DecidableEq

/-- `errno.h` of Linux, as callers test it. -/
def errno : Errno → Nat
  | .perm => 1
  | .busy => 16
  | .inval => 22
  | .nolck => 37
  | .timedout => 110

/-- The range calls and the calls on names answer with the numbers of `errno.h`; no two answers have the same number and none is
0, the answer of success. -/
theorem C65_errno : (FL.EBUSY = errno .busy ∧ FL.EINVAL = errno .inval ∧ FL.ENOLCK = errno .nolck ∧
      FL.ETIMEDOUT = errno .timedout) ∧
    (MC.EPERM = errno .perm ∧ MC.EBUSY = errno .busy ∧ MC.EINVAL = errno .inval ∧ MC.ENOLCK = errno .nolck ∧
      MC.ETIMEDOUT = errno .timedout) ∧
    (∀ a b, errno a = errno b → a = b) ∧ ∀ a, errno a ≠ 0 := by
  refine ⟨⟨rfl, rfl, rfl, rfl⟩, ⟨rfl, rfl, rfl, rfl, rfl⟩, ?_, ?_⟩
  · intro a b; cases a <;> cases b <;> simp [errno]
  · intro a; cases a <;> simp [errno]

end Fullock.Props
