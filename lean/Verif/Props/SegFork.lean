import Verif.Proofs.SegFork
import Verif.Proofs.FLPaths
import Verif.Props.FileLock
import Verif.Props.Mutex
/-!
C98: locks of processes that fork.
-/
namespace Fullock.Props
open Fullock.SegFork

/-! ### Who is taken for dead -/

/-- Exactly who is found when threads are looked for by the numbers they have put into the segment: those that have not
ended and stand there under their own thread number. Threads that have ended are never found. -/
theorem C98_seen (key : Bool) (A : MState → MEv → Prop) (x : MState) (hr : MReach key A x) (t : Nat)
    (hb : x.w.born t = true) : x.w.seen t = true ↔ x.w.runs t = true ∧ x.w.num t = t :=
  seen_iff (winv_reach (mreach_w hr)) t hb

/-- A child stands under its own number if and only if the thread that forked it had not asked for its number before; a new
thread of the same process always does. -/
theorem C98_fork (key : Bool) (A : MState → MEv → Prop) (x x' : MState) (hr : MReach key A x) (t n : Nat) :
    (x.step key (.w (.fork t n)) = some x' → (x'.w.num n = n ↔ x.w.cache t = none) ∧ x'.w.runs n = true ∧
      (x'.w.seen n = true ↔ x.w.cache t = none)) ∧
    (x.step key (.w (.create t n)) = some x' → x'.w.num n = n ∧ x'.w.runs n = true ∧ x'.w.seen n = true) := by
  have i := winv_reach (mreach_w hr)
  constructor <;> intro h
  · have i' := winv_step (mstep_w h) i
    simp only [MState.step] at h
    split at h
    · simp only [Option.map_eq_some_iff] at h
      obtain ⟨w, h1, rfl⟩ := h
      rcases make_cases h1 with ⟨t', n', he, hn, hb, ht, rfl⟩ | ⟨t', n', he, -⟩
      · obtain ⟨rfl, rfl⟩ := WEv.fork.inj he
        have h1 : MC.upd x.w.cache n (x.w.cache t) n = x.w.cache t := by simp [MC.upd]
        have a : World.num ⟨MC.upd x.w.runs n true, MC.upd x.w.born n true, MC.upd x.w.pid n n,
            MC.upd x.w.cache n (x.w.cache t)⟩ n = n ↔ x.w.cache t = none := by
          simp only [World.num, h1]
          rcases hc : x.w.cache t with _ | u
          · simp
          · have := (i.kept t u hc).2.1
            have : u ≠ n := by rintro rfl; rw [hb] at this; cases this
            simp [this]
        have b : MC.upd x.w.runs n true n = true := by simp [MC.upd]
        exact ⟨a, b, (seen_iff i' n (by simp [MC.upd])).trans ⟨fun h => a.1 h.2, fun h => ⟨b, a.2 h⟩⟩⟩
      · cases he
    · cases h
  · have i' := winv_step (mstep_w h) i
    simp only [MState.step] at h
    split at h
    · simp only [Option.map_eq_some_iff] at h
      obtain ⟨w, h1, rfl⟩ := h
      rcases make_cases h1 with ⟨t', n', he, -⟩ | ⟨t', n', he, hn, hb, ht, rfl⟩
      · cases he
      · obtain ⟨rfl, rfl⟩ := WEv.create.inj he
        have a : World.num ⟨MC.upd x.w.runs n true, MC.upd x.w.born n true, MC.upd x.w.pid n (x.w.pid t),
            MC.upd x.w.cache n none⟩ n = n := by simp [World.num, MC.upd]
        have b : MC.upd x.w.runs n true n = true := by simp [MC.upd]
        exact ⟨a, b, (seen_iff i' n (by simp [MC.upd])).2 ⟨b, a⟩⟩
    · cases h

/-- A thread that has called the library has its number kept. -/
theorem C98_called (A : MState → MEv → Prop) (x x' : MState) (_ : MReach true A x) (t : Nat) (c : MC.Call)
    (h : x.step true (.ev (.call t c)) = some x') : x'.w.cache t = some (x.w.num t) := by
  simp only [MState.step] at h
  split at h
  · cases h
  · split at h
    · cases h; simp [World.call, MC.upd]
    · cases h

/-- Who is taken for dead although alive stays so as long as it lives; and who is not never becomes so. -/
theorem C98_forever (key : Bool) (A : MState → MEv → Prop) (x x' : MState) (es : List MEv) (hr : MReach key A x)
    (h : x.run key es = some x') (n : Nat) (hb : x.w.born n = true) : x'.w.born n = true ∧ x'.w.num n = x.w.num n ∧
      (x.w.num n ≠ n → x'.w.seen n = false) ∧ (x.w.num n = n → x'.w.seen n = x'.w.runs n) := by
  have hw := mreach_w hr
  clear hr
  suffices WReach key x'.w ∧ x'.w.born n = true ∧ x'.w.num n = x.w.num n by
    obtain ⟨h1, h2, h3⟩ := this
    have := seen_iff (winv_reach h1) n h2
    rw [h3] at this
    refine ⟨h2, h3, fun h => ?_, fun h => ?_⟩
    · by_contra hs; exact h (this.1 (by simpa using hs)).2
    · cases hs : x'.w.runs n <;> simp_all
  induction es generalizing x with
  | nil => cases h; exact ⟨hw, hb, rfl⟩
  | cons e es ih =>
    simp only [MState.run, Option.bind_eq_some_iff] at h
    obtain ⟨x1, h1, h⟩ := h
    have := stale_step (winv_reach hw) (mstep_w h1) hb
    obtain ⟨a, b, c⟩ := ih x1 h this.1 (.step hw (mstep_w h1))
    exact ⟨a, b, c.trans this.2⟩

/-! ### Mutexes -/

/-- C98 as stated, for mutexes: no two threads own one mutex at a time, and no two change the table of mutexes at a time, if
nobody ends. -/
def C98_full : Prop :=
  ∀ x, MReach true noEndM x → (∀ m t u, MOwns x m t → MOwns x m u → t = u) ∧
    ∀ t u, x.w.runs t = true → x.w.runs u = true → MC.inM (x.pc t) = true → MC.inM (x.pc u) = true → t = u

def mgo (t n : Nat) : List MEv := (MC.gos t n).map .ev

/-- Thread 1 has used the library; it forks 2, which locks mutex 7; 1 asks for the mutex as well and, after its attempts,
takes 2 for dead. -/
def robbed98 : List MEv :=
  .ev (.call 1 (.unlock 7)) :: mgo 1 3 ++ .w (.fork 1 2) :: .ev (.call 2 (.lock 7 .block)) :: mgo 2 7 ++
  .ev (.call 1 (.lock 7 .block)) :: mgo 1 4 ++ .ev (.go 1 .limit) :: mgo 1 1 ++ .ev (.go 1 (.mx 7)) :: mgo 1 10

/-- Both in the table of mutexes. -/
def table98 : List MEv :=
  .ev (.call 1 (.unlock 7)) :: mgo 1 3 ++ .w (.fork 1 2) :: .ev (.call 2 (.lock 7 .block)) :: mgo 2 1 ++
  .ev (.call 1 (.lock 8 .block)) :: mgo 1 1

def _root_.Fullock.SegFork.MEv.isDie : MEv → Bool
  | .ev (.die _) => true
  | _ => false

theorem m_run {key : Bool} {A : MState → MEv → Prop} {ok : MEv → Bool} (hok : ∀ e, ok e = true → ∀ x, A x e)
    {x x' : MState} {es : List MEv} (hr : MReach key A x) (h : x.run key es = some x') (ha : es.all ok = true) :
    MReach key A x' := by
  induction es generalizing x with
  | nil => cases h; exact hr
  | cons e es ih =>
    simp only [MState.run, Option.bind_eq_some_iff] at h
    obtain ⟨x1, h1, h⟩ := h
    simp only [List.all_cons, Bool.and_eq_true] at ha
    exact ih (.step hr (hok e ha.1 x) h1) h ha.2

theorem noEnd_ok (e : MEv) (h : (!e.isDie) = true) (x : MState) : noEndM x e := by
  cases e with
  | ev e => cases e <;> simp_all [MEv.isDie, noEndM]
  | w e => trivial

theorem m_case {α : Type} {key : Bool} {x : MState} {es : List MEv} (f : MState → α) (v : α)
    (h : (x.run key es).map f = some v) : ∃ x', x.run key es = some x' ∧ f x' = v := by
  cases hr : x.run key es with
  | none => rw [hr] at h; simp at h
  | some s => rw [hr] at h; exact ⟨s, rfl, by simpa using h⟩

/-- Parent and child own a mutex at the same time. -/
theorem C98_not_full : ¬ C98_full := by
  intro h
  obtain ⟨x, h1, h2⟩ := m_case (key := true) (x := MState.init 1 4 4 4 MC.junk0) (es := robbed98)
    (fun x => (x.w.runs 1, x.w.runs 2, x.mem.dep 7 1, x.mem.dep 7 2)) (true, true, 1, 1) (by decide +kernel)
  simp only [Prod.mk.injEq] at h2
  have hr : MReach true noEndM x := m_run noEnd_ok (.init 1 4 4 4 MC.junk0 (by decide)) h1 (by decide +kernel)
  exact absurd ((h x hr).1 7 1 2 ⟨by decide, h2.1, by omega⟩ ⟨by decide, h2.2.1, by omega⟩) (by decide)

/-- Parent and child change the table of mutexes at the same time. -/
theorem C98_table : ∃ x, MReach true noEndM x ∧ x.w.runs 1 = true ∧ x.w.runs 2 = true ∧ MC.inM (x.pc 1) = true ∧
    MC.inM (x.pc 2) = true := by
  obtain ⟨x, h1, h2⟩ := m_case (key := true) (x := MState.init 1 4 4 4 MC.junk0) (es := table98)
    (fun x => (x.w.runs 1, x.w.runs 2, MC.inM (x.pc 1), MC.inM (x.pc 2))) (true, true, true, true) (by decide +kernel)
  simp only [Prod.mk.injEq] at h2
  exact ⟨x, m_run noEnd_ok (.init 1 4 4 4 MC.junk0 (by decide)) h1 (by decide +kernel), h2⟩

/-- What holds: as long as no question about a thread taken for dead matters (each step is the one that would be made with right
answers; deaths as in `C18_exclusion_partial`), forks do not break the exclusion. Missing: steps taken on a wrong answer. -/
theorem C98_exclusion_partial (key : Bool) (x : MState)
    (hr : MReach key (fun x e => rightM x e ∧ okDieM x e) x) :
    (∀ m t u, MOwns x m t → MOwns x m u → t = u) ∧
    ∀ t u, x.w.runs t = true → x.w.runs u = true → MC.inM (x.pc t) = true → MC.inM (x.pc u) = true → t = u := by
  have r := mreach_real (fun _ _ h => h.1) MC.okDie (fun _ _ h => h.2) hr
  have b := MC.base_reach r
  have i := winv_reach (mreach_w hr)
  have nz : ∀ t, x.w.runs t = true → t ≠ 0 := by
    rintro t h rfl
    have := i.here 0 h
    rw [i.zero] at this; cases this
  refine ⟨fun m t u h1 h2 => C18_exclusion_partial r ⟨h1.1, real_runs h1.2.1, h1.2.2⟩ ⟨h2.1, real_runs h2.2.1, h2.2.2⟩,
    fun t u h1 h2 h3 h4 => ?_⟩
  exact ((b.lockM t (nz t h1) (real_runs h1)).2 h3).symm.trans ((b.lockM u (nz u h2) (real_runs h2)).2 h4)

theorem right_of_num {x : MState} (i : WInv x.w) (h : ∀ t, x.w.num t = t) (e : MEv) : rightM x e := by
  cases e with
  | ev e =>
    cases e <;> first | trivial | (simp only [rightM]; rw [seen_real i h])
  | w e => trivial

theorem mreach_mono {key : Bool} {A B : MState → MEv → Prop} (h : ∀ x e, MReach key A x → A x e → B x e) {x : MState}
    (hr : MReach key A x) : MReach key B x := by
  induction hr with
  | init p _ _ _ _ hp => exact .init p _ _ _ _ hp
  | step hr ha hs ih => exact .step ih (h _ _ hr ha) hs

/-- If only threads fork that have not called the library before, everything is as without forks. -/
theorem C98_exclusion_clean (key : Bool) (x : MState) (hr : MReach key (fun x e => cleanM x e ∧ okDieM x e) x) :
    (∀ m t u, MOwns x m t → MOwns x m u → t = u) ∧
    ∀ t u, x.w.runs t = true → x.w.runs u = true → MC.inM (x.pc t) = true → MC.inM (x.pc u) = true → t = u :=
  C98_exclusion_partial key x (mreach_mono (fun x e r ha =>
    ⟨right_of_num (winv_reach (mreach_w r)) (mclean_num (fun _ _ h => h.1) r) e, ha.2⟩) hr)

/-- If thread numbers are not kept (no key could be had), everything is as without forks, whoever forks. -/
theorem C98_exclusion_no_key (x : MState) (hr : MReach false okDieM x) :
    (∀ m t u, MOwns x m t → MOwns x m u → t = u) ∧
    ∀ t u, x.w.runs t = true → x.w.runs u = true → MC.inM (x.pc t) = true → MC.inM (x.pc u) = true → t = u :=
  C98_exclusion_partial false x (mreach_mono (fun x e r ha =>
    ⟨right_of_num (winv_reach (mreach_w r)) (fun t => by simp [World.num, wnokey (mreach_w r) t]) e, ha⟩) hr)

/-- A child and a new thread own nothing; whoever owned a mutex still does. -/
theorem C98_child (key : Bool) (A : MState → MEv → Prop) (x x' : MState) (e : WEv) (hr : MReach key A x)
    (h : x.step key (.w e) = some x') (m t : Nat) : MOwns x' m t ↔ MOwns x m t := by
  have hn := m_new hr
  simp only [MState.step] at h
  split at h
  · simp only [Option.map_eq_some_iff] at h
    obtain ⟨w, h1, rfl⟩ := h
    have key : ∀ n, x.w.born n = false → (t ≠ 0 ∧ MC.upd x.w.runs n true t = true ∧ 1 ≤ x.mem.dep m t ↔ MOwns x m t) := by
      intro n hb
      simp only [MOwns, MC.upd]
      split
      · rename_i e; subst e
        have := (hn t hb).2 m
        omega
      · rfl
    rcases make_cases h1 with ⟨t', n', -, -, hb, -, rfl⟩ | ⟨t', n', -, -, hb, -, rfl⟩ <;> exact key n' hb
  · cases h

/-! ### File ranges -/

/-- C98 as stated, for file ranges without descriptors: nobody takes away the lock of a thread that has not ended. -/
def C98_ranges_full : Prop :=
  ∀ x x' e y, FReach true true noEndF x → x.step true true e = some x' → y ∈ x.mem.outs → x.w.runs y.2.t = true → e.who ≠ y.2.t →
    y ∈ x'.mem.outs

def fgo (t n : Nat) : List FEv := (Spec.alone t n).map .ev

/-- Thread 1 has used the library; it forks 2, which locks [0,10) for writing; 1 asks for it and, after its attempts, looks at
the holders. -/
def robs98 : List FEv :=
  .ev (.call 1 (.unlock (FL.mkOp (-3) FL.kX FL.rA .wr .block))) :: fgo 1 3 ++ .w (.fork 1 2) ::
  .ev (.call 2 (.lock (FL.mkOp (-3) FL.kX FL.rA .wr .block))) :: fgo 2 9 ++
  .ev (.call 1 (.lock (FL.mkOp (-4) FL.kX FL.rA .wr .block))) :: fgo 1 7 ++ .ev (.go 1 .limit) :: fgo 1 2

def _root_.Fullock.SegFork.FEv.isDie : FEv → Bool
  | .ev (.die _ _ _) => true
  | _ => false

theorem f_run {key nofd : Bool} {A : FState → FEv → Prop} {ok : FEv → Bool} (hok : ∀ e, ok e = true → ∀ x, A x e)
    {x x' : FState} {es : List FEv} (hr : FReach key nofd A x) (h : x.run key nofd es = some x') (ha : es.all ok = true) :
    FReach key nofd A x' := by
  induction es generalizing x with
  | nil => cases h; exact hr
  | cons e es ih =>
    simp only [FState.run, Option.bind_eq_some_iff] at h
    obtain ⟨x1, h1, h⟩ := h
    simp only [List.all_cons, Bool.and_eq_true] at ha
    exact ih (.step hr (hok e ha.1 x) h1) h ha.2

theorem noEndF_ok (e : FEv) (h : (!e.isDie) = true) (x : FState) : noEndF x e := by
  cases e with
  | ev e => cases e <;> simp_all [FEv.isDie, noEndF]
  | w e => trivial

theorem f_case {α : Type} {key nofd : Bool} {x : FState} {es : List FEv} (f : FState → α) (v : α)
    (h : (x.run key nofd es).map f = some v) : ∃ x', x.run key nofd es = some x' ∧ f x' = v := by
  cases hr : x.run key nofd es with
  | none => rw [hr] at h; simp at h
  | some s => rw [hr] at h; exact ⟨s, rfl, by simpa using h⟩

/-- The parent takes away its child's lock. -/
theorem C98_ranges_not_full : ¬ C98_ranges_full := by
  intro h
  obtain ⟨x, h1, h2⟩ := f_case (key := true) (nofd := true) (x := FState.init 1 2 4 8 FL.junk0) (es := robs98)
    (fun x => (x.w.runs 2, x.mem.outs, (x.step true true (.ev (.go 1 (.lk 0 .wr 0)))).map fun x' => x'.mem.outs))
    (true, [(0, ⟨2, -3, FL.kX, FL.rA, .wr⟩)], some []) (by decide +kernel)
  simp only [Prod.mk.injEq, Option.map_eq_some_iff] at h2
  obtain ⟨a, b, x', c, d⟩ := h2
  have hr : FReach true true noEndF x := f_run noEndF_ok (.init 1 2 4 8 FL.junk0 (by decide)) h1 (by decide +kernel)
  have := h x x' _ (0, ⟨2, -3, FL.kX, FL.rA, .wr⟩) hr c (by rw [b]; simp) a (by simp [FEv.who])
  rw [d] at this
  cases this

/-- With descriptors as well: parent and child change the table of file locks at the same time. -/
def tables98 (f : Int) : List FEv :=
  .ev (.call 1 (.unlock (FL.mkOp f FL.kX FL.rA .wr .block))) :: fgo 1 3 ++ .w (.fork 1 2) ::
  .ev (.call 2 (.lock (FL.mkOp f FL.kX FL.rA .wr .block))) :: fgo 2 2 ++
  .ev (.call 1 (.lock (FL.mkOp f FL.kX FL.rA .wr .block))) :: fgo 1 1

theorem C98_ranges_table (nofd : Bool) : ∃ x, FReach true nofd noEndF x ∧ x.w.runs 1 = true ∧ x.w.runs 2 = true ∧
    FL.inCS (x.pc 1) = true ∧ FL.inCS (x.pc 2) = true := by
  obtain ⟨x, h1, h2⟩ := f_case (key := true) (nofd := nofd) (x := FState.init 1 2 4 8 FL.junk0)
    (es := tables98 (if nofd then -3 else 3))
    (fun x => (x.w.runs 1, x.w.runs 2, FL.inCS (x.pc 1), FL.inCS (x.pc 2))) (true, true, true, true)
    (by cases nofd <;> decide +kernel)
  simp only [Prod.mk.injEq] at h2
  exact ⟨x, f_run noEndF_ok (.init 1 2 4 8 FL.junk0 (by decide)) h1 (by cases nofd <;> decide +kernel), h2⟩

/-- What a check does about a record made with a descriptor: it is taken for that of a dead thread, and removed, only
when its thread has ended, whoever has forked. -/
theorem C98_descriptor (key : Bool) (x x' : FState) (t o l : Nat) (md : FL.Mode)
    (h : x.step key false (.ev (.go t (.lk o md l))) = some x') : x'.mem = x.mem ∨ x.w.real (x.mem.ltid l) = false := by
  simp only [FState.step] at h
  split at h
  · cases h
  · split at h
    · split at h
      · cases h; exact .inl rfl
      · cases h
    · cases h; exact .inl rfl
    · right
      simp only [Option.map_eq_some_iff] at h
      obtain ⟨r, h1, -⟩ := h
      rw [show x.w.holder false = x.w.real from rfl] at h1
      cases hp : x.pc t <;> rw [hp] at h1 <;> simp [FL.plan] at h1
      · exact h1.1.2.2
      · exact h1.1.2.2

/-- What holds for file ranges, as long as no question about a thread taken for dead matters: locks that exclude each other are
not in force at a time (deaths and ranges as in `C02_exclusion_partial`). Missing: steps taken on a wrong answer. -/
theorem C98_ranges_partial (key nofd : Bool) (R : DevIno → Rng → Prop) (hR : Spec.Clustered R) (x : FState)
    (hr : FReach key nofd (fun x e => rightF nofd x e ∧ okInF R x e) x) :
    (∀ y ∈ x.mem.outs, ∀ z ∈ x.mem.outs, y.1 ≠ z.1 → ¬ Spec.Conflict y.2 z.2) ∧
    ∀ t u, x.w.runs t = true → x.w.runs u = true → FL.inCS (x.pc t) = true → FL.inCS (x.pc u) = true → t = u := by
  have r := freach_real (fun _ _ h => h.1) (Spec.okIn R) (fun _ _ h => h.2) hr
  have i := FL.reach_sinv r
  exact ⟨C02_exclusion_partial R hR x.real r, fun t u h1 h2 h3 h4 =>
    (i.cs t (real_runs h1) h3).symm.trans (i.cs u (real_runs h2) h4)⟩

/-- And nobody takes away the lock of a thread that has not ended, whoever dies where. -/
theorem C98_kept_partial (key nofd : Bool) (A : FState → FEv → Prop) (hA : ∀ x e, A x e → rightF nofd x e) (x x' : FState) (e : FEv)
    (hr : FReach key nofd A x) (ha : A x e) (h : x.step key nofd e = some x') (y : Nat × FL.Out) (hy : y ∈ x.mem.outs)
    (hy1 : x.w.runs y.2.t = true) (hy2 : e.who ≠ y.2.t) : y ∈ x'.mem.outs := by
  have r := freach_real (B := fun _ _ => True) hA (fun _ _ _ => trivial) hr
  rcases fstep_real (winv_reach (freach_w hr)) (hA _ _ ha) h with ⟨e', rfl, h'⟩ | h'
  · by_contra hn
    rcases FL.outs_loss (FL.reach_sinv r) h' hy hn with h1 | ⟨op, f, o, md, -, -, -, h1 | ⟨k, h1⟩⟩
    · rw [show x.real.alive = x.w.real from rfl, real_runs hy1] at h1; cases h1
    · subst h1; exact hy2 rfl
    · subst h1; exact hy2 rfl
  · rw [show x'.mem = x'.real.mem from rfl, h']; exact hy

theorem right_of_numF {nofd : Bool} {x : FState} (i : WInv x.w) (h : ∀ t, x.w.num t = t) (e : FEv) : rightF nofd x e := by
  have hs := seen_real i h
  have hh : x.w.holder nofd = x.w.real := by
    funext t; simp only [World.holder, hs]; split <;> rfl
  cases e with
  | ev e =>
    cases e with
    | call t c => trivial
    | go t c => simp only [rightF]; rw [hs, hh]; exact ⟨rfl, fun _ _ => rfl⟩
    | die t c k => simp only [rightF]; rw [hh]
  | w e => trivial

theorem freach_mono {key nofd : Bool} {A B : FState → FEv → Prop} (h : ∀ x e, FReach key nofd A x → A x e → B x e) {x : FState}
    (hr : FReach key nofd A x) : FReach key nofd B x := by
  induction hr with
  | init p _ _ _ _ hp => exact .init p _ _ _ _ hp
  | step hr ha hs ih => exact .step ih (h _ _ hr ha) hs

/-- If only threads fork that have not called the library before, everything is as without forks. -/
theorem C98_ranges_clean (key nofd : Bool) (R : DevIno → Rng → Prop) (hR : Spec.Clustered R) (x : FState)
    (hr : FReach key nofd (fun x e => cleanF x e ∧ okInF R x e) x) :
    (∀ y ∈ x.mem.outs, ∀ z ∈ x.mem.outs, y.1 ≠ z.1 → ¬ Spec.Conflict y.2 z.2) ∧
    ∀ t u, x.w.runs t = true → x.w.runs u = true → FL.inCS (x.pc t) = true → FL.inCS (x.pc u) = true → t = u :=
  C98_ranges_partial key nofd R hR x (freach_mono (fun x e r ha =>
    ⟨right_of_numF (winv_reach (freach_w r)) (fclean_num (fun _ _ h => h.1) r) e, ha.2⟩) hr)

/-- The same for keeping, whoever dies where. -/
theorem C98_kept_clean (key nofd : Bool) (x x' : FState) (e : FEv) (hr : FReach key nofd cleanF x)
    (h : x.step key nofd e = some x') (y : Nat × FL.Out) (hy : y ∈ x.mem.outs)
    (hy1 : x.w.runs y.2.t = true) (hy2 : e.who ≠ y.2.t) : y ∈ x'.mem.outs :=
  C98_kept_partial key nofd (rightF nofd) (fun _ _ h => h) x x' e
    (freach_mono (fun x e r _ => right_of_numF (winv_reach (freach_w r)) (fclean_num (fun _ _ h => h) r) e) hr)
    (right_of_numF (winv_reach (freach_w hr)) (fclean_num (fun _ _ h => h) hr) e) h y hy hy1 hy2

/-- If thread numbers are not kept, everything is as without forks, whoever forks. -/
theorem C98_ranges_no_key (nofd : Bool) (R : DevIno → Rng → Prop) (hR : Spec.Clustered R) (x : FState) (hr : FReach false nofd (okInF R) x) :
    (∀ y ∈ x.mem.outs, ∀ z ∈ x.mem.outs, y.1 ≠ z.1 → ¬ Spec.Conflict y.2 z.2) ∧
    ∀ t u, x.w.runs t = true → x.w.runs u = true → FL.inCS (x.pc t) = true → FL.inCS (x.pc u) = true → t = u :=
  C98_ranges_partial false nofd R hR x (freach_mono (fun x e r ha =>
    ⟨right_of_numF (winv_reach (freach_w r)) (fun t => by simp [World.num, wnokey (freach_w r) t]) e, ha⟩) hr)

/-- fork changes nothing in the segment, and none of the locks in force is the child's. -/
theorem C98_ranges_child (key nofd : Bool) (A : FState → FEv → Prop) (x x' : FState) (t n : Nat) (hr : FReach key nofd A x)
    (h : x.step key nofd (.w (.fork t n)) = some x') : x'.mem = x.mem ∧ x'.lockid = x.lockid ∧ ∀ y ∈ x'.mem.outs, y.2.t ≠ n := by
  have hn := f_new hr
  simp only [FState.step] at h
  split at h
  · simp only [Option.map_eq_some_iff] at h
    obtain ⟨w, h1, rfl⟩ := h
    refine ⟨rfl, rfl, fun y hy e => ?_⟩
    rcases make_cases h1 with ⟨t', n', he, -, hb, -, rfl⟩ | ⟨t', n', he, -⟩
    · obtain ⟨rfl, rfl⟩ := WEv.fork.inj he
      have := hn y hy
      rw [e, hb] at this; cases this
    · cases he
  · cases h

/-! ### Cases meeting the hypotheses -/

theorem plan_right {M : MC.Mem} {a b : Nat → Bool} {t : Nat} {p : MC.Pc} {c : MC.Choice} (h1 : ∀ p', p = .acqM p' → a M.mL = b M.mL)
    (h2 : ∀ p', p = .acqC p' → a M.cL = b M.cL) (h3 : ∀ m v k, p ≠ .swChk m v k) (h4 : p ≠ .swC) : MC.plan M a t p c = MC.plan M b t p c := by
  cases p
  case acqM p => have := h1 p rfl; cases c <;> simp [MC.plan, this]
  case acqC p => have := h2 p rfl; cases c <;> simp [MC.plan, this]
  case swChk => exact absurd rfl (h3 _ _ _)
  case swC => exact absurd rfl h4
  case sWalk l o => cases l <;> cases o <;> cases c <;> rfl
  case bWalk l => cases l <;> cases c <;> rfl
  all_goals first | rfl | (cases c <;> rfl)

/-- Nobody asks about a thread taken for dead in this step, and it is no death. -/
def askM (x : MState) : MEv → Bool
  | .ev (.go t _) => match x.pc t with
    | .acqM _ => x.w.seen x.mem.mL == x.w.real x.mem.mL
    | .acqC _ => x.w.seen x.mem.cL == x.w.real x.mem.cL
    | .swChk _ _ _ => false
    | .swC => false
    | _ => true
  | .ev (.die _) => false
  | _ => true

theorem askM_ok {x : MState} {e : MEv} (h : askM x e = true) : rightM x e ∧ okDieM x e := by
  cases e with
  | ev e =>
    cases e with
    | call => exact ⟨trivial, trivial⟩
    | go t c =>
      refine ⟨?_, trivial⟩
      simp only [askM] at h
      refine plan_right ?_ ?_ ?_ ?_
      · intro p e; rw [e] at h; simpa using h
      · intro p e; rw [e] at h; simpa using h
      · intro m v k e; rw [e] at h; simp at h
      · intro e; rw [e] at h; simp at h
    | die t => cases h
  | w e => exact ⟨trivial, trivial⟩

/-- Events one after the other, each checked. -/
def mchk (key : Bool) (ok : MState → MEv → Bool) (x : MState) : List MEv → Option MState
  | [] => some x
  | e :: es => if ok x e then (x.step key e).bind (mchk key ok · es) else none

theorem mchk_reach {key : Bool} {A : MState → MEv → Prop} {ok : MState → MEv → Bool} (hok : ∀ x e, ok x e = true → A x e)
    {x x' : MState} {es : List MEv} (hr : MReach key A x) (h : mchk key ok x es = some x') : MReach key A x' := by
  induction es generalizing x with
  | nil => cases h; exact hr
  | cons e es ih =>
    simp only [mchk] at h
    split at h
    · rename_i he
      simp only [Option.bind_eq_some_iff] at h
      obtain ⟨x1, h1, h⟩ := h
      exact ih (.step hr (hok _ _ he) h1) h
    · cases h

theorem mchk_case {α : Type} {key : Bool} {ok : MState → MEv → Bool} {x : MState} {es : List MEv} (f : MState → α) (v : α)
    (h : (mchk key ok x es).map f = some v) : ∃ x', mchk key ok x es = some x' ∧ f x' = v := by
  cases hr : mchk key ok x es with
  | none => rw [hr] at h; simp at h
  | some s => rw [hr] at h; exact ⟨s, rfl, by simpa using h⟩

/-- The child of a thread that has used the library owns mutex 7, its parent mutex 8; nobody has asked about the child. -/
example : ∃ x, MReach true (fun x e => rightM x e ∧ okDieM x e) x ∧ MOwns x 7 2 ∧ MOwns x 8 1 ∧ x.w.seen 2 = false := by
  obtain ⟨x, h1, h2⟩ := mchk_case (key := true) (ok := askM) (x := MState.init 1 4 4 4 MC.junk0)
    (es := .ev (.call 1 (.unlock 7)) :: mgo 1 3 ++ .w (.fork 1 2) :: .ev (.call 2 (.lock 7 .block)) :: mgo 2 7 ++
      .ev (.call 1 (.lock 8 .block)) :: mgo 1 7)
    (fun x => (x.w.runs 1, x.w.runs 2, x.mem.dep 8 1, x.mem.dep 7 2, x.w.seen 2)) (true, true, 1, 1, false) (by decide +kernel)
  simp only [Prod.mk.injEq] at h2
  exact ⟨x, mchk_reach (fun _ _ h => askM_ok h) (.init 1 4 4 4 MC.junk0 (by decide)) h1,
    ⟨by decide, h2.2.1, by omega⟩, ⟨by decide, h2.1, by omega⟩, h2.2.2.2.2⟩

/-- No fork by a thread that has a number, no deaths. -/
def clnM (x : MState) : MEv → Bool
  | .w (.fork t _) => (x.w.cache t).isNone
  | .ev (.die _) => false
  | _ => true

theorem clnM_ok {x : MState} {e : MEv} (h : clnM x e = true) : cleanM x e ∧ okDieM x e := by
  cases e with
  | ev e => cases e <;> first | exact ⟨trivial, trivial⟩ | cases h
  | w e =>
    cases e with
    | fork t n => exact ⟨by simpa [clnM, cleanM] using h, trivial⟩
    | create t n => exact ⟨trivial, trivial⟩

/-- Forked before anything else, the child is seen; 1 waits for its mutex and the check leaves it. A child's new thread has a
mutex as well. -/
example : ∃ x, MReach true (fun x e => cleanM x e ∧ okDieM x e) x ∧ MOwns x 7 2 ∧ MOwns x 8 3 ∧ x.w.seen 2 = true ∧
    MC.inM (x.pc 1) = true := by
  obtain ⟨x, h1, h2⟩ := mchk_case (key := true) (ok := clnM) (x := MState.init 1 4 4 4 MC.junk0)
    (es := .w (.fork 1 2) :: .ev (.call 2 (.lock 7 .block)) :: mgo 2 7 ++ .w (.create 2 3) ::
      .ev (.call 3 (.lock 8 .block)) :: mgo 3 7 ++ .ev (.call 1 (.lock 7 .block)) :: mgo 1 4 ++ .ev (.go 1 .limit) :: mgo 1 1 ++
      .ev (.go 1 (.mx 7)) :: mgo 1 1)
    (fun x => (x.w.runs 3, x.w.runs 2, x.mem.dep 8 3, x.mem.dep 7 2, x.w.seen 2, MC.inM (x.pc 1)))
    (true, true, 1, 1, true, true) (by decide +kernel)
  simp only [Prod.mk.injEq] at h2
  exact ⟨x, mchk_reach (fun _ _ h => clnM_ok h) (.init 1 4 4 4 MC.junk0 (by decide)) h1,
    ⟨by decide, h2.2.1, by omega⟩, ⟨by decide, h2.1, by omega⟩, h2.2.2.2.2⟩

/-- Without kept numbers the run of `C98_not_full` is another: the check finds the child. -/
example : ∃ x, MReach false okDieM x ∧ MOwns x 7 2 ∧ x.w.cache 1 = none ∧ x.w.seen 2 = true := by
  obtain ⟨x, h1, h2⟩ := m_case (key := false) (x := MState.init 1 4 4 4 MC.junk0) (es := robbed98.take 20)
    (fun x => (x.w.runs 2, x.mem.dep 7 2, x.w.cache 1, x.w.seen 2)) (true, 1, none, true) (by decide +kernel)
  simp only [Prod.mk.injEq] at h2
  refine ⟨x, m_run (ok := fun e => !e.isDie) ?_ (.init 1 4 4 4 MC.junk0 (by decide)) h1 (by decide +kernel),
    ⟨by decide, h2.1, by omega⟩, h2.2.2⟩
  intro e h x
  cases e with
  | ev e => cases e <;> first | trivial | cases h
  | w e => trivial

/-- No death, no fork by a thread that has a number; only [0,10) and [20,30) are locked. -/
def clnF (x : FState) : FEv → Bool
  | .w (.fork t _) => (x.w.cache t).isNone
  | .w _ => true
  | .ev e => FL.evRX e

theorem clnF_ok {x : FState} {e : FEv} (h : clnF x e = true) : cleanF x e ∧ okInF FL.RX x e := by
  cases e with
  | ev e => exact ⟨by cases e <;> trivial, (FL.evRX_ok h _).2.2⟩
  | w e =>
    cases e with
    | fork t n => exact ⟨by simpa [clnF, cleanF] using h, trivial⟩
    | create t n => exact ⟨trivial, trivial⟩

def fchk (key nofd : Bool) (ok : FState → FEv → Bool) (x : FState) : List FEv → Option FState
  | [] => some x
  | e :: es => if ok x e then (x.step key nofd e).bind (fchk key nofd ok · es) else none

theorem fchk_reach {key nofd : Bool} {A : FState → FEv → Prop} {ok : FState → FEv → Bool} (hok : ∀ x e, ok x e = true → A x e)
    {x x' : FState} {es : List FEv} (hr : FReach key nofd A x) (h : fchk key nofd ok x es = some x') : FReach key nofd A x' := by
  induction es generalizing x with
  | nil => cases h; exact hr
  | cons e es ih =>
    simp only [fchk] at h
    split at h
    · rename_i he
      simp only [Option.bind_eq_some_iff] at h
      obtain ⟨x1, h1, h⟩ := h
      exact ih (.step hr (hok _ _ he) h1) h
    · cases h

theorem fchk_case {α : Type} {key nofd : Bool} {ok : FState → FEv → Bool} {x : FState} {es : List FEv} (f : FState → α) (v : α)
    (h : (fchk key nofd ok x es).map f = some v) : ∃ x', fchk key nofd ok x es = some x' ∧ f x' = v := by
  cases hr : fchk key nofd ok x es with
  | none => rw [hr] at h; simp at h
  | some s => rw [hr] at h; exact ⟨s, rfl, by simpa using h⟩

/-- The child of a thread that has not used the library has a lock, the parent another, and asks for the child's: the check has
left it. -/
example : ∃ x, FReach true true (fun x e => cleanF x e ∧ okInF FL.RX x e) x ∧ Spec.Clustered FL.RX ∧
    (0, FL.Out.mk 2 (-3) FL.kX FL.rA .wr) ∈ x.mem.outs ∧ (1, FL.Out.mk 1 (-4) FL.kX FL.rB .wr) ∈ x.mem.outs ∧
    ∃ x', x.step true true (.ev (.go 1 .go)) = some x' := by
  obtain ⟨x, h1, h2⟩ := fchk_case (key := true) (nofd := true) (ok := clnF) (x := FState.init 1 2 4 8 FL.junk0)
    (es := .w (.fork 1 2) :: .ev (.call 2 (.lock (FL.mkOp (-3) FL.kX FL.rA .wr .block))) :: fgo 2 9 ++
      .ev (.call 1 (.lock (FL.mkOp (-4) FL.kX FL.rB .wr .block))) :: fgo 1 9 ++
      .ev (.call 1 (.lock (FL.mkOp (-4) FL.kX FL.rA .wr .block))) :: fgo 1 7 ++ .ev (.go 1 .limit) :: fgo 1 2)
    (fun x => (x.mem.outs, (x.step true true (.ev (.go 1 .go))).isSome))
    ([(1, FL.Out.mk 1 (-4) FL.kX FL.rB .wr), (0, FL.Out.mk 2 (-3) FL.kX FL.rA .wr)], true) (by decide +kernel)
  simp only [Prod.mk.injEq] at h2
  exact ⟨x, fchk_reach (fun _ _ h => clnF_ok h) (.init 1 2 4 8 FL.junk0 (by decide)) h1, FL.separate_clustered FL.sepRX,
    by rw [h2.1]; simp, by rw [h2.1]; simp, Option.isSome_iff_exists.1 h2.2⟩

end Fullock.Props
