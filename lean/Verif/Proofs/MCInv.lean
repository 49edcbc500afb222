import Verif.Spec.MutexCond
/-!
Invariants of the model of mutexes and conditions: the table locks, ownership, counts.
-/
namespace Fullock.MC

@[simp, grind =] theorem upd_same {α : Type} (f : Nat → α) (a : Nat) (b : α) : upd f a b a = b := by
  simp [upd]
@[simp] theorem upd_ne {α : Type} (f : Nat → α) {a x : Nat} (b : α) (h : x ≠ a) :
    upd f a b x = f x := by simp [upd, h]
@[grind =] theorem upd_apply {α : Type} (f : Nat → α) (a x : Nat) (b : α) :
    upd f a b x = if x = a then b else f x := rfl

@[grind =] theorem upd_upd {α : Type} (f : Nat → Nat → α) (g : Nat → α) (a b x y : Nat) (v : α) :
    upd f a (upd g b v) x y = if x = a then (if y = b then v else g y) else f x y := by
  simp only [upd]; split <;> rfl

def ukApi : UK → Bool
  | .api => true
  | .wt _ _ _ _ => false

/-- Places under the table lock of the mutexes. -/
def inM : Pc → Bool
  | .relM _ => true
  | .mFind _ _ => true
  | .mIns _ _ => true
  | .uFind _ => true
  | .ulRead _ k => ukApi k
  | .ulRead2 _ k => ukApi k
  | .ulSub _ k => ukApi k
  | .ulFix _ _ k => ukApi k
  | .ulCas _ k => ukApi k
  | .ulAdd _ k => ukApi k
  | .wM _ _ _ => true
  | .swM _ => true
  | .swChk _ _ _ => true
  | .swCnt _ _ => true
  | .swCntC _ _ _ => true
  | .swVal _ _ => true
  | .swValC _ _ _ => true
  | _ => false

/-- Places under the table lock of the conditions. -/
def inC : Pc → Bool
  | .relC _ => true
  | .wC _ _ _ => true
  | .wNew _ _ _ => true
  | .wGet _ _ _ => true
  | .wIni _ _ _ _ => true
  | .wIns _ _ _ _ => true
  | .wCut _ _ _ _ => true
  | .wPut _ _ => true
  | .sFind _ _ => true
  | .sWalk _ _ => true
  | .sSet _ => true
  | .bWalk _ => true
  | .bSet _ _ => true
  | .swC => true
  | .swPut _ => true
  | _ => false

def kOk (m : Nat) : LK → Bool
  | .api => true
  | .wt _ _ m' _ => m' == m

def uOk (m : Nat) : UK → Bool
  | .api => true
  | .wt _ _ m' _ => m' == m

def sOk : Option (Nat × Kind × LK) → Bool
  | none => true
  | some (m, _, k) => kOk m k

/-- Shape of the places: what follows the acquisition or release of a table lock. -/
def wf : Pc → Bool
  | .acqM (.mFind _ _) => true
  | .acqM (.uFind _) => true
  | .acqM (.wM _ _ _) => true
  | .acqM (.swM k) => sOk k
  | .acqM _ => false
  | .relM (.done _) => true
  | .relM (.lkRead m _ k) => kOk m k
  | .relM (.acqC (.wC _ _ _)) => true
  | .relM _ => false
  | .acqC (.wC _ _ _) => true
  | .acqC (.wCut _ _ _ _) => true
  | .acqC (.sFind _ _) => true
  | .acqC .swC => true
  | .acqC _ => false
  | .relC (.done _) => true
  | .relC (.wSet _ _ _ _) => true
  | .relC _ => false
  | .lkRead m _ k => kOk m k
  | .lkAdd m _ k => kOk m k
  | .lkChk m _ k => kOk m k
  | .lkSub m _ k => kOk m k
  | .lkCas m _ k => kOk m k
  | .lkInc m _ k => kOk m k
  | .ulRead m k => uOk m k
  | .ulRead2 m k => uOk m k
  | .ulSub m k => uOk m k
  | .ulFix m _ k => uOk m k
  | .ulCas m k => uOk m k
  | .ulAdd m k => uOk m k
  | .swM k => sOk k
  | .swChk _ _ k => sOk k
  | .swCnt _ k => sOk k
  | .swCntC _ _ k => sOk k
  | .swVal _ k => sOk k
  | .swValC _ _ k => sOk k
  | _ => true

theorem failed_cases {m : Nat} {kd : Kind} {k : LK} {c : Choice} {p : Pc}
    (h : failed m kd k c = some p) :
    (p = fin k EBUSY ∧ kd = .try_) ∨ (p = fin k ETIMEDOUT ∧ kd = .timed) ∨ p = .lkRead m kd k ∨
      (p = .acqM (.swM (some (m, kd, k))) ∧ kd = .block) := by
  cases c <;> cases kd <;> simp [failed] at h <;> simp [← h]

/-- The ways to go on after a failed attempt. -/
inductive Failed (m : Nat) (kd : Kind) (k : LK) : Pc → Prop
  | busy (h : kd = .try_) : Failed m kd k (fin k EBUSY)
  | over (h : kd = .timed) : Failed m kd k (fin k ETIMEDOUT)
  | again : Failed m kd k (.lkRead m kd k)
  | check (h : kd = .block) : Failed m kd k (.acqM (.swM (some (m, kd, k))))

theorem failed_rel {m : Nat} {kd : Kind} {k : LK} {c : Choice} {p : Pc}
    (h : failed m kd k c = some p) : Failed m kd k p := by
  rcases failed_cases h with ⟨rfl, h'⟩ | ⟨rfl, h'⟩ | rfl | ⟨rfl, h'⟩
  · exact .busy h'
  · exact .over h'
  · exact .again
  · exact .check h'

/-- The transitions of `plan`, one constructor per branch. -/
inductive Stp (M : Mem) (alive : Nat → Bool) (t : Nat) : Pc → Mem → Pc → Prop
  | acqM (p) (h : M.mL = 0 ∨ alive M.mL = false) : Stp M alive t (.acqM p) { M with mL := t } p
  | relM (p) : Stp M alive t (.relM p) { M with mL := if M.mL = t then 0 else M.mL } p
  | acqC (p) (h : M.cL = 0 ∨ alive M.cL = false) : Stp M alive t (.acqC p) { M with cL := t } p
  | relC (p) : Stp M alive t (.relC p) { M with cL := if M.cL = t then 0 else M.cL } p
  | mHit (m kd) (h : m ∈ M.mlist) : Stp M alive t (.mFind m kd) M (.relM (.lkRead m kd .api))
  | mFull (m kd) (h : m ∉ M.mlist) (h0 : M.mroom = 0) :
      Stp M alive t (.mFind m kd) M (.relM (.done ENOLCK))
  | mMiss (m kd) (h : m ∉ M.mlist) (h0 : M.mroom ≠ 0) :
      Stp M alive t (.mFind m kd) { M with mroom := M.mroom - 1 } (.mIns m kd)
  | mIns (m kd) : Stp M alive t (.mIns m kd)
      { M with mlist := m :: M.mlist, mval := upd M.mval m 0, mcnt := upd M.mcnt m 0 }
      (.relM (.lkRead m kd .api))
  | lkOwn (m kd k) (h : M.mval m = t) : Stp M alive t (.lkRead m kd k) M (.lkAdd m kd k)
  | lkOther (m kd k) (h : M.mval m ≠ t) : Stp M alive t (.lkRead m kd k) M (.lkCas m kd k)
  | lkAdd (m kd k) (h : 0 ≤ M.mcnt m) : Stp M alive t (.lkAdd m kd k)
      { M with mcnt := upd M.mcnt m (M.mcnt m + 1) } (.lkChk m kd k)
  | lkAddNeg (m kd k) (h : ¬ 0 ≤ M.mcnt m) : Stp M alive t (.lkAdd m kd k)
      { M with mcnt := upd M.mcnt m (M.mcnt m + 1) } (.lkSub m kd k)
  | lkChk (m kd k) (h : M.mval m = t) : Stp M alive t (.lkChk m kd k)
      { M with dep := upd M.dep m (upd (M.dep m) t (M.dep m t + 1)) } (fin k 0)
  | lkChkNo (m kd k) (h : M.mval m ≠ t) : Stp M alive t (.lkChk m kd k) M (.lkSub m kd k)
  | lkSub (m kd k p) (h : Failed m kd k p) : Stp M alive t (.lkSub m kd k)
      { M with mcnt := upd M.mcnt m (M.mcnt m - 1) } p
  | lkCas (m kd k) (h : M.mval m = 0) : Stp M alive t (.lkCas m kd k)
      { M with mval := upd M.mval m t } (.lkInc m kd k)
  | lkCasNo (m kd k p) (h0 : M.mval m ≠ 0) (h : Failed m kd k p) : Stp M alive t (.lkCas m kd k) M p
  | lkInc (m kd k) : Stp M alive t (.lkInc m kd k)
      { M with mcnt := upd M.mcnt m (M.mcnt m + 1),
               dep := upd M.dep m (upd (M.dep m) t (M.dep m t + 1)) } (fin k 0)
  | uHit (m) (h : m ∈ M.mlist) : Stp M alive t (.uFind m) M (.ulRead m .api)
  | uMiss (m) (h : m ∉ M.mlist) : Stp M alive t (.uFind m) M (.relM (.done EINVAL))
  | ulFree (m k) (h : M.mval m = 0) : Stp M alive t (.ulRead m k)
      { M with dep := upd M.dep m (upd (M.dep m) t 0) } (ufin k 0)
  | ulHeld (m k) (h : M.mval m ≠ 0) : Stp M alive t (.ulRead m k) M (.ulRead2 m k)
  | ulPerm (m k) (h : M.mval m ≠ t) : Stp M alive t (.ulRead2 m k) M (ufin k EPERM)
  | ulOwn (m k) (h : M.mval m = t) : Stp M alive t (.ulRead2 m k) M (.ulSub m k)
  | ulSubLow (m k) (h : M.mcnt m < 1) : Stp M alive t (.ulSub m k)
      { M with mcnt := upd M.mcnt m (M.mcnt m - 1) } (.ulFix m (M.mcnt m) k)
  | ulSubLast (m k) (h : M.mcnt m = 1) : Stp M alive t (.ulSub m k)
      { M with mcnt := upd M.mcnt m (M.mcnt m - 1) } (.ulCas m k)
  | ulSubMore (m k) (h : ¬ M.mcnt m ≤ 1) : Stp M alive t (.ulSub m k)
      { M with mcnt := upd M.mcnt m (M.mcnt m - 1) } (.ulRead m k)
  | ulFix (m old k) : Stp M alive t (.ulFix m old k)
      { M with mcnt := if M.mcnt m = old then upd M.mcnt m 0 else M.mcnt } (.ulCas m k)
  | ulCas (m k) (h : M.mval m = t) : Stp M alive t (.ulCas m k)
      { M with mval := upd M.mval m 0, dep := upd M.dep m (upd (M.dep m) t 0) } (ufin k 0)
  | ulCasFree (m k) (h : M.mval m ≠ t) (h0 : M.mval m = 0) : Stp M alive t (.ulCas m k)
      { M with dep := upd M.dep m (upd (M.dep m) t 0) } (ufin k 0)
  | ulCasNo (m k) (h : M.mval m ≠ t) (h0 : M.mval m ≠ 0) :
      Stp M alive t (.ulCas m k) M (.ulAdd m k)
  | ulAdd (m k) : Stp M alive t (.ulAdd m k)
      { M with mcnt := upd M.mcnt m (M.mcnt m + 1) } (.ulRead m k)
  | wMHit (c m kd) (h : m ∈ M.mlist) :
      Stp M alive t (.wM c m kd) M (.relM (.acqC (.wC c m kd)))
  | wMMiss (c m kd) (h : m ∉ M.mlist) : Stp M alive t (.wM c m kd) M (.relM (.done EINVAL))
  | wCHit (c m kd) (h : c ∈ M.clist) : Stp M alive t (.wC c m kd) M (.wGet c m kd)
  | wCFull (c m kd) (h : c ∉ M.clist) (h0 : M.croom = 0) :
      Stp M alive t (.wC c m kd) M (.relC (.done ENOLCK))
  | wCMiss (c m kd) (h : c ∉ M.clist) (h0 : M.croom ≠ 0) :
      Stp M alive t (.wC c m kd) { M with croom := M.croom - 1 } (.wNew c m kd)
  | wNew (c m kd) : Stp M alive t (.wNew c m kd)
      { M with clist := c :: M.clist, ws := upd M.ws c [] } (.wGet c m kd)
  | wGetNo (c m kd) (h : M.wfree = []) : Stp M alive t (.wGet c m kd) M (.relC (.done ENOLCK))
  | wGet (c w m kd rest) (h : M.wfree = w :: rest) :
      Stp M alive t (.wGet c m kd) { M with wfree := rest } (.wIni c w m kd)
  | wIni (c w m kd) : Stp M alive t (.wIni c w m kd)
      { M with wtid := upd M.wtid w t, wup := upd M.wup w false } (.wIns c w m kd)
  | wIns (c w m kd) : Stp M alive t (.wIns c w m kd)
      { M with ws := upd M.ws c (w :: M.ws c), warr := upd M.warr w M.tick, tick := M.tick + 1 }
      (.relC (.wSet c w m kd))
  | wSet (c w m kd) : Stp M alive t (.wSet c w m kd)
      { M with wup := upd M.wup w false } (.ulRead m (.wt c w m kd))
  | wErr (c w m r) : Stp M alive t (.wErr c w m r)
      { M with wup := upd M.wup w true } (.acqC (.wCut c w m r))
  | wSpinUp (c w m kd) (h : M.wup w = true) :
      Stp M alive t (.wSpin c w m kd) M (.lkRead m kd (.wt c w m 0))
  | wSpin (c w m kd) (h : M.wup w = false) :
      Stp M alive t (.wSpin c w m kd) M (.wSpin c w m kd)
  | wSpinOver (c w m kd) (hk : kd ≠ .block) (h : M.wup w = false) :
      Stp M alive t (.wSpin c w m kd) M (.lkRead m kd (.wt c w m ETIMEDOUT))
  | wCut (c w m r) (h : w ∈ M.ws c) : Stp M alive t (.wCut c w m r)
      { M with ws := upd M.ws c ((M.ws c).erase w) } (.wPut w r)
  | wCutNo (c w m r) (h : w ∉ M.ws c) : Stp M alive t (.wCut c w m r) M
      (.relC (.done (if r = 0 then ENOLCK else r)))
  | wPut (w r) : Stp M alive t (.wPut w r) { M with wfree := w :: M.wfree } (.relC (.done r))
  | sMiss (c b) (h : c ∉ M.clist) : Stp M alive t (.sFind c b) M (.relC (.done EINVAL))
  | sHit (c) (h : c ∈ M.clist) : Stp M alive t (.sFind c false) M (.sWalk (M.ws c) none)
  | bHit (c) (h : c ∈ M.clist) : Stp M alive t (.sFind c true) M (.bWalk (M.ws c))
  | sNone : Stp M alive t (.sWalk [] none) M (.relC (.done 0))
  | sSome (w) : Stp M alive t (.sWalk [] (some w)) M (.sSet w)
  | sSkip (x xs last) (h : M.wup x = true) :
      Stp M alive t (.sWalk (x :: xs) last) M (.sWalk xs last)
  | sTake (x xs last) (h : M.wup x = false) :
      Stp M alive t (.sWalk (x :: xs) last) M (.sWalk xs (some x))
  | sSet (w) : Stp M alive t (.sSet w) { M with wup := upd M.wup w true } (.relC (.done 0))
  | bEnd : Stp M alive t (.bWalk []) M (.relC (.done 0))
  | bSkip (x xs) (h : M.wup x = true) : Stp M alive t (.bWalk (x :: xs)) M (.bWalk xs)
  | bTake (x xs) (h : M.wup x = false) : Stp M alive t (.bWalk (x :: xs)) M (.bSet x xs)
  | bSet (w xs) : Stp M alive t (.bSet w xs) { M with wup := upd M.wup w true } (.bWalk xs)
  | swSkip (m k) (hm : m ∈ M.mlist) (h : M.mval m = 0 ∨ M.mval m = t) :
      Stp M alive t (.swM k) M (.swM k)
  | swTake (m k) (hm : m ∈ M.mlist) (h0 : M.mval m ≠ 0) (h : M.mval m ≠ t) :
      Stp M alive t (.swM k) M (.swChk m (M.mval m) k)
  | swEnd (k) : Stp M alive t (.swM k) M (.relM (swBack k))
  | swLive (m v k) : Stp M alive t (.swChk m v k) M (.swM k)
  | swDead (m v k) (h : alive v = false) : Stp M alive t (.swChk m v k) M (.swCnt m k)
  | swCnt (m k) : Stp M alive t (.swCnt m k) M (.swCntC m (M.mcnt m) k)
  | swCntZ (m k) : Stp M alive t (.swCntC m 0 k) M (.swVal m k)
  | swCntC (m old k) (h0 : old ≠ 0) (h : M.mcnt m = old) : Stp M alive t (.swCntC m old k)
      { M with mcnt := upd M.mcnt m 0 } (.swVal m k)
  | swCntNo (m old k) (h0 : old ≠ 0) (h : M.mcnt m ≠ old) :
      Stp M alive t (.swCntC m old k) M (.swCnt m k)
  | swVal (m k) : Stp M alive t (.swVal m k) M (.swValC m (M.mval m) k)
  | swValZ (m k) : Stp M alive t (.swValC m 0 k) M (.swM k)
  | swValC (m v k) (h0 : v ≠ 0) (h : M.mval m = v) : Stp M alive t (.swValC m v k)
      { M with mval := upd M.mval m 0 } (.swM k)
  | swValNo (m v k) (h0 : v ≠ 0) (h : M.mval m ≠ v) : Stp M alive t (.swValC m v k) M (.swCnt m k)
  | swCCut (c w) (hc : c ∈ M.clist) (hw : w ∈ M.ws c) (h : alive (M.wtid w) = false) :
      Stp M alive t .swC { M with ws := upd M.ws c ((M.ws c).erase w) } (.swPut w)
  | swCEnd : Stp M alive t .swC M (.relC (.done 0))
  | swPut (w) : Stp M alive t (.swPut w) { M with wfree := w :: M.wfree } .swC

theorem stp_of_plan {M M' : Mem} {alive : Nat → Bool} {t : Nat} {p p' : Pc} {c : Choice}
    (h : plan M alive t p c = some (M', p')) : Stp M alive t p M' p' := by
  unfold plan at h
  split at h
  all_goals (try (simp only [reduceCtorEq] at h; done))
  all_goals (try (obtain ⟨rfl, rfl⟩ := Prod.mk.inj (Option.some.inj h)
                  first | exact .relM _ | exact .relC _ | exact .ulFix _ _ _))
  all_goals (repeat' split at h)
  all_goals (try (simp only [reduceCtorEq] at h; done))
  all_goals (try (
    obtain ⟨rfl, rfl⟩ := Prod.mk.inj (Option.some.inj h)))
  all_goals (try (simp only [Option.map_eq_some_iff, Prod.mk.injEq] at h
                  obtain ⟨q, hq, rfl, rfl⟩ := h
                  replace hq := failed_rel hq))
  all_goals (repeat' split)
  all_goals (try subst_vars)
  all_goals first
    | (rename_i hb; rw [Bool.not_eq_true] at hb; subst hb; exact .sHit _ (by assumption))
    | (constructor <;> first | assumption | (simp_all; done) | omega)
    | (exact .sSkip _ _ _ (by assumption))
    | (exact .sTake _ _ _ (by simpa using ‹¬ _›))
    | (exact .swLive _ _ _)
    | (exact .wSpinOver _ _ _ _ (by simp_all) (by simp_all))
    | (exact .swSkip _ _ (by assumption) (by assumption))
    | (exact .swTake _ _ (by assumption) (by simp_all) (by simp_all))
    | skip
  rename_i c w m r hw hr
  have := Stp.wCutNo (M := M) (alive := alive) (t := t) c w m r hw
  rwa [if_neg hr] at this

/-! ### Shape of the places and table locks -/

theorem wf_failed {m : Nat} {kd : Kind} {k : LK} {p : Pc} (h : Failed m kd k p) (hk : kOk m k = true) :
    wf p = true ∧ inM p = false ∧ inC p = false := by
  cases h <;> (try cases k) <;> simp_all [fin, wf, inM, inC, sOk]

theorem wf_stp {M M' : Mem} {alive : Nat → Bool} {t : Nat} {p p' : Pc}
    (h : Stp M alive t p M' p') (w : wf p = true) : wf p' = true := by
  cases h <;> (try rfl) <;> (try exact w)
  case acqM => cases p' <;> simp_all [wf]
  case relM => cases p' <;> simp_all [wf]; rename_i p; cases p <;> simp_all [wf]
  case acqC => cases p' <;> simp_all [wf]
  case relC => cases p' <;> simp_all [wf]
  case lkChk k _ => cases k <;> simp [fin, wf]
  case lkInc k => cases k <;> simp [fin, wf]
  case lkSub h => exact (wf_failed h w).1
  case lkCasNo h => exact (wf_failed h w).1
  case ulFree k _ => cases k <;> simp [ufin, wf]
  case ulPerm k _ => cases k <;> simp [ufin, wf, EPERM]
  case ulCas k _ => cases k <;> simp [ufin, wf]
  case ulCasFree k _ _ => cases k <;> simp [ufin, wf]
  case wSet => simp [wf, uOk]
  case wSpinUp => simp [wf, kOk]
  case wSpinOver => simp [wf, kOk]
  case swEnd k => rcases k with _ | ⟨m, kd, k⟩ <;> simp_all [wf, swBack, sOk]

/-- How a step moves into and out of a table lock. -/
def LockEff (alive : Nat → Bool) (t : Nat) (i i' : Bool) (l l' : Nat) : Prop :=
  (i' = i ∧ l' = l) ∨ (i = false ∧ i' = true ∧ (l = 0 ∨ alive l = false) ∧ l' = t) ∨
    (i = true ∧ i' = false ∧ l' = if l = t then 0 else l)

theorem lock_stp {M M' : Mem} {alive : Nat → Bool} {t : Nat} {p p' : Pc}
    (h : Stp M alive t p M' p') (w : wf p = true) :
    LockEff alive t (inM p) (inM p') M.mL M'.mL ∧ LockEff alive t (inC p) (inC p') M.cL M'.cL := by
  cases h <;> (try exact ⟨.inl ⟨rfl, rfl⟩, .inl ⟨rfl, rfl⟩⟩)
  case acqM h => cases p' <;> simp_all [wf, LockEff, inM, inC]
  case relM =>
    cases p' <;> simp_all [wf, LockEff, inM, inC]
  case acqC h => cases p' <;> simp_all [wf, LockEff, inM, inC]
  case relC => cases p' <;> simp_all [wf, LockEff, inM, inC]
  case lkChk k _ => cases k <;> simp [fin, LockEff, inM, inC]
  case lkInc k => cases k <;> simp [fin, LockEff, inM, inC]
  case lkSub h =>
    obtain ⟨-, h1, h2⟩ := wf_failed h w
    exact ⟨.inl ⟨h1, rfl⟩, .inl ⟨h2, rfl⟩⟩
  case lkCasNo h =>
    obtain ⟨-, h1, h2⟩ := wf_failed h w
    exact ⟨.inl ⟨h1, rfl⟩, .inl ⟨h2, rfl⟩⟩
  case ulFree k _ => cases k <;> simp [ufin, LockEff, inM, inC, ukApi]
  case ulPerm k _ => cases k <;> simp [ufin, LockEff, inM, inC, EPERM, ukApi]
  case ulCas k _ => cases k <;> simp [ufin, LockEff, inM, inC, ukApi]
  case ulCasFree k _ _ => cases k <;> simp [ufin, LockEff, inM, inC, ukApi]

/-- The mutexes a place will use. -/
def uses : Pc → List Nat
  | .acqM p => uses p
  | .relM p => uses p
  | .acqC p => uses p
  | .relC p => uses p
  | .lkRead m _ _ => [m]
  | .lkAdd m _ _ => [m]
  | .lkChk m _ _ => [m]
  | .lkSub m _ _ => [m]
  | .lkCas m _ _ => [m]
  | .lkInc m _ _ => [m]
  | .ulRead m _ => [m]
  | .ulRead2 m _ => [m]
  | .ulSub m _ => [m]
  | .ulFix m _ _ => [m]
  | .ulCas m _ => [m]
  | .ulAdd m _ => [m]
  | .wC _ m _ => [m]
  | .wNew _ m _ => [m]
  | .wGet _ m _ => [m]
  | .wIni _ _ m _ => [m]
  | .wIns _ _ m _ => [m]
  | .wSet _ _ m _ => [m]
  | .wSpin _ _ m _ => [m]
  | .swM k => (k.map (·.1)).toList
  | .swChk m _ k => m :: (k.map (·.1)).toList
  | .swCnt m k => m :: (k.map (·.1)).toList
  | .swCntC m _ k => m :: (k.map (·.1)).toList
  | .swVal m k => m :: (k.map (·.1)).toList
  | .swValC m _ k => m :: (k.map (·.1)).toList
  | _ => []

theorem uses_failed {m : Nat} {kd : Kind} {k : LK} {p : Pc} (h : Failed m kd k p) :
    ∀ x ∈ uses p, x = m := by
  cases h <;> (try cases k) <;> simp [fin, uses]

theorem uses_stp {M M' : Mem} {alive : Nat → Bool} {t : Nat} {p p' : Pc}
    (h : Stp M alive t p M' p') (w : wf p = true) :
    (∀ m ∈ M.mlist, m ∈ M'.mlist) ∧ ∀ m ∈ uses p', m ∈ uses p ∨ m ∈ M'.mlist := by
  cases h <;> (try exact ⟨fun _ h => h, fun _ h => .inl h⟩)
  case lkSub h => exact ⟨fun _ h => h, fun x hx => .inl (by simp [uses, uses_failed h x hx])⟩
  case lkCasNo h => exact ⟨fun _ h => h, fun x hx => .inl (by simp [uses, uses_failed h x hx])⟩
  case lkChk k _ => cases k <;> simp [fin, uses]
  case lkInc k => cases k <;> simp [fin, uses]
  case ulFree k _ => cases k <;> simp_all [ufin, uses, wf, uOk]
  case ulPerm k _ => cases k <;> simp_all [ufin, uses, wf, uOk, EPERM]
  case ulCas k _ => cases k <;> simp_all [ufin, uses, wf, uOk]
  case ulCasFree k _ _ => cases k <;> simp_all [ufin, uses, wf, uOk]
  case swEnd k => rcases k with _ | ⟨m, kd, k⟩ <;> simp_all [uses, swBack]
  all_goals simp_all [uses]

/-- What holds in every reachable state, whatever happens. -/
structure Base (s : State) : Prop where
  zero : s.pc 0 = .done 0
  shape : ∀ t, wf (s.pc t) = true
  lockM : ∀ t, t ≠ 0 → s.alive t = true → (s.mem.mL = t ↔ inM (s.pc t) = true)
  lockC : ∀ t, t ≠ 0 → s.alive t = true → (s.mem.cL = t ↔ inC (s.pc t) = true)
  used : ∀ t, ∀ m ∈ uses (s.pc t), m ∈ s.mem.mlist

theorem lock_keep {alive : Nat → Bool} {pc : Nat → Bool} {l l' t : Nat} {i' : Bool} (t0 : t ≠ 0)
    (ta : alive t = true) (h : ∀ u, u ≠ 0 → alive u = true → (l = u ↔ pc u = true))
    (e : LockEff alive t (pc t) i' l l') :
    ∀ u, u ≠ 0 → alive u = true → (l' = u ↔ upd pc t i' u = true) := by
  intro u u0 ua
  have hu := h u u0 ua
  have ht := h t t0 ta
  rcases e with ⟨e1, e2⟩ | ⟨e1, e2, e3, e4⟩ | ⟨e1, e2, e3⟩
  · by_cases hut : u = t
    · subst hut; simpa [e1, e2] using hu
    · simpa [upd, hut, e2] using hu
  · by_cases hut : u = t
    · subst hut; simp [e2, e4]
    · have : pc u ≠ true := by
        rw [Ne, ← h u u0 ua]
        rintro rfl
        rcases e3 with e3 | e3
        · exact u0 e3
        · rw [ua] at e3; cases e3
      simp [upd, hut, this, e4, Ne.symm hut]
  · have hl : l = t := ht.mpr e1
    subst hl
    by_cases hut : u = l
    · subst hut; simp [e2, e3, Ne.symm u0]
    · have : pc u ≠ true := by rw [Ne, ← h u u0 ua]; exact fun e => hut e.symm
      simp [upd, hut, this, e3, Ne.symm u0]

theorem upd_comp {α β : Type} (g : α → β) (f : Nat → α) (a : Nat) (b : α) (x : Nat) :
    g (upd f a b x) = upd (fun y => g (f y)) a (g b) x := by simp only [upd]; split <;> rfl

/-- A step of the model: a call, a step of `plan`, or a death. -/
theorem step_cases {s s' : State} {e : Ev} (h : step s e = some s') :
    (∃ t c r, e = .call t c ∧ t ≠ 0 ∧ s.alive t = true ∧ s.pc t = .done r ∧
      s' = { s with pc := upd s.pc t c.start, last := upd s.last t c }) ∨
    (∃ t c M' p', e = .go t c ∧ s.alive t = true ∧ plan s.mem s.alive t (s.pc t) c = some (M', p') ∧
      s' = { s with mem := M', pc := upd s.pc t p' }) ∨
    (∃ t, e = .die t ∧ s.alive t = true ∧ s' = { s with alive := upd s.alive t false }) := by
  cases e with
  | call t c =>
    simp only [step] at h
    split at h
    · cases h
    · rename_i ht
      split at h
      · rename_i r hr
        cases h
        refine .inl ⟨t, c, r, rfl, ?_, ?_, hr, rfl⟩ <;> simp_all
      · cases h
  | go t c =>
    simp only [step] at h
    split at h
    · cases h
    · rename_i ht
      simp only [Option.map_eq_some_iff, Prod.exists] at h
      obtain ⟨M', p', hp, rfl⟩ := h
      exact .inr (.inl ⟨t, c, M', p', rfl, by simpa using ht, hp, rfl⟩)
  | die t =>
    simp only [step] at h
    split at h
    · cases h
    · rename_i ht
      cases h
      exact .inr (.inr ⟨t, rfl, by simpa using ht, rfl⟩)

theorem plan_done {M : Mem} {alive : Nat → Bool} {t r : Nat} {c : Choice} :
    plan M alive t (.done r) c = none := by cases c <;> rfl

theorem Base.go0 {s : State} (b : Base s) {t : Nat} {c : Choice} {x : Mem × Pc}
    (h : plan s.mem s.alive t (s.pc t) c = some x) : t ≠ 0 := by
  rintro rfl
  rw [b.zero, plan_done] at h
  cases h

theorem wf_start (c : Call) : wf c.start = true ∧ inM c.start = false ∧ inC c.start = false ∧
    uses c.start = [] := by cases c <;> simp [Call.start, wf, inM, inC, uses, sOk]

theorem base_step {s s' : State} {e : Ev} (b : Base s) (h : step s e = some s') : Base s' := by
  rcases step_cases h with ⟨t, c, r, -, t0, ta, hr, rfl⟩ | ⟨t, c, M', p', -, ta, hp, rfl⟩ |
    ⟨t, -, ta, rfl⟩
  · obtain ⟨h1, h2, h3, h4⟩ := wf_start c
    constructor
    · simp [upd, Ne.symm t0, b.zero]
    · intro u; simp only [upd_comp wf]; simp only [upd]; split
      · exact h1
      · exact b.shape u
    · have := lock_keep (pc := fun u => inM (s.pc u)) (i' := inM c.start) t0 ta b.lockM
        (.inl ⟨by rw [h2]; simp [hr, inM], rfl⟩)
      intro u u0 ua
      simpa only [upd_comp inM] using this u u0 ua
    · have := lock_keep (pc := fun u => inC (s.pc u)) (i' := inC c.start) t0 ta b.lockC
        (.inl ⟨by rw [h3]; simp [hr, inC], rfl⟩)
      intro u u0 ua
      simpa only [upd_comp inC] using this u u0 ua
    · intro u m hm
      simp only [upd_comp uses] at hm
      simp only [upd] at hm; split at hm
      · simp [h4] at hm
      · exact b.used u m hm
  · have t0 := b.go0 hp
    have hs := stp_of_plan hp
    have hl := lock_stp hs (b.shape t)
    have hu := uses_stp hs (b.shape t)
    constructor
    · simp [upd, Ne.symm t0, b.zero]
    · intro u; simp only [upd_comp wf]; simp only [upd]; split
      · exact wf_stp hs (b.shape t)
      · exact b.shape u
    · have := lock_keep (pc := fun u => inM (s.pc u)) (i' := inM p') t0 ta b.lockM hl.1
      intro u u0 ua
      simpa only [upd_comp inM] using this u u0 ua
    · have := lock_keep (pc := fun u => inC (s.pc u)) (i' := inC p') t0 ta b.lockC hl.2
      intro u u0 ua
      simpa only [upd_comp inC] using this u u0 ua
    · intro u m hm
      simp only [upd_comp uses] at hm
      simp only [upd] at hm; split at hm
      · rcases hu.2 m hm with h | h
        · exact hu.1 m (b.used t m h)
        · exact h
      · exact hu.1 m (b.used u m hm)
  · constructor
    · exact b.zero
    · exact b.shape
    · intro u u0 ua
      refine b.lockM u u0 ?_
      simp only [upd] at ua; split at ua <;> simp_all
    · intro u u0 ua
      refine b.lockC u u0 ?_
      simp only [upd] at ua; split at ua <;> simp_all
    · exact b.used

theorem base_init (nm nc nw : Nat) (junk : Mem) : Base (init nm nc nw junk) := by
  constructor <;> intros <;> simp_all [init, wf, inM, inC, uses, eq_comm]

theorem base_reach {A : State → Ev → Prop} {s : State} (h : Reach A s) : Base s := by
  induction h with
  | init nm nc nw junk => exact base_init ..
  | step _ _ h ih => exact base_step ih h

/-! ### No name is listed twice -/

def AtN (M : Mem) : Pc → Prop
  | .mIns m _ => m ∉ M.mlist
  | .wNew c _ _ => c ∉ M.clist
  | _ => True

structure Names (s : State) : Prop where
  base : Base s
  mnd : s.mem.mlist.Nodup
  cnd : s.mem.clist.Nodup
  at_ : ∀ t, s.alive t = true → AtN s.mem (s.pc t)

theorem fin_AtN {M : Mem} (k : LK) (r : Nat) : AtN M (fin k r) := by cases k <;> simp [fin, AtN]
theorem ufin_AtN {M : Mem} (k : UK) (r : Nat) : AtN M (ufin k r) := by
  cases k <;> simp only [ufin]
  · simp [AtN]
  · split <;> simp [AtN]

theorem names_stp {M M' : Mem} {alive : Nat → Bool} {t : Nat} {p p' : Pc}
    (h : Stp M alive t p M' p') (w : wf p = true) (ha : AtN M p) :
    AtN M' p' ∧ (M.mlist.Nodup → M'.mlist.Nodup) ∧ (M.clist.Nodup → M'.clist.Nodup) ∧
      (inM p = false → M'.mlist = M.mlist) ∧ (inC p = false → M'.clist = M.clist) := by
  cases h <;>
    (try exact ⟨trivial, fun h => h, fun h => h, fun _ => rfl, fun _ => rfl⟩)
  case acqM => cases p' <;> simp_all [wf, AtN]
  case relM => cases p' <;> simp_all [wf, AtN]
  case acqC => cases p' <;> simp_all [wf, AtN]
  case relC => cases p' <;> simp_all [wf, AtN]
  case lkSub h =>
    refine ⟨?_, fun h => h, fun h => h, fun _ => rfl, fun _ => rfl⟩
    cases h <;> first | exact fin_AtN _ _ | trivial
  case lkCasNo h =>
    refine ⟨?_, fun h => h, fun h => h, fun _ => rfl, fun _ => rfl⟩
    cases h <;> first | exact fin_AtN _ _ | trivial
  case lkChk => exact ⟨fin_AtN _ _, fun h => h, fun h => h, fun _ => rfl, fun _ => rfl⟩
  case lkInc => exact ⟨fin_AtN _ _, fun h => h, fun h => h, fun _ => rfl, fun _ => rfl⟩
  case ulFree => exact ⟨ufin_AtN _ _, fun h => h, fun h => h, fun _ => rfl, fun _ => rfl⟩
  case ulPerm => exact ⟨ufin_AtN _ _, fun h => h, fun h => h, fun _ => rfl, fun _ => rfl⟩
  case ulCas => exact ⟨ufin_AtN _ _, fun h => h, fun h => h, fun _ => rfl, fun _ => rfl⟩
  case ulCasFree => exact ⟨ufin_AtN _ _, fun h => h, fun h => h, fun _ => rfl, fun _ => rfl⟩
  all_goals simp_all [AtN, inM, inC]

theorem names_init (nm nc nw : Nat) (junk : Mem) : Names (init nm nc nw junk) := by
  refine ⟨base_init .., ?_, ?_, ?_⟩ <;> simp [init, AtN]

theorem Base.excl {s : State} (b : Base s) {t u : Nat} (t0 : t ≠ 0) (u0 : u ≠ 0)
    (ta : s.alive t = true) (ua : s.alive u = true) (hut : u ≠ t) :
    (inM (s.pc u) = true → inM (s.pc t) = false) ∧ (inC (s.pc u) = true → inC (s.pc t) = false) := by
  have a1 := b.lockM t t0 ta
  have a2 := b.lockM u u0 ua
  have a3 := b.lockC t t0 ta
  have a4 := b.lockC u u0 ua
  constructor
  · intro h
    have := a2.mpr h
    rw [this] at a1
    cases hx : inM (s.pc t)
    · rfl
    · exact absurd (a1.mpr hx) hut
  · intro h
    have := a4.mpr h
    rw [this] at a3
    cases hx : inC (s.pc t)
    · rfl
    · exact absurd (a3.mpr hx) hut

theorem names_step {s s' : State} {e : Ev} (i : Names s) (h : step s e = some s') : Names s' := by
  have hb := base_step i.base h
  rcases step_cases h with ⟨t, c, r, -, t0, ta, hr, rfl⟩ | ⟨t, c, M', p', -, ta, hp, rfl⟩ |
    ⟨t, rfl, ta, rfl⟩
  · refine ⟨hb, i.mnd, i.cnd, ?_⟩
    intro u ua
    simp only [upd]
    split
    · cases c <;> simp [Call.start, AtN]
    · exact i.at_ u ua
  · have t0 := i.base.go0 hp
    have hs := stp_of_plan hp
    obtain ⟨h1, h2, h3, h4, h5⟩ := names_stp hs (i.base.shape t) (i.at_ t ta)
    refine ⟨hb, h2 i.mnd, h3 i.cnd, ?_⟩
    intro u ua
    simp only [upd]
    split
    · exact h1
    · rename_i hut
      have hu := i.at_ u ua
      by_cases u0 : u = 0
      · subst u0; rw [i.base.zero]; trivial
      · have hx := i.base.excl t0 u0 ta ua hut
        generalize s.pc u = p at *
        cases p <;> (try trivial)
        · simp only [AtN] at hu ⊢; rw [h4 (hx.1 rfl)]; exact hu
        · simp only [AtN] at hu ⊢; rw [h5 (hx.2 rfl)]; exact hu
  · refine ⟨hb, i.mnd, i.cnd, ?_⟩
    intro u ua
    refine i.at_ u ?_
    simp only [upd] at ua
    split at ua
    · cases ua
    · exact ua

theorem names_reach {A : State → Ev → Prop} {s : State} (h : Reach A s) : Names s := by
  induction h with
  | init nm nc nw junk => exact names_init ..
  | step _ _ h ih => exact names_step ih h

end Fullock.MC
