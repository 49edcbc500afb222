import Verif.Proofs.MCMem
/-! The named mutexes and conditions on memory cells follow the model on tables. -/
namespace Fullock.MCMem
open Fullock.ListMem Fullock.Layout
open Fullock.FLMem (adr idx member adr_inj' idx_adr)
open Fullock.Props (NoWrap)
open Fullock.MC (Kind LK UK Choice EPERM EBUSY EINVAL ENOLCK ETIMEDOUT upd)

/-! ### The relation of tables and places -/

/-- The members of the records agree with the tables by name. -/
structure Data (T : Tab) (x : Mem) (M : MC.Mem) : Prop where
  ml : M.mlist = (T .mtxs).map x.mname
  mr : M.mroom = (T .mfree).length
  cl : M.clist = (T .conds).map x.cname
  cr : M.croom = (T .cfree).length
  wfr : M.wfree = T .wfree
  ws : ∀ c ∈ T .conds, M.ws (x.cname c) = T (.ws c)
  we : ∀ c, c ∉ T .conds → T (.ws c) = []
  mv : ∀ m ∈ T .mtxs, M.mval (x.mname m) = x.mval m
  mc : ∀ m ∈ T .mtxs, M.mcnt (x.mname m) = x.mcnt m
  md : ∀ m ∈ T .mtxs, M.dep (x.mname m) = x.dep m
  d0 : ∀ n, n ∉ M.mlist → M.dep n = fun _ => 0
  wt : M.wtid = x.wtid
  wu : M.wup = x.wup
  mL : M.mL = x.mL
  cL : M.cL = x.cL

def KI (T : Tab) : LK → Prop
  | .api => True
  | .wt c _ m _ => c ∈ T .conds ∧ m ∈ T .mtxs

def UI (T : Tab) : UK → Prop
  | .api => True
  | .wt c _ m _ => c ∈ T .conds ∧ m ∈ T .mtxs

def SI (T : Tab) : Option (Nat × Kind × LK) → Prop
  | none => True
  | some (m, _, k) => m ∈ T .mtxs ∧ KI T k

def aK (x : Mem) : LK → LK
  | .api => .api
  | .wt c w m r => .wt (x.cname c) w (x.mname m) r

def aU (x : Mem) : UK → UK
  | .api => .api
  | .wt c w m kd => .wt (x.cname c) w (x.mname m) kd

def aS (x : Mem) : Option (Nat × Kind × LK) → Option (Nat × Kind × LK)
  | none => none
  | some (m, kd, k) => some (x.mname m, kd, aK x k)

/-- `parent` is the last record of `pre`. -/
def Par (cnt : Pool → Nat) (b : Nat) (pre : List Nat) (parent : Nat) : Prop :=
  (pre = [] ∧ parent = 0) ∨ ∃ pre' q, pre = pre' ++ [q] ∧ parent = ptr cnt b .waiter q

/-- Places that rely on the table lock of the mutexes. -/
def needM : Pc → Bool
  | .acqM p => needM p
  | .relM p => needM p
  | .acqC p => needM p
  | .relC p => needM p
  | .mIni _ _ _ => true
  | .mIns _ _ => true
  | .swAt _ _ => true
  | _ => false

/-- Places that rely on the table lock of the conditions. -/
def needC : Pc → Bool
  | .acqM p => needC p
  | .relM p => needC p
  | .acqC p => needC p
  | .relC p => needC p
  | .wNewI _ _ _ _ => true
  | .wNew _ _ _ => true
  | .wIni _ _ _ _ => true
  | .wIns _ _ _ _ => true
  | .wPut _ _ => true
  | .sWalk _ _ => true
  | .bWalk _ => true
  | .bSet _ => true
  | .swW _ _ _ => true
  | .swCut _ _ _ => true
  | .swPut _ _ _ => true
  | .swNx _ _ => true
  | _ => false

/-- The place `p` of a thread on the cells is the place `q` on the tables. -/
def PcR (cnt : Pool → Nat) (b : Nat) (T : Tab) (x : Mem) (alive : Nat → Bool) : Pc → MC.Pc → Prop
  | .done r, q => q = .done r
  | .acqM p, q => ∃ q', q = .acqM q' ∧ needM p = false ∧ needC p = false ∧ PcR cnt b T x alive p q'
  | .relM p, q => ∃ q', q = .relM q' ∧ needM p = false ∧ needC p = false ∧ PcR cnt b T x alive p q'
  | .acqC p, q => ∃ q', q = .acqC q' ∧ needM p = false ∧ needC p = false ∧ PcR cnt b T x alive p q'
  | .relC p, q => ∃ q', q = .relC q' ∧ needM p = false ∧ needC p = false ∧ PcR cnt b T x alive p q'
  | .mFind n kd, q => q = .mFind n kd
  | .mIni m n kd, q => Free cnt T .mtxs m ∧ q = .mIns n kd
  | .mIns m kd, q => Free cnt T .mtxs m ∧ x.mval m = 0 ∧ x.mcnt m = 0 ∧ (x.dep m = fun _ => 0) ∧
      q = .mIns (x.mname m) kd
  | .lkRead m kd k, q => m ∈ T .mtxs ∧ KI T k ∧ q = .lkRead (x.mname m) kd (aK x k)
  | .lkAdd m kd k, q => m ∈ T .mtxs ∧ KI T k ∧ q = .lkAdd (x.mname m) kd (aK x k)
  | .lkChk m kd k, q => m ∈ T .mtxs ∧ KI T k ∧ q = .lkChk (x.mname m) kd (aK x k)
  | .lkSub m kd k, q => m ∈ T .mtxs ∧ KI T k ∧ q = .lkSub (x.mname m) kd (aK x k)
  | .lkCas m kd k, q => m ∈ T .mtxs ∧ KI T k ∧ q = .lkCas (x.mname m) kd (aK x k)
  | .lkInc m kd k, q => m ∈ T .mtxs ∧ KI T k ∧ q = .lkInc (x.mname m) kd (aK x k)
  | .uFind n, q => q = .uFind n
  | .ulRead m k, q => m ∈ T .mtxs ∧ UI T k ∧ q = .ulRead (x.mname m) (aU x k)
  | .ulRead2 m k, q => m ∈ T .mtxs ∧ UI T k ∧ q = .ulRead2 (x.mname m) (aU x k)
  | .ulSub m k, q => m ∈ T .mtxs ∧ UI T k ∧ q = .ulSub (x.mname m) (aU x k)
  | .ulFix m old k, q => m ∈ T .mtxs ∧ UI T k ∧ q = .ulFix (x.mname m) old (aU x k)
  | .ulCas m k, q => m ∈ T .mtxs ∧ UI T k ∧ q = .ulCas (x.mname m) (aU x k)
  | .ulAdd m k, q => m ∈ T .mtxs ∧ UI T k ∧ q = .ulAdd (x.mname m) (aU x k)
  | .wM nc n kd, q => q = .wM nc n kd
  | .wC nc m kd, q => m ∈ T .mtxs ∧ q = .wC nc (x.mname m) kd
  | .wNewI c nc m kd, q => Free cnt T .conds c ∧ m ∈ T .mtxs ∧ q = .wNew nc (x.mname m) kd
  | .wNew c m kd, q => Free cnt T .conds c ∧ m ∈ T .mtxs ∧ q = .wNew (x.cname c) (x.mname m) kd
  | .wGet c m kd, q => c ∈ T .conds ∧ m ∈ T .mtxs ∧ q = .wGet (x.cname c) (x.mname m) kd
  | .wIni c w m kd, q => c ∈ T .conds ∧ m ∈ T .mtxs ∧ Free cnt T .wfree w ∧
      q = .wIni (x.cname c) w (x.mname m) kd
  | .wIns c w m kd, q => c ∈ T .conds ∧ m ∈ T .mtxs ∧ Free cnt T .wfree w ∧
      x.wmtx w = adr cnt .nmtx m ∧ q = .wIns (x.cname c) w (x.mname m) kd
  | .wMtx c w kd, q => ∃ m, c ∈ T .conds ∧ m ∈ T .mtxs ∧ x.wmtx w = adr cnt .nmtx m ∧
      q = .wSet (x.cname c) w (x.mname m) kd
  | .wSet c w m kd, q => c ∈ T .conds ∧ m ∈ T .mtxs ∧ q = .wSet (x.cname c) w (x.mname m) kd
  | .wErr c w m r, q => c ∈ T .conds ∧ m ∈ T .mtxs ∧ q = .wErr (x.cname c) w (x.mname m) r
  | .wSpin c w m kd, q => c ∈ T .conds ∧ m ∈ T .mtxs ∧ q = .wSpin (x.cname c) w (x.mname m) kd
  | .wCut c w m r, q => c ∈ T .conds ∧ m ∈ T .mtxs ∧ q = .wCut (x.cname c) w (x.mname m) r
  | .wPut w r, q => Free cnt T .wfree w ∧ q = .wPut w r
  | .sFind nc bc, q => q = .sFind nc bc
  | .sWalk p last, q => ∃ c pre rest, c ∈ T .conds ∧ T (.ws c) = pre ++ rest ∧ p = hdp cnt b .waiter rest ∧
      q = .sWalk rest last
  | .sSet w, q => q = .sSet w
  | .bWalk p, q => ∃ c pre rest, c ∈ T .conds ∧ T (.ws c) = pre ++ rest ∧ p = hdp cnt b .waiter rest ∧
      q = .bWalk rest
  | .bSet p, q => ∃ c pre w rest, c ∈ T .conds ∧ T (.ws c) = pre ++ w :: rest ∧ p = ptr cnt b .waiter w ∧
      q = .bSet w rest
  | .swTop k, q => SI T k ∧ q = .swM (aS x k)
  | .swAt p k, q => ∃ rest, rest <:+ T .mtxs ∧ p = hdp cnt b .nmtx rest ∧ SI T k ∧ q = .swM (aS x k)
  | .swChk m v k, q => m ∈ T .mtxs ∧ SI T k ∧ q = .swChk (x.mname m) v (aS x k)
  | .swCnt m k, q => m ∈ T .mtxs ∧ SI T k ∧ q = .swCnt (x.mname m) (aS x k)
  | .swCntC m old k, q => m ∈ T .mtxs ∧ SI T k ∧ q = .swCntC (x.mname m) old (aS x k)
  | .swVal m k, q => m ∈ T .mtxs ∧ SI T k ∧ q = .swVal (x.mname m) (aS x k)
  | .swValC m v k, q => m ∈ T .mtxs ∧ SI T k ∧ q = .swValC (x.mname m) v (aS x k)
  | .swC, q => q = .swC
  | .swCond p, q => ∃ rest, rest <:+ T .conds ∧ p = hdp cnt b .ncond rest ∧ q = .swC
  | .swW c parent cur, q => ∃ pre rest, c ∈ T .conds ∧ T (.ws c) = pre ++ rest ∧ Par cnt b pre parent ∧
      cur = hdp cnt b .waiter rest ∧ q = .swC
  | .swCut c parent cur, q => ∃ pre w rest, c ∈ T .conds ∧ T (.ws c) = pre ++ w :: rest ∧ Par cnt b pre parent ∧
      cur = ptr cnt b .waiter w ∧ alive (x.wtid w) = false ∧ q = .swC
  | .swPut c parent cur, q => ∃ pre w rest, c ∈ T .conds ∧ T (.ws c) = pre ++ rest ∧ Par cnt b pre parent ∧
      cur = ptr cnt b .waiter w ∧ Free cnt T .wfree w ∧ q = .swPut w
  | .swNx c parent, q => ∃ pre rest, c ∈ T .conds ∧ T (.ws c) = pre ++ rest ∧ Par cnt b pre parent ∧ q = .swC

/-! ### Steps of other threads -/

/-- What a step from `q` leaves as it is. -/
structure Keep (q : MC.Pc) (T : Tab) (x : Mem) (T' : Tab) (x' : Mem) : Prop where
  mtxs : T .mtxs <:+ T' .mtxs
  mname : ∀ m ∈ T .mtxs, x'.mname m = x.mname m
  conds : T .conds <:+ T' .conds
  cname : ∀ c ∈ T .conds, x'.cname c = x.cname c
  notM : MC.inM q = false → T' .mtxs = T .mtxs ∧ T' .mfree = T .mfree ∧ x'.mname = x.mname ∧
    ∀ m, m ∉ T .mtxs → x'.mval m = x.mval m ∧ x'.mcnt m = x.mcnt m ∧ x'.dep m = x.dep m
  notC : MC.inC q = false → (∀ h, h.pool ≠ .nmtx → T' h = T h) ∧ x'.cname = x.cname ∧ x'.wtid = x.wtid ∧
    x'.wmtx = x.wmtx
  wm : ∀ w, MC.hand q ≠ some w → x'.wmtx w = x.wmtx w

theorem keep_refl (q : MC.Pc) (T : Tab) (x : Mem) : Keep q T x T x :=
  ⟨List.suffix_refl _, fun _ _ => rfl, List.suffix_refl _, fun _ _ => rfl,
    fun _ => ⟨rfl, rfl, rfl, fun _ _ => ⟨rfl, rfl, rfl⟩⟩, fun _ => ⟨fun _ _ => rfl, rfl, rfl, rfl⟩, fun _ _ => rfl⟩

theorem need_in {cnt : Pool → Nat} {b : Nat} {T : Tab} {x : Mem} {alive : Nat → Bool} {p : Pc} {q : MC.Pc}
    (h : PcR cnt b T x alive p q) :
    (needM p = true → MC.inM q = true) ∧ (needC p = true → MC.inC q = true) := by
  cases p
  case acqM p => obtain ⟨q', rfl, h1, h2, -⟩ := h; simp [needM, needC, h1, h2]
  case relM p => obtain ⟨q', rfl, h1, h2, -⟩ := h; simp [needM, needC, h1, h2]
  case acqC p => obtain ⟨q', rfl, h1, h2, -⟩ := h; simp [needM, needC, h1, h2]
  case relC p => obtain ⟨q', rfl, h1, h2, -⟩ := h; simp [needM, needC, h1, h2]
  all_goals simp only [PcR] at h
  all_goals (try (simp [needM, needC]; done))
  all_goals (repeat obtain ⟨_, h⟩ := h)
  all_goals simp_all [needM, needC, MC.inM, MC.inC]

section stab
variable {cnt : Pool → Nat} {b : Nat} {T T' : Tab} {x x' : Mem} {alive alive' : Nat → Bool} {q0 : MC.Pc}
  (K : Keep q0 T x T' x') (hal : ∀ t, alive t = false → alive' t = false)
include K

theorem ki_keep {k : LK} (h : KI T k) : KI T' k ∧ aK x' k = aK x k := by
  cases k with
  | api => exact ⟨trivial, rfl⟩
  | wt c w m r => exact ⟨⟨K.conds.subset h.1, K.mtxs.subset h.2⟩, by simp only [aK, K.cname c h.1, K.mname m h.2]⟩

theorem ui_keep {k : UK} (h : UI T k) : UI T' k ∧ aU x' k = aU x k := by
  cases k with
  | api => exact ⟨trivial, rfl⟩
  | wt c w m r => exact ⟨⟨K.conds.subset h.1, K.mtxs.subset h.2⟩, by simp only [aU, K.cname c h.1, K.mname m h.2]⟩

theorem si_keep {k : Option (Nat × Kind × LK)} (h : SI T k) : SI T' k ∧ aS x' k = aS x k := by
  rcases k with _ | ⟨m, kd, k⟩
  · exact ⟨trivial, rfl⟩
  · obtain ⟨h1, h2⟩ := ki_keep K h.2
    exact ⟨⟨K.mtxs.subset h.1, h1⟩, by simp only [aS, K.mname m h.1, h2]⟩

theorem free_keepM {m : Nat} (hM : MC.inM q0 = false) (h : Free cnt T .mtxs m) : Free cnt T' .mtxs m := by
  obtain ⟨e1, e2, -⟩ := K.notM hM
  refine ⟨h.1, fun h' hp => ?_⟩
  have := h.2 h' hp
  cases h' <;> simp_all [Head.pool]

theorem free_keepC {h : Head} {i : Nat} (hC : MC.inC q0 = false) (hp0 : h.pool ≠ .nmtx) (hf : Free cnt T h i) :
    Free cnt T' h i := by
  obtain ⟨e1, -⟩ := K.notC hC
  exact ⟨hf.1, fun h' hp => by rw [e1 h' (by rw [hp]; exact hp0)]; exact hf.2 h' hp⟩

theorem stab_aux (hal : ∀ t, alive t = false → alive' t = false) {p : Pc} {q : MC.Pc}
    (h : PcR cnt b T x alive p q)
    (hM : needM p = true → MC.inM q0 = false) (hC : needC p = true → MC.inC q0 = false)
    (hl : ∀ c w, MC.lst q = some (c, w) → x'.wmtx w = x.wmtx w) : PcR cnt b T' x' alive' p q := by
  have m1 := K.mtxs.subset
  have m2 := K.mname
  have c1 := K.conds.subset
  have c2 := K.cname
  induction p generalizing q with
  | done | mFind | uFind | wM | sFind | sSet | swC => exact h
  | acqM p ih => obtain ⟨q', rfl, n1, n2, h⟩ := h; exact ⟨q', rfl, n1, n2, ih h hM hC hl⟩
  | relM p ih => obtain ⟨q', rfl, n1, n2, h⟩ := h; exact ⟨q', rfl, n1, n2, ih h hM hC hl⟩
  | acqC p ih => obtain ⟨q', rfl, n1, n2, h⟩ := h; exact ⟨q', rfl, n1, n2, ih h hM hC hl⟩
  | relC p ih => obtain ⟨q', rfl, n1, n2, h⟩ := h; exact ⟨q', rfl, n1, n2, ih h hM hC hl⟩
  | mIni m n kd => exact ⟨free_keepM K (hM rfl) h.1, h.2⟩
  | mIns m kd =>
    obtain ⟨h1, h2, h3, h4, rfl⟩ := h
    obtain ⟨-, -, e1, e2⟩ := K.notM (hM rfl)
    obtain ⟨e3, e4, e5⟩ := e2 m (h1.2 _ rfl)
    exact ⟨free_keepM K (hM rfl) h1, by rw [e3, h2], by rw [e4, h3], by rw [e5, h4], by rw [e1]⟩
  | lkRead m kd k | lkAdd m kd k | lkChk m kd k | lkSub m kd k | lkCas m kd k | lkInc m kd k =>
    obtain ⟨h1, h2, rfl⟩ := h
    obtain ⟨k1, k2⟩ := ki_keep K h2
    exact ⟨m1 h1, k1, by rw [k2, m2 m h1]⟩
  | ulRead m k | ulRead2 m k | ulSub m k | ulFix m _ k | ulCas m k | ulAdd m k =>
    obtain ⟨h1, h2, rfl⟩ := h
    obtain ⟨k1, k2⟩ := ui_keep K h2
    exact ⟨m1 h1, k1, by rw [k2, m2 m h1]⟩
  | wC nc m kd => exact ⟨m1 h.1, by rw [m2 m h.1]; exact h.2⟩
  | wNewI c nc m kd =>
    obtain ⟨h1, h2, rfl⟩ := h
    exact ⟨free_keepC K (hC rfl) (by simp [Head.pool]) h1, m1 h2, by rw [m2 m h2]⟩
  | wNew c m kd =>
    obtain ⟨h1, h2, rfl⟩ := h
    exact ⟨free_keepC K (hC rfl) (by simp [Head.pool]) h1, m1 h2, by rw [m2 m h2, (K.notC (hC rfl)).2.1]⟩
  | wGet c m kd =>
    obtain ⟨h1, h2, rfl⟩ := h
    exact ⟨c1 h1, m1 h2, by rw [m2 m h2, c2 c h1]⟩
  | wIni c w m kd =>
    obtain ⟨h1, h2, h3, rfl⟩ := h
    exact ⟨c1 h1, m1 h2, free_keepC K (hC rfl) (by simp [Head.pool]) h3, by rw [m2 m h2, c2 c h1]⟩
  | wIns c w m kd =>
    obtain ⟨h1, h2, h3, h4, rfl⟩ := h
    exact ⟨c1 h1, m1 h2, free_keepC K (hC rfl) (by simp [Head.pool]) h3, by rw [(K.notC (hC rfl)).2.2.2, h4],
      by rw [m2 m h2, c2 c h1]⟩
  | wMtx c w kd =>
    obtain ⟨m, h1, h2, h3, rfl⟩ := h
    exact ⟨m, c1 h1, m1 h2, by rw [hl _ w rfl, h3], by rw [m2 m h2, c2 c h1]⟩
  | wSet c w m kd | wErr c w m r | wSpin c w m kd | wCut c w m r =>
    obtain ⟨h1, h2, rfl⟩ := h
    exact ⟨c1 h1, m1 h2, by rw [m2 m h2, c2 c h1]⟩
  | wPut w r => exact ⟨free_keepC K (hC rfl) (by simp [Head.pool]) h.1, h.2⟩
  | sWalk p last | bWalk p =>
    obtain ⟨c, pre, rest, h1, h2, h3⟩ := h
    exact ⟨c, pre, rest, c1 h1, by rw [(K.notC (hC rfl)).1 _ (by simp [Head.pool])]; exact h2, h3⟩
  | bSet p =>
    obtain ⟨c, pre, w, rest, h1, h2, h3⟩ := h
    exact ⟨c, pre, w, rest, c1 h1, by rw [(K.notC (hC rfl)).1 _ (by simp [Head.pool])]; exact h2, h3⟩
  | swTop k =>
    obtain ⟨k1, k2⟩ := si_keep K h.1
    exact ⟨k1, by rw [k2]; exact h.2⟩
  | swAt p k =>
    obtain ⟨rest, h1, h2, h3, rfl⟩ := h
    obtain ⟨k1, k2⟩ := si_keep K h3
    exact ⟨rest, h1.trans K.mtxs, h2, k1, by rw [k2]⟩
  | swChk m v k | swCnt m k | swCntC m old k | swVal m k | swValC m v k =>
    obtain ⟨h1, h2, rfl⟩ := h
    obtain ⟨k1, k2⟩ := si_keep K h2
    exact ⟨m1 h1, k1, by rw [k2, m2 m h1]⟩
  | swCond p =>
    obtain ⟨rest, h1, h2⟩ := h
    exact ⟨rest, h1.trans K.conds, h2⟩
  | swW c parent cur =>
    obtain ⟨pre, rest, h1, h2, h3⟩ := h
    exact ⟨pre, rest, c1 h1, by rw [(K.notC (hC rfl)).1 _ (by simp [Head.pool])]; exact h2, h3⟩
  | swCut c parent cur =>
    obtain ⟨pre, w, rest, h1, h2, h3, h4, h5, h6⟩ := h
    exact ⟨pre, w, rest, c1 h1, by rw [(K.notC (hC rfl)).1 _ (by simp [Head.pool])]; exact h2, h3, h4,
      by rw [(K.notC (hC rfl)).2.2.1]; exact hal _ h5, h6⟩
  | swPut c parent cur =>
    obtain ⟨pre, w, rest, h1, h2, h3, h4, h5, h6⟩ := h
    exact ⟨pre, w, rest, c1 h1, by rw [(K.notC (hC rfl)).1 _ (by simp [Head.pool])]; exact h2, h3, h4,
      free_keepC K (hC rfl) (by simp [Head.pool]) h5, h6⟩
  | swNx c parent =>
    obtain ⟨pre, rest, h1, h2, h3⟩ := h
    exact ⟨pre, rest, c1 h1, by rw [(K.notC (hC rfl)).1 _ (by simp [Head.pool])]; exact h2, h3⟩

end stab

end Fullock.MCMem
