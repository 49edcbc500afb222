import Verif.Proofs.MCMemFollow
/-! A check of dead owners or waiters leaves nothing of the threads that were dead when it began. -/
namespace Fullock.MC

/-- A mutex is entered under the name of a thread by that thread only. -/
theorem none_owned {r r' : State} {e : Ev} {v : Nat} (R : Recs r) (v0 : v ≠ 0) (hv : r.alive v = false)
    (h : step r e = some r') (hn : ∀ n ∈ r.mem.mlist, r.mem.mval n ≠ v) : ∀ n ∈ r'.mem.mlist, r'.mem.mval n ≠ v := by
  rcases step_cases h with ⟨t, c, _, -, t0, ta, hr, rfl⟩ | ⟨t, c, M', p', -, ta, hp, rfl⟩ | ⟨t, rfl, ta, rfl⟩
  · exact hn
  · have hvt : t ≠ v := by rintro rfl; rw [ta] at hv; cases hv
    have := stp_of_plan hp
    generalize r.pc t = p at this
    clear hp h
    cases this <;> simp only [upd] <;> grind
  · exact hn

/-- A step puts no number but the own one into a mutex. -/
theorem mval_back {r r' : State} {e : Ev} {v n : Nat} (v0 : v ≠ 0) (hv : r.alive v = false)
    (h : step r e = some r') (hn : r'.mem.mval n = v) : r.mem.mval n = v := by
  rcases step_cases h with ⟨t, c, _, -, t0, ta, hr, rfl⟩ | ⟨t, c, M', p', -, ta, hp, rfl⟩ | ⟨t, rfl, ta, rfl⟩
  · exact hn
  · have hvt : t ≠ v := by rintro rfl; rw [ta] at hv; cases hv
    have := stp_of_plan hp
    generalize r.pc t = p at this
    clear hp h
    cases this <;> simp only [upd] at hn <;> grind
  · exact hn

/-- A waiter of a thread is entered by that thread only. -/
theorem none_waits {r r' : State} {e : Ev} {v : Nat} (R : Recs r) (hv : r.alive v = false)
    (h : step r e = some r') (hn : ∀ c ∈ r.mem.clist, ∀ w ∈ r.mem.ws c, r.mem.wtid w ≠ v) :
    ∀ c ∈ r'.mem.clist, ∀ w ∈ r'.mem.ws c, r'.mem.wtid w ≠ v := by
  rcases step_cases h with ⟨t, c, _, -, t0, ta, hr, rfl⟩ | ⟨t, c, M', p', -, ta, hp, rfl⟩ | ⟨t, rfl, ta, rfl⟩
  · exact hn
  · have hvt : t ≠ v := by rintro rfl; rw [ta] at hv; cases hv
    have hat := R.at_ t
    have hho := R.recs.handOut t
    have := stp_of_plan hp
    generalize r.pc t = p at this hat hho
    clear hp h
    cases this <;> try exact hn
    case wNew => simp only [upd]; grind
    case wIni => simp only [upd, hand] at *; grind
    case wIns => simp only [upd, AtR] at *; grind
    all_goals
      intro c hc w hw
      refine hn c hc w ?_
      simp only [upd] at hw
      split at hw
      · subst_vars; exact List.mem_of_mem_erase hw
      · exact hw
  · exact hn

end Fullock.MC
namespace Fullock.MCMem
open Fullock.ListMem hiding upd
open Fullock.Layout
open Fullock.FLMem (adr idx member adr_inj' idx_adr)
open Fullock.Props (Limits NoWrap noWrap_of_limits)
open Fullock.MC (Kind LK UK Choice EPERM EBUSY EINVAL ENOLCK ETIMEDOUT upd)

variable {cnt : Pool → Nat} {fuel : Nat}

/-- Where a check of dead owners has been there is no mutex of `v`. -/
def Clr (cnt : Pool → Nat) (b v : Nat) (T : Tab) (x : Mem) : Pc → Prop
  | .swTop _ => True
  | .swAt a _ => ∃ pre rest, T .mtxs = pre ++ rest ∧ a = hdp cnt b .nmtx rest ∧ ∀ m ∈ pre, x.mval m ≠ v
  | .swChk m u _ => ∃ pre rest, T .mtxs = pre ++ m :: rest ∧ (∀ m' ∈ pre, x.mval m' ≠ v) ∧ (x.mval m = v → u = v)
  | .swCnt m _ => ∃ pre rest, T .mtxs = pre ++ m :: rest ∧ ∀ m' ∈ pre, x.mval m' ≠ v
  | .swCntC m _ _ => ∃ pre rest, T .mtxs = pre ++ m :: rest ∧ ∀ m' ∈ pre, x.mval m' ≠ v
  | .swVal m _ => ∃ pre rest, T .mtxs = pre ++ m :: rest ∧ ∀ m' ∈ pre, x.mval m' ≠ v
  | .swValC m u _ => ∃ pre rest, T .mtxs = pre ++ m :: rest ∧ (∀ m' ∈ pre, x.mval m' ≠ v) ∧ (x.mval m = v → u = v)
  | _ => False

/-- Where a check of dead waiters has been there is no waiter of `v`. -/
def ClrC (cnt : Pool → Nat) (b v : Nat) (T : Tab) (x : Mem) : Pc → Prop
  | .swC => True
  | .swCond a => ∃ lc rest, T .conds = lc ++ rest ∧ a = hdp cnt b .ncond rest ∧ ∀ c ∈ lc, ∀ w ∈ T (.ws c), x.wtid w ≠ v
  | .swW c parent cur => ∃ lc rc pre rest, T .conds = lc ++ c :: rc ∧ (∀ c ∈ lc, ∀ w ∈ T (.ws c), x.wtid w ≠ v) ∧
      T (.ws c) = pre ++ rest ∧ Par cnt b pre parent ∧ cur = hdp cnt b .waiter rest ∧ ∀ w ∈ pre, x.wtid w ≠ v
  | .swCut c parent cur => ∃ lc rc pre w rest, T .conds = lc ++ c :: rc ∧ (∀ c ∈ lc, ∀ w ∈ T (.ws c), x.wtid w ≠ v) ∧
      T (.ws c) = pre ++ w :: rest ∧ Par cnt b pre parent ∧ cur = ptr cnt b .waiter w ∧ ∀ w ∈ pre, x.wtid w ≠ v
  | .swPut c parent _ => ∃ lc rc pre rest, T .conds = lc ++ c :: rc ∧ (∀ c ∈ lc, ∀ w ∈ T (.ws c), x.wtid w ≠ v) ∧
      T (.ws c) = pre ++ rest ∧ Par cnt b pre parent ∧ ∀ w ∈ pre, x.wtid w ≠ v
  | .swNx c parent => ∃ lc rc pre rest, T .conds = lc ++ c :: rc ∧ (∀ c ∈ lc, ∀ w ∈ T (.ws c), x.wtid w ≠ v) ∧
      T (.ws c) = pre ++ rest ∧ Par cnt b pre parent ∧ ∀ w ∈ pre, x.wtid w ≠ v
  | _ => False


section fol
variable {base : Nat → Nat} {σ : Nat → State} {ε : Nat → Option Ev} {T : Nat → Tab}
  {s s1 : Nat → MC.State} {e1 e2 : Nat → Option MC.Ev} {A : State → Ev → Prop}

theorem Fol.first (F : Fol cnt base σ ε T s s1 e1 e2) (i : Nat) : s1 i = s i ∨ ∃ e, MC.step (s i) e = some (s1 i) := by
  cases he : ε i with
  | none => exact .inl (F.idle i he).2.2.2.1
  | some e =>
    have := (F.two i e he).1
    generalize s (i + 1) = s' at this
    generalize e2 i = f2 at this
    generalize s1 i = s1' at this ⊢
    generalize e1 i = f1 at this
    generalize T (i + 1) = T' at this
    cases this with
    | call h => exact .inr ⟨_, h⟩
    | stay h => exact .inl rfl
    | go h => exact .inr ⟨_, h⟩
    | die h => exact .inl rfl
    | goDie h => exact .inr ⟨_, h⟩

/-- A moment puts no number of a dead thread into a mutex. -/
theorem Fol.mval_back (F : Fol cnt base σ ε T s s1 e1 e2) {i v m : Nat} (v0 : v ≠ 0) (hv : (σ i).alive v = false)
    (hm : m ∈ T i .mtxs) (h : (σ (i + 1)).mem.mval m = v) : (σ i).mem.mval m = v := by
  have hk : m ∈ T (i + 1) .mtxs ∧ (σ (i + 1)).mem.mname m = (σ i).mem.mname m := by
    cases he : ε i with
    | none => rw [(F.idle i he).1, (F.idle i he).2.1]; exact ⟨hm, rfl⟩
    | some e =>
      have K := (F.two i e he).2
      exact ⟨K.mtxs.subset hm, K.mname m hm⟩
  rw [← (F.sim i).dat.mv m hm]
  rw [← (F.sim (i + 1)).dat.mv m hk.1, hk.2, (F.half i).1] at h
  rw [F.alive] at hv
  rcases F.first i with e | ⟨e, h1⟩
  · rw [e] at h; exact h
  · exact MC.mval_back v0 hv h1 h

theorem Fol.none_owned (F : Fol cnt base σ ε T s s1 e1 e2) {i v : Nat} (v0 : v ≠ 0) (hv : (σ i).alive v = false)
    (h : ∀ m ∈ T i .mtxs, (σ i).mem.mval m ≠ v) : ∀ m ∈ T (i + 1) .mtxs, (σ (i + 1)).mem.mval m ≠ v := by
  have key : ∀ j, (∀ n ∈ (s j).mem.mlist, (s j).mem.mval n ≠ v) ↔ ∀ m ∈ T j .mtxs, (σ j).mem.mval m ≠ v := by
    intro j
    rw [(F.sim j).dat.ml]
    constructor
    · intro h m hm; rw [← (F.sim j).dat.mv m hm]; exact h _ (List.mem_map_of_mem hm)
    · intro h n hn
      obtain ⟨m, hm, rfl⟩ := List.mem_map.1 hn
      rw [(F.sim j).dat.mv m hm]; exact h m hm
  rw [← key] at h ⊢
  rw [(F.half i).1]
  rw [F.alive] at hv
  rcases F.first i with e | ⟨e, h1⟩
  · rw [e]; exact h
  · exact MC.none_owned (F.sim i).recs v0 hv h1 h

theorem Fol.none_waits (F : Fol cnt base σ ε T s s1 e1 e2) {i v : Nat} (hv : (σ i).alive v = false)
    (h : ∀ c ∈ T i .conds, ∀ w ∈ T i (.ws c), (σ i).mem.wtid w ≠ v) :
    ∀ c ∈ T (i + 1) .conds, ∀ w ∈ T (i + 1) (.ws c), (σ (i + 1)).mem.wtid w ≠ v := by
  have key : ∀ j, (∀ c ∈ (s j).mem.clist, ∀ w ∈ (s j).mem.ws c, (s j).mem.wtid w ≠ v) ↔
      ∀ c ∈ T j .conds, ∀ w ∈ T j (.ws c), (σ j).mem.wtid w ≠ v := by
    intro j
    rw [(F.sim j).dat.cl, (F.sim j).dat.wt]
    constructor
    · intro h c hc w hw; exact h _ (List.mem_map_of_mem hc) w (by rw [(F.sim j).dat.ws c hc]; exact hw)
    · intro h n hn
      obtain ⟨c, hc, rfl⟩ := List.mem_map.1 hn
      rw [(F.sim j).dat.ws c hc]; exact h c hc
  rw [← key] at h ⊢
  rw [(F.half i).1]
  rw [F.alive] at hv
  rcases F.first i with e | ⟨e, h1⟩
  · rw [e]; exact h
  · exact MC.none_waits (F.sim i).recs hv h1 h

theorem clr_congr {b v : Nat} {T T' : Tab} {x x' : Mem} {p : Pc} (hT : T' .mtxs = T .mtxs)
    (hx : ∀ m ∈ T .mtxs, x'.mval m = v → x.mval m = v) (h : Clr cnt b v T x p) : Clr cnt b v T' x' p := by
  cases p <;> simp only [Clr] at h ⊢
  case swAt =>
    obtain ⟨pre, rest, h1, h2, h3⟩ := h
    exact ⟨pre, rest, hT.trans h1, h2, fun m hm e => h3 m hm (hx m (by rw [h1]; exact List.mem_append_left _ hm) e)⟩
  case swChk | swValC =>
    obtain ⟨pre, rest, h1, h3, h4⟩ := h
    exact ⟨pre, rest, hT.trans h1, fun m hm e => h3 m hm (hx m (by rw [h1]; exact List.mem_append_left _ hm) e),
      fun e => h4 (hx _ (by rw [h1]; simp) e)⟩
  all_goals
    obtain ⟨pre, rest, h1, h3⟩ := h
    exact ⟨pre, rest, hT.trans h1, fun m hm e => h3 m hm (hx m (by rw [h1]; exact List.mem_append_left _ hm) e)⟩

theorem clrC_congr {b v : Nat} {T T' : Tab} {x x' : Mem} {p : Pc} (hT : T' .conds = T .conds)
    (hw : ∀ c, T' (.ws c) = T (.ws c)) (hx : x'.wtid = x.wtid) (h : ClrC cnt b v T x p) : ClrC cnt b v T' x' p := by
  cases p <;> simp only [ClrC, hT, hw, hx] at h ⊢ <;> exact h

/-- A step of the check of dead owners. -/
theorem clr_go (hw : NoWrap cnt) {b : Nat} {Tb : Tab} {x : Mem} {alive : Nat → Bool} {t v : Nat} {p p' : Pc}
    {c : Choice} {ws : List Write} {x' : Mem}
    (hs : Sound cnt Tb) (hr : Rep cnt x.cells Tb) (v0 : v ≠ 0) (hvt : v ≠ t) (hv : alive v = false)
    (h : plan cnt fuel b x alive t p c = some (ws, x', p')) (hc : c = .spur → ∀ m k, p ≠ .swChk m v k) (hS : Clr cnt b v Tb x p) :
    Clr cnt b v Tb x' p' ∨ (checking p' = false ∧ ∀ m ∈ Tb .mtxs, x'.mval m ≠ v) := by
  have hnext : ∀ {x' : Mem} {m k} {pre rest : List Nat}, Tb .mtxs = pre ++ m :: rest → (∀ m' ∈ pre, x'.mval m' ≠ v) →
      x'.mval m ≠ v → Clr cnt b v Tb x' (.swAt (nextOf b x (ptr cnt b .nmtx m)) k) := by
    intro x' m k pre rest e h h'
    refine ⟨pre ++ [m], rest, by rw [e]; simp, next_eq hw hr b (h := .mtxs) trivial e, fun m' hm => ?_⟩
    rcases List.mem_append.1 hm with hm | hm
    · exact h m' hm
    · rw [List.mem_singleton.1 hm]; exact h'
  cases p <;> simp only [Clr] at hS
  case swTop k =>
    cases c <;> simp only [plan, plain, reduceCtorEq, Option.some.injEq, Prod.mk.injEq] at h
    obtain ⟨rfl, rfl, rfl⟩ := h
    exact .inl ⟨[], Tb .mtxs, rfl, top_eq hw hs hr b (h := .mtxs) trivial, by simp⟩
  case swAt a k =>
    obtain ⟨pre, rest, e0, rfl, h3⟩ := hS
    cases c <;> simp only [plan, plain, reduceCtorEq] at h
    split at h
    · rename_i h0
      simp only [Option.some.injEq, Prod.mk.injEq] at h
      obtain ⟨rfl, rfl, rfl⟩ := h
      have : rest = [] := hdp_zero hw .mtxs h0
      subst this
      rw [List.append_nil] at e0
      exact .inr ⟨by cases k <;> rfl, by rw [e0]; exact h3⟩
    · rename_i hne
      obtain ⟨m, l, rfl, e⟩ := hdp_cons hne
      rw [e, idx_ptr] at h
      split at h <;> simp only [Option.some.injEq, Prod.mk.injEq] at h <;> obtain ⟨rfl, rfl, rfl⟩ := h
      · rename_i h5
        exact .inl (hnext e0 h3 (by rcases h5 with h5 | h5 <;> rw [h5]; exacts [v0.symm, hvt.symm]))
      · exact .inl ⟨pre, l, e0, h3, fun e => e⟩
  case swChk m u k =>
    obtain ⟨pre, rest, e, h3, h4⟩ := hS
    cases c <;> simp only [plan, plain, reduceCtorEq, Option.some.injEq, Prod.mk.injEq] at h
    · obtain ⟨rfl, rfl, rfl⟩ := h
      split
      · rename_i ha
        exact .inl (hnext e h3 fun e => by rw [h4 e, hv] at ha; cases ha)
      · exact .inl ⟨pre, rest, e, h3⟩
    · obtain ⟨rfl, rfl, rfl⟩ := h
      exact .inl (hnext e h3 fun e => hc rfl m k (by rw [h4 e]))
  case swCnt m k =>
    cases c <;> simp only [plan, plain, reduceCtorEq, Option.some.injEq, Prod.mk.injEq] at h
    obtain ⟨rfl, rfl, rfl⟩ := h
    exact .inl hS
  case swCntC m o k =>
    cases c <;> simp only [plan, plain, reduceCtorEq] at h
    split at h
    · simp only [Option.some.injEq, Prod.mk.injEq] at h; obtain ⟨rfl, rfl, rfl⟩ := h
      exact .inl hS
    · split at h <;> simp only [Option.some.injEq, Prod.mk.injEq] at h <;> obtain ⟨rfl, rfl, rfl⟩ := h <;> exact .inl hS
  case swVal m k =>
    cases c <;> simp only [plan, plain, reduceCtorEq, Option.some.injEq, Prod.mk.injEq] at h
    obtain ⟨rfl, rfl, rfl⟩ := h
    obtain ⟨pre, rest, e, h3⟩ := hS
    exact .inl ⟨pre, rest, e, h3, fun e => e⟩
  case swValC m u k =>
    obtain ⟨pre, rest, e, h3, h4⟩ := hS
    cases c <;> simp only [plan, plain, reduceCtorEq] at h
    split at h
    · rename_i hu
      simp only [Option.some.injEq, Prod.mk.injEq] at h; obtain ⟨rfl, rfl, rfl⟩ := h
      exact .inl (hnext e h3 fun e => v0 (by rw [← h4 e, hu]))
    · split at h <;> simp only [Option.some.injEq, Prod.mk.injEq] at h <;> obtain ⟨rfl, rfl, rfl⟩ := h
      · refine .inl (hnext e (fun m' hm => ?_) ?_)
        · simp only [upd]; split
          · exact v0.symm
          · exact h3 m' hm
        · simp only [upd, if_true]; exact v0.symm
      · exact .inl ⟨pre, rest, e, h3⟩

/-- A step of the check of dead waiters. -/
theorem clrC_go (hw : NoWrap cnt) (hf : Fuel cnt fuel) {b : Nat} {T T' : Tab} {x : Mem} {alive : Nat → Bool} {t v : Nat} {p p' : Pc}
    {c : Choice} {ws : List Write} {x' : Mem}
    (hs : Sound cnt T) (hr : Rep cnt x.cells T) (hv : alive v = false)
    (h : plan cnt fuel b x alive t p c = some (ws, x', p')) (ht : Tabs cnt b T p T')
    (hc : c = .spur → ∀ k par cur, p = .swW k par cur → cur ≠ 0 → x.wtid (idx cnt b .waiter cur) ≠ v) (hS : ClrC cnt b v T x p) :
    ClrC cnt b v T' x' p' ∨ (checking p' = false ∧ ∀ c ∈ T' .conds, ∀ w ∈ T' (.ws c), x'.wtid w ≠ v) := by
  cases p <;> simp only [ClrC] at hS
  case swC =>
    cases ht
    cases c <;> simp only [plan, plain, reduceCtorEq, Option.some.injEq, Prod.mk.injEq] at h
    obtain ⟨rfl, rfl, rfl⟩ := h
    exact .inl ⟨[], T .conds, rfl, top_eq hw hs hr b (h := .conds) trivial, by simp⟩
  case swCond a =>
    cases ht
    obtain ⟨lc, rest, e0, rfl, h3⟩ := hS
    cases c <;> simp only [plan, plain, reduceCtorEq] at h
    split at h
    · rename_i h0
      simp only [Option.some.injEq, Prod.mk.injEq] at h
      obtain ⟨rfl, rfl, rfl⟩ := h
      have : rest = [] := hdp_zero hw .conds h0
      subst this
      rw [List.append_nil] at e0
      exact .inr ⟨rfl, by rw [e0]; exact h3⟩
    · rename_i hne
      obtain ⟨m, l, rfl, e⟩ := hdp_cons hne
      rw [e, idx_ptr] at h
      simp only [Option.some.injEq, Prod.mk.injEq] at h
      obtain ⟨rfl, rfl, rfl⟩ := h
      have hm : m ∈ T .conds := by rw [e0]; simp
      exact .inl ⟨lc, l, [], T (.ws m), e0, h3, rfl, .inl ⟨rfl, rfl⟩, top_eq hw hs hr b (h := .ws m) (hs.lt .conds m hm), by simp⟩
  case swW k par cur =>
    cases ht
    obtain ⟨lc, rc, pre, rest, hc', h0, h1, h2, rfl, h3⟩ := hS
    have hk : k ∈ T .conds := by rw [hc']; simp
    cases c <;> simp only [plan, plain, reduceCtorEq] at h
    · split at h
      · rename_i hz
        simp only [Option.some.injEq, Prod.mk.injEq] at h
        obtain ⟨rfl, rfl, rfl⟩ := h
        have : rest = [] := hdp_zero hw (.ws 0) hz
        subst this
        rw [List.append_nil] at h1
        refine .inl ⟨lc ++ [k], rc, by rw [hc']; simp, next_eq hw hr b (h := .conds) trivial hc', fun c hcm => ?_⟩
        rcases List.mem_append.1 hcm with hcm | hcm
        · exact h0 c hcm
        · rw [List.mem_singleton.1 hcm, h1]; exact h3
      · rename_i hz
        obtain ⟨w, l, rfl, e⟩ := hdp_cons hz
        rw [e, idx_ptr] at h
        split at h <;> simp only [Option.some.injEq, Prod.mk.injEq] at h <;> obtain ⟨rfl, rfl, rfl⟩ := h
        · rename_i ha
          refine .inl ⟨lc, rc, pre ++ [w], l, hc', h0, by rw [h1]; simp, .inr ⟨pre, w, rfl, rfl⟩,
            next_eq hw hr b (h := .ws k) (hs.lt .conds k hk) h1, fun w' hw' => ?_⟩
          rcases List.mem_append.1 hw' with hw' | hw'
          · exact h3 w' hw'
          · rw [List.mem_singleton.1 hw']; intro e; rw [e, hv] at ha; cases ha
        · exact .inl ⟨lc, rc, pre, w, l, hc', h0, h1, h2, rfl, h3⟩
    · split at h
      · cases h
      · rename_i hz
        obtain ⟨w, l, rfl, e⟩ := hdp_cons hz
        have hne := hc rfl k par _ rfl hz
        rw [e, idx_ptr] at hne
        rw [e] at h
        simp only [Option.some.injEq, Prod.mk.injEq] at h
        obtain ⟨rfl, rfl, rfl⟩ := h
        refine .inl ⟨lc, rc, pre ++ [w], l, hc', h0, by rw [h1]; simp, .inr ⟨pre, w, rfl, rfl⟩,
          next_eq hw hr b (h := .ws k) (hs.lt .conds k hk) h1, fun w' hw' => ?_⟩
        rcases List.mem_append.1 hw' with hw' | hw'
        · exact h3 w' hw'
        · rw [List.mem_singleton.1 hw']; exact hne
  case swCut k par cur =>
    obtain ⟨lc, rc, pre, w, rest, hc', h0, h1, h2, rfl, h3⟩ := hS
    simp only [Tabs, idx_ptr] at ht
    have hk : k ∈ T .conds := by rw [hc']; simp
    cases c <;> simp only [plan, plain, reduceCtorEq] at h
    have hin : w ∈ T (.ws k) := by rw [h1]; simp
    obtain ⟨ws', e1, e2, e3⟩ := cut_ok hw hs hr b hf (h := .ws k) (hs.lt .conds k hk) hin
    rw [show (Head.ws k).pool = .waiter from rfl] at e1
    rw [e1] at h
    simp only [Option.bind_some, Option.some.injEq, Prod.mk.injEq] at h
    obtain ⟨rfl, rfl, rfl⟩ := h
    have he : (T (.ws k)).erase w = pre ++ rest := by
      have hnd := hs.nodup (.ws k)
      rw [h1] at hnd ⊢
      have : w ∉ pre := fun hm => (List.nodup_append.1 hnd).2.2 w hm w (by simp) rfl
      rw [List.erase_append_right _ this]; simp
    refine .inl ⟨lc, rc, pre, rest, ?_, ?_, ?_, h2, h3⟩
    · subst ht; rw [set_ne _ _ (by simp)]; exact hc'
    · intro c hcm w' hw'
      refine h0 c hcm w' ?_
      subst ht
      rwa [set_ne] at hw'
      rintro e
      cases e
      have hnd := hs.nodup .conds
      rw [hc'] at hnd
      exact (List.nodup_append.1 hnd).2.2 k hcm k (by simp) rfl
    · subst ht; rw [set_at]; exact he
  case swPut k par cur =>
    obtain ⟨lc, rc, pre, rest, hc', h0, h1, h2, h3⟩ := hS
    cases c <;> simp only [plan, plain, reduceCtorEq, Option.map_eq_some_iff, Prod.mk.injEq] at h
    obtain ⟨ws', hpush, rfl, rfl, rfl⟩ := h
    simp only [Tabs] at ht
    subst ht
    refine .inl ⟨lc, rc, pre, rest, ?_, ?_, ?_, h2, h3⟩
    · rw [set_ne _ _ (by simp)]; exact hc'
    · intro c hcm w' hw'
      rw [set_ne _ _ (by simp)] at hw'
      exact h0 c hcm w' hw'
    · rw [set_ne _ _ (by simp)]; exact h1
  case swNx k par =>
    cases ht
    obtain ⟨lc, rc, pre, rest, hc', h0, h1, h2, h3⟩ := hS
    have hk : k ∈ T .conds := by rw [hc']; simp
    cases c <;> simp only [plan, plain, reduceCtorEq, Option.some.injEq, Prod.mk.injEq] at h
    obtain ⟨rfl, rfl, rfl⟩ := h
    refine .inl ⟨lc, rc, pre, rest, hc', h0, h1, h2, ?_, h3⟩
    rcases h2 with ⟨rfl, rfl⟩ | ⟨pre', w, rfl, rfl⟩
    · rw [if_neg (by simp), top_eq hw hs hr b (h := .ws k) (hs.lt .conds k hk), h1]; rfl
    · rw [if_pos (show ptr cnt b .waiter w ≠ 0 from ptr_ne hw hs hr b (h := .ws k) w)]
      exact next_eq hw hr b (h := .ws k) (hs.lt .conds k hk) (pre := pre') (by rw [h1]; simp)

theorem clr_inM {b v : Nat} {Tb : Tab} {x : Mem} {alive : Nat → Bool} {p : Pc} {q : MC.Pc}
    (hq : PcR cnt b Tb x alive p q) (h : Clr cnt b v Tb x p) : MC.inM q = true ∧ ∀ T', Tabs cnt b Tb p T' → T' = Tb := by
  cases p <;> simp only [Clr] at h <;> simp only [PcR] at hq
  case swAt => obtain ⟨_, _, _, _, rfl⟩ := hq; exact ⟨rfl, fun _ h => h⟩
  case swTop => obtain ⟨_, rfl⟩ := hq; exact ⟨rfl, fun _ h => h⟩
  all_goals obtain ⟨_, _, rfl⟩ := hq; exact ⟨rfl, fun _ h => h⟩

theorem clrC_inC {b v : Nat} {Tb : Tab} {x : Mem} {alive : Nat → Bool} {p : Pc} {q : MC.Pc}
    (hq : PcR cnt b Tb x alive p q) (h : ClrC cnt b v Tb x p) : MC.inC q = true := by
  cases p <;> simp only [ClrC] at h <;> simp only [PcR] at hq
  case swC => subst hq; rfl
  case swCond => obtain ⟨_, _, _, rfl⟩ := hq; rfl
  case swW => obtain ⟨_, _, _, _, _, _, rfl⟩ := hq; rfl
  case swCut => obtain ⟨_, _, _, _, _, _, _, _, rfl⟩ := hq; rfl
  case swPut => obtain ⟨_, _, _, _, _, _, _, _, rfl⟩ := hq; rfl
  case swNx => obtain ⟨_, _, _, _, _, rfl⟩ := hq; rfl

theorem pc_dead (ex : Exec cnt fuel base A σ ε) {i j t : Nat} (hij : i ≤ j) (h : (σ i).alive t = false) :
    (σ j).pc t = (σ i).pc t := by
  obtain ⟨d, rfl⟩ := Nat.le.dest hij
  clear hij
  induction d with
  | zero => rfl
  | succ d ih =>
    have hd : (σ (i + d)).alive t = false := by
      cases e : (σ (i + d)).alive t with
      | false => rfl
      | true => rw [alive_on ex (Nat.le_add_right i d) e] at h; cases h
    rw [← ih, ← Nat.add_assoc]
    have hn := ex.next (i + d)
    cases he : ε (i + d) with
    | none => rw [he] at hn; simp only at hn; rw [hn]
    | some e =>
      rw [he] at hn
      have hn := hn.2
      cases e <;> simp only [step] at hn <;> split at hn <;> try cases hn; done
      · rename_i ha
        split at hn
        · rw [← Option.some.inj hn]
          exact MC.upd_ne _ _ (by rintro rfl; simp [hd] at ha)
        · cases hn
      · rename_i ha
        obtain ⟨r, -, hr⟩ := Option.map_eq_some_iff.1 hn
        rw [← hr]
        exact MC.upd_ne _ _ (by rintro rfl; simp [hd] at ha)
      · rw [← Option.some.inj hn]

theorem dead_on (ex : Exec cnt fuel base A σ ε) {i j t : Nat} (hij : i ≤ j) (h : (σ i).alive t = false) :
    (σ j).alive t = false := by
  cases e : (σ j).alive t with
  | false => rfl
  | true => rw [alive_on ex hij e] at h; cases h

/-- Before a check of dead owners. -/
def preM : Pc → Bool
  | .acqM (.swTop _) => true
  | _ => false
/-- Before a check of dead waiters. -/
def preC : Pc → Bool
  | .acqC .swC => true
  | _ => false

theorem clr_checking {b v : Nat} {Tb : Tab} {x : Mem} {p : Pc} (h : Clr cnt b v Tb x p) : checking p = true := by
  cases p <;> simp only [Clr] at h <;> rfl
theorem clrC_checking {b v : Nat} {Tb : Tab} {x : Mem} {p : Pc} (h : ClrC cnt b v Tb x p) : checking p = true := by
  cases p <;> simp only [ClrC] at h <;> rfl

/-- The state after a step of a thread. -/
theorem go_state (ex : Exec cnt fuel base A σ ε) {i t : Nat} {c : Choice} (he : ε i = some (.go t c)) :
    ∃ ws x', plan cnt fuel (base t) (σ i).mem (σ i).alive t ((σ i).pc t) c = some (ws, x', (σ (i + 1)).pc t) ∧
      (σ (i + 1)).mem = { x' with cells := applyWrites (σ i).mem.cells ws } := by
  have hn := ex.next i
  rw [he] at hn
  have hst := hn.2
  simp only [step] at hst
  split at hst
  · cases hst
  obtain ⟨r, hr, hx⟩ := Option.map_eq_some_iff.1 hst
  exact ⟨r.1, r.2.1, by rw [hr, ← hx]; simp, by rw [← hx]⟩

theorem die_pc (ex : Exec cnt fuel base A σ ε) {i t : Nat} {e : Ev} (he : ε i = some e) (hu : actor e = t)
    (ht : (σ i).alive t = true) (ht' : (σ (i + 1)).alive t = false) : (σ (i + 1)).pc t = (σ i).pc t := by
  have hn := ex.next i
  rw [he] at hn
  have hst := hn.2
  cases e <;> simp only [step] at hst <;> split at hst <;> try cases hst; done
  · split at hst
    · rw [← Option.some.inj hst] at ht'; simp only at ht'; rw [ht] at ht'; cases ht'
    · cases hst
  · obtain ⟨r, hr, hx⟩ := Option.map_eq_some_iff.1 hst
    rw [← hx] at ht'; simp only at ht'; rw [ht] at ht'; cases ht'
  · rw [← Option.some.inj hst]

theorem Fol.wtid_other (F : Fol cnt base σ ε T s s1 e1 e2) (ex : Exec cnt fuel base A σ ε) {i t : Nat} {e : Ev}
    (ha0 : (s i).alive t = true) (he : ε i = some e) (hu : actor e ≠ t) (hC : MC.inC ((s i).pc t) = true) :
    (σ (i + 1)).mem.wtid = (σ i).mem.wtid := by
  have hn := ex.next i
  rw [he] at hn
  obtain ⟨-, K⟩ := F.two i e he
  have hua : (s i).alive (actor e) = true := by
    have := hn.2
    rw [← F.alive]
    cases e <;> simp only [step] at this <;> split at this <;> first | cases this; done | (simp_all [actor])
  have B := (F.sim i).recs.names.base
  have q0 : ∀ v, MC.inC ((s i).pc v) = true → v ≠ 0 := by
    rintro v hv rfl
    rw [B.zero] at hv
    cases hv
  exact (K.notC (by
    cases hv : MC.inC ((s i).pc (actor e)) with
    | false => rfl
    | true =>
      have h1 := (B.lockC _ (q0 _ hv) hua).2 hv
      have h2 := (B.lockC _ (q0 _ hC) ha0).2 hC
      exact absurd (h1.symm.trans h2) hu)).2.2.1

/-- One moment of a check of dead owners. -/
theorem Fol.clr_step (F : Fol cnt base σ ε T s s1 e1 e2) (hw : NoWrap cnt) (ex : Exec cnt fuel base A σ ε) {i t v : Nat}
    (v0 : v ≠ 0) (hv : (σ i).alive v = false) (ht : (σ i).alive t = true) (hsp : ε i = some (.go t .spur) → asks cnt base (σ i) t ≠ some v)
    (h : preM ((σ i).pc t) = true ∨ Clr cnt (base t) v (T i) (σ i).mem ((σ i).pc t)) :
    (preM ((σ (i + 1)).pc t) = true ∨ Clr cnt (base t) v (T (i + 1)) (σ (i + 1)).mem ((σ (i + 1)).pc t)) ∨
      (∀ m ∈ T (i + 1) .mtxs, (σ (i + 1)).mem.mval m ≠ v) ∨
      ((σ (i + 1)).alive t = false ∧ (preM ((σ (i + 1)).pc t) = true ∨ checking ((σ (i + 1)).pc t) = true)) := by
  have ha := ht
  rw [F.alive] at ha
  cases he : ε i with
  | none => rw [(F.idle i he).1, (F.idle i he).2.1]; exact .inl h
  | some e =>
    by_cases hu : actor e = t
    · cases ht' : (σ (i + 1)).alive t with
      | false =>
        right; right
        rw [die_pc ex he hu ht ht']
        exact ⟨rfl, h.imp_right clr_checking⟩
      | true =>
        rw [F.alive] at ht'
        rcases F.own ex ht' he hu with ⟨c, rfl⟩ | ⟨c, r, rfl, g1, g2⟩
        · obtain ⟨-, -, hTabs, -, -⟩ := F.going ex he
          obtain ⟨ws, x', hpl, hmem⟩ := go_state ex he
          have hc : c = .spur → ∀ m k, (σ i).pc t ≠ .swChk m v k := by
            rintro rfl m k hk
            exact hsp he (by simp only [asks, hk])
          rw [hmem]
          generalize (σ (i + 1)).pc t = p' at hpl ⊢
          rcases h with h | h
          · left
            have : ∃ k, (σ i).pc t = .acqM (.swTop k) := by
              unfold preM at h; split at h
              · exact ⟨_, by assumption⟩
              · cases h
            obtain ⟨k, hk⟩ := this
            rw [hk] at hpl
            cases c <;> simp only [plan, plain, reduceCtorEq] at hpl
            split at hpl <;> simp only [Option.some.injEq, Prod.mk.injEq, reduceCtorEq] at hpl
            obtain ⟨-, -, rfl⟩ := hpl
            exact .inr trivial
          · have hT := (clr_inM (F.pcr ha) h).2 _ hTabs
            rw [hT]
            rcases clr_go hw (F.sim i).snd (F.sim i).rep v0 (by rintro rfl; rw [ht] at hv; cases hv) hv hpl hc h with g | ⟨-, g⟩
            · exact .inl (.inr (clr_congr rfl (fun _ _ e => e) g))
            · exact .inr (.inl g)
        · rw [g1] at h
          rcases h with h | h
          · cases h
          · exact h.elim
    · obtain ⟨g1, g2, -⟩ := F.other ex ha he hu
      rw [g1]
      refine .inl (h.imp_right fun h => ?_)
      obtain ⟨g3, -⟩ := g2 (clr_inM (F.pcr ha) h).1
      exact clr_congr g3 (fun m hm e => F.mval_back v0 hv hm e) h

/-- One moment of a check of dead waiters. -/
theorem Fol.clrC_step (F : Fol cnt base σ ε T s s1 e1 e2) (hw : NoWrap cnt) (hf : Fuel cnt fuel) (ex : Exec cnt fuel base A σ ε)
    {i t v : Nat} (hv : (σ i).alive v = false) (ht : (σ i).alive t = true) (hsp : ε i = some (.go t .spur) → asks cnt base (σ i) t ≠ some v)
    (h : preC ((σ i).pc t) = true ∨ ClrC cnt (base t) v (T i) (σ i).mem ((σ i).pc t)) :
    (preC ((σ (i + 1)).pc t) = true ∨ ClrC cnt (base t) v (T (i + 1)) (σ (i + 1)).mem ((σ (i + 1)).pc t)) ∨
      (∀ c ∈ T (i + 1) .conds, ∀ w ∈ T (i + 1) (.ws c), (σ (i + 1)).mem.wtid w ≠ v) ∨
      ((σ (i + 1)).alive t = false ∧ (preC ((σ (i + 1)).pc t) = true ∨ checking ((σ (i + 1)).pc t) = true)) := by
  have ha := ht
  rw [F.alive] at ha
  cases he : ε i with
  | none => rw [(F.idle i he).1, (F.idle i he).2.1]; exact .inl h
  | some e =>
    by_cases hu : actor e = t
    · cases ht' : (σ (i + 1)).alive t with
      | false =>
        right; right
        rw [die_pc ex he hu ht ht']
        exact ⟨rfl, h.imp_right clrC_checking⟩
      | true =>
        rw [F.alive] at ht'
        rcases F.own ex ht' he hu with ⟨c, rfl⟩ | ⟨c, r, rfl, g1, g2⟩
        · obtain ⟨-, -, hTabs, -, -⟩ := F.going ex he
          obtain ⟨ws, x', hpl, hmem⟩ := go_state ex he
          have hc : c = .spur → ∀ k par cur, (σ i).pc t = .swW k par cur → cur ≠ 0 →
              (σ i).mem.wtid (idx cnt (base t) .waiter cur) ≠ v := by
            rintro rfl k par cur hk h0 hv'
            exact hsp he (by simp only [asks, hk, h0, if_false, hv'])
          rw [hmem]
          generalize (σ (i + 1)).pc t = p' at hpl ⊢
          rcases h with h | h
          · left
            have : (σ i).pc t = .acqC .swC := by
              unfold preC at h; split at h
              · assumption
              · cases h
            rw [this] at hpl
            cases c <;> simp only [plan, plain, reduceCtorEq] at hpl
            split at hpl <;> simp only [Option.some.injEq, Prod.mk.injEq, reduceCtorEq] at hpl
            obtain ⟨-, -, rfl⟩ := hpl
            exact .inr trivial
          · rcases clrC_go hw hf (F.sim i).snd (F.sim i).rep hv hpl hTabs hc h with g | ⟨-, g⟩
            · exact .inl (.inr (clrC_congr rfl (fun _ => rfl) rfl g))
            · exact .inr (.inl g)
        · rw [g1] at h
          rcases h with h | h
          · cases h
          · exact h.elim
    · obtain ⟨g1, -, g2⟩ := F.other ex ha he hu
      rw [g1]
      refine .inl (h.imp_right fun h => ?_)
      have hC := clrC_inC (F.pcr ha) h
      obtain ⟨g3, g4⟩ := g2 hC
      exact clrC_congr g3 g4 (F.wtid_other ex ha he hu hC) h

/-- At the end of a check of dead owners. -/
theorem Fol.clr_end (F : Fol cnt base σ ε T s s1 e1 e2) (hw : NoWrap cnt) (ex : Exec cnt fuel base A σ ε) {i j t v : Nat}
    (hij : i ≤ j) (v0 : v ≠ 0) (hv : (σ i).alive v = false) (hsp : ∀ r, i ≤ r → r < j → ε r = some (.go t .spur) → asks cnt base (σ r) t ≠ some v)
    (h : preM ((σ i).pc t) = true ∨ ∃ k, (σ i).pc t = .swTop k) (hp : preM ((σ j).pc t) = false)
    (hc : checking ((σ j).pc t) = false) {j' : Nat} (hj : j ≤ j') : ∀ m ∈ T j' .mtxs, (σ j').mem.mval m ≠ v := by
  have key : ∀ d, i + d ≤ j → (preM ((σ (i + d)).pc t) = true ∨ Clr cnt (base t) v (T (i + d)) (σ (i + d)).mem ((σ (i + d)).pc t)) ∨
      (∀ m ∈ T (i + d) .mtxs, (σ (i + d)).mem.mval m ≠ v) := by
    intro d
    induction d with
    | zero =>
      intro _
      rcases h with h | ⟨k, h⟩
      · exact .inl (.inl h)
      · exact .inl (.inr (by rw [Nat.add_zero, h]; trivial))
    | succ d ih =>
      intro hd
      have hdv := dead_on ex (Nat.le_add_right i d) hv
      rcases ih (by omega) with ih | ih
      · cases ht : (σ (i + d)).alive t with
        | false =>
          exfalso
          rw [pc_dead ex (by omega : i + d ≤ j) ht] at hp hc
          rcases ih with ih | ih
          · rw [hp] at ih; cases ih
          · rw [clr_checking ih] at hc; cases hc
        | true =>
          rcases F.clr_step hw ex v0 hdv ht (hsp _ (by omega) (by omega)) ih with g | g | ⟨g, g'⟩
          · exact .inl g
          · exact .inr g
          · exfalso
            rw [pc_dead ex (by omega : i + d + 1 ≤ j) g, ] at hp hc
            rcases g' with g' | g'
            · rw [hp] at g'; cases g'
            · rw [hc] at g'; cases g'
      · exact .inr (F.none_owned v0 hdv ih)
  obtain ⟨d, rfl⟩ := Nat.le.dest hij
  have h0 : ∀ m ∈ T (i + d) .mtxs, (σ (i + d)).mem.mval m ≠ v := by
    rcases key d (Nat.le_refl _) with (g | g) | g
    · rw [hp] at g; cases g
    · rw [clr_checking g] at hc; cases hc
    · exact g
  obtain ⟨d', rfl⟩ := Nat.le.dest hj
  clear hj
  induction d' with
  | zero => exact h0
  | succ d' ih => exact F.none_owned v0 (dead_on ex (j := i + d + d') (by omega) hv) ih

/-- At the end of a check of dead waiters. -/
theorem Fol.clrC_end (F : Fol cnt base σ ε T s s1 e1 e2) (hw : NoWrap cnt) (hf : Fuel cnt fuel) (ex : Exec cnt fuel base A σ ε)
    {i j t v : Nat} (hij : i ≤ j) (hv : (σ i).alive v = false) (hsp : ∀ r, i ≤ r → r < j → ε r = some (.go t .spur) → asks cnt base (σ r) t ≠ some v)
    (h : preC ((σ i).pc t) = true ∨ (σ i).pc t = .swC) (hp : preC ((σ j).pc t) = false)
    (hc : checking ((σ j).pc t) = false) {j' : Nat} (hj : j ≤ j') :
    ∀ c ∈ T j' .conds, ∀ w ∈ T j' (.ws c), (σ j').mem.wtid w ≠ v := by
  have key : ∀ d, i + d ≤ j → (preC ((σ (i + d)).pc t) = true ∨ ClrC cnt (base t) v (T (i + d)) (σ (i + d)).mem ((σ (i + d)).pc t)) ∨
      (∀ c ∈ T (i + d) .conds, ∀ w ∈ T (i + d) (.ws c), (σ (i + d)).mem.wtid w ≠ v) := by
    intro d
    induction d with
    | zero =>
      intro _
      rcases h with h | h
      · exact .inl (.inl h)
      · exact .inl (.inr (by rw [Nat.add_zero, h]; trivial))
    | succ d ih =>
      intro hd
      have hdv := dead_on ex (Nat.le_add_right i d) hv
      rcases ih (by omega) with ih | ih
      · cases ht : (σ (i + d)).alive t with
        | false =>
          exfalso
          rw [pc_dead ex (by omega : i + d ≤ j) ht] at hp hc
          rcases ih with ih | ih
          · rw [hp] at ih; cases ih
          · rw [clrC_checking ih] at hc; cases hc
        | true =>
          rcases F.clrC_step hw hf ex hdv ht (hsp _ (by omega) (by omega)) ih with g | g | ⟨g, g'⟩
          · exact .inl g
          · exact .inr g
          · exfalso
            rw [pc_dead ex (by omega : i + d + 1 ≤ j) g, ] at hp hc
            rcases g' with g' | g'
            · rw [hp] at g'; cases g'
            · rw [hc] at g'; cases g'
      · exact .inr (F.none_waits hdv ih)
  obtain ⟨d, rfl⟩ := Nat.le.dest hij
  have h0 : ∀ c ∈ T (i + d) .conds, ∀ w ∈ T (i + d) (.ws c), (σ (i + d)).mem.wtid w ≠ v := by
    rcases key d (Nat.le_refl _) with (g | g) | g
    · rw [hp] at g; cases g
    · rw [clrC_checking g] at hc; cases hc
    · exact g
  obtain ⟨d', rfl⟩ := Nat.le.dest hj
  clear hj
  induction d' with
  | zero => exact h0
  | succ d' ih => exact F.none_waits (dead_on ex (j := i + d + d') (by omega) hv) ih

end fol
end Fullock.MCMem
