import Verif.Proofs.MCMemSim
/-! One step of a thread on the cells. -/
namespace Fullock.MCMem
open Fullock.ListMem hiding upd
open Fullock.Layout
open Fullock.FLMem (adr idx member adr_inj' idx_adr)
open Fullock.Props (NoWrap)
open Fullock.MC (Kind LK UK Choice EPERM EBUSY EINVAL ENOLCK ETIMEDOUT upd)

@[simp] theorem idx_ptr (cnt : Pool → Nat) (b : Nat) (p : Pool) (i : Nat) : idx cnt b p (ptr cnt b p i) = i :=
  idx_adr cnt b p i

theorem hdp_zero {cnt : Pool → Nat} (hw : NoWrap cnt) {b : Nat} (h : Head) {l : List Nat}
    (e : hdp cnt b h.pool l = 0) : l = [] := by
  cases l with
  | nil => rfl
  | cons i l => exact absurd e (fun e => adr_ne_zero hw h i (toAbs_eq_zero.1 e))

theorem hdp_cons {cnt : Pool → Nat} {b : Nat} {p : Pool} {l : List Nat}
    (e : hdp cnt b p l ≠ 0) : ∃ i l', l = i :: l' ∧ hdp cnt b p l = ptr cnt b p i := by
  cases l with
  | nil => exact absurd rfl e
  | cons i l => exact ⟨i, l, rfl, rfl⟩

theorem suf_ne (T : Tab) {h h' : Head} (l : List Nat) (e : h' ≠ h) : T h' <:+ set T h l h' := by
  rw [set_ne T l e]; exact List.suffix_refl _

section actor
variable {cnt : Pool → Nat} (hw : NoWrap cnt) {fuel : Nat} (hf : Fuel cnt fuel) {b : Nat} {T : Tab} {x : Mem}
  {alive : Nat → Bool} {t : Nat} {M : MC.Mem} {q : MC.Pc} (hs : Sound cnt T) (hr : Rep cnt x.cells T)
  (hd : Data T x M) (hn : M.mlist.Nodup) (hcn : M.clist.Nodup)
include hw hf hs hr hd hn hcn

theorem act_lock {m : Nat} {kd : Kind} {k : LK} {p : Pc} {c : Choice} {ws : List Write} {x' : Mem} {p' : Pc}
    (hp : p = .lkRead m kd k ∨ p = .lkAdd m kd k ∨ p = .lkChk m kd k ∨ p = .lkSub m kd k ∨ p = .lkCas m kd k ∨
      p = .lkInc m kd k) (hq : PcR cnt b T x alive p q)
    (h : plan cnt fuel b x alive t p c = some (ws, x', p')) : Out cnt b T x alive t M q p c ws x' p' := by
  rcases hp with rfl | rfl | rfl | rfl | rfl | rfl <;> obtain ⟨h1, h2, rfl⟩ := hq
  · cases c <;> simp only [plan, plain, reduceCtorEq, Option.some.injEq, Prod.mk.injEq] at h
    obtain ⟨rfl, rfl, rfl⟩ := h
    refine out_go hs hr (keep_refl _ _ _) .go rfl hd ?_
    rw [hd.mv m h1]
    split <;> exact ⟨h1, h2, rfl⟩
  · cases c <;> simp only [plan, plain, reduceCtorEq, Option.some.injEq, Prod.mk.injEq] at h
    obtain ⟨rfl, rfl, rfl⟩ := h
    refine out_go hs hr (keep_same rfl rfl rfl rfl fun m' h' => ⟨rfl, upd_other h1 h', rfl⟩) .go rfl ?_ ?_
    · rw [hd.mc m h1]; exact data_mcnt hd hn h1 _
    · rw [hd.mc m h1]
      split <;> exact ⟨h1, h2, rfl⟩
  · cases c <;> simp only [plan, plain, reduceCtorEq] at h
    split at h <;> simp only [Option.some.injEq, Prod.mk.injEq] at h <;> obtain ⟨rfl, rfl, rfl⟩ := h
    · rename_i hv
      refine out_go hs hr (keep_same rfl rfl rfl rfl fun m' h' => ⟨rfl, rfl, upd_other h1 h'⟩) .go
        (by simp only [MC.plan, hd.mv m h1]; rw [if_pos hv]; try rfl) ?_ (pcr_fin h2 0)
      rw [hd.md m h1]; exact data_dep hd hn h1 _
    · rename_i hv
      exact out_go hs hr (keep_refl _ _ _) .go (by simp only [MC.plan, hd.mv m h1]; rw [if_neg hv]; try rfl) hd ⟨h1, h2, rfl⟩
  · simp only [plan, plain, Option.bind_eq_some_iff, Option.some.injEq, Prod.mk.injEq] at h
    obtain ⟨p1, hp1, rfl, rfl, rfl⟩ := h
    obtain ⟨q', e1, e2⟩ := pcr_failed (cnt := cnt) (b := b) (alive := alive)
      (x := { x with mcnt := upd x.mcnt m (x.mcnt m - 1) }) h1 h2 hp1
    refine out_go hs hr (keep_same rfl rfl rfl rfl fun m' h' => ⟨rfl, upd_other h1 h', rfl⟩) c
      (M' := { M with mcnt := upd M.mcnt (x.mname m) (M.mcnt (x.mname m) - 1) }) (q' := q') ?_ ?_ e2
    · have e3 : MC.failed (x.mname m) kd (aK x k) c = some q' := e1
      simp only [MC.plan, e3]; rfl
    · rw [hd.mc m h1]; exact data_mcnt hd hn h1 _
  · simp only [plan, plain] at h
    split at h
    · rename_i hv
      split at h
      · rename_i hc
        subst hc
        simp only [Option.some.injEq, Prod.mk.injEq] at h
        obtain ⟨rfl, rfl, rfl⟩ := h
        exact out_go hs hr (keep_same rfl rfl rfl rfl fun m' h' => ⟨upd_other h1 h', rfl, rfl⟩) .go
          (by simp only [MC.plan, hd.mv m h1]; rw [if_pos hv, if_pos trivial]; try rfl) (data_mval hd hn h1 _) ⟨h1, h2, rfl⟩
      · cases h
    · rename_i hv
      simp only [Option.bind_eq_some_iff, Option.some.injEq, Prod.mk.injEq] at h
      obtain ⟨p1, hp1, rfl, rfl, rfl⟩ := h
      obtain ⟨q', e1, e2⟩ := pcr_failed (cnt := cnt) (b := b) (alive := alive) (x := x) h1 h2 hp1
      exact out_go hs hr (keep_refl _ _ _) c
        (by simp only [MC.plan, hd.mv m h1]; rw [if_neg hv, e1]; rfl) hd e2
  · cases c <;> simp only [plan, plain, reduceCtorEq, Option.some.injEq, Prod.mk.injEq] at h
    obtain ⟨rfl, rfl, rfl⟩ := h
    refine out_go hs hr (keep_same rfl rfl rfl rfl fun m' h' => ⟨rfl, upd_other h1 h', upd_other h1 h'⟩) .go rfl ?_
      (pcr_fin h2 0)
    rw [hd.md m h1, hd.mc m h1]
    exact data_dep (data_mcnt hd hn h1 _) hn h1 _

theorem act_unlock {m : Nat} {k : UK} {p : Pc} {c : Choice} {ws : List Write} {x' : Mem} {p' : Pc}
    (hp : p = .ulRead m k ∨ p = .ulRead2 m k ∨ p = .ulSub m k ∨ (∃ old, p = .ulFix m old k) ∨ p = .ulCas m k ∨
      p = .ulAdd m k) (hq : PcR cnt b T x alive p q)
    (h : plan cnt fuel b x alive t p c = some (ws, x', p')) : Out cnt b T x alive t M q p c ws x' p' := by
  rcases hp with rfl | rfl | rfl | ⟨old, rfl⟩ | rfl | rfl <;> obtain ⟨h1, h2, rfl⟩ := hq
  · cases c <;> simp only [plan, plain, reduceCtorEq] at h
    split at h <;> simp only [Option.some.injEq, Prod.mk.injEq] at h <;> obtain ⟨rfl, rfl, rfl⟩ := h
    · rename_i hv
      refine out_go hs hr (keep_same rfl rfl rfl rfl fun m' h' => ⟨rfl, rfl, upd_other h1 h'⟩) .go
        (by simp only [MC.plan, hd.mv m h1]; rw [if_pos hv]; try rfl) ?_ (pcr_ufin h2 0)
      rw [hd.md m h1]; exact data_dep hd hn h1 _
    · rename_i hv
      exact out_go hs hr (keep_refl _ _ _) .go (by simp only [MC.plan, hd.mv m h1]; rw [if_neg hv]; try rfl) hd ⟨h1, h2, rfl⟩
  · cases c <;> simp only [plan, plain, reduceCtorEq] at h
    split at h <;> simp only [Option.some.injEq, Prod.mk.injEq] at h <;> obtain ⟨rfl, rfl, rfl⟩ := h
    · rename_i hv
      exact out_go hs hr (keep_refl _ _ _) .go (by simp only [MC.plan, hd.mv m h1]; rw [if_pos hv]; try rfl) hd (pcr_ufin h2 _)
    · rename_i hv
      exact out_go hs hr (keep_refl _ _ _) .go (by simp only [MC.plan, hd.mv m h1]; rw [if_neg hv]; try rfl) hd ⟨h1, h2, rfl⟩
  · cases c <;> simp only [plan, plain, reduceCtorEq, Option.some.injEq, Prod.mk.injEq] at h
    obtain ⟨rfl, rfl, rfl⟩ := h
    refine out_go hs hr (keep_same rfl rfl rfl rfl fun m' h' => ⟨rfl, upd_other h1 h', rfl⟩) .go rfl ?_ ?_
    · rw [hd.mc m h1]; exact data_mcnt hd hn h1 _
    · rw [hd.mc m h1]
      split
      · split <;> exact ⟨h1, h2, rfl⟩
      · exact ⟨h1, h2, rfl⟩
  · cases c <;> simp only [plan, plain, reduceCtorEq, Option.some.injEq, Prod.mk.injEq] at h
    obtain ⟨rfl, rfl, rfl⟩ := h
    refine out_go hs hr (keep_same rfl rfl rfl rfl fun m' h' => ⟨rfl, ?_, rfl⟩) .go rfl ?_ ⟨h1, h2, rfl⟩
    · show (if _ then _ else _ : Nat → Int) m' = _
      split
      · exact upd_other h1 h'
      · rfl
    · rw [hd.mc m h1]
      split
      · exact data_mcnt hd hn h1 _
      · exact hd
  · cases c <;> simp only [plan, plain, reduceCtorEq] at h
    split at h
    · rename_i hv
      simp only [Option.some.injEq, Prod.mk.injEq] at h
      obtain ⟨rfl, rfl, rfl⟩ := h
      refine out_go hs hr (keep_same rfl rfl rfl rfl fun m' h' => ⟨upd_other h1 h', rfl, upd_other h1 h'⟩) .go
        (by simp only [MC.plan, hd.mv m h1]; rw [if_pos hv]; try rfl) ?_ (pcr_ufin h2 0)
      rw [hd.md m h1]; exact data_dep (data_mval hd hn h1 _) hn h1 _
    · rename_i hv
      split at h <;> simp only [Option.some.injEq, Prod.mk.injEq] at h <;> obtain ⟨rfl, rfl, rfl⟩ := h
      · rename_i hv0
        refine out_go hs hr (keep_same rfl rfl rfl rfl fun m' h' => ⟨rfl, rfl, upd_other h1 h'⟩) .go
          (by simp only [MC.plan, hd.mv m h1]; rw [if_neg hv, if_pos hv0]; try rfl) ?_ (pcr_ufin h2 0)
        rw [hd.md m h1]; exact data_dep hd hn h1 _
      · rename_i hv0
        exact out_go hs hr (keep_refl _ _ _) .go
          (by simp only [MC.plan, hd.mv m h1]; rw [if_neg hv, if_neg hv0]; try rfl) hd ⟨h1, h2, rfl⟩
  · cases c <;> simp only [plan, plain, reduceCtorEq, Option.some.injEq, Prod.mk.injEq] at h
    obtain ⟨rfl, rfl, rfl⟩ := h
    refine out_go hs hr (keep_same rfl rfl rfl rfl fun m' h' => ⟨rfl, upd_other h1 h', rfl⟩) .go rfl ?_ ⟨h1, h2, rfl⟩
    rw [hd.mc m h1]; exact data_mcnt hd hn h1 _

/-- The next record of the list of mutexes. -/
theorem swAt_next {m : Nat} {k : Option (Nat × Kind × LK)} (h1 : m ∈ T .mtxs) (h2 : SI T k) {x' : Mem}
    (hc : x'.cells = x.cells) (ha : aS x' k = aS x k) :
    PcR cnt b T x' alive (.swAt (nextOf b x (ptr cnt b .nmtx m)) k) (.swM (aS x k)) := by
  obtain ⟨pre, rest, e⟩ := List.append_of_mem h1
  exact ⟨rest, ⟨pre ++ [m], by rw [e]; simp⟩, next_eq hw hr b (h := .mtxs) trivial e, h2, by rw [ha]⟩

theorem act_sweepM {p : Pc} {k : Option (Nat × Kind × LK)} {c : Choice} {ws : List Write} {x' : Mem} {p' : Pc}
    (hp : p = .swTop k ∨ (∃ a, p = .swAt a k) ∨ (∃ m v, p = .swChk m v k) ∨ (∃ m, p = .swCnt m k) ∨
      (∃ m o, p = .swCntC m o k) ∨ (∃ m, p = .swVal m k) ∨ ∃ m v, p = .swValC m v k)
    (hq : PcR cnt b T x alive p q)
    (h : plan cnt fuel b x alive t p c = some (ws, x', p')) : Out cnt b T x alive t M q p c ws x' p' := by
  rcases hp with rfl | ⟨a, rfl⟩ | ⟨m, v, rfl⟩ | ⟨m, rfl⟩ | ⟨m, o, rfl⟩ | ⟨m, rfl⟩ | ⟨m, v, rfl⟩
  · obtain ⟨h1, rfl⟩ := hq
    cases c <;> simp only [plan, plain, reduceCtorEq, Option.some.injEq, Prod.mk.injEq] at h
    obtain ⟨rfl, rfl, rfl⟩ := h
    exact out_id hs hr hd ⟨T .mtxs, List.suffix_refl _, top_eq hw hs hr b (h := .mtxs) trivial, h1, rfl⟩
  · obtain ⟨rest, h1, rfl, h2, rfl⟩ := hq
    cases c <;> simp only [plan, plain, reduceCtorEq] at h
    split at h
    · simp only [Option.some.injEq, Prod.mk.injEq] at h
      obtain ⟨rfl, rfl, rfl⟩ := h
      obtain ⟨e1, e2, e3⟩ := pcr_swBack (cnt := cnt) (b := b) (alive := alive) (x := x) h2
      exact out_go hs hr (keep_refl _ _ _) .go rfl hd ⟨_, rfl, e2, e3, e1⟩ (by rename_i h0; simp only [Like, if_pos h0])
    · rename_i hne
      obtain ⟨m, l, rfl, e⟩ := hdp_cons hne
      have hm : m ∈ T .mtxs := h1.subset (by simp)
      have hlk : Like cnt b x (.swAt (hdp cnt b .nmtx (m :: l)) k) .go (.mx (x.mname m)) := by
        simp only [Like, if_neg hne]
        rw [e, idx_ptr]
      rw [e, idx_ptr] at h
      have hmx : MC.plan M alive t (.swM (aS x k)) (.mx (x.mname m)) =
          some (M, if x.mval m = 0 ∨ x.mval m = t then .swM (aS x k) else .swChk (x.mname m) (x.mval m) (aS x k)) := by
        simp only [MC.plan, hd.mv m hm, if_pos (mem_name hd hm)]
      split at h <;> simp only [Option.some.injEq, Prod.mk.injEq] at h <;> obtain ⟨rfl, rfl, rfl⟩ := h
      · rename_i hv
        rw [if_pos hv] at hmx
        exact out_go hs hr (keep_refl _ _ _) _ hmx hd (swAt_next hw hf hs hr hd hn hcn hm h2 rfl rfl) hlk
      · rename_i hv
        rw [if_neg hv] at hmx
        exact out_go hs hr (keep_refl _ _ _) _ hmx hd ⟨hm, h2, rfl⟩ hlk
  · obtain ⟨h1, h2, rfl⟩ := hq
    cases c <;> simp only [plan, plain, reduceCtorEq, Option.some.injEq, Prod.mk.injEq] at h
    · obtain ⟨rfl, rfl, rfl⟩ := h
      refine out_go hs hr (keep_refl _ _ _) .go rfl hd ?_
      split
      · exact swAt_next hw hf hs hr hd hn hcn h1 h2 rfl rfl
      · exact ⟨h1, h2, rfl⟩
    · obtain ⟨rfl, rfl, rfl⟩ := h
      exact out_go hs hr (keep_refl _ _ _) .spur rfl hd (swAt_next hw hf hs hr hd hn hcn h1 h2 rfl rfl)
  · obtain ⟨h1, h2, rfl⟩ := hq
    cases c <;> simp only [plan, plain, reduceCtorEq, Option.some.injEq, Prod.mk.injEq] at h
    obtain ⟨rfl, rfl, rfl⟩ := h
    exact out_go hs hr (keep_refl _ _ _) .go rfl hd ⟨h1, h2, by rw [hd.mc m h1]⟩
  · obtain ⟨h1, h2, rfl⟩ := hq
    cases c <;> simp only [plan, plain, reduceCtorEq] at h
    split at h
    · rename_i ho
      simp only [Option.some.injEq, Prod.mk.injEq] at h
      obtain ⟨rfl, rfl, rfl⟩ := h
      exact out_go hs hr (keep_refl _ _ _) .go (by simp only [MC.plan]; rw [if_pos ho]; try rfl) hd ⟨h1, h2, rfl⟩
    · rename_i ho
      split at h <;> simp only [Option.some.injEq, Prod.mk.injEq] at h <;> obtain ⟨rfl, rfl, rfl⟩ := h
      · rename_i hv
        exact out_go hs hr (keep_same rfl rfl rfl rfl fun m' h' => ⟨rfl, upd_other h1 h', rfl⟩) .go
          (by simp only [MC.plan, hd.mc m h1]; rw [if_neg ho, if_pos hv]; try rfl) (data_mcnt hd hn h1 _) ⟨h1, h2, rfl⟩
      · rename_i hv
        exact out_go hs hr (keep_refl _ _ _) .go
          (by simp only [MC.plan, hd.mc m h1]; rw [if_neg ho, if_neg hv]; try rfl) hd ⟨h1, h2, rfl⟩
  · obtain ⟨h1, h2, rfl⟩ := hq
    cases c <;> simp only [plan, plain, reduceCtorEq, Option.some.injEq, Prod.mk.injEq] at h
    obtain ⟨rfl, rfl, rfl⟩ := h
    exact out_go hs hr (keep_refl _ _ _) .go rfl hd ⟨h1, h2, by rw [hd.mv m h1]⟩
  · obtain ⟨h1, h2, rfl⟩ := hq
    cases c <;> simp only [plan, plain, reduceCtorEq] at h
    split at h
    · rename_i ho
      simp only [Option.some.injEq, Prod.mk.injEq] at h
      obtain ⟨rfl, rfl, rfl⟩ := h
      exact out_go hs hr (keep_refl _ _ _) .go (by simp only [MC.plan]; rw [if_pos ho]; try rfl) hd
        (swAt_next hw hf hs hr hd hn hcn h1 h2 rfl rfl)
    · rename_i ho
      split at h <;> simp only [Option.some.injEq, Prod.mk.injEq] at h <;> obtain ⟨rfl, rfl, rfl⟩ := h
      · rename_i hv
        exact out_go hs hr (keep_same rfl rfl rfl rfl fun m' h' => ⟨upd_other h1 h', rfl, rfl⟩) .go
          (by simp only [MC.plan, hd.mv m h1]; rw [if_neg ho, if_pos hv]; try rfl) (data_mval hd hn h1 _)
          (swAt_next hw hf hs hr hd hn hcn h1 h2 rfl rfl)
      · rename_i hv
        exact out_go hs hr (keep_refl _ _ _) .go
          (by simp only [MC.plan, hd.mv m h1]; rw [if_neg ho, if_neg hv]; try rfl) hd ⟨h1, h2, rfl⟩

theorem act_lk {p : Pc} {c : Choice} {ws : List Write} {x' : Mem} {p' : Pc}
    (hp : (∃ r, p = .acqM r) ∨ (∃ r, p = .relM r) ∨ (∃ r, p = .acqC r) ∨ ∃ r, p = .relC r)
    (hq : PcR cnt b T x alive p q)
    (h : plan cnt fuel b x alive t p c = some (ws, x', p')) : Out cnt b T x alive t M q p c ws x' p' := by
  have hstab : ∀ {x' : Mem} {r : Pc} {q' : MC.Pc}, needM r = false → needC r = false →
      PcR cnt b T x alive r q' → x'.mname = x.mname → x'.cname = x.cname → x'.wtid = x.wtid →
      x'.wmtx = x.wmtx → (∀ m, x'.mval m = x.mval m ∧ x'.mcnt m = x.mcnt m ∧ x'.dep m = x.dep m) →
      PcR cnt b T x' alive r q' := fun n1 n2 h e1 e2 e3 e4 e5 =>
    stab_aux (q0 := .done 0) (keep_same e1 e2 e3 e4 fun m _ => e5 m) (fun _ h => h) h
      (fun e => by rw [n1] at e; cases e) (fun e => by rw [n2] at e; cases e) (fun _ _ _ => by rw [e4])
  rcases hp with ⟨r, rfl⟩ | ⟨r, rfl⟩ | ⟨r, rfl⟩ | ⟨r, rfl⟩ <;> obtain ⟨q', rfl, n1, n2, hq⟩ := hq <;>
    cases c <;> simp only [plan, plain, reduceCtorEq] at h
  · split at h
    · rename_i hl
      simp only [Option.some.injEq, Prod.mk.injEq] at h
      obtain ⟨rfl, rfl, rfl⟩ := h
      exact out_go hs hr (keep_same rfl rfl rfl rfl fun _ _ => ⟨rfl, rfl, rfl⟩) .go
        (M' := { M with mL := t }) (by simp only [MC.plan, hd.mL]; rw [if_pos hl]) { hd with mL := rfl }
        (hstab n1 n2 hq rfl rfl rfl rfl fun _ => ⟨rfl, rfl, rfl⟩)
    · cases h
  · simp only [Option.some.injEq, Prod.mk.injEq] at h
    obtain ⟨rfl, rfl, rfl⟩ := h
    refine out_go hs hr (keep_same rfl rfl rfl rfl fun _ _ => ⟨rfl, rfl, rfl⟩) .go rfl { hd with mL := ?_ }
      (hstab n1 n2 hq rfl rfl rfl rfl fun _ => ⟨rfl, rfl, rfl⟩)
    show (if M.mL = t then 0 else M.mL) = _
    rw [hd.mL]
  · split at h
    · rename_i hl
      simp only [Option.some.injEq, Prod.mk.injEq] at h
      obtain ⟨rfl, rfl, rfl⟩ := h
      exact out_go hs hr (keep_same rfl rfl rfl rfl fun _ _ => ⟨rfl, rfl, rfl⟩) .go
        (M' := { M with cL := t }) (by simp only [MC.plan, hd.cL]; rw [if_pos hl]) { hd with cL := rfl }
        (hstab n1 n2 hq rfl rfl rfl rfl fun _ => ⟨rfl, rfl, rfl⟩)
    · cases h
  · simp only [Option.some.injEq, Prod.mk.injEq] at h
    obtain ⟨rfl, rfl, rfl⟩ := h
    refine out_go hs hr (keep_same rfl rfl rfl rfl fun _ _ => ⟨rfl, rfl, rfl⟩) .go rfl { hd with cL := ?_ }
      (hstab n1 n2 hq rfl rfl rfl rfl fun _ => ⟨rfl, rfl, rfl⟩)
    show (if M.cL = t then 0 else M.cL) = _
    rw [hd.cL]

theorem act_tabM {p : Pc} {c : Choice} {ws : List Write} {x' : Mem} {p' : Pc}
    (hp : (∃ n kd, p = .mFind n kd) ∨ (∃ m n kd, p = .mIni m n kd) ∨ (∃ m kd, p = .mIns m kd) ∨
      (∃ n, p = .uFind n) ∨ ∃ nc n kd, p = .wM nc n kd)
    (hq : PcR cnt b T x alive p q) (ha : MC.AtN M q)
    (h : plan cnt fuel b x alive t p c = some (ws, x', p')) : Out cnt b T x alive t M q p c ws x' p' := by
  rcases hp with ⟨n, kd, rfl⟩ | ⟨m, n, kd, rfl⟩ | ⟨m, kd, rfl⟩ | ⟨n, rfl⟩ | ⟨nc, n, kd, rfl⟩
  · obtain rfl := hq
    cases c <;> simp only [plan, plain, reduceCtorEq] at h
    rcases findM_cases hw hf hs hr hd (b := b) n with ⟨e, hnm⟩ | ⟨m, e, hm, hx, hnm⟩
    · rw [e] at h
      simp only [Option.bind_some] at h
      cases hT : T .mfree with
      | nil =>
        rw [pop_nil hw hs hr b (h := .mfree) trivial hT] at h
        simp only [Option.some.injEq, Prod.mk.injEq] at h
        obtain ⟨rfl, rfl, rfl⟩ := h
        exact out_go hs hr (keep_refl _ _ _) .go
          (by simp only [MC.plan]; rw [if_neg hnm, if_pos (by rw [hd.mr, hT]; rfl)]) hd ⟨_, rfl, rfl, rfl, rfl⟩
      | cons m l =>
        obtain ⟨ws', e1, e2, e3⟩ := pop_ok hw hs hr b (h := .mfree) trivial hT
        rw [e1] at h
        simp only [Option.some.injEq, Prod.mk.injEq] at h
        obtain ⟨rfl, rfl, rfl⟩ := h
        refine ⟨set T .mfree l, trivial, sound_sub hs (by rw [hT]; exact List.sublist_cons_self ..), e2,
          keep_M rfl rfl (suf_ne T l (by simp)), fun j => (e3 j).imp id fun h => ⟨rfl, h⟩,
          .inr ⟨.go, _, _, rfl, by
            simp only [MC.plan]; rw [if_neg hnm, if_neg (by rw [hd.mr, hT]; simp)], data_mfree hd hT, ?_, rfl⟩⟩
        exact free_pop hs (h := .mfree) hT
    · rw [e] at h
      simp only [Option.bind_some, Option.some.injEq, Prod.mk.injEq] at h
      obtain ⟨rfl, rfl, rfl⟩ := h
      subst hx
      exact out_go hs hr (keep_refl _ _ _) .go (by simp only [MC.plan]; rw [if_pos hnm]; try rfl) hd
        ⟨_, rfl, rfl, rfl, hm, trivial, rfl⟩
  · obtain ⟨h1, rfl⟩ := hq
    cases c <;> simp only [plan, plain, reduceCtorEq, Option.some.injEq, Prod.mk.injEq] at h
    obtain ⟨rfl, rfl, rfl⟩ := h
    have hx : ∀ m' ∈ T .mtxs, m' ≠ m := by rintro m' h' rfl; exact h1.2 .mtxs rfl h'
    have hrep : Rep cnt (x.cells.set (adr cnt .nmtx m) 0) T := rep_loose hw hs hr (h := .mtxs) h1
    refine ⟨T, trivial, hs, hrep, ⟨List.suffix_refl _, fun m' h' => MC.upd_ne _ _ (hx m' h'), List.suffix_refl _,
      fun _ _ => rfl, fun e => (by cases e), fun _ => ⟨fun _ _ => rfl, rfl, rfl, rfl⟩, fun _ _ => rfl⟩, fun j => ?_,
      .inl ⟨trivial, ?_, ?_⟩⟩
    · left
      match j with
      | 0 => exact hr
      | j + 1 => rw [List.take_of_length_le (by simp)]; exact hrep
    · refine { hd with ml := ?_, mv := fun m' h' => ?_, mc := fun m' h' => ?_, md := fun m' h' => ?_ }
      · rw [hd.ml]
        exact List.map_congr_left fun m' h' => (MC.upd_ne _ _ (hx m' h')).symm
      · show M.mval (upd x.mname m n m') = upd x.mval m 0 m'
        rw [MC.upd_ne _ _ (hx m' h'), MC.upd_ne _ _ (hx m' h')]; exact hd.mv m' h'
      · show M.mcnt (upd x.mname m n m') = upd x.mcnt m 0 m'
        rw [MC.upd_ne _ _ (hx m' h'), MC.upd_ne _ _ (hx m' h')]; exact hd.mc m' h'
      · show M.dep (upd x.mname m n m') = upd x.dep m _ m'
        rw [MC.upd_ne _ _ (hx m' h'), MC.upd_ne _ _ (hx m' h')]; exact hd.md m' h'
    · exact ⟨h1, by simp, by simp, by simp, by simp⟩
  · obtain ⟨h1, h2, h3, h4, rfl⟩ := hq
    cases c <;> simp only [plan, plain, reduceCtorEq, Option.map_eq_some_iff, Prod.mk.injEq] at h
    obtain ⟨ws', hpush, rfl, rfl, rfl⟩ := h
    obtain ⟨ws', e1, e2, e3⟩ := push_ok hw hs hr b (h := .mtxs) (i := m) trivial h1
    rw [hpush] at e1
    cases e1
    refine ⟨set T .mtxs (m :: T .mtxs), trivial, sound_ins hs h1, e2, keep_M rfl rfl (by rw [set_at]; exact List.suffix_cons ..),
      fun j => (e3 j).imp id fun h => ⟨rfl, h⟩,
      .inr ⟨.go, _, _, rfl, rfl, data_mIns hd ha h2 h3 h4, _, rfl, rfl, rfl, ?_, trivial, rfl⟩⟩
    rw [set_at]; simp
  · obtain rfl := hq
    cases c <;> simp only [plan, plain, reduceCtorEq] at h
    rcases findM_cases hw hf hs hr hd (b := b) n with ⟨e, hnm⟩ | ⟨m, e, hm, hx, hnm⟩ <;> rw [e] at h <;>
      simp only [Option.bind_some, Option.some.injEq, Prod.mk.injEq] at h <;> obtain ⟨rfl, rfl, rfl⟩ := h
    · exact out_go hs hr (keep_refl _ _ _) .go (by simp only [MC.plan]; rw [if_neg hnm]) hd ⟨_, rfl, rfl, rfl, rfl⟩
    · subst hx
      exact out_go hs hr (keep_refl _ _ _) .go (by simp only [MC.plan]; rw [if_pos hnm]; try rfl) hd ⟨hm, trivial, rfl⟩
  · obtain rfl := hq
    cases c <;> simp only [plan, plain, reduceCtorEq] at h
    rcases findM_cases hw hf hs hr hd (b := b) n with ⟨e, hnm⟩ | ⟨m, e, hm, hx, hnm⟩ <;> rw [e] at h <;>
      simp only [Option.bind_some, Option.some.injEq, Prod.mk.injEq] at h <;> obtain ⟨rfl, rfl, rfl⟩ := h
    · exact out_go hs hr (keep_refl _ _ _) .go (by simp only [MC.plan]; rw [if_neg hnm]) hd ⟨_, rfl, rfl, rfl, rfl⟩
    · subst hx
      exact out_go hs hr (keep_refl _ _ _) .go (by simp only [MC.plan]; rw [if_pos hnm]) hd
        ⟨_, rfl, rfl, rfl, _, rfl, rfl, rfl, hm, rfl⟩

theorem act_tabC {p : Pc} {c : Choice} {ws : List Write} {x' : Mem} {p' : Pc}
    (hp : (∃ nc m kd, p = .wC nc m kd) ∨ (∃ c nc m kd, p = .wNewI c nc m kd) ∨ (∃ c m kd, p = .wNew c m kd) ∨
      (∃ c m kd, p = .wGet c m kd) ∨ (∃ c w m kd, p = .wIni c w m kd) ∨ (∃ c w m kd, p = .wIns c w m kd) ∨
      (∃ c w m r, p = .wCut c w m r) ∨ ∃ w r, p = .wPut w r)
    (hq : PcR cnt b T x alive p q) (ha : MC.AtN M q)
    (h : plan cnt fuel b x alive t p c = some (ws, x', p')) : Out cnt b T x alive t M q p c ws x' p' := by
  rcases hp with ⟨nc, m, kd, rfl⟩ | ⟨k, nc, m, kd, rfl⟩ | ⟨k, m, kd, rfl⟩ | ⟨k, m, kd, rfl⟩ | ⟨k, w, m, kd, rfl⟩ |
    ⟨k, w, m, kd, rfl⟩ | ⟨k, w, m, r, rfl⟩ | ⟨w, r, rfl⟩
  · obtain ⟨hm, rfl⟩ := hq
    cases c <;> simp only [plan, plain, reduceCtorEq] at h
    rcases findC_cases hw hf hs hr hd (b := b) nc with ⟨e, hnm⟩ | ⟨k, e, hk, hx, hnm⟩
    · rw [e] at h
      simp only [Option.bind_some] at h
      cases hT : T .cfree with
      | nil =>
        rw [pop_nil hw hs hr b (h := .cfree) trivial hT] at h
        simp only [Option.some.injEq, Prod.mk.injEq] at h
        obtain ⟨rfl, rfl, rfl⟩ := h
        exact out_go hs hr (keep_refl _ _ _) .go
          (by simp only [MC.plan]; rw [if_neg hnm, if_pos (by rw [hd.cr, hT]; rfl)]) hd ⟨_, rfl, rfl, rfl, rfl⟩
      | cons k l =>
        obtain ⟨ws', e1, e2, e3⟩ := pop_ok hw hs hr b (h := .cfree) trivial hT
        rw [e1] at h
        simp only [Option.some.injEq, Prod.mk.injEq] at h
        obtain ⟨rfl, rfl, rfl⟩ := h
        refine ⟨set T .cfree l, trivial, sound_sub hs (by rw [hT]; exact List.sublist_cons_self ..), e2,
          keep_C rfl (by simp [Head.pool]) (suf_ne T l (by simp)), fun j => (e3 j).imp id fun h => ⟨rfl, h⟩,
          .inr ⟨.go, _, _, rfl, by
            simp only [MC.plan]; rw [if_neg hnm, if_neg (by rw [hd.cr, hT]; simp)], data_cfree hd hT, ?_, ?_, rfl⟩⟩
        · exact free_pop hs (h := .cfree) hT
        · rw [set_ne _ _ (by simp)]; exact hm
    · rw [e] at h
      simp only [Option.bind_some, Option.some.injEq, Prod.mk.injEq] at h
      obtain ⟨rfl, rfl, rfl⟩ := h
      subst hx
      exact out_go hs hr (keep_refl _ _ _) .go (by simp only [MC.plan]; rw [if_pos hnm]) hd ⟨hk, hm, rfl⟩
  · obtain ⟨h1, hm, rfl⟩ := hq
    cases c <;> simp only [plan, plain, reduceCtorEq, Option.some.injEq, Prod.mk.injEq] at h
    obtain ⟨rfl, rfl, rfl⟩ := h
    have hk : k ∉ T .conds := h1.2 .conds rfl
    have hx : ∀ m' ∈ T .conds, m' ≠ k := by rintro m' h' rfl; exact hk h'
    have hrep : Rep cnt (x.cells.set (adr cnt .ncond k) 0) T := rep_loose hw hs hr (h := .conds) h1
    have hrep2 : Rep cnt ((x.cells.set (adr cnt .ncond k) 0).set (cell cnt (.ws k)) 0) T := by
      have hz : (x.cells.set (adr cnt .ncond k) 0) (cell cnt (.ws k)) = 0 := by
        have := hrep (.ws k) h1.1
        rw [hd.we k hk] at this
        exact this
      have : (x.cells.set (adr cnt .ncond k) 0).set (cell cnt (.ws k)) 0 = x.cells.set (adr cnt .ncond k) 0 := by
        funext y
        simp only [ListMem.Mem.set] at hz ⊢
        split
        · rename_i e; rw [e]; exact hz.symm
        · rfl
      rw [this]; exact hrep
    refine ⟨T, trivial, hs, hrep2, ⟨List.suffix_refl _, fun _ _ => rfl, List.suffix_refl _,
      fun m' h' => MC.upd_ne _ _ (hx m' h'), fun _ => ⟨rfl, rfl, rfl, fun _ _ => ⟨rfl, rfl, rfl⟩⟩,
      fun e => (by cases e), fun _ _ => rfl⟩, fun j => ?_, .inl ⟨trivial, ?_, ?_⟩⟩
    · left
      match j with
      | 0 => exact hr
      | 1 => exact hrep
      | j + 2 => rw [List.take_of_length_le (by simp)]; exact hrep2
    · refine { hd with cl := ?_, ws := fun m' h' => ?_ }
      · rw [hd.cl]
        exact List.map_congr_left fun m' h' => (MC.upd_ne _ _ (hx m' h')).symm
      · show M.ws (upd x.cname k nc m') = _
        rw [MC.upd_ne _ _ (hx m' h')]; exact hd.ws m' h'
    · exact ⟨h1, hm, by simp⟩
  · obtain ⟨h1, hm, rfl⟩ := hq
    cases c <;> simp only [plan, plain, reduceCtorEq, Option.map_eq_some_iff, Prod.mk.injEq] at h
    obtain ⟨ws', hpush, rfl, rfl, rfl⟩ := h
    obtain ⟨ws', e1, e2, e3⟩ := push_ok hw hs hr b (h := .conds) (i := k) trivial h1
    rw [hpush] at e1
    cases e1
    refine ⟨set T .conds (k :: T .conds), trivial, sound_ins hs h1, e2,
      keep_C rfl (by simp [Head.pool]) (by rw [set_at]; exact List.suffix_cons ..),
      fun j => (e3 j).imp id fun h => ⟨rfl, h⟩,
      .inr ⟨.go, _, _, rfl, rfl, data_wNew hd ha (h1.2 .conds rfl), ?_, ?_, rfl⟩⟩
    · rw [set_at]; simp
    · rw [set_ne _ _ (by simp)]; exact hm
  · obtain ⟨hk, hm, rfl⟩ := hq
    cases c <;> simp only [plan, plain, reduceCtorEq] at h
    cases hT : T .wfree with
    | nil =>
      rw [pop_nil hw hs hr b (h := .wfree) trivial hT] at h
      simp only [Option.some.injEq, Prod.mk.injEq] at h
      obtain ⟨rfl, rfl, rfl⟩ := h
      exact out_go hs hr (keep_refl _ _ _) .go
        (by simp only [MC.plan, hd.wfr, hT]) hd ⟨_, rfl, rfl, rfl, rfl⟩
    | cons w l =>
      obtain ⟨ws', e1, e2, e3⟩ := pop_ok hw hs hr b (h := .wfree) trivial hT
      rw [e1] at h
      simp only [Option.some.injEq, Prod.mk.injEq] at h
      obtain ⟨rfl, rfl, rfl⟩ := h
      refine ⟨set T .wfree l, trivial, sound_sub hs (by rw [hT]; exact List.sublist_cons_self ..), e2,
        keep_C rfl (by simp [Head.pool]) (suf_ne T l (by simp)), fun j => (e3 j).imp id fun h => ⟨rfl, h⟩,
        .inr ⟨.go, { M with wfree := l }, _, rfl, by simp only [MC.plan, hd.wfr, hT], data_wfree hd l, ?_, ?_, ?_, rfl⟩⟩
      · rw [set_ne _ _ (by simp)]; exact hk
      · rw [set_ne _ _ (by simp)]; exact hm
      · exact free_pop hs (h := .wfree) hT
  · obtain ⟨hk, hm, h1, rfl⟩ := hq
    cases c <;> simp only [plan, plain, reduceCtorEq, Option.some.injEq, Prod.mk.injEq] at h
    obtain ⟨rfl, rfl, rfl⟩ := h
    refine ⟨T, trivial, hs, hr, ⟨List.suffix_refl _, fun _ _ => rfl, List.suffix_refl _, fun _ _ => rfl,
      fun _ => ⟨rfl, rfl, rfl, fun _ _ => ⟨rfl, rfl, rfl⟩⟩, fun e => (by cases e), fun w' hw' => ?_⟩,
      fun j => .inl (by rw [List.take_nil]; exact hr),
      .inr ⟨.go, _, _, rfl, rfl, { hd with wt := ?_, wu := ?_ }, hk, hm, h1, ?_, rfl⟩⟩
    · refine MC.upd_ne _ _ ?_
      rintro rfl; exact hw' rfl
    · show upd M.wtid w t = upd x.wtid w t
      rw [hd.wt]
    · show upd M.wup w false = upd x.wup w false
      rw [hd.wu]
    · show upd x.wmtx w _ w = _
      rw [MC.upd_same]
      exact toRel_toAbs _ _
  · obtain ⟨hk, hm, h1, h2, rfl⟩ := hq
    cases c <;> simp only [plan, plain, reduceCtorEq, Option.map_eq_some_iff, Prod.mk.injEq] at h
    obtain ⟨ws', hpush, rfl, rfl, rfl⟩ := h
    obtain ⟨ws', e1, e2, e3⟩ := push_ok hw hs hr b (h := .ws k) (i := w) (hs.lt .conds k hk) h1
    rw [hpush] at e1
    cases e1
    have hd' := data_ws hd hcn hk (w :: T (.ws k))
    refine ⟨set T (.ws k) (w :: T (.ws k)), trivial, sound_ins hs (h := .ws k) h1, e2,
      keep_C rfl (by simp [Head.pool]) (suf_ne T _ (by simp)),
      fun j => (e3 j).imp id fun h => ⟨rfl, h⟩,
      .inr ⟨.go, _, _, rfl, rfl, ?_, _, rfl, rfl, rfl, m, ?_, ?_, h2, rfl⟩⟩
    · rw [hd.ws k hk]
      exact ⟨hd'.ml, hd'.mr, hd'.cl, hd'.cr, hd'.wfr, hd'.ws, hd'.we, hd'.mv, hd'.mc, hd'.md, hd'.d0, hd'.wt, hd'.wu,
        hd'.mL, hd'.cL⟩
    · rw [set_ne _ _ (by simp)]; exact hk
    · rw [set_ne _ _ (by simp)]; exact hm
  · obtain ⟨hk, hm, rfl⟩ := hq
    cases c <;> simp only [plan, plain, reduceCtorEq] at h
    by_cases hin : w ∈ T (.ws k)
    · obtain ⟨ws', e1, e2, e3⟩ := cut_ok hw hs hr b hf (h := .ws k) (hs.lt .conds k hk) hin
      rw [show (Head.ws k).pool = .waiter from rfl] at e1
      rw [e1] at h
      simp only [Option.bind_some, Option.some.injEq, Prod.mk.injEq] at h
      obtain ⟨rfl, rfl, rfl⟩ := h
      have hd' := data_ws hd hcn hk ((T (.ws k)).erase w)
      refine ⟨set T (.ws k) ((T (.ws k)).erase w), trivial, sound_sub hs List.erase_sublist, e2,
        keep_C rfl (by simp [Head.pool]) (suf_ne T _ (by simp)),
        fun j => (e3 j).imp id fun h => ⟨rfl, h⟩,
        .inr ⟨.go, _, _, rfl, by simp only [MC.plan]; rw [hd.ws k hk, if_pos hin], hd', ?_, rfl⟩⟩
      exact free_cut hs (h := .ws k) hin
    · have e1 := cut_none hw hs hr b hf (h := .ws k) (hs.lt .conds k hk) hin
      rw [show (Head.ws k).pool = .waiter from rfl] at e1
      rw [e1] at h
      simp only [Option.bind_some, Option.some.injEq, Prod.mk.injEq] at h
      obtain ⟨rfl, rfl, rfl⟩ := h
      exact out_go hs hr (keep_refl _ _ _) .go (by simp only [MC.plan]; rw [hd.ws k hk, if_neg hin]) hd
        ⟨_, rfl, rfl, rfl, rfl⟩
  · obtain ⟨h1, rfl⟩ := hq
    cases c <;> simp only [plan, plain, reduceCtorEq, Option.map_eq_some_iff, Prod.mk.injEq] at h
    obtain ⟨ws', hpush, rfl, rfl, rfl⟩ := h
    obtain ⟨ws', e1, e2, e3⟩ := push_ok hw hs hr b (h := .wfree) (i := w) trivial h1
    rw [hpush] at e1
    cases e1
    exact ⟨set T .wfree (w :: T .wfree), trivial, sound_ins hs h1, e2, keep_C rfl (by simp [Head.pool]) (suf_ne T _ (by simp)),
      fun j => (e3 j).imp id fun h => ⟨rfl, h⟩,
      .inr ⟨.go, _, _, rfl, rfl, by rw [hd.wfr]; exact data_wfree hd _, _, rfl, rfl, rfl, rfl⟩⟩

theorem act_wait {p : Pc} {c : Choice} {ws : List Write} {x' : Mem} {p' : Pc}
    (hp : (∃ c w kd, p = .wMtx c w kd) ∨ (∃ c w m kd, p = .wSet c w m kd) ∨ (∃ c w m r, p = .wErr c w m r) ∨
      ∃ c w m kd, p = .wSpin c w m kd)
    (hq : PcR cnt b T x alive p q)
    (h : plan cnt fuel b x alive t p c = some (ws, x', p')) : Out cnt b T x alive t M q p c ws x' p' := by
  rcases hp with ⟨k, w, kd, rfl⟩ | ⟨k, w, m, kd, rfl⟩ | ⟨k, w, m, r, rfl⟩ | ⟨k, w, m, kd, rfl⟩
  · obtain ⟨m, hk, hm, h1, rfl⟩ := hq
    cases c <;> simp only [plan, plain, reduceCtorEq] at h
    rw [h1, if_neg (show adr cnt .nmtx m ≠ 0 from adr_ne_zero hw .mtxs m)] at h
    simp only [Option.some.injEq, Prod.mk.injEq] at h
    obtain ⟨rfl, rfl, rfl⟩ := h
    refine out_id hs hr hd ⟨hk, ?_, ?_⟩ <;> rw [idx_adr]
    exact hm
  · obtain ⟨hk, hm, rfl⟩ := hq
    cases c <;> simp only [plan, plain, reduceCtorEq, Option.some.injEq, Prod.mk.injEq] at h
    obtain ⟨rfl, rfl, rfl⟩ := h
    exact out_go hs hr (keep_same rfl rfl rfl rfl fun _ _ => ⟨rfl, rfl, rfl⟩) .go rfl (data_wup hd w false)
      ⟨hm, ⟨hk, hm⟩, rfl⟩
  · obtain ⟨hk, hm, rfl⟩ := hq
    cases c <;> simp only [plan, plain, reduceCtorEq, Option.some.injEq, Prod.mk.injEq] at h
    obtain ⟨rfl, rfl, rfl⟩ := h
    exact out_go hs hr (keep_same rfl rfl rfl rfl fun _ _ => ⟨rfl, rfl, rfl⟩) .go rfl (data_wup hd w true)
      ⟨_, rfl, rfl, rfl, hk, hm, rfl⟩
  · obtain ⟨hk, hm, rfl⟩ := hq
    cases c <;> simp only [plan, plain, reduceCtorEq] at h
    · simp only [Option.some.injEq, Prod.mk.injEq] at h
      obtain ⟨rfl, rfl, rfl⟩ := h
      refine out_go hs hr (keep_refl _ _ _) .go rfl hd ?_
      rw [hd.wu]
      split
      · exact ⟨hm, ⟨hk, hm⟩, rfl⟩
      · exact ⟨hk, hm, rfl⟩
    · split at h
      · rename_i hc
        simp only [Option.some.injEq, Prod.mk.injEq] at h
        obtain ⟨rfl, rfl, rfl⟩ := h
        exact out_go hs hr (keep_refl _ _ _) .limit (by simp only [MC.plan, hd.wu]; rw [if_pos hc]; try rfl) hd
          ⟨hm, ⟨hk, hm⟩, rfl⟩
      · cases h

theorem act_signal {p : Pc} {c : Choice} {ws : List Write} {x' : Mem} {p' : Pc}
    (hp : (∃ nc bc, p = .sFind nc bc) ∨ (∃ a l, p = .sWalk a l) ∨ (∃ w, p = .sSet w) ∨ (∃ a, p = .bWalk a) ∨
      ∃ a, p = .bSet a)
    (hq : PcR cnt b T x alive p q)
    (h : plan cnt fuel b x alive t p c = some (ws, x', p')) : Out cnt b T x alive t M q p c ws x' p' := by
  rcases hp with ⟨nc, bc, rfl⟩ | ⟨a, last, rfl⟩ | ⟨w, rfl⟩ | ⟨a, rfl⟩ | ⟨a, rfl⟩
  · obtain rfl := hq
    cases c <;> simp only [plan, plain, reduceCtorEq] at h
    rcases findC_cases hw hf hs hr hd (b := b) nc with ⟨e, hnm⟩ | ⟨k, e, hk, hx, hnm⟩ <;> rw [e] at h <;>
      simp only [Option.bind_some, Option.some.injEq, Prod.mk.injEq] at h <;> obtain ⟨rfl, rfl, rfl⟩ := h
    · exact out_go hs hr (keep_refl _ _ _) .go (by simp only [MC.plan]; rw [if_neg hnm]) hd ⟨_, rfl, rfl, rfl, rfl⟩
    · subst hx
      refine out_go hs hr (keep_refl _ _ _) .go (by simp only [MC.plan]; rw [if_pos hnm]) hd ?_
      have ht := top_eq hw hs hr b (h := .ws k) (hs.lt .conds k hk)
      split
      · exact ⟨k, [], T (.ws k), hk, rfl, ht, by rw [hd.ws k hk]⟩
      · exact ⟨k, [], T (.ws k), hk, rfl, ht, by rw [hd.ws k hk]⟩
  · obtain ⟨k, pre, rest, hk, h1, rfl, rfl⟩ := hq
    cases c <;> simp only [plan, plain, reduceCtorEq] at h
    split at h
    · rename_i h0
      have := hdp_zero hw (.ws k) h0
      subst this
      cases last with
      | none =>
        simp only [Option.some.injEq, Prod.mk.injEq] at h
        obtain ⟨rfl, rfl, rfl⟩ := h
        exact out_go hs hr (keep_refl _ _ _) .go rfl hd ⟨_, rfl, rfl, rfl, rfl⟩
      | some w =>
        simp only [Option.some.injEq, Prod.mk.injEq] at h
        obtain ⟨rfl, rfl, rfl⟩ := h
        exact out_go hs hr (keep_refl _ _ _) .go rfl hd rfl
    · rename_i h0
      obtain ⟨w, l, rfl, e⟩ := hdp_cons h0
      rw [e, idx_ptr] at h
      simp only [Option.some.injEq, Prod.mk.injEq] at h
      obtain ⟨rfl, rfl, rfl⟩ := h
      exact out_go hs hr (keep_refl _ _ _) .go rfl hd ⟨k, pre ++ [w], l, hk, by rw [h1]; simp,
        next_eq hw hr b (h := .ws k) (hs.lt .conds k hk) h1, by rw [hd.wu]⟩
  · obtain rfl := hq
    cases c <;> simp only [plan, plain, reduceCtorEq, Option.some.injEq, Prod.mk.injEq] at h
    obtain ⟨rfl, rfl, rfl⟩ := h
    exact out_go hs hr (keep_same rfl rfl rfl rfl fun _ _ => ⟨rfl, rfl, rfl⟩) .go rfl (data_wup hd w true)
      ⟨_, rfl, rfl, rfl, rfl⟩
  · obtain ⟨k, pre, rest, hk, h1, rfl, rfl⟩ := hq
    cases c <;> simp only [plan, plain, reduceCtorEq] at h
    split at h
    · rename_i h0
      have := hdp_zero hw (.ws k) h0
      subst this
      simp only [Option.some.injEq, Prod.mk.injEq] at h
      obtain ⟨rfl, rfl, rfl⟩ := h
      exact out_go hs hr (keep_refl _ _ _) .go rfl hd ⟨_, rfl, rfl, rfl, rfl⟩
    · rename_i h0
      obtain ⟨w, l, rfl, e⟩ := hdp_cons h0
      rw [e, idx_ptr] at h
      simp only [Option.some.injEq, Prod.mk.injEq] at h
      obtain ⟨rfl, rfl, rfl⟩ := h
      refine out_go hs hr (keep_refl _ _ _) .go rfl hd ?_
      rw [hd.wu]
      split
      · exact ⟨k, pre ++ [w], l, hk, by rw [h1]; simp,
          next_eq hw hr b (h := .ws k) (hs.lt .conds k hk) h1, rfl⟩
      · exact ⟨k, pre, w, l, hk, h1, rfl, rfl⟩
  · obtain ⟨k, pre, w, rest, hk, h1, rfl, rfl⟩ := hq
    cases c <;> simp only [plan, plain, reduceCtorEq, Option.some.injEq, Prod.mk.injEq, idx_ptr] at h
    obtain ⟨rfl, rfl, rfl⟩ := h
    exact out_go hs hr (keep_same rfl rfl rfl rfl fun _ _ => ⟨rfl, rfl, rfl⟩) .go rfl (data_wup hd w true)
      ⟨k, pre ++ [w], rest, hk, by rw [h1]; simp,
        next_eq hw hr b (h := .ws k) (hs.lt .conds k hk) h1, rfl⟩

theorem act_sweepC {p : Pc} {c : Choice} {ws : List Write} {x' : Mem} {p' : Pc}
    (hp : p = .swC ∨ (∃ a, p = .swCond a) ∨ (∃ k r a, p = .swW k r a) ∨ (∃ k r a, p = .swCut k r a) ∨
      (∃ k r a, p = .swPut k r a) ∨ ∃ k r, p = .swNx k r)
    (hq : PcR cnt b T x alive p q)
    (h : plan cnt fuel b x alive t p c = some (ws, x', p')) : Out cnt b T x alive t M q p c ws x' p' := by
  rcases hp with rfl | ⟨a, rfl⟩ | ⟨k, r, a, rfl⟩ | ⟨k, r, a, rfl⟩ | ⟨k, r, a, rfl⟩ | ⟨k, r, rfl⟩
  · obtain rfl := hq
    cases c <;> simp only [plan, plain, reduceCtorEq, Option.some.injEq, Prod.mk.injEq] at h
    obtain ⟨rfl, rfl, rfl⟩ := h
    exact out_id hs hr hd ⟨T .conds, List.suffix_refl _, top_eq hw hs hr b (h := .conds) trivial, rfl⟩
  · obtain ⟨rest, h1, rfl, rfl⟩ := hq
    cases c <;> simp only [plan, plain, reduceCtorEq] at h
    split at h
    · simp only [Option.some.injEq, Prod.mk.injEq] at h
      obtain ⟨rfl, rfl, rfl⟩ := h
      exact out_go hs hr (keep_refl _ _ _) .go rfl hd ⟨_, rfl, rfl, rfl, rfl⟩
    · rename_i h0
      obtain ⟨k, l, rfl, e⟩ := hdp_cons h0
      have hk : k ∈ T .conds := h1.subset (by simp)
      rw [e, idx_ptr] at h
      simp only [Option.some.injEq, Prod.mk.injEq] at h
      obtain ⟨rfl, rfl, rfl⟩ := h
      exact out_id hs hr hd ⟨[], T (.ws k), hk, rfl, .inl ⟨rfl, rfl⟩,
        top_eq hw hs hr b (h := .ws k) (hs.lt .conds k hk), rfl⟩
  · obtain ⟨pre, rest, hk, h1, h2, rfl, rfl⟩ := hq
    have hnx : ∀ w l, rest = w :: l → PcR cnt b T x alive (.swW k (ptr cnt b .waiter w) (nextOf b x (ptr cnt b .waiter w))) .swC := by
      rintro w l rfl
      exact ⟨pre ++ [w], l, hk, by rw [h1]; simp, .inr ⟨pre, w, rfl, rfl⟩,
        next_eq hw hr b (h := .ws k) (hs.lt .conds k hk) h1, rfl⟩
    cases c <;> simp only [plan, plain, reduceCtorEq] at h
    · split at h
      · simp only [Option.some.injEq, Prod.mk.injEq] at h
        obtain ⟨rfl, rfl, rfl⟩ := h
        obtain ⟨p1, p2, e⟩ := List.append_of_mem hk
        exact out_id hs hr hd ⟨p2, ⟨p1 ++ [k], by rw [e]; simp⟩, next_eq hw hr b (h := .conds) trivial e, rfl⟩
      · rename_i h0
        obtain ⟨w, l, rfl, e⟩ := hdp_cons h0
        rw [e, idx_ptr] at h
        split at h <;> simp only [Option.some.injEq, Prod.mk.injEq] at h <;> obtain ⟨rfl, rfl, rfl⟩ := h
        · exact out_id hs hr hd (hnx w l rfl)
        · rename_i hal
          exact out_id hs hr hd ⟨pre, w, l, hk, h1, h2, rfl, by simpa using hal, rfl⟩
    · split at h
      · cases h
      · rename_i h0
        obtain ⟨w, l, rfl, e⟩ := hdp_cons h0
        rw [e] at h
        simp only [Option.some.injEq, Prod.mk.injEq] at h
        obtain ⟨rfl, rfl, rfl⟩ := h
        exact out_id hs hr hd (hnx w l rfl)
  · obtain ⟨pre, w, rest, hk, h1, h2, rfl, h3, rfl⟩ := hq
    cases c <;> simp only [plan, plain, reduceCtorEq] at h
    have hin : w ∈ T (.ws k) := by rw [h1]; simp
    obtain ⟨ws', e1, e2, e3⟩ := cut_ok hw hs hr b hf (h := .ws k) (hs.lt .conds k hk) hin
    rw [show (Head.ws k).pool = .waiter from rfl] at e1
    rw [e1] at h
    simp only [Option.bind_some, Option.some.injEq, Prod.mk.injEq] at h
    obtain ⟨rfl, rfl, rfl⟩ := h
    have he : (T (.ws k)).erase w = pre ++ rest := by
      have hnd := hs.nodup (.ws k)
      rw [h1] at hnd ⊢
      have : w ∉ pre := fun hm => (List.nodup_append.1 hnd).2.2 w hm w (by simp) rfl
      rw [List.erase_append_right _ this]; simp
    have hd' := data_ws hd hcn hk ((T (.ws k)).erase w)
    refine ⟨set T (.ws k) ((T (.ws k)).erase w), by simp only [Tabs, idx_ptr], sound_sub hs List.erase_sublist, e2,
      keep_C rfl (by simp [Head.pool]) (suf_ne T _ (by simp)),
      fun j => (e3 j).imp id fun h => ⟨rfl, h⟩,
      .inr ⟨.wk (x.cname k) w, _, _, ⟨_, _, rfl⟩, ?_, hd', pre, w, rest, ?_, ?_, h2, rfl, ?_, rfl⟩⟩
    · simp only [MC.plan]
      rw [hd.ws k hk, hd.wt, if_pos ⟨mem_cname hd hk, hin, h3⟩]
    · rw [set_ne _ _ (by simp)]; exact hk
    · rw [set_at, he]
    · exact free_cut hs (h := .ws k) hin
  · obtain ⟨pre, w, rest, hk, h1, h2, rfl, h3, rfl⟩ := hq
    cases c <;> simp only [plan, plain, reduceCtorEq, Option.map_eq_some_iff, Prod.mk.injEq] at h
    obtain ⟨ws', hpush, rfl, rfl, rfl⟩ := h
    obtain ⟨ws', e1, e2, e3⟩ := push_ok hw hs hr b (h := .wfree) (i := w) trivial h3
    simp only [push, Head.pool] at e1
    rw [hpush] at e1
    cases e1
    refine ⟨set T .wfree (w :: T .wfree), by simp only [Tabs, idx_ptr], sound_ins hs h3, e2, keep_C rfl (by simp [Head.pool]) (suf_ne T _ (by simp)),
      fun j => (e3 j).imp id fun h => ⟨rfl, h⟩,
      .inr ⟨.go, _, _, rfl, rfl, by rw [hd.wfr]; exact data_wfree hd _, pre, rest, ?_, ?_, h2, rfl⟩⟩
    · rw [set_ne _ _ (by simp)]; exact hk
    · rw [set_ne _ _ (by simp)]; exact h1
  · obtain ⟨pre, rest, hk, h1, h2, rfl⟩ := hq
    cases c <;> simp only [plan, plain, reduceCtorEq, Option.some.injEq, Prod.mk.injEq] at h
    obtain ⟨rfl, rfl, rfl⟩ := h
    refine out_id hs hr hd ⟨pre, rest, hk, h1, h2, ?_, rfl⟩
    rcases h2 with ⟨rfl, rfl⟩ | ⟨pre', w, rfl, rfl⟩
    · rw [if_neg (by simp), top_eq hw hs hr b (h := .ws k) (hs.lt .conds k hk), h1]; rfl
    · rw [if_pos (show ptr cnt b .waiter w ≠ 0 from ptr_ne hw hs hr b (h := .ws k) w)]
      exact next_eq hw hr b (h := .ws k) (hs.lt .conds k hk) (pre := pre') (by rw [h1]; simp)

/-- Every step of a thread on the cells. -/
theorem act {p : Pc} {c : Choice} {ws : List Write} {x' : Mem} {p' : Pc}
    (hq : PcR cnt b T x alive p q) (ha : MC.AtN M q)
    (h : plan cnt fuel b x alive t p c = some (ws, x', p')) : Out cnt b T x alive t M q p c ws x' p' := by
  cases p
  case done => cases c <;> simp [plan] at h
  case acqM | relM | acqC | relC => exact act_lk hw hf hs hr hd hn hcn (by simp) hq h
  case mFind | mIni | mIns | uFind | wM => exact act_tabM hw hf hs hr hd hn hcn (by simp) hq ha h
  case lkRead m kd k | lkAdd m kd k | lkChk m kd k | lkSub m kd k | lkCas m kd k | lkInc m kd k =>
    exact act_lock hw hf hs hr hd hn hcn (m := m) (kd := kd) (k := k) (by simp) hq h
  case ulRead m k | ulRead2 m k | ulSub m k | ulCas m k | ulAdd m k =>
    exact act_unlock hw hf hs hr hd hn hcn (m := m) (k := k) (by simp) hq h
  case ulFix m old k => exact act_unlock hw hf hs hr hd hn hcn (m := m) (k := k) (by simp) hq h
  case wC | wNewI | wNew | wGet | wIni | wIns | wCut | wPut =>
    exact act_tabC hw hf hs hr hd hn hcn (by simp) hq ha h
  case wMtx | wSet | wErr | wSpin => exact act_wait hw hf hs hr hd hn hcn (by simp) hq h
  case sFind | sWalk | sSet | bWalk | bSet => exact act_signal hw hf hs hr hd hn hcn (by simp) hq h
  case swTop k | swAt _ k | swChk _ _ k | swCnt _ k | swCntC _ _ k | swVal _ k | swValC _ _ k =>
    exact act_sweepM hw hf hs hr hd hn hcn (k := k) (by simp) hq h
  case swC | swCond | swW | swCut | swPut | swNx => exact act_sweepC hw hf hs hr hd hn hcn (by simp) hq h

end actor

end Fullock.MCMem
