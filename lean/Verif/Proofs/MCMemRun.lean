import Verif.Proofs.MCMemAct
/-! Runs on the cells follow runs on the tables. -/
namespace Fullock.MCMem
open Fullock.ListMem hiding upd
open Fullock.Layout
open Fullock.FLMem (adr idx member adr_inj' idx_adr)
open Fullock.Props (NoWrap)
open Fullock.MC (Kind LK UK Choice EPERM EBUSY EINVAL ENOLCK ETIMEDOUT upd)

/-- The segment holds the tables `s`, and every live thread is where it is in `s`. -/
structure Sim (cnt : Pool → Nat) (base : Nat → Nat) (T : Tab) (x : State) (s : MC.State) : Prop where
  snd : Sound cnt T
  rep : Rep cnt x.mem.cells T
  dat : Data T x.mem s.mem
  alive : x.alive = s.alive
  pcs : ∀ t, s.alive t = true → PcR cnt (base t) T x.mem s.alive (x.pc t) (s.pc t)
  recs : MC.Recs s

theorem data_cells {T : Tab} {x : Mem} {M : MC.Mem} (d : Data T x M) (c : ListMem.Mem) :
    Data T { x with cells := c } M :=
  ⟨d.ml, d.mr, d.cl, d.cr, d.wfr, d.ws, d.we, d.mv, d.mc, d.md, d.d0, d.wt, d.wu, d.mL, d.cL⟩

theorem keep_cells {q : MC.Pc} {T T' : Tab} {x x' : Mem} (k : Keep q T x T' x') (c : ListMem.Mem) :
    Keep q T x T' { x' with cells := c } :=
  ⟨k.mtxs, k.mname, k.conds, k.cname, k.notM, k.notC, k.wm⟩

theorem pcr_cells {cnt : Pool → Nat} {b : Nat} {T : Tab} {x : Mem} {alive : Nat → Bool} {p : Pc} {q : MC.Pc}
    (h : PcR cnt b T x alive p q) (c : ListMem.Mem) : PcR cnt b T { x with cells := c } alive p q :=
  stab_aux (q0 := .done 0) (keep_cells (keep_refl _ T x) c) (fun _ h => h) h (fun _ => rfl) (fun _ => rfl)
    fun _ _ _ => rfl

theorem pcr_done {cnt : Pool → Nat} {b : Nat} {T : Tab} {x : Mem} {alive : Nat → Bool} {p : Pc} {r : Nat}
    (h : PcR cnt b T x alive p (.done r)) : p = .done r := by
  cases p <;> simp_all [PcR]

theorem pcr_of_done {cnt : Pool → Nat} {b : Nat} {T : Tab} {x : Mem} {alive : Nat → Bool} {q : MC.Pc} {r : Nat}
    (h : PcR cnt b T x alive (.done r) q) : q = .done r := h

theorem pcr_start {cnt : Pool → Nat} {b : Nat} {T : Tab} {x : Mem} {alive : Nat → Bool} (c : MC.Call) :
    PcR cnt b T x alive (start c) c.start := by
  cases c <;> simp [start, MC.Call.start, PcR, needM, needC, SI, aS]

theorem pcr_alive {cnt : Pool → Nat} {b : Nat} {T : Tab} {x : Mem} {alive alive' : Nat → Bool} {p : Pc} {q : MC.Pc}
    (hal : ∀ t, alive t = false → alive' t = false) (h : PcR cnt b T x alive p q) : PcR cnt b T x alive' p q :=
  stab_aux (q0 := .done 0) (keep_refl _ T x) hal h (fun _ => rfl) (fun _ => rfl) fun _ _ _ => rfl

/-- A check of dead owners never looks at the caller. -/
theorem chk_ne {M M' : MC.Mem} {alive : Nat → Bool} {t : Nat} {q : MC.Pc} {c : Choice} {m v : Nat}
    {k : Option (Nat × Kind × LK)} (hw : MC.wf q = true)
    (h : MC.plan M alive t q c = some (M', .swChk m v k)) : v ≠ t := by
  have h := MC.stp_of_plan h
  have n1 : ∀ k' r, MC.Pc.swChk m v k ≠ MC.fin k' r := by intro k' r; cases k' <;> simp [MC.fin]
  have n2 : ∀ k' r, MC.Pc.swChk m v k ≠ MC.ufin k' r := by
    intro k' r; cases k' <;> simp only [MC.ufin] <;> (try split) <;> simp
  generalize hp : MC.Pc.swChk m v k = p' at h
  cases h
  case acqM => subst hp; simp [MC.wf] at hw
  case relM => subst hp; simp [MC.wf] at hw
  case acqC => subst hp; simp [MC.wf] at hw
  case relC => subst hp; simp [MC.wf] at hw
  case swTake => cases hp; assumption
  case lkSub hF =>
    cases hF
    all_goals first | exact absurd hp (n1 _ _) | cases hp
  case lkCasNo hF =>
    cases hF
    all_goals first | exact absurd hp (n1 _ _) | cases hp
  all_goals first | exact absurd hp (n1 _ _) | exact absurd hp (n2 _ _) | cases hp

/-- The other live threads rely only on what a step leaves as it is. -/
theorem others {cnt : Pool → Nat} {base : Nat → Nat} {T T' : Tab} {x : State} {s : MC.State} {x' : Mem}
    (S : Sim cnt base T x s) {t : Nat} (t0 : t ≠ 0) (ta : s.alive t = true) (K : Keep (s.pc t) T x.mem T' x')
    {alive' : Nat → Bool} (hal : ∀ t, s.alive t = false → alive' t = false)
    {u : Nat} (hu : u ≠ t) (ua : s.alive u = true) : PcR cnt (base u) T' x' alive' (x.pc u) (s.pc u) := by
  have h := S.pcs u ua
  have B := S.recs.names.base
  obtain ⟨n1, n2⟩ := need_in h
  have u0 : ∀ P : Prop, (s.pc u = .done 0 → P) → (u ≠ 0 → P) → P := by
    intro P a b
    by_cases e : u = 0
    · subst e; exact a B.zero
    · exact b e
  refine stab_aux K hal h (fun hn => ?_) (fun hn => ?_) fun c w hl => ?_
  · refine u0 _ (fun e => ?_) fun u0 => ?_
    · have := n1 hn; rw [e] at this; cases this
    · have h1 := (B.lockM u u0 ua).2 (n1 hn)
      cases hi : MC.inM (s.pc t) with
      | false => rfl
      | true => exact absurd ((B.lockM t t0 ta).2 hi) (by omega)
  · refine u0 _ (fun e => ?_) fun u0 => ?_
    · have := n2 hn; rw [e] at this; cases this
    · have h1 := (B.lockC u u0 ua).2 (n2 hn)
      cases hi : MC.inC (s.pc t) with
      | false => rfl
      | true => exact absurd ((B.lockC t t0 ta).2 hi) (by omega)
  · obtain ⟨h1, h2, -⟩ := S.recs.recs.listed u ua c w hl
    exact K.wm w fun hh => (S.recs.recs.handOut t w hh).2 c h1 h2

/-- How an event on the segment is followed on the tables. -/
inductive Follow (s : MC.State) : Ev → MC.State → Prop
  | call {t : Nat} {c : MC.Call} {s' : MC.State} : MC.step s (.call t c) = some s' → Follow s (.call t c) s'
  | stay {t : Nat} {c : Choice} : Follow s (.go t c) s
  | go {t : Nat} {c c' : Choice} {s' : MC.State} : MC.step s (.go t c') = some s' → Follow s (.go t c) s'
  | die {t j : Nat} {c : Choice} {s' : MC.State} : MC.step s (.die t) = some s' → Follow s (.die t c j) s'
  | goDie {t j : Nat} {c c' : Choice} {s1 s' : MC.State}  :
      MC.step s (.go t c') = some s1 → MC.step s1 (.die t) = some s' →
      (∀ m ∈ s.mem.mlist, s1.mem.mval m = s.mem.mval m) →
      s1.alive = s.alive → (∀ u, u ≠ t → s1.pc u = s.pc u) → (∀ m k, s1.pc t ≠ .swChk m t k) →
      Follow s (.die t c j) s'

theorem sim_after {cnt : Pool → Nat} {base : Nat → Nat} {T T' : Tab} {x : State} {s s' : MC.State} {x' : Mem}
    (S : Sim cnt base T x s) {t : Nat} (t0 : t ≠ 0) (ta : s.alive t = true) (K : Keep (s.pc t) T x.mem T' x')
    {c : ListMem.Mem} {p' : Pc} (hs : Sound cnt T') (hr : Rep cnt c T') (hd : Data T' x' s'.mem)
    (hq : PcR cnt (base t) T' x' s.alive p' (s'.pc t)) (ha : s'.alive = s.alive) (hu : ∀ u, u ≠ t → s'.pc u = s.pc u)
    (hrec : MC.Recs s') :
    Sim cnt base T' { x with mem := { x' with cells := c }, pc := upd x.pc t p' } s' := by
  refine ⟨hs, hr, data_cells hd c, S.alive.trans ha.symm, fun u ua => ?_, hrec⟩
  rw [ha] at ua
  rw [ha]
  by_cases e : u = t
  · subst e
    show PcR cnt (base u) T' { x' with cells := c } s.alive (upd x.pc u p' u) _
    rw [MC.upd_same]
    exact pcr_cells hq c
  · show PcR cnt (base u) T' { x' with cells := c } s.alive (upd x.pc t p' u) _
    rw [MC.upd_ne _ _ e, hu u e]
    exact pcr_cells (others S t0 ta K (fun _ h => h) e ua) c

theorem sim_die {cnt : Pool → Nat} {base : Nat → Nat} {T : Tab} {x : State} {s : MC.State}
    (S : Sim cnt base T x s) {t : Nat} (ta : s.alive t = true) {s' : MC.State} (h : MC.step s (.die t) = some s')
    {c : ListMem.Mem} (hr : Rep cnt c T) (pc : Nat → Pc) (hpc : ∀ u, u ≠ t → pc u = x.pc u) :
    Sim cnt base T { mem := { x.mem with cells := c }, alive := upd x.alive t false, pc := pc } s' := by
  have hrec := MC.recs_step S.recs h
  simp only [MC.step, ta, Bool.true_eq_false, if_false, Option.some.injEq] at h
  subst h
  refine ⟨S.snd, hr, data_cells S.dat c, by rw [← S.alive], fun u ua => ?_, hrec⟩
  have e : u ≠ t := by rintro rfl; simp at ua
  simp only [MC.upd_ne _ _ e] at ua
  show PcR cnt (base u) T { x.mem with cells := c } (upd s.alive t false) (pc u) (s.pc u)
  rw [hpc u e]
  refine pcr_cells (pcr_alive (fun v hv => ?_) (S.pcs u ua)) c
  simp only [upd]; split <;> simp_all

/-- Every event on the segment is followed on the tables. -/
theorem sim_step {cnt : Pool → Nat} (hw : NoWrap cnt) {fuel : Nat} (hf : Fuel cnt fuel) {base : Nat → Nat} {T : Tab}
    {x x' : State} {s : MC.State} {e : Ev} (S : Sim cnt base T x s) (h : step cnt fuel base x e = some x') :
    ∃ T' s', Follow s e s' ∧ Sim cnt base T' x' s' := by
  have N := S.recs.names
  have hplan : ∀ t c r, x.alive t = true → plan cnt fuel (base t) x.mem x.alive t (x.pc t) c = some r →
      t ≠ 0 ∧ s.alive t = true ∧
      Out cnt (base t) T x.mem s.alive t s.mem (s.pc t) (x.pc t) c r.1 r.2.1 r.2.2 := by
    rintro t c ⟨ws, x1, p1⟩ ta hp
    rw [S.alive] at ta hp
    have hq := S.pcs t ta
    refine ⟨?_, ta, act hw hf S.snd S.rep S.dat N.mnd N.cnd hq (N.at_ t ta) hp⟩
    rintro rfl
    rw [N.base.zero] at hq
    rw [pcr_done hq] at hp
    cases c <;> simp [plan] at hp
  cases e with
  | call t c =>
    simp only [step] at h
    split at h
    · cases h
    · rename_i ht
      simp only [not_or, Bool.not_eq_false] at ht
      split at h
      · rename_i r hr
        cases h
        have ta : s.alive t = true := by rw [← S.alive]; exact ht.2
        have hq := S.pcs t ta
        rw [hr] at hq
        have hq := pcr_of_done hq
        have hst : MC.step s (.call t c) = some { s with pc := upd s.pc t c.start, last := upd s.last t c } := by
          simp only [MC.step]
          rw [if_neg (by simp [ht.1, ta]), hq]
        refine ⟨T, _, .call hst, ?_⟩
        exact sim_after S ht.1 ta (keep_refl _ T x.mem) (c := x.mem.cells) S.snd S.rep S.dat
          (by simpa using pcr_start c) rfl (fun u hu => MC.upd_ne _ _ hu) (MC.recs_step S.recs hst)
      · cases h
  | go t c =>
    simp only [step] at h
    split at h
    · cases h
    · rename_i ht
      simp only [Bool.not_eq_false] at ht
      obtain ⟨r, hr, rfl⟩ := Option.map_eq_some_iff.1 h
      obtain ⟨t0, ta, T', -, h1, h2, h3, -, h5⟩ := hplan t c r ht hr
      rcases h5 with ⟨-, h6, h7⟩ | ⟨c', M', q', -, h6, h7, h8⟩
      · exact ⟨T', s, .stay, sim_after S t0 ta h3 h1 h2 h6 h7 rfl (fun _ _ => rfl) S.recs⟩
      · have hst : MC.step s (.go t c') = some { s with mem := M', pc := upd s.pc t q' } := by
          simp only [MC.step]
          rw [if_neg (by simp [ta]), h6]; rfl
        exact ⟨T', _, .go hst, sim_after S t0 ta h3 h1 h2 h7 (by simpa using h8) rfl
          (fun u hu => MC.upd_ne _ _ hu) (MC.recs_step S.recs hst)⟩
  | die t c j =>
    simp only [step] at h
    split at h
    · cases h
    · rename_i ht
      simp only [Bool.not_eq_false] at ht
      have ta : s.alive t = true := by rw [← S.alive]; exact ht
      have hdie : ∀ s : MC.State, s.alive t = true →
          MC.step s (.die t) = some { s with alive := upd s.alive t false } := by
        intro s ha; simp [MC.step, ha]
      have hT : ∀ ws, Rep cnt (applyWrites x.mem.cells ws) T → ∃ T' s', Follow s (.die t c j) s' ∧
          Sim cnt base T' { x with
            mem := { x.mem with cells := applyWrites x.mem.cells ws }
            alive := upd x.alive t false } s' := fun ws hr =>
        ⟨T, _, .die (hdie s ta), sim_die S ta (hdie s ta) hr _ fun _ _ => rfl⟩
      cases h
      split
      · rename_i r hr
        obtain ⟨t0, -, T', -, h1, h2, h3, h4, h5⟩ := hplan t c r ht hr
        obtain ⟨ws, x1, p1⟩ := r
        rcases h4 j with h4 | ⟨rfl, h4⟩
        · exact hT _ h4
        · rcases h5 with ⟨-, h6, h7⟩ | ⟨c', M', q', -, h6, h7, h8⟩
          · have S1 := sim_after (s' := s) S t0 ta h3 h1 h4 h6 h7 rfl (fun _ _ => rfl) S.recs
            exact ⟨T', _, .die (hdie s ta), sim_die S1 ta (hdie s ta) h4 _ fun u hu => (MC.upd_ne _ _ hu).symm⟩
          · have hst : MC.step s (.go t c') = some { s with mem := M', pc := upd s.pc t q' } := by
              simp only [MC.step]
              rw [if_neg (by simp [ta]), h6]; rfl
            have S1 := sim_after (s' := { s with mem := M', pc := upd s.pc t q' }) (p' := p1) S t0 ta h3 h1 h4 h7 (by simpa using h8) rfl
              (fun u hu => MC.upd_ne _ _ hu) (MC.recs_step S.recs hst)
            refine ⟨T', _, .goDie hst (hdie _ ta) ?_ rfl (fun u hu => MC.upd_ne _ _ hu) ?_,
              sim_die S1 ta (hdie _ ta) h4 _ fun u hu => (MC.upd_ne _ _ hu).symm⟩
            · intro m hm
              rw [S.dat.ml] at hm
              obtain ⟨i, hi, rfl⟩ := List.mem_map.1 hm
              rw [S.dat.mv i hi]
              exact h7.mv i (h3.mtxs.subset hi)
            · intro m k e
              simp only [MC.upd_same] at e
              subst e
              exact chk_ne (N.base.shape t) h6 rfl
      · exact hT _ (by rw [List.take_nil]; exact S.rep)

/-! ### Progress -/

/-- The place is in a call and does not wait for a table lock. -/
def free (x : Mem) (alive : Nat → Bool) : Pc → Prop
  | .done _ => False
  | .acqM _ => x.mL = 0 ∨ alive x.mL = false
  | .acqC _ => x.cL = 0 ∨ alive x.cL = false
  | _ => True

theorem progress {cnt : Pool → Nat} (hw : NoWrap cnt) {fuel : Nat} (hf : Fuel cnt fuel) {b : Nat} {T : Tab} {x : Mem}
    {alive : Nat → Bool} {t : Nat} {M : MC.Mem} {p : Pc} {q : MC.Pc} (hs : Sound cnt T) (hr : Rep cnt x.cells T)
    (hd : Data T x M) (hq : PcR cnt b T x alive p q) :
    (plan cnt fuel b x alive t p .go).isSome = true ↔ free x alive p := by
  cases p
  case done => simp [plan, free]
  case acqM => simp only [plan, plain, free]; split <;> simp_all
  case acqC => simp only [plan, plain, free]; split <;> simp_all
  all_goals simp only [free, iff_true]
  case mFind n kd | uFind n | wM nc n kd =>
    simp only [plan, plain]
    rcases findM_cases hw hf hs hr hd (b := b) n with ⟨e, -⟩ | ⟨m, e, -⟩ <;> rw [e] <;>
      simp only [Option.bind_some] <;> (try rfl)
    try (split <;> rfl)
  case wC nc m kd | sFind nc bc =>
    simp only [plan, plain]
    rcases findC_cases hw hf hs hr hd (b := b) nc with ⟨e, -⟩ | ⟨m, e, -⟩ <;> rw [e] <;>
      simp only [Option.bind_some] <;> (try rfl)
    try (split <;> rfl)
  case mIns m kd =>
    obtain ⟨h1, -⟩ := hq
    obtain ⟨ws, e1, -⟩ := push_ok hw hs hr b (h := .mtxs) (i := m) trivial h1
    simp [plan, e1]
  case wNew c m kd =>
    obtain ⟨h1, -⟩ := hq
    obtain ⟨ws, e1, -⟩ := push_ok hw hs hr b (h := .conds) (i := c) trivial h1
    simp [plan, e1]
  case wIns c w m kd =>
    obtain ⟨hk, -, h1, -⟩ := hq
    obtain ⟨ws, e1, -⟩ := push_ok hw hs hr b (h := .ws c) (i := w) (hs.lt .conds c hk) h1
    simp [plan, e1]
  case wPut w r =>
    obtain ⟨h1, -⟩ := hq
    obtain ⟨ws, e1, -⟩ := push_ok hw hs hr b (h := .wfree) (i := w) trivial h1
    simp [plan, e1]
  case swPut c p a =>
    obtain ⟨pre, w, rest, hk, -, -, rfl, h3, -⟩ := hq
    obtain ⟨ws, e1, -⟩ := push_ok hw hs hr b (h := .wfree) (i := w) trivial h3
    simp only [push, Head.pool] at e1
    simp [plan, e1]
  case wCut c w m r =>
    obtain ⟨hk, hm, -⟩ := hq
    simp only [plan, plain]
    by_cases hin : w ∈ T (.ws c)
    · obtain ⟨ws, e1, -⟩ := cut_ok hw hs hr b hf (h := .ws c) (hs.lt .conds c hk) hin
      rw [show (Head.ws c).pool = .waiter from rfl] at e1
      rw [e1]; rfl
    · have e1 := cut_none hw hs hr b hf (h := .ws c) (hs.lt .conds c hk) hin
      rw [show (Head.ws c).pool = .waiter from rfl] at e1
      rw [e1]; rfl
  case swCut c p a =>
    obtain ⟨pre, w, rest, hk, h1, -, rfl, -⟩ := hq
    obtain ⟨ws, e1, -⟩ := cut_ok hw hs hr b hf (h := .ws c) (hs.lt .conds c hk) (i := w) (by rw [h1]; simp)
    rw [show (Head.ws c).pool = .waiter from rfl] at e1
    simp [plan, e1]
  case wGet => simp only [plan, plain]; split <;> rfl
  case lkSub => simp [plan, plain, failed]
  case lkCas => simp only [plan, plain, failed]; split <;> simp
  all_goals (simp only [plan, plain]; try rfl)
  all_goals (repeat' split) <;> rfl

/-! ### What processes see -/

theorem sees {cnt : Pool → Nat} (hw : NoWrap cnt) {fuel : Nat} (hf : Fuel cnt fuel) (b : Nat) {T : Tab} {x : Mem}
    {M : MC.Mem} (hs : Sound cnt T) (hr : Rep cnt x.cells T) (hd : Data T x M) : Sees cnt fuel b x M := by
  refine ⟨fun n => ?_, ?_, fun n => ?_, ?_, ?_, hd.wt.symm, hd.wu.symm, hd.mL.symm, hd.cL.symm⟩
  · rcases findM_cases hw hf hs hr hd (b := b) n with ⟨e, h⟩ | ⟨m, e, h1, rfl, h2⟩
    · exact .inl ⟨h, e⟩
    · exact .inr ⟨h2, m, e, rfl, (hd.mv m h1).symm, (hd.mc m h1).symm, (hd.md m h1).symm⟩
  · rw [listed_eq hw hs hr b hf (h := .mfree) trivial, hd.mr]
  · rcases findC_cases hw hf hs hr hd (b := b) n with ⟨e, h⟩ | ⟨c, e, h1, rfl, h2⟩
    · exact .inl ⟨h, e⟩
    · exact .inr ⟨h2, c, e, rfl, by rw [listed_eq hw hs hr b hf (h := .ws c) (hs.lt .conds c h1), hd.ws c h1]⟩
  · rw [listed_eq hw hs hr b hf (h := .cfree) trivial, hd.cr]
  · rw [listed_eq hw hs hr b hf (h := .wfree) trivial, hd.wfr]

end Fullock.MCMem
