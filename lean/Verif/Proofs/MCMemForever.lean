import Verif.Spec.MCMemForever
import Verif.Spec.MCForeverDead
import Verif.Proofs.MCMemRun
import Verif.Proofs.MCForeverDead
/-! An execution on the cells that never ends is followed by one on the tables; checks of dead owners and waiters end and
miss nobody. -/
namespace Fullock.MCMem
open Fullock.ListMem hiding upd
open Fullock.Layout
open Fullock.FLMem (adr idx member adr_inj' idx_adr)
open Fullock.Props (NoWrap)
open Fullock.MC (Kind LK UK Choice EPERM EBUSY EINVAL ENOLCK ETIMEDOUT upd)

/-- How an event on the cells is followed by at most two on the tables. -/
inductive Two (cnt : Pool → Nat) (base : Nat → Nat) (x : State) (T : Tab) (s : MC.State) :
    Ev → Tab → MC.State → MC.State → Option MC.Ev → Option MC.Ev → Prop
  | call {t : Nat} {c : MC.Call} {s' : MC.State} : MC.step s (.call t c) = some s' →
      Two cnt base x T s (.call t c) T s' s' (some (.call t c)) none
  | stay {t : Nat} {c : Choice} {T' : Tab} : Stays (x.pc t) → Tabs cnt (base t) T (x.pc t) T' →
      Two cnt base x T s (.go t c) T' s s none none
  | go {t : Nat} {c c' : Choice} {T' : Tab} {s' : MC.State} : MC.step s (.go t c') = some s' →
      Like cnt (base t) x.mem (x.pc t) c c' → Tabs cnt (base t) T (x.pc t) T' →
      Two cnt base x T s (.go t c) T' s' s' (some (.go t c')) none
  | die {t j : Nat} {c : Choice} {T' : Tab} {s' : MC.State} : MC.step s (.die t) = some s' →
      Two cnt base x T s (.die t c j) T' s s' none (some (.die t))
  | goDie {t j : Nat} {c c' : Choice} {T' : Tab} {s1 s' : MC.State} :
      MC.step s (.go t c') = some s1 → MC.step s1 (.die t) = some s' →
      (∀ m ∈ s.mem.mlist, s1.mem.mval m = s.mem.mval m) → (∀ m k, s1.pc t ≠ .swChk m t k) →
      Like cnt (base t) x.mem (x.pc t) c c' → c ≠ .spur →
      Two cnt base x T s (.die t c j) T' s1 s' (some (.go t c')) (some (.die t))

/-- The thread that does it. -/
def actor : Ev → Nat
  | .call t _ => t
  | .go t _ => t
  | .die t _ _ => t

/-- A step that takes a dead thread for alive writes nothing. -/
theorem spur_plain {cnt : Pool → Nat} {fuel b : Nat} {x : Mem} {alive : Nat → Bool} {t : Nat} {p : Pc}
    {r : List Write × Mem × Pc} (h : plan cnt fuel b x alive t p .spur = some r) : r.1 = [] := by
  cases p <;> simp only [plan, plain, failed, Option.bind_none, reduceCtorEq, Option.some.injEq, ite_self, if_false] at h
  case swChk => rw [← h]
  case swW =>
    split at h
    · cases h
    · cases h; rfl

theorem two_step {cnt : Pool → Nat} (hw : NoWrap cnt) {fuel : Nat} (hf : Fuel cnt fuel) {base : Nat → Nat} {T : Tab}
    {x x' : State} {s : MC.State} {e : Ev} (S : Sim cnt base T x s) (h : step cnt fuel base x e = some x') :
    ∃ T' s1 s' e1 e2, Two cnt base x T s e T' s1 s' e1 e2 ∧ Sim cnt base T' x' s' ∧
      Keep (s.pc (actor e)) T x.mem T' x'.mem := by
  have N := S.recs.names
  have hplan : ∀ t c r, x.alive t = true → plan cnt fuel (base t) x.mem x.alive t (x.pc t) c = some r →
      t ≠ 0 ∧ s.alive t = true ∧
      Out cnt (base t) T x.mem s.alive t s.mem (s.pc t) (x.pc t) c r.1 r.2.1 r.2.2 := by
    rintro t c ⟨ws, x1, p1⟩ ta hp
    rw [S.alive] at ta hp
    have hq := S.pcs t ta
    refine ⟨?_, ta, act hw hf S.snd S.rep S.dat N.mnd N.cnd hq (N.at_ t ta) hp⟩
    rintro rfl
    rw [N.base.zero] at hq
    rw [pcr_done hq] at hp
    cases c <;> simp [plan] at hp
  cases e with
  | call t c =>
    simp only [step] at h
    split at h
    · cases h
    · rename_i ht
      simp only [not_or, Bool.not_eq_false] at ht
      split at h
      · rename_i r hr
        cases h
        have ta : s.alive t = true := by rw [← S.alive]; exact ht.2
        have hq := S.pcs t ta
        rw [hr] at hq
        have hq := pcr_of_done hq
        have hst : MC.step s (.call t c) = some { s with pc := upd s.pc t c.start, last := upd s.last t c } := by
          simp only [MC.step]
          rw [if_neg (by simp [ht.1, ta]), hq]
        refine ⟨T, _, _, _, _, .call hst, ?_, keep_refl _ _ _⟩
        exact sim_after S ht.1 ta (keep_refl _ T x.mem) (c := x.mem.cells) S.snd S.rep S.dat
          (by simpa using pcr_start c) rfl (fun u hu => MC.upd_ne _ _ hu) (MC.recs_step S.recs hst)
      · cases h
  | go t c =>
    simp only [step] at h
    split at h
    · cases h
    · rename_i ht
      simp only [Bool.not_eq_false] at ht
      obtain ⟨r, hr, rfl⟩ := Option.map_eq_some_iff.1 h
      obtain ⟨t0, ta, T', h0, h1, h2, h3, -, h5⟩ := hplan t c r ht hr
      rcases h5 with ⟨hst, h6, h7⟩ | ⟨c', M', q', hl, h6, h7, h8⟩
      · exact ⟨T', _, s, _, _, .stay hst h0, sim_after S t0 ta h3 h1 h2 h6 h7 rfl (fun _ _ => rfl) S.recs, keep_cells h3 _⟩
      · have hst : MC.step s (.go t c') = some { s with mem := M', pc := upd s.pc t q' } := by
          simp only [MC.step]
          rw [if_neg (by simp [ta]), h6]; rfl
        exact ⟨T', _, _, _, _, .go hst hl h0, sim_after S t0 ta h3 h1 h2 h7 (by simpa using h8) rfl
          (fun u hu => MC.upd_ne _ _ hu) (MC.recs_step S.recs hst), keep_cells h3 _⟩
  | die t c j =>
    simp only [step] at h
    split at h
    · cases h
    · rename_i ht
      simp only [Bool.not_eq_false] at ht
      have ta : s.alive t = true := by rw [← S.alive]; exact ht
      have hdie : ∀ s : MC.State, s.alive t = true →
          MC.step s (.die t) = some { s with alive := upd s.alive t false } := by
        intro s ha; simp [MC.step, ha]
      have hT : ∀ ws, Rep cnt (applyWrites x.mem.cells ws) T → ∃ T' s1 s' e1 e2, Two cnt base x T s (.die t c j) T' s1 s' e1 e2 ∧
          Sim cnt base T' { x with
            mem := { x.mem with cells := applyWrites x.mem.cells ws }
            alive := upd x.alive t false } s' ∧
          Keep (s.pc t) T x.mem T' { x.mem with cells := applyWrites x.mem.cells ws } := fun ws hr =>
        ⟨T, _, _, _, _, .die (hdie s ta), sim_die S ta (hdie s ta) hr _ fun _ _ => rfl, keep_cells (keep_refl _ _ _) _⟩
      cases h
      split
      · rename_i r hr
        obtain ⟨t0, -, T', h0, h1, h2, h3, h4, h5⟩ := hplan t c r ht hr
        obtain ⟨ws, x1, p1⟩ := r
        by_cases hTj : Rep cnt (applyWrites x.mem.cells (ws.take j)) T
        · exact hT _ hTj
        rcases h4 j with h4 | ⟨rfl, h4⟩
        · exact absurd h4 hTj
        · rcases h5 with ⟨-, h6, h7⟩ | ⟨c', M', q', hl, h6, h7, h8⟩
          · have S1 := sim_after (s' := s) S t0 ta h3 h1 h4 h6 h7 rfl (fun _ _ => rfl) S.recs
            exact ⟨T', _, _, _, _, .die (hdie s ta), sim_die S1 ta (hdie s ta) h4 _ fun u hu => (MC.upd_ne _ _ hu).symm,
              keep_cells h3 _⟩
          · have hst : MC.step s (.go t c') = some { s with mem := M', pc := upd s.pc t q' } := by
              simp only [MC.step]
              rw [if_neg (by simp [ta]), h6]; rfl
            have S1 := sim_after (s' := { s with mem := M', pc := upd s.pc t q' }) (p' := p1) S t0 ta h3 h1 h4 h7 (by simpa using h8) rfl
              (fun u hu => MC.upd_ne _ _ hu) (MC.recs_step S.recs hst)
            refine ⟨T', _, _, _, _, .goDie hst (hdie _ ta) ?_ ?_ hl ?_,
              sim_die S1 ta (hdie _ ta) h4 _ fun u hu => (MC.upd_ne _ _ hu).symm, keep_cells h3 _⟩
            · intro m hm
              rw [S.dat.ml] at hm
              obtain ⟨i, hi, rfl⟩ := List.mem_map.1 hm
              rw [S.dat.mv i hi]
              exact h7.mv i (h3.mtxs.subset hi)
            · intro m k e
              simp only [MC.upd_same] at e
              subst e
              exact chk_ne (N.base.shape t) h6 rfl
            · rintro rfl
              rw [show ws = [] from spur_plain hr, List.take_nil] at hTj
              exact hTj S.rep
      · exact hT _ (by rw [List.take_nil]; exact S.rep)

/-! ### How much of a check is left -/

/-- What is to be done for the conditions `l`. -/
def load (T : Tab) (l : List Nat) : Nat := (l.map fun c => 6 * (T (.ws c)).length + 4).sum

/-- At most `n` steps are left of the check (or of the steps which are none on the tables). -/
def Left (cnt : Pool → Nat) (b : Nat) (T : Tab) : Pc → Nat → Prop
  | .swTop _, n => n = 10 * (T .mtxs).length + 9
  | .swAt a _, n => ∃ rest, rest <:+ T .mtxs ∧ a = hdp cnt b .nmtx rest ∧ n = 10 * rest.length + 8
  | .swChk m _ _, n => ∃ pre rest, T .mtxs = pre ++ m :: rest ∧ n = 10 * rest.length + 14
  | .swCnt m _, n => ∃ pre rest, T .mtxs = pre ++ m :: rest ∧ n = 10 * rest.length + 13
  | .swCntC m _ _, n => ∃ pre rest, T .mtxs = pre ++ m :: rest ∧ n = 10 * rest.length + 12
  | .swVal m _, n => ∃ pre rest, T .mtxs = pre ++ m :: rest ∧ n = 10 * rest.length + 11
  | .swValC m _ _, n => ∃ pre rest, T .mtxs = pre ++ m :: rest ∧ n = 10 * rest.length + 10
  | .swC, n => n = load T (T .conds) + 2
  | .swCond a, n => ∃ rest, rest <:+ T .conds ∧ a = hdp cnt b .ncond rest ∧ n = load T rest + 1
  | .swW c parent cur, n => ∃ lc rc pre rest, T .conds = lc ++ c :: rc ∧ T (.ws c) = pre ++ rest ∧ Par cnt b pre parent ∧
      cur = hdp cnt b .waiter rest ∧ n = load T rc + 6 * rest.length + 3
  | .swCut c parent cur, n => ∃ lc rc pre w rest, T .conds = lc ++ c :: rc ∧ T (.ws c) = pre ++ w :: rest ∧
      Par cnt b pre parent ∧ cur = ptr cnt b .waiter w ∧ n = load T rc + 6 * rest.length + 8
  | .swPut c parent _, n => ∃ lc rc pre rest, T .conds = lc ++ c :: rc ∧ T (.ws c) = pre ++ rest ∧ Par cnt b pre parent ∧
      n = load T rc + 6 * rest.length + 7
  | .swNx c parent, n => ∃ lc rc pre rest, T .conds = lc ++ c :: rc ∧ T (.ws c) = pre ++ rest ∧ Par cnt b pre parent ∧
      n = load T rc + 6 * rest.length + 5
  | .mIni _ _ _, n => n = 1
  | .wNewI _ _ _ _, n => n = 1
  | .wMtx _ _ _, n => n = 1
  | _, n => n = 0

theorem left_of {cnt : Pool → Nat} {b : Nat} {T : Tab} {x : Mem} {alive : Nat → Bool} {p : Pc} {q : MC.Pc}
    (h : PcR cnt b T x alive p q) : ∃ n, Left cnt b T p n := by
  cases p <;> simp only [Left, exists_eq] <;> simp only [PcR] at h
  case swAt => obtain ⟨rest, h1, h2, -⟩ := h; exact ⟨_, rest, h1, h2, rfl⟩
  case swChk | swCnt | swCntC | swVal | swValC =>
    obtain ⟨pre, rest, e⟩ := List.append_of_mem h.1; exact ⟨_, pre, rest, e, rfl⟩
  case swCond => obtain ⟨rest, h1, h2, -⟩ := h; exact ⟨_, rest, h1, h2, rfl⟩
  case swW =>
    obtain ⟨pre, rest, h1, h2, h3, h4, -⟩ := h
    obtain ⟨lc, rc, e⟩ := List.append_of_mem h1
    exact ⟨_, lc, rc, pre, rest, e, h2, h3, h4, rfl⟩
  case swCut =>
    obtain ⟨pre, w, rest, h1, h2, h3, h4, -⟩ := h
    obtain ⟨lc, rc, e⟩ := List.append_of_mem h1
    exact ⟨_, lc, rc, pre, w, rest, e, h2, h3, h4, rfl⟩
  case swPut =>
    obtain ⟨pre, w, rest, h1, h2, h3, -⟩ := h
    obtain ⟨lc, rc, e⟩ := List.append_of_mem h1
    exact ⟨_, lc, rc, pre, rest, e, h2, h3, rfl⟩
  case swNx =>
    obtain ⟨pre, rest, h1, h2, h3, -⟩ := h
    obtain ⟨lc, rc, e⟩ := List.append_of_mem h1
    exact ⟨_, lc, rc, pre, rest, e, h2, h3, rfl⟩

theorem load_congr {T T' : Tab} {l : List Nat} (h : ∀ c ∈ l, T' (.ws c) = T (.ws c)) : load T' l = load T l := by
  unfold load
  congr 1
  exact List.map_congr_left fun c hc => by rw [h c hc]

/-- Other threads leave it as it is. -/
theorem left_keepM {cnt : Pool → Nat} {b : Nat} {T T' : Tab} {p : Pc} {q : MC.Pc} {x : Mem} {alive : Nat → Bool} {n : Nat}
    (hq : PcR cnt b T x alive p q)
    (hM : MC.inM q = true → T' .mtxs = T .mtxs)
    (hC : MC.inC q = true → T' .conds = T .conds ∧ ∀ c, T' (.ws c) = T (.ws c))
    (h : Left cnt b T p n) : Left cnt b T' p n := by
  have hl : MC.inC q = true → ∀ l, load T' l = load T l := fun e l => load_congr fun c _ => (hC e).2 c
  cases p <;> simp only [PcR] at hq
  case swTop => obtain ⟨-, rfl⟩ := hq; simpa only [Left, hM rfl] using h
  case swAt => obtain ⟨_, _, _, _, rfl⟩ := hq; simpa only [Left, hM rfl] using h
  case swChk | swCnt | swCntC | swVal | swValC => obtain ⟨_, _, rfl⟩ := hq; simpa only [Left, hM rfl] using h
  case swC => subst hq; simpa only [Left, hC rfl, hl rfl] using h
  case swCond => obtain ⟨_, _, _, rfl⟩ := hq; simpa only [Left, hC rfl, hl rfl] using h
  case swW => obtain ⟨_, _, _, _, _, _, rfl⟩ := hq; simpa only [Left, hC rfl, hl rfl] using h
  case swCut => obtain ⟨_, _, _, _, _, _, _, _, rfl⟩ := hq; simpa only [Left, hC rfl, hl rfl] using h
  case swPut => obtain ⟨_, _, _, _, _, _, _, _, rfl⟩ := hq; simpa only [Left, hC rfl, hl rfl] using h
  case swNx => obtain ⟨_, _, _, _, _, rfl⟩ := hq; simpa only [Left, hC rfl, hl rfl] using h
  all_goals exact h

theorem chk_iff {cnt : Pool → Nat} {b : Nat} {T : Tab} {x : Mem} {alive : Nat → Bool} {p : Pc} {q : MC.Pc}
    (h : PcR cnt b T x alive p q) : MC.checking q = checking p := by
  cases p <;> simp only [PcR] at h <;> grind [checking, MC.checking]

section own
variable {cnt : Pool → Nat} (hw : NoWrap cnt) {fuel : Nat} (hf : Fuel cnt fuel) {b : Nat} {T T' : Tab} {x : Mem}
  {alive : Nat → Bool} {t : Nat} {M : MC.Mem} {q : MC.Pc} (hs : Sound cnt T) (hr : Rep cnt x.cells T)
  (hd : Data T x M)
include hw hf hs hr hd

/-- A check of dead owners comes closer to its end with each step. -/
theorem left_M {p : Pc} {k : Option (Nat × Kind × LK)} {c : Choice} {ws : List Write} {x' : Mem} {p' : Pc} {n : Nat}
    (hp : p = .swTop k ∨ (∃ a, p = .swAt a k) ∨ (∃ m v, p = .swChk m v k) ∨ (∃ m, p = .swCnt m k) ∨
      (∃ m o, p = .swCntC m o k) ∨ (∃ m, p = .swVal m k) ∨ ∃ m v, p = .swValC m v k)
    (hq : PcR cnt b T x alive p q) (hat : MC.At M alive t q)
    (h : plan cnt fuel b x alive t p c = some (ws, x', p')) (hl : Left cnt b T p n) :
    checking p' = false ∨ ∃ n', n' < n ∧ Left cnt b T p' n' := by
  have hnext : ∀ {m : Nat} {pre rest : List Nat}, T .mtxs = pre ++ m :: rest →
      Left cnt b T (.swAt (nextOf b x (ptr cnt b .nmtx m)) k) (10 * rest.length + 8) := by
    intro m pre rest e
    exact ⟨rest, ⟨pre ++ [m], by rw [e]; simp⟩, next_eq hw hr b (h := .mtxs) trivial e, rfl⟩
  rcases hp with rfl | ⟨a, rfl⟩ | ⟨m, v, rfl⟩ | ⟨m, rfl⟩ | ⟨m, o, rfl⟩ | ⟨m, rfl⟩ | ⟨m, v, rfl⟩
  · cases c <;> simp only [plan, plain, reduceCtorEq, Option.some.injEq, Prod.mk.injEq] at h
    obtain ⟨rfl, rfl, rfl⟩ := h
    simp only [Left] at hl
    subst hl
    exact .inr ⟨10 * (T .mtxs).length + 8, by omega, T .mtxs, List.suffix_refl _, top_eq hw hs hr b (h := .mtxs) trivial, rfl⟩
  · obtain ⟨rest, ⟨pre, e0⟩, rfl, rfl⟩ := hl
    cases c <;> simp only [plan, plain, reduceCtorEq] at h
    split at h
    · simp only [Option.some.injEq, Prod.mk.injEq] at h
      obtain ⟨rfl, rfl, rfl⟩ := h
      exact .inl (by cases k <;> rfl)
    · rename_i hne
      obtain ⟨m, l, rfl, e⟩ := hdp_cons hne
      rw [e, idx_ptr] at h
      split at h <;> simp only [Option.some.injEq, Prod.mk.injEq] at h <;> obtain ⟨rfl, rfl, rfl⟩ := h
      · exact .inr ⟨_, by simp, hnext e0.symm⟩
      · exact .inr ⟨10 * l.length + 14, by simp only [List.length_cons]; omega, pre, l, e0.symm, rfl⟩
  · obtain ⟨pre, rest, e, rfl⟩ := hl
    cases c <;> simp only [plan, plain, reduceCtorEq, Option.some.injEq, Prod.mk.injEq] at h
    · obtain ⟨rfl, rfl, rfl⟩ := h
      right
      split
      · exact ⟨_, by omega, hnext e⟩
      · exact ⟨10 * rest.length + 13, by omega, pre, rest, e, rfl⟩
    · obtain ⟨rfl, rfl, rfl⟩ := h
      exact .inr ⟨_, by omega, hnext e⟩
  · obtain ⟨pre, rest, e, rfl⟩ := hl
    cases c <;> simp only [plan, plain, reduceCtorEq, Option.some.injEq, Prod.mk.injEq] at h
    obtain ⟨rfl, rfl, rfl⟩ := h
    exact .inr ⟨10 * rest.length + 12, by omega, pre, rest, e, rfl⟩
  · obtain ⟨pre, rest, e, rfl⟩ := hl
    obtain ⟨h1, h2, rfl⟩ := hq
    have h3 : x.mcnt m = o := by rw [← hd.mc m h1]; exact hat.2.2
    cases c <;> simp only [plan, plain, reduceCtorEq, if_pos h3] at h
    split at h <;> simp only [Option.some.injEq, Prod.mk.injEq] at h <;> obtain ⟨rfl, rfl, rfl⟩ := h <;>
      exact .inr ⟨10 * rest.length + 11, by omega, pre, rest, e, rfl⟩
  · obtain ⟨pre, rest, e, rfl⟩ := hl
    cases c <;> simp only [plan, plain, reduceCtorEq, Option.some.injEq, Prod.mk.injEq] at h
    obtain ⟨rfl, rfl, rfl⟩ := h
    exact .inr ⟨10 * rest.length + 10, by omega, pre, rest, e, rfl⟩
  · obtain ⟨pre, rest, e, rfl⟩ := hl
    obtain ⟨h1, h2, rfl⟩ := hq
    have h3 : x.mval m = v := by rw [← hd.mv m h1]; exact hat.2.2.2
    cases c <;> simp only [plan, plain, reduceCtorEq, if_pos h3] at h
    split at h <;> simp only [Option.some.injEq, Prod.mk.injEq] at h <;> obtain ⟨rfl, rfl, rfl⟩ := h <;>
      exact .inr ⟨_, by omega, hnext e⟩

/-- A check of dead waiters comes closer to its end with each step. -/
theorem left_C {p : Pc} {c : Choice} {ws : List Write} {x' : Mem} {p' : Pc} {n : Nat}
    (hp : p = .swC ∨ (∃ a, p = .swCond a) ∨ (∃ k r a, p = .swW k r a) ∨ (∃ k r a, p = .swCut k r a) ∨
      (∃ k r a, p = .swPut k r a) ∨ ∃ k r, p = .swNx k r)
    (h : plan cnt fuel b x alive t p c = some (ws, x', p')) (ht : Tabs cnt b T p T') (hl : Left cnt b T p n) :
    checking p' = false ∨ ∃ n', n' < n ∧ Left cnt b T' p' n' := by
  rcases hp with rfl | ⟨a, rfl⟩ | ⟨k, r, a, rfl⟩ | ⟨k, r, a, rfl⟩ | ⟨k, r, a, rfl⟩ | ⟨k, r, rfl⟩
  · cases ht
    simp only [Left] at hl
    cases c <;> simp only [plan, plain, reduceCtorEq, Option.some.injEq, Prod.mk.injEq] at h
    obtain ⟨rfl, rfl, rfl⟩ := h
    exact .inr ⟨load T (T .conds) + 1, by omega, T .conds, List.suffix_refl _, top_eq hw hs hr b (h := .conds) trivial, rfl⟩
  · cases ht
    obtain ⟨rest, ⟨pre, e0⟩, rfl, rfl⟩ := hl
    cases c <;> simp only [plan, plain, reduceCtorEq] at h
    split at h
    · simp only [Option.some.injEq, Prod.mk.injEq] at h
      obtain ⟨rfl, rfl, rfl⟩ := h
      exact .inl rfl
    · rename_i hne
      obtain ⟨m, l, rfl, e⟩ := hdp_cons hne
      rw [e, idx_ptr] at h
      simp only [Option.some.injEq, Prod.mk.injEq] at h
      obtain ⟨rfl, rfl, rfl⟩ := h
      have hm : m ∈ T .conds := by rw [← e0]; simp
      exact .inr ⟨load T l + 6 * (T (.ws m)).length + 3, by simp only [load, List.map_cons, List.sum_cons]; omega,
        pre, l, [], T (.ws m), e0.symm, rfl, .inl ⟨rfl, rfl⟩, top_eq hw hs hr b (h := .ws m) (hs.lt .conds m hm), rfl⟩
  · cases ht
    obtain ⟨lc, rc, pre, rest, hc, h1, h2, rfl, rfl⟩ := hl
    have hk : k ∈ T .conds := by rw [hc]; simp
    have hnx : ∀ w l, rest = w :: l → Left cnt b T (.swW k (ptr cnt b .waiter w) (nextOf b x (ptr cnt b .waiter w)))
        (load T rc + 6 * l.length + 3) := by
      rintro w l rfl
      exact ⟨lc, rc, pre ++ [w], l, hc, by rw [h1]; simp, .inr ⟨pre, w, rfl, rfl⟩,
        next_eq hw hr b (h := .ws k) (hs.lt .conds k hk) h1, rfl⟩
    cases c <;> simp only [plan, plain, reduceCtorEq] at h
    · split at h
      · simp only [Option.some.injEq, Prod.mk.injEq] at h
        obtain ⟨rfl, rfl, rfl⟩ := h
        exact .inr ⟨load T rc + 1, by omega, rc, ⟨lc ++ [k], by rw [hc]; simp⟩, next_eq hw hr b (h := .conds) trivial hc, rfl⟩
      · rename_i h0
        obtain ⟨w, l, rfl, e⟩ := hdp_cons h0
        rw [e, idx_ptr] at h
        split at h <;> simp only [Option.some.injEq, Prod.mk.injEq] at h <;> obtain ⟨rfl, rfl, rfl⟩ := h
        · exact .inr ⟨_, by simp only [List.length_cons]; omega, hnx w l rfl⟩
        · exact .inr ⟨load T rc + 6 * l.length + 8, by simp only [List.length_cons]; omega, lc, rc, pre, w, l, hc, h1, h2, rfl, rfl⟩
    · split at h
      · cases h
      · rename_i h0
        obtain ⟨w, l, rfl, e⟩ := hdp_cons h0
        rw [e] at h
        simp only [Option.some.injEq, Prod.mk.injEq] at h
        obtain ⟨rfl, rfl, rfl⟩ := h
        exact .inr ⟨_, by simp only [List.length_cons]; omega, hnx w l rfl⟩
  · obtain ⟨lc, rc, pre, w, rest, hc, h1, h2, rfl, rfl⟩ := hl
    simp only [Tabs, idx_ptr] at ht
    have hk : k ∈ T .conds := by rw [hc]; simp
    cases c <;> simp only [plan, plain, reduceCtorEq] at h
    have hin : w ∈ T (.ws k) := by rw [h1]; simp
    obtain ⟨ws', e1, e2, e3⟩ := cut_ok hw hs hr b hf (h := .ws k) (hs.lt .conds k hk) hin
    rw [show (Head.ws k).pool = .waiter from rfl] at e1
    rw [e1] at h
    simp only [Option.bind_some, Option.some.injEq, Prod.mk.injEq] at h
    obtain ⟨rfl, rfl, rfl⟩ := h
    have he : (T (.ws k)).erase w = pre ++ rest := by
      have hnd := hs.nodup (.ws k)
      rw [h1] at hnd ⊢
      have : w ∉ pre := fun hm => (List.nodup_append.1 hnd).2.2 w hm w (by simp) rfl
      rw [List.erase_append_right _ this]; simp
    have hload : load T' rc = load T rc := by
      refine load_congr fun c hcm => ?_
      subst ht
      refine set_ne _ _ ?_
      rintro e
      cases e
      have hnd := hs.nodup .conds
      rw [hc] at hnd
      exact (List.nodup_cons.1 (List.nodup_append.1 hnd).2.1).1 hcm
    refine .inr ⟨load T' rc + 6 * rest.length + 7, by omega, lc, rc, pre, rest, ?_, ?_, h2, rfl⟩
    · subst ht; rw [set_ne _ _ (by simp)]; exact hc
    · subst ht; rw [set_at]; exact he
  · obtain ⟨lc, rc, pre, rest, hc, h1, h2, rfl⟩ := hl
    cases c <;> simp only [plan, plain, reduceCtorEq, Option.map_eq_some_iff, Prod.mk.injEq] at h
    obtain ⟨ws', hpush, rfl, rfl, rfl⟩ := h
    simp only [Tabs] at ht
    have hload : load T' rc = load T rc := load_congr fun c _ => by subst ht; exact set_ne _ _ (by simp)
    refine .inr ⟨load T' rc + 6 * rest.length + 5, by omega, lc, rc, pre, rest, ?_, ?_, h2, rfl⟩
    · subst ht; rw [set_ne _ _ (by simp)]; exact hc
    · subst ht; rw [set_ne _ _ (by simp)]; exact h1
  · cases ht
    obtain ⟨lc, rc, pre, rest, hc, h1, h2, rfl⟩ := hl
    have hk : k ∈ T .conds := by rw [hc]; simp
    cases c <;> simp only [plan, plain, reduceCtorEq, Option.some.injEq, Prod.mk.injEq] at h
    obtain ⟨rfl, rfl, rfl⟩ := h
    refine .inr ⟨load T rc + 6 * rest.length + 3, by omega, lc, rc, pre, rest, hc, h1, h2, ?_, rfl⟩
    rcases h2 with ⟨rfl, rfl⟩ | ⟨pre', w, rfl, rfl⟩
    · rw [if_neg (by simp), top_eq hw hs hr b (h := .ws k) (hs.lt .conds k hk), h1]; rfl
    · rw [if_pos (show ptr cnt b .waiter w ≠ 0 from ptr_ne hw hs hr b (h := .ws k) w)]
      exact next_eq hw hr b (h := .ws k) (hs.lt .conds k hk) (pre := pre') (by rw [h1]; simp)

/-- A step of a check, or a step that is none on the tables, leaves less to do. -/
theorem left_go {p : Pc} {c : Choice} {ws : List Write} {x' : Mem} {p' : Pc} {n : Nat}
    (hq : PcR cnt b T x alive p q) (hat : MC.At M alive t q)
    (h : plan cnt fuel b x alive t p c = some (ws, x', p')) (ht : Tabs cnt b T p T') (hl : Left cnt b T p n) :
    (checking p = true → checking p' = false ∨ ∃ n', n' < n ∧ Left cnt b T' p' n') ∧
    (checking p = false → Stays p → ∃ n', n' < n ∧ Left cnt b T' p' n') := by
  cases p <;> simp only [checking, Stays, Bool.true_eq_false, Bool.false_eq_true, false_implies, imp_false, not_true, not_false_eq_true,
    implies_true, and_true, true_and, true_implies]
  case mIni | wNewI =>
    simp only [Left] at hl
    subst hl
    cases c <;> simp only [plan, plain, reduceCtorEq, Option.some.injEq, Prod.mk.injEq] at h
    obtain ⟨rfl, rfl, rfl⟩ := h
    exact ⟨0, by omega, rfl⟩
  case wMtx =>
    simp only [Left] at hl
    subst hl
    cases c <;> simp only [plan, plain, reduceCtorEq] at h
    split at h <;> simp only [Option.some.injEq, Prod.mk.injEq] at h <;> obtain ⟨rfl, rfl, rfl⟩ := h <;>
      exact ⟨0, by omega, rfl⟩
  case swTop k | swAt _ k | swChk _ _ k | swCnt _ k | swCntC _ _ k | swVal _ k | swValC _ _ k =>
    have ht : T' = T := ht
    subst ht
    exact left_M hw hf hs hr hd (k := k) (by simp) hq hat h hl
  case swC | swCond | swW | swCut | swPut | swNx => exact left_C hw hf hs hr hd (by simp) h ht hl

end own

end Fullock.MCMem
