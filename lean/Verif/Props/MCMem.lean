import Verif.Proofs.MCMemRun
import Verif.Props.Init
import Verif.Props.Mutex
/-!
C71: the named mutexes and conditions in the segment, as cells and references.
-/
namespace Fullock.Props
open Fullock Fullock.Layout Fullock.MCMem
open Fullock.ListMem (Write applyWrites WF)
open Fullock.MC (upd)
open Fullock.FLMem (adr)

/-! ### The fresh segment -/

/-- The tables of a fresh segment. -/
def tab0 (cnt : Pool → Nat) : Tab
  | .mfree => List.range (cnt .nmtx)
  | .cfree => List.range (cnt .ncond)
  | .wfree => List.range (cnt .waiter)
  | _ => []

/-- What the free records hold, for the model on tables. -/
def junkOf (junk : MCMem.Mem) (J : MC.Mem) : MC.Mem := { J with wtid := junk.wtid, wup := junk.wup }

theorem mc_init {cnt : Pool → Nat} (hl : Limits cnt) {f f' : File} {os : List Sys} {b : Nat} {m : ListMem.Mem}
    (base : Nat → Nat) (junk : MCMem.Mem) (J : MC.Mem) (h : initializeShmFile cnt f true os (some b) = some (.ok f' m)) :
    Sim cnt base (tab0 cnt) (MCMem.init m junk)
      (MC.init (cnt .nmtx) (cnt .ncond) (cnt .waiter) (junkOf junk J)) := by
  obtain ⟨hw, hpos⟩ := noWrap_of_limits cnt hl
  obtain ⟨-, -, -, -, ⟨L, hwf, hL1, hL2⟩, hz⟩ := C40_memory_partial cnt f f' os b m hl h
  have hfree : ∀ p, ListMem.Chain m (m (freeCell p)) ((List.range (cnt p)).map (adr cnt p)) := by
    intro p
    have := hwf.chain (freeCell p) (by cases p <;> decide)
    rw [hL2 p] at this
    exact this
  have hhead : ∀ c, c = headCell 6 ∨ c = headCell 8 → ListMem.Chain m (m c) [] := by
    intro c hc
    have := hwf.chain c (by rcases hc with rfl | rfl <;> decide)
    rw [hL1 c (by rcases hc with rfl | rfl <;> decide)] at this
    exact this
  refine ⟨⟨?_, ?_, ?_⟩, ?_, ⟨rfl, ?_, rfl, ?_, rfl, ?_, ?_, ?_, ?_, ?_, ?_, rfl, rfl, rfl, rfl⟩, rfl, fun t _ => rfl,
    MC.recs_init _ _ _ _⟩
  · intro h; cases h <;> simp [tab0, List.nodup_range]
  · intro h; cases h <;> simp [tab0, Head.pool]
  · intro h h' hp hne i hi
    cases h <;> cases h' <;> simp_all [tab0, Head.pool]
  · intro hd hb
    cases hd with
    | mtxs => exact hhead _ (.inl rfl)
    | conds => exact hhead _ (.inr rfl)
    | mfree => exact hfree .nmtx
    | cfree => exact hfree .ncond
    | wfree => exact hfree .waiter
    | ws c =>
      have hi : c < cnt .ncond := hb
      obtain ⟨o1, o2, o3, o4, o5, o6, o7, o8, o9⟩ := offs cnt hw
      obtain ⟨r1, r2, r3, r4, r5, r6, r7⟩ := recSize_values
      have ht := C40_areas_partial cnt hw
      have hc := (MCMem.cell_eq cnt hw).2.2.2.2.2 c
      show m (MCMem.cell cnt (.ws c)) = 0
      refine hz _ ?_ ?_ ?_
      · rw [hc, r7]; omega
      · rw [hc]
        simp only [r1, r2, r3, r4, r5, r6, r7] at ht
        omega
      · intro p j hj
        rw [hc]
        have := hpos p
        cases p <;> simp only [r1, r2, r3, r4, r5, r6] <;> omega
  all_goals simp [tab0, MC.init]

/-! ### Runs -/

/-- Every run on the segment is followed on the tables, with the same calls and deaths. -/
theorem mc_run {cnt : Pool → Nat} (hw : NoWrap cnt) {fuel : Nat} (hf : MCMem.Fuel cnt fuel) {base : Nat → Nat} :
    ∀ {es : List MCMem.Ev} {x x' : MCMem.State} {s : MC.State} {T : Tab}, Sim cnt base T x s →
    MCMem.run cnt fuel base x es = some x' →
    ∃ es' T' s', MC.run s es' = some s' ∧ es'.filterMap visMC = es.filterMap MCMem.Ev.vis ∧ Sim cnt base T' x' s'
  | [], x, x', s, T, S, h => by
    simp only [MCMem.run, Option.some.injEq] at h
    subst h
    exact ⟨[], T, s, rfl, rfl, S⟩
  | e :: es, x, x', s, T, S, h => by
    simp only [MCMem.run] at h
    obtain ⟨x1, h1, h2⟩ := Option.bind_eq_some_iff.1 h
    obtain ⟨T1, s1, hf1, S1⟩ := sim_step hw hf S h1
    obtain ⟨es', T', s', r1, r2, S'⟩ := mc_run hw hf S1 h2
    have v1 : ∀ t c, List.filterMap Ev.vis (.go t c :: es) = es.filterMap Ev.vis := fun t c => rfl
    have w1 : ∀ t c l, List.filterMap visMC (.go t c :: l) = l.filterMap visMC := fun t c l => rfl
    cases hf1 with
    | @call t c _ hs =>
      exact ⟨.call t c :: es', T', s', by simp [MC.run, hs, r1], by simp [visMC, Ev.vis, r2], S'⟩
    | stay => exact ⟨es', T', s', r1, by rw [v1, r2], S'⟩
    | @go t c c' _ hs => exact ⟨.go t c' :: es', T', s', by simp [MC.run, hs, r1], by rw [v1, w1, r2], S'⟩
    | @die t j c _ hs =>
      exact ⟨.die t :: es', T', s', by simp [MC.run, hs, r1], by simp [visMC, Ev.vis, r2], S'⟩
    | @goDie t j c c' _ _ hg hs =>
      exact ⟨.go t c' :: .die t :: es', T', s', by simp [MC.run, hg, hs, r1], by rw [w1]; simp [visMC, Ev.vis, r2], S'⟩

/-- If the events allowed on the cells correspond to events allowed on the tables, every reachable state of
the segment corresponds to a reachable state of the tables. -/
theorem mc_reach {cnt : Pool → Nat} (hl : Limits cnt) {fuel : Nat} (hf : MCMem.Fuel cnt fuel) {base : Nat → Nat}
    {A : MCMem.State → MCMem.Ev → Prop} {A' : MC.State → MC.Ev → Prop}
    (hcall : ∀ x s t c, A x (.call t c) → A' s (.call t c)) (hgo : ∀ s t c, A' s (.go t c))
    (hdie : ∀ x s s1 T t c j, Sim cnt base T x s → A x (.die t c j) →
      (∀ m ∈ s.mem.mlist, s1.mem.mval m = s.mem.mval m) → s1.alive = s.alive →
      (∀ u, u ≠ t → s1.pc u = s.pc u) → (s1.pc t = s.pc t ∨ ∀ m k, s1.pc t ≠ .swChk m t k) → A' s1 (.die t))
    {x : MCMem.State} (hr : MCMem.Reach cnt fuel base A x) : ∃ T s, MC.Reach A' s ∧ Sim cnt base T x s := by
  obtain ⟨hw, -⟩ := noWrap_of_limits cnt hl
  induction hr with
  | init junk h =>
    exact ⟨_, _, MC.Reach.init _ _ _ _, mc_init hl base junk
      ⟨fun _ => 0, fun _ => 0, [], 0, 0, [], 0, 0, fun _ => [], [], fun _ => 0, fun _ => false, fun _ _ => 0, fun _ => 0, 0⟩ h⟩
  | step _ ha hs ih =>
    obtain ⟨T, s, h1, S⟩ := ih
    obtain ⟨T', s', hf1, S'⟩ := sim_step hw hf S hs
    refine ⟨T', s', ?_, S'⟩
    cases hf1 with
    | call hs => exact .step h1 (hcall _ _ _ _ ha) hs
    | stay => exact h1
    | go hs => exact .step h1 (hgo _ _ _) hs
    | die hs => exact .step h1 (hdie _ s s T _ _ _ S ha (fun _ _ => rfl) rfl (fun _ _ => rfl) (.inl rfl)) hs
    | goDie hg hs e1 e2 e3 e4 =>
      exact .step (.step h1 (hgo _ _ _) hg) (hdie _ s _ T _ _ _ S ha e1 e2 e3 (.inr e4)) hs

/-! ### C71 -/

/-- C71: in every reachable state, with deaths after any single write to a reference, the references of the
tables of mutexes, conditions, waiters and free records form separate finite lists of existing records. -/
theorem C71_intact (cnt : Pool → Nat) (hl : Limits cnt) (fuel : Nat) (hf : MCMem.Fuel cnt fuel) (base : Nat → Nat)
    (x : MCMem.State) (hr : MCMem.Reach cnt fuel base (fun _ _ => True) x) : MCMem.Intact cnt x.mem.cells := by
  obtain ⟨T, s, -, S⟩ := mc_reach hl hf (A' := MC.anyEv) (fun _ _ _ _ _ => trivial) (fun _ _ _ => trivial)
    (fun _ _ _ _ _ _ _ _ _ _ _ _ _ => trivial) hr
  exact ⟨T, S.snd, S.rep⟩

/-- C71: every run on the segment is a run of the model on tables with the same calls and deaths in the
same order: afterwards every process, wherever it maps the segment, sees the tables of the model, and the
calls of live threads have returned exactly if they have in the model, with the same results. -/
theorem C71_refines (cnt : Pool → Nat) (hl : Limits cnt) (fuel : Nat) (hf : MCMem.Fuel cnt fuel) (base : Nat → Nat)
    (f f' : File) (os : List Sys) (b0 : Nat) (m : ListMem.Mem) (junk : MCMem.Mem) (J : MC.Mem)
    (hi : initializeShmFile cnt f true os (some b0) = some (.ok f' m)) (es : List MCMem.Ev) (x : MCMem.State)
    (hx : MCMem.run cnt fuel base (MCMem.init m junk) es = some x) :
    ∃ es' s, MC.run (MC.init (cnt .nmtx) (cnt .ncond) (cnt .waiter) (junkOf junk J)) es' = some s ∧
      es'.filterMap visMC = es.filterMap MCMem.Ev.vis ∧ x.alive = s.alive ∧
      (∀ b, Sees cnt fuel b x.mem s.mem) ∧
      ∀ t, x.alive t = true → ∀ r, x.pc t = .done r ↔ s.pc t = .done r := by
  obtain ⟨hw, -⟩ := noWrap_of_limits cnt hl
  obtain ⟨es', T, s, h1, h2, S⟩ := mc_run hw hf (mc_init hl base junk J hi) hx
  refine ⟨es', s, h1, h2, S.alive, fun b => sees hw hf b S.snd S.rep S.dat, fun t ta r => ?_⟩
  have hq := S.pcs t (by rw [← S.alive]; exact ta)
  constructor
  · intro e; rw [e] at hq; exact pcr_of_done hq
  · intro e; rw [e] at hq; exact pcr_done hq

/-- C71, progress: a live thread inside a call can make a step, unless it waits for a table lock held by a
live thread: no loop over the references runs for ever, with as many rounds as there are records plus one. -/
theorem C71_progress (cnt : Pool → Nat) (hl : Limits cnt) (fuel : Nat) (hf : MCMem.Fuel cnt fuel) (base : Nat → Nat)
    (x : MCMem.State) (hr : MCMem.Reach cnt fuel base (fun _ _ => True) x) (t : Nat) :
    (MCMem.step cnt fuel base x (.go t .go)).isSome = true ↔ CanGo x t := by
  obtain ⟨hw, -⟩ := noWrap_of_limits cnt hl
  obtain ⟨T, s, -, S⟩ := mc_reach hl hf (A' := MC.anyEv) (fun _ _ _ _ _ => trivial) (fun _ _ _ => trivial)
    (fun _ _ _ _ _ _ _ _ _ _ _ _ _ => trivial) hr
  simp only [MCMem.step, CanGo]
  cases ha : x.alive t with
  | false => simp
  | true =>
    have hq := S.pcs t (by rw [← S.alive]; exact ha)
    rw [← S.alive] at hq
    have := progress (t := t) hw hf S.snd S.rep S.dat hq
    simp only [Bool.true_eq_false, if_false, Option.isSome_map, true_and]
    rw [this]
    cases x.pc t <;> rfl

/-- Owning a mutex of the segment is owning the mutex in the tables. -/
theorem owns_of {cnt : Pool → Nat} (hw : NoWrap cnt) {fuel : Nat} (hf : MCMem.Fuel cnt fuel) {base : Nat → Nat}
    {T : Tab} {x : MCMem.State} {s : MC.State} (S : Sim cnt base T x s) (b n t : Nat) :
    MCMem.Owns cnt fuel b x n t ↔ MC.Owns s n t := by
  unfold MCMem.Owns MC.Owns
  rw [S.alive]
  refine and_congr_right fun _ => and_congr_right fun _ => ?_
  rcases (sees hw hf b S.snd S.rep S.dat).mtx n with ⟨h1, h2⟩ | ⟨h1, m, h2, -, -, -, h3⟩
  · rw [h2, S.dat.d0 n h1]; simp
  · rw [h2, ← h3]; simp

/-- C18 for the segment: two threads never own a mutex of the same name, whatever process looks and wherever
it maps the segment (partial as `C18_exclusion_partial`: no death in the window of a dead-owner check). -/
theorem C71_exclusion_partial (cnt : Pool → Nat) (hl : Limits cnt) (fuel : Nat) (hf : MCMem.Fuel cnt fuel)
    (base : Nat → Nat) (x : MCMem.State) (hr : MCMem.Reach cnt fuel base MCMem.okDie x) (b b' n t u : Nat)
    (ht : MCMem.Owns cnt fuel b x n t) (hu : MCMem.Owns cnt fuel b' x n u) : t = u := by
  obtain ⟨hw, -⟩ := noWrap_of_limits cnt hl
  obtain ⟨T, s, h1, S⟩ := mc_reach hl hf (A' := MC.okDie) (fun _ _ _ _ _ => trivial) (fun _ _ _ => trivial) (by
    intro x s s1 T v c j S ha e1 e2 e3 e4 u ua m k hk
    rw [e2] at ua
    have key : s.pc u = .swChk m v k → s1.mem.mval m = v := by
      intro hk
      have hq := S.pcs u ua
      rw [hk] at hq
      have : ∃ i k', x.pc u = .swChk i v k' ∧ i ∈ T .mtxs ∧ x.mem.mname i = m := by
        cases hp : x.pc u <;> rw [hp] at hq <;> simp only [PcR, reduceCtorEq, and_false, false_and, exists_false] at hq
        obtain ⟨g1, g2, g3⟩ := hq
        cases g3
        exact ⟨_, _, rfl, g1, rfl⟩
      obtain ⟨i, k', g1, g2, rfl⟩ := this
      rw [e1 _ (mem_name S.dat g2), S.dat.mv i g2]
      exact ha u (by rw [S.alive]; exact ua) i k' g1
    by_cases e : u = v
    · subst e
      rcases e4 with e4 | e4
      · exact key (by rw [← e4]; exact hk)
      · exact absurd hk (e4 m k)
    · exact key (by rw [← e3 u e]; exact hk)) hr
  exact C18_exclusion_partial h1 ((owns_of hw hf S b n t).1 ht) ((owns_of hw hf S b' n u).1 hu)

/-- C18 for the segment, when conditions are not used: whoever dies wherever, even between two writes. -/
theorem C71_exclusion_no_wait (cnt : Pool → Nat) (hl : Limits cnt) (fuel : Nat) (hf : MCMem.Fuel cnt fuel)
    (base : Nat → Nat) (x : MCMem.State) (hr : MCMem.Reach cnt fuel base MCMem.noWait x) (b b' n t u : Nat)
    (ht : MCMem.Owns cnt fuel b x n t) (hu : MCMem.Owns cnt fuel b' x n u) : t = u := by
  obtain ⟨hw, -⟩ := noWrap_of_limits cnt hl
  obtain ⟨T, s, h1, S⟩ := mc_reach hl hf (A' := MC.noWait)
    (fun _ _ _ c h => by cases c <;> first | trivial | exact h) (fun _ _ _ => trivial)
    (fun _ _ _ _ _ _ _ _ _ _ _ _ _ => trivial) hr
  exact C18_no_wait h1 ((owns_of hw hf S b n t).1 ht) ((owns_of hw hf S b' n u).1 hu)

/-! ### Cases meeting the hypotheses -/

def junkM : MCMem.Mem where
  cells := fun _ => 0
  mname := fun _ => 3
  mval := fun _ => 9
  mcnt := fun _ => 2
  cname := fun _ => 3
  wtid := fun _ => 4
  wup := fun _ => true
  wmtx := fun _ => 5
  mL := 1
  cL := 1
  dep := fun _ _ => 8

def seg71 : ListMem.Mem :=
  match initializeShmFile Pool.min File.truncate0 true (List.replicate (total Pool.min) (.ok 4096)) (some 4096) with
  | some (.ok _ m) => m
  | _ => fun _ => 0

theorem seg71_ok : ∃ f', initializeShmFile Pool.min File.truncate0 true
    (List.replicate (total Pool.min) (.ok 4096)) (some 4096) = some (.ok f' seg71) := by
  obtain ⟨f', m, hm⟩ := C40_succeeds Pool.min File.truncate0 4096 (by intro p; cases p <;> decide)
  exact ⟨f', by unfold seg71; rw [hm]⟩

/-- Every process maps the segment elsewhere. -/
def base71 (t : Nat) : Nat := 4096 * (t + 1)

def alone71 (t k : Nat) : List MCMem.Ev := List.replicate k (.go t .go)

/-- Thread 1 locks mutex 7, waits on condition 5 with it; thread 2 locks the mutex and starts waiting on the
condition too, but is killed between the two writes that enter its waiter record. -/
def es71 : List MCMem.Ev :=
  .call 1 (.lock 7 .block) :: alone71 1 8 ++ .call 1 (.wait 5 7 .block) :: alone71 1 18 ++
  .call 2 (.lock 7 .block) :: alone71 2 6 ++ .call 2 (.wait 5 7 .block) :: alone71 2 7 ++ [.die 2 .go 1]

theorem run71 : ∃ x, MCMem.run Pool.min 5 base71 (MCMem.init seg71 junkM) es71 = some x ∧
    x.pc 1 = .wSpin 0 0 0 .block ∧ x.pc 2 = .wIns 0 1 0 .block ∧ x.alive 2 = false ∧ x.alive 1 = true ∧ x.mem.mval 0 = 2 ∧
    listed Pool.min 77 5 x.mem .mtxs = [0] ∧ listed Pool.min 77 5 x.mem (.ws 0) = [0] ∧
    listed Pool.min 77 5 x.mem .wfree = [2, 3] ∧ x.mem.mname 0 = 7 ∧ x.mem.cname 0 = 5 := by
  have e : (MCMem.run Pool.min 5 base71 (MCMem.init seg71 junkM) es71).map (fun x => decide
      (x.pc 1 = .wSpin 0 0 0 .block ∧ x.pc 2 = .wIns 0 1 0 .block ∧ x.alive 2 = false ∧ x.alive 1 = true ∧ x.mem.mval 0 = 2 ∧
      listed Pool.min 77 5 x.mem .mtxs = [0] ∧ listed Pool.min 77 5 x.mem (.ws 0) = [0] ∧
      listed Pool.min 77 5 x.mem .wfree = [2, 3] ∧ x.mem.mname 0 = 7 ∧ x.mem.cname 0 = 5)) = some true := by decide +kernel
  obtain ⟨x, hx, h⟩ := Option.map_eq_some_iff.1 e
  exact ⟨x, hx, of_decide_eq_true h⟩

theorem reach71 {A : MCMem.State → MCMem.Ev → Prop} {cnt : Pool → Nat} {fuel : Nat} {base : Nat → Nat} :
    ∀ {es : List MCMem.Ev} {x x' : MCMem.State}, (∀ e ∈ es, ∀ x, A x e) → MCMem.Reach cnt fuel base A x →
    MCMem.run cnt fuel base x es = some x' → MCMem.Reach cnt fuel base A x'
  | [], x, x', _, hr, h => by cases h; exact hr
  | e :: es, x, x', hA, hr, h => by
    obtain ⟨x1, h1, h2⟩ := Option.bind_eq_some_iff.1 h
    exact reach71 (fun e he => hA e (List.mem_cons_of_mem _ he)) (.step hr (hA e List.mem_cons_self x) h1) h2

/-- The hypotheses of `C71_intact` and `C71_progress` are met after a death in the middle of an insertion. -/
example : ∃ x, MCMem.Reach Pool.min 5 base71 (fun _ _ => True) x ∧ Limits Pool.min ∧ MCMem.Fuel Pool.min 5 ∧
    x.alive 2 = false ∧ x.pc 2 = .wIns 0 1 0 .block ∧ CanGo x 1 := by
  obtain ⟨x, hx, h1, h2, h3, h4, -⟩ := run71
  obtain ⟨f', hf⟩ := seg71_ok
  exact ⟨x, reach71 (fun _ _ _ => trivial) (.init junkM hf) hx, by intro p; cases p <;> decide,
    by simp only [MCMem.Fuel]; decide, h3, h2, h4, by rw [h1]; trivial⟩

/-- The hypotheses of `C71_refines` are met, with two records in two lists and one in none. -/
example : ∃ f' x, initializeShmFile Pool.min File.truncate0 true (List.replicate (total Pool.min) (.ok 4096))
      (some 4096) = some (.ok f' seg71) ∧
    MCMem.run Pool.min 5 base71 (MCMem.init seg71 junkM) es71 = some x ∧
    listed Pool.min 77 5 x.mem (.ws 0) = [0] ∧ listed Pool.min 77 5 x.mem .wfree = [2, 3] := by
  obtain ⟨x, hx, -, -, -, -, -, -, h7, h8, -⟩ := run71
  obtain ⟨f', hf⟩ := seg71_ok
  exact ⟨f', x, hf, hx, h7, h8⟩

/-- The hypotheses of `C71_exclusion_partial` and `C71_exclusion_no_wait` are met: 1 owns mutex 7 while 2
asks for it. -/
example : ∃ x, MCMem.Reach Pool.min 5 base71 MCMem.okDie x ∧ MCMem.Reach Pool.min 5 base71 MCMem.noWait x ∧
    MCMem.Owns Pool.min 5 99 x 7 1 ∧ x.pc 2 = .lkRead 0 .block .api := by
  have e : (MCMem.run Pool.min 5 base71 (MCMem.init seg71 junkM)
      (.call 1 (.lock 7 .block) :: alone71 1 8 ++ .call 2 (.lock 7 .block) :: alone71 2 5)).map (fun x =>
        (x.alive 1, x.pc 2, findM Pool.min 5 99 x.mem 7, x.mem.dep 0 1)) =
      some (true, .lkRead 0 .block .api, some (some 0), 1) := by decide +kernel
  obtain ⟨x, hx, h⟩ := Option.map_eq_some_iff.1 e
  simp only [Prod.mk.injEq] at h
  obtain ⟨h1, h2, h3, h4⟩ := h
  obtain ⟨f', hf⟩ := seg71_ok
  refine ⟨x, reach71 ?_ (.init junkM hf) hx, reach71 ?_ (.init junkM hf) hx,
    ⟨by decide, h1, 0, h3, by omega⟩, h2⟩ <;>
  · intro e he x
    simp only [alone71, List.cons_append, List.mem_cons, List.mem_append, List.mem_replicate] at he
    rcases he with rfl | ⟨-, rfl⟩ | rfl | ⟨-, rfl⟩ <;> trivial

end Fullock.Props
