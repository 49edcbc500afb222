import Verif.Proofs.SegRun
/-!
C72: file locks, mutexes and conditions used at the same time, in one segment.
-/
namespace Fullock.Props
open Fullock Fullock.Spec Fullock.Layout Fullock.Seg
open Fullock.FLMem (adr FLP)
open Fullock.MCMem (visMC Sees Owns CanGo)
open _root_.Fullock.FL (mkOp kX rA RX junk0)

/-! ### Reachable states -/

theorem j_init {cnt : Pool → Nat} (hl : Limits cnt) {f f' : File} {os : List Sys} {b : Nat} {m : ListMem.Mem}
    (base : Nat → Nat) (junkF : FL.Mem) (junkM : MCMem.Mem) (J : MC.Mem)
    (h : initializeShmFile cnt f true os (some b) = some (.ok f' m)) :
    K cnt base (tab0 cnt) (Seg.init m junkF junkM)
      (MC.init (cnt .nmtx) (cnt .ncond) (cnt .waiter) (junkOf junkM J))
      (FL.init (cnt .file) (cnt .off) (cnt .locker) junkF) :=
  ⟨⟨rfl, rfl, typed_init hl h, fun _ => trivial, mc_init hl base junkM J h⟩, sim_init hl junkF h⟩

def noMem : MC.Mem :=
  ⟨fun _ => 0, fun _ => 0, [], 0, 0, [], 0, 0, fun _ => [], [], fun _ => 0, fun _ => false, fun _ _ => 0, fun _ => 0, 0⟩

/-- Reachable states of the segment correspond to reachable states of the tables of mutexes and conditions,
if the events allowed correspond. -/
theorem seg_reach {cnt : Pool → Nat} (hl : Limits cnt) {fuel : Nat} (hf : MCMem.Fuel cnt fuel) {base : Nat → Nat}
    {A : Seg.State → Seg.Ev → Prop} {A' : MC.State → MC.Ev → Prop}
    (hcall : ∀ x s t c, A x (.mc (.call t c)) → A' s (.call t c)) (hgo : ∀ s t c, A' s (.go t c))
    (hdie : ∀ x s s1 T t c j, MCMem.Sim cnt base T x.mc s → A x (.mc (.die t c j)) →
      (∀ m ∈ s.mem.mlist, s1.mem.mval m = s.mem.mval m) → s1.alive = s.alive →
      (∀ u, u ≠ t → s1.pc u = s.pc u) → (s1.pc t = s.pc t ∨ ∀ m k, s1.pc t ≠ .swChk m t k) → A' s1 (.die t))
    (hdieF : ∀ x s T t b c k j, MCMem.Sim cnt base T x.mc s → A x (.fl (.die t b c k j)) → A' s (.die t))
    {x : Seg.State} (hr : Seg.Reach cnt fuel base A x) : ∃ T s, MC.Reach A' s ∧ J cnt base T x s := by
  obtain ⟨hw, -⟩ := noWrap_of_limits cnt hl
  induction hr with
  | init jf jm h => exact ⟨_, _, MC.Reach.init _ _ _ _, (j_init hl base jf jm noMem h).j⟩
  | step _ ha hs ih =>
    obtain ⟨T, s, h1, I⟩ := ih
    obtain ⟨T', s', hf1, I'⟩ := j_step hw hf I hs
    refine ⟨T', s', ?_, I'⟩
    cases hf1 with
    | mc hf1 =>
      cases hf1 with
      | call hs => exact .step h1 (hcall _ _ _ _ ha) hs
      | stay => exact h1
      | go hs => exact .step h1 (hgo _ _ _) hs
      | die hs => exact .step h1 (hdie _ s s T _ _ _ I.sim ha (fun _ _ => rfl) rfl (fun _ _ => rfl) (.inl rfl)) hs
      | goDie hg hs e1 e2 e3 e4 =>
        exact .step (.step h1 (hgo _ _ _) hg) (hdie _ s _ T _ _ _ I.sim ha e1 e2 e3 (.inr e4)) hs
    | die hs => exact .step h1 (hdieF _ s T _ _ _ _ _ I.sim ha) hs
    | call => exact h1
    | go => exact h1

theorem seg_any {cnt : Pool → Nat} (hl : Limits cnt) {fuel : Nat} (hf : MCMem.Fuel cnt fuel) {base : Nat → Nat}
    {x : Seg.State} (hr : Seg.Reach cnt fuel base (fun _ _ => True) x) : ∃ T s, J cnt base T x s := by
  obtain ⟨T, s, -, I⟩ := seg_reach hl hf (A' := MC.anyEv) (fun _ _ _ _ _ => trivial) (fun _ _ _ => trivial)
    (fun _ _ _ _ _ _ _ _ _ _ _ _ _ => trivial) (fun _ _ _ _ _ _ _ _ _ _ => trivial) hr
  exact ⟨T, s, I⟩

theorem seg_mono {cnt : Pool → Nat} {fuel : Nat} {base : Nat → Nat} {A B : Seg.State → Seg.Ev → Prop}
    (h : ∀ s e, A s e → B s e) {x : Seg.State} (hr : Seg.Reach cnt fuel base A x) : Seg.Reach cnt fuel base B x := by
  induction hr with
  | init jf jm h => exact .init jf jm h
  | step _ ha hs ih => exact .step ih (h _ _ ha) hs

theorem fl_pc {cnt : Pool → Nat} {fuel : Nat} {x x' : FLMem.State} {e : FLMem.Ev}
    (h : FLMem.step cnt fuel x e = some x') :
    (∃ t c, e = .call t c ∧ ∀ u, u ≠ t → x'.pc u = x.pc u) ∨
    (∃ t b c, e = .go t b c ∧ (∀ r, x.pc t ≠ .done r) ∧ ∀ u, u ≠ t → x'.pc u = x.pc u) ∨ x'.pc = x.pc := by
  have hset : ∀ (y : FLMem.State) t p u, u ≠ t → (FLMem.setPc y t p).pc u = y.pc u := by
    intro y t p u hu; simp [FLMem.setPc, FL.fset, hu]
  cases e with
  | call t c =>
    simp only [FLMem.step] at h
    split at h
    · cases h
    · split at h
      · cases h; exact .inl ⟨t, c, rfl, fun u hu => hset _ _ _ u hu⟩
      · cases h
  | go t b c =>
    refine .inr (.inl ⟨t, b, c, rfl, ?_⟩)
    simp only [FLMem.step] at h
    split at h
    · cases h
    · split at h
      · rename_i hp
        split at h
        · cases h; exact ⟨by rw [hp]; simp, fun u hu => hset _ _ _ u hu⟩
        · cases h
      · rename_i hp
        cases h; exact ⟨by rw [hp]; simp, fun u hu => hset _ _ _ u hu⟩
      · obtain ⟨y, h1, h2⟩ := Option.bind_eq_some_iff.1 h
        obtain ⟨m', h3, rfl⟩ := Option.map_eq_some_iff.1 h2
        refine ⟨fun r hr => ?_, fun u hu => hset _ _ _ u hu⟩
        rw [hr] at h1
        cases c <;> simp [FL.plan] at h1
  | die t b c k j =>
    simp only [FLMem.step] at h
    split at h
    · cases h
    · obtain ⟨y, h1, rfl⟩ := Option.map_eq_some_iff.1 h
      exact .inr (.inr rfl)

theorem mc_pc {cnt : Pool → Nat} {fuel : Nat} {base : Nat → Nat} {x x' : MCMem.State} {e : MCMem.Ev}
    (h : MCMem.step cnt fuel base x e = some x') :
    (∃ t c, e = .call t c ∧ ∀ u, u ≠ t → x'.pc u = x.pc u) ∨
    (∃ t c, e = .go t c ∧ (∀ r, x.pc t ≠ .done r) ∧ ∀ u, u ≠ t → x'.pc u = x.pc u) ∨ x'.pc = x.pc := by
  cases e with
  | call t c =>
    simp only [MCMem.step] at h
    split at h
    · cases h
    · split at h
      · cases h; exact .inl ⟨t, c, rfl, fun u hu => by simp [MC.upd, hu]⟩
      · cases h
  | go t c =>
    simp only [MCMem.step] at h
    split at h
    · cases h
    · obtain ⟨y, h1, rfl⟩ := Option.map_eq_some_iff.1 h
      refine .inr (.inl ⟨t, c, rfl, fun r hr => ?_, fun u hu => by simp [MC.upd, hu]⟩)
      rw [hr] at h1
      cases c <;> simp [MCMem.plan] at h1
  | die t c j =>
    simp only [MCMem.step] at h
    split at h
    · cases h
    · cases h; exact .inr (.inr rfl)

theorem idle_fl {x : Seg.State} {t : Nat} (h : idleFL x t = true) : ∃ r, x.fl.pc t = .done r := by
  unfold idleFL at h
  split at h
  · rename_i r hr; exact ⟨r, hr⟩
  · cases h

theorem idle_mc {x : Seg.State} {t : Nat} (h : idleMC x t = true) : ∃ r, x.mc.pc t = .done r := by
  unfold idleMC at h
  split at h
  · rename_i r hr; exact ⟨r, hr⟩
  · cases h

/-! ### C72 -/

/-- C72: whoever dies wherever, even in the middle of the bulk return of the ranges of a file, every
reference of the segment is NULL or refers to the beginning of a record of the right kind. -/
theorem C72_typed (cnt : Pool → Nat) (hl : Limits cnt) (fuel : Nat) (hf : MCMem.Fuel cnt fuel) (base : Nat → Nat)
    (x : Seg.State) (hr : Seg.Reach cnt fuel base (fun _ _ => True) x) :
    x.fl.cells = x.mc.mem.cells ∧ x.fl.alive = x.mc.alive ∧ Seg.Typed cnt x.fl.cells := by
  obtain ⟨T, s, I⟩ := seg_any hl hf hr
  exact ⟨I.cells, I.alive, I.typed⟩

/-- C72: a thread is in one call at a time. -/
theorem C72_one_call (cnt : Pool → Nat) (fuel : Nat) (base : Nat → Nat) (x : Seg.State)
    (hr : Seg.Reach cnt fuel base (fun _ _ => True) x) (t : Nat) :
    (∃ r, x.fl.pc t = .done r) ∨ ∃ r, x.mc.pc t = .done r := by
  induction hr with
  | init jf jm h => exact .inl ⟨0, rfl⟩
  | @step x x' e _ _ h ih =>
    rcases Seg.step_cases h with ⟨e, y, rfl, h1, rfl⟩ | ⟨e, y, rfl, h1, rfl, -⟩
    · rcases fl_pc h1 with ⟨u, c, rfl, hn⟩ | ⟨u, b, c, rfl, hb, hn⟩ | hn
      · by_cases hu : t = u
        · subst hu
          simp only [Seg.step] at h
          split at h
          · rename_i hi
            exact .inr (idle_mc hi)
          · cases h
        · rcases ih with ⟨r, hr⟩ | hr
          · exact .inl ⟨r, by rw [← hr]; exact hn t hu⟩
          · exact .inr hr
      · by_cases hu : t = u
        · subst hu
          rcases ih with ⟨r, hr⟩ | hr
          · exact absurd hr (hb r)
          · exact .inr hr
        · rcases ih with ⟨r, hr⟩ | hr
          · exact .inl ⟨r, by rw [← hr]; exact hn t hu⟩
          · exact .inr hr
      · rcases ih with ⟨r, hr⟩ | hr
        · exact .inl ⟨r, by rw [← hr]; exact congrFun hn t⟩
        · exact .inr hr
    · rcases mc_pc h1 with ⟨u, c, rfl, hn⟩ | ⟨u, c, rfl, hb, hn⟩ | hn
      · by_cases hu : t = u
        · subst hu
          simp only [Seg.step] at h
          split at h
          · rename_i hi
            exact .inl (idle_fl hi)
          · cases h
        · rcases ih with hr | ⟨r, hr⟩
          · exact .inl hr
          · exact .inr ⟨r, by rw [← hr]; exact hn t hu⟩
      · by_cases hu : t = u
        · subst hu
          rcases ih with hr | ⟨r, hr⟩
          · exact .inl hr
          · exact absurd hr (hb r)
        · rcases ih with hr | ⟨r, hr⟩
          · exact .inl hr
          · exact .inr ⟨r, by rw [← hr]; exact hn t hu⟩
      · rcases ih with hr | ⟨r, hr⟩
        · exact .inl hr
        · exact .inr ⟨r, by rw [← hr]; exact congrFun hn t⟩

/-- C72: whatever a thread does with the file locks, dying included, it does outside the calls of the mutexes
and conditions and conversely, and every access is made through the address at which its process maps the segment. -/
theorem C72_events (cnt : Pool → Nat) (fuel : Nat) (base : Nat → Nat) (x x' : Seg.State)
    (hr : Seg.Reach cnt fuel base (fun _ _ => True) x) :
    (∀ t c, Seg.step cnt fuel base x (.fl (.call t c)) = some x' → ∃ r, x.mc.pc t = .done r) ∧
    (∀ t b c, Seg.step cnt fuel base x (.fl (.go t b c)) = some x' → (∃ r, x.mc.pc t = .done r) ∧ b = base t) ∧
    (∀ t b c k j, Seg.step cnt fuel base x (.fl (.die t b c k j)) = some x' → (∃ r, x.mc.pc t = .done r) ∧ b = base t) ∧
    (∀ t c, Seg.step cnt fuel base x (.mc (.call t c)) = some x' → ∃ r, x.fl.pc t = .done r) ∧
    (∀ t c, Seg.step cnt fuel base x (.mc (.go t c)) = some x' → ∃ r, x.fl.pc t = .done r) ∧
    ∀ t c j, Seg.step cnt fuel base x (.mc (.die t c j)) = some x' → ∃ r, x.fl.pc t = .done r := by
  have one := C72_one_call cnt fuel base x hr
  refine ⟨?_, ?_, ?_, ?_, ?_, ?_⟩
  · intro t c h
    simp only [Seg.step] at h
    split at h
    · rename_i hi; exact idle_mc hi
    · cases h
  · intro t b c h
    simp only [Seg.step] at h
    split at h
    · rename_i hi
      obtain ⟨y, h1, -⟩ := Option.map_eq_some_iff.1 h
      refine ⟨?_, eq_of_beq hi⟩
      rcases fl_pc h1 with ⟨u, c', e, -⟩ | ⟨u, b', c', e, hb, -⟩ | e
      · cases e
      · cases e
        rcases one t with ⟨r, e⟩ | e
        · exact absurd e (hb r)
        · exact e
      · exact (one t).elim (fun ⟨r, e'⟩ => by
          exfalso
          simp only [FLMem.step] at h1
          rw [e'] at h1
          split at h1
          · cases h1
          · cases c <;> simp [FL.plan] at h1) id
    · cases h
  · intro t b c k j h
    simp only [Seg.step] at h
    split at h
    · rename_i hi
      rw [Bool.and_eq_true] at hi
      exact ⟨idle_mc hi.2, eq_of_beq hi.1⟩
    · cases h
  · intro t c h
    simp only [Seg.step] at h
    split at h
    · rename_i hi; exact idle_fl hi
    · cases h
  · intro t c h
    simp only [Seg.step, if_true] at h
    obtain ⟨y, h1, -⟩ := Option.map_eq_some_iff.1 h
    refine (one t).elim id (fun ⟨r, e'⟩ => ?_)
    exfalso
    simp only [MCMem.step] at h1
    rw [e'] at h1
    split at h1
    · cases h1
    · cases c <;> simp [MCMem.plan] at h1
  · intro t c j h
    simp only [Seg.step] at h
    split at h
    · rename_i hi; exact idle_fl hi
    · cases h

/-- C72: the mutexes and conditions are not affected by the file locks: every run of the segment is a run of
the mutexes and conditions alone, with the same calls of them and all the deaths in the same order. -/
theorem C72_mutexes (cnt : Pool → Nat) (hl : Limits cnt) (fuel : Nat) (hf : MCMem.Fuel cnt fuel) (base : Nat → Nat)
    (f f' : File) (os : List Sys) (b0 : Nat) (m : ListMem.Mem) (junkF : FL.Mem) (junkM : MCMem.Mem) (J : MC.Mem)
    (hi : initializeShmFile cnt f true os (some b0) = some (.ok f' m)) (es : List Seg.Ev) (x : Seg.State)
    (hx : Seg.run cnt fuel base (Seg.init m junkF junkM) es = some x) :
    ∃ es' s, MC.run (MC.init (cnt .nmtx) (cnt .ncond) (cnt .waiter) (junkOf junkM J)) es' = some s ∧
      es'.filterMap visMC = es.filterMap Seg.visM ∧ x.mc.alive = s.alive ∧
      (∀ b, Sees cnt fuel b x.mc.mem s.mem) ∧
      ∀ t, x.mc.alive t = true → ∀ r, x.mc.pc t = .done r ↔ s.pc t = .done r := by
  obtain ⟨hw, -⟩ := noWrap_of_limits cnt hl
  have key : ∀ {es : List Seg.Ev} {x x' : Seg.State} {s : MC.State} {T : MCMem.Tab}, Seg.J cnt base T x s →
      Seg.run cnt fuel base x es = some x' →
      ∃ es' T' s', MC.run s es' = some s' ∧ es'.filterMap visMC = es.filterMap Seg.visM ∧ Seg.J cnt base T' x' s' := by
    intro es
    induction es with
    | nil =>
      intro x x' s T I h
      simp only [Seg.run, Option.some.injEq] at h
      subst h
      exact ⟨[], T, s, rfl, rfl, I⟩
    | cons e es ih =>
      intro x x' s T I h
      simp only [Seg.run] at h
      obtain ⟨x1, h1, h2⟩ := Option.bind_eq_some_iff.1 h
      obtain ⟨T1, s1, hf1, I1⟩ := j_step hw hf I h1
      obtain ⟨es', T', s', r1, r2, I'⟩ := ih I1 h2
      have w1 : ∀ t c l, List.filterMap visMC (.go t c :: l) = l.filterMap visMC := fun t c l => rfl
      cases hf1 with
      | mc hf1 =>
        cases hf1 with
        | @call t c _ hs =>
          exact ⟨.call t c :: es', T', s', by simp [MC.run, hs, r1], by simp [visMC, Seg.visM, MCMem.Ev.vis, r2], I'⟩
        | stay => exact ⟨es', T', s', r1, r2, I'⟩
        | @go t c c' _ hs => exact ⟨.go t c' :: es', T', s', by simp [MC.run, hs, r1], by rw [w1, r2]; rfl, I'⟩
        | @die t j c _ hs =>
          exact ⟨.die t :: es', T', s', by simp [MC.run, hs, r1], by simp [visMC, Seg.visM, MCMem.Ev.vis, r2], I'⟩
        | @goDie t j c c' _ _ hg hs =>
          exact ⟨.go t c' :: .die t :: es', T', s', by simp [MC.run, hg, hs, r1],
            by rw [w1]; simp [visMC, Seg.visM, MCMem.Ev.vis, r2], I'⟩
      | @die t b k j c _ hs =>
        exact ⟨.die t :: es', T', s', by simp [MC.run, hs, r1], by simp [visMC, Seg.visM, r2], I'⟩
      | call => exact ⟨es', T', s', r1, r2, I'⟩
      | go => exact ⟨es', T', s', r1, r2, I'⟩
  obtain ⟨es', T, s, h1, h2, I⟩ := key (j_init hl base junkF junkM J hi).j hx
  have S := I.sim
  refine ⟨es', s, h1, h2, S.alive, fun b => MCMem.sees hw hf b S.snd S.rep S.dat, fun t ta r => ?_⟩
  have hq := S.pcs t (by rw [← S.alive]; exact ta)
  constructor
  · intro e; rw [e] at hq; exact MCMem.pcr_of_done hq
  · intro e; rw [e] at hq; exact MCMem.pcr_done hq

/-- C72, progress: a live thread inside a call of the mutexes and conditions can make a step, unless it waits
for a table lock held by a live thread, whatever the file locks do and whoever died in them. -/
theorem C72_progress (cnt : Pool → Nat) (hl : Limits cnt) (fuel : Nat) (hf : MCMem.Fuel cnt fuel) (base : Nat → Nat)
    (x : Seg.State) (hr : Seg.Reach cnt fuel base (fun _ _ => True) x) (t : Nat) :
    (Seg.step cnt fuel base x (.mc (.go t .go))).isSome = true ↔ CanGo x.mc t := by
  obtain ⟨hw, -⟩ := noWrap_of_limits cnt hl
  obtain ⟨T, s, I⟩ := seg_any hl hf hr
  have S := I.sim
  simp only [Seg.step, if_true, Option.isSome_map, MCMem.step, CanGo]
  cases ha : x.mc.alive t with
  | false => simp
  | true =>
    have hq := S.pcs t (by rw [← S.alive]; exact ha)
    rw [← S.alive] at hq
    have := MCMem.progress (t := t) hw hf S.snd S.rep S.dat hq
    simp only [Bool.true_eq_false, if_false, Option.isSome_map, true_and]
    rw [this]
    cases x.mc.pc t <;> rfl

/-- C72: an event of the file locks changes nothing a process can see of the mutexes and conditions, except
who is alive. -/
theorem C72_files_apart (cnt : Pool → Nat) (hl : Limits cnt) (fuel : Nat) (hf : MCMem.Fuel cnt fuel) (base : Nat → Nat)
    (x x' : Seg.State) (hr : Seg.Reach cnt fuel base (fun _ _ => True) x) (e : FLMem.Ev)
    (h : Seg.step cnt fuel base x (.fl e) = some x') :
    x'.mc.pc = x.mc.pc ∧ x'.mc.mem = { x.mc.mem with cells := x'.mc.mem.cells } ∧
    ∀ b, (∀ n, MCMem.findM cnt fuel b x'.mc.mem n = MCMem.findM cnt fuel b x.mc.mem n) ∧
      (∀ n, MCMem.findC cnt fuel b x'.mc.mem n = MCMem.findC cnt fuel b x.mc.mem n) ∧
      ∀ h, MCMem.HB cnt h → MCMem.listed cnt b fuel x'.mc.mem h = MCMem.listed cnt b fuel x.mc.mem h := by
  obtain ⟨hw, -⟩ := noWrap_of_limits cnt hl
  obtain ⟨T, s, I⟩ := seg_any hl hf hr
  rcases Seg.step_cases h with ⟨e, y, he, h1, rfl⟩ | ⟨e, y, he, -⟩
  · cases he
    obtain ⟨F, hz⟩ := fl_step hw I.typed I.pcz h1
    rw [I.cells] at F
    have ht := I.typed
    rw [I.cells] at ht
    refine ⟨rfl, rfl, fun b => ⟨fun n => ?_, fun n => ?_, fun h hh => ?_⟩⟩
    · have hc : IsCell cnt .nmtx (MCMem.cell cnt .mtxs) := mcell hw (h := .mtxs) trivial
      simp only [MCMem.findM, ListMem.find, fromFL]
      rw [F.2 _ _ (mc_flp .mtxs) hc, find_same hw b ht (k := .nmtx) (fun a ha => F.2 _ _ (mc_flp .mtxs) ha) _ (ht _ _ hc)]
    · have hc : IsCell cnt .ncond (MCMem.cell cnt .conds) := mcell hw (h := .conds) trivial
      simp only [MCMem.findC, ListMem.find, fromFL]
      rw [F.2 _ _ (mc_flp .conds) hc, find_same hw b ht (k := .ncond) (fun a ha => F.2 _ _ (mc_flp .conds) ha) _ (ht _ _ hc)]
    · have hc := mcell hw hh
      simp only [MCMem.listed, fromFL]
      rw [F.2 _ _ (mc_flp h) hc, walk_same hw b ht (fun a ha => F.2 _ _ (mc_flp h) ha) (ht _ _ hc)]
  · cases he

/-- C72: an event of the mutexes and conditions changes nothing a process can see of the file locks, except
who is alive. -/
theorem C72_mutexes_apart (cnt : Pool → Nat) (hl : Limits cnt) (fuel : Nat) (hf : MCMem.Fuel cnt fuel) (base : Nat → Nat)
    (x x' : Seg.State) (hr : Seg.Reach cnt fuel base (fun _ _ => True) x) (e : MCMem.Ev)
    (h : Seg.step cnt fuel base x (.mc e) = some x') :
    x'.fl.pc = x.fl.pc ∧ x'.fl.pay = x.fl.pay ∧ x'.fl.lockid = x.fl.lockid ∧
    ∀ b h, FLMem.HB cnt h → FLMem.listed cnt b fuel x'.fl.cells h = FLMem.listed cnt b fuel x.fl.cells h := by
  obtain ⟨hw, -⟩ := noWrap_of_limits cnt hl
  obtain ⟨T, s, I⟩ := seg_any hl hf hr
  rcases Seg.step_cases h with ⟨e, y, he, -⟩ | ⟨e, y, he, h1, rfl, -⟩
  · cases he
  · cases he
    have ht := I.typed
    have F := mc_step hw I.sim (by rw [← I.cells]; exact ht) h1
    rw [← I.cells] at F
    refine ⟨rfl, rfl, rfl, fun b h hh => ?_⟩
    have hp : ¬ MCP h.pool := fun e => e (FLMem.pool_flp h)
    have hc := fcell hw hh
    simp only [FLMem.listed, fromMC]
    rw [F.2 _ _ hp hc, walk_same hw b ht (fun a ha => F.2 _ _ hp ha) (ht _ _ hc)]

/-- C72: the file locks are not affected by the mutexes and conditions, whoever dies wherever: every run of
the segment is a run of the file locks alone, with the same events of them and all the deaths.  The threads
are at the same places with the same results, and every process sees the same lists. -/
theorem C72_files (cnt : Pool → Nat) (hl : Limits cnt) (fuel : Nat) (hf : MCMem.Fuel cnt fuel) (base : Nat → Nat)
    (f f' : File) (os : List Sys) (b0 : Nat) (m : ListMem.Mem) (junkF : FL.Mem) (junkM : MCMem.Mem)
    (hi : initializeShmFile cnt f true os (some b0) = some (.ok f' m)) (es : List Seg.Ev) (x : Seg.State)
    (hx : Seg.run cnt fuel base (Seg.init m junkF junkM) es = some x) :
    ∃ y, Seg.runFL cnt fuel (FLMem.init m junkF) (es.filterMap Seg.toFL) = some y ∧ x.fl.pc = y.pc ∧
      x.fl.pay = y.pay ∧ x.fl.lockid = y.lockid ∧ x.fl.alive = y.alive ∧
      ∀ b h, FLMem.HB cnt h → FLMem.listed cnt b fuel x.fl.cells h = FLMem.listed cnt b fuel y.cells h := by
  obtain ⟨hw, -⟩ := noWrap_of_limits cnt hl
  have app : ∀ {l l' : List FLMem.Ev} {y y' : FLMem.State}, Seg.runFL cnt fuel y l = some y' →
      Seg.runFL cnt fuel y (l ++ l') = Seg.runFL cnt fuel y' l' := by
    intro l
    induction l with
    | nil => intro l' y y' h; cases h; rfl
    | cons e l ih =>
      intro l' y y' h
      obtain ⟨y1, h1, h2⟩ := Option.bind_eq_some_iff.1 h
      simp only [List.cons_append, Seg.runFL, h1, Option.bind_some, ih h2]
  have key : ∀ {es : List Seg.Ev} {x x' : Seg.State} {y : FLMem.State} {s : MC.State} {T : MCMem.Tab},
      Seg.J cnt base T x s → Like cnt x.fl y → Seg.run cnt fuel base x es = some x' →
      ∃ y' T' s', Seg.runFL cnt fuel y (es.filterMap Seg.toFL) = some y' ∧ Like cnt x'.fl y' ∧ Seg.J cnt base T' x' s' := by
    intro es
    induction es with
    | nil =>
      intro x x' y s T I L h
      simp only [Seg.run, Option.some.injEq] at h
      subst h
      exact ⟨y, T, s, rfl, L, I⟩
    | cons e es ih =>
      intro x x' y s T I L h
      simp only [Seg.run] at h
      obtain ⟨x1, h1, h2⟩ := Option.bind_eq_some_iff.1 h
      obtain ⟨T1, s1, -, I1⟩ := j_step hw hf I h1
      obtain ⟨y1, g1, L1⟩ := like_step hw I L h1
      obtain ⟨y', T', s', r1, L', I'⟩ := ih I1 L1 h2
      refine ⟨y', T', s', ?_, L', I'⟩
      have : (e :: es).filterMap Seg.toFL = (Seg.toFL e).toList ++ es.filterMap Seg.toFL := by
        cases h : Seg.toFL e <;> simp [h]
      rw [this, app g1, r1]
  obtain ⟨y, T, s, h1, L, I⟩ := key (j_init hl base junkF junkM noMem hi).j ⟨fun _ _ _ _ => rfl, rfl, rfl, rfl, rfl⟩ hx
  exact ⟨y, h1, L.pc.symm, L.pay.symm, L.lockid.symm, L.alive.symm,
    fun b h hh => (listed_same hw I.typed L.cells b fuel hh).symm⟩

/-- Reachable states of the segment correspond to reachable states of the tables of the file locks. -/
theorem seg_files {cnt : Pool → Nat} (hl : Limits cnt) {fuel : Nat} (hf : MCMem.Fuel cnt fuel) (hff : FLMem.Fuel cnt fuel)
    {base : Nat → Nat} {A : Seg.State → Seg.Ev → Prop} {A' : FL.State → FL.Ev → Prop}
    (hA : ∀ x s e e', FLMem.Sim cnt x.fl s → A x (.fl e) → FLMem.Match e e' → A' s e')
    (hdie : ∀ s t r, s.pc t = .done r → A' s (.die t .go 0))
    (hwh : ∀ x e, A x e → Seg.whole cnt fuel x e) {x : Seg.State} (hr : Seg.Reach cnt fuel base A x) :
    ∃ sf, Spec.Reach A' sf ∧ ∃ T s, K cnt base T x s sf := by
  obtain ⟨hw, -⟩ := noWrap_of_limits cnt hl
  induction hr with
  | init jf jm h => exact ⟨_, Reach.init _ _ _ jf, _, _, j_init hl base jf jm noMem h⟩
  | step _ ha hs ih =>
    obtain ⟨sf, h1, T, s, I⟩ := ih
    obtain ⟨T', s', sf', -, hk, I'⟩ := k_step hw hf hff I (hwh _ _ ha) hs
    refine ⟨sf', ?_, T', s', I'⟩
    cases hk with
    | fl m1 m2 => exact .step h1 (hA _ _ _ _ I.fl ha m1) m2
    | die hp hs => exact .step h1 (hdie _ _ _ (by rw [← I.fl.pc]; exact hp)) hs
    | call => exact h1
    | go => exact h1

/-- C72 (partial: nobody dies in the middle of the bulk return of the ranges of a file): the file locks are
not affected by the mutexes and conditions: the state of the file locks of the segment is a state that they
reach alone. -/
theorem C72_files_partial (cnt : Pool → Nat) (hl : Limits cnt) (fuel : Nat) (hf : MCMem.Fuel cnt fuel)
    (hff : FLMem.Fuel cnt fuel) (base : Nat → Nat) (x : Seg.State)
    (hr : Seg.Reach cnt fuel base (Seg.whole cnt fuel) x) :
    FLMem.Intact cnt x.fl.cells ∧ ∃ s, Spec.Reach (fun _ _ => True) s ∧ x.fl.lockid = s.lockid ∧ x.fl.alive = s.alive ∧
      x.fl.pc = s.pc ∧ x.fl.pay.outs = s.mem.outs ∧
      (∀ b, FLMem.SameLive cnt s.mem (FLMem.view cnt b fuel x.fl.cells x.fl.pay)) ∧
      ∀ t c, (FL.step s (.go t c)).isSome = (Seg.step cnt fuel base x (.fl (.go t (base t) c))).isSome := by
  obtain ⟨hw, -⟩ := noWrap_of_limits cnt hl
  obtain ⟨s, h1, T, sm, I⟩ := seg_files hl hf hff (A' := fun _ _ => True) (fun _ _ _ _ _ _ _ => trivial)
    (fun _ _ _ _ => trivial) (fun _ _ h => h) hr
  have h2 := I.fl
  refine ⟨⟨s.mem, FLMem.sound_of h2.bnd h2.inv.sok, h2.rep⟩, s, h1, h2.lockid, h2.alive, h2.pc, h2.pay.outs.symm,
    fun b => FLMem.view_sameLive h2.bnd h2.inv.sok h2.rep h2.pay hff b, fun t c => ?_⟩
  simp only [Seg.step, beq_self_eq_true, if_true, Option.isSome_map]
  cases hs : FL.step s (.go t c) with
  | some s' =>
    obtain ⟨x', hx', -⟩ := FLMem.sim_back hw hff h2 (base t) hs
    simp only [FLMem.lift] at hx'
    rw [hx']; rfl
  | none =>
    cases hx : FLMem.step cnt fuel x.fl (.go t (base t) c) with
    | none => rfl
    | some x' =>
      obtain ⟨e', s', m1, m2, -⟩ := FLMem.sim_step hw hff h2 (by trivial) hx
      cases m1
      rw [hs] at m2
      cases m2

/-- C01 with mutexes and conditions in use: no two conflicting file locks are in force (ranges pairwise
equal or disjoint, nobody dies in the middle of an unlock of a file or of a bulk return). -/
theorem C72_file_exclusion_partial (cnt : Pool → Nat) (hl : Limits cnt) (fuel : Nat) (hf : MCMem.Fuel cnt fuel)
    (hff : FLMem.Fuel cnt fuel) (base : Nat → Nat) (R : DevIno → Rng → Prop) (hR : Separate R) (x : Seg.State)
    (hr : Seg.Reach cnt fuel base (fun x e => Seg.whole cnt fuel x e ∧ Seg.okDeath x e ∧ Seg.lockIn R e) x) :
    ∀ p ∈ x.fl.pay.outs, ∀ q ∈ x.fl.pay.outs, p.1 ≠ q.1 → ¬ Conflict p.2 q.2 := by
  obtain ⟨s, h1, T, sm, I⟩ := seg_files hl hf hff (A' := okIn R) (by
    rintro x s e e' hx ⟨-, ha, hb⟩ hm
    cases hm with
    | call t c => cases c <;> exact ⟨trivial, hb⟩
    | go t b c => exact ⟨trivial, trivial⟩
    | die t b c k j k' hk h0 =>
      refine ⟨?_, trivial⟩
      simp only [Seg.okDeath, FLMem.okDeath, hx.pc] at ha
      simp only [FL.okDeath]
      cases hp : s.pc t <;> simp only [hp] at ha ⊢
      · rcases ha with ha | ⟨ha, hj⟩
        · exact Or.inl ha
        · exact Or.inr ((h0 hj).trans ha)
      · exact ⟨ha.1, by have := ha.2; omega⟩) (by
    intro s t r hp
    exact ⟨by simp only [FL.okDeath, hp], trivial⟩) (fun _ _ h => h.1) hr
  rw [← I.fl.pay.outs]
  exact C01_exclusion_partial R hR s h1

/-- C18 with file locks in use: two threads never own a mutex of the same name (partial as
`C18_exclusion_partial`: no death in the window of a dead-owner check). -/
theorem C72_mutex_exclusion_partial (cnt : Pool → Nat) (hl : Limits cnt) (fuel : Nat) (hf : MCMem.Fuel cnt fuel)
    (base : Nat → Nat) (x : Seg.State) (hr : Seg.Reach cnt fuel base Seg.okDie x) (b b' n t u : Nat)
    (ht : Owns cnt fuel b x.mc n t) (hu : Owns cnt fuel b' x.mc n u) : t = u := by
  obtain ⟨hw, -⟩ := noWrap_of_limits cnt hl
  have key : ∀ {x : Seg.State} {s s1 : MC.State} {T : MCMem.Tab} {v : Nat}, MCMem.Sim cnt base T x.mc s →
      (∀ u, x.mc.alive u = true → ∀ m k, x.mc.pc u = .swChk m v k → x.mc.mem.mval m = v) →
      (∀ m ∈ s.mem.mlist, s1.mem.mval m = s.mem.mval m) → s1.alive = s.alive →
      (∀ u, u ≠ v → s1.pc u = s.pc u) → (s1.pc v = s.pc v ∨ ∀ m k, s1.pc v ≠ .swChk m v k) → MC.okDie s1 (.die v) := by
    intro x s s1 T v S ha e1 e2 e3 e4 u ua m k hk
    rw [e2] at ua
    have key : s.pc u = .swChk m v k → s1.mem.mval m = v := by
      intro hk
      have hq := S.pcs u ua
      rw [hk] at hq
      have : ∃ i k', x.mc.pc u = .swChk i v k' ∧ i ∈ T .mtxs ∧ x.mc.mem.mname i = m := by
        cases hp : x.mc.pc u <;> rw [hp] at hq <;>
          simp only [MCMem.PcR, reduceCtorEq, and_false, false_and, exists_false] at hq
        obtain ⟨g1, g2, g3⟩ := hq
        cases g3
        exact ⟨_, _, rfl, g1, rfl⟩
      obtain ⟨i, k', g1, g2, rfl⟩ := this
      rw [e1 _ (MCMem.mem_name S.dat g2), S.dat.mv i g2]
      exact ha u (by rw [S.alive]; exact ua) i k' g1
    by_cases e : u = v
    · subst e
      rcases e4 with e4 | e4
      · exact key (by rw [← e4]; exact hk)
      · exact absurd hk (e4 m k)
    · exact key (by rw [← e3 u e]; exact hk)
  obtain ⟨T, s, h1, I⟩ := seg_reach hl hf (A' := MC.okDie) (fun _ _ _ _ _ => trivial) (fun _ _ _ => trivial)
    (fun x s s1 T v c j S ha e1 e2 e3 e4 => key S ha e1 e2 e3 e4)
    (fun x s T v b c k j S ha => key S ha (fun _ _ => rfl) rfl (fun _ _ => rfl) (.inl rfl)) hr
  exact C18_exclusion_partial h1 ((owns_of hw hf I.sim b n t).1 ht) ((owns_of hw hf I.sim b' n u).1 hu)

/-- C18 with file locks in use, when conditions are not used: whoever dies wherever. -/
theorem C72_mutex_exclusion_no_wait (cnt : Pool → Nat) (hl : Limits cnt) (fuel : Nat) (hf : MCMem.Fuel cnt fuel)
    (base : Nat → Nat) (x : Seg.State) (hr : Seg.Reach cnt fuel base Seg.noWait x) (b b' n t u : Nat)
    (ht : Owns cnt fuel b x.mc n t) (hu : Owns cnt fuel b' x.mc n u) : t = u := by
  obtain ⟨hw, -⟩ := noWrap_of_limits cnt hl
  obtain ⟨T, s, h1, I⟩ := seg_reach hl hf (A' := MC.noWait)
    (fun _ _ _ c h => by cases c <;> exact h) (fun _ _ _ => trivial)
    (fun _ _ _ _ _ _ _ _ _ _ _ _ _ => trivial) (fun _ _ _ _ _ _ _ _ _ _ => trivial) hr
  exact C18_no_wait h1 ((owns_of hw hf I.sim b n t).1 ht) ((owns_of hw hf I.sim b' n u).1 hu)

/-! ### Cases meeting the hypotheses -/

def alone72 (t k : Nat) : List Seg.Ev := List.replicate k (.mc (.go t .go))
def aloneF72 (t k : Nat) : List Seg.Ev := List.replicate k (.fl (.go t (base71 t) .go))

/-- Thread 1 locks mutex 7 and then a file; thread 2 asks for the same file. -/
def es72 : List Seg.Ev :=
  .mc (.call 1 (.lock 7 .block)) :: alone72 1 8 ++ .fl (.call 1 (.lock (mkOp 3 kX rA .wr .block))) :: aloneF72 1 9 ++
  .fl (.call 2 (.lock (mkOp 3 kX rA .wr .try_))) :: aloneF72 2 4

/-- As a run of the file locks. -/
def lift72 : FL.Ev → Seg.Ev
  | .call t c => .fl (.call t c)
  | .go t c => .fl (.go t (base71 t) c)
  | .die t c k => .fl (.die t (base71 t) c k 0)

/-- The run of `C67_not_full`, which ends with a death in the middle of a bulk return; then thread 3 locks
mutex 7. -/
def es72b : List Seg.Ev :=
  es67.map lift72 ++ [.fl (.die 2 (base71 2) .go 0 2), .mc (.call 3 (.lock 7 .block))] ++ alone72 3 7

theorem reach72 {A : Seg.State → Seg.Ev → Prop} {cnt : Pool → Nat} {fuel : Nat} {base : Nat → Nat} :
    ∀ {es : List Seg.Ev} {x x' : Seg.State}, (∀ e ∈ es, ∀ x, A x e) → Seg.Reach cnt fuel base A x →
    Seg.run cnt fuel base x es = some x' → Seg.Reach cnt fuel base A x'
  | [], x, x', _, hr, h => by cases h; exact hr
  | e :: es, x, x', hA, hr, h => by
    obtain ⟨x1, h1, h2⟩ := Option.bind_eq_some_iff.1 h
    exact reach72 (fun e he => hA e (List.mem_cons_of_mem _ he)) (.step hr (hA e List.mem_cons_self x) h1) h2

/-- The hypotheses of `C72_typed`, `C72_one_call`, `C72_progress` and of the two theorems about steps are met
after a death that has spoilt the lists of the file locks: two of these lists have all records in common,
while a lock call for a mutex is about to succeed. -/
example : ∃ x, Seg.Reach Pool.min 5 base71 (fun _ _ => True) x ∧ Limits Pool.min ∧ MCMem.Fuel Pool.min 5 ∧
    FLMem.listed Pool.min 99 5 x.fl.cells .ofree = [0, 1, 2, 3] ∧
    FLMem.listed Pool.min 99 5 x.fl.cells (.offs 0) = [0, 1, 2, 3] ∧ CanGo x.mc 3 ∧
    (∃ x', Seg.step Pool.min 5 base71 x (.mc (.go 3 .go)) = some x') ∧
    ∃ x', Seg.step Pool.min 5 base71 x (.fl (.call 4 (.lock (mkOp 3 kX rA .wr .block)))) = some x' := by
  have e : (Seg.run Pool.min 5 base71 (Seg.init seg71 junk0 junkM) es72b).map (fun x =>
      (FLMem.listed Pool.min 99 5 x.fl.cells .ofree, FLMem.listed Pool.min 99 5 x.fl.cells (.offs 0),
        x.mc.alive 3, (Seg.step Pool.min 5 base71 x (.mc (.go 3 .go))).isSome,
        (Seg.step Pool.min 5 base71 x (.fl (.call 4 (.lock (mkOp 3 kX rA .wr .block))))).isSome)) =
      some ([0, 1, 2, 3], [0, 1, 2, 3], true, true, true) := by decide +kernel
  obtain ⟨x, hx, h⟩ := Option.map_eq_some_iff.1 e
  simp only [Prod.mk.injEq] at h
  obtain ⟨h1, h2, h3, h4, h5⟩ := h
  obtain ⟨f', hf⟩ := seg71_ok
  have hr : Seg.Reach Pool.min 5 base71 (fun _ _ => True) x := reach72 (fun _ _ _ => trivial) (.init junk0 junkM hf) hx
  have hl : Limits Pool.min := by intro p; cases p <;> decide
  have hf : MCMem.Fuel Pool.min 5 := by simp only [MCMem.Fuel]; decide
  exact ⟨x, hr, hl, hf, h1, h2, (C72_progress _ hl _ hf _ x hr 3).1 h4, Option.isSome_iff_exists.1 h4,
    Option.isSome_iff_exists.1 h5⟩

/-- The hypotheses of `C72_mutexes` and `C72_files` are met by that run. -/
example : ∃ f' x, initializeShmFile Pool.min File.truncate0 true (List.replicate (total Pool.min) (.ok 4096))
      (some 4096) = some (.ok f' seg71) ∧
    Seg.run Pool.min 5 base71 (Seg.init seg71 junk0 junkM) es72b = some x ∧
    es72b.filterMap Seg.visM = [(2, none), (3, some (.lock 7 .block))] := by
  have e : (Seg.run Pool.min 5 base71 (Seg.init seg71 junk0 junkM) es72b).isSome = true := by decide +kernel
  obtain ⟨x, hx⟩ := Option.isSome_iff_exists.1 e
  obtain ⟨f', hf⟩ := seg71_ok
  exact ⟨f', x, hf, hx, by decide +kernel⟩

/-- The hypotheses of the theorems on exclusion and of `C72_files_partial` are met: 1 owns mutex 7 and a lock
of a file in force, which 2 asks for. -/
example : ∃ x, Seg.Reach Pool.min 5 base71 Seg.okDie x ∧ Seg.Reach Pool.min 5 base71 Seg.noWait x ∧
    Seg.Reach Pool.min 5 base71 (fun x e => Seg.whole Pool.min 5 x e ∧ Seg.okDeath x e ∧ Seg.lockIn RX e) x ∧
    Seg.Reach Pool.min 5 base71 (Seg.whole Pool.min 5) x ∧ FLMem.Fuel Pool.min 5 ∧
    Owns Pool.min 5 99 x.mc 7 1 ∧ x.fl.pay.outs.length = 1 ∧ ¬ ∃ r, x.fl.pc 2 = .done r := by
  have e : (Seg.run Pool.min 5 base71 (Seg.init seg71 junk0 junkM) es72).map (fun x =>
      (x.mc.alive 1, MCMem.findM Pool.min 5 99 x.mc.mem 7, x.mc.mem.dep 0 1, x.fl.pay.outs.length, idleFL x 2)) =
      some (true, some (some 0), 1, 1, false) := by decide +kernel
  obtain ⟨x, hx, h⟩ := Option.map_eq_some_iff.1 e
  simp only [Prod.mk.injEq] at h
  obtain ⟨h1, h2, h3, h4, h5⟩ := h
  obtain ⟨f', hf⟩ := seg71_ok
  have hes : ∀ e ∈ es72, e = .mc (.call 1 (.lock 7 .block)) ∨ e = .mc (.go 1 .go) ∨
      e = .fl (.call 1 (.lock (mkOp 3 kX rA .wr .block))) ∨ e = .fl (.go 1 (base71 1) .go) ∨
      e = .fl (.call 2 (.lock (mkOp 3 kX rA .wr .try_))) ∨ e = .fl (.go 2 (base71 2) .go) := by
    intro e he
    simp only [es72, alone72, aloneF72, List.cons_append, List.mem_cons, List.mem_append, List.mem_replicate] at he
    rcases he with rfl | ((⟨-, rfl⟩ | rfl | ⟨-, rfl⟩) | rfl | ⟨-, rfl⟩) <;> simp
  refine ⟨x, reach72 ?_ (.init junk0 junkM hf) hx, reach72 ?_ (.init junk0 junkM hf) hx,
    reach72 ?_ (.init junk0 junkM hf) hx, reach72 ?_ (.init junk0 junkM hf) hx, by simp only [FLMem.Fuel]; decide,
    ⟨by decide, h1, 0, h2, by omega⟩, h4, ?_⟩
  · intro e he x
    rcases hes e he with rfl | rfl | rfl | rfl | rfl | rfl <;> trivial
  · intro e he x
    rcases hes e he with rfl | rfl | rfl | rfl | rfl | rfl <;> trivial
  · intro e he x
    rcases hes e he with rfl | rfl | rfl | rfl | rfl | rfl <;>
      first | exact ⟨trivial, trivial, trivial⟩ | exact ⟨trivial, trivial, Or.inl rfl⟩
  · intro e he x
    rcases hes e he with rfl | rfl | rfl | rfl | rfl | rfl <;> trivial
  · rintro ⟨r, hr⟩
    simp [idleFL, hr] at h5

end Fullock.Props
