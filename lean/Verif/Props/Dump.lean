import Verif.Proofs.Dump
/-!
C79: the dump of the segment.
-/
namespace Fullock.Props
open Fullock Fullock.Spec Fullock.Layout Fullock.Seg
open Fullock.FLMem (adr)
open _root_.Fullock.FL (mkOp kX kY rA junk0)

/-! ### Reachable states -/

theorem dump_inv {cnt : Pool → Nat} (hl : Limits cnt) {fuel : Nat} (hf : MCMem.Fuel cnt fuel) {base : Nat → Nat}
    {A : Seg.State → Seg.Ev → Prop} {b : Nat} {x : Seg.State} {d : Dump.State} (hr : Dump.Reach cnt fuel base A b x d) :
    ∃ T s, J cnt base T x s ∧ Dump.WM cnt x ∧ (∀ i ∈ d.out, Dump.ItemOK cnt b i) ∧ ∀ t ∈ d.todo, Dump.TaskOK cnt b t := by
  obtain ⟨hw, -⟩ := noWrap_of_limits cnt hl
  induction hr with
  | init jf jm hz h => exact ⟨_, _, (j_init hl base jf jm noMem h).j, fun w => .inl (hz w), by simp, by simp⟩
  | start _ free ih =>
    obtain ⟨T, s, I, W, -, -⟩ := ih
    exact ⟨T, s, I, W, by simp [Dump.start], Dump.start_ok hw free⟩
  | @other x x' d e _ _ hs ih =>
    obtain ⟨T, s, I, W, h1, h2⟩ := ih
    obtain ⟨T', s', -, I'⟩ := j_step hw hf I hs
    refine ⟨T', s', I', ?_, h1, h2⟩
    rcases Seg.step_cases hs with ⟨e, y, rfl, -, rfl⟩ | ⟨e, y, rfl, h, rfl, -⟩
    · exact W
    · exact Dump.mc_wmtx hw I.sim h W
  | @own x d d' _ hs ih =>
    obtain ⟨T, s, I, W, h1, h2⟩ := ih
    refine ⟨T, s, I, W, ?_⟩
    obtain ⟨todo, out⟩ := d
    cases todo with
    | nil => cases hs
    | cons t ts =>
      simp only [Dump.step, Option.some.injEq] at hs
      subst hs
      obtain ⟨e1, e2⟩ := Dump.exec_ok hw I.typed W (h2 t (by simp))
      exact ⟨fun i hi => (List.mem_append.1 hi).elim (h1 i) (e1 i),
        fun u hu => (List.mem_append.1 hu).elim (e2 u) fun h => h2 u (by simp [h])⟩

theorem dump_seg {cnt : Pool → Nat} {fuel : Nat} {base : Nat → Nat} {A : Seg.State → Seg.Ev → Prop} {b : Nat}
    {x : Seg.State} {d : Dump.State} (hr : Dump.Reach cnt fuel base A b x d) : Seg.Reach cnt fuel base A x := by
  induction hr with
  | init jf jm hz h => exact .init jf jm h
  | start _ _ ih => exact ih
  | other _ ha hs ih => exact .step ih ha hs
  | own _ _ ih => exact ih

/-! ### C79 -/

/-- C79: whoever does what while the dump runs, and whoever has died wherever: every record the dump prints is
a record of the kind it is printed as, every reference it is about to read lies where such a reference lies,
and every record it is about to look at is a record of the right kind, or NULL where NULL is tested for. -/
theorem C79_safe (cnt : Pool → Nat) (hl : Limits cnt) (fuel : Nat) (hf : MCMem.Fuel cnt fuel) (base : Nat → Nat)
    (b : Nat) (x : Seg.State) (d : Dump.State) (hr : Dump.Reach cnt fuel base (fun _ _ => True) b x d) :
    (∀ i ∈ d.out, ∀ lv k p, i.record = some (lv, k, p) → ∃ n < cnt k, p = b + adr cnt k n) ∧
    ∀ t ∈ d.todo, (∀ k c, t.cell = some (k, c) → IsCell cnt k c) ∧
      (∀ k p, t.record = some (k, p) → p = 0 ∨ ∃ n < cnt k, p = b + adr cnt k n) ∧
      (∀ k lv, t ≠ .next k lv 0) ∧ ∀ lv, t ≠ .wmtx 0 lv := by
  obtain ⟨hw, -⟩ := noWrap_of_limits cnt hl
  obtain ⟨T, s, I, W, h1, h2⟩ := dump_inv hl hf hr
  have ab : ∀ k n, ListMem.toAbs b (adr cnt k n) = b + adr cnt k n := fun k n => by
    have := Dump.adr_pos hw k n
    simp only [ListMem.toAbs]
    split <;> omega
  have key : ∀ {k p}, Dump.RecAt cnt b k p → p = 0 ∨ ∃ n < cnt k, p = b + adr cnt k n := by
    rintro k p (h | ⟨r, ⟨n, hn, rfl⟩, rfl⟩)
    · exact .inl h
    · exact .inr ⟨n, hn, ab k n⟩
  refine ⟨?_, ?_⟩
  · intro i hi lv k p e
    obtain ⟨r, ⟨n, hn, rfl⟩, rfl⟩ := h1 i hi lv k p e
    exact ⟨n, hn, ab k n⟩
  · intro t ht
    have h := h2 t ht
    cases t with
    | put i => simp [Dump.Task.cell, Dump.Task.record]
    | line c => simp [Dump.Task.cell, Dump.Task.record]
    | test c k => simpa [Dump.Task.cell, Dump.Task.record, Dump.TaskOK] using h
    | first c k => simpa [Dump.Task.cell, Dump.Task.record, Dump.TaskOK] using h
    | all c k lv => simpa [Dump.Task.cell, Dump.Task.record, Dump.TaskOK] using h
    | each k lv p =>
      have := key h
      simpa [Dump.Task.cell, Dump.Task.record] using this
    | next k lv p =>
      have := key h.1
      have hp := h.2
      simp only [Dump.Task.cell, Dump.Task.record, Option.some.injEq, Prod.mk.injEq, Dump.Task.next.injEq,
        reduceCtorEq, false_implies, implies_true, true_and, ne_eq, not_false_eq_true, and_true]
      refine ⟨?_, ?_⟩
      · rintro k p ⟨rfl, rfl⟩; exact this
      · rintro k lv ⟨-, -, e⟩; exact hp e
    | one k lv p =>
      have := key h
      simpa [Dump.Task.cell, Dump.Task.record] using this
    | wmtx p lv =>
      have := key h.1
      have hp := h.2
      simp only [Dump.Task.cell, Dump.Task.record, Option.some.injEq, Prod.mk.injEq, Dump.Task.wmtx.injEq,
        reduceCtorEq, false_implies, implies_true, true_and, ne_eq, not_false_eq_true]
      refine ⟨?_, ?_⟩
      · rintro k p ⟨rfl, rfl⟩; exact this
      · rintro lv ⟨e, -⟩; exact hp e

/-- C79: without the segment the dump looks at nothing. -/
theorem C79_detached (cnt : Pool → Nat) (b : Nat) (x : Seg.State) (free : Bool) :
    Dump.alone cnt b x 1 (Dump.start cnt false free) = some ⟨[], [.notInit]⟩ := rfl

section
variable {cnt : Pool → Nat} {fuel : Nat} {base : Nat → Nat} {b : Nat} {x : Seg.State} {d : Dump.State}

/-- What the dump prints of the records in use. -/
def shown (cnt : Pool → Nat) (b fuel : Nat) (x : Seg.State) : List Dump.Item :=
  Dump.showHead cnt x ++ Dump.showUsed cnt b fuel x (FLMem.listed cnt b fuel x.fl.cells .files).head?.toList
    (MCMem.listed cnt b fuel x.mc.mem .mtxs).head?.toList (MCMem.listed cnt b fuel x.mc.mem .conds).head?.toList

theorem dump_k (hl : Limits cnt) (hf : MCMem.Fuel cnt fuel) (hff : FLMem.Fuel cnt fuel)
    (hr : Dump.Reach cnt fuel base (Seg.whole cnt fuel) b x d) :
    ∃ T s sf, K cnt base T x s sf ∧ Dump.WM cnt x := by
  obtain ⟨-, -, -, W, -⟩ := dump_inv hl hf hr
  obtain ⟨sf, -, T, s, I⟩ := seg_files hl hf hff (A' := fun _ _ => True) (fun _ _ _ _ _ _ _ => trivial)
    (fun _ _ _ _ => trivial) (fun _ _ h => h) (dump_seg hr)
  exact ⟨T, s, sf, I, W⟩

theorem dump_used (hl : Limits cnt) (hf : MCMem.Fuel cnt fuel) (hff : FLMem.Fuel cnt fuel) {T : MCMem.Tab}
    {s : MC.State} {sf : FL.State} (I : K cnt base T x s sf) (W : Dump.WM cnt x) :
    Dump.Ev cnt b x (Dump.lines cnt ++ Dump.used cnt) (shown cnt b fuel x) := by
  obtain ⟨hw, -⟩ := noWrap_of_limits cnt hl
  have S := I.fl
  have M := I.j.sim
  have fl : ∀ h, FLMem.Live cnt sf.mem h → FLMem.listed cnt b fuel x.fl.cells h = FLMem.recs sf.mem h := fun h hh =>
    FLMem.listed_eq S.bnd S.inv.sok S.rep hff b hh
  have ml : ∀ h, MCMem.HB cnt h → MCMem.listed cnt b fuel x.mc.mem h = T h := fun h hh =>
    MCMem.listed_eq hw M.snd M.rep b hf hh
  have fc : ∀ h, FLMem.Live cnt sf.mem h → ListMem.Chain x.fl.cells (x.fl.cells (FLMem.cell cnt h))
      ((FLMem.listed cnt b fuel x.fl.cells h).map (adr cnt h.pool)) := fun h hh => by rw [fl h hh]; exact S.rep h hh
  have mc : ∀ h, MCMem.HB cnt h → ListMem.Chain x.fl.cells (x.fl.cells (MCMem.cell cnt h))
      ((MCMem.listed cnt b fuel x.mc.mem h).map (adr cnt h.pool)) := fun h hh => by
    rw [ml h hh, I.j.cells]; exact M.rep h hh
  have snd := FLMem.sound_of S.bnd S.inv.sok
  have F : Dump.Ev cnt b x [.test (FLMem.cell cnt .files) .file] _ :=
    Dump.ev_test (g := Dump.showFile cnt b fuel x 1) hw (fc .files trivial) (by
      intro f hm
      rw [fl .files trivial] at hm
      have hfl := snd.lt .files f hm
      refine Dump.ev_file hw (fc (.offs f) hfl) fun o ho md => fc (.lks o md) ?_
      rw [fl (.offs f) hfl] at ho
      exact ⟨f, hfl, ho⟩)
  have M1 : Dump.Ev cnt b x [.test (MCMem.cell cnt .mtxs) .nmtx] _ :=
    Dump.ev_test (g := Dump.showMtx cnt b x 1) hw (mc .mtxs trivial) fun m _ => Dump.ev_mtx hw 1 m
  have C : Dump.Ev cnt b x [.test (MCMem.cell cnt .conds) .ncond] _ :=
    Dump.ev_test (g := Dump.showCond cnt b fuel x 1) hw (mc .conds trivial) (by
      intro c hm
      rw [ml .conds trivial] at hm
      exact Dump.ev_cond hw W (mc (.ws c) (M.snd.lt .conds c hm)))
  have L : ∀ c, Dump.Ev cnt b x [.line c] [.head c (x.fl.cells c)] := fun c => by
    simpa [Dump.exec] using Dump.Ev.one (cnt := cnt) (b := b) (x := x) (t := .line c) (is := []) .nil
  have := ((L Layout.versionCell).append <| (L Layout.lengthCell).append <| (L (FLMem.cell cnt .files)).append <|
    (L (MCMem.cell cnt .mtxs)).append <| (L (FLMem.cell cnt .ffree)).append <| (L (FLMem.cell cnt .ofree)).append <|
    (L (FLMem.cell cnt .lfree)).append (L (MCMem.cell cnt .mfree))).append <|
    (Dump.Ev.put (.sect .files)).append <| F.append <| (Dump.Ev.put .cls).append <|
    (Dump.Ev.put (.sect .mtxs)).append <| M1.append <| (Dump.Ev.put .cls).append <|
    (Dump.Ev.put (.sect .conds)).append <| C.append (Dump.Ev.put .cls)
  simpa [Dump.lines, Dump.used, shown, Dump.showHead, Dump.showUsed] using this

end

/-- C79 (partial: of every kind only the first record in use is shown; nobody has died in the middle of the
bulk return of the ranges of a file, nobody moves meanwhile): the dump comes to an end, and shows exactly the
header, the first file with all its ranges and lockers, the first mutex, and the first condition with all its
waiters. -/
theorem C79_used_partial (cnt : Pool → Nat) (hl : Limits cnt) (fuel : Nat) (hf : MCMem.Fuel cnt fuel)
    (hff : FLMem.Fuel cnt fuel) (base : Nat → Nat) (b : Nat) (x : Seg.State) (d : Dump.State)
    (hr : Dump.Reach cnt fuel base (Seg.whole cnt fuel) b x d) :
    ∃ n, Dump.alone cnt b x n (Dump.start cnt true false) = some ⟨[], shown cnt b fuel x⟩ := by
  obtain ⟨T, s, sf, I, W⟩ := dump_k hl hf hff hr
  obtain ⟨n, h⟩ := Dump.run_of_ev (dump_used (b := b) hl hf hff I W) [] []
  exact ⟨n, by simpa [Dump.start] using h⟩

/-- A dump that has come to an end stays so, and has only one result. -/
theorem C79_once (cnt : Pool → Nat) (b : Nat) (x : Seg.State) (d : Dump.State) (n k : Nat) (o o' : List Dump.Item)
    (h : Dump.alone cnt b x n d = some ⟨[], o⟩) (h' : Dump.alone cnt b x k d = some ⟨[], o'⟩) : o = o' ∧ n = k := by
  induction n generalizing k d with
  | zero =>
    cases h
    cases k with
    | zero => cases h'; exact ⟨rfl, rfl⟩
    | succ k => simp [Dump.alone, Dump.step] at h'
  | succ n ih =>
    simp only [Dump.alone] at h
    obtain ⟨e, h1, h2⟩ := Option.bind_eq_some_iff.1 h
    cases k with
    | zero => cases h'; cases h1
    | succ k =>
      simp only [Dump.alone, h1, Option.bind_some] at h'
      obtain ⟨rfl, rfl⟩ := ih e k h2 h'
      exact ⟨rfl, rfl⟩

/-- C79 (partial: as `C79_used_partial`, and if the dump comes to an end): with the free records, the dump
shows what it shows without them and then, on the first level, exactly the records of each free list in
their order. -/
theorem C79_free_partial (cnt : Pool → Nat) (hl : Limits cnt) (fuel : Nat) (hf : MCMem.Fuel cnt fuel)
    (hff : FLMem.Fuel cnt fuel) (base : Nat → Nat) (b : Nat) (x : Seg.State) (d : Dump.State)
    (hr : Dump.Reach cnt fuel base (Seg.whole cnt fuel) b x d) (n : Nat) (o : List Dump.Item)
    (h : Dump.alone cnt b x n (Dump.start cnt true true) = some ⟨[], o⟩) :
    ∃ i1 i2 i3 i4 i5 i6, o = shown cnt b fuel x ++
      ([.sect .ffree] ++ i1 ++ [.cls] ++ [.sect .ofree] ++ i2 ++ [.cls] ++ [.sect .lfree] ++ i3 ++ [.cls] ++
       [.sect .mfree] ++ i4 ++ [.cls] ++ [.sect .cfree] ++ i5 ++ [.cls] ++ [.sect .wfree] ++ i6 ++ [.cls]) ∧
      Dump.top i1 = (FLMem.listed cnt b fuel x.fl.cells .ffree).map (fun i => (.file, Dump.at_ cnt b .file i)) ∧
      Dump.top i2 = (FLMem.listed cnt b fuel x.fl.cells .ofree).map (fun i => (.off, Dump.at_ cnt b .off i)) ∧
      Dump.top i3 = (FLMem.listed cnt b fuel x.fl.cells .lfree).map (fun i => (.locker, Dump.at_ cnt b .locker i)) ∧
      Dump.top i4 = (MCMem.listed cnt b fuel x.mc.mem .mfree).map (fun i => (.nmtx, Dump.at_ cnt b .nmtx i)) ∧
      Dump.top i5 = (MCMem.listed cnt b fuel x.mc.mem .cfree).map (fun i => (.ncond, Dump.at_ cnt b .ncond i)) ∧
      Dump.top i6 = (MCMem.listed cnt b fuel x.mc.mem .wfree).map (fun i => (.waiter, Dump.at_ cnt b .waiter i)) := by
  obtain ⟨hw, -⟩ := noWrap_of_limits cnt hl
  obtain ⟨T, s, sf, I, W⟩ := dump_k hl hf hff hr
  have S := I.fl
  have M := I.j.sim
  have fc : ∀ h, FLMem.Live cnt sf.mem h → ListMem.Chain x.fl.cells (x.fl.cells (FLMem.cell cnt h))
      ((FLMem.listed cnt b fuel x.fl.cells h).map (adr cnt h.pool)) := fun h hh => by
    rw [FLMem.listed_eq S.bnd S.inv.sok S.rep hff b hh]; exact S.rep h hh
  have mc : ∀ h, MCMem.HB cnt h → ListMem.Chain x.fl.cells (x.fl.cells (MCMem.cell cnt h))
      ((MCMem.listed cnt b fuel x.mc.mem h).map (adr cnt h.pool)) := fun h hh => by
    rw [MCMem.listed_eq hw M.snd M.rep b hf hh, I.j.cells]; exact M.rep h hh
  have e := Dump.out_of_run h
  simp only [if_true] at e
  obtain ⟨j1, j2, e1, e2, rfl⟩ := Dump.Ev.append_iff.1 e
  have e3 := e1.det (dump_used hl hf hff I W)
  subst e3
  have pk : ∀ {i : Dump.Item} {ts : List Dump.Task} {is : List Dump.Item}, Dump.Ev cnt b x (.put i :: ts) is →
      ∃ js, Dump.Ev cnt b x ts js ∧ is = i :: js := by
    intro i ts is h
    obtain ⟨a, c, h1, h2, rfl⟩ := Dump.Ev.cons_iff.1 h
    rw [Dump.Ev.put_iff.1 h1]
    exact ⟨c, h2, rfl⟩
  obtain ⟨p1, g1, rfl⟩ := pk e2
  obtain ⟨i1, p2, a1, g2, rfl⟩ := Dump.Ev.cons_iff.1 g1
  obtain ⟨p3, g3, rfl⟩ := pk g2
  obtain ⟨p4, g4, rfl⟩ := pk g3
  obtain ⟨i2, p5, a2, g5, rfl⟩ := Dump.Ev.cons_iff.1 g4
  obtain ⟨p6, g6, rfl⟩ := pk g5
  obtain ⟨p7, g7, rfl⟩ := pk g6
  obtain ⟨i3, p8, a3, g8, rfl⟩ := Dump.Ev.cons_iff.1 g7
  obtain ⟨p9, g9, rfl⟩ := pk g8
  obtain ⟨p10, g10, rfl⟩ := pk g9
  obtain ⟨i4, p11, a4, g11, rfl⟩ := Dump.Ev.cons_iff.1 g10
  obtain ⟨p12, g12, rfl⟩ := pk g11
  obtain ⟨p13, g13, rfl⟩ := pk g12
  obtain ⟨i5, p14, a5, g14, rfl⟩ := Dump.Ev.cons_iff.1 g13
  obtain ⟨p15, g15, rfl⟩ := pk g14
  obtain ⟨p16, g16, rfl⟩ := pk g15
  obtain ⟨i6, p17, a6, g17, rfl⟩ := Dump.Ev.cons_iff.1 g16
  obtain ⟨p18, g18, rfl⟩ := pk g17
  cases g18
  exact ⟨i1, i2, i3, i4, i5, i6, by simp, Dump.top_all hw (fc .ffree trivial) a1, Dump.top_all hw (fc .ofree trivial) a2,
    Dump.top_all hw (fc .lfree trivial) a3, Dump.top_all hw (mc .mfree trivial) a4, Dump.top_all hw (mc .cfree trivial) a5,
    Dump.top_all hw (mc .wfree trivial) a6⟩

/-- C79 (partial: when at most one file is in use; else as `C79_used_partial`): the dump shows every lock in
force, with its thread and its file handle, under a range that covers it. -/
theorem C79_locks_partial (cnt : Pool → Nat) (hl : Limits cnt) (fuel : Nat) (hf : MCMem.Fuel cnt fuel)
    (hff : FLMem.Fuel cnt fuel) (base : Nat → Nat) (b : Nat) (x : Seg.State) (d : Dump.State)
    (hr : Dump.Reach cnt fuel base (Seg.whole cnt fuel) b x d)
    (h1 : (FLMem.listed cnt b fuel x.fl.cells .files).length ≤ 1) (y : Nat × FL.Out) (hy : y ∈ x.fl.pay.outs) :
    ∃ n f o pre mid post, hits y.2.rng (x.fl.pay.rng o) = true ∧
      Dump.alone cnt b x n (Dump.start cnt true false) = some ⟨[], pre ++
        [.off 3 (Dump.at_ cnt b .off o) (Dump.nx cnt x .off o) (x.fl.pay.rng o) (x.fl.pay.word o) (x.fl.pay.oprot o)] ++ mid ++
        [.locker 5 (Dump.at_ cnt b .locker y.1) (Dump.nx cnt x .locker y.1) y.2.t y.2.fd true] ++ post⟩ ∧
      Dump.Item.file 1 (Dump.at_ cnt b .file f) (Dump.nx cnt x .file f) y.2.key (x.fl.pay.fprot f) ∈ pre ∧
      (∀ i ∈ mid, ∀ k p, i.record ≠ some (3, k, p)) := by
  obtain ⟨T, s, sf, I, W⟩ := dump_k hl hf hff hr
  obtain ⟨n, hn⟩ := C79_used_partial cnt hl fuel hf hff base b x d hr
  have S := I.fl
  have fl : ∀ h, FLMem.Live cnt sf.mem h → FLMem.listed cnt b fuel x.fl.cells h = FLMem.recs sf.mem h := fun h hh =>
    FLMem.listed_eq S.bnd S.inv.sok S.rep hff b hh
  have snd := FLMem.sound_of S.bnd S.inv.sok
  rw [← S.pay.outs] at hy
  obtain ⟨f, o, ⟨q1, q2, q3⟩, q4, q5, q6, q7, q8, -⟩ := S.inv.outs.1 y hy
  have hfl : f < cnt .file := snd.lt .files f q1
  have e1 : FLMem.listed cnt b fuel x.fl.cells .files = [f] := by
    rw [fl .files trivial] at h1 ⊢
    simp only [FLMem.recs] at h1 ⊢
    match hm : sf.mem.files, h1, q1 with
    | [g], _, hg => simp at hg; rw [hg]
  have ho : o ∈ FLMem.listed cnt b fuel x.fl.cells (.offs f) := by rw [fl (.offs f) hfl]; exact q2
  have hk : y.1 ∈ FLMem.listed cnt b fuel x.fl.cells (.lks o y.2.mode) := by
    rw [fl (.lks o y.2.mode) ⟨f, hfl, q2⟩]; exact q3
  rw [S.pay.key] at q4
  rw [S.pay.rng] at q5
  rw [S.pay.ltid] at q6
  rw [S.pay.lfd] at q7
  rw [S.pay.locked] at q8
  obtain ⟨o1, o2, ho⟩ := List.append_of_mem ho
  obtain ⟨l1, l2, hk⟩ := List.append_of_mem hk
  have hlk : ∀ (l : List Nat) (i : Dump.Item), i ∈ l.flatMap (Dump.showLocker cnt b x 5) → ∀ k p, i.record ≠ some (3, k, p) := by
    intro l i hi k p
    obtain ⟨a, -, hi⟩ := List.mem_flatMap.1 hi
    simp only [Dump.showLocker, List.mem_cons, List.not_mem_nil, or_false] at hi
    rcases hi with rfl | rfl <;> simp [Dump.Item.record]
  have key : ∃ mid post, Dump.showOff cnt b fuel x 3 o =
      [.off 3 (Dump.at_ cnt b .off o) (Dump.nx cnt x .off o) (x.fl.pay.rng o) (x.fl.pay.word o) (x.fl.pay.oprot o)] ++ mid ++
        [.locker 5 (Dump.at_ cnt b .locker y.1) (Dump.nx cnt x .locker y.1) y.2.t y.2.fd true] ++ post ∧
      ∀ i ∈ mid, ∀ k p, i.record ≠ some (3, k, p) := by
    cases hm : y.2.mode with
    | rd =>
      rw [hm] at hk
      refine ⟨[.sub 4 .readers] ++ l1.flatMap (Dump.showLocker cnt b x 5), [.cls] ++ l2.flatMap (Dump.showLocker cnt b x 5) ++ [.cls] ++
        [.sub 4 .writers] ++ (FLMem.listed cnt b fuel x.fl.cells (.lks o .wr)).flatMap (Dump.showLocker cnt b x 5) ++ [.cls] ++ [.cls], ?_, ?_⟩
      · simp [Dump.showOff, hk, Dump.showLocker, q6, q7, q8]
      · intro i hi
        simp only [List.mem_append, List.mem_singleton] at hi
        rcases hi with rfl | hi
        · simp [Dump.Item.record]
        · exact hlk _ i hi
    | wr =>
      rw [hm] at hk
      refine ⟨[.sub 4 .readers] ++ (FLMem.listed cnt b fuel x.fl.cells (.lks o .rd)).flatMap (Dump.showLocker cnt b x 5) ++ [.cls] ++
        [.sub 4 .writers] ++ l1.flatMap (Dump.showLocker cnt b x 5), [.cls] ++ l2.flatMap (Dump.showLocker cnt b x 5) ++ [.cls] ++ [.cls], ?_, ?_⟩
      · simp [Dump.showOff, hk, Dump.showLocker, q6, q7, q8]
      · intro i hi
        simp only [List.mem_append, List.mem_singleton] at hi
        rcases hi with (((rfl | hi) | rfl) | rfl) | hi
        · simp [Dump.Item.record]
        · exact hlk _ i hi
        · simp [Dump.Item.record]
        · simp [Dump.Item.record]
        · exact hlk _ i hi
  obtain ⟨mid, post, hs, hmid⟩ := key
  refine ⟨n, f, o, Dump.showHead cnt x ++ [.sect .files] ++
    [.file 1 (Dump.at_ cnt b .file f) (Dump.nx cnt x .file f) (x.fl.pay.key f) (x.fl.pay.fprot f)] ++ [.sub 2 .offs] ++
    o1.flatMap (Dump.showOff cnt b fuel x 3), mid, post ++ o2.flatMap (Dump.showOff cnt b fuel x 3) ++ [.cls] ++ [.cls] ++ [.cls] ++
    ([.sect .mtxs] ++ ((MCMem.listed cnt b fuel x.mc.mem .mtxs).head?.toList).flatMap (Dump.showMtx cnt b x 1) ++ [.cls] ++
    [.sect .conds] ++ ((MCMem.listed cnt b fuel x.mc.mem .conds).head?.toList).flatMap (Dump.showCond cnt b fuel x 1) ++ [.cls]),
    q5, ?_, ?_, hmid⟩
  · rw [hn]
    simp [shown, Dump.showUsed, e1, Dump.showFile, ho, hs]
  · simp [q4]

/-! ### What the dump does not show -/

/-- The full statement: the dump of a segment nobody is working on shows every lock in force. -/
def C79_full : Prop :=
  ∀ (cnt : Pool → Nat), Limits cnt → ∀ fuel, MCMem.Fuel cnt fuel → FLMem.Fuel cnt fuel → ∀ (base : Nat → Nat) (b : Nat)
    (x : Seg.State) (d : Dump.State), Dump.Reach cnt fuel base (Seg.whole cnt fuel) b x d → ∀ y ∈ x.fl.pay.outs,
    ∃ n o, Dump.alone cnt b x n (Dump.start cnt true false) = some ⟨[], o⟩ ∧
      ∃ lv p nx, Dump.Item.locker lv p nx y.2.t y.2.fd true ∈ o

/-- A new file is full of zeros. -/
def junkZ : MCMem.Mem := { junkM with wmtx := fun _ => 0 }

/-- Steps of others and of the dump (`none`). -/
def play79 (cnt : Pool → Nat) (b : Nat) : Seg.State × Dump.State → List (Option Seg.Ev) → Option (Seg.State × Dump.State)
  | s, [] => some s
  | s, some e :: es => (Seg.step cnt 5 base71 s.1 e).bind fun x => play79 cnt b (x, s.2) es
  | s, none :: es => (Dump.step cnt b s.1 s.2).bind fun d => play79 cnt b (s.1, d) es

theorem reach79 {A : Seg.State → Seg.Ev → Prop} {cnt : Pool → Nat} {b : Nat} :
    ∀ {es : List (Option Seg.Ev)} {s s' : Seg.State × Dump.State}, (∀ e, some e ∈ es → ∀ x, A x e) →
    Dump.Reach cnt 5 base71 A b s.1 s.2 → play79 cnt b s es = some s' → Dump.Reach cnt 5 base71 A b s'.1 s'.2
  | [], s, s', _, hr, h => by cases h; exact hr
  | some e :: es, s, s', hA, hr, h => by
    obtain ⟨x1, h1, h2⟩ := Option.bind_eq_some_iff.1 h
    exact reach79 (s := (x1, s.2)) (fun e he => hA e (List.mem_cons_of_mem _ he)) (.other hr (hA e List.mem_cons_self _) h1) h2
  | none :: es, s, s', hA, hr, h => by
    obtain ⟨d1, h1, h2⟩ := Option.bind_eq_some_iff.1 h
    exact reach79 (s := (s.1, d1)) (fun e he => hA e (List.mem_cons_of_mem _ he)) (.own hr h1) h2

/-- Room for two files. -/
def cnt79 : Pool → Nat
  | .file => 2
  | p => p.min

def seg79 : ListMem.Mem :=
  match initializeShmFile cnt79 File.truncate0 true (List.replicate (total cnt79) (.ok 4096)) (some 4096) with
  | some (.ok _ m) => m
  | _ => fun _ => 0

theorem limits79 : Limits cnt79 := by intro p; cases p <;> decide

theorem seg79_ok : ∃ f', initializeShmFile cnt79 File.truncate0 true
    (List.replicate (total cnt79) (.ok 4096)) (some 4096) = some (.ok f' seg79) := by
  obtain ⟨f', m, hm⟩ := C40_succeeds cnt79 File.truncate0 4096 limits79
  exact ⟨f', by unfold seg79; rw [hm]⟩

/-- Thread 1 locks a file, thread 2 another one. -/
def lock79 : List Seg.Ev := .fl (.call 1 (.lock (mkOp 3 kX rA .wr .block))) :: aloneF72 1 9
def two79 : List Seg.Ev := lock79 ++ .fl (.call 2 (.lock (mkOp 4 kY rA .wr .block))) :: aloneF72 2 9

theorem whole79 {cnt : Pool → Nat} {fuel : Nat} {es : List Seg.Ev} (h : ∀ t b c k j, .fl (.die t b c k j) ∉ es) :
    ∀ e, some e ∈ es.map some → ∀ x, Seg.whole cnt fuel x e := by
  intro e he x
  rw [List.mem_map] at he
  obtain ⟨e', he, h1⟩ := he
  cases h1
  cases e with
  | mc e => trivial
  | fl e =>
    cases e with
    | call t c => trivial
    | go t b c => trivial
    | die t b c k j => exact absurd he (h t b c k j)

def isDie79 : Seg.Ev → Bool
  | .fl (.die _ _ _ _ _) => true
  | _ => false

theorem notDie79 {es : List Seg.Ev} (h : es.any isDie79 = false) : ∀ t b c k j, .fl (.die t b c k j) ∉ es := by
  intro t b c k j hm
  have := List.any_eq_false.1 h _ hm
  simp [isDie79] at this

theorem init79 {cnt : Pool → Nat} {f f' : File} {os : List Sys} {m : ListMem.Mem} {b0 b : Nat} {A : Seg.State → Seg.Ev → Prop}
    (h : initializeShmFile cnt f true os (some b0) = some (.ok f' m)) :
    Dump.Reach cnt 5 base71 A b (Seg.init m junk0 junkZ) ⟨[], []⟩ :=
  .init junk0 junkZ (fun _ => rfl) h

def lk79 : Dump.Item → Option (Nat × Int × Bool)
  | .locker _ _ _ t fd l => some (t, fd, l)
  | _ => none

theorem dump_two79 : ∃ x d, Dump.Reach cnt79 5 base71 (Seg.whole cnt79 5) 8192 x d ∧
    x.fl.pay.outs.map (fun y => (y.2.t, y.2.fd)) = [(2, 4), (1, 3)] ∧
    ∃ o, Dump.alone cnt79 8192 x 37 (Dump.start cnt79 true false) = some ⟨[], o⟩ ∧
      o.filterMap lk79 = [(2, 4, true)] := by
  have e : (play79 cnt79 8192 (Seg.init seg79 junk0 junkZ, ⟨[], []⟩) (two79.map some)).bind (fun s =>
      (Dump.alone cnt79 8192 s.1 37 (Dump.start cnt79 true false)).map fun d => decide
        (s.1.fl.pay.outs.map (fun y => (y.2.t, y.2.fd)) = [(2, 4), (1, 3)] ∧ d.todo = [] ∧
          d.out.filterMap lk79 = [(2, 4, true)])) = some true := by decide +kernel
  obtain ⟨⟨x, d⟩, hx, e⟩ := Option.bind_eq_some_iff.1 e
  obtain ⟨⟨td, o⟩, h3, e⟩ := Option.map_eq_some_iff.1 e
  obtain ⟨h1, h5, h4⟩ := of_decide_eq_true e
  cases h5
  obtain ⟨f', hf⟩ := seg79_ok
  exact ⟨x, d, reach79 (s := (Seg.init seg79 junk0 junkZ, ⟨[], []⟩)) (whole79 (es := two79) (notDie79 (by decide +kernel)))
    (init79 hf) hx, h1, o, h3, h4⟩

/-- The full statement fails: of two files with a lock in force the dump shows the one used last. -/
theorem C79_not_full : ¬ C79_full := by
  intro H
  obtain ⟨x, d, hr, h1, o, h2, h3⟩ := dump_two79
  have hy : (1, 3) ∈ x.fl.pay.outs.map (fun y => (y.2.t, y.2.fd)) := by rw [h1]; simp
  obtain ⟨y, hy, e⟩ := List.mem_map.1 hy
  simp only [Prod.mk.injEq] at e
  obtain ⟨n, o', h4, lv, p, nx, h5⟩ := H cnt79 limits79 5 (by simp only [MCMem.Fuel]; decide) (by simp only [FLMem.Fuel]; decide)
    base71 8192 x d hr y hy
  obtain ⟨rfl, -⟩ := C79_once _ _ _ _ _ _ _ _ h4 h2
  have : (1, 3, true) ∈ o'.filterMap lk79 :=
    List.mem_filterMap.2 ⟨_, h5, by rw [e.1, e.2]; rfl⟩
  rw [h3] at this
  simp at this

/-- The dump does not tell whether a mutex is locked: the same is printed while thread 1 owns mutex 7 and after
it has unlocked it. -/
theorem C79_owner_hidden : ∃ x x', (∃ d, Dump.Reach Pool.min 5 base71 (Seg.whole Pool.min 5) 8192 x d) ∧
    (∃ d, Dump.Reach Pool.min 5 base71 (Seg.whole Pool.min 5) 8192 x' d) ∧ MCMem.Owns Pool.min 5 8192 x.mc 7 1 ∧
    x'.mc.mem.mval 0 = 0 ∧ MCMem.findM Pool.min 5 8192 x'.mc.mem 7 = some (some 0) ∧
    ∃ o, Dump.alone Pool.min 8192 x 19 (Dump.start Pool.min true false) = some ⟨[], o⟩ ∧
      Dump.alone Pool.min 8192 x' 19 (Dump.start Pool.min true false) = some ⟨[], o⟩ := by
  have e : (play79 Pool.min 8192 (Seg.init seg71 junk0 junkZ, ⟨[], []⟩) ((.mc (.call 1 (.lock 7 .block)) :: alone72 1 8).map some)).bind (fun s =>
      (play79 Pool.min 8192 s ((.mc (.call 1 (.unlock 7)) :: alone72 1 7).map some)).bind fun s' =>
      (Dump.alone Pool.min 8192 s.1 19 (Dump.start Pool.min true false)).bind fun d =>
      (Dump.alone Pool.min 8192 s'.1 19 (Dump.start Pool.min true false)).map fun d' =>
      decide ((s.1.mc.alive 1 = true ∧ MCMem.findM Pool.min 5 8192 s.1.mc.mem 7 = some (some 0) ∧ s.1.mc.mem.dep 0 1 = 1) ∧
       (s'.1.mc.mem.mval 0 = 0 ∧ MCMem.findM Pool.min 5 8192 s'.1.mc.mem 7 = some (some 0)) ∧
       d.todo = [] ∧ d'.todo = [] ∧ d.out = d'.out)) = some true := by
    decide +kernel
  obtain ⟨⟨x, d0⟩, hx, e⟩ := Option.bind_eq_some_iff.1 e
  obtain ⟨⟨x', d1⟩, hx', e⟩ := Option.bind_eq_some_iff.1 e
  obtain ⟨⟨td, o⟩, h1, e⟩ := Option.bind_eq_some_iff.1 e
  obtain ⟨⟨td', o'⟩, h2, e⟩ := Option.map_eq_some_iff.1 e
  obtain ⟨⟨e1, e2, e3⟩, ⟨e4, e5⟩, e6, e7, e8⟩ := of_decide_eq_true e
  obtain ⟨f', hf⟩ := seg71_ok
  have r1 := reach79 (A := Seg.whole Pool.min 5) (b := 8192)
    (whole79 (es := .mc (.call 1 (.lock 7 .block)) :: alone72 1 8) (notDie79 (by decide +kernel)))
    (s := (Seg.init seg71 junk0 junkZ, ⟨[], []⟩)) (init79 hf) hx
  have r2 := reach79 (A := Seg.whole Pool.min 5) (b := 8192)
    (whole79 (es := .mc (.call 1 (.unlock 7)) :: alone72 1 7) (notDie79 (by decide +kernel))) r1 hx'
  cases e6
  cases e7
  cases e8
  exact ⟨x, x', ⟨_, r1⟩, ⟨_, r2⟩, ⟨by decide, e1, 0, e2, Nat.le_of_eq e3.symm⟩, e4, e5, _, h1, h2⟩

/-- The dump takes no table lock, so what it shows need not have been so at any time: all four lockers are free
when the dump begins, and three at least are free at all times; but the dump, having come to the first of them
just before thread 1 takes it for a lock, shows a lock in force under the free lockers, and no other
locker. -/
theorem C79_torn : ∃ x x' d d', Dump.Reach Pool.min 5 base71 (Seg.whole Pool.min 5) 8192 x d ∧
    Dump.Reach Pool.min 5 base71 (Seg.whole Pool.min 5) 8192 x' d' ∧ d'.todo = [] ∧
    FLMem.listed Pool.min 8192 5 x.fl.cells .lfree = [0, 1, 2, 3] ∧ d = Dump.start Pool.min true true ∧
    FLMem.listed Pool.min 8192 5 x'.fl.cells .lfree = [1, 2, 3] ∧ x'.fl.pay.outs.map (fun y => (y.2.t, y.2.fd)) = [(1, 3)] ∧
    ∃ pre post, d'.out = pre ++ [.sect .lfree, .locker 1 (Dump.at_ Pool.min 8192 .locker 0) 0 1 3 true, .cls, .cls] ++ post ∧
      pre.filterMap lk79 = [] ∧ post.filterMap lk79 = [] := by
  have e : (play79 Pool.min 8192 (Seg.init seg71 junk0 junkZ, Dump.start Pool.min true true)
      (List.replicate 79 none ++ lock79.map some ++ List.replicate 54 none)).map (fun s => decide
      ((s.2.todo = [] ∧ FLMem.listed Pool.min 8192 5 (Seg.init seg71 junk0 junkZ).fl.cells .lfree = [0, 1, 2, 3] ∧
        FLMem.listed Pool.min 8192 5 s.1.fl.cells .lfree = [1, 2, 3]) ∧ s.1.fl.pay.outs.map (fun y => (y.2.t, y.2.fd)) = [(1, 3)] ∧
        (s.2.out = s.2.out.take 46 ++ [.sect .lfree, .locker 1 (Dump.at_ Pool.min 8192 .locker 0) 0 1 3 true, .cls, .cls] ++ s.2.out.drop 50) ∧
        (s.2.out.take 46).filterMap lk79 = [] ∧ (s.2.out.drop 50).filterMap lk79 = [])) = some true := by decide +kernel
  obtain ⟨⟨x, d⟩, hx, e⟩ := Option.map_eq_some_iff.1 e
  obtain ⟨⟨e1, e2, e3⟩, e4, e5, e6, e7⟩ := of_decide_eq_true e
  obtain ⟨f', hf⟩ := seg71_ok
  have r0 : Dump.Reach Pool.min 5 base71 (Seg.whole Pool.min 5) 8192 (Seg.init seg71 junk0 junkZ) (Dump.start Pool.min true true) :=
    .start (init79 hf) true
  refine ⟨_, x, _, d, r0, reach79 (s := (Seg.init seg71 junk0 junkZ, Dump.start Pool.min true true)) ?_ r0 hx, e1, e2, rfl, e3, e4, _, _, e5, e6, e7⟩
  intro e he
  refine whole79 (es := lock79) (notDie79 (by decide +kernel)) e ?_
  simpa using he

/-! ### Cases meeting the hypotheses -/

/-- The hypotheses of `C79_used_partial`, `C79_free_partial` and `C79_locks_partial` are met: a lock is in force
on the only file, and the dump with the free records comes to an end. -/
example : ∃ x d n o, Dump.Reach Pool.min 5 base71 (Seg.whole Pool.min 5) 8192 x d ∧ Limits Pool.min ∧
    MCMem.Fuel Pool.min 5 ∧ FLMem.Fuel Pool.min 5 ∧ (FLMem.listed Pool.min 8192 5 x.fl.cells .files).length ≤ 1 ∧
    (∃ y, y ∈ x.fl.pay.outs) ∧ Dump.alone Pool.min 8192 x n (Dump.start Pool.min true true) = some ⟨[], o⟩ := by
  have e : (play79 Pool.min 8192 (Seg.init seg71 junk0 junkZ, ⟨[], []⟩) (lock79.map some)).bind (fun s =>
      (Dump.alone Pool.min 8192 s.1 141 (Dump.start Pool.min true true)).map fun d => decide
        ((FLMem.listed Pool.min 8192 5 s.1.fl.cells .files).length ≤ 1 ∧ d.todo = [] ∧ s.1.fl.pay.outs.length = 1)) = some true := by
    decide +kernel
  obtain ⟨⟨x, d⟩, hx, e⟩ := Option.bind_eq_some_iff.1 e
  obtain ⟨⟨td, o⟩, h3, e⟩ := Option.map_eq_some_iff.1 e
  obtain ⟨h1, h5, h4⟩ := of_decide_eq_true e
  cases h5
  obtain ⟨f', hf⟩ := seg71_ok
  refine ⟨x, d, 141, o, reach79 (s := (Seg.init seg71 junk0 junkZ, ⟨[], []⟩)) (whole79 (es := lock79) (notDie79 (by decide +kernel)))
    (init79 hf) hx, by intro p; cases p <;> decide, by simp only [MCMem.Fuel]; decide, by simp only [FLMem.Fuel]; decide, h1, ?_, h3⟩
  exact List.exists_mem_of_length_pos (by rw [h4]; decide)

/-- The hypotheses of `C79_safe` are met after a death that has spoilt the lists of the file locks, while the
dump is on its way through a list of ranges, the same as those free. -/
example : ∃ x d, Dump.Reach Pool.min 5 base71 (fun _ _ => True) 8192 x d ∧ Limits Pool.min ∧ MCMem.Fuel Pool.min 5 ∧
    FLMem.listed Pool.min 8192 5 x.fl.cells .ofree = FLMem.listed Pool.min 8192 5 x.fl.cells (.offs 0) ∧
    (∃ t ∈ d.todo, ∃ p, t.record = some (.off, p) ∧ p ≠ 0) ∧ ∃ i ∈ d.out, ∃ p, i.record = some (3, .off, p) := by
  have e : (play79 Pool.min 8192 (Seg.init seg71 junk0 junkZ, ⟨[], []⟩) (es72b.map some)).bind (fun s =>
      (play79 Pool.min 8192 (s.1, Dump.start Pool.min true true) (List.replicate 22 none)).map fun s => decide
        (FLMem.listed Pool.min 8192 5 s.1.fl.cells .ofree = FLMem.listed Pool.min 8192 5 s.1.fl.cells (.offs 0) ∧
        (∃ t ∈ s.2.todo, t.record = some (.off, Dump.at_ Pool.min 8192 .off 0)) ∧
        ∃ i ∈ s.2.out, i.record = some (3, .off, Dump.at_ Pool.min 8192 .off 0))) = some true := by
    decide +kernel
  obtain ⟨⟨x, d⟩, hx, e⟩ := Option.bind_eq_some_iff.1 e
  obtain ⟨⟨x', d'⟩, hx', e⟩ := Option.map_eq_some_iff.1 e
  obtain ⟨h1, ⟨t, h2, h3⟩, i, h4, h5⟩ := of_decide_eq_true e
  obtain ⟨f', hf⟩ := seg71_ok
  have r := reach79 (A := fun _ _ => True) (b := 8192) (s := (Seg.init seg71 junk0 junkZ, ⟨[], []⟩)) (fun _ _ _ => trivial) (init79 hf) hx
  exact ⟨x', d', reach79 (s := (x, Dump.start Pool.min true true)) (fun _ _ _ => trivial) (.start r true) hx',
    by intro p; cases p <;> decide, by simp only [MCMem.Fuel]; decide, h1, ⟨t, h2, _, h3, by decide +kernel⟩, i, h4, _, h5⟩

end Fullock.Props
