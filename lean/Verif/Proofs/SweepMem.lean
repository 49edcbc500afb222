import Verif.Model.SweepMem
import Verif.Proofs.FLMemStep
import Verif.Proofs.FLSweep
/-! The sweep loops on cells do what the functions on lists do. -/
namespace Fullock.FLMem
open Fullock.ListMem Fullock.Layout Fullock.Spec Fullock.Props

theorem toAbs_ne {b r : Nat} (h : r ≠ 0) : toAbs b r ≠ 0 := by simp [toAbs, h]
theorem next_abs {b r : Nat} (h : r ≠ 0) : nextCell b (toAbs b r) = r := by simp [toAbs, nextCell, h]

/-- What the reference after the records `xs` holds. -/
theorem chain_link {c : Mem} : ∀ {xs ys : List Nat} {h : Nat}, Chain c (c h) (xs ++ ys) →
    c (xs.getLast?.getD h) = ys.head?.getD 0
  | [], [], h, hc => hc
  | [], y :: ys, h, hc => hc.1
  | [x], ys, h, hc => by
    have := hc.2.2
    show c x = _
    cases ys with
    | nil => exact this
    | cons y ys => exact this.1
  | x :: x' :: xs, ys, h, hc => by
    have := chain_link (xs := x' :: xs) (h := x) hc.2.2
    rw [show (x :: x' :: xs).getLast?.getD h = (x' :: xs).getLast?.getD x by
      simp [List.getLast?_cons]]
    exact this

theorem parentLoop_ok {σ : Type} {cells : σ → Mem} {b h : Nat} {visit : σ → Nat → Option (σ × Bool)}
    {ad : Nat → Nat} (I : List Nat → List Nat → σ → Prop)
    (hch : ∀ kept todo s, I kept todo s → Chain (cells s) (cells s h) ((kept ++ todo).map ad))
    (hv : ∀ kept r todo s, I kept (r :: todo) s → ∃ s' rm, visit s (toAbs b (ad r)) = some (s', rm) ∧
      (rm = true → I kept todo s') ∧ (rm = false → I (kept ++ [r]) todo s')) :
    ∀ (todo kept : List Nat) (s : σ) (n : Nat), I kept todo s → todo.length < n →
      ∃ s' kept', parentLoop cells b h visit n s (toAbs b ((kept.map ad).getLast?.getD 0))
        (toAbs b ((todo.map ad).head?.getD 0)) = some s' ∧ I kept' [] s' := by
  intro todo
  induction todo with
  | nil =>
    intro kept s n hI hn
    obtain ⟨n, rfl⟩ : ∃ k, n = k + 1 := ⟨n - 1, by simp at hn; omega⟩
    exact ⟨s, kept, by simp [parentLoop, toAbs], hI⟩
  | cons r todo ih =>
    intro kept s n hI hn
    obtain ⟨n, rfl⟩ : ∃ k, n = k + 1 := ⟨n - 1, by simp at hn; omega⟩
    have hn' : todo.length < n := by simp at hn; omega
    have hne : ∀ x ∈ kept ++ r :: todo, ad x ≠ 0 := fun x hx =>
      chain_ne_zero (hch _ _ _ hI) _ (List.mem_map_of_mem hx)
    have hr0 : ad r ≠ 0 := hne r (by simp)
    obtain ⟨s', rm, h1, h2, h3⟩ := hv _ _ _ _ hI
    simp only [List.map_cons, List.head?_cons, Option.getD_some, parentLoop]
    rw [if_neg (toAbs_ne hr0), h1, Option.bind_some]
    cases rm with
    | true =>
      have hI' := h2 rfl
      have hc := hch _ _ _ hI'
      rw [List.map_append] at hc
      have hl := chain_link hc
      obtain ⟨s'', kept', e1, e2⟩ := ih kept s' n hI' hn'
      refine ⟨s'', kept', ?_, e2⟩
      simp only [if_true]
      cases hk : (kept.map ad).getLast? with
      | none =>
        rw [hk] at hl e1
        simp only [Option.getD_none] at hl e1 ⊢
        rw [if_neg (by simp [toAbs]), hl]
        exact e1
      | some z =>
        have hz : z ≠ 0 := by
          have := List.mem_of_getLast? hk
          obtain ⟨x, hx, rfl⟩ := List.mem_map.1 this
          exact hne x (List.mem_append_left _ hx)
        rw [hk] at hl e1
        simp only [Option.getD_some] at hl e1 ⊢
        rw [if_pos (toAbs_ne hz), next_abs hz, hl]
        exact e1
    | false =>
      have hI' := h3 rfl
      have hc := hch _ _ _ hI'
      rw [List.map_append] at hc
      have hl := chain_link hc
      obtain ⟨s'', kept', e1, e2⟩ := ih (kept ++ [r]) s' n hI' hn'
      refine ⟨s'', kept', ?_, e2⟩
      have hg : (List.map ad (kept ++ [r])).getLast? = some (ad r) := by simp
      rw [hg] at hl e1
      simp only [Option.getD_some] at hl e1
      rw [if_neg (by simp), next_abs hr0, hl]
      exact e1

theorem parentWalk_ok {σ : Type} {cells : σ → Mem} {b h : Nat} {visit : σ → Nat → Option (σ × Bool)}
    {ad : Nat → Nat} (I : List Nat → List Nat → σ → Prop)
    (hch : ∀ kept todo s, I kept todo s → Chain (cells s) (cells s h) ((kept ++ todo).map ad))
    (hv : ∀ kept r todo s, I kept (r :: todo) s → ∃ s' rm, visit s (toAbs b (ad r)) = some (s', rm) ∧
      (rm = true → I kept todo s') ∧ (rm = false → I (kept ++ [r]) todo s'))
    {todo : List Nat} {s : σ} {n : Nat} (hI : I [] todo s) (hn : todo.length < n) :
    ∃ s' kept', parentWalk cells b h visit n s = some s' ∧ I kept' [] s' := by
  have hl := chain_link (xs := []) (hch _ _ _ hI)
  simp only [List.getLast?_nil, Option.getD_none, List.nil_append] at hl
  obtain ⟨s', k, e, hI'⟩ := parentLoop_ok I hch hv todo [] s n hI hn
  refine ⟨s', k, ?_, hI'⟩
  unfold parentWalk
  rw [hl]
  simpa [toAbs] using e

section
variable {cnt : Pool → Nat} (hw : NoWrap cnt) {fuel : Nat} (hf : Fuel cnt fuel) (b : Nat)
  {s : FL.State} {t : Nat} (hal : s.alive t = true) (hpc : s.pc t = .sw)
  {m0 : FL.Mem} (hi : FL.SInv { s with mem := m0 }) {x0 : State} (ha0 : x0.alive = s.alive)
  (hp0 : x0.pc = s.pc)

/-- The pair `x` stands for the tables `m`, reached from `m0` by the sweeping thread. -/
structure K (cnt : Pool → Nat) (fuel : Nat) (s : FL.State) (t : Nat) (m0 : FL.Mem) (x0 : State) (x : Tab)
    (m : FL.Mem) : Prop where
  rep : Rep cnt x.1 m
  pay : SamePay m x.2
  bnd : B cnt m
  stay : FL.Stay s t m0 m
  reach : Reach cnt fuel (fun x e => e.whole cnt fuel x) { x0 with cells := x.1, pay := x.2 }

include hi in
theorem K.sok {x : Tab} {m : FL.Mem} (h : K cnt fuel s t m0 x0 x m) : FL.SOK m := (FL.stay_sinv hi h.stay).sok

include hw hf hal hpc hi ha0 hp0 in
theorem K.acts {x : Tab} {m : FL.Mem} (h : K cnt fuel s t m0 x0 x m) {c : FL.Choice} {as : List FL.Act}
    (hp : FL.plan m s.alive t .sw c = some (as, .sw)) :
    ∃ y, x.acts cnt b fuel as = some y ∧ K cnt fuel s t m0 x0 y (m.acts as) := by
  have hs := FL.stay_sinv hi h.stay
  have hth := hs.thr t hal
  simp only [hpc] at hth
  obtain ⟨c', h1, h2, h3, _⟩ := acts_full hw hf b h.bnd hs.sok h.rep
    (FL.plan_ok hs.sok hal hth.2 hth.1 hp).ok (FL.plan_bnd h.bnd hth.2 hp)
    (plan_tgt h.bnd hs.sok hth.2 trivial hp)
  refine ⟨(c', x.2.acts as), by simp [Tab.acts, h1], h2, samePay_acts h.pay as, h3, ?_, ?_⟩
  rotate_left
  · refine .step h.reach (e := .go t b c) trivial ?_
    have hpl : FL.plan (view cnt b fuel x.1 x.2) x0.alive t .sw c = some (as, .sw) := by
      rw [ha0, ← hp]
      exact plan_congr (view_sameLive h.bnd hs.sok h.rep h.pay hf b) h.bnd hth.2 trivial c
    have hpp : x0.pc t = .sw := by rw [hp0, hpc]
    have hset : FL.fset x0.pc t .sw = x0.pc := by
      funext u; simp only [FL.fset]; split
      · rename_i e; rw [e, hpp]
      · rfl
    have hal0 : x0.alive t = true := by rw [ha0]; exact hal
    simp [step, hal0, hpp, setPc, h1, hset, hpl]
  exact FL.stay_trans h.stay (FL.stay_step hal (by rw [hpc]; simp) (by rw [hpc]; simp) (by rw [hpc]; exact hp))

theorem erase_mid {k td : List Nat} {r : Nat} (h : (k ++ r :: td).Nodup) : (k ++ r :: td).erase r = k ++ td := by
  have : r ∉ k := fun hr => by
    rw [List.nodup_append] at h
    exact h.2.2 r hr r (by simp) rfl
  rw [List.erase_append_right _ this]; simp

include hw hf hal hpc hi ha0 hp0 in
theorem sweepL_cells {o : Nat} {md : FL.Mode} {f : Nat} {x : Tab} {m : FL.Mem} (hk : K cnt fuel s t m0 x0 x m)
    (hff : f ∈ m.files) (ho : o ∈ m.offs f) :
    ∃ y, parentWalk (·.1) b (cell cnt (.lks o md)) (visitL cnt b fuel s.alive o md) fuel x = some y ∧
      K cnt fuel s t m0 x0 y (FL.sweepL s.alive o md m (m.lks o md)) := by
  generalize hM : FL.sweepL s.alive o md m (m.lks o md) = M
  obtain ⟨y, k, h1, m', h2, _, _, _, h3⟩ := parentWalk_ok (cells := fun x : Tab => x.1) (b := b)
    (h := cell cnt (.lks o md)) (visit := visitL cnt b fuel s.alive o md) (ad := adr cnt .locker)
    (todo := m.lks o md) (s := x) (n := fuel)
    (fun kept todo y => ∃ m', K cnt fuel s t m0 x0 y m' ∧ f ∈ m'.files ∧ o ∈ m'.offs f ∧
      m'.lks o md = kept ++ todo ∧ FL.sweepL s.alive o md m' todo = M)
    (by
      rintro kept todo y ⟨m', h, h1, h2, h3, _⟩
      have := h.rep (.lks o md) ⟨f, h.bnd.fs f h1, h2⟩
      rw [← h3]; exact this)
    (by
      rintro kept l todo y ⟨m', h, h1, h2, h3, h4⟩
      unfold visitL
      simp only [idx_adr]
      rw [← h.pay.ltid]
      unfold FL.sweepL at h4
      by_cases ha : s.alive (m'.ltid l) = true
      · rw [if_pos ha] at h4
        exact ⟨y, false, by rw [if_pos ha], by simp, fun _ => ⟨m', h, h1, h2, by simp [h3], h4⟩⟩
      · rw [if_neg ha] at h4
        have he : FL.sweepActs y.2 o md l = FL.sweepActs m' o md l := by
          unfold FL.sweepActs; rw [h.pay.locked]
        obtain ⟨z, e1, e2⟩ := h.acts hw hf b hal hpc hi ha0 hp0 (c := .lk o md l)
          (as := FL.sweepActs m' o md l) (by
            simp only [FL.plan]; rw [if_pos ⟨⟨f, h1, h2⟩, by rw [h3]; simp, by simpa using ha⟩])
        refine ⟨z, true, by rw [if_neg ha, he, e1]; rfl, fun _ => ?_, by simp⟩
        have hfr := FL.sweepActs_frame m' o md l
        refine ⟨_, e2, by rw [hfr.files]; exact h1, by rw [hfr.offs]; exact h2, ?_, h4⟩
        rw [FL.sweepActs_lks]
        simp only [FL.fset_same]
        have hnd := (h.sok hi).lksNd o md
        rw [h3] at hnd ⊢
        exact erase_mid hnd)
    ⟨m, hk, hff, ho, by simp, hM⟩ (recs_len hk.bnd (hk.sok hi) (.lks o md) hf)
  simp only [FL.sweepL] at h3
  exact ⟨y, h1, h3 ▸ h2⟩

theorem sweepL_keeps (alive : Nat → Bool) (o : Nat) (md : FL.Mode) : ∀ (L : List Nat) (m : FL.Mem),
    (FL.sweepL alive o md m L).files = m.files ∧ (FL.sweepL alive o md m L).offs = m.offs
  | [], m => ⟨rfl, rfl⟩
  | l :: L, m => by
    unfold FL.sweepL
    split
    · exact sweepL_keeps alive o md L m
    · have := FL.sweepActs_frame m o md l
      rw [(sweepL_keeps alive o md L _).1, (sweepL_keeps alive o md L _).2]
      exact ⟨this.files, this.offs⟩

include hw hf hal hpc hi ha0 hp0 in
theorem sweepU_cells {o : Nat} {f : Nat} {x : Tab} {m : FL.Mem} (hk : K cnt fuel s t m0 x0 x m)
    (hff : f ∈ m.files) (ho : o ∈ m.offs f) :
    ∃ y, sweepUW cnt b fuel s.alive o x = some y ∧ K cnt fuel s t m0 x0 y (FL.sweepU s.alive o m) := by
  obtain ⟨y, h1, h2⟩ := sweepL_cells hw hf b hal hpc hi ha0 hp0 (md := .rd) hk hff ho
  have hkp := sweepL_keeps s.alive o .rd (m.lks o .rd) m
  obtain ⟨z, h3, h4⟩ := sweepL_cells hw hf b hal hpc hi ha0 hp0 (md := .wr) h2 (by rw [hkp.1]; exact hff)
    (by rw [hkp.2]; exact ho)
  exact ⟨z, by simp only [sweepUW, h1, Option.bind_some]; exact h3, h4⟩

theorem sweepU_keeps (alive : Nat → Bool) (o : Nat) (m : FL.Mem) :
    (FL.sweepU alive o m).files = m.files ∧ (FL.sweepU alive o m).offs = m.offs := by
  unfold FL.sweepU
  simp only
  rw [(sweepL_keeps alive o .wr _ _).1, (sweepL_keeps alive o .wr _ _).2]
  exact sweepL_keeps alive o .rd _ _

include hw hf hal hpc hi ha0 hp0 in
theorem sweepOs_cells {f : Nat} {x : Tab} {m : FL.Mem} (hk : K cnt fuel s t m0 x0 x m) (hff : f ∈ m.files) :
    ∃ y, parentWalk (·.1) b (cell cnt (.offs f)) (visitO cnt b fuel s.alive f) fuel x = some y ∧
      K cnt fuel s t m0 x0 y ((m.offs f).foldl (FL.sweepO s.alive f) m) := by
  generalize hM : (m.offs f).foldl (FL.sweepO s.alive f) m = M
  obtain ⟨y, k, h1, m', h2, _, _, h3⟩ := parentWalk_ok (cells := fun x : Tab => x.1) (b := b)
    (h := cell cnt (.offs f)) (visit := visitO cnt b fuel s.alive f) (ad := adr cnt .off)
    (todo := m.offs f) (s := x) (n := fuel)
    (fun kept todo y => ∃ m', K cnt fuel s t m0 x0 y m' ∧ f ∈ m'.files ∧
      m'.offs f = kept ++ todo ∧ todo.foldl (FL.sweepO s.alive f) m' = M)
    (by
      rintro kept todo y ⟨m', h, h1, h3, _⟩
      have := h.rep (.offs f) (h.bnd.fs f h1)
      rw [← h3]; exact this)
    (by
      rintro kept o todo y ⟨m', h, h1, h3, h4⟩
      have ho : o ∈ m'.offs f := by rw [h3]; simp
      obtain ⟨z, e1, e2⟩ := sweepU_cells hw hf b hal hpc hi ha0 hp0 h h1 ho
      have hkp := sweepU_keeps s.alive o m'
      unfold visitO
      simp only [idx_adr]
      rw [e1, Option.bind_some]
      rw [List.foldl_cons, FL.sweepO] at h4

      have hv := view_sameLive e2.bnd (e2.sok hi) e2.rep e2.pay hf b
      rw [oLocked_congr hv (f := f) (e2.bnd.fs f (by rw [hkp.1]; exact h1))
        (by rw [hkp.2]; exact ho)]
      generalize FL.sweepU s.alive o m' = m2 at *
      by_cases ha : FL.oLocked m2 o = true
      · rw [if_pos ha] at h4
        exact ⟨z, false, by rw [if_pos ha], by simp,
          fun _ => ⟨m2, e2, by rw [hkp.1]; exact h1, by simp [hkp.2, h3], h4⟩⟩
      · rw [if_neg ha] at h4
        obtain ⟨w, d1, d2⟩ := e2.acts hw hf b hal hpc hi ha0 hp0 (c := .off f o) (as := [.cutO f o, .pushO o]) (by
            simp only [FL.plan]
            rw [if_pos ⟨by rw [hkp.1]; exact h1, by rw [hkp.2]; exact ho, by simpa using ha⟩])
        refine ⟨w, true, by rw [if_neg ha, d1]; rfl, fun _ => ?_, by simp⟩
        refine ⟨_, d2, ?_, ?_, h4⟩
        · show f ∈ m2.files
          rw [hkp.1]; exact h1
        · show FL.fset m2.offs f ((m2.offs f).erase o) f = _
          have hnd := (h.sok hi).offsNd f
          rw [FL.fset_same, hkp.2]
          rw [h3] at hnd ⊢
          exact erase_mid hnd)
    ⟨m, hk, hff, by simp, hM⟩ (recs_len hk.bnd (hk.sok hi) (.offs f) hf)
  simp only [List.foldl_nil] at h3
  exact ⟨y, h1, h3 ▸ h2⟩

include hw hf hal hpc hi ha0 hp0 in
theorem sweepAll_cells {x : Tab} {m : FL.Mem} (hk : K cnt fuel s t m0 x0 x m) :
    ∃ y, sweepAllW cnt b fuel s.alive x = some y ∧ K cnt fuel s t m0 x0 y (FL.sweepAll s.alive m) := by
  generalize hM : FL.sweepAll s.alive m = M
  obtain ⟨y, k, h1, m', h2, _, h3⟩ := parentWalk_ok (cells := fun x : Tab => x.1) (b := b)
    (h := cell cnt .files) (visit := visitF cnt b fuel s.alive) (ad := adr cnt .file)
    (todo := m.files) (s := x) (n := fuel)
    (fun kept todo y => ∃ m', K cnt fuel s t m0 x0 y m' ∧ m'.files = kept ++ todo ∧
      todo.foldl (FL.sweepF s.alive) m' = M)
    (by
      rintro kept todo y ⟨m', h, h3, _⟩
      have := h.rep .files trivial
      rw [← h3]; exact this)
    (by
      rintro kept f todo y ⟨m', h, h3, h4⟩
      have h1 : f ∈ m'.files := by rw [h3]; simp
      obtain ⟨z, e1, e2⟩ := sweepOs_cells hw hf b hal hpc hi ha0 hp0 h h1
      obtain ⟨_, _, _, hfl, _, hlk⟩ := FL.sweepOs_spec hal hpc hi (m'.offs f) m' h.stay h1
        ((h.sok hi).offsNd f) (fun _ h => h) (fun o h h' => absurd h h')
      unfold visitF
      simp only [idx_adr]
      rw [e1, Option.bind_some]
      rw [List.foldl_cons, FL.sweepF] at h4

      have hv := view_sameLive e2.bnd (e2.sok hi) e2.rep e2.pay hf b
      rw [fLocked_congr hv (f := f) (e2.bnd.fs f (by rw [hfl]; exact h1))]
      generalize (m'.offs f).foldl (FL.sweepO s.alive f) m' = m2 at *
      by_cases ha : FL.fLocked m2 f = true
      · rw [if_pos ha] at h4
        exact ⟨z, false, by rw [if_pos ha], by simp, fun _ => ⟨m2, e2, by simp [hfl, h3], h4⟩⟩
      · rw [if_neg ha] at h4
        have hempty : m2.offs f = [] := by
          cases hoff : m2.offs f with
          | nil => rfl
          | cons o os =>
            exfalso
            apply ha
            unfold FL.fLocked
            rw [Bool.or_eq_true]; right
            exact List.any_eq_true.mpr ⟨o, by rw [hoff]; exact List.mem_cons_self,
              hlk o (by rw [hoff]; exact List.mem_cons_self)⟩
        obtain ⟨w, d1, d2⟩ := e2.acts hw hf b hal hpc hi ha0 hp0 (c := .file f) (as := [.cutF f, .pushF f]) (by
            simp only [FL.plan]
            rw [if_pos ⟨by rw [hfl]; exact h1, hempty, by simpa using ha⟩])
        refine ⟨w, true, by rw [if_neg ha, d1]; rfl, fun _ => ?_, by simp⟩
        refine ⟨_, d2, ?_, h4⟩
        show m2.files.erase f = _
        have hnd := (h.sok hi).filesNd
        rw [hfl]
        rw [h3] at hnd ⊢
        exact erase_mid hnd)
    ⟨m, hk, by simp, hM⟩ (recs_len hk.bnd (hk.sok hi) .files hf)
  simp only [List.foldl_nil] at h3
  exact ⟨y, h1, h3 ▸ h2⟩

end

/-! ### Waiters -/

theorem sweepWaiters_ok {m : Mem} {H : List Nat} {L : Nat → List Nat} (hw : WF m H L) (b : Nat) {h fr : Nat}
    (hh : h ∈ H) (hfr : fr ∈ H) (hne : h ≠ fr) (dead : Nat → Bool) {fuel : Nat} (hf : (L h).length < fuel) :
    ∃ m', sweepWaiters b fuel h fr dead m = some m' ∧
      WF m' H (upd (upd L h ((L h).filter fun r => !dead r)) fr (((L h).filter dead).reverse ++ L fr)) := by
  obtain ⟨m', k, h1, pr, h2, h3, h4⟩ := parentWalk_ok (cells := id) (b := b) (h := h)
    (visit := visitW b fuel h fr dead) (ad := id) (todo := L h) (s := m) (n := fuel)
    (fun kept todo m' => ∃ pr, L h = pr ++ todo ∧ kept = pr.filter (fun r => !dead r) ∧
      WF m' H (upd (upd L h (kept ++ todo)) fr ((pr.filter dead).reverse ++ L fr)))
    (by
      rintro kept todo m' ⟨pr, _, _, h3⟩
      have := h3.chain h hh
      simpa [upd, hne] using this)
    (by
      rintro kept r todo m' ⟨pr, e, hk, h3⟩
      have hmem : r ∈ upd (upd L h (kept ++ r :: todo)) fr ((pr.filter dead).reverse ++ L fr) h := by
        simp [upd, hne]
      have hlen : (upd (upd L h (kept ++ r :: todo)) fr ((pr.filter dead).reverse ++ L fr) h).length < fuel := by
        have h1 := congrArg List.length e
        have h2 : kept.length ≤ pr.length := by rw [hk]; exact List.length_filter_le _ _
        simp only [upd, hne, if_false, if_true, List.length_append, List.length_cons] at h1 ⊢
        omega
      have hnd := h3.nodup h hh
      obtain ⟨q, ws, e1, e2, e3, -, e5, e6⟩ := cutoff_ok h3 b hh hmem hlen
      obtain ⟨ws', d1, d2, -, d4⟩ := insert_ok e5 b e6 hfr
      unfold visitW
      simp only [id, toRel_toAbs]
      by_cases hd : dead r = true
      · refine ⟨_, true, by rw [if_pos hd, e1]; simp only [Option.map_some, d1, Option.getD_some]; rfl, fun _ => ?_, by simp⟩
        refine ⟨pr ++ [r], by simp [e], by simp [hk, hd], ?_⟩
        have hL : upd (upd L h (kept ++ todo)) fr ((List.filter dead (pr ++ [r])).reverse ++ L fr) =
            upd (upd (upd (upd L h (kept ++ r :: todo)) fr ((pr.filter dead).reverse ++ L fr)) h
              ((upd (upd L h (kept ++ r :: todo)) fr ((pr.filter dead).reverse ++ L fr) h).erase r)) fr
              (r :: upd (upd (upd L h (kept ++ r :: todo)) fr ((pr.filter dead).reverse ++ L fr)) h
              ((upd (upd L h (kept ++ r :: todo)) fr ((pr.filter dead).reverse ++ L fr) h).erase r) fr) := by
          have hs : upd (upd L h (kept ++ r :: todo)) fr ((pr.filter dead).reverse ++ L fr) h = kept ++ r :: todo := by
            simp [upd, hne]
          rw [hs] at hnd ⊢
          rw [erase_mid hnd]
          funext z
          simp only [upd]
          have hne' : fr ≠ h := fun e => hne e.symm
          by_cases z1 : z = fr
          · simp [z1, hd, hne']
          · by_cases z2 : z = h
            · simp [z2, hne]
            · simp [z1, z2]
        rw [hL]; exact d4
      · refine ⟨m', false, by rw [if_neg hd], by simp, fun _ => ?_⟩
        refine ⟨pr ++ [r], by simp [e], by simp [hk, hd], ?_⟩
        simpa [hd] using h3)
    ⟨[], by simp, by simp, by
      have : upd (upd L h (L h)) fr (L fr) = L := by rw [upd_same, upd_same]
      simpa [this] using hw⟩ hf
  refine ⟨m', h1, ?_⟩
  simp only [List.append_nil] at h2 h4
  rw [h3, ← h2] at h4
  exact h4

end Fullock.FLMem
