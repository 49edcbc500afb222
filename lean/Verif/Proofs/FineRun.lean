import Verif.Proofs.Fine
/-! The table locks and the progress of runs with one access per step. -/
namespace Fullock.Fine
open Fullock Fullock.Spec Fullock.Layout Fullock.Seg
open Fullock.FL (fset)

/-! ### Who has a table lock -/

theorem pcr_inM {cnt : Pool → Nat} {b : Nat} {T : MCMem.Tab} {x : MCMem.Mem} {alive : Nat → Bool} {p : MCMem.Pc}
    {q : MC.Pc} (h : MCMem.PcR cnt b T x alive p q) : inM p = MC.inM q := by
  cases p <;> simp only [MCMem.PcR] at h
  all_goals first
    | (obtain rfl := h; rfl)
    | (obtain ⟨_, rfl, _⟩ := h; rfl)
    | (obtain ⟨_, _, rfl⟩ := h; first | rfl | (rename_i k _ _; cases k <;> rfl))
    | (obtain ⟨_, rfl⟩ := h; rfl)
    | (obtain ⟨_, _, _, rfl⟩ := h; rfl)
    | (obtain ⟨_, _, _, _, rfl⟩ := h; rfl)
    | (obtain ⟨_, _, _, _, _, rfl⟩ := h; rfl)
    | (obtain ⟨_, _, _, _, _, _, rfl⟩ := h; rfl)
    | (obtain ⟨_, _, _, _, _, _, _, rfl⟩ := h; rfl)
    | (obtain ⟨_, _, _, _, _, _, _, _, rfl⟩ := h; rfl)

theorem pcr_inC {cnt : Pool → Nat} {b : Nat} {T : MCMem.Tab} {x : MCMem.Mem} {alive : Nat → Bool} {p : MCMem.Pc}
    {q : MC.Pc} (h : MCMem.PcR cnt b T x alive p q) : inC p = MC.inC q := by
  cases p <;> simp only [MCMem.PcR] at h
  all_goals first
    | (obtain rfl := h; rfl)
    | (obtain ⟨_, rfl, _⟩ := h; rfl)
    | (obtain ⟨_, _, rfl⟩ := h; first | rfl | (rename_i k _ _; cases k <;> rfl))
    | (obtain ⟨_, rfl⟩ := h; rfl)
    | (obtain ⟨_, _, _, rfl⟩ := h; rfl)
    | (obtain ⟨_, _, _, _, rfl⟩ := h; rfl)
    | (obtain ⟨_, _, _, _, _, rfl⟩ := h; rfl)
    | (obtain ⟨_, _, _, _, _, _, rfl⟩ := h; rfl)
    | (obtain ⟨_, _, _, _, _, _, _, rfl⟩ := h; rfl)
    | (obtain ⟨_, _, _, _, _, _, _, _, rfl⟩ := h; rfl)

theorem inF_eq (p : FL.Pc) : inF p = FL.inCS p := by cases p <;> rfl

theorem locks_reach {cnt : Pool → Nat} (hl : Props.Limits cnt) {fuel : Nat} (hf : MCMem.Fuel cnt fuel) {base : Nat → Nat}
    {x : Seg.State} (hr : Seg.Reach cnt fuel base (fun _ _ => True) x) (k : Tbl) (t : Nat) (t0 : t ≠ 0)
    (ta : x.fl.alive t = true) : tword x k = t ↔ inside x t k = true := by
  have F := fi_reach hr
  obtain ⟨T, s, hm, I⟩ := Props.seg_reach hl hf (A' := MC.anyEv) (fun _ _ _ _ _ => trivial) (fun _ _ _ => trivial)
    (fun _ _ _ _ _ _ _ _ _ _ _ _ _ => trivial) (fun _ _ _ _ _ _ _ _ _ _ => trivial) hr
  have B : MC.Base s := MC.base_reach hm
  have S := I.sim
  have al : x.fl.alive = s.alive := I.alive.trans S.alive
  have q := S.pcs t (by rw [← al]; exact ta)
  cases k with
  | file => simp only [tword, inside, inF_eq]; exact F.cs t t0 ta
  | mtx =>
    simp only [tword, inside, pcr_inM q, ← S.dat.mL]
    exact B.lockM t t0 (by rw [← al]; exact ta)
  | cnd =>
    simp only [tword, inside, pcr_inC q, ← S.dat.cL]
    exact B.lockC t t0 (by rw [← al]; exact ta)

/-! ### Alone at a table lock -/

theorem own_congr (y : LockId.State) (t : Nat) :
    (LockId.own y t).pc t = (LockId.own ⟨y.lockid, y.alive, fun _ => y.pc t⟩ t).pc t ∧
    (LockId.own y t).lockid = (LockId.own ⟨y.lockid, y.alive, fun _ => y.pc t⟩ t).lockid ∧
    (LockId.own y t).alive = y.alive := by
  unfold LockId.own
  cases h : y.pc t <;> simp only [LockId.State.setPc] <;> (repeat' split) <;> simp_all

theorem alone_crit {y : LockId.State} {t : Nat} (h : y.pc t = .crit) : ∀ n, LockId.alone y t n = y
  | 0 => rfl
  | n + 1 => by
    have : LockId.own y t = y := by simp [LockId.own, h]
    rw [LockId.alone, this]
    exact alone_crit h n

theorem fset_fset {α : Type} (f : Nat → α) (t : Nat) (a b : α) : fset (fset f t a) t b = fset f t b := by
  funext u; simp only [fset]; split <;> rfl

theorem alone_lk {cnt : Pool → Nat} {fuel : Nat} {base : Nat → Nat} {t : Nat} {k : Tbl} : ∀ (n : Nat) (s : State)
    (y : LockId.State), G s.seg → L s → s.seg.fl.alive t = true → gate s.seg t = some (k, true) →
    y.lockid = tword s.seg k → y.alive = s.seg.fl.alive → y.pc t = inLoop (s.loc t) true →
    (LockId.alone y t n).pc t = .crit →
    ∃ m ≤ n, run cnt fuel base s (List.replicate m (.lk t)) = some ⟨pass (setTword s.seg t k) t, fset s.loc t .none⟩
  | 0, s, y, g, hL, ta, hg, h1, h2, h3, hc => by
    rw [LockId.alone, h3] at hc
    rcases loop_shape hL ta hg with ⟨-, ⟨_, _, e⟩ | ⟨_, _, e⟩ | ⟨_, _, e, -⟩⟩ | ⟨e, -⟩
    · rw [e] at hc; cases hc
    · rw [e] at hc; cases hc
    · rw [e] at hc; cases hc
    · cases e
  | n + 1, s, y, g, hL, ta, hg, h1, h2, h3, hc => by
    rw [LockId.alone] at hc
    obtain ⟨c1, c2, c3⟩ := own_congr y t
    rw [h1, h2, h3] at c1 c2
    have hp : ((∃ c o, inLoop (s.loc t) true = .acq c o) ∨ (∃ c v, inLoop (s.loc t) true = .chk c v) ∨
        ∃ c v, inLoop (s.loc t) true = .steal c v ∧ s.seg.fl.alive v = false) := by
      rcases loop_shape hL ta hg with ⟨-, h⟩ | ⟨e, -⟩
      · exact h
      · cases e
    rcases own_up (g.up t k ta hg) hp with ⟨e1, e2, e3⟩ | ⟨e1, e2⟩
    · refine ⟨1, by omega, ?_⟩
      simp only [List.replicate, run, step, lkStep, ta, Bool.true_eq_false, if_false, hg, e1, e2, true_or, if_true, Option.bind]
    · have hs : ∃ p, (LockId.own ⟨tword s.seg k, s.seg.fl.alive, fun _ => inLoop (s.loc t) true⟩ t).pc t = p ∧
          p ≠ .crit ∧ p ≠ .out := by
        rcases e2 with ⟨_, _, e⟩ | ⟨_, _, e⟩ | ⟨_, _, e, -⟩ <;> exact ⟨_, e, by simp, by simp⟩
      obtain ⟨p, e, n1, n2⟩ := hs
      have hst : step cnt fuel base s (.lk t) = some ⟨s.seg, fset s.loc t (.lk p)⟩ := by
        simp only [step, lkStep, ta, Bool.true_eq_false, if_false, hg, e, n1, n2, or_self, e1, set_own]
      obtain ⟨m, hm, hrun⟩ := alone_lk n ⟨s.seg, fset s.loc t (.lk p)⟩ (LockId.own y t) g (l_step g hL hst) ta hg
        (c2.trans e1) (c3.trans h2) (by rw [c1, e]; simp [fset, inLoop]) hc
      refine ⟨m + 1, by omega, ?_⟩
      simp only [List.replicate, run, hst, Option.bind]
      rw [hrun]
      simp only [fset_fset]

/-! ### A word that was read -/

/-- The step for which the word was read is still possible. -/
def ready (s : FL.State) (t : Nat) (c : FL.Choice) : Prop :=
  match s.pc t, c with
  | .spin op _ _ _, .go => op.mode = .rd
  | .uWord .., .go => True
  | .rChk _ _ o _, .lk o' md l => o' = o ∧ l ∈ s.mem.lks o md ∧ s.alive (s.mem.ltid l) = false ∧ s.mem.locked l = true
  | .sw, .lk o md l => (∃ f ∈ s.mem.files, o ∈ s.mem.offs f) ∧ l ∈ s.mem.lks o md ∧
      s.alive (s.mem.ltid l) = false ∧ s.mem.locked l = true
  | _, _ => False

/-- Nothing that a thread relies on while it is in the section of the files is changed by others. -/
theorem ready_keep {m : FL.Mem} {al al' : Nat → Bool} {u : Nat} {as : List FL.Act} (hua : al u = true)
    (h : FL.OutActs m u as) (hd : ∀ v, al v = false → al' v = false) :
    (m.acts as).files = m.files ∧ (m.acts as).offs = m.offs ∧ (m.acts as).lks = m.lks ∧ (m.acts as).ltid = m.ltid ∧
    ∀ l, al (m.ltid l) = false → m.locked l = true → (m.acts as).locked l = true := by
  rcases h with rfl | ⟨o, md, l, rfl, e⟩ | ⟨l, h, rfl, e⟩
  · exact ⟨rfl, rfl, rfl, rfl, fun _ _ h => h⟩
  · exact ⟨rfl, rfl, rfl, rfl, fun _ _ h => h⟩
  · refine ⟨rfl, rfl, rfl, rfl, fun l' _ h => ?_⟩
    simp only [FL.Mem.acts, FL.Mem.act, List.foldl, fset]
    split
    · rfl
    · exact h

theorem take_outActs {m : FL.Mem} {u : Nat} {as : List FL.Act} (h : FL.OutActs m u as) (k : Nat) :
    FL.OutActs m u (as.take k) := by
  rcases h with rfl | ⟨o, md, l, rfl, e⟩ | ⟨l, h, rfl, e⟩
  · exact .inl (by simp)
  · cases k with
    | zero => exact .inl rfl
    | succ k => exact .inr (.inl ⟨o, md, l, by simp, e⟩)
  · cases k with
    | zero => exact .inl rfl
    | succ k => exact .inr (.inr ⟨l, h, by simp, e⟩)

theorem ready_step {s s' : FL.State} {e : FL.Ev} (hi : FL.SInv s) (h : FL.step s e = some s') {t : Nat} {c : FL.Choice}
    (ta : s.alive t = true) (he : match e with | .call u _ => u ≠ t | .go u _ => u ≠ t | .die u _ _ => u ≠ t)
    (hr : ready s t c) : ready s' t c := by
  have main : ∀ u as (al' : Nat → Bool) (s' : FL.State), s.alive u = true → (FL.inCS (s.pc u) = false → FL.OutActs s.mem u as) → u ≠ t →
      (∀ v, s.alive v = false → al' v = false) → s'.mem = s.mem.acts as → s'.alive = al' → s'.pc t = s.pc t →
      ready s' t c := by
    intro u as al' s' ua hout hut hd e1 e2 e3
    by_cases hin : FL.inCS (s.pc t) = true
    · have hu : FL.inCS (s.pc u) = false := by
        cases hc : FL.inCS (s.pc u) with
        | false => rfl
        | true => exact absurd ((hi.cs u ua hc).symm.trans (hi.cs t ta hin)) hut
      obtain ⟨k1, k2, k3, k4, k5⟩ := ready_keep ua (hout hu) hd
      unfold ready at hr ⊢
      rw [e3, e1, e2, k1, k2, k3, k4]
      cases hp : s.pc t <;> rw [hp] at hr <;> cases c <;> simp only at hr ⊢
      · exact hr
      · obtain ⟨a, b, c', d⟩ := hr; exact ⟨a, b, hd _ c', k5 _ c' d⟩
      · obtain ⟨a, b, c', d⟩ := hr; exact ⟨a, b, hd _ c', k5 _ c' d⟩
    · unfold ready at hr ⊢
      rw [e3]
      cases hp : s.pc t <;> rw [hp] at hr hin <;> simp only [FL.inCS, not_true_eq_false, Bool.false_eq_true, not_false_eq_true] at hin <;>
        cases c <;> simp only at hr ⊢
      exact hr
  rcases FL.step_cases h with ⟨u, c', r, rfl, ht0, hal, hpc, rfl⟩ | ⟨u, c', p, rfl, hal, hpc, hl, rfl⟩ |
    ⟨u, c', p, rfl, hal, hpc, rfl⟩ | ⟨u, c', as, p', rfl, hal, hpl, rfl⟩ | ⟨u, c', k, as, rfl, hal, hpl, rfl⟩
  · exact main u [] s.alive _ hal (fun _ => .inl rfl) he (fun _ h => h) rfl rfl (by simp [FL.State.setPc, fset, Ne.symm he])
  · exact main u [] s.alive _ hal (fun _ => .inl rfl) he (fun _ h => h) rfl rfl (by simp [FL.State.setPc, fset, Ne.symm he])
  · exact main u [] s.alive _ hal (fun _ => .inl rfl) he (fun _ h => h) rfl rfl (by simp [FL.State.setPc, fset, Ne.symm he])
  · exact main u as s.alive _ hal (fun hc => (FL.plan_ok hi.sok hal (hi.thr u hal).2 (hi.thr u hal).1 hpl).out hc) he (fun _ h => h) rfl rfl
      (by simp [FL.State.setPc, fset, Ne.symm he])
  · refine main u (as.take k) (fset s.alive u false) _ hal (fun hc => ?_) he ?_ rfl rfl rfl
    · rcases hpl with ⟨p', hpl⟩ | ⟨-, rfl⟩
      · exact take_outActs ((FL.plan_ok hi.sok hal (hi.thr u hal).2 (hi.thr u hal).1 hpl).out hc) k
      · exact .inl (by simp)
    · intro v hv; simp only [fset, hv, ite_self]

/-- A ready step can be made. -/
theorem ready_go {s : FL.State} {t : Nat} {c : FL.Choice} (ta : s.alive t = true) (hr : ready s t c) :
    (FL.step s (.go t c)).isSome = true := by
  unfold ready at hr
  split at hr
  · rename_i hp
    simp only [FL.step, ta, Bool.true_eq_false, if_false, hp, FL.plan, Option.isSome_map]
    split <;> first | rfl | (split <;> rfl)
  · rename_i hp
    simp only [FL.step, ta, Bool.true_eq_false, if_false, hp, FL.plan, Option.isSome_map]; rfl
  · rename_i hp
    obtain ⟨rfl, a, b, -⟩ := hr
    simp [FL.step, ta, hp, FL.plan, a, b]
  · rename_i hp
    obtain ⟨⟨f, h1, h2⟩, a, b, -⟩ := hr
    have : ∃ f ∈ s.mem.files, _ ∈ s.mem.offs f := ⟨f, h1, h2⟩
    simp only [FL.step, ta, hp, FL.plan, Bool.true_eq_false, if_false, Option.isSome_map]
    rw [if_pos ⟨this, a, b⟩]
    rfl
  · exact hr.elim

theorem kfollow_ready {x : Seg.State} {sf sf' : FL.State} {e : Seg.Ev} (hi : FL.SInv sf) (h : Seg.KFollow x sf e sf')
    {t : Nat} {c : FL.Choice} (ta : sf.alive t = true) (he : who e ≠ t) (hr : ready sf t c) : ready sf' t c := by
  cases h with
  | fl m hs =>
    refine ready_step hi hs ta ?_ hr
    cases m <;> exact he
  | die hp hs => exact ready_step hi hs ta he hr
  | call => exact hr
  | go => exact hr

theorem ready_of {x : Seg.State} {sf : FL.State} {t o : Nat} {c : FL.Choice} (hpc : x.fl.pc t = sf.pc t)
    (hlk : sf.mem.locked = x.fl.pay.locked) (tal : sf.alive t = true) (hw : wants x t c = some o)
    (hn : ¬ (attempts x t = true ∧ c ≠ .go)) (hfs : (FL.step sf (.go t c)).isSome = true) : ready sf t c := by
  unfold ready
  simp only [wants, hpc, ← hlk] at hw
  simp only [attempts, hpc] at hn
  simp only [FL.step, tal, Bool.true_eq_false, if_false] at hfs
  cases hp : sf.pc t <;> rw [hp] at hw hn hfs <;> cases c <;>
    simp only [reduceCtorEq, ne_eq, not_false_eq_true, and_true, true_and, not_true_eq_false,
      Option.ite_none_right_eq_some] at hw hn ⊢
  · exact hw.1
  · simp only [FL.plan, Option.isSome_map] at hfs
    split at hfs
    · rename_i h
      obtain ⟨rfl, h1, h2⟩ := h
      exact ⟨rfl, h1, h2, hw.1⟩
    · cases hfs
  iterate 5 simp [FL.plan] at hfs
  · simp only [FL.plan, Option.isSome_map] at hfs
    split at hfs
    · rename_i h
      exact ⟨h.1, h.2.1, h.2.2, hw.1⟩
    · cases hfs

theorem fine_ready {cnt : Pool → Nat} (hl : Props.Limits cnt) {fuel : Nat} (hf : MCMem.Fuel cnt fuel)
    (hff : FLMem.Fuel cnt fuel) {base : Nat → Nat} {A : Seg.State → Seg.Ev → Prop} (hA : Loose A)
    (hwh : ∀ x e, A x e → Seg.whole cnt fuel x e) {s : State} (hr : Reach cnt fuel base A s) :
    ∃ T sm sf, K cnt base T s.seg sm sf ∧ ∀ t c w, s.loc t = .seen c w → s.seg.fl.alive t = true → ready sf t c := by
  obtain ⟨hw, -⟩ := Props.noWrap_of_limits cnt hl
  induction hr with
  | init jf jm h => exact ⟨_, _, _, Props.j_init hl base jf jm Props.noMem h, fun t c w h => by cases h⟩
  | @step s s' e hr0 ha hs ih =>
    obtain ⟨T, sm, sf, I, R⟩ := ih
    obtain ⟨-, g, hL⟩ := fine_reach hl hf hA hr0
    have live : ∀ u, s'.seg.fl.alive u = true → s.seg.fl.alive u = true := by
      intro u ua
      cases h : s.seg.fl.alive u with
      | true => rfl
      | false => rw [fine_dead g hL hs h] at ua; cases ua
    rcases fine_cases g hL hs with ⟨e1, hne⟩ | ⟨e', h1, hwho, hload, hkind⟩
    · refine ⟨T, sm, sf, by rw [e1]; exact I, fun t c w hloc ta => ?_⟩
      by_cases ht : t = actor e
      · subst ht
        cases e with
        | seg e => exact absurd rfl (hne e)
        | lk t =>
          exfalso
          obtain ⟨-, ⟨k, hg, hk, rfl⟩ | ⟨k, hg, rfl⟩ | ⟨q, rfl, hq⟩⟩ := lk_cases g hL hs <;> simp [fset, actor] at hloc
        | load t c' =>
          simp only [step, loadStep] at hs
          split at hs
          · cases hs
          · rename_i hn
            rw [not_or] at hn
            obtain ⟨hn1, hn2⟩ := hn
            obtain ⟨x, g1, g2⟩ := Option.bind_eq_some_iff.1 hs
            obtain ⟨o, g3, g4⟩ := Option.map_eq_some_iff.1 g2
            have hc : c = c' := by
              split at g4
              · subst g4; simp only [actor] at hloc; rw [Decidable.not_not.1 hn1] at hloc; cases hloc
              · subst g4; simp only [State.setLoc, fset, actor, if_true, Loc.seen.injEq] at hloc; exact hloc.1.symm
            subst hc
            have hfs : (FL.step sf (.go t c)).isSome = true := by
              simp only [Seg.step] at g1
              split at g1
              · obtain ⟨y, g1, -⟩ := Option.map_eq_some_iff.1 g1
                obtain ⟨e', sf', m1, m2, -⟩ := FLMem.sim_step hw hff I.fl (by trivial) g1
                cases m1
                rw [m2]; rfl
              · cases g1
            have hpc := congrFun I.fl.pc t
            have hlk := I.fl.pay.locked
            have tal : sf.alive t = true := by rw [← I.fl.alive]; exact live t ta
            exact ready_of hpc hlk tal g3 hn2 hfs
        | cas t over =>
          exfalso
          rw [show actor (.cas t over) = t from rfl, cas_loc hs] at hloc
          cases hloc
      · obtain ⟨-, -, h3⟩ := fine_other g hL hs ht
        rw [h3] at hloc
        exact R t c w hloc (live t ta)
    · have hwe : Seg.whole cnt fuel s.seg e' := by
        rcases hkind with rfl | ⟨hgo, -⟩
        · exact hwh _ _ (ha _ rfl)
        · cases e' with
          | fl e => cases e <;> first | trivial | cases hgo
          | mc e => trivial
      obtain ⟨T', sm', sf', -, hk, I'⟩ := k_step hw hf hff I hwe h1
      refine ⟨T', sm', sf', I', fun t c w hloc ta => ?_⟩
      have tal : sf.alive t = true := by rw [← I.fl.alive]; exact live t ta
      by_cases ht : t = actor e
      · subst ht
        cases e with
        | seg e =>
          obtain rfl : e' = e := by
            rcases hkind with h | ⟨-, h⟩
            · cases h; rfl
            · exact absurd rfl (h e)
          have hloc0 : s.loc (who e') = .seen c w := by
            simp only [step] at hs
            split at hs
            · obtain ⟨x, -, rfl⟩ := Option.map_eq_some_iff.1 hs; exact hloc
            · cases hs
          have hfr : free s e' = true := by
            simp only [step] at hs
            split at hs
            · assumption
            · cases hs
          have hrd := R _ c w hloc0 (live _ ta)
          cases e' with
          | fl e => cases e with
            | call t cl =>
              exfalso
              cases hk with
              | fl m hst =>
                cases m
                rcases FL.step_cases hst with ⟨u, _, r, he, -, -, hpc, -⟩ | ⟨_, _, _, he, _⟩ | ⟨_, _, _, he, _⟩ |
                  ⟨_, _, _, _, he, _⟩ | ⟨_, _, _, _, he, _⟩ <;> cases he
                simp only [ready, actor, who, hpc] at hrd
            | go t b c' =>
              exfalso
              simp only [free, Bool.and_eq_true, decide_eq_true_eq] at hfr
              simp only [who] at hloc0
              rw [hfr.2] at hloc0; cases hloc0
            | die t b c' k j =>
              simp only [actor] at ta
              rw [seg_die h1 (.inl ⟨_, _, _, _, _, rfl⟩)] at ta; cases ta
          | mc e => cases e with
            | call t cl => cases hk; exact hrd
            | go t c' => cases hk; exact hrd
            | die t c' j =>
              simp only [actor] at ta
              rw [seg_die h1 (.inr ⟨_, _, _, rfl⟩)] at ta; cases ta
        | lk t =>
          exfalso
          obtain ⟨-, ⟨k, hg, hk, rfl⟩ | ⟨k, hg, rfl⟩ | ⟨q, rfl, hq⟩⟩ := lk_cases g hL hs <;> simp [fset, actor] at hloc
        | load t c' =>
          exfalso
          rw [show actor (.load t c') = t from rfl, hload t c' rfl] at hloc
          cases hloc
        | cas t over =>
          exfalso
          rw [show actor (.cas t over) = t from rfl, cas_loc hs] at hloc
          cases hloc
      · obtain ⟨-, -, h3⟩ := fine_other g hL hs ht
        rw [h3] at hloc
        exact kfollow_ready I.fl.inv hk tal (by rw [hwho]; exact Ne.symm ht) (R t c w hloc (live t ta))

/-! ### Everybody can go on -/

theorem lk_some {s : State} {t : Nat} {g : Tbl × Bool} (ta : s.seg.fl.alive t = true) (hg : gate s.seg t = some g) :
    (lkStep s t).isSome = true := by
  simp only [lkStep, ta, Bool.true_eq_false, if_false, hg]
  split <;> rfl

/-- `go` is possible everywhere inside a call but in front of the table lock. -/
theorem plan_go {m : FL.Mem} {al : Nat → Bool} {t : Nat} {p : FL.Pc} (h1 : ∀ r, p ≠ .done r) (h2 : ∀ q, p ≠ .acq q)
    (h3 : ∀ q, p ≠ .rel q) : (FL.plan m al t p .go).isSome = true := by
  cases p with
  | done r => exact absurd rfl (h1 r)
  | acq q => exact absurd rfl (h2 q)
  | rel q => exact absurd rfl (h3 q)
  | _ => simp only [FL.plan]; (repeat' split) <;> rfl

theorem fl_go {sf : FL.State} {t : Nat} (ta : sf.alive t = true) (h1 : ∀ r, sf.pc t ≠ .done r)
    (h2 : ∀ q, sf.pc t ≠ .acq q) (h3 : ∀ q, sf.pc t ≠ .rel q) : (FL.step sf (.go t .go)).isSome = true := by
  have := plan_go (m := sf.mem) (al := sf.alive) (t := t) h1 h2 h3
  simp only [FL.step, ta, Bool.true_eq_false, if_false]
  simpa using this

theorem seg_go {cnt : Pool → Nat} (hl : Props.Limits cnt) {fuel : Nat} (hff : FLMem.Fuel cnt fuel) {base : Nat → Nat}
    {T : MCMem.Tab} {x : Seg.State} {sm : MC.State} {sf : FL.State} (I : K cnt base T x sm sf) {t : Nat} {c : FL.Choice}
    (h : (FL.step sf (.go t c)).isSome = true) : (Seg.step cnt fuel base x (.fl (.go t (base t) c))).isSome = true := by
  obtain ⟨hw, -⟩ := Props.noWrap_of_limits cnt hl
  obtain ⟨sf', h⟩ := Option.isSome_iff_exists.1 h
  obtain ⟨x', hx', -⟩ := FLMem.sim_back hw hff I.fl (base t) h
  simp only [FLMem.lift] at hx'
  simp [Seg.step, hx']

theorem ready_wants {x : Seg.State} {sf : FL.State} {t : Nat} {c : FL.Choice} (hpc : x.fl.pc t = sf.pc t)
    (hlk : sf.mem.locked = x.fl.pay.locked) (hr : ready sf t c) :
    ∃ o, wants x t c = some o ∧ (attempts x t = true → c = .go ∧ ∃ op f o l, sf.pc t = .spin op f o l ∧ op.mode = .rd) := by
  unfold ready at hr
  simp only [wants, attempts, hpc, ← hlk]
  split at hr
  · rename_i hp
    rw [hp]
    simp only [hr, if_true]
    exact ⟨_, rfl, fun _ => ⟨trivial, _, _, _, _, rfl, hr⟩⟩
  · rename_i hp; rw [hp]; exact ⟨_, rfl, fun h => by cases h⟩
  · rename_i hp; rw [hp]; simp only [hr.2.2.2, if_true]; exact ⟨_, rfl, fun h => by cases h⟩
  · rename_i hp; rw [hp]; simp only [hr.2.2.2, if_true]; exact ⟨_, rfl, fun h => by cases h⟩
  · exact hr.elim

theorem cas_some {cnt : Pool → Nat} (hl : Props.Limits cnt) {fuel : Nat} (hff : FLMem.Fuel cnt fuel) {base : Nat → Nat}
    {T : MCMem.Tab} {s : State} {sm : MC.State} {sf : FL.State} (I : K cnt base T s.seg sm sf) {t : Nat} {c : FL.Choice}
    {w : Int} (hloc : s.loc t = .seen c w) (ta : s.seg.fl.alive t = true) (hr : ready sf t c) :
    (casStep cnt fuel base s t false).isSome = true := by
  have tal : sf.alive t = true := by rw [← I.fl.alive]; exact ta
  obtain ⟨o, h1, h2⟩ := ready_wants (congrFun I.fl.pc t) I.fl.pay.locked hr
  have hgo := seg_go hl hff I (ready_go tal hr)
  simp only [casStep, hloc, h1]
  split
  · split
    · rename_i ha
      obtain ⟨rfl, -⟩ := h2 ha
      simpa using hgo
    · simpa using hgo
  · split
    · rename_i ha
      obtain ⟨rfl, op, f, o, l, hp, hm⟩ := h2 ha
      have : (FL.step sf (.go t .spur)).isSome = true := by
        simp only [FL.step, tal, Bool.true_eq_false, if_false, hp, FL.plan, hm, if_true]
        split <;> rfl
      simpa using seg_go hl hff I this
    · simp [ta]

end Fullock.Fine
