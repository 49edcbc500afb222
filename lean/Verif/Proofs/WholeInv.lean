import Verif.Proofs.Whole
/-! The invariant of the system of processes. -/
namespace Fullock.Whole
open Fullock.Rcsv (Op Obj Ty)
open Fullock.Rcsv.Conc (Prog Frame CState)
open Fullock.Props.RcsvConc (Ghost okC CInv)
open Fullock.FL (Pc Out Under)

variable {P : Par} {R : DevIno → Rng → Prop} {F : Nat → Rcsv.Rng → Prop} {r : Nat → Nat → Rcsv.Rng}

theorem okIn_ok : ∀ (s : FL.State) (e : FL.Ev), Spec.okIn R s e → FL.okDeath s e := fun _ _ h => h.1

theorem okIn_in : ∀ (s : FL.State) (e : FL.Ev), Spec.okIn R s e → Spec.lockIn R e := fun _ _ h => h.2

theorem nodup_outs {s : FL.State} (hi : FL.SInv s) : s.mem.outs.Nodup := nodup_of_keys hi.outs.2

theorem rel_fl {s : State} {p : Nat} {a : CState} {fl' : FL.State} (hrel : Rel P s p a)
    (ho : (heldOf P p fl'.mem.outs).Perm (heldOf P p s.fl.mem.outs))
    (hadv : ∀ t f, (s.proc p).run t = some f → adv (s.inSeg t) (fl'.pc t) f.prog = adv (s.inSeg t) (s.fl.pc t) f.prog) :
    Rel P { s with fl := fl' } p a := by
  obtain ⟨⟨h, h1, h2⟩, h3, h4⟩ := hrel
  refine ⟨⟨h, h1, h2.trans ho.symm⟩, h3, fun t => ?_⟩
  rw [h4 t]
  cases hr : (s.proc p).run t with
  | none => simp only [hr, Option.map_none]
  | some f => simp only [hr, Option.map_some, hadv t f hr]

/-- The frame of a thread for its process. -/
theorem Rel.frame {s : State} {p : Nat} {a : CState} (h : Rel P s p a) {t : Nat} {f : Frame} (hf : (s.proc p).run t = some f) :
    a.run t = some { f with prog := adv (s.inSeg t) (s.fl.pc t) f.prog } := by
  rw [h.run t, hf]; rfl

theorem At.cases {t : Nat} {pr : Prog} {pc : Pc} (h : At P t pr pc) :
    (∃ q w k, pr = .grant q w k ∧ (Under (req P t q (if w then .wr else .rd)) pc ∨ pc = .done 0)) ∨
    ∃ q k, pr = .free q k ∧ UnlAt (req P t q .rd) pc := by
  cases pr with
  | grant q w k => exact .inl ⟨q, w, k, rfl, h⟩
  | free q k => exact .inr ⟨q, k, rfl, h⟩
  | _ => exact h.elim

/-- Events of threads that do not use the class. -/
theorem other_case (hfit : Fits P R F r) {s : State} {G : Nat → Ghost} (hI : SysInv P R F r s G) {e : FL.Ev} {fl' : FL.State}
    (hc : P.cls (tid e) = false) (ha : Spec.okIn R s.fl e) (hs : FL.step s.fl e = some fl') :
    SysInv P R F r { s with fl := fl' } G := by
  have hsi := FL.reach_sinv hI.fl
  have hne : ∀ u, P.cls u = true → tid e ≠ u := fun u hu h => by rw [h, hu] at hc; cases hc
  have hfr := Spec.Reach.step hI.fl ha hs
  refine ⟨hfr, hI.run, fun t ht => alive_frame hs (hI.live t ht) (.inl (hne t ht)), fun t ht hin => ?_, fun t hin => ?_,
    fun x hx hxc => ?_, fun p => ?_⟩
  · obtain ⟨rr, hr⟩ := hI.out t ht hin
    exact ⟨rr, by rw [← hr]; exact pc_frame hs (hne t ht)⟩
  · obtain ⟨h1, f, h2, h3⟩ := hI.seg t hin
    exact ⟨h1, f, h2, by rw [show fl'.pc t = s.fl.pc t from pc_frame hs (hne t h1)]; exact h3⟩
  · exact hI.outs x ((outs_frame hsi hs (hI.live _ hxc) (hne _ hxc)).1 hx) hxc
  · obtain ⟨a, h1, h2⟩ := hI.sim p
    refine ⟨a, h1, rel_fl h2 ?_ ?_⟩
    · refine heldOf_same (nodup_outs hsi) (nodup_outs (FL.reach_sinv hfr)) fun x hx => ?_
      simp only [ofProc, Bool.and_eq_true] at hx
      exact outs_frame hsi hs (hI.live _ hx.1) (hne _ hx.1)
    · intro t f hf
      rw [pc_frame hs (hne t (hI.run p t f hf).1)]

/-- What a segment step of a thread of the class does to the list of locks of the class. -/
theorem seg_frame {s : State} {G : Nat → Ghost} (hI : SysInv P R F r s G) {t : Nat} {c : FL.Choice} {fl' : FL.State}
    (hs : FL.step s.fl (.go t c) = some fl') {a' : CState} (hseg : s.inSeg t = true) {f : Frame}
    (hf : (s.proc (P.pr t)).run t = some f)
    (hA : At P t f.prog (fl'.pc t)) (hO : ∀ x ∈ fl'.mem.outs, P.cls x.2.t = true → x ∈ s.fl.mem.outs ∨
      x.2.key = P.key (P.pr x.2.t) x.2.fd ∧ F (P.pr x.2.t) (back x).1)
    (h1 : Props.RcsvConc.Reach (okC (F (P.pr t))) (r (P.pr t)) a' (G (P.pr t)))
    (h2 : Rel P { s with fl := fl' } (P.pr t) a') : SysInv P R F r { s with fl := fl' } G := by
  have hsi := FL.reach_sinv hI.fl
  have hfr : Spec.Reach (Spec.okIn R) fl' := .step (e := .go t c) hI.fl ⟨trivial, trivial⟩ hs
  refine ⟨hfr, hI.run, fun u hu => alive_frame hs (hI.live u hu) (.inr (fun _ _ h => by cases h)), fun u hu hin => ?_,
    fun u hin => ?_, fun x hx hxc => ?_, fun p => ?_⟩
  · have hut : t ≠ u := fun h => by subst h; simp only at hin; rw [hseg] at hin; cases hin
    obtain ⟨rr, hr⟩ := hI.out u hu hin
    exact ⟨rr, by rw [← hr]; exact pc_frame hs hut⟩
  · obtain ⟨g1, f', g2, g3⟩ := hI.seg u hin
    by_cases hut : t = u
    · subst hut
      rw [hf] at g2; cases g2
      exact ⟨g1, f, hf, hA⟩
    · exact ⟨g1, f', g2, by rw [show fl'.pc u = s.fl.pc u from pc_frame hs hut]; exact g3⟩
  · rcases hO x hx hxc with h | h
    · exact hI.outs x h hxc
    · exact h
  · by_cases hp : p = P.pr t
    · subst hp; exact ⟨a', h1, h2⟩
    · obtain ⟨a, g1, g2⟩ := hI.sim p
      refine ⟨a, g1, rel_fl g2 ?_ ?_⟩
      · refine heldOf_same (nodup_outs hsi) (nodup_outs (FL.reach_sinv hfr)) fun x hx => ?_
        simp only [ofProc, Bool.and_eq_true, beq_iff_eq] at hx
        exact outs_frame hsi hs (hI.live _ hx.1) (fun h : t = x.2.t => hp (by rw [h, hx.2]))
      · intro u f' hf'
        rw [pc_frame hs (fun h : t = u => hp (by rw [h, (hI.run p u f' hf').2.1]))]

/-- A segment step the process does not see. -/
theorem seg_quiet {s : State} {G : Nat → Ghost} (hI : SysInv P R F r s G) {t : Nat} {c : FL.Choice} {fl' : FL.State}
    (hs : FL.step s.fl (.go t c) = some fl') (hseg : s.inSeg t = true) {f : Frame}
    (hf : (s.proc (P.pr t)).run t = some f) (hA : At P t f.prog (fl'.pc t))
    (ho : ∀ x : Nat × Out, x.2.t = t → (x ∈ fl'.mem.outs ↔ x ∈ s.fl.mem.outs))
    (hadv : adv true (fl'.pc t) f.prog = adv true (s.fl.pc t) f.prog) : SysInv P R F r { s with fl := fl' } G := by
  have hsi := FL.reach_sinv hI.fl
  have hfr : Spec.Reach (Spec.okIn R) fl' := .step (e := .go t c) hI.fl ⟨trivial, trivial⟩ hs
  have hO : ∀ x : Nat × Out, P.cls x.2.t = true → (x ∈ fl'.mem.outs ↔ x ∈ s.fl.mem.outs) := by
    intro x hx
    by_cases hxt : x.2.t = t
    · exact ho x hxt
    · exact outs_frame hsi hs (hI.live _ hx) (fun h => hxt h.symm)
  obtain ⟨a, g1, g2⟩ := hI.sim (P.pr t)
  refine seg_frame hI hs (a' := a) hseg hf hA (fun x hx hxc => .inl ((hO x hxc).1 hx)) g1 (rel_fl g2 ?_ ?_)
  · refine heldOf_same (nodup_outs hsi) (nodup_outs (FL.reach_sinv hfr)) fun x hx => ?_
    simp only [ofProc, Bool.and_eq_true, beq_iff_eq] at hx
    exact hO x hx.1
  · intro u f' hf'
    by_cases hut : t = u
    · subst hut
      rw [hf] at hf'; cases hf'
      rw [hseg]; exact hadv
    · rw [pc_frame hs hut]

/-- The locks of a thread change only with its own grants and releases. -/
theorem own_outs {s s' : FL.State} {t : Nat} {c : FL.Choice} (hi : FL.SInv s) (hs : FL.step s (.go t c) = some s') (hal : s.alive t = true)
    (h1 : ∀ op f o l, s.pc t = .setf op f o l → s'.pc t ≠ .done 0) (h2 : ∀ op f o l md, s.pc t ≠ .uWord op f o l md)
    (x : Nat × Out) (hx : x.2.t = t) : x ∈ s'.mem.outs ↔ x ∈ s.mem.outs := by
  constructor
  · intro h
    by_contra hn
    obtain ⟨op, f, o, hp, _, ⟨_, hd⟩ | ⟨c, k, he⟩⟩ := FL.outs_gain hs hn h
    · rw [hx] at hp hd; exact h1 _ _ _ _ hp hd
    · cases he
  · intro h
    by_contra hn
    rcases FL.outs_loss hi hs h hn with h3 | ⟨op, f, o, md, hp, _⟩
    · rw [hx, hal] at h3; cases h3
    · rw [hx] at hp; exact h2 _ _ _ _ _ hp

/-- A step of a lock call. -/
theorem grant_case (hfit : Fits P R F r) {s : State} {G : Nat → Ghost} (hI : SysInv P R F r s G) {t : Nat} {c : FL.Choice}
    {fl' : FL.State} (hs : FL.step s.fl (.go t c) = some fl') (hseg : s.inSeg t = true) {os : List Bool} {op : Op}
    {q : Rcsv.Rng} {w : Bool} {k : Bool → Prog} (hf : (s.proc (P.pr t)).run t = some ⟨.grant q w k, os, op⟩)
    (hU : Under (req P t q (if w then .wr else .rd)) (s.fl.pc t)) : SysInv P R F r { s with fl := fl' } G := by
  have hsi := FL.reach_sinv hI.fl
  obtain ⟨hcls, -⟩ := hI.seg t hseg
  have hal := hI.live t hcls
  have hfr : Spec.Reach (Spec.okIn R) fl' := .step (e := .go t c) hI.fl ⟨trivial, trivial⟩ hs
  have quiet : Under (req P t q (if w then .wr else .rd)) (fl'.pc t) → SysInv P R F r { s with fl := fl' } G := by
    intro hU'
    refine seg_quiet hI hs hseg hf (.inl hU') (own_outs hsi hs hal ?_ ?_) ?_
    · intro op f o l _ h; rw [h] at hU'; exact hU'.1 rfl
    · intro op f o l md h; rw [h] at hU; simp [Under, FL.opOf, FL.code] at hU
    · simp only [adv, under_advG hU, under_advG hU']
  rcases FL.step_cases hs with ⟨t', c', rr, he, _⟩ | ⟨t', c', p, he, _, hpc, _, rfl⟩ |
      ⟨t', c', p, he, _, hpc, rfl⟩ | ⟨t', c', as, p', he, _, hpl, rfl⟩ | ⟨t', c', kk, as, he, _⟩
  · cases he
  · cases he
    refine quiet ?_
    rw [hpc] at hU
    simpa [FL.State.setPc, Under, FL.code, FL.opOf] using hU
  · cases he
    refine quiet ?_
    rw [hpc] at hU
    simpa [FL.State.setPc, Under, FL.code, FL.opOf] using hU
  · cases he
    rcases FL.plan_under hpl hU with h3 | ⟨ff, o, l, h3, rfl, rfl⟩
    · exact quiet (by simpa [FL.State.setPc] using h3)
    · clear quiet
      obtain ⟨-, hp', hos⟩ := hI.run _ _ _ hf
      simp only at hos
      subst hos
      obtain ⟨a, g1, g2⟩ := hI.sim (P.pr t)
      have hfr2 := g2.frame hf
      rw [hseg] at hfr2
      simp only [adv, under_advG hU, if_true] at hfr2
      obtain ⟨hqt, hqF⟩ := head_fam (hfit.sepF _) (fun i => (hfit.obj _ i).1) g1 hfr2 (.inl ⟨w, k, rfl⟩)
      obtain ⟨q1, q2, q3⟩ := hfit.fam _ q hqF
      have hq4 := conv_off q2
      have hW := (hsi.thr t hal).2
      rw [h3] at hW
      have hlf : s.fl.mem.locked l = false := hW.2.2.2.2.2.1
      have hnew : ∀ x ∈ s.fl.mem.outs, x.1 ≠ l := by
        intro x hx e
        obtain ⟨f', o', _, _, _, _, _, hlk, _⟩ := hsi.outs.1 x hx
        rw [e, hlf] at hlk; cases hlk
      have hback : back (l, Spec.lockOf t (req P t q (if w then .wr else .rd))) = (q, if w then .write else .read) := by
        obtain ⟨qt, qf, qo, ql⟩ := q
        simp only at hqt
        subst hqt
        simp only [conv] at hq4
        cases w <;> simp [back, Spec.lockOf, req, conv, hq4.1, hq4.2] at hq4 ⊢ <;> omega
      have hexc : Spec.Exclusive (({ s.fl with mem := s.fl.mem.acts [.flag l (Spec.lockOf t (req P t q (if w then .wr else .rd)))] } : FL.State).setPc t (.done 0)) :=
        FL.exclusive_of_inv (FL.separate_clustered hfit.sep) (FL.reach_sinv hfr) (FL.reach_winv okIn_ok hfr) (FL.reach_rinv okIn_in hfr)
      obtain ⟨h, g3, g4⟩ := g2.sh
      have hbusy : Rcsv.Conc.busy a.sh.held q w = false := by
        cases hb : Rcsv.Conc.busy a.sh.held q w with
        | false => rfl
        | true =>
          exfalso
          simp only [Rcsv.Conc.busy, List.any_eq_true, Bool.and_eq_true, Bool.or_eq_true, beq_iff_eq] at hb
          obtain ⟨z, hz, hcl, hw⟩ := hb
          have hz' : z ∈ heldOf P (P.pr t) s.fl.mem.outs := g4.mem_iff.1 (by rw [g3] at hz; exact hz)
          obtain ⟨y, hy, y1, y2, rfl⟩ := mem_heldOf hz'
          obtain ⟨y3, y4⟩ := hI.outs y hy y1
          rw [y2] at y3 y4
          obtain ⟨z1, z2, z3⟩ := hfit.fam _ _ y4
          simp only [Rcsv.Conc.clash, Bool.and_eq_true, Bool.or_eq_true, beq_iff_eq, decide_eq_true_eq] at hcl
          obtain ⟨c1, c2⟩ := hcl
          have hov : Spec.Overlap (conv (back y).1) (conv q) := by
            apply conv_overlap z1 q1 z2 q2 <;> omega
          rw [back_rng] at hov
          refine hexc (l, Spec.lockOf t (req P t q (if w then .wr else .rd))) ?_ y ?_ (fun e => hnew y hy e.symm) ⟨?_, ?_, ?_⟩
          · simp [FL.State.setPc, FL.Mem.acts, FL.Mem.act]
          · simp [FL.State.setPc, FL.Mem.acts, FL.Mem.act, hy]
          · rw [y3]
            show P.key (P.pr t) q.fd = _
            rw [← c1]; rfl
          · exact FL.overlap_symm hov
          · rcases hw with rfl | hw
            · left; rfl
            · right
              simp only [back] at hw
              split at hw
              · assumption
              · cases hw
      have hst := grant_true hfr2 hbusy
      have g1' := Props.RcsvConc.Reach.step g1 t _ hst
      rw [learn_seg hfr2 (.inl ⟨q, w, k, rfl⟩)] at g1'
      refine seg_frame hI hs hseg hf (.inr ?_) ?_ g1' ⟨⟨h ++ [(q, if w then .write else .read)], ?_, ?_⟩, g2.owner, fun u => ?_⟩
      · simp [FL.State.setPc]
      · intro x hx hxc
        simp only [FL.State.setPc, FL.Mem.acts, FL.Mem.act, List.foldl_cons, List.foldl_nil, List.mem_cons] at hx
        rcases hx with rfl | hx
        · right
          refine ⟨rfl, ?_⟩
          rw [hback]; exact hqF
        · exact .inl hx
      · simp only; rw [g3]
      · refine (List.perm_append_singleton _ _).trans ?_
        refine (g4.cons _).trans ?_
        rw [← hback]
        refine (heldOf_gain (nodup_outs hsi) (nodup_outs (FL.reach_sinv hfr)) ?_ ?_ ?_).symm
        · simp [ofProc, Spec.lockOf, hcls]
        · intro hm; exact hnew _ hm rfl
        · intro x _
          simp [FL.State.setPc, FL.Mem.acts, FL.Mem.act]
      · by_cases hu : u = t
        · subst hu
          simp only [if_true, hf, Option.map_some, hseg]
          simp [adv, FL.State.setPc, advG]
        · simp only [hu, if_false, FL.State.setPc, FL.fset_other _ _ hu]
          exact g2.run u
  · cases he

theorem heldOf_ty {p : Nat} {o : List (Nat × Out)} : ∀ z ∈ heldOf P p o, z.2 = .read ∨ z.2 = .write := by
  intro z hz
  obtain ⟨y, _, _, _, rfl⟩ := mem_heldOf hz
  simp only [back]; split <;> simp

/-- A step of an unlock call. -/
theorem free_case (hfit : Fits P R F r) {s : State} {G : Nat → Ghost} (hI : SysInv P R F r s G) {t : Nat} {c : FL.Choice}
    {fl' : FL.State} (hs : FL.step s.fl (.go t c) = some fl') (hseg : s.inSeg t = true) {os : List Bool} {op : Op}
    {q : Rcsv.Rng} {k : Bool → Prog} (hf : (s.proc (P.pr t)).run t = some ⟨.free q k, os, op⟩)
    (hU : UnlAt (req P t q .rd) (s.fl.pc t)) : SysInv P R F r { s with fl := fl' } G := by
  have hsi := FL.reach_sinv hI.fl
  obtain ⟨hcls, -⟩ := hI.seg t hseg
  have hal := hI.live t hcls
  have hfr : Spec.Reach (Spec.okIn R) fl' := .step (e := .go t c) hI.fl ⟨trivial, trivial⟩ hs
  have quiet : UnlAt (req P t q .rd) (fl'.pc t) → (∀ op f o l md, s.fl.pc t ≠ .uWord op f o l md) →
      advF (fl'.pc t) = advF (s.fl.pc t) → SysInv P R F r { s with fl := fl' } G := by
    intro hU' hw hadv
    refine seg_quiet hI hs hseg hf hU' (own_outs hsi hs hal ?_ hw) ?_
    · intro op f o l h; rw [h] at hU; simp [UnlAt, FL.uop] at hU
    · simp only [adv, hadv]
  obtain ⟨-, hp', hos⟩ := hI.run _ _ _ hf
  simp only at hos
  subst hos
  obtain ⟨a, g1, g2⟩ := hI.sim (P.pr t)
  obtain ⟨h, g3, g4⟩ := g2.sh
  have hfr2 := g2.frame hf
  rw [hseg] at hfr2
  have hri := FL.reach_rinv okIn_in hI.fl
  have hfam : advF (s.fl.pc t) = none → q.tid = t ∧ F (P.pr t) q ∧ 0 < q.len ∧ q.off + q.len < 2 ^ 63 ∧
      R (P.key (P.pr t) q.fd) (conv q) := by
    intro hn
    simp only [adv, hn, if_true] at hfr2
    obtain ⟨hqt, hqF⟩ := head_fam (hfit.sepF _) (fun i => (hfit.obj _ i).1) g1 hfr2 (.inr ⟨k, rfl⟩)
    exact ⟨hqt, hqF, hfit.fam _ q hqF⟩
  rcases FL.step_cases hs with ⟨t', c', rr, he, _⟩ | ⟨t', c', p, he, _, hpc, _, rfl⟩ |
      ⟨t', c', p, he, _, hpc, rfl⟩ | ⟨t', c', as, p', he, _, hpl, rfl⟩ | ⟨t', c', kk, as, he, _⟩
  · cases he
  · cases he
    have hen := (hsi.thr t hal).2
    rw [hpc] at hU hen
    have hu : FL.uop p = some (req P t q .rd) := by
      rcases hU with h | ⟨r, h⟩ | ⟨r, h⟩
      · exact h
      · cases h
      · cases h
    refine quiet ?_ (by intro _ _ _ _ _; rw [hpc]; simp) ?_
    · left; simpa [FL.State.setPc] using hu
    · rw [hpc]
      have := hen.1
      cases p <;> simp [FL.entry, FL.uop] at this hu ⊢ <;> simp [FL.State.setPc, advF]
  · cases he
    have hen := (hsi.thr t hal).2
    rw [hpc] at hU hen
    refine quiet ?_ (by intro _ _ _ _ _; rw [hpc]; simp) ?_
    · rcases hU with h | ⟨r, h⟩ | ⟨r, h⟩
      · left; simpa [FL.State.setPc, FL.uop] using h
      · right; right; cases h; exact ⟨r, by simp [FL.State.setPc]⟩
      · cases h
    · rw [hpc]
      have := hen.1
      cases p <;> simp [FL.leave] at this ⊢ <;> simp [FL.State.setPc, advF]
  · cases he
    have hu : FL.uop (s.fl.pc t) = some (req P t q .rd) := by
      rcases hU with h | ⟨r, h⟩ | ⟨r, h⟩
      · exact h
      · rw [h] at hpl; simp [FL.plan] at hpl
      · rw [h] at hpl; simp [FL.plan] at hpl
    rcases plan_unl hpl hu with ⟨h1, rfl, ⟨ff, o, l, md, rfl⟩ | rfl⟩ | ⟨ff, o, l, md, h1, rfl, rfl⟩ | ⟨h1, h2, h3⟩
    · refine quiet (.inl (by simp [FL.State.setPc, FL.uop])) (by intro _ _ _ _ _; rw [h1]; simp) ?_
      rw [h1]; simp [FL.State.setPc, advF]
    · obtain ⟨hqt, hqF, q1, q2, q3⟩ := hfam (by rw [h1]; rfl)
      rw [h1] at hfr2 hpl
      simp only [adv, advF, if_true] at hfr2
      have hno : ∀ z ∈ a.sh.held, z.1 ≠ q := by
        intro z hz e
        have hz' : z ∈ heldOf P (P.pr t) s.fl.mem.outs := g4.mem_iff.1 (by rw [g3] at hz; exact hz)
        obtain ⟨y, hy, y1, y2, rfl⟩ := mem_heldOf hz'
        obtain ⟨y3, y4⟩ := hI.outs y hy y1
        have e1 : y.2.t = t := by rw [← hqt, ← e]; rfl
        have e2 : y.2.fd = q.fd := by rw [← e]; rfl
        rw [← e1] at hpl
        refine unlock_found hfit.sep hsi hri hy (op := req P y.2.t q .rd) e2 ?_ ?_ hpl
        · rw [y3, e2]; rfl
        · rw [← back_rng, e]; rfl
      have hst := free_false hfr2 hno
      have g1' := Props.RcsvConc.Reach.step g1 t _ hst
      rw [learn_seg hfr2 (.inr ⟨q, k, rfl⟩)] at g1'
      refine seg_frame hI hs hseg hf (.inr (.inl ⟨FL.EINVAL, ?_⟩)) ?_ g1' ⟨⟨h, g3, g4⟩, g2.owner, fun u => ?_⟩
      · simp [FL.State.setPc]
      · intro x hx _; exact .inl hx
      · by_cases hu : u = t
        · subst hu
          simp only [if_true, hf, Option.map_some, hseg]
          simp [adv, FL.State.setPc, advF, FL.EINVAL]
        · simp only [hu, if_false, FL.State.setPc, FL.fset_other _ _ hu]
          exact g2.run u
    · obtain ⟨hqt, hqF, q1, q2, q3⟩ := hfam (by rw [h1]; rfl)
      have hfr3 := hfr2
      rw [h1] at hfr2
      simp only [adv, advF, if_true] at hfr2
      have hI2 := Props.RcsvConc.reach_inv (hfit.sepF _) (fun i => (hfit.obj _ i).1) g1
      obtain ⟨y, hy, rfl, y2⟩ := uWord_out hfit.sep hsi hri (FL.reach_lo hI.fl) hal h1 q3
      have hyt : y.2.t = t := by rw [y2]
      have hoff := conv_off q2
      have hb : (back y).1 = q := by
        rw [back, y2]
        show (⟨t, q.fd, (conv q).off.toNat, (conv q).len.toNat⟩ : Rcsv.Rng) = q
        rw [hoff.1, hoff.2, ← hqt]
      have hrev : ∀ x, x ∈ ((s.fl.mem.acts [.unl o y.1]).outs) ↔ x ∈ s.fl.mem.outs ∧ x.1 ≠ y.1 := by
        intro x; simp only [FL.Mem.acts, FL.Mem.act, List.foldl_cons, List.foldl_nil]; exact FL.mem_revoke
      have hper : (heldOf P (P.pr t) s.fl.mem.outs).Perm (back y :: heldOf P (P.pr t) (s.fl.mem.acts [.unl o y.1]).outs) := by
        refine heldOf_gain (nodup_outs (FL.reach_sinv hfr)) (nodup_outs hsi) ?_ ?_ ?_
        · simp [ofProc, hyt, hcls]
        · intro hm; exact ((hrev y).1 hm).2 rfl
        · intro x _
          rw [hrev]
          constructor
          · intro hx
            by_cases he : x.1 = y.1
            · left; 
              by_contra hne
              rcases Props.pairwise_or (List.pairwise_map.1 hsi.outs.2) hx hy hne with h | h
              · exact h he
              · exact h he.symm
            · exact .inr ⟨hx, he⟩
          · rintro (rfl | hx)
            · exact hy
            · exact hx.1
      have hper2 : a.sh.held.Perm ((q, (back y).2) :: heldOf P (P.pr t) (s.fl.mem.acts [.unl o y.1]).outs) := by
        have : (q, (back y).2) = back y := by rw [← hb]
        rw [this, g3]; exact g4.trans hper
      obtain ⟨hh, g5, hst⟩ := free_true hfr2 hI2.base.held hper2
        (fun z hz => heldOf_ty z (g4.mem_iff.1 (by rw [g3] at hz; exact hz)))
      have g1' := Props.RcsvConc.Reach.step g1 t _ hst
      rw [learn_seg hfr2 (.inr ⟨q, k, rfl⟩)] at g1'
      refine seg_frame hI hs hseg hf (.inl ?_) ?_ g1' ⟨⟨hh, ?_, g5⟩, g2.owner, fun u => ?_⟩
      · simp [FL.State.setPc, FL.uop]
      · intro x hx _; exact .inl ((hrev x).1 hx).1
      · simp only; rw [g3]
      · by_cases hu : u = t
        · subst hu
          simp only [if_true, hf, Option.map_some, hseg]
          simp [adv, FL.State.setPc, advF]
        · simp only [hu, if_false, FL.State.setPc, FL.fset_other _ _ hu]
          exact g2.run u
    · refine quiet (by simpa [FL.State.setPc] using h3) ?_ (by simp [FL.State.setPc, h1, h2])
      intro _ _ _ _ _ h; rw [h] at h1; simp [advF] at h1
  · cases he

theorem sysinv_init (hfit : Fits P R F r) (nf no nl : Nat) (junk : FL.Mem) :
    SysInv P R F r (init r nf no nl junk) (fun _ => ⟨fun _ => .free, fun _ => []⟩) := by
  refine ⟨.init nf no nl junk, fun p t f h => (by cases h), fun _ _ => rfl, fun _ _ _ => ⟨0, rfl⟩, fun _ h => (by cases h),
    fun x hx => (by cases hx), fun p => ⟨Rcsv.Conc.init (r p), .init, ⟨[], rfl, ?_⟩, rfl, fun t => rfl⟩⟩
  exact List.Perm.nil

theorem call_case (hfit : Fits P R F r) {s : State} {G : Nat → Ghost} (hI : SysInv P R F r s G) {t : Nat} {op : Op}
    (ht : (r (P.pr t) (Props.Rcsv.opObj op)).tid = t) (hok : okC (F (P.pr t)) (s.proc (P.pr t)).sh [] op) {s' : State}
    (e : step P s (.call t op) = some s') :
    SysInv P R F r s' (fun p => if p = P.pr t then
        { G p with use := fun u => if u = t then Rcsv.Conc.ranges (s.proc p).sh op else (G p).use u } else G p) := by
  have hcls : P.cls t = true := by
    have := (hfit.obj (P.pr t) (Props.Rcsv.opObj op)).2.1
    rwa [ht] at this
  simp only [step, hcls, if_true, Option.map_eq_some_iff] at e
  obtain ⟨c', hc, rfl⟩ := e
  unfold Rcsv.Conc.call at hc
  cases hrun : (s.proc (P.pr t)).run t with
  | some f => rw [hrun] at hc; cases hc
  | none =>
    rw [hrun] at hc
    simp only [Option.some.injEq] at hc
    subst hc
    have hin : s.inSeg t = false := by
      cases h : s.inSeg t with
      | false => rfl
      | true => obtain ⟨_, f, hf, _⟩ := hI.seg t h; rw [hrun] at hf; cases hf
    refine ⟨hI.fl, fun p u f hf => ?_, hI.live, hI.out, fun u hu => ?_, hI.outs, fun p => ?_⟩
    · simp only [State.setProc] at hf
      split at hf
      · rename_i hp
        subst hp
        simp only [CState.goto] at hf
        split at hf
        · rename_i hu
          subst hu
          cases hf
          exact ⟨hcls, rfl, rfl⟩
        · exact hI.run _ _ _ hf
      · exact hI.run _ _ _ hf
    · obtain ⟨g1, f, g2, g3⟩ := hI.seg u hu
      refine ⟨g1, f, ?_, g3⟩
      have hu' : s.inSeg u = true := hu
      have hut : u ≠ t := fun h => by rw [h, hin] at hu'; cases hu'
      simp only [State.setProc]
      split
      · rename_i hp
        simp only [CState.goto, hut, if_false]
        rw [← hp]; exact g2
      · exact g2
    · by_cases hp : p = P.pr t
      · subst hp
        obtain ⟨a, g1, g2⟩ := hI.sim (P.pr t)
        obtain ⟨h, g3, g4⟩ := g2.sh
        have harun : a.run t = none := by rw [g2.run t, hrun]; rfl
        have hok' : okC (F (P.pr t)) a.sh [] op := by
          rw [g3]; exact hok
        have hcall : Rcsv.Conc.call a t [] op = some (a.goto t (some ⟨Rcsv.Conc.callP op, [], op⟩)) := by
          unfold Rcsv.Conc.call; rw [harun]
        have := Props.RcsvConc.Reach.call g1 t [] op ht hok' _ hcall
        refine ⟨a.goto t (some ⟨Rcsv.Conc.callP op, [], op⟩), ?_, ?_⟩
        · simp only [if_true]
          rw [show Rcsv.Conc.ranges (s.proc (P.pr t)).sh op = Rcsv.Conc.ranges a.sh op by rw [g3]; cases op <;> rfl]
          exact this
        · refine ⟨⟨h, ?_, g4⟩, ?_, fun u => ?_⟩
          · simp only [State.setProc, if_true, CState.goto]; exact g3
          · simp only [State.setProc, if_true, CState.goto]; exact g2.owner
          · simp only [State.setProc, if_true, CState.goto]
            split
            · rename_i hu
              subst hu
              simp [hin, adv_false]
            · exact g2.run u
      · obtain ⟨a, g1, g2⟩ := hI.sim p
        simp only [hp, if_false]
        refine ⟨a, g1, ?_, ?_, ?_⟩ <;> simp only [State.setProc, hp, if_false]
        · exact g2.sh
        · exact g2.owner
        · exact g2.run

theorem own_case {s : State} {G : Nat → Ghost} (hI : SysInv P R F r s G) {t : Nat} {s' : State}
    (e : step P s (.own t) = some s') :
    SysInv P R F r s' (fun p => if p = P.pr t then (G p).learn (s.proc p) t else G p) := by
  simp only [step] at e
  split at e
  · rename_i hcls
    cases hrun : (s.proc (P.pr t)).run t with
    | none => rw [hrun] at e; cases e
    | some f =>
      rw [hrun] at e
      simp only at e
      cases hsc : segCall P t f.prog with
      | some _ => rw [hsc] at e; cases e
      | none =>
        rw [hsc] at e
        simp only [Option.map_eq_some_iff] at e
        obtain ⟨c', hc, rfl⟩ := e
        have hin : s.inSeg t = false := by
          cases h : s.inSeg t with
          | false => rfl
          | true =>
            obtain ⟨_, f', hf', hA⟩ := hI.seg t h
            rw [hrun] at hf'; cases hf'
            rcases hA.cases with ⟨q, w, k, e, _⟩ | ⟨q, k, e, _⟩ <;> rw [e] at hsc <;> cases hsc
        obtain ⟨_, hoth, hos⟩ := own_sim hrun hsc hc [] (s.proc (P.pr t)).run hrun
        refine ⟨hI.fl, fun p u f' hf' => ?_, hI.live, hI.out, fun u hu => ?_, hI.outs, fun p => ?_⟩
        · simp only [State.setProc] at hf'
          split at hf'
          · rename_i hp
            subst hp
            by_cases hut : u = t
            · subst hut
              exact ⟨hcls, rfl, by rw [hos _ hf', (hI.run _ _ _ hrun).2.2]⟩
            · rw [hoth u hut] at hf'; exact hI.run _ _ _ hf'
          · exact hI.run _ _ _ hf'
        · obtain ⟨g1, f', g2, g3⟩ := hI.seg u hu
          refine ⟨g1, f', ?_, g3⟩
          have hu' : s.inSeg u = true := hu
          have hut : u ≠ t := fun h => by rw [h, hin] at hu'; cases hu'
          simp only [State.setProc]
          split
          · rename_i hp
            rw [hoth u hut, ← hp]; exact g2
          · exact g2
        · by_cases hp : p = P.pr t
          · subst hp
            obtain ⟨a, g1, g2⟩ := hI.sim (P.pr t)
            obtain ⟨h, g3, g4⟩ := g2.sh
            have harun : a.run t = some f := by rw [g2.frame hrun, hin, adv_false]
            obtain ⟨hst, _, _⟩ := own_sim hrun hsc hc h a.run harun
            have ha : a = ⟨{ (s.proc (P.pr t)).sh with held := h }, (s.proc (P.pr t)).owner, a.run⟩ := by
              rw [← g3, ← g2.owner]
            rw [← ha] at hst
            have g1' := Props.RcsvConc.Reach.step g1 t _ hst
            refine ⟨⟨{ c'.sh with held := h }, c'.owner, fun u => if u = t then c'.run t else a.run u⟩, ?_, ?_⟩
            · simp only [if_true]
              have : (G (P.pr t)).learn (s.proc (P.pr t)) t = (G (P.pr t)).learn a t := by
                unfold Ghost.learn; rw [harun, hrun]
              rw [this]; exact g1'
            · refine ⟨⟨h, ?_, g4⟩, ?_, fun u => ?_⟩
              · simp only [State.setProc, if_true]
              · simp only [State.setProc, if_true]
              · simp only [State.setProc, if_true]
                split
                · rename_i hu
                  subst hu
                  rw [hin]
                  simp [adv_false]
                · rename_i hu
                  rw [hoth u hu]; exact g2.run u
          · obtain ⟨a, g1, g2⟩ := hI.sim p
            simp only [hp, if_false]
            refine ⟨a, g1, ?_, ?_, ?_⟩ <;> simp only [State.setProc, hp, if_false]
            · exact g2.sh
            · exact g2.owner
            · exact g2.run
  · cases e

theorem enter_case (hfit : Fits P R F r) {s : State} {G : Nat → Ghost} (hI : SysInv P R F r s G) {t : Nat} {s' : State}
    (e : step P s (.enter t) = some s') : SysInv P R F r s' G := by
  simp only [step] at e
  split at e
  · rename_i hcond
    simp only [Bool.and_eq_true, Bool.not_eq_true'] at hcond
    obtain ⟨hcls, hin⟩ := hcond
    cases hrun : (s.proc (P.pr t)).run t with
    | none => rw [hrun] at e; cases e
    | some f =>
      rw [hrun] at e
      simp only at e
      cases hsc : segCall P t f.prog with
      | none => rw [hsc] at e; cases e
      | some c =>
        rw [hsc] at e
        simp only [Option.map_eq_some_iff] at e
        obtain ⟨fl', hs, rfl⟩ := e
        have hsi := FL.reach_sinv hI.fl
        obtain ⟨a, g1, g2⟩ := hI.sim (P.pr t)
        have harun : a.run t = some f := by rw [g2.frame hrun, hin, adv_false]
        have hA : At P t f.prog c.start ∧ adv true c.start f.prog = f.prog ∧ Spec.okIn R s.fl (.call t c) := by
          cases hp : f.prog with
          | grant q w k =>
            rw [hp] at hsc; cases hsc
            obtain ⟨_, hqF⟩ := head_fam (hfit.sepF _) (fun i => (hfit.obj _ i).1) g1 harun (.inl ⟨w, k, hp⟩)
            refine ⟨.inl ⟨?_, .inl ?_⟩, rfl, ⟨trivial, ?_⟩⟩
            · simp [FL.Call.start, FL.code]
            · simp [FL.Call.start, FL.opOf]
            · exact (hfit.fam _ q hqF).2.2
          | free q k =>
            rw [hp] at hsc; cases hsc
            exact ⟨.inl rfl, rfl, trivial, trivial⟩
          | _ => rw [hp] at hsc; cases hsc
        have hpc : fl'.pc t = c.start ∧ fl'.mem = s.fl.mem := by
          rcases FL.step_cases hs with ⟨t', c', rr, he, _, _, _, rfl⟩ | ⟨t', c', p, he, _⟩ |
            ⟨t', c', p, he, _⟩ | ⟨t', c', as, p', he, _⟩ | ⟨t', c', kk, as, he, _⟩ <;> cases he
          exact ⟨by simp [FL.State.setPc], rfl⟩
        refine ⟨.step hI.fl hA.2.2 hs, hI.run, fun u hu => alive_frame hs (hI.live u hu) (.inr (fun _ _ h => by cases h)),
          fun u hu hin' => ?_, fun u hin' => ?_, ?_, fun p => ?_⟩
        · by_cases hut : u = t
          · simp [State.mark, hut] at hin'
          · simp only [State.mark, hut, if_false] at hin'
            obtain ⟨rr, hr⟩ := hI.out u hu hin'
            exact ⟨rr, by rw [← hr]; exact pc_frame hs (fun h => hut h.symm)⟩
        · by_cases hut : u = t
          · subst hut
            exact ⟨hcls, f, hrun, by simp only [State.mark, hpc.1]; exact hA.1⟩
          · simp only [State.mark, hut, if_false] at hin'
            obtain ⟨g1, f', g2, g3⟩ := hI.seg u hin'
            exact ⟨g1, f', g2, by
              simp only [State.mark]
              rw [pc_frame hs (fun h => hut h.symm)]; exact g3⟩
        · simp only [State.mark, hpc.2]; exact hI.outs
        · obtain ⟨a, g1, g2⟩ := hI.sim p
          refine ⟨a, g1, ?_, g2.owner, fun u => ?_⟩
          · simp only [State.mark, hpc.2]; exact g2.sh
          · simp only [State.mark]
            cases hru : (s.proc p).run u with
            | none => rw [g2.run u, hru]; rfl
            | some f' =>
              rw [g2.frame hru]
              by_cases hut : u = t
              · subst hut
                have := (hI.run p u f' hru).2.1
                subst this
                rw [hrun] at hru; cases hru
                simp only [if_true, Option.map_some, hpc.1, hin, adv_false, hA.2.1]
              · simp only [hut, if_false, Option.map_some]
                rw [pc_frame hs (fun h => hut h.symm)]
  · cases e

theorem leave_case {s : State} {G : Nat → Ghost} (hI : SysInv P R F r s G) {t : Nat} {s' : State}
    (hg : ∀ f q w k, (s.proc (P.pr t)).run t = some f → f.prog = .grant q w k → s.fl.pc t = .done 0)
    (e : step P s (.leave t) = some s') : SysInv P R F r s' G := by
  simp only [step] at e
  split at e
  · rename_i hcond
    simp only [Bool.and_eq_true] at hcond
    obtain ⟨hcls, hin⟩ := hcond
    split at e
    · rename_i rr f hpc hrun
      simp only [Option.some.injEq] at e
      subst e
      have hres : adv true (s.fl.pc t) f.prog = resume (rr == 0) f.prog := by
        obtain ⟨_, f', hf', hA⟩ := hI.seg t hin
        rw [hrun] at hf'; cases hf'
        rcases hA.cases with ⟨q, w, k, e, _⟩ | ⟨q, k, e, _⟩
        · have := hg f q w k hrun e
          rw [this] at hpc
          cases hpc
          rw [this, e]; rfl
        · rw [hpc, e]; rfl
      refine ⟨hI.fl, fun p u f' hf' => ?_, hI.live, fun u hu hin' => ?_, fun u hin' => ?_, hI.outs, fun p => ?_⟩
      · simp only [State.mark, State.setProc] at hf'
        split at hf'
        · rename_i hp
          subst hp
          simp only [CState.goto] at hf'
          split at hf'
          · rename_i hu
            subst hu
            cases hf'
            exact ⟨hcls, rfl, (hI.run _ _ _ hrun).2.2⟩
          · exact hI.run _ _ _ hf'
        · exact hI.run _ _ _ hf'
      · by_cases hut : u = t
        · subst hut; exact ⟨rr, hpc⟩
        · simp only [State.mark, State.setProc, hut, if_false] at hin'
          exact hI.out u hu hin'
      · have hut : u ≠ t := fun h => by simp [State.mark, h] at hin'
        simp only [State.mark, State.setProc, hut, if_false] at hin'
        obtain ⟨g1, f', g2, g3⟩ := hI.seg u hin'
        refine ⟨g1, f', ?_, g3⟩
        simp only [State.mark, State.setProc]
        split
        · rename_i hp
          simp only [CState.goto, hut, if_false]
          rw [← hp]; exact g2
        · exact g2
      · obtain ⟨a, g1, g2⟩ := hI.sim p
        refine ⟨a, g1, ?_⟩
        by_cases hp : p = P.pr t
        · subst hp
          obtain ⟨h, g3, g4⟩ := g2.sh
          refine ⟨⟨h, ?_, g4⟩, ?_, fun u => ?_⟩ <;> simp only [State.mark, State.setProc, if_true, CState.goto]
          · exact g3
          · exact g2.owner
          · by_cases hut : u = t
            · subst hut
              rw [g2.frame hrun]
              simp only [if_true, Option.map_some, adv_false, hin, hres]
            · simp only [hut, if_false]; exact g2.run u
        · refine ⟨?_, ?_, fun u => ?_⟩ <;> simp only [State.mark, State.setProc, hp, if_false]
          · exact g2.sh
          · exact g2.owner
          · rw [g2.run u]
            cases hru : (s.proc p).run u with
            | none => rfl
            | some f' =>
              have hut : u ≠ t := fun h => hp (by rw [← h, (hI.run p u f' hru).2.1])
              simp only [hut, if_false]
    · cases e
  · cases e

/-- The invariant holds in every reachable state. -/
theorem reach_sys (hfit : Fits P R F r) {s : State} {G : Nat → Ghost} (h : Reach P R F r s G) : SysInv P R F r s G := by
  induction h with
  | init nf no nl junk => exact sysinv_init hfit nf no nl junk
  | call h t op ht hok s' e ih => exact call_case hfit ih ht hok e
  | own h t s' e ih => exact own_case ih e
  | enter h t s' e ih => exact enter_case hfit ih e
  | leave h t hg s' e ih => exact leave_case ih hg e
  | seg h t c s' e ih =>
    simp only [step] at e
    split at e
    · rename_i hcond
      simp only [Bool.and_eq_true] at hcond
      obtain ⟨hcls, hin⟩ := hcond
      simp only [Option.map_eq_some_iff] at e
      obtain ⟨fl', hs, rfl⟩ := e
      obtain ⟨_, f, hf, hA⟩ := ih.seg t hin
      obtain ⟨p, os, op⟩ := f
      rcases hA.cases with ⟨q, w, k, e, hU | hU⟩ | ⟨q, k, e, hU⟩ <;> simp only at e <;> subst e
      · exact grant_case hfit ih hs hin hf hU
      · simp [FL.step, hU, FL.plan] at hs
      · exact free_case hfit ih hs hin hf hU
    · cases e
  | other h e' ha s' e ih =>
    simp only [step] at e
    split at e
    · cases e
    · rename_i hc
      simp only [Option.map_eq_some_iff] at e
      obtain ⟨fl', hs, rfl⟩ := e
      exact other_case hfit ih (by simpa using hc) ha hs

end Fullock.Whole
