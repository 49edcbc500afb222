import Verif.Spec.Whole
import Verif.Proofs.Deadlock
import Verif.Proofs.FLMore
import Verif.Proofs.FLSolo
/-! Each process of the system runs as the class does on a segment that grants and refuses at once. -/
namespace Fullock.Whole
open Fullock.Rcsv (Op Obj Ty)
open Fullock.Rcsv.Conc (Prog Frame CState)
open Fullock.Props.RcsvConc (Ghost okC CInv)
open Fullock.FL (Pc Out Under)

/-- An entry of the list of locks in force as the process sees it. -/
def back (x : Nat × Out) : Rcsv.Rng × Ty :=
  (⟨x.2.t, x.2.fd, x.2.rng.off.toNat, x.2.rng.len.toNat⟩, if x.2.mode = .wr then .write else .read)

def ofProc (P : Par) (p : Nat) (x : Nat × Out) : Bool := P.cls x.2.t && P.pr x.2.t == p

def heldOf (P : Par) (p : Nat) (outs : List (Nat × Out)) : List (Rcsv.Rng × Ty) := (outs.filter (ofProc P p)).map back

def advF : Pc → Option Bool
  | .uFlag .. | .uCut .. | .uOff .. | .uFile .. => some true
  | .rel (.done r) => some (r == 0)
  | .done r => some (r == 0)
  | _ => none

def advG : Pc → Option Bool
  | .done 0 => some true
  | _ => none

/-- The program as it is for the process: a segment call takes effect in one moment. -/
def adv (b : Bool) (pc : Pc) : Prog → Prog
  | .grant q w k => if b then (match advG pc with | some c => k c | none => .grant q w k) else .grant q w k
  | .free q k => if b then (match advF pc with | some c => k c | none => .free q k) else .free q k
  | p => p

theorem adv_false (pc : Pc) (p : Prog) : adv false pc p = p := by cases p <;> rfl

/-- The places of an unlock call. -/
def UnlAt (op : FL.Op) (pc : Pc) : Prop := FL.uop pc = some op ∨ (∃ r, pc = .rel (.done r)) ∨ ∃ r, pc = .done r

def At (P : Par) (t : Nat) : Prog → Pc → Prop
  | .grant q w _, pc => Under (req P t q (if w then .wr else .rd)) pc ∨ pc = .done 0
  | .free q _, pc => UnlAt (req P t q .rd) pc
  | _, _ => False

structure Rel (P : Par) (s : State) (p : Nat) (a : CState) : Prop where
  sh : ∃ h, a.sh = { (s.proc p).sh with held := h } ∧ h.Perm (heldOf P p s.fl.mem.outs)
  owner : a.owner = (s.proc p).owner
  run : ∀ t, a.run t = ((s.proc p).run t).map fun f => { f with prog := adv (s.inSeg t) (s.fl.pc t) f.prog }

structure SysInv (P : Par) (R : DevIno → Rng → Prop) (F : Nat → Rcsv.Rng → Prop) (r : Nat → Nat → Rcsv.Rng)
    (s : State) (G : Nat → Ghost) : Prop where
  fl : Spec.Reach (Spec.okIn R) s.fl
  run : ∀ p t f, (s.proc p).run t = some f → P.cls t = true ∧ P.pr t = p ∧ f.os = []
  live : ∀ t, P.cls t = true → s.fl.alive t = true
  out : ∀ t, P.cls t = true → s.inSeg t = false → ∃ r, s.fl.pc t = .done r
  seg : ∀ t, s.inSeg t = true → P.cls t = true ∧ ∃ f, (s.proc (P.pr t)).run t = some f ∧ At P t f.prog (s.fl.pc t)
  outs : ∀ x ∈ s.fl.mem.outs, P.cls x.2.t = true → x.2.key = P.key (P.pr x.2.t) x.2.fd ∧ F (P.pr x.2.t) (back x).1
  sim : ∀ p, ∃ a, Props.RcsvConc.Reach (okC (F p)) (r p) a (G p) ∧ Rel P s p a

/-! ### Ranges -/

theorem back_rng (x : Nat × Out) : conv (back x).1 = x.2.rng := by
  simp [conv, back]

theorem conv_off {a : Rcsv.Rng} (h : a.off + a.len < 2 ^ 63) : (conv a).off.toNat = a.off ∧ (conv a).len.toNat = a.len := by
  simp only [conv, BitVec.toNat_ofNat]
  constructor <;> rw [Nat.mod_eq_of_lt] <;> omega

theorem conv_overlap {a b : Rcsv.Rng} (pa : 0 < a.len) (pb : 0 < b.len) (ha : a.off + a.len < 2 ^ 63) (hb : b.off + b.len < 2 ^ 63) (h1 : a.off < b.off + b.len)
    (h2 : b.off < a.off + a.len) : Spec.Overlap (conv a) (conv b) := by
  obtain ⟨a1, a2⟩ := conv_off ha
  obtain ⟨b1, b2⟩ := conv_off hb
  refine ⟨max a.off b.off, ?_, ?_⟩ <;> simp only [Spec.Covers, a1, a2, b1, b2] <;> omega

theorem conv_inj {a b : Rcsv.Rng} (ha : a.off + a.len < 2 ^ 63) (hb : b.off + b.len < 2 ^ 63) (h : conv a = conv b)
    (ht : a.tid = b.tid) (hf : a.fd = b.fd) : a = b := by
  obtain ⟨a1, a2⟩ := conv_off ha
  obtain ⟨b1, b2⟩ := conv_off hb
  rw [h] at a1 a2
  obtain ⟨t, f, o, l⟩ := a
  obtain ⟨t', f', o', l'⟩ := b
  simp only at *
  subst ht; subst hf
  rw [a1] at b1; rw [a2] at b2
  subst b1; subst b2; rfl

theorem Fits.sepF {P : Par} {R : DevIno → Rng → Prop} {F : Nat → Rcsv.Rng → Prop} {r : Nat → Nat → Rcsv.Rng}
    (h : Fits P R F r) (p : Nat) : Rcsv.Sep (F p) := by
  refine ⟨fun a ha => (h.fam p a ha).1, fun a b ha hb hm => ?_⟩
  obtain ⟨a1, a2, a3⟩ := h.fam p a ha
  obtain ⟨b1, b2, b3⟩ := h.fam p b hb
  simp only [Rcsv.Rng.meet, Bool.and_eq_true, beq_iff_eq, decide_eq_true_eq] at hm
  obtain ⟨⟨⟨m1, m2⟩, m3⟩, m4⟩ := hm
  rw [m2] at a3
  rcases h.sep.apart _ _ _ a3 b3 with e | e
  · exact conv_inj a2 b2 e m1 m2
  · exact absurd (conv_overlap a1 b1 a2 b2 m3 m4) e

/-! ### Ranges of calls -/

theorem use_fam {F : Rcsv.Rng → Prop} (hF : Rcsv.Sep F) {r : Nat → Rcsv.Rng} (hr : ∀ i, F (r i)) {a : CState} {g : Ghost}
    (h : Props.RcsvConc.Reach (okC F) r a g) : ∀ t, ∀ x ∈ g.use t, F x := by
  induction h with
  | init => intro t x hx; cases hx
  | call h t os op ht hok s' e ih =>
    rename_i s g
    intro u x hx
    by_cases hu : u = t
    · subst hu
      simp only [if_true] at hx
      have hI := Props.RcsvConc.reach_inv hF hr h
      have hrun : s.run u = none := by
        unfold Rcsv.Conc.call at e
        cases hrun : s.run u with
        | none => rfl
        | some f => rw [hrun] at e; cases e
      obtain ⟨hH, _⟩ := (hI.thr u).idle hrun
      have hG := Props.Rcsv.hist_good hF hr (Props.RcsvConc.hist_weak hH)
      have hfam := hG.inv.fam (Props.Rcsv.opObj op)
      rw [Rcsv.Conc.proj_obj ht] at hfam
      cases op with
      | lockAt i y b =>
        simp only [Rcsv.Conc.ranges, List.mem_cons, List.not_mem_nil, or_false] at hx
        rcases hx with rfl | rfl
        · exact hfam
        · exact hok.1.1
      | _ => simp only [Rcsv.Conc.ranges, List.mem_singleton] at hx; subst hx; exact hfam
    · simp only [hu, if_false] at hx
      exact ih u x hx
  | step h t s' e ih =>
    rename_i s g
    intro u x hx
    unfold Ghost.learn at hx
    split at hx
    · simp only at hx
      split at hx
      · cases hx
      · exact ih u x hx
    · exact ih u x hx

/-- The range of a segment call. -/
theorem head_fam {F : Rcsv.Rng → Prop} (hF : Rcsv.Sep F) {r : Nat → Rcsv.Rng} (hr : ∀ i, F (r i)) {a : CState} {g : Ghost}
    (h : Props.RcsvConc.Reach (okC F) r a g) {t : Nat} {f : Frame} (hf : a.run t = some f) {q : Rcsv.Rng}
    (hq : (∃ w k, f.prog = .grant q w k) ∨ ∃ k, f.prog = .free q k) : q.tid = t ∧ F q := by
  have hI := Props.RcsvConc.reach_inv hF hr h
  obtain ⟨p, os, op⟩ := f
  obtain ⟨_, s0, os0, b, s1, _, _, _, hex, _⟩ := (hI.thr t).run p os op hf
  rcases hq with ⟨w, k, e⟩ | ⟨k, e⟩ <;> simp only at e <;> subst e <;> simp only [Rcsv.Conc.exec] at hex <;> split at hex
  · rename_i hc
    exact ⟨hc.1.1, use_fam hF hr h t q (by simpa [Props.RcsvConc.inR] using hc.1.2)⟩
  · cases hex
  · rename_i hc
    exact ⟨hc.1.1, use_fam hF hr h t q (by simpa [Props.RcsvConc.inR] using hc.1.2)⟩
  · cases hex

/-! ### The list of locks -/

theorem heldOf_same {P : Par} {p : Nat} {o o' : List (Nat × Out)} (h : o.Nodup) (h' : o'.Nodup)
    (he : ∀ x, ofProc P p x = true → (x ∈ o' ↔ x ∈ o)) : (heldOf P p o').Perm (heldOf P p o) := by
  apply List.Perm.map
  rw [List.perm_ext_iff_of_nodup (h'.filter _) (h.filter _)]
  intro x
  simp only [List.mem_filter]
  exact ⟨fun hx => ⟨(he x hx.2).1 hx.1, hx.2⟩, fun hx => ⟨(he x hx.2).2 hx.1, hx.2⟩⟩

theorem heldOf_gain {P : Par} {p : Nat} {o o' : List (Nat × Out)} {y : Nat × Out} (h : o.Nodup) (h' : o'.Nodup)
    (hy : ofProc P p y = true) (hn : y ∉ o) (he : ∀ x, ofProc P p x = true → (x ∈ o' ↔ x = y ∨ x ∈ o)) :
    (heldOf P p o').Perm (back y :: heldOf P p o) := by
  have : (heldOf P p (y :: o)) = back y :: heldOf P p o := by simp [heldOf, hy]
  rw [← this]
  exact heldOf_same (List.nodup_cons.2 ⟨hn, h⟩) h' (fun x hx => by rw [he x hx, List.mem_cons])

theorem nodup_of_keys {o : List (Nat × Out)} (h : (o.map Prod.fst).Nodup) : o.Nodup := List.Nodup.of_map _ h

theorem mem_heldOf {P : Par} {p : Nat} {o : List (Nat × Out)} {z : Rcsv.Rng × Ty} (h : z ∈ heldOf P p o) :
    ∃ y ∈ o, P.cls y.2.t = true ∧ P.pr y.2.t = p ∧ back y = z := by
  simp only [heldOf, List.mem_map, List.mem_filter, ofProc, Bool.and_eq_true, beq_iff_eq] at h
  obtain ⟨y, ⟨h1, h2, h3⟩, h4⟩ := h
  exact ⟨y, h1, h2, h3, h4⟩

theorem heldOf_mem {P : Par} {p : Nat} {o : List (Nat × Out)} {y : Nat × Out} (h : y ∈ o) (h1 : P.cls y.2.t = true)
    (h2 : P.pr y.2.t = p) : back y ∈ heldOf P p o :=
  List.mem_map.2 ⟨y, List.mem_filter.2 ⟨h, by simp [ofProc, h1, h2]⟩, rfl⟩

/-! ### Steps outside of the segment -/

theorem scanW_held (s : Rcsv.State) (h : List (Rcsv.Rng × Ty)) (i : Nat) : ∀ l,
    Rcsv.scanW { s with held := h } i l = Rcsv.scanW s i l
  | [] => rfl
  | j :: js => by
    have ih := scanW_held s h i js
    unfold Rcsv.scanW
    simp only [ih]

theorem own_sim {P : Par} {c c' : CState} {t : Nat} {f : Frame} (hrun : c.run t = some f) (hn : segCall P t f.prog = none)
    (hs : Rcsv.Conc.step c t = some c') (h : List (Rcsv.Rng × Ty)) (N : Nat → Option Frame) (hN : N t = some f) :
    Rcsv.Conc.step ⟨{ c.sh with held := h }, c.owner, N⟩ t =
        some ⟨{ c'.sh with held := h }, c'.owner, fun u => if u = t then c'.run t else N u⟩ ∧
      (∀ u, u ≠ t → c'.run u = c.run u) ∧ ∀ f', c'.run t = some f' → f'.os = f.os := by
  obtain ⟨p, os, op⟩ := f
  unfold Rcsv.Conc.step at hs ⊢
  rw [hrun] at hs
  simp only [hN]
  cases p with
  | grant q w k => simp [segCall] at hn
  | free q k => simp [segCall] at hn
  | lock k =>
    simp only at hs ⊢
    split at hs
    · cases hs
    · rename_i hg
      simp only [hg, Bool.false_eq_true, if_false]
      cases hs
      exact ⟨by simp [CState.goto], fun u hu => by simp [CState.goto, hu], by simp [CState.goto]⟩
  | find i k =>
    simp only [Option.some.injEq] at hs ⊢
    subst hs
    refine ⟨?_, fun u hu => by simp [CState.goto, CState.touch, hu], by simp [CState.goto, CState.touch]⟩
    simp [CState.goto, CState.touch, Rcsv.findMatch]
  | scan i k =>
    simp only [Option.some.injEq] at hs ⊢
    subst hs
    refine ⟨?_, fun u hu => by simp [CState.goto, CState.touch, hu], by simp [CState.goto, CState.touch]⟩
    have := scanW_held (c.touch t).sh h i c.sh.stack
    simp only [CState.touch, ne_eq, decide_not] at this
    simp [CState.goto, CState.touch, this]
  | upd i g k =>
    simp only [Option.some.injEq] at hs ⊢
    subst hs
    exact ⟨by simp [CState.goto, Rcsv.State.mod], fun u hu => by simp [CState.goto, hu], by simp [CState.goto]⟩
  | _ =>
    simp only [Option.some.injEq] at hs ⊢
    subst hs
    exact ⟨by simp [CState.goto, CState.touch], fun u hu => by simp [CState.goto, CState.touch, hu], by simp [CState.goto, CState.touch]⟩

/-! ### Steps in the segment -/

theorem under_advG {op : FL.Op} {pc : Pc} (h : Under op pc) : advG pc = none := by
  unfold advG
  split
  · exact absurd rfl h.1
  · rfl

/-- Other threads' steps do not concern the locks of a thread that lives. -/
theorem outs_frame {s s' : FL.State} {e : FL.Ev} (hi : FL.SInv s) (hs : FL.step s e = some s') {x : Nat × Out}
    (hx : s.alive x.2.t = true) (he : tid e ≠ x.2.t) : x ∈ s'.mem.outs ↔ x ∈ s.mem.outs := by
  constructor
  · intro h
    by_contra hn
    obtain ⟨op, f, o, _, _, ⟨rfl, _⟩ | ⟨c, k, rfl⟩⟩ := FL.outs_gain hs hn h <;> exact he rfl
  · intro h
    by_contra hn
    rcases FL.outs_loss hi hs h hn with h1 | ⟨op, f, o, md, _, _, _, rfl | ⟨k, rfl⟩⟩
    · rw [hx] at h1; cases h1
    · exact he rfl
    · exact he rfl

theorem pc_frame {s s' : FL.State} {e : FL.Ev} (hs : FL.step s e = some s') {u : Nat} (he : tid e ≠ u) :
    s'.pc u = s.pc u :=
  FL.step_pc_other hs ⟨fun c h => he (by rw [h]; rfl), fun c h => he (by rw [h]; rfl)⟩

theorem alive_frame {s s' : FL.State} {e : FL.Ev} (hs : FL.step s e = some s') {u : Nat} (h : s.alive u = true)
    (he : tid e ≠ u ∨ ∀ c k, e ≠ .die u c k) : s'.alive u = true := by
  refine FL.step_alive hs h ?_
  rcases he with he | he
  · intro c k h; exact he (by rw [h]; rfl)
  · exact he

/-- The steps of an unlock call. -/
theorem plan_unl {m : FL.Mem} {alive : Nat → Bool} {t : Nat} {p : Pc} {c : FL.Choice} {as : List FL.Act} {p' : Pc} {op : FL.Op}
    (h : FL.plan m alive t p c = some (as, p')) (hu : FL.uop p = some op) :
    (p = .uFind op ∧ as = [] ∧ ((∃ f o l md, p' = .uWord op f o l md) ∨ p' = .rel (.done FL.EINVAL))) ∨
    (∃ f o l md, p = .uWord op f o l md ∧ as = [.unl o l] ∧ p' = .uFlag op f o l md) ∨
    (advF p = some true ∧ advF p' = some true ∧ UnlAt op p') := by
  unfold FL.plan at h
  split at h
  all_goals
    first
    | (simp only [FL.uop, reduceCtorEq] at hu; done)
    | skip
  all_goals
    repeat' split at h
  all_goals first
    | (cases h; done)
    | (obtain ⟨rfl, rfl⟩ := Option.some.inj h |> Prod.mk.inj
       simp only [FL.uop, Option.some.injEq] at hu
       subst hu
       simp [advF, UnlAt, FL.uop])

theorem unit_eq {R : DevIno → Rng → Prop} (hR : Spec.Separate R) {s : FL.State} (hr : FL.RInv R s) {f o : Nat} {k : DevIno} {g : Rng}
    (hf : f ∈ s.mem.files) (ho : o ∈ s.mem.offs f) (hk : s.mem.key f = k) (h : R k g) (hh : hits g (s.mem.rng o) = true) :
    s.mem.rng o = g := by
  have h1 := hr.units f hf o ho
  rw [hk] at h1
  rcases hR.apart _ _ _ h h1 with e | e
  · exact e.symm
  · exact absurd ((FL.hits_iff (FL.separate_clustered hR) h h1).1 hh) e

/-- An unlock call finds the lock of its thread. -/
theorem unlock_found {R : DevIno → Rng → Prop} (hR : Spec.Separate R) {s : FL.State} (hi : FL.SInv s) (hr : FL.RInv R s)
    {x : Nat × Out} (hx : x ∈ s.mem.outs) {op : FL.Op} (h1 : x.2.fd = op.fd) (h2 : x.2.key = op.key)
    (h3 : x.2.rng = op.rng) {c : FL.Choice} {as : List FL.Act}
    (hp : FL.plan s.mem s.alive x.2.t (.uFind op) c = some (as, .rel (.done FL.EINVAL))) : False := by
  obtain ⟨f, o, ⟨a1, a2, a3⟩, b, d, e1, e2, e3, e4⟩ := hi.outs.1 x hx
  have hg := unit_eq hR hr a1 a2 b (hr.held x hx) d
  have hF : FL.findFile s.mem op.key = some f := FL.findFile_eq hi.sok a1 (b.trans h2)
  have hO : FL.findOff s.mem f op.rng = some o := by
    rw [← h3, ← hg]; exact FL.findOff_eq hi.sok a2
  cases c with
  | go =>
    simp only [FL.plan, hF, hO] at hp
    split at hp
    · simp at hp
    · rename_i hw
      split at hp
      · simp at hp
      · rename_i hrd
        cases hm : x.2.mode with
        | wr => rw [hm] at a3; exact FL.findLk_none hw _ a3 ⟨e1, e2.trans h1, e3⟩
        | rd => rw [hm] at a3; exact FL.findLk_none hrd _ a3 ⟨e1, e2.trans h1, e3⟩
  | _ => simp [FL.plan] at hp

/-- The lock an unlock call releases. -/
theorem uWord_out {R : DevIno → Rng → Prop} (hR : Spec.Separate R) {s : FL.State} (hi : FL.SInv s) (hr : FL.RInv R s)
    (hlo : FL.LO s.mem) {t : Nat} (hal : s.alive t = true) {op : FL.Op} {f o l : Nat} {md : FL.Mode}
    (hpc : s.pc t = .uWord op f o l md) (hop : R op.key op.rng) :
    ∃ y ∈ s.mem.outs, y.1 = l ∧ y.2 = ⟨t, op.fd, op.key, op.rng, md⟩ := by
  have hp := (hi.thr t hal).2
  rw [hpc] at hp
  obtain ⟨⟨g1, g2, g3⟩, g4, g5, g6, g7, g8, g9⟩ := hp
  obtain ⟨h, hm⟩ := hlo o md l g3 g8 g9
  refine ⟨(l, h), hm, rfl, ?_⟩
  obtain ⟨f', o', ⟨a1, a2, a3⟩, b, d, e1, e2, e3, e4⟩ := hi.outs.1 _ hm
  obtain ⟨rfl, hmd⟩ := hi.sok.lksDisj _ _ _ _ _ a3 g3
  obtain rfl := hi.sok.offsDisj _ _ _ a2 g2
  have r1 := unit_eq hR hr a1 a2 g4 hop g5
  have r2 := unit_eq hR hr a1 a2 b (hr.held _ hm) d
  obtain ⟨ht, hfd, hkey, hrng, hmode⟩ := h
  simp only at *
  rw [← e1, ← e2, ← b, ← r2, hmd, g6, g7, g4, r1]

/-! ### Segment calls of the process -/

theorem free_true {a : CState} {t : Nat} {q : Rcsv.Rng} {k : Bool → Prog} {op : Op}
    (hrun : a.run t = some ⟨.free q k, [], op⟩)
    (hB : a.sh.held.Pairwise fun a b => Rcsv.Conc.clash a.1 b.1 = true → a.2 ≠ .write ∧ b.2 ≠ .write)
    {ty : Ty} {h' : List (Rcsv.Rng × Ty)} (hp : a.sh.held.Perm ((q, ty) :: h')) (hty : ∀ z ∈ a.sh.held, z.2 = .read ∨ z.2 = .write) :
    ∃ h2, h2.Perm h' ∧ Rcsv.Conc.step a t = some ⟨{ a.sh with held := h2 }, a.owner, fun u => if u = t then some ⟨k true, [], op⟩ else a.run u⟩ := by
  have hm : (q, ty) ∈ a.sh.held := hp.mem_iff.2 List.mem_cons_self
  refine ⟨a.sh.held.eraseP (fun h => h.1 == q), ?_, ?_⟩
  · obtain ⟨z, l1, l2, _, hz, e1, e2⟩ := List.exists_of_eraseP (p := fun h : Rcsv.Rng × Ty => h.1 == q) hm (by simp)
    have hzm : z ∈ a.sh.held := by rw [e1]; simp
    have hzq : z.1 = q := by simpa using hz
    have hze : z = (q, ty) := by
      by_contra hne
      have hc : Rcsv.Conc.clash z.1 q = true := by rw [hzq]; simp [Rcsv.Conc.clash]
      have hc' : Rcsv.Conc.clash q z.1 = true := by rw [hzq]; simp [Rcsv.Conc.clash]
      have : z.2 ≠ .write ∧ ty ≠ .write := by
        rcases Props.pairwise_or hB hzm hm hne with c | c
        · exact c hc
        · exact (c hc').symm
      apply hne
      rcases hty z hzm with e | e
      · rcases hty _ hm with e' | e'
        · exact Prod.ext hzq (e.trans e'.symm)
        · exact absurd e' this.2
      · exact absurd e this.1
    rw [e2]
    have h3 : a.sh.held.Perm (z :: (l1 ++ l2)) := by rw [e1]; exact List.perm_middle
    rw [hze] at h3
    exact (h3.symm.trans hp).cons_inv
  · unfold Rcsv.Conc.step
    rw [hrun]
    have : a.sh.held.any (fun h => h.1 == q) = true := List.any_eq_true.2 ⟨_, hm, by simp⟩
    simp [Rcsv.segUnlock, this, CState.goto]

theorem free_false {a : CState} {t : Nat} {q : Rcsv.Rng} {k : Bool → Prog} {op : Op}
    (hrun : a.run t = some ⟨.free q k, [], op⟩) (hq : ∀ z ∈ a.sh.held, z.1 ≠ q) :
    Rcsv.Conc.step a t = some ⟨a.sh, a.owner, fun u => if u = t then some ⟨k false, [], op⟩ else a.run u⟩ := by
  unfold Rcsv.Conc.step
  rw [hrun]
  have : a.sh.held.any (fun h => h.1 == q) = false := by
    rw [List.any_eq_false]; intro z hz; simpa using hq z hz
  simp [Rcsv.segUnlock, this, CState.goto]

theorem grant_true {a : CState} {t : Nat} {q : Rcsv.Rng} {w : Bool} {k : Bool → Prog} {op : Op}
    (hrun : a.run t = some ⟨.grant q w k, [], op⟩) (hb : Rcsv.Conc.busy a.sh.held q w = false) :
    Rcsv.Conc.step a t = some ⟨{ a.sh with held := a.sh.held ++ [(q, if w then .write else .read)] }, a.owner,
      fun u => if u = t then some ⟨k true, [], op⟩ else a.run u⟩ := by
  unfold Rcsv.Conc.step
  rw [hrun]
  simp [hb, CState.goto]

/-- A step of the process in the segment leaves what its users know as it is. -/
theorem learn_seg {g : Ghost} {a : CState} {t : Nat} {f : Frame} (hrun : a.run t = some f)
    (hf : (∃ q w k, f.prog = .grant q w k) ∨ ∃ q k, f.prog = .free q k) : g.learn a t = g := by
  unfold Ghost.learn
  obtain ⟨p, os, op⟩ := f
  rw [hrun]
  rcases hf with ⟨q, w, k, e⟩ | ⟨q, k, e⟩ <;> simp only at e <;> subst e <;> rfl

end Fullock.Whole
