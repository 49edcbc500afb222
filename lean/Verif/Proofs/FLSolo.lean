import Verif.Proofs.FLMore
/-! Runs of one thread alone. -/
namespace Fullock.FL
open Fullock.Spec

theorem run_append (s : State) (a b : List Ev) : run s (a ++ b) = (run s a).bind (run · b) := by
  induction a generalizing s with
  | nil => simp [run]
  | cons e a ih =>
    simp only [List.cons_append, run]
    cases step s e with
    | none => rfl
    | some s' => simp [ih]

theorem reach_run {A : State → Ev → Prop} {s : State} (hr : Reach A s) : ∀ {es : List Ev} {s' : State},
    (∀ e ∈ es, ∀ s, A s e) → run s es = some s' → Reach A s' := by
  intro es
  induction es generalizing s with
  | nil => intro s' _ h; simp [run] at h; exact h ▸ hr
  | cons e es ih =>
    intro s' ha h
    simp only [run] at h
    cases hs : step s e with
    | none => rw [hs] at h; simp at h
    | some s1 =>
      rw [hs] at h
      exact ih (.step hr (ha e List.mem_cons_self s) hs)
        (fun e he => ha e (List.mem_cons_of_mem _ he)) h

/-- `n` steps of thread `t` lead from tables `m`, lock holder `L`, place `p` to the primed ones,
whatever the other threads are doing. -/
def Solo (alive : Nat → Bool) (t n : Nat) (m : Mem) (L : Nat) (p : Pc) (m' : Mem) (L' : Nat)
    (p' : Pc) : Prop :=
  ∀ pc : Nat → Pc, pc t = p →
    run ⟨m, L, alive, pc⟩ (alone t n) = some ⟨m', L', alive, fset pc t p'⟩

theorem fset_fset (pc : Nat → Pc) (t : Nat) (p q : Pc) : fset (fset pc t p) t q = fset pc t q := by
  funext x; simp only [fset]; split <;> rfl

theorem solo_trans {alive : Nat → Bool} {t n k : Nat} {m m' m'' : Mem} {L L' L'' : Nat}
    {p p' p'' : Pc} (h1 : Solo alive t n m L p m' L' p') (h2 : Solo alive t k m' L' p' m'' L'' p'') :
    Solo alive t (n + k) m L p m'' L'' p'' := by
  intro pc hpc
  unfold alone
  rw [List.replicate_add, run_append]
  have := h1 pc hpc
  unfold alone at this
  rw [this]
  have := h2 (fset pc t p') (by simp)
  unfold alone at this
  simp only [Option.bind_some, this, fset_fset]

theorem solo_acq {alive : Nat → Bool} {t : Nat} (hal : alive t = true) {m : Mem} {L : Nat}
    (hL : L = 0 ∨ alive L = false) (p : Pc) : Solo alive t 1 m L (.acq p) m t p := by
  intro pc hpc
  have hd : (L = 0 ∨ alive L = false) ↔ True := by simp [hL]
  simp only [alone, List.replicate, run, step, hal, hpc, hd, State.setPc]
  rfl

theorem solo_rel {alive : Nat → Bool} {t : Nat} (hal : alive t = true) {m : Mem} (p : Pc) :
    Solo alive t 1 m t (.rel p) m 0 p := by
  intro pc hpc
  simp [alone, List.replicate, run, step, hal, hpc, State.setPc]

theorem solo_plan {alive : Nat → Bool} {t : Nat} (hal : alive t = true) {m : Mem} {L : Nat} {p p' : Pc}
    {as : List Act} (h : plan m alive t p .go = some (as, p')) :
    Solo alive t 1 m L p (m.acts as) L p' := by
  intro pc hpc
  have h1 : ∀ q, p ≠ .acq q := by rintro q rfl; simp [plan] at h
  have h2 : ∀ q, p ≠ .rel q := by rintro q rfl; simp [plan] at h
  simp only [alone, List.replicate, run, step, hal, hpc]
  cases p <;> first | exact absurd rfl (h1 _) | exact absurd rfl (h2 _) | simp [h, State.setPc]

theorem solo_call {s : State} {t : Nat} {c : Call} (ht : t ≠ 0) (hal : s.alive t = true) {r : Nat}
    (hpc : s.pc t = .done r) {n r' : Nat} {m' : Mem} {L' : Nat}
    (h : Solo s.alive t n s.mem s.lockid c.start m' L' (.done r')) :
    Returns s t c n r' ⟨m', L', s.alive, fset s.pc t (.done r')⟩ := by
  refine ⟨?_, by simp⟩
  have hst : step s (.call t c) = some (s.setPc t c.start) := by
    simp [step, ht, hal, hpc]
  simp only [run, hst, Option.bind_some]
  have := h (fset s.pc t c.start) (by simp)
  rw [fset_fset] at this
  exact this

/-! Locks in force, also of dead threads. -/

def LO (m : Mem) : Prop :=
  ∀ o md l, l ∈ m.lks o md → m.locked l = true → m.taken l = true → ∃ h, (l, h) ∈ m.outs

theorem plain_lo {m : Mem} {a : Act} (hp : Pre m a) (ha : a.plain = true) (h : LO m) :
    LO (m.act a) := by
  intro o md l hl hk ht
  rcases act_lks hp hl with hl' | ⟨t', fd, rfl⟩
  · by_cases hlid : a.lid = some l
    · cases a <;> simp only [Act.lid, Option.some.injEq, reduceCtorEq] at hlid <;> subst hlid <;>
        simp only [Act.plain, Bool.false_eq_true] at ha
      · exact ⟨_, List.mem_cons_self⟩
      · simp [Mem.act] at hk
    · obtain ⟨b1, b2, b3, _⟩ := act_locked hp hl' hlid
      rw [b1] at hk; rw [b2] at ht
      obtain ⟨hh, hm⟩ := h o md l hl' hk ht
      exact ⟨hh, act_outs_mem hm hlid⟩
  · simp [Mem.act] at hk

theorem plains_lo {alive : Nat → Bool} {t : Nat} : ∀ {as : List Act} {m : Mem},
    OkAll alive t m as → (∀ a ∈ as, a.plain = true) → LO m → LO (m.acts as) := by
  intro as
  induction as with
  | nil => intro m _ _ h; exact h
  | cons a as ih =>
    intro m hk ha h
    exact ih hk.2.2 (fun x hx => ha x (List.mem_cons_of_mem _ hx))
      (plain_lo hk.1 (ha a List.mem_cons_self) h)

/-- An action about a locker which afterwards is in no list, or not flagged, or not counted. -/
theorem lid_lo {m : Mem} {a : Act} (hp : Pre m a) {l : Nat} (ha : a.lid = some l)
    (hg : (∀ o md, l ∉ (m.act a).lks o md) ∨ (m.act a).locked l = false ∨ (m.act a).taken l = false)
    (h : LO m) : LO (m.act a) := by
  intro o md x hl hk ht
  rcases act_lks hp hl with hl' | ⟨t', fd, rfl⟩
  · by_cases e : x = l
    · subst e
      rcases hg with g | g | g
      · exact absurd hl (g _ _)
      · rw [g] at hk; cases hk
      · rw [g] at ht; cases ht
    · have hlid : a.lid ≠ some x := by rw [ha]; simp; exact fun h => e h.symm
      obtain ⟨b1, b2, b3, _⟩ := act_locked hp hl' hlid
      rw [b1] at hk; rw [b2] at ht
      obtain ⟨hh, hm⟩ := h o md x hl' hk ht
      exact ⟨hh, act_outs_mem hm hlid⟩
  · simp [Act.lid] at ha

theorem lo_plan {s : State} (hi : SInv s) (h : LO s.mem) {t : Nat}
    (hal : s.alive t = true) {c : Choice} {as : List Act} {p' : Pc}
    (hpl : plan s.mem s.alive t (s.pc t) c = some (as, p')) (k : Nat) :
    LO (s.mem.acts (as.take k)) := by
  have hpk := (hi.thr t hal).2
  have hown := (hi.thr t hal).1
  have ok := plan_ok hi.sok hal hpk hown hpl
  have hk := okAll_take k ok.ok
  rcases plan_shape hpk hown hpl with h1 | ⟨op, f, o, l, hp, hc, ht, rfl⟩ |
      ⟨op, f, o, l, md, hp, hc, rfl⟩ | ⟨o, md, l, hl, ht, hk', htk, rfl, hsl⟩ | ⟨o, md, l, hl, hd, rfl, hc⟩
  · exact plains_lo hk (fun a ha => h1 a (List.mem_of_mem_take ha)) h
  · rw [hp] at hpk
    obtain ⟨g1, g2, g3, g4, g5, g6, g7⟩ := hpk
    have : LO (s.mem.act (.take o op.mode l)) :=
      lid_lo (a := .take o op.mode l) trivial rfl (Or.inr (Or.inl g6)) h
    match k with
    | 0 => exact h
    | k + 1 => simp only [List.take_succ_cons, List.take_nil]; exact this
  · have : LO (s.mem.act (.unl o l)) :=
      lid_lo (a := .unl o l) trivial rfl (Or.inr (Or.inr (by simp [Mem.act]))) h
    match k with
    | 0 => exact h
    | k + 1 => simp only [List.take_succ_cons, List.take_nil]; exact this
  · have : LO (s.mem.act (.cutL o md l)) :=
      lid_lo (a := .cutL o md l) trivial rfl (Or.inl (cutL_gone hi.sok hl)) h
    match k with
    | 0 => exact h
    | 1 => exact this
    | k + 2 => simp only [List.take_succ_cons, List.take_nil]; exact this
  · have h1 : LO (s.mem.act (.cutL o md l)) :=
      lid_lo (a := .cutL o md l) trivial rfl (Or.inl (cutL_gone hi.sok hl)) h
    have h2 : LO ((s.mem.act (.cutL o md l)).act (.unl o l)) :=
      lid_lo (a := .unl o l) trivial rfl (Or.inl (cutL_gone hi.sok hl)) h1
    unfold sweepActs
    by_cases hlk : s.mem.locked l = true
    · simp only [hlk, if_true, List.cons_append, List.nil_append]
      match k with
      | 0 => exact h
      | 1 => exact h1
      | 2 => exact h2
      | k + 3 => simp only [List.take_succ_cons, List.take_nil]; exact h2
    · have hlk' : s.mem.locked l = false := by simpa using hlk
      simp only [hlk', Bool.false_eq_true, if_false, List.cons_append, List.nil_append]
      match k with
      | 0 => exact h
      | 1 => exact h1
      | k + 2 => simp only [List.take_succ_cons, List.take_nil]; exact h1

theorem lo_step {s s' : State} {e : Ev} (hi : SInv s) (hw : LO s.mem)
    (h : step s e = some s') : LO s'.mem := by
  rcases step_cases h with ⟨t, c, r, rfl, ht0, hal, hpc, rfl⟩ | ⟨t, c, p, rfl, hal, hpc, hl, rfl⟩ |
    ⟨t, c, p, rfl, hal, hpc, rfl⟩ | ⟨t, c, as, p', rfl, hal, hpl, rfl⟩ |
    ⟨t, c, k, as, rfl, hal, hpl, rfl⟩
  · exact hw
  · exact hw
  · exact hw
  · have := lo_plan hi hw hal hpl as.length
    rwa [List.take_length] at this
  · rcases hpl with ⟨p', hpl⟩ | ⟨hnone, rfl⟩
    · exact lo_plan hi hw hal hpl k
    · simp only [List.take_nil]; exact hw

theorem reach_lo {A : State → Ev → Prop} {s : State} (hr : Reach A s) : LO s.mem :=
  (reach_inv (I := fun s => LO s.mem) (fun _ _ _ _ => by intro o md l hl; simp [init] at hl)
    (fun _ _ _ hi hw _ hs => lo_step hi hw hs) hr).2

/-- A counted locker stands for a lock in force unless its thread is between the attempt and the
flag. -/
theorem taken_out {s : State} (hi : SInv s) (he : EInv s) (hlo : LO s.mem)
    {o : Nat} {md : Mode} {l : Nat} (hl : l ∈ s.mem.lks o md) (ht : s.mem.taken l = true)
    (hns : ∀ op f o', s.alive (s.mem.ltid l) = true → s.pc (s.mem.ltid l) ≠ .setf op f o' l) :
    ∃ h, (l, h) ∈ s.mem.outs ∧ h.mode = md := by
  have hlk : s.mem.locked l = true := by
    cases ha : s.alive (s.mem.ltid l) with
    | false => rw [he.lt o md l hl ha]; exact ht
    | true =>
      by_contra hc
      obtain ⟨op, f, o', hp⟩ := unflagged_taken (hi.thr _ ha).2 (hi.thr _ ha).1 hl rfl
        (by simpa using hc) ht
      exact hns op f o' ha hp
  obtain ⟨h, hm⟩ := hlo o md l hl hlk ht
  refine ⟨h, hm, ?_⟩
  obtain ⟨f, o', a, _⟩ := hi.outs.1 _ hm
  exact (hi.sok.lksDisj _ _ _ _ _ a.2.2 hl).2

theorem overlap_self {r : Rng} (h : SaneRange r) : Overlap r r :=
  ⟨r.off.toNat, ⟨Nat.le_refl _, by have := h.2.1; omega⟩, ⟨Nat.le_refl _, by have := h.2.1; omega⟩⟩

/-- An attempt succeeds exactly when no lock in force excludes the request. -/
theorem canTake_iff {R : DevIno → Rng → Prop} (hR : Clustered R) {s : State} (hi : SInv s)
    (he : EInv s) (hlo : LO s.mem) (hr : RInv R s) {t : Nat} {op : Op} {f o l : Nat}
    (hal : s.alive t = true) (hp : s.pc t = .spin op f o l) (hid : OthersIdle s t) :
    canTake (s.mem.word o) op.mode = true ↔ Compatible s.mem op := by
  have hw := (hi.thr t hal).2
  rw [hp] at hw
  obtain ⟨⟨g1, g1', g1''⟩, g2, g3, g4, g5, g6, g7⟩ := hw
  have hop : R op.key op.rng := hr.ops t op (by rw [hp]; rfl)
  have hu : R op.key (s.mem.rng o) := g2 ▸ hr.units f g1 o g1'
  have hro : Overlap op.rng (s.mem.rng o) := (hits_iff hR hop hu).mp g3
  -- a counted locker on this record is a conflicting-range lock in force
  have toOut : ∀ md x, x ∈ s.mem.lks o md → s.mem.taken x = true →
      ∃ h, (x, h) ∈ s.mem.outs ∧ h.mode = md ∧ h.key = op.key ∧ Overlap h.rng op.rng := by
    intro md x hx hxt
    obtain ⟨h, hm, hmd⟩ := taken_out hi he hlo hx hxt (by
      intro op' f' o' ha hpc
      by_cases e : s.mem.ltid x = t
      · rw [e, hp] at hpc; cases hpc
      · rcases hid _ e ha with ⟨r, hr⟩ | ⟨_, _, _, _, hr⟩ <;> rw [hr] at hpc <;> cases hpc)
    obtain ⟨f', o', ⟨a1, a2, a3⟩, b1, b2, _⟩ := held_unit hR hr hm (hi.outs.1 _ hm)
    have ho : o' = o := (hi.sok.lksDisj _ _ _ _ _ a3 hx).1
    subst ho
    have hf : f' = f := hi.sok.offsDisj _ _ _ a2 g1'
    subst hf
    have hk : h.key = op.key := by rw [← b1, g2]
    exact ⟨h, hm, hmd, hk, hR.trans op.key _ _ _ (hk ▸ hr.held _ hm) hu hop b2 (overlap_symm hro)⟩
  have fromOut : ∀ x ∈ s.mem.outs, x.2.key = op.key → Overlap x.2.rng op.rng →
      0 < cnt s.mem o x.2.mode := by
    rintro ⟨x, h⟩ hm hk hov
    obtain ⟨f', o', ⟨a1, a2, a3⟩, b1, b2, b3, _, _, _, b7⟩ := held_unit hR hr hm (hi.outs.1 _ hm)
    have hf : f' = f := hi.sok.keys _ a1 _ g1 (by rw [b1, g2]; exact hk)
    subst hf
    simp only at hk
    have ho : o' = o := same_unit hR hi a2 g1' (hk ▸ b3) hu (hk ▸ hr.held _ hm) hop b2 hro hov
    subst ho
    exact List.countP_pos_iff.mpr ⟨x, a3, b7⟩
  have we := he.words o
  unfold WordEq at we
  constructor
  · intro hc x hx hk hov
    have := fromOut x hx hk hov
    cases hm : op.mode with
    | rd =>
      rw [hm] at hc
      simp only [canTake, decide_eq_true_eq] at hc
      cases hxm : x.2.mode with
      | rd => exact ⟨rfl, rfl⟩
      | wr => rw [hxm] at this; omega
    | wr =>
      rw [hm] at hc
      simp only [canTake, beq_iff_eq] at hc
      cases hxm : x.2.mode <;> rw [hxm] at this <;> omega
  · intro hfree
    have nowr : cnt s.mem o .wr = 0 := by
      by_contra hc
      obtain ⟨x, hx, hxt⟩ := List.countP_pos_iff.mp (Nat.pos_of_ne_zero hc)
      obtain ⟨h, hm, hmd, hk, hov⟩ := toOut _ _ hx hxt
      have := (hfree _ hm hk hov).1
      simp only at this
      rw [hmd] at this; cases this
    cases hm : op.mode with
    | rd => simp only [canTake, decide_eq_true_eq]; omega
    | wr =>
      have nord : cnt s.mem o .rd = 0 := by
        by_contra hc
        obtain ⟨x, hx, hxt⟩ := List.countP_pos_iff.mp (Nat.pos_of_ne_zero hc)
        obtain ⟨h, hm', hmd, hk, hov⟩ := toOut _ _ hx hxt
        have := (hfree _ hm' hk hov).2
        rw [hm] at this; cases this
      simp only [canTake, beq_iff_eq]; omega

/-- The first three steps when the records are available. -/
theorem lock_prep2 {alive : Nat → Bool} {t : Nat} (hal : alive t = true) {m : Mem} {L : Nat}
    (hL : L = 0 ∨ alive L = false) (op : Op) (hs : SOK m)
    (h1 : (∃ f ∈ m.files, m.key f = op.key) ∨ m.ffree ≠ [])
    (h2 : (∃ f ∈ m.files, m.key f = op.key ∧ ∃ o ∈ m.offs f, hits op.rng (m.rng o) = true) ∨
      m.ofree ≠ []) :
    ∃ f o m', Solo alive t 3 m L (.acq (.lFile op)) m' t (.lFProt op f o) ∧ m'.outs = m.outs ∧
      m'.lfree = m.lfree := by
  have s1 := solo_acq hal (m := m) hL (.lFile op)
  obtain ⟨f, m1, p1, e1⟩ : ∃ f m1, Solo alive t 1 m t (.lFile op) m1 t (.lOff op f) ∧
      m1.ofree = m.ofree ∧ m1.lfree = m.lfree ∧ m1.outs = m.outs ∧
      (findFile m op.key = some f → m1.offs = m.offs ∧ m1.rng = m.rng) ∧
      (findFile m op.key = none ∨ findFile m op.key = some f) := by
    cases hf : findFile m op.key with
    | some f =>
      exact ⟨f, _, solo_plan hal (as := [.fprot f true]) (by simp [plan, hf]), rfl, rfl, rfl,
        fun _ => ⟨rfl, rfl⟩, Or.inr rfl⟩
    | none =>
      match hq : m.ffree with
      | [] =>
        rcases h1 with ⟨f, hf1, hf2⟩ | h1
        · exact absurd hf2 (findFile_none hf f hf1)
        · exact absurd hq h1
      | f :: rest =>
        exact ⟨f, _, solo_plan hal (as := [.popF, .iniF f op.key, .insF f]) (by simp [plan, hf, hq]),
          rfl, rfl, rfl, (fun h => by cases h), Or.inl rfl⟩
  obtain ⟨o, m2, p2, e2⟩ : ∃ o m2, Solo alive t 1 m1 t (.lOff op f) m2 t (.lFProt op f o) ∧
      m2.lfree = m.lfree ∧ m2.outs = m.outs := by
    cases ho : findOff m1 f op.rng with
    | some o =>
      exact ⟨o, _, solo_plan hal (as := [.oprot o true]) (by simp [plan, ho]), e1.2.1, e1.2.2.1⟩
    | none =>
      match hq : m1.ofree with
      | [] =>
        exfalso
        rcases h2 with ⟨g, hg1, hg2, o, ho1, ho2⟩ | h2
        · rcases e1.2.2.2.2 with h | h
          · exact findFile_none h g hg1 hg2
          · obtain ⟨a1, a2⟩ := e1.2.2.2.1 h
            have := findFile_some h
            have hgf : g = f := hs.keys g hg1 f this.1 (hg2.trans this.2.symm)
            subst hgf
            have := List.find?_eq_none.mp ho o (by rw [a1]; exact ho1)
            rw [a2] at this
            exact this ho2
        · exact h2 (e1.1.symm.trans hq)
      | o :: rest =>
        exact ⟨o, _, solo_plan hal (as := [.popO, .insO f o op.rng]) (by simp [plan, ho, hq]),
          e1.2.1, e1.2.2.1⟩
  exact ⟨f, o, m2, solo_trans (solo_trans s1 p1) p2, e2.2, e2.1⟩

/-- Seven steps lead to the first attempt when records are available. -/
theorem lock_prep {alive : Nat → Bool} {t : Nat} (hal : alive t = true) {m : Mem} {L : Nat}
    (hL : L = 0 ∨ alive L = false) (op : Op) (hs : SOK m) (hroom : Room m op) :
    ∃ f o l m', Solo alive t 7 m L (.acq (.lFile op)) m' 0 (.spin op f o l) ∧ m'.outs = m.outs := by
  obtain ⟨f, o, m2, p0, e2, e2'⟩ := lock_prep2 hal hL op hs hroom.file hroom.range
  have h3 := hroom.locker
  have p3 : Solo alive t 1 m2 t (.lFProt op f o) (m2.acts [.fprot f false]) t (.lLk op f o) :=
    solo_plan hal rfl
  obtain ⟨l, m4, p4, e4⟩ : ∃ l m4, Solo alive t 1 (m2.acts [.fprot f false]) t (.lLk op f o) m4 t
      (.lOProt op f o l) ∧ m4.outs = m.outs := by
    have hq0 : (m2.acts [.fprot f false]).lfree = m.lfree := e2'
    match hq : (m2.acts [.fprot f false]).lfree with
    | [] => exact absurd (hq0.symm.trans hq) h3
    | l :: rest =>
      exact ⟨l, _, solo_plan hal (as := [.popL, .insL o op.mode l t op.fd]) (by simp [plan, hq]), e2⟩
  have p5 : Solo alive t 1 m4 t (.lOProt op f o l) (m4.acts [.oprot o false]) t
      (.rel (.spin op f o l)) := solo_plan hal rfl
  have p6 := solo_rel hal (m := m4.acts [.oprot o false]) (.spin op f o l)
  exact ⟨f, o, l, _, solo_trans (solo_trans (solo_trans (solo_trans p0 p3) p4) p5) p6, e4⟩

theorem take_flag {alive : Nat → Bool} {t : Nat} (hal : alive t = true) {m : Mem} {op : Op}
    {f o l : Nat} (hc : canTake (m.word o) op.mode = true) :
    ∃ m', Solo alive t 2 m 0 (.spin op f o l) m' 0 (.done 0) ∧
      m'.outs = (l, ⟨t, op.fd, op.key, op.rng, op.mode⟩) :: m.outs := by
  have p1 : Solo alive t 1 m 0 (.spin op f o l) (m.acts [.take o op.mode l]) 0 (.setf op f o l) :=
    solo_plan hal (by simp [plan, hc])
  have p2 : Solo alive t 1 (m.acts [.take o op.mode l]) 0 (.setf op f o l) _ 0 (.done 0) :=
    solo_plan hal rfl
  exact ⟨_, solo_trans p1 p2, rfl⟩

end Fullock.FL
