import Verif.Proofs.FLExact
import Verif.Spec.FileLock
import Verif.Props.Range
/-! Further invariants of the file lock model. -/
namespace Fullock.FL
open Fullock.Spec

theorem reach_mono {A B : State → Ev → Prop} (h : ∀ s e, A s e → B s e) {s : State}
    (hr : Reach A s) : Reach B s := by
  induction hr with
  | init nf no nl junk => exact .init nf no nl junk
  | step _ ha hs ih => exact .step ih (h _ _ ha) hs

theorem reach_inv {A : State → Ev → Prop} {I : State → Prop}
    (h0 : ∀ nf no nl junk, I (init nf no nl junk))
    (hs : ∀ s e s', SInv s → I s → A s e → step s e = some s' → I s') {s : State}
    (hr : Reach A s) : SInv s ∧ I s := by
  induction hr with
  | init nf no nl junk => exact ⟨sinv_init nf no nl junk, h0 nf no nl junk⟩
  | step _ ha hst ih => exact ⟨sinv_step ih.1 hst, hs _ _ _ ih.1 ih.2 ha hst⟩

theorem reach_sinv {A : State → Ev → Prop} {s : State} (hr : Reach A s) : SInv s :=
  (reach_inv (I := fun _ => True) (fun _ _ _ _ => trivial) (fun _ _ _ _ _ _ _ => trivial) hr).1

theorem reach_winv {A : State → Ev → Prop} (hA : ∀ s e, A s e → okDeath s e) {s : State}
    (hr : Reach A s) : WInv s :=
  (reach_inv winv_init (fun _ _ _ hi hw ha hs => winv_step hi hw (hA _ _ ha) hs) hr).2

theorem reach_einv {A : State → Ev → Prop} (hA : ∀ s e, A s e → softDeath s e) {s : State}
    (hr : Reach A s) : EInv s :=
  (reach_inv einv_init (fun _ _ _ hi hw ha hs => einv_step hi hw (hA _ _ ha) hs) hr).2

theorem noDeath_soft {s : State} {e : Ev} (h : noDeath s e) : softDeath s e := by
  cases e <;> simp_all [noDeath, softDeath]

/-! The table lock is held only inside. -/

theorem plan_cs {m : Mem} {alive : Nat → Bool} {t : Nat} {p : Pc} {c : Choice} {as : List Act}
    {p' : Pc} (h : plan m alive t p c = some (as, p')) (hc : inCS p = true) : inCS p' = true := by
  unfold plan at h
  split at h
  all_goals
    repeat' split at h
    all_goals first
      | (cases h; done)
      | (obtain ⟨rfl, rfl⟩ := Option.some.inj h |> Prod.mk.inj; first | rfl | (simp [inCS] at hc))

def CsIff (s : State) : Prop :=
  ∀ u, u ≠ 0 → s.lockid = u → s.alive u = true → inCS (s.pc u) = true

theorem csIff_step {s s' : State} {e : Ev} (hi : SInv s) (hw : CsIff s)
    (h : step s e = some s') : CsIff s' := by
  intro u hu hlk hau
  rcases step_cases h with ⟨t, c, r, rfl, ht0, hal, hpc, rfl⟩ | ⟨t, c, p, rfl, hal, hpc, hl, rfl⟩ |
    ⟨t, c, p, rfl, hal, hpc, rfl⟩ | ⟨t, c, as, p', rfl, hal, hpl, rfl⟩ |
    ⟨t, c, k, as, rfl, hal, hpl, rfl⟩
  · have h1 := hw u hu hlk hau
    by_cases e : u = t
    · subst e; rw [hpc] at h1; simp [inCS] at h1
    · simpa only [State.setPc, fset_pc_other e] using h1
  · have : u = t := hlk.symm
    subst this
    simp only [State.setPc, fset_same]
    have := (hi.thr u hal).2
    rw [hpc] at this
    have := this.1
    cases p <;> simp_all [entry, inCS]
  · have hlt : s.lockid = t := hi.cs t hal (by rw [hpc]; rfl)
    simp only [State.setPc, hlt, if_true] at hlk
    exact absurd hlk.symm hu
  · have h1 := hw u hu hlk hau
    by_cases e : u = t
    · subst e
      simp only [State.setPc, fset_same]
      exact plan_cs hpl h1
    · simpa only [State.setPc, fset_pc_other e] using h1
  · have e : u ≠ t := by
      intro e; subst e; simp at hau
    have hu' : s.alive u = true := by simpa [fset_other _ _ e] using hau
    exact hw u hu hlk hu'

theorem reach_csIff {A : State → Ev → Prop} {s : State} (hr : Reach A s) : CsIff s :=
  (reach_inv (fun _ _ _ _ => by intro u hu hl; exact absurd hl.symm hu)
    (fun _ _ _ hi hw _ hs => csIff_step hi hw hs) hr).2

/-! Ranges in use. -/

/-- The lock request a thread is executing. -/
def opOf : Pc → Option Op
  | .acq p => opOf p
  | .rel p => opOf p
  | .lFile op | .lOff op _ | .lFProt op _ _ | .lLk op _ _ | .lOProt op _ _ _ | .spin op _ _ _
  | .setf op _ _ _ | .rSet op _ _ _ | .rChk op _ _ _ | .f1 op _ _ _ _ => some op
  | _ => none

theorem plan_op {m : Mem} {alive : Nat → Bool} {t : Nat} {p : Pc} {c : Choice} {as : List Act}
    {p' : Pc} (h : plan m alive t p c = some (as, p')) {op : Op} (ho : opOf p' = some op) :
    opOf p = some op := by
  unfold plan at h
  split at h
  all_goals
    repeat' split at h
    all_goals first
      | (cases h; done)
      | (obtain ⟨rfl, rfl⟩ := Option.some.inj h |> Prod.mk.inj
         first
         | exact ho
         | (simp [opOf] at ho; done)
         | (simp only [opOf, after2, after3] at ho; repeat' split at ho
            all_goals (simp [opOf] at ho)))

structure RInv (R : DevIno → Rng → Prop) (s : State) : Prop where
  units : ∀ f ∈ s.mem.files, ∀ o ∈ s.mem.offs f, R (s.mem.key f) (s.mem.rng o)
  ops : ∀ u op, opOf (s.pc u) = some op → R op.key op.rng
  held : ∀ x ∈ s.mem.outs, R x.2.key x.2.rng

def UnitsIn (R : DevIno → Rng → Prop) (m : Mem) : Prop :=
  ∀ f ∈ m.files, ∀ o ∈ m.offs f, R (m.key f) (m.rng o)

theorem act_units {R : DevIno → Rng → Prop} {m : Mem} {a : Act} (hp : Pre m a)
    (ha : ∀ f o r, a = .insO f o r → R (m.key f) r) (h : UnitsIn R m) : UnitsIn R (m.act a) := by
  intro x hx o ho
  cases a with
  | iniF f k =>
    by_cases e : x = f
    · subst e; simp [Mem.act] at ho
    · simp only [Mem.act, fset_other _ _ e] at ho ⊢
      exact h x hx o ho
  | insF f =>
    obtain ⟨p1, p2, p3, p4⟩ := hp
    simp only [Mem.act, List.mem_cons] at hx
    rcases hx with rfl | hx
    · simp [Mem.act, p4] at ho
    · exact h x hx o ho
  | insO f o' r =>
    obtain ⟨p1, p2, p3⟩ := hp
    by_cases e : o = o'
    · subst e
      have hxf : x = f := by
        by_contra hne
        simp only [Mem.act, fset_other _ _ hne] at ho
        exact p2 x ho
      subst hxf
      simpa [Mem.act] using ha x o r rfl
    · have ho' : o ∈ m.offs x := by
        simp only [Mem.act, fset] at ho
        split at ho
        · rename_i e2; subst e2
          rcases List.mem_cons.mp ho with h' | h'
          · exact absurd h' e
          · exact h'
        · exact ho
      simp only [Mem.act, fset_other _ _ e]
      exact h x hx o ho'
  | cutO f o' =>
    refine h x hx o ?_
    simp only [Mem.act, fset] at ho
    split at ho
    · rename_i e; subst e; exact List.mem_of_mem_erase ho
    · exact ho
  | drainO f =>
    refine h x hx o ?_
    simp only [Mem.act, fset] at ho
    split at ho
    · simp at ho
    · exact ho
  | cutF f => exact h x (List.mem_of_mem_erase hx) o ho
  | _ => exact h x hx o ho

theorem acts_units {R : DevIno → Rng → Prop} {alive : Nat → Bool} {t : Nat} :
    ∀ {as : List Act} {m : Mem}, OkAll alive t m as → (∀ f o r, Act.insO f o r ∉ as) →
    UnitsIn R m → UnitsIn R (m.acts as) := by
  intro as
  induction as with
  | nil => intro m _ _ h; exact h
  | cons a as ih =>
    intro m hk ha h
    refine ih hk.2.2 (fun f o r hm => ha f o r (List.mem_cons_of_mem _ hm)) (act_units hk.1 ?_ h)
    intro f o r e
    exact absurd (e ▸ List.mem_cons_self) (ha f o r)

theorem plan_insO {m : Mem} {alive : Nat → Bool} {t : Nat} {p : Pc} {c : Choice} {as : List Act}
    {p' : Pc} (h : plan m alive t p c = some (as, p')) :
    (∀ f o r, Act.insO f o r ∉ as) ∨
      ∃ op f o, p = .lOff op f ∧ as = [.popO, .insO f o op.rng] := by
  unfold plan at h
  split at h
  case h_2 =>
    split at h
    · obtain ⟨rfl, rfl⟩ := Option.some.inj h |> Prod.mk.inj; left; simp
    · split at h
      · obtain ⟨rfl, rfl⟩ := Option.some.inj h |> Prod.mk.inj; left; simp
      · obtain ⟨rfl, rfl⟩ := Option.some.inj h |> Prod.mk.inj
        exact Or.inr ⟨_, _, _, rfl, rfl⟩
  all_goals
    left
    repeat' split at h
    all_goals first
      | (cases h; done)
      | (obtain ⟨rfl, rfl⟩ := Option.some.inj h |> Prod.mk.inj
         first | (simp; done) | (simp only [sweepActs]; split <;> simp))

/-- Where new locks in force come from. -/
theorem act_outs_new {m : Mem} {a : Act} {x : Nat × Out} (h : x ∈ (m.act a).outs) :
    x ∈ m.outs ∨ a = .flag x.1 x.2 := by
  cases a with
  | cutL o md l => exact Or.inl (mem_revoke.mp h).1
  | unl o l => exact Or.inl (mem_revoke.mp h).1
  | flag l hh =>
    simp only [Mem.act, List.mem_cons] at h
    rcases h with rfl | h
    · exact Or.inr rfl
    · exact Or.inl h
  | _ => exact Or.inl h

theorem acts_outs_new : ∀ {as : List Act} {m : Mem} {x : Nat × Out}, x ∈ (m.acts as).outs →
    x ∈ m.outs ∨ Act.flag x.1 x.2 ∈ as := by
  intro as
  induction as with
  | nil => intro m x h; exact Or.inl h
  | cons a as ih =>
    intro m x h
    rcases ih (m := m.act a) h with h1 | h1
    · rcases act_outs_new h1 with h2 | h2
      · exact Or.inl h2
      · exact Or.inr (h2 ▸ List.mem_cons_self)
    · exact Or.inr (List.mem_cons_of_mem _ h1)

theorem plan_flag {m : Mem} {alive : Nat → Bool} {t : Nat} {p : Pc} {c : Choice} {as : List Act}
    {p' : Pc} (h : plan m alive t p c = some (as, p')) {l : Nat} {hh : Out}
    (hm : Act.flag l hh ∈ as) :
    ∃ op f o, p = .setf op f o l ∧ hh = ⟨t, op.fd, op.key, op.rng, op.mode⟩ ∧ p' = .done 0 ∧
      as = [.flag l hh] := by
  unfold plan at h
  split at h
  case h_9 =>
    obtain ⟨rfl, rfl⟩ := Option.some.inj h |> Prod.mk.inj
    simp at hm
    obtain ⟨rfl, rfl⟩ := hm
    exact ⟨_, _, _, rfl, rfl, rfl, rfl⟩
  all_goals
    exfalso
    repeat' split at h
    all_goals first
      | (cases h; done)
      | (obtain ⟨rfl, rfl⟩ := Option.some.inj h |> Prod.mk.inj
         first | (simp at hm; done) | (simp only [sweepActs] at hm; split at hm <;> simp at hm))

theorem rinv_acts {R : DevIno → Rng → Prop} {s : State} (hi : SInv s) (hr : RInv R s) {t : Nat}
    (hal : s.alive t = true) {c : Choice} {as : List Act} {p' : Pc}
    (hpl : plan s.mem s.alive t (s.pc t) c = some (as, p')) (k : Nat) :
    UnitsIn R (s.mem.acts (as.take k)) ∧
      ∀ x ∈ (s.mem.acts (as.take k)).outs, R x.2.key x.2.rng := by
  have ok := plan_ok hi.sok hal (hi.thr t hal).2 (hi.thr t hal).1 hpl
  constructor
  · rcases plan_insO hpl with h1 | ⟨op, f, o, hp, rfl⟩
    · exact acts_units (okAll_take k ok.ok) (fun f o r hm => h1 f o r (List.mem_of_mem_take hm)) hr.units
    · have hpk := (hi.thr t hal).2
      rw [hp] at hpk
      have hR : R op.key op.rng := hr.ops t op (by rw [hp]; rfl)
      have h1 : UnitsIn R (s.mem.act .popO) := act_units trivial (by simp) hr.units
      have h2 : UnitsIn R ((s.mem.act .popO).act (.insO f o op.rng)) := by
        refine act_units ok.ok.2.2.1 ?_ h1
        intro f' o' r' e
        cases e
        have : (s.mem.act .popO).key f = op.key := hpk.2
        rw [this]; exact hR
      match k with
      | 0 => exact hr.units
      | 1 => exact h1
      | k + 2 => simp only [List.take_succ_cons, List.take_nil]; exact h2
  · intro x hx
    rcases acts_outs_new hx with h1 | h1
    · exact hr.held x h1
    · obtain ⟨op, f, o, hp, hh, _, _⟩ := plan_flag hpl (List.mem_of_mem_take h1)
      rw [hh]
      exact hr.ops t op (by rw [hp]; rfl)

theorem rinv_step {R : DevIno → Rng → Prop} {s s' : State} {e : Ev} (hi : SInv s) (hr : RInv R s)
    (ha : lockIn R e) (h : step s e = some s') : RInv R s' := by
  rcases step_cases h with ⟨t, c, r, rfl, ht0, hal, hpc, rfl⟩ | ⟨t, c, p, rfl, hal, hpc, hl, rfl⟩ |
    ⟨t, c, p, rfl, hal, hpc, rfl⟩ | ⟨t, c, as, p', rfl, hal, hpl, rfl⟩ |
    ⟨t, c, k, as, rfl, hal, hpl, rfl⟩
  · refine ⟨hr.units, ?_, hr.held⟩
    intro u op ho
    by_cases e : u = t
    · subst e
      simp only [State.setPc, fset_same] at ho
      cases c <;> simp [Call.start, opOf] at ho
      subst ho; exact ha
    · simp only [State.setPc, fset_pc_other e] at ho
      exact hr.ops u op ho
  · refine ⟨hr.units, ?_, hr.held⟩
    intro u op ho
    by_cases e : u = t
    · subst e
      simp only [State.setPc, fset_same] at ho
      exact hr.ops u op (by rw [hpc]; exact ho)
    · simp only [State.setPc, fset_pc_other e] at ho
      exact hr.ops u op ho
  · refine ⟨hr.units, ?_, hr.held⟩
    intro u op ho
    by_cases e : u = t
    · subst e
      simp only [State.setPc, fset_same] at ho
      exact hr.ops u op (by rw [hpc]; exact ho)
    · simp only [State.setPc, fset_pc_other e] at ho
      exact hr.ops u op ho
  · have := rinv_acts hi hr hal hpl as.length
    rw [List.take_length] at this
    refine ⟨this.1, ?_, this.2⟩
    intro u op ho
    by_cases e : u = t
    · subst e
      simp only [State.setPc, fset_same] at ho
      exact hr.ops u op (plan_op hpl ho)
    · simp only [State.setPc, fset_pc_other e] at ho
      exact hr.ops u op ho
  · rcases hpl with ⟨p', hpl⟩ | ⟨hnone, rfl⟩
    · have := rinv_acts hi hr hal hpl k
      exact ⟨this.1, hr.ops, this.2⟩
    · simp only [List.take_nil]
      exact ⟨hr.units, hr.ops, hr.held⟩

theorem reach_rinv {R : DevIno → Rng → Prop} {A : State → Ev → Prop}
    (hA : ∀ s e, A s e → lockIn R e) {s : State} (hr : Reach A s) : RInv R s :=
  (reach_inv (fun _ _ _ _ => ⟨by simp [init], by simp [init, opOf], by simp [init]⟩)
    (fun _ _ _ hi hw ha hs => rinv_step hi hw (hA _ _ ha) hs) hr).2

/-! Exclusion. -/

theorem overlap_symm {a b : Rng} (h : Overlap a b) : Overlap b a := by
  obtain ⟨x, h1, h2⟩ := h; exact ⟨x, h2, h1⟩

theorem separate_clustered {R : DevIno → Rng → Prop} (hR : Separate R) : Clustered R where
  sane := hR.sane
  trans := by
    intro k r r' r'' h h' h'' a b
    rcases hR.apart k r r' h h' with e | e
    · rw [e]; exact b
    · exact absurd a e

theorem hits_iff {R : DevIno → Rng → Prop} (hR : Clustered R) {k : DevIno} {r r' : Rng} (h : R k r)
    (h' : R k r') : hits r r' = true ↔ Overlap r r' := by
  rw [← (Props.C01_lookup_is_overlap r r' (hR.sane k r h) (hR.sane k r' h')).1]
  simp [hits]

/-- The record of a lock in force, under clustered ranges. -/
theorem held_unit {R : DevIno → Rng → Prop} (hR : Clustered R) {s : State} (hr : RInv R s)
    {l : Nat} {h : Out} (hm : (l, h) ∈ s.mem.outs) (hk : HeldOK s.mem l h) :
    ∃ f o, Att s.mem f o h.mode l ∧ s.mem.key f = h.key ∧ Overlap h.rng (s.mem.rng o) ∧
      R h.key (s.mem.rng o) ∧ s.mem.ltid l = h.t ∧
      s.mem.lfd l = h.fd ∧ s.mem.locked l = true ∧ s.mem.taken l = true := by
  obtain ⟨f, o, a, b, c, d, e, g, i⟩ := hk
  have h1 := hr.units f a.1 o a.2.1
  rw [b] at h1
  exact ⟨f, o, a, b, (hits_iff hR (hr.held _ hm) h1).mp c, h1, d, e, g, i⟩

/-- Under clustered ranges a request finds the record which its cluster uses. -/
theorem same_unit {R : DevIno → Rng → Prop} (hR : Clustered R) {s : State} (hi : SInv s)
    {k : DevIno} {f o o' : Nat} {r r' : Rng} (ho : o ∈ s.mem.offs f) (ho' : o' ∈ s.mem.offs f)
    (h1 : R k (s.mem.rng o)) (h2 : R k (s.mem.rng o')) (h3 : R k r) (h4 : R k r')
    (a : Overlap r (s.mem.rng o)) (b : Overlap r' (s.mem.rng o')) (c : Overlap r r') : o = o' := by
  refine hi.sok.sep f o ho o' ho' ((hits_iff hR h1 h2).mpr ?_)
  exact hR.trans k _ _ _ h1 h3 h2 (overlap_symm a) (hR.trans k _ _ _ h3 h4 h2 c b)

theorem two_counted {l : List Nat} {p : Nat → Bool} {x y : Nat} (hx : x ∈ l) (hy : y ∈ l)
    (hne : x ≠ y) (px : p x = true) (py : p y = true) : 2 ≤ l.countP p := by
  rw [List.countP_eq_length_filter]
  have h1 : x ∈ l.filter p := List.mem_filter.mpr ⟨hx, px⟩
  have h2 : y ∈ l.filter p := List.mem_filter.mpr ⟨hy, py⟩
  generalize l.filter p = q at *
  match q with
  | [] => simp at h1
  | [a] => simp at h1 h2; exact absurd (h1.trans h2.symm) hne
  | a :: b :: t => simp

theorem exclusive_of_inv {R : DevIno → Rng → Prop} (hR : Clustered R) {s : State} (hi : SInv s)
    (hw : WInv s) (hr : RInv R s) : Exclusive s := by
  rintro ⟨l, h⟩ hx ⟨l', h'⟩ hy hne ⟨hk, ho, hm⟩
  simp only at hk ho hm hne
  obtain ⟨f, o, ⟨a1, a2, a3⟩, b1, b2, b3, _, _, _, b6⟩ := held_unit hR hr hx (hi.outs.1 _ hx)
  obtain ⟨f', o', ⟨c1, c2, c3⟩, d1, d2, d3, _, _, _, d6⟩ := held_unit hR hr hy (hi.outs.1 _ hy)
  have hf : f = f' := hi.sok.keys f a1 f' c1 (by rw [b1, d1, hk])
  subst hf
  have hoo : o = o' := same_unit hR hi a2 c2 b3 (hk ▸ d3) (hr.held _ hx) (hk ▸ hr.held _ hy) b2 d2 ho
  subst hoo
  obtain ⟨w1, w2, w3⟩ := hw.words o
  have p1 : 0 < cnt s.mem o h.mode := List.countP_pos_iff.mpr ⟨l, a3, b6⟩
  have p2 : 0 < cnt s.mem o h'.mode := List.countP_pos_iff.mpr ⟨l', c3, d6⟩
  rcases Classical.em (s.mem.word o = -1) with e | e
  · have := w2 e
    cases hmm : h.mode <;> cases hmm' : h'.mode <;> rw [hmm] at p1 <;> rw [hmm'] at p2 <;>
      try omega
    rw [hmm] at a3; rw [hmm'] at c3
    have := two_counted a3 c3 hne b6 d6
    unfold cnt at *
    omega
  · have := w3 (by omega)
    rcases hm with e | e
    · rw [e] at p1; omega
    · rw [e] at p2; omega

end Fullock.FL
