import Verif.Proofs.FLRefs
/-! Every step of a thread meets the preconditions of its actions. -/
namespace Fullock.FL

/-- Whether the thread holds the table lock. -/
def inCS : Pc → Bool
  | .done _ => false
  | .acq _ => false
  | .spin .. => false
  | .setf .. => false
  | _ => true

/-- Places reached by acquiring the table lock. -/
def entry : Pc → Bool
  | .lFile _ | .rSet .. | .f1 .. | .f2 .. | .f3 .. | .uFind _ | .qry _ | .sw => true
  | _ => false

/-- Places reached by releasing the table lock. -/
def leave : Pc → Bool
  | .done _ | .acq _ | .spin .. => true
  | _ => false

theorem leave_inCS {p : Pc} (h : leave p = true) : inCS p = false := by
  cases p <;> simp_all [leave, inCS]

/-- An unlock request working on locker `l`. -/
def Use (m : Mem) (t : Nat) (op : Op) (f o l : Nat) (md : Mode) (lc tk : Bool) : Prop :=
  Att m f o md l ∧ m.key f = op.key ∧ hits op.rng (m.rng o) = true ∧ m.ltid l = t ∧
    m.lfd l = op.fd ∧ m.locked l = lc ∧ m.taken l = tk

/-- What a thread relies on at each place. -/
def PcOK (m : Mem) (t : Nat) : Pc → Prop
  | .acq p => entry p = true ∧ PcOK m t p
  | .rel p => leave p = true ∧ PcOK m t p
  | .lOff op f => f ∈ m.files ∧ m.key f = op.key
  | .lFProt op f o => f ∈ m.files ∧ m.key f = op.key ∧ o ∈ m.offs f ∧ hits op.rng (m.rng o) = true
  | .lLk op f o => f ∈ m.files ∧ m.key f = op.key ∧ o ∈ m.offs f ∧ hits op.rng (m.rng o) = true
  | .lOProt op f o l => Wait m t op f o l false
  | .spin op f o l => Wait m t op f o l false
  | .setf op f o l => Wait m t op f o l true
  | .rSet op f o l => Wait m t op f o l false
  | .rChk op f o l => Wait m t op f o l false
  | .f1 op _ f o l => Wait m t op f o l false
  | .uWord op f o l md => Use m t op f o l md true true
  | .uFlag op f o l md => Use m t op f o l md true false
  | .uCut op f o l md => Use m t op f o l md false false
  | .uOff _ f o => f ∈ m.files ∧ o ∈ m.offs f
  | .uFile _ f => f ∈ m.files
  | _ => True

theorem pcOK_waitPart {m : Mem} {t : Nat} {p : Pc} (h : PcOK m t p) : WaitPart m t p := by
  induction p with
  | acq p ih => exact ih h.2
  | _ => first | exact h | trivial

/-- Outside the critical section a thread relies only on its waiting locker. -/
theorem waitPart_pcOK {m m' : Mem} {t : Nat} {p : Pc} (h : PcOK m t p) (hn : inCS p = false)
    (hw : WaitPart m' t p) : PcOK m' t p := by
  cases p with
  | acq p =>
    refine ⟨h.1, ?_⟩
    have he := h.1
    cases p <;> first | (simp [entry] at he; done) | exact hw | trivial
  | spin op f o l => exact hw
  | setf op f o l => exact hw
  | done r => trivial
  | _ => simp [inCS] at hn

theorem after3_pcOK {m : Mem} {t : Nat} (op : Op) (r : Nat) :
    leave (after3 op r) = true ∧ PcOK m t (after3 op r) ∧ slot (after3 op r) = none ∧
      uslot (after3 op r) = none := by
  unfold after3; split <;> simp [leave, PcOK, entry, slot, uslot]

theorem after2_pcOK {m : Mem} {t : Nat} (op : Op) (r f : Nat) :
    leave (after2 op r f) = true ∧ PcOK m t (after2 op r f) ∧ slot (after2 op r f) = none ∧
      uslot (after2 op r f) = none := by
  unfold after2; split
  · simp [leave, PcOK, entry, slot, uslot]
  · exact after3_pcOK op r

/-- Actions done outside the critical section. -/
def OutActs (m : Mem) (t : Nat) (as : List Act) : Prop :=
  as = [] ∨ (∃ o md l, as = [.take o md l] ∧ m.ltid l = t) ∨ ∃ l h, as = [.flag l h] ∧ m.ltid l = t

theorem outActs_pcOK {m : Mem} {t u : Nat} {as : List Act} (h : OutActs m t as) (hut : u ≠ t)
    {p : Pc} (hp : PcOK m u p) : PcOK (m.acts as) u p := by
  have hW : ∀ op f o l tk, Wait m u op f o l tk → Wait (m.acts as) u op f o l tk := by
    rintro op f o l tk ⟨h1, h2, h3, h4, h5, h6, h7⟩
    rcases h with rfl | ⟨o', md', l', rfl, e⟩ | ⟨l', h', rfl, e⟩
    · exact ⟨h1, h2, h3, h4, h5, h6, h7⟩
    · have : l ≠ l' := fun e2 => hut (h4.symm.trans (e2 ▸ e))
      exact ⟨h1, h2, h3, h4, h5, h6, by simpa [Mem.acts, Mem.act, fset_other _ _ this] using h7⟩
    · have : l ≠ l' := fun e2 => hut (h4.symm.trans (e2 ▸ e))
      exact ⟨h1, h2, h3, h4, h5, by simpa [Mem.acts, Mem.act, fset_other _ _ this] using h6, h7⟩
  have hU : ∀ op f o l md lc tk, Use m u op f o l md lc tk → Use (m.acts as) u op f o l md lc tk := by
    rintro op f o l md lc tk ⟨h1, h2, h3, h4, h5, h6, h7⟩
    rcases h with rfl | ⟨o', md', l', rfl, e⟩ | ⟨l', h', rfl, e⟩
    · exact ⟨h1, h2, h3, h4, h5, h6, h7⟩
    · have : l ≠ l' := fun e2 => hut (h4.symm.trans (e2 ▸ e))
      exact ⟨h1, h2, h3, h4, h5, h6, by simpa [Mem.acts, Mem.act, fset_other _ _ this] using h7⟩
    · have : l ≠ l' := fun e2 => hut (h4.symm.trans (e2 ▸ e))
      exact ⟨h1, h2, h3, h4, h5, by simpa [Mem.acts, Mem.act, fset_other _ _ this] using h6, h7⟩
  have hF : (m.acts as).files = m.files ∧ (m.acts as).key = m.key ∧ (m.acts as).offs = m.offs ∧
      (m.acts as).rng = m.rng := by
    rcases h with rfl | ⟨o', md', l', rfl, e⟩ | ⟨l', h', rfl, e⟩ <;> exact ⟨rfl, rfl, rfl, rfl⟩
  induction p with
  | acq p ih => exact ⟨hp.1, ih hp.2⟩
  | rel p ih => exact ⟨hp.1, ih hp.2⟩
  | _ =>
    first
    | exact hW _ _ _ _ _ hp
    | exact hU _ _ _ _ _ _ _ hp
    | trivial
    | (simp only [PcOK, hF] at hp ⊢; exact hp)

section steps
variable {m : Mem} {alive : Nat → Bool} {t : Nat}

/-- What is shown about every step. -/
structure StepOK (m : Mem) (alive : Nat → Bool) (t : Nat) (p : Pc) (as : List Act) (p' : Pc) :
    Prop where
  ok : OkAll alive t m as
  pcok : PcOK (m.acts as) t p'
  own : Own (m.acts as) t p'
  cs : inCS p' = true → inCS p = true
  out : inCS p = false → OutActs m t as

theorem nd_erase_notin {l : List Nat} {x : Nat} (h : l.Nodup) : x ∉ l.erase x :=
  h.not_mem_erase

theorem cutL_gone (hs : SOK m) {o : Nat} {md : Mode} {l : Nat} (hl : l ∈ m.lks o md) (z : Nat)
    (md' : Mode) : l ∉ (m.act (.cutL o md l)).lks z md' := by
  simp only [Mem.act, lkset]
  split
  · exact nd_erase_notin (hs.lksNd o md)
  · rename_i e
    intro h
    obtain ⟨e1, e2⟩ := hs.lksDisj _ _ _ _ _ hl h
    exact e ⟨e1.symm, e2.symm⟩

/-- Removing the own locker. -/
theorem cut_own (hs : SOK m) {o : Nat} {md : Mode} {l : Nat} (hl : l ∈ m.lks o md)
    (ht : m.ltid l = t) :
    OkAll alive t m [.cutL o md l, .pushL l] := by
  refine ⟨trivial, Or.inl ht, ⟨?_, cutL_gone hs hl⟩, trivial, trivial⟩
  exact fun h => hs.ldisj l h o md hl

theorem cut_Own (hs : SOK m) {o : Nat} {md : Mode} {l : Nat} (hl : l ∈ m.lks o md) {p p' : Pc}
    (hown : Own m t p) (h1 : slot p = some l) (h2 : uslot p = none) :
    Own (m.acts [.cutL o md l, .pushL l]) t p' := by
  intro z md' x hx hxt
  have hx' : x ∈ (m.act (.cutL o md l)).lks z md' := hx
  have hne : x ≠ l := fun e => cutL_gone hs hl z md' (e ▸ hx')
  have hxm : x ∈ m.lks z md' := by
    rcases act_lks (a := .cutL o md l) trivial hx' with h | ⟨_, _, h⟩
    · exact h
    · cases h
  obtain ⟨c1, c2, c3⟩ := hown z md' x hxm hxt
  refine ⟨fun e => ?_, fun e1 e2 => ?_, fun e1 e2 => ?_⟩
  · have := c1 e; rw [h1] at this; exact absurd (Option.some.inj this).symm hne
  · have := c2 e1 e2; rw [h2] at this; cases this
  · obtain ⟨h, hm⟩ := c3 e1 e2
    exact ⟨h, act_outs_mem (a := .cutL o md l) hm (by simp [Act.lid]; exact fun e => hne e.symm)⟩

theorem cutO_ok (hs : SOK m) {f o : Nat} (ho : o ∈ m.offs f) (hl : oLocked m o = false) :
    OkAll alive t m [.cutO f o, .pushO o] := by
  refine ⟨oLocked_false hl, trivial, ⟨fun h => hs.odisj o h f ho, ?_⟩, trivial, trivial⟩
  intro f'
  simp only [Mem.act, fset]
  split
  · exact nd_erase_notin (hs.offsNd f)
  · rename_i e
    intro h
    exact e (hs.offsDisj _ _ _ h ho)

theorem cutF_ok (hs : SOK m) {f : Nat} (hf : f ∈ m.files)
    (hl : ∀ o ∈ m.offs f, ∀ md, m.lks o md = []) :
    OkAll alive t m [.cutF f, .pushF f] :=
  ⟨hl, trivial, ⟨fun h => hs.fdisj f h hf, nd_erase_notin hs.filesNd⟩, trivial, trivial⟩

theorem drainF_ok (hs : SOK m) {f : Nat} (hf : f ∈ m.files)
    (hl : ∀ o ∈ m.offs f, ∀ md, m.lks o md = []) :
    OkAll alive t m [.drainO f, .cutF f, .pushF f] := by
  refine ⟨hl, trivial, ?_⟩
  refine cutF_ok (m := m.act (.drainO f)) (act_sok (a := .drainO f) hs hl) hf ?_
  intro o ho
  simp [Mem.act] at ho

/-- Actions on the lists of records leave the thread's lockers alone. -/
theorem own_pures : ∀ {as : List Act} {m : Mem}, OkAll alive t m as →
    (∀ a ∈ as, a.lid = none ∧ ∀ o md l t fd, a ≠ .insL o md l t fd) → ∀ {p : Pc}, Own m t p →
    Own (m.acts as) t p := by
  intro as
  induction as with
  | nil => intro m _ _ p h; exact h
  | cons a as ih =>
    intro m hk ha p h
    exact ih hk.2.2 (fun x hx => ha x (List.mem_cons_of_mem _ hx))
      (act_own_pure hk.1 (ha a List.mem_cons_self).1 (ha a List.mem_cons_self).2 h)

theorem sweep_ok (hs : SOK m) {o : Nat} {md : Mode} {l : Nat} (hl : l ∈ m.lks o md)
    (hd : alive (m.ltid l) = false) : OkAll alive t m (sweepActs m o md l) := by
  unfold sweepActs
  have hpush : ∀ m' : Mem, m'.lfree = m.lfree → m'.lks = (m.act (.cutL o md l)).lks →
      OkAll alive t m' [.pushL l] := by
    intro m' e1 e2
    refine ⟨⟨?_, ?_⟩, trivial, trivial⟩
    · rw [e1]; exact fun h => hs.ldisj l h o md hl
    · rw [e2]; exact cutL_gone hs hl
  split
  · exact ⟨trivial, Or.inr hd, trivial, Or.inr hd, hpush _ rfl rfl⟩
  · exact ⟨trivial, Or.inr hd, hpush _ rfl rfl⟩

/-- The sweep leaves the lockers of every other live thread alone. -/
theorem sweep_frame {u : Nat} (hu : alive u = true) : ∀ {as : List Act} {m : Mem}, SOK m →
    OkAll alive (u + 1) m as →
    (∀ op f o l tk, Wait m u op f o l tk → Wait (m.acts as) u op f o l tk) ∧
    (∀ p, Own m u p → Own (m.acts as) u p) := by
  intro as
  induction as with
  | nil => intro m _ _; exact ⟨fun _ _ _ _ _ h => h, fun _ h => h⟩
  | cons a as ih =>
    intro m hs hk
    obtain ⟨i1, i2⟩ := ih (act_sok hs hk.1) hk.2.2
    exact ⟨fun op f o l tk h => i1 op f o l tk (act_wait hs hk.1 hk.2.1 (by omega) hu h),
      fun p h => i2 p (act_own hk.1 hk.2.1 (by omega) hu h)⟩

theorem prot_own {p q : Pc} {as : List Act} (h : Own m t p) (h1 : slot p = slot q)
    (h2 : uslot p = uslot q) (ha : (∃ x b, as = [.fprot x b]) ∨ ∃ x b, as = [.oprot x b]) :
    Own (m.acts as) t q := by
  rcases ha with ⟨x, b, rfl⟩ | ⟨x, b, rfl⟩ <;> exact own_congr h h1 h2

theorem plan_ok (hs : SOK m) (hal : alive t = true) {p : Pc} {c : Choice}
    {as : List Act} {p' : Pc} (hp : PcOK m t p) (hown : Own m t p)
    (h : plan m alive t p c = some (as, p')) : StepOK m alive t p as p' := by
  have nop : ∀ {q : Pc}, PcOK m t q → slot p = slot q → uslot p = uslot q →
      (inCS q = true → inCS p = true) → StepOK m alive t p [] q := fun h1 h2 h3 h4 =>
    ⟨trivial, h1, own_congr hown h2 h3, h4, fun _ => Or.inl rfl⟩
  have rel3 : ∀ (op : Op) (r : Nat), slot p = none → uslot p = none → inCS p = true →
      StepOK m alive t p [] (.rel (after3 op r)) := fun op r h1 h2 h3 => by
    obtain ⟨a1, a2, a3, a4⟩ := after3_pcOK (m := m) (t := t) op r
    exact nop ⟨a1, a2⟩ (by rw [h1]; exact a3.symm) (by rw [h2]; rfl) (fun _ => h3)
  unfold plan at h
  split at h
  -- lFile
  · rename_i op
    split at h
    · rename_i f hf
      obtain ⟨rfl, rfl⟩ := Option.some.inj h |> Prod.mk.inj
      obtain ⟨f1, f2⟩ := findFile_some hf
      exact ⟨⟨trivial, trivial, trivial⟩, ⟨f1, f2⟩,
        prot_own hown rfl rfl (Or.inl ⟨_, _, rfl⟩),
        fun _ => rfl, fun e => by simp [inCS] at e⟩
    · rename_i hf
      split at h
      · obtain ⟨rfl, rfl⟩ := Option.some.inj h |> Prod.mk.inj
        exact nop ⟨rfl, trivial⟩ rfl rfl (fun _ => rfl)
      · rename_i f rest hfr
        obtain ⟨rfl, rfl⟩ := Option.some.inj h |> Prod.mk.inj
        have hk : OkAll alive t m [.popF, .iniF f op.key, .insF f] := by
          have hnf : f ∉ m.files := hs.fdisj f (by rw [hfr]; simp)
          refine ⟨trivial, trivial, hnf, trivial, ⟨hnf, ?_, ?_, ?_⟩, trivial, trivial⟩
          · have := hs.ffreeNd
            rw [hfr, List.nodup_cons] at this
            simpa [Mem.act, hfr] using this.1
          · intro f' hf' he
            simp only [Mem.act, fset_same, fset_other _ _ (ne_of_mem_of_not_mem hf' hnf)] at he
            exact findFile_none hf f' hf' he
          · simp [Mem.act]
        exact ⟨hk, ⟨by simp [Mem.acts, Mem.act], by simp [Mem.acts, Mem.act]⟩,
          own_pures hk (by simp [Act.lid]) (own_congr hown rfl rfl),
          fun _ => rfl, fun e => by simp [inCS] at e⟩
  -- lOff
  · rename_i op f
    split at h
    · rename_i o ho
      obtain ⟨rfl, rfl⟩ := Option.some.inj h |> Prod.mk.inj
      obtain ⟨o1, o2⟩ := findOff_some ho
      exact ⟨⟨trivial, trivial, trivial⟩, ⟨hp.1, hp.2, o1, o2⟩,
        prot_own hown rfl rfl (Or.inr ⟨_, _, rfl⟩),
        fun _ => rfl, fun e => by simp [inCS] at e⟩
    · rename_i ho
      split at h
      · obtain ⟨rfl, rfl⟩ := Option.some.inj h |> Prod.mk.inj
        exact rel3 op ENOLCK rfl rfl rfl
      · rename_i o rest hor
        obtain ⟨rfl, rfl⟩ := Option.some.inj h |> Prod.mk.inj
        have hk : OkAll alive t m [.popO, .insO f o op.rng] := by
          refine ⟨trivial, trivial, ⟨?_, ?_, ?_⟩, trivial, trivial⟩
          · have := hs.ofreeNd
            rw [hor, List.nodup_cons] at this
            simpa [Mem.act, hor] using this.1
          · exact hs.odisj o (by rw [hor]; simp)
          · exact findOff_none ho
        exact ⟨hk, ⟨hp.1, hp.2, by simp [Mem.acts, Mem.act], by simp [Mem.acts, Mem.act, hits_refl]⟩,
          own_pures hk (by simp [Act.lid]) (own_congr hown rfl rfl),
          fun _ => rfl, fun e => by simp [inCS] at e⟩
  -- lFProt
  · rename_i op f o
    obtain ⟨rfl, rfl⟩ := Option.some.inj h |> Prod.mk.inj
    exact ⟨⟨trivial, trivial, trivial⟩, hp,
      prot_own hown rfl rfl (Or.inl ⟨_, _, rfl⟩),
      fun _ => rfl, fun e => by simp [inCS] at e⟩
  -- lLk
  · rename_i op f o
    split at h
    · obtain ⟨rfl, rfl⟩ := Option.some.inj h |> Prod.mk.inj
      obtain ⟨a1, a2, a3, a4⟩ := after2_pcOK (m := m) (t := t) op ENOLCK f
      exact nop ⟨a1, a2⟩ a3.symm rfl (fun _ => rfl)
    · rename_i l rest hlr
      obtain ⟨rfl, rfl⟩ := Option.some.inj h |> Prod.mk.inj
      have hnew : ∀ z md, l ∉ m.lks z md := hs.ldisj l (by rw [hlr]; simp)
      obtain ⟨p1, p2, p3, p4⟩ := hp
      refine ⟨?_, ?_, ?_, fun _ => rfl, fun e => by simp [inCS] at e⟩
      · refine ⟨trivial, trivial, ⟨?_, hnew⟩, rfl, trivial⟩
        have := hs.lfreeNd
        rw [hlr, List.nodup_cons] at this
        simpa [Mem.act, hlr] using this.1
      · refine ⟨⟨p1, p3, ?_⟩, p2, p4, ?_, ?_, ?_, ?_⟩ <;> simp [Mem.acts, Mem.act]
      · intro z md x hx hxt
        have hx' : x ∈ (fset m.lks o (fset (m.lks o) op.mode (l :: m.lks o op.mode))) z md := hx
        rw [lkset] at hx'
        by_cases e : x = l
        · subst e; simp [Mem.acts, Mem.act, slot]
        · have hxm : x ∈ m.lks z md := by
            split at hx'
            · rename_i e2; obtain ⟨rfl, rfl⟩ := e2
              rcases List.mem_cons.mp hx' with h' | h'
              · exact absurd h' e
              · exact h'
            · exact hx'
          simp only [Mem.acts, List.foldl, Mem.act, fset_other _ _ e] at hxt ⊢
          obtain ⟨c1, c2, c3⟩ := hown z md x hxm hxt
          refine ⟨fun e => ?_, fun e1 e2 => ?_, c3⟩
          · have := c1 e; simp [slot] at this
          · have := c2 e1 e2; simp [uslot] at this
  -- lOProt
  · rename_i op f o l
    obtain ⟨rfl, rfl⟩ := Option.some.inj h |> Prod.mk.inj
    exact ⟨⟨trivial, trivial, trivial⟩, ⟨rfl, hp⟩,
      prot_own hown rfl rfl (Or.inr ⟨_, _, rfl⟩),
      fun _ => rfl, fun e => by simp [inCS] at e⟩
  -- spin go
  · rename_i op f o l
    obtain ⟨h1, h2, h3, h4, h5, h6, h7⟩ := hp
    split at h
    · obtain ⟨rfl, rfl⟩ := Option.some.inj h |> Prod.mk.inj
      refine ⟨⟨trivial, ⟨h4, h7⟩, trivial⟩, ⟨h1, h2, h3, h4, h5, h6, by simp [Mem.acts, Mem.act]⟩,
        ?_, fun e => by simp [inCS] at e, fun _ => Or.inr (Or.inl ⟨_, _, _, rfl, h4⟩)⟩
      intro z md x hx hxt
      obtain ⟨c1, c2, c3⟩ := hown z md x hx hxt
      by_cases e : x = l
      · subst e
        refine ⟨fun _ => rfl, fun e1 => ?_, fun e1 => ?_⟩
        · exact absurd (h6.symm.trans e1) (by simp)
        · exact absurd (h6.symm.trans e1) (by simp)
      · simp only [Mem.acts, List.foldl, Mem.act, fset_other _ _ e]
        exact ⟨c1, c2, c3⟩
    · split at h
      · obtain ⟨rfl, rfl⟩ := Option.some.inj h |> Prod.mk.inj
        exact nop ⟨rfl, h1, h2, h3, h4, h5, h6, h7⟩ rfl rfl (fun e => by simp [inCS] at e)
      · obtain ⟨rfl, rfl⟩ := Option.some.inj h |> Prod.mk.inj
        exact nop ⟨h1, h2, h3, h4, h5, h6, h7⟩ rfl rfl (fun e => by simp [inCS] at e)
  -- spin spur
  · rename_i op f o l
    split at h
    · split at h
      · obtain ⟨rfl, rfl⟩ := Option.some.inj h |> Prod.mk.inj
        exact nop ⟨rfl, hp⟩ rfl rfl (fun e => by simp [inCS] at e)
      · obtain ⟨rfl, rfl⟩ := Option.some.inj h |> Prod.mk.inj
        exact nop hp rfl rfl (fun e => by simp [inCS] at e)
    · cases h
  -- spin limit
  · rename_i op f o l
    split at h
    · split at h
      · cases h
      · obtain ⟨rfl, rfl⟩ := Option.some.inj h |> Prod.mk.inj
        exact nop ⟨rfl, hp⟩ rfl rfl (fun e => by simp [inCS] at e)
      · obtain ⟨rfl, rfl⟩ := Option.some.inj h |> Prod.mk.inj
        exact nop ⟨rfl, hp⟩ rfl rfl (fun e => by simp [inCS] at e)
    · cases h
  -- setf
  · rename_i op f o l
    obtain ⟨rfl, rfl⟩ := Option.some.inj h |> Prod.mk.inj
    obtain ⟨h1, h2, h3, h4, h5, h6, h7⟩ := hp
    refine ⟨⟨trivial, ⟨h4, h6, f, o, h1, h2, h3, h4, h5, h7⟩, trivial⟩, trivial, ?_,
      fun e => by simp [inCS] at e, fun _ => Or.inr (Or.inr ⟨_, _, rfl, h4⟩)⟩
    intro z md x hx hxt
    obtain ⟨c1, c2, c3⟩ := hown z md x hx hxt
    by_cases e : x = l
    · subst e
      refine ⟨fun e => ?_, fun _ e => ?_, fun _ _ => ⟨_, List.mem_cons_self⟩⟩
      · simp [Mem.acts, Mem.act] at e
      · exact absurd (h7.symm.trans e) (by simp)
    · simp only [Mem.acts, List.foldl, Mem.act, fset_other _ _ e]
      refine ⟨fun e' => ?_, fun e1 e2 => ?_, fun e1 e2 => ?_⟩
      · have := c1 e'; simp [slot] at this; exact absurd this.symm e
      · have := c2 e1 e2; simp [uslot] at this
      · obtain ⟨hh, hm⟩ := c3 e1 e2; exact ⟨hh, List.mem_cons_of_mem _ hm⟩
  -- rSet
  · rename_i op f o l
    obtain ⟨rfl, rfl⟩ := Option.some.inj h |> Prod.mk.inj
    exact ⟨⟨trivial, trivial, trivial⟩, hp,
      prot_own hown rfl rfl (Or.inr ⟨_, _, rfl⟩),
      fun _ => rfl, fun e => by simp [inCS] at e⟩
  -- rChk lk
  · rename_i op f o l o' md l'
    split at h
    · rename_i hc
      obtain ⟨rfl, hc2, hc3⟩ := hc
      obtain ⟨rfl, rfl⟩ := Option.some.inj h |> Prod.mk.inj
      obtain ⟨w, ow⟩ := sweep_frame hal hs (sweep_ok (t := t + 1) hs hc2 hc3)
      exact ⟨sweep_ok hs hc2 hc3, w _ _ _ _ _ hp, ow _ hown, fun _ => rfl, fun e => by simp [inCS] at e⟩
    · cases h
  -- rChk go
  · rename_i op f o l
    obtain ⟨rfl, rfl⟩ := Option.some.inj h |> Prod.mk.inj
    exact ⟨⟨trivial, trivial, trivial⟩, ⟨rfl, hp⟩,
      prot_own hown rfl rfl (Or.inr ⟨_, _, rfl⟩),
      fun _ => rfl, fun e => by simp [inCS] at e⟩
  -- f1
  · rename_i op r f o l
    obtain ⟨h1, h2, h3, h4, h5, h6, h7⟩ := hp
    split at h
    · rename_i l' hl'
      obtain ⟨rfl, rfl⟩ := Option.some.inj h |> Prod.mk.inj
      obtain ⟨g1, g2, g3, g4⟩ := findLk_some hl'
      have hsl := (hown _ _ _ g1 g2).1 g4
      obtain ⟨a1, a2, a3, a4⟩ := after2_pcOK (m := m.acts [.cutL o op.mode l', .pushL l']) (t := t) op r f
      exact ⟨cut_own hs g1 g2, ⟨a1, a2⟩, cut_Own hs g1 hown hsl rfl, fun _ => rfl,
        fun e => by simp [inCS] at e⟩
    · rename_i hl'
      exact absurd ⟨h4, h5, h6⟩ (findLk_none hl' l h1.2.2)
  -- f2
  · rename_i op r f
    split at h
    · rename_i o ho
      split at h
      · obtain ⟨rfl, rfl⟩ := Option.some.inj h |> Prod.mk.inj
        exact rel3 op r rfl rfl rfl
      · rename_i hlk
        obtain ⟨rfl, rfl⟩ := Option.some.inj h |> Prod.mk.inj
        have hk : OkAll alive t m [.cutO f o, .pushO o] :=
          cutO_ok hs (findOff_some ho).1 (by simpa using hlk)
        obtain ⟨a1, a2, a3, a4⟩ := after3_pcOK (m := m.acts [.cutO f o, .pushO o]) (t := t) op r
        exact ⟨hk, ⟨a1, a2⟩, own_pures hk (by simp [Act.lid]) (own_congr hown a3.symm rfl),
          fun _ => rfl, fun e => by simp [inCS] at e⟩
    · obtain ⟨rfl, rfl⟩ := Option.some.inj h |> Prod.mk.inj
      exact rel3 op r rfl rfl rfl
  -- f3
  · rename_i op r
    split at h
    · rename_i f hf
      split at h
      · obtain ⟨rfl, rfl⟩ := Option.some.inj h |> Prod.mk.inj
        exact nop ⟨rfl, trivial⟩ rfl rfl (fun _ => rfl)
      · rename_i hlk
        obtain ⟨rfl, rfl⟩ := Option.some.inj h |> Prod.mk.inj
        have hk : OkAll alive t m [.drainO f, .cutF f, .pushF f] :=
          drainF_ok hs (findFile_some hf).1 (fLocked_false (by simpa using hlk))
        exact ⟨hk, ⟨rfl, trivial⟩, own_pures hk (by simp [Act.lid]) (own_congr hown rfl rfl),
          fun _ => rfl, fun e => by simp [inCS] at e⟩
    · obtain ⟨rfl, rfl⟩ := Option.some.inj h |> Prod.mk.inj
      exact nop ⟨rfl, trivial⟩ rfl rfl (fun _ => rfl)
  -- uFind
  · rename_i op
    have use : ∀ f o md l, findFile m op.key = some f → findOff m f op.rng = some o →
        findLk m o md t op.fd true = some l → Use m t op f o l md true true := by
      intro f o md l e1 e2 e3
      obtain ⟨x1, x2⟩ := findFile_some e1
      obtain ⟨y1, y2⟩ := findOff_some e2
      obtain ⟨z1, z2, z3, z4⟩ := findLk_some e3
      refine ⟨⟨x1, y1, z1⟩, x2, y2, z2, z3, z4, ?_⟩
      by_contra hc
      have := (hown o md l z1 z2).2.1 z4 (by simpa using hc)
      simp [uslot] at this
    split at h
    · obtain ⟨rfl, rfl⟩ := Option.some.inj h |> Prod.mk.inj
      exact nop ⟨rfl, trivial⟩ rfl rfl (fun _ => rfl)
    · rename_i f hf
      split at h
      · obtain ⟨rfl, rfl⟩ := Option.some.inj h |> Prod.mk.inj
        exact nop ⟨rfl, trivial⟩ rfl rfl (fun _ => rfl)
      · rename_i o ho
        split at h
        · rename_i l hl
          obtain ⟨rfl, rfl⟩ := Option.some.inj h |> Prod.mk.inj
          exact nop (use f o .wr l hf ho hl) rfl rfl (fun _ => rfl)
        · split at h
          · rename_i l hl
            obtain ⟨rfl, rfl⟩ := Option.some.inj h |> Prod.mk.inj
            exact nop (use f o .rd l hf ho hl) rfl rfl (fun _ => rfl)
          · obtain ⟨rfl, rfl⟩ := Option.some.inj h |> Prod.mk.inj
            exact nop ⟨rfl, trivial⟩ rfl rfl (fun _ => rfl)
  -- uWord
  · rename_i op f o l md
    obtain ⟨rfl, rfl⟩ := Option.some.inj h |> Prod.mk.inj
    obtain ⟨h1, h2, h3, h4, h5, h6, h7⟩ := hp
    refine ⟨⟨trivial, Or.inl h4, trivial⟩, ⟨h1, h2, h3, h4, h5, h6, by simp [Mem.acts, Mem.act]⟩, ?_,
      fun _ => rfl, fun e => by simp [inCS] at e⟩
    intro z md x hx hxt
    obtain ⟨c1, c2, c3⟩ := hown z md x hx hxt
    by_cases e : x = l
    · subst e
      refine ⟨fun e => absurd (h6.symm.trans e) (by simp), fun _ _ => rfl, fun _ e => ?_⟩
      simp [Mem.acts, Mem.act] at e
    · simp only [Mem.acts, List.foldl, Mem.act, fset_other _ _ e]
      refine ⟨fun e' => ?_, fun e1 e2 => ?_, fun e1 e2 => ?_⟩
      · have := c1 e'; simp [slot] at this
      · have := c2 e1 e2; simp [uslot] at this
      · obtain ⟨hh, hm⟩ := c3 e1 e2
        exact ⟨hh, mem_revoke.mpr ⟨hm, e⟩⟩
  -- uFlag
  · rename_i op f o l md
    obtain ⟨rfl, rfl⟩ := Option.some.inj h |> Prod.mk.inj
    obtain ⟨h1, h2, h3, h4, h5, h6, h7⟩ := hp
    refine ⟨⟨trivial, ⟨h4, h7⟩, trivial⟩, ⟨h1, h2, h3, h4, h5, by simp [Mem.acts, Mem.act], h7⟩, ?_,
      fun _ => rfl, fun e => by simp [inCS] at e⟩
    intro z md x hx hxt
    obtain ⟨c1, c2, c3⟩ := hown z md x hx hxt
    by_cases e : x = l
    · subst e
      refine ⟨fun _ => rfl, fun e => ?_, fun e => ?_⟩
      · simp [Mem.acts, Mem.act] at e
      · simp [Mem.acts, Mem.act] at e
    · simp only [Mem.acts, List.foldl, Mem.act, fset_other _ _ e]
      refine ⟨fun e' => ?_, fun e1 e2 => ?_, c3⟩
      · have := c1 e'; simp [slot] at this
      · have := c2 e1 e2; simp [uslot] at this; exact absurd this.symm e
  -- uCut
  · rename_i op f o l md
    obtain ⟨rfl, rfl⟩ := Option.some.inj h |> Prod.mk.inj
    obtain ⟨h1, h2, h3, h4, h5, h6, h7⟩ := hp
    exact ⟨cut_own hs h1.2.2 h4, ⟨h1.1, h1.2.1⟩, cut_Own hs h1.2.2 hown rfl rfl, fun _ => rfl,
      fun e => by simp [inCS] at e⟩
  -- uOff
  · rename_i op f o
    split at h
    · rename_i hc
      obtain ⟨rfl, rfl⟩ := Option.some.inj h |> Prod.mk.inj
      have hk : OkAll alive t m [.cutO f o, .pushO o] := cutO_ok hs hp.2 (by simp at hc; exact hc.2)
      exact ⟨hk, hp.1, own_pures hk (by simp [Act.lid]) (own_congr hown rfl rfl),
        fun _ => rfl, fun e => by simp [inCS] at e⟩
    · obtain ⟨rfl, rfl⟩ := Option.some.inj h |> Prod.mk.inj
      exact nop hp.1 rfl rfl (fun _ => rfl)
  -- uFile
  · rename_i op f
    split at h
    · rename_i hc
      obtain ⟨rfl, rfl⟩ := Option.some.inj h |> Prod.mk.inj
      have hk : OkAll alive t m [.cutF f, .pushF f] :=
        cutF_ok hs hp (fLocked_false (by simp at hc; exact hc.2))
      exact ⟨hk, ⟨rfl, trivial⟩, own_pures hk (by simp [Act.lid]) (own_congr hown rfl rfl),
        fun _ => rfl, fun e => by simp [inCS] at e⟩
    · obtain ⟨rfl, rfl⟩ := Option.some.inj h |> Prod.mk.inj
      exact nop ⟨rfl, trivial⟩ rfl rfl (fun _ => rfl)
  -- qry
  · split at h <;> obtain ⟨rfl, rfl⟩ := Option.some.inj h |> Prod.mk.inj <;>
      exact nop ⟨rfl, trivial⟩ rfl rfl (fun _ => rfl)
  -- sw lk
  · split at h
    · rename_i hc
      obtain ⟨hc1, hc2, hc3⟩ := hc
      obtain ⟨rfl, rfl⟩ := Option.some.inj h |> Prod.mk.inj
      obtain ⟨w, ow⟩ := sweep_frame hal hs (sweep_ok (t := t + 1) hs hc2 hc3)
      exact ⟨sweep_ok hs hc2 hc3, trivial, ow _ hown, fun _ => rfl, fun e => by simp [inCS] at e⟩
    · cases h
  -- sw off
  · rename_i f o
    split at h
    · rename_i hc
      obtain ⟨hc1, hc2, hc3⟩ := hc
      obtain ⟨rfl, rfl⟩ := Option.some.inj h |> Prod.mk.inj
      have hk : OkAll alive t m [.cutO f o, .pushO o] := cutO_ok hs hc2 hc3
      exact ⟨hk, trivial, own_pures hk (by simp [Act.lid]) (own_congr hown rfl rfl),
        fun _ => rfl, fun e => by simp [inCS] at e⟩
    · cases h
  -- sw file
  · rename_i f
    split at h
    · rename_i hc
      obtain ⟨hc1, hc2, hc3⟩ := hc
      obtain ⟨rfl, rfl⟩ := Option.some.inj h |> Prod.mk.inj
      have hk : OkAll alive t m [.cutF f, .pushF f] := cutF_ok hs hc1 (fLocked_false hc3)
      exact ⟨hk, trivial, own_pures hk (by simp [Act.lid]) (own_congr hown rfl rfl),
        fun _ => rfl, fun e => by simp [inCS] at e⟩
    · cases h
  -- sw go
  · obtain ⟨rfl, rfl⟩ := Option.some.inj h |> Prod.mk.inj
    exact nop ⟨rfl, trivial⟩ rfl rfl (fun _ => rfl)
  · cases h

end steps
end Fullock.FL
