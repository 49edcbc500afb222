import Verif.Proofs.FLInv
/-! Exact lock words: as long as nobody dies in one of three short windows. -/
namespace Fullock.FL

/-- The lock word says exactly what the counted lockers are. -/
def WordEq (m : Mem) (o : Nat) : Prop :=
  (cnt m o .wr = 0 ∧ m.word o = cnt m o .rd) ∨ (cnt m o .wr = 1 ∧ cnt m o .rd = 0 ∧ m.word o = -1)

/-- Actions that change neither lock words nor counted lockers. -/
def Act.plain : Act → Bool
  | .take .. | .unl .. | .cutL .. => false
  | _ => true

/-- The kinds of steps. -/
inductive Shape (m : Mem) (alive : Nat → Bool) (t : Nat) (p : Pc) (c : Choice) (as : List Act) : Prop
  | plain (h : ∀ a ∈ as, a.plain = true)
  | take (op : Op) (f o l : Nat) (hp : p = .spin op f o l) (hc : c = .go)
      (ht : canTake (m.word o) op.mode = true) (ha : as = [.take o op.mode l])
  | unl (op : Op) (f o l : Nat) (md : Mode) (hp : p = .uWord op f o l md) (hc : c = .go)
      (ha : as = [.unl o l])
  | cut (o : Nat) (md : Mode) (l : Nat) (hl : l ∈ m.lks o md) (ht : m.ltid l = t)
      (hk : m.locked l = false) (htk : m.taken l = false) (ha : as = [.cutL o md l, .pushL l])
      (hs : slot p = some l)
  | sweep (o : Nat) (md : Mode) (l : Nat) (hl : l ∈ m.lks o md) (hd : alive (m.ltid l) = false)
      (ha : as = sweepActs m o md l) (hc : c = .lk o md l)

theorem plan_shape {m : Mem} {alive : Nat → Bool} {t : Nat}
    {p : Pc} {c : Choice} {as : List Act} {p' : Pc} (hp : PcOK m t p)
    (hown : Own m t p) (h : plan m alive t p c = some (as, p')) : Shape m alive t p c as := by
  unfold plan at h
  split at h
  case h_6 =>
    split at h
    · rename_i hc
      obtain ⟨rfl, rfl⟩ := Option.some.inj h |> Prod.mk.inj
      exact .take _ _ _ _ rfl rfl hc rfl
    · split at h <;> obtain ⟨rfl, rfl⟩ := Option.some.inj h |> Prod.mk.inj <;>
        exact .plain (by simp)
  case h_17 =>
    obtain ⟨rfl, rfl⟩ := Option.some.inj h |> Prod.mk.inj
    exact .unl _ _ _ _ _ rfl rfl rfl
  case h_13 op r f o l =>
    obtain ⟨h1, h2, h3, h4, h5, h6, h7⟩ := hp
    split at h
    · rename_i l' hl'
      obtain ⟨rfl, rfl⟩ := Option.some.inj h |> Prod.mk.inj
      obtain ⟨g1, g2, g3, g4⟩ := findLk_some hl'
      have hsl := (hown _ _ _ g1 g2).1 g4
      have : l = l' := by simpa [slot] using hsl
      subst this
      exact .cut _ _ _ g1 g2 g4 h7 rfl rfl
    · rename_i hl'
      exact absurd ⟨h4, h5, h6⟩ (findLk_none hl' l h1.2.2)
  case h_19 op f o l md =>
    obtain ⟨rfl, rfl⟩ := Option.some.inj h |> Prod.mk.inj
    obtain ⟨h1, h2, h3, h4, h5, h6, h7⟩ := hp
    exact .cut _ _ _ h1.2.2 h4 h6 h7 rfl rfl
  case h_11 =>
    split at h
    · rename_i hc
      obtain ⟨rfl, hc2, hc3⟩ := hc
      obtain ⟨rfl, rfl⟩ := Option.some.inj h |> Prod.mk.inj
      exact .sweep _ _ _ hc2 hc3 rfl rfl
    · cases h
  case h_23 =>
    split at h
    · rename_i hc
      obtain ⟨hc1, hc2, hc3⟩ := hc
      obtain ⟨rfl, rfl⟩ := Option.some.inj h |> Prod.mk.inj
      exact .sweep _ _ _ hc2 hc3 rfl rfl
    · cases h
  all_goals
    refine .plain ?_
    repeat' split at h
    all_goals first
      | (cases h; done)
      | (obtain ⟨rfl, rfl⟩ := Option.some.inj h |> Prod.mk.inj; simp [Act.plain])

theorem wordEq_congr {m m' : Mem} {o : Nat} (hw : m'.word o = m.word o)
    (hc : ∀ md, cnt m' o md = cnt m o md) (h : WordEq m o) : WordEq m' o := by
  unfold WordEq
  rw [hw, hc .rd, hc .wr]; exact h

theorem plain_wordEq {m : Mem} {a : Act} (hp : Pre m a) (ha : a.plain = true)
    (h : ∀ o, WordEq m o) (o : Nat) : WordEq (m.act a) o := by
  cases a with
  | take => simp [Act.plain] at ha
  | unl => simp [Act.plain] at ha
  | cutL => simp [Act.plain] at ha
  | insO f' o' r =>
    by_cases e : o = o'
    · subst e
      left
      simp [cnt, Mem.act]
    · refine wordEq_congr ?_ ?_ (h o)
      · simp [Mem.act, fset_other _ _ e]
      · intro md; simp [cnt, Mem.act, fset_other _ _ e]
  | insL o' md' l t fd =>
    refine wordEq_congr (m := m) rfl ?_ (h o)
    intro md
    have h2 := hp.2
    simp only [cnt, Mem.act, lkset]
    split
    · rename_i e; obtain ⟨rfl, rfl⟩ := e
      rw [List.countP_cons, countP_fset_notin _ _ _ _ (h2 _ _)]
      simp
    · exact countP_fset_notin _ _ _ _ (h2 _ _)
  | drainO f =>
    refine wordEq_congr (m := m) rfl ?_ (h o)
    intro md
    simp only [cnt]
    rw [drain_lks hp]
    rfl
  | _ => exact wordEq_congr (m := m) rfl (fun _ => rfl) (h o)

theorem plains_wordEq {alive : Nat → Bool} {t : Nat} : ∀ {as : List Act} {m : Mem},
    OkAll alive t m as → (∀ a ∈ as, a.plain = true) → (∀ o, WordEq m o) →
    ∀ o, WordEq (m.acts as) o := by
  intro as
  induction as with
  | nil => intro m _ _ h; exact h
  | cons a as ih =>
    intro m hk ha h
    exact ih hk.2.2 (fun x hx => ha x (List.mem_cons_of_mem _ hx))
      (plain_wordEq hk.1 (ha a List.mem_cons_self) h)

theorem take_wordEq {m : Mem} (hs : SOK m) {o : Nat} {md : Mode} {l : Nat}
    (hc : canTake (m.word o) md = true) (ht : m.taken l = false) (hl : l ∈ m.lks o md)
    (h : ∀ o, WordEq m o) (z : Nat) : WordEq (m.act (.take o md l)) z := by
  have hcnt : ∀ z md', cnt (m.act (.take o md l)) z md' =
      if z = o ∧ md' = md then cnt m z md' + 1 else cnt m z md' := by
    intro z md'
    simp only [cnt, Mem.act]
    split
    · rename_i e; obtain ⟨rfl, rfl⟩ := e
      exact countP_fset_true _ _ _ (hs.lksNd _ _) hl ht
    · rename_i e
      refine countP_fset_notin _ _ _ _ ?_
      intro h
      obtain ⟨e1, e2⟩ := hs.lksDisj _ _ _ _ _ h hl
      exact e ⟨e1, e2⟩
  by_cases e : z = o
  · subst e
    have h0 := h z
    unfold WordEq at h0 ⊢
    rw [hcnt, hcnt]
    have hw : (m.act (.take z md l)).word z = takeWord (m.word z) md := by simp [Mem.act]
    rw [hw]
    cases md with
    | rd =>
      simp only [canTake, decide_eq_true_eq] at hc
      simp [takeWord]
      omega
    | wr =>
      simp only [canTake, beq_iff_eq] at hc
      simp [takeWord]
      omega
  · refine wordEq_congr ?_ ?_ (h z)
    · simp [Mem.act, fset_other _ _ e]
    · intro md'; rw [hcnt]; simp [e]

theorem unl_wordEq {m : Mem} (hs : SOK m) {o : Nat} {md : Mode} {l : Nat}
    (ht : m.taken l = true) (hl : l ∈ m.lks o md)
    (h : ∀ o, WordEq m o) (z : Nat) : WordEq (m.act (.unl o l)) z := by
  have hcnt : ∀ z md', cnt (m.act (.unl o l)) z md' =
      if z = o ∧ md' = md then cnt m z md' - 1 else cnt m z md' := by
    intro z md'
    simp only [cnt, Mem.act]
    split
    · rename_i e; obtain ⟨rfl, rfl⟩ := e
      have := countP_fset_false _ _ _ (hs.lksNd _ _) hl ht
      omega
    · rename_i e
      refine countP_fset_notin _ _ _ _ ?_
      intro h
      obtain ⟨e1, e2⟩ := hs.lksDisj _ _ _ _ _ h hl
      exact e ⟨e1, e2⟩
  by_cases e : z = o
  · subst e
    have h0 := h z
    have hpos : 0 < cnt m z md := List.countP_pos_iff.mpr ⟨l, hl, ht⟩
    unfold WordEq at h0 ⊢
    rw [hcnt, hcnt]
    have hw : (m.act (.unl z l)).word z = unlockWord (m.word z) := by simp [Mem.act]
    rw [hw]
    unfold unlockWord
    cases md <;> simp <;> split_ifs <;> omega
  · refine wordEq_congr ?_ ?_ (h z)
    · simp [Mem.act, fset_other _ _ e]
    · intro md'; rw [hcnt]; simp [e]

theorem cut_cnt {m : Mem} {o : Nat} {md : Mode} {l : Nat} (ht : m.taken l = false) (z : Nat)
    (md' : Mode) : cnt (m.act (.cutL o md l)) z md' = cnt m z md' := by
  simp only [cnt, Mem.act, lkset]
  split
  · rename_i e; obtain ⟨rfl, rfl⟩ := e
    by_cases hl : l ∈ m.lks z md'
    · have := (List.perm_cons_erase hl).countP_eq m.taken
      rw [List.countP_cons] at this
      simpa [ht] using this.symm
    · rw [List.erase_of_not_mem hl]
  · rfl

theorem cut_wordEq {m : Mem} {o : Nat} {md : Mode} {l : Nat} (ht : m.taken l = false)
    (h : ∀ o, WordEq m o) (z : Nat) : WordEq (m.act (.cutL o md l)) z :=
  wordEq_congr (m := m) rfl (cut_cnt ht z) (h z)

/-- Cutting off a counted locker and correcting the word amounts to correcting the word first. -/
theorem cut_unl_wordEq {m : Mem} (hs : SOK m) {o : Nat} {md : Mode} {l : Nat}
    (ht : m.taken l = true) (hl : l ∈ m.lks o md)
    (h : ∀ o, WordEq m o) (z : Nat) : WordEq ((m.act (.cutL o md l)).act (.unl o l)) z := by
  have h1 := unl_wordEq hs ht hl h
  have h2 := cut_wordEq (m := m.act (.unl o l)) (o := o) (md := md) (l := l) (by simp [Mem.act]) h1 z
  exact h2

theorem sweep_wordEq {m : Mem} (hs : SOK m) {o : Nat} {md : Mode} {l : Nat}
    (ht : m.locked l = m.taken l) (hl : l ∈ m.lks o md) (h : ∀ o, WordEq m o) {k : Nat} (hk : k ≠ 1)
    (z : Nat) : WordEq (m.acts ((sweepActs m o md l).take k)) z := by
  unfold sweepActs
  by_cases hlk : m.locked l = true
  · simp only [hlk, if_true, List.cons_append, List.nil_append]
    match k with
    | 0 => exact h z
    | 1 => exact absurd rfl hk
    | 2 => exact cut_unl_wordEq hs (ht ▸ hlk) hl h z
    | k + 3 =>
      simp only [List.take_succ_cons, List.take_nil]
      exact cut_unl_wordEq hs (ht ▸ hlk) hl h z
  · have hlk' : m.locked l = false := by simpa using hlk
    simp only [hlk', Bool.false_eq_true, if_false, List.cons_append, List.nil_append]
    match k with
    | 0 => exact h z
    | 1 => exact absurd rfl hk
    | k + 2 =>
      simp only [List.take_succ_cons, List.take_nil]
      exact cut_wordEq (ht ▸ hlk') h z

/-- Lockers of dead threads are counted exactly when they are flagged. -/
def LT2 (m : Mem) (S : Nat → Prop) : Prop :=
  ∀ o md l, l ∈ m.lks o md → S (m.ltid l) → m.locked l = m.taken l

theorem softDeath_ok {s : State} {e : Ev} (h : softDeath s e) : okDeath s e := by
  cases e with
  | die t c k =>
    simp only [okDeath, softDeath] at *
    cases hp : s.pc t <;> simp_all
  | _ => trivial

structure EInv (s : State) : Prop where
  words : ∀ o, WordEq s.mem o
  lt : LT2 s.mem (fun u => s.alive u = false)

theorem einv_init (nf no nl : Nat) (junk : Mem) : EInv (init nf no nl junk) where
  words := by intro o; simp [WordEq, init, cnt]
  lt := by intro o md l hl; simp [init] at hl

theorem act_lt2 {m : Mem} {S : Nat → Prop} {a : Act} (hp : Pre m a)
    (hu : ∀ l, a.lid = some l → (∀ z md, l ∉ (m.act a).lks z md) ∨ ¬ S (m.ltid l)) (h : LT2 m S) :
    LT2 (m.act a) S := by
  intro o md l hl hS
  rcases act_lks hp hl with hl' | ⟨t', fd, rfl⟩
  · by_cases hlid : a.lid = some l
    · have hlt : (m.act a).ltid l = m.ltid l := by
        cases a <;> simp [Act.lid] at hlid <;> rfl
      rw [hlt] at hS
      rcases hu l hlid with h1 | h1
      · exact absurd hl (h1 _ _)
      · exact absurd hS h1
    · obtain ⟨b1, b2, b3, _⟩ := act_locked hp hl' hlid
      rw [b3] at hS; rw [b1, b2]
      exact h o md l hl' hS
  · simp [Mem.act]

theorem lt2_acts {alive : Nat → Bool} {t : Nat} {S : Nat → Prop} : ∀ {as : List Act} {m : Mem},
    OkAll alive t m as → (∀ a ∈ as, a.lid = none) → LT2 m S → LT2 (m.acts as) S := by
  intro as
  induction as with
  | nil => intro m _ _ h; exact h
  | cons a as ih =>
    intro m hk hu h
    refine ih hk.2.2 (fun x hx => hu x (List.mem_cons_of_mem _ hx)) (act_lt2 hk.1 ?_ h)
    intro l e
    rw [hu a List.mem_cons_self] at e; cases e

theorem sweep_lt2 {m : Mem} (hs : SOK m) {S : Nat → Prop} {o : Nat}
    {md : Mode} {l : Nat} (hl : l ∈ m.lks o md) (k : Nat)
    (h : LT2 m S) : LT2 (m.acts ((sweepActs m o md l).take k)) S := by
  unfold sweepActs
  have h1 : LT2 (m.act (.cutL o md l)) S := by
    refine act_lt2 trivial ?_ h
    intro l' e
    simp [Act.lid] at e
    subst e
    exact Or.inl (cutL_gone hs hl)
  have h2 : LT2 ((m.act (.cutL o md l)).act (.unl o l)) S := by
    refine act_lt2 trivial ?_ h1
    intro l' e
    simp [Act.lid] at e
    subst e
    exact Or.inl (cutL_gone hs hl)
  by_cases hlk : m.locked l = true
  · simp only [hlk, if_true, List.cons_append, List.nil_append]
    match k with
    | 0 => exact h
    | 1 => exact h1
    | 2 => exact h2
    | k + 3 =>
      simp only [List.take_succ_cons, List.take_nil]
      exact h2
  · have hlk' : m.locked l = false := by simpa using hlk
    simp only [hlk', Bool.false_eq_true, if_false, List.cons_append, List.nil_append]
    match k with
    | 0 => exact h
    | 1 => exact h1
    | k + 2 => simp only [List.take_succ_cons, List.take_nil]; exact h1

theorem cut_lt2 {m : Mem} (hs : SOK m) {S : Nat → Prop} {o : Nat}
    {md : Mode} {l : Nat} (hl : l ∈ m.lks o md) (k : Nat)
    (h : LT2 m S) : LT2 (m.acts ([Act.cutL o md l, .pushL l].take k)) S := by
  have h1 : LT2 (m.act (.cutL o md l)) S := by
    refine act_lt2 trivial ?_ h
    intro l' e
    simp [Act.lid] at e
    subst e
    exact Or.inl (cutL_gone hs hl)
  match k with
  | 0 => exact h
  | 1 => exact h1
  | k + 2 => simp only [List.take_succ_cons, List.take_nil]; exact h1

/-- Which steps change a `locked` flag by themselves. -/
theorem plan_flags {m : Mem} {alive : Nat → Bool} {t : Nat}
    {p : Pc} {c : Choice} {as : List Act} {p' : Pc} (h : plan m alive t p c = some (as, p'))
    (hpl : ∀ a ∈ as, a.plain = true) :
    (∀ a ∈ as, a.lid = none) ∨
    (∃ op f o l, p = .setf op f o l ∧ c = .go ∧ as = [.flag l ⟨t, op.fd, op.key, op.rng, op.mode⟩]) ∨
    (∃ op f o l md, p = .uFlag op f o l md ∧ c = .go ∧ as = [.unflag l]) := by
  unfold plan at h
  split at h
  case h_9 =>
    obtain ⟨rfl, rfl⟩ := Option.some.inj h |> Prod.mk.inj
    exact Or.inr (Or.inl ⟨_, _, _, _, rfl, rfl, rfl⟩)
  case h_18 =>
    obtain ⟨rfl, rfl⟩ := Option.some.inj h |> Prod.mk.inj
    exact Or.inr (Or.inr ⟨_, _, _, _, _, rfl, rfl, rfl⟩)
  case h_17 =>
    obtain ⟨rfl, rfl⟩ := Option.some.inj h |> Prod.mk.inj
    exact absurd (hpl _ List.mem_cons_self) (by simp [Act.plain])
  case h_19 =>
    obtain ⟨rfl, rfl⟩ := Option.some.inj h |> Prod.mk.inj
    exact absurd (hpl _ List.mem_cons_self) (by simp [Act.plain])
  case h_11 =>
    split at h
    · obtain ⟨rfl, rfl⟩ := Option.some.inj h |> Prod.mk.inj
      exact absurd (hpl _ List.mem_cons_self) (by simp [Act.plain])
    · cases h
  case h_23 =>
    split at h
    · obtain ⟨rfl, rfl⟩ := Option.some.inj h |> Prod.mk.inj
      exact absurd (hpl _ List.mem_cons_self) (by simp [Act.plain])
    · cases h
  all_goals
    left
    repeat' split at h
    all_goals first
      | (cases h; done)
      | (obtain ⟨rfl, rfl⟩ := Option.some.inj h |> Prod.mk.inj; simp [Act.lid]; done)
      | (obtain ⟨rfl, rfl⟩ := Option.some.inj h |> Prod.mk.inj
         exact absurd (hpl _ List.mem_cons_self) (by simp [Act.plain]))

/-- A live thread's locker that is counted but not flagged is the one it is about to flag. -/
theorem unflagged_taken {m : Mem} {t : Nat} {p : Pc} (hp : PcOK m t p) (hown : Own m t p)
    {o : Nat} {md : Mode} {l : Nat} (hl : l ∈ m.lks o md) (ht : m.ltid l = t)
    (hk : m.locked l = false) (htk : m.taken l = true) : ∃ op f o', p = .setf op f o' l := by
  have hsl := (hown o md l hl ht).1 hk
  have nowait : ∀ op f o', ¬ Wait m t op f o' l false := by
    rintro op f o' ⟨_, _, _, _, _, _, h7⟩
    rw [htk] at h7; cases h7
  have base : ∀ q : Pc, (∀ x, q ≠ .acq x) → (∀ x, q ≠ .rel x) → PcOK m t q → slot q = some l →
      ∃ op f o', q = .setf op f o' l := by
    intro q h1 h2 hq hs
    cases q with
    | setf op f o' l' => simp [slot] at hs; subst hs; exact ⟨_, _, _, rfl⟩
    | acq x => exact absurd rfl (h1 x)
    | rel x => exact absurd rfl (h2 x)
    | uCut op f o' l' md' =>
      simp [slot] at hs; subst hs
      obtain ⟨_, _, _, _, _, _, h7⟩ := hq
      rw [htk] at h7; cases h7
    | lOProt op f o' l' => simp [slot] at hs; subst hs; exact absurd hq (nowait _ _ _)
    | spin op f o' l' => simp [slot] at hs; subst hs; exact absurd hq (nowait _ _ _)
    | rSet op f o' l' => simp [slot] at hs; subst hs; exact absurd hq (nowait _ _ _)
    | rChk op f o' l' => simp [slot] at hs; subst hs; exact absurd hq (nowait _ _ _)
    | f1 op r f o' l' => simp [slot] at hs; subst hs; exact absurd hq (nowait _ _ _)
    | _ => simp [slot] at hs
  cases p with
  | acq q =>
    obtain ⟨he, hq⟩ := hp
    have hne : (∀ x, q ≠ .acq x) ∧ (∀ x, q ≠ .rel x) := by
      constructor <;> intro x e <;> rw [e] at he <;> simp [entry] at he
    obtain ⟨op, f, o', e⟩ := base q hne.1 hne.2 hq hsl
    rw [e] at he; simp [entry] at he
  | rel q =>
    obtain ⟨he, hq⟩ := hp
    cases q with
    | acq q =>
      obtain ⟨he, hq⟩ := hq
      have hne : (∀ x, q ≠ .acq x) ∧ (∀ x, q ≠ .rel x) := by
        constructor <;> intro x e <;> rw [e] at he <;> simp [entry] at he
      obtain ⟨op, f, o', e⟩ := base q hne.1 hne.2 hq hsl
      rw [e] at he; simp [entry] at he
    | spin op f o' l' => simp [slot] at hsl; subst hsl; exact absurd hq (nowait _ _ _)
    | done r => simp [slot] at hsl
    | _ => simp [leave] at he
  | _ => exact base _ (by simp) (by simp) hp hsl

theorem einv_step {s s' : State} {e : Ev} (hi : SInv s) (hw : EInv s) (hok : softDeath s e)
    (h : step s e = some s') : EInv s' := by
  rcases step_cases h with ⟨t, c, r, rfl, ht0, hal, hpc, rfl⟩ | ⟨t, c, p, rfl, hal, hpc, hl, rfl⟩ |
    ⟨t, c, p, rfl, hal, hpc, rfl⟩ | ⟨t, c, as, p', rfl, hal, hpl, rfl⟩ |
    ⟨t, c, k, as, rfl, hal, hpl, rfl⟩
  · exact ⟨hw.words, hw.lt⟩
  · exact ⟨hw.words, hw.lt⟩
  · exact ⟨hw.words, hw.lt⟩
  · have hpk := (hi.thr t hal).2
    have ok := plan_ok hi.sok hal hpk (hi.thr t hal).1 hpl
    have notS : ∀ l, s.mem.ltid l = t → ¬ (s.alive (s.mem.ltid l) = false) := by
      intro l e; rw [e, hal]; simp
    rcases plan_shape hpk (hi.thr t hal).1 hpl with h1 | ⟨op, f, o, l, hp, hc, ht, rfl⟩ |
      ⟨op, f, o, l, md, hp, hc, rfl⟩ | ⟨o, md, l, hl, ht, hk, htk, rfl, hsl⟩ | ⟨o, md, l, hl, hd, rfl, hc⟩
    · refine ⟨plains_wordEq ok.ok h1 hw.words, ?_⟩
      show LT2 (s.mem.acts as) (fun u => s.alive u = false)
      rcases plan_flags hpl h1 with h2 | ⟨op, f, o, l, hp, rfl, rfl⟩ | ⟨op, f, o, l, md, hp, rfl, rfl⟩
      · exact lt2_acts ok.ok h2 hw.lt
      · rw [hp] at hpk
        refine act_lt2 (a := .flag l ⟨t, op.fd, op.key, op.rng, op.mode⟩) trivial ?_ hw.lt
        intro l' e
        simp [Act.lid] at e; subst e
        exact Or.inr (notS _ hpk.2.2.2.1)
      · rw [hp] at hpk
        refine act_lt2 (a := .unflag l) trivial ?_ hw.lt
        intro l' e
        simp [Act.lid] at e; subst e
        exact Or.inr (notS _ hpk.2.2.2.1)
    · rw [hp] at hpk
      obtain ⟨h1, h2, h3, h4, h5, h6, h7⟩ := hpk
      refine ⟨take_wordEq hi.sok ht h7 h1.2.2 hw.words, ?_⟩
      refine act_lt2 (a := .take o op.mode l) trivial ?_ hw.lt
      intro l' e
      simp [Act.lid] at e; subst e
      exact Or.inr (notS _ h4)
    · rw [hp] at hpk
      obtain ⟨h1, h2, h3, h4, h5, h6, h7⟩ := hpk
      refine ⟨unl_wordEq hi.sok h7 h1.2.2 hw.words, ?_⟩
      refine act_lt2 (a := .unl o l) trivial ?_ hw.lt
      intro l' e
      simp [Act.lid] at e; subst e
      exact Or.inr (notS _ h4)
    · refine ⟨fun z => cut_wordEq htk hw.words z, ?_⟩
      exact cut_lt2 hi.sok hl 2 hw.lt
    · have ht := hw.lt o md l hl hd
      constructor
      · intro z
        have hlen : (sweepActs s.mem o md l).length ≠ 1 := by
          unfold sweepActs; simp
        have := sweep_wordEq hi.sok ht hl hw.words hlen z
        rwa [List.take_length] at this
      · have := sweep_lt2 hi.sok hl (sweepActs s.mem o md l).length hw.lt
        rwa [List.take_length] at this
  · have hpk := (hi.thr t hal).2
    have hown := (hi.thr t hal).1
    -- outside the windows all lockers of the dying thread are counted exactly when flagged
    have hstart : (∀ op f o l md, s.pc t ≠ .uFlag op f o l md) → (∀ op f o l, s.pc t ≠ .setf op f o l) →
        LT2 s.mem (fun u => fset s.alive t false u = false) := by
      intro hn1 hn2 o md l hl hS
      by_cases e : s.mem.ltid l = t
      · cases hk : s.mem.locked l with
        | true =>
          by_contra hc
          have := (hown o md l hl e).2.1 hk (by cases hx : s.mem.taken l <;> simp_all)
          cases hp : s.pc t <;> simp [uslot, hp] at this
          exact hn1 _ _ _ _ _ hp
        | false =>
          by_contra hc
          obtain ⟨op, f, o', hp⟩ := unflagged_taken hpk hown hl e hk (by
            cases hx : s.mem.taken l <;> simp_all)
          exact hn2 _ _ _ _ hp
      · rw [fset_other _ _ e] at hS
        exact hw.lt o md l hl hS
    rcases hpl with ⟨p', hpl⟩ | ⟨hnone, rfl⟩
    · have ok := plan_ok hi.sok hal hpk hown hpl
      have hk' := okAll_take k ok.ok
      show EInv ⟨s.mem.acts (as.take k), s.lockid, fset s.alive t false, s.pc⟩
      rcases plan_shape hpk hown hpl with h1 | ⟨op, f, o, l, hp, hc, ht, rfl⟩ |
        ⟨op, f, o, l, md, hp, hc, rfl⟩ | ⟨o, md, l, hl, ht, hk, htk, rfl, hsl⟩ | ⟨o, md, l, hl, hd, rfl, hc⟩
      · refine ⟨plains_wordEq hk' (fun a ha => h1 a (List.mem_of_mem_take ha)) hw.words, ?_⟩
        show LT2 (s.mem.acts (as.take k)) (fun u => fset s.alive t false u = false)
        rcases plan_flags hpl h1 with h2 | ⟨op, f, o, l, hp, rfl, rfl⟩ | ⟨op, f, o, l, md, hp, rfl, rfl⟩
        · refine lt2_acts hk' (fun a ha => h2 a (List.mem_of_mem_take ha)) (hstart ?_ ?_)
          · intro op f o l md hp
            simp only [softDeath, hp] at hok
            rw [hp, hok.1] at hpl
            simp only [plan] at hpl
            obtain ⟨rfl, rfl⟩ := Option.some.inj hpl |> Prod.mk.inj
            have := h2 _ List.mem_cons_self
            simp [Act.lid] at this
          · intro op f o l hp
            simp only [softDeath, hp] at hok
            rw [hp, hok.1] at hpl
            simp only [plan] at hpl
            obtain ⟨rfl, rfl⟩ := Option.some.inj hpl |> Prod.mk.inj
            have := h2 _ List.mem_cons_self
            simp [Act.lid] at this
        · simp only [softDeath, hp] at hok
          obtain ⟨k, rfl⟩ := Nat.exists_eq_succ_of_ne_zero hok.2
          simp only [List.take_succ_cons, List.take_nil]
          rw [hp] at hpk
          obtain ⟨g1, g2, g3, g4, g5, g6, g7⟩ := hpk
          intro z md x hx hS
          by_cases e : x = l
          · subst e; simp [Mem.acts, Mem.act, g7]
          · simp only [Mem.acts, List.foldl, Mem.act, fset_other _ _ e] at hx hS ⊢
            by_cases et : s.mem.ltid x = t
            · cases hk : s.mem.locked x with
              | true =>
                by_contra hc
                have := (hown z md x hx et).2.1 hk (by cases hx : s.mem.taken x <;> simp_all)
                rw [hp] at this; simp [uslot] at this
              | false =>
                have := (hown z md x hx et).1 hk
                rw [hp] at this; simp [slot] at this
                exact absurd this.symm e
            · rw [fset_other _ _ et] at hS
              exact hw.lt z md x hx hS
        · simp only [softDeath, hp] at hok
          obtain ⟨k, rfl⟩ := Nat.exists_eq_succ_of_ne_zero hok.2
          simp only [List.take_succ_cons, List.take_nil]
          have hpk0 := hpk
          rw [hp] at hpk
          obtain ⟨g1, g2, g3, g4, g5, g6, g7⟩ := hpk
          intro z md x hx hS
          by_cases e : x = l
          · subst e; simp [Mem.acts, Mem.act, g7]
          · simp only [Mem.acts, List.foldl, Mem.act, fset_other _ _ e] at hx hS ⊢
            by_cases et : s.mem.ltid x = t
            · cases hk : s.mem.locked x with
              | true =>
                by_contra hc
                have := (hown z md x hx et).2.1 hk (by cases hx : s.mem.taken x <;> simp_all)
                rw [hp] at this; simp [uslot] at this
                exact absurd this.symm e
              | false =>
                have := (hown z md x hx et).1 hk
                rw [hp] at this; simp [slot] at this
            · rw [fset_other _ _ et] at hS
              exact hw.lt z md x hx hS
      · simp only [softDeath, hp] at hok
        have hk0 : k = 0 := by
          rcases hok with h | h
          · exact absurd hc h
          · exact h
        subst hk0
        exact ⟨hw.words, hstart (by simp [hp]) (by simp [hp])⟩
      · simp only [softDeath, hp] at hok
        have hk0 : k = 0 := by
          rcases hok with h | h
          · exact absurd hc h
          · exact h
        subst hk0
        exact ⟨hw.words, hstart (by simp [hp]) (by simp [hp])⟩
      · constructor
        · intro z
          show WordEq (s.mem.acts ([Act.cutL o md l, .pushL l].take k)) z
          match k with
          | 0 => exact hw.words z
          | 1 => exact cut_wordEq htk hw.words z
          | k + 2 =>
            simp only [List.take_succ_cons, List.take_nil]
            exact cut_wordEq htk hw.words z
        · refine cut_lt2 hi.sok hl k (hstart ?_ ?_)
          · intro op f o' l' md' hp
            rw [hp] at hsl; simp [slot] at hsl
          · intro op f o' l' hp
            rw [hp] at hsl hpk; simp [slot] at hsl
            subst hsl
            obtain ⟨_, _, _, _, _, _, g7⟩ := hpk
            rw [htk] at g7; cases g7
      · have ht := hw.lt o md l hl hd
        have hpcase : (s.pc t = .sw ∨ ∃ op f o l, s.pc t = .rChk op f o l) := by
          rw [hc] at hpl
          cases hp : s.pc t <;> simp [hp, plan] at hpl ⊢
        have hk1 : k ≠ 1 := by
          rcases hpcase with hp | ⟨op, f, o', l', hp⟩ <;> simpa [softDeath, hp] using hok
        constructor
        · exact fun z => sweep_wordEq hi.sok ht hl hw.words hk1 z
        · refine sweep_lt2 hi.sok hl k (hstart ?_ ?_)
          · intro op f o' l' md' hp
            rcases hpcase with hp' | ⟨_, _, _, _, hp'⟩ <;> rw [hp'] at hp <;> cases hp
          · intro op f o' l' hp
            rcases hpcase with hp' | ⟨_, _, _, _, hp'⟩ <;> rw [hp'] at hp <;> cases hp
    · simp only [List.take_nil]
      refine ⟨hw.words, hstart ?_ ?_⟩
      · intro op f o l md hp
        simp only [softDeath, hp] at hok
        rw [hp, hok.1] at hnone; simp [plan] at hnone
      · intro op f o l hp
        simp only [softDeath, hp] at hok
        rw [hp, hok.1] at hnone; simp [plan] at hnone

end Fullock.FL
