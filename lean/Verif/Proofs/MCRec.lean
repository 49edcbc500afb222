import Verif.Proofs.MCOwn
/-!
Waiter records: who has which record, where it is listed, in which order.
-/
namespace Fullock.MC

def kRec : LK → Option (Nat × Nat)
  | .api => none
  | .wt c w _ _ => some (c, w)

def uRec : UK → Option (Nat × Nat)
  | .api => none
  | .wt c w _ _ => some (c, w)

def sRec (k : Option (Nat × Kind × LK)) : Option (Nat × Nat) := k.bind fun x => kRec x.2.2

/-- The condition and the waiter record of a thread whose record is listed. -/
def lst : Pc → Option (Nat × Nat)
  | .acqM p => lst p
  | .relM p => lst p
  | .acqC p => lst p
  | .relC p => lst p
  | .lkRead _ _ k => kRec k
  | .lkAdd _ _ k => kRec k
  | .lkChk _ _ k => kRec k
  | .lkSub _ _ k => kRec k
  | .lkCas _ _ k => kRec k
  | .lkInc _ _ k => kRec k
  | .ulRead _ k => uRec k
  | .ulRead2 _ k => uRec k
  | .ulSub _ k => uRec k
  | .ulFix _ _ k => uRec k
  | .ulCas _ k => uRec k
  | .ulAdd _ k => uRec k
  | .swM k => sRec k
  | .swChk _ _ k => sRec k
  | .swCnt _ k => sRec k
  | .swCntC _ _ k => sRec k
  | .swVal _ k => sRec k
  | .swValC _ _ k => sRec k
  | .wSet c w _ _ => some (c, w)
  | .wErr c w _ _ => some (c, w)
  | .wSpin c w _ _ => some (c, w)
  | .wCut c w _ _ => some (c, w)
  | _ => none

/-- The waiter record a thread has taken out of a list and not yet put into another. -/
def hand : Pc → Option Nat
  | .wIni _ w _ _ => some w
  | .wIns _ w _ _ => some w
  | .wPut w _ => some w
  | .swPut w => some w
  | _ => none

/-- What the place says about the condition it works on. -/
def AtR (M : Mem) (t : Nat) : Pc → Prop
  | .wGet c _ _ => c ∈ M.clist
  | .wIni c _ _ _ => c ∈ M.clist
  | .wIns c w _ _ => c ∈ M.clist ∧ M.wtid w = t
  | _ => True

/-- The parts of the memory that concern waiter records are the same. -/
structure SameR (M M' : Mem) : Prop where
  wfree : M'.wfree = M.wfree
  clist : M'.clist = M.clist
  ws : M'.ws = M.ws
  wtid : M'.wtid = M.wtid
  warr : M'.warr = M.warr
  tick : M'.tick = M.tick

/-- What a step of `t` may do to the waiter records: `l`, `h` before, `l'`, `h'` after. -/
inductive REff (M M' : Mem) (alive : Nat → Bool) (t : Nat) :
    Option (Nat × Nat) → Option Nat → Option (Nat × Nat) → Option Nat → Prop
  | same (l h) (e : SameR M M') : REff M M' alive t l h l h
  | cond (c) (hc : c ∉ M.clist) (e1 : M'.wfree = M.wfree) (e2 : M'.clist = c :: M.clist)
      (e3 : M'.ws = upd M.ws c []) (e4 : M'.wtid = M.wtid) (e5 : M'.warr = M.warr)
      (e6 : M'.tick = M.tick) : REff M M' alive t none none none none
  | get (w) (e1 : M.wfree = w :: M'.wfree) (e2 : M'.clist = M.clist)
      (e3 : M'.ws = M.ws) (e4 : M'.wtid = M.wtid) (e5 : M'.warr = M.warr)
      (e6 : M'.tick = M.tick) : REff M M' alive t none none none (some w)
  | ini (w) (e1 : M'.wfree = M.wfree) (e2 : M'.clist = M.clist)
      (e3 : M'.ws = M.ws) (e4 : M'.wtid = upd M.wtid w t) (e5 : M'.warr = M.warr)
      (e6 : M'.tick = M.tick) : REff M M' alive t none (some w) none (some w)
  | ins (c w) (hc : c ∈ M.clist) (hw : M.wtid w = t) (e1 : M'.wfree = M.wfree)
      (e2 : M'.clist = M.clist)
      (e3 : M'.ws = upd M.ws c (w :: M.ws c)) (e4 : M'.wtid = M.wtid)
      (e5 : M'.warr = upd M.warr w M.tick) (e6 : M'.tick = M.tick + 1) :
      REff M M' alive t none (some w) (some (c, w)) none
  | cut (c w) (hw : w ∈ M.ws c) (e1 : M'.wfree = M.wfree) (e2 : M'.clist = M.clist)
      (e3 : M'.ws = upd M.ws c ((M.ws c).erase w)) (e4 : M'.wtid = M.wtid)
      (e5 : M'.warr = M.warr) (e6 : M'.tick = M.tick) :
      REff M M' alive t (some (c, w)) none none (some w)
  | put (w) (e1 : M'.wfree = w :: M.wfree) (e2 : M'.clist = M.clist)
      (e3 : M'.ws = M.ws) (e4 : M'.wtid = M.wtid) (e5 : M'.warr = M.warr)
      (e6 : M'.tick = M.tick) : REff M M' alive t none (some w) none none
  | swp (c w) (hc : c ∈ M.clist) (hw : w ∈ M.ws c) (hd : alive (M.wtid w) = false)
      (e1 : M'.wfree = M.wfree) (e2 : M'.clist = M.clist)
      (e3 : M'.ws = upd M.ws c ((M.ws c).erase w)) (e4 : M'.wtid = M.wtid)
      (e5 : M'.warr = M.warr) (e6 : M'.tick = M.tick) :
      REff M M' alive t none none none (some w)

@[simp] theorem lst_fin (k : LK) (r : Nat) : lst (fin k r) = kRec k := by cases k <;> rfl
@[simp] theorem hand_fin (k : LK) (r : Nat) : hand (fin k r) = none := by cases k <;> rfl
@[simp] theorem lst_ufin (k : UK) (r : Nat) : lst (ufin k r) = uRec k := by
  cases k <;> simp only [ufin, uRec]
  · rfl
  · split <;> rfl
@[simp] theorem hand_ufin (k : UK) (r : Nat) : hand (ufin k r) = none := by
  cases k <;> simp only [ufin]
  · rfl
  · split <;> rfl
theorem lst_failed {m : Nat} {kd : Kind} {k : LK} {p : Pc} (h : Failed m kd k p) :
    lst p = kRec k ∧ hand p = none := by
  cases h
  · exact ⟨lst_fin _ _, hand_fin _ _⟩
  · exact ⟨lst_fin _ _, hand_fin _ _⟩
  · exact ⟨rfl, rfl⟩
  · exact ⟨rfl, rfl⟩
@[simp] theorem lst_swBack (k : Option (Nat × Kind × LK)) : lst (swBack k) = sRec k := by
  rcases k with _ | ⟨m, kd, k⟩ <;> rfl
theorem hand_after {p : Pc}
    (h : wf (.acqM p) = true ∨ wf (.relM p) = true ∨ wf (.acqC p) = true ∨ wf (.relC p) = true) :
    hand p = none := by
  cases p <;> simp_all [wf, hand]

theorem sameR (M : Mem) : SameR M M := ⟨rfl, rfl, rfl, rfl, rfl, rfl⟩

theorem reff_eq {M M' : Mem} {alive : Nat → Bool} {t : Nat} {l h l' h'} (e : SameR M M')
    (hl : l' = l) (hh : h' = h) : REff M M' alive t l h l' h' := by
  subst hl hh; exact .same _ _ e

theorem reff_stp {M M' : Mem} {alive : Nat → Bool} {t : Nat} {p p' : Pc}
    (h : Stp M alive t p M' p') (hwf : wf p = true) (hn : AtN M p) (hr : AtR M t p)
    (hl : ∀ c w, lst p = some (c, w) → w ∈ M.ws c) :
    REff M M' alive t (lst p) (hand p) (lst p') (hand p') := by
  cases h
  case wNew c m kd => exact .cond c hn rfl rfl rfl rfl rfl rfl
  case wGet c w m kd rest h => exact .get w h rfl rfl rfl rfl rfl
  case wIni c w m kd => exact .ini w rfl rfl rfl rfl rfl rfl
  case wIns c w m kd => exact .ins c w hr.1 hr.2 rfl rfl rfl rfl rfl rfl
  case wCut c w m r h => exact .cut c w h rfl rfl rfl rfl rfl rfl
  case wCutNo c w m r h => exact absurd (hl c w rfl) h
  case wPut w r => exact .put w rfl rfl rfl rfl rfl rfl
  case swCCut c w hc hw h => exact .swp c w hc hw h rfl rfl rfl rfl rfl rfl
  case swPut w => exact .put w rfl rfl rfl rfl rfl rfl
  case acqM => exact reff_eq ⟨rfl, rfl, rfl, rfl, rfl, rfl⟩ rfl (hand_after (.inl hwf))
  case relM => exact reff_eq ⟨rfl, rfl, rfl, rfl, rfl, rfl⟩ rfl (hand_after (.inr (.inl hwf)))
  case acqC => exact reff_eq ⟨rfl, rfl, rfl, rfl, rfl, rfl⟩ rfl (hand_after (.inr (.inr (.inl hwf))))
  case relC => exact reff_eq ⟨rfl, rfl, rfl, rfl, rfl, rfl⟩ rfl (hand_after (.inr (.inr (.inr hwf))))
  case lkSub h =>
    exact reff_eq ⟨rfl, rfl, rfl, rfl, rfl, rfl⟩ (lst_failed h).1 (lst_failed h).2
  case lkCasNo h =>
    exact reff_eq ⟨rfl, rfl, rfl, rfl, rfl, rfl⟩ (lst_failed h).1 (lst_failed h).2
  case swEnd k =>
    exact reff_eq ⟨rfl, rfl, rfl, rfl, rfl, rfl⟩ (lst_swBack k) rfl
  all_goals exact reff_eq ⟨rfl, rfl, rfl, rfl, rfl, rfl⟩ (by first | rfl | exact lst_fin _ _ | exact lst_ufin _ _) (by first | rfl | exact hand_fin _ _ | exact hand_ufin _ _)

theorem atR_stp {M M' : Mem} {alive : Nat → Bool} {t : Nat} {p p' : Pc}
    (h : Stp M alive t p M' p') (w : wf p = true) (hr : AtR M t p) : AtR M' t p' := by
  cases h <;> (try trivial) <;> (try exact hr)
  case acqM => cases p' <;> simp_all [wf, AtR]
  case relM => cases p' <;> simp_all [wf, AtR]
  case acqC => cases p' <;> simp_all [wf, AtR]
  case relC => cases p' <;> simp_all [wf, AtR]
  case lkSub m kd k h => cases h <;> cases k <;> trivial
  case lkCasNo m kd k h0 h => cases h <;> cases k <;> trivial
  case lkChk k _ => cases k <;> trivial
  case lkInc k => cases k <;> trivial
  case ulFree k _ => cases k <;> trivial
  case ulPerm k _ => cases k <;> trivial
  case ulCas k _ => cases k <;> trivial
  case ulCasFree k _ _ => cases k <;> trivial
  all_goals simp_all [AtR]

theorem reff_clist {M M' : Mem} {alive : Nat → Bool} {t : Nat} {l h l' h'}
    (e : REff M M' alive t l h l' h') : ∀ c ∈ M.clist, c ∈ M'.clist := by
  intro c hc
  cases e
  case same e => rw [e.clist]; exact hc
  all_goals simp_all

theorem reff_wtid {M M' : Mem} {alive : Nat → Bool} {t : Nat} {l h l' h'}
    (e : REff M M' alive t l h l' h') : ∀ w, h ≠ some w → M'.wtid w = M.wtid w := by
  intro w hw
  cases e
  case same e => rw [e.wtid]
  case ini w' e1 e2 e3 e4 e5 e6 =>
    rw [e4, upd_ne]
    rintro rfl; exact hw rfl
  all_goals simp_all

/-- Which waiter records are where; `L` and `H` are the listed record and the record in hand of every
thread. -/
structure RecsA (M : Mem) (alive : Nat → Bool) (L : Nat → Option (Nat × Nat)) (H : Nat → Option Nat) :
    Prop where
  listed : ∀ t, alive t = true → ∀ c w, L t = some (c, w) → c ∈ M.clist ∧ w ∈ M.ws c ∧ M.wtid w = t
  handOut : ∀ t w, H t = some w → w ∉ M.wfree ∧ ∀ c ∈ M.clist, w ∉ M.ws c
  handOne : ∀ t u w, H t = some w → H u = some w → t = u
  freeNd : M.wfree.Nodup
  freeOut : ∀ w ∈ M.wfree, ∀ c ∈ M.clist, w ∉ M.ws c
  nd : ∀ c ∈ M.clist, (M.ws c).Nodup
  disj : ∀ c ∈ M.clist, ∀ d ∈ M.clist, ∀ w, w ∈ M.ws c → w ∈ M.ws d → c = d
  back : ∀ c ∈ M.clist, ∀ w ∈ M.ws c, alive (M.wtid w) = true → L (M.wtid w) = some (c, w)
  sorted : ∀ c ∈ M.clist, (M.ws c).Pairwise fun a b => M.warr b < M.warr a
  ticks : ∀ c ∈ M.clist, ∀ w ∈ M.ws c, M.warr w < M.tick

theorem mem_cut {ws : Nat → List Nat} {c w : Nat} (hn : (ws c).Nodup) (d x : Nat) :
    x ∈ upd ws c ((ws c).erase w) d ↔ x ∈ ws d ∧ ¬ (d = c ∧ x = w) := by
  simp only [upd_apply]
  split
  · rename_i hdc
    subst hdc
    rw [hn.mem_erase_iff]
    grind
  · grind

theorem sub_cut {ws : Nat → List Nat} {c w : Nat} (d : Nat) :
    (upd ws c ((ws c).erase w) d).Sublist (ws d) := by
  simp only [upd_apply]
  split
  · rename_i hdc; subst hdc; exact List.erase_sublist
  · exact List.Sublist.refl _

theorem sort_ins {ws : Nat → List Nat} {warr : Nat → Nat} {c w tick d : Nat}
    (hs : (ws d).Pairwise fun a b => warr b < warr a) (ht : ∀ x ∈ ws d, warr x < tick)
    (hn : w ∉ ws d) :
    (upd ws c (w :: ws c) d).Pairwise fun a b => upd warr w tick b < upd warr w tick a := by
  have : (ws d).Pairwise fun a b => upd warr w tick b < upd warr w tick a := by
    refine List.Pairwise.imp_of_mem ?_ hs
    intro a b ha hb hab
    have : a ≠ w := by rintro rfl; exact hn ha
    have : b ≠ w := by rintro rfl; exact hn hb
    simp [*]
  simp only [upd_apply ws]
  split
  · rename_i hdc
    subst hdc
    refine List.Pairwise.cons ?_ this
    intro b hb
    have : b ≠ w := by rintro rfl; exact hn hb
    have := ht b hb
    simp [*]
  · exact this

theorem recsA_eff {M M' : Mem} {alive : Nat → Bool} {t : Nat} {L H l l' h h'}
    (i : RecsA M alive L H) (ta : alive t = true) (hl : L t = l) (hh : H t = h)
    (e : REff M M' alive t l h l' h') : RecsA M' alive (upd L t l') (upd H t h') := by
  obtain ⟨listed, handOut, handOne, freeNd, freeOut, nd, disj, back, sorted, ticks⟩ := i
  cases e
  case same e =>
    obtain ⟨e1, e2, e3, e4, e5, e6⟩ := e
    have hL : upd L t l = L := by funext x; simp only [upd]; split <;> simp_all
    have hH : upd H t h = H := by funext x; simp only [upd]; split <;> simp_all
    rw [hL, hH]
    constructor <;> (try simp only [e1, e2, e3, e4, e5, e6]) <;> assumption
  case cond c' hc e1 e2 e3 e4 e5 e6 =>
    constructor <;> (try simp only [e1, e2, e3, e4, e5, e6])
    case sorted =>
      intro d hd
      simp only [upd_apply M.ws]
      split
      · exact .nil
      · exact sorted d (by simp_all)
    all_goals grind
  case get e1 e2 e3 e4 e5 e6 =>
    constructor <;> (try simp only [e2, e3, e4, e5, e6]) <;> grind
  case ini e1 e2 e3 e4 e5 e6 =>
    constructor <;> (try simp only [e1, e2, e3, e4, e5, e6]) <;> grind
  case ins c' w hc hw e1 e2 e3 e4 e5 e6 =>
    have q1 := (handOut t w hh).2
    constructor <;> (try simp only [e1, e2, e3, e4, e5, e6])
    case sorted => intro d hd; exact sort_ins (sorted d hd) (ticks d hd) (q1 d hd)
    all_goals grind
  case cut c' w hw e1 e2 e3 e4 e5 e6 =>
    have q3 := (listed t ta c' w hl).1
    have q1 := mem_cut (w := w) (nd c' q3)
    have q2 := fun d => sub_cut (ws := M.ws) (c := c') (w := w) d
    constructor <;> (try simp only [e1, e2, e3, e4, e5, e6, q1])
    case nd => intro d hd; exact (q2 d).nodup (nd d hd)
    case sorted => intro d hd; exact (sorted d hd).sublist (q2 d)
    all_goals grind
  case put e1 e2 e3 e4 e5 e6 =>
    constructor <;> (try simp only [e1, e2, e3, e4, e5, e6]) <;> grind
  case swp c' w q3 hw hd e1 e2 e3 e4 e5 e6 =>
    have q1 := mem_cut (w := w) (nd c' q3)
    have q2 := fun d => sub_cut (ws := M.ws) (c := c') (w := w) d
    constructor <;> (try simp only [e1, e2, e3, e4, e5, e6, q1])
    case nd => intro d hd; exact (q2 d).nodup (nd d hd)
    case sorted => intro d hd; exact (sorted d hd).sublist (q2 d)
    all_goals grind

/-- Which waiter records are where. -/
structure Recs (s : State) : Prop where
  names : Names s
  at_ : ∀ t, AtR s.mem t (s.pc t)
  recs : RecsA s.mem s.alive (fun t => lst (s.pc t)) (fun t => hand (s.pc t))

theorem recs_init (nm nc nw : Nat) (junk : Mem) : Recs (init nm nc nw junk) := by
  refine ⟨names_init .., ?_, ?_⟩
  · simp [init, AtR]
  · constructor <;> simp [init, lst, hand, List.nodup_range]

theorem start_rec (c : Call) : lst c.start = none ∧ hand c.start = none := by
  cases c <;> exact ⟨rfl, rfl⟩

theorem recs_step {s s' : State} {e : Ev} (i : Recs s) (h : step s e = some s') : Recs s' := by
  have hn := names_step i.names h
  rcases step_cases h with ⟨t, c, r, -, t0, ta, hr, rfl⟩ | ⟨t, c, M', p', -, ta, hp, rfl⟩ |
    ⟨t, rfl, ta, rfl⟩
  · obtain ⟨h1, h2⟩ := start_rec c
    have h3 : AtR s.mem t c.start := by cases c <;> simp [Call.start, AtR]
    have h4 : (fun u => lst (upd s.pc t c.start u)) = fun u => lst (s.pc u) := by
      funext u; simp only [upd]; split
      · rename_i hu; rw [hu, hr, h1]; rfl
      · rfl
    have h5 : (fun u => hand (upd s.pc t c.start u)) = fun u => hand (s.pc u) := by
      funext u; simp only [upd]; split
      · rename_i hu; rw [hu, hr, h2]; rfl
      · rfl
    refine ⟨hn, ?_, ?_⟩
    · intro u; simp only [upd]; split
      · rename_i hu; rw [hu]; exact h3
      · exact i.at_ u
    · show RecsA s.mem s.alive (fun u => lst (upd s.pc t c.start u)) (fun u => hand (upd s.pc t c.start u))
      rw [h4, h5]; exact i.recs
  · have hs := stp_of_plan hp
    have he := reff_stp hs (i.names.base.shape t) (i.names.at_ t ta) (i.at_ t)
      (fun c w h => (i.recs.listed t ta c w h).2.1)
    refine ⟨hn, ?_, ?_⟩
    · intro u
      simp only [upd]
      split
      · rename_i hu; rw [hu]; exact atR_stp hs (i.names.base.shape t) (i.at_ t)
      · rename_i hut
        have hu := i.at_ u
        have h1 := reff_clist he
        have h2 : ∀ w, hand (s.pc u) = some w → M'.wtid w = s.mem.wtid w := fun w hw =>
          reff_wtid he w fun e => hut (i.recs.handOne u t w hw e)
        generalize s.pc u = q at *
        cases q <;> simp only [AtR] at hu ⊢
        · exact h1 _ hu
        · exact h1 _ hu
        · exact ⟨h1 _ hu.1, by rw [h2 _ rfl]; exact hu.2⟩
    · have := recsA_eff i.recs ta rfl rfl he
      have h4 : (fun u => lst (upd s.pc t p' u)) = upd (fun u => lst (s.pc u)) t (lst p') := by
        funext u; exact upd_comp lst s.pc t p' u
      have h5 : (fun u => hand (upd s.pc t p' u)) = upd (fun u => hand (s.pc u)) t (hand p') := by
        funext u; exact upd_comp hand s.pc t p' u
      show RecsA M' s.alive (fun u => lst (upd s.pc t p' u)) (fun u => hand (upd s.pc t p' u))
      rw [h4, h5]; exact this
  · have hal : ∀ u, upd s.alive t false u = true → s.alive u = true := by
      intro u hu; simp only [upd] at hu; split at hu
      · cases hu
      · exact hu
    obtain ⟨a1, a2, a3, a4, a5, a6, a7, a8, a9, a10⟩ := i.recs
    exact ⟨hn, i.at_, fun u hu => a1 u (hal u hu), a2, a3, a4, a5, a6, a7,
      fun c hc w hw ha => a8 c hc w hw (hal _ ha), a9, a10⟩

theorem recs_reach {A : State → Ev → Prop} {s : State} (h : Reach A s) : Recs s := by
  induction h with
  | init nm nc nw junk => exact recs_init ..
  | step _ _ h ih => exact recs_step ih h

/-! ### No record is lost -/

/-- The record is free, listed, or in the hand of a thread. -/
def placed (M : Mem) (H : Nat → Option Nat) (w : Nat) : Prop :=
  w ∈ M.wfree ∨ (∃ c ∈ M.clist, w ∈ M.ws c) ∨ ∃ t, H t = some w

theorem ex_upd {H : Nat → Option Nat} {t : Nat} {x : Option Nat} {w : Nat} :
    (∃ a, upd H t x a = some w) ↔ x = some w ∨ ∃ a, a ≠ t ∧ H a = some w := by
  constructor
  · rintro ⟨a, ha⟩
    simp only [upd] at ha
    split at ha
    · exact .inl ha
    · exact .inr ⟨a, ‹_›, ha⟩
  · rintro (h | ⟨a, h1, h2⟩)
    · exact ⟨t, by simp [h]⟩
    · exact ⟨a, by simp [h1, h2]⟩

theorem ex_self {H : Nat → Option Nat} (t : Nat) {w : Nat} :
    (∃ a, H a = some w) ↔ H t = some w ∨ ∃ a, a ≠ t ∧ H a = some w := by
  constructor
  · rintro ⟨a, ha⟩
    by_cases h : a = t
    · exact .inl (h ▸ ha)
    · exact .inr ⟨a, h, ha⟩
  · rintro (h | ⟨a, h1, h2⟩)
    · exact ⟨t, h⟩
    · exact ⟨a, h2⟩

theorem placed_eff {M M' : Mem} {alive : Nat → Bool} {t : Nat} {L H l l' h h'}
    (i : RecsA M alive L H) (ta : alive t = true) (hl : L t = l) (hh : H t = h)
    (e : REff M M' alive t l h l' h') (w : Nat) : placed M' (upd H t h') w ↔ placed M H w := by
  obtain ⟨listed, handOut, handOne, freeNd, freeOut, nd, disj, back, sorted, ticks⟩ := i
  unfold placed
  cases e
  case same e =>
    obtain ⟨e1, e2, e3, e4, e5, e6⟩ := e
    have hH : upd H t h = H := by funext x; simp only [upd]; split <;> simp_all
    rw [hH, e1, e2, e3]
  case cond e1 e2 e3 e4 e5 e6 =>
    rw [ex_upd, ex_self (H := H) t]; simp only [e1, e2, e3, hh]; grind
  case get e1 e2 e3 e4 e5 e6 =>
    rw [ex_upd, ex_self (H := H) t]; simp only [e1, e2, e3, hh]; grind
  case ini e1 e2 e3 e4 e5 e6 =>
    rw [ex_upd, ex_self (H := H) t]; simp only [e1, e2, e3, hh]
  case ins c' w hc hw e1 e2 e3 e4 e5 e6 =>
    rw [ex_upd, ex_self (H := H) t]; simp only [e1, e2, e3, hh]; grind
  case cut c' w hw e1 e2 e3 e4 e5 e6 =>
    have q3 := (listed t ta c' w hl).1
    have q1 := mem_cut (w := w) (nd c' q3)
    rw [ex_upd, ex_self (H := H) t]; simp only [e1, e2, e3, q1, hh]; grind
  case put e1 e2 e3 e4 e5 e6 =>
    rw [ex_upd, ex_self (H := H) t]; simp only [e1, e2, e3, hh]; grind
  case swp c' w q3 hw hd e1 e2 e3 e4 e5 e6 =>
    have q1 := mem_cut (w := w) (nd c' q3)
    rw [ex_upd, ex_self (H := H) t]; simp only [e1, e2, e3, q1, hh]; grind

theorem placed_step {s s' : State} {e : Ev} (i : Recs s) (h : step s e = some s') (w : Nat) :
    placed s'.mem (fun t => hand (s'.pc t)) w ↔ placed s.mem (fun t => hand (s.pc t)) w := by
  rcases step_cases h with ⟨t, c, r, -, t0, ta, hr, rfl⟩ | ⟨t, c, M', p', -, ta, hp, rfl⟩ |
    ⟨t, rfl, ta, rfl⟩
  · have h5 : (fun u => hand (upd s.pc t c.start u)) = fun u => hand (s.pc u) := by
      funext u; simp only [upd]; split
      · rename_i hu; rw [hu, hr, (start_rec c).2]; rfl
      · rfl
    show placed s.mem (fun u => hand (upd s.pc t c.start u)) w ↔ _
    rw [h5]
  · have hs := stp_of_plan hp
    have he := reff_stp hs (i.names.base.shape t) (i.names.at_ t ta) (i.at_ t)
      (fun c w h => (i.recs.listed t ta c w h).2.1)
    have := placed_eff i.recs ta rfl rfl he w
    have h5 : (fun u => hand (upd s.pc t p' u)) = upd (fun u => hand (s.pc u)) t (hand p') := by
      funext u; exact upd_comp hand s.pc t p' u
    show placed M' (fun u => hand (upd s.pc t p' u)) w ↔ _
    rw [h5]; exact this
  · rfl

theorem placed_run {s s' : State} {es : List Ev} (i : Recs s) (h : run s es = some s') (w : Nat) :
    Recs s' ∧ (placed s'.mem (fun t => hand (s'.pc t)) w ↔ placed s.mem (fun t => hand (s.pc t)) w) := by
  induction es generalizing s with
  | nil => cases h; exact ⟨i, Iff.rfl⟩
  | cons e es ih =>
    simp only [run, Option.bind_eq_some_iff] at h
    obtain ⟨s1, h1, h⟩ := h
    obtain ⟨h2, h3⟩ := ih (recs_step i h1) h
    exact ⟨h2, h3.trans (placed_step i h1 w)⟩

end Fullock.MC
