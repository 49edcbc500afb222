import Verif.Proofs.FLForever
import Verif.Props.FLCases
/-! C82: calls on file ranges return sooner or later, also when holders are killed. -/
namespace Fullock.Props
open Fullock.FL Fullock.FLive Fullock.Spec

/-- C82 as stated: wherever threads are killed, every call returns (or its thread is killed) once no more calls
are issued, if every lock in force is released or its holder killed. -/
def C82_full : Prop :=
  ∀ σ ε, Exec (fun _ _ => True) σ ε → Fair σ ε → Released σ → CallsEnd ε → DeadSeen σ ε → Timely σ ε → RacesReal σ ε →
    ∀ t i, ReturnsAfter σ t i

/-- C82 (partial): every call returns, whatever function, number of threads and interleaving, also when threads
are killed outside the library or inside it, except between the two writes that take, release or recover a lock
(`softDeath`). Missing: deaths there (`C82_not_full`). -/
theorem C82_returns_partial (σ : Nat → State) (ε : Nat → Option Ev) (ex : Exec softDeath σ ε) (hf : Fair σ ε) (hre : Released σ)
    (hce : CallsEnd ε) (hd : DeadSeen σ ε) (hti : Timely σ ε) (hra : RacesReal σ ε) (t i : Nat) : ReturnsAfter σ t i := by
  refine Classical.byContradiction fun hno => ?_
  obtain ⟨n, hn⟩ := hce
  obtain ⟨m, hm, hs⟩ := settled ex (n := n) hn
  have late : Late σ ε m := ⟨ex, fun j hj => hn j (by omega), hs⟩
  refine late.nobody hf hti hd hra hre (u := t) (i := max m i) (by omega) ⟨?_, fun r hr => hno ⟨_, by omega, .inl ⟨r, hr⟩⟩⟩
  cases ha : (σ (max m i)).alive t with
  | true => rfl
  | false => exact absurd ⟨_, by omega, .inr ha⟩ hno

/-- Where a thread is that is obtaining the lock. -/
def getting (op : Op) (p : Pc) : Prop := waits op p ∨ ∃ f o l, p = .setf op f o l

theorem getting_plan {m : Mem} {alive : Nat → Bool} {t : Nat} {op : Op} {p : Pc} {c : Choice} {as : List Act} {p' : Pc}
    (hg : getting op p) (h : plan m alive t p c = some (as, p')) :
    getting op p' ∨ p' = .done 0 ∧ ∃ l, (l, lockOf t op) ∈ (m.acts as).outs := by
  rcases hg with hg | ⟨f, o, l, rfl⟩
  · cases p with
    | spin op' f o l =>
      obtain ⟨rfl, hk⟩ := hg
      left
      cases c <;> simp only [plan, hk, reduceCtorEq, if_false] at h
      · split at h <;> (obtain ⟨_, rfl⟩ := by simpa using h)
        · exact .inr ⟨_, _, _, rfl⟩
        · exact .inl ⟨rfl, hk⟩
      · split at h
        · obtain ⟨_, rfl⟩ := by simpa using h
          exact .inl ⟨rfl, hk⟩
        · cases h
      · split at h
        · obtain ⟨_, rfl⟩ := by simpa using h
          exact .inl ⟨rfl, hk⟩
        · cases h
    | rSet op' f o l =>
      obtain ⟨rfl, hk⟩ := hg
      cases c <;> simp only [plan, reduceCtorEq] at h
      obtain ⟨_, rfl⟩ := by simpa using h
      exact .inl (.inl ⟨rfl, hk⟩)
    | rChk op' f o l =>
      obtain ⟨rfl, hk⟩ := hg
      left; left
      cases c <;> simp only [plan, reduceCtorEq] at h
      · obtain ⟨_, rfl⟩ := by simpa using h
        exact ⟨rfl, hk⟩
      · split at h
        · obtain ⟨_, rfl⟩ := by simpa using h
          exact ⟨rfl, hk⟩
        · cases h
    | acq q => cases c <;> cases h
    | rel q => cases c <;> cases h
    | _ => exact hg.elim
  · cases c <;> simp only [plan, reduceCtorEq] at h
    obtain ⟨rfl, rfl⟩ := by simpa using h
    exact .inr ⟨rfl, l, by simp [Mem.acts, Mem.act, lockOf]⟩

theorem getting_on {σ : Nat → State} {ε : Nat → Option Ev} {A : State → Ev → Prop} (ex : Exec A σ ε) {t i : Nat} {op : Op}
    (hw : getting op ((σ i).pc t)) (d : Nat) :
    getting op ((σ (i + d)).pc t) ∨ ∃ j, i ≤ j ∧ (σ j).pc t = .done 0 ∧ ∃ l, (l, lockOf t op) ∈ (σ j).mem.outs := by
  induction d with
  | zero => exact .inl hw
  | succ d ih =>
    rcases ih with ih | ih
    · rw [← Nat.add_assoc]
      have hn := ex.next (i + d)
      cases he : ε (i + d) with
      | none => rw [he] at hn; simp only at hn; rw [hn]; exact .inl ih
      | some e =>
        rw [he] at hn
        rcases step_cases hn.2 with ⟨u, c, r, _, _, _, hpc, e'⟩ | ⟨u, c, p, _, _, hpc, _, e'⟩ |
          ⟨u, c, p, _, _, hpc, e'⟩ | ⟨u, c, as, p', _, _, hpl, e'⟩ | ⟨u, c, k, as, _, _, _, e'⟩
        · by_cases hu : t = u
          · subst hu; rw [hpc] at ih
            rcases ih with ih | ⟨_, _, _, ih⟩
            · exact ih.elim
            · cases ih
          · rw [e']; simp only [State.setPc, fset_other _ _ hu]; exact .inl ih
        · by_cases hu : t = u
          · subst hu; rw [hpc] at ih; rw [e']
            simp only [State.setPc, fset_same]
            rcases ih with ih | ⟨_, _, _, ih⟩
            · cases p <;> first | exact ih.elim | exact .inl (.inl ih)
            · cases ih
          · rw [e']; simp only [State.setPc, fset_other _ _ hu]; exact .inl ih
        · by_cases hu : t = u
          · subst hu; rw [hpc] at ih; rw [e']
            simp only [State.setPc, fset_same]
            rcases ih with ih | ⟨_, _, _, ih⟩
            · cases p <;> first | exact ih.elim | exact .inl (.inl ih)
            · cases ih
          · rw [e']; simp only [State.setPc, fset_other _ _ hu]; exact .inl ih
        · by_cases hu : t = u
          · subst hu
            rcases getting_plan ih hpl with h | ⟨rfl, h⟩
            · rw [e']; simp only [State.setPc, fset_same]; exact .inl h
            · refine .inr ⟨i + d + 1, by omega, ?_⟩
              rw [e']; simp only [State.setPc, fset_same]; exact ⟨trivial, h⟩
          · rw [e']; simp only [State.setPc, fset_other _ _ hu]; exact .inl ih
        · rw [e']; exact .inl ih
    · exact .inr ih

/-- C82 (partial as above): a thread that waits for a lock without limit obtains it, or is killed. In particular a
lock whose holder has been killed does not keep anybody waiting for ever. -/
theorem C82_granted_partial (σ : Nat → State) (ε : Nat → Option Ev) (ex : Exec softDeath σ ε) (hf : Fair σ ε) (hre : Released σ)
    (hce : CallsEnd ε) (hd : DeadSeen σ ε) (hti : Timely σ ε) (hra : RacesReal σ ε) (t i : Nat) (op : Op)
    (hw : waits op ((σ i).pc t)) :
    ∃ j, i ≤ j ∧ ((σ j).alive t = false ∨ (σ j).pc t = .done 0 ∧ ∃ l, (l, lockOf t op) ∈ (σ j).mem.outs) := by
  obtain ⟨j, hj, hr⟩ := C82_returns_partial σ ε ex hf hre hce hd hti hra t i
  rcases hr with ⟨r, hr⟩ | ha
  · obtain ⟨d, rfl⟩ := Nat.le.dest hj
    rcases getting_on ex (.inl hw) d with h | ⟨j', h1, h2⟩
    · rw [hr] at h
      rcases h with h | ⟨_, _, _, h⟩
      · exact h.elim
      · cases h
    · exact ⟨j', h1, .inr h2⟩
  · exact ⟨j, hj, .inl ha⟩

/-- C82 (partial as above, ranges in clusters): whoever never returns waits for ever for a lock that excludes the request and
that a living thread keeps for ever: nothing else, no lock of a killed thread in particular, keeps anybody waiting. -/
theorem C82_blocked_partial (R : DevIno → Rng → Prop) (hR : Clustered R) (σ : Nat → State) (ε : Nat → Option Ev)
    (ex : Exec (softIn R) σ ε) (hf : Fair σ ε) (hce : CallsEnd ε) (hd : DeadSeen σ ε) (hti : Timely σ ε) (hra : RacesReal σ ε)
    (t i : Nat) (hno : ¬ ReturnsAfter σ t i) :
    ∃ op x m, i ≤ m ∧ Conflict x.2 (lockOf t op) ∧
      ∀ j, m ≤ j → waits op ((σ j).pc t) ∧ (σ j).alive t = true ∧ x ∈ (σ j).mem.outs ∧ (σ j).alive x.2.t = true :=
  blocked_forever hR ex hf hce hd hti hra hno

/-! ### Cases that end -/

/-- The states of a finite run; afterwards nothing happens. -/
def fin82 (s : State) (es : List Ev) (i : Nat) : State := (run s (es.take i)).getD s

theorem run_app82 {s s1 : State} {es fs : List Ev} (h : run s es = some s1) : run s (es ++ fs) = run s1 fs := by
  induction es generalizing s with
  | nil => cases h; rfl
  | cons e es ih =>
    simp only [run, List.cons_append] at h ⊢
    cases hs : step s e with
    | none => rw [hs] at h; cases h
    | some s2 => rw [hs] at h; exact ih h

theorem fin82_some {s0 s : State} {es : List Ev} (h : run s0 es = some s) (i : Nat) : run s0 (es.take i) = some (fin82 s0 es i) := by
  unfold fin82
  cases hr : run s0 (es.take i) with
  | some x => rfl
  | none =>
    exfalso
    have : ∀ (l fs : List Ev) (s0 : State), run s0 l = none → run s0 (l ++ fs) = none := by
      intro l fs
      induction l with
      | nil => intro s0 h; cases h
      | cons e l ih =>
        intro s0 h
        simp only [run, List.cons_append, Option.bind_eq_none_iff] at h ⊢
        exact fun x hx => ih x (h x hx)
    have := this _ (es.drop i) _ hr
    rw [List.take_append_drop, h] at this
    cases this

theorem fin82_late {s0 s : State} {es : List Ev} (h : run s0 es = some s) {i : Nat} (hi : es.length ≤ i) : fin82 s0 es i = s := by
  unfold fin82
  rw [List.take_of_length_le hi, h]; rfl

theorem fin82_step {s0 s : State} {es : List Ev} (h : run s0 es = some s) {i : Nat} {e : Ev} (he : es[i]? = some e) :
    step (fin82 s0 es i) e = some (fin82 s0 es (i + 1)) := by
  have h1 := fin82_some h (i + 1)
  rw [List.take_add_one, he, Option.toList_some, run_app82 (fin82_some h i)] at h1
  simp only [run] at h1
  cases hs : step (fin82 s0 es i) e with
  | none => rw [hs] at h1; cases h1
  | some x => rw [hs] at h1; exact h1

/-- What is to be checked of an event: dead holders are not overlooked, attempts fail for a reason, threads are
killed outside calls (unless `any`), requests are for the ranges of `RX`. -/
def okEv82 (any : Bool) (s : State) : Ev → Bool
  | .go t c => match s.pc t with
    | .rChk _ _ o _ => c != .go || ((s.mem.lks o .rd).all (fun l => s.alive (s.mem.ltid l)) && (s.mem.lks o .wr).all (fun l => s.alive (s.mem.ltid l)))
    | .spin op _ o _ => c == .go || !canTake (s.mem.word o) op.mode
    | _ => true
  | .die t _ _ => match s.pc t with
    | .done _ => true
    | _ => any
  | .call _ (.lock op) => op.rng = rA || op.rng = rB
  | .call .. => true

def chk82 (any : Bool) (s : State) : List Ev → Bool
  | [] => true
  | e :: es => okEv82 any s e && match step s e with
    | some s' => chk82 any s' es
    | none => false

theorem chk82_at {any : Bool} {s0 : State} {es : List Ev} (h : chk82 any s0 es = true) {i : Nat} {e : Ev} (he : es[i]? = some e) :
    okEv82 any (fin82 s0 es i) e = true := by
  induction es generalizing s0 i with
  | nil => simp at he
  | cons x es ih =>
    simp only [chk82, Bool.and_eq_true] at h
    cases i with
    | zero => simp only [List.getElem?_cons_zero, Option.some.injEq] at he; exact he ▸ h.1
    | succ i =>
      cases hs : step s0 x with
      | none => rw [hs] at h; cases h.2
      | some s1 =>
        rw [hs] at h
        have hrun : ∀ (es : List Ev) (s : State), chk82 any s es = true → ∃ s', run s es = some s' := by
          intro es
          induction es with
          | nil => exact fun s _ => ⟨s, rfl⟩
          | cons e es ih =>
            intro s h
            simp only [chk82, Bool.and_eq_true] at h
            cases hs : step s e with
            | none => rw [hs] at h; cases h.2
            | some s1 => rw [hs] at h; simpa [run, hs] using ih s1 h.2
        obtain ⟨s', hr'⟩ := hrun es s1 h.2
        have e1 : fin82 s0 (x :: es) (i + 1) = fin82 s1 es i := by
          have := fin82_some hr' i
          show (run s0 ((x :: es).take (i + 1))).getD s0 = _
          rw [List.take_succ_cons, run, hs, Option.bind_some, this, Option.getD_some]
        rw [e1]
        exact ih h.2 (by simpa using he)

/-- What is to be checked of the last state. -/
structure Ends82 (es : List Ev) (s : State) : Prop where
  out : ∀ t ∈ es.map Ev.tid, (∃ r, s.pc t = .done r) ∨ s.alive t = false
  free : s.mem.outs = []

theorem okEv82_soft {s : State} {e : Ev} (h : okEv82 false s e = true) : softIn RX s e := by
  cases e with
  | call t c =>
    refine ⟨trivial, ?_⟩
    cases c with
    | lock op => simpa [okEv82, lockIn, RX] using h
    | _ => trivial
  | go t c => exact ⟨trivial, trivial⟩
  | die t c k =>
    refine ⟨?_, trivial⟩
    simp only [okEv82] at h
    simp only [softDeath]
    cases hp : s.pc t <;> rw [hp] at h <;> first | trivial | cases h

theorem Ends82.good {es : List Ev} {s : State} {nf no nl : Nat} {junk : Mem} (h : Ends82 es s)
    (hr : run (FL.init nf no nl junk) es = some s) (hc : chk82 false (FL.init nf no nl junk) es = true) :
    Exec (softIn RX) (fin82 (FL.init nf no nl junk) es) (fun i => es[i]?) ∧ Fair (fin82 (FL.init nf no nl junk) es) (fun i => es[i]?) ∧
    Released (fin82 (FL.init nf no nl junk) es) ∧ CallsEnd (fun i => es[i]?) ∧ DeadSeen (fin82 (FL.init nf no nl junk) es) (fun i => es[i]?) ∧
    Timely (fin82 (FL.init nf no nl junk) es) (fun i => es[i]?) ∧ RacesReal (fin82 (FL.init nf no nl junk) es) (fun i => es[i]?) := by
  have hall : ∀ t, (∃ r, s.pc t = .done r) ∨ s.alive t = false := by
    intro t
    by_cases ht : t ∈ es.map Ev.tid
    · exact h.out t ht
    · exact .inl ⟨0, (idle_rest hr (u := t) fun e he e' => ht (List.mem_map.mpr ⟨e, he, e'⟩)).1⟩
  refine ⟨⟨⟨nf, no, nl, junk, rfl⟩, fun i => ?_⟩, ?_, ?_, ?_, ?_, ?_, ?_⟩
  · cases he : es[i]? with
    | none =>
      have : es.length ≤ i := List.getElem?_eq_none_iff.mp he
      simp only
      rw [fin82_late hr (by omega), fin82_late hr (by omega)]
    | some e => exact ⟨okEv82_soft (chk82_at hc he), fin82_step hr he⟩
  · intro t ht i
    obtain ⟨j, hj, c, s', hs⟩ := ht (i + es.length)
    rw [fin82_late hr (by omega)] at hs
    rcases hall t with ⟨r, h1⟩ | h1
    · simp only [step, h1, plan_done] at hs
      split at hs <;> cases hs
    · simp [step, h1] at hs
  · intro i x _
    refine ⟨i + es.length, by omega, .inl ?_⟩
    rw [fin82_late hr (by omega), h.free]; nofun
  · refine ⟨es.length, fun j hj t c he => ?_⟩
    simp only at he
    rw [List.getElem?_eq_none hj] at he; cases he
  · intro i t op f o l hp he md l' hl'
    have := chk82_at hc he
    simp only [okEv82, hp, bne_self_eq_false, Bool.false_or, Bool.and_eq_true, List.all_eq_true] at this
    cases md with
    | rd => exact this.1 l' hl'
    | wr => exact this.2 l' hl'
  · intro t i hi
    obtain ⟨ha, op, f, o, l, hp, _⟩ := hi (i + es.length) (by omega)
    rw [fin82_late hr (by omega)] at ha hp
    rcases hall t with ⟨r, h1⟩ | h1
    · rw [h1] at hp; cases hp
    · rw [h1] at ha; cases ha
  · intro i t c op f o l he hcg hp hct
    have := chk82_at hc he
    simp only [okEv82, hp, hct, Bool.not_true, Bool.or_false, beq_iff_eq] at this
    exact absurd this hcg

/-- 1 takes [0,10) for writing, 2 asks for it and waits, 3 asks for it for reading and waits; 1 is killed. 2
attempts until its limit, finds the dead holder and takes over; unlocks; 3 follows. -/
def es82 : List Ev :=
  lockBy 1 (mkOp 3 kX rA .wr .block) ++ .call 2 (.lock (mkOp 4 kX rA .wr .block)) :: alone 2 8 ++
  .call 3 (.lock (mkOp 5 kX rA .rd .block)) :: alone 3 7 ++ [.die 1 .go 0, .go 2 .limit] ++ alone 2 2 ++
  [.go 2 (.lk 0 .wr 0)] ++ alone 2 4 ++ unlockBy 2 (mkOp 4 kX rA .wr .block) ++ alone 3 2 ++ unlockBy 3 (mkOp 5 kX rA .rd .block)

/-- Non-vacuity of C82: a lock of a killed thread and two waiting threads. -/
theorem case82 : ∃ σ ε, Exec (softIn RX) σ ε ∧ Fair σ ε ∧ Released σ ∧ CallsEnd ε ∧ DeadSeen σ ε ∧ Timely σ ε ∧ RacesReal σ ε ∧
    waits (mkOp 4 kX rA .wr .block) ((σ 28).pc 2) ∧ (σ 28).alive 1 = false ∧ (0, ⟨1, 3, kX, rA, .wr⟩) ∈ (σ 28).mem.outs ∧
    inCall (σ 28) 2 ∧ inCall (σ 28) 3 := by
  obtain ⟨s, hr, h1⟩ := run_case (s0 := FL.init 2 4 8 junk0) (es := es82)
    (fun s => (decide (s.alive 1 = false ∧ s.pc 2 = .done 0 ∧ s.pc 3 = .done 0 ∧ s.mem.outs = []))) true (by decide +kernel)
  simp only [decide_eq_true_eq] at h1
  obtain ⟨a1, a2, a3, a4⟩ := h1
  have hl : ∀ t ∈ es82.map Ev.tid, t = 1 ∨ t = 2 ∨ t = 3 := by decide +kernel
  obtain ⟨g1, g2, g3, g4, g5, g6, g7⟩ := Ends82.good (es := es82) (s := s) ⟨(fun t ht => by
    rcases hl t ht with rfl | rfl | rfl
    · exact .inr a1
    · exact .inl ⟨0, a2⟩
    · exact .inl ⟨0, a3⟩), a4⟩ hr (by decide +kernel)
  have e : (fun s : State => decide (s.pc 2 = .spin (mkOp 4 kX rA .wr .block) 0 0 1 ∧ s.pc 3 = .spin (mkOp 5 kX rA .rd .block) 0 0 2 ∧
      s.alive 1 = false ∧ s.alive 2 = true ∧ s.alive 3 = true ∧ s.mem.outs = [(0, ⟨1, 3, kX, rA, .wr⟩)]))
      (fin82 (FL.init 2 4 8 junk0) es82 28) = true := by decide +kernel
  simp only [decide_eq_true_eq] at e
  obtain ⟨e1, e2, e3, e4, e5, e6⟩ := e
  exact ⟨_, _, g1, g2, g3, g4, g5, g6, g7, by rw [e1]; exact ⟨rfl, rfl⟩, e3, by rw [e6]; simp, ⟨e4, by rw [e1]; nofun⟩, ⟨e5, by rw [e2]; nofun⟩⟩

example : ∃ σ ε, Exec softDeath σ ε ∧ inCall (σ 28) 2 ∧ (∃ x ∈ (σ 28).mem.outs, x.2.t ≠ 2 ∧ (σ 28).alive x.2.t = false) ∧
    (∃ j, 28 ≤ j ∧ ((σ j).alive 2 = false ∨ (σ j).pc 2 = .done 0 ∧ ∃ l, (l, lockOf 2 (mkOp 4 kX rA .wr .block)) ∈ (σ j).mem.outs)) ∧
    ReturnsAfter σ 3 28 := by
  obtain ⟨σ, ε, g1, g2, g3, g4, g5, g6, g7, h1, h2, h3, h4, h5⟩ := case82
  have ex := exec_mono (fun _ _ h => h.1) g1
  exact ⟨σ, ε, ex, h4, ⟨_, h3, by decide, h2⟩, C82_granted_partial σ ε ex g2 g3 g4 g5 g6 g7 2 28 _ h1,
    C82_returns_partial σ ε ex g2 g3 g4 g5 g6 g7 3 28⟩

/-! ### Cases in which a thread waits for ever -/

/-- The states of a thread that attempts, comes to its limit, checks, and attempts again. -/
def per82 (s : State) (t : Nat) (op : Op) (f o l : Nat) : Nat → State
  | 0 => s
  | 1 => s.setPc t (.acq (.rSet op f o l))
  | 2 => { s with lockid := t }.setPc t (.rSet op f o l)
  | 3 => { s with lockid := t, mem := s.mem.act (.oprot o true) }.setPc t (.rChk op f o l)
  | _ => { s with lockid := t }.setPc t (.rel (.spin op f o l))

def pev82 (t : Nat) : Nat → Ev
  | 0 => .go t .limit
  | _ => .go t .go

/-- A run, then the loop. -/
def σ82 (s0 : State) (es : List Ev) (s : State) (t : Nat) (op : Op) (f o l : Nat) (j : Nat) : State :=
  if j < es.length then fin82 s0 es j else per82 s t op f o l ((j - es.length) % 5)

def ε82 (es : List Ev) (t : Nat) (j : Nat) : Option Ev :=
  if j < es.length then es[j]? else some (pev82 t ((j - es.length) % 5))

/-- What is to be checked of the state at the beginning of the loop. -/
structure Loops82 (s : State) (t : Nat) (op : Op) (f o l : Nat) : Prop where
  t0 : t ≠ 0
  al : s.alive t = true
  pc : s.pc t = .spin op f o l
  kind : op.kind = .block
  no : canTake (s.mem.word o) op.mode = false
  lk : s.lockid = 0
  op : s.mem.oprot o = false
  seen : ∀ md, ∀ l' ∈ s.mem.lks o md, s.alive (s.mem.ltid l') = true
  rest : ∀ u, u ≠ t → (∃ r, s.pc u = .done r) ∨ s.alive u = false

theorem setPc_setPc (s : State) (t : Nat) (p q : Pc) : (s.setPc t p).setPc t q = s.setPc t q := by
  simp only [State.setPc]
  congr 1
  funext u
  simp only [fset]; split <;> rfl

theorem setPc_self {s : State} {t : Nat} {p : Pc} (h : s.pc t = p) : s.setPc t p = s := by
  simp only [State.setPc]
  congr 1
  funext u
  simp only [fset]; split
  · rename_i e; rw [e, h]
  · rfl

theorem oprot_back {m : Mem} {o : Nat} (h : m.oprot o = false) : (m.act (.oprot o true)).act (.oprot o false) = m := by
  have : fset (fset m.oprot o true) o false = m.oprot := by
    funext x; simp only [fset]; split
    · rename_i e; rw [e, h]
    · rfl
  simp only [Mem.act, this]

theorem Loops82.step {s : State} {t : Nat} {op : Op} {f o l : Nat} (h : Loops82 s t op f o l) {r : Nat} (hr : r < 5) :
    step (per82 s t op f o l r) (pev82 t r) = some (per82 s t op f o l ((r + 1) % 5)) := by
  have ha := h.al
  have t0 := h.t0
  match r, hr with
  | 0, _ => simp [per82, pev82, FL.step, ha, h.pc, plan, h.no, h.kind, Mem.acts]
  | 1, _ =>
    have h1 : (per82 s t op f o l 1).pc t = .acq (.rSet op f o l) := by simp [per82, State.setPc]
    have h2 : (per82 s t op f o l 1).alive t = true := ha
    have h3 : (per82 s t op f o l 1).lockid = 0 := h.lk
    simp only [FL.step, pev82, h1, h2, h3, Bool.true_eq_false, if_false, true_or, if_true]
    exact congrArg some (setPc_setPc { s with lockid := t } t (.acq (.rSet op f o l)) (.rSet op f o l))
  | 2, _ =>
    have h1 : (per82 s t op f o l 2).pc t = .rSet op f o l := by simp [per82, State.setPc]
    have h2 : (per82 s t op f o l 2).alive t = true := ha
    simp only [FL.step, pev82, h1, h2, Bool.true_eq_false, if_false, plan, Option.map_some]
    exact congrArg some (setPc_setPc { s with lockid := t, mem := s.mem.act (.oprot o true) } t _ _)
  | 3, _ =>
    have h1 : (per82 s t op f o l 3).pc t = .rChk op f o l := by simp [per82, State.setPc]
    have h2 : (per82 s t op f o l 3).alive t = true := ha
    simp only [FL.step, pev82, h1, h2, Bool.true_eq_false, if_false, plan, Option.map_some]
    refine congrArg some ((setPc_setPc { s with lockid := t, mem := (s.mem.act (.oprot o true)).act (.oprot o false) } t _ _).trans ?_)
    rw [oprot_back h.op]; rfl
  | 4, _ =>
    have h1 : (per82 s t op f o l 4).pc t = .rel (.spin op f o l) := by simp [per82, State.setPc]
    have h2 : (per82 s t op f o l 4).alive t = true := ha
    have h3 : (per82 s t op f o l 4).lockid = t := rfl
    simp only [FL.step, pev82, h1, h2, h3, Bool.true_eq_false, if_false, if_true]
    refine congrArg some ((setPc_setPc { s with lockid := 0 } t _ _).trans ?_)
    rw [← h.lk]; exact setPc_self h.pc

theorem per82_rest {s : State} {t : Nat} {op : Op} {f o l : Nat} (r : Nat) :
    (per82 s t op f o l r).alive = s.alive ∧ (∀ u, u ≠ t → (per82 s t op f o l r).pc u = s.pc u) ∧
      (per82 s t op f o l r).mem.lks = s.mem.lks ∧ (per82 s t op f o l r).mem.ltid = s.mem.ltid ∧
      (per82 s t op f o l r).mem.word = s.mem.word ∧ (per82 s t op f o l r).mem.outs = s.mem.outs := by
  unfold per82
  split <;> exact ⟨rfl, fun u hu => by first | rfl | simp [State.setPc, fset_other _ _ hu], rfl, rfl, rfl, rfl⟩

theorem per82_waits {s : State} {t : Nat} {op : Op} {f o l : Nat} (h : Loops82 s t op f o l) (r : Nat) :
    waits op ((per82 s t op f o l r).pc t) := by
  have hk := h.kind
  unfold per82
  split
  · rw [h.pc]; exact ⟨rfl, hk⟩
  all_goals simp only [State.setPc, fset_same]; exact ⟨rfl, hk⟩

theorem Loops82.good {any : Bool} {A : State → Ev → Prop} {es : List Ev} {s : State} {nf no nl : Nat} {junk : Mem} {t : Nat} {op : Op}
    {f o l : Nat} (h : Loops82 s t op f o l) (hA : ∀ s e, okEv82 any s e = true → A s e) (hgo : ∀ s c, A s (.go t c))
    (hr : run (FL.init nf no nl junk) es = some s) (hc : chk82 any (FL.init nf no nl junk) es = true) :
    ∀ σ ε, σ = σ82 (FL.init nf no nl junk) es s t op f o l → ε = ε82 es t → 
    Exec A σ ε ∧ Fair σ ε ∧ CallsEnd ε ∧ DeadSeen σ ε ∧ Timely σ ε ∧ RacesReal σ ε ∧
    (∀ j, es.length ≤ j → waits op ((σ j).pc t) ∧ (σ j).alive = s.alive ∧ (σ j).mem.outs = s.mem.outs) ∧ ¬ ReturnsAfter σ t es.length := by
  intro σ ε hσ hε
  have early : ∀ j, j < es.length → σ j = fin82 (FL.init nf no nl junk) es j ∧ ε j = es[j]? := by
    intro j hj; simp [hσ, hε, σ82, ε82, hj]
  have late : ∀ j, es.length ≤ j → σ j = per82 s t op f o l ((j - es.length) % 5) ∧ ε j = some (pev82 t ((j - es.length) % 5)) := by
    intro j hj; simp [hσ, hε, σ82, ε82, Nat.not_lt.mpr hj]
  have hlt : ∀ j, (j - es.length) % 5 < 5 := fun j => Nat.mod_lt _ (by decide)
  have hin : ∀ j, es.length ≤ j → waits op ((σ j).pc t) ∧ (σ j).alive = s.alive ∧ (σ j).mem.outs = s.mem.outs := by
    intro j hj
    rw [(late j hj).1]
    have := per82_rest (s := s) (t := t) (op := op) (f := f) (o := o) (l := l) ((j - es.length) % 5)
    exact ⟨per82_waits h _, this.1, this.2.2.2.2.2⟩
  have goes : ∀ i c, ∃ j, i ≤ j ∧ es.length ≤ j ∧ ε j = some (.go t c) ∨ c ≠ .go ∧ c ≠ .limit := by
    intro i c
    by_cases h1 : c = .go
    · refine ⟨es.length + 5 * i + 1, .inl ⟨by omega, by omega, ?_⟩⟩
      rw [(late _ (by omega)).2, show (es.length + 5 * i + 1 - es.length) % 5 = 1 by omega, h1]; rfl
    · by_cases h2 : c = .limit
      · refine ⟨es.length + 5 * i, .inl ⟨by omega, by omega, ?_⟩⟩
        rw [(late _ (by omega)).2, show (es.length + 5 * i - es.length) % 5 = 0 by omega, h2]; rfl
      · exact ⟨0, .inr ⟨h1, h2⟩⟩
  refine ⟨⟨?_, fun i => ?_⟩, ?_, ?_, ?_, ?_, ?_, hin, ?_⟩
  · by_cases h0 : 0 < es.length
    · exact ⟨nf, no, nl, junk, (early 0 h0).1.trans rfl⟩
    · have : es = [] := List.length_eq_zero_iff.mp (by omega)
      subst this
      have e0 := (late 0 (Nat.le_refl _)).1
      exact ⟨nf, no, nl, junk, e0.trans (by simpa [per82, run] using hr.symm)⟩
  · by_cases hi : i < es.length
    · obtain ⟨e1, e2⟩ := early i hi
      rw [e2, e1]
      have he : es[i]? = some es[i] := by simp [hi]
      rw [he]
      refine ⟨hA _ _ (chk82_at hc he), ?_⟩
      have hs := fin82_step hr he
      by_cases hi' : i + 1 < es.length
      · rw [(early (i + 1) hi').1]; exact hs
      · have e3 : σ (i + 1) = s := by
          rw [(late (i + 1) (by omega)).1, show (i + 1 - es.length) % 5 = 0 by omega]; rfl
        rw [e3, hs, fin82_late hr (by omega)]
    · obtain ⟨e1, e2⟩ := late i (by omega)
      rw [e2, e1, (late (i + 1) (by omega)).1]
      refine ⟨?_, ?_⟩
      · have : ∃ c, pev82 t ((i - es.length) % 5) = .go t c := by unfold pev82; split <;> exact ⟨_, rfl⟩
        obtain ⟨c, e⟩ := this
        rw [e]; exact hgo _ _
      · have := h.step (hlt i)
        rw [show ((i - es.length) % 5 + 1) % 5 = (i + 1 - es.length) % 5 by omega] at this
        exact this
  · intro u hu i
    by_cases hut : u = t
    · subst hut
      obtain ⟨j, ⟨h1, _, h2⟩ | ⟨h1, _⟩⟩ := goes i .go
      · exact ⟨j, h1, _, h2⟩
      · exact absurd rfl h1
    · exfalso
      obtain ⟨j, hj, c, s', hs⟩ := hu es.length
      rw [(late j hj).1] at hs
      obtain ⟨p1, p2, _⟩ := per82_rest (s := s) (t := t) (op := op) (f := f) (o := o) (l := l) ((j - es.length) % 5)
      rcases h.rest u hut with ⟨r, h1⟩ | h1
      · rw [← p2 u hut] at h1
        simp only [FL.step, h1, plan_done] at hs
        split at hs <;> cases hs
      · rw [← p1] at h1; simp [FL.step, h1] at hs
  · refine ⟨es.length, fun j hj u c he => ?_⟩
    rw [(late j hj).2] at he
    unfold pev82 at he
    split at he <;> cases he
  · intro i u op' f' o' l' hp he md l' hl'
    by_cases hi : i < es.length
    · obtain ⟨e1, e2⟩ := early i hi
      rw [e2] at he; rw [e1] at hp hl' ⊢
      have := chk82_at hc he
      simp only [okEv82, hp, bne_self_eq_false, Bool.false_or, Bool.and_eq_true, List.all_eq_true] at this
      cases md with
      | rd => exact this.1 l' hl'
      | wr => exact this.2 l' hl'
    · obtain ⟨e1, e2⟩ := late i (by omega)
      rw [e1] at hp hl' ⊢
      obtain ⟨p1, p2, p3, p4, _⟩ := per82_rest (s := s) (t := t) (op := op) (f := f) (o := o) (l := l) ((i - es.length) % 5)
      rw [p1, p4]; rw [p3] at hl'
      have hu : u = t := by
        rw [e2] at he
        unfold pev82 at he
        split at he <;> cases he <;> rfl
      subst hu
      have ho : o' = o := by
        have := hlt i
        revert hp
        generalize (i - es.length) % 5 = r at *
        match r, this with
        | 0, _ => simp [per82, h.pc]
        | 1, _ => simp [per82, State.setPc]
        | 2, _ => simp [per82, State.setPc]
        | 3, _ => simp only [per82, State.setPc, fset_same, Pc.rChk.injEq]; exact fun h => h.2.2.1.symm
        | 4, _ => simp [per82, State.setPc]
      rw [ho] at hl'
      exact h.seen md l' hl'
  · intro u i hu
    by_cases hut : u = t
    · subst hut
      obtain ⟨j, ⟨h1, _, h2⟩ | ⟨_, h1⟩⟩ := goes i .limit
      · exact ⟨j, h1, h2⟩
      · exact absurd rfl h1
    · exfalso
      obtain ⟨ha, op', f', o', l', hp, _⟩ := hu (i + es.length) (by omega)
      rw [(late (i + es.length) (by omega)).1] at ha hp
      obtain ⟨p1, p2, _⟩ := per82_rest (s := s) (t := t) (op := op) (f := f) (o := o) (l := l) ((i + es.length - es.length) % 5)
      rw [p2 u hut] at hp; rw [p1] at ha
      rcases h.rest u hut with ⟨r, h1⟩ | h1
      · rw [h1] at hp; cases hp
      · rw [h1] at ha; cases ha
  · intro i u c op' f' o' l' he hcg hp hct
    exfalso
    by_cases hi : i < es.length
    · obtain ⟨e1, e2⟩ := early i hi
      rw [e2] at he; rw [e1] at hp hct
      have := chk82_at hc he
      simp only [okEv82, hp, hct, Bool.not_true, Bool.or_false, beq_iff_eq] at this
      exact hcg this
    · obtain ⟨e1, e2⟩ := late i (by omega)
      rw [e1] at hp hct
      obtain ⟨_, _, _, _, p5, _⟩ := per82_rest (s := s) (t := t) (op := op) (f := f) (o := o) (l := l) ((i - es.length) % 5)
      rw [p5] at hct
      have hu : u = t := by
        rw [e2] at he
        unfold pev82 at he
        split at he <;> cases he <;> rfl
      subst hu
      have ho : op' = op ∧ o' = o := by
        have := hlt i
        revert hp
        generalize (i - es.length) % 5 = r at *
        match r, this with
        | 0, _ => simp only [per82, h.pc, Pc.spin.injEq]; exact fun h => ⟨h.1.symm, h.2.2.1.symm⟩
        | 1, _ => simp [per82, State.setPc]
        | 2, _ => simp [per82, State.setPc]
        | 3, _ => simp [per82, State.setPc]
        | 4, _ => simp [per82, State.setPc]
      rw [ho.1, ho.2, h.no] at hct; cases hct
  · rintro ⟨j, hj, ⟨r, hr⟩ | ha⟩
    · have := (hin j hj).1
      rw [hr] at this; exact this
    · rw [(hin j hj).2.1, h.al] at ha; cases ha

/-- 1 is killed after taking [0,10) but before marking its record; 2 asks for the range, waits, and removes the record of 1. -/
def half82 : List Ev :=
  .call 1 (.lock (mkOp 3 kX rA .wr .block)) :: alone 1 8 ++ [.die 1 .go 0] ++ .call 2 (.lock (mkOp 4 kX rA .wr .block)) :: alone 2 8 ++
  [.go 2 .limit] ++ alone 2 2 ++ [.go 2 (.lk 0 .wr 0)] ++ alone 2 2

/-- C82 as stated is false: 2 waits for ever for a lock that nobody holds, because a killed thread left it half taken. -/
theorem C82_not_full : ¬ C82_full := by
  intro hfull
  obtain ⟨s, hr, h1⟩ := run_case (s0 := FL.init 2 4 8 junk0) (es := half82)
    (fun s => (decide (s.alive 1 = false ∧ s.alive 2 = true ∧ s.pc 2 = .spin (mkOp 4 kX rA .wr .block) 0 0 1 ∧
      s.mem.word 0 = -1 ∧ s.lockid = 0 ∧ s.mem.oprot 0 = false ∧ s.mem.lks 0 .rd = [] ∧ s.mem.lks 0 .wr = [1] ∧ s.mem.ltid 1 = 2 ∧
      s.mem.outs = []))) true (by decide +kernel)
  simp only [decide_eq_true_eq] at h1
  obtain ⟨a1, a2, a3, a4, a5, a6, a7, a8, a9, a10⟩ := h1
  have lp : Loops82 s 2 (mkOp 4 kX rA .wr .block) 0 0 1 := by
    refine ⟨by decide, a2, a3, rfl, by rw [a4]; rfl, a5, a6, ?_, ?_⟩
    · intro md l' hl'
      cases md
      · rw [a7] at hl'; cases hl'
      · rw [a8] at hl'; simp only [List.mem_singleton] at hl'; rw [hl', a9]; exact a2
    · intro u hu
      by_cases h1 : u = 1
      · exact .inr (h1 ▸ a1)
      · refine .inl ⟨0, (idle_rest hr (u := u) fun e he => ?_).1⟩
        have : ∀ e ∈ half82, e.tid = 1 ∨ e.tid = 2 := by decide +kernel
        rcases this e he with h' | h' <;> rw [h']
        · exact Ne.symm h1
        · exact Ne.symm hu
  obtain ⟨g1, g2, g3, g4, g5, g6, g7, g8⟩ := lp.good (any := true) (A := fun _ _ => True) (fun _ _ _ => trivial) (fun _ _ => trivial) hr
    (by decide +kernel) _ _ rfl rfl
  refine g8 (hfull _ _ g1 g2 (fun i x _ => ⟨i + half82.length, by omega, .inl ?_⟩) g3 g4 g5 g6 _ _)
  rw [(g7 _ (by omega)).2.2, a10]; nofun

/-- 1 takes [0,10) and keeps it; 2 asks for it. -/
def keep82 : List Ev := lockBy 1 (mkOp 3 kX rA .wr .block) ++ .call 2 (.lock (mkOp 4 kX rA .wr .block)) :: alone 2 8

/-- Non-vacuity of `C82_blocked_partial`: a lock that is never released. -/
theorem keep82_case : ∃ σ ε, Exec (softIn RX) σ ε ∧ Fair σ ε ∧ CallsEnd ε ∧ DeadSeen σ ε ∧ Timely σ ε ∧ RacesReal σ ε ∧
    ∃ t i, ¬ ReturnsAfter σ t i := by
  obtain ⟨s, hr, h1⟩ := run_case (s0 := FL.init 2 4 8 junk0) (es := keep82)
    (fun s => (decide (s.alive 1 = true ∧ s.pc 1 = .done 0 ∧ s.alive 2 = true ∧ s.pc 2 = .spin (mkOp 4 kX rA .wr .block) 0 0 1 ∧
      s.mem.word 0 = -1 ∧ s.lockid = 0 ∧ s.mem.oprot 0 = false ∧ s.mem.lks 0 .rd = [] ∧ s.mem.lks 0 .wr = [1, 0] ∧ s.mem.ltid 1 = 2 ∧
      s.mem.ltid 0 = 1))) true (by decide +kernel)
  simp only [decide_eq_true_eq] at h1
  obtain ⟨a1, a1', a2, a3, a4, a5, a6, a7, a8, a9, a10⟩ := h1
  have lp : Loops82 s 2 (mkOp 4 kX rA .wr .block) 0 0 1 := by
    refine ⟨by decide, a2, a3, rfl, by rw [a4]; rfl, a5, a6, ?_, ?_⟩
    · intro md l' hl'
      cases md
      · rw [a7] at hl'; cases hl'
      · rw [a8] at hl'; simp only [List.mem_cons, List.not_mem_nil, or_false] at hl'
        rcases hl' with hl' | hl' <;> rw [hl']
        · rw [a9]; exact a2
        · rw [a10]; exact a1
    · intro u hu
      by_cases h1 : u = 1
      · exact .inl (h1 ▸ ⟨0, a1'⟩)
      · refine .inl ⟨0, (idle_rest hr (u := u) fun e he => ?_).1⟩
        have : ∀ e ∈ keep82, e.tid = 1 ∨ e.tid = 2 := by decide +kernel
        rcases this e he with h' | h' <;> rw [h']
        · exact Ne.symm h1
        · exact Ne.symm hu
  obtain ⟨g1, g2, g3, g4, g5, g6, g7, g8⟩ := lp.good (any := false) (A := softIn RX) (fun _ _ h => okEv82_soft h) (fun _ _ => ⟨trivial, trivial⟩) hr
    (by decide +kernel) _ _ rfl rfl
  exact ⟨_, _, g1, g2, g3, g4, g5, g6, 2, _, g8⟩

example : ∃ σ ε, Exec (softIn RX) σ ε ∧ ∃ t op x m, Conflict x.2 (lockOf t op) ∧
    ∀ j, m ≤ j → waits op ((σ j).pc t) ∧ (σ j).alive t = true ∧ x ∈ (σ j).mem.outs ∧ (σ j).alive x.2.t = true := by
  obtain ⟨σ, ε, g1, g2, g3, g4, g5, g6, t, i, h⟩ := keep82_case
  obtain ⟨op, x, m, _, h1⟩ := C82_blocked_partial RX (separate_clustered sepRX) σ ε g1 g2 g3 g4 g5 g6 t i h
  exact ⟨σ, ε, g1, t, op, x, m, h1⟩

end Fullock.Props
