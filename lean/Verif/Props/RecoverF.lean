import Verif.Proofs.RecoverF
import Verif.Props.FLCases
import Verif.Props.Recover
/-! C101: what is given back, without anybody asking, of the range locks of a process that has ended. -/
namespace Fullock.Props
open Fullock Fullock.RecoverF
open Fullock.MC (upd)
open Fullock.FL (mkOp kX rA rB junk0 outs_loss unl step_unl)

theorem none_holds {s : FL.State} (hi : FL.SInv s) {v : Nat} (hn : NoneOf s.mem v) : ¬ Holds s.mem v := by
  rintro ⟨x, hx, rfl⟩
  obtain ⟨f, o, at_, -, -, q, -⟩ := hi.outs.1 x hx
  exact hn f at_.1 o at_.2.1 _ _ at_.2.2 q

/-- C101: a check that the worker of `q` begins when the kernel has begun to close the descriptors of the process of `v` leaves no lock
and no request of `v`, whatever the others do meanwhile; and it stays so. -/
theorem C101_check {c : Cfg} (hk : Fits c) {σ : Nat → State} {ε : Nat → Option Ev} (ex : Exec c σ ε) {q v i j : Nat}
    (hb : ε i = some (.begin q)) (hv : (σ i).fl.alive v = false) (hij : i < j)
    (hj : (σ j).w.work q ≠ .got ∧ (σ j).w.work q ≠ .inF) :
    ∀ j', j ≤ j' → NoneOf (σ j').fl.mem v ∧ ¬ Holds (σ j').fl.mem v := by
  intro j' hj'
  have hn := ex.next i
  rw [hb] at hn
  simp only [step] at hn
  split at hn <;> [skip; cases hn]
  rename_i hc
  simp only [Bool.and_eq_true, decide_eq_true_eq] at hc
  have := ex.swept hk hv hc.2 (Nat.le_of_lt hij) hj j' hj'
  exact ⟨this, none_holds (ex.sinv j') this⟩

/-- C101: the close of the segment file is an event for everybody who watches, and nothing else for those who watch. -/
theorem C101_told {c : Cfg} {σ : Nat → State} {ε : Nat → Option Ev} (ex : Exec c σ ε) {i : Nat}
    (hc : (∃ p, ε i = some (.world (.close p))) ∨ ε i = some (.world .touch)) (q : Nat) :
    ((σ (i + 1)).w.queue q = true ↔ (σ i).w.queue q = true ∨ (σ i).w.watches q = true) ∧
      (σ (i + 1)).w.work q = (σ i).w.work q ∧ (σ (i + 1)).fl = (σ i).fl := by
  have hn := ex.next i
  rcases hc with ⟨p, he⟩ | he <;> rw [he] at hn <;> simp only [step, Recover.World.step] at hn
  · split at hn <;> [skip; cases hn]
    split at hn <;> [skip; cases hn]
    rw [← Option.some.inj hn]; simp [Recover.World.notify]
  · split at hn <;> [skip; cases hn]
    rw [← Option.some.inj hn]; simp [Recover.World.notify]

/-- C101: when the descriptors of an ended process have been closed, and somebody who watched then has handled what they were told of, no
lock and no waiting request of any thread of that process is left in the tables, and none comes back.  No other call is needed for it. -/
theorem C101_gone {c : Cfg} (hk : Fits c) {σ : Nat → State} {ε : Nat → Option Ev} (ex : Exec c σ ε) {p q i j : Nat}
    (hc : ε i = some (.world (.close p))) (hq : (σ i).w.watches q = true) (hij : i < j) (hj : Handled (σ j) q) :
    ∀ t, c.k.proc t = p → ∀ j', j ≤ j' → NoneOf (σ j').fl.mem t ∧ ¬ Holds (σ j').fl.mem t := by
  intro t ht j' hj'
  obtain ⟨h1, -, h2⟩ := C101_told ex (.inl ⟨p, hc⟩) q
  obtain ⟨r, g1, g2, g3⟩ := ex.reads (h1.2 (.inr hq)) hij hj.2
  have hv : (σ i).fl.alive t = false := by
    have hn := ex.next i
    rw [hc] at hn
    simp only [step] at hn
    split at hn <;> [skip; cases hn]
    rename_i ha
    simp only [allowed, List.all_eq_true] at ha
    simpa using ha t ((hk.thr p t).2 ht)
  have := ex.swept hk (ex.dead_on (by omega) hv) g3 (by omega) ⟨by rw [hj.1]; simp, by rw [hj.1]; simp⟩ j' hj'
  exact ⟨this, none_holds (ex.sinv j') this⟩

/-- C101: and no check takes anything from a process that goes on: a lock stays in force until its thread calls unlock or its process
ends. -/
theorem C101_kept {c : Cfg} {σ : Nat → State} {ε : Nat → Option Ev} (ex : Exec c σ ε) {i j : Nat} {x : Nat × FL.Out}
    (hx : x ∈ (σ i).fl.mem.outs) (hi : idle (σ i).fl x.2.t = true) (hij : i ≤ j)
    (hun : ∀ r, i ≤ r → r < j → ∀ op, ε r ≠ some (.call x.2.t (.unlock op))) (hd : (σ j).w.down (c.k.proc x.2.t) = false) :
    x ∈ (σ j).fl.mem.outs := by
  have hal : ∀ r, r ≤ j → (σ r).fl.alive x.2.t = true := by
    intro r hr
    by_contra hn
    have := ex.downOf j _ (ex.dead_on hr (by simpa using hn))
    rw [hd] at this; cases this
  suffices h : ∀ d, i + d ≤ j → x ∈ (σ (i + d)).fl.mem.outs ∧ unl ((σ (i + d)).fl.pc x.2.t) = false by
    obtain ⟨d, rfl⟩ := Nat.le.dest hij
    exact (h d (Nat.le_refl _)).1
  intro d
  induction d with
  | zero =>
    intro _
    obtain ⟨r, hr⟩ := idle_done hi
    exact ⟨hx, by simp [hr, unl]⟩
  | succ d ih =>
    intro hle
    obtain ⟨i1, i2⟩ := ih (by omega)
    show x ∈ (σ (i + d + 1)).fl.mem.outs ∧ unl ((σ (i + d + 1)).fl.pc x.2.t) = false
    rcases ex.moment (i + d) with h | ⟨e, he, h⟩
    · rw [h]; exact ⟨i1, i2⟩
    · have hf := step_fl h
      cases hev : evOf c (σ (i + d)) e with
      | none => rw [hev] at hf; rw [hf]; exact ⟨i1, i2⟩
      | some e' =>
        rw [hev] at hf
        refine ⟨?_, step_unl hf i2 ?_⟩
        · by_contra hn
          rcases outs_loss (ex.sinv _) hf i1 hn with g | ⟨op, f, o, md, g, -⟩
          · rw [hal _ (by omega)] at g; cases g
          · rw [g] at i2; cases i2
        · rintro op rfl
          cases e <;> simp only [evOf, reduceCtorEq, Option.some.injEq] at hev
          case call => cases hev; exact hun _ (by omega) (by omega) op he
          case begin => split at hev <;> simp at hev
          case cut => split at hev <;> simp at hev

/-- C101: the walk does not stop on its way: while something is left to look at, the next look is possible, and makes it one record less;
when nothing is left, the worker goes on to release the table lock. -/
theorem C101_walk {c : Cfg} (hk : Fits c) {σ : Nat → State} {ε : Nat → Option Ev} (ex : Exec c σ ε) {q i : Nat}
    (hr : (σ i).w.runs c.k (c.k.wk q) = true) (hpc : (σ i).fl.pc (c.k.wk q) = .sw) :
    (∀ x r, (σ i).todo q = x :: r → ∃ s', (step c (σ i) (.skip q) = some s' ∨ step c (σ i) (.cut q) = some s') ∧ s'.todo q = r ∧
      s'.fl.pc (c.k.wk q) = .sw) ∧
    ((σ i).todo q = [] → ∃ s', step c (σ i) (.go (c.k.wk q) .go) = some s' ∧ s'.fl.pc (c.k.wk q) = .rel (.done 0)) := by
  have hal : (σ i).fl.alive (c.k.wk q) = true := by
    by_contra hn
    have := ex.downOf i _ (by simpa using hn)
    simp [Recover.World.runs, this] at hr
  refine ⟨?_, fun htd => ?_⟩
  · rintro ⟨o, md, l⟩ r htd
    obtain ⟨-, g2⟩ := ex.look hk q i hpc hal
    obtain ⟨f, g1, g2, g3⟩ := g2 _ (by rw [htd]; exact List.mem_cons_self)
    cases hs : (σ i).snap q ((σ i).fl.mem.ltid l) with
    | true => exact ⟨{ σ i with todo := upd (σ i).todo q r }, .inl (by simp [step, hr, hpc, htd, hs]), by simp [upd], hpc⟩
    | false =>
      have hd := ex.seen q _ i hs
      have : ((∃ f ∈ (σ i).fl.mem.files, o ∈ (σ i).fl.mem.offs f) ∧ l ∈ (σ i).fl.mem.lks o md ∧
          (σ i).fl.alive ((σ i).fl.mem.ltid l) = false) := ⟨⟨f, g1, g2⟩, g3, hd⟩
      refine ⟨_, .inr (by simp only [step, hr, hpc, htd, FL.step, hal, FL.plan, if_pos this]; rfl), ?_, ?_⟩
      · simp [upd]
      · exact FL.fset_same _ _ _
  · refine ⟨_, by simp only [step, hr, inWalk, hk.wk, hpc, htd, FL.step, hal, FL.plan]; rfl, ?_⟩
    exact FL.fset_same _ _ _

/-- C101: a thread that has ended, by itself or with its process, makes no step any more, and calls nothing. -/
theorem C101_ended {c : Cfg} {σ : Nat → State} {ε : Nat → Option Ev} (ex : Exec c σ ε) {i j t : Nat}
    (hi : ε i = some (.world (.leave t)) ∨ ε i = some (.world (.kill (c.k.proc t)))) (hij : i < j) {e : Ev} (he : ε j = some e) :
    e.who c ≠ some t := by
  have hmono : ∀ {s s' : State} {e : Ev}, step c s e = some s' → s.w.stop t = true ∨ s.w.down (c.k.proc t) = true →
      s'.w.stop t = true ∨ s'.w.down (c.k.proc t) = true := by
    intro s s' e h hs
    rcases step_world h with ⟨e', rfl, -, hw, -⟩ | ⟨-, h1, h2, -⟩
    · exact hs.imp (fun h => world_stop hw h) (fun h => world_down hw h)
    · rw [h1, h2]; exact hs
  have h1 : (σ (i + 1)).w.stop t = true ∨ (σ (i + 1)).w.down (c.k.proc t) = true := by
    have hn := ex.next i
    rcases hi with e | e <;> rw [e] at hn <;> simp only [step, Recover.World.step] at hn <;> split at hn <;> try cases hn; done
    · split at hn <;> [cases hn; skip]
      rw [← Option.some.inj hn]; left; simp [upd]
    · split at hn <;> [cases hn; skip]
      rw [← Option.some.inj hn]; right; simp [upd]
  have hj : (σ j).w.stop t = true ∨ (σ j).w.down (c.k.proc t) = true := by
    obtain ⟨d, rfl⟩ := Nat.le.dest hij
    clear hij he
    induction d with
    | zero => exact h1
    | succ d ih =>
      rcases ex.moment (i + 1 + d) with g | ⟨e, -, g⟩
      · rw [show i + 1 + (d + 1) = i + 1 + d + 1 from rfl, g]; exact ih
      · exact hmono g ih
  have hr : (σ j).w.runs c.k t = false := by rcases hj with h | h <;> simp [Recover.World.runs, h]
  have hn := ex.next j
  rw [he] at hn
  intro hw
  cases e with
  | world e => cases e <;> simp [Ev.who] at hw <;> subst hw <;> simp [step, Recover.World.step, hr] at hn
  | drop => simp [Ev.who] at hw
  | _ => simp [Ev.who] at hw; subst hw; simp [step, hr] at hn

/-- C101: what comes before what: only a process that was started calls, and not by its worker's thread; the range locks of a thread
cease to count after its process has ended; the segment file is closed when those of all threads of the process do not count. -/
theorem C101_order {c : Cfg} (hk : Fits c) {σ : Nat → State} {ε : Nat → Option Ev} (ex : Exec c σ ε) (i : Nat) :
    (∀ t a, ε i = some (.call t a) → t ≠ c.k.wk (c.k.proc t) ∧ ∃ j < i, ε j = some (.world (.start (c.k.proc t)))) ∧
    (∀ t ch n, ε i = some (.drop t ch n) → ∃ j < i, ε j = some (.world (.kill (c.k.proc t)))) ∧
    (∀ p, ε i = some (.world (.close p)) → (∃ j < i, ε j = some (.world (.kill p))) ∧
      ∀ t, c.k.proc t = p → ∃ j < i, ∃ ch n, ε j = some (.drop t ch n)) := by
  have key : ∀ i, (∀ p, (σ i).w.opened p = true → ∃ j < i, ε j = some (.world (.start p))) ∧
      (∀ p, (σ i).w.down p = true → ∃ j < i, ε j = some (.world (.kill p))) ∧
      (∀ t, (σ i).fl.alive t = false → ∃ j < i, ∃ ch n, ε j = some (.drop t ch n)) := by
    intro i
    induction i with
    | zero =>
      obtain ⟨nf, no, nl, junk, h0⟩ := ex.start
      rw [h0]; simp [RecoverF.init, FL.init]
    | succ i ih =>
      obtain ⟨h1, h2, h3⟩ := ih
      have up : ∀ {P : Ev → Prop}, (∃ j < i, ∃ e, ε j = some e ∧ P e) → ∃ j < i + 1, ∃ e, ε j = some e ∧ P e :=
        fun ⟨j, hj, h⟩ => ⟨j, by omega, h⟩
      have up1 : ∀ {e : Ev}, (∃ j < i, ε j = some e) → ∃ j < i + 1, ε j = some e := fun ⟨j, hj, h⟩ => ⟨j, by omega, h⟩
      have up2 : ∀ {t}, (∃ j < i, ∃ ch n, ε j = some (.drop t ch n)) → ∃ j < i + 1, ∃ ch n, ε j = some (.drop t ch n) :=
        fun ⟨j, hj, h⟩ => ⟨j, by omega, h⟩
      rcases ex.moment i with h | ⟨e, he, h⟩
      · rw [h]; exact ⟨fun p hp => up1 (h1 p hp), fun p hp => up1 (h2 p hp), fun t ht => up2 (h3 t ht)⟩
      · have hal : ∀ t, (σ (i + 1)).fl.alive t = false → (σ i).fl.alive t = false ∨ ∃ ch n, e = .drop t ch n := by
          intro t ht
          have hf := step_fl h
          cases hev : evOf c (σ i) e with
          | none => rw [hev] at hf; rw [hf] at ht; exact .inl ht
          | some e' =>
            rw [hev] at hf
            rcases FL.step_aliveR hf t with g | ⟨-, ch, n, rfl⟩
            · rw [g] at ht; exact .inl ht
            · right
              cases e <;> simp only [evOf, reduceCtorEq, Option.some.injEq] at hev
              case drop => cases hev; exact ⟨_, _, rfl⟩
              case begin => split at hev <;> simp at hev
              case cut => split at hev <;> simp at hev
        have h3' : ∀ t, (σ (i + 1)).fl.alive t = false → ∃ j < i + 1, ∃ ch n, ε j = some (.drop t ch n) := by
          intro t ht
          rcases hal t ht with g | ⟨ch, n, rfl⟩
          · exact up2 (h3 t g)
          · exact ⟨i, by omega, ch, n, he⟩
        rcases step_world h with ⟨e', rfl, -, hw, -⟩ | ⟨-, g1, -, g2, -⟩
        · obtain ⟨w1, w2⟩ := world_new hw
          refine ⟨fun p hp => ?_, fun p hp => ?_, h3'⟩
          · rcases w1 p hp with g | rfl
            exacts [up1 (h1 p g), ⟨i, by omega, he⟩]
          · rcases w2 p hp with g | rfl
            exacts [up1 (h2 p g), ⟨i, by omega, he⟩]
        · rw [g1, g2]
          exact ⟨fun p hp => up1 (h1 p hp), fun p hp => up1 (h2 p hp), h3'⟩
  obtain ⟨h1, h2, h3⟩ := key i
  have hn := ex.next i
  refine ⟨fun t a he => ?_, fun t ch n he => ?_, fun p he => ?_⟩ <;> rw [he] at hn <;> simp only [step, Recover.World.step] at hn <;>
    split at hn <;> (try cases hn; done)
  · rename_i hc
    simp only [Bool.and_eq_true, decide_eq_true_eq] at hc
    exact ⟨Ne.symm hc.2, h1 _ hc.1.2⟩
  · rename_i hc
    simp only [Bool.and_eq_true] at hc
    exact h2 _ hc.1
  · rename_i ha
    simp only [allowed, List.all_eq_true] at ha
    split at hn <;> [skip; cases hn]
    rename_i hc
    simp only [Bool.and_eq_true] at hc
    exact ⟨h2 p hc.1, fun t ht => h3 t (by simpa using ha t ((hk.thr p t).2 ht))⟩

/-! ### Cases -/

/-- Process `p` has the threads `2 p` and `2 p + 1`, the second is its worker. -/
def k101 : Cfg :=
  { k := { cnt := cnt96, fuel := 5, base := base71, proc := fun t => t / 2, lead := fun p => 2 * p, wk := fun p => 2 * p + 1 }
    thr := fun p => [2 * p, 2 * p + 1] }

theorem fits101 : Fits k101 :=
  ⟨fun p => by simp only [k101]; omega, fun p t => by simp only [k101, List.mem_cons, List.not_mem_nil, or_false]; omega⟩

def s101 : State := RecoverF.init 2 4 8 junk0

/-- The state at moment `i`. -/
def st101 (es : List RecoverF.Ev) (i : Nat) : State := (RecoverF.run k101 s101 (es.take i)).getD s101

theorem run101_append (l l' : List RecoverF.Ev) (x : State) :
    RecoverF.run k101 x (l ++ l') = (RecoverF.run k101 x l).bind (RecoverF.run k101 · l') := by
  induction l generalizing x with
  | nil => rfl
  | cons e l ih => simp only [List.cons_append, RecoverF.run, Option.bind_assoc]; congr 1; funext y; exact ih y

theorem exec101 {es : List RecoverF.Ev} (h : (RecoverF.run k101 s101 es).isSome = true) : Exec k101 (st101 es) fun i => es[i]? := by
  refine ⟨⟨_, _, _, _, rfl⟩, fun i => ?_⟩
  have hpre : ∀ n, ∃ x, RecoverF.run k101 s101 (es.take n) = some x := by
    intro n
    rw [← List.take_append_drop n es, run101_append] at h
    cases hx : RecoverF.run k101 s101 (es.take n) with
    | none => rw [hx] at h; cases h
    | some x => exact ⟨x, rfl⟩
  cases he : es[i]? with
  | none =>
    have : es.length ≤ i := List.getElem?_eq_none_iff.1 he
    simp only [st101, List.take_of_length_le this, List.take_of_length_le (Nat.le_succ_of_le this)]
  | some e =>
    obtain ⟨x, hx⟩ := hpre i
    obtain ⟨y, hy⟩ := hpre (i + 1)
    have e1 : es.take (i + 1) = es.take i ++ [e] := by rw [List.take_add_one, he]; rfl
    simp only [st101, hx, hy, Option.getD_some]
    rw [e1, run101_append, hx] at hy
    simpa [RecoverF.run] using hy

def alone101 (t n : Nat) : List RecoverF.Ev := List.replicate n (.go t .go)

/-- Threads 2 and 6 of processes 1 and 3 each lock a range of the same file; process 2 watches. -/
def own101 : List RecoverF.Ev :=
  [.world (.start 1), .world (.start 2), .world (.start 3), .world (.watch 2), .call 2 (.lock (mkOp 3 kX rA .wr .block))] ++ alone101 2 9 ++
  [.call 6 (.lock (mkOp 4 kX rB .wr .block))] ++ alone101 6 9

/-- Process 1 is killed, its descriptors are closed. -/
def die101 : List RecoverF.Ev := [.world (.kill 1), .drop 2 .go 0, .drop 3 .go 0, .world (.close 1)]

/-- The worker of 2 checks: it leaves the lock of thread 6, and takes out that of thread 2. -/
def chk101 : List RecoverF.Ev :=
  [.world (.read 2), .begin 2, .go 5 .go, .skip 2, .cut 2, .go 5 (.off 0 0), .go 5 .go, .go 5 .go, .mtxs 2, .back 2]

def case101 : List RecoverF.Ev := own101 ++ die101 ++ chk101

/-- The hypotheses of `C101_gone`, `C101_check`, `C101_told`, `C101_kept` and `C101_ended` are met: the lock of thread 2 is in force when
its process ends, that of thread 6 stays. -/
example : ∃ σ ε, Exec k101 σ ε ∧ ε 24 = some (.world (.kill 1)) ∧ ε 27 = some (.world (.close 1)) ∧ ε 28 = some (.world (.read 2)) ∧
    ε 29 = some (.begin 2) ∧ (σ 29).fl.alive 2 = false ∧ (σ 27).w.watches 2 = true ∧ Holds (σ 27).fl.mem 2 ∧ Handled (σ 38) 2 ∧
    (∀ j, 38 ≤ j → ¬ Holds (σ j).fl.mem 2) ∧ Holds (σ 38).fl.mem 6 ∧ (σ 38).w.down 3 = false := by
  have e : (RecoverF.run k101 s101 case101).isSome = true := by decide +kernel
  have ex := exec101 e
  have hd : (decide (case101[24]? = some (.world (.kill 1))) && (decide (case101[27]? = some (.world (.close 1))) &&
      (decide (case101[28]? = some (.world (.read 2))) && (decide (case101[29]? = some (.begin 2)) && (!(st101 case101 29).fl.alive 2 &&
      ((st101 case101 27).w.watches 2 && (decide ((st101 case101 27).fl.mem.outs.map (·.2.t) = [6, 2]) &&
      (decide ((st101 case101 38).w.work 2 = .wait) && (!(st101 case101 38).w.queue 2 &&
      (decide ((st101 case101 38).fl.mem.outs.map (·.2.t) = [6]) && !(st101 case101 38).w.down 3)))))))))) = true := by
    decide +kernel
  simp only [Bool.and_eq_true, decide_eq_true_eq, Bool.not_eq_true'] at hd
  obtain ⟨h1, h2, h3, h4, h5, h6, h7, h8, h9, h10, h11⟩ := hd
  have hold : ∀ {m : FL.Mem} {l : List Nat} {v}, m.outs.map (·.2.t) = l → v ∈ l → Holds m v := by
    intro m l v h hv
    rw [← h, List.mem_map] at hv
    exact hv
  exact ⟨_, _, ex, h1, h2, h3, h4, h5, h6, hold h7 (by simp), ⟨h8, h9⟩,
    fun j hj => (C101_gone fits101 ex h2 h6 (by omega) ⟨h8, h9⟩ 2 rfl j hj).2, hold h10 (by simp), h11⟩

/-- `C101_kept`: thread 6 is idle, and its lock stays through the check. -/
example : ∃ σ ε x, Exec k101 σ ε ∧ x ∈ (σ 24).fl.mem.outs ∧ x.2.t = 6 ∧ idle (σ 24).fl 6 = true ∧ x ∈ (σ 38).fl.mem.outs := by
  have e : (RecoverF.run k101 s101 case101).isSome = true := by decide +kernel
  have ex := exec101 e
  have hd : (idle (st101 case101 24).fl 6 && (decide ((st101 case101 24).fl.mem.outs.map (·.2.t) = [6, 2]) &&
      (!(st101 case101 38).w.down 3 && case101.all fun e => match e with | .call _ (.unlock _) => false | _ => true))) = true := by
    decide +kernel
  simp only [Bool.and_eq_true, decide_eq_true_eq, Bool.not_eq_true', List.all_eq_true] at hd
  obtain ⟨h1, h2, h3, h4⟩ := hd
  obtain ⟨x, hx, hx6⟩ : ∃ x ∈ (st101 case101 24).fl.mem.outs, x.2.t = 6 := by
    have : 6 ∈ (st101 case101 24).fl.mem.outs.map (·.2.t) := by rw [h2]; simp
    rwa [List.mem_map] at this
  refine ⟨_, _, x, ex, hx, hx6, h1, C101_kept ex hx (by rw [hx6]; exact h1) (by omega) ?_ (by rw [hx6]; exact h3)⟩
  intro r _ _ op hr
  have := h4 _ (List.mem_of_getElem? hr)
  cases this

/-- `C101_walk`: the worker is in its walk and has two records to look at; `C101_order`: 24, 25 and 27 are the events of the end. -/
example : ∃ σ ε, Exec k101 σ ε ∧ (σ 31).w.runs k101.k (k101.k.wk 2) = true ∧ (σ 31).fl.pc (k101.k.wk 2) = .sw ∧
    ((σ 31).todo 2).length = 2 ∧ ((σ 33).todo 2).length = 0 ∧ (σ 33).fl.pc (k101.k.wk 2) = .sw ∧ ε 25 = some (.drop 2 .go 0) ∧
    ε 4 = some (.call 2 (.lock (mkOp 3 kX rA .wr .block))) := by
  have e : (RecoverF.run k101 s101 case101).isSome = true := by decide +kernel
  exact ⟨_, _, exec101 e, by decide +kernel, by decide +kernel, by decide +kernel, by decide +kernel, by decide +kernel, by decide +kernel,
    by decide +kernel⟩

/-- Nobody watches. -/
def alone101x : List RecoverF.Ev := own101.erase (.world (.watch 2)) ++ die101

/-- C101: a watching process is needed: if nobody watches when the descriptors of the ended process are closed, the lock stays in force, for
ever if nobody waits for it. -/
theorem C101_unwatched : ∃ σ ε, Exec k101 σ ε ∧ ε 26 = some (.world (.close 1)) ∧ (∀ q, (σ 26).w.watches q = false) ∧
    ∀ j, 26 ≤ j → Holds (σ j).fl.mem 2 := by
  have e : (RecoverF.run k101 s101 alone101x).isSome = true := by decide +kernel
  have hl : alone101x.length = 27 := by decide +kernel
  have hd : (decide (alone101x[26]? = some (.world (.close 1))) && (decide ((st101 alone101x 26).fl.mem.outs.map (·.2.t) = [6, 2]) &&
      decide ((st101 alone101x 27).fl.mem.outs.map (·.2.t) = [6, 2]))) = true := by
    decide +kernel
  simp only [Bool.and_eq_true, decide_eq_true_eq] at hd
  obtain ⟨h1, h2, h3⟩ := hd
  have hold : ∀ {m : FL.Mem}, m.outs.map (·.2.t) = [6, 2] → Holds m 2 := by
    intro m h
    have : 2 ∈ m.outs.map (·.2.t) := by rw [h]; simp
    rwa [List.mem_map] at this
  have hoff : ∀ q i, (st101 alone101x i).w.work q = .off := by
    intro q i
    induction i with
    | zero => rfl
    | succ i ih =>
      rcases (exec101 e).moment i with h | ⟨e', he', h⟩
      · rw [h]; exact ih
      · rcases step_work h q with g | ⟨g, -⟩
        · rw [g]; exact ih
        · rw [ih] at g
          have hall : alone101x.all (fun e => match e with | .world (.watch _) => false | _ => true) = true := by decide +kernel
          have := List.all_eq_true.1 hall _ (List.mem_of_getElem? he')
          rw [g] at this
          cases this
  refine ⟨_, _, exec101 e, h1, fun q => by simp [Recover.World.watches, hoff q 26], fun j hj => ?_⟩
  rcases Nat.eq_or_lt_of_le hj with rfl | hj
  · exact hold h2
  · have : st101 alone101x j = st101 alone101x 27 := by
      simp only [st101]
      rw [List.take_of_length_le (by omega), List.take_of_length_le (by omega)]
    rw [this]; exact hold h3
