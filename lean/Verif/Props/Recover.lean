import Verif.Proofs.Recover
/-! C100: what is given back, without anybody asking, of a thread that has ended: the way from the close of the segment file to the
check of another process's worker, while everybody else goes on. -/
namespace Fullock.Props
open Fullock Fullock.Layout Fullock.Recover
open Fullock.MC (upd)

/-- C100 as stated: when a process watches, and all that watch have handled what they were told of, nothing is left of a thread that
is not there any more. -/
def C100_full : Prop :=
  ∀ k, Fits k → Limits k.cnt → MCMem.Fuel k.cnt k.fuel → ∀ σ ε, Exec k σ ε → ∀ j v, v ≠ 0 → (σ j).seg.alive v = false →
    (∃ q, (σ j).w.watches q = true) → Quiet (σ j) →
    NoneOwned k.cnt k.fuel (σ j).seg v ∧ NoneWaits k.cnt k.fuel (σ j).seg v

/-- C100 (partial): so it is if the worker of some `q` has begun a check when `v` was not seen any more, and waits again. It stays so.
Missing: a check that begins while the ended thread is still seen (`C100_not_full`). -/
theorem C100_check_partial {k : Cfg} (hk : Fits k) (hl : Limits k.cnt) (hfu : MCMem.Fuel k.cnt k.fuel) {σ : Nat → State}
    {ε : Nat → Option Ev} (ex : Exec k σ ε) {q v i j : Nat} (v0 : v ≠ 0) (hb : ε i = some (.begin q))
    (hv : (σ i).seg.alive v = false) (hij : i < j) (hj : (σ j).w.work q = .wait) :
    ∀ j', j ≤ j' → NoneOwned k.cnt k.fuel (σ j').seg v ∧ NoneWaits k.cnt k.fuel (σ j').seg v := by
  refine ex.swept hk hl hfu v0 hv ?_ (Nat.le_of_lt hij) hj
  have hn := ex.next i
  rw [hb] at hn
  simp only [step] at hn
  split at hn
  · rename_i hc
    simp only [Bool.and_eq_true, decide_eq_true_eq] at hc
    exact hc.2
  · cases hn

/-- C100 (partial): so it is in particular if some `q` had an event not read when `v` was not seen any more, and has handled it. -/
theorem C100_event_partial {k : Cfg} (hk : Fits k) (hl : Limits k.cnt) (hfu : MCMem.Fuel k.cnt k.fuel) {σ : Nat → State}
    {ε : Nat → Option Ev} (ex : Exec k σ ε) {q v i j : Nat} (v0 : v ≠ 0) (hv : (σ i).seg.alive v = false)
    (hq : (σ i).w.queue q = true) (hij : i ≤ j) (hj : Handled (σ j) q) :
    ∀ j', j ≤ j' → NoneOwned k.cnt k.fuel (σ j').seg v ∧ NoneWaits k.cnt k.fuel (σ j').seg v := by
  obtain ⟨r, h1, h2, h3⟩ := ex.reads hq hij hj.2
  exact ex.swept hk hl hfu v0 (ex.dead_on (by omega) hv) h3 (by omega) hj.1

/-- C100: the close of the segment file, by the kernel for a process that has ended or by anybody else, is an event for everybody who
watches; nothing else changes for those who watch. -/
theorem C100_told {k : Cfg} {σ : Nat → State} {ε : Nat → Option Ev} (ex : Exec k σ ε) {i : Nat}
    (hc : (∃ p, ε i = some (.world (.close p))) ∨ ε i = some (.world .touch)) (q : Nat) :
    ((σ (i + 1)).w.queue q = true ↔ (σ i).w.queue q = true ∨ (σ i).w.watches q = true) ∧
      (σ (i + 1)).w.work q = (σ i).w.work q ∧ (σ (i + 1)).seg = (σ i).seg := by
  have hn := ex.next i
  rcases hc with ⟨p, he⟩ | he <;> rw [he] at hn <;> simp only [step, World.step] at hn
  · split at hn
    · rw [← Option.some.inj hn]; simp [World.notify]
    · cases hn
  · rw [← Option.some.inj hn]; simp [World.notify]

/-- C100 (partial): so a thread that is not seen any more when the descriptors of its process, or of any other, are closed leaves
nothing once somebody who watched then has handled it. -/
theorem C100_close_partial {k : Cfg} (hk : Fits k) (hl : Limits k.cnt) (hfu : MCMem.Fuel k.cnt k.fuel) {σ : Nat → State}
    {ε : Nat → Option Ev} (ex : Exec k σ ε) {q v i j : Nat} (v0 : v ≠ 0)
    (hc : (∃ p, ε i = some (.world (.close p))) ∨ ε i = some (.world .touch)) (hv : (σ i).seg.alive v = false)
    (hq : (σ i).w.watches q = true) (hij : i < j) (hj : Handled (σ j) q) :
    ∀ j', j ≤ j' → NoneOwned k.cnt k.fuel (σ j').seg v ∧ NoneWaits k.cnt k.fuel (σ j').seg v :=
  C100_event_partial hk hl hfu ex v0 (ex.dead_on (Nat.le_succ i) hv) (((C100_told ex hc q).1).2 (.inr hq)) hij hj

/-- C100: but the first thread of a process is still seen when the descriptors of the process are closed. -/
theorem C100_first {k : Cfg} (hk : Fits k) {σ : Nat → State} {ε : Nat → Option Ev} (ex : Exec k σ ε) {i p : Nat}
    (hc : ε i = some (.world (.close p))) : (σ i).seg.alive (k.lead p) = true ∧ (σ (i + 1)).seg.alive (k.lead p) = true := by
  have key : ∀ i, (σ i).w.opened p = true ∨ (σ i).w.down p = false → (σ i).seg.alive (k.lead p) = true := by
    intro i
    induction i with
    | zero =>
      obtain ⟨f, f', os, b, m, junk, -, h0⟩ := ex.start
      intro _; rw [h0]; rfl
    | succ i ih =>
      rcases ex.moment i with h | ⟨e, -, h⟩
      · rw [h]; exact ih
      · exact step_lead hk h p ih
  have hn := ex.next i
  rw [hc] at hn
  simp only [step, World.step] at hn
  split at hn
  · rename_i h
    simp only [Bool.and_eq_true] at h
    have := key i (.inl h.2)
    refine ⟨this, ?_⟩
    rw [← Option.some.inj hn]; exact this
  · cases hn

/-- C100: nobody checks without an event: a worker that waits and has no unread event stays so until the segment file is closed by
somebody. -/
theorem C100_silent {k : Cfg} {σ : Nat → State} {ε : Nat → Option Ev} (ex : Exec k σ ε) {q i j : Nat} (hi : Handled (σ i) q)
    (hij : i ≤ j) (hno : ∀ r, i ≤ r → r < j → (∀ p, ε r ≠ some (.world (.close p))) ∧ ε r ≠ some (.world .touch)) :
    Handled (σ j) q := by
  obtain ⟨d, rfl⟩ := Nat.le.dest hij
  clear hij
  induction d with
  | zero => exact hi
  | succ d ih =>
    have ih := ih fun r h1 h2 => hno r h1 (by omega)
    have hn := hno (i + d) (by omega) (by omega)
    show Handled (σ (i + d + 1)) q
    rcases ex.moment (i + d) with h | ⟨e, he, h⟩
    · rw [h]; exact ih
    rw [he] at hn
    refine ⟨?_, ?_⟩
    · rcases step_work h q with g | ⟨g, g'⟩
      · rw [g]; exact ih.1
      · rw [ih.1] at g
        subst g
        simp only [leaves, step, World.step, ih.2, Bool.and_false, Bool.false_eq_true, if_false, Option.map_none, reduceCtorEq] at h
    · cases e <;> simp only [step] at h
      case world e =>
        obtain ⟨w, hw, h⟩ := Option.map_eq_some_iff.1 h
        rw [← h]
        cases e <;> simp only [World.step] at hw <;> (try split at hw) <;>
          simp only [Option.some.injEq, reduceCtorEq] at hw <;> subst hw
        case close => exact absurd rfl (hn.1 _)
        case touch => exact absurd rfl hn.2
        case read => simp only [upd]; split <;> first | rfl | exact ih.2
        all_goals exact ih.2
      case begin =>
        split at h <;> simp only [Option.some.injEq, reduceCtorEq] at h
        rw [← h]; exact ih.2
      case back =>
        split at h <;> simp only [Option.some.injEq, reduceCtorEq] at h
        rw [← h]; exact ih.2
      all_goals
        split at h <;> first | cases h; done | (obtain ⟨x, hx, h⟩ := Option.map_eq_some_iff.1 h; rw [← h]; exact ih.2)

/-- C100: a thread that has ended, by itself or with its process, makes no step any more, and calls nothing. -/
theorem C100_ended {k : Cfg} {σ : Nat → State} {ε : Nat → Option Ev} (ex : Exec k σ ε) {i j t : Nat}
    (hi : ε i = some (.world (.leave t)) ∨ ε i = some (.world (.kill (k.proc t)))) (hij : i < j) {e : Ev} (he : ε j = some e) :
    e.who k ≠ some t := by
  have hmono : ∀ {s s' : State} {e : Ev}, step k s e = some s' → s.w.stop t = true ∨ s.w.down (k.proc t) = true →
      s'.w.stop t = true ∨ s'.w.down (k.proc t) = true := by
    intro s s' e h hs
    cases e <;> simp only [step] at h
    case world e =>
      obtain ⟨w, hw, rfl⟩ := Option.map_eq_some_iff.1 h
      cases e <;> simp only [World.step] at hw <;> (try split at hw) <;>
        simp only [Option.some.injEq, reduceCtorEq] at hw <;> subst hw
      case leave => refine hs.imp_left fun h => ?_; simp only [upd]; split <;> first | rfl | exact h
      case kill => refine hs.imp_right fun h => ?_; simp only [upd]; split <;> first | rfl | exact h
      all_goals exact hs
    case begin => split at h <;> simp only [Option.some.injEq, reduceCtorEq] at h; subst h; exact hs
    case back => split at h <;> simp only [Option.some.injEq, reduceCtorEq] at h; subst h; exact hs
    all_goals
      split at h <;> first | cases h; done | (obtain ⟨x, hx, rfl⟩ := Option.map_eq_some_iff.1 h; exact hs)
  have h1 : (σ (i + 1)).w.stop t = true ∨ (σ (i + 1)).w.down (k.proc t) = true := by
    have hn := ex.next i
    rcases hi with e | e <;> rw [e] at hn <;> simp only [step, World.step] at hn <;> split at hn <;> try cases hn; done
    · rw [← Option.some.inj hn]; left; simp [upd]
    · rw [← Option.some.inj hn]; right; simp [upd]
  have hj : (σ j).w.stop t = true ∨ (σ j).w.down (k.proc t) = true := by
    obtain ⟨d, rfl⟩ := Nat.le.dest hij
    clear hij he
    induction d with
    | zero => exact h1
    | succ d ih =>
      rcases ex.moment (i + 1 + d) with g | ⟨e, -, g⟩
      · rw [show i + 1 + (d + 1) = i + 1 + d + 1 from rfl, g]; exact ih
      · exact hmono g ih
  have hr : (σ j).w.runs k t = false := by rcases hj with h | h <;> simp [World.runs, h]
  have hn := ex.next j
  rw [he] at hn
  intro hw
  cases e with
  | world e => cases e <;> simp [Ev.who] at hw <;> subst hw <;> simp [step, World.step, hr] at hn
  | vanish => simp [Ev.who] at hw
  | _ => simp [Ev.who] at hw; subst hw; simp [step, hr] at hn

/-- C100: when an ended thread is seen no more is not determined: any time after its end, for the first thread of a process after the
process has ended and its descriptors are closed. -/
theorem C100_seen (k : Cfg) (s : State) (t j : Nat) (c : MC.Choice) :
    (step k s (.vanish t c j)).isSome = true ↔ s.seg.alive t = true ∧ (s.w.stop t = true ∨ s.w.down (k.proc t) = true) ∧
      (k.lead (k.proc t) = t → s.w.down (k.proc t) = true ∧ s.w.opened (k.proc t) = false) := by
  simp only [step, MCMem.step, World.runs]
  cases h1 : s.seg.alive t <;> cases h2 : s.w.stop t <;> cases h3 : s.w.down (k.proc t) <;> cases h4 : s.w.opened (k.proc t) <;>
    by_cases h5 : k.lead (k.proc t) = t <;> simp [h5]

/-- C100: what comes before what: only a process that was started calls, and not by its worker's thread; descriptors are closed for
an ended process; a thread leaves /proc after its end. -/
theorem C100_order {k : Cfg} {σ : Nat → State} {ε : Nat → Option Ev} (ex : Exec k σ ε) (i : Nat) :
    (∀ t c, ε i = some (.call t c) → t ≠ k.wk (k.proc t) ∧ ∃ j < i, ε j = some (.world (.start (k.proc t)))) ∧
    (∀ p, ε i = some (.world (.close p)) → (∃ j < i, ε j = some (.world (.start p))) ∧ ∃ j < i, ε j = some (.world (.kill p))) ∧
    (∀ t c n, ε i = some (.vanish t c n) → ∃ j < i, ε j = some (.world (.leave t)) ∨ ε j = some (.world (.kill (k.proc t)))) := by
  have key : ∀ i, (∀ p, (σ i).w.opened p = true → ∃ j < i, ε j = some (.world (.start p))) ∧
      (∀ p, (σ i).w.down p = true → ∃ j < i, ε j = some (.world (.kill p))) ∧
      (∀ t, (σ i).w.stop t = true → ∃ j < i, ε j = some (.world (.leave t))) := by
    intro i
    induction i with
    | zero =>
      obtain ⟨f, f', os, b, m, junk, -, h0⟩ := ex.start
      rw [h0]; simp [Recover.init]
    | succ i ih =>
      obtain ⟨h1, h2, h3⟩ := ih
      have up : ∀ {e : Ev}, (∃ j < i, ε j = some e) → ∃ j < i + 1, ε j = some e := fun ⟨j, hj, h⟩ => ⟨j, by omega, h⟩
      suffices h : (∀ p, (σ (i + 1)).w.opened p = true → (σ i).w.opened p = true ∨ ε i = some (.world (.start p))) ∧
          (∀ p, (σ (i + 1)).w.down p = true → (σ i).w.down p = true ∨ ε i = some (.world (.kill p))) ∧
          (∀ t, (σ (i + 1)).w.stop t = true → (σ i).w.stop t = true ∨ ε i = some (.world (.leave t))) by
        refine ⟨fun p hp => ?_, fun p hp => ?_, fun p hp => ?_⟩
        · rcases h.1 p hp with g | g
          exacts [up (h1 p g), ⟨i, by omega, g⟩]
        · rcases h.2.1 p hp with g | g
          exacts [up (h2 p g), ⟨i, by omega, g⟩]
        · rcases h.2.2 p hp with g | g
          exacts [up (h3 p g), ⟨i, by omega, g⟩]
      rcases ex.moment i with h | ⟨e, he, h⟩
      · rw [h]; exact ⟨fun _ => .inl, fun _ => .inl, fun _ => .inl⟩
      rw [he]
      cases e <;> simp only [step] at h
      case world e =>
        obtain ⟨w, hw, h⟩ := Option.map_eq_some_iff.1 h
        rw [← h]
        cases e <;> simp only [World.step] at hw <;> (try split at hw) <;>
          simp only [Option.some.injEq, reduceCtorEq] at hw <;> subst hw
        case start u _ =>
          refine ⟨fun p hp => ?_, fun _ => .inl, fun _ => .inl⟩
          simp only [upd] at hp; split at hp
          · rename_i e; subst e; exact .inr rfl
          · exact .inl hp
        case kill u _ =>
          refine ⟨fun _ => .inl, fun p hp => ?_, fun _ => .inl⟩
          simp only [upd] at hp; split at hp
          · rename_i e; subst e; exact .inr rfl
          · exact .inl hp
        case leave u _ =>
          refine ⟨fun _ => .inl, fun _ => .inl, fun p hp => ?_⟩
          simp only [upd] at hp; split at hp
          · rename_i e; subst e; exact .inr rfl
          · exact .inl hp
        case close u _ =>
          refine ⟨fun p hp => ?_, fun _ => .inl, fun _ => .inl⟩
          simp only [upd] at hp; split at hp
          · cases hp
          · exact .inl hp
        all_goals exact ⟨fun _ => .inl, fun _ => .inl, fun _ => .inl⟩
      case begin =>
        split at h <;> simp only [Option.some.injEq, reduceCtorEq] at h
        rw [← h]; exact ⟨fun _ => .inl, fun _ => .inl, fun _ => .inl⟩
      case back =>
        split at h <;> simp only [Option.some.injEq, reduceCtorEq] at h
        rw [← h]; exact ⟨fun _ => .inl, fun _ => .inl, fun _ => .inl⟩
      all_goals
        split at h <;> first | cases h; done | (obtain ⟨x, hx, h⟩ := Option.map_eq_some_iff.1 h; rw [← h]; exact ⟨fun _ => .inl, fun _ => .inl, fun _ => .inl⟩)
  obtain ⟨h1, h2, h3⟩ := key i
  have hn := ex.next i
  refine ⟨fun t c he => ?_, fun p he => ?_, fun t c n he => ?_⟩ <;> rw [he] at hn <;> simp only [step, World.step] at hn <;>
    split at hn <;> (try cases hn; done)
  · rename_i hc
    simp only [Bool.and_eq_true, decide_eq_true_eq] at hc
    exact ⟨Ne.symm hc.2, h1 _ hc.1.2⟩
  · rename_i hc
    simp only [Bool.and_eq_true] at hc
    exact ⟨h1 p hc.2, h2 p hc.1⟩
  · rename_i hc
    have hr : (σ i).w.stop t = true ∨ (σ i).w.down (k.proc t) = true := by
      cases h4 : (σ i).w.stop t <;> cases h5 : (σ i).w.down (k.proc t) <;> simp [World.runs, h4, h5] at hc ⊢
    rcases hr with g | g
    · obtain ⟨j, hj, g⟩ := h3 t g; exact ⟨j, hj, .inl g⟩
    · obtain ⟨j, hj, g⟩ := h2 _ g; exact ⟨j, hj, .inr g⟩

/-! ### Cases -/

/-- Process `p` has the threads `10 p`, ..., `10 p + 9`, of which the first is its first thread and the last its worker. -/
def k100 : Cfg := { cnt := cnt96, fuel := 5, base := base71, proc := fun t => t / 10, lead := fun p => 10 * p, wk := fun p => 10 * p + 9 }

theorem fits100 : Fits k100 := ⟨fun p => by simp only [k100]; omega, fun p => by simp only [k100]; omega⟩

def s100 : State := Recover.init seg96 junk96

/-- The state at moment `i`. -/
def st100 (es : List Recover.Ev) (i : Nat) : State := (Recover.run k100 s100 (es.take i)).getD s100

theorem run100_append (l l' : List Recover.Ev) (x : State) :
    Recover.run k100 x (l ++ l') = (Recover.run k100 x l).bind (Recover.run k100 · l') := by
  induction l generalizing x with
  | nil => rfl
  | cons e l ih => simp only [List.cons_append, Recover.run, Option.bind_assoc]; congr 1; funext y; exact ih y

theorem exec100 {es : List Recover.Ev} (h : (Recover.run k100 s100 es).isSome = true) : Exec k100 (st100 es) fun i => es[i]? := by
  obtain ⟨f', hf⟩ := seg96_ok
  refine ⟨⟨_, f', _, _, seg96, junk96, hf, rfl⟩, fun i => ?_⟩
  have hpre : ∀ n, ∃ x, Recover.run k100 s100 (es.take n) = some x := by
    intro n
    rw [← List.take_append_drop n es, run100_append] at h
    cases hx : Recover.run k100 s100 (es.take n) with
    | none => rw [hx] at h; cases h
    | some x => exact ⟨x, rfl⟩
  cases he : es[i]? with
  | none =>
    have : es.length ≤ i := List.getElem?_eq_none_iff.1 he
    simp only [st100, List.take_of_length_le this, List.take_of_length_le (Nat.le_succ_of_le this)]
  | some e =>
    obtain ⟨x, hx⟩ := hpre i
    obtain ⟨y, hy⟩ := hpre (i + 1)
    have e1 : es.take (i + 1) = es.take i ++ [e] := by rw [List.take_add_one, he]; rfl
    simp only [st100, hx, hy, Option.getD_some]
    rw [e1, run100_append, hx] at hy
    simpa [Recover.run] using hy

def alone100 (t n : Nat) : List Recover.Ev := List.replicate n (.go t .go)

/-- The first thread of process 1 owns the mutex 7. -/
def own100 : List Recover.Ev :=
  [.world (.start 1), .world (.start 2), .world (.watch 2), .call 10 (.lock 7 .block)] ++ alone100 10 8

/-- The worker of 2 reads and checks. -/
def chk100 (n : Nat) : List Recover.Ev :=
  [.world (.read 2), .begin 2, .mtxs 2] ++ alone100 29 n ++ [.conds 2] ++ alone100 29 4 ++ [.back 2]

/-- Process 1 is killed; its descriptors are closed; the worker of 2 checks; then the thread is seen no more. -/
def race100 : List Recover.Ev := own100 ++ [.world (.kill 1), .world (.close 1)] ++ chk100 6 ++ [.vanish 10 .go 0]

theorem off100 {k : Cfg} {q : Nat} : ∀ {es : List Recover.Ev} {x y : State}, Recover.run k x es = some y → x.w.work q = .off →
    .world (.watch q) ∉ es → y.w.work q = .off
  | [], x, y, h, hx, _ => by rw [← Option.some.inj h]; exact hx
  | e :: es, x, y, h, hx, hn => by
    simp only [Recover.run] at h
    obtain ⟨z, hz, h⟩ := Option.bind_eq_some_iff.1 h
    simp only [List.mem_cons, not_or] at hn
    refine off100 h ?_ hn.2
    rcases step_work hz q with g | ⟨g, -⟩
    · rw [g]; exact hx
    · rw [hx] at g; exact absurd g.symm hn.1

/-- C100 as stated is false: the worker is told when the descriptors are closed, the thread is still seen then, and nobody is told
when it is seen no more. -/
theorem C100_not_full : ¬ C100_full := by
  intro h
  have e : (Recover.run k100 s100 race100).isSome = true := by decide +kernel
  have e' : (Recover.run k100 s100 race100).map (fun s => decide (s.seg.alive 10 = false) && (s.w.watches 2 &&
      (decide (s.w.work 2 = .wait) && (!s.w.queue 2 &&
      (decide (0 ∈ MCMem.listed cnt96 4096 5 s.seg.mem .mtxs) && decide (s.seg.mem.mval 0 = 10)))))) = some true := by decide +kernel
  obtain ⟨s, hs, hd⟩ := Option.map_eq_some_iff.1 e'
  simp only [Bool.and_eq_true, decide_eq_true_eq, Bool.not_eq_true'] at hd
  obtain ⟨h1, h2, h3, h4, h5, h6⟩ := hd
  have hst : st100 race100 race100.length = s := by simp [st100, hs]
  have := (h k100 fits100 limits96 fuel96 _ _ (exec100 e) race100.length 10 (by omega) (by rw [hst]; exact h1)
    ⟨2, by rw [hst]; exact h2⟩ (by
      rw [hst]
      intro q hq
      by_cases e2 : q = 2
      · subst e2; exact ⟨h3, h4⟩
      · have : s.w.work q = .off := off100 hs rfl (by
          intro hm
          have : ∀ e ∈ race100, ∀ q, e = .world (.watch q) → q = 2 := by
            have hb : race100.all (fun e => match e with | .world (.watch q) => decide (q = 2) | _ => true) = true := by decide +kernel
            intro e he q h
            have := List.all_eq_true.1 hb e he
            subst h
            simpa using this
          exact e2 (this _ hm q rfl))
        simp [World.watches, this] at hq)).1
  rw [hst] at this
  exact this 4096 0 h5 h6

/-- As `race100`, but the thread is seen no more while the worker checks. -/
def mid100 : List Recover.Ev := own100 ++ [.world (.kill 1), .world (.close 1), .world (.read 2), .begin 2, .vanish 10 .go 0, .mtxs 2] ++
  alone100 29 3 ++ [.go 29 .spur] ++ alone100 29 2 ++ [.conds 2] ++ alone100 29 4 ++ [.back 2]

/-- C100: an answer may be older than the question: the thread is seen no more before the worker comes to the mutexes, and its mutex
stays, because it was seen when the check began. -/
theorem C100_old : ∃ σ ε, Exec k100 σ ε ∧ ε 16 = some (.vanish 10 .go 0) ∧ ε 17 = some (.mtxs 2) ∧ (σ 30).seg.alive 10 = false ∧
    Handled (σ 30) 2 ∧ (σ 30).seg.mem.mval 0 = 10 := by
  have e : (Recover.run k100 s100 mid100).isSome = true := by decide +kernel
  have hd : (decide (mid100[16]? = some (.vanish 10 .go 0)) && (decide (mid100[17]? = some (.mtxs 2)) &&
      (decide ((st100 mid100 30).seg.alive 10 = false) && (decide ((st100 mid100 30).w.work 2 = .wait) &&
      (!(st100 mid100 30).w.queue 2 && decide ((st100 mid100 30).seg.mem.mval 0 = 10)))))) = true := by
    decide +kernel
  simp only [Bool.and_eq_true, decide_eq_true_eq, Bool.not_eq_true'] at hd
  obtain ⟨h1, h2, h3, h4, h5, h6⟩ := hd
  exact ⟨_, _, exec100 e, h1, h2, h3, ⟨h4, h5⟩, h6⟩

/-- Non-vacuity of `C100_ended` and `C100_order`: process 1 is killed, others go on. -/
example : ∃ σ ε, Exec k100 σ ε ∧ ε 3 = some (.call 10 (.lock 7 .block)) ∧ ε 12 = some (.world (.kill 1)) ∧
    ε 13 = some (.world (.close 1)) ∧ ε 15 = some (.begin 2) ∧ ε 16 = some (.vanish 10 .go 0) := by
  have e : (Recover.run k100 s100 mid100).isSome = true := by decide +kernel
  exact ⟨_, _, exec100 e, by decide +kernel, by decide +kernel, by decide +kernel, by decide +kernel, by decide +kernel⟩

/-- As `race100`, but the thread is seen no more before the worker begins. -/
def late100 : List Recover.Ev := own100 ++ [.world (.kill 1), .world (.close 1), .vanish 10 .go 0] ++ chk100 10

/-- Non-vacuity of `C100_check_partial` and `C100_event_partial`. -/
example : ∃ σ ε, Exec k100 σ ε ∧ (σ 15).seg.alive 10 = false ∧ (σ 15).seg.mem.mval 0 = 10 ∧ 0 ∈ MCMem.listed cnt96 4096 5 (σ 15).seg.mem .mtxs ∧
    (σ 15).w.queue 2 = true ∧ ε 16 = some (.begin 2) ∧ Handled (σ 34) 2 ∧
    (∀ j', 34 ≤ j' → NoneOwned cnt96 5 (σ j').seg 10 ∧ NoneWaits cnt96 5 (σ j').seg 10) := by
  have e : (Recover.run k100 s100 late100).isSome = true := by decide +kernel
  have ex := exec100 e
  have hd : (decide ((st100 late100 15).seg.alive 10 = false) && (decide ((st100 late100 15).seg.mem.mval 0 = 10) &&
      (decide (0 ∈ MCMem.listed cnt96 4096 5 (st100 late100 15).seg.mem .mtxs) && ((st100 late100 15).w.queue 2 &&
      (decide (late100[16]? = some (.begin 2)) && (decide ((st100 late100 34).w.work 2 = .wait) && !(st100 late100 34).w.queue 2)))))) = true := by
    decide +kernel
  simp only [Bool.and_eq_true, decide_eq_true_eq, Bool.not_eq_true'] at hd
  obtain ⟨h1, h2, h3, h4, h5, h6, h7⟩ := hd
  exact ⟨_, _, ex, h1, h2, h3, h4, h5, ⟨h6, h7⟩, C100_event_partial fits100 limits96 fuel96 ex (by omega) h1 h4 (by omega) ⟨h6, h7⟩⟩

/-- A second thread of process 1 owns the mutex 7; the process is killed; that thread is seen no more when the descriptors are closed. -/
def second100 : List Recover.Ev :=
  [.world (.start 1), .world (.start 2), .world (.watch 2), .call 11 (.lock 7 .block)] ++ alone100 11 8 ++
    [.world (.kill 1), .vanish 11 .go 0, .world (.close 1)] ++ chk100 10

/-- Non-vacuity of `C100_close_partial`, `C100_told` and `C100_first`. -/
example : ∃ σ ε, Exec k100 σ ε ∧ ε 14 = some (.world (.close 1)) ∧ (σ 14).seg.alive 11 = false ∧ (σ 14).seg.mem.mval 0 = 11 ∧
    (σ 14).w.watches 2 = true ∧ (σ 15).seg.alive 10 = true ∧ Handled (σ 34) 2 ∧
    (∀ j', 34 ≤ j' → NoneOwned cnt96 5 (σ j').seg 11 ∧ NoneWaits cnt96 5 (σ j').seg 11) := by
  have e : (Recover.run k100 s100 second100).isSome = true := by decide +kernel
  have ex := exec100 e
  have hd : (decide (second100[14]? = some (.world (.close 1))) && (decide ((st100 second100 14).seg.alive 11 = false) &&
      (decide ((st100 second100 14).seg.mem.mval 0 = 11) && ((st100 second100 14).w.watches 2 &&
      (decide ((st100 second100 34).w.work 2 = .wait) && !(st100 second100 34).w.queue 2))))) = true := by
    decide +kernel
  simp only [Bool.and_eq_true, decide_eq_true_eq, Bool.not_eq_true'] at hd
  obtain ⟨h1, h2, h3, h4, h5, h6⟩ := hd
  exact ⟨_, _, ex, h1, h2, h3, h4, (C100_first fits100 ex h1).2, ⟨h5, h6⟩,
    C100_close_partial fits100 limits96 fuel96 ex (by omega) (.inl ⟨1, h1⟩) h2 h4 (by omega) ⟨h5, h6⟩⟩

/-- As `race100`; then a third process starts and asks for the mutex 7 once, and anybody closes the file. -/
def again100 : List Recover.Ev := race100 ++ [.world (.start 3), .call 30 (.lock 7 .try_)] ++ alone100 30 5 ++
  [.world .touch] ++ chk100 10

/-- Non-vacuity of `C100_silent`: the mutex stays the dead thread's until somebody closes the file. -/
example : ∃ σ ε, Exec k100 σ ε ∧ Handled (σ 29) 2 ∧ Handled (σ 37) 2 ∧ (σ 37).seg.alive 10 = false ∧ (σ 37).seg.mem.mval 0 = 10 ∧
    (σ 37).seg.pc 30 = .done Fullock.MC.EBUSY ∧ ε 37 = some (.world .touch) ∧
    (∀ j', 57 ≤ j' → NoneOwned cnt96 5 (σ j').seg 10 ∧ NoneWaits cnt96 5 (σ j').seg 10) := by
  have e : (Recover.run k100 s100 again100).isSome = true := by decide +kernel
  have ex := exec100 e
  have hd : (decide ((st100 again100 29).w.work 2 = .wait) && (!(st100 again100 29).w.queue 2 &&
      (decide ((st100 again100 37).seg.alive 10 = false) && (decide ((st100 again100 37).seg.mem.mval 0 = 10) &&
      (decide ((st100 again100 37).seg.pc 30 = .done Fullock.MC.EBUSY) && (decide (again100[37]? = some (.world .touch)) &&
      ((st100 again100 37).w.watches 2 &&
      (decide ((st100 again100 57).w.work 2 = .wait) && !(st100 again100 57).w.queue 2)))))))) = true := by
    decide +kernel
  have hno : ∀ r < 37, 29 ≤ r → (match again100[r]? with
      | some (.world (.close _)) => false
      | some (.world .touch) => false
      | _ => true) = true := by decide +kernel
  simp only [Bool.and_eq_true, decide_eq_true_eq, Bool.not_eq_true'] at hd
  obtain ⟨h1, h2, h3, h4, h5, h6, h7, h8, h9⟩ := hd
  refine ⟨_, _, ex, ⟨h1, h2⟩, C100_silent ex ⟨h1, h2⟩ (by omega) fun r g1 g2 => ?_, h3, h4, h5, h6,
    C100_close_partial fits100 limits96 fuel96 ex (by omega) (.inr h6) h3 h7 (by omega) ⟨h8, h9⟩⟩
  have := hno r g2 g1
  refine ⟨fun p hp => ?_, fun hp => ?_⟩ <;> rw [hp] at this <;> cases this

end Fullock.Props
