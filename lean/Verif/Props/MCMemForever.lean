import Verif.Proofs.MCMemFollow
import Verif.Props.MCForeverDead
/-! C96: calls of the mutexes and conditions in the cells of the segment return although threads are killed, even between two
writes. Nothing is assumed about the loops over the references. -/
namespace Fullock.Props
open Fullock Fullock.Layout Fullock.MCMem
open Fullock.MC (upd)

section back
variable {cnt : Pool → Nat} {fuel : Nat} {base : Nat → Nat} {σ : Nat → State} {ε : Nat → Option Ev} {T : Nat → Tab}
  {s s1 : Nat → MC.State} {e1 e2 : Nat → Option MC.Ev}

theorem fol_done (F : Fol cnt base σ ε T s s1 e1 e2) {t k r : Nat} (ha : ∀ j, (σ j).alive t = true)
    (h : (dbl s s1 k).pc t = .done r) : ∃ j, k ≤ 2 * j ∧ 2 * j ≤ k + 1 ∧ (σ j).pc t = .done r ∧ (s j).mem = (dbl s s1 k).mem := by
  have key : ∀ j, (s j).pc t = .done r → (σ j).pc t = .done r := fun j hj =>
    pcr_done (by have := F.pcr (i := j) (t := t) (by rw [← F.alive]; exact ha j); rwa [hj] at this)
  rcases two_cases k with ⟨j, rfl⟩ | ⟨j, rfl⟩
  · rw [dbl_even] at h ⊢; exact ⟨j, by omega, by omega, key j h, rfl⟩
  · rw [dbl_odd] at h ⊢
    rw [← (F.half j).2.1] at h
    exact ⟨j + 1, by omega, by omega, key _ h, (F.half j).1⟩

theorem fol_unwoken (F : Fol cnt base σ ε T s s1 e1 e2) (ex : Exec cnt fuel base okDie σ ε) {t n : Nat}
    (ha : ∀ j, (σ j).alive t = true) (h : MC.Unwoken (dbl s s1) t n) : Unwoken σ t n := by
  obtain ⟨nc, w, nm, h⟩ := h
  have ha : ∀ j, (s j).alive t = true := fun j => by rw [← F.alive]; exact ha j
  have hq : ∀ j, n ≤ j → ∃ c m, (σ j).pc t = .wSpin c w m .block ∧ (σ j).mem.wup w = false := by
    intro j hj
    obtain ⟨h1, h2⟩ := h (2 * j) (by omega)
    rw [dbl_even] at h1 h2
    have hq := F.pcr (ha j)
    rw [h1] at hq
    rw [(F.sim j).dat.wu] at h2
    cases hpc : (σ j).pc t <;> rw [hpc] at hq <;>
      simp only [PcR, reduceCtorEq, and_false, false_and, exists_false, exists_const] at hq
    obtain ⟨-, -, hq⟩ := hq
    cases hq
    exact ⟨_, _, rfl, h2⟩
  obtain ⟨c, m, h0, -⟩ := hq n (Nat.le_refl _)
  have hpc : ∀ d, (σ (n + d)).pc t = .wSpin c w m .block := by
    intro d
    induction d with
    | zero => exact h0
    | succ d ih =>
      rw [← Nat.add_assoc]
      obtain ⟨-, -, -, hup⟩ := hq (n + d) (by omega)
      obtain ⟨c', m', h', -⟩ := hq (n + d + 1) (by omega)
      cases he : ε (n + d) with
      | none => rw [(F.idle _ he).1]; exact ih
      | some e =>
        by_cases hu : actor e = t
        · rcases F.own ex (ha _) he hu with ⟨ch, rfl⟩ | ⟨ch, r, -, g1, -⟩
          · obtain ⟨-, -, -, ⟨ws, x', hp⟩, -⟩ := F.going ex he
            rw [ih] at hp
            cases ch <;> simp only [plan, plain, hup, reduceCtorEq, Bool.false_eq_true, if_false, Option.some.injEq, Prod.mk.injEq,
              ne_eq, not_true, false_and] at hp
            exact hp.2.2.symm
          · rw [ih] at g1; cases g1
        · rw [(F.other ex (ha _) he hu).1]; exact ih
  refine ⟨c, w, m, fun j hj => ?_⟩
  obtain ⟨d, rfl⟩ := Nat.le.dest hj
  obtain ⟨-, -, -, hup⟩ := hq (n + d) (by omega)
  exact ⟨hpc d, hup⟩

end back

/-- C96: every check of dead owners or dead waiters ends, unless its thread is killed, however the other threads write the
references meanwhile and wherever threads have been killed. -/
theorem C96_checks (cnt : Pool → Nat) (hl : Limits cnt) (fuel : Nat) (hfu : Fuel cnt fuel) (base : Nat → Nat) (σ : Nat → State)
    (ε : Nat → Option Ev) (ex : Exec cnt fuel base okDie σ ε) (hf : Fair cnt fuel base σ ε) (t i : Nat) :
    ∃ j, i ≤ j ∧ (checking ((σ j).pc t) = false ∨ (σ j).alive t = false) := by
  obtain ⟨hw, -⟩ := noWrap_of_limits cnt hl
  obtain ⟨T, s, s1, e1, e2, F⟩ := follows hl hfu ex
  refine Classical.byContradiction fun hno => F.checks hw hfu ex hf (t := t) (i := i) fun j hj => ⟨?_, ?_⟩ <;>
    refine Classical.byContradiction fun h => hno ⟨j, hj, ?_⟩
  · rw [← F.alive] at h; exact .inr (by simpa using h)
  · exact .inl (by simpa using h)

/-- C96 as stated: threads may be killed anywhere; the scheduler is fair, the mutexes of the threads that live are released, the
calls end, time passes, dead threads are known to be dead. Then a thread that is not killed returns from its call, or waits for a
condition, without limit, and is never woken. -/
def C96_full : Prop :=
  ∀ cnt, Limits cnt → ∀ fuel, Fuel cnt fuel → ∀ base σ ε, Exec cnt fuel base okDie σ ε → Fair cnt fuel base σ ε →
    Released cnt fuel base σ → CallsEnd ε → Timely σ ε → SeenDead ε →
    ∀ t i, ReturnsAfter σ t i ∨ Dies σ t ∨ ∃ n, i ≤ n ∧ Unwoken σ t n

/-- C96 (partial): so it is in the robust mode HIGH, in which a thread that tries for ever checks for dead owners
(`Patient`). Missing: the other robust modes (`C96_not_full`). -/
theorem C96_returns_partial (cnt : Pool → Nat) (hl : Limits cnt) (fuel : Nat) (hfu : Fuel cnt fuel) (base : Nat → Nat)
    (σ : Nat → State) (ε : Nat → Option Ev) (ex : Exec cnt fuel base okDie σ ε) (hf : Fair cnt fuel base σ ε)
    (hre : Released cnt fuel base σ) (hce : CallsEnd ε) (hpa : Patient σ ε) (hti : Timely σ ε) (hsd : SeenDead ε) (t i : Nat) :
    ReturnsAfter σ t i ∨ Dies σ t ∨ ∃ n, i ≤ n ∧ Unwoken σ t n := by
  obtain ⟨hw, -⟩ := noWrap_of_limits cnt hl
  obtain ⟨T, s, s1, e1, e2, F⟩ := follows hl hfu ex
  refine Classical.byContradiction fun hno => ?_
  rw [not_or, not_or] at hno
  have ha : ∀ j, (σ j).alive t = true := fun j => by
    cases e : (σ j).alive t with
    | true => rfl
    | false => exact absurd ⟨j, e⟩ hno.2.1
  rcases C95_returns_partial _ _ (F.exec ex) (F.fair hw hfu ex hf) (F.released hw hfu ex hre) (F.calls hce)
    (F.checksEnd hw hfu ex hf) (F.thorough hw ex) (F.patient hpa) (F.timely hti) (F.seen hsd) t (2 * i) with
    ⟨k, hk, r, h⟩ | ⟨k, h⟩ | ⟨n, hn, h⟩
  · obtain ⟨j, h1, -, h2, -⟩ := fol_done F ha h
    exact hno.1 ⟨j, by omega, r, h2⟩
  · have := MC.Dead.dead_on (F.exec ex) (show k ≤ 2 * k from by omega) h
    rw [dbl_even, ← F.alive, ha] at this; cases this
  · exact hno.2.2 ⟨n, by omega, fol_unwoken F ex ha h⟩

/-- C96 (partial as above): a call other than a wait without limit returns if its thread is not killed. -/
theorem C96_calls_partial (cnt : Pool → Nat) (hl : Limits cnt) (fuel : Nat) (hfu : Fuel cnt fuel) (base : Nat → Nat)
    (σ : Nat → State) (ε : Nat → Option Ev) (ex : Exec cnt fuel base okDie σ ε) (hf : Fair cnt fuel base σ ε)
    (hre : Released cnt fuel base σ) (hce : CallsEnd ε) (hpa : Patient σ ε) (hti : Timely σ ε) (hsd : SeenDead ε) (t i : Nat)
    (c : MC.Call) (hc : ε i = some (.call t c)) (hl' : ∀ n m, c ≠ .wait n m .block) (ha : ∀ j, (σ j).alive t = true) :
    ReturnsAfter σ t (i + 1) := by
  obtain ⟨hw, -⟩ := noWrap_of_limits cnt hl
  obtain ⟨T, s, s1, e1, e2, F⟩ := follows hl hfu ex
  have hlast : (s (i + 1)).last t = c := by
    have := (F.two i _ hc).1
    generalize s (i + 1) = s' at this ⊢
    generalize e2 i = f2 at this
    generalize s1 i = s1' at this
    generalize e1 i = f1 at this
    generalize T (i + 1) = T' at this
    cases this with
    | call h =>
      simp only [MC.step] at h
      split at h
      · cases h
      · split at h
        · rw [← Option.some.inj h]; simp
        · cases h
  obtain ⟨k, hk, r, h⟩ := C95_calls_partial _ _ (F.exec ex) (F.fair hw hfu ex hf) (F.released hw hfu ex hre) (F.calls hce)
    (F.checksEnd hw hfu ex hf) (F.thorough hw ex) (F.patient hpa) (F.timely hti) (F.seen hsd) t (2 * (i + 1))
    (by rw [dbl_even, hlast]; exact hl') (fun k => by
      have := MC.Dead.alive_back (F.exec ex) (t := t) (show k ≤ 2 * k from by omega)
      rw [dbl_even] at this
      exact this (by rw [← F.alive]; exact ha k))
  obtain ⟨j, h1, -, h2, -⟩ := fol_done F ha h
  exact ⟨j, by omega, r, h2⟩

/-- C96 (partial as above): a thread that tries to take a mutex in a lock call without limit obtains it if it is not killed, even
if the owner of the mutex is: the call returns 0 and the thread owns the mutex. -/
theorem C96_granted_partial (cnt : Pool → Nat) (hl : Limits cnt) (fuel : Nat) (hfu : Fuel cnt fuel) (base : Nat → Nat)
    (σ : Nat → State) (ε : Nat → Option Ev) (ex : Exec cnt fuel base okDie σ ε) (hf : Fair cnt fuel base σ ε)
    (hre : Released cnt fuel base σ) (hce : CallsEnd ε) (hpa : Patient σ ε) (hti : Timely σ ε) (hsd : SeenDead ε) (t i n : Nat)
    (hwl : waitsLock (σ i).mem n ((σ i).pc t)) (ha : ∀ j, (σ j).alive t = true) :
    ∃ j, i ≤ j ∧ (σ j).pc t = .done 0 ∧ Owns cnt fuel (base t) (σ j) n t := by
  obtain ⟨hw, -⟩ := noWrap_of_limits cnt hl
  obtain ⟨T, s, s1, e1, e2, F⟩ := follows hl hfu ex
  have hq := F.pcr (i := i) (t := t) (by rw [← F.alive]; exact ha i)
  have hwl' : MC.waitsLock n ((s i).pc t) := by
    cases hp : (σ i).pc t <;> rw [hp] at hq hwl <;> simp only [waitsLock] at hwl <;> simp only [PcR] at hq <;>
      · obtain ⟨rfl, rfl, rfl⟩ := hwl
        rw [hq.2.2]; exact ⟨rfl, rfl, rfl⟩
  have t0 : t ≠ 0 := by
    rintro rfl
    rw [(F.inv ex i).base.zero] at hwl'; exact hwl'
  obtain ⟨k, hk, h, hd⟩ := C95_granted_partial _ _ (F.exec ex) (F.fair hw hfu ex hf) (F.released hw hfu ex hre) (F.calls hce)
    (F.checksEnd hw hfu ex hf) (F.thorough hw ex) (F.patient hpa) (F.timely hti) (F.seen hsd) t (2 * i) n
    (by rw [dbl_even]; exact hwl') (fun k => by
      have := MC.Dead.alive_back (F.exec ex) (t := t) (show k ≤ 2 * k from by omega)
      rw [dbl_even] at this
      exact this (by rw [← F.alive]; exact ha k))
  obtain ⟨j, h1, -, h2, h3⟩ := fol_done F ha h
  refine ⟨j, by omega, h2, (owns_of hw hfu (F.sim j) (base t) n t).2 ⟨t0, by rw [← F.alive]; exact ha j, ?_⟩⟩
  rw [h3]; exact hd

/-! ### Concrete executions: events `es`, then `lp` again and again -/

/-- What has happened before moment `i`. -/
def pre96 (es lp : List Ev) (i : Nat) : List Ev :=
  if i < es.length then es.take i else es ++ lp.take ((i - es.length) % lp.length)
/-- The event of moment `i`. -/
def ev96 (es lp : List Ev) (i : Nat) : Option Ev :=
  if i < es.length then es[i]? else lp[(i - es.length) % lp.length]?
/-- The state at moment `i`. -/
def st96 (cnt : Pool → Nat) (base : Nat → Nat) (s0 : State) (es lp : List Ev) (i : Nat) : State :=
  (run cnt 5 base s0 (pre96 es lp i)).getD s0

section lasso
variable {cnt : Pool → Nat} {base : Nat → Nat} {s0 s : State} {es lp : List Ev}

theorem run96_append (l l' : List Ev) (x : State) :
    run cnt 5 base x (l ++ l') = (run cnt 5 base x l).bind (run cnt 5 base · l') := by
  induction l generalizing x with
  | nil => rfl
  | cons e l ih =>
    simp only [List.cons_append, run]
    cases step cnt 5 base x e with
    | none => rfl
    | some y => exact ih y

theorem run96_pre (l l' : List Ev) {x y : State} (h : run cnt 5 base x (l ++ l') = some y) :
    ∃ z, run cnt 5 base x l = some z ∧ run cnt 5 base z l' = some y := by
  rw [run96_append] at h
  exact Option.bind_eq_some_iff.1 h

theorem next96 (hr : run cnt 5 base s0 es = some s) (hc : run cnt 5 base s lp = some s) (i : Nat) :
    match ev96 es lp i with
    | none => st96 cnt base s0 es lp (i + 1) = st96 cnt base s0 es lp i
    | some e => step cnt 5 base (st96 cnt base s0 es lp i) e = some (st96 cnt base s0 es lp (i + 1)) := by
  have key : ∀ l e l' y, run cnt 5 base s0 (l ++ e :: l') = some y →
      step cnt 5 base ((run cnt 5 base s0 l).getD s0) e = some ((run cnt 5 base s0 (l ++ [e])).getD s0) := by
    intro l e l' y h
    obtain ⟨z, h1, h2⟩ := run96_pre _ _ h
    obtain ⟨z', h3, h4⟩ := Option.bind_eq_some_iff.1 h2
    rw [run96_append, h1]
    show step cnt 5 base z e = some (((run cnt 5 base z [e])).getD s0)
    simp only [run, h3]; rfl
  by_cases hi : i < es.length
  · have e1 : ev96 es lp i = some es[i] := by simp [ev96, hi]
    rw [e1]
    have e2 : es.take i ++ es[i] :: es.drop (i + 1) = es := by simp
    have e3 : pre96 es lp (i + 1) = es.take i ++ [es[i]] := by
      unfold pre96
      split
      · simp
      · have : i + 1 = es.length := by omega
        rw [this, Nat.sub_self, Nat.zero_mod, List.take_zero, List.append_nil, List.take_append_getElem, this, List.take_length]
    have := key (es.take i) es[i] (es.drop (i + 1)) s (by rw [e2]; exact hr)
    unfold st96
    rw [e3, pre96, if_pos hi]
    exact this
  · by_cases hp : lp = []
    · subst hp
      simp [ev96, hi, st96, pre96, show ¬ i + 1 < es.length from by omega]
    · have hp : 0 < lp.length := List.length_pos_iff.2 hp
      have hm := Nat.mod_lt (i - es.length) hp
      have e1 : ev96 es lp i = some lp[(i - es.length) % lp.length] := by simp [ev96, hi, hm]
      rw [e1]
      generalize hk : (i - es.length) % lp.length = k at hm
      have e2 : es ++ lp.take k ++ lp[k] :: lp.drop (k + 1) = es ++ lp := by simp
      have hall : run cnt 5 base s0 (es ++ lp) = some s := by rw [run96_append, hr]; exact hc
      have := key _ _ _ s (by rw [e2]; exact hall)
      have e3 : (run cnt 5 base s0 (pre96 es lp (i + 1))) = run cnt 5 base s0 (es ++ lp.take k ++ [lp[k]]) := by
        unfold pre96
        rw [if_neg (by omega), show i + 1 - es.length = (i - es.length) + 1 from by omega, Nat.add_mod, hk, List.append_assoc,
          List.take_append_getElem]
        by_cases h1 : k + 1 = lp.length
        · by_cases h2 : lp.length = 1
          · rw [h2, Nat.mod_one, List.take_zero, List.append_nil, hr, h1, List.take_length, hall]
          · rw [Nat.mod_eq_of_lt (show 1 < lp.length from by omega), h1, Nat.mod_self, List.take_zero, List.append_nil, hr,
              List.take_length, hall]
        · rw [Nat.mod_eq_of_lt (show 1 < lp.length from by omega), Nat.mod_eq_of_lt (show k + 1 < lp.length from by omega)]
      unfold st96
      rw [e3, pre96, if_neg hi, hk]
      exact this

/-- Threads that do nothing. -/
theorem idle96 {l : List Ev} {x y : State} (h : run cnt 5 base x l = some y) {t : Nat} (ht : t ∉ l.map actor) :
    y.pc t = x.pc t ∧ y.alive t = x.alive t := by
  induction l generalizing x with
  | nil => cases h; exact ⟨rfl, rfl⟩
  | cons e l ih =>
    obtain ⟨z, h1, h2⟩ := Option.bind_eq_some_iff.1 h
    simp only [List.map_cons, List.mem_cons, not_or] at ht
    obtain ⟨g1, g2⟩ := ih h2 ht.2
    rw [g1, g2]
    have hu := ht.1
    cases e with
    | go u c =>
      simp only [step] at h1
      split at h1
      · cases h1
      · obtain ⟨r, -, hr⟩ := Option.map_eq_some_iff.1 h1
        rw [← hr]; exact ⟨MC.upd_ne _ _ hu, rfl⟩
    | die u c j =>
      simp only [step] at h1
      split at h1
      · cases h1
      · rw [← Option.some.inj h1]; exact ⟨rfl, MC.upd_ne _ _ hu⟩
    | call u c =>
      simp only [step] at h1
      split at h1
      · cases h1
      · split at h1
        · rw [← Option.some.inj h1]; exact ⟨MC.upd_ne _ _ hu, rfl⟩
        · cases h1

theorem at96 (hr : run cnt 5 base s0 es = some s) (hc : run cnt 5 base s lp = some s) (i : Nat) :
    run cnt 5 base s0 (pre96 es lp i) = some (st96 cnt base s0 es lp i) := by
  have : ∃ l, es ++ lp = pre96 es lp i ++ l := by
    unfold pre96
    split
    · exact ⟨es.drop i ++ lp, by simp [← List.append_assoc]⟩
    · exact ⟨lp.drop ((i - es.length) % lp.length), by simp⟩
  obtain ⟨l, e⟩ := this
  have hall : run cnt 5 base s0 (es ++ lp) = some s := by rw [run96_append, hr]; exact hc
  rw [e] at hall
  obtain ⟨z, h1, -⟩ := run96_pre _ _ hall
  rw [st96, h1]; rfl

theorem late96 (hr : run cnt 5 base s0 es = some s) (hc : run cnt 5 base s lp = some s) {i : Nat} (hi : es.length ≤ i) :
    ∃ k, (k < lp.length ∨ lp = []) ∧ run cnt 5 base s (lp.take k) = some (st96 cnt base s0 es lp i) := by
  have h := at96 hr hc i
  rw [pre96, if_neg (by omega), run96_append, hr] at h
  refine ⟨_, ?_, h⟩
  by_cases hp : lp = []
  · exact .inr hp
  · exact .inl (Nat.mod_lt _ (List.length_pos_iff.2 hp))

end lasso

/-- Two mutexes, otherwise as few records as possible. -/
def cnt96 (p : Pool) : Nat :=
  match p with
  | .nmtx => 2
  | p => p.min

theorem limits96 : Limits cnt96 := by intro p; cases p <;> decide
theorem fuel96 : Fuel cnt96 5 := by simp only [Fuel]; decide

def seg96 : ListMem.Mem :=
  match initializeShmFile cnt96 File.truncate0 true (List.replicate (total cnt96) (.ok 4096)) (some 4096) with
  | some (.ok _ m) => m
  | _ => fun _ => 0

theorem seg96_ok : ∃ f', initializeShmFile cnt96 File.truncate0 true
    (List.replicate (total cnt96) (.ok 4096)) (some 4096) = some (.ok f' seg96) := by
  obtain ⟨f', m, hm⟩ := C40_succeeds cnt96 File.truncate0 4096 limits96
  exact ⟨f', by unfold seg96; rw [hm]⟩

/-- What the memory held before. -/
def junk96 : MCMem.Mem := { junkM with mval := fun _ => 1 }

/-- The fresh segment. -/
def s96 : State := MCMem.init seg96 junk96

/-- 1 owns the mutex 7 and is killed between the two writes that enter the mutex 9; 2 asks for 7. -/
def ask96 : List Ev := .call 1 (.lock 7 .block) :: alone71 1 8 ++ .call 1 (.lock 9 .block) :: alone71 1 3 ++ .die 1 .go 1 ::
  .call 2 (.lock 7 .block) :: alone71 2 3

/-- 2 finds its number of attempts over, checks for dead owners, obtains the mutex, and unlocks it. -/
def killed96 : List Ev := ask96 ++ alone71 2 1 ++ .go 2 .limit :: alone71 2 13 ++ .call 2 (.unlock 7) :: alone71 2 7

theorem exec96 {es lp : List Ev} {s : State} (hr : run cnt96 5 base71 s96 es = some s) (hc : run cnt96 5 base71 s lp = some s)
    (hA : ∀ i < es.length + lp.length, ∀ v c j, (es ++ lp)[i]? = some (.die v c j) →
      ((es ++ lp).map actor).all (fun u => !checking ((st96 cnt96 base71 s96 es lp i).pc u)) = true) :
    Exec cnt96 5 base71 okDie (st96 cnt96 base71 s96 es lp) (ev96 es lp) := by
  obtain ⟨f', hf⟩ := seg96_ok
  refine ⟨⟨_, f', _, _, seg96, junk96, hf, ?_⟩, fun i => ?_⟩
  · unfold st96 pre96
    cases es <;> simp [run] <;> rfl
  have hn := next96 hr hc i
  cases he : ev96 es lp i with
  | none => rw [he] at hn; exact hn
  | some e =>
    rw [he] at hn
    refine ⟨?_, hn⟩
    cases e with
    | call => trivial
    | go => trivial
    | die v c j =>
      intro u _ m k hp
      exfalso
      have hidx : ∃ i', i' < es.length + lp.length ∧ (es ++ lp)[i']? = some (.die v c j) ∧
          st96 cnt96 base71 s96 es lp i' = st96 cnt96 base71 s96 es lp i := by
        by_cases hi : i < es.length
        · exact ⟨i, by omega, by rw [← he, ev96, if_pos hi, List.getElem?_append_left hi], rfl⟩
        · have hlp : 0 < lp.length := by
            refine Nat.pos_of_ne_zero fun h0 => ?_
            simp [ev96, hi, List.length_eq_zero_iff.1 h0] at he
          have hm := Nat.mod_lt (i - es.length) hlp
          refine ⟨es.length + (i - es.length) % lp.length, by omega, ?_, ?_⟩
          · rw [← he, ev96, if_neg hi, List.getElem?_append_right (by omega), Nat.add_sub_cancel_left]
          · unfold st96 pre96
            rw [if_neg hi, if_neg (by omega), Nat.add_sub_cancel_left, Nat.mod_mod]
      obtain ⟨i', h1, h2, h3⟩ := hidx
      by_cases hu : u ∈ (es ++ lp).map actor
      · have := List.all_eq_true.1 (hA i' h1 v c j h2) u hu
        rw [h3, hp] at this; cases this
      · have := (idle96 (at96 hr hc i) (t := u) (fun hm => hu (by
          obtain ⟨e, he, rfl⟩ := List.mem_map.1 hm
          refine List.mem_map.2 ⟨e, ?_, rfl⟩
          unfold pre96 at he
          split at he
          · exact List.mem_append_left _ (List.mem_of_mem_take he)
          · rcases List.mem_append.1 he with he | he
            · exact List.mem_append_left _ he
            · exact List.mem_append_right _ (List.mem_of_mem_take he)))).1
        rw [hp] at this; cases this

/-- Nobody owns a mutex if no record is of a thread that lives. -/
theorem free96 {σ : Nat → State} {ε : Nat → Option Ev} (ex : Exec cnt96 5 base71 okDie σ ε) {i : Nat}
    (h : ∀ m, m < 2 → (σ i).alive ((σ i).mem.mval m) = false ∨ (σ i).mem.mval m = 0) (n t : Nat) :
    ¬ Owns cnt96 5 (base71 t) (σ i) n t := by
  obtain ⟨hw, -⟩ := noWrap_of_limits cnt96 limits96
  obtain ⟨T, s, s1, e1, e2, F⟩ := follows limits96 fuel96 ex
  intro ho
  obtain ⟨t0, ha, hd⟩ := (owns_of hw fuel96 (F.sim i) _ n t).1 ho
  obtain ⟨h1, h2, -⟩ := ((F.inv ex i).th t t0 ha).own n hd
  rw [(F.sim i).dat.ml] at h1
  obtain ⟨m, hm, rfl⟩ := List.mem_map.1 h1
  rw [(F.sim i).dat.mv m hm] at h2
  rcases h m ((F.sim i).snd.lt .mtxs m hm) with e | e
  · rw [h2, F.alive, ha] at e; cases e
  · rw [h2] at e; exact t0 e

/-- Non-vacuity of C96: an execution that meets the hypotheses of the theorems; 1 was killed between two writes, 2 waits for the
mutex of 1, and later it is in a check. -/
theorem killed96_case : ∃ σ ε, Exec cnt96 5 base71 okDie σ ε ∧ Fair cnt96 5 base71 σ ε ∧ Released cnt96 5 base71 σ ∧ CallsEnd ε ∧
    Patient σ ε ∧ Timely σ ε ∧ SeenDead ε ∧ waitsLock (σ 18).mem 7 ((σ 18).pc 2) ∧ ε 14 = some (.call 2 (.lock 7 .block)) ∧
    (σ 18).mem.mval 0 = 1 ∧ (σ 18).alive 1 = false ∧ checking ((σ 23).pc 2) = true ∧ (∀ j, (σ j).alive 2 = true) := by
  have e : (run cnt96 5 base71 s96 killed96).map (fun s => decide (s.pc 1 = .mIns 1 .block ∧ s.pc 2 = .done 0 ∧ s.alive 1 = false ∧
      s.alive 2 = true ∧ s.mem.mval 0 = 0 ∧ s.mem.mval 1 = 0)) = some true := by decide +kernel
  obtain ⟨s, hr, h1⟩ := Option.map_eq_some_iff.1 e
  obtain ⟨a1, a2, a3, a4, a5, a6⟩ := of_decide_eq_true h1
  have ex := exec96 (lp := []) hr rfl (by
    intro i hi v c j hv
    have : ∀ i < killed96.length, (match killed96[i]? with
        | some (.die _ _ _) => ((killed96 ++ []).map actor).all fun u => !checking ((st96 cnt96 base71 s96 killed96 [] i).pc u)
        | _ => true) = true := by decide +kernel
    have := this i hi
    rw [List.append_nil] at hv
    rw [hv] at this
    exact this)
  have late : ∀ j, killed96.length ≤ j → st96 cnt96 base71 s96 killed96 [] j = s := by
    intro j hj
    obtain ⟨k, -, h⟩ := late96 (lp := []) hr rfl hj
    rw [List.take_nil] at h
    exact (Option.some.inj h).symm
  have lateE : ∀ j, killed96.length ≤ j → ev96 killed96 [] j = none := fun j hj => by simp [ev96, Nat.not_lt.2 hj]
  have hout : ∀ t, (∃ r, s.pc t = .done r) ∨ s.alive t = false := by
    intro t
    by_cases h1 : t = 1
    · rw [h1]; exact .inr a3
    by_cases h2 : t = 2
    · rw [h2]; exact .inl ⟨0, a2⟩
    · refine .inl ⟨0, ?_⟩
      rw [(idle96 hr (t := t) ?_).1]
      · rfl
      · intro hm
        have : ∀ t ∈ killed96.map actor, t = 1 ∨ t = 2 := by decide +kernel
        rcases this t hm with e | e
        · exact h1 e
        · exact h2 e
  have e18 : decide ((st96 cnt96 base71 s96 killed96 [] 18).pc 2 = .lkRead 0 .block .api ∧
      (st96 cnt96 base71 s96 killed96 [] 18).mem.mname 0 = 7 ∧ (st96 cnt96 base71 s96 killed96 [] 18).mem.mval 0 = 1 ∧
      (st96 cnt96 base71 s96 killed96 [] 18).alive 1 = false ∧ checking ((st96 cnt96 base71 s96 killed96 [] 23).pc 2) = true) = true := by
    decide +kernel
  obtain ⟨b1, b2, b3, b4, b5⟩ := of_decide_eq_true e18
  have never : ∀ (P : Pc → Bool) t i, (∀ r, P (.done r) = false) →
      ¬ ∀ j, i ≤ j → (st96 cnt96 base71 s96 killed96 [] j).alive t = true ∧ P ((st96 cnt96 base71 s96 killed96 [] j).pc t) = true := by
    intro P t i hP h
    obtain ⟨g1, g2⟩ := h (i + killed96.length) (by omega)
    rw [late _ (by omega)] at g1 g2
    rcases hout t with ⟨r, hr⟩ | hr
    · rw [hr, hP] at g2; cases g2
    · rw [hr] at g1; cases g1
  refine ⟨_, _, ex, ?_, ?_, ?_, ?_, ?_, ?_, by rw [b1]; exact ⟨b2, rfl, rfl⟩, by decide +kernel, b3, b4, b5, ?_⟩
  · intro t ht i
    exfalso
    obtain ⟨j, hj, c, s', hs⟩ := ht (i + killed96.length)
    rw [late j (by omega)] at hs
    rcases hout t with ⟨r, hr'⟩ | hr'
    · simp only [step, hr'] at hs
      split at hs
      · cases hs
      · cases c <;> simp [plan] at hs
    · simp [step, hr'] at hs
  · intro i n t _
    refine ⟨i + killed96.length, by omega, free96 ex (fun m hm => ?_) n t⟩
    rw [late _ (by omega)]
    have : m = 0 ∨ m = 1 := by omega
    rcases this with rfl | rfl
    · exact .inr a5
    · exact .inr a6
  · exact ⟨killed96.length, fun j hj t c he => by rw [lateE j hj] at he; cases he⟩
  · intro t i h
    exact absurd h (never trying t i fun _ => rfl)
  · intro t i h
    exact absurd h (never timing t i fun _ => rfl)
  · exact ⟨killed96.length, fun j hj t he => by rw [lateE j hj] at he; cases he⟩
  · intro j
    obtain ⟨T, s, s1, e1, e2, F⟩ := follows limits96 fuel96 ex
    rw [F.alive]
    refine F.alive_back ex (Nat.le_add_right j killed96.length) ?_
    rw [← F.alive, late _ (by omega)]; exact a4

example : ∃ σ ε, Exec cnt96 5 base71 okDie σ ε ∧ (σ 18).mem.mval 0 = 1 ∧ (σ 18).alive 1 = false ∧
    (∃ j, 18 ≤ j ∧ (σ j).pc 2 = .done 0 ∧ Owns cnt96 5 (base71 2) (σ j) 7 2) ∧ ReturnsAfter σ 2 15 ∧
    (∃ j, 23 ≤ j ∧ (checking ((σ j).pc 2) = false ∨ (σ j).alive 2 = false)) ∧ checking ((σ 23).pc 2) = true := by
  obtain ⟨σ, ε, g1, g2, g3, g4, g5, g6, g7, h1, h2, h3, h4, h5, h6⟩ := killed96_case
  exact ⟨σ, ε, g1, h3, h4, C96_granted_partial _ limits96 _ fuel96 _ σ ε g1 g2 g3 g4 g5 g6 g7 2 18 7 h1 h6,
    C96_calls_partial _ limits96 _ fuel96 _ σ ε g1 g2 g3 g4 g5 g6 g7 2 14 _ h2 (by nofun) h6,
    C96_checks _ limits96 _ fuel96 _ σ ε g1 g2 2 23, h5⟩

/-! ### Without the robust mode HIGH -/

/-- C96: without the check of dead owners a thread waits for the mutex of a dead thread for ever, although the scheduler is fair
and no call is made any more. -/
theorem C96_stuck : ∃ σ ε, Exec cnt96 5 base71 okDie σ ε ∧ Fair cnt96 5 base71 σ ε ∧ Released cnt96 5 base71 σ ∧ CallsEnd ε ∧
    Timely σ ε ∧ SeenDead ε ∧ ∃ i, waitsLock (σ i).mem 7 ((σ i).pc 2) ∧ (σ i).mem.mval 0 = 1 ∧
      (∀ j, (σ j).alive 2 = true) ∧ ∀ j, i ≤ j → (σ j).alive 1 = false ∧ (∀ r, (σ j).pc 2 ≠ .done r) ∧ ¬ Unwoken σ 2 j := by
  have e : (run cnt96 5 base71 s96 ask96).map (fun s => decide (s.pc 1 = .mIns 1 .block ∧ s.pc 2 = .lkRead 0 .block .api ∧ s.alive 1 = false ∧
      s.alive 2 = true ∧ s.mem.mval 0 = 1 ∧ s.mem.mval 1 = 0 ∧ s.mem.mname 0 = 7)) = some true := by decide +kernel
  obtain ⟨s, hr, h1⟩ := Option.map_eq_some_iff.1 e
  obtain ⟨a1, a2, a3, a4, a5, a6, a7⟩ := of_decide_eq_true h1
  have hlen : ask96.length = 18 := by decide +kernel
  let s' : State := { s with pc := upd s.pc 2 (.lkCas 0 .block .api) }
  have hs1 : step cnt96 5 base71 s (.go 2 .go) = some s' := by simp [step, a4, a2, plan, plain, a5, s', ListMem.applyWrites]
  have hs2 : step cnt96 5 base71 s' (.go 2 .go) = some s := by
    simp only [step, s', a4, plan, MC.upd_same, a5, failed]
    have e : upd (upd s.pc 2 (.lkCas 0 .block .api)) 2 (.lkRead 0 .block .api) = s.pc := by
      funext u
      by_cases hu : u = 2
      · rw [hu, MC.upd_same, a2]
      · rw [MC.upd_ne _ _ hu, MC.upd_ne _ _ hu]
    simp [e, plain, ListMem.applyWrites]
  have hc : run cnt96 5 base71 s (alone71 2 2) = some s := by
    simp only [alone71, List.replicate, run, hs1, hs2, Option.bind_some]
  have ex := exec96 hr hc (by
    intro i hi v c j hv
    have : ∀ i < ask96.length + 2, (match (ask96 ++ alone71 2 2)[i]? with
        | some (.die _ _ _) => ((ask96 ++ alone71 2 2).map actor).all fun u => !checking ((st96 cnt96 base71 s96 ask96 (alone71 2 2) i).pc u)
        | _ => true) = true := by decide +kernel
    have := this i hi
    rw [hv] at this
    exact this)
  have late : ∀ j, ask96.length ≤ j → st96 cnt96 base71 s96 ask96 (alone71 2 2) j = s ∨ st96 cnt96 base71 s96 ask96 (alone71 2 2) j = s' := by
    intro j hj
    obtain ⟨k, hk, h⟩ := late96 hr hc hj
    have hk : k = 0 ∨ k = 1 := by
      rcases hk with hk | hk
      · simp [alone71] at hk; omega
      · simp [alone71] at hk
    rcases hk with rfl | rfl
    · exact .inl (Option.some.inj h).symm
    · simp only [alone71, List.replicate, List.take, run, hs1, Option.bind_some] at h
      exact .inr (Option.some.inj h).symm
  have lateE : ∀ j, ask96.length ≤ j → ev96 ask96 (alone71 2 2) j = some (.go 2 .go) := by
    intro j hj
    have hm : (j - ask96.length) % 2 < 2 := Nat.mod_lt _ (by omega)
    rw [ev96, if_neg (Nat.not_lt.2 hj), alone71, List.length_replicate, List.getElem?_replicate, if_pos hm]
  have hmem : ∀ j, ask96.length ≤ j → (st96 cnt96 base71 s96 ask96 (alone71 2 2) j).mem = s.mem ∧
      (st96 cnt96 base71 s96 ask96 (alone71 2 2) j).alive = s.alive ∧
      (∀ u, u ≠ 2 → (st96 cnt96 base71 s96 ask96 (alone71 2 2) j).pc u = s.pc u) ∧
      ((st96 cnt96 base71 s96 ask96 (alone71 2 2) j).pc 2 = .lkRead 0 .block .api ∨
        (st96 cnt96 base71 s96 ask96 (alone71 2 2) j).pc 2 = .lkCas 0 .block .api) := by
    intro j hj
    rcases late j hj with e | e <;> rw [e]
    · exact ⟨rfl, rfl, fun _ _ => rfl, .inl a2⟩
    · exact ⟨rfl, rfl, fun u hu => MC.upd_ne _ _ hu, .inr (MC.upd_same s.pc 2 _)⟩
  have hout : ∀ t, t ≠ 2 → s.pc t = .done 0 ∨ s.alive t = false := by
    intro t h2
    by_cases h1 : t = 1
    · rw [h1]; exact .inr a3
    · left
      rw [(idle96 hr (t := t) ?_).1]
      · rfl
      · intro hm
        have : ∀ t ∈ ask96.map actor, t = 1 ∨ t = 2 := by decide +kernel
        rcases this t hm with e | e
        · exact h1 e
        · exact h2 e
  refine ⟨_, _, ex, ?_, ?_, ?_, ?_, ?_, ask96.length, ?_, ?_, ?_, ?_⟩
  · intro t ht i
    by_cases h2 : t = 2
    · subst h2; exact ⟨i + ask96.length, by omega, .go, lateE _ (by omega)⟩
    · exfalso
      obtain ⟨j, hj, c, x, hx⟩ := ht (i + ask96.length)
      obtain ⟨g1, g2, g3, -⟩ := hmem j (by omega)
      rcases hout t h2 with h | h
      · simp only [step, g3 t h2, h] at hx
        split at hx
        · cases hx
        · cases c <;> simp [plan] at hx
      · simp [step, g2, h] at hx
  · intro i n t _
    refine ⟨i + ask96.length, by omega, free96 ex (fun m hm => ?_) n t⟩
    obtain ⟨g1, g2, -⟩ := hmem (i + ask96.length) (by omega)
    rw [g1, g2]
    have : m = 0 ∨ m = 1 := by omega
    rcases this with rfl | rfl
    · exact .inl (by rw [a5]; exact a3)
    · exact .inr a6
  · exact ⟨ask96.length, fun j hj t c he => by rw [lateE j hj] at he; cases he⟩
  · intro t i h
    exfalso
    obtain ⟨g1, g2⟩ := h (i + ask96.length) (by omega)
    obtain ⟨g3, g4, g5, g6⟩ := hmem (i + ask96.length) (by omega)
    by_cases h2 : t = 2
    · subst h2; rcases g6 with e | e <;> rw [e] at g2 <;> cases g2
    · rcases hout t h2 with e | e
      · rw [g5 t h2, e] at g2; cases g2
      · rw [g4, e] at g1; cases g1
  · exact ⟨ask96.length, fun j hj t he => by rw [lateE j hj] at he; cases he⟩
  · obtain ⟨g1, -, -, g2⟩ := hmem _ (Nat.le_refl _)
    rw [g1]
    rcases g2 with e | e <;> rw [e] <;> exact ⟨a7, rfl, rfl⟩
  · rw [(hmem _ (Nat.le_refl _)).1]; exact a5
  · intro j
    obtain ⟨T, r, s1, e1, e2, F⟩ := follows limits96 fuel96 ex
    rw [F.alive]
    refine F.alive_back ex (Nat.le_add_right j ask96.length) ?_
    rw [← F.alive, (hmem _ (by omega)).2.1]; exact a4
  · intro j hj
    obtain ⟨-, g1, -, g2⟩ := hmem j hj
    refine ⟨by rw [g1]; exact a3, ?_, ?_⟩
    · intro r; rcases g2 with e | e <;> rw [e] <;> nofun
    · rintro ⟨c, w, m, h⟩
      have := (h j (Nat.le_refl _)).1
      rcases g2 with e | e <;> rw [e] at this <;> cases this

/-- C96 as stated is false. -/
theorem C96_not_full : ¬ C96_full := by
  intro h
  obtain ⟨σ, ε, g1, g2, g3, g4, g5, g6, i, _, _, ha, hj⟩ := C96_stuck
  rcases h cnt96 limits96 5 fuel96 base71 σ ε g1 g2 g3 g4 g5 g6 2 i with ⟨j, h1, r, h2⟩ | ⟨j, h1⟩ | ⟨n, h1, h2⟩
  · exact (hj j h1).2.1 r h2
  · rw [ha] at h1; cases h1
  · exact (hj n h1).2.2 h2

end Fullock.Props
