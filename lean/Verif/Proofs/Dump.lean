import Verif.Spec.Dump
import Verif.Props.Segment
/-! The dump: big-step meaning of its tasks, and the records it looks at. -/
namespace Fullock.Dump
open Fullock.ListMem Fullock.Layout
open Fullock.FLMem (adr idx)
open Fullock.Seg (IsRec IsCell Ref Typed)
open Fullock.Props (NoWrap)

/-! ### What a list of tasks prints when nobody else moves -/

section
variable (cnt : Pool → Nat) (b : Nat) (x : Seg.State)

inductive Ev : List Task → List Item → Prop
  | nil : Ev [] []
  | cons {t : Task} {ts : List Task} {is js : List Item} : Ev (exec cnt b x t).2 is → Ev ts js →
      Ev (t :: ts) ((exec cnt b x t).1 ++ is ++ js)

end

section
variable {cnt : Pool → Nat} {b : Nat} {x : Seg.State}

theorem Ev.det {ts : List Task} {is js : List Item} (h : Ev cnt b x ts is) (h' : Ev cnt b x ts js) : is = js := by
  induction h generalizing js with
  | nil => cases h'; rfl
  | cons _ _ ih1 ih2 =>
    cases h' with
    | cons h1 h2 => rw [ih1 h1, ih2 h2]

theorem Ev.append {ts us : List Task} {is js : List Item} (h : Ev cnt b x ts is) (h' : Ev cnt b x us js) :
    Ev cnt b x (ts ++ us) (is ++ js) := by
  induction h with
  | nil => exact h'
  | cons h1 _ _ ih2 =>
    have := Ev.cons h1 ih2
    simpa using this

/-- A single task. -/
theorem Ev.one {t : Task} {is : List Item} (h : Ev cnt b x (exec cnt b x t).2 is) :
    Ev cnt b x [t] ((exec cnt b x t).1 ++ is) := by
  simpa using Ev.cons h .nil

theorem Ev.one_iff {t : Task} {is : List Item} : Ev cnt b x [t] is ↔
    ∃ js, Ev cnt b x (exec cnt b x t).2 js ∧ is = (exec cnt b x t).1 ++ js := by
  constructor
  · intro h
    cases h with
    | cons h1 h2 => cases h2; exact ⟨_, h1, by simp⟩
  · rintro ⟨js, h, rfl⟩; exact .one h

theorem Ev.cons_iff {t : Task} {ts : List Task} {is : List Item} : Ev cnt b x (t :: ts) is ↔
    ∃ i1 i2, Ev cnt b x [t] i1 ∧ Ev cnt b x ts i2 ∧ is = i1 ++ i2 := by
  constructor
  · intro h
    cases h with
    | cons h1 h2 => exact ⟨_, _, .one h1, h2, rfl⟩
  · rintro ⟨i1, i2, h1, h2, rfl⟩
    exact Ev.append h1 h2

theorem Ev.append_iff {ts us : List Task} {is : List Item} : Ev cnt b x (ts ++ us) is ↔
    ∃ i1 i2, Ev cnt b x ts i1 ∧ Ev cnt b x us i2 ∧ is = i1 ++ i2 := by
  constructor
  · intro h
    induction ts generalizing is with
    | nil => exact ⟨[], is, .nil, h, rfl⟩
    | cons t ts ih =>
      obtain ⟨i1, i2, h1, h2, rfl⟩ := Ev.cons_iff.1 h
      obtain ⟨i3, i4, h3, h4, rfl⟩ := ih h2
      exact ⟨i1 ++ i3, i4, Ev.cons_iff.2 ⟨_, _, h1, h3, rfl⟩, h4, by simp⟩
  · rintro ⟨i1, i2, h1, h2, rfl⟩
    exact h1.append h2

theorem Ev.put (i : Item) : Ev cnt b x [.put i] [i] := by
  simpa [exec] using Ev.one (cnt := cnt) (b := b) (x := x) (t := .put i) (is := []) .nil

theorem Ev.put_iff {i : Item} {is : List Item} : Ev cnt b x [.put i] is ↔ is = [i] :=
  ⟨fun h => h.det (.put i), fun h => h ▸ .put i⟩

/-- The machine does what the tasks mean. -/
theorem run_of_ev {ts : List Task} {is : List Item} (h : Ev cnt b x ts is) : ∀ (rest : List Task) (out : List Item),
    ∃ n, alone cnt b x n ⟨ts ++ rest, out⟩ = some ⟨rest, out ++ is⟩ := by
  have add : ∀ (n k : Nat) (d d' d'' : State), alone cnt b x n d = some d' → alone cnt b x k d' = some d'' →
      alone cnt b x (n + k) d = some d'' := by
    intro n
    induction n with
    | zero => intro k d d' d'' h h'; cases h; simpa using h'
    | succ n ih =>
      intro k d d' d'' h h'
      simp only [alone] at h
      obtain ⟨e, h1, h2⟩ := Option.bind_eq_some_iff.1 h
      have : n + 1 + k = (n + k) + 1 := by omega
      rw [this]
      simp only [alone, h1, Option.bind_some]
      exact ih k e d' d'' h2 h'
  induction h with
  | nil => intro rest out; exact ⟨0, by simp [alone]⟩
  | @cons t ts is js _ _ ih1 ih2 =>
    intro rest out
    obtain ⟨n1, h1⟩ := ih1 (ts ++ rest) (out ++ (exec cnt b x t).1)
    obtain ⟨n2, h2⟩ := ih2 rest (out ++ (exec cnt b x t).1 ++ is)
    refine ⟨1 + (n1 + n2), add 1 (n1 + n2) _ ⟨(exec cnt b x t).2 ++ (ts ++ rest), out ++ (exec cnt b x t).1⟩ _ ?_ ?_⟩
    · simp [alone, step]
    · rw [add n1 n2 _ _ _ h1 h2]; simp

/-- A run of the machine that comes to an end has done what the tasks mean. -/
theorem ev_of_run : ∀ (n : Nat) {ts rest : List Task} {out o : List Item},
    alone cnt b x n ⟨ts ++ rest, out⟩ = some ⟨[], o⟩ →
    ∃ is n', Ev cnt b x ts is ∧ n' ≤ n ∧ alone cnt b x n' ⟨rest, out ++ is⟩ = some ⟨[], o⟩
  | n, [], rest, out, o, h => ⟨[], n, .nil, le_refl _, by simpa using h⟩
  | 0, t :: ts, rest, out, o, h => by simp [alone] at h
  | n + 1, t :: ts, rest, out, o, h => by
    simp only [alone, step, List.cons_append, Option.bind_some] at h
    obtain ⟨i1, n1, e1, l1, h1⟩ := ev_of_run n (ts := (exec cnt b x t).2) (rest := ts ++ rest) h
    have : n1 < n + 1 := by omega
    obtain ⟨i2, n2, e2, l2, h2⟩ := ev_of_run n1 (ts := ts) (rest := rest) h1
    exact ⟨_, n2, .cons e1 e2, by omega, by simpa using h2⟩
termination_by n => n

theorem out_of_run {n : Nat} {ts : List Task} {o : List Item} (h : alone cnt b x n ⟨ts, []⟩ = some ⟨[], o⟩) :
    Ev cnt b x ts o := by
  obtain ⟨is, n', e, -, h'⟩ := ev_of_run n (ts := ts) (rest := []) (out := []) (o := o) (by simpa using h)
  cases n' with
  | zero => simp only [alone, Option.some.injEq, State.mk.injEq] at h'; rw [← h'.2]; simpa using e
  | succ n' => simp [alone, step] at h'

/-! ### Lists -/

theorem adr_pos (hw : NoWrap cnt) (k : Pool) (i : Nat) : adr cnt k i ≠ 0 := by
  obtain ⟨a1, a2, a3⟩ := FLMem.adr_eq cnt hw i
  obtain ⟨b1, b2, b3⟩ := MCMem.adr_eq cnt hw i
  cases k <;> omega

theorem at_pos (hw : NoWrap cnt) (k : Pool) (i : Nat) : at_ cnt b k i ≠ 0 := by
  have := adr_pos hw k i
  simp [at_, toAbs, this]

theorem next_at (hw : NoWrap cnt) (k : Pool) (i : Nat) : nextCell b (at_ cnt b k i) = adr cnt k i := by
  have := adr_pos hw k i
  simp [at_, nextCell, toAbs, this]

theorem idx_at (k : Pool) (i : Nat) : idx cnt b k (at_ cnt b k i) = i := FLMem.idx_adr cnt b k i

/-- The loop over a list. -/
theorem ev_each (hw : NoWrap cnt) {k : Pool} {lv : Nat} {g : Nat → List Item} : ∀ {l : List Nat} {v : Nat},
    Chain x.fl.cells v (l.map (adr cnt k)) → (∀ i ∈ l, Ev cnt b x [.one k lv (at_ cnt b k i)] (g i)) →
    Ev cnt b x [.each k lv (toAbs b v)] (l.flatMap g)
  | [], v, h, _ => by
    have h : v = 0 := h
    subst h
    exact Ev.one_iff.2 ⟨[], by simpa [exec, toAbs] using Ev.nil, by simp [exec]⟩
  | i :: l, v, h, hg => by
    obtain ⟨h1, h2, h3⟩ := h
    subst h1
    have hp : toAbs b (adr cnt k i) ≠ 0 := at_pos hw k i
    refine Ev.one_iff.2 ⟨(i :: l).flatMap g, ?_, by simp [exec]⟩
    simp only [exec, if_neg hp]
    refine Ev.cons_iff.2 ⟨g i, l.flatMap g, hg i (by simp), ?_, by simp⟩
    refine Ev.one_iff.2 ⟨l.flatMap g, ?_, by simp [exec]⟩
    have hn : nextCell b (toAbs b (adr cnt k i)) = adr cnt k i := next_at hw k i
    simp only [exec, hn]
    exact ev_each hw h3 fun j hj => hg j (by simp [hj])

theorem ev_all (hw : NoWrap cnt) {k : Pool} {lv c : Nat} {g : Nat → List Item} {l : List Nat}
    (h : Chain x.fl.cells (x.fl.cells c) (l.map (adr cnt k)))
    (hg : ∀ i ∈ l, Ev cnt b x [.one k lv (at_ cnt b k i)] (g i)) : Ev cnt b x [.all c k lv] (l.flatMap g) :=
  Ev.one_iff.2 ⟨l.flatMap g, by simpa [exec] using ev_each hw h hg, by simp [exec]⟩

/-- The first record of a list. -/
theorem ev_test (hw : NoWrap cnt) {k : Pool} {c : Nat} {g : Nat → List Item} {l : List Nat}
    (h : Chain x.fl.cells (x.fl.cells c) (l.map (adr cnt k)))
    (hg : ∀ i ∈ l, Ev cnt b x [.one k 1 (at_ cnt b k i)] (g i)) : Ev cnt b x [.test c k] (l.head?.toList.flatMap g) := by
  cases l with
  | nil =>
    have h : x.fl.cells c = 0 := h
    exact Ev.one_iff.2 ⟨[], by simpa [exec, h] using Ev.nil, by simp [exec]⟩
  | cons i l =>
    obtain ⟨h1, h2, -⟩ := h
    refine Ev.one_iff.2 ⟨g i, ?_, by simp [exec]⟩
    have hc : x.fl.cells c ≠ 0 := by rw [h1]; exact h2
    simp only [exec, if_pos hc]
    refine Ev.one_iff.2 ⟨g i, ?_, by simp [exec]⟩
    simp only [exec, h1]
    exact hg i (by simp)

theorem ev_one (hw : NoWrap cnt) {k : Pool} {lv i : Nat} {is : List Item}
    (h : Ev cnt b x (body cnt b x k lv (at_ cnt b k i)).2 is) :
    Ev cnt b x [.one k lv (at_ cnt b k i)] ((body cnt b x k lv (at_ cnt b k i)).1 ++ is) := by
  have e : exec cnt b x (.one k lv (at_ cnt b k i)) = body cnt b x k lv (at_ cnt b k i) := by
    simp [exec, at_pos hw]
  have := Ev.one (t := .one k lv (at_ cnt b k i)) (is := is) (by rw [e]; exact h)
  rwa [e] at this

theorem ev_locker (hw : NoWrap cnt) (lv l : Nat) : Ev cnt b x [.one .locker lv (at_ cnt b .locker l)] (showLocker cnt b x lv l) := by
  have := ev_one (x := x) (b := b) hw (k := .locker) (lv := lv) (i := l) (is := []) .nil
  simpa [body, showLocker, idx_at, next_at hw, nx] using this

theorem ev_mtx (hw : NoWrap cnt) (lv m : Nat) : Ev cnt b x [.one .nmtx lv (at_ cnt b .nmtx m)] (showMtx cnt b x lv m) := by
  have := ev_one (x := x) (b := b) hw (k := .nmtx) (lv := lv) (i := m) (is := []) .nil
  simpa [body, showMtx, idx_at, next_at hw, nx] using this

theorem ev_off (hw : NoWrap cnt) {fuel lv o : Nat}
    (h : ∀ md, Chain x.fl.cells (x.fl.cells (FLMem.cell cnt (.lks o md)))
      ((FLMem.listed cnt b fuel x.fl.cells (.lks o md)).map (adr cnt .locker))) :
    Ev cnt b x [.one .off lv (at_ cnt b .off o)] (showOff cnt b fuel x lv o) := by
  have := ev_one (x := x) (b := b) hw (k := .off) (lv := lv) (i := o)
    (is := (FLMem.listed cnt b fuel x.fl.cells (.lks o .rd)).flatMap (showLocker cnt b x (lv + 2)) ++ ([.cls] ++
      ([.sub (lv + 1) .writers] ++ ((FLMem.listed cnt b fuel x.fl.cells (.lks o .wr)).flatMap (showLocker cnt b x (lv + 2)) ++
      ([.cls] ++ [.cls]))))) (by
        simp only [body, idx_at]
        exact Ev.append (ts := [_]) (ev_all hw (h .rd) fun i _ => ev_locker hw _ i) (Ev.append (ts := [_]) (.put _)
          (Ev.append (ts := [_]) (.put _) (Ev.append (ts := [_]) (ev_all hw (h .wr) fun i _ => ev_locker hw _ i)
          (Ev.append (ts := [_]) (.put _) (.put _))))))
  simpa [body, showOff, idx_at, next_at hw, nx] using this

theorem ev_file (hw : NoWrap cnt) {fuel lv f : Nat}
    (h : Chain x.fl.cells (x.fl.cells (FLMem.cell cnt (.offs f)))
      ((FLMem.listed cnt b fuel x.fl.cells (.offs f)).map (adr cnt .off)))
    (hl : ∀ o ∈ FLMem.listed cnt b fuel x.fl.cells (.offs f), ∀ md,
      Chain x.fl.cells (x.fl.cells (FLMem.cell cnt (.lks o md)))
      ((FLMem.listed cnt b fuel x.fl.cells (.lks o md)).map (adr cnt .locker))) :
    Ev cnt b x [.one .file lv (at_ cnt b .file f)] (showFile cnt b fuel x lv f) := by
  have := ev_one (x := x) (b := b) hw (k := .file) (lv := lv) (i := f)
    (is := (FLMem.listed cnt b fuel x.fl.cells (.offs f)).flatMap (showOff cnt b fuel x (lv + 2)) ++ ([.cls] ++ [.cls])) (by
        simp only [body, idx_at]
        exact Ev.append (ts := [_]) (ev_all hw h fun o ho => ev_off hw (hl o ho)) (Ev.append (ts := [_]) (.put _) (.put _)))
  simpa [body, showFile, idx_at, next_at hw, nx] using this

/-- The members `named_mutex` are NULL or refer to mutex records. -/
def WM (cnt : Pool → Nat) (x : Seg.State) : Prop := ∀ w, Ref cnt .nmtx (x.mc.mem.wmtx w)

theorem ev_waiter (hw : NoWrap cnt) (hm : WM cnt x) (lv w : Nat) :
    Ev cnt b x [.one .waiter lv (at_ cnt b .waiter w)] (showWaiter cnt b x lv w) := by
  have key : Ev cnt b x [.wmtx (at_ cnt b .waiter w) (lv + 2)] (if x.mc.mem.wmtx w = 0 then [] else
      showMtx cnt b x (lv + 2) (FLMem.idx cnt b .nmtx (toAbs b (x.mc.mem.wmtx w)))) := by
    refine Ev.one_iff.2 ⟨(if x.mc.mem.wmtx w = 0 then [] else
      showMtx cnt b x (lv + 2) (FLMem.idx cnt b .nmtx (toAbs b (x.mc.mem.wmtx w)))), ?_, by simp [exec]⟩
    simp only [exec, idx_at]
    rcases hm w with e | ⟨m, -, e⟩
    · rw [e]
      exact Ev.one_iff.2 ⟨[], by simpa [exec, toAbs] using Ev.nil, by simp [exec, toAbs]⟩
    · rw [e, if_neg (adr_pos hw .nmtx m)]
      have := ev_mtx (x := x) (b := b) hw (lv + 2) m
      have i : idx cnt b .nmtx (toAbs b (adr cnt .nmtx m)) = m := idx_at .nmtx m
      rw [i]
      exact this
  have := ev_one (x := x) (b := b) hw (k := .waiter) (lv := lv) (i := w)
    (is := (if x.mc.mem.wmtx w = 0 then [] else
      showMtx cnt b x (lv + 2) (FLMem.idx cnt b .nmtx (toAbs b (x.mc.mem.wmtx w)))) ++ ([.cls] ++ [.cls])) (by
        simp only [body]
        exact Ev.append (ts := [_]) key (Ev.append (ts := [_]) (.put _) (.put _)))
  simpa [body, showWaiter, idx_at, next_at hw, nx] using this

theorem ev_cond (hw : NoWrap cnt) (hm : WM cnt x) {fuel lv c : Nat}
    (h : Chain x.fl.cells (x.fl.cells (MCMem.cell cnt (.ws c)))
      ((MCMem.listed cnt b fuel x.mc.mem (.ws c)).map (adr cnt .waiter))) :
    Ev cnt b x [.one .ncond lv (at_ cnt b .ncond c)] (showCond cnt b fuel x lv c) := by
  have := ev_one (x := x) (b := b) hw (k := .ncond) (lv := lv) (i := c)
    (is := (MCMem.listed cnt b fuel x.mc.mem (.ws c)).flatMap (showWaiter cnt b x (lv + 2)) ++ ([.cls] ++ [.cls])) (by
        simp only [body, idx_at]
        exact Ev.append (ts := [_]) (ev_all hw h fun w _ => ev_waiter hw hm _ w) (Ev.append (ts := [_]) (.put _) (.put _)))
  simpa [body, showCond, idx_at, next_at hw, nx] using this

/-! ### Records on the first level -/

/-- Nothing on the first level comes of the task. -/
def Deep : Task → Prop
  | .put i => i.record = none
  | .line _ => True
  | .test _ _ => False
  | .first _ _ => False
  | .all _ _ lv => 2 ≤ lv
  | .each _ lv _ => 2 ≤ lv
  | .next _ lv _ => 2 ≤ lv
  | .one _ lv _ => 2 ≤ lv
  | .wmtx _ lv => 2 ≤ lv

theorem top_append (is js : List Item) : top (is ++ js) = top is ++ top js := by simp [top]

theorem deep_exec {t : Task} (h : Deep t) : top (exec cnt b x t).1 = [] ∧ ∀ u ∈ (exec cnt b x t).2, Deep u := by
  cases t with
  | put i => 
    simp only [Deep] at h
    simp [exec, top, h]
  | line c => simp [exec, top, Item.record]
  | test c k => exact h.elim
  | first c k => exact h.elim
  | all c k lv => simpa [exec, top, Deep] using h
  | each k lv p =>
    simp only [Deep] at h
    simp only [exec]
    split <;> simp [top, Deep, h]
  | next k lv p => simpa [exec, top, Deep] using h
  | one k lv p =>
    simp only [Deep] at h
    have : lv ≠ 1 := by omega
    simp only [exec]
    split
    · simp [top]
    · cases k <;> simp [body, top, Item.record, Deep, this] <;> omega
  | wmtx p lv => simpa [exec, top, Deep] using h

theorem deep_top {ts : List Task} {is : List Item} (h : Ev cnt b x ts is) (hd : ∀ t ∈ ts, Deep t) : top is = [] := by
  induction h with
  | nil => rfl
  | @cons t ts is js h1 h2 ih1 ih2 =>
    obtain ⟨d1, d2⟩ := deep_exec (cnt := cnt) (b := b) (x := x) (hd t (by simp))
    rw [top_append, top_append, d1, ih1 d2, ih2 fun u hu => hd u (by simp [hu])]
    rfl

theorem top_one (hw : NoWrap cnt) {k : Pool} {i : Nat} {is : List Item} (h : Ev cnt b x [.one k 1 (at_ cnt b k i)] is) :
    top is = [(k, at_ cnt b k i)] := by
  obtain ⟨js, h1, rfl⟩ := Ev.one_iff.1 h
  have e : exec cnt b x (.one k 1 (at_ cnt b k i)) = body cnt b x k 1 (at_ cnt b k i) := by
    simp [exec, at_pos hw]
  rw [e] at h1 ⊢
  rw [top_append, deep_top h1 (by cases k <;> simp [body, Deep, Item.record])]
  cases k <;> simp [body, top, Item.record]

theorem top_each (hw : NoWrap cnt) {k : Pool} : ∀ {l : List Nat} {v : Nat} {is : List Item},
    Chain x.fl.cells v (l.map (adr cnt k)) → Ev cnt b x [.each k 1 (toAbs b v)] is →
    top is = l.map fun i => (k, at_ cnt b k i)
  | [], v, is, h, e => by
    have h : v = 0 := h
    subst h
    obtain ⟨js, h1, rfl⟩ := Ev.one_iff.1 e
    simp only [exec, toAbs, ne_eq, not_true_eq_false, if_false, if_true] at h1
    cases h1
    rfl
  | i :: l, v, is, h, e => by
    obtain ⟨h1, h2, h3⟩ := h
    subst h1
    have hp : toAbs b (adr cnt k i) ≠ 0 := at_pos hw k i
    obtain ⟨js, h4, rfl⟩ := Ev.one_iff.1 e
    simp only [exec, if_neg hp] at h4 ⊢
    obtain ⟨i1, i2, e1, e2, rfl⟩ := Ev.cons_iff.1 h4
    obtain ⟨i3, e3, rfl⟩ := Ev.one_iff.1 e2
    have hn : nextCell b (toAbs b (adr cnt k i)) = adr cnt k i := next_at hw k i
    simp only [exec, hn] at e3 ⊢
    have t1 := top_one hw e1
    have t2 := top_each hw h3 e3
    simp [top_append, t1, t2]

theorem top_all (hw : NoWrap cnt) {k : Pool} {c : Nat} {l : List Nat} {is : List Item}
    (h : Chain x.fl.cells (x.fl.cells c) (l.map (adr cnt k))) (e : Ev cnt b x [.all c k 1] is) :
    top is = l.map fun i => (k, at_ cnt b k i) := by
  obtain ⟨js, h1, rfl⟩ := Ev.one_iff.1 e
  simp only [exec] at h1 ⊢
  simpa using top_each hw h h1

end

/-! ### The references a dump follows -/

section
variable (cnt : Pool → Nat) (b : Nat)

/-- NULL or the address of a record. -/
def RecAt (k : Pool) (p : Nat) : Prop := p = 0 ∨ ∃ r, IsRec cnt k r ∧ p = toAbs b r

def ItemOK (i : Item) : Prop := ∀ lv k p, i.record = some (lv, k, p) → ∃ r, IsRec cnt k r ∧ p = toAbs b r

def TaskOK : Task → Prop
  | .put i => i.record = none
  | .line _ => True
  | .test c k => IsCell cnt k c
  | .first c k => IsCell cnt k c
  | .all c k _ => IsCell cnt k c
  | .each k _ p => RecAt cnt b k p
  | .next k _ p => RecAt cnt b k p ∧ p ≠ 0
  | .one k _ p => RecAt cnt b k p
  | .wmtx p _ => RecAt cnt b .waiter p ∧ p ≠ 0

end

section
variable {cnt : Pool → Nat} (hw : NoWrap cnt) {b : Nat} {x : Seg.State}
include hw

theorem recAt_abs {k : Pool} {v : Nat} (h : Ref cnt k v) : RecAt cnt b k (toAbs b v) := by
  rcases h with rfl | h
  · exact .inl (by simp [toAbs])
  · exact .inr ⟨v, h, rfl⟩

theorem recAt_at {k : Pool} {p : Nat} (h : RecAt cnt b k p) (hp : p ≠ 0) : ∃ i < cnt k, p = at_ cnt b k i := by
  rcases h with h | ⟨r, ⟨i, hi, rfl⟩, rfl⟩
  · exact absurd h hp
  · exact ⟨i, hi, rfl⟩

theorem exec_ok (ht : Typed cnt x.fl.cells) (hm : WM cnt x) {t : Task} (h : TaskOK cnt b t) :
    (∀ i ∈ (exec cnt b x t).1, ItemOK cnt b i) ∧ ∀ u ∈ (exec cnt b x t).2, TaskOK cnt b u := by
  cases t with
  | put i =>
    simp only [TaskOK] at h
    refine ⟨?_, by simp [exec]⟩
    intro j hj lv k p e
    simp only [exec, List.mem_singleton] at hj
    subst hj; rw [h] at e; cases e
  | line c =>
    refine ⟨?_, by simp [exec]⟩
    intro j hj lv k p e
    simp only [exec, List.mem_singleton] at hj
    subst hj; cases e
  | test c k =>
    refine ⟨by simp [exec], ?_⟩
    intro u hu
    simp only [exec] at hu
    split at hu
    · simp only [List.mem_singleton] at hu; subst hu; exact h
    · cases hu
  | first c k =>
    refine ⟨by simp [exec], ?_⟩
    intro u hu
    simp only [exec, List.mem_singleton] at hu
    subst hu
    exact recAt_abs hw (ht _ _ h)
  | all c k lv =>
    refine ⟨by simp [exec], ?_⟩
    intro u hu
    simp only [exec, List.mem_singleton] at hu
    subst hu
    exact recAt_abs hw (ht _ _ h)
  | each k lv p =>
    refine ⟨by simp [exec], ?_⟩
    intro u hu
    simp only [exec] at hu
    split at hu
    · cases hu
    · rename_i hp
      simp only [List.mem_cons, List.not_mem_nil, or_false] at hu
      rcases hu with rfl | rfl
      · exact h
      · exact ⟨h, hp⟩
  | next k lv p =>
    refine ⟨by simp [exec], ?_⟩
    intro u hu
    simp only [exec, List.mem_singleton] at hu
    subst hu
    obtain ⟨i, hi, rfl⟩ := recAt_at hw h.1 h.2
    rw [next_at hw]
    exact recAt_abs hw (ht _ _ (.inl ⟨i, hi, rfl⟩))
  | one k lv p =>
    by_cases hp : p = 0
    · simp [exec, hp]
    · obtain ⟨i, hi, rfl⟩ := recAt_at hw h hp
      have hr : ∃ r, IsRec cnt k r ∧ at_ cnt b k i = toAbs b r := ⟨_, ⟨i, hi, rfl⟩, rfl⟩
      simp only [exec, if_neg hp]
      cases k with
      | file =>
        simp only [body, idx_at]
        refine ⟨?_, ?_⟩
        · intro j hj lv k p e
          simp only [List.mem_cons, List.not_mem_nil, or_false] at hj
          rcases hj with rfl | rfl
          · simp only [Item.record, Option.some.injEq, Prod.mk.injEq] at e
            obtain ⟨-, rfl, rfl⟩ := e
            exact hr
          · cases e
        · intro u hu
          simp only [List.mem_cons, List.not_mem_nil, or_false] at hu
          rcases hu with rfl | rfl | rfl
          · exact Seg.fcell hw (h := .offs i) hi
          · rfl
          · rfl
      | off =>
        simp only [body, idx_at]
        refine ⟨?_, ?_⟩
        · intro j hj lv k p e
          simp only [List.mem_cons, List.not_mem_nil, or_false] at hj
          rcases hj with rfl | rfl
          · simp only [Item.record, Option.some.injEq, Prod.mk.injEq] at e
            obtain ⟨-, rfl, rfl⟩ := e
            exact hr
          · cases e
        · intro u hu
          simp only [List.mem_cons, List.not_mem_nil, or_false] at hu
          rcases hu with rfl | rfl | rfl | rfl | rfl | rfl
          · exact Seg.fcell hw (h := .lks i .rd) hi
          · rfl
          · rfl
          · exact Seg.fcell hw (h := .lks i .wr) hi
          · rfl
          · rfl
      | locker =>
        simp only [body]
        refine ⟨?_, by simp⟩
        intro j hj lv k p e
        simp only [List.mem_cons, List.not_mem_nil, or_false] at hj
        rcases hj with rfl | rfl
        · simp only [Item.record, Option.some.injEq, Prod.mk.injEq] at e
          obtain ⟨-, rfl, rfl⟩ := e
          exact hr
        · cases e
      | nmtx =>
        simp only [body]
        refine ⟨?_, by simp⟩
        intro j hj lv k p e
        simp only [List.mem_cons, List.not_mem_nil, or_false] at hj
        rcases hj with rfl | rfl
        · simp only [Item.record, Option.some.injEq, Prod.mk.injEq] at e
          obtain ⟨-, rfl, rfl⟩ := e
          exact hr
        · cases e
      | ncond =>
        simp only [body, idx_at]
        refine ⟨?_, ?_⟩
        · intro j hj lv k p e
          simp only [List.mem_cons, List.not_mem_nil, or_false] at hj
          rcases hj with rfl | rfl
          · simp only [Item.record, Option.some.injEq, Prod.mk.injEq] at e
            obtain ⟨-, rfl, rfl⟩ := e
            exact hr
          · cases e
        · intro u hu
          simp only [List.mem_cons, List.not_mem_nil, or_false] at hu
          rcases hu with rfl | rfl | rfl
          · exact Seg.mcell hw (h := .ws i) hi
          · rfl
          · rfl
      | waiter =>
        simp only [body]
        refine ⟨?_, ?_⟩
        · intro j hj lv k p e
          simp only [List.mem_cons, List.not_mem_nil, or_false] at hj
          rcases hj with rfl | rfl
          · simp only [Item.record, Option.some.injEq, Prod.mk.injEq] at e
            obtain ⟨-, rfl, rfl⟩ := e
            exact hr
          · cases e
        · intro u hu
          simp only [List.mem_cons, List.not_mem_nil, or_false] at hu
          rcases hu with rfl | rfl | rfl
          · exact ⟨h, hp⟩
          · rfl
          · rfl
  | wmtx p lv =>
    refine ⟨by simp [exec], ?_⟩
    intro u hu
    simp only [exec, List.mem_singleton] at hu
    subst hu
    exact recAt_abs hw (hm _)

theorem start_ok (free : Bool) : ∀ t ∈ (start cnt true free).todo, TaskOK cnt b t := by
  have f1 := Seg.fcell hw (h := .files) trivial
  have f2 := Seg.fcell hw (h := .ffree) trivial
  have f3 := Seg.fcell hw (h := .ofree) trivial
  have f4 := Seg.fcell hw (h := .lfree) trivial
  have m1 := Seg.mcell hw (h := .mtxs) trivial
  have m2 := Seg.mcell hw (h := .conds) trivial
  have m3 := Seg.mcell hw (h := .mfree) trivial
  have m4 := Seg.mcell hw (h := .cfree) trivial
  have m5 := Seg.mcell hw (h := .wfree) trivial
  intro t h
  cases free <;> simp only [start, lines, used, unused, if_true, List.cons_append, List.nil_append, List.append_nil,
      List.mem_cons, List.not_mem_nil, or_false, Bool.false_eq_true, if_false] at h <;>
    (repeat' (rcases h with rfl | h)) <;> first | (subst h; first | rfl | trivial) | rfl | trivial | assumption

end

/-! ### The member `named_mutex` -/

theorem mc_wmtx {cnt : Pool → Nat} (hw : NoWrap cnt) {fuel : Nat} {base : Nat → Nat} {T : MCMem.Tab} {x x' : MCMem.State}
    {s : MC.State} (S : MCMem.Sim cnt base T x s) {e : MCMem.Ev} (h : MCMem.step cnt fuel base x e = some x')
    (hm : ∀ w, Ref cnt .nmtx (x.mem.wmtx w)) : ∀ w, Ref cnt .nmtx (x'.mem.wmtx w) := by
  cases e with
  | call t c =>
    simp only [MCMem.step] at h
    split at h
    · cases h
    · split at h
      · cases h; exact hm
      · cases h
  | die t c j =>
    simp only [MCMem.step] at h
    split at h
    · cases h
    · cases h; exact hm
  | go t c =>
    simp only [MCMem.step] at h
    split at h
    · cases h
    · rename_i ha
      simp only [Bool.not_eq_false] at ha
      obtain ⟨⟨ws, y, p⟩, h1, rfl⟩ := Option.map_eq_some_iff.1 h
      have hq := S.pcs t (by rw [← S.alive]; exact ha)
      have key : y.wmtx = x.mem.wmtx ∨ ∃ w m, m < cnt .nmtx ∧
          y.wmtx = MC.upd x.mem.wmtx w (toRel (base t) (MCMem.ptr cnt (base t) .nmtx m)) := by
        by_cases hp : ∃ c' w m kd, x.pc t = .wIni c' w m kd
        · obtain ⟨c', w, m, kd, hp⟩ := hp
          rw [hp] at hq h1
          simp only [MCMem.PcR] at hq
          cases c <;> simp only [MCMem.plan, MCMem.plain, reduceCtorEq, Option.some.injEq, Prod.mk.injEq] at h1
          obtain ⟨-, rfl, -⟩ := h1
          exact .inr ⟨w, m, S.snd.lt .mtxs m (by tauto), rfl⟩
        · left
          generalize x.pc t = p0 at hp h1
          unfold MCMem.plan at h1
          split at h1
          all_goals
            first
            | (exfalso; exact hp ⟨_, _, _, _, rfl⟩)
            | skip
          all_goals
            try simp only [MCMem.plain, Option.bind_eq_some_iff, Option.map_eq_some_iff] at h1
          all_goals
            (repeat' split at h1)
          all_goals
            try simp only [Option.bind_eq_some_iff, Option.map_eq_some_iff] at h1
          all_goals
            first
            | (cases h1; done)
            | (simp only [Option.some.injEq, Prod.mk.injEq] at h1; rw [← h1.2.1]; done)
            | (obtain ⟨a, h2, h3⟩ := h1
               repeat' split at h3
               all_goals first
                | (cases h3; done)
                | (simp only [Option.some.injEq, Prod.mk.injEq] at h3; rw [← h3.2.1]))
            | grind
      rcases key with e | ⟨w, m, hm', e⟩
      · intro v
        simp only [e]
        exact hm v
      · intro v
        simp only [e, MC.upd]
        split
        · have e1 : toRel (base t) (MCMem.ptr cnt (base t) .nmtx m) = adr cnt .nmtx m := by
            have := adr_pos hw .nmtx m
            simp [toRel, MCMem.ptr, toAbs, this]
          rw [e1]
          exact .inr ⟨m, hm', rfl⟩
        · exact hm v

end Fullock.Dump
