import Verif.Props.RcsvConc
import Verif.Proofs.RcsvLife
/-
C84: objects of the recursive lock class are constructed and destroyed while threads run.
-/
namespace Fullock.Props.RcsvLife
open Fullock.Rcsv Fullock.Rcsv.Conc Fullock.Spec.Rcsv Fullock.Spec.RcsvLife Fullock.Props.Rcsv Fullock.Props.RcsvConc
open Fullock.Proofs.RcsvLife

/-- Threads construct objects, make calls on their own objects that exist, destroy them, and run in any order. -/
inductive LReach (okS : LState → Nat → Prop) (ok : State → List Bool → Op → Prop) (r : Nat → Rng) : LState → Ghost → Prop
  | init : LReach okS ok r (LState.initL r) ⟨fun _ => .free, fun _ => []⟩
  | new {s g} (h : LReach okS ok r s g) (t i : Nat) (ht : (r i).tid = t) (s' : LState) (e : s.newL t i = some s') :
      LReach okS ok r s' g
  | call {s g} (h : LReach okS ok r s g) (t : Nat) (os : List Bool) (op : Op) (ht : (r (opObj op)).tid = t)
      (hl : s.life (opObj op) = .live) (hok : ok s.c.sh os op) (s' : LState) (e : s.callL t os op = some s') :
      LReach okS ok r s' { g with use := fun u => if u = t then ranges s.c.sh op else g.use u }
  | del {s g} (h : LReach okS ok r s g) (t : Nat) (os : List Bool) (i : Nat) (ht : (r i).tid = t)
      (hl : s.life i = .live) (hok : ok s.c.sh os (.unlock i)) (s' : LState) (e : s.delL t os i = some s') :
      LReach okS ok r s' { g with use := fun u => if u = t then ranges s.c.sh (.unlock i) else g.use u }
  | step {s g} (h : LReach okS ok r s g) (t : Nat) (hs : okS s t) (s' : LState) (e : s.stepL t = some s') :
      LReach okS ok r s' (g.learn s.c t)

/-- No destructor's unlocking is refused. -/
def smooth (s : LState) (t : Nat) : Prop := ¬ refused s t

theorem stepL_c {s s' : LState} {t : Nat} (e : s.stepL t = some s') : Conc.step s.c t = some s'.c := by
  unfold LState.stepL at e
  cases h : Conc.step s.c t with
  | none => rw [h] at e; cases e
  | some c =>
    rw [h] at e
    simp only at e
    split at e <;> simp only [Option.some.injEq] at e <;> subst e <;> rfl

theorem toReach {okS : LState → Nat → Prop} {ok : State → List Bool → Op → Prop} {r : Nat → Rng} {s : LState} {g : Ghost}
    (h : LReach okS ok r s g) : Reach ok r s.c g := by
  induction h with
  | init => exact .init
  | new h t i ht s' e ih =>
    unfold LState.newL at e
    split at e
    · cases e
    · split at e
      · simp only [Option.some.injEq] at e; subst e; exact ih
      · cases e
  | call h t os op ht hl hok s' e ih =>
    rename_i s g
    unfold LState.callL at e
    cases hc : Conc.call s.c t os op with
    | none => rw [hc] at e; cases e
    | some c =>
      rw [hc] at e
      simp only [Option.some.injEq] at e; subst e
      exact .call ih t os op ht hok c hc
  | del h t os i ht hl hok s' e ih =>
    rename_i s g
    unfold LState.delL at e
    cases hc : Conc.call s.c t os (.unlock i) with
    | none => rw [hc] at e; cases e
    | some c =>
      rw [hc] at e
      simp only [Option.some.injEq] at e; subst e
      exact .call ih t os (.unlock i) ht hok c hc
  | step h t hs s' e ih => exact .step ih t s'.c (stepL_c e)

/-- The existing objects of a thread. -/
def own (r : Nat → Rng) (s : LState) (t i : Nat) : Prop := s.life i = .live ∧ (r i).tid = t

structure LInv (r : Nat → Rng) (s : LState) : Prop where
  stk : ∀ j ∈ s.c.sh.stack, s.life j = .live
  ref : ∀ i, refsIn (own r s (r i).tid) (s.c.sh.obj i)
  prog : ∀ t f, s.c.run t = some f → SafeP (own r s t) f.prog ∧ own r s t (opObj f.op)
  dying : ∀ t i, s.dying t = some i → ∃ p os, s.c.run t = some ⟨p, os, .unlock i⟩

theorem LInv.congr {r : Nat → Rng} {s : LState} {c : CState} {d : Nat → Option Nat} (h : LInv r s) (t : Nat) (i : Nat)
    (hs : ∀ j ∈ c.sh.stack, s.life j = .live)
    (ho : ∀ j, refsIn (own r s (r j).tid) (c.sh.obj j))
    (hr : ∀ u, u ≠ t → c.run u = s.c.run u)
    (hp : ∀ f, c.run t = some f → SafeP (own r s t) f.prog ∧ own r s t (opObj f.op))
    (hd : ∀ u, u ≠ t → d u = s.dying u)
    (hdt : ∀ i, d t = some i → ∃ p os, c.run t = some ⟨p, os, .unlock i⟩) : LInv r { s with c := c, dying := d } := by
  refine ⟨hs, ho, fun u f hf => ?_, fun u i hi => ?_⟩
  · by_cases hu : u = t
    · subst hu; exact hp f hf
    · simp only [hr u hu] at hf; exact h.prog u f hf
  · by_cases hu : u = t
    · subst hu; exact hdt i hi
    · simp only [hd u hu] at hi
      simp only [hr u hu]
      exact h.dying u i hi

/-- An instruction that is not the last of its call. -/
theorem step_linv {r : Nat → Rng} {s : LState} (hB : Base r s.c) (h : LInv r s) {t : Nat} {p : Prog} {os : List Bool} {op : Op}
    (hrun : s.c.run t = some ⟨p, os, op⟩) (hp : ∀ b, p ≠ .ret b) {c : CState} (e : Conc.step s.c t = some c) :
    LInv r { s with c := c } := by
  obtain ⟨hsafe, hop⟩ := h.prog t _ hrun
  simp only at hsafe hop
  have hD : ∀ (q : Prog) (os' : List Bool) (c : CState), (c.run t = some ⟨q, os', op⟩) →
      ∀ i, s.dying t = some i → ∃ p os, c.run t = some ⟨p, os, .unlock i⟩ := by
    intro q os' c hc i hi
    obtain ⟨p0, os0, h0⟩ := h.dying t i hi
    rw [hrun] at h0
    simp only [Option.some.injEq, Frame.mk.injEq] at h0
    obtain ⟨_, _, rfl⟩ := h0
    exact ⟨q, os', hc⟩
  have fin : ∀ (c : CState) (q : Prog) (os' : List Bool), (∀ j ∈ c.sh.stack, s.life j = .live) →
      (∀ j, refsIn (own r s (r j).tid) (c.sh.obj j)) → (c.run = fun u => if u = t then some ⟨q, os', op⟩ else s.c.run u) →
      SafeP (own r s t) q → LInv r { s with c := c } := by
    intro c q os' h1 h2 h3 h4
    refine h.congr t 0 h1 h2 (fun u hu => by rw [h3]; simp [hu]) (fun f hf => ?_) (fun _ _ => rfl) (hD q os' c (by rw [h3]; simp))
    rw [h3] at hf
    simp only [if_true, Option.some.injEq] at hf
    subst hf
    exact ⟨h4, hop⟩
  have hsame : ∀ m i : Nat, (s.c.sh.obj m).rng.tid = (s.c.sh.obj i).rng.tid → (r m).tid = (r i).tid := by
    intro m i hm; rw [← hB.tid m, ← hB.tid i]; exact hm
  unfold Conc.step at e
  rw [hrun] at e
  cases p with
  | ret b => exact absurd rfl (hp b)
  | lock k =>
    simp only at e
    split at e
    · cases e
    · simp only [Option.some.injEq] at e; subst e
      exact fin _ k os h.stk h.ref rfl hsafe
  | unlock k =>
    simp only [Option.some.injEq] at e; subst e
    exact fin _ k os h.stk h.ref rfl hsafe
  | look i k =>
    simp only [Option.some.injEq] at e; subst e
    refine fin _ (k (s.c.sh.obj i)) os h.stk h.ref rfl (hsafe.2 _ ?_)
    have := h.ref i
    rw [hsafe.1.2] at this
    exact this
  | upd i g k =>
    simp only [Option.some.injEq] at e; subst e
    refine fin _ k os h.stk (fun j => ?_) rfl hsafe.2.2
    simp only [State.mod]
    split
    · rename_i hj
      subst hj
      have := h.ref j
      rw [hsafe.1.2] at this ⊢
      exact hsafe.2.1 _ this
    · exact h.ref j
  | erase i k =>
    simp only [Option.some.injEq] at e; subst e
    exact fin _ k os (fun j hj => h.stk j (List.mem_of_mem_erase hj)) h.ref rfl hsafe
  | push i k =>
    simp only [Option.some.injEq] at e; subst e
    refine fin _ k os (fun j hj => ?_) h.ref rfl hsafe.2
    simp only [CState.touch, List.mem_append, List.mem_singleton] at hj
    rcases hj with hj | rfl
    · exact h.stk j hj
    · exact hsafe.1.1
  | find i k =>
    simp only [Option.some.injEq] at e; subst e
    refine fin _ _ os h.stk h.ref rfl (hsafe.2 _ fun m hm => ?_)
    have h1 := List.mem_of_find?_eq_some hm
    have h2 := List.find?_some hm
    exact ⟨h.stk m h1, (hsame m i (Conc.compare_tid h2)).trans hsafe.1.2⟩
  | scan i k =>
    simp only [Option.some.injEq] at e; subst e
    have hsub := scanW_sub (s.c.touch t).sh i (s.c.touch t).sh.stack
    have hmem := scanW_mem (s.c.touch t).sh i (s.c.touch t).sh.stack
    refine fin _ _ os (fun j hj => h.stk j (hsub.2 j hj)) h.ref rfl (hsafe.2 _ _ (fun m hm => ?_) (fun j hj => ?_))
    · exact ⟨h.stk m (hsub.1 m hm).1, (hsame m i (Conc.compare_tid (hsub.1 m hm).2)).trans hsafe.1.2⟩
    · exact ⟨h.stk j (hmem j hj).1, (hsame j i (Conc.compare_tid (hmem j hj).2)).trans hsafe.1.2⟩
  | grant q w k =>
    simp only at e
    split at e
    · split at e
      · cases e
      · simp only [Option.some.injEq] at e; subst e
        exact fin _ (k true) os.tail h.stk h.ref rfl (hsafe _)
    · simp only [Option.some.injEq] at e; subst e
      exact fin _ (k false) os.tail h.stk h.ref rfl (hsafe _)
  | free q k =>
    simp only [Option.some.injEq] at e; subst e
    have : (segUnlock s.c.sh q os).2.1.stack = s.c.sh.stack ∧ (segUnlock s.c.sh q os).2.1.obj = s.c.sh.obj := by
      unfold segUnlock; split <;> exact ⟨rfl, rfl⟩
    refine fin _ (k (segUnlock s.c.sh q os).1) (segUnlock s.c.sh q os).2.2 (fun j hj => h.stk j ?_) (fun j => ?_) rfl (hsafe _)
    · simpa [this.1] using hj
    · simp only [this.2]; exact h.ref j

/-- The life of an object of thread `t` begins or ends. -/
theorem own_other {r : Nat → Rng} {s : LState} {i t u : Nat} {l : Life} {c : CState} {d : Nat → Option Nat} (hi : (r i).tid = t)
    (hu : u ≠ t) : own r { s with c := c, life := fun j => if j = i then l else s.life j, dying := d } u = own r s u := by
  funext j
  simp only [own, eq_iff_iff]
  constructor
  · rintro ⟨h1, h2⟩
    by_cases hj : j = i
    · subst hj; exact absurd (h2.symm.trans hi) hu
    · exact ⟨by simpa [hj] using h1, h2⟩
  · rintro ⟨h1, h2⟩
    by_cases hj : j = i
    · subst hj; exact absurd (h2.symm.trans hi) hu
    · simpa [hj] using ⟨h1, h2⟩

theorem refsIn_mono {L L' : Nat → Prop} {o : Obj} (h : refsIn L o) (hL : ∀ i, L i → L' i) : refsIn L' o :=
  ⟨fun m hm => hL m (h.1 m hm), fun j hj => hL j (h.2 j hj)⟩

theorem goto_run (c : CState) (t : Nat) (f : Option Frame) : (c.goto t f).run = fun u => if u = t then f else c.run u := rfl

theorem call_some {c c' : CState} {t : Nat} {os : List Bool} {op : Op} (e : Conc.call c t os op = some c') :
    c.run t = none ∧ c' = c.goto t (some ⟨callP op, os, op⟩) := by
  unfold Conc.call at e
  split at e
  · rename_i h; simp only [Option.some.injEq] at e; exact ⟨h, e.symm⟩
  · cases e

theorem safe_of_obj {L : Nat → Prop} (op : Op) (h : L (opObj op)) : SafeP L (callP op) :=
  safe_call h (by cases op <;> rfl)

theorem linv {F : Rng → Prop} (hF : Sep F) {r : Nat → Rng} (hr : ∀ i, F (r i)) {s : LState} {g : Ghost}
    (h : LReach smooth (okC F) r s g) : LInv r s := by
  induction h with
  | init => exact ⟨by simp [LState.initL, Conc.init, Rcsv.init], fun i => ⟨by simp [LState.initL, Conc.init, Rcsv.init],
      by simp [LState.initL, Conc.init, Rcsv.init]⟩, (fun t f e => by cases e), (fun t i e => by cases e)⟩
  | new h t i ht s' e ih =>
    rename_i s g
    unfold LState.newL at e
    split at e
    · cases e
    rename_i hrun
    split at e
    · rename_i hb
      simp only [Option.some.injEq] at e; subst e
      have hm : ∀ u j, own r s u j → own r { s with life := fun j => if j = i then .live else s.life j } u j := by
        rintro u j ⟨h1, h2⟩
        refine ⟨?_, h2⟩
        simp only
        split
        · rfl
        · exact h1
      refine ⟨fun j hj => (hm _ j ⟨ih.stk j hj, rfl⟩).1, fun j => refsIn_mono (ih.ref j) (hm _), fun u f hf => ?_, ih.dying⟩
      have hu : u ≠ t := by rintro rfl; rw [hrun] at hf; cases hf
      have := own_other (s := s) (c := s.c) (d := s.dying) (l := .live) ht hu
      rw [this]
      exact ih.prog u f hf
    · cases e
  | call h t os op ht hl hok s' e ih =>
    rename_i s g
    unfold LState.callL at e
    cases hc : Conc.call s.c t os op with
    | none => rw [hc] at e; cases e
    | some c =>
      rw [hc] at e
      simp only [Option.some.injEq] at e; subst e
      obtain ⟨hrun, rfl⟩ := call_some hc
      refine ih.congr t 0 ih.stk ih.ref (fun u hu => by simp [goto_run, hu]) (fun f hf => ?_) (fun _ _ => rfl) (fun i hi => ?_)
      · simp only [goto_run, if_true, Option.some.injEq] at hf; subst hf
        exact ⟨safe_of_obj op ⟨hl, ht⟩, hl, ht⟩
      · obtain ⟨p, o, h0⟩ := ih.dying t i hi
        rw [hrun] at h0; cases h0
  | del h t os i ht hl hok s' e ih =>
    rename_i s g
    unfold LState.delL at e
    cases hc : Conc.call s.c t os (.unlock i) with
    | none => rw [hc] at e; cases e
    | some c =>
      rw [hc] at e
      simp only [Option.some.injEq] at e; subst e
      obtain ⟨hrun, rfl⟩ := call_some hc
      refine ih.congr t 0 ih.stk ih.ref (fun u hu => by simp [goto_run, hu]) (fun f hf => ?_) (fun _ hu => by simp [hu]) (fun j hj => ?_)
      · simp only [goto_run, if_true, Option.some.injEq] at hf; subst hf
        exact ⟨safe_of_obj (.unlock i) ⟨hl, ht⟩, hl, ht⟩
      · simp only [if_true, Option.some.injEq] at hj; subst hj
        exact ⟨callP (.unlock i), os, by simp [goto_run]⟩
  | step h t hs s' e ih =>
    rename_i s g
    have hc := stepL_c e
    have hI := reach_inv hF hr (toReach h)
    have hI' := reach_inv hF hr (toReach (.step h t hs s' e))
    cases hrun : s.c.run t with
    | none => rw [Conc.step, hrun] at hc; cases hc
    | some f =>
      obtain ⟨p, os, op⟩ := f
      by_cases hp : ∃ b, p = .ret b
      · obtain ⟨b, rfl⟩ := hp
        unfold LState.stepL at e
        rw [hc, hrun] at e
        simp only [Option.some.injEq] at e
        have hc' : s'.c = s.c.goto t none := by
          rw [Conc.step, hrun] at hc
          simp only [Option.some.injEq] at hc
          exact hc.symm
        cases hd : s.dying t with
        | none =>
          simp only [LState.endL, hd, hc'] at e
          subst e
          refine ih.congr t 0 ih.stk ih.ref (fun u hu => by simp [goto_run, hu]) (fun f hf => ?_) (fun _ _ => rfl) (fun i hi => ?_)
          · simp [goto_run] at hf
          · rw [hd] at hi; cases hi
        | some i =>
          obtain ⟨p0, os0, h0⟩ := ih.dying t i hd
          rw [hrun] at h0
          simp only [Option.some.injEq, Frame.mk.injEq] at h0
          obtain ⟨_, _, rfl⟩ := h0
          have hb : b = true := by
            cases b with
            | true => rfl
            | false => exact absurd ⟨by simp [hd], os, _, hrun⟩ hs
          subst hb
          simp only [LState.endL, hd, hc'] at e
          subst e
          obtain ⟨hl, hit⟩ := (ih.prog t _ hrun).2
          simp only [opObj] at hl hit
          -- the destroyed object is not locked, nothing refers to it
          obtain ⟨hH, _⟩ := (hI'.thr t).idle (by simp [goto_run])
          have hG := hist_good hF hr (hist_weak hH)
          have hfree : (s.c.sh.obj i).locked = false := by
            have h1 : ((proj r t (s.c.goto t none)).obj i).locked = true → False := by
              intro h1
              have := hG.may i h1
              simp [mine, hit, Ghost.learn, hrun, opObj, opReq, Know.next, Know.may] at this
            rw [proj_obj hit] at h1
            simpa [CState.goto] using h1
          have hobj : ∀ j, (r j).tid = t → (proj r t (s.c.goto t none)).obj j = s.c.sh.obj j := fun j hj => proj_obj hj
          have hnl : ((proj r t (s.c.goto t none)).obj i).locked ≠ true := by rw [hobj i hit, hfree]; simp
          have hnstk : i ∉ s.c.sh.stack := by
            intro hi
            have : i ∈ (proj r t (s.c.goto t none)).stack := List.mem_filter.2 ⟨hi, by simpa using hit⟩
            exact hnl ((hG.inv.stk i).1 this).1
          have hnm : ∀ j, (s.c.sh.obj j).master ≠ some i := by
            intro j hj
            have hjt : (r j).tid = t := by
              have := ((ih.ref j).1 i hj).2
              rw [hit] at this; exact this.symm
            rw [← hobj j hjt] at hj
            by_cases hlk : ((proj r t (s.c.goto t none)).obj j).locked = true
            · exact hnl ((hG.inv.stk i).1 (hG.inv.mst j i hlk hj).1).1
            · have := hG.inv.free j (by simpa using hlk)
              rw [hj] at this; cases this
          have hnp : ∀ j, i ∉ (s.c.sh.obj j).pend := by
            intro j hj
            have hjt : (r j).tid = t := by
              have := ((ih.ref j).2 i hj).2
              rw [hit] at this; exact this.symm
            rw [← hobj j hjt] at hj
            exact hnl ((hG.inv.pnd j i).1 hj).1
          refine ⟨fun j hj => ?_, fun j => ⟨fun m hm => ?_, fun m hm => ?_⟩, fun u f hf => ?_, fun u j hj => ?_⟩
          · simp only [CState.goto] at hj
            have hji : j ≠ i := fun h => hnstk (h ▸ hj)
            simpa [hji] using ih.stk j hj
          · simp only [CState.goto] at hm
            have hji : m ≠ i := fun h => hnm j (h ▸ hm)
            simpa [own, hji] using (ih.ref j).1 m hm
          · simp only [CState.goto] at hm
            have hji : m ≠ i := fun h => hnp j (h ▸ hm)
            simpa [own, hji] using (ih.ref j).2 m hm
          · simp only [goto_run] at hf
            by_cases hu : u = t
            · simp [hu] at hf
            · simp only [hu, if_false] at hf
              rw [own_other hit hu]
              exact ih.prog u f hf
          · by_cases hu : u = t
            · simp [hu] at hj
            · simp only [hu, if_false] at hj
              simp only [goto_run, hu, if_false]
              exact ih.dying u j hj
      · have hne : ∀ b, p ≠ .ret b := fun b h => hp ⟨b, h⟩
        have he : s' = { s with c := s'.c } := by
          unfold LState.stepL at e
          rw [hc, hrun] at e
          cases p with
          | ret b => exact absurd rfl (hne b)
          | _ => simp only [Option.some.injEq] at e; exact e.symm
        rw [he]
        exact step_linv hI.base ih hrun hne hc

end Fullock.Props.RcsvLife

namespace Fullock.Props
open Fullock.Rcsv Fullock.Rcsv.Conc Fullock.Spec.Rcsv Fullock.Spec.RcsvLife Fullock.Props.Rcsv Fullock.Props.RcsvConc
open Fullock.Proofs.RcsvLife Fullock.Props.RcsvLife

/-! ### C84 -/

/-- C84 as stated: no thread ever uses an object that does not exist. -/
def C84_full : Prop :=
  ∀ F, Sep F → ∀ r, (∀ i, F (r i)) → ∀ s g, LReach (fun _ _ => True) (okC F) r s g → ∀ t f, s.c.run t = some f →
    ∀ i ∈ uses s.c.sh f.prog, s.life i = .live

/-- While no unlocking of a destructor is refused, no thread uses an object that is destroyed or not yet constructed. -/
theorem C84_uses_partial {F : Rng → Prop} (hF : Sep F) {r : Nat → Rng} (hr : ∀ i, F (r i)) {s : LState} {g : Ghost}
    (h : LReach smooth (okC F) r s g) (t : Nat) (f : Frame) (hf : s.c.run t = some f) (i : Nat)
    (hi : i ∈ uses s.c.sh f.prog) : s.life i = .live := by
  have hI := linv hF hr h
  obtain ⟨p, os, op⟩ := f
  have := (hI.prog t _ hf).1
  cases p <;> simp only [uses, SafeP, List.mem_cons, List.not_mem_nil, or_false] at hi this
  · subst hi; exact this.1.1
  · subst hi; exact this.1.1
  · rcases hi with rfl | hi
    · exact this.1.1
    · exact hI.stk i hi
  · rcases hi with rfl | hi
    · exact this.1.1
    · exact hI.stk i hi

/-- The object of a call in progress exists, and nothing refers to an object that does not. -/
theorem C84_refers_partial {F : Rng → Prop} (hF : Sep F) {r : Nat → Rng} (hr : ∀ i, F (r i)) {s : LState} {g : Ghost}
    (h : LReach smooth (okC F) r s g) :
    (∀ t f, s.c.run t = some f → s.life (opObj f.op) = .live) ∧ (∀ x, refersTo s.c.sh x → s.life x = .live) := by
  have hI := linv hF hr h
  refine ⟨fun t f hf => (hI.prog t f hf).2.1, fun x hx => ?_⟩
  rcases hx with hx | ⟨i, hx | hx⟩
  · exact hI.stk x hx
  · exact ((hI.ref i).1 x hx).1
  · exact ((hI.ref i).2 x hx).1

theorem know_free {F : Rng → Prop} (hF : Sep F) {r : Nat → Rng} (hr : ∀ i, F (r i)) {s : LState} {g : Ghost}
    (h : LReach smooth (okC F) r s g) : ∀ i, s.life i ≠ .live → g.know i = .free := by
  induction h with
  | init => exact fun _ _ => rfl
  | new h t i ht s' e ih =>
    unfold LState.newL at e
    split at e
    · cases e
    split at e
    · simp only [Option.some.injEq] at e; subst e
      intro j hj
      by_cases hji : j = i
      · simp [hji] at hj
      · simp only [hji, if_false] at hj; exact ih j hj
    · cases e
  | call h t os op ht hl hok s' e ih =>
    rename_i s g
    unfold LState.callL at e
    split at e
    · cases e
    · simp only [Option.some.injEq] at e; subst e; exact ih
  | del h t os i ht hl hok s' e ih =>
    rename_i s g
    unfold LState.delL at e
    split at e
    · cases e
    · simp only [Option.some.injEq] at e; subst e; exact ih
  | step h t hs s' e ih =>
    rename_i s g
    have hI := linv hF hr h
    have hc := stepL_c e
    cases hrun : s.c.run t with
    | none => rw [Conc.step, hrun] at hc; cases hc
    | some f =>
      obtain ⟨p, os, op⟩ := f
      unfold LState.stepL at e
      rw [hc, hrun] at e
      cases p with
      | ret b =>
        simp only [Option.some.injEq] at e
        have hl := (hI.prog t _ hrun).2.1
        simp only at hl
        intro i hi
        simp only [Ghost.learn, hrun]
        cases hd : s.dying t with
        | none =>
          simp only [LState.endL, hd] at e
          rw [← e] at hi
          simp only at hi
          have hne : i ≠ opObj op := fun h => hi (h ▸ hl)
          simp only [hne, if_false]
          exact ih i hi
        | some j =>
          obtain ⟨p0, os0, h0⟩ := hI.dying t j hd
          rw [hrun] at h0
          simp only [Option.some.injEq, Frame.mk.injEq] at h0
          obtain ⟨_, _, rfl⟩ := h0
          have hb : b = true := by
            cases b with
            | true => rfl
            | false => exact absurd ⟨by simp [hd], os, _, hrun⟩ hs
          subst hb
          simp only [LState.endL, hd] at e
          rw [← e] at hi
          simp only at hi
          by_cases hij : i = j
          · simp [hij, opObj, opReq, Know.next]
          · simp only [hij, if_false] at hi
            simp only [opObj, hij, if_false]
            exact ih i hi
      | _ =>
        simp only [Option.some.injEq] at e
        have hlf : s'.life = s.life := by rw [← e]
        rw [hlf]
        have : g.learn s.c t = g := by simp only [Ghost.learn, hrun]
        rw [this]
        exact ih

/-- A thread whose objects are all destroyed, or not yet constructed, holds nothing and has nothing in the table. -/
theorem C84_released_partial {F : Rng → Prop} (hF : Sep F) {r : Nat → Rng} (hr : ∀ i, F (r i)) {s : LState} {g : Ghost}
    (h : LReach smooth (okC F) r s g) (t : Nat) (ht : s.c.run t = none) (hk : ∀ i, (r i).tid = t → s.life i ≠ .live) :
    (∀ x ∈ s.c.sh.held, x.1.tid ≠ t) ∧ (∀ i ∈ s.c.sh.stack, (r i).tid ≠ t) :=
  C70_released_partial hF hr (toReach h) t ht fun i hi => know_free hF hr h i (hk i hi)

/-- A destroyed object is never alive again, and an object is not destroyed but by its destructor. -/
theorem C84_gone {s s' : LState} {t : Nat} {os : List Bool} {op : Op} {j i : Nat}
    (e : s.newL t j = some s' ∨ s.callL t os op = some s' ∨ s.delL t os j = some s' ∨ s.stepL t = some s') :
    (s.life i = .gone → s'.life i = .gone) ∧ (s'.life i = .gone → s.life i = .gone ∨ s.dying t = some i) := by
  rcases e with e | e | e | e
  · unfold LState.newL at e
    split at e
    · cases e
    · split at e
      · rename_i hu
        simp only [Option.some.injEq] at e; subst e
        simp only
        split
        · rename_i hij; subst hij; rw [hu]; simp
        · exact ⟨id, Or.inl⟩
      · cases e
  · unfold LState.callL at e
    split at e
    · cases e
    · simp only [Option.some.injEq] at e; subst e
      exact ⟨id, Or.inl⟩
  · unfold LState.delL at e
    split at e
    · cases e
    · simp only [Option.some.injEq] at e; subst e
      exact ⟨id, Or.inl⟩
  · unfold LState.stepL at e
    split at e
    · cases e
    · split at e
      · simp only [Option.some.injEq] at e; subst e
        unfold LState.endL
        cases hd : s.dying t with
        | none => exact ⟨id, Or.inl⟩
        | some k =>
          simp only
          split
          · rename_i hik; subst hik; simp
          · exact ⟨id, Or.inl⟩
      · simp only [Option.some.injEq] at e; subst e
        exact ⟨id, Or.inl⟩

/-- An object its user was told is locked stays backed by a lock of its range, whatever other objects are destroyed. -/
theorem C84_held_partial {F : Rng → Prop} (hF : Sep F) {r : Nat → Rng} (hr : ∀ i, F (r i)) {s : LState} {g : Ghost}
    (h : LReach smooth (okC F) r s g) (i : Nat) (hm : (g.know i).must = true) (hu : (s.c.sh.obj i).rng ∉ g.use (r i).tid) :
    s.life i = .live ∧ ∃ ty, ((s.c.sh.obj i).rng, ty) ∈ s.c.sh.held ∧ (g.know i = .excl → ty = .write) := by
  refine ⟨?_, C70_held_partial hF hr (toReach h) i hm hu⟩
  by_contra hn
  rw [know_free hF hr h i hn] at hm
  cases hm

/-! ### Runs for the refutation and the examples -/

/-- A construction, a call with segment calls that succeed, a destructor, or some steps. -/
inductive LfAct where
  | new (t i : Nat)
  | call (t : Nat) (op : Op)
  | del (t : Nat) (os : List Bool) (i : Nat)
  | steps (t n : Nat)

def lfSteps (okb : LState → Nat → Bool) (t : Nat) : Nat → LState × Ghost → Option (LState × Ghost)
  | 0, x => some x
  | n + 1, x =>
    if okb x.1 t then
      match x.1.stepL t with
      | none => none
      | some s' => lfSteps okb t n (s', x.2.learn x.1.c t)
    else none

def lfAct (okb : LState → Nat → Bool) (r : Nat → Rng) (x : LState × Ghost) : LfAct → Option (LState × Ghost)
  | .new t i =>
    if (r i).tid = t then
      match x.1.newL t i with
      | none => none
      | some s' => some (s', x.2)
    else none
  | .call t op =>
    if (r (opObj op)).tid = t ∧ isLockAt op = false ∧ (isUnlock op = true ∨ x.1.c.sh.stack.elem (opObj op) = false) ∧
        x.1.life (opObj op) = .live then
      match x.1.callL t [] op with
      | none => none
      | some s' => some (s', { x.2 with use := fun u => if u = t then ranges x.1.c.sh op else x.2.use u })
    else none
  | .del t os i =>
    if (r i).tid = t ∧ x.1.life i = .live then
      match x.1.delL t os i with
      | none => none
      | some s' => some (s', { x.2 with use := fun u => if u = t then ranges x.1.c.sh (.unlock i) else x.2.use u })
    else none
  | .steps t n => lfSteps okb t n x

def lfGo (okb : LState → Nat → Bool) (r : Nat → Rng) : List LfAct → LState × Ghost → Option (LState × Ghost)
  | [], x => some x
  | a :: l, x =>
    match lfAct okb r x a with
    | none => none
    | some y => lfGo okb r l y

theorem lfSteps_reach {okb : LState → Nat → Bool} {okS : LState → Nat → Prop} (hb : ∀ s t, okb s t = true → okS s t)
    {ok : State → List Bool → Op → Prop} {r : Nat → Rng} (t : Nat) : ∀ (n : Nat) (x y : LState × Ghost),
    LReach okS ok r x.1 x.2 → lfSteps okb t n x = some y → LReach okS ok r y.1 y.2
  | 0, x, y, h, e => by simp only [lfSteps, Option.some.injEq] at e; exact e ▸ h
  | n + 1, x, y, h, e => by
    simp only [lfSteps] at e
    split at e
    · rename_i ho
      cases hs : x.1.stepL t with
      | none => rw [hs] at e; cases e
      | some s' => rw [hs] at e; exact lfSteps_reach hb t n (s', _) y (.step h t (hb _ _ ho) s' hs) e
    · cases e

theorem lfGo_reach {okb : LState → Nat → Bool} {okS : LState → Nat → Prop} (hb : ∀ s t, okb s t = true → okS s t)
    {F : Rng → Prop} {r : Nat → Rng} : ∀ (l : List LfAct) (x y : LState × Ghost),
    LReach okS (okC F) r x.1 x.2 → lfGo okb r l x = some y → LReach okS (okC F) r y.1 y.2
  | [], x, y, h, e => by simp only [lfGo, Option.some.injEq] at e; exact e ▸ h
  | a :: l, x, y, h, e => by
    simp only [lfGo] at e
    cases hs : lfAct okb r x a with
    | none => rw [hs] at e; cases e
    | some z =>
      rw [hs] at e
      refine lfGo_reach hb l z y ?_ e
      cases a with
      | steps t n => exact lfSteps_reach hb t n x z h hs
      | new t i =>
        simp only [lfAct] at hs
        split at hs
        · rename_i ht
          cases hn : x.1.newL t i with
          | none => rw [hn] at hs; cases hs
          | some s' =>
            rw [hn] at hs
            simp only [Option.some.injEq] at hs
            subst hs
            exact .new h t i ht s' hn
        · cases hs
      | call t op =>
        simp only [lfAct] at hs
        split at hs
        · rename_i hc
          obtain ⟨h1, h2, h3, h4⟩ := hc
          cases hcl : x.1.callL t [] op with
          | none => rw [hcl] at hs; cases hs
          | some s' =>
            rw [hcl] at hs
            simp only [Option.some.injEq] at hs
            subst hs
            refine .call h t [] op h1 h4 ⟨⟨?_, Or.inl (by simp)⟩, fun hcv => ?_⟩ s' hcl
            · cases op <;> simp [isLockAt, Within] at h2 ⊢
            · simp only [List.elem_eq_mem, decide_eq_false_iff_not] at h3
              rcases h3 with h3 | h3
              · rcases hcv.2.2 with ⟨i, rfl, _⟩ | ⟨i, rfl, _⟩ <;> simp [isUnlock] at h3
              · exact h3 hcv.1
        · cases hs
      | del t os i =>
        simp only [lfAct] at hs
        split at hs
        · rename_i hc
          obtain ⟨h1, h4⟩ := hc
          cases hcl : x.1.delL t os i with
          | none => rw [hcl] at hs; cases hs
          | some s' =>
            rw [hcl] at hs
            simp only [Option.some.injEq] at hs
            subst hs
            refine .del h t os i h1 h4 ⟨⟨trivial, Or.inr fun x hx => by cases hx⟩, fun hcv => ?_⟩ s' hcl
            rcases hcv.2.2 with ⟨j, hj, _⟩ | ⟨j, hj, _⟩ <;> cases hj
        · cases hs

def lfStart : LState × Ghost := (LState.initL rcR, ⟨fun _ => .free, fun _ => []⟩)

/-- A test of the state a run leads to. -/
def lfTest (okb : LState → Nat → Bool) (l : List LfAct) (p : LState → Ghost → Bool) : Bool :=
  match lfGo okb rcR l lfStart with
  | none => false
  | some x => p x.1 x.2

theorem lfTest_reach {okb : LState → Nat → Bool} {okS : LState → Nat → Prop} (hb : ∀ s t, okb s t = true → okS s t)
    {l : List LfAct} {p : LState → Ghost → Bool} (h : lfTest okb l p = true) :
    ∃ s g, LReach okS (okC rcG) rcR s g ∧ p s g = true := by
  unfold lfTest at h
  cases hg : lfGo okb rcR l lfStart with
  | none => rw [hg] at h; cases h
  | some x => rw [hg] at h; exact ⟨x.1, x.2, lfGo_reach hb l lfStart x .init hg, h⟩

/-- `smooth` as a test. -/
def smoothB (s : LState) (t : Nat) : Bool :=
  match s.dying t, s.c.run t with
  | some _, some ⟨.ret false, _, _⟩ => false
  | _, _ => true

theorem smoothB_ok (s : LState) (t : Nat) (h : smoothB s t = true) : smooth s t := by
  rintro ⟨h1, os, op, h2⟩
  obtain ⟨i, hi⟩ := Option.isSome_iff_exists.1 h1
  simp [smoothB, hi, h2] at h

/-- The objects the next instruction of a thread uses. -/
def usesOf (s : LState) (t : Nat) : List Nat :=
  match s.c.run t with
  | some f => uses s.c.sh f.prog
  | none => []

/-- Thread 1 locks and destroys an object; the segment refuses the unlocking. Later thread 2 takes a read lock: its search
of the table reads the destroyed object. -/
theorem C84_dangling : lfTest (fun _ _ => true) [.new 1 0, .call 1 (.readLock 0), .steps 1 11, .del 1 [false] 0, .steps 1 10,
    .new 2 2, .call 2 (.readLock 2), .steps 2 4] (fun s _ =>
      decide (s.life 0 = .gone) && (s.c.run 1).isNone && (s.c.run 2).isSome && (usesOf s 2).elem 0) = true := by
  decide +kernel

/-- Refutation of C84. -/
theorem C84_not_full : ¬ C84_full := by
  intro hf
  obtain ⟨s, g, hR, hp⟩ := lfTest_reach (okS := fun _ _ => True) (fun _ _ _ => trivial) C84_dangling
  simp only [Bool.and_eq_true, decide_eq_true_eq, List.elem_eq_mem] at hp
  unfold usesOf at hp
  cases hrun : s.c.run 2 with
  | none => rw [hrun] at hp; cases hp.1.2
  | some f =>
    rw [hrun] at hp
    have := hf rcG rcG_sep rcR rcR_G s g hR 2 f hrun 0 hp.2
    rw [hp.1.1.1] at this; cases this

/-- Objects 0 and 1 of thread 1 share a write lock; object 0, which has it, is destroyed: object 1 has it now. Thread 2
searches the table and reads object 1. -/
theorem C84_case : lfTest smoothB [.new 1 0, .call 1 (.writeLock 0), .steps 1 11, .new 1 1, .call 1 (.writeLock 1), .steps 1 9,
    .del 1 [] 0, .steps 1 11, .new 2 2, .call 2 (.readLock 2), .steps 2 4] (fun s g =>
      decide (s.life 0 = .gone) && decide (s.life 1 = .live) && decide (g.know 1 = .excl) && (s.c.run 1).isNone &&
      (usesOf s 2).elem 1 && (s.c.sh.held == [(⟨1, 3, 0, 10⟩, .write)]) && !(g.use 1).elem (s.c.sh.obj 1).rng) = true := by
  decide +kernel

/-- Then object 1 is destroyed as well: thread 1 holds nothing, and thread 2 gets its lock. -/
theorem C84_case_end : lfTest smoothB [.new 1 0, .call 1 (.writeLock 0), .steps 1 11, .new 1 1, .call 1 (.writeLock 1), .steps 1 9,
    .del 1 [] 0, .steps 1 11, .new 2 2, .call 2 (.readLock 2), .steps 2 8, .del 1 [] 1, .steps 1 8, .steps 2 3] (fun s g =>
      decide (s.life 0 = .gone) && decide (s.life 1 = .gone) && (s.c.run 1).isNone && (s.c.run 2).isNone &&
      decide (g.know 2 = .shared) && (s.c.sh.held == [(⟨2, 3, 0, 10⟩, .read)])) = true := by
  decide +kernel

/-- Object numbers of thread 1 in the runs. -/
theorem lf_other (i : Nat) (h : (rcR i).tid = 1) : i = 0 ∨ i = 1 := by
  unfold rcR at h
  split at h
  · assumption
  · split at h <;> simp at h

/-- The hypotheses of the theorems are met: a thread reads an object of another thread in the table, an object is locked
that got the lock of a destroyed one. -/
example : ∃ s g f, LReach smooth (okC rcG) rcR s g ∧ s.life 0 = .gone ∧ s.c.run 2 = some f ∧ 1 ∈ uses s.c.sh f.prog ∧
    refersTo s.c.sh 1 ∧ (g.know 1).must = true ∧ (s.c.sh.obj 1).rng ∉ g.use (rcR 1).tid := by
  obtain ⟨s, g, hR, hp⟩ := lfTest_reach smoothB_ok C84_case
  simp only [Bool.and_eq_true, decide_eq_true_eq, Bool.not_eq_true', List.elem_eq_mem, decide_eq_false_iff_not,
    beq_iff_eq, Option.isNone_iff_eq_none] at hp
  obtain ⟨⟨⟨⟨⟨⟨h0, h1⟩, h2⟩, h3⟩, h4⟩, h5⟩, h6⟩ := hp
  unfold usesOf at h4
  cases hrun : s.c.run 2 with
  | none => rw [hrun] at h4; cases h4
  | some f =>
    rw [hrun] at h4
    have hm : 1 ∈ s.c.sh.stack := by
      have hI := reach_inv rcG_sep rcR_G (toReach hR)
      obtain ⟨hH, _⟩ := (hI.thr 1).idle h3
      have hG := hist_good rcG_sep rcR_G (hist_weak hH)
      have hl := hG.must 1 (by simp [mine, rcR, h2, Know.must])
      by_contra hn
      have hn' : 1 ∉ (proj rcR 1 s.c).stack := fun h => hn (List.mem_filter.1 h).1
      have hmas : ((proj rcR 1 s.c).obj 1).master ≠ none := fun h => hn' ((hG.inv.stk 1).2 ⟨hl, h⟩)
      obtain ⟨m, hm⟩ := Option.ne_none_iff_exists'.1 hmas
      have hms := (hG.inv.mst 1 m hl hm).1
      rcases lf_other m (by simpa using (List.mem_filter.1 hms).2) with rfl | rfl
      · have := (linv rcG_sep rcR_G hR).stk 0 (List.mem_filter.1 hms).1
        rw [h0] at this; cases this
      · exact hn' hms
    exact ⟨s, g, f, hR, h0, hrun, h4, Or.inl hm, by rw [h2]; rfl, h6⟩

/-- All objects of thread 1 are destroyed; thread 2 holds a lock. -/
example : ∃ s g, LReach smooth (okC rcG) rcR s g ∧ s.c.run 1 = none ∧ (∀ i, (rcR i).tid = 1 → s.life i ≠ .live) ∧
    s.c.sh.held ≠ [] := by
  obtain ⟨s, g, hR, hp⟩ := lfTest_reach smoothB_ok C84_case_end
  simp only [Bool.and_eq_true, decide_eq_true_eq, beq_iff_eq, Option.isNone_iff_eq_none] at hp
  obtain ⟨⟨⟨⟨⟨h0, h1⟩, h2⟩, h3⟩, h4⟩, h5⟩ := hp
  refine ⟨s, g, hR, h2, fun i hi => ?_, by rw [h5]; simp⟩
  rcases lf_other i hi with rfl | rfl
  · rw [h0]; simp
  · rw [h1]; simp

end Fullock.Props
