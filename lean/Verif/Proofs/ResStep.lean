/-
Helper lemmas for `Props/Res`: every step keeps the invariant.
-/
import Verif.Proofs.ResMain
namespace Fullock.Proofs.Res
open Fullock.Res Fullock.Spec.Res
open Fullock.Thread (Flag)

/-- The place of the calling thread does not matter to `Detach`. -/
theorem detach_main (s : State) (m : MPc) (r : Bool) :
    (State.detach { s with main := m }).back r = s.detach.back r := by
  obtain ⟨own, umask, maps, live, next, shm, ev, ino, base, param, obj, handlers, flag, inited, thr, wk,
    main, ret, bad⟩ := s
  cases base <;> cases shm <;> simp only [State.detach, State.closeShm, State.back, State.munmap, State.close] <;>
    (repeat' split) <;> simp_all

theorem deleteObj_main (s : State) (m : MPc) (n : Nat) (r : Bool) :
    deleteObj n r { s with main := m } = deleteObj n r s := by
  unfold deleteObj
  rw [← detach_main { s.release n with obj := none } m r]
  simp only [State.release]
  split <;> rfl

theorem destroy_inv {L B : List Nat} {s : State} (hi : Inv L B s) (h : s.main = .idle) :
    Inv L B (destroyCall s) := by
  simp only [destroyCall]
  split
  · have e : s.back true = { s with ret := some true } := by rw [State.back, ← h]
    rw [e]
    obtain ⟨hc, hn | ⟨t, w, hW⟩⟩ := hi
    · obtain ⟨h1, h2, h3, h4, h5, h6, h7, h8, h9, h10, h11, h12, h13, h14, h15, h16, h17, h18, h19, h20⟩ := hc
      obtain ⟨n1, n2, n3, n4, n5, n6⟩ := hn
      refine ⟨?_, .inl ?_⟩ <;> constructor <;> (try dsimp only)
      all_goals fin_res
    · obtain ⟨h1, h2, h3, h4, h5, h6, h7, h8, h9, h10, h11, h12, h13, h14, h15, h16, h17, h18, h19, h20⟩ := hc
      obtain ⟨w1, w2, w3, w4, w5, w6, w7, w8, w9, w10, w11, w12, w13, w14, w15, w16, w17⟩ := hW
      refine ⟨?_, .inr ⟨t, w, ?_⟩⟩ <;> constructor <;> (try dsimp only)
      all_goals fin_res
  · split
    · rename_i ho
      exact detach_inv hi.1 (no_worker hi ho) ho
    · rename_i n ho
      obtain ⟨hc, hn | ⟨t, w, hW⟩⟩ := hi
      · obtain ⟨h1, h2, h3, h4, h5, h6, h7, h8, h9, h10, h11, h12, h13, h14, h15, h16, h17, h18, h19, h20⟩ := hc
        obtain ⟨n1, n2, n3, n4, n5, n6⟩ := hn
        refine ⟨?_, .inl ?_⟩ <;> constructor <;> (try dsimp only)
        all_goals fin_res
      · obtain ⟨h1, h2, h3, h4, h5, h6, h7, h8, h9, h10, h11, h12, h13, h14, h15, h16, h17, h18, h19, h20⟩ := hc
        obtain ⟨w1, w2, w3, w4, w5, w6, w7, w8, w9, w10, w11, w12, w13, w14, w15, w16, w17⟩ := hW
        refine ⟨?_, .inr ⟨t, w, ?_⟩⟩ <;> constructor <;> (try dsimp only)
        all_goals fin_res

/-- The main thread goes to another place. -/
theorem move_inv {L B : List Nat} {s : State} {m : MPc} (hi : Inv L B s)
    (hm : (∃ k, m = .run k ∨ m = .set k) ∨ (∃ a r, m = .exit a r ∨ m = .setExit a r ∨ m = .join a r) →
      s.obj.isSome = true)
    (hx : ∀ n, s.obj = some n → s.flag n = .exit → ∃ a r, m = .join a r)
    (hr : ∀ j, m = .run (some j) ∨ m = .set (some j) → j = 0)
    (hk : s.obj.isSome = true → 1 ≤ s.handlers ∨
      (∃ a r, m = .exit a r ∨ m = .setExit a r ∨ m = .join a r) ∨ m = .run none ∨ m = .set none)
    (hcr : m ≠ .create) (hp : s.obj.isSome = true → ∀ j, s.main ≠ .atfork (j + 1))
    (ha : s.obj.isSome = true → ∀ j, m ≠ .atfork (j + 1)) :
    Inv L B { s with main := m } := by
  obtain ⟨hc, hn | ⟨t, w, hW⟩⟩ := hi
  · obtain ⟨h1, h2, h3, h4, h5, h6, h7, h8, h9, h10, h11, h12, h13, h14, h15, h16, h17, h18, h19, h20⟩ := hc
    obtain ⟨n1, n2, n3, n4, n5, n6⟩ := hn
    refine ⟨?_, .inl ?_⟩ <;> constructor <;> (try dsimp only)
    all_goals fin_res
  · obtain ⟨h1, h2, h3, h4, h5, h6, h7, h8, h9, h10, h11, h12, h13, h14, h15, h16, h17, h18, h19, h20⟩ := hc
    obtain ⟨w1, w2, w3, w4, w5, w6, w7, w8, w9, w10, w11, w12, w13, w14, w15, w16, w17⟩ := hW
    refine ⟨?_, .inr ⟨t, w, ?_⟩⟩ <;> constructor <;> (try dsimp only)
    all_goals fin_res

theorem afterExit_inv {L B : List Nat} {s : State} {n : Nat} {a r : Bool} (hc : Core L s) (hn : NInv L B s)
    (ho : s.obj = some n) (hm : ∀ j, s.main ≠ .atfork j) (hx : s.inited n = true → s.flag n ≠ .exit) :
    Inv L B (afterExit n a r s) := by
  simp only [afterExit]
  split
  · rename_i hai
    have hin : s.inited n = true := by simp_all
    have hx := hx hin
    refine move_inv ⟨hc, .inl hn⟩ (fun _ => by simp [ho]) ?_ (by simp) (by simp) (by simp) ?_ (by simp)
    · intro m hm' hf; rw [ho] at hm'; cases hm'; exact absurd hf hx
    · intro _ j; exact hm _
  · exact delete_inv hc hn ho hm

theorem cancel_inv {L B : List Nat} {s : State} (t : Nat) (hi : Inv L B s) : Inv L B (cancelWk t s) := by
  simp only [cancelWk]
  split
  · exact hi
  · rename_i w hw
    obtain ⟨hc, hn | ⟨t', w', hW⟩⟩ := hi
    · have hwa := hn.cur t w hw
      obtain ⟨h1, h2, h3, h4, h5, h6, h7, h8, h9, h10, h11, h12, h13, h14, h15, h16, h17, h18, h19, h20⟩ := hc
      obtain ⟨n1, n2, n3, n4, n5, n6⟩ := hn
      refine ⟨?_, .inl ?_⟩ <;> constructor <;> (try dsimp only)
      all_goals fin_res
    · by_cases e : t' = t
      · subst e
        have e2 : w = w' := by have := hW.cur; rw [hw] at this; cases this; rfl
        subst e2
        obtain ⟨par, obj, pc, cd⟩ := w
        obtain ⟨h1, h2, h3, h4, h5, h6, h7, h8, h9, h10, h11, h12, h13, h14, h15, h16, h17, h18, h19, h20⟩ := hc
        obtain ⟨w1, w2, w3, w4, w5, w6, w7, w8, w9, w10, w11, w12, w13, w14, w15, w16, w17⟩ := hW
        refine ⟨?_, .inr ⟨t', ⟨par, obj, pc, true⟩, ?_⟩⟩ <;> constructor <;> (try dsimp only)
        all_goals fin_res
      · have hwa : act w.pc = false := by
          cases ha : act w.pc with
          | false => rfl
          | true => exact absurd (hW.oth t w hw ha).symm e
        obtain ⟨h1, h2, h3, h4, h5, h6, h7, h8, h9, h10, h11, h12, h13, h14, h15, h16, h17, h18, h19, h20⟩ := hc
        obtain ⟨w1, w2, w3, w4, w5, w6, w7, w8, w9, w10, w11, w12, w13, w14, w15, w16, w17⟩ := hW
        refine ⟨?_, .inr ⟨t', w', ?_⟩⟩ <;> constructor <;> (try dsimp only)
        all_goals fin_res

theorem userOpen_inv {L B : List Nat} {s : State} {f : Nat} (hi : Inv L B s) (h : s.own f = .free) :
    Inv L B { s with own := upd s.own f .user } := by
  obtain ⟨hc, hn | ⟨t, w, hW⟩⟩ := hi
  · obtain ⟨h1, h2, h3, h4, h5, h6, h7, h8, h9, h10, h11, h12, h13, h14, h15, h16, h17, h18, h19, h20⟩ := hc
    obtain ⟨n1, n2, n3, n4, n5, n6⟩ := hn
    refine ⟨?_, .inl ?_⟩ <;> constructor <;> (try dsimp only)
    all_goals fin_res
  · obtain ⟨h1, h2, h3, h4, h5, h6, h7, h8, h9, h10, h11, h12, h13, h14, h15, h16, h17, h18, h19, h20⟩ := hc
    obtain ⟨w1, w2, w3, w4, w5, w6, w7, w8, w9, w10, w11, w12, w13, w14, w15, w16, w17⟩ := hW
    refine ⟨?_, .inr ⟨t, w, ?_⟩⟩ <;> constructor <;> (try dsimp only)
    all_goals fin_res

theorem userClose_inv {L B : List Nat} {s : State} {f : Nat} (hi : Inv L B s) (h : s.own f = .user) :
    Inv L B { s with own := upd s.own f .free } := by
  obtain ⟨hc, hn | ⟨t, w, hW⟩⟩ := hi
  · obtain ⟨h1, h2, h3, h4, h5, h6, h7, h8, h9, h10, h11, h12, h13, h14, h15, h16, h17, h18, h19, h20⟩ := hc
    obtain ⟨n1, n2, n3, n4, n5, n6⟩ := hn
    refine ⟨?_, .inl ?_⟩ <;> constructor <;> (try dsimp only)
    all_goals fin_res
  · obtain ⟨h1, h2, h3, h4, h5, h6, h7, h8, h9, h10, h11, h12, h13, h14, h15, h16, h17, h18, h19, h20⟩ := hc
    obtain ⟨w1, w2, w3, w4, w5, w6, w7, w8, w9, w10, w11, w12, w13, w14, w15, w16, w17⟩ := hW
    refine ⟨?_, .inr ⟨t, w, ?_⟩⟩ <;> constructor <;> (try dsimp only)
    all_goals fin_res

/-- The blocks that the worker alone knows are lost at a fork. -/
def lostB (w : Wk) : List Nat :=
  match w.pc with
  | .start => [w.par]
  | .read b => [b]
  | _ => []

theorem fork_inv {L B : List Nat} {s : State} (hi : Inv L B s) (h : s.main = .idle)
    (hk : forkKind s ≠ .fork2) :
    ∃ L' B', Inv L' B' (forkChild s) ∧ L'.length ≤ L.length + 2 ∧ B'.length ≤ B.length + 1 := by
  have hh : s.obj.isSome = true → s.handlers = 1 := by
    intro ho
    have h1 : ¬ (2 ≤ s.handlers) := by
      intro h2; apply hk; simp [forkKind, ho, h2]
    have h2 := hi.1.hnd ho
    simp [h] at h2
    omega
  simp only [forkChild]
  obtain ⟨hc, hn | ⟨t, w, hW⟩⟩ := hi
  · refine ⟨s.ev.toList ++ s.ino.toList ++ L, B, ?_, by cases s.ev <;> cases s.ino <;> simp, by omega⟩
    obtain ⟨h1, h2, h3, h4, h5, h6, h7, h8, h9, h10, h11, h12, h13, h14, h15, h16, h17, h18, h19, h20⟩ := hc
    obtain ⟨n1, n2, n3, n4, n5, n6⟩ := hn
    refine ⟨?_, .inl ?_⟩ <;> constructor <;> (try dsimp only)
    all_goals fin_res
  · refine ⟨s.ev.toList ++ s.ino.toList ++ L, lostB w ++ B, ?_, by cases s.ev <;> cases s.ino <;> simp, ?_⟩
    · have hl : ∀ b, (w.pc = .start ∧ w.par = b) ∨ w.pc = .read b → b ∈ lostB w ++ B := by
        intro b hb
        rcases hb with ⟨e, e'⟩ | e
        · simp [lostB, e, e']
        · simp [lostB, e]
      have hso : s.obj.isSome = true := by rw [hW.obj]; rfl
      have hh := hh hso
      obtain ⟨h1, h2, h3, h4, h5, h6, h7, h8, h9, h10, h11, h12, h13, h14, h15, h16, h17, h18, h19, h20⟩ := hc
      obtain ⟨w1, w2, w3, w4, w5, w6, w7, w8, w9, w10, w11, w12, w13, w14, w15, w16, w17⟩ := hW
      have w8' : ∀ b, s.live b = true → s.obj = some b ∨ s.param = some b ∨ b ∈ lostB w ++ B := by
        intro b hb
        rcases w8 b hb with h' | h' | h' | h'
        · exact .inl h'
        · exact .inr (.inl h')
        · exact .inr (.inr (by simp [h']))
        · exact .inr (.inr (hl b h'))
      clear w8 hl
      rw [hh]
      refine ⟨?_, .inl ?_⟩ <;> constructor <;> (try dsimp only)
      all_goals first | (intro p _; exact ⟨hso, 0, rfl⟩) | fin_res
    · simp only [lostB, List.length_append]
      split <;> simp <;> omega

theorem create_inv {L B : List Nat} {s : State} (ok : Bool) (hi : Inv L B s) (h : s.main = .create)
    {s' : State} (hs : mstep s ok = some s') : Inv L B s' := by
  obtain ⟨ho, hsh⟩ := hi.1.cre h
  have hn := no_worker hi ho
  have hc := hi.1
  have hpr : s.param = none := by
    cases hp : s.param with
    | none => rfl
    | some p => have := (hn.prm p hp).1; simp [ho] at this
  cases ok with
  | true =>
    have e : s' = { s with
        live := upd (upd s.live s.next true) (s.next + 1) true
        flag := upd s.flag s.next .stop
        inited := upd (upd s.inited s.next false) s.next true
        obj := some s.next
        wk := upd s.wk (s.next + 1 + 1) (some ⟨s.next + 1, s.next, .start, false⟩)
        thr := upd s.thr s.next (s.next + 1 + 1)
        next := s.next + 1 + 1 + 1
        main := .run none } := by
      simp only [mstep, h, initThread, newObj, State.alloc, if_true, Option.some.injEq] at hs
      rw [← hs]
    subst e
    obtain ⟨h1, h2, h3, h4, h5, h6, h7, h8, h9, h10, h11, h12, h13, h14, h15, h16, h17, h18, h19, h20⟩ := hc
    obtain ⟨n1, n2, n3, n4, n5, n6⟩ := hn
    refine ⟨?_, .inr ⟨s.next + 1 + 1, ⟨s.next + 1, s.next, .start, false⟩, ?_⟩⟩ <;> constructor <;> (try dsimp only)
    all_goals fin_res
  | false =>
    have hx : s.live (s.next + 1) = false := by
      cases hl : s.live (s.next + 1)
      · rfl
      · have := hc.lt _ hl; omega
    have e : s' = deleteObj s.next false { { s with
        live := upd s.live s.next true
        flag := upd s.flag s.next .stop
        inited := upd s.inited s.next false
        obj := some s.next
        next := s.next + 1 + 1 } with main := .exit false false } := by
      rw [deleteObj_main]
      have hl : upd (upd s.live s.next true) (s.next + 1) true (s.next + 1) = true := by simp [upd]
      have hu : upd (upd (upd s.live s.next true) (s.next + 1) true) (s.next + 1) false = upd s.live s.next true :=
        upd_same _ _ _ _ (by simp [upd, hx])
      simp only [mstep, h, initThread, newObj, State.alloc, State.release, hl, hu, if_true, Option.some.injEq,
        Bool.false_eq_true, if_false] at hs
      simp only [← hs, h]
    subst e
    have key : Inv L B { { s with
        live := upd s.live s.next true
        flag := upd s.flag s.next .stop
        inited := upd s.inited s.next false
        obj := some s.next
        next := s.next + 1 + 1 } with main := .exit false false } := by
      obtain ⟨h1, h2, h3, h4, h5, h6, h7, h8, h9, h10, h11, h12, h13, h14, h15, h16, h17, h18, h19, h20⟩ := hc
      obtain ⟨n1, n2, n3, n4, n5, n6⟩ := hn
      refine ⟨?_, .inl ?_⟩ <;> constructor <;> (try dsimp only)
      all_goals fin_res
    refine delete_inv key.1 ?_ rfl (by simp)
    rcases key.2 with hn' | ⟨t, w, hW⟩
    · exact hn'
    · have := hW.inited
      have h2 := hW.obj
      simp at h2
      rw [← h2] at this
      simp [upd] at this

theorem set_inv {L B : List Nat} {s : State} {k : Option Nat} {n : Nat} (hi : Inv L B s)
    (h : s.main = .set k) (ho : s.obj = some n) :
    Inv L B (afterRun k { s with flag := upd s.flag n .run }) := by
  cases k with
  | none =>
    simp only [afterRun, State.back]
    obtain ⟨hc, hn | ⟨t, w, hW⟩⟩ := hi
    · obtain ⟨h1, h2, h3, h4, h5, h6, h7, h8, h9, h10, h11, h12, h13, h14, h15, h16, h17, h18, h19, h20⟩ := hc
      obtain ⟨n1, n2, n3, n4, n5, n6⟩ := hn
      refine ⟨?_, .inl ?_⟩ <;> constructor <;> (try dsimp only)
      all_goals fin_res
    · obtain ⟨h1, h2, h3, h4, h5, h6, h7, h8, h9, h10, h11, h12, h13, h14, h15, h16, h17, h18, h19, h20⟩ := hc
      obtain ⟨w1, w2, w3, w4, w5, w6, w7, w8, w9, w10, w11, w12, w13, w14, w15, w16, w17⟩ := hW
      refine ⟨?_, .inr ⟨t, w, ?_⟩⟩ <;> constructor <;> (try dsimp only)
      all_goals fin_res
  | some j =>
    have hj := hi.1.atr j (.inr h)
    subst hj
    simp only [afterRun]
    obtain ⟨hc, hn | ⟨t, w, hW⟩⟩ := hi
    · obtain ⟨h1, h2, h3, h4, h5, h6, h7, h8, h9, h10, h11, h12, h13, h14, h15, h16, h17, h18, h19, h20⟩ := hc
      obtain ⟨n1, n2, n3, n4, n5, n6⟩ := hn
      refine ⟨?_, .inl ?_⟩ <;> constructor <;> (try dsimp only)
      all_goals fin_res
    · obtain ⟨h1, h2, h3, h4, h5, h6, h7, h8, h9, h10, h11, h12, h13, h14, h15, h16, h17, h18, h19, h20⟩ := hc
      obtain ⟨w1, w2, w3, w4, w5, w6, w7, w8, w9, w10, w11, w12, w13, w14, w15, w16, w17⟩ := hW
      refine ⟨?_, .inr ⟨t, w, ?_⟩⟩ <;> constructor <;> (try dsimp only)
      all_goals fin_res

/-- The worker at work is not one that has ended. -/
theorem not_ended {L B : List Nat} {s : State} {n : Nat} (hi : Inv L B s) (ho : s.obj = some n)
    (he : s.inited n = false ∨ hasEnded (s.thr n) s = true ∨ s.flag n = .fin) : NInv L B s := by
  rcases hi.2 with hn | ⟨t, w, hW⟩
  · exact hn
  · exfalso
    have h1 := hW.obj
    rw [ho] at h1
    simp only [Option.some.injEq] at h1
    subst h1
    have h2 := hW.thr
    have h3 := hW.inited
    have h4 := hW.flag
    have h5 := hW.cur
    have h6 := hW.act
    rcases he with he | he | he
    · simp [h3] at he
    · rw [h2, hasEnded, h5] at he
      simp at he
      simp [he, act] at h6
    · exact h4 he

theorem setExit_inv {L B : List Nat} {s : State} {a r : Bool} {n : Nat} (hi : Inv L B s)
    (h : s.main = .setExit a r) (ho : s.obj = some n) :
    Inv L B { s with flag := upd s.flag n (if Flag.exit.val ≤ (s.flag n).val then s.flag n else .exit), main := .join a r } := by
  have hv : s.flag n ≠ .fin → (if Flag.exit.val ≤ (s.flag n).val then s.flag n else Flag.exit) ≠ .fin := by
    intro hf
    split
    · exact hf
    · simp
  generalize (if Flag.exit.val ≤ (s.flag n).val then s.flag n else Flag.exit) = v at *
  obtain ⟨hc, hn | ⟨t, w, hW⟩⟩ := hi
  · obtain ⟨h1, h2, h3, h4, h5, h6, h7, h8, h9, h10, h11, h12, h13, h14, h15, h16, h17, h18, h19, h20⟩ := hc
    obtain ⟨n1, n2, n3, n4, n5, n6⟩ := hn
    refine ⟨?_, .inl ?_⟩ <;> constructor <;> (try dsimp only)
    all_goals fin_res
  · obtain ⟨h1, h2, h3, h4, h5, h6, h7, h8, h9, h10, h11, h12, h13, h14, h15, h16, h17, h18, h19, h20⟩ := hc
    obtain ⟨w1, w2, w3, w4, w5, w6, w7, w8, w9, w10, w11, w12, w13, w14, w15, w16, w17⟩ := hW
    refine ⟨?_, .inr ⟨t, w, ?_⟩⟩ <;> constructor <;> (try dsimp only)
    all_goals fin_res

theorem atfork_inv {L B : List Nat} {s s' : State} {j n : Nat} {ok : Bool} (hi : Inv L B s)
    (h : s.main = .atfork (j + 1)) (ho : s.obj = some n) (hs : mstep s ok = some s') : Inv L B s' := by
  have hc := hi.1
  have hn : NInv L B s := by
    rcases hi.2 with hn | ⟨t, w, hW⟩
    · exact hn
    · exact absurd h (hW.atf j)
  have hj := hn.atf j h (by simp [ho])
  subst hj
  have hon := hc.objl n ho
  -- the old argument is released first
  have key : ∃ lv : Nat → Bool, (∀ b, lv b = true → s.obj = some b ∨ b ∈ B) ∧ lv n = true ∧
      (∀ b, lv b = true → b < s.next) ∧
      s' = { initThread ok n { s with live := lv, param := none, flag := upd s.flag n .stop, inited := upd s.inited n false } with main := .run (some 0) } := by
    cases hp : s.param with
    | none =>
      refine ⟨s.live, ?_, hon, hc.lt, ?_⟩
      · intro b hb
        rcases hn.live b hb with h' | h' | h'
        · exact .inl h'
        · rw [hp] at h'; cases h'
        · exact .inr h'
      · simp only [mstep, h, ho, dropParam, hp, State.use, hon, if_true, Option.some.injEq] at hs
        simp only [← hs, h, ho]
    | some p =>
      have hpl := hc.prml p hp
      have hpn : n ≠ p := by intro e; subst e; exact hpl.2 ho
      have hl : upd s.live p false n = true := by simp [upd, hpn, hon]
      refine ⟨upd s.live p false, ?_, hl, ?_, ?_⟩
      · intro b hb
        have hbp : b ≠ p := by intro e; subst e; simp [upd] at hb
        have hb' : s.live b = true := by simpa [upd, hbp] using hb
        rcases hn.live b hb' with h' | h' | h'
        · exact .inl h'
        · rw [hp] at h'; cases h'; exact absurd rfl hbp
        · exact .inr h'
      · intro b hb
        apply hc.lt
        have hbp : b ≠ p := by intro e; subst e; simp [upd] at hb
        simpa [upd, hbp] using hb
      · simp only [mstep, h, ho, dropParam, hp, State.release, hpl.1, State.use, hl, if_true, Option.some.injEq] at hs
        simp only [← hs, h, ho]
  obtain ⟨lv, k1, k2, k3, e⟩ := key
  cases ok with
  | true =>
    simp only [initThread, State.alloc, if_true] at e
    subst e
    obtain ⟨h1, h2, h3, h4, h5, h6, h7, h8, h9, h10, h11, h12, h13, h14, h15, h16, h17, h18, h19, h20⟩ := hc
    obtain ⟨n1, n2, n3, n4, n5, n6⟩ := hn
    refine ⟨?_, .inr ⟨s.next + 1, ⟨s.next, n, .start, false⟩, ?_⟩⟩ <;> constructor <;> (try dsimp only)
    all_goals fin_res
  | false =>
    have hx : lv s.next = false := by
      cases hl : lv s.next
      · rfl
      · have := k3 _ hl; omega
    have hu := upd_same lv s.next true false hx
    have hl : upd lv s.next true s.next = true := by simp [upd]
    simp only [initThread, State.alloc, State.release, hl, hu, if_true, if_false, Bool.false_eq_true] at e
    subst e
    obtain ⟨h1, h2, h3, h4, h5, h6, h7, h8, h9, h10, h11, h12, h13, h14, h15, h16, h17, h18, h19, h20⟩ := hc
    obtain ⟨n1, n2, n3, n4, n5, n6⟩ := hn
    refine ⟨?_, .inl ?_⟩ <;> constructor <;> (try dsimp only)
    all_goals fin_res

theorem main_inv {L B : List Nat} {s s' : State} (ok : Bool) (hi : Inv L B s)
    (hs : mstep s ok = some s') : Inv L B s' := by
  have hlv := hi.1.objl
  have hmob := hi.1.mob
  cases hm : s.main with
  | idle => simp [mstep, hm] at hs
  | create => exact create_inv ok hi hm hs
  | run k =>
    obtain ⟨n, ho⟩ := Option.isSome_iff_exists.1 (hmob (.inl ⟨k, .inl hm⟩))
    have hl := hlv n ho
    have hex : s.flag n ≠ .exit := by
      intro hf; obtain ⟨a, r, h'⟩ := hi.1.ex n ho hf; simp [hm] at h'
    have hx : ∀ m, s.obj = some m → s.flag m = .exit → False := by
      intro m hm' hf; rw [ho] at hm'; cases hm'; exact hex hf
    have hat := hi.1.atr
    have hh := hi.1.hnd (by simp [ho])
    simp only [mstep, hm, ho, State.use, hl, if_true] at hs
    split at hs
    · simp only [Option.some.injEq] at hs
      rw [← hs, ← ho]
      refine move_inv (m := .set k) hi (fun _ => by simp [ho]) (fun m a b => (hx m a b).elim) ?_ ?_ (by simp) (by simp [hm]) (by simp)
      · intro j hj
        simp at hj
        exact hat j (.inl (by rw [hm, hj]))
      · intro _
        rw [hm] at hh
        simp at hh ⊢
        exact hh
    · split at hs
      · simp only [Option.some.injEq] at hs
        rw [← hs, ← ho]
        refine move_inv (m := .exit false false) hi (fun _ => by simp [ho]) (fun m a b => (hx m a b).elim) (by simp) (by simp) (by simp) (by simp [hm]) (by simp)
      · rename_i j
        have hj := hat j (.inl hm)
        subst hj
        simp only [Option.some.injEq] at hs
        rw [← hs, ← ho]
        refine move_inv (m := .atfork 0) hi (by simp) (fun m a b => (hx m a b).elim) (by simp) ?_ (by simp) (by simp [hm]) (by simp)
        intro _
        rw [hm] at hh
        simp at hh
        exact .inl hh
  | set k =>
    obtain ⟨n, ho⟩ := Option.isSome_iff_exists.1 (hmob (.inl ⟨k, .inr hm⟩))
    have hl := hlv n ho
    simp only [mstep, hm, ho, State.use, hl, if_true, Option.some.injEq] at hs
    subst hs
    have := set_inv hi hm ho
    rw [hm, ho] at *
    simpa using this
  | exit a r =>
    obtain ⟨n, ho⟩ := Option.isSome_iff_exists.1 (hmob (.inr ⟨a, r, .inl hm⟩))
    have hl := hlv n ho
    have hex : s.flag n ≠ .exit := by
      intro hf; obtain ⟨a, r, h'⟩ := hi.1.ex n ho hf; simp [hm] at h'
    have hma : ∀ j, s.main ≠ .atfork j := by simp [hm]
    simp only [mstep, hm, ho, State.use, hl, if_true] at hs
    split at hs
    · rename_i hc
      simp only [Option.some.injEq] at hs
      subst hs
      refine afterExit_inv hi.1 (not_ended hi ho ?_) ho hma (fun _ => hex)
      rcases hc with hc | hc
      · exact .inl hc
      · right; right
        revert hc hex
        cases s.flag n <;> simp [Flag.val]
    · split at hs
      · simp only [Option.some.injEq] at hs
        subst hs
        have hi' := cancel_inv (s.thr n) hi
        have eo : (cancelWk (s.thr n) s).obj = s.obj := by simp only [cancelWk]; split <;> rfl
        have em : (cancelWk (s.thr n) s).main = s.main := by simp only [cancelWk]; split <;> rfl
        have ef : (cancelWk (s.thr n) s).flag = s.flag := by simp only [cancelWk]; split <;> rfl
        refine move_inv (m := .setExit a r) hi' (fun _ => by simp [eo, ho]) ?_ (by simp) (by simp) (by simp) ?_ (by simp)
        · intro m hm' hf
          rw [eo, ho] at hm'
          cases hm'
          rw [ef] at hf
          exact absurd hf hex
        · intro _ j; rw [em]; exact hma _
      · split at hs
        · rename_i he
          simp only [Option.some.injEq] at hs
          subst hs
          exact afterExit_inv hi.1 (not_ended hi ho (.inr (.inl he))) ho hma (fun _ => hex)
        · cases hs
  | setExit a r =>
    obtain ⟨n, ho⟩ := Option.isSome_iff_exists.1 (hmob (.inr ⟨a, r, .inr (.inl hm)⟩))
    have hl := hlv n ho
    simp only [mstep, hm, ho, State.use, hl, if_true, Option.some.injEq] at hs
    subst hs
    have := setExit_inv hi hm ho
    rw [ho] at this
    exact this
  | join a r =>
    obtain ⟨n, ho⟩ := Option.isSome_iff_exists.1 (hmob (.inr ⟨a, r, .inr (.inr hm)⟩))
    have hl := hlv n ho
    simp only [mstep, hm, ho, State.use, hl, if_true] at hs
    split at hs
    · rename_i he
      simp only [Option.some.injEq] at hs
      have hn := not_ended hi ho (.inr he)
      have hc := hi.1
      have key : Core L { s with inited := upd s.inited n false } ∧ NInv L B { s with inited := upd s.inited n false } := by
        obtain ⟨h1, h2, h3, h4, h5, h6, h7, h8, h9, h10, h11, h12, h13, h14, h15, h16, h17, h18, h19, h20⟩ := hc
        obtain ⟨n1, n2, n3, n4, n5, n6⟩ := hn
        refine ⟨?_, ?_⟩ <;> constructor <;> assumption
      have := afterExit_inv (a := a) (r := r) (n := n) key.1 key.2 ho (by simp [hm]) (by simp [upd])
      rw [← hs]
      rw [hm, ho] at *
      exact this
    · cases hs
  | atfork j =>
    cases j with
    | zero =>
      simp only [mstep, hm, Option.some.injEq] at hs
      subst hs
      have hh := hi.1.hnd
      rw [hm] at hh
      refine move_inv (m := .idle) hi (by simp) ?_ (by simp) (fun ho => by have := hh ho; simp at this; exact .inl this) (by simp)
        (by simp [hm]) (by simp)
      intro n ho hf
      obtain ⟨a, r, h'⟩ := hi.1.ex n ho hf
      simp [hm] at h'
    | succ j =>
      cases ho : s.obj with
      | some n => exact atfork_inv hi hm ho hs
      | none =>
        simp only [mstep, hm, ho, Option.some.injEq] at hs
        rw [← hs]
        have := move_inv (m := .atfork j) hi (by simp) (by simp [ho]) (by simp) (by simp [ho]) (by simp) (by simp [ho]) (by simp [ho])
        rw [ho] at this
        exact this

theorem step_inv {mask : Nat} {k : Kind} {L B : List Nat} {s s' : State} (hi : Inv L B s)
    (hk : k ≠ .fork2) (h : Step mask k s s') :
    ∃ L' B', Inv L' B' s' ∧ L'.length ≤ L.length + fdLoss k ∧ B'.length ≤ B.length + blkLoss k := by
  cases h with
  | start o f robust h hf => exact ⟨L, B, start_inv hi h hf, by omega, by omega⟩
  | destroy h => exact ⟨L, B, destroy_inv hi h, by omega, by omega⟩
  | main ok h => exact ⟨L, B, main_inv ok hi h, by omega, by omega⟩
  | worker t ok canc f h => exact worker_inv hi h
  | fork h =>
    have hf : forkKind s = .fork := by
      simp only [forkKind] at hk ⊢
      split at hk
      · exact absurd rfl hk
      · rename_i hc; rw [if_neg hc]
    rw [hf]
    exact fork_inv hi h hk
  | userOpen f h => exact ⟨L, B, userOpen_inv hi h, by omega, by omega⟩
  | userClose f h => exact ⟨L, B, userClose_inv hi h, by omega, by omega⟩

theorem reach_inv {mask : Nat} {user : Nat → Bool} {um nf nb : Nat} {s : State}
    (h : Reach mask user um false nf nb s) :
    ∃ L B, Inv L B s ∧ L.length ≤ nf ∧ B.length ≤ nb := by
  induction h with
  | init => exact ⟨[], [], inv_init user um, by simp, by simp⟩
  | step hk _ hs ih =>
    obtain ⟨L, B, hi, h1, h2⟩ := ih
    obtain ⟨L', B', hi', h1', h2'⟩ := step_inv hi (fun e => by simpa using hk e) hs
    exact ⟨L', B', hi', by omega, by omega⟩

end Fullock.Proofs.Res
