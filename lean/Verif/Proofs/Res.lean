/-
Helper lemmas for `Props/Res`: the invariant of the resources of a process with at most one worker.
-/
import Verif.Spec.Res
namespace Fullock.Proofs.Res
open Fullock.Res Fullock.Spec.Res
open Fullock.Thread (Flag)

/-- The worker has not passed the end of its handler. -/
def act : WPc → Bool
  | .last => false
  | .ended => false
  | _ => true
/-- The worker has its argument. -/
def early : WPc → Bool
  | .closeI _ => false
  | .closeE _ => false
  | .fin => false
  | .last => false
  | .ended => false
  | _ => true
/-- The worker has its argument, and `pThreadParam` shows it. -/
def mid (p : WPc) : Bool := early p && p ≠ .start
/-- The worker may have its event descriptor. -/
def hasE : WPc → Bool
  | .start => false
  | .ready => false
  | .epoll => false
  | .fin => false
  | .last => false
  | .ended => false
  | _ => true
/-- The worker may have its watch descriptor. -/
def hasI : WPc → Bool
  | .inotify => false
  | .closeE _ => false
  | p => hasE p

/-- The part of the invariant that does not speak of the worker; `L`: the descriptors that are lost. -/
structure Core (L : List Nat) (s : State) : Prop where
  ok : s.bad = false
  shm : ∀ f, s.shm = some f → s.own f = .lib
  ev : ∀ f, s.ev = some f → s.own f = .lib
  ino : ∀ f, s.ino = some f → s.own f = .lib
  dis : ∀ f, s.shm = some f → s.ev ≠ some f ∧ s.ino ≠ some f
  dis' : ∀ f, s.ev = some f → s.ino ≠ some f
  fds : ∀ f, s.own f = .lib → s.shm = some f ∨ s.ev = some f ∨ s.ino = some f ∨ f ∈ L
  wkn : ∀ t w, s.wk t = some w → t < s.next
  base : ∀ a, s.base = some a ↔ s.maps a = true
  mapn : ∀ a, s.maps a = true → a < s.next
  bshm : s.shm = none → s.base = none
  objl : ∀ n, s.obj = some n → s.live n = true
  prml : ∀ p, s.param = some p → s.live p = true ∧ s.obj ≠ some p
  lt : ∀ b, s.live b = true → b < s.next
  ex : ∀ n, s.obj = some n → s.flag n = .exit → ∃ a r, s.main = .join a r
  atr : ∀ j, s.main = .run (some j) ∨ s.main = .set (some j) → j = 0
  objs : s.obj.isSome = true → s.shm.isSome = true
  hnd : s.obj.isSome = true → 1 ≤ s.handlers ∨
    (∃ a r, s.main = .exit a r ∨ s.main = .setExit a r ∨ s.main = .join a r) ∨
    s.main = .run none ∨ s.main = .set none
  cre : s.main = .create → s.obj = none ∧ s.shm.isSome = true
  mob : (∃ k, s.main = .run k ∨ s.main = .set k) ∨
    (∃ a r, s.main = .exit a r ∨ s.main = .setExit a r ∨ s.main = .join a r) → s.obj.isSome = true

/-- No worker is at work. -/
structure NInv (L B : List Nat) (s : State) : Prop where
  cur : ∀ t w, s.wk t = some w → act w.pc = false
  evL : ∀ f, s.ev = some f → f ∈ L
  inoL : ∀ f, s.ino = some f → f ∈ L
  prm : ∀ p, s.param = some p → s.obj.isSome = true ∧ ∃ j, s.main = .atfork (j + 1)
  live : ∀ b, s.live b = true → s.obj = some b ∨ s.param = some b ∨ b ∈ B
  atf : ∀ j, s.main = .atfork (j + 1) → s.obj.isSome = true → j = 0

/-- The worker `t` is at work. -/
structure WInv (L B : List Nat) (s : State) (t : Nat) (w : Wk) : Prop where
  cur : s.wk t = some w
  act : act w.pc = true
  oth : ∀ t' w', s.wk t' = some w' → Proofs.Res.act w'.pc = true → t' = t
  evw : ∀ f, s.ev = some f → f ∈ L ∨ hasE w.pc = true
  inow : ∀ f, s.ino = some f → f ∈ L ∨ hasI w.pc = true
  evn : hasE w.pc = false → w.pc ≠ .start → s.ev = none
  inon : hasI w.pc = false → w.pc ≠ .start → s.ino = none
  live : ∀ b, s.live b = true → s.obj = some b ∨ s.param = some b ∨ b ∈ B ∨
    (w.pc = .start ∧ w.par = b) ∨ w.pc = .read b
  obj : s.obj = some w.obj
  thr : s.thr w.obj = t
  inited : s.inited w.obj = true
  flag : s.flag w.obj ≠ .fin
  par : early w.pc = true → s.live w.par = true ∧ s.obj ≠ some w.par
  parp : mid w.pc = true → s.param = some w.par
  parn : mid w.pc = false → s.param = none
  read : ∀ b, w.pc = .read b → s.live b = true ∧ s.obj ≠ some b ∧ w.par ≠ b
  atf : ∀ j, s.main ≠ .atfork (j + 1)

/-- The invariant; `L`, `B`: the descriptors and the blocks that are lost. -/
def Inv (L B : List Nat) (s : State) : Prop := Core L s ∧ (NInv L B s ∨ ∃ t w, WInv L B s t w)

theorem inv_init (user : Nat → Bool) (um : Nat) : Inv [] [] (init user um) := by
  refine ⟨?_, .inl ?_⟩
  · constructor <;> simp [init] <;> intro f <;> split <;> simp
  · constructor <;> simp [init]

macro "fin_res" : tactic => `(tactic| (
  first
  | assumption
  | (intros; contradiction)
  | (simp only [upd]; grind [act, early, mid, hasE, hasI])
  | grind [act, early, mid, hasE, hasI]))

theorem early_act {p : WPc} (h : early p = true) : act p = true := by cases p <;> first | rfl | cases h

theorem w_start {s : State} {t par obj : Nat} {cd : Bool} {L B : List Nat} (hc : Core L s)
    (hW : WInv L B s t ⟨par, obj, .start, cd⟩) :
    Inv L B (State.goto { s with ino := none, ev := none, param := some par } t ⟨par, obj, .start, cd⟩ .ready) := by
  obtain ⟨h1, h2, h3, h4, h5, h6, h7, h8, h9, h10, h11, h12, h13, h14, h15, h16, h17, h18, h19, h20⟩ := hc
  obtain ⟨w1, w2, w3, w4, w5, w6, w7, w8, w9, w10, w11, w12, w13, w14, w15, w16, w17⟩ := hW
  dsimp only at *
  refine ⟨?_, .inr ⟨t, ⟨par, obj, .ready, cd⟩, ?_⟩⟩ <;> constructor <;> (try dsimp only [State.goto])
  all_goals fin_res

theorem w_go {s : State} {t par obj : Nat} {cd : Bool} {L B : List Nat} {pc p : WPc} (hc : Core L s)
    (hW : WInv L B s t ⟨par, obj, pc, cd⟩) (hm : mid pc = true) (hm' : mid p = true)
    (hE : hasE pc = true → hasE p = true) (hI : hasI pc = true → hasI p = true)
    (hr : ∀ b, pc ≠ .read b) (hr' : ∀ b, p ≠ .read b) :
    Inv L B (State.goto s t ⟨par, obj, pc, cd⟩ p) := by
  obtain ⟨h1, h2, h3, h4, h5, h6, h7, h8, h9, h10, h11, h12, h13, h14, h15, h16, h17, h18, h19, h20⟩ := hc
  obtain ⟨w1, w2, w3, w4, w5, w6, w7, w8, w9, w10, w11, w12, w13, w14, w15, w16, w17⟩ := hW
  dsimp only at *
  have hs : pc ≠ .start := by intro e; subst e; simp [mid] at hm
  have hs' : p ≠ .start := by intro e; subst e; simp [mid] at hm'
  have he : early pc = true := by simp only [mid, Bool.and_eq_true] at hm; exact hm.1
  have he' : early p = true := by simp only [mid, Bool.and_eq_true] at hm'; exact hm'.1
  have ha' : act p = true := early_act he'
  refine ⟨?_, .inr ⟨t, ⟨par, obj, p, cd⟩, ?_⟩⟩ <;> constructor <;> (try dsimp only [State.goto])
  all_goals fin_res

theorem w_epoll {s : State} {t par obj : Nat} {cd : Bool} {L B : List Nat} {f : Nat} (hc : Core L s)
    (hW : WInv L B s t ⟨par, obj, .epoll, cd⟩) (hf : s.own f = .free) :
    Inv L B (State.goto { s.openFd f with ev := some f } t ⟨par, obj, .epoll, cd⟩ .inotify) := by
  obtain ⟨h1, h2, h3, h4, h5, h6, h7, h8, h9, h10, h11, h12, h13, h14, h15, h16, h17, h18, h19, h20⟩ := hc
  obtain ⟨w1, w2, w3, w4, w5, w6, w7, w8, w9, w10, w11, w12, w13, w14, w15, w16, w17⟩ := hW
  dsimp only at *
  simp only [State.openFd]
  refine ⟨?_, .inr ⟨t, ⟨par, obj, .inotify, cd⟩, ?_⟩⟩ <;> constructor <;> (try dsimp only [State.goto])
  all_goals fin_res

theorem w_epoll_no {s : State} {t par obj : Nat} {cd : Bool} {L B : List Nat} (hc : Core L s)
    (hW : WInv L B s t ⟨par, obj, .epoll, cd⟩) :
    Inv L B (State.goto { s with ev := none } t ⟨par, obj, .epoll, cd⟩ (.hdl true)) := by
  obtain ⟨h1, h2, h3, h4, h5, h6, h7, h8, h9, h10, h11, h12, h13, h14, h15, h16, h17, h18, h19, h20⟩ := hc
  obtain ⟨w1, w2, w3, w4, w5, w6, w7, w8, w9, w10, w11, w12, w13, w14, w15, w16, w17⟩ := hW
  dsimp only at *
  refine ⟨?_, .inr ⟨t, ⟨par, obj, (.hdl true), cd⟩, ?_⟩⟩ <;> constructor <;> (try dsimp only [State.goto])
  all_goals fin_res

theorem w_inotify {s : State} {t par obj : Nat} {cd : Bool} {L B : List Nat} {f : Nat} (hc : Core L s)
    (hW : WInv L B s t ⟨par, obj, .inotify, cd⟩) (hf : s.own f = .free) :
    Inv L B (State.goto { s.openFd f with ino := some f } t ⟨par, obj, .inotify, cd⟩ .watch) := by
  obtain ⟨h1, h2, h3, h4, h5, h6, h7, h8, h9, h10, h11, h12, h13, h14, h15, h16, h17, h18, h19, h20⟩ := hc
  obtain ⟨w1, w2, w3, w4, w5, w6, w7, w8, w9, w10, w11, w12, w13, w14, w15, w16, w17⟩ := hW
  dsimp only at *
  simp only [State.openFd]
  refine ⟨?_, .inr ⟨t, ⟨par, obj, .watch, cd⟩, ?_⟩⟩ <;> constructor <;> (try dsimp only [State.goto])
  all_goals fin_res

theorem w_inotify_no {s : State} {t par obj : Nat} {cd : Bool} {L B : List Nat} (hc : Core L s)
    (hW : WInv L B s t ⟨par, obj, .inotify, cd⟩) :
    Inv L B (State.goto { s with ino := none } t ⟨par, obj, .inotify, cd⟩ (.hdl true)) := by
  obtain ⟨h1, h2, h3, h4, h5, h6, h7, h8, h9, h10, h11, h12, h13, h14, h15, h16, h17, h18, h19, h20⟩ := hc
  obtain ⟨w1, w2, w3, w4, w5, w6, w7, w8, w9, w10, w11, w12, w13, w14, w15, w16, w17⟩ := hW
  dsimp only at *
  refine ⟨?_, .inr ⟨t, ⟨par, obj, (.hdl true), cd⟩, ?_⟩⟩ <;> constructor <;> (try dsimp only [State.goto])
  all_goals fin_res

theorem w_wait {s : State} {t par obj : Nat} {cd : Bool} {L B : List Nat} (hc : Core L s)
    (hW : WInv L B s t ⟨par, obj, .wait, cd⟩) :
    Inv L B (State.goto s.alloc t ⟨par, obj, .wait, cd⟩ (.read s.next)) := by
  obtain ⟨h1, h2, h3, h4, h5, h6, h7, h8, h9, h10, h11, h12, h13, h14, h15, h16, h17, h18, h19, h20⟩ := hc
  obtain ⟨w1, w2, w3, w4, w5, w6, w7, w8, w9, w10, w11, w12, w13, w14, w15, w16, w17⟩ := hW
  dsimp only at *
  simp only [State.alloc]
  refine ⟨?_, .inr ⟨t, ⟨par, obj, (.read s.next), cd⟩, ?_⟩⟩ <;> constructor <;> (try dsimp only [State.goto])
  all_goals fin_res

theorem w_cut {s : State} {t par obj : Nat} {cd : Bool} {L B : List Nat} {b : Nat} (hc : Core L s)
    (hW : WInv L B s t ⟨par, obj, (.read b), cd⟩) :
    Inv L (b :: B) (State.goto s t ⟨par, obj, (.read b), cd⟩ (.hdl true)) := by
  obtain ⟨h1, h2, h3, h4, h5, h6, h7, h8, h9, h10, h11, h12, h13, h14, h15, h16, h17, h18, h19, h20⟩ := hc
  obtain ⟨w1, w2, w3, w4, w5, w6, w7, w8, w9, w10, w11, w12, w13, w14, w15, w16, w17⟩ := hW
  dsimp only at *
  refine ⟨?_, .inr ⟨t, ⟨par, obj, (.hdl true), cd⟩, ?_⟩⟩ <;> constructor <;> (try dsimp only [State.goto])
  all_goals fin_res

theorem w_read {s : State} {t par obj : Nat} {cd : Bool} {L B : List Nat} {b : Nat} (hc : Core L s)
    (hW : WInv L B s t ⟨par, obj, (.read b), cd⟩) :
    Inv L B (State.goto { s with live := upd s.live b false } t ⟨par, obj, (.read b), cd⟩ .loop) := by
  obtain ⟨h1, h2, h3, h4, h5, h6, h7, h8, h9, h10, h11, h12, h13, h14, h15, h16, h17, h18, h19, h20⟩ := hc
  obtain ⟨w1, w2, w3, w4, w5, w6, w7, w8, w9, w10, w11, w12, w13, w14, w15, w16, w17⟩ := hW
  dsimp only at *
  refine ⟨?_, .inr ⟨t, ⟨par, obj, .loop, cd⟩, ?_⟩⟩ <;> constructor <;> (try dsimp only [State.goto])
  all_goals fin_res

theorem w_hdl {s : State} {t par obj : Nat} {cd : Bool} {L B : List Nat} {c : Bool} (hc : Core L s)
    (hW : WInv L B s t ⟨par, obj, (.hdl c), cd⟩) :
    Inv L B (State.goto { s with live := upd s.live par false, param := none } t ⟨par, obj, (.hdl c), cd⟩ (.closeI c)) := by
  obtain ⟨h1, h2, h3, h4, h5, h6, h7, h8, h9, h10, h11, h12, h13, h14, h15, h16, h17, h18, h19, h20⟩ := hc
  obtain ⟨w1, w2, w3, w4, w5, w6, w7, w8, w9, w10, w11, w12, w13, w14, w15, w16, w17⟩ := hW
  dsimp only at *
  refine ⟨?_, .inr ⟨t, ⟨par, obj, (.closeI c), cd⟩, ?_⟩⟩ <;> constructor <;> (try dsimp only [State.goto])
  all_goals fin_res

theorem w_closeI {s : State} {t par obj : Nat} {cd : Bool} {L B : List Nat} {c : Bool} (hc : Core L s)
    (hW : WInv L B s t ⟨par, obj, (.closeI c), cd⟩) (hn : s.ino = none) :
    Inv L B (State.goto s t ⟨par, obj, (.closeI c), cd⟩ (.closeE c)) := by
  obtain ⟨h1, h2, h3, h4, h5, h6, h7, h8, h9, h10, h11, h12, h13, h14, h15, h16, h17, h18, h19, h20⟩ := hc
  obtain ⟨w1, w2, w3, w4, w5, w6, w7, w8, w9, w10, w11, w12, w13, w14, w15, w16, w17⟩ := hW
  dsimp only at *
  refine ⟨?_, .inr ⟨t, ⟨par, obj, (.closeE c), cd⟩, ?_⟩⟩ <;> constructor <;> (try dsimp only [State.goto])
  all_goals fin_res

theorem w_closeI_fd {s : State} {t par obj : Nat} {cd : Bool} {L B : List Nat} {c : Bool} {d : Nat} (hc : Core L s)
    (hW : WInv L B s t ⟨par, obj, (.closeI c), cd⟩) (hn : s.ino = some d) :
    Inv L B (State.goto { s with own := upd s.own d .free, ino := none } t ⟨par, obj, (.closeI c), cd⟩ (.closeE c)) := by
  obtain ⟨h1, h2, h3, h4, h5, h6, h7, h8, h9, h10, h11, h12, h13, h14, h15, h16, h17, h18, h19, h20⟩ := hc
  obtain ⟨w1, w2, w3, w4, w5, w6, w7, w8, w9, w10, w11, w12, w13, w14, w15, w16, w17⟩ := hW
  dsimp only at *
  refine ⟨?_, .inr ⟨t, ⟨par, obj, (.closeE c), cd⟩, ?_⟩⟩ <;> constructor <;> (try dsimp only [State.goto])
  all_goals fin_res

theorem w_closeE {s : State} {t par obj : Nat} {cd : Bool} {L B : List Nat} {c : Bool} (hc : Core L s)
    (hW : WInv L B s t ⟨par, obj, (.closeE c), cd⟩) (hn : s.ev = none) :
    Inv L B (State.goto s t ⟨par, obj, (.closeE c), cd⟩ .fin) := by
  obtain ⟨h1, h2, h3, h4, h5, h6, h7, h8, h9, h10, h11, h12, h13, h14, h15, h16, h17, h18, h19, h20⟩ := hc
  obtain ⟨w1, w2, w3, w4, w5, w6, w7, w8, w9, w10, w11, w12, w13, w14, w15, w16, w17⟩ := hW
  dsimp only at *
  refine ⟨?_, .inr ⟨t, ⟨par, obj, .fin, cd⟩, ?_⟩⟩ <;> constructor <;> (try dsimp only [State.goto])
  all_goals fin_res

theorem w_closeE_fd {s : State} {t par obj : Nat} {cd : Bool} {L B : List Nat} {c : Bool} {d : Nat} (hc : Core L s)
    (hW : WInv L B s t ⟨par, obj, (.closeE c), cd⟩) (hn : s.ev = some d) :
    Inv L B (State.goto { s with own := upd s.own d .free, ev := none } t ⟨par, obj, (.closeE c), cd⟩ .fin) := by
  obtain ⟨h1, h2, h3, h4, h5, h6, h7, h8, h9, h10, h11, h12, h13, h14, h15, h16, h17, h18, h19, h20⟩ := hc
  obtain ⟨w1, w2, w3, w4, w5, w6, w7, w8, w9, w10, w11, w12, w13, w14, w15, w16, w17⟩ := hW
  dsimp only at *
  refine ⟨?_, .inr ⟨t, ⟨par, obj, .fin, cd⟩, ?_⟩⟩ <;> constructor <;> (try dsimp only [State.goto])
  all_goals fin_res

theorem w_abortI {s : State} {t par obj : Nat} {cd : Bool} {L B : List Nat} {c : Bool} (hc : Core L s)
    (hW : WInv L B s t ⟨par, obj, (.closeI c), cd⟩) :
    Inv (s.ino.toList ++ s.ev.toList ++ L) B (State.goto s t ⟨par, obj, (.closeI c), cd⟩ .ended) := by
  obtain ⟨h1, h2, h3, h4, h5, h6, h7, h8, h9, h10, h11, h12, h13, h14, h15, h16, h17, h18, h19, h20⟩ := hc
  obtain ⟨w1, w2, w3, w4, w5, w6, w7, w8, w9, w10, w11, w12, w13, w14, w15, w16, w17⟩ := hW
  dsimp only at *
  refine ⟨?_, .inl ?_⟩ <;> constructor <;> (try dsimp only [State.goto])
  all_goals fin_res

theorem w_abortE {s : State} {t par obj : Nat} {cd : Bool} {L B : List Nat} {c : Bool} (hc : Core L s)
    (hW : WInv L B s t ⟨par, obj, (.closeE c), cd⟩) :
    Inv (s.ev.toList ++ L) B (State.goto s t ⟨par, obj, (.closeE c), cd⟩ .ended) := by
  obtain ⟨h1, h2, h3, h4, h5, h6, h7, h8, h9, h10, h11, h12, h13, h14, h15, h16, h17, h18, h19, h20⟩ := hc
  obtain ⟨w1, w2, w3, w4, w5, w6, w7, w8, w9, w10, w11, w12, w13, w14, w15, w16, w17⟩ := hW
  dsimp only at *
  refine ⟨?_, .inl ?_⟩ <;> constructor <;> (try dsimp only [State.goto])
  all_goals fin_res

theorem w_fin {s : State} {t par obj : Nat} {cd : Bool} {L B : List Nat} (hc : Core L s)
    (hW : WInv L B s t ⟨par, obj, .fin, cd⟩) :
    Inv L B (State.goto { s with flag := upd s.flag obj .fin } t ⟨par, obj, .fin, cd⟩ .last) := by
  obtain ⟨h1, h2, h3, h4, h5, h6, h7, h8, h9, h10, h11, h12, h13, h14, h15, h16, h17, h18, h19, h20⟩ := hc
  obtain ⟨w1, w2, w3, w4, w5, w6, w7, w8, w9, w10, w11, w12, w13, w14, w15, w16, w17⟩ := hW
  dsimp only at *
  refine ⟨?_, .inl ?_⟩ <;> constructor <;> (try dsimp only [State.goto])
  all_goals fin_res

theorem w_last {s : State} {t : Nat} {w : Wk} {L B : List Nat} (hi : Inv L B s) (hw : s.wk t = some w)
    (hp : w.pc = .last) : Inv L B (s.goto t w .ended) := by
  obtain ⟨hc, hn | ⟨t', w', hW⟩⟩ := hi
  · refine ⟨?_, .inl ?_⟩
    · obtain ⟨h1, h2, h3, h4, h5, h6, h7, h8, h9, h10, h11, h12, h13, h14, h15, h16, h17, h18, h19, h20⟩ := hc
      constructor <;> (try dsimp only [State.goto])
      all_goals fin_res
    · obtain ⟨w1, w2, w3, w4, w5, w6⟩ := hn
      constructor <;> (try dsimp only [State.goto])
      all_goals fin_res
  · have hne : t' ≠ t := by
      intro e; subst e
      have := hW.cur; rw [hw] at this; cases this
      have := hW.act; simp [hp, act] at this
    refine ⟨?_, .inr ⟨t', w', ?_⟩⟩
    · obtain ⟨h1, h2, h3, h4, h5, h6, h7, h8, h9, h10, h11, h12, h13, h14, h15, h16, h17, h18, h19, h20⟩ := hc
      constructor <;> (try dsimp only [State.goto])
      all_goals fin_res
    · obtain ⟨w1, w2, w3, w4, w5, w6, w7, w8, w9, w10, w11, w12, w13, w14, w15, w16, w17⟩ := hW
      constructor <;> (try dsimp only [State.goto])
      all_goals fin_res

theorem worker_inv {s s' : State} {t : Nat} {ok canc : Bool} {f : Nat} {L B : List Nat} (hi : Inv L B s)
    (h : wstep s t ok canc f = some s') :
    ∃ L' B', Inv L' B' s' ∧ L'.length ≤ L.length + fdLoss (wkind s t canc) ∧
      B'.length ≤ B.length + blkLoss (wkind s t canc) := by
  cases hw : s.wk t with
  | none => simp [wstep, hw] at h
  | some w =>
    by_cases ha : act w.pc = true
    · have hc := hi.1
      have hW : WInv L B s t w := by
        rcases hi.2 with hn | ⟨t', w', h'⟩
        · have := hn.cur t w hw; simp [ha] at this
        · have e := h'.oth t w hw ha
          subst e
          have := h'.cur
          rw [hw] at this
          cases this
          exact h'
      clear hi
      have stay : ∀ s'', Inv L B s'' → ∃ L' B', Inv L' B' s'' ∧
          L'.length ≤ L.length + fdLoss (wkind s t canc) ∧
          B'.length ≤ B.length + blkLoss (wkind s t canc) :=
        fun s'' hs => ⟨L, B, hs, by omega, by omega⟩
      obtain ⟨par, obj, pc, cd⟩ := w
      have hl : early pc = true → s.live par = true := fun he => (hW.par he).1
      have ho : s.live obj = true := hc.objl _ hW.obj
      cases pc with
      | start =>
        simp only [wstep, hw, State.use, hl rfl, if_true, Option.some.injEq] at h
        subst h
        exact stay _ (w_start hc hW)
      | ready =>
        simp only [wstep, hw, Option.some.injEq] at h
        subst h
        split <;> exact stay _ (w_go hc hW rfl rfl (by decide) (by decide) (by simp) (by simp))
      | epoll =>
        simp only [wstep, hw] at h
        split at h
        · split at h
          · rename_i hf
            simp only [Option.some.injEq] at h
            subst h
            exact stay _ (w_epoll hc hW hf)
          · cases h
        · simp only [Option.some.injEq] at h
          subst h
          exact stay _ (w_epoll_no hc hW)
      | inotify =>
        simp only [wstep, hw] at h
        split at h
        · split at h
          · rename_i hf
            simp only [Option.some.injEq] at h
            subst h
            exact stay _ (w_inotify hc hW hf)
          · cases h
        · simp only [Option.some.injEq] at h
          subst h
          exact stay _ (w_inotify_no hc hW)
      | watch =>
        simp only [wstep, hw, State.use, hl rfl, if_true, Option.some.injEq] at h
        subst h
        split <;> exact stay _ (w_go hc hW rfl rfl (by decide) (by decide) (by simp) (by simp))
      | ctl =>
        simp only [wstep, hw, Option.some.injEq] at h
        subst h
        split <;> exact stay _ (w_go hc hW rfl rfl (by decide) (by decide) (by simp) (by simp))
      | loop =>
        simp only [wstep, hw, State.use, ho, if_true] at h
        repeat' split at h
        all_goals
          simp only [Option.some.injEq] at h
          subst h
          exact stay _ (w_go hc hW rfl rfl (by decide) (by decide) (by simp) (by simp))
      | sleep =>
        simp only [wstep, hw, Option.some.injEq] at h
        subst h
        split <;> exact stay _ (w_go hc hW rfl rfl (by decide) (by decide) (by simp) (by simp))
      | wait =>
        simp only [wstep, hw] at h
        repeat' split at h
        all_goals
          simp only [Option.some.injEq] at h
          subst h
          first
          | exact stay _ (w_go hc hW rfl rfl (by decide) (by decide) (by simp) (by simp))
          | exact stay _ (w_wait hc hW)
      | read b =>
        have hb := (hW.read b rfl).1
        simp only [wstep, hw, State.release, hb, if_true] at h
        split at h
        · rename_i hac
          simp only [Option.some.injEq] at h
          subst h
          exact ⟨L, b :: B, w_cut hc hW, by omega, by simp [wkind, hw, hac, blkLoss]⟩
        · simp only [Option.some.injEq] at h
          subst h
          exact stay _ (w_read hc hW)
      | tail =>
        simp only [wstep, hw, Option.some.injEq] at h
        subst h
        exact stay _ (w_go hc hW rfl rfl (fun _ => rfl) (fun _ => rfl) (by simp) (by simp))
      | hdl c =>
        simp only [wstep, hw, State.use, State.release, hl rfl, if_true, Option.some.injEq] at h
        subst h
        exact stay _ (w_hdl hc hW)
      | closeI c =>
        cases hn : s.ino with
        | none =>
          simp only [wstep, hw, hn, Option.some.injEq] at h
          subst h
          exact stay _ (w_closeI hc hW hn)
        | some d =>
          have hd := hc.ino d hn
          simp only [wstep, hw, hn, State.close, hd, if_true] at h
          split at h
          · rename_i hac
            simp only [Option.some.injEq] at h
            subst h
            refine ⟨_, B, w_abortI hc hW, ?_, by omega⟩
            cases c
            · simp only [Bool.not_false, Bool.true_and] at hac
              have hk : wkind s t canc = .abort := by simp [wkind, hw, hn, hac]
              rw [hk]
              cases s.ino <;> cases s.ev <;> simp [fdLoss]
            · simp at hac
          · simp only [Option.some.injEq] at h
            subst h
            exact stay _ (w_closeI_fd hc hW hn)
      | closeE c =>
        cases hn : s.ev with
        | none =>
          simp only [wstep, hw, hn, Option.some.injEq] at h
          subst h
          exact stay _ (w_closeE hc hW hn)
        | some d =>
          have hd := hc.ev d hn
          simp only [wstep, hw, hn, State.close, hd, if_true] at h
          split at h
          · rename_i hac
            simp only [Option.some.injEq] at h
            subst h
            refine ⟨_, B, w_abortE hc hW, ?_, by omega⟩
            cases c
            · simp only [Bool.not_false, Bool.true_and] at hac
              have hk : wkind s t canc = .abort := by simp [wkind, hw, hn, hac]
              rw [hk]
              cases s.ev <;> simp [fdLoss]
            · simp at hac
          · simp only [Option.some.injEq] at h
            subst h
            exact stay _ (w_closeE_fd hc hW hn)
      | fin =>
        simp only [wstep, hw, State.use, ho, if_true, Option.some.injEq] at h
        subst h
        exact stay _ (w_fin hc hW)
      | last => cases ha
      | ended => cases ha
    · obtain ⟨par, obj, pc, cd⟩ := w
      cases pc <;> first | (exact absurd rfl ha) | skip
      · simp only [wstep, hw, Option.some.injEq] at h
        subst h
        exact ⟨L, B, w_last hi hw rfl, by omega, by omega⟩
      · simp [wstep, hw] at h

end Fullock.Proofs.Res
