import Verif.Spec.DumpText
/-
Lemmas about the text of the dump.
-/
namespace Fullock.DumpText
open Fullock.Spec.DumpText

theorem val_digit {d : Nat} (h : d < 16) : val (digit d) = d := by
  have : ∀ d : Fin 16, val (digit d.1) = d.1 := by decide +kernel
  exact this ⟨d, h⟩

theorem digit_plain {d : Nat} (h : d < 16) : digit d ≠ '\n' ∧ digit d ≠ ' ' ∧ digit d ≠ 'x' ∧ digit d ≠ '-' := by
  have : ∀ d : Fin 16, digit d.1 ≠ '\n' ∧ digit d.1 ≠ ' ' ∧ digit d.1 ≠ 'x' ∧ digit d.1 ≠ '-' := by decide +kernel
  exact this ⟨d, h⟩

theorem number_digsF {b : Nat} (h2 : 2 ≤ b) (h16 : b ≤ 16) : ∀ (f n : Nat), n < 2 ^ f → number b (digsF b f n) = n
  | 0, n, h => by simp at h; subst h; rfl
  | f + 1, n, h => by
    unfold digsF
    split
    · next hlt => simp [number, val_digit (d := n) (by omega)]
    · next hge =>
      have hd : n / b < 2 ^ f := by
        rw [Nat.div_lt_iff_lt_mul (by omega)]
        exact Nat.lt_of_lt_of_le (Nat.pow_succ 2 f ▸ h) (Nat.mul_le_mul_left _ h2)
      have hm : n % b < b := Nat.mod_lt _ (by omega)
      have ih := number_digsF h2 h16 f (n / b) hd
      unfold number at ih ⊢
      rw [List.foldl_append, ih]
      simp only [List.foldl_cons, List.foldl_nil, val_digit (d := n % b) (by omega)]
      exact Nat.div_add_mod n b

theorem number_digs {b : Nat} (h2 : 2 ≤ b) (h16 : b ≤ 16) (n : Nat) : number b (digs b n) = n :=
  number_digsF h2 h16 _ _ Nat.lt_log2_self

theorem digsF_plain {b : Nat} (h2 : 2 ≤ b) (h16 : b ≤ 16) : ∀ (f n : Nat), ∀ c ∈ digsF b f n, ∃ d, d < b ∧ c = digit d
  | 0, n, c, h => by simp [digsF] at h
  | f + 1, n, c, h => by
    unfold digsF at h
    split at h
    · next hlt => simp at h; exact ⟨n, hlt, h⟩
    · rw [List.mem_append] at h
      rcases h with h | h
      · exact digsF_plain h2 h16 f _ c h
      · simp at h; exact ⟨n % b, Nat.mod_lt _ (by omega), h⟩

theorem digs_plain {b : Nat} (h2 : 2 ≤ b) (h16 : b ≤ 16) {n : Nat} {c : Char} (h : c ∈ digs b n) :
    c ≠ '\n' ∧ c ≠ ' ' ∧ c ≠ 'x' ∧ c ≠ '-' := by
  obtain ⟨d, hd, rfl⟩ := digsF_plain h2 h16 _ _ c h
  exact digit_plain (by omega)

theorem toHex_inj {n m : Nat} (h : toHex n = toHex m) : n = m := by
  have := congrArg (number 16) h
  simpa only [toHex, number_digs (by decide : 2 ≤ 16) (by decide : 16 ≤ 16)] using this

theorem toHexPtr_number (n : Nat) : (n = 0 ∧ toHexPtr n = ['0']) ∨
    (n ≠ 0 ∧ ∃ s, toHexPtr n = '0' :: 'x' :: s ∧ number 16 s = n) := by
  unfold toHexPtr
  split
  · next h => exact .inl ⟨h, rfl⟩
  · next h => exact .inr ⟨h, _, rfl, number_digs (by decide) (by decide) n⟩

theorem toHexPtr_inj {n m : Nat} (h : toHexPtr n = toHexPtr m) : n = m := by
  rcases toHexPtr_number n with ⟨rfl, e⟩ | ⟨_, s, e, en⟩ <;> rcases toHexPtr_number m with ⟨rfl, e'⟩ | ⟨_, s', e', em⟩ <;>
    first | rfl | (rw [e, e'] at h; simp at h; done) | skip
  rw [e, e'] at h
  simp only [List.cons.injEq, true_and] at h
  rw [← en, ← em, h]

theorem dec_inj {i j : Int} (h : dec i = dec j) : i = j := by
  have key : ∀ n m : Nat, digs 10 n = digs 10 m → n = m := by
    intro n m h
    have := congrArg (number 10) h
    simpa only [number_digs (by decide : 2 ≤ 10) (by decide : 10 ≤ 16)] using this
  have sign : ∀ (n m : Nat), '-' :: digs 10 n ≠ digs 10 m := by
    intro n m h
    have : '-' ∈ digs 10 m := by rw [← h]; simp
    exact (digs_plain (by decide) (by decide) this).2.2.2 rfl
  unfold dec at h
  split at h <;> split at h
  · simp at h; have := key _ _ h; omega
  · exact absurd h (sign _ _)
  · exact absurd h.symm (sign _ _)
  · have := key _ _ h; omega

/-! ### Line ends -/

theorem toHex_nl (n : Nat) : '\n' ∉ toHex n := fun h => (digs_plain (by decide) (by decide) h).1 rfl

theorem toHexPtr_nl (n : Nat) : '\n' ∉ toHexPtr n := by
  unfold toHexPtr
  split
  · decide
  · simp only [List.mem_cons, not_or]
    exact ⟨by decide, by decide, toHex_nl n⟩

theorem dec_nl (i : Int) : '\n' ∉ dec i := by
  have : ∀ n, '\n' ∉ digs 10 n := fun n h => (digs_plain (by decide) (by decide) h).1 rfl
  unfold dec
  split
  · simp only [List.mem_cons, not_or]
    exact ⟨by decide, this _⟩
  · exact this _

theorem spaces_nl (n : Nat) : '\n' ∉ spaces n := by
  unfold spaces
  intro h
  have := List.eq_of_mem_replicate h
  exact absurd this (by decide)

theorem cut_line (l : Str) (h : '\n' ∉ l) : ∀ (acc r : Str), cut acc (l ++ '\n' :: r) = (acc ++ l) :: cut [] r := by
  induction l with
  | nil => intro acc r; simp [cut]
  | cons c l ih =>
    intro acc r
    simp only [List.mem_cons, not_or] at h
    rw [List.cons_append, cut, if_neg (fun e => h.1 e.symm), ih h.2]
    simp

theorem cut_lines : ∀ ls : List Str, (∀ l ∈ ls, '\n' ∉ l) → cut [] (ls.flatMap (fun l => l ++ ['\n'])) = ls
  | [], _ => rfl
  | l :: ls, h => by
    rw [List.flatMap_cons, List.append_assoc, List.singleton_append, cut_line l (h l (by simp)), cut_lines ls (fun x hx => h x (by simp [hx]))]
    rfl

theorem lines_nl {i : Item} (h : OneLine i) : ∀ l ∈ lines i, '\n' ∉ l := by
  intro l hl
  have hx := toHex_nl
  have hp := toHexPtr_nl
  have hd := dec_nl
  have hs := spaces_nl
  cases i with
  | top => simp only [lines, List.mem_singleton] at hl; subst hl; decide
  | notInit => simp only [lines, List.mem_singleton] at hl; subst hl; decide
  | sect s => simp only [lines, List.mem_singleton] at hl; subst hl; cases s <;> decide
  | sub lv s =>
    simp only [lines, List.mem_singleton] at hl; subst hl
    rw [List.mem_append, not_or]; exact ⟨hs _, by cases s <;> decide⟩
  | cls lv =>
    simp only [lines, List.mem_singleton] at hl; subst hl
    rw [List.mem_append, not_or]; exact ⟨hs _, by decide⟩
  | head v sz n a b c d e f =>
    have hsz : '\n' ∉ sz := h sz (by simp [names])
    simp only [lines, List.mem_cons, List.not_mem_nil, or_false] at hl
    rcases hl with rfl | rfl | rfl | rfl | rfl | rfl | rfl | rfl | rfl <;> rw [List.mem_append, not_or]
    · exact ⟨by decide, hx _⟩
    · exact ⟨by decide, hsz⟩
    · exact ⟨by decide, hd _⟩
    all_goals exact ⟨by decide, hp _⟩
  | file lv p nx dev ino pr =>
    simp only [lines, opening, member, List.cons_append, List.nil_append, List.mem_cons, List.not_mem_nil, or_false] at hl
    rcases hl with rfl | rfl | rfl | rfl | rfl <;> simp only [List.mem_append, not_or]
    · exact ⟨hs _, by decide, hp _, by decide⟩
    · exact ⟨hs _, by decide, hp _⟩
    · exact ⟨hs _, by decide, hd _⟩
    · exact ⟨hs _, by decide, hd _⟩
    · exact ⟨hs _, by decide, by cases pr <;> decide⟩
  | off lv p nx o n w pr =>
    simp only [lines, opening, member, List.cons_append, List.nil_append, List.mem_cons, List.not_mem_nil, or_false] at hl
    rcases hl with rfl | rfl | rfl | rfl | rfl | rfl <;> simp only [List.mem_append, not_or]
    · exact ⟨hs _, by decide, hp _, by decide⟩
    · exact ⟨hs _, by decide, hp _⟩
    · exact ⟨hs _, by decide, hd _⟩
    · exact ⟨hs _, by decide, hd _⟩
    · exact ⟨hs _, by decide, hd _⟩
    · exact ⟨hs _, by decide, by cases pr <;> decide⟩
  | locker lv p nx pid fd l =>
    simp only [lines, opening, member, List.cons_append, List.nil_append, List.mem_cons, List.not_mem_nil, or_false] at hl
    rcases hl with rfl | rfl | rfl | rfl | rfl <;> simp only [List.mem_append, not_or]
    · exact ⟨hs _, by decide, hp _, by decide⟩
    · exact ⟨hs _, by decide, hp _⟩
    · exact ⟨hs _, by decide, hd _⟩
    · exact ⟨hs _, by decide, hd _⟩
    · exact ⟨hs _, by decide, by cases l <;> decide⟩
  | mtx lv p nx hh name =>
    have hn : '\n' ∉ name := h name (by simp [names])
    simp only [lines, opening, member, List.cons_append, List.nil_append, List.mem_cons, List.not_mem_nil, or_false] at hl
    rcases hl with rfl | rfl | rfl | rfl <;> simp only [List.mem_append, not_or]
    · exact ⟨hs _, by decide, hp _, by decide⟩
    · exact ⟨hs _, by decide, hp _⟩
    · exact ⟨hs _, by decide, hx _⟩
    · exact ⟨hs _, by decide, hn, by decide⟩
  | cond lv p nx hh name =>
    have hn : '\n' ∉ name := h name (by simp [names])
    simp only [lines, opening, member, List.cons_append, List.nil_append, List.mem_cons, List.not_mem_nil, or_false] at hl
    rcases hl with rfl | rfl | rfl | rfl <;> simp only [List.mem_append, not_or]
    · exact ⟨hs _, by decide, hp _, by decide⟩
    · exact ⟨hs _, by decide, hp _⟩
    · exact ⟨hs _, by decide, hx _⟩
    · exact ⟨hs _, by decide, hn, by decide⟩
  | waiter lv p nx pid st =>
    simp only [lines, opening, member, List.cons_append, List.nil_append, List.mem_cons, List.not_mem_nil, or_false] at hl
    rcases hl with rfl | rfl | rfl | rfl <;> simp only [List.mem_append, not_or]
    · exact ⟨hs _, by decide, hp _, by decide⟩
    · exact ⟨hs _, by decide, hp _⟩
    · exact ⟨hs _, by decide, hd _⟩
    · exact ⟨hs _, by decide, by cases st <;> decide⟩

/-! ### The first line tells the kind -/

theorem spaces_strip (n : Nat) {c : Char} (h : c ≠ ' ') (r : Str) : (spaces n ++ c :: r).dropWhile (· == ' ') = c :: r := by
  induction n with
  | zero => simp [spaces, h]
  | succ n ih => rw [spaces, List.replicate_succ, List.cons_append, List.dropWhile_cons_of_pos (by decide)]; exact ih

theorem spaces_inj {n m : Nat} {c d : Char} (hc : c ≠ ' ') (hd : d ≠ ' ') {r s : Str} (h : spaces n ++ c :: r = spaces m ++ d :: s) :
    n = m ∧ c :: r = d :: s := by
  have e := congrArg (List.dropWhile (· == ' ')) h
  rw [spaces_strip n hc, spaces_strip m hd] at e
  refine ⟨?_, e⟩
  rw [e] at h
  have := congrArg List.length (List.append_cancel_right h)
  simpa [spaces] using this

/-- The kind of item that begins with the line. -/
def kind (l : Str) : Nat :=
  match l.dropWhile (· == ' ') with
  | '[' :: 'S' :: 'H' :: 'M' :: ']' :: '=' :: _ => 0
  | '[' :: 'S' :: 'H' :: 'M' :: ']' :: ' ' :: 'p' :: _ => 1
  | '[' :: 'S' :: 'H' :: 'M' :: ']' :: ' ' :: 'v' :: _ => 2
  | '[' :: _ => 3
  | '}' :: _ => 5
  | 'F' :: 'L' :: 'F' :: _ => 6
  | 'F' :: 'L' :: 'O' :: _ => 7
  | 'F' :: 'L' :: 'L' :: _ => 8
  | 'F' :: 'L' :: 'N' :: 'A' :: 'M' :: 'E' :: 'D' :: 'M' :: _ => 9
  | 'F' :: 'L' :: 'N' :: 'A' :: 'M' :: 'E' :: 'D' :: 'C' :: _ => 10
  | 'F' :: 'L' :: 'W' :: _ => 11
  | _ => 4

def kindOf : Item → Nat
  | .top => 0 | .notInit => 1 | .head .. => 2 | .sect _ => 3 | .sub .. => 4 | .cls _ => 5 | .file .. => 6 | .off .. => 7
  | .locker .. => 8 | .mtx .. => 9 | .cond .. => 10 | .waiter .. => 11

theorem lines_kind (i : Item) : ∃ l r, lines i = l :: r ∧ kind l = kindOf i := by
  cases i with
  | sect s => exact ⟨_, _, rfl, by cases s <;> rfl⟩
  | sub lv s =>
    refine ⟨_, _, rfl, ?_⟩
    cases s <;> simp only [Sub.str] <;> unfold kind <;> rw [spaces_strip lv (by decide)] <;> rfl
  | cls lv =>
    refine ⟨_, _, rfl, ?_⟩
    unfold kind; rw [spaces_strip lv (by decide)]; rfl
  | top => exact ⟨_, _, rfl, rfl⟩
  | notInit => exact ⟨_, _, rfl, rfl⟩
  | head => exact ⟨_, _, rfl, rfl⟩
  | file lv => exact ⟨_, _, rfl, by unfold kind; simp only [lFile, List.cons_append]; rw [spaces_strip lv (by decide)]; rfl⟩
  | off lv => exact ⟨_, _, rfl, by unfold kind; simp only [lOff, List.cons_append]; rw [spaces_strip lv (by decide)]; rfl⟩
  | locker lv => exact ⟨_, _, rfl, by unfold kind; simp only [lLocker, List.cons_append]; rw [spaces_strip lv (by decide)]; rfl⟩
  | mtx lv => exact ⟨_, _, rfl, by unfold kind; simp only [lMtx, List.cons_append]; rw [spaces_strip lv (by decide)]; rfl⟩
  | cond lv => exact ⟨_, _, rfl, by unfold kind; simp only [lCond, List.cons_append]; rw [spaces_strip lv (by decide)]; rfl⟩
  | waiter lv => exact ⟨_, _, rfl, by unfold kind; simp only [lWaiter, List.cons_append]; rw [spaces_strip lv (by decide)]; rfl⟩

theorem length_kind {i j : Item} (h : kindOf i = kindOf j) : (lines i).length = (lines j).length := by
  cases i <;> cases j <;> first | rfl | (simp [kindOf] at h; done)

theorem word_inj {w a b : Str} {c : Char} {r : Str} (hw : w = c :: r) (hc : c ≠ ' ') {n m : Nat}
    (h : spaces n ++ (w ++ a) = spaces m ++ (w ++ b)) : n = m ∧ a = b := by
  subst hw
  obtain ⟨e, e'⟩ := spaces_inj hc hc h
  exact ⟨e, List.append_cancel_left (as := c :: r) e'⟩

theorem opening_inj {w : Str} {c : Char} {r : Str} (hw : w = c :: r) (hc : c ≠ ' ') {lv p nx lv' p' nx' : Nat} {a b : List Str}
    (h : opening w lv p nx ++ a = opening w lv' p' nx' ++ b) : lv = lv' ∧ p = p' ∧ nx = nx' ∧ a = b := by
  simp only [opening, List.cons_append, List.nil_append, List.cons.injEq] at h
  obtain ⟨h1, h2, h3⟩ := h
  obtain ⟨e, e1⟩ := word_inj hw hc h1
  obtain ⟨_, e2⟩ := word_inj (w := lNext) rfl (by decide) h2
  exact ⟨e, toHexPtr_inj (List.append_cancel_right e1), toHexPtr_inj e2, h3⟩

theorem member_inj {w : Str} {c : Char} {r : Str} (hw : w = c :: r) (hc : c ≠ ' ') {lv lv' : Nat} {a b : Str}
    (h : member lv w a = member lv' w b) : a = b := (word_inj hw hc h).2

theorem tf_inj {a b : Bool} (h : tf a = tf b) : a = b := by cases a <;> cases b <;> first | rfl | exact absurd h (by decide)
theorem lk_inj {a b : Bool} (h : lk a = lk b) : a = b := by cases a <;> cases b <;> first | rfl | exact absurd h (by decide)
theorem status_inj {a b : Status} (h : a.str = b.str) : a = b := by
  cases a <;> cases b <;> first | rfl | exact absurd h (by decide)
theorem sect_inj {a b : Sect} (h : a.str = b.str) : a = b := by
  cases a <;> cases b <;> first | rfl | exact absurd h (by decide)
theorem sub_inj {a b : Sub} {n m : Nat} (h : spaces n ++ a.str = spaces m ++ b.str) : n = m ∧ a = b := by
  have hh : ∀ s : Sub, ∃ c r, s.str = c :: r ∧ c ≠ ' ' := by intro s; cases s <;> exact ⟨_, _, rfl, by decide⟩
  obtain ⟨c, r, e, hc⟩ := hh a
  obtain ⟨d, s, e', hd⟩ := hh b
  rw [e, e'] at h
  obtain ⟨h1, h2⟩ := spaces_inj hc hd h
  rw [← e, ← e'] at h2
  exact ⟨h1, by revert h2; cases a <;> cases b <;> first | (intro; rfl) | (intro h; exact absurd h (by decide))⟩

theorem lines_inj {i j : Item} (hk : kindOf i = kindOf j) (h : lines i = lines j) : i = j := by
  cases i <;> cases j <;> first | (simp [kindOf] at hk; done) | skip
  case top.top => rfl
  case notInit.notInit => rfl
  case head.head =>
    simp only [lines, List.cons.injEq, List.append_cancel_left_eq, and_true] at h
    obtain ⟨h1, h2, h3, h4, h5, h6, h7, h8, h9⟩ := h
    have h1 := toHex_inj h1
    have h3 := dec_inj h3
    have h4 := toHexPtr_inj h4
    have h5 := toHexPtr_inj h5
    have h6 := toHexPtr_inj h6
    have h7 := toHexPtr_inj h7
    have h8 := toHexPtr_inj h8
    have h9 := toHexPtr_inj h9
    have h3 := Int.ofNat.inj h3
    subst h1; subst h2; subst h3; subst h4; subst h5; subst h6; subst h7; subst h8; subst h9; rfl
  case sect.sect => simp only [lines, List.cons.injEq, and_true] at h; rw [sect_inj h]
  case sub.sub => simp only [lines, List.cons.injEq, and_true] at h; rw [(sub_inj h).1, (sub_inj h).2]
  case cls.cls =>
    simp only [lines, List.cons.injEq, and_true] at h
    rw [(spaces_inj (by decide) (by decide) h).1]
  case file.file =>
    simp only [lines] at h
    obtain ⟨e1, e2, e3, hr⟩ := opening_inj (w := lFile) rfl (by decide) h
    clear h
    subst e1; subst e2; subst e3
    simp only [List.cons.injEq, and_true] at hr
    obtain ⟨h1, h2, h3⟩ := hr
    have h1 := Int.ofNat.inj (dec_inj (member_inj (w := lDev) rfl (by decide) h1))
    have h2 := Int.ofNat.inj (dec_inj (member_inj (w := lIno) rfl (by decide) h2))
    have h3 := tf_inj (member_inj (w := lProt) rfl (by decide) h3)
    subst h1; subst h2; subst h3; rfl
  case off.off =>
    simp only [lines] at h
    obtain ⟨e1, e2, e3, hr⟩ := opening_inj (w := lOff) rfl (by decide) h
    clear h
    subst e1; subst e2; subst e3
    simp only [List.cons.injEq, and_true] at hr
    obtain ⟨h1, h2, h3, h4⟩ := hr
    have h1 := dec_inj (member_inj (w := lOffset) rfl (by decide) h1)
    have h2 := Int.ofNat.inj (dec_inj (member_inj (w := lLength) rfl (by decide) h2))
    have h3 := dec_inj (member_inj (w := lVal) rfl (by decide) h3)
    have h4 := tf_inj (member_inj (w := lProt) rfl (by decide) h4)
    subst h1; subst h2; subst h3; subst h4; rfl
  case locker.locker =>
    simp only [lines] at h
    obtain ⟨e1, e2, e3, hr⟩ := opening_inj (w := lLocker) rfl (by decide) h
    clear h
    subst e1; subst e2; subst e3
    simp only [List.cons.injEq, and_true] at hr
    obtain ⟨h1, h2, h3⟩ := hr
    have h1 := Int.ofNat.inj (dec_inj (member_inj (w := lPid) rfl (by decide) h1))
    have h2 := dec_inj (member_inj (w := lFd) rfl (by decide) h2)
    have h3 := lk_inj (member_inj (w := lLocked) rfl (by decide) h3)
    subst h1; subst h2; subst h3; rfl
  case mtx.mtx =>
    simp only [lines] at h
    obtain ⟨e1, e2, e3, hr⟩ := opening_inj (w := lMtx) rfl (by decide) h
    clear h
    subst e1; subst e2; subst e3
    simp only [List.cons.injEq, and_true] at hr
    obtain ⟨h1, h2⟩ := hr
    have h1 := toHex_inj (member_inj (w := lHash) rfl (by decide) h1)
    have h2 := List.append_cancel_right (member_inj (w := lName) rfl (by decide) h2)
    subst h1; subst h2; rfl
  case cond.cond =>
    simp only [lines] at h
    obtain ⟨e1, e2, e3, hr⟩ := opening_inj (w := lCond) rfl (by decide) h
    clear h
    subst e1; subst e2; subst e3
    simp only [List.cons.injEq, and_true] at hr
    obtain ⟨h1, h2⟩ := hr
    have h1 := toHex_inj (member_inj (w := lHash) rfl (by decide) h1)
    have h2 := List.append_cancel_right (member_inj (w := lName) rfl (by decide) h2)
    subst h1; subst h2; rfl
  case waiter.waiter =>
    simp only [lines] at h
    obtain ⟨e1, e2, e3, hr⟩ := opening_inj (w := lWaiter) rfl (by decide) h
    clear h
    subst e1; subst e2; subst e3
    simp only [List.cons.injEq, and_true] at hr
    obtain ⟨h1, h2⟩ := hr
    have h1 := Int.ofNat.inj (dec_inj (member_inj (w := lPid) rfl (by decide) h1))
    have h2 := status_inj (member_inj (w := lStat) rfl (by decide) h2)
    subst h1; subst h2; rfl

theorem items_inj : ∀ is js : List Item, is.flatMap lines = js.flatMap lines → is = js
  | [], [], _ => rfl
  | [], j :: js, h => by
    obtain ⟨l, r, e, _⟩ := lines_kind j
    simp [e] at h
  | i :: is, [], h => by
    obtain ⟨l, r, e, _⟩ := lines_kind i
    simp [e] at h
  | i :: is, j :: js, h => by
    obtain ⟨l, r, e, hk⟩ := lines_kind i
    obtain ⟨l', r', e', hk'⟩ := lines_kind j
    rw [List.flatMap_cons, List.flatMap_cons] at h
    have hl : l = l' := by
      rw [e, e'] at h
      simp only [List.cons_append, List.cons.injEq] at h
      exact h.1
    have hkk : kindOf i = kindOf j := by rw [← hk, ← hk', hl]
    obtain ⟨h1, h2⟩ := List.append_inj h (length_kind hkk)
    rw [lines_inj hkk h1, items_inj is js h2]

/-! ### Indentation -/

theorem indent_spaces (n : Nat) {c : Char} (h : c ≠ ' ') (r : Str) : indent (spaces n ++ c :: r) = n := by
  induction n with
  | zero => simp [spaces, indent, h]
  | succ n ih =>
    unfold indent spaces at ih ⊢
    rw [List.replicate_succ, List.cons_append, List.takeWhile_cons_of_pos (by decide), List.length_cons, ih]

theorem indent_word {w : Str} {c : Char} {r : Str} (hw : w = c :: r) (hc : c ≠ ' ') (n : Nat) (s : Str) :
    indent (spaces n ++ (w ++ s)) = n := by
  subst hw
  exact indent_spaces n hc _

theorem indent_flat {w : Str} {c : Char} {r : Str} (hw : w = c :: r) (hc : c ≠ ' ') (s : Str) : indent (w ++ s) = 0 :=
  indent_word hw hc 0 s

theorem lines_levels (i : Item) : (lines i).map indent = levels i := by
  have op : ∀ {w : Str} {c : Char} {r : Str}, w = c :: r → c ≠ ' ' → ∀ lv p nx, (opening w lv p nx).map indent = [lv, lv + 1] := by
    intro w c r hw hc lv p nx
    simp only [opening, List.map_cons, List.map_nil]
    rw [indent_word hw hc, indent_word (w := lNext) rfl (by decide)]
  have mb : ∀ {w : Str} {c : Char} {r : Str}, w = c :: r → c ≠ ' ' → ∀ lv v, indent (member lv w v) = lv + 1 :=
    fun hw hc lv v => indent_word hw hc _ v
  cases i with
  | top => rfl
  | notInit => rfl
  | head v sz n a b c d e f =>
    simp only [lines, List.map_cons, List.map_nil, levels]
    rw [indent_flat (w := lVer) rfl (by decide), indent_flat (w := lSz) rfl (by decide), indent_flat (w := lLen) rfl (by decide),
      indent_flat (w := lHFile) rfl (by decide), indent_flat (w := lHMtx) rfl (by decide), indent_flat (w := lHFfree) rfl (by decide),
      indent_flat (w := lHOfree) rfl (by decide), indent_flat (w := lHLfree) rfl (by decide), indent_flat (w := lHMfree) rfl (by decide)]
  | sect s => cases s <;> rfl
  | sub lv s => simp only [lines, List.map_cons, List.map_nil, levels]; cases s <;> simp only [Sub.str] <;> rw [indent_spaces lv (by decide)]
  | cls lv => simp only [lines, List.map_cons, List.map_nil, levels]; rw [indent_spaces lv (by decide)]
  | file lv =>
    simp only [lines, List.map_append, List.map_cons, List.map_nil, levels]
    rw [op (w := lFile) rfl (by decide), mb (w := lDev) rfl (by decide), mb (w := lIno) rfl (by decide), mb (w := lProt) rfl (by decide)]
    rfl
  | off lv =>
    simp only [lines, List.map_append, List.map_cons, List.map_nil, levels]
    rw [op (w := lOff) rfl (by decide), mb (w := lOffset) rfl (by decide), mb (w := lLength) rfl (by decide), mb (w := lVal) rfl (by decide),
      mb (w := lProt) rfl (by decide)]
    rfl
  | locker lv =>
    simp only [lines, List.map_append, List.map_cons, List.map_nil, levels]
    rw [op (w := lLocker) rfl (by decide), mb (w := lPid) rfl (by decide), mb (w := lFd) rfl (by decide), mb (w := lLocked) rfl (by decide)]
    rfl
  | mtx lv =>
    simp only [lines, List.map_append, List.map_cons, List.map_nil, levels]
    rw [op (w := lMtx) rfl (by decide), mb (w := lHash) rfl (by decide), mb (w := lName) rfl (by decide)]
    rfl
  | cond lv =>
    simp only [lines, List.map_append, List.map_cons, List.map_nil, levels]
    rw [op (w := lCond) rfl (by decide), mb (w := lHash) rfl (by decide), mb (w := lName) rfl (by decide)]
    rfl
  | waiter lv =>
    simp only [lines, List.map_append, List.map_cons, List.map_nil, levels]
    rw [op (w := lWaiter) rfl (by decide), mb (w := lPid) rfl (by decide), mb (w := lStat) rfl (by decide)]
    rfl

end Fullock.DumpText
