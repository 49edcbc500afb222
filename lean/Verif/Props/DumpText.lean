import Verif.Proofs.DumpText
/-
C106: what the dump prints can be read back.
-/
namespace Fullock.Props.DumpText
open Fullock.DumpText Fullock.Spec.DumpText

/-- Every address of a named mutex that a line of the text gives is the address of a mutex shown. -/
def C106_full : Prop :=
  ∀ is : List Item, (∀ i ∈ is, Held i) → ∀ l ∈ cut [] (text is), ∀ a, mutexAt l = some a →
    ∃ lv nx h s, Item.mtx lv a nx h s ∈ is

/-- A name: `x"`, a closing brace and the first line of a record that does not exist. -/
def forged : Str := "x\"\n }\n FLNAMEDMUTEX(0x7f0000001000)={\n  name = \"y".toList

/-- The name of a mutex is printed as it is: a name of 49 characters with line ends makes the text show a mutex
that does not exist. -/
theorem C106_not_full : ¬ C106_full := by
  intro h
  obtain ⟨lv, nx, hh, s, hm⟩ := h [.mtx 1 0x2000 0 5 forged] (by
      intro i hi s hs
      simp only [List.mem_singleton] at hi
      subst hi
      simp only [names, List.mem_singleton] at hs
      subst hs
      decide +kernel)
    " FLNAMEDMUTEX(0x7f0000001000)={".toList (by decide +kernel) 0x7f0000001000 (by decide +kernel)
  simp at hm

/-- Without line ends in the names, the lines of the text are those printed for the items, in their order. -/
theorem C106_lines_partial (is : List Item) (h : ∀ i ∈ is, OneLine i) : cut [] (text is) = is.flatMap lines :=
  cut_lines _ (by
    intro l hl
    obtain ⟨i, hi, hl⟩ := List.mem_flatMap.mp hl
    exact lines_nl (h i hi) l hl)

/-- Without line ends in the names, the text says everything: the kinds of the items, their order, their
levels, the addresses and all values printed. -/
theorem C106_partial (is js : List Item) (hi : ∀ i ∈ is, OneLine i) (hj : ∀ j ∈ js, OneLine j) (h : text is = text js) :
    is = js := by
  have := congrArg (cut []) h
  rw [C106_lines_partial is hi, C106_lines_partial js hj] at this
  exact items_inj is js this

/-- An address, a hash and a count read back from the text are those printed. -/
theorem C106_numbers (n : Nat) :
    number 16 (toHex n) = n ∧ number 10 (dec n) = n ∧
    ((n = 0 ∧ toHexPtr n = "0".toList) ∨ (n ≠ 0 ∧ ∃ s, toHexPtr n = "0x".toList ++ s ∧ number 16 s = n)) := by
  refine ⟨number_digs (by decide) (by decide) n, ?_, ?_⟩
  · unfold dec
    rw [if_neg (by omega)]
    simpa using number_digs (b := 10) (by decide) (by decide) n
  · have h0 : "0".toList = ['0'] := by decide +kernel
    have hx : "0x".toList = ['0', 'x'] := by decide +kernel
    rw [h0, hx]
    exact toHexPtr_number n

/-- The first line of a record is indented by its level, its members by one more. -/
theorem C106_levels (i : Item) : (lines i).map indent = levels i := lines_levels i

/-- A negative number is a minus sign and the number without it. -/
theorem C106_negative (n : Nat) (h : n ≠ 0) : dec (-(n : Int)) = '-' :: dec n := by
  unfold dec
  rw [if_pos (by omega), if_neg (by omega)]
  simp

/-- The text without the segment. -/
example : [.top, .notInit].flatMap lines =
    ["[SHM]============================================".toList,
     "[SHM] pFlHead                   = Not initialized".toList] := by
  decide +kernel

/-- The header. -/
example : [.head 0x464c434b30313031 "V1".toList 4096 0x100 0 0x1a0 0x2bf 0xc 0xabcdef].flatMap lines =
    ["[SHM] version                   = 464c434b30313031".toList,
     "[SHM] szver                     = V1".toList,
     "[SHM] flength                   = 4096".toList,
     "[SHM] file_lock_list            = 0x100".toList,
     "[SHM] named_mutex_list          = 0".toList,
     "[SHM] file_lock_free            = 0x1a0".toList,
     "[SHM] offset_lock_free          = 0x2bf".toList,
     "[SHM] locker_free               = 0xc".toList,
     "[SHM] named_mutex_free          = 0xabcdef".toList] := by
  decide +kernel

/-- The beginnings of the parts. -/
example : [.sect .files, .sect .mtxs, .sect .conds, .sect .ffree, .sect .ofree, .sect .lfree, .sect .mfree, .sect .cfree, .sect .wfree, .cls 0].flatMap lines =
    ["[file_lock_list]={".toList,
     "[named_mutex_list]={".toList,
     "[named_cond_list]={".toList,
     "[file_lock_free]={".toList,
     "[offset_lock_free]={".toList,
     "[locker_free]={".toList,
     "[named_mutex_free]={".toList,
     "[named_cond_free]={".toList,
     "[waiter_free]={".toList,
     "}".toList] := by
  decide +kernel

/-- The beginnings of the lists inside records. -/
example : [.sub 2 .offs, .sub 2 .readers, .sub 2 .writers, .sub 2 .waiters, .sub 2 .mutex, .cls 3].flatMap lines =
    ["  offset_lock_list={".toList,
     "  reader_list={".toList,
     "  writer_list={".toList,
     "  waiter_list={".toList,
     "  named_mutex={".toList,
     "   }".toList] := by
  decide +kernel

/-- Records of the file locks. -/
example : [.file 1 0x7f10 0 2049 131 true, .off 3 0x7f20 0x90 (-1) 12 (-1) false, .locker 5 0x7f30 0 4294967297 3 true, .locker 5 0x7f30 0 7 (-2) false, .file 1 16 0 0 9 false, .off 1 16 0 10 0 2 true].flatMap lines =
    [" FLFILELOCK(0x7f10)={".toList,
     "  next              = 0".toList,
     "  dev_id            = 2049".toList,
     "  ino_id            = 131".toList,
     "  protect           = true".toList,
     "   FLOFFLOCK(0x7f20)={".toList,
     "    next              = 0x90".toList,
     "    offset            = -1".toList,
     "    length            = 12".toList,
     "    lockval           = -1".toList,
     "    protect           = false".toList,
     "     FLLOCKER(0x7f30)={".toList,
     "      next              = 0".toList,
     "      flckpid           = 4294967297".toList,
     "      fd                = 3".toList,
     "      locked            = locked".toList,
     "     FLLOCKER(0x7f30)={".toList,
     "      next              = 0".toList,
     "      flckpid           = 7".toList,
     "      fd                = -2".toList,
     "      locked            = not locked".toList,
     " FLFILELOCK(0x10)={".toList,
     "  next              = 0".toList,
     "  dev_id            = 0".toList,
     "  ino_id            = 9".toList,
     "  protect           = false".toList,
     " FLOFFLOCK(0x10)={".toList,
     "  next              = 0".toList,
     "  offset            = 10".toList,
     "  length            = 0".toList,
     "  lockval           = 2".toList,
     "  protect           = true".toList] := by
  decide +kernel

/-- Records of the mutexes and conditions. -/
example : [.mtx 1 0x10 0x20 0xcbf29ce484222325 "a b".toList, .cond 1 0x30 0 255 "c".toList, .waiter 3 0x40 0 99 .waiting, .waiter 3 0x40 0 99 .signaled, .waiter 3 0x40 0 99 .unknown].flatMap lines =
    [" FLNAMEDMUTEX(0x10)={".toList,
     "  next              = 0x20".toList,
     "  hash              = cbf29ce484222325".toList,
     "  name              = \"a b\"".toList,
     " FLNAMEDCOND(0x30)={".toList,
     "  next              = 0".toList,
     "  hash              = ff".toList,
     "  name              = \"c\"".toList,
     "   FLWAITER(0x40)={".toList,
     "    next              = 0".toList,
     "    flckpid           = 99".toList,
     "    lockstatus        = waiting cond".toList,
     "   FLWAITER(0x40)={".toList,
     "    next              = 0".toList,
     "    flckpid           = 99".toList,
     "    lockstatus        = signaled cond".toList,
     "   FLWAITER(0x40)={".toList,
     "    next              = 0".toList,
     "    flckpid           = 99".toList,
     "    lockstatus        = unknown type".toList] := by
  decide +kernel

/-- Two lines of text. -/
example : text [.sect .mtxs, .cls 0] = "[named_mutex_list]={\n}\n".toList := by decide +kernel

/-- Items that meet the hypotheses of `C106_lines_partial` and `C106_partial`. -/
example : ∀ i ∈ [Item.head 1 "V".toList 2 3 4 5 6 7 8, .sect .mtxs, .mtx 1 16 0 5 "a\"} b".toList, .cls 1, .cls 0], OneLine i := by
  unfold OneLine
  decide +kernel

end Fullock.Props.DumpText
