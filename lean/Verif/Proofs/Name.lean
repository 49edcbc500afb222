import Verif.Spec.Name
import Mathlib.Data.List.Forall2
import Mathlib.Data.List.Induction
namespace Fullock
open Spec

/-- The C string at the start of a buffer. -/
def cstr (buf : List Byte) : List Byte := buf.takeWhile (· != 0#8)

theorem strncmp_zero_iff (n : Nat) : ∀ a b : List Byte,
    strncmp a b n = 0 ↔ cstr (a.take n) = cstr (b.take n) := by
  induction n with
  | zero => intro a b; simp [strncmp]
  | succ n ih =>
    intro a b
    have aux : ∀ l : List Byte, cstr (l.take (n+1)) =
        if l.headD 0#8 = 0#8 then [] else l.headD 0#8 :: cstr (l.tail.take n) := by
      intro l
      cases l with
      | nil => simp [cstr]
      | cons x t =>
        simp only [cstr, List.take_succ_cons, List.headD_cons, List.tail_cons, List.takeWhile_cons]
        by_cases hx : x = 0#8 <;> simp [hx]
    rw [aux a, aux b]
    simp only [strncmp]
    by_cases hxy : a.headD 0#8 = b.headD 0#8
    · rw [if_neg (by simpa using hxy), ← hxy]
      by_cases hz : a.headD 0#8 = 0#8
      · simp only [hz, if_true]
      · simp only [hz, if_false]
        rw [ih]; simp
    · rw [if_pos hxy]
      have hne : ((a.headD 0#8).toNat : Int) - (b.headD 0#8).toNat ≠ 0 := by
        intro h
        apply hxy
        apply BitVec.eq_of_toNat_eq
        omega
      constructor
      · intro h; exact absurd h hne
      · intro h
        exfalso
        split at h <;> split at h <;> simp_all

theorem cstr_of_cstring {l r : List Byte} (h : ∀ b ∈ l, b ≠ 0#8) (hr : r.headD 0#8 = 0#8) :
    cstr (l ++ r) = l := by
  unfold cstr
  induction l with
  | nil =>
    cases r with
    | nil => rfl
    | cons x t => simp at hr; simp [hr]
  | cons x t ih =>
    have hx := h x (by simp)
    simp only [List.cons_append, List.takeWhile_cons]
    simp [hx]
    exact ih (fun b hb => h b (by simp [hb]))

theorem headD_replicate (k : Nat) (r : List Byte) (h : k = 0 → r.headD 0#8 = 0#8) :
    (List.replicate k 0#8 ++ r).headD 0#8 = 0#8 := by
  cases k with
  | zero => simpa using h rfl
  | succ k => simp [List.replicate_succ]

/-- The visible part of a filled buffer is the truncated name. -/
theorem store_cstr (old : NameRec) (n : List Byte) (ho : Buf64 old) (hn : CString n) :
    cstr ((storeName old n).name.take nameMax) = n.take 63 ∧
    cstr (storeName old n).name = n.take 63 := by
  have hlen : old.name.length = 64 := ho
  unfold storeName
  by_cases hne : n = []
  · subst hne
    simp only [if_true]
    match h : old.name, hlen with
    | x :: t, _ => simp [cstr, nameMax]
  · rw [if_neg hne]
    simp only [strncpy, nameMax]
    have hb : (n ++ List.replicate 63 0#8).take 63 =
        n.take 63 ++ List.replicate (63 - n.length) 0#8 := by
      rw [List.take_append]
      congr 1
      rw [List.take_replicate]
      congr 1; omega
    have hc : ∀ b ∈ n.take 63, b ≠ 0#8 := fun b hb => hn b (List.mem_of_mem_take hb)
    have hl63 : ((n ++ List.replicate 63 0#8).take 63).length = 63 := by
      rw [List.length_take]; simp
    constructor
    · rw [List.take_append, hl63, Nat.sub_self, List.take_zero, List.append_nil,
        List.take_take, Nat.min_self, hb]
      apply cstr_of_cstring hc
      rw [← List.append_nil (List.replicate (63 - n.length) 0#8)]
      exact headD_replicate _ _ (by simp)
    · rw [hb, List.append_assoc]
      apply cstr_of_cstring hc
      apply headD_replicate
      intro _
      have : (old.name.set 63 0#8).drop 63 = [0#8] := by
        apply List.ext_getElem
        · simp [hlen]
        · intro i h1 h2
          have : i = 0 := by simp at h2; omega
          subst this
          simp
      rw [this]; rfl

theorem store_hash (old : NameRec) (n : List Byte) (ho : Buf64 old) (hn : CString n) :
    (storeName old n).hash = if n.take 63 = [] then 0#64 else fnvHash (n.take 63) := by
  have h := (store_cstr old n ho hn).2
  unfold storeName at *
  by_cases hne : n = []
  · subst hne; simp
  · rw [if_neg hne] at *
    have hne' : n.take 63 ≠ [] := by
      intro h; cases n with
      | nil => exact hne rfl
      | cons x t => simp at h
    rw [if_neg hne']
    simp only at h ⊢
    congr 1
    generalize hbuf : strncpy (old.name.set nameMax 0#8) n nameMax = buf at *
    rw [← h]
    unfold strlen cstr
    exact (List.prefix_iff_eq_take.mp (List.takeWhile_prefix _)).symm

theorem store_buf64 (old : NameRec) (n : List Byte) (ho : Buf64 old) : Buf64 (storeName old n) := by
  unfold Buf64 storeName at *
  split
  · simpa using ho
  · simp [strncpy, nameMax, ho]

theorem cmpName_store (o1 o2 : NameRec) (n1 n2 : List Byte) (h1 : Buf64 o1) (h2 : Buf64 o2)
    (c1 : CString n1) (c2 : CString n2) :
    cmpName (storeName o1 n1) (storeName o2 n2) = 0 ↔ SameName n1 n2 := by
  have e1 := store_hash o1 n1 h1 c1
  have e2 := store_hash o2 n2 h2 c2
  have s1 := (store_cstr o1 n1 h1 c1).1
  have s2 := (store_cstr o2 n2 h2 c2).1
  unfold cmpName SameName
  constructor
  · intro h
    split at h
    · simp at h
    · split at h
      · simp at h
      · rw [strncmp_zero_iff, s1, s2] at h
        exact h
  · intro h
    have : (storeName o1 n1).hash = (storeName o2 n2).hash := by rw [e1, e2, h]
    rw [this]
    simp only [BitVec.lt_irrefl, if_false]
    rw [strncmp_zero_iff, s1, s2, h]

/-! ### Registry -/

/-- Registry invariant relative to the list of (position, truncated name) in use. -/
structure RegOk (r : Registry) (ab : List (Nat × List Byte)) : Prop where
  recs : List.Forall₂ (fun e a => e.1 = a.1 ∧ ∃ old n, Buf64 old ∧ CString n ∧
    e.2 = storeName old n ∧ a.2 = n.take 63) r.used ab
  free : ∀ e ∈ r.free, Buf64 e.2

theorem find_ok {r : Registry} {ab : List (Nat × List Byte)} (h : RegOk r ab) (junk : NameRec)
    (hj : Buf64 junk) (n : List Byte) (hn : CString n) :
    r.find junk n = (ab.find? (fun a => a.2 == n.take 63)).map (·.1) := by
  have hr := h.recs
  unfold Registry.find
  generalize r.used = u at hr
  clear h
  induction hr with
  | nil => rfl
  | @cons e a us as hd _ ih =>
    obtain ⟨hi, old, m, ho, hm, he, ha⟩ := hd
    have hc := cmpName_store junk old n m hj ho hn hm
    simp only [List.find?_cons]
    rw [he, ha]
    by_cases hs : SameName n m
    · have h0 : (cmpName (storeName junk n) (storeName old m) == 0) = true := by
        simpa using hc.mpr hs
      have h1 : (m.take 63 == n.take 63) = true := by
        simpa using hs.symm
      rw [h0, h1]; simp [hi]
    · have h0 : (cmpName (storeName junk n) (storeName old m) == 0) = false := by
        simpa using fun h => hs (hc.mp h)
      have h1 : (m.take 63 == n.take 63) = false := by
        simpa using fun h => hs (Eq.symm h)
      rw [h0, h1]; exact ih

/-- The abstract registry: names in order of registration (oldest first) with positions 0,1,... -/
def absReg (names : List (List Byte)) : List (Nat × List Byte) :=
  (names.zipIdx.map fun p => (p.2, p.1)).reverse

/-- Refinement relation with capacity `k`. -/
structure RegRep (k : Nat) (r : Registry) (names : List (List Byte)) : Prop where
  ok : RegOk r (absReg names)
  nodup : names.Nodup
  le : names.length ≤ k
  freeIdx : r.free.map (·.1) = (List.range k).drop names.length

theorem absReg_append (names : List (List Byte)) (n : List Byte) :
    absReg (names ++ [n]) = (names.length, n) :: absReg names := by
  simp [absReg, List.zipIdx_append]

theorem absReg_find (names : List (List Byte)) (n : List Byte) (hnd : names.Nodup) :
    (absReg names).find? (fun a => a.2 == n) =
      if n ∈ names then some (names.idxOf n, n) else none := by
  revert hnd
  induction names using List.reverseRecOn with
  | nil => intro _; simp [absReg]
  | append_singleton ns x ih =>
    intro hnd
    rw [absReg_append, List.find?_cons]
    have hnd' := List.nodup_append.mp hnd
    have hx : x ∉ ns := fun h => by
      have := hnd'.2.2 x h x (by simp)
      exact this rfl
    by_cases hxn : x = n
    · subst hxn
      have h1 : (x == x) = true := by simp
      rw [h1]
      simp only [List.mem_append, List.mem_singleton, or_true, if_true]
      rw [List.idxOf_append]
      simp [hx]
    · have h1 : (x == n) = false := by simp [hxn]
      rw [h1]
      rw [ih hnd'.1]
      by_cases hm : n ∈ ns
      · simp [hm, List.idxOf_append]
      · have : n ∉ ns ++ [x] := by
          simp [hm]; exact fun h => hxn h.symm
        simp [hm, this]

/-- The abstract look-up. -/
def regSpec (k : Nat) (names : List (List Byte)) (n : List Byte) :
    List (List Byte) × Option Nat :=
  if n.take 63 ∈ names then (names, some (names.idxOf (n.take 63)))
  else if names.length < k then (names ++ [n.take 63], some names.length)
  else (names, none)

theorem lookup_rep {k : Nat} {r : Registry} {names : List (List Byte)} (h : RegRep k r names)
    (junk : NameRec) (hj : Buf64 junk) (n : List Byte) (hn : CString n) :
    (r.lookup junk n).2 = (regSpec k names n).2 ∧
    RegRep k (r.lookup junk n).1 (regSpec k names n).1 := by
  have hf := find_ok h.ok junk hj n hn
  rw [absReg_find names (n.take 63) h.nodup] at hf
  unfold Registry.lookup regSpec
  by_cases hm : n.take 63 ∈ names
  · rw [if_pos hm] at hf
    simp only [Option.map_some] at hf
    rw [hf, if_pos hm]
    exact ⟨rfl, h⟩
  · rw [if_neg hm] at hf
    simp only [Option.map_none] at hf
    rw [hf, if_neg hm]
    have hfi := h.freeIdx
    cases hfr : r.free with
    | nil =>
      rw [hfr] at hfi
      have : ((List.range k).drop names.length).length = 0 := by rw [← hfi]; rfl
      rw [List.length_drop, List.length_range] at this
      rw [if_neg (by omega)]
      exact ⟨rfl, h⟩
    | cons e rest =>
      obtain ⟨i, old⟩ := e
      rw [hfr] at hfi
      have hlt : names.length < k := by
        have : ((List.range k).drop names.length).length = rest.length + 1 := by
          rw [← hfi]; simp
        rw [List.length_drop, List.length_range] at this
        omega
      have hcons : (List.range k).drop names.length =
          names.length :: (List.range k).drop (names.length + 1) := by
        rw [List.drop_eq_getElem_cons (by simpa using hlt)]
        simp
      rw [hcons] at hfi
      simp only [List.map_cons, List.cons.injEq] at hfi
      obtain ⟨hi, hrest⟩ := hfi
      rw [if_pos hlt]
      refine ⟨by simp [hi], ?_, ?_, ?_, ?_⟩
      · refine ⟨?_, ?_⟩
        · rw [absReg_append]
          refine List.Forall₂.cons ?_ h.ok.recs
          exact ⟨hi, old, n, h.ok.free (i, old) (by simp [hfr]), hn, rfl, rfl⟩
        · intro e he
          exact h.ok.free e (by simp [hfr, he])
      · rw [List.nodup_append]
        refine ⟨h.nodup, by simp, ?_⟩
        intro a ha b hb
        simp at hb; subst hb
        intro heq; subst heq; exact hm ha
      · simp; omega
      · simpa using hrest

/-- The abstract run. -/
def regRunSpec (k : Nat) (names : List (List Byte)) : List (List Byte) → List (List Byte)
  | [] => names
  | n :: h => regRunSpec k (regSpec k names n).1 h

theorem run_rep {k : Nat} (h : List (NameRec × List Byte)) :
    ∀ {r : Registry} {names : List (List Byte)}, RegRep k r names →
    (∀ e ∈ h, Buf64 e.1 ∧ CString e.2) → RegRep k (r.run h) (regRunSpec k names (h.map (·.2))) := by
  induction h with
  | nil => intro r names hr _; exact hr
  | cons e h ih =>
    intro r names hr he
    obtain ⟨junk, n⟩ := e
    have h0 := he (junk, n) (by simp)
    exact ih (lookup_rep hr junk h0.1 n h0.2).2 (fun e h => he e (by simp [h]))

theorem new_rep (content : Nat → NameRec) (hc : ∀ i, Buf64 (content i)) (k : Nat) :
    RegRep k (Registry.new content k) [] := by
  refine ⟨⟨?_, ?_⟩, by simp, by simp, ?_⟩
  · exact List.Forall₂.nil
  · intro e he
    simp only [Registry.new, List.mem_map] at he
    obtain ⟨i, _, rfl⟩ := he
    exact hc i
  · simp [Registry.new, Function.comp_def]

theorem firstUses_nodup (h : List (List Byte)) : (firstUses h).Nodup := by
  induction h with
  | nil => simp [firstUses]
  | cons n h ih =>
    simp only [firstUses, List.nodup_cons]
    exact ⟨by simp, ih.filter _⟩

/-- Running the abstract registry keeps the first `k` different names. -/
theorem regRunSpec_eq (k : Nat) (h : List (List Byte)) : ∀ names : List (List Byte),
    names.length ≤ k →
    regRunSpec k names h = names ++ ((firstUses h).filter (· ∉ names)).take (k - names.length) := by
  induction h with
  | nil => intro names _; simp [regRunSpec, firstUses]
  | cons n h ih =>
    intro names hle
    simp only [regRunSpec, regSpec]
    by_cases hm : n.take 63 ∈ names
    · rw [if_pos hm, ih names hle]
      congr 2
      simp only [firstUses, List.filter_cons, List.filter_filter]
      rw [if_neg (by simpa using hm)]
      apply List.filter_congr
      intro x _
      by_cases hx : x ∈ names
      · simp [hx]
      · have : x ≠ n.take 63 := fun h => hx (h ▸ hm)
        simp [hx, this]
    · rw [if_neg hm]
      by_cases hlt : names.length < k
      · rw [if_pos hlt, ih _ (by simp; omega)]
        simp only [firstUses, List.filter_cons, List.filter_filter]
        rw [if_pos (by simpa using hm)]
        have h1 : k - names.length = (k - (names.length + 1)) + 1 := by omega
        rw [h1, List.take_succ_cons]
        simp only [List.length_append, List.length_cons, List.length_nil, List.append_assoc,
          List.singleton_append]
        congr 3
        apply List.filter_congr
        intro x _
        simp only [List.mem_append, List.mem_singleton, not_or, Bool.decide_and]
      · rw [if_neg hlt, ih names hle]
        have : k - names.length = 0 := by omega
        simp [this]

theorem firstUses_append (h : List (List Byte)) (n : List Byte) :
    firstUses (h ++ [n]) =
      if n.take 63 ∈ firstUses h then firstUses h else firstUses h ++ [n.take 63] := by
  induction h with
  | nil => simp [firstUses]
  | cons m h ih =>
    have hmem : n.take 63 ∈ firstUses (m :: h) ↔
        n.take 63 = m.take 63 ∨ n.take 63 ∈ firstUses h := by
      simp only [firstUses, List.mem_cons, List.mem_filter]
      by_cases he : n.take 63 = m.take 63 <;> simp [he]
    have hl : firstUses (m :: h ++ [n]) =
        m.take 63 :: (firstUses (h ++ [n])).filter (· ≠ m.take 63) := rfl
    have hr : firstUses (m :: h) = m.take 63 :: (firstUses h).filter (· ≠ m.take 63) := rfl
    rw [hl, ih]
    by_cases h1 : n.take 63 ∈ firstUses (m :: h)
    · rw [if_pos h1, hr]
      rcases hmem.mp h1 with he | hm
      · split
        · rfl
        · simp [List.filter_append, he]
      · rw [if_pos hm]
    · have h2 := fun h => h1 (hmem.mpr h)
      rw [if_neg h1, hr, if_neg (fun h => h2 (Or.inr h))]
      have : n.take 63 ≠ m.take 63 := fun h => h2 (Or.inl h)
      simp [List.filter_append, this]

end Fullock
