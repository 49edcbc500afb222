import Verif.Proofs.Name
import Mathlib.Data.List.Nodup
/-! C22 (names) and C23 (capacity). -/
namespace Fullock.Props
open Spec

/-- C22: whatever the memory of the stored record and of the query contained before, looking for
`n2` finds a record made for `n1` if and only if the first 63 bytes of the names agree. -/
theorem C22_names (old junk : NameRec) (n1 n2 : List Byte) (ho : Buf64 old) (hj : Buf64 junk)
    (h1 : CString n1) (h2 : CString n2) :
    cmpName (storeName junk n2) (storeName old n1) = 0 ↔ SameName n1 n2 := by
  rw [cmpName_store junk old n2 n1 hj ho h2 h1]
  exact ⟨Eq.symm, Eq.symm⟩

/-- A buffer full of garbage, as an example. -/
def junkRec : NameRec := ⟨77#64, List.replicate 64 0xAB#8⟩

example : Buf64 junkRec ∧ CString [0x61#8, 0xE3#8] ∧ ¬ SameName [0x61#8] [0x61#8, 0xE3#8] ∧
    SameName (List.replicate 63 0x61#8) (List.replicate 70 0x61#8) := by
  simp only [Buf64, CString, SameName]; decide

/-- The registry reached from a new segment with capacity `k` after a history of lock calls. -/
def regAfter (content : Nat → NameRec) (k : Nat) (h : List (NameRec × List Byte)) : Registry :=
  (Registry.new content k).run h

/-- Well-formed call: 64-byte stack buffer, name is a C string. -/
def CallOk (e : NameRec × List Byte) : Prop := Buf64 e.1 ∧ CString e.2

theorem regAfter_rep (content : Nat → NameRec) (hc : ∀ i, Buf64 (content i)) (k : Nat)
    (h : List (NameRec × List Byte)) (hh : ∀ e ∈ h, CallOk e) :
    RegRep k (regAfter content k h) ((firstUses (h.map (·.2))).take k) := by
  have := run_rep h (new_rep content hc k) hh
  rwa [regRunSpec_eq k _ [] (by simp), List.nil_append, List.length_nil, Nat.sub_zero,
    List.filter_eq_self.mpr (by simp)] at this

/-- C23: after any history of lock calls, a call on the name `n` is refused with ENOLCK exactly
when `n` is not one of the first `k` different names ever used. -/
theorem C23_capacity (content : Nat → NameRec) (hc : ∀ i, Buf64 (content i)) (k : Nat)
    (h : List (NameRec × List Byte)) (hh : ∀ e ∈ h, CallOk e) (junk : NameRec) (n : List Byte)
    (hn : CallOk (junk, n)) :
    ((regAfter content k h).lookup junk n).2 = none ↔
      n.take 63 ∉ (firstUses (h.map (·.2) ++ [n])).take k := by
  have hrep := regAfter_rep content hc k h hh
  rw [(lookup_rep hrep junk hn.1 n hn.2).1, regSpec]
  have hfa := firstUses_append (h.map (·.2)) n
  by_cases hm : n.take 63 ∈ (firstUses (h.map (·.2))).take k
  · rw [if_pos hm, hfa, if_pos (List.mem_of_mem_take hm)]
    simp [hm]
  · rw [if_neg hm]
    by_cases hlt : ((firstUses (h.map (·.2))).take k).length < k
    · rw [if_pos hlt]
      have hlen : (firstUses (h.map (·.2))).length < k := by
        rw [List.length_take] at hlt; omega
      have htk : (firstUses (h.map (·.2))).take k = firstUses (h.map (·.2)) :=
        List.take_of_length_le (by omega)
      rw [htk] at hm
      have h3 : (firstUses (h.map (·.2)) ++ [n.take 63]).take k =
          firstUses (h.map (·.2)) ++ [n.take 63] :=
        List.take_of_length_le (by rw [List.length_append]; exact hlen)
      rw [hfa, if_neg hm, h3]
      simp
    · rw [if_neg hlt]
      have hlen : k ≤ (firstUses (h.map (·.2))).length := by
        rw [List.length_take] at hlt; omega
      simp only [true_iff]
      rw [hfa]
      split
      · exact hm
      · rw [List.take_append_of_le_length hlen]; exact hm

/-- C23: names used successfully once keep working for ever, and keep their record: whatever
calls come in between, the same record is found again; two names get the same record if and only
if their first 63 bytes agree. -/
theorem C22_record_identity (content : Nat → NameRec) (hc : ∀ i, Buf64 (content i)) (k : Nat)
    (h h' : List (NameRec × List Byte)) (hh : ∀ e ∈ h, CallOk e) (hh' : ∀ e ∈ h', CallOk e)
    (junk junk' : NameRec) (n n' : List Byte) (hn : CallOk (junk, n)) (hn' : CallOk (junk', n'))
    (i : Nat) (hi : ((regAfter content k h).lookup junk n).2 = some i) :
    ((regAfter content k (h ++ [(junk, n)] ++ h')).lookup junk' n').2 = some i ↔ SameName n n' := by
  have hrep := regAfter_rep content hc k h hh
  have hrep2 := regAfter_rep content hc k (h ++ [(junk, n)] ++ h') (by
    intro e he
    simp only [List.mem_append, List.mem_singleton] at he
    rcases he with (he | rfl) | he
    · exact hh e he
    · exact hn
    · exact hh' e he)
  have h1 := (lookup_rep hrep junk hn.1 n hn.2).1
  have h2 := (lookup_rep hrep2 junk' hn'.1 n' hn'.2).1
  rw [hi] at h1
  rw [h2]
  -- names registered after the first call
  have hstep := (lookup_rep hrep junk hn.1 n hn.2).2
  generalize hN : (firstUses (h.map (·.2))).take k = N at *
  have hreg : (firstUses ((h ++ [(junk, n)] ++ h').map (·.2))).take k =
      regRunSpec k (regSpec k N n).1 (h'.map (·.2)) := by
    have e1 := regRunSpec_eq k ((h ++ [(junk, n)] ++ h').map (·.2)) [] (by simp)
    rw [List.nil_append, List.length_nil, Nat.sub_zero, List.filter_eq_self.mpr (by simp)] at e1
    have e2 := regRunSpec_eq k (h.map (·.2)) [] (by simp)
    rw [List.nil_append, List.length_nil, Nat.sub_zero, List.filter_eq_self.mpr (by simp), hN] at e2
    rw [← e1]
    have happ : ∀ (a b : List (List Byte)) ns,
        regRunSpec k ns (a ++ b) = regRunSpec k (regRunSpec k ns a) b := by
      intro a
      induction a with
      | nil => intros; rfl
      | cons x a ih => intro b ns; simp only [List.cons_append, regRunSpec]; rw [ih]
    simp only [List.map_append, List.map_cons, List.map_nil]
    rw [happ, happ, e2]
    rfl
  rw [hreg]
  have hle : (regSpec k N n).1.length ≤ k := hstep.le
  rw [regRunSpec_eq k _ _ hle]
  generalize hT : List.take _ (List.filter _ (firstUses (h'.map (·.2)))) = T
  have hM : (regSpec k N n).1[i]? = some (n.take 63) := by
    unfold regSpec at h1 ⊢
    split at h1
    · rename_i hm
      rw [if_pos hm]
      simp only [Option.some.injEq] at h1
      rw [h1]
      exact List.getElem?_idxOf hm
    · rename_i hm
      rw [if_neg hm]
      split at h1
      · rename_i hlt
        rw [if_pos hlt]
        simp only [Option.some.injEq] at h1
        subst h1
        simp
      · simp at h1
  generalize (regSpec k N n).1 = M at *
  have hfull : (M ++ T)[i]? = some (n.take 63) := by
    have hlt : i < M.length := by
      by_contra hge
      rw [List.getElem?_eq_none (by omega)] at hM
      simp at hM
    rw [List.getElem?_append_left hlt]; exact hM
  have hnd : (M ++ T).Nodup := by
    have h3 := hrep2.nodup
    rw [hreg, regRunSpec_eq k _ _ hle, hT] at h3
    exact h3
  have hilt : i < (M ++ T).length := by
    by_contra hge
    rw [List.getElem?_eq_none (by omega)] at hfull
    simp at hfull
  unfold regSpec SameName
  constructor
  · intro h
    split at h
    · rename_i hm
      simp only [Option.some.injEq] at h
      have := List.getElem?_idxOf hm
      rw [h, hfull] at this
      exact Option.some.inj this
    · split at h
      · simp only [Option.some.injEq] at h; omega
      · simp at h
  · intro h
    have hm : n.take 63 ∈ M ++ T := List.mem_of_getElem? hfull
    rw [← h, if_pos hm]
    simp only [Option.some.injEq]
    have h4 := List.getElem?_idxOf hm
    have h5 : (M ++ T).idxOf (n.take 63) < (M ++ T).length := List.idxOf_lt_length_iff.mpr hm
    rw [List.getElem?_eq_getElem h5, Option.some.injEq] at h4
    rw [List.getElem?_eq_getElem hilt, Option.some.injEq] at hfull
    exact (List.Nodup.getElem_inj_iff hnd).mp (h4.trans hfull.symm)

/-- Three names in a segment with two records: the third one is refused, the first one found. -/
example :
    let h := [(junkRec, [0x61#8]), (junkRec, [0x62#8])]
    (∀ e ∈ h, CallOk e) ∧
    ((regAfter (fun _ => junkRec) 2 h).lookup junkRec [0x63#8]).2 = none ∧
    ((regAfter (fun _ => junkRec) 2 h).lookup junkRec [0x61#8]).2 = some 0 ∧
    ((regAfter (fun _ => junkRec) 2 [(junkRec, [0x61#8])]).lookup junkRec [0x62#8]).2 = some 1 := by
  refine ⟨?_, by decide +kernel, by decide +kernel, by decide +kernel⟩
  simp [CallOk, Buf64, CString, junkRec]

/-- C22: looking up a name changes no existing record. -/
theorem C22_lookup_keeps_records (r : Registry) (junk : NameRec) (n : List Byte)
    (e : Nat × NameRec) (he : e ∈ r.used) : e ∈ (r.lookup junk n).1.used := by
  unfold Registry.lookup
  split
  · exact he
  · split
    · exact he
    · simp [he]

example : ((Registry.new (fun _ => junkRec) 2).lookup junkRec [0x61#8]).1.used ≠ [] := by
  decide +kernel

/-- Published test vectors of the 64-bit FNV-1a function: "", "a", "foobar". -/
example : fnvHash [] = 0xcbf29ce484222325#64 ∧ fnvHash [0x61#8] = 0xaf63dc4c8601ec8c#64 ∧
    fnvHash [0x66#8, 0x6f#8, 0x6f#8, 0x62#8, 0x61#8, 0x72#8] = 0x85944171f73967e8#64 := by decide +kernel

end Fullock.Props
