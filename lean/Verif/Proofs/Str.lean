import Verif.Model.Str
import Verif.Spec.Str
import Mathlib.Data.List.Basic
namespace Fullock
open Spec

/-! ### Trimming -/

theorem findIdx_dropWhile (s t : Str) : (match s.findIdx? (fun c => !t.contains c) with
      | none => ([] : Str) | some k => s.drop k) = s.dropWhile (fun c => t.contains c) := by
  induction s with
  | nil => simp
  | cons c s ih =>
    rw [List.findIdx?_cons]
    by_cases h : t.contains c = true
    · rw [List.dropWhile_cons_of_pos h, ← ih]
      rw [h]
      simp only [Bool.not_true, Bool.false_eq_true, if_false]
      cases hf : s.findIdx? (fun c => !t.contains c) with
      | none => rfl
      | some k => rfl
    · rw [List.dropWhile_cons_of_neg h]
      rw [if_pos (by simpa using h)]
      rfl

theorem ltrim_eq (s t : Str) : ltrim s t = s.dropWhile (fun c => t.contains c) := by
  rw [← findIdx_dropWhile]
  unfold ltrim findFirstNotOf eraseHead
  cases hf : s.findIdx? (fun c => !t.contains c) <;> simp

theorem rtrim_eq (s t : Str) : rtrim s t = (s.reverse.dropWhile (fun c => t.contains c)).reverse := by
  have h2 := findIdx_dropWhile s.reverse t
  unfold rtrim findLastNotOf eraseFrom
  cases hf : s.reverse.findIdx? (fun c => !t.contains c) with
  | none => rw [hf] at h2; simp only [Option.map_none]; rw [← h2]; rfl
  | some k =>
    rw [hf] at h2
    simp only [Option.map_some]
    simp only at h2
    rw [← h2]
    have hk : k < s.length := by
      have := (List.findIdx?_eq_some_iff_getElem.1 hf).1
      simpa using this
    rw [List.reverse_drop]
    simp only [List.reverse_reverse, List.length_reverse]
    congr 1
    omega

theorem List.mem_takeWhile_imp' {p : Char → Bool} {l : Str} {c : Char} (h : c ∈ l.takeWhile p) :
    p c = true := by
  induction l with
  | nil => simp at h
  | cons a l ih =>
    by_cases ha : p a = true
    · rw [List.takeWhile_cons_of_pos ha] at h
      rcases List.mem_cons.1 h with rfl | h
      · exact ha
      · exact ih h
    · rw [List.takeWhile_cons_of_neg ha] at h; simp at h

theorem dropWhile_split (p : Char → Bool) (s : Str) :
    ∃ l, s = l ++ s.dropWhile p ∧ ∀ c ∈ l, p c = true :=
  ⟨s.takeWhile p, (List.takeWhile_append_dropWhile).symm, fun _ h => (List.mem_takeWhile_imp' h)⟩

theorem dropWhile_head (p : Char → Bool) (s : Str) : ∀ c ∈ (s.dropWhile p).head?, p c = false := by
  induction s with
  | nil => simp
  | cons a s ih =>
    intro c hc
    by_cases h : p a = true
    · rw [List.dropWhile_cons_of_pos h] at hc; exact ih c hc
    · rw [List.dropWhile_cons_of_neg h] at hc; simp at hc; subst hc; simpa using h

theorem trimmed_trim (base t : Str) : Trimmed (· ∈ t) base (trim base t) := by
  unfold trim
  rw [ltrim_eq, rtrim_eq]
  set p : Char → Bool := fun c => t.contains c with hp
  obtain ⟨r, hr, hrp⟩ := dropWhile_split p base.reverse
  set m := (base.reverse.dropWhile p).reverse with hm
  obtain ⟨l, hl, hlp⟩ := dropWhile_split p m
  have hbase : base = m ++ r.reverse := by
    have := congrArg List.reverse hr
    simpa [hm] using this
  refine ⟨⟨l, r.reverse, ?_, ?_, ?_⟩, ?_, ?_⟩
  · rw [← hl]; exact hbase
  · intro c hc; simpa [hp] using hlp c hc
  · intro c hc; simpa [hp] using hrp c (by simpa using hc)
  · intro c hc; simpa [hp] using dropWhile_head p m c hc
  · intro c hc
    have hmlast : ∀ c ∈ m.getLast?, p c = false := by
      intro c hc
      rw [hm, List.getLast?_reverse] at hc
      exact dropWhile_head p _ c hc
    have : c ∈ m.getLast? := by
      rw [hl]
      cases hd : m.dropWhile p with
      | nil => rw [hd] at hc; simp at hc
      | cons a b => rw [hd] at hc; rw [List.getLast?_append]; simp only [Option.mem_def] at hc ⊢; rw [hc]; rfl
    simpa [hp] using hmlast c this

theorem trimmed_unique (blank : Char → Prop) (base t u : Str) (ht : Trimmed blank base t)
    (hu : Trimmed blank base u) : t = u := by
  obtain ⟨⟨l, r, hb, hl, hr⟩, hth, htl⟩ := ht
  obtain ⟨⟨l', r', hb', hl', hr'⟩, huh, hul⟩ := hu
  -- the leading parts agree
  have key : ∀ (l t r l' u r' : Str), l ++ t ++ r = l' ++ u ++ r' → (∀ c ∈ l, blank c) →
      (∀ c ∈ r, blank c) → (∀ c ∈ l', blank c) → (∀ c ∈ r', blank c) →
      (∀ c ∈ t.head?, ¬ blank c) → (∀ c ∈ u.head?, ¬ blank c) →
      (∀ c ∈ t.getLast?, ¬ blank c) → (∀ c ∈ u.getLast?, ¬ blank c) →
      t.length ≤ u.length → t = u := by
    intro l t r l' u r' he hl hr hl' hr' hth huh htl hul hlen
    by_cases htn : t = []
    · subst htn
      -- everything is blank
      by_cases hun : u = []
      · exact hun.symm
      · exfalso
        obtain ⟨a, u', rfl⟩ := List.exists_cons_of_ne_nil hun
        have ha : a ∈ l ++ [] ++ r := by rw [he]; simp
        have : blank a := by
          simp at ha; rcases ha with h | h
          · exact hl a h
          · exact hr a h
        exact huh a (by simp) this
    · have hun : u ≠ [] := by
        rintro rfl
        simp at hlen; exact htn hlen
      have hll : l = l' := by
        have hlt : l.length = l'.length := by
          rcases Nat.lt_trichotomy l.length l'.length with h | h | h
          · exfalso
            -- the head of t lies in l'
            obtain ⟨a, t', rfl⟩ := List.exists_cons_of_ne_nil htn
            have h1 : (l ++ a :: t' ++ r)[l.length]? = some a := by simp
            rw [he] at h1
            have h2 : (l' ++ u ++ r')[l.length]? = l'[l.length]? := by
              rw [List.append_assoc, List.getElem?_append_left h]
            rw [h2] at h1
            exact hth a (by simp) (hl' a (List.mem_of_getElem? h1))
          · exact h
          · exfalso
            obtain ⟨a, u', rfl⟩ := List.exists_cons_of_ne_nil hun
            have h1 : (l' ++ a :: u' ++ r')[l'.length]? = some a := by simp
            rw [← he] at h1
            have h2 : (l ++ t ++ r)[l'.length]? = l[l'.length]? := by
              rw [List.append_assoc, List.getElem?_append_left h]
            rw [h2] at h1
            exact huh a (by simp) (hl a (List.mem_of_getElem? h1))
        rw [List.append_assoc, List.append_assoc] at he
        exact (List.append_inj he hlt).1
      subst hll
      rw [List.append_assoc, List.append_assoc] at he
      have he := List.append_cancel_left he
      by_cases hlt : t.length = u.length
      · exact (List.append_inj he hlt).1
      · exfalso
        have hlt : t.length < u.length := by omega
        have hlast := List.getLast?_eq_some_getLast hun
        have h1 : u[u.length - 1]? = some (u.getLast hun) := by
          rw [← List.getLast?_eq_getElem?, hlast]
        have h2 : (t ++ r)[u.length - 1]? = some (u.getLast hun) := by
          rw [he, List.getElem?_append_left (by omega)]; exact h1
        rw [List.getElem?_append_right (by omega)] at h2
        exact hul _ (by rw [hlast]; rfl) (hr _ (List.mem_of_getElem? h2))
  have he : l ++ t ++ r = l' ++ u ++ r' := by rw [← hb, ← hb']
  rcases Nat.le_total t.length u.length with h | h
  · exact key l t r l' u r' he hl hr hl' hr' hth huh htl hul h
  · exact (key l' u r' l t r he.symm hl' hr' hl hr huh hth hul htl h).symm

/-! ### Comparison -/

theorem strcaseEq_iff (a b : Str) : strcaseEq a b = true ↔ a.map Char.toLower = b.map Char.toLower := by
  induction a generalizing b with
  | nil => cases b <;> simp [strcaseEq]
  | cons x a ih => cases b <;> simp [strcaseEq, ih]

/-! ### Paths -/

theorem cutSlash_noslash (c : Str) (h : '/' ∉ c) (cur rest : Str) :
    cutSlash cur (c ++ rest) = cutSlash (c.reverse ++ cur) rest := by
  induction c generalizing cur with
  | nil => rfl
  | cons a c ih =>
    simp at h
    rw [List.cons_append, cutSlash]
    rw [if_neg (fun e => h.1 e.symm), ih h.2]
    simp

theorem cutSlash_join (cs : List Str) (hne : cs ≠ []) (h : ∀ c ∈ cs, '/' ∉ c) :
    cutSlash [] (List.intercalate ['/'] cs) = (cs.dropLast.filter (· ≠ []), cs.getLast hne) := by
  induction cs with
  | nil => exact absurd rfl hne
  | cons c cs ih =>
    have hc := h c (by simp)
    cases cs with
    | nil =>
      have := cutSlash_noslash c hc [] []
      simp only [List.append_nil] at this
      simp [List.intercalate, this, cutSlash]
    | cons d cs =>
      have hj : List.intercalate ['/'] (c :: d :: cs) = c ++ '/' :: List.intercalate ['/'] (d :: cs) := by
        simp [List.intercalate, List.intersperse]
      rw [hj, cutSlash_noslash c hc, List.append_nil, cutSlash, if_pos rfl]
      rw [ih (by simp) (fun x hx => h x (by simp [hx]))]
      by_cases hcn : c = []
      · subst hcn; simp
      · simp [hcn]

theorem pathLeaves_join (cs : List Str) (hne : cs ≠ []) (h : ∀ c ∈ cs, '/' ∉ c) :
    pathLeaves (List.intercalate ['/'] cs) = (cs.filter (· ≠ []), decide (cs.getLast hne = [])) := by
  unfold pathLeaves
  rw [cutSlash_join cs hne h]
  have hcs := List.dropLast_append_getLast hne
  by_cases hl : cs.getLast hne = []
  · simp only [hl, if_true]
    rw [hl] at hcs
    conv_rhs => rw [← hcs]
    simp
  · simp only [hl, if_false]
    have : cs.filter (· ≠ []) = (cs.dropLast ++ [cs.getLast hne]).filter (· ≠ []) := by rw [hcs]
    rw [this, List.filter_append]
    simp [hl]

theorem normLeaves_walk (cs : List Str) (acc : List Str) :
    normLeaves acc (cs.filter (· ≠ [])) = walk acc.reverse cs := by
  induction cs generalizing acc with
  | nil => simp [normLeaves, walk]
  | cons c cs ih =>
    by_cases h0 : c = []
    · subst h0; simp [walk]; simpa using ih acc
    · rw [List.filter_cons_of_pos (by simpa using h0)]
      unfold normLeaves walk
      by_cases h1 : c = ['.']
      · simp [h1]; simpa using ih acc
      · by_cases h2 : c = ['.', '.']
        · simp only [h1, h2]
          cases acc with
          | nil => simp
          | cons a acc => simp; simpa using ih acc
        · simp only [h0, h1, h2, if_false, or_self]
          rw [ih]; simp

theorem exists_components (t : Str) : ∃ cs, Components t cs := by
  induction t with
  | nil => exact ⟨[[]], by simp [Components, List.intercalate]⟩
  | cons a t ih =>
    obtain ⟨cs, hne, hs, hj⟩ := ih
    by_cases ha : a = '/'
    · refine ⟨[] :: cs, by simp, ?_, ?_⟩
      · intro c hc; simp at hc; rcases hc with rfl | hc
        · simp
        · exact hs c hc
      · obtain ⟨d, cs', rfl⟩ := List.exists_cons_of_ne_nil hne
        subst ha
        rw [← hj]
        simp [List.intercalate, List.intersperse]
    · obtain ⟨d, cs', rfl⟩ := List.exists_cons_of_ne_nil hne
      refine ⟨(a :: d) :: cs', by simp, ?_, ?_⟩
      · intro c hc; simp at hc; rcases hc with rfl | hc
        · have := hs d (by simp); simp [this]; exact fun e => ha e.symm
        · exact hs c (by simp [hc])
      · rw [← hj]
        cases cs' <;> simp [List.intercalate, List.intersperse]

theorem walk_normal (cs : List Str) (hs : ∀ c ∈ cs, '/' ∉ c) (pos pos' : List Str)
    (hp : NormalChain pos) (h : walk pos cs = some pos') : NormalChain pos' := by
  induction cs generalizing pos with
  | nil => simp [walk] at h; exact h ▸ hp
  | cons c cs ih =>
    have hs' : ∀ c ∈ cs, '/' ∉ c := fun x hx => hs x (by simp [hx])
    unfold walk at h
    split at h
    · exact ih hs' pos hp h
    · rename_i h0
      push Not at h0
      split at h
      · split at h
        · simp at h
        · exact ih hs' _ (fun c hc => hp c (List.dropLast_subset _ hc)) h
      · rename_i h2
        refine ih hs' _ ?_ h
        intro x hx
        simp at hx
        rcases hx with hx | rfl
        · exact hp x hx
        · exact ⟨h0.1, h0.2, h2, hs x (by simp)⟩

theorem joinLeaves_eq (pos : List Str) (b : Bool) :
    joinLeaves pos b = (pos.map ('/' :: ·)).flatten ++ (if b then ['/'] else []) := by
  unfold joinLeaves
  induction pos with
  | nil => simp
  | cons c pos ih => rw [List.foldr_cons, ih]; simp

theorem absPath_cons (pos : List Str) (h : pos ≠ []) :
    absPath pos = (pos.map ('/' :: ·)).flatten := by
  unfold absPath
  induction pos with
  | nil => exact absurd rfl h
  | cons c pos ih =>
    cases pos with
    | nil => simp [List.intercalate]
    | cons d pos =>
      have := ih (by simp)
      simp only [List.map_cons, List.flatten_cons] at this ⊢
      rw [← this]
      simp [List.intercalate, List.intersperse]

/-- The result of the path routine, in all cases. -/
theorem getRealPath_cases (cwd : Str) (p : Str) (hp : p ≠ []) (cs : List Str)
    (hc : Components (fullPath cwd p) cs) :
    getRealPath (some cwd) p =
      match walk [] cs with
      | none => .ub
      | some pos => .ok (joinLeaves pos (decide (cs.getLast hc.1 = []))) := by
  obtain ⟨c, p', rfl⟩ := List.exists_cons_of_ne_nil hp
  unfold getRealPath
  have hf : (if c = '/' then some (c :: p') else Option.map (fun d => d ++ ['/'] ++ (c :: p')) (some cwd))
      = some (List.intercalate ['/'] cs) := by
    rw [hc.2.2]
    unfold fullPath
    by_cases h : c = '/' <;> simp [h]
  simp only [hf]
  rw [pathLeaves_join cs hc.1 hc.2.1]
  simp only
  rw [normLeaves_walk]
  simp only [List.reverse_nil]
  cases walk [] cs <;> rfl

/-! ### Numbers -/

theorem digitVal_digChar (d : Nat) (h : d < 36) : digitVal (digChar d) = d := by
  have : ∀ d : Fin 36, digitVal (digChar d.1) = d.1 := by decide
  exact this ⟨d, h⟩

theorem digChar_plain (d : Nat) (h : d < 36) :
    isSpaceC (digChar d) = false ∧ digChar d ≠ '-' ∧ digChar d ≠ '+' := by
  have : ∀ d : Fin 36, isSpaceC (digChar d.1) = false ∧ digChar d.1 ≠ '-' ∧ digChar d.1 ≠ '+' := by
    decide
  exact this ⟨d, h⟩

/-- Digits followed by something that is not a digit. -/
theorem digitsVal_numeral (base : Nat) (hb : base ≤ 36) (ds : List Nat) (hd : ∀ d ∈ ds, d < base)
    (rest : Str) (hr : ∀ c ∈ rest.head?, base ≤ digitVal c) :
    digitsVal base (ds.map digChar ++ rest) = numeral base ds := by
  unfold digitsVal numeral
  have h1 : (ds.map digChar ++ rest).takeWhile (fun c => digitVal c < base) = ds.map digChar := by
    rw [List.takeWhile_append_of_pos]
    · cases rest with
      | nil => simp
      | cons c r =>
        have := hr c (by simp)
        rw [List.takeWhile_cons_of_neg (by simpa using this)]
        simp
    · intro c hc
      simp at hc
      obtain ⟨d, hd', rfl⟩ := hc
      have := hd d hd'
      simp [digitVal_digChar d (by omega), this]
  rw [h1]
  have h2 : ∀ (l : List Nat), (∀ d ∈ l, d < base) → ∀ a : Nat,
      (l.map digChar).foldl (fun a c => a * base + digitVal c) a = l.foldl (fun a d => a * base + d) a := by
    intro l hl
    induction l with
    | nil => intro a; rfl
    | cons d l ih =>
      intro a
      have := hl d (by simp)
      simp only [List.map_cons, List.foldl_cons]
      rw [digitVal_digChar d (by omega)]
      exact ih (fun x hx => hl x (by simp [hx])) _
  exact h2 ds hd 0

theorem signPart_plain (c : Char) (s : Str) (h1 : c ≠ '-') (h2 : c ≠ '+') :
    signPart (c :: s) = (false, c :: s) := by
  unfold signPart
  split
  · rename_i he; simp at he; exact absurd he.1 h1
  · rename_i he; simp at he; exact absurd he.1 h2
  · rfl

/-- Saturation of `strtol`. -/
def clampLong (v : Int) : Int × Bool :=
  if longMax < v then (longMax, true) else if v < longMin then (longMin, true) else (v, false)

theorem strtol_core (b : Str) (hb : ∀ c ∈ b, isSpaceC c = true) (base base' : Nat) (t ds : Str)
    (c : Char) (ht : t.head? = some c) (hc : isSpaceC c = false ∧ c ≠ '-' ∧ c ≠ '+')
    (hbp : basePart base t = (base', ds)) (neg : Bool) :
    strtol (b ++ (if neg then ['-'] else []) ++ t) base =
      clampLong (if neg then -(digitsVal base' ds : Int) else digitsVal base' ds) := by
  have hdrop : ∀ x : Str, (∀ c ∈ x.head?, isSpaceC c = false) → (b ++ x).dropWhile isSpaceC = x := by
    intro x hx
    rw [List.dropWhile_append_of_pos hb]
    cases x with
    | nil => rfl
    | cons a x => rw [List.dropWhile_cons_of_neg]; simp [hx a (by simp)]
  obtain ⟨t', rfl⟩ : ∃ t', t = c :: t' := by
    cases t with
    | nil => simp at ht
    | cons a t => simp at ht; exact ⟨t, by rw [ht]⟩
  unfold strtol clampLong
  cases neg with
  | false =>
    have e : b ++ (if false = true then ['-'] else []) ++ c :: t' = b ++ c :: t' := by simp
    rw [e, hdrop _ (by simp [hc.1]), signPart_plain _ _ hc.2.1 hc.2.2]
    simp only [hbp]
  | true =>
    have e : b ++ (if true = true then ['-'] else []) ++ c :: t' = b ++ ('-' :: (c :: t')) := by simp
    rw [e, hdrop _ (by simp; decide)]
    simp only [signPart, hbp]

theorem strtol_dec (b : Str) (hb : ∀ c ∈ b, isSpaceC c = true) (ds : List Nat) (hne : ds ≠ [])
    (hd : ∀ d ∈ ds, d < 10) (rest : Str) (hr : ∀ c ∈ rest.head?, 10 ≤ digitVal c) (neg : Bool) :
    strtol (b ++ (if neg then ['-'] else []) ++ (ds.map digChar ++ rest)) 10 =
      clampLong (if neg then -(numeral 10 ds : Int) else numeral 10 ds) := by
  obtain ⟨d, ds', rfl⟩ := List.exists_cons_of_ne_nil hne
  have hval := digitsVal_numeral 10 (by omega) (d :: ds') hd rest hr
  rw [← hval]
  exact strtol_core b hb 10 10 _ _ (digChar d) (by simp) (digChar_plain d (by have := hd d (by simp); omega))
    (by simp [basePart]) neg

theorem basePart_dec (d : Nat) (hd : d < 10) (h0 : d ≠ 0) (s : Str) :
    basePart 0 (digChar d :: s) = (10, digChar d :: s) := by
  have : ∀ d : Fin 10, d.1 ≠ 0 → digChar d.1 ≠ '0' := by decide
  have h := this ⟨d, hd⟩ h0
  unfold basePart
  simp only [if_true]
  split
  · rename_i he; simp at he; exact absurd he.1 h
  · rename_i he; simp at he; exact absurd he.1 h
  · rename_i he; simp at he; exact absurd he.1 h
  · rfl

theorem basePart_oct (s : Str) (h : ∀ c ∈ s.head?, c ≠ 'x' ∧ c ≠ 'X') :
    basePart 0 ('0' :: s) = (8, '0' :: s) := by
  unfold basePart
  simp only [if_true]
  split
  · rename_i he; simp at he; have := h 'x' (by rw [he]; rfl); simp at this
  · rename_i he; simp at he; have := h 'X' (by rw [he]; rfl); simp at this
  · rfl
  · rename_i he; exact absurd rfl (he _)

theorem strtol_zero (b : Str) (hb : ∀ c ∈ b, isSpaceC c = true) (base : Nat)
    (hbase : base = 8 ∨ base = 10 ∨ base = 16) (ds : List Nat) (hne : ds ≠ [])
    (hd : ∀ d ∈ ds, d < base) (h10 : base = 10 → ds.head? ≠ some 0)
    (rest : Str) (hr : ∀ c ∈ rest.head?, base ≤ digitVal c) (neg : Bool) :
    strtol (b ++ (if neg then ['-'] else []) ++ (basePrefix base ++ (ds.map digChar ++ rest))) 0 =
      clampLong (if neg then -(numeral base ds : Int) else numeral base ds) := by
  obtain ⟨d, ds', rfl⟩ := List.exists_cons_of_ne_nil hne
  have hd0 := hd d (by simp)
  rcases hbase with rfl | rfl | rfl
  · have hval := digitsVal_numeral 8 (by omega) (0 :: d :: ds')
      (by intro x hx; rcases List.mem_cons.1 hx with rfl | hx; omega; exact hd x hx) rest hr
    have hn : numeral 8 (0 :: d :: ds') = numeral 8 (d :: ds') := by simp [numeral]
    rw [hn] at hval
    rw [← hval]
    refine strtol_core b hb 0 8 _ _ '0' (by simp [basePrefix]) (by decide) ?_ neg
    have : basePrefix 8 ++ ((d :: ds').map digChar ++ rest) = '0' :: ((d :: ds').map digChar ++ rest) := rfl
    rw [this, basePart_oct]
    · rfl
    · intro c hc
      simp at hc; subst hc
      have : ∀ d : Fin 8, digChar d.1 ≠ 'x' ∧ digChar d.1 ≠ 'X' := by decide
      exact this ⟨d, hd0⟩
  · have hval := digitsVal_numeral 10 (by omega) (d :: ds') hd rest hr
    rw [← hval]
    refine strtol_core b hb 0 10 _ _ (digChar d) (by simp [basePrefix]) (digChar_plain d (by omega)) ?_ neg
    have : basePrefix 10 ++ ((d :: ds').map digChar ++ rest) = digChar d :: (ds'.map digChar ++ rest) := rfl
    rw [this, basePart_dec d hd0 (by simpa using h10 rfl)]
    rfl
  · have hval := digitsVal_numeral 16 (by omega) (d :: ds') hd rest hr
    rw [← hval]
    refine strtol_core b hb 0 16 _ _ '0' (by simp [basePrefix]) (by decide) ?_ neg
    rfl

theorem toInt32_id (v : Int) (h1 : -2 ^ 31 ≤ v) (h2 : v < 2 ^ 31) : toInt32 v = v := by
  unfold toInt32; omega

end Fullock
namespace Fullock
open Spec

/-! ### Work directory -/

/-- The components of a rebuilt path. -/
theorem components_join (pos : List Str) (hn : NormalChain pos) (b : Bool) :
    Components (joinLeaves pos b) ([] :: pos ++ (if b then [[]] else [])) := by
  refine ⟨by simp, ?_, ?_⟩
  · intro c hc
    simp only [List.cons_append, List.mem_cons, List.mem_append] at hc
    rcases hc with rfl | hc | hc
    · simp
    · exact (hn c hc).2.2.2
    · cases b <;> simp at hc; subst hc; simp
  · rw [joinLeaves_eq]
    have key : ∀ (c : Str) (l : List Str), List.intercalate ['/'] (c :: l) = c ++ (l.map ('/' :: ·)).flatten := by
      intro c l
      induction l generalizing c with
      | nil => simp [List.intercalate]
      | cons d l ih =>
        have : List.intercalate ['/'] (c :: d :: l) = c ++ '/' :: List.intercalate ['/'] (d :: l) := by
          simp [List.intercalate, List.intersperse]
        rw [this, ih]; simp
    rw [List.cons_append, key]
    cases b <;> simp

theorem filter_normal (pos : List Str) (hn : NormalChain pos) : pos.filter (· ≠ []) = pos := by
  rw [List.filter_eq_self]
  intro c hc
  simpa using (hn c hc).1

theorem pathLeaves_join_normal (pos : List Str) (hn : NormalChain pos) (b : Bool) :
    (pathLeaves (joinLeaves pos b)).1 = pos := by
  have hc := components_join pos hn b
  rw [← hc.2.2, pathLeaves_join _ hc.1 hc.2.1]
  simp only
  have := filter_normal pos hn
  cases b
  · simpa using this
  · simpa [List.filter_append] using this

/-- The paths `makeDirs` looks at. -/
def visited (pre : Str) : List Str → List Str
  | [] => []
  | l :: ls => (pre ++ ['/'] ++ l) :: visited (pre ++ ['/'] ++ l) ls

theorem mem_visited (pre : Str) (ls : List Str) (q : Str) :
    q ∈ visited pre ls ↔ ∃ i < ls.length, q = pre ++ ((ls.take (i + 1)).map ('/' :: ·)).flatten := by
  induction ls generalizing pre with
  | nil => simp [visited]
  | cons l ls ih =>
    simp only [visited, List.mem_cons, ih]
    constructor
    · rintro (rfl | ⟨i, hi, rfl⟩)
      · exact ⟨0, by simp, by simp⟩
      · exact ⟨i + 1, by simpa using hi, by simp⟩
    · rintro ⟨i, hi, rfl⟩
      cases i with
      | zero => left; simp
      | succ i => right; exact ⟨i, by simpa using hi, by simp⟩

theorem visited_prefix (pos : List Str) (q : Str) : q ∈ visited [] pos ↔ DirPrefix pos q := by
  rw [mem_visited]
  unfold DirPrefix
  constructor
  · rintro ⟨i, hi, rfl⟩
    refine ⟨i, hi, ?_⟩
    rw [absPath_cons _ (by intro h; simp at h; subst h; simp at hi)]
    rfl
  · rintro ⟨i, hi, rfl⟩
    refine ⟨i, hi, ?_⟩
    rw [absPath_cons _ (by intro h; simp at h; subst h; simp at hi)]
    rfl

/-- What `makeDirs` may have done to a path. -/
def Made (mk : Str → Bool) (fs fs' : Str → FStat) (q : Str) : Prop :=
  fs' q = fs q ∨ (fs q = .enoent ∧ mk q = true ∧ fs' q = .node sIfDir)

theorem makeDirs_frame (mk : Str → Bool) (ls : List Str) (pre : Str) (fs : Str → FStat) (q : Str) :
    Made mk fs (makeDirs mk pre ls fs).2 q ∧
    (q ∉ visited pre ls → (makeDirs mk pre ls fs).2 q = fs q) := by
  induction ls generalizing pre fs with
  | nil => exact ⟨Or.inl rfl, fun _ => rfl⟩
  | cons l ls ih =>
    unfold makeDirs
    simp only
    cases hf : fs (pre ++ ['/'] ++ l) with
    | err => exact ⟨Or.inl rfl, fun _ => rfl⟩
    | node fmt =>
      simp only
      split
      · exact ⟨Or.inl rfl, fun _ => rfl⟩
      · refine ⟨(ih _ fs).1, fun hq => (ih _ fs).2 ?_⟩
        simp [visited] at hq ⊢; exact hq.2
    | enoent =>
      simp only
      split
      · rename_i hmk
        have h := ih (pre ++ ['/'] ++ l) (fun q => if q = pre ++ ['/'] ++ l then .node sIfDir else fs q)
        constructor
        · rcases h.1 with h | ⟨h1, h2, h3⟩
          · by_cases hq : q = pre ++ ['/'] ++ l
            · subst hq
              right; rw [h]; simp at hf hmk ⊢; exact ⟨hf, hmk⟩
            · left; rw [h]; exact if_neg hq
          · by_cases hq : q = pre ++ ['/'] ++ l
            · subst hq; simp at h1
            · right; exact ⟨by simpa only [if_neg hq] using h1, h2, h3⟩
        · intro hq
          have hq1 : q ≠ pre ++ ['/'] ++ l := by intro e; apply hq; simp [visited, e]
          rw [h.2 (by intro e; apply hq; simp [visited] at e ⊢; exact Or.inr e)]
          exact if_neg hq1
      · exact ⟨Or.inl rfl, fun _ => rfl⟩

theorem makeDirs_ok (mk : Str → Bool) (ls : List Str) (pre : Str) (fs : Str → FStat)
    (h : (makeDirs mk pre ls fs).1 = true) (q : Str) (hq : q ∈ visited pre ls) :
    ∃ fmt, (makeDirs mk pre ls fs).2 q = .node fmt ∧ fmt &&& sIfDir ≠ 0 := by
  have keep : ∀ (ls : List Str) (pre : Str) (fs : Str → FStat) (q : Str) (fmt : Nat),
      fs q = .node fmt → (makeDirs mk pre ls fs).2 q = .node fmt := by
    intro ls pre fs q fmt hf
    rcases (makeDirs_frame mk ls pre fs q).1 with h | h
    · rw [h, hf]
    · rw [hf] at h; simp at h
  induction ls generalizing pre fs with
  | nil => simp [visited] at hq
  | cons l ls ih =>
    unfold makeDirs at h ⊢
    simp only at h ⊢
    cases hf : fs (pre ++ ['/'] ++ l) with
    | err => rw [hf] at h; simp at h
    | node fmt =>
      rw [hf] at h
      simp only at h ⊢
      split at h
      · simp at h
      · rename_i hd
        rw [if_neg hd]
        rcases List.mem_cons.1 hq with rfl | hq
        · exact ⟨fmt, keep _ _ _ _ _ hf, hd⟩
        · exact ih _ fs h hq
    | enoent =>
      rw [hf] at h
      simp only at h ⊢
      split at h
      · rename_i hmk
        rw [if_pos hmk]
        rcases List.mem_cons.1 hq with rfl | hq
        · exact ⟨sIfDir, keep _ _ _ _ _ (by simp), by decide⟩
        · exact ih _ _ h hq
      · simp at h

theorem makeDirs_fail (mk : Str → Bool) (ls : List Str) (pre : Str) (fs : Str → FStat)
    (h : (makeDirs mk pre ls fs).1 = false) :
    ∃ q ∈ visited pre ls, fs q = .err ∨ (∃ fmt, fs q = .node fmt ∧ fmt &&& sIfDir = 0) ∨
      (fs q = .enoent ∧ mk q = false) := by
  induction ls generalizing pre fs with
  | nil => simp [makeDirs] at h
  | cons l ls ih =>
    unfold makeDirs at h
    simp only at h
    cases hf : fs (pre ++ ['/'] ++ l) with
    | err => exact ⟨_, by simp [visited], Or.inl hf⟩
    | node fmt =>
      rw [hf] at h
      simp only at h
      split at h
      · rename_i hd; exact ⟨_, List.mem_cons_self, Or.inr (Or.inl ⟨fmt, hf, hd⟩)⟩
      · obtain ⟨q, hq, h⟩ := ih _ fs h
        exact ⟨q, List.mem_cons_of_mem _ hq, h⟩
    | enoent =>
      rw [hf] at h
      simp only at h
      split at h
      · obtain ⟨q, hq, h⟩ := ih _ _ h
        by_cases he : q = pre ++ ['/'] ++ l
        · subst he
          rcases h with h | ⟨fmt, h, h2⟩ | h
          · simp at h
          · simp at h; subst h; simp [sIfDir] at h2
          · simp at h
        · simp only [he, if_false] at h
          exact ⟨q, List.mem_cons_of_mem _ hq, h⟩
      · rename_i hmk
        exact ⟨_, List.mem_cons_self, Or.inr (Or.inr ⟨hf, by simpa using hmk⟩)⟩

end Fullock
