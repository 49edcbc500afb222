import Verif.Proofs.MCMemStep
/-! Every step on the cells is a step on the tables, or leaves the tables as they are. -/
namespace Fullock.MCMem
open Fullock.ListMem hiding upd
open Fullock.Layout
open Fullock.FLMem (adr idx member adr_inj' idx_adr)
open Fullock.Props (NoWrap)
open Fullock.MC (Kind LK UK Choice EPERM EBUSY EINVAL ENOLCK ETIMEDOUT upd)

/-! ### Changes of one member -/

theorem name_inj {T : Tab} {x : Mem} {M : MC.Mem} (d : Data T x M) (hn : M.mlist.Nodup) {m m' : Nat}
    (h : m ∈ T .mtxs) (h' : m' ∈ T .mtxs) (e : x.mname m = x.mname m') : m = m' := by
  rw [d.ml] at hn
  exact List.inj_on_of_nodup_map hn h h' e

theorem cname_inj {T : Tab} {x : Mem} {M : MC.Mem} (d : Data T x M) (hn : M.clist.Nodup) {m m' : Nat}
    (h : m ∈ T .conds) (h' : m' ∈ T .conds) (e : x.cname m = x.cname m') : m = m' := by
  rw [d.cl] at hn
  exact List.inj_on_of_nodup_map hn h h' e

theorem data_mval {T : Tab} {x : Mem} {M : MC.Mem} (d : Data T x M) (hn : M.mlist.Nodup) {m : Nat}
    (hm : m ∈ T .mtxs) (v : Nat) :
    Data T { x with mval := upd x.mval m v } { M with mval := upd M.mval (x.mname m) v } := by
  have hi : ∀ m' ∈ T .mtxs, upd M.mval (x.mname m) v (x.mname m') = upd x.mval m v m' := by
    intro m' h'
    by_cases e : m' = m
    · subst e; simp
    · have : x.mname m' ≠ x.mname m := fun e' => e (name_inj d hn h' hm e')
      simp [e, this, d.mv m' h']
  exact { d with mv := hi }

theorem data_mcnt {T : Tab} {x : Mem} {M : MC.Mem} (d : Data T x M) (hn : M.mlist.Nodup) {m : Nat}
    (hm : m ∈ T .mtxs) (v : Int) :
    Data T { x with mcnt := upd x.mcnt m v } { M with mcnt := upd M.mcnt (x.mname m) v } := by
  have hi : ∀ m' ∈ T .mtxs, upd M.mcnt (x.mname m) v (x.mname m') = upd x.mcnt m v m' := by
    intro m' h'
    by_cases e : m' = m
    · subst e; simp
    · have : x.mname m' ≠ x.mname m := fun e' => e (name_inj d hn h' hm e')
      simp [e, this, d.mc m' h']
  exact { d with mc := hi }

theorem data_dep {T : Tab} {x : Mem} {M : MC.Mem} (d : Data T x M) (hn : M.mlist.Nodup) {m : Nat}
    (hm : m ∈ T .mtxs) (v : Nat → Nat) :
    Data T { x with dep := upd x.dep m v } { M with dep := upd M.dep (x.mname m) v } := by
  have hi : ∀ m' ∈ T .mtxs, upd M.dep (x.mname m) v (x.mname m') = upd x.dep m v m' := by
    intro m' h'
    by_cases e : m' = m
    · subst e; simp
    · have : x.mname m' ≠ x.mname m := fun e' => e (name_inj d hn h' hm e')
      simp [e, this, d.md m' h']
  refine { d with md := hi, d0 := fun n hx => ?_ }
  have : n ≠ x.mname m := by
    rintro rfl
    exact hx (by show x.mname m ∈ M.mlist; rw [d.ml]; exact List.mem_map.2 ⟨m, hm, rfl⟩)
  show upd M.dep (x.mname m) v n = _
  rw [MC.upd_ne _ _ this]
  exact d.d0 n hx

theorem data_wup {T : Tab} {x : Mem} {M : MC.Mem} (d : Data T x M) (w : Nat) (v : Bool) :
    Data T { x with wup := upd x.wup w v } { M with wup := upd M.wup w v } := by
  refine { d with wu := ?_ }
  show upd M.wup w v = upd x.wup w v
  rw [d.wu]

theorem keep_same {q : MC.Pc} {T : Tab} {x x' : Mem} (h1 : x'.mname = x.mname) (h2 : x'.cname = x.cname)
    (h3 : x'.wtid = x.wtid) (h4 : x'.wmtx = x.wmtx)
    (h5 : ∀ m, m ∉ T .mtxs → x'.mval m = x.mval m ∧ x'.mcnt m = x.mcnt m ∧ x'.dep m = x.dep m) :
    Keep q T x T x' :=
  ⟨List.suffix_refl _, fun _ _ => by rw [h1], List.suffix_refl _, fun _ _ => by rw [h2],
    fun _ => ⟨rfl, rfl, h1, h5⟩, fun _ => ⟨fun _ _ => rfl, h2, h3, h4⟩, fun _ _ => by rw [h4]⟩

theorem upd_other {α : Type} {T : Tab} {f : Nat → α} {m m' : Nat} {v : α} (hm : m ∈ T .mtxs) (h : m' ∉ T .mtxs) :
    upd f m v m' = f m' := MC.upd_ne _ _ (by rintro rfl; exact h hm)

/-! ### Places after common ends -/

section ends
variable {cnt : Pool → Nat} {b : Nat} {T : Tab} {x : Mem} {alive : Nat → Bool}

theorem pcr_fin {k : LK} (h : KI T k) (r : Nat) : PcR cnt b T x alive (fin k r) (MC.fin (aK x k) r) := by
  cases k with
  | api => rfl
  | wt c w m r0 => exact ⟨_, rfl, rfl, rfl, h.1, h.2, rfl⟩

theorem pcr_ufin {k : UK} (h : UI T k) (r : Nat) : PcR cnt b T x alive (ufin k r) (MC.ufin (aU x k) r) := by
  cases k with
  | api => exact ⟨_, rfl, rfl, rfl, rfl⟩
  | wt c w m kd =>
    simp only [ufin, MC.ufin, aU]
    split
    · exact ⟨h.1, h.2, rfl⟩
    · exact ⟨h.1, h.2, rfl⟩

theorem pcr_failed {m : Nat} {kd : Kind} {k : LK} {c : Choice} {p' : Pc} (hm : m ∈ T .mtxs) (h : KI T k)
    (hf : failed m kd k c = some p') :
    ∃ q', MC.failed (x.mname m) kd (aK x k) c = some q' ∧ PcR cnt b T x alive p' q' := by
  cases c <;> simp only [failed, reduceCtorEq] at hf
  · simp only [Option.some.injEq] at hf
    subst hf
    refine ⟨_, rfl, ?_⟩
    split
    · exact pcr_fin h _
    · exact ⟨hm, h, rfl⟩
  · cases kd <;> simp only [reduceCtorEq, Option.some.injEq] at hf
    · subst hf; exact ⟨_, rfl, pcr_fin h _⟩
    · subst hf; exact ⟨_, rfl, _, rfl, rfl, rfl, ⟨hm, h⟩, rfl⟩

theorem pcr_swBack {k : Option (Nat × Kind × LK)} (h : SI T k) :
    PcR cnt b T x alive (swBack k) (MC.swBack (aS x k)) ∧ needM (swBack k) = false ∧ needC (swBack k) = false := by
  rcases k with _ | ⟨m, kd, k⟩
  · exact ⟨rfl, rfl, rfl⟩
  · exact ⟨⟨h.1, h.2, rfl⟩, rfl, rfl⟩

/-- The places do not depend on the words of mutexes, the states of waiters and the table locks. -/
theorem pcr_congr {x' : Mem} (h1 : x'.mname = x.mname) (h2 : x'.cname = x.cname) (h3 : x'.wtid = x.wtid)
    (h4 : x'.wmtx = x.wmtx) {p : Pc} {q : MC.Pc} (hn : needM p = false) (h : PcR cnt b T x alive p q) :
    PcR cnt b T x' alive p q := by
  refine stab_aux (q0 := .done 0) (T' := T) (x' := { x' with mval := x.mval, mcnt := x.mcnt, dep := x.dep })
    (keep_same h1 h2 h3 h4 fun _ _ => ⟨rfl, rfl, rfl⟩) (fun _ h => h) h (fun _ => rfl) (fun _ => rfl)
    (fun _ w _ => by show x'.wmtx w = _; rw [h4]) |> fun h => ?_
  clear h1 h2 h3 h4
  induction p generalizing q with
  | acqM p ih | relM p ih | acqC p ih | relC p ih =>
    obtain ⟨q', rfl, n1, n2, h'⟩ := h
    obtain ⟨_, h5, h6⟩ := ‹PcR cnt b T x alive _ _›
    cases h5
    exact ⟨q', rfl, n1, n2, ih hn h6.2.2 h'⟩
  | mIns => cases hn
  | _ =>
    have aKe : ∀ k, aK { x' with mval := x.mval, mcnt := x.mcnt, dep := x.dep } k = aK x' k := by
      intro k; cases k <;> rfl
    have aUe : ∀ k, aU { x' with mval := x.mval, mcnt := x.mcnt, dep := x.dep } k = aU x' k := by
      intro k; cases k <;> rfl
    have aSe : ∀ k, aS { x' with mval := x.mval, mcnt := x.mcnt, dep := x.dep } k = aS x' k := by
      intro k; rcases k with _ | ⟨m, kd, k⟩
      · rfl
      · simp only [aS, aKe]
    simp only [PcR, aKe, aUe, aSe] at h ⊢
    exact h

end ends

/-! ### The step -/

/-- The choice of the step on the tables: the one of the step on the cells, but a check of dead owners takes the mutexes
in the order of the list. -/
def Like (cnt : Pool → Nat) (b : Nat) (x : Mem) (p : Pc) (c c' : Choice) : Prop :=
  match p with
  | .swTop _ => False
  | .swAt a _ => c' = if a = 0 then .go else .mx (x.mname (idx cnt b .nmtx a))
  | .swCut _ _ _ => ∃ n w, c' = .wk n w
  | _ => c' = c

/-- Places from which a step on the cells may be none on the tables. -/
def Stays : Pc → Prop
  | .mIni _ _ _ => True
  | .wNewI _ _ _ _ => True
  | .wMtx _ _ _ => True
  | .swTop _ => True
  | .swC => True
  | .swCond _ => True
  | .swW _ _ _ => True
  | .swNx _ _ => True
  | _ => False

/-- What a step of a check does to the lists. -/
def Tabs (cnt : Pool → Nat) (b : Nat) (T : Tab) (p : Pc) (T' : Tab) : Prop :=
  match p with
  | .swTop _ => T' = T
  | .swAt _ _ => T' = T
  | .swChk _ _ _ => T' = T
  | .swCnt _ _ => T' = T
  | .swCntC _ _ _ => T' = T
  | .swVal _ _ => T' = T
  | .swValC _ _ _ => T' = T
  | .swC => T' = T
  | .swCond _ => T' = T
  | .swW _ _ _ => T' = T
  | .swNx _ _ => T' = T
  | .swCut k _ a => T' = set T (.ws k) ((T (.ws k)).erase (idx cnt b .waiter a))
  | .swPut _ _ a => T' = set T .wfree (idx cnt b .waiter a :: T .wfree)
  | _ => True

/-- The outcome of a step with the writes `ws`: the tables `T'` afterwards, what other threads rely on
unchanged, the tables at every death in between, and the corresponding step on the tables, if any. -/
def Out (cnt : Pool → Nat) (b : Nat) (T : Tab) (x : Mem) (alive : Nat → Bool) (t : Nat) (M : MC.Mem) (q : MC.Pc)
    (p : Pc) (c : Choice) (ws : List Write) (x' : Mem) (p' : Pc) : Prop :=
  ∃ T', Tabs cnt b T p T' ∧ Sound cnt T' ∧ Rep cnt (applyWrites x.cells ws) T' ∧ Keep q T x T' x' ∧
    (∀ j, Rep cnt (applyWrites x.cells (ws.take j)) T ∨ (x' = x ∧ Rep cnt (applyWrites x.cells (ws.take j)) T')) ∧
    ((Stays p ∧ Data T' x' M ∧ PcR cnt b T' x' alive p' q) ∨
      ∃ c' M' q', Like cnt b x p c c' ∧ MC.plan M alive t q c' = some (M', q') ∧ Data T' x' M' ∧ PcR cnt b T' x' alive p' q')

section outs
variable {cnt : Pool → Nat} {b : Nat} {T : Tab} {x x' : Mem} {alive : Nat → Bool} {t : Nat} {M M' : MC.Mem}
  {q q' : MC.Pc} {p p' : Pc} {c : Choice}

theorem out_go (hs : Sound cnt T) (hr : Rep cnt x.cells T) (hk : Keep q T x T x') (c' : Choice)
    (hp : MC.plan M alive t q c' = some (M', q')) (hd : Data T x' M') (hq : PcR cnt b T x' alive p' q')
    (hl : Like cnt b x p c c' := by first | exact rfl | exact ⟨_, _, rfl⟩)
    (ht : Tabs cnt b T p T := by first | exact rfl | exact trivial) :
    Out cnt b T x alive t M q p c [] x' p' :=
  ⟨T, ht, hs, hr, hk, fun j => .inl (by rw [List.take_nil]; exact hr), .inr ⟨c', M', q', hl, hp, hd, hq⟩⟩

theorem out_id (hs : Sound cnt T) (hr : Rep cnt x.cells T) (hd : Data T x M) (hq : PcR cnt b T x alive p' q)
    (hst : Stays p := by exact trivial) (ht : Tabs cnt b T p T := by first | exact rfl | exact trivial) :
    Out cnt b T x alive t M q p c [] x p' :=
  ⟨T, ht, hs, hr, keep_refl _ _ _, fun j => .inl (by rw [List.take_nil]; exact hr), .inl ⟨hst, hd, hq⟩⟩

end outs

theorem mem_name {T : Tab} {x : Mem} {M : MC.Mem} (d : Data T x M) {m : Nat} (h : m ∈ T .mtxs) :
    x.mname m ∈ M.mlist := by rw [d.ml]; exact List.mem_map.2 ⟨m, h, rfl⟩

theorem mem_cname {T : Tab} {x : Mem} {M : MC.Mem} (d : Data T x M) {m : Nat} (h : m ∈ T .conds) :
    x.cname m ∈ M.clist := by rw [d.cl]; exact List.mem_map.2 ⟨m, h, rfl⟩

section actor
variable {cnt : Pool → Nat} (hw : NoWrap cnt) {fuel : Nat} (hf : Fuel cnt fuel) {b : Nat} {T : Tab} {x : Mem}
  {alive : Nat → Bool} {t : Nat} {M : MC.Mem} {q : MC.Pc} (hs : Sound cnt T) (hr : Rep cnt x.cells T)
  (hd : Data T x M) (hn : M.mlist.Nodup) (hcn : M.clist.Nodup)
include hw hf hs hr hd

/-- What the lookup of a mutex finds. -/
theorem findM_cases (n : Nat) :
    (findM cnt fuel b x n = some none ∧ n ∉ M.mlist) ∨
    ∃ m, findM cnt fuel b x n = some (some m) ∧ m ∈ T .mtxs ∧ x.mname m = n ∧ n ∈ M.mlist := by
  have h := findM_eq hw hs hr b hf n
  cases e : (T .mtxs).find? fun m => x.mname m == n with
  | none =>
    rw [e] at h
    refine .inl ⟨h, fun hm => ?_⟩
    rw [hd.ml] at hm
    obtain ⟨m, h1, h2⟩ := List.mem_map.1 hm
    have := List.find?_eq_none.1 e m h1
    simp [h2] at this
  | some m =>
    rw [e] at h
    have h1 := List.mem_of_find?_eq_some e
    have h2 : x.mname m = n := by simpa using List.find?_some e
    exact .inr ⟨m, h, h1, h2, h2 ▸ mem_name hd h1⟩

theorem findC_cases (n : Nat) :
    (findC cnt fuel b x n = some none ∧ n ∉ M.clist) ∨
    ∃ m, findC cnt fuel b x n = some (some m) ∧ m ∈ T .conds ∧ x.cname m = n ∧ n ∈ M.clist := by
  have h := findC_eq hw hs hr b hf n
  cases e : (T .conds).find? fun m => x.cname m == n with
  | none =>
    rw [e] at h
    refine .inl ⟨h, fun hm => ?_⟩
    rw [hd.cl] at hm
    obtain ⟨m, h1, h2⟩ := List.mem_map.1 hm
    have := List.find?_eq_none.1 e m h1
    simp [h2] at this
  | some m =>
    rw [e] at h
    have h1 := List.mem_of_find?_eq_some e
    have h2 : x.cname m = n := by simpa using List.find?_some e
    exact .inr ⟨m, h, h1, h2, h2 ▸ mem_cname hd h1⟩

end actor

/-! ### Changes of one list -/

section lists
variable {cnt : Pool → Nat} {T : Tab} {x : Mem} {M : MC.Mem}

theorem free_pop (hs : Sound cnt T) {h : Head} {i : Nat} {l : List Nat} (he : T h = i :: l) :
    Free cnt (set T h l) h i := by
  have hnd := hs.nodup h
  rw [he, List.nodup_cons] at hnd
  refine ⟨hs.lt h i (by rw [he]; simp), fun h' hp hm => ?_⟩
  by_cases e : h' = h
  · subst e; rw [set_at] at hm; exact hnd.1 hm
  · rw [set_ne _ _ e] at hm
    exact hs.disj h' h hp e i hm (by rw [he]; simp)

theorem free_cut (hs : Sound cnt T) {h : Head} {i : Nat} (hi : i ∈ T h) :
    Free cnt (set T h ((T h).erase i)) h i := by
  refine ⟨hs.lt h i hi, fun h' hp hm => ?_⟩
  by_cases e : h' = h
  · subst e; rw [set_at] at hm; exact (List.Nodup.not_mem_erase (hs.nodup _)) hm
  · rw [set_ne _ _ e] at hm
    exact hs.disj h' h hp e i hm hi

theorem keep_M {q : MC.Pc} (hq : MC.inM q = true) {h : Head} (hp : h.pool = .nmtx) {l : List Nat}
    (hsuf : T .mtxs <:+ set T h l .mtxs) : Keep q T x (set T h l) x := by
  have hne : ∀ h', h'.pool ≠ .nmtx → set T h l h' = T h' := fun h' hp' =>
    set_ne _ _ (by rintro rfl; exact hp' hp)
  exact ⟨hsuf, fun _ _ => rfl, (hne .conds (by simp [Head.pool])) ▸ List.suffix_refl _, fun _ _ => rfl,
    fun e => (by rw [hq] at e; cases e), fun _ => ⟨hne, rfl, rfl, rfl⟩, fun _ _ => rfl⟩

theorem keep_C {q : MC.Pc} (hq : MC.inC q = true) {h : Head} (hp : h.pool ≠ .nmtx) {l : List Nat}
    (hsuf : T .conds <:+ set T h l .conds) : Keep q T x (set T h l) x := by
  have h1 : set T h l .mtxs = T .mtxs := set_ne _ _ (by rintro rfl; exact hp rfl)
  have h2 : set T h l .mfree = T .mfree := set_ne _ _ (by rintro rfl; exact hp rfl)
  exact ⟨h1 ▸ List.suffix_refl _, fun _ _ => rfl, hsuf, fun _ _ => rfl,
    fun _ => ⟨h1, h2, rfl, fun _ _ => ⟨rfl, rfl, rfl⟩⟩, fun e => (by rw [hq] at e; cases e), fun _ _ => rfl⟩

variable (d : Data T x M)
include d

theorem data_mfree {m : Nat} {l : List Nat} (he : T .mfree = m :: l) :
    Data (set T .mfree l) x { M with mroom := M.mroom - 1 } :=
  ⟨by simpa [set] using d.ml, by simp [set, d.mr, he], by simpa [set] using d.cl, by simpa [set] using d.cr,
    by simpa [set] using d.wfr, by simpa [set] using d.ws, by simpa [set] using d.we, by simpa [set] using d.mv,
    by simpa [set] using d.mc, by simpa [set] using d.md, d.d0, d.wt, d.wu, d.mL, d.cL⟩

theorem data_cfree {m : Nat} {l : List Nat} (he : T .cfree = m :: l) :
    Data (set T .cfree l) x { M with croom := M.croom - 1 } :=
  ⟨by simpa [set] using d.ml, by simpa [set] using d.mr, by simpa [set] using d.cl, by simp [set, d.cr, he],
    by simpa [set] using d.wfr, by simpa [set] using d.ws, by simpa [set] using d.we, by simpa [set] using d.mv,
    by simpa [set] using d.mc, by simpa [set] using d.md, d.d0, d.wt, d.wu, d.mL, d.cL⟩

theorem data_wfree (l : List Nat) : Data (set T .wfree l) x { M with wfree := l } :=
  ⟨by simpa [set] using d.ml, by simpa [set] using d.mr, by simpa [set] using d.cl, by simpa [set] using d.cr,
    by simp [set], by simpa [set] using d.ws, by simpa [set] using d.we, by simpa [set] using d.mv,
    by simpa [set] using d.mc, by simpa [set] using d.md, d.d0, d.wt, d.wu, d.mL, d.cL⟩

theorem data_mIns {m : Nat} (hnew : x.mname m ∉ M.mlist) (h1 : x.mval m = 0) (h2 : x.mcnt m = 0)
    (h3 : x.dep m = fun _ => 0) :
    Data (set T .mtxs (m :: T .mtxs)) x
      { M with mlist := x.mname m :: M.mlist, mval := upd M.mval (x.mname m) 0, mcnt := upd M.mcnt (x.mname m) 0 } := by
  have hne : ∀ m' ∈ T .mtxs, x.mname m' ≠ x.mname m := fun m' h' e => hnew (e ▸ mem_name d h')
  refine ⟨by simp [set, d.ml], by simpa [set] using d.mr, by simpa [set] using d.cl, by simpa [set] using d.cr,
    by simpa [set] using d.wfr, by simpa [set] using d.ws, by simpa [set] using d.we, ?_, ?_, ?_, ?_,
    d.wt, d.wu, d.mL, d.cL⟩
  · intro m' h'
    rw [set_at] at h'
    rcases List.mem_cons.1 h' with rfl | h'
    · simp [h1]
    · simp [hne m' h', d.mv m' h']
  · intro m' h'
    rw [set_at] at h'
    rcases List.mem_cons.1 h' with rfl | h'
    · simp [h2]
    · simp [hne m' h', d.mc m' h']
  · intro m' h'
    rw [set_at] at h'
    rcases List.mem_cons.1 h' with rfl | h'
    · rw [h3]; exact d.d0 _ hnew
    · exact d.md m' h'
  · intro n hx
    exact d.d0 n fun e => hx (List.mem_cons_of_mem _ e)

theorem data_wNew {c : Nat} (hnew : x.cname c ∉ M.clist) (hc : c ∉ T .conds) :
    Data (set T .conds (c :: T .conds)) x
      { M with clist := x.cname c :: M.clist, ws := upd M.ws (x.cname c) [] } := by
  have hne : ∀ m' ∈ T .conds, x.cname m' ≠ x.cname c := fun m' h' e => hnew (e ▸ mem_cname d h')
  refine ⟨by simpa [set] using d.ml, by simpa [set] using d.mr, by simp [set, d.cl], by simpa [set] using d.cr,
    by simpa [set] using d.wfr, ?_, ?_, by simpa [set] using d.mv, by simpa [set] using d.mc,
    by simpa [set] using d.md, d.d0, d.wt, d.wu, d.mL, d.cL⟩
  · intro c' h'
    rw [set_at] at h'
    rw [set_ne _ _ (by simp)]
    rcases List.mem_cons.1 h' with rfl | h'
    · simp [d.we _ hc]
    · simp [hne c' h', d.ws c' h']
  · intro c' h'
    rw [set_at] at h'
    rw [set_ne _ _ (by simp)]
    exact d.we c' fun e => h' (List.mem_cons_of_mem _ e)

theorem data_ws (hcn : M.clist.Nodup) {c : Nat} (hc : c ∈ T .conds) (l : List Nat) :
    Data (set T (.ws c) l) x { M with ws := upd M.ws (x.cname c) l } := by
  refine ⟨by simpa [set] using d.ml, by simpa [set] using d.mr, by simpa [set] using d.cl,
    by simpa [set] using d.cr,
    by simpa [set] using d.wfr, ?_, ?_, by simpa [set] using d.mv, by simpa [set] using d.mc,
    by simpa [set] using d.md, d.d0, d.wt, d.wu, d.mL, d.cL⟩
  · intro c' h'
    rw [set_ne _ _ (by simp)] at h'
    by_cases e : c' = c
    · subst e; simp [set]
    · have : x.cname c' ≠ x.cname c := fun e' => e (cname_inj d hcn h' hc e')
      rw [set_ne _ _ (by simpa using e)]
      simp [this, d.ws c' h']
  · intro c' h'
    rw [set_ne _ _ (by simp)] at h'
    rw [set_ne _ _ (by simp; rintro rfl; exact h' hc)]
    exact d.we c' h'

end lists

end Fullock.MCMem
