import Verif.Model.FLSweep
import Verif.Proofs.FLRefuse
/-! The sweep in code order is a run of the interleaving model, and what it achieves. -/
namespace Fullock.FL
open Fullock.Spec

/-- Thread `t`, staying at its place, can change the tables from `m` to `m'`. -/
inductive Stay (s : State) (t : Nat) (m : Mem) : Mem → Prop
  | refl : Stay s t m m
  | snoc {m' m'' : Mem} {c : Choice} : Stay s t m m' →
      step { s with mem := m' } (.go t c) = some { s with mem := m'' } → Stay s t m m''

theorem stay_refl (s : State) (t : Nat) (m : Mem) : Stay s t m m := .refl

theorem stay_trans {s : State} {t : Nat} {m m' m'' : Mem} (h1 : Stay s t m m') (h2 : Stay s t m' m'') :
    Stay s t m m'' := by
  induction h2 with
  | refl => exact h1
  | snoc _ hs ih => exact .snoc ih hs

theorem stay_run {s : State} {t : Nat} {m m' : Mem} (h : Stay s t m m') :
    ∃ cs : List Choice, run { s with mem := m } (cs.map (.go t ·)) = some { s with mem := m' } := by
  induction h with
  | refl => exact ⟨[], rfl⟩
  | snoc _ hs ih =>
    rename_i c _
    obtain ⟨cs, h⟩ := ih
    refine ⟨cs ++ [c], ?_⟩
    rw [List.map_append, run_append, h]
    simp [run, hs]

theorem stay_step {s : State} {t : Nat} (hal : s.alive t = true) {m : Mem} {c : Choice} {as : List Act}
    (h1 : ∀ q, s.pc t ≠ .acq q) (h2 : ∀ q, s.pc t ≠ .rel q)
    (h : plan m s.alive t (s.pc t) c = some (as, s.pc t)) : Stay s t m (m.acts as) := by
  refine .snoc (c := c) .refl ?_
  have hx : fset s.pc t (s.pc t) = s.pc := by
    funext x; simp only [fset]; split <;> simp_all
  simp [step, hal, h, State.setPc, hx]

theorem run_sinv {s s' : State} {es : List Ev} (h : SInv s) (hr : run s es = some s') : SInv s' := by
  induction es generalizing s with
  | nil => simp [run] at hr; exact hr ▸ h
  | cons e es ih =>
    simp only [run] at hr
    cases hs : step s e with
    | none => rw [hs] at hr; simp at hr
    | some s1 => rw [hs] at hr; exact ih (sinv_step h hs) hr

theorem stay_sinv {s : State} {t : Nat} {m m' : Mem} (h : SInv { s with mem := m })
    (hs : Stay s t m m') : SInv { s with mem := m' } := by
  obtain ⟨cs, hr⟩ := stay_run hs
  exact run_sinv h hr

/-- The tables only shrink. -/
structure Shrink (m m' : Mem) : Prop where
  files : ∀ f, f ∈ m'.files → f ∈ m.files
  offs : ∀ f o, o ∈ m'.offs f → o ∈ m.offs f
  lks : ∀ o md l, l ∈ m'.lks o md → l ∈ m.lks o md
  ltid : m'.ltid = m.ltid

theorem shrink_refl (m : Mem) : Shrink m m := ⟨fun _ h => h, fun _ _ h => h, fun _ _ _ h => h, rfl⟩

theorem shrink_trans {m m' m'' : Mem} (h1 : Shrink m m') (h2 : Shrink m' m'') : Shrink m m'' :=
  ⟨fun f h => h1.files f (h2.files f h), fun f o h => h1.offs f o (h2.offs f o h),
    fun o md l h => h1.lks o md l (h2.lks o md l h), h2.ltid.trans h1.ltid⟩

/-- Record `o` has no lockers of dead threads. -/
def CleanO (alive : Nat → Bool) (m : Mem) (o : Nat) : Prop :=
  ∀ md l, l ∈ m.lks o md → alive (m.ltid l) = true

theorem clean_shrink {alive : Nat → Bool} {m m' : Mem} {o : Nat} (h : CleanO alive m o)
    (hs : Shrink m m') : CleanO alive m' o := by
  intro md l hl
  rw [hs.ltid]; exact h md l (hs.lks _ _ _ hl)

/-- What `sweepActs` leaves alone. -/
structure Frame (o : Nat) (m m' : Mem) : Prop where
  files : m'.files = m.files
  offs : m'.offs = m.offs
  oprot : m'.oprot = m.oprot
  fprot : m'.fprot = m.fprot
  lks : ∀ z, z ≠ o → m'.lks z = m.lks z
  shrink : Shrink m m'

theorem frame_trans {o : Nat} {m m' m'' : Mem} (h1 : Frame o m m') (h2 : Frame o m' m'') :
    Frame o m m'' :=
  ⟨h2.files.trans h1.files, h2.offs.trans h1.offs, h2.oprot.trans h1.oprot, h2.fprot.trans h1.fprot,
    fun z hz => (h2.lks z hz).trans (h1.lks z hz), shrink_trans h1.shrink h2.shrink⟩

theorem frame_refl (o : Nat) (m : Mem) : Frame o m m :=
  ⟨rfl, rfl, rfl, rfl, fun _ _ => rfl, shrink_refl m⟩

theorem sweepActs_lks (m : Mem) (o : Nat) (md : Mode) (l : Nat) :
    (m.acts (sweepActs m o md l)).lks = fset m.lks o (fset (m.lks o) md ((m.lks o md).erase l)) := by
  unfold sweepActs
  split <;> rfl

theorem sweepActs_frame (m : Mem) (o : Nat) (md : Mode) (l : Nat) :
    Frame o m (m.acts (sweepActs m o md l)) := by
  have hl := sweepActs_lks m o md l
  have h : (m.acts (sweepActs m o md l)).files = m.files ∧
      (m.acts (sweepActs m o md l)).offs = m.offs ∧ (m.acts (sweepActs m o md l)).oprot = m.oprot ∧
      (m.acts (sweepActs m o md l)).fprot = m.fprot ∧ (m.acts (sweepActs m o md l)).ltid = m.ltid := by
    unfold sweepActs
    split <;> exact ⟨rfl, rfl, rfl, rfl, rfl⟩
  obtain ⟨h1, h2, h3, h4, h5⟩ := h
  refine ⟨h1, h2, h3, h4, ?_, ?_, ?_, ?_, h5⟩
  · intro z hz; rw [hl, fset_other _ _ hz]
  · intro f hf; rw [h1] at hf; exact hf
  · intro f x hx; rw [h2] at hx; exact hx
  · intro z md' x hx
    rw [hl, lkset] at hx
    split at hx
    · rename_i e; obtain ⟨rfl, rfl⟩ := e; exact List.mem_of_mem_erase hx
    · exact hx

/-- A place from which lockers of `o` can be swept. -/
def CanSweep (s : State) (t o : Nat) (F : Mem → Prop) : Prop :=
  ∀ m md l, F m → l ∈ m.lks o md → s.alive (m.ltid l) = false →
    plan m s.alive t (s.pc t) (.lk o md l) = some (sweepActs m o md l, s.pc t)

theorem sweepL_spec {s : State} {t : Nat} (hal : s.alive t = true) {o : Nat} {F : Mem → Prop}
    (hcs : CanSweep s t o F) (hF : ∀ m m', Frame o m m' → F m → F m') (md : Mode)
    (h1 : ∀ q, s.pc t ≠ .acq q) (h2 : ∀ q, s.pc t ≠ .rel q) :
    ∀ (L : List Nat) (m : Mem), L.Nodup → (∀ l ∈ L, l ∈ m.lks o md) → F m →
      Stay s t m (sweepL s.alive o md m L) ∧ Frame o m (sweepL s.alive o md m L) ∧
      (∀ md', md' ≠ md → (sweepL s.alive o md m L).lks o md' = m.lks o md') ∧
      ((∀ y md, (m.lks y md).Nodup) → ∀ l ∈ L, l ∈ (sweepL s.alive o md m L).lks o md →
        s.alive (m.ltid l) = true) := by
  intro L
  induction L with
  | nil => intro m _ _ _; exact ⟨stay_refl _ _ _, frame_refl _ _, fun _ _ => rfl, fun _ => by simp⟩
  | cons l ls ih =>
    intro m hn hL hFm
    simp only [List.nodup_cons] at hn
    unfold sweepL
    by_cases ha : s.alive (m.ltid l) = true
    · rw [if_pos ha]
      obtain ⟨a, b, c, d⟩ := ih m hn.2 (fun x hx => hL x (List.mem_cons_of_mem _ hx)) hFm
      refine ⟨a, b, c, ?_⟩
      intro hnd x hx hx'
      rcases List.mem_cons.mp hx with rfl | hx
      · exact ha
      · exact d hnd x hx hx'
    · rw [if_neg ha]
      have ha' : s.alive (m.ltid l) = false := by simpa using ha
      have hl := hL l List.mem_cons_self
      have hst := stay_step hal h1 h2 (hcs m md l hFm hl ha')
      have hfr := sweepActs_frame m o md l
      have hlks := sweepActs_lks m o md l
      generalize m.acts (sweepActs m o md l) = m1 at *
      have hm1 : ∀ x, x ≠ l → x ∈ m.lks o md → x ∈ m1.lks o md := by
        intro x hx hm
        rw [hlks]; simp
        exact (List.mem_erase_of_ne hx).mpr hm
      obtain ⟨a, b, c, d⟩ := ih m1 hn.2 (fun x hx => hm1 x (ne_of_mem_of_not_mem hx hn.1)
        (hL x (List.mem_cons_of_mem _ hx))) (hF _ _ hfr hFm)
      refine ⟨stay_trans hst a, frame_trans hfr b, ?_, ?_⟩
      · intro md' hmd
        rw [c md' hmd, hlks]
        simp [fset_other _ _ hmd]
      · intro hnd x hx hx'
        have hnd1 : ∀ y md, (m1.lks y md).Nodup := by
          intro y md'
          rw [hlks, lkset]
          split
          · exact (hnd _ _).erase _
          · exact hnd _ _
        rcases List.mem_cons.mp hx with rfl | hx
        · exfalso
          have := b.shrink.lks _ _ _ hx'
          rw [hlks] at this
          simp at this
          exact (hnd o md).not_mem_erase this
        · have := d hnd1 x hx hx'
          rwa [hfr.shrink.ltid] at this

theorem sweepU_spec {s : State} {t : Nat} (hal : s.alive t = true) {o : Nat} {F : Mem → Prop}
    (hcs : CanSweep s t o F) (hF : ∀ m m', Frame o m m' → F m → F m')
    (h1 : ∀ q, s.pc t ≠ .acq q) (h2 : ∀ q, s.pc t ≠ .rel q) (m : Mem) (hFm : F m)
    (hnd : ∀ o md, (m.lks o md).Nodup) (hnd1 : ∀ m', Stay s t m m' → ∀ o md, (m'.lks o md).Nodup) :
    Stay s t m (sweepU s.alive o m) ∧ Frame o m (sweepU s.alive o m) ∧
      CleanO s.alive (sweepU s.alive o m) o := by
  obtain ⟨a, b, c, d⟩ := sweepL_spec hal hcs hF .rd h1 h2 _ m (hnd o .rd) (fun _ h => h) hFm
  unfold sweepU
  generalize sweepL s.alive o .rd m (m.lks o .rd) = m1 at *
  obtain ⟨a', b', c', d'⟩ := sweepL_spec hal hcs hF .wr h1 h2 _ m1 (hnd1 m1 a o .wr) (fun _ h => h)
    (hF _ _ b hFm)
  simp only
  generalize sweepL s.alive o .wr m1 (m1.lks o .wr) = m2 at *
  refine ⟨stay_trans a a', frame_trans b b', ?_⟩
  intro md l hl
  rw [b'.shrink.ltid]
  cases md with
  | rd =>
    rw [c' .rd (by simp)] at hl
    rw [b.shrink.ltid]
    exact d hnd l (b.shrink.lks _ _ _ hl) hl
  | wr => exact d' (hnd1 m1 a) l (b'.shrink.lks _ _ _ hl) hl

section sw
variable {s : State} {t : Nat} (hal : s.alive t = true) (hpc : s.pc t = .sw)
  {m0 : Mem} (hi : SInv { s with mem := m0 })
include hal hpc hi

theorem sweepO_spec {f o : Nat} {m : Mem} (hst : Stay s t m0 m) (hf : f ∈ m.files)
    (ho : o ∈ m.offs f) :
    Stay s t m (sweepO s.alive f m o) ∧ Shrink m (sweepO s.alive f m o) ∧
      CleanO s.alive (sweepO s.alive f m o) o ∧
      (sweepO s.alive f m o).files = m.files ∧ (sweepO s.alive f m o).fprot = m.fprot ∧
      (sweepO s.alive f m o).oprot = m.oprot ∧
      (∀ z, z ≠ o → (sweepO s.alive f m o).lks z = m.lks z) ∧
      (∀ z, z ≠ o → z ∈ m.offs f → z ∈ (sweepO s.alive f m o).offs f) ∧
      (∀ g, g ≠ f → (sweepO s.alive f m o).offs g = m.offs g) ∧
      (o ∈ (sweepO s.alive f m o).offs f → oLocked (sweepO s.alive f m o) o = true) := by
  have h1 : ∀ q, s.pc t ≠ .acq q := by rw [hpc]; simp
  have h2 : ∀ q, s.pc t ≠ .rel q := by rw [hpc]; simp
  have hnd1 : ∀ m', Stay s t m m' → SOK m' := fun m' h => (stay_sinv hi (stay_trans hst h)).sok
  obtain ⟨a, b, c⟩ := sweepU_spec hal (o := o) (F := fun m => f ∈ m.files ∧ o ∈ m.offs f) (by
      intro m md l hFm hl hd
      rw [hpc]
      simp only [plan]
      rw [if_pos ⟨⟨f, hFm⟩, hl, hd⟩])
    (fun m m' h hh => ⟨by rw [h.files]; exact hh.1, by rw [h.offs]; exact hh.2⟩) h1 h2 m ⟨hf, ho⟩
    (hnd1 m (stay_refl _ _ _)).lksNd (fun m' h => (hnd1 m' h).lksNd)
  unfold sweepO
  simp only
  generalize sweepU s.alive o m = m2 at *
  by_cases hk : oLocked m2 o = true
  · rw [if_pos hk]
    exact ⟨a, b.shrink, c, b.files, b.fprot, b.oprot, b.lks, fun z _ hm => by rw [b.offs]; exact hm,
      fun g _ => by rw [b.offs], fun _ => hk⟩
  · rw [if_neg hk]
    have hk' : oLocked m2 o = false := by simpa using hk
    have hf2 : f ∈ m2.files := by rw [b.files]; exact hf
    have ho2 : o ∈ m2.offs f := by rw [b.offs]; exact ho
    have hs2 : Stay s t m2 (m2.acts [.cutO f o, .pushO o]) := stay_step hal h1 h2 (c := .off f o) (by
      rw [hpc]; simp only [plan]; rw [if_pos ⟨hf2, ho2, hk'⟩])
    have hoffs : (m2.acts [.cutO f o, .pushO o]).offs = fset m2.offs f ((m2.offs f).erase o) := rfl
    have hsh : Shrink m2 (m2.acts [.cutO f o, .pushO o]) := by
      refine ⟨fun _ h => h, ?_, fun _ _ _ h => h, rfl⟩
      intro g x hx
      rw [hoffs] at hx
      by_cases e : g = f
      · subst e; simp at hx; exact List.mem_of_mem_erase hx
      · rwa [fset_other _ _ e] at hx
    refine ⟨stay_trans a hs2, shrink_trans b.shrink hsh, clean_shrink c hsh, b.files, b.fprot,
      b.oprot, b.lks, ?_, ?_, ?_⟩
    · intro z hz hm
      rw [hoffs]; simp
      refine (List.mem_erase_of_ne hz).mpr ?_
      rw [b.offs]; exact hm
    · intro g hg
      rw [hoffs, fset_other _ _ hg, b.offs]
    · intro hm
      rw [hoffs] at hm; simp at hm
      exact absurd hm ((hnd1 m2 a).offsNd f).not_mem_erase

/-- The inner loop over the range records of one file record. -/
theorem sweepOs_spec {f : Nat} : ∀ (U : List Nat) (m : Mem), Stay s t m0 m → f ∈ m.files → U.Nodup →
    (∀ o ∈ U, o ∈ m.offs f) → (∀ o ∈ m.offs f, o ∉ U → oLocked m o = true) →
    Stay s t m (U.foldl (sweepO s.alive f) m) ∧ Shrink m (U.foldl (sweepO s.alive f) m) ∧
    (∀ o ∈ U, CleanO s.alive (U.foldl (sweepO s.alive f) m) o) ∧
    (U.foldl (sweepO s.alive f) m).files = m.files ∧
    (∀ g, g ≠ f → (U.foldl (sweepO s.alive f) m).offs g = m.offs g) ∧
    (∀ o ∈ (U.foldl (sweepO s.alive f) m).offs f, oLocked (U.foldl (sweepO s.alive f) m) o = true) := by
  intro U
  induction U with
  | nil =>
    intro m hst hf _ _ hr
    exact ⟨stay_refl _ _ _, shrink_refl _, by simp, rfl, fun _ _ => rfl, fun o ho => hr o ho (by simp)⟩
  | cons o U ih =>
    intro m hst hf hn hU hr
    simp only [List.nodup_cons] at hn
    obtain ⟨a1, a2, a3, a4, a5, a6, a7, a8, a9, a10⟩ :=
      sweepO_spec hal hpc hi hst hf (hU o List.mem_cons_self)
    simp only [List.foldl_cons]
    generalize sweepO s.alive f m o = m1 at *
    obtain ⟨b1, b2, b3, b4, b5, b6⟩ := ih m1 (stay_trans hst a1) (by rw [a4]; exact hf) hn.2
      (fun x hx => a8 x (ne_of_mem_of_not_mem hx hn.1) (hU x (List.mem_cons_of_mem _ hx))) (by
        intro x hx hxU
        by_cases e : x = o
        · subst e; exact a10 hx
        · have hx' := a2.offs f x hx
          have := hr x hx' (by simp [e, hxU])
          unfold oLocked at this ⊢
          rw [a6, a7 x e]; exact this)
    generalize U.foldl (sweepO s.alive f) m1 = m2 at *
    refine ⟨stay_trans a1 b1, shrink_trans a2 b2, ?_, b4.trans a4,
      fun g hg => (b5 g hg).trans (a9 g hg), b6⟩
    intro x hx
    rcases List.mem_cons.mp hx with rfl | hx
    · exact clean_shrink a3 b2
    · exact b3 x hx

theorem sweepF_spec {f : Nat} {m : Mem} (hst : Stay s t m0 m) (hf : f ∈ m.files) :
    Stay s t m (sweepF s.alive m f) ∧ Shrink m (sweepF s.alive m f) ∧
    (∀ o ∈ m.offs f, CleanO s.alive (sweepF s.alive m f) o) ∧
    (∀ g, g ≠ f → g ∈ m.files → g ∈ (sweepF s.alive m f).files) ∧
    (f ∈ (sweepF s.alive m f).files → fLocked (sweepF s.alive m f) f = true) := by
  have h1 : ∀ q, s.pc t ≠ .acq q := by rw [hpc]; simp
  have h2 : ∀ q, s.pc t ≠ .rel q := by rw [hpc]; simp
  have hsok := fun m' (h : Stay s t m m') => (stay_sinv hi (stay_trans hst h)).sok
  obtain ⟨b1, b2, b3, b4, b5, b6⟩ := sweepOs_spec hal hpc hi (m.offs f) m hst hf
    ((hsok m (stay_refl _ _ _)).offsNd f) (fun _ h => h) (fun o h h' => absurd h h')
  unfold sweepF
  simp only
  generalize (m.offs f).foldl (sweepO s.alive f) m = m1 at *
  by_cases hk : fLocked m1 f = true
  · rw [if_pos hk]
    exact ⟨b1, b2, b3, fun g _ hg => by rw [b4]; exact hg, fun _ => hk⟩
  · rw [if_neg hk]
    have hk' : fLocked m1 f = false := by simpa using hk
    have hf1 : f ∈ m1.files := by rw [b4]; exact hf
    have hempty : m1.offs f = [] := by
      cases hoff : m1.offs f with
      | nil => rfl
      | cons o os =>
        exfalso
        apply hk
        unfold fLocked
        rw [Bool.or_eq_true]; right
        exact List.any_eq_true.mpr ⟨o, by rw [hoff]; exact List.mem_cons_self,
          b6 o (by rw [hoff]; exact List.mem_cons_self)⟩
    have hs2 : Stay s t m1 (m1.acts [.cutF f, .pushF f]) := stay_step hal h1 h2 (c := .file f) (by
      rw [hpc]; simp only [plan]; rw [if_pos ⟨hf1, hempty, hk'⟩])
    have hfiles : (m1.acts [.cutF f, .pushF f]).files = m1.files.erase f := rfl
    have hsh : Shrink m1 (m1.acts [.cutF f, .pushF f]) :=
      ⟨fun g hg => List.mem_of_mem_erase hg, fun _ _ h => h, fun _ _ _ h => h, rfl⟩
    refine ⟨stay_trans b1 hs2, shrink_trans b2 hsh, fun o ho => clean_shrink (b3 o ho) hsh, ?_, ?_⟩
    · intro g hg hm
      rw [hfiles]
      exact (List.mem_erase_of_ne hg).mpr (by rw [b4]; exact hm)
    · intro hm
      rw [hfiles] at hm
      exact absurd hm (hsok m1 b1).filesNd.not_mem_erase

theorem sweepAll_spec' : ∀ (F : List Nat) (m : Mem), Stay s t m0 m → F.Nodup →
    (∀ f ∈ F, f ∈ m.files) →
    Stay s t m (F.foldl (sweepF s.alive) m) ∧ Shrink m (F.foldl (sweepF s.alive) m) ∧
    (∀ f ∈ F, ∀ o ∈ (F.foldl (sweepF s.alive) m).offs f,
      CleanO s.alive (F.foldl (sweepF s.alive) m) o) := by
  intro F
  induction F with
  | nil => intro m _ _ _; exact ⟨stay_refl _ _ _, shrink_refl _, by simp⟩
  | cons f F ih =>
    intro m hst hn hF
    simp only [List.nodup_cons] at hn
    obtain ⟨a1, a2, a3, a4, _⟩ := sweepF_spec hal hpc hi hst (hF f List.mem_cons_self)
    simp only [List.foldl_cons]
    generalize sweepF s.alive m f = m1 at *
    obtain ⟨b1, b2, b3⟩ := ih m1 (stay_trans hst a1) hn.2 (fun x hx =>
      a4 x (ne_of_mem_of_not_mem hx hn.1) (hF x (List.mem_cons_of_mem _ hx)))
    refine ⟨stay_trans a1 b1, shrink_trans a2 b2, ?_⟩
    intro g hg o ho
    rcases List.mem_cons.mp hg with rfl | hg
    · exact clean_shrink (a3 o (a2.offs _ _ (b2.offs _ _ ho))) b2
    · exact b3 g hg o ho

end sw

theorem stay_outs {s : State} {t : Nat} {m m' : Mem} (hi : SInv { s with mem := m })
    (hp : ∀ op f o l md, s.pc t ≠ .uWord op f o l md) (hp2 : ∀ op f o l, s.pc t ≠ .setf op f o l)
    (h : Stay s t m m') :
    (∀ x ∈ m'.outs, x ∈ m.outs) ∧ ∀ x ∈ m.outs, s.alive x.2.t = true → x ∈ m'.outs := by
  induction h with
  | refl => exact ⟨fun _ h => h, fun _ h _ => h⟩
  | snoc hst hs ih =>
    rename_i m1 m2 c
    have hi1 := stay_sinv hi hst
    constructor
    · intro x hx
      refine ih.1 x ?_
      by_contra hn
      obtain ⟨op, f, o, q1, q2, q3⟩ := outs_gain hs hn hx
      have : x.2.t = t := by
        rcases q3 with ⟨e, _⟩ | ⟨c, k, e⟩
        · cases e; rfl
        · cases e
      simp only [this] at q1
      exact hp2 _ _ _ _ q1
    · intro x hx ha
      by_contra hn
      rcases outs_loss hi1 hs (ih.2 x hx ha) hn with q | ⟨op, f, o, md, q1, _, _, q2⟩
      · simp only at q; rw [ha] at q; cases q
      · have : x.2.t = t := by
          rcases q2 with e | ⟨k, e⟩
          · cases e; rfl
          · cases e
        simp only [this] at q1
        exact hp _ _ _ _ _ q1

/-- The whole sweep: reachable, no dead lockers left, exactly the locks of live threads kept. -/
theorem sweepAll_spec {s : State} {t : Nat} (hal : s.alive t = true) (hpc : s.pc t = .sw)
    (hi : SInv s) :
    Stay s t s.mem (sweepAll s.alive s.mem) ∧
    (∀ f ∈ (sweepAll s.alive s.mem).files, ∀ o ∈ (sweepAll s.alive s.mem).offs f, ∀ md,
      ∀ l ∈ (sweepAll s.alive s.mem).lks o md, s.alive ((sweepAll s.alive s.mem).ltid l) = true) ∧
    (∀ x, x ∈ (sweepAll s.alive s.mem).outs ↔ x ∈ s.mem.outs ∧ s.alive x.2.t = true) := by
  have hi0 : SInv { s with mem := s.mem } := hi
  obtain ⟨a, b, c⟩ := sweepAll_spec' hal hpc hi0 s.mem.files s.mem (stay_refl _ _ _) hi.sok.filesNd
    (fun _ h => h)
  have hcl : ∀ f ∈ (sweepAll s.alive s.mem).files, ∀ o ∈ (sweepAll s.alive s.mem).offs f, ∀ md,
      ∀ l ∈ (sweepAll s.alive s.mem).lks o md, s.alive ((sweepAll s.alive s.mem).ltid l) = true :=
    fun f hf o ho md l hl => c f (b.files f hf) o ho md l hl
  refine ⟨a, hcl, ?_⟩
  have ho := stay_outs hi0 (by simp [hpc]) (by simp [hpc]) a
  intro x
  constructor
  · intro hx
    refine ⟨ho.1 x hx, ?_⟩
    obtain ⟨f, o, at_, _, _, q, _⟩ := (stay_sinv hi0 a).outs.1 x hx
    have := hcl f at_.1 o at_.2.1 _ _ at_.2.2
    have q' : (sweepAll s.alive s.mem).ltid x.1 = x.2.t := q
    rwa [q'] at this
  · rintro ⟨hx, ha⟩
    exact ho.2 x hx ha

/-- The check made by a waiter on its own record. -/
theorem waiterCheck_spec {s : State} {t : Nat} (hal : s.alive t = true) {op : Op} {f o l : Nat}
    (hpc : s.pc t = .rChk op f o l) (hi : SInv s) :
    Stay s t s.mem (sweepU s.alive o s.mem) ∧ CleanO s.alive (sweepU s.alive o s.mem) o ∧
    (∀ x, x ∈ (sweepU s.alive o s.mem).outs → x ∈ s.mem.outs) ∧
    (∀ x ∈ s.mem.outs, s.alive x.2.t = true → x ∈ (sweepU s.alive o s.mem).outs) := by
  have hi0 : SInv { s with mem := s.mem } := hi
  obtain ⟨a, b, c⟩ := sweepU_spec hal (o := o) (F := fun _ => True) (by
      intro m md l' _ hl hd
      rw [hpc]
      simp only [plan]
      rw [if_pos ⟨trivial, hl, hd⟩]) (fun _ _ _ h => h) (by simp [hpc]) (by simp [hpc]) s.mem trivial
    hi.sok.lksNd (fun m' h => (stay_sinv hi0 h).sok.lksNd)
  have ho := stay_outs hi0 (by simp [hpc]) (by simp [hpc]) a
  exact ⟨a, c, ho.1, ho.2⟩

end Fullock.FL
