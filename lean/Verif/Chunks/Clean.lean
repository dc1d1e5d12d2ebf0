import Verif.Chunks.Synth
import Verif.Clean.HogbomProps

/-!
# RM-CLEAN of a cube in chunks (C227)

Source: `/repo/RMtools_3D/create_chunks.py` 28-120, `/repo/RMtools_3D/do_RMclean_3D.py` 55-164 on each of the chunks (without a pool),
`/repo/RMtools_3D/assemble_chunks.py` 22-160. The models are `Chunks.create`, `Clean.hogbom`, `Chunks.assemble`.

The dirty cube, the cube of the spread function and the map of its width are cut with the same chunk size, so a pixel is taken as the three together; the
product is taken as clean spectrum, components, iteration count and residual together.
-/

namespace Verif.Chunks

open Verif.NumPy

variable {N N2 : ℕ} {α β : Type*}

/-- A pixel of the input of `rmclean3d`. -/
structure DirtyPixel (N N2 : ℕ) where
  dirty : Fin N → Option ℂ
  rmsf : Fin N2 → ℂ
  fwhm : ℝ

/-- Depth axis (from the header) and options. -/
structure CleanSetup (N : ℕ) where
  phi : Fin N → ℝ
  maxIter : ℕ
  gain : ℝ
  cutoff : ℝ
  window : Option ℝ

/-- A pixel of the products of `rmclean3d`. -/
structure CleanPixel (N : ℕ) where
  clean : Fin N → Option ℂ
  cc : Fin N → ℂ
  iter : ℕ
  resid : Fin N → Option ℂ

/-- Arguments of `do_rmclean_hogbom` (`do_RMclean_3D.py` 120-135) for a cube with the pixels `L`. -/
def cleanCube (s : CleanSetup N) (L : List (DirtyPixel N N2)) : Clean.Cube N N2 L.length where
  dirty := fun i p => (L.get p).dirty i
  phi := s.phi
  rmsf := fun l p => (L.get p).rmsf l
  fwhm := fun p => (L.get p).fwhm
  maxIter := s.maxIter
  gain := s.gain
  cutoff := s.cutoff
  window := s.window
  mskArr := none

variable [NeZero N] [NeZero N2]

/-- `run_rmclean` for a cube with the pixels `L`; `none` is an exception. -/
noncomputable def runClean (s : CleanSetup N) (L : List (DirtyPixel N N2)) : Option (List (CleanPixel N)) :=
  (Clean.hogbom (cleanCube s L)).map fun r => List.ofFn fun p =>
    { clean := fun i => r.clean i p, cc := fun i => r.cc i p, iter := r.iterCount p, resid := fun i => r.resid i p }

/-- The run on a chunk. -/
noncomputable def runCleanFile (s : CleanSetup N) (f : File (DirtyPixel N N2)) : Option (File (CleanPixel N)) :=
  (runClean s f.pix).map fun R => { name := f.name, naxis := f.naxis, oldX := f.oldX, oldY := f.oldY, pix := R }

/-! ## Pixels are independent -/

theorem mapM_isSome {γ δ : Type*} (l : List γ) (f : γ → Option δ) : (l.mapM f).isSome ↔ ∀ a ∈ l, (f a).isSome := by
  induction l with
  | nil => simp
  | cons a l ih =>
    rw [List.mapM_cons, List.forall_mem_cons, ← ih]
    cases f a with
    | none => simp
    | some b => cases l.mapM f <;> simp

theorem hogbom_isSome {m : ℕ} (X : Clean.Cube N N2 m) : (Clean.hogbom X).isSome ↔ ∀ p, X.selected p → (X.runPixel p).isSome := by
  unfold Clean.hogbom
  rw [Option.isSome_map, ← Option.isSome_map (f := Prod.fst), Clean.runTasks_fst, mapM_isSome]
  simp only [Clean.mem_tasks]

/-- What `rmclean3d` makes of a pixel of its own. -/
noncomputable def cleanOne (s : CleanSetup N) (c : DirtyPixel N N2) : Option (CleanPixel N) :=
  (runClean s [c]).bind List.head?

theorem pixel_same {m m' : ℕ} (X : Clean.Cube N N2 m) (X' : Clean.Cube N N2 m') (p : Fin m) (p' : Fin m')
    (hd : (fun i => X.dirty i p) = fun i => X'.dirty i p') (hP : X.params p = X'.params p') :
    (X.selected p ↔ X'.selected p') ∧ X.runPixel p = X'.runPixel p' := by
  have hd' : ∀ i, X.dirty i p = X'.dirty i p' := fun i => congrFun hd i
  have hc : X.cutoff = X'.cutoff := congrArg Clean.Params.cutoff hP
  constructor
  · unfold Clean.Cube.selected
    simp only [hd', hc]
  · unfold Clean.Cube.runPixel
    simp only [hd', hP]

/-- The result at a pixel depends on this pixel only. -/
theorem hogbom_same {m m' : ℕ} (X : Clean.Cube N N2 m) (X' : Clean.Cube N N2 m') (p : Fin m) (p' : Fin m')
    (hd : (fun i => X.dirty i p) = fun i => X'.dirty i p') (hP : X.params p = X'.params p')
    (r : Clean.CubeOut N m) (r' : Clean.CubeOut N m') (h : Clean.hogbom X = some r) (h' : Clean.hogbom X' = some r') :
    (∀ i, r.clean i p = r'.clean i p') ∧ (∀ i, r.cc i p = r'.cc i p') ∧ r.iterCount p = r'.iterCount p' ∧ ∀ i, r.resid i p = r'.resid i p' := by
  obtain ⟨e1, e2⟩ := pixel_same X X' p p' hd hP
  obtain ⟨a1, a2⟩ := Clean.hogbom_pixel X r h p
  obtain ⟨b1, b2⟩ := Clean.hogbom_pixel X' r' h' p'
  by_cases hs : X.selected p
  · obtain ⟨o, ho, c1, c2, c3, c4⟩ := a1 hs
    obtain ⟨o', ho', d1, d2, d3, d4⟩ := b1 (e1.1 hs)
    rw [e2, ho', Option.some.injEq] at ho
    subst ho
    exact ⟨fun i => (c1 i).trans (d1 i).symm, fun i => (c2 i).trans (d2 i).symm, c4.trans d4.symm, fun i => (c3 i).trans (d3 i).symm⟩
  · obtain ⟨c1, c2, c3, c4⟩ := a2 hs
    obtain ⟨d1, d2, d3, d4⟩ := b2 (fun hh => hs (e1.2 hh))
    refine ⟨fun i => ?_, fun i => (c2 i).trans (d2 i).symm, c4.trans d4.symm, fun i => ?_⟩
    · rw [c1, d1]; exact congrFun hd i
    · rw [c3, d3]; exact congrFun hd i

theorem single_isSome (s : CleanSetup N) (L : List (DirtyPixel N N2)) (p : Fin L.length) :
    (cleanOne s (L.get p)).isSome ↔ ((cleanCube s L).selected p → ((cleanCube s L).runPixel p).isSome) := by
  obtain ⟨e1, e2⟩ := pixel_same (cleanCube s L) (cleanCube s [L.get p]) p ⟨0, by simp⟩ rfl rfl
  have h : (cleanOne s (L.get p)).isSome ↔ (Clean.hogbom (cleanCube s [L.get p])).isSome := by
    unfold cleanOne runClean
    cases Clean.hogbom (cleanCube s [L.get p]) <;> simp
  rw [h, hogbom_isSome, e1, e2]
  constructor
  · exact fun h => h _
  · intro h q
    have hq : q = ⟨0, by simp⟩ := Fin.ext (Nat.lt_one_iff.1 q.isLt)
    rw [hq]
    exact h

/-- `rmclean3d` on a cube is `rmclean3d` on every pixel. -/
theorem runClean_eq (s : CleanSetup N) (L : List (DirtyPixel N N2)) : runClean s L = L.mapM (cleanOne s) := by
  have hiff : (runClean s L).isSome ↔ (L.mapM (cleanOne s)).isSome := by
    rw [mapM_isSome]
    unfold runClean
    rw [Option.isSome_map, hogbom_isSome]
    constructor
    · intro h c hc
      obtain ⟨p, rfl⟩ := List.mem_iff_get.1 hc
      exact (single_isSome s L p).2 (h p)
    · intro h p
      exact (single_isSome s L p).1 (h _ (List.get_mem L p))
  cases hr : runClean s L with
  | none =>
    rw [hr] at hiff
    cases hm : L.mapM (cleanOne s) with
    | none => rfl
    | some R => rw [hm] at hiff; simp at hiff
  | some R =>
    rw [hr] at hiff
    have hall : ∀ c ∈ L, (cleanOne s c).isSome := (mapM_isSome _ _).1 (hiff.1 rfl)
    rcases Nat.eq_zero_or_pos L.length with h0 | h0
    · have hL := List.length_eq_zero_iff.1 h0
      subst hL
      unfold runClean at hr
      rw [Option.map_eq_some_iff] at hr
      obtain ⟨r, -, rfl⟩ := hr
      rfl
    have hd : Nonempty (CleanPixel N) := ⟨⟨fun _ => none, fun _ => 0, 0, fun _ => none⟩⟩
    rw [mapM_some L (cleanOne s) (fun c => (cleanOne s c).getD hd.some)
      (fun c hc => by obtain ⟨v, hv⟩ := Option.isSome_iff_exists.1 (hall c hc); rw [hv]; rfl)]
    congr 1
    unfold runClean at hr
    rw [Option.map_eq_some_iff] at hr
    obtain ⟨r, hr, rfl⟩ := hr
    apply List.ext_getElem
    · simp
    · intro i hi1 hi2
      have hi : i < L.length := by simpa using hi1
      rw [List.getElem_ofFn, List.getElem_map]
      have hc := hall L[i] (List.getElem_mem hi)
      unfold cleanOne runClean at hc ⊢
      cases hs : Clean.hogbom (cleanCube s [L[i]]) with
      | none => rw [hs] at hc; simp at hc
      | some r' =>
        obtain ⟨k1, k2, k3, k4⟩ := hogbom_same (cleanCube s L) (cleanCube s [L[i]]) ⟨i, hi⟩ ⟨0, by simp⟩ rfl rfl r r' hr hs
        simp only [Option.map_some, Option.bind_some, List.ofFn_succ, List.head?_cons, Option.getD_some, List.length_singleton]
        congr 1
        · funext j; exact k1 j
        · funext j; exact k2 j
        · funext j; exact k4 j

/-! ## C227 -/

theorem runCleanFile_eq (s : CleanSetup N) (files : List (File (DirtyPixel N N2))) (g : DirtyPixel N N2 → CleanPixel N)
    (h : ∀ f ∈ files, ∀ c ∈ f.pix, cleanOne s c = some (g c)) : files.mapM (runCleanFile s) = some (files.map (File.map g)) := by
  apply mapM_some
  intro f hf
  unfold runCleanFile
  rw [runClean_eq, mapM_some f.pix (cleanOne s) g (h f hf)]
  rfl

/-- **C227**. Cutting the dirty cube (with the spread function) into chunks, running `rmclean3d` on every chunk and assembling the products, found in any
order, gives clean spectra, components, iteration counts and residuals of `rmclean3d` on the whole cube. -/
theorem clean_chunked (s : CleanSetup N) (pre post : List Char) (naxis : ℕ) (hax : naxis = 2 ∨ naxis = 3 ∨ naxis = 4) {X Y : ℕ}
    (img : Fin X → Fin Y → DirtyPixel N N2) (n : ℤ) (files : List (File (DirtyPixel N N2))) (hfiles : create pre post naxis img n = some files)
    (R : List (CleanPixel N)) (hR : runClean s (pixels img) = some R) :
    ∃ outs, files.mapM (runCleanFile s) = some outs ∧ ∀ L : List (File (CleanPixel N)), L.Perm outs →
      ∃ im, assemble L = some im ∧ ∀ (x : Fin X) (y : Fin Y), im x y = R[(x : ℕ) * Y + y]? ∧ (im x y).isSome := by
  obtain ⟨h0, h1⟩ := (create_isSome_iff pre post naxis img n).1 (by rw [hfiles]; rfl)
  have hd : Nonempty (CleanPixel N) := ⟨⟨fun _ => none, fun _ => 0, 0, fun _ => none⟩⟩
  let g : DirtyPixel N N2 → CleanPixel N := fun c => (cleanOne s c).getD hd.some
  have hg : ∀ c ∈ pixels img, cleanOne s c = some (g c) := by
    have hall := (mapM_isSome (pixels img) (cleanOne s)).1 (by rw [← runClean_eq, hR]; rfl)
    intro c hc
    obtain ⟨v, hv⟩ := Option.isSome_iff_exists.1 (hall c hc)
    simp only [g, hv, Option.getD_some]
  have hRg : R = (pixels img).map g := by
    rw [runClean_eq, mapM_some _ _ g hg, Option.some.injEq] at hR
    exact hR.symm
  refine ⟨_, runCleanFile_eq s files g fun f hf c hc => hg c (mem_file pre post naxis img n files hfiles f hf c hc), fun L hL => ?_⟩
  obtain ⟨files', hf', hr⟩ := chunk_round_trip pre post naxis hax img n h0 h1 g
  have hff : files' = files := Option.some.inj (hf'.symm.trans hfiles)
  rw [hff] at hr
  obtain ⟨im, him, hv⟩ := hr L hL
  refine ⟨im, him, fun x y => ?_⟩
  rw [hv x y, hRg, List.getElem?_map, pixels_get img x y]
  exact ⟨rfl, rfl⟩

/-- C227, exceptions: a run on some chunk raises exactly when the run on the whole cube does. -/
theorem clean_chunked_raises (s : CleanSetup N) (pre post : List Char) (naxis : ℕ) {X Y : ℕ}
    (img : Fin X → Fin Y → DirtyPixel N N2) (n : ℤ) (files : List (File (DirtyPixel N N2))) (hfiles : create pre post naxis img n = some files) :
    runClean s (pixels img) = none ↔ ∃ f ∈ files, runCleanFile s f = none := by
  have hpix := chunk_pixels pre post naxis img n files hfiles
  have hmem : ∀ c, c ∈ pixels img ↔ ∃ f ∈ files, c ∈ f.pix := by
    intro c
    rw [mem_pixels, ← List.mem_flatMap, hpix, List.mem_flatMap]
    constructor
    · rintro ⟨x, y, rfl⟩
      exact ⟨x, List.mem_finRange _, List.mem_map.2 ⟨y, List.mem_finRange _, rfl⟩⟩
    · rintro ⟨x, -, h⟩
      obtain ⟨y, -, rfl⟩ := List.mem_map.1 h
      exact ⟨x, y, rfl⟩
  have hnone : ∀ L : List (DirtyPixel N N2), runClean s L = none ↔ ∃ c ∈ L, cleanOne s c = none := by
    intro L
    have := not_congr (mapM_isSome L (cleanOne s))
    rw [← runClean_eq] at this
    push Not at this
    simpa using this
  rw [hnone]
  have hfile : ∀ f : File (DirtyPixel N N2), runCleanFile s f = none ↔ ∃ c ∈ f.pix, cleanOne s c = none := by
    intro f
    rw [← hnone]
    unfold runCleanFile
    simp
  simp only [hfile, hmem]
  constructor
  · rintro ⟨c, ⟨f, hf, hc⟩, h⟩
    exact ⟨f, hf, c, hc, h⟩
  · rintro ⟨f, hf, c, hc, h⟩
    exact ⟨c, ⟨f, hf, hc⟩, h⟩

/-! ## A case -/

/-- The pixel and options of `Clean.maskedCube`, next to a pixel which is blank: an image of two pixels in chunks of one. -/
noncomputable def brightPixel : DirtyPixel 3 7 := ⟨fun i => some (if i = 1 then 2 else 0), fun l => if l = 3 then 1 else 0, 1⟩

noncomputable def blankPixel : DirtyPixel 3 7 := ⟨fun _ => none, fun l => if l = 3 then 1 else 0, 1⟩

noncomputable def caseSetup : CleanSetup 3 := ⟨fun i => (i : ℝ) - 1, 1, 1, 1, none⟩

noncomputable def caseImage (x : Fin 2) (_ : Fin 1) : DirtyPixel 3 7 := if x = 0 then brightPixel else blankPixel

theorem bright_clean : ∃ o, cleanOne caseSetup brightPixel = some o ∧ o.cc 1 = 2 ∧ o.iter = 1 := by
  obtain ⟨r, hr, hc, hi⟩ := Clean.masked_pixel_cleaned
  have hX : (Clean.hogbom (cleanCube caseSetup [brightPixel])).isSome := by
    have h1 : (Clean.hogbom Clean.maskedCube).isSome := by rw [hr]; rfl
    rw [hogbom_isSome] at h1 ⊢
    intro p
    have hp : p = ⟨0, by simp⟩ := Fin.ext (Nat.lt_one_iff.1 p.isLt)
    obtain ⟨e1, e2⟩ := pixel_same (cleanCube caseSetup [brightPixel]) Clean.maskedCube p 0 (by rw [hp]; rfl) (by rw [hp]; rfl)
    rw [e1, e2]
    exact h1 0
  obtain ⟨r', hr'⟩ := Option.isSome_iff_exists.1 hX
  obtain ⟨-, k2, k3, -⟩ := hogbom_same (cleanCube caseSetup [brightPixel]) Clean.maskedCube ⟨0, by simp⟩ 0 rfl rfl r' r hr' hr
  unfold cleanOne runClean
  rw [hr']
  exact ⟨_, rfl, (k2 1).trans hc, k3.trans hi⟩

theorem blank_clean : (cleanOne caseSetup blankPixel).isSome := by
  have := (single_isSome caseSetup [blankPixel] ⟨0, by simp⟩).2 (by
    intro _
    unfold Clean.Cube.runPixel
    rw [if_pos ⟨0, rfl⟩, if_neg (by norm_num)]
    rfl)
  exact this

/-- C227, a case: after chunks of one pixel the assembled products have the component of the bright pixel and one iteration there. -/
example (pre post : List Char) : ∃ files outs im, create pre post 3 caseImage 1 = some files ∧ files.mapM (runCleanFile caseSetup) = some outs ∧
    assemble outs.reverse = some im ∧ ∃ o, im 0 0 = some o ∧ o.cc 1 = 2 ∧ o.iter = 1 := by
  obtain ⟨files, hf⟩ := Option.isSome_iff_exists.1 ((create_isSome_iff pre post 3 caseImage 1).2 (by norm_num))
  have hsome : (runClean caseSetup (pixels caseImage)).isSome := by
    rw [runClean_eq, mapM_isSome]
    intro c hc
    obtain ⟨x, y, rfl⟩ := (mem_pixels _ _).1 hc
    unfold caseImage
    split_ifs
    · obtain ⟨o, ho, -⟩ := bright_clean; rw [ho]; rfl
    · exact blank_clean
  obtain ⟨R, hR⟩ := Option.isSome_iff_exists.1 hsome
  obtain ⟨outs, ho, hr⟩ := clean_chunked caseSetup pre post 3 (by simp) caseImage 1 files hf R hR
  obtain ⟨im, him, hv⟩ := hr outs.reverse (List.reverse_perm outs)
  refine ⟨files, outs, im, hf, ho, him, ?_⟩
  obtain ⟨o, hb, h1, h2⟩ := bright_clean
  refine ⟨o, ?_, h1, h2⟩
  have := (hv 0 0).1
  simp only [Fin.val_zero] at this
  rw [show (0 : ℕ) * 1 + 0 = 0 from rfl] at this
  rw [this]
  have hR' := hR
  rw [runClean_eq] at hR'
  have hp : pixels caseImage = [brightPixel, blankPixel] := by
    rfl
  rw [hp, List.mapM_cons, hb] at hR'
  simp only [Option.bind_eq_bind, Option.bind_some, Option.bind_eq_some_iff, Option.pure_def, Option.some.injEq] at hR'
  obtain ⟨t, -, rfl⟩ := hR'
  rfl

end Verif.Chunks
